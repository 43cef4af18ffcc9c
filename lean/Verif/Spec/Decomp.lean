import Mathlib.LinearAlgebra.Matrix.Charpoly.Basic
import Mathlib.LinearAlgebra.Matrix.ConjTranspose
import Mathlib.Algebra.Polynomial.Roots
import Mathlib.Analysis.Complex.Basic

/-!
# Singular values
-/

namespace Gftool.Spec

open Matrix

/-- `s` lists the singular values of `a` in descending order: the non-negative square roots of the eigenvalues of `a†a`,
with multiplicities. -/
structure IsSingularValues {n : ℕ} (a : Matrix (Fin n) (Fin n) ℂ) (s : List ℝ) : Prop where
  nonneg : ∀ x ∈ s, 0 ≤ x
  sorted : s.Pairwise (· ≥ ·)
  roots : (aᴴ * a).charpoly.roots = (s.map fun x => ((x ^ 2 : ℝ) : ℂ) : Multiset ℂ)

end Gftool.Spec
