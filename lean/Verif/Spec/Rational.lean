import Mathlib.Algebra.Polynomial.Eval.Defs
import Mathlib.Algebra.Polynomial.Monic
import Mathlib.RingTheory.Coprime.Basic
import Mathlib.Algebra.Polynomial.Derivative
import Mathlib.Algebra.Polynomial.Roots
import Mathlib.Analysis.Complex.Basic

/-!
# Specification: samples of a rational function
-/

namespace Gftool.Spec

open Polynomial

/-- `f` are the values of the rational function `P / Q`, given in lowest terms with monic `Q`, at
the distinct points `z`, which are no poles. -/
structure IsRationalData {N : ℕ} (z f : Fin N → ℂ) (P Q : ℂ[X]) : Prop where
  inj : Function.Injective z
  monic : Q.Monic
  coprime : IsCoprime P Q
  den_ne : ∀ i, Q.eval (z i) ≠ 0
  val : ∀ i, f i = P.eval (z i) / Q.eval (z i)

/-- Residue of `P / Q` at the simple root `x` of `Q`. -/
noncomputable def residueAt (P Q : ℂ[X]) (x : ℂ) : ℂ := P.eval x / (derivative Q).eval x

/-- Coefficient of `z^{-(j+1)}` in the large-`z` expansion of `P / Q` (simple poles). -/
noncomputable def ratMoment (P Q : ℂ[X]) (j : ℕ) : ℂ :=
  (Q.roots.map fun x => residueAt P Q x * x ^ j).sum

end Gftool.Spec
