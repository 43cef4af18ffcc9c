import Mathlib.Data.Complex.BigOperators
import Mathlib.Data.Fintype.BigOperators
import Mathlib.Analysis.Complex.Norm

/-!
# Specification: iterative removal of outliers and sample statistics
-/

namespace Gftool.Spec

/-- Mean of the functions in `S` at point `x`. -/
noncomputable def meanOf {N m : ℕ} (f : Fin N → Fin m → ℂ) (S : Finset (Fin N)) (x : Fin m) : ℂ :=
  (∑ i ∈ S, f i x) / S.card

/-- Squared distance of function `i` from the mean of the functions in `S`. -/
noncomputable def deviation {N m : ℕ} (f : Fin N → Fin m → ℂ) (S : Finset (Fin N)) (i : Fin N) : ℝ :=
  ∑ x, ‖f i x - meanOf f S x‖ ^ 2

/-- `Removed f S`: the functions `S` can be removed one after the other, each time removing a remaining function
with the largest distance from the mean of the remaining functions. -/
inductive Removed {N m : ℕ} (f : Fin N → Fin m → ℂ) : Finset (Fin N) → Prop
  | empty : Removed f ∅
  | step {S : Finset (Fin N)} {i : Fin N} : Removed f S → i ∉ S →
      (∀ j, j ∉ S → deviation f Sᶜ j ≤ deviation f Sᶜ i) → Removed f (insert i S)

/-- Unbiased standard deviation of a sample of `n + 2` numbers. -/
noncomputable def sampleStd {n : ℕ} (x : Fin (n + 2) → ℝ) : ℝ :=
  √((∑ i, (x i - (∑ j, x j) / (n + 2)) ^ 2) / (n + 1))

end Gftool.Spec
