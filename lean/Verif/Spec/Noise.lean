import Verif.Model.Basic
import Mathlib.Analysis.Normed.Group.Basic
import Mathlib.Algebra.BigOperators.Group.Finset.Basic
import Mathlib.Data.Real.Basic

/-!
# Specification: amplification of errors of the data
-/

namespace Gftool.Spec

variable {ι κ D R : Type*} [NormedAddCommGroup D] [NormedAddCommGroup R]

/-- If no datum has an error larger than `ε`, no result has an error larger than `C ε`. -/
def SupStable (C : ℝ) (f : (ι → D) → Except Err (κ → R)) : Prop :=
  ∀ (g h : ι → D) (x y : κ → R), f g = .ok x → f h = .ok y →
    ∀ ε : ℝ, (∀ i, ‖g i - h i‖ ≤ ε) → ∀ k, ‖x k - y k‖ ≤ C * ε

/-- The squared errors of all results add up to at most `C` times the sum of the squared errors of the data. -/
def SquareStable [Fintype ι] [Fintype κ] (C : ℝ) (f : (ι → D) → Except Err (κ → R)) : Prop :=
  ∀ (g h : ι → D) (x y : κ → R), f g = .ok x → f h = .ok y →
    ∑ k, ‖x k - y k‖ ^ 2 ≤ C * ∑ i, ‖g i - h i‖ ^ 2

end Gftool.Spec
