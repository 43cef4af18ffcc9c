import Mathlib.Analysis.Calculus.Deriv.Basic

/-!
# Twice differentiable functions on an interval
-/

namespace Gftool.Spec

/-- `f` is continuous on `[a, b]` and twice differentiable inside with second derivative bounded by `M`. -/
structure SmoothOn {E : Type*} [NormedAddCommGroup E] [NormedSpace ℝ E] (f f' f'' : ℝ → E) (a b M : ℝ) : Prop where
  cont : ContinuousOn f (Set.Icc a b)
  deriv : ∀ x ∈ Set.Ioo a b, HasDerivAt f (f' x) x
  deriv2 : ∀ x ∈ Set.Ioo a b, HasDerivAt f' (f'' x) x
  bound : ∀ x ∈ Set.Ioo a b, ‖f'' x‖ ≤ M

end Gftool.Spec
