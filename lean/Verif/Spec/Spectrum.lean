import Verif.Spec.Statistics
import Verif.Spec.Cpa
import Mathlib.MeasureTheory.Measure.Lebesgue.Basic

/-!
# Specification: spectral distribution of a Green's function
-/

namespace Gftool.Spec

open MeasureTheory

/-- In the upper half-plane `G` is the retarded Green's function with the spectral distribution `A`, `G(z) = ∫ dA(x)/(z - x)`.
The distribution may contain δ-peaks (bound states) and be unbounded. -/
def HasSpectrum (G : ℂ → ℂ) (A : Measure ℝ) : Prop :=
  ∀ z : ℂ, 0 < z.im → G z = ∫ x : ℝ, 1 / (z - x) ∂A

/-- Occupation of the states with spectral distribution `A` at inverse temperature `β` and chemical potential `μ`. -/
noncomputable def occupation (A : Measure ℝ) (β μ : ℝ) : ℝ := ∫ x, fermi β (x - μ) ∂A

end Gftool.Spec
