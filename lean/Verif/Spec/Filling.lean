import Verif.Spec.Statistics
import Mathlib.MeasureTheory.Integral.Bochner.Basic
import Mathlib.MeasureTheory.Measure.Lebesgue.Basic

/-!
# Specification: filling of a band
-/

namespace Gftool.Spec

open MeasureTheory

/-- Occupation of a band with density of states `dos` at inverse temperature `β` and chemical potential `μ`. -/
noncomputable def filling (dos : ℝ → ℝ) (β μ : ℝ) : ℝ := ∫ e, dos e * fermi β (e - μ)

/-- Moments of the density of states relative to the chemical potential, these are the coefficients of the
high-frequency expansion of `G(z + μ)`. -/
noncomputable def shiftedMoment (dos : ℝ → ℝ) (μ : ℝ) (m : ℕ) : ℝ := ∫ e, dos e * (e - μ) ^ m

end Gftool.Spec
