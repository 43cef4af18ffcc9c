import Mathlib.MeasureTheory.Integral.IntervalIntegral.Basic
import Mathlib.MeasureTheory.Measure.Prod
import Mathlib.MeasureTheory.Measure.WithDensity
import Mathlib.Analysis.SpecialFunctions.Trigonometric.Basic
import Mathlib.Analysis.RCLike.Sqrt

/-!
# Specification: lattices given by a dispersion, complete elliptic integral
-/

namespace Gftool.Spec

open MeasureTheory

/-- Uniform distribution of one momentum component on `(0, 2π]`. -/
noncomputable def bz : Measure ℝ :=
  ENNReal.ofReal (1 / (2 * Real.pi)) • volume.restrict (Set.Ioc 0 (2 * Real.pi))

/-- Uniform distribution of the momentum in two dimensions. -/
noncomputable def bz2 : Measure (ℝ × ℝ) := bz.prod bz

/-- Uniform distribution of the momentum in three dimensions. -/
noncomputable def bz3 : Measure (ℝ × ℝ × ℝ) := bz.prod (bz.prod bz)

/-- `dos` is the density of the energies `disp k` for momenta distributed as `μ`. -/
structure IsDosOf {κ : Type*} [MeasurableSpace κ] (μ : Measure κ) (disp : κ → ℝ) (dos : ℝ → ℝ) : Prop where
  measurable : Measurable dos
  nonneg : ∀ e, 0 ≤ dos e
  density : μ.map disp = volume.withDensity fun e => ENNReal.ofReal (dos e)

/-- Local Green's function of the dispersion. -/
noncomputable def bzGreen {κ : Type*} [MeasurableSpace κ] (μ : Measure κ) (disp : κ → ℝ) (z : ℂ) : ℂ :=
  ∫ k, 1 / (z - disp k) ∂μ

/-- Complete elliptic integral of the first kind as function of the parameter `m`. -/
noncomputable def ellipK (m : ℂ) : ℂ := ∫ θ in (0 : ℝ)..(Real.pi / 2), 1 / Complex.sqrt (1 - m * Real.sin θ ^ 2)

/-- Complete elliptic integral of the first kind for real parameter. -/
noncomputable def ellipKR (m : ℝ) : ℝ := ∫ θ in (0 : ℝ)..(Real.pi / 2), 1 / √(1 - m * Real.sin θ ^ 2)

end Gftool.Spec
