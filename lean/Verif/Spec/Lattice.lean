import Mathlib.MeasureTheory.Integral.Bochner.Basic
import Mathlib.MeasureTheory.Measure.Typeclasses.Probability
import Mathlib.MeasureTheory.Measure.Lebesgue.Basic

/-!
# Specification: density of states and Hilbert transform of a lattice
-/

namespace Gftool.Spec

open MeasureTheory

/-- The lattice is given by the distribution `dos` of its energies, concentrated on the compact
`band`; `hilbert` is its Hilbert transform at all complex points outside of the band. -/
structure IsHilbert (dos : Measure ℝ) (band : Set ℝ) (hilbert : ℂ → ℂ) : Prop where
  prob : IsProbabilityMeasure dos
  compact : IsCompact band
  support : dos bandᶜ = 0
  eq : ∀ x : ℂ, (∀ eps ∈ band, x ≠ (eps : ℂ)) → hilbert x = ∫ eps, 1 / (x - eps) ∂dos

/-- `z` is not in the band `[-D, D]`. -/
def OffBand (z : ℂ) (D : ℝ) : Prop := ∀ e : ℝ, |e| ≤ D → z ≠ e

/-- `dos` is a density of states on the symmetric band `[-D, D]`. -/
structure IsDos (dos : ℝ → ℝ) (D : ℝ) : Prop where
  measurable : Measurable dos
  nonneg : ∀ e, 0 ≤ dos e
  symm : ∀ e, dos (-e) = dos e
  outside : ∀ e, D < |e| → dos e = 0
  integrable : Integrable dos
  norm : ∫ e, dos e = 1

/-- `dos` is a density of total `weight` on the band `[a, b]` and `gf` is its Hilbert transform
`∫ dos(ε)/(z - ε) dε` at all points off the band. -/
structure HilbertPair (dos : ℝ → ℝ) (gf : ℂ → ℂ) (a b weight : ℝ) : Prop where
  measurable : Measurable dos
  nonneg : ∀ e, 0 ≤ dos e
  outside : ∀ e, e ∉ Set.Icc a b → dos e = 0
  integrable : Integrable dos
  norm : ∫ e, dos e = weight
  hilbert : ∀ z : ℂ, (∀ e ∈ Set.Icc a b, z ≠ (e : ℂ)) → gf z = ∫ e, (dos e : ℂ) / (z - e)

/-- Retarded Green's function in time `-i Θ(t) ∫ dos(ε) exp(-iεt) dε` of a density of states. -/
noncomputable def retardedTime (dos : ℝ → ℝ) (t : ℝ) : ℂ :=
  if 0 ≤ t then -Complex.I * ∫ e, (dos e : ℂ) * Complex.exp (-Complex.I * e * t) else 0

/-- Bessel function `J₁` by its power series. -/
noncomputable def besselJ1 (x : ℝ) : ℝ :=
  ∑' k : ℕ, (-1) ^ k / ((k.factorial : ℝ) * ((k + 1).factorial : ℝ)) * (x / 2) ^ (2 * k + 1)

end Gftool.Spec
