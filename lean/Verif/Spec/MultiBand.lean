import Verif.Spec.Bands

/-!
# Specification: density of states of several bands
-/

namespace Gftool.Spec

open MeasureTheory
open scoped ENNReal

/-- `dos` is the density of the energies of the given bands per site, for a unit cell of `N` sites: for every set of energies
`N` times its integral is the sum over the bands of the fraction of momenta with energies in the set. -/
structure IsDosOfBands {κ : Type*} [MeasurableSpace κ] (μ : Measure κ) {n : ℕ} (bands : Fin n → κ → ℝ) (N : ℕ)
    (dos : ℝ → ℝ) : Prop where
  measurable : Measurable dos
  nonneg : ∀ e, 0 ≤ dos e
  density : ∑ i, μ.map (bands i) = (N : ℝ≥0∞) • volume.withDensity fun e => ENNReal.ofReal (dos e)

end Gftool.Spec
