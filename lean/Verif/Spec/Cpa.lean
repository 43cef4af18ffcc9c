import Mathlib.MeasureTheory.Integral.Bochner.Basic
import Mathlib.MeasureTheory.Measure.Typeclasses.Probability

/-!
# Specification: coherent potential approximation
-/

namespace Gftool.Spec

open MeasureTheory

/-- `hilbert` is, in the upper half-plane, the Hilbert transform of some lattice, i.e. of some distribution of energies (not
necessarily bounded or with a density). -/
def IsLatticeHilbert (hilbert : ℂ → ℂ) : Prop :=
  ∃ dos : Measure ℝ, IsProbabilityMeasure dos ∧ ∀ ξ : ℂ, 0 < ξ.im → hilbert ξ = ∫ eps : ℝ, 1 / (ξ - eps) ∂dos

/-- A retarded single-site disorder problem: `z` in the upper half-plane, a lattice Hilbert transform, components with
concentrations `c` and on-site energies `e`, which may contain a retarded local self-energy. `r` bounds the energies. -/
structure DisorderProblem {ι : Type*} [Fintype ι] (z : ℂ) (e : ι → ℂ) (c : ι → ℝ) (hilbert : ℂ → ℂ) (r : ℝ) : Prop where
  upper : 0 < z.im
  lattice : IsLatticeHilbert hilbert
  nonneg : ∀ i, 0 ≤ c i
  norm : ∑ i, c i = 1
  retarded : ∀ i, (e i).im ≤ 0
  bound : ∀ i, ‖e i‖ ≤ r

end Gftool.Spec
