import Mathlib.MeasureTheory.Integral.IntervalIntegral.Basic
import Mathlib.Analysis.Calculus.FDeriv.Basic

/-!
# Specification: causal Green's functions and their spectral function
-/

namespace Gftool.Spec

open MeasureTheory Filter Topology
open scoped ComplexConjugate

/-- Part of the complex plane away from the real axis. -/
def offReal : Set ℂ := {z | z.im ≠ 0}

/-- `gf` is the Green's function of the density of states `dos` of total weight `w`: a causal analytic function off
the real axis, whose spectral function `-Im gf(ω + i0⁺)/π` is `dos`. -/
structure IsCausalGf (gf : ℂ → ℂ) (dos : ℝ → ℝ) (w : ℝ) : Prop where
  /-- analytic off the real axis -/
  analytic : DifferentiableOn ℂ gf offReal
  /-- retarded and advanced function are complex conjugates -/
  symm : ∀ z ∈ offReal, gf (conj z) = conj (gf z)
  /-- causality: the spectral weight is positive -/
  causal : ∀ z : ℂ, 0 < z.im → (gf z).im < 0
  /-- bounded by the distance from the real axis -/
  bound : ∀ z ∈ offReal, ‖gf z‖ ≤ w / |z.im|
  /-- the hybridisation function `z - w / gf z` is causal -/
  hybridization : ∀ z : ℂ, 0 < z.im → (z - w / gf z).im ≤ 0
  /-- the spectral function has weight `w` for every broadening -/
  sum_rule : ∀ η : ℝ, 0 < η → ∫ x : ℝ, -(gf (x + η * Complex.I)).im / Real.pi = w
  /-- the density of states is the spectral function wherever it is continuous -/
  spectral : ∀ x, ContinuousAt dos x →
    Tendsto (fun η : ℝ => -(gf (x + η * Complex.I)).im / Real.pi) (𝓝[>] 0) (𝓝 (dos x))
  /-- the weight in every interval is that of the density of states -/
  weights : ∀ c d : ℝ,
    Tendsto (fun η : ℝ => ∫ x in c..d, -(gf (x + η * Complex.I)).im / Real.pi) (𝓝[>] 0) (𝓝 (∫ x in c..d, dos x))
  /-- the high-frequency expansion has the moments of the density of states, to every order `N` -/
  tail : ∀ N : ℕ, Tendsto (fun z : ℂ => z ^ N * (gf z - ∑ n ∈ Finset.range N, ((∫ e, dos e * e ^ n : ℝ) : ℂ) / z ^ (n + 1)))
    (Bornology.cobounded ℂ ⊓ 𝓟 offReal) (𝓝 0)

/-- Behaviour on the real axis outside of the band `[a, b]`. -/
structure IsRealGf (gf : ℂ → ℂ) (a b w : ℝ) : Prop where
  /-- there is no spectral weight -/
  real : ∀ x : ℝ, x ∉ Set.Icc a b → (gf x).im = 0
  /-- above the band the Green's function is positive, and bounded by the distances to the band edges -/
  above : ∀ x : ℝ, b < x → w / (x - a) ≤ (gf x).re ∧ (gf x).re ≤ w / (x - b)
  /-- below the band it is negative -/
  below : ∀ x : ℝ, x < a → -(w / (b - x)) ≥ (gf x).re ∧ (gf x).re ≥ -(w / (a - x))
  /-- and it decreases strictly on both sides -/
  anti_above : StrictAntiOn (fun x : ℝ => (gf x).re) (Set.Ioi b)
  anti_below : StrictAntiOn (fun x : ℝ => (gf x).re) (Set.Iio a)
  /-- it is analytic across the real axis outside of the band -/
  analytic : DifferentiableOn ℂ gf {z | ∀ e ∈ Set.Icc a b, z ≠ (e : ℂ)}

end Gftool.Spec
