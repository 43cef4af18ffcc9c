import Verif.Lemmas.Stieltjes
import Verif.Lemmas.EllipConn

/-!
# Density of states from boundary values

A root which is continuous on the closed upper half plane, and the density of states of a dispersion from the
local boundary values of the Green's function.
-/

namespace Gftool.Lemmas

open Gftool Spec MeasureTheory Filter ComplexConjugate

open scoped ENNReal Topology

/-- Boundary value of the root from above the cut. -/
noncomputable def sqrtU (w : ℂ) : ℂ := (√((‖w‖ + w.re) / 2) : ℝ) + Complex.I * (√((‖w‖ - w.re) / 2) : ℝ)

lemma continuous_sqrtU : Continuous sqrtU := by
  unfold sqrtU
  have := Complex.continuous_re
  have := Complex.continuous_ofReal
  fun_prop

lemma sqrtU_re (w : ℂ) : (sqrtU w).re = √((‖w‖ + w.re) / 2) := by simp [sqrtU]

lemma sqrtU_im (w : ℂ) : (sqrtU w).im = √((‖w‖ - w.re) / 2) := by simp [sqrtU]

lemma sqrtU_re_nonneg (w : ℂ) : 0 ≤ (sqrtU w).re := by
  rw [sqrtU_re]; positivity

lemma sqrtU_im_nonneg (w : ℂ) : 0 ≤ (sqrtU w).im := by
  rw [sqrtU_im]; positivity

lemma sqrtU_sq {w : ℂ} (hw : 0 ≤ w.im) : sqrtU w ^ 2 = w := by
  have h1 := abs_le.1 (Complex.abs_re_le_norm w)
  have hp : 0 ≤ (‖w‖ + w.re) / 2 := by linarith [h1.1]
  have hq : 0 ≤ (‖w‖ - w.re) / 2 := by linarith [h1.2]
  apply Complex.ext
  · rw [pow_two, Complex.mul_re, sqrtU_re, sqrtU_im, Real.mul_self_sqrt hp, Real.mul_self_sqrt hq]
    ring
  · rw [pow_two, Complex.mul_im, sqrtU_re, sqrtU_im, mul_comm (√((‖w‖ - w.re) / 2)), ← Real.sqrt_mul hp]
    have : (‖w‖ + w.re) / 2 * ((‖w‖ - w.re) / 2) = (w.im / 2) ^ 2 := by
      have := Complex.normSq_apply w
      rw [← Complex.sq_norm] at this
      linear_combination (1 / 4) * this
    rw [this, Real.sqrt_sq (by linarith)]
    ring

lemma sqrtU_eq {w : ℂ} (hw : 0 < w.im) : sqrtU w = Complex.sqrt w := by
  refine (sqrt_unique (sqrtU_sq hw.le) ?_).symm
  rw [sqrtU_re]
  apply Real.sqrt_pos.2
  have h1 : |w.re| < ‖w‖ := Complex.abs_re_lt_norm.2 hw.ne'
  linarith [(abs_lt.1 h1).1]

lemma sqrtU_ofReal {x : ℝ} (hx : 0 ≤ x) : sqrtU x = (√x : ℝ) := by
  unfold sqrtU
  rw [Complex.norm_real, Real.norm_eq_abs, abs_of_nonneg hx, Complex.ofReal_re]
  simp

lemma sqrtU_neg_ofReal {x : ℝ} (hx : 0 ≤ x) : sqrtU (-x : ℂ) = Complex.I * (√x : ℝ) := by
  unfold sqrtU
  rw [norm_neg, Complex.norm_real, Real.norm_eq_abs, abs_of_nonneg hx, Complex.neg_re, Complex.ofReal_re]
  simp

lemma sqrtU_real (x : ℝ) : sqrtU x = Complex.sqrt x := by
  rcases le_total 0 x with h | h
  · rw [sqrtU_ofReal h, sqrt_ofReal h]
  · have : (x : ℂ) = -((-x : ℝ) : ℂ) := by push_cast; ring
    rw [this, sqrtU_neg_ofReal (by linarith), sqrt_neg_ofReal (by linarith)]

/-- The density of states from local boundary values of the Green's function. -/
lemma isDosOf_of_boundary {κ : Type*} [MeasurableSpace κ] {μ : Measure κ} [IsProbabilityMeasure μ] {disp : κ → ℝ}
    (hm : Measurable disp) {dos : ℝ → ℝ} (hdos : Measurable dos) (hd0 : ∀ e, 0 ≤ dos e) {N : Set ℝ}
    (hN : μ.map disp N = 0) (hNv : volume N = 0)
    (h : ∀ e ∉ N, ∃ (a b : ℝ) (H : ℂ → ℂ), a < e ∧ e < b ∧ ContinuousOn H (rect a b) ∧
      (∀ z : ℂ, z.re ∈ Set.Icc a b → 0 < z.im → H z = bzGreen μ disp z) ∧
      ∀ x ∈ Set.Ioo a b, dos x = -(H x).im / Real.pi) :
    IsDosOf μ disp dos := by
  refine ⟨hdos, hd0, ?_⟩
  choose! a b H hab using h
  set ν := volume.withDensity fun e => ENNReal.ofReal (dos e) with hν
  have hopen : ∀ e : ↥(Nᶜ), IsOpen (Set.Ioo (a e) (b e)) := fun e => isOpen_Ioo
  obtain ⟨T, hT, hTU⟩ := TopologicalSpace.isOpen_iUnion_countable (fun e : ↥(Nᶜ) => Set.Ioo (a e) (b e)) hopen
  have hcov : (⋃ e ∈ T, Set.Ioo (a e) (b e))ᶜ ⊆ N := by
    intro e he
    by_contra hne
    apply he
    rw [hTU]
    exact Set.mem_iUnion.2 ⟨⟨e, hne⟩, (hab e hne).1, (hab e hne).2.1⟩
  have hr : (μ.map disp).restrict (⋃ e ∈ T, Set.Ioo (a e) (b e)) = ν.restrict (⋃ e ∈ T, Set.Ioo (a e) (b e)) := by
    rw [Measure.restrict_biUnion_congr hT]
    intro e _
    obtain ⟨h1, h2, h3, h4, h5⟩ := hab e e.2
    exact stieltjes_inversion hm h3 h4 hdos hd0 h5
  have h1 : (μ.map disp).restrict (⋃ e ∈ T, Set.Ioo (a e) (b e)) = μ.map disp :=
    Measure.restrict_eq_self_of_ae_mem (mem_ae_iff.2 (measure_mono_null hcov hN))
  have h2 : ν.restrict (⋃ e ∈ T, Set.Ioo (a e) (b e)) = ν := by
    refine Measure.restrict_eq_self_of_ae_mem (mem_ae_iff.2 (measure_mono_null hcov ?_))
    exact withDensity_absolutelyContinuous _ _ hNv
  rw [← h1, hr, h2]

end Gftool.Lemmas
