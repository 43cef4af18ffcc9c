import Verif.Props.Sc
import Verif.Lemmas.ScCentre

/-!
# Simple cubic lattice: accuracy of the expansion in the middle of the band (C61)
-/

namespace Gftool.Props

open Gftool Model Spec Lemmas MeasureTheory

open scoped ENNReal Topology

lemma km2_cast : (0.25 * (2 - (√3 : ℝ)) : ℂ) = (scKm2 : ℝ) := by
  rw [scKm2]
  push_cast
  ring

/-- The code's value in the middle of the band. -/
lemma scDosZero_eq {ellipk : ℂ → ℂ} (hk : EllipkContract ellipk) : scDosZero ellipk = ctrA := by
  have h3 := sqrt3_bounds
  have hoff : ∀ m : ℝ, m < 1 → ellipk m = (ellipKR m : ℝ) := fun m hm => by
    rw [hk.off m, ellipK_ofReal hm]
    rw [← Complex.ofReal_one, ← Complex.ofReal_sub, Complex.ofReal_mem_slitPlane]
    linarith
  unfold scDosZero
  simp only
  rw [km2_cast, hoff _ (by rw [scKm2]; linarith), show (1 : ℂ) - (scKm2 : ℝ) = ((1 - scKm2 : ℝ) : ℂ) by push_cast; rfl,
    hoff _ (by rw [scKm2]; linarith)]
  have : (2 / (Real.pi : ℂ) ^ 2 * (ellipKR scKm2 : ℝ) * (ellipKR (1 - scKm2) : ℝ) / Real.pi)
      = ((2 / Real.pi ^ 3 * (ellipKR scKm2 * ellipKR (1 - scKm2)) : ℝ) : ℂ) := by
    push_cast
    have := Complex.ofReal_ne_zero.2 Real.pi_ne_zero
    field_simp
  rw [this, Complex.ofReal_re, km2_product, ctrA]
  ring

/-- The code's expansion is the Taylor polynomial of degree 6. -/
lemma scDosExpansion_taylor {ellipk : ℂ → ℂ} (hk : EllipkContract ellipk) (e : ℝ) :
    scDosExpansion ellipk e 3.0 = ctrA + ctrB * e ^ 2 + (84 * ctrB - ctrA) / 216 * e ^ 4
      + (648 * ((84 * ctrB - ctrA) / 216) - 27 * ctrB) / 1080 * e ^ 6 := by
  rw [scDosExpansion_eq, scDosZero_eq hk, ctrB]
  ring

/-- The exact density of states, with its limit in the middle of the band. -/
noncomputable def scRhoC (D e : ℝ) : ℝ := if e = 0 then 3 / D * ctrA else scRho D e

lemma scRhoC_centre {D : ℝ} (hD : 0 < D) {e : ℝ} (he : 3 / D * |e| ≤ 1 / 2) :
    scRhoC D e = 3 / D * pSum (ctrCoeff ctrA ctrB) (3 / D * |e|) := by
  unfold scRhoC
  split_ifs with h
  · rw [h, abs_zero, mul_zero, pSum_zero, (ctr_values _ _).1]
  · rw [scRho, scForm_eq_pSum (by positivity) he]

lemma continuous_scRhoC {D : ℝ} (hD : 0 < D) : Continuous (scRhoC D) := by
  rw [continuous_iff_continuousAt]
  intro e
  rcases eq_or_ne e 0 with rfl | he
  · have hev : (fun e => 3 / D * pSum (ctrCoeff ctrA ctrB) (3 / D * |e|)) =ᶠ[𝓝 0] scRhoC D := by
      have hc : Continuous fun e : ℝ => 3 / D * |e| := continuous_const.mul continuous_abs
      filter_upwards [hc.continuousAt.eventually_lt (continuousAt_const (y := (1 / 2 : ℝ))) (by simp)] with x hx
      exact (scRhoC_centre hD hx.le).symm
    refine ContinuousAt.congr ?_ hev
    have hd := ((geoBound_ctrCoeff (abs_of_pos ctrA_pos).le ctrB_bound).hasDerivAt (by norm_num) ctrA_pos.le
      (e := 0) (by simp)).continuousAt
    refine continuousAt_const.mul (ContinuousAt.comp (g := pSum (ctrCoeff ctrA ctrB)) (f := fun e : ℝ => 3 / D * |e|) ?_
      (by fun_prop))
    simpa using hd
  · have hev : scRho D =ᶠ[𝓝 e] scRhoC D := by
      filter_upwards [isOpen_compl_singleton.mem_nhds he] with x hx
      have hx : x ≠ 0 := hx
      rw [scRhoC, if_neg hx]
    exact ((continuousOn_scRho hD).continuousAt (isOpen_compl_singleton.mem_nhds he)).congr hev

lemma isDosOf_scRhoC {D : ℝ} (hD : 0 < D) : IsDosOf bz3 (scDisp D) (scRhoC D) := by
  have h := isDosOf_scRho hD
  have hA := ctrA_pos
  refine ⟨(continuous_scRhoC hD).measurable, fun e => ?_, ?_⟩
  · unfold scRhoC
    split_ifs
    · positivity
    · exact h.nonneg e
  · rw [h.density]
    refine withDensity_congr_ae ?_
    have : ∀ᵐ e : ℝ, e ≠ 0 := Measure.ae_ne volume 0
    filter_upwards [this] with e he
    rw [scRhoC, if_neg he]

/-- C61: `sc.dos` is the density of the energies of the dispersion, for all energies: outside of the tolerance around
the middle of the band it has the values of the exact continuous density, and inside of the tolerance the error of the
expansion which the code uses there is of eighth order. For double precision, the tolerance is `2 ^ (-13)`, and the
error relative to the value in the middle of the band is at most `5 * 2 ^ (-104)`. -/
theorem sc_dos {ellipk : ℂ → ℂ} (hk : EllipkContract ellipk) {D : ℝ} (hD : 0 < D) :
    ∃ ρ : ℝ → ℝ, IsDosOf bz3 (scDisp D) ρ ∧ Continuous ρ ∧ ∀ tol, 0 < tol → tol ≤ 1 / 2 → ∀ e,
      (tol ≤ 3 / D * |e| → scDos ellipk tol e D = ρ e) ∧
      (3 / D * |e| < tol → |scDos ellipk tol e D - ρ e| ≤ 5 * ρ 0 * (3 / D * |e|) ^ 8) := by
  have hp : 0 < 3 / D := by positivity
  refine ⟨scRhoC D, isDosOf_scRhoC hD, continuous_scRhoC hD, fun tol htol htol' e => ⟨fun h => ?_, fun h => ?_⟩⟩
  · have he : e ≠ 0 := by
      rintro rfl
      rw [abs_zero, mul_zero] at h
      exact absurd h (not_le.2 htol)
    rw [scDos_tol hk.off hD he h, scRhoC, if_neg he, scRho]
  · have h1 : 3 / D * |e| ≤ 1 / 2 := h.le.trans htol'
    rw [scRhoC_centre hD h1]
    have h0 : scRhoC D 0 = 3 / D * ctrA := by rw [scRhoC, if_pos rfl]
    rw [h0]
    unfold scDos
    simp only
    rw [abs_mul, abs_of_pos hp, if_pos h, scDosExpansion_taylor hk, ← mul_sub, abs_mul, abs_of_pos hp]
    have hr := pSum_remainder (abs_of_pos ctrA_pos).le ctrB_bound (e := 3 / D * |e|)
      (by rwa [abs_of_nonneg (by positivity)])
    calc _ ≤ 3 / D * (5 * ctrA * (3 / D * |e|) ^ 8) := mul_le_mul_of_nonneg_left hr hp.le
      _ = _ := by ring

/-- C61: for every set of energies, the integral of `sc.dos` is the fraction of momenta with energy in the set, up to an
error of ninth order in the tolerance. -/
theorem sc_dos_fraction {ellipk : ℂ → ℂ} (hk : EllipkContract ellipk) {D : ℝ} (hD : 0 < D) {tol : ℝ} (htol : 0 < tol)
    (htol' : tol ≤ 1 / 2) {S : Set ℝ} (hS : MeasurableSet S) :
    IntegrableOn (fun e => scDos ellipk tol e D) S ∧
    |(∫ e in S, scDos ellipk tol e D) - (bz3 (scDisp D ⁻¹' S)).toReal| ≤ 10 / 3 * D * scDos ellipk tol 0 D * tol ^ 9 := by
  have hp : 0 < 3 / D := by positivity
  obtain ⟨ρ, h1, h2, h3⟩ := sc_dos hk hD
  have h0 : scDos ellipk tol 0 D = ρ 0 := by
    have := (h3 tol htol htol' 0).2 (by simpa using htol)
    rw [abs_zero, mul_zero, zero_pow (by norm_num), mul_zero] at this
    linarith [abs_nonpos_iff.1 this]
  have hρ0 := h1.nonneg 0
  set r := tol * D / 3 with hr
  have hrp : 0 < r := by positivity
  have hdiff : ∀ e, ‖scDos ellipk tol e D - ρ e‖ ≤ (Set.Ioo (-r) r).indicator (fun _ => 5 * ρ 0 * tol ^ 8) e := by
    intro e
    rw [Real.norm_eq_abs]
    by_cases he : 3 / D * |e| < tol
    · have hm : e ∈ Set.Ioo (-r) r := by
        rw [Set.mem_Ioo, ← abs_lt, hr]
        rw [div_mul_eq_mul_div, div_lt_iff₀ hD] at he
        linarith
      rw [Set.indicator_of_mem hm]
      refine ((h3 tol htol htol' e).2 he).trans ?_
      gcongr
    · rw [(h3 tol htol htol' e).1 (not_lt.1 he), sub_self, abs_zero]
      exact Set.indicator_nonneg (fun _ _ => by positivity) e
  have hmeas : Measurable fun e => scDos ellipk tol e D := by
    have : (fun e => scDos ellipk tol e D) = fun e => if 3 / D * |e| < tol then 3 / D * scDosExpansion ellipk (3 / D * |e|) 3.0 else ρ e := by
      funext e
      split_ifs with h
      · unfold scDos
        simp only
        rw [abs_mul, abs_of_pos hp, if_pos h]
      · exact (h3 tol htol htol' e).1 (not_lt.1 h)
    rw [this]
    refine Measurable.ite (measurableSet_lt (by fun_prop) measurable_const) ?_ h1.measurable
    simp only [scDosExpansion_eq]
    fun_prop
  have hind : Integrable ((Set.Ioo (-r) r).indicator fun _ : ℝ => 5 * ρ 0 * tol ^ 8) := by
    rw [integrable_indicator_iff measurableSet_Ioo]
    exact integrableOn_const (by rw [Real.volume_Ioo]; exact ENNReal.ofReal_ne_top)
  have hd : Integrable fun e => scDos ellipk tol e D - ρ e :=
    hind.mono' (hmeas.sub h1.measurable).aestronglyMeasurable (.of_forall hdiff)
  have hρ : Integrable ρ := (h1.integrable (measurable_scDisp D)).1
  have hsc : Integrable fun e => scDos ellipk tol e D := by
    have := hd.add hρ
    refine this.congr (.of_forall fun e => ?_)
    simp
  refine ⟨hsc.integrableOn, ?_⟩
  have hfrac : (bz3 (scDisp D ⁻¹' S)).toReal = ∫ e in S, ρ e := by
    rw [← Measure.map_apply (measurable_scDisp D) hS, h1.density, withDensity_apply _ hS,
      integral_eq_lintegral_of_nonneg_ae (.of_forall h1.nonneg) h1.measurable.aestronglyMeasurable]
  rw [hfrac, ← integral_sub hsc.integrableOn hρ.integrableOn, h0]
  calc _ ≤ ∫ e in S, ‖scDos ellipk tol e D - ρ e‖ := norm_integral_le_integral_norm _
    _ ≤ ∫ e, ‖scDos ellipk tol e D - ρ e‖ := setIntegral_le_integral hd.norm (.of_forall fun _ => norm_nonneg _)
    _ ≤ ∫ e, (Set.Ioo (-r) r).indicator (fun _ => 5 * ρ 0 * tol ^ 8) e := integral_mono hd.norm hind hdiff
    _ = _ := by
      rw [integral_indicator measurableSet_Ioo, setIntegral_const, Measure.real, Real.volume_Ioo,
        ENNReal.toReal_ofReal (by linarith), smul_eq_mul, hr]
      ring

lemma ctrB_ge : -(0.15 * ctrA) ≤ ctrB := by
  have hpi := Real.pi_gt_three
  have hA := ctrA_pos
  have h1 := ctrA_ge
  have h2 : 1 / (3 * Real.pi ^ 4 * ctrA) ≤ 0.15 * ctrA := by
    rw [div_le_iff₀ (by positivity)]
    rw [div_le_iff₀ (by positivity)] at h1
    have h3 : 1 ≤ Real.pi * ctrA * 2 := by linarith
    have h4 : 1 ≤ (Real.pi * ctrA * 2) ^ 2 := one_le_pow₀ h3
    have h5 := mul_le_mul_of_nonneg_left (show (9 : ℝ) ≤ Real.pi ^ 2 by nlinarith) (sq_nonneg (Real.pi * ctrA * 2))
    nlinarith
  rw [ctrB]
  linarith

/-- C57: the density of states `sc.dos` is positive everywhere inside of the band, also where the code uses the
expansion. -/
theorem sc_dos_pos_all {ellipk : ℂ → ℂ} (hk : EllipkContract ellipk) {D tol e : ℝ} (htol : 0 < tol) (htol' : tol ≤ 1 / 2)
    (heD : |e| < D) : 0 < scDos ellipk tol e D := by
  have hD : 0 < D := lt_of_le_of_lt (abs_nonneg e) heD
  have hp : 0 < 3 / D := by positivity
  by_cases h : tol ≤ 3 / D * |e|
  · have he : e ≠ 0 := by
      rintro rfl
      rw [abs_zero, mul_zero] at h
      exact absurd h (not_le.2 htol)
    exact sc_dos_pos hk he heD h
  · have h := not_le.1 h
    unfold scDos
    simp only
    rw [abs_mul, abs_of_pos hp, if_pos h, scDosExpansion_taylor hk]
    refine mul_pos hp ?_
    set x := 3 / D * |e|
    have hx0 : 0 ≤ x := by positivity
    have hx : x ≤ 1 / 2 := h.le.trans htol'
    have hA := ctrA_pos
    have hb := ctrB_ge
    have q1 : x ^ 2 ≤ 1 / 4 := by nlinarith
    have q2 : x ^ 4 ≤ 1 / 16 := by nlinarith [sq_nonneg (x ^ 2)]
    have q3 : x ^ 6 ≤ 1 / 64 := by nlinarith [sq_nonneg (x ^ 2), sq_nonneg (x ^ 3), mul_le_mul q1 q2 (by positivity) (by norm_num)]
    have r1 : -(0.15 * ctrA) * (1 / 4) ≤ ctrB * x ^ 2 :=
      calc _ ≤ -(0.15 * ctrA) * x ^ 2 := mul_le_mul_of_nonpos_left q1 (by linarith)
        _ ≤ _ := mul_le_mul_of_nonneg_right hb (by positivity)
    have r2 : -(0.1 * ctrA) * (1 / 16) ≤ (84 * ctrB - ctrA) / 216 * x ^ 4 :=
      calc _ ≤ -(0.1 * ctrA) * x ^ 4 := mul_le_mul_of_nonpos_left q2 (by linarith)
        _ ≤ _ := mul_le_mul_of_nonneg_right (by linarith) (by positivity)
    have r3 : -(0.1 * ctrA) * (1 / 64) ≤ (648 * ((84 * ctrB - ctrA) / 216) - 27 * ctrB) / 1080 * x ^ 6 :=
      calc _ ≤ -(0.1 * ctrA) * x ^ 6 := mul_le_mul_of_nonpos_left q3 (by linarith)
        _ ≤ _ := mul_le_mul_of_nonneg_right (by linarith) (by positivity)
    linarith

/-- C61: for half-bandwidth 3, for which its expansion coefficients are meant, `sc.dos_mp` has the values of the exact
density outside of its tolerance, and an error of eighth order inside. (See `sc_dos_mp_differs` for other
half-bandwidths.) -/
theorem sc_dos_mp_three_partial {ellipk : ℂ → ℂ} (hk : EllipkContract ellipk) :
    ∃ ρ : ℝ → ℝ, IsDosOf bz3 (scDisp 3) ρ ∧ Continuous ρ ∧ ∀ tol, 0 < tol → tol ≤ 1 / 2 → ∀ e,
      (tol ≤ |e| → scDosMp ellipk tol e 3 = ρ e) ∧
      (|e| < tol → |scDosMp ellipk tol e 3 - ρ e| ≤ 5 * ρ 0 * |e| ^ 8) := by
  obtain ⟨ρ, h1, h2, h3⟩ := sc_dos hk (D := 3) (by norm_num)
  refine ⟨ρ, h1, h2, fun tol htol htol' e => ?_⟩
  obtain ⟨h4, h5⟩ := h3 tol htol htol' e
  have e1 : (3 : ℝ) / 3 = 1 := by norm_num
  rw [e1, one_mul] at h4 h5
  refine ⟨fun h => ?_, fun h => ?_⟩
  · have he : e ≠ 0 := by
      rintro rfl
      rw [abs_zero] at h
      exact absurd h (not_le.2 htol)
    rw [sc_dos_mp_partial hk (tol := tol) (by norm_num) he (by rwa [e1, one_mul]) h, h4 h]
  · have e2 : scDosMp ellipk tol e 3 = scDos ellipk tol e 3 := by
      unfold scDosMp scDos
      simp only
      rw [e1, one_mul, one_mul, one_mul, if_pos h, if_pos h]
      unfold scDosExpansion
      simp only
      rw [show (3.0 : ℝ) / 3 = 1 by norm_num, one_mul, div_one]
    rw [e2]
    exact h5 h

/-- The hypotheses hold for the exact elliptic integral. -/
example : ∃ ρ : ℝ → ℝ, IsDosOf bz3 (scDisp 1.5) ρ ∧ Continuous ρ ∧
    |scDos ellipK (2 ^ (-13 : ℤ)) 0.00001 1.5 - ρ 0.00001| ≤ 5 * ρ 0 * (2 * 0.00001) ^ 8 := by
  obtain ⟨ρ, h1, h2, h3⟩ := sc_dos EllipkContract.exact (D := 1.5) (by norm_num)
  refine ⟨ρ, h1, h2, ?_⟩
  have h := (h3 (2 ^ (-13 : ℤ)) (by positivity) (by norm_num) 0.00001).2
    (by rw [abs_of_pos (by norm_num)]; norm_num)
  rw [abs_of_pos (by norm_num : (0 : ℝ) < 0.00001), show (3 : ℝ) / 1.5 = 2 by norm_num] at h
  exact h

end Gftool.Props
