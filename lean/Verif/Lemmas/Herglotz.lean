import Verif.Lemmas.Causal
import Verif.Spec.Cpa
import Mathlib.Analysis.Complex.CauchyIntegral
import Mathlib.Analysis.Complex.RemovableSingularity
import Mathlib.Analysis.Complex.OpenMapping
import Mathlib.Analysis.Complex.Convex
import Mathlib.MeasureTheory.Integral.IntegralEqImproper
import Mathlib.MeasureTheory.Measure.Prokhorov
import Mathlib.MeasureTheory.Measure.Tight
import Mathlib.Tactic

/-!
# Green's functions are Hilbert transforms

Every analytic function in the upper half-plane with non-positive imaginary part, which is bounded by the inverse
distance to the real axis and behaves like `1/z` along the imaginary axis, is the Hilbert transform of a probability
distribution (theorem of Herglotz and Nevanlinna): Poisson formula on lines above the real axis, and compactness of tight
families of distributions.
-/

namespace Gftool.Lemmas

open Gftool Spec MeasureTheory Filter Topology

/-- Poisson kernel of the half-plane. -/
noncomputable def poisson (η x : ℝ) : ℝ := η / (Real.pi * (x ^ 2 + η ^ 2))

lemma poisson_eq {η : ℝ} (hη : 0 < η) (x : ℝ) : poisson η x = η⁻¹ * lorentz (η⁻¹ * x) := by
  unfold poisson lorentz
  have := Real.pi_pos
  field_simp
  ring

lemma poisson_nonneg {η : ℝ} (hη : 0 < η) (x : ℝ) : 0 ≤ poisson η x := by
  unfold poisson
  have := Real.pi_pos
  positivity

lemma poisson_le {η : ℝ} (hη : 0 < η) (x : ℝ) : poisson η x ≤ 1 / (Real.pi * η) := by
  unfold poisson
  have := Real.pi_pos
  rw [div_le_div_iff₀ (by positivity) (by positivity)]
  nlinarith [mul_nonneg this.le (sq_nonneg x)]

lemma poisson_continuous {η : ℝ} (hη : 0 < η) : Continuous (poisson η) := by
  unfold poisson
  refine continuous_const.div (by fun_prop) fun x => ?_
  have := Real.pi_pos
  positivity

lemma poisson_integrable {η : ℝ} (hη : 0 < η) : Integrable (poisson η) := by
  rw [funext (poisson_eq hη)]
  exact (lorentz_scaled hη).1

lemma poisson_integral {η : ℝ} (hη : 0 < η) : ∫ x, poisson η x = 1 := by
  rw [funext (poisson_eq hη)]
  exact (lorentz_scaled hη).2

lemma upper_isOpen : IsOpen {z : ℂ | 0 < z.im} := isOpen_lt continuous_const Complex.continuous_im

/-- Poisson formula on the line at height `h`. -/
lemma poisson_formula {G : ℂ → ℂ} (hd : DifferentiableOn ℂ G {z | 0 < z.im}) {C h : ℝ} (hh : 0 < h)
    (hC : ∀ z : ℂ, h ≤ z.im → ‖G z‖ ≤ C) {ζ : ℂ} (hζ : h < ζ.im) :
    G ζ = ∫ x : ℝ, G (x + h * Complex.I) * (poisson (ζ.im - h) (x - ζ.re) : ℂ) := by
  set η := ζ.im - h with hη
  have hηp : 0 < η := by rw [hη]; linarith
  have hpi := Real.pi_pos
  have hC0 : 0 ≤ C := (norm_nonneg _).trans (hC ζ hζ.le)
  set ζs : ℂ := ⟨ζ.re, 2 * h - ζ.im⟩ with hζs
  set F : ℂ → ℂ := fun z => dslope G ζ z * ((ζ - ζs) / (z - ζs)) with hF
  have hζz : ζ - ζs = ((2 * η : ℝ) : ℂ) * Complex.I := by
    apply Complex.ext <;> simp [hζs, hη]
    ring
  have hne : ∀ z : ℂ, h ≤ z.im → z - ζs ≠ 0 := fun z hz hc => by
    have := congrArg Complex.im hc
    simp [hζs] at this
    linarith
  -- the function on the line
  have hline : ∀ x : ℝ, F (x + h * Complex.I) = ((2 * Real.pi : ℝ) : ℂ) * Complex.I *
      ((G (x + h * Complex.I) - G ζ) * (poisson η (x - ζ.re) : ℂ)) := fun x => by
    have hxne : (x + h * Complex.I : ℂ) ≠ ζ := fun hc => by
      have := congrArg Complex.im hc
      simp at this
      linarith
    have hprod : ((x + h * Complex.I : ℂ) - ζ) * ((x + h * Complex.I : ℂ) - ζs) = (((x - ζ.re) ^ 2 + η ^ 2 : ℝ) : ℂ) := by
      apply Complex.ext
      · rw [Complex.ofReal_re]; simp [hζs, hη]; ring
      · rw [Complex.ofReal_im]; simp [hζs]; ring
    have hpos : (0 : ℝ) < (x - ζ.re) ^ 2 + η ^ 2 := by positivity
    have h1 : ((x + h * Complex.I : ℂ) - ζ) ≠ 0 := sub_ne_zero.2 hxne
    have h2 : ((x + h * Complex.I : ℂ) - ζs) ≠ 0 := hne _ (by simp)
    have h3 : (((x - ζ.re) ^ 2 + η ^ 2 : ℝ) : ℂ) ≠ 0 := by exact_mod_cast hpos.ne'
    rw [hF]
    simp only
    rw [dslope_of_ne _ hxne, slope_def_field, hζz, poisson]
    rw [div_mul_div_comm, hprod]
    push_cast at h3 ⊢
    have hpi' : (Real.pi : ℂ) ≠ 0 := by exact_mod_cast hpi.ne'
    field_simp
  -- the function is analytic
  have hFd : DifferentiableOn ℂ F {z | h ≤ z.im} := by
    intro z hz
    have hz' : 0 < z.im := hh.trans_le hz
    have hζ' : {z : ℂ | 0 < z.im} ∈ 𝓝 ζ := upper_isOpen.mem_nhds (hh.trans hζ)
    have h1 : DifferentiableAt ℂ (dslope G ζ) z :=
      ((Complex.differentiableOn_dslope hζ').2 hd z hz').differentiableAt (upper_isOpen.mem_nhds hz')
    have h2 : DifferentiableAt ℂ (fun z => (ζ - ζs) / (z - ζs)) z :=
      (differentiableAt_const _).div (differentiableAt_id.sub_const _) (hne z hz)
    exact (h1.mul h2).differentiableWithinAt
  -- it is small far away
  have hsmall : ∀ R : ℝ, 2 * η < R → ∀ z : ℂ, h ≤ z.im → (R ≤ |z.re - ζ.re| ∨ h + R ≤ z.im) →
      ‖F z‖ ≤ 8 * C * η / R ^ 2 := by
    intro R hR z hz hfar
    have hRp : 0 < R := by linarith
    have h1 : R / 2 ≤ ‖z - ζ‖ := by
      rcases hfar with hf | hf
      · have := Complex.abs_re_le_norm (z - ζ)
        rw [Complex.sub_re] at this
        linarith
      · have := (le_abs_self _).trans (Complex.abs_im_le_norm (z - ζ))
        rw [Complex.sub_im] at this
        linarith
    have h2 : R ≤ ‖z - ζs‖ := by
      rcases hfar with hf | hf
      · have := Complex.abs_re_le_norm (z - ζs)
        rw [Complex.sub_re] at this
        exact hf.trans this
      · have := (le_abs_self _).trans (Complex.abs_im_le_norm (z - ζs))
        rw [Complex.sub_im] at this
        simp only [hζs] at this
        linarith
    have hzζ : z ≠ ζ := fun hc => by
      rw [hc, sub_self, norm_zero] at h1
      linarith
    rw [hF]
    simp only
    rw [dslope_of_ne _ hzζ, slope_def_field, norm_mul, norm_div, norm_div, hζz]
    have e1 : ‖G z - G ζ‖ ≤ 2 * C := (norm_sub_le _ _).trans (by linarith [hC z hz, hC ζ hζ.le])
    have e2 : ‖((2 * η : ℝ) : ℂ) * Complex.I‖ = 2 * η := by
      rw [norm_mul, Complex.norm_I, mul_one, Complex.norm_real, Real.norm_of_nonneg (by linarith)]
    rw [e2]
    have e3 : ‖G z - G ζ‖ / ‖z - ζ‖ ≤ 2 * C / (R / 2) := div_le_div₀ (by positivity) e1 (by positivity) h1
    have e4 : 2 * η / ‖z - ζs‖ ≤ 2 * η / R := div_le_div_of_nonneg_left (by positivity) hRp h2
    calc ‖G z - G ζ‖ / ‖z - ζ‖ * (2 * η / ‖z - ζs‖) ≤ 2 * C / (R / 2) * (2 * η / R) :=
          mul_le_mul e3 e4 (by positivity) (by positivity)
      _ = _ := by field_simp; ring
  -- Cauchy's theorem for a large rectangle
  have hrect : ∀ R : ℝ, 2 * η < R → ‖∫ x in (ζ.re - R)..(ζ.re + R), F (x + h * Complex.I)‖ ≤ 32 * C * η / R := by
    intro R hR
    have hRp : 0 < R := by linarith
    have hc := Complex.integral_boundary_rect_eq_zero_of_differentiableOn F ⟨ζ.re - R, h⟩ ⟨ζ.re + R, h + R⟩ (hFd.mono (by
      intro z hz
      have := hz.2
      simp only [Set.mem_preimage] at this
      rw [Set.uIcc_of_le (by linarith)] at this
      exact this.1))
    simp only at hc
    have b1 : ‖∫ x in (ζ.re - R)..(ζ.re + R), F (x + (h + R : ℝ) * Complex.I)‖ ≤ 8 * C * η / R ^ 2 * |ζ.re + R - (ζ.re - R)| :=
      intervalIntegral.norm_integral_le_of_norm_le_const fun x _ => hsmall R hR _ (by simp; linarith) (Or.inr (by simp))
    have b2 : ‖∫ y in h..(h + R), F ((ζ.re + R : ℝ) + y * Complex.I)‖ ≤ 8 * C * η / R ^ 2 * |h + R - h| :=
      intervalIntegral.norm_integral_le_of_norm_le_const fun y hy => by
        rw [Set.uIoc_of_le (by linarith)] at hy
        exact hsmall R hR _ (by simp; linarith [hy.1]) (Or.inl (by simp [abs_of_pos hRp]))
    have b3 : ‖∫ y in h..(h + R), F ((ζ.re - R : ℝ) + y * Complex.I)‖ ≤ 8 * C * η / R ^ 2 * |h + R - h| :=
      intervalIntegral.norm_integral_le_of_norm_le_const fun y hy => by
        rw [Set.uIoc_of_le (by linarith)] at hy
        exact hsmall R hR _ (by simp; linarith [hy.1]) (Or.inl (by simp [abs_of_pos hRp]))
    rw [show ζ.re + R - (ζ.re - R) = 2 * R by ring, abs_of_pos (by linarith)] at b1
    rw [show h + R - h = R by ring, abs_of_pos hRp] at b2 b3
    have hsolve : ∫ x in (ζ.re - R)..(ζ.re + R), F (x + h * Complex.I)
        = (∫ x in (ζ.re - R)..(ζ.re + R), F (x + (h + R : ℝ) * Complex.I))
          - Complex.I • (∫ y in h..(h + R), F ((ζ.re + R : ℝ) + y * Complex.I))
          + Complex.I • (∫ y in h..(h + R), F ((ζ.re - R : ℝ) + y * Complex.I)) := by
      linear_combination (exp := 1) hc
    rw [hsolve]
    refine (norm_add_le _ _).trans ?_
    refine (add_le_add_left (norm_sub_le _ _) _).trans ?_
    rw [norm_smul, norm_smul, Complex.norm_I, one_mul, one_mul]
    calc _ ≤ 8 * C * η / R ^ 2 * (2 * R) + 8 * C * η / R ^ 2 * R + 8 * C * η / R ^ 2 * R := add_le_add (add_le_add b1 b2) b3
      _ = _ := by field_simp; ring
  -- integrability
  have hGc : Continuous fun x : ℝ => G (x + h * Complex.I) := by
    refine ContinuousOn.comp_continuous (f := fun x : ℝ => (x + h * Complex.I : ℂ)) hd.continuousOn (by fun_prop) fun x => ?_
    simp only [Set.mem_ofPred_eq]
    simpa using hh
  have hpint : Integrable fun x : ℝ => (poisson η (x - ζ.re) : ℂ) :=
    ((poisson_integrable hηp).comp_sub_right ζ.re).ofReal
  have hint1 : Integrable fun x : ℝ => G (x + h * Complex.I) * (poisson η (x - ζ.re) : ℂ) :=
    hpint.bdd_mul hGc.aestronglyMeasurable (c := C) (Eventually.of_forall fun x => hC _ (by simp))
  have hint : Integrable fun x : ℝ => (G (x + h * Complex.I) - G ζ) * (poisson η (x - ζ.re) : ℂ) := by
    simp only [sub_mul]
    exact hint1.sub (hpint.const_mul _)
  have hFint : Integrable fun x : ℝ => F (x + h * Complex.I) := by
    simp only [hline]
    exact hint.const_mul _
  have hlim := intervalIntegral_tendsto_integral hFint (tendsto_atBot_add_const_left atTop ζ.re tendsto_neg_atTop_atBot)
    (tendsto_atTop_add_const_left atTop ζ.re tendsto_id)
  have hzero : ∫ x : ℝ, F (x + h * Complex.I) = 0 := by
    refine tendsto_nhds_unique hlim ?_
    have hz : Tendsto (fun R : ℝ => 32 * C * η / R) atTop (𝓝 0) := tendsto_const_nhds.div_atTop tendsto_id
    refine squeeze_zero_norm' ?_ hz
    filter_upwards [eventually_gt_atTop (2 * η)] with R hR
    simpa [sub_eq_add_neg] using hrect R hR
  simp only [hline] at hzero
  rw [integral_const_mul, mul_eq_zero] at hzero
  have h0 : ∫ x : ℝ, (G (x + h * Complex.I) - G ζ) * (poisson η (x - ζ.re) : ℂ) = 0 := by
    refine hzero.resolve_left ?_
    refine mul_ne_zero ?_ Complex.I_ne_zero
    exact_mod_cast (by positivity : (2 * Real.pi : ℝ) ≠ 0)
  simp only [sub_mul] at h0
  rw [integral_sub hint1 (hpint.const_mul _), integral_const_mul] at h0
  have h1 : ∫ x : ℝ, (poisson η (x - ζ.re) : ℂ) = 1 := by
    rw [integral_complex_ofReal, integral_sub_right_eq_self (poisson η), poisson_integral hηp, Complex.ofReal_one]
  rw [h1, mul_one, sub_eq_zero] at h0
  exact h0.symm

/-- Spectral function at height `h`. -/
noncomputable def specH (G : ℂ → ℂ) (h x : ℝ) : ℝ := -(G (x + h * Complex.I)).im

section
variable {G : ℂ → ℂ} {C : ℝ} (hd : DifferentiableOn ℂ G {z | 0 < z.im}) (him : ∀ z : ℂ, 0 < z.im → (G z).im ≤ 0)
  (hb : ∀ z : ℂ, 0 < z.im → ‖G z‖ ≤ C / z.im)

include hd in
lemma specH_continuous {h : ℝ} (hh : 0 < h) : Continuous (specH G h) := by
  unfold specH
  refine (Complex.continuous_im.comp (ContinuousOn.comp_continuous (f := fun x : ℝ => (x + h * Complex.I : ℂ)) hd.continuousOn
    (by fun_prop) fun x => ?_)).neg
  simp only [Set.mem_ofPred_eq]
  simpa using hh

include him in
lemma specH_nonneg {h : ℝ} (hh : 0 < h) (x : ℝ) : 0 ≤ specH G h x := by
  unfold specH
  have := him (x + h * Complex.I) (by simpa using hh)
  linarith

include hd hb in
/-- Poisson formula for the spectral function. -/
lemma specH_poisson {h : ℝ} (hh : 0 < h) {ζ : ℂ} (hζ : h < ζ.im) :
    Integrable (fun x => specH G h x * poisson (ζ.im - h) (x - ζ.re)) ∧
    -(G ζ).im = ∫ x, specH G h x * poisson (ζ.im - h) (x - ζ.re) := by
  have hηp : 0 < ζ.im - h := sub_pos.2 hζ
  have hC0 : 0 ≤ C := by
    have := (norm_nonneg _).trans (hb ζ (hh.trans hζ))
    by_contra hc
    exact absurd (div_neg_of_neg_of_pos (not_le.1 hc) (hh.trans hζ)) (not_lt.2 this)
  have hC : ∀ z : ℂ, h ≤ z.im → ‖G z‖ ≤ C / h := fun z hz =>
    (hb z (hh.trans_le hz)).trans (div_le_div_of_nonneg_left hC0 hh hz)
  have hGc : Continuous fun x : ℝ => G (x + h * Complex.I) := by
    refine ContinuousOn.comp_continuous (f := fun x : ℝ => (x + h * Complex.I : ℂ)) hd.continuousOn (by fun_prop) fun x => ?_
    simp only [Set.mem_ofPred_eq]
    simpa using hh
  have hint1 : Integrable fun x : ℝ => G (x + h * Complex.I) * (poisson (ζ.im - h) (x - ζ.re) : ℂ) :=
    (((poisson_integrable hηp).comp_sub_right ζ.re).ofReal).bdd_mul hGc.aestronglyMeasurable (c := C / h)
      (Eventually.of_forall fun x => hC _ (by simp))
  have e : ∀ x : ℝ, -(G (x + h * Complex.I) * (poisson (ζ.im - h) (x - ζ.re) : ℂ)).im
      = specH G h x * poisson (ζ.im - h) (x - ζ.re) := fun x => by
    rw [Complex.im_mul_ofReal, specH, neg_mul]
  constructor
  · refine hint1.im.neg.congr (Eventually.of_forall fun x => ?_)
    simp only [Pi.neg_apply]
    exact e x
  · rw [poisson_formula hd hh hC hζ]
    rw [show (∫ x : ℝ, G (x + h * Complex.I) * (poisson (ζ.im - h) (x - ζ.re) : ℂ)).im
      = ∫ x : ℝ, (G (x + h * Complex.I) * (poisson (ζ.im - h) (x - ζ.re) : ℂ)).im from (integral_im hint1).symm, ← integral_neg]
    exact integral_congr_ae (Eventually.of_forall e)

/-- Weight of the Poisson kernel. -/
noncomputable def cutoff (y x : ℝ) : ℝ := y ^ 2 / (x ^ 2 + y ^ 2)

lemma cutoff_eq {y : ℝ} (x : ℝ) : cutoff y x = Real.pi * y * poisson y x := by
  unfold cutoff poisson
  have := Real.pi_pos
  field_simp

/-- Distribution at height `h`. -/
noncomputable def measH (G : ℂ → ℂ) (h : ℝ) : Measure ℝ :=
  volume.withDensity fun x => ENNReal.ofReal (specH G h x / Real.pi)

include hd in
lemma measH_integral {h : ℝ} (hh : 0 < h) (him' : ∀ z : ℂ, 0 < z.im → (G z).im ≤ 0) (f : ℝ → ℝ) :
    ∫ x, f x ∂(measH G h) = ∫ x, specH G h x / Real.pi * f x := by
  rw [measH, integral_withDensity_eq_integral_toReal_smul]
  · refine integral_congr_ae (Eventually.of_forall fun x => ?_)
    simp only [smul_eq_mul]
    rw [ENNReal.toReal_ofReal (div_nonneg (specH_nonneg him' hh x) Real.pi_pos.le)]
  · exact ((specH_continuous hd hh).measurable.div_const _).ennreal_ofReal
  · exact Eventually.of_forall fun x => ENNReal.ofReal_lt_top

include hd hb in
/-- The weight of the distribution, up to the cutoff. -/
lemma measH_cutoff {h : ℝ} (hh : 0 < h) {y : ℝ} (hy : 0 < y) :
    Integrable (fun x => specH G h x / Real.pi * cutoff y x) ∧
    ∫ x, specH G h x / Real.pi * cutoff y x = -(y * (G ((y + h : ℝ) * Complex.I)).im) := by
  have hpi := Real.pi_pos
  obtain ⟨h1, h2⟩ := specH_poisson hd hb hh (ζ := (y + h : ℝ) * Complex.I) (by simpa using hy)
  have e1 : ((y + h : ℝ) * Complex.I : ℂ).im = y + h := by simp
  have e2 : ((y + h : ℝ) * Complex.I : ℂ).re = 0 := by simp
  rw [e1, e2, add_sub_cancel_right] at h1 h2
  have e : ∀ x, specH G h x / Real.pi * cutoff y x = y * (specH G h x * poisson y (x - 0)) := fun x => by
    rw [cutoff_eq, sub_zero]
    field_simp
  constructor
  · exact (h1.const_mul y).congr (Eventually.of_forall fun x => (e x).symm)
  · simp only [e]
    rw [integral_const_mul, ← h2]
    ring

variable (htail : Tendsto (fun y : ℝ => y * (G (y * Complex.I)).im) atTop (𝓝 (-1)))

include hd him hb htail in
lemma measH_prob {h : ℝ} (hh : 0 < h) : IsProbabilityMeasure (measH G h) := by
  have hpi := Real.pi_pos
  constructor
  rw [measH, withDensity_apply _ MeasurableSet.univ, setLIntegral_univ]
  have hmeas : ∀ n : ℕ, Measurable fun x => ENNReal.ofReal (specH G h x / Real.pi * cutoff (n + 1) x) := fun n => by
    refine Measurable.ennreal_ofReal ((((specH_continuous hd hh).measurable.div_const _)).mul ?_)
    unfold cutoff
    fun_prop
  have hcut : ∀ x : ℝ, Monotone fun n : ℕ => cutoff ((n : ℝ) + 1) x := fun x m n hmn => by
    unfold cutoff
    have : (m : ℝ) ≤ n := by exact_mod_cast hmn
    simp only
    rw [div_le_div_iff₀ (by positivity) (by positivity)]
    have h1 : ((m : ℝ) + 1) ^ 2 ≤ ((n : ℝ) + 1) ^ 2 := by gcongr
    nlinarith [sq_nonneg x]
  have hlim := lintegral_tendsto_of_tendsto_of_monotone (μ := volume)
    (f := fun (n : ℕ) x => ENNReal.ofReal (specH G h x / Real.pi * cutoff (n + 1) x))
    (F := fun x => ENNReal.ofReal (specH G h x / Real.pi)) (fun n => (hmeas n).aemeasurable)
    (Eventually.of_forall fun x m n hmn => ENNReal.ofReal_le_ofReal
      (mul_le_mul_of_nonneg_left (hcut x hmn) (div_nonneg (specH_nonneg him hh x) hpi.le)))
    (Eventually.of_forall fun x => by
      refine (ENNReal.continuous_ofReal.tendsto _).comp ?_
      have h1 : Tendsto (fun n : ℕ => cutoff ((n : ℝ) + 1) x) atTop (𝓝 1) := by
        have h2 : Tendsto (fun n : ℕ => x ^ 2 / ((n : ℝ) + 1) ^ 2) atTop (𝓝 0) :=
          tendsto_const_nhds.div_atTop ((tendsto_pow_atTop (by norm_num)).comp
            (tendsto_atTop_add_const_right _ _ tendsto_natCast_atTop_atTop))
        have h3 := (h2.add_const 1).inv₀ (by norm_num)
        rw [zero_add, inv_one] at h3
        refine h3.congr fun n => ?_
        unfold cutoff
        have : (0 : ℝ) < (n : ℝ) + 1 := by positivity
        field_simp
      have h4 := h1.const_mul (specH G h x / Real.pi)
      rwa [mul_one] at h4)
  refine tendsto_nhds_unique hlim ?_
  have hval : ∀ n : ℕ, ∫⁻ x, ENNReal.ofReal (specH G h x / Real.pi * cutoff (n + 1) x)
      = ENNReal.ofReal (-(((n : ℝ) + 1) * (G (((n : ℝ) + 1 + h : ℝ) * Complex.I)).im)) := fun n => by
    obtain ⟨h1, h2⟩ := measH_cutoff hd hb hh (y := (n : ℝ) + 1) (by positivity)
    rw [← h2, ofReal_integral_eq_lintegral_ofReal h1]
    refine Eventually.of_forall fun x => mul_nonneg (div_nonneg (specH_nonneg him hh x) hpi.le) ?_
    unfold cutoff
    positivity
  simp only [hval]
  rw [show (1 : ENNReal) = ENNReal.ofReal 1 by simp]
  refine (ENNReal.continuous_ofReal.tendsto _).comp ?_
  have ht : Tendsto (fun n : ℕ => (n : ℝ) + 1 + h) atTop atTop :=
    tendsto_atTop_add_const_right _ _ (tendsto_atTop_add_const_right _ _ tendsto_natCast_atTop_atTop)
  have h1 := htail.comp ht
  have h2 : Tendsto (fun n : ℕ => h / ((n : ℝ) + 1 + h)) atTop (𝓝 0) := tendsto_const_nhds.div_atTop ht
  have h3 := (h1.mul (h2.const_sub 1)).neg
  have e : -(-1 * (1 - 0 : ℝ)) = 1 := by norm_num
  rw [e] at h3
  refine h3.congr fun n => ?_
  simp only [Function.comp]
  have : (0 : ℝ) < (n : ℝ) + 1 + h := by positivity
  field_simp
  ring

include hd him hb htail in
/-- The distributions at all heights below one are tight. -/
lemma measH_tight : IsTightMeasureSet {μ | ∃ h : ℝ, 0 < h ∧ h ≤ 1 ∧ μ = measH G h} := by
  have hpi := Real.pi_pos
  rw [isTightMeasureSet_iff_exists_isCompact_measure_compl_le]
  intro ε hε
  obtain ⟨δ, hδ, hδε⟩ : ∃ δ : ℝ, 0 < δ ∧ ENNReal.ofReal δ ≤ ε := by
    by_cases ht : ε = ⊤
    · exact ⟨1, one_pos, by rw [ht]; exact le_top⟩
    · exact ⟨ε.toReal, ENNReal.toReal_pos hε.ne' ht, (ENNReal.ofReal_toReal ht).le⟩
  -- a height
  have h1 : ∀ᶠ y : ℝ in atTop, y * (G (y * Complex.I)).im < -1 + δ / 4 :=
    htail.eventually (gt_mem_nhds (by linarith))
  obtain ⟨Y, hY⟩ := eventually_atTop.1 h1
  have h2 : Tendsto (fun y : ℝ => C / y) atTop (𝓝 0) := tendsto_const_nhds.div_atTop tendsto_id
  obtain ⟨y, hy1, hyY, hy0⟩ := ((h2.eventually (gt_mem_nhds (by positivity : (0 : ℝ) < δ / 4))).and
    ((eventually_ge_atTop Y).and (eventually_gt_atTop 0))).exists
  refine ⟨Set.Icc (-y) y, isCompact_Icc, ?_⟩
  rintro _ ⟨h, hh, hh1, rfl⟩
  refine le_trans ?_ hδε
  have hprob := measH_prob hd him hb htail hh
  obtain ⟨hi, hv⟩ := measH_cutoff hd hb hh hy0
  -- the weight outside
  have hsub : (measH G h).real (Set.Icc (-y) y)ᶜ ≤ 2 * ∫ x, (1 - cutoff y x) ∂(measH G h) := by
    have hcut : ∀ x, 0 ≤ cutoff y x ∧ cutoff y x ≤ 1 := fun x => by
      unfold cutoff
      constructor
      · positivity
      · rw [div_le_one (by positivity)]
        nlinarith [sq_nonneg x]
    have hcm : Measurable (cutoff y) := by unfold cutoff; fun_prop
    have hint : Integrable (fun x => 2 * (1 - cutoff y x)) (measH G h) := by
      refine Integrable.of_bound (by fun_prop) 2 (Eventually.of_forall fun x => ?_)
      rw [Real.norm_of_nonneg (by linarith [(hcut x).2])]
      linarith [(hcut x).1]
    rw [← integral_const_mul, ← integral_indicator_one (measurableSet_Icc.compl)]
    refine integral_mono ((integrable_const 1).indicator measurableSet_Icc.compl) hint fun x => ?_
    by_cases hx : x ∈ (Set.Icc (-y) y)ᶜ
    · rw [Set.indicator_of_mem hx, Pi.one_apply]
      have hxy : y ^ 2 ≤ x ^ 2 := by
        have : y ≤ |x| := by
          by_contra hc
          exact hx (abs_le.1 (not_le.1 hc).le)
        rw [← sq_abs x]
        gcongr
      have : cutoff y x ≤ 1 / 2 := by
        unfold cutoff
        rw [div_le_div_iff₀ (by positivity) (by norm_num)]
        linarith
      linarith
    · rw [Set.indicator_of_notMem hx]
      simp only
      linarith [(hcut x).2]
  have hval : ∫ x, (1 - cutoff y x) ∂(measH G h) = 1 + y * (G ((y + h : ℝ) * Complex.I)).im := by
    have hci : Integrable (cutoff y) (measH G h) := by
      refine Integrable.of_bound (Measurable.aestronglyMeasurable (by unfold cutoff; fun_prop)) 1 (Eventually.of_forall fun x => ?_)
      rw [Real.norm_of_nonneg (by unfold cutoff; positivity)]
      unfold cutoff
      rw [div_le_one (by positivity)]
      nlinarith [sq_nonneg x]
    rw [integral_sub (integrable_const _) hci, measH_integral hd hh him (cutoff y), hv]
    simp
  have hyh : (y + h) * (G ((y + h : ℝ) * Complex.I)).im < -1 + δ / 4 := hY (y + h) (by linarith)
  have hlow : -(G ((y + h : ℝ) * Complex.I)).im ≤ δ / 4 := by
    have e1 := hb ((y + h : ℝ) * Complex.I) (by simp; positivity)
    have e2 : ((y + h : ℝ) * Complex.I : ℂ).im = y + h := by simp
    rw [e2] at e1
    have hC0 : 0 ≤ C := by
      by_contra hc
      exact absurd (div_neg_of_neg_of_pos (not_le.1 hc) (by positivity : 0 < y + h)) (not_lt.2 ((norm_nonneg _).trans e1))
    have e3 : C / (y + h) ≤ C / y := div_le_div_of_nonneg_left hC0 hy0 (by linarith)
    have e4 := (neg_le_abs _).trans (Complex.abs_im_le_norm (G ((y + h : ℝ) * Complex.I)))
    linarith
  have hpos := him ((y + h : ℝ) * Complex.I) (by simp; positivity)
  have hsmall : y * (G ((y + h : ℝ) * Complex.I)).im ≤ -1 + δ / 2 := by
    nlinarith
  have hfin : (measH G h).real (Set.Icc (-y) y)ᶜ ≤ δ := by
    rw [hval] at hsub
    linarith
  rw [← ENNReal.ofReal_toReal (measure_ne_top (measH G h) _)]
  exact ENNReal.ofReal_le_ofReal hfin

include hd him hb htail in
/-- Every Green's function is the Hilbert transform of a distribution. -/
theorem isLatticeHilbert_of_analytic (hdecay : Tendsto (fun y : ℝ => G (y * Complex.I)) atTop (𝓝 0)) : IsLatticeHilbert G := by
  have hpi := Real.pi_pos
  set hs : ℕ → ℝ := fun k => 1 / ((k : ℝ) + 1) with hhs
  have hs0 : ∀ k, 0 < hs k := fun k => by rw [hhs]; positivity
  have hs1 : ∀ k, hs k ≤ 1 := fun k => by
    rw [hhs]
    simp only
    rw [div_le_one (by positivity)]
    linarith [(k.cast_nonneg : (0 : ℝ) ≤ k)]
  have hslim : Tendsto hs atTop (𝓝 0) := tendsto_one_div_add_atTop_nhds_zero_nat
  set P : ℕ → ProbabilityMeasure ℝ := fun k => ⟨measH G (hs k), measH_prob hd him hb htail (hs0 k)⟩ with hP
  have htight : IsTightMeasureSet {((μ : ProbabilityMeasure ℝ) : Measure ℝ) | μ ∈ Set.range P} := by
    refine (measH_tight hd him hb htail).subset ?_
    rintro _ ⟨_, ⟨k, rfl⟩, rfl⟩
    exact ⟨hs k, hs0 k, hs1 k, rfl⟩
  have hcomp := isCompact_closure_of_isTightMeasureSet htight
  set U : Ultrafilter ℕ := hyperfilter ℕ with hU
  have hUle : (U : Filter ℕ) ≤ atTop := by
    rw [hU, ← Nat.cofinite_eq_atTop]
    exact hyperfilter_le_cofinite
  obtain ⟨μ, -, hμ⟩ := hcomp.ultrafilter_le_nhds (U.map P) (by
    rw [Ultrafilter.coe_map, le_principal_iff, mem_map]
    exact univ_mem' fun k => subset_closure ⟨k, rfl⟩)
  have hconv : Tendsto P U (𝓝 μ) := hμ
  rw [ProbabilityMeasure.tendsto_iff_forall_integral_tendsto] at hconv
  -- the imaginary part
  have himG : ∀ ζ : ℂ, 0 < ζ.im → -(G ζ).im = Real.pi * ∫ x, poisson ζ.im (x - ζ.re) ∂(μ : Measure ℝ) := by
    intro ζ hζ
    let f : BoundedContinuousFunction ℝ ℝ := BoundedContinuousFunction.ofNormedAddCommGroup (fun x => poisson ζ.im (x - ζ.re))
      ((poisson_continuous hζ).comp (by fun_prop)) (1 / (Real.pi * ζ.im)) fun x => by
        rw [Real.norm_of_nonneg (poisson_nonneg hζ _)]
        exact poisson_le hζ _
    have h1 := hconv f
    have h2 : ∀ k, ∫ x, f x ∂(P k : Measure ℝ) = -(G (ζ + hs k * Complex.I)).im / Real.pi := fun k => by
      obtain ⟨-, h3⟩ := specH_poisson hd hb (hs0 k) (ζ := ζ + hs k * Complex.I) (by simpa using hζ)
      have e1 : (ζ + hs k * Complex.I).im - hs k = ζ.im := by simp
      have e2 : (ζ + hs k * Complex.I).re = ζ.re := by simp
      rw [e1, e2] at h3
      rw [h3, ← integral_div]
      have h4 := measH_integral hd (hs0 k) him (fun x => poisson ζ.im (x - ζ.re))
      refine h4.trans (integral_congr_ae (Eventually.of_forall fun x => ?_))
      simp only
      ring
    simp only [h2] at h1
    have h5 : Tendsto (fun k => -(G (ζ + hs k * Complex.I)).im / Real.pi) U (𝓝 (-(G ζ).im / Real.pi)) := by
      have hc : ContinuousAt G ζ := (hd.differentiableAt (upper_isOpen.mem_nhds hζ)).continuousAt
      have h6 : Tendsto (fun k => ζ + hs k * Complex.I) atTop (𝓝 ζ) := by
        have := ((Complex.continuous_ofReal.tendsto 0).comp hslim).mul_const Complex.I
        rw [Complex.ofReal_zero, zero_mul] at this
        have h7 := this.const_add ζ
        rwa [add_zero] at h7
      exact (((Complex.continuous_im.tendsto _).comp ((hc.tendsto.comp h6).mono_left hUle)).neg).div_const _
    have h8 := tendsto_nhds_unique h5 h1
    have h9 : ∫ x, f x ∂(μ : Measure ℝ) = ∫ x, poisson ζ.im (x - ζ.re) ∂(μ : Measure ℝ) := rfl
    rw [h9] at h8
    rw [← h8]
    field_simp
  -- the Hilbert transform
  set F : ℂ → ℂ := fun z => ∫ x : ℝ, 1 / (z - x) ∂(μ : Measure ℝ) with hF
  have hne : ∀ (z : ℂ), 0 < z.im → ∀ x : ℝ, z.im ≤ ‖z - x‖ := fun z hz x => by
    have := (le_abs_self _).trans (Complex.abs_im_le_norm (z - x))
    simpa using this
  have hne0 : ∀ (z : ℂ), 0 < z.im → ∀ x : ℝ, z - (x : ℂ) ≠ 0 := fun z hz x => norm_pos_iff.1 (hz.trans_le (hne z hz x))
  have hcont : ∀ z : ℂ, 0 < z.im → Continuous fun x : ℝ => 1 / (z - (x : ℂ)) := fun z hz =>
    continuous_const.div (by fun_prop) (hne0 z hz)
  have hbd : ∀ z : ℂ, 0 < z.im → ∀ x : ℝ, ‖1 / (z - (x : ℂ))‖ ≤ 1 / z.im := fun z hz x => by
    rw [norm_div, norm_one]
    exact one_div_le_one_div_of_le hz (hne z hz x)
  have hint : ∀ z : ℂ, 0 < z.im → Integrable (fun x : ℝ => 1 / (z - (x : ℂ))) (μ : Measure ℝ) := fun z hz =>
    Integrable.of_bound (hcont z hz).aestronglyMeasurable (1 / z.im) (Eventually.of_forall (hbd z hz))
  have hFim : ∀ z : ℂ, 0 < z.im → (F z).im = (G z).im := fun z hz => by
    have h1 : (F z).im = ∫ x : ℝ, (1 / (z - (x : ℂ))).im ∂(μ : Measure ℝ) := (integral_im (hint z hz)).symm
    have h2 := himG z hz
    rw [h1, ← neg_inj, h2, ← integral_neg, ← integral_const_mul]
    refine integral_congr_ae (Eventually.of_forall fun x => ?_)
    simp only
    rw [one_div, Complex.inv_im, poisson]
    have : Complex.normSq (z - x) = (x - z.re) ^ 2 + z.im ^ 2 := by
      rw [Complex.normSq_apply]; simp; ring
    rw [this]
    simp
    field_simp
  have hFd : DifferentiableOn ℂ F {z | 0 < z.im} := by
    intro z hz
    have hz' : 0 < z.im := hz
    have hball : ∀ w ∈ Metric.ball z (z.im / 2), z.im / 2 < w.im := fun w hw => by
      have h1 := (neg_le_abs _).trans (Complex.abs_im_le_norm (w - z))
      rw [Complex.sub_im] at h1
      have h2 := mem_ball_iff_norm.1 hw
      linarith
    have := hasDerivAt_integral_of_dominated_loc_of_deriv_le (μ := (μ : Measure ℝ)) (F := fun (w : ℂ) (x : ℝ) => 1 / (w - (x : ℂ)))
      (F' := fun (w : ℂ) (x : ℝ) => -1 / (w - (x : ℂ)) ^ 2) (x₀ := z) (s := Metric.ball z (z.im / 2))
      (bound := fun _ => 1 / (z.im / 2) ^ 2) (Metric.ball_mem_nhds z (by positivity))
      (by
        filter_upwards [Metric.ball_mem_nhds z (by positivity : 0 < z.im / 2)] with w hw
        exact (hcont w (by linarith [hball w hw])).aestronglyMeasurable)
      (hint z hz') (by
        refine Continuous.aestronglyMeasurable ?_
        exact continuous_const.div (by fun_prop) fun x => pow_ne_zero _ (hne0 z hz' x))
      (Eventually.of_forall fun x w hw => by
        have hw' := hball w hw
        have hwp : 0 < w.im := by linarith
        rw [norm_div, norm_neg, norm_one, norm_pow]
        refine one_div_le_one_div_of_le (by positivity) ?_
        have := hne w hwp x
        gcongr
        linarith)
      (integrable_const _)
      (Eventually.of_forall fun x w hw => by
        have hwp : 0 < w.im := by linarith [hball w hw]
        have h1 := ((hasDerivAt_id w).sub_const (x : ℂ)).inv (hne0 w hwp x)
        simp only [one_div]
        exact h1)
    exact this.2.differentiableAt.differentiableWithinAt
  -- the difference is constant
  have hconst : ∃ c, ∀ z ∈ {z : ℂ | 0 < z.im}, (F - G) z = c := by
    have han : AnalyticOnNhd ℂ (F - G) {z | 0 < z.im} := (hFd.sub hd).analyticOnNhd upper_isOpen
    rcases han.is_constant_or_isOpen (convex_halfSpace_im_gt 0).isPreconnected with h1 | h1
    · exact h1
    · exfalso
      have h2 := h1 {z | 0 < z.im} subset_rfl upper_isOpen
      have h3 : ((F - G) Complex.I) ∈ (F - G) '' {z : ℂ | 0 < z.im} := ⟨Complex.I, by simp, rfl⟩
      obtain ⟨ε, hε, hball⟩ := Metric.isOpen_iff.1 h2 _ h3
      obtain ⟨w, hw, hw2⟩ := hball (show (F - G) Complex.I + (ε / 2 : ℝ) * Complex.I ∈ _ by
        rw [mem_ball_iff_norm, add_sub_cancel_left, norm_mul, Complex.norm_I, mul_one, Complex.norm_real,
          Real.norm_of_nonneg (by positivity)]
        linarith)
      have h4 := congrArg Complex.im hw2
      have hw' : 0 < w.im := hw
      simp only [Pi.sub_apply, Complex.sub_im, Complex.add_im] at h4
      rw [hFim w hw', hFim Complex.I (by simp)] at h4
      simp at h4
      linarith
  obtain ⟨c, hc⟩ := hconst
  have hFlim : Tendsto (fun y : ℝ => F (y * Complex.I)) atTop (𝓝 0) := by
    have h1 : Tendsto (fun y : ℝ => 1 / y) atTop (𝓝 0) := tendsto_const_nhds.div_atTop tendsto_id
    refine squeeze_zero_norm' ?_ h1
    filter_upwards [eventually_gt_atTop 0] with y hy
    have hy' : 0 < (y * Complex.I : ℂ).im := by simpa using hy
    have h2 := norm_integral_le_of_norm_le_const (μ := (μ : Measure ℝ)) (Eventually.of_forall (hbd _ hy'))
    simpa [hF] using h2
  have hc0 : c = 0 := by
    have h1 : Tendsto (fun y : ℝ => F (y * Complex.I) - G (y * Complex.I)) atTop (𝓝 (0 - 0)) := hFlim.sub hdecay
    rw [sub_zero] at h1
    have h2 : Tendsto (fun y : ℝ => F (y * Complex.I) - G (y * Complex.I)) atTop (𝓝 c) := by
      refine tendsto_const_nhds.congr' ?_
      filter_upwards [eventually_gt_atTop 0] with y hy
      exact (hc (y * Complex.I) (by simpa using hy)).symm
    exact tendsto_nhds_unique h2 h1
  refine ⟨μ, inferInstance, fun ξ hξ => ?_⟩
  have := hc ξ hξ
  rw [hc0, Pi.sub_apply, sub_eq_zero] at this
  exact this.symm

end

end Gftool.Lemmas
