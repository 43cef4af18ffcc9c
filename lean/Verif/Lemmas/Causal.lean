import Verif.Spec.Causal
import Verif.Lemmas.HilbertPair
import Mathlib.Analysis.Calculus.ParametricIntegral
import Mathlib.MeasureTheory.Integral.PeakFunction
import Mathlib.Analysis.SpecialFunctions.ImproperIntegrals
import Mathlib.Analysis.Convolution
import Mathlib.Analysis.Real.Pi.Bounds
import Mathlib.Tactic

/-!
# Hilbert transforms are causal Green's functions
-/

namespace Gftool.Lemmas

open Gftool Spec MeasureTheory Filter Topology
open scoped ComplexConjugate

variable {dos : ℝ → ℝ} {gf : ℂ → ℂ} {a b w : ℝ}

lemma off_of_im {z : ℂ} (hz : z.im ≠ 0) : ∀ e ∈ Set.Icc a b, z ≠ (e : ℂ) := by
  intro e _ h
  exact hz (by rw [h]; simp)

/-- Imaginary part of the resolvent. -/
lemma resolvent_im (z : ℂ) (e d : ℝ) : ((d : ℂ) / (z - e)).im = -(d * (z.im / Complex.normSq (z - e))) := by
  rw [div_eq_mul_inv, Complex.im_ofReal_mul, Complex.inv_im]
  simp
  ring

section
variable (h : HilbertPair dos gf a b w)
include h

lemma hp_int {z : ℂ} (hz : ∀ e ∈ Set.Icc a b, z ≠ (e : ℂ)) : Integrable fun e => (dos e : ℂ) / (z - e) := by
  simpa only [div_eq_mul_inv] using h.integrable_mul (continuousOn_resolvent hz)

lemma hp_int_real {g : ℝ → ℝ} (hg : ContinuousOn g (Set.Icc a b)) : Integrable fun e => dos e * g e := by
  have := (h.integrable_mul (g := fun e => (g e : ℂ)) (Complex.continuous_ofReal.comp_continuousOn hg)).re
  refine this.congr (Eventually.of_forall fun e => ?_)
  simp

/-- Monotonicity of averages. -/
lemma hp_mono {f g : ℝ → ℝ} (hf : ContinuousOn f (Set.Icc a b)) (hg : ContinuousOn g (Set.Icc a b))
    (hfg : ∀ e ∈ Set.Icc a b, f e ≤ g e) : ∫ e, dos e * f e ≤ ∫ e, dos e * g e := by
  refine integral_mono (hp_int_real h hf) (hp_int_real h hg) fun e => ?_
  by_cases he : e ∈ Set.Icc a b
  · exact mul_le_mul_of_nonneg_left (hfg e he) (h.nonneg e)
  · simp [h.outside e he]

lemma hp_const (c : ℝ) : ∫ e, dos e * c = w * c := by
  rw [integral_mul_const, h.norm]

lemma hp_im {z : ℂ} (hz : ∀ e ∈ Set.Icc a b, z ≠ (e : ℂ)) :
    (gf z).im = -∫ e, dos e * (z.im / Complex.normSq (z - e)) := by
  rw [h.hilbert z hz]
  have := (hp_int h hz)
  rw [show (∫ e, (dos e : ℂ) / (z - e)).im = ∫ e, ((dos e : ℂ) / (z - e)).im from (integral_im this).symm,
    ← integral_neg]
  exact integral_congr_ae (Eventually.of_forall fun e => resolvent_im z e (dos e))

omit h in
lemma normSq_cont {z : ℂ} (hz : ∀ e ∈ Set.Icc a b, z ≠ (e : ℂ)) (c : ℝ) :
    ContinuousOn (fun e : ℝ => c / Complex.normSq (z - e)) (Set.Icc a b) := by
  refine ContinuousOn.div continuousOn_const (by fun_prop) fun e he => ?_
  exact (Complex.normSq_pos.2 (sub_ne_zero.2 (hz e he))).ne'

lemma hp_causal (hw : 0 < w) {z : ℂ} (hz : 0 < z.im) : (gf z).im < 0 := by
  have hoff := off_of_im (a := a) (b := b) hz.ne'
  rw [hp_im h hoff, neg_lt_zero]
  set C : ℝ := (‖z‖ + max |a| |b|) ^ 2 + 1 with hC
  have hCpos : 0 < C := by positivity
  have h1 : w * (z.im / C) ≤ ∫ e, dos e * (z.im / Complex.normSq (z - e)) := by
    rw [← hp_const h]
    refine hp_mono h continuousOn_const (normSq_cont hoff _) fun e he => ?_
    have hn := Complex.normSq_pos.2 (sub_ne_zero.2 (hoff e he))
    refine div_le_div_of_nonneg_left hz.le hn ?_
    rw [Complex.normSq_eq_norm_sq, hC]
    have h2 : ‖z - e‖ ≤ ‖z‖ + max |a| |b| := by
      refine (norm_sub_le _ _).trans ?_
      rw [Complex.norm_real, Real.norm_eq_abs]
      gcongr
      exact abs_le_max_abs_abs he.1 he.2
    have h3 : 0 ≤ ‖z - e‖ := norm_nonneg _
    nlinarith
  have : 0 < w * (z.im / C) := by positivity
  linarith

lemma hp_bound {z : ℂ} (hz : z.im ≠ 0) : ‖gf z‖ ≤ w / |z.im| := by
  have hoff := off_of_im (a := a) (b := b) hz
  rw [h.hilbert z hoff]
  refine (norm_integral_le_integral_norm _).trans ?_
  rw [div_eq_mul_one_div, ← hp_const h]
  refine integral_mono (hp_int h hoff).norm (h.integrable.mul_const _) fun e => ?_
  simp only
  rw [norm_div, Complex.norm_real, Real.norm_of_nonneg (h.nonneg e), div_eq_mul_one_div]
  refine mul_le_mul_of_nonneg_left ?_ (h.nonneg e)
  refine one_div_le_one_div_of_le (abs_pos.2 hz) ?_
  have := Complex.abs_im_le_norm (z - e)
  simpa using this

/-- Cauchy–Schwarz. -/
lemma hp_cs (hw : 0 < w) {z : ℂ} (hz : z.im ≠ 0) :
    Complex.normSq (gf z) ≤ w * ∫ e, dos e * (1 / Complex.normSq (z - e)) := by
  have hoff := off_of_im (a := a) (b := b) hz
  set A := ∫ e, dos e * (1 / Complex.normSq (z - e)) with hA
  set c : ℂ := gf z / w with hc
  have hI1 := hp_int_real h (normSq_cont hoff 1)
  have hI2 := (hp_int h hoff).mul_const (conj c)
  have hI2' := hI2.re
  have key : ∀ e, dos e * Complex.normSq (1 / (z - e) - c)
      = dos e * (1 / Complex.normSq (z - e)) - 2 * ((dos e : ℂ) / (z - e) * conj c).re + dos e * Complex.normSq c := by
    intro e
    rw [Complex.normSq_sub, Complex.normSq_div, Complex.normSq_one]
    have : ((dos e : ℂ) / (z - e) * conj c).re = dos e * (1 / (z - e) * conj c).re := by
      rw [← Complex.re_ofReal_mul]; congr 1; ring
    rw [this]; ring
  have h0 : 0 ≤ ∫ e, dos e * Complex.normSq (1 / (z - e) - c) :=
    integral_nonneg fun e => mul_nonneg (h.nonneg e) (Complex.normSq_nonneg _)
  have h1 : ∫ e, dos e * Complex.normSq (1 / (z - e) - c) = A - 2 * (gf z * conj c).re + w * Complex.normSq c := by
    rw [integral_congr_ae (Eventually.of_forall key), integral_add, integral_sub, integral_const_mul, hp_const h, h.hilbert z hoff,
      ← integral_mul_const, ← hA]
    · congr 3
      exact integral_re hI2
    · exact hI1
    · exact hI2'.const_mul 2
    · exact hI1.sub (hI2'.const_mul 2)
    · exact h.integrable.mul_const _
  have h2 : (gf z * conj c).re = Complex.normSq (gf z) / w := by
    rw [hc, map_div₀, Complex.conj_ofReal, mul_div_assoc', Complex.mul_conj, ← Complex.ofReal_div, Complex.ofReal_re]
  have h3 : Complex.normSq c = Complex.normSq (gf z) / w ^ 2 := by
    rw [hc, Complex.normSq_div, Complex.normSq_ofReal, sq]
  rw [h1, h2, h3] at h0
  have h4 : A - 2 * (Complex.normSq (gf z) / w) + w * (Complex.normSq (gf z) / w ^ 2) = A - Complex.normSq (gf z) / w := by
    field_simp; ring
  rw [h4, sub_nonneg, div_le_iff₀ hw] at h0
  linarith

/-- Strict positivity of the inverse. -/
lemma hp_inv (hw : 0 < w) {z : ℂ} (hz : 0 < z.im) : z.im * Complex.normSq (gf z) ≤ w * (-(gf z).im) := by
  have h1 := hp_cs h hw hz.ne'
  rw [hp_im h (off_of_im hz.ne'), neg_neg]
  have h2 : ∫ e, dos e * (z.im / Complex.normSq (z - e)) = z.im * ∫ e, dos e * (1 / Complex.normSq (z - e)) := by
    rw [← integral_const_mul]
    exact integral_congr_ae (Eventually.of_forall fun e => by simp only; ring)
  rw [h2]
  nlinarith

end

/-- The hybridisation function is causal. -/
lemma hyb_im {z g : ℂ} {w : ℝ} (hg : g.im < 0) (h : z.im * Complex.normSq g ≤ w * (-g.im)) : (z - w / g).im ≤ 0 := by
  have hg0 : g ≠ 0 := by rintro rfl; simp at hg
  have hn := Complex.normSq_pos.2 hg0
  rw [Complex.sub_im, div_eq_mul_inv, Complex.im_ofReal_mul, Complex.inv_im, sub_nonpos, mul_div_assoc', le_div_iff₀ hn]
  exact h

section
variable (h : HilbertPair dos gf a b w)
include h

lemma hp_diff : DifferentiableOn ℂ gf {z | ∀ e ∈ Set.Icc a b, z ≠ (e : ℂ)} := by
  set K : Set ℂ := (fun e : ℝ => (e : ℂ)) '' Set.Icc a b with hK
  have hKc : IsCompact K := isCompact_Icc.image Complex.continuous_ofReal
  have hset : {z : ℂ | ∀ e ∈ Set.Icc a b, z ≠ (e : ℂ)} = Kᶜ := by
    ext z
    simp only [Set.mem_ofPred_eq, hK, Set.mem_compl_iff, Set.mem_image, not_exists, not_and]
    exact ⟨fun h e he hc => h e he hc.symm, fun h e he hc => h e he hc.symm⟩
  have hopen : IsOpen {z : ℂ | ∀ e ∈ Set.Icc a b, z ≠ (e : ℂ)} := by
    rw [hset]; exact hKc.isClosed.isOpen_compl
  intro z hz
  obtain ⟨δ, hδ, hball⟩ := Metric.isOpen_iff.1 hopen z hz
  have hdist : ∀ x ∈ Metric.ball z (δ / 2), ∀ e ∈ Set.Icc a b, δ / 2 ≤ ‖x - e‖ := by
    intro x hx e he
    by_contra hc
    push Not at hc
    rw [Metric.mem_ball] at hx
    have : (e : ℂ) ∈ Metric.ball z δ := by
      rw [Metric.mem_ball]
      calc dist (e : ℂ) z ≤ dist (e : ℂ) x + dist x z := dist_triangle _ _ _
        _ < δ / 2 + δ / 2 := by rw [dist_comm (e : ℂ) x, dist_eq_norm]; gcongr
        _ = δ := by ring
    exact hball this e he rfl
  have hF : HasDerivAt (fun x : ℂ => ∫ e, (dos e : ℂ) / (x - e)) (∫ e, -((dos e : ℂ) / (z - e) ^ 2)) z := by
    refine (hasDerivAt_integral_of_dominated_loc_of_deriv_le (F := fun (x : ℂ) (e : ℝ) => (dos e : ℂ) / (x - e))
      (F' := fun x e => -((dos e : ℂ) / (x - e) ^ 2)) (bound := fun e => dos e * (1 / (δ / 2) ^ 2))
      (s := Metric.ball z (δ / 2)) (Metric.ball_mem_nhds z (by positivity)) ?_ (hp_int h hz) ?_ ?_
      (h.integrable.mul_const _) ?_).2
    · exact Eventually.of_forall fun x => ((Complex.measurable_ofReal.comp h.measurable).div
        (measurable_const.sub Complex.measurable_ofReal)).aestronglyMeasurable
    · exact (((Complex.measurable_ofReal.comp h.measurable).div
        ((measurable_const.sub Complex.measurable_ofReal).pow_const 2)).neg).aestronglyMeasurable
    · refine Eventually.of_forall fun e x hx => ?_
      by_cases he : e ∈ Set.Icc a b
      · rw [norm_neg, norm_div, Complex.norm_real, Real.norm_of_nonneg (h.nonneg e), div_eq_mul_one_div, norm_pow]
        refine mul_le_mul_of_nonneg_left ?_ (h.nonneg e)
        have := hdist x hx e he
        gcongr
      · simp [h.outside e he]
    · refine Eventually.of_forall fun e x hx => ?_
      by_cases he : e ∈ Set.Icc a b
      · have hne : x - (e : ℂ) ≠ 0 := by
          have := hdist x hx e he
          rw [← norm_pos_iff]; linarith
        have h1 := ((hasDerivAt_id x).sub_const (e : ℂ)).inv hne
        have h2 := h1.const_mul (dos e : ℂ)
        refine h2.congr_deriv ?_
        simp only [id_eq]
        ring
      · simp only [h.outside e he, Complex.ofReal_zero, zero_div, neg_zero]
        exact hasDerivAt_const x 0
  have hev : gf =ᶠ[𝓝 z] fun x : ℂ => ∫ e, (dos e : ℂ) / (x - e) := by
    filter_upwards [hopen.mem_nhds hz] with x hx using h.hilbert x hx
  exact (hF.congr_of_eventuallyEq hev).differentiableAt.differentiableWithinAt

/-- High-frequency expansion with remainder. -/
lemma hp_expand {z : ℂ} (hz : ∀ e ∈ Set.Icc a b, z ≠ (e : ℂ)) (hz0 : z ≠ 0) (N : ℕ) :
    z ^ N * (gf z - ∑ n ∈ Finset.range N, ((∫ e, dos e * e ^ n : ℝ) : ℂ) / z ^ (n + 1))
      = ∫ e, (dos e : ℂ) * ((e : ℂ) ^ N / (z - e)) := by
  have hmom : ∀ n : ℕ, Integrable fun e => dos e * e ^ n := fun n => hp_int_real h (by fun_prop)
  induction N with
  | zero =>
    simp only [pow_zero, Finset.range_zero, Finset.sum_empty, sub_zero, one_mul]
    rw [h.hilbert z hz]
    exact integral_congr_ae (Eventually.of_forall fun e => by simp only; ring)
  | succ N ih =>
    have h1 : z ^ (N + 1) * (gf z - ∑ n ∈ Finset.range (N + 1), ((∫ e, dos e * e ^ n : ℝ) : ℂ) / z ^ (n + 1))
        = z * (z ^ N * (gf z - ∑ n ∈ Finset.range N, ((∫ e, dos e * e ^ n : ℝ) : ℂ) / z ^ (n + 1)))
          - ((∫ e, dos e * e ^ N : ℝ) : ℂ) := by
      rw [Finset.sum_range_succ]
      field_simp
      ring
    rw [h1, ih, ← integral_const_mul, ← integral_complex_ofReal, ← integral_sub]
    · refine integral_congr_ae (Eventually.of_forall fun e => ?_)
      simp only
      by_cases he : e ∈ Set.Icc a b
      · have := sub_ne_zero.2 (hz e he)
        push_cast
        field_simp
        ring
      · simp [h.outside e he]
    · refine (h.integrable_mul ?_).const_mul z
      have := continuousOn_resolvent hz
      simp only [div_eq_mul_inv]
      exact (by fun_prop : ContinuousOn (fun e : ℝ => (e : ℂ) ^ N) _).mul this
    · exact (hmom N).ofReal

lemma hp_tail (N : ℕ) :
    Tendsto (fun z : ℂ => z ^ N * (gf z - ∑ n ∈ Finset.range N, ((∫ e, dos e * e ^ n : ℝ) : ℂ) / z ^ (n + 1)))
      (Bornology.cobounded ℂ) (𝓝 0) := by
  set M := max |a| |b| with hM
  have hM0 : 0 ≤ M := by positivity
  have hbd : ∀ᶠ z : ℂ in Bornology.cobounded ℂ, M + 1 < ‖z‖ :=
    tendsto_norm_cobounded_atTop.eventually_gt_atTop (M + 1)
  refine squeeze_zero_norm' (a := fun z : ℂ => w * (M ^ N * (1 / (‖z‖ - M)))) ?_ ?_
  · filter_upwards [hbd] with z hz
    have hsep : ∀ e ∈ Set.Icc a b, ‖z‖ - M ≤ ‖z - e‖ := by
      intro e he
      have h1 : ‖(e : ℂ)‖ ≤ M := by
        rw [Complex.norm_real, Real.norm_eq_abs]; exact abs_le_max_abs_abs he.1 he.2
      have := norm_sub_norm_le z (e : ℂ)
      linarith
    have hoff : ∀ e ∈ Set.Icc a b, z ≠ (e : ℂ) := by
      intro e he hc
      have := hsep e he
      rw [hc, sub_self, norm_zero, ← hc] at this
      linarith
    have hz0 : z ≠ 0 := by
      rw [← norm_pos_iff]; linarith
    rw [hp_expand h hoff hz0]
    refine (norm_integral_le_integral_norm _).trans ?_
    rw [← hp_const h]
    refine integral_mono ?_ (h.integrable.mul_const _) fun e => ?_
    · refine (h.integrable_mul ?_).norm
      have := continuousOn_resolvent hoff
      simp only [div_eq_mul_inv]
      exact (by fun_prop : ContinuousOn (fun e : ℝ => (e : ℂ) ^ N) _).mul this
    simp only
    by_cases he : e ∈ Set.Icc a b
    · rw [norm_mul, Complex.norm_real, Real.norm_of_nonneg (h.nonneg e), norm_div, norm_pow, Complex.norm_real,
        Real.norm_eq_abs, div_eq_mul_one_div]
      refine mul_le_mul_of_nonneg_left ?_ (h.nonneg e)
      have h1 := hsep e he
      have h2 : |e| ≤ M := abs_le_max_abs_abs he.1 he.2
      have h3 : 0 < ‖z‖ - M := by linarith
      gcongr
    · simp [h.outside e he]
  · have h1 : Tendsto (fun z : ℂ => ‖z‖ - M) (Bornology.cobounded ℂ) atTop :=
      tendsto_atTop_add_const_right _ (-M) tendsto_norm_cobounded_atTop
    have h2 : Tendsto (fun z : ℂ => 1 / (‖z‖ - M)) (Bornology.cobounded ℂ) (𝓝 0) := by
      simp only [one_div]
      exact tendsto_inv_atTop_zero.comp h1
    simpa using (h2.const_mul (M ^ N)).const_mul w

end

/-- Normalised Lorentzian. -/
noncomputable def lorentz (x : ℝ) : ℝ := Real.pi⁻¹ * (1 + x ^ 2)⁻¹

lemma lorentz_nonneg (x : ℝ) : 0 ≤ lorentz x := by unfold lorentz; positivity

lemma lorentz_integral : ∫ x, lorentz x = 1 := by
  unfold lorentz
  rw [integral_const_mul, integral_univ_inv_one_add_sq, inv_mul_cancel₀ Real.pi_ne_zero]

lemma lorentz_integrable : Integrable lorentz := integrable_inv_one_add_sq.const_mul _

lemma lorentz_decay : Tendsto (fun x : ℝ => ‖x‖ ^ Module.finrank ℝ ℝ * lorentz x) (Bornology.cobounded ℝ) (𝓝 0) := by
  have h1 : Tendsto (fun x : ℝ => ‖x‖⁻¹) (Bornology.cobounded ℝ) (𝓝 0) :=
    tendsto_inv_atTop_zero.comp tendsto_norm_cobounded_atTop
  refine squeeze_zero (fun x => ?_) (fun x => ?_) h1
  · exact mul_nonneg (by positivity) (lorentz_nonneg x)
  · rw [Module.finrank_self, pow_one, lorentz, Real.norm_eq_abs]
    by_cases hx : x = 0
    · simp [hx]
    have hx' := abs_pos.2 hx
    have hpi : Real.pi⁻¹ ≤ 1 := inv_le_one_of_one_le₀ (by linarith [Real.pi_gt_three])
    have h2 : (1 + x ^ 2)⁻¹ ≤ (|x| ^ 2)⁻¹ := by
      rw [sq_abs]
      exact inv_anti₀ (by positivity) (by linarith)
    calc |x| * (Real.pi⁻¹ * (1 + x ^ 2)⁻¹) ≤ |x| * (1 * (|x| ^ 2)⁻¹) := by gcongr
      _ = |x|⁻¹ := by field_simp

/-- The broadened spectral function. -/
lemma hp_spec (h : HilbertPair dos gf a b w) (x : ℝ) {η : ℝ} (hη : 0 < η) :
    -(gf (x + η * Complex.I)).im / Real.pi = ∫ e, dos e * (η⁻¹ * lorentz (η⁻¹ * (x - e))) := by
  have him : (x + η * Complex.I : ℂ).im = η := by simp
  rw [hp_im h (off_of_im (by rw [him]; exact hη.ne')), neg_neg, him, ← integral_div]
  refine integral_congr_ae (Eventually.of_forall fun e => ?_)
  simp only
  have hn : Complex.normSq (x + η * Complex.I - e) = (x - e) ^ 2 + η ^ 2 := by
    rw [Complex.normSq_apply]; simp; ring
  rw [hn, lorentz]
  have := Real.pi_pos
  field_simp
  ring

lemma hp_spectral (h : HilbertPair dos gf a b w) {x : ℝ} (hx : ContinuousAt dos x) :
    Tendsto (fun η : ℝ => -(gf (x + η * Complex.I)).im / Real.pi) (𝓝[>] 0) (𝓝 (dos x)) := by
  have h1 := tendsto_integral_comp_smul_smul_of_integrable' (μ := volume) lorentz_nonneg lorentz_integral lorentz_decay
    h.integrable hx
  have h2 := h1.comp (tendsto_inv_nhdsGT_zero (𝕜 := ℝ))
  refine h2.congr' ?_
  filter_upwards [self_mem_nhdsWithin] with η hη
  rw [hp_spec h x hη]
  refine integral_congr_ae (Eventually.of_forall fun e => ?_)
  simp only [Module.finrank_self, pow_one, smul_eq_mul]
  ring

lemma lorentz_scaled {η : ℝ} (hη : 0 < η) :
    Integrable (fun x => η⁻¹ * lorentz (η⁻¹ * x)) ∧ ∫ x, η⁻¹ * lorentz (η⁻¹ * x) = 1 := by
  constructor
  · exact (lorentz_integrable.comp_mul_left' (inv_ne_zero hη.ne')).const_mul _
  · rw [integral_const_mul, Measure.integral_comp_mul_left, lorentz_integral, smul_eq_mul, mul_one, inv_inv,
      abs_of_pos hη, inv_mul_cancel₀ hη.ne']

lemma hp_sum_rule (h : HilbertPair dos gf a b w) {η : ℝ} (hη : 0 < η) :
    ∫ x : ℝ, -(gf (x + η * Complex.I)).im / Real.pi = w := by
  obtain ⟨hi, h1⟩ := lorentz_scaled hη
  have h2 := integral_convolution (L := ContinuousLinearMap.mul ℝ ℝ) (μ := volume) (ν := volume) h.integrable hi
  rw [h1, h.norm] at h2
  simp only [ContinuousLinearMap.mul_apply', mul_one] at h2
  rw [← h2]
  refine integral_congr_ae (Eventually.of_forall fun x => ?_)
  simp only
  rw [hp_spec h x hη]
  rfl

lemma lorentz_even (x : ℝ) : lorentz (-x) = lorentz x := by unfold lorentz; rw [neg_sq]

lemma hp_weights_le (h : HilbertPair dos gf a b w) {c d : ℝ} (hcd : c ≤ d) :
    Tendsto (fun η : ℝ => ∫ x in c..d, -(gf (x + η * Complex.I)).im / Real.pi) (𝓝[>] 0) (𝓝 (∫ x in c..d, dos x)) := by
  set ind : ℝ → ℝ := (Set.Ioc c d).indicator fun _ => 1 with hind
  have hindi : Integrable ind := by
    rw [hind, integrable_indicator_iff measurableSet_Ioc]
    simp
  set J : ℝ → ℝ → ℝ := fun η e => ∫ x, (η⁻¹ * lorentz (η⁻¹ * (e - x))) * ind x with hJ
  have hprod : ∀ η : ℝ, 0 < η → Integrable (fun p : ℝ × ℝ => dos p.2 * (η⁻¹ * lorentz (η⁻¹ * (p.1 - p.2))))
      ((volume.restrict (Set.Ioc c d)).prod volume) := by
    intro η hη
    have h1 := h.integrable.convolution_integrand (ContinuousLinearMap.mul ℝ ℝ) (lorentz_scaled hη).1 (μ := volume) (ν := volume)
    have h2 : Integrable (fun p : ℝ × ℝ => dos p.2 * (η⁻¹ * lorentz (η⁻¹ * (p.1 - p.2)))) (volume.prod volume) := h1
    have h3 : (volume.restrict (Set.Ioc c d)).prod (volume : Measure ℝ)
        = (volume.prod volume).restrict (Set.Ioc c d ×ˢ Set.univ) := by
      rw [← Measure.prod_restrict, Measure.restrict_univ]
    rw [h3]
    exact h2.restrict
  have hinner : ∀ η e : ℝ, ∫ x in Set.Ioc c d, dos e * (η⁻¹ * lorentz (η⁻¹ * (x - e))) = dos e * J η e := by
    intro η e
    rw [integral_const_mul, ← integral_indicator measurableSet_Ioc, hJ]
    congr 1
    refine integral_congr_ae (Eventually.of_forall fun x => ?_)
    simp only [hind, Set.indicator_apply]
    split_ifs with hx
    · rw [mul_one, show η⁻¹ * (e - x) = -(η⁻¹ * (x - e)) by ring, lorentz_even]
    · rw [mul_zero]
  have hA : ∀ η : ℝ, 0 < η → ∫ x in c..d, -(gf (x + η * Complex.I)).im / Real.pi = ∫ e, dos e * J η e := by
    intro η hη
    rw [intervalIntegral.integral_of_le hcd]
    have h1 : ∀ x : ℝ, -(gf (x + η * Complex.I)).im / Real.pi = ∫ e, dos e * (η⁻¹ * lorentz (η⁻¹ * (x - e))) :=
      fun x => hp_spec h x hη
    simp only [h1]
    rw [integral_integral_swap (hprod η hη)]
    exact integral_congr_ae (Eventually.of_forall fun e => hinner η e)
  have hlim : ∫ x in c..d, dos x = ∫ e, dos e * ind e := by
    rw [intervalIntegral.integral_of_le hcd, ← integral_indicator measurableSet_Ioc]
    refine integral_congr_ae (Eventually.of_forall fun x => ?_)
    simp [hind, Set.indicator_apply]
  rw [hlim]
  have hev : (fun η : ℝ => ∫ e, dos e * J η e) =ᶠ[𝓝[>] 0] fun η => ∫ x in c..d, -(gf (x + η * Complex.I)).im / Real.pi := by
    filter_upwards [self_mem_nhdsWithin] with η hη using (hA η hη).symm
  refine Tendsto.congr' hev ?_
  refine tendsto_integral_filter_of_dominated_convergence dos ?_ ?_ h.integrable ?_
  · filter_upwards [self_mem_nhdsWithin] with η hη
    have h1 := (hprod η hη).integral_prod_right
    refine h1.aestronglyMeasurable.congr (Eventually.of_forall fun e => ?_)
    exact hinner η e
  · filter_upwards [self_mem_nhdsWithin] with η hη
    have hη' : (0 : ℝ) < η := hη
    refine Eventually.of_forall fun e => ?_
    rw [norm_mul, Real.norm_of_nonneg (h.nonneg e)]
    obtain ⟨hi, h1⟩ := lorentz_scaled hη'
    have hk : ∀ x, 0 ≤ η⁻¹ * lorentz (η⁻¹ * (e - x)) := fun x => mul_nonneg (inv_nonneg.2 hη'.le) (lorentz_nonneg _)
    have hin : ∀ x, 0 ≤ ind x ∧ ind x ≤ 1 := by
      intro x
      simp only [hind, Set.indicator_apply]
      split_ifs <;> norm_num
    have h0 : 0 ≤ J η e := integral_nonneg fun x => mul_nonneg (hk x) (hin x).1
    have hi' : Integrable fun x => η⁻¹ * lorentz (η⁻¹ * (e - x)) := hi.comp_sub_left e
    have hle : J η e ≤ 1 := by
      rw [← h1, ← integral_sub_left_eq_self (fun x => η⁻¹ * lorentz (η⁻¹ * x)) volume e]
      refine integral_mono_of_nonneg (Eventually.of_forall fun x => mul_nonneg (hk x) (hin x).1) hi' ?_
      exact Eventually.of_forall fun x => mul_le_of_le_one_right (hk x) (hin x).2
    rw [Real.norm_of_nonneg h0]
    exact mul_le_of_le_one_right (h.nonneg e) hle
  · have hne : ∀ᵐ e : ℝ, e ≠ c ∧ e ≠ d := by
      have h1 : ∀ᵐ e : ℝ, e ≠ c := by simp [ae_iff]
      have h2 : ∀ᵐ e : ℝ, e ≠ d := by simp [ae_iff]
      filter_upwards [h1, h2] with e a b using ⟨a, b⟩
    filter_upwards [hne] with e he
    have hcont : ContinuousAt ind e := by
      have : ind =ᶠ[𝓝 e] fun _ => ind e := by
        rcases lt_or_gt_of_ne he.1 with h1 | h1
        · filter_upwards [Iio_mem_nhds h1] with x hx
          simp only [hind, Set.indicator_apply, Set.mem_Ioc]
          rw [if_neg fun hc => hc.1.not_gt hx, if_neg fun hc => hc.1.not_gt h1]
        · rcases lt_or_gt_of_ne he.2 with h2 | h2
          · filter_upwards [Ioo_mem_nhds h1 h2] with x hx
            simp only [hind, Set.indicator_apply, Set.mem_Ioc]
            rw [if_pos ⟨hx.1, hx.2.le⟩, if_pos ⟨h1, h2.le⟩]
          · filter_upwards [Ioi_mem_nhds h2] with x hx
            simp only [hind, Set.indicator_apply, Set.mem_Ioc]
            rw [if_neg fun hc => hc.2.not_gt hx, if_neg fun hc => hc.2.not_gt h2]
      exact continuousAt_const.congr this.symm
    have h1 := tendsto_integral_comp_smul_smul_of_integrable' (μ := volume) lorentz_nonneg lorentz_integral lorentz_decay
      hindi hcont
    have h2 := (h1.comp (tendsto_inv_nhdsGT_zero (𝕜 := ℝ))).const_mul (dos e)
    refine h2.congr fun η => ?_
    simp only [Function.comp, Module.finrank_self, pow_one, smul_eq_mul, hJ]

lemma hp_weights (h : HilbertPair dos gf a b w) (c d : ℝ) :
    Tendsto (fun η : ℝ => ∫ x in c..d, -(gf (x + η * Complex.I)).im / Real.pi) (𝓝[>] 0) (𝓝 (∫ x in c..d, dos x)) := by
  rcases le_total c d with hcd | hcd
  · exact hp_weights_le h hcd
  · rw [intervalIntegral.integral_symm d c]
    refine (hp_weights_le h hcd).neg.congr fun η => ?_
    rw [intervalIntegral.integral_symm d c]

/-- A Hilbert transform is a causal Green's function with its density as spectral function. -/
theorem _root_.Gftool.Spec.HilbertPair.isCausalGf (h : HilbertPair dos gf a b w) (hw : 0 < w) : IsCausalGf gf dos w where
  analytic := (hp_diff h).mono fun _ hz => off_of_im hz
  symm z hz := by
    have hz' : z.im ≠ 0 := hz
    rw [h.hilbert z (off_of_im hz'), h.hilbert _ (off_of_im (by simpa using hz')), ← integral_conj]
    congr 1
    funext e
    simp
  causal _ hz := hp_causal h hw hz
  bound _ hz := hp_bound h hz
  hybridization _ hz := hyb_im (hp_causal h hw hz) (hp_inv h hw hz)
  sum_rule _ hη := hp_sum_rule h hη
  spectral _ hx := hp_spectral h hx
  weights c d := hp_weights h c d
  tail N := (hp_tail h N).mono_left inf_le_left

/-- The values on the real axis do not matter. -/
theorem _root_.Gftool.Spec.IsCausalGf.congr {gf' : ℂ → ℂ} (h : IsCausalGf gf dos w) (he : ∀ z ∈ offReal, gf' z = gf z) :
    IsCausalGf gf' dos w := by
  have hline : ∀ x η : ℝ, 0 < η → gf' (x + η * Complex.I) = gf (x + η * Complex.I) := by
    intro x η hη
    apply he
    simp only [offReal, Set.mem_ofPred_eq]
    simp [hη.ne']
  refine ⟨h.analytic.congr he, fun z hz => ?_, fun z hz => ?_, fun z hz => ?_, fun z hz => ?_, fun η hη => ?_,
    fun x hx => ?_, fun c d => ?_, fun N => ?_⟩
  · rw [he z hz, he _ (by simpa [offReal] using hz), h.symm z hz]
  · rw [he z hz.ne']; exact h.causal z hz
  · rw [he z hz]; exact h.bound z hz
  · rw [he z hz.ne']; exact h.hybridization z hz
  · rw [← h.sum_rule η hη]
    exact integral_congr_ae (Eventually.of_forall fun x => by simp only; rw [hline x η hη])
  · refine (h.spectral x hx).congr' ?_
    filter_upwards [self_mem_nhdsWithin] with η hη
    rw [hline x η hη]
  · refine (h.weights c d).congr' ?_
    filter_upwards [self_mem_nhdsWithin] with η hη
    exact intervalIntegral.integral_congr fun x _ => by rw [hline x η hη]
  · refine (h.tail N).congr' ?_
    filter_upwards [mem_inf_of_right (mem_principal_self offReal)] with z hz
    rw [he z hz]

/-! ## Real axis -/

section
variable (h : HilbertPair dos gf a b w)
include h

omit h in
lemma off_of_real {x : ℝ} (hx : x ∉ Set.Icc a b) : ∀ e ∈ Set.Icc a b, (x : ℂ) ≠ (e : ℂ) := by
  intro e he hc
  exact hx (Complex.ofReal_injective hc ▸ he)

lemma hp_real {x : ℝ} (hx : x ∉ Set.Icc a b) : gf x = ((∫ e, dos e * (1 / (x - e)) : ℝ) : ℂ) := by
  rw [h.hilbert x (off_of_real hx), ← integral_complex_ofReal]
  exact integral_congr_ae (Eventually.of_forall fun e => by simp only; push_cast; ring)

omit h in
lemma cont_real {x : ℝ} (hx : x ∉ Set.Icc a b) : ContinuousOn (fun e : ℝ => 1 / (x - e)) (Set.Icc a b) :=
  ContinuousOn.div continuousOn_const (by fun_prop) fun e he hc => hx (by rw [sub_eq_zero.1 hc]; exact he)

theorem _root_.Gftool.Spec.HilbertPair.isRealGf (hw : 0 < w) : IsRealGf gf a b w := by
  have hab : a ≤ b := by
    by_contra hc
    have h0 : ∀ e, dos e = 0 := fun e => h.outside e fun he => hc (he.1.trans he.2)
    have := h.norm
    simp only [h0, integral_zero] at this
    exact hw.ne this
  have hgt : ∀ {x : ℝ}, b < x → x ∉ Set.Icc a b := fun hx hc => hc.2.not_gt hx
  have hlt : ∀ {x : ℝ}, x < a → x ∉ Set.Icc a b := fun hx hc => hc.1.not_gt hx
  have hre : ∀ {x : ℝ}, x ∉ Set.Icc a b → (gf x).re = ∫ e, dos e * (1 / (x - e)) := by
    intro x hx; rw [hp_real h hx, Complex.ofReal_re]
  have hdiff : ∀ {x y : ℝ}, x ∉ Set.Icc a b → y ∉ Set.Icc a b → ∀ c : ℝ, 0 < c →
      (∀ e ∈ Set.Icc a b, c ≤ 1 / (x - e) - 1 / (y - e)) → (gf y).re < (gf x).re := by
    intro x y hx hy c hc hle
    rw [hre hx, hre hy, ← sub_pos, ← integral_sub (hp_int_real h (cont_real hx)) (hp_int_real h (cont_real hy))]
    have h1 : ∫ e, dos e * c ≤ ∫ e, dos e * (1 / (x - e) - 1 / (y - e)) :=
      hp_mono h continuousOn_const ((cont_real hx).sub (cont_real hy)) hle
    rw [hp_const h] at h1
    have h2 : 0 < w * c := by positivity
    simp only [mul_sub] at h1
    linarith
  refine ⟨fun x hx => by rw [hp_real h hx, Complex.ofReal_im], fun x hx => ?_, fun x hx => ?_, ?_, ?_, hp_diff h⟩
  · rw [hre (hgt hx), div_eq_mul_one_div, div_eq_mul_one_div w (x - b), ← hp_const h, ← hp_const h]
    constructor
    · refine hp_mono h continuousOn_const (cont_real (hgt hx)) fun e he => ?_
      exact one_div_le_one_div_of_le (by linarith [he.2]) (by linarith [he.1])
    · refine hp_mono h (cont_real (hgt hx)) continuousOn_const fun e he => ?_
      exact one_div_le_one_div_of_le (by linarith) (by linarith [he.2])
  · rw [hre (hlt hx), div_eq_mul_one_div, div_eq_mul_one_div w (a - x), ← mul_neg, ← mul_neg, ← hp_const h, ← hp_const h]
    have hneg : ∀ e, 1 / (x - e) = -(1 / (e - x)) := fun e => by rw [← neg_sub, div_neg]
    constructor
    · refine hp_mono h (cont_real (hlt hx)) continuousOn_const fun e he => ?_
      rw [hneg]
      exact neg_le_neg (one_div_le_one_div_of_le (by linarith [he.1]) (by linarith [he.2]))
    · refine hp_mono h continuousOn_const (cont_real (hlt hx)) fun e he => ?_
      rw [hneg]
      exact neg_le_neg (one_div_le_one_div_of_le (by linarith) (by linarith [he.1]))
  · intro x hx y hy hxy
    have hx' : b < x := hx
    have hy' : b < y := hy
    refine hdiff (hgt hx') (hgt hy') ((y - x) / ((x - a) * (y - a))) ?_ fun e he => ?_
    · have h1 : 0 < x - a := by linarith
      have h2 : 0 < y - a := by linarith
      have h3 : 0 < y - x := by linarith
      positivity
    · have h1 : 0 < x - e := by linarith [he.2]
      have h2 : 0 < y - e := by linarith [he.2]
      have h3 : 0 < y - x := by linarith
      rw [div_sub_div _ _ h1.ne' h2.ne', show 1 * (y - e) - (x - e) * 1 = y - x by ring]
      refine div_le_div_of_nonneg_left h3.le (by positivity) ?_
      have h4 := he.1
      exact mul_le_mul (by linarith) (by linarith) h2.le (by linarith)
  · intro x hx y hy hxy
    have hx' : x < a := hx
    have hy' : y < a := hy
    refine hdiff (hlt hx') (hlt hy') ((y - x) / ((b - x) * (b - y))) ?_ fun e he => ?_
    · have h1 : 0 < b - x := by linarith
      have h2 : 0 < b - y := by linarith
      have h3 : 0 < y - x := by linarith
      positivity
    · have h1 : 0 < e - x := by linarith [he.1]
      have h2 : 0 < e - y := by linarith [he.1]
      have h3 : 0 < y - x := by linarith
      have h5 : 1 / (x - e) - 1 / (y - e) = (y - x) / ((e - x) * (e - y)) := by
        have : x - e ≠ 0 := by linarith
        have : y - e ≠ 0 := by linarith
        field_simp
        ring
      rw [h5]
      refine div_le_div_of_nonneg_left h3.le (by positivity) ?_
      have h4 := he.2
      exact mul_le_mul (by linarith) (by linarith) h2.le (by linarith)

end

end Gftool.Lemmas
