import Verif.Lemmas.Bz
import Verif.Model.Square
import Mathlib.Analysis.SpecialFunctions.Trigonometric.InverseDeriv

/-!
# The law of products of cosines
-/

namespace Gftool.Lemmas

open Gftool Spec Model MeasureTheory

open scoped ENNReal

lemma image_cos {D : ℝ} (hD : 0 < D) : (fun φ => D * Real.cos φ) '' Set.Ioo 0 Real.pi = Set.Ioo (-D) D := by
  ext e
  constructor
  · rintro ⟨φ, ⟨h1, h2⟩, rfl⟩
    have hs := Real.sin_pos_of_pos_of_lt_pi h1 h2
    have h3 : Real.cos φ ^ 2 < 1 := by nlinarith [Real.sin_sq_add_cos_sq φ]
    have h4 : |Real.cos φ| < 1 := by
      rwa [sq_lt_one_iff_abs_lt_one] at h3
    obtain ⟨h5, h6⟩ := abs_lt.1 h4
    constructor <;> simp only <;> nlinarith
  · rintro ⟨h1, h2⟩
    have h3 : -1 < e / D := by rw [lt_div_iff₀ hD]; linarith
    have h4 : e / D < 1 := by rw [div_lt_iff₀ hD]; linarith
    refine ⟨Real.arccos (e / D), ⟨Real.arccos_pos.2 h4, ?_⟩, ?_⟩
    · rw [← Real.arccos_neg_one]
      exact Real.arccos_lt_arccos (by norm_num) h3 h4.le
    · simp only
      rw [Real.cos_arccos h3.le h4.le]
      field_simp

lemma image_cos' {c : ℝ} (hc : c ≠ 0) : (fun φ => c * Real.cos φ) '' Set.Ioo 0 Real.pi = Set.Ioo (-|c|) |c| := by
  rcases lt_or_gt_of_ne hc with h | h
  · rw [← image_cos (abs_pos.2 hc)]
    have hrefl : (fun φ : ℝ => Real.pi - φ) '' Set.Ioo 0 Real.pi = Set.Ioo 0 Real.pi := by
      rw [Set.image_const_sub_Ioo]
      simp
    conv_lhs => rw [← hrefl]
    rw [Set.image_image]
    congr 1
    funext φ
    rw [Real.cos_pi_sub, abs_of_neg h]
    ring
  · rw [abs_of_pos h, image_cos h]

/-- Density of `c cos k`. -/
noncomputable def arcsineDensity (c e : ℝ) : ℝ := if |e| < |c| then 1 / (Real.pi * √(c ^ 2 - e ^ 2)) else 0

lemma measurable_arcsineDensity : Measurable fun p : ℝ × ℝ => arcsineDensity p.1 p.2 := by
  unfold arcsineDensity
  refine Measurable.ite ?_ ?_ measurable_const
  · exact measurableSet_lt (continuous_abs.measurable.comp measurable_snd) (continuous_abs.measurable.comp measurable_fst)
  · have : Measurable fun x : ℝ => √x := Real.continuous_sqrt.measurable
    fun_prop

lemma lintegral_const_cos {c : ℝ} (hc : c ≠ 0) {G : ℝ → ℝ≥0∞} (hG : Measurable G) :
    ∫⁻ k, G (c * Real.cos k) ∂bz = ∫⁻ e, G e * ENNReal.ofReal (arcsineDensity c e) := by
  have hpi := Real.pi_pos
  rw [lintegral_cos_bz (f := fun x => G (c * x)) (by fun_prop)]
  have hsub := lintegral_image_eq_lintegral_abs_deriv_mul (f := fun φ => c * Real.cos φ) measurableSet_Ioo
    (f' := fun φ => c * -Real.sin φ) (s := Set.Ioo 0 Real.pi)
    (fun φ _ => ((Real.hasDerivAt_cos φ).const_mul c).hasDerivWithinAt)
    (by
      intro a ha b hb hab
      have : Real.cos a = Real.cos b := mul_left_cancel₀ hc hab
      exact Real.injOn_cos (Set.Ioo_subset_Icc_self ha) (Set.Ioo_subset_Icc_self hb) this)
    (fun e => G e * ENNReal.ofReal (arcsineDensity c e))
  rw [image_cos' hc] at hsub
  have h1 : ∫⁻ e, G e * ENNReal.ofReal (arcsineDensity c e)
      = ∫⁻ e in Set.Ioo (-|c|) |c|, G e * ENNReal.ofReal (arcsineDensity c e) := by
    symm
    apply setLIntegral_eq_of_support_subset
    intro e he
    by_contra hcon
    apply he
    have : ¬ |e| < |c| := fun h => hcon (abs_lt.1 h)
    simp [arcsineDensity, this]
  rw [h1, hsub, setLIntegral_congr Ioo_ae_eq_Ioc.symm, ← lintegral_const_mul _ (by fun_prop)]
  refine setLIntegral_congr_fun measurableSet_Ioo fun φ hφ => ?_
  have hs := Real.sin_pos_of_pos_of_lt_pi hφ.1 hφ.2
  have hac := abs_pos.2 hc
  have hlt : |c * Real.cos φ| < |c| := by
    have : c * Real.cos φ ∈ Set.Ioo (-|c|) |c| := image_cos' hc ▸ Set.mem_image_of_mem _ hφ
    exact abs_lt.2 this
  have hroot : √(c ^ 2 - (c * Real.cos φ) ^ 2) = |c| * Real.sin φ := by
    rw [show c ^ 2 - (c * Real.cos φ) ^ 2 = (|c| * Real.sin φ) ^ 2 by
      rw [mul_pow, mul_pow, sq_abs, Real.sin_sq]; ring]
    exact Real.sqrt_sq (by positivity)
  rw [mul_left_comm, ← ENNReal.ofReal_mul (abs_nonneg _), arcsineDensity, if_pos hlt, hroot, mul_comm]
  congr 2
  rw [abs_mul, abs_neg, abs_of_pos hs]
  field_simp

lemma ae_cos_ne_zero : ∀ᵐ k ∂bz, Real.cos k ≠ 0 := by
  have hm : Measurable Real.cos := Real.continuous_cos.measurable
  have h : bz.map Real.cos {0} = 0 := by
    rw [map_cos_bz, Measure.map_apply hm (measurableSet_singleton 0)]
    unfold bzHalf
    rw [Measure.smul_apply, Measure.restrict_apply (hm (measurableSet_singleton 0))]
    have : Real.cos ⁻¹' {0} ∩ Set.Ioc 0 Real.pi ⊆ {Real.pi / 2} := by
      rintro φ ⟨h1, h2⟩
      have h3 : Real.cos φ = Real.cos (Real.pi / 2) := by rw [Real.cos_pi_div_two]; exact h1
      have hpi := Real.pi_pos
      exact Real.injOn_cos ⟨h2.1.le, h2.2⟩ ⟨by linarith, by linarith⟩ h3
    rw [measure_mono_null this (measure_singleton _)]
    simp
  rw [Measure.map_apply hm (measurableSet_singleton 0)] at h
  rw [ae_iff]
  convert h using 2
  ext k
  simp

/-- Even functions of the cosine. -/
lemma lintegral_even_cos {f : ℝ → ℝ≥0∞} (hf : Measurable f) (he : ∀ x, f (-x) = f x) :
    ∫⁻ k, f (Real.cos k) ∂bz
      = ENNReal.ofReal (2 / Real.pi) * ∫⁻ φ in Set.Ioo 0 (Real.pi / 2), f (Real.cos φ) := by
  have hpi := Real.pi_pos
  have hm : Measurable fun φ => f (Real.cos φ) := hf.comp Real.continuous_cos.measurable
  rw [lintegral_cos_bz hf]
  have hsplit : volume.restrict (Set.Ioc 0 Real.pi)
      = volume.restrict (Set.Ioc 0 (Real.pi / 2)) + volume.restrict (Set.Ioc (Real.pi / 2) Real.pi) := by
    rw [← Measure.restrict_union (Set.Ioc_disjoint_Ioc_of_le le_rfl) measurableSet_Ioc,
      Set.Ioc_union_Ioc_eq_Ioc (by linarith) (by linarith)]
  have hrefl : ∫⁻ φ in Set.Ioc (Real.pi / 2) Real.pi, f (Real.cos φ)
      = ∫⁻ φ in Set.Ioo 0 (Real.pi / 2), f (Real.cos φ) := by
    have hmp : MeasurePreserving (fun x : ℝ => Real.pi - x) volume volume :=
      Measure.measurePreserving_sub_left volume Real.pi
    have h1 := (hmp.restrict_preimage (s := Set.Ioc (Real.pi / 2) Real.pi) measurableSet_Ioc)
    rw [← h1.map_eq, lintegral_map hm h1.measurable]
    have hpre : (fun x : ℝ => Real.pi - x) ⁻¹' Set.Ioc (Real.pi / 2) Real.pi = Set.Ico 0 (Real.pi / 2) := by
      ext x
      simp only [Set.mem_preimage, Set.mem_Ico, Set.mem_Ioc]
      constructor <;> rintro ⟨h1, h2⟩ <;> constructor <;> linarith
    rw [hpre, setLIntegral_congr Ioo_ae_eq_Ico.symm]
    refine lintegral_congr fun φ => ?_
    rw [Real.cos_pi_sub, he]
  rw [hsplit, lintegral_add_measure, hrefl, setLIntegral_congr Ioo_ae_eq_Ioc.symm, ← two_mul, ← mul_assoc]
  congr 1
  rw [show (2 : ℝ≥0∞) = ENNReal.ofReal 2 by simp, ← ENNReal.ofReal_mul (by positivity)]
  congr 1
  ring

/-- The elliptic integral for `m < 1` converges. -/
lemma one_sub_pos {m : ℝ} (hm : m < 1) (θ : ℝ) : 0 < 1 - m * Real.sin θ ^ 2 := by
  have h1 := Real.sin_sq_le_one θ
  have h2 := sq_nonneg (Real.sin θ)
  rcases le_or_gt m 0 with h | h <;> nlinarith

lemma continuous_ellip {m : ℝ} (hm : m < 1) : Continuous fun θ : ℝ => 1 / √(1 - m * Real.sin θ ^ 2) := by
  apply Continuous.div continuous_const
  · fun_prop
  · intro θ
    exact (Real.sqrt_pos.2 (one_sub_pos hm θ)).ne'

lemma ofReal_ellipKR {m : ℝ} (hm : m < 1) : ENNReal.ofReal (ellipKR m)
    = ∫⁻ θ in Set.Ioo 0 (Real.pi / 2), ENNReal.ofReal (1 / √(1 - m * Real.sin θ ^ 2)) := by
  have hpi := Real.pi_pos
  unfold ellipKR
  rw [intervalIntegral.integral_of_le (by linarith), integral_Ioc_eq_integral_Ioo,
    ofReal_integral_eq_lintegral_ofReal]
  · have := (continuous_ellip hm).intervalIntegrable (μ := volume) 0 (Real.pi / 2)
    rw [intervalIntegrable_iff_integrableOn_Ioo_of_le (by linarith)] at this
    exact this
  · exact Filter.Eventually.of_forall fun θ => by
      have := Real.sqrt_nonneg (1 - m * Real.sin θ ^ 2)
      simp only [Pi.zero_apply]
      positivity

/-- The density of products of cosines at a generic energy. -/
lemma lintegral_arcsine {D e : ℝ} (hD : 0 < D) (h0 : e ≠ 0) (he : |e| < D) :
    ∫⁻ p, ENNReal.ofReal (arcsineDensity (D * Real.cos p) e) ∂bz
      = ENNReal.ofReal (2 / Real.pi ^ 2 / D * ellipKR (1 - (e / D) ^ 2)) := by
  have hpi := Real.pi_pos
  have hmeas : Measurable fun x : ℝ => ENNReal.ofReal (arcsineDensity (D * x) e) := by
    have h1 : Measurable fun x : ℝ => arcsineDensity (D * x) e :=
      measurable_arcsineDensity.comp (by fun_prop : Measurable fun x : ℝ => (D * x, e))
    exact h1.ennreal_ofReal
  rw [lintegral_even_cos (f := fun x => ENNReal.ofReal (arcsineDensity (D * x) e)) hmeas
    (fun x => by simp [arcsineDensity, mul_neg, neg_sq])]
  set x : ℝ := |e| / D with hx
  have hx0 : 0 < x := by have := abs_pos.2 h0; positivity
  have hx1 : x < 1 := by rwa [hx, div_lt_one hD]
  set k : ℝ := √(1 - x ^ 2) with hk
  have hk2 : k ^ 2 = 1 - x ^ 2 := Real.sq_sqrt (by nlinarith)
  have hk0 : 0 < k := Real.sqrt_pos.2 (by nlinarith)
  have hk1 : k < 1 := by nlinarith
  have hxe : (e / D) ^ 2 = x ^ 2 := by rw [hx, div_pow, div_pow, sq_abs]
  have hm : 1 - (e / D) ^ 2 < 1 := by rw [hxe]; nlinarith
  have hsinθ : ∀ θ ∈ Set.Ioo 0 (Real.pi / 2), 0 < Real.sin θ ∧ 0 < Real.cos θ ∧ Real.sin θ < 1 := by
    intro θ hθ
    have h1 := Real.sin_pos_of_pos_of_lt_pi hθ.1 (by linarith [hθ.2])
    have h2 := Real.cos_pos_of_mem_Ioo ⟨by linarith [hθ.1], hθ.2⟩
    exact ⟨h1, h2, by nlinarith [Real.sin_sq_add_cos_sq θ]⟩
  -- the substitution `sin φ = k sin θ`
  have himg : (fun θ => Real.arcsin (k * Real.sin θ)) '' Set.Ioo 0 (Real.pi / 2) = Set.Ioo 0 (Real.arcsin k) := by
    ext φ
    constructor
    · rintro ⟨θ, hθ, rfl⟩
      obtain ⟨h1, h2, h3⟩ := hsinθ θ hθ
      refine ⟨Real.arcsin_pos.2 (by positivity), Real.arcsin_lt_arcsin (by nlinarith) (by nlinarith) hk1.le⟩
    · rintro ⟨h1, h2⟩
      have hφ : φ < Real.pi / 2 := h2.trans_le (Real.arcsin_le_pi_div_two k)
      have hsφ : 0 < Real.sin φ := Real.sin_pos_of_pos_of_lt_pi h1 (by linarith)
      have hsk : Real.sin φ < k := (Real.lt_arcsin_iff_sin_lt ⟨by linarith, by linarith⟩ ⟨by linarith, by linarith⟩).1 h2
      have hq0 : 0 < Real.sin φ / k := by positivity
      have hq1 : Real.sin φ / k < 1 := by rwa [div_lt_one hk0]
      refine ⟨Real.arcsin (Real.sin φ / k), ⟨Real.arcsin_pos.2 hq0, Real.arcsin_lt_pi_div_two.2 hq1⟩, ?_⟩
      simp only
      rw [Real.sin_arcsin (by linarith) hq1.le, mul_div_cancel₀ _ hk0.ne', Real.arcsin_sin (by linarith) hφ.le]
  have hder : ∀ θ ∈ Set.Ioo 0 (Real.pi / 2), HasDerivWithinAt (fun θ => Real.arcsin (k * Real.sin θ))
      (1 / √(1 - (k * Real.sin θ) ^ 2) * (k * Real.cos θ)) (Set.Ioo 0 (Real.pi / 2)) θ := by
    intro θ hθ
    obtain ⟨h1, h2, h3⟩ := hsinθ θ hθ
    have hs : HasDerivAt (fun θ => k * Real.sin θ) (k * Real.cos θ) θ := (Real.hasDerivAt_sin θ).const_mul k
    exact ((Real.hasDerivAt_arcsin (x := k * Real.sin θ) (by nlinarith [mul_pos hk0 h1])
      (by nlinarith)).comp θ hs).hasDerivWithinAt
  have hinj : Set.InjOn (fun θ => Real.arcsin (k * Real.sin θ)) (Set.Ioo 0 (Real.pi / 2)) := by
    intro a ha b hb hab
    obtain ⟨a1, a2, a3⟩ := hsinθ a ha
    obtain ⟨b1, b2, b3⟩ := hsinθ b hb
    have h1 := Real.injOn_arcsin ⟨by nlinarith, by nlinarith⟩ ⟨by nlinarith, by nlinarith⟩ hab
    have h2 : Real.sin a = Real.sin b := mul_left_cancel₀ hk0.ne' h1
    exact Real.injOn_sin ⟨by linarith [ha.1], ha.2.le⟩ ⟨by linarith [hb.1], hb.2.le⟩ h2
  have hsub := lintegral_image_eq_lintegral_abs_deriv_mul measurableSet_Ioo hder hinj
    (fun φ => ENNReal.ofReal (arcsineDensity (D * Real.cos φ) e))
  rw [himg] at hsub
  have hcosφ : ∀ φ ∈ Set.Ioo 0 (Real.pi / 2), (|e| < |D * Real.cos φ| ↔ φ < Real.arcsin k) := by
    intro φ hφ
    have hc := Real.cos_pos_of_mem_Ioo ⟨by linarith [hφ.1], hφ.2⟩
    have hs := Real.sin_pos_of_pos_of_lt_pi hφ.1 (by linarith [hφ.2])
    rw [Real.lt_arcsin_iff_sin_lt ⟨by linarith [hφ.1], hφ.2.le⟩ ⟨by linarith, hk1.le⟩, abs_mul, abs_of_pos hD,
      abs_of_pos hc, mul_comm, ← div_lt_iff₀ hD, ← hx]
    have hsc := Real.sin_sq_add_cos_sq φ
    constructor
    · intro h
      nlinarith
    · intro h
      nlinarith
  have hres : ∫⁻ φ in Set.Ioo 0 (Real.pi / 2), ENNReal.ofReal (arcsineDensity (D * Real.cos φ) e)
      = ∫⁻ φ in Set.Ioo 0 (Real.arcsin k), ENNReal.ofReal (arcsineDensity (D * Real.cos φ) e) := by
    symm
    have hss : Set.Ioo 0 (Real.arcsin k) ⊆ Set.Ioo 0 (Real.pi / 2) :=
      Set.Ioo_subset_Ioo le_rfl (Real.arcsin_le_pi_div_two k)
    rw [← lintegral_indicator measurableSet_Ioo, ← lintegral_indicator measurableSet_Ioo]
    refine lintegral_congr fun φ => ?_
    by_cases h1 : φ ∈ Set.Ioo 0 (Real.arcsin k)
    · rw [Set.indicator_of_mem h1, Set.indicator_of_mem (hss h1)]
    · rw [Set.indicator_of_notMem h1]
      by_cases h2 : φ ∈ Set.Ioo 0 (Real.pi / 2)
      · rw [Set.indicator_of_mem h2, arcsineDensity, if_neg, ENNReal.ofReal_zero]
        exact fun h3 => h1 ⟨h2.1, (hcosφ φ h2).1 h3⟩
      · rw [Set.indicator_of_notMem h2]
  rw [hres, hsub]
  have hint : ∀ θ ∈ Set.Ioo 0 (Real.pi / 2), ENNReal.ofReal |1 / √(1 - (k * Real.sin θ) ^ 2) * (k * Real.cos θ)|
      * ENNReal.ofReal (arcsineDensity (D * Real.cos (Real.arcsin (k * Real.sin θ))) e)
      = ENNReal.ofReal (1 / (Real.pi * D)) * ENNReal.ofReal (1 / √(1 - (1 - (e / D) ^ 2) * Real.sin θ ^ 2)) := by
    intro θ hθ
    obtain ⟨h1, h2, h3⟩ := hsinθ θ hθ
    have hmem : Real.arcsin (k * Real.sin θ) ∈ Set.Ioo 0 (Real.arcsin k) := himg ▸ Set.mem_image_of_mem _ hθ
    have hlt := (hcosφ _ ⟨hmem.1, hmem.2.trans_le (Real.arcsin_le_pi_div_two k)⟩).2 hmem.2
    rw [arcsineDensity, if_pos hlt, Real.cos_arcsin, ← ENNReal.ofReal_mul (abs_nonneg _),
      ← ENNReal.ofReal_mul (by positivity), hxe, ← hk2, ← mul_pow]
    have hp : 0 < 1 - (k * Real.sin θ) ^ 2 := by
      have h4 : k * Real.sin θ < 1 := by nlinarith
      nlinarith [mul_pos hk0 h1]
    have hr : √((D * √(1 - (k * Real.sin θ) ^ 2)) ^ 2 - e ^ 2) = D * (k * Real.cos θ) := by
      rw [mul_pow, Real.sq_sqrt hp.le, show D ^ 2 * (1 - (k * Real.sin θ) ^ 2) - e ^ 2 = (D * (k * Real.cos θ)) ^ 2 by
        have : e ^ 2 = D ^ 2 * x ^ 2 := by rw [← hxe]; field_simp
        rw [this, mul_pow, mul_pow, mul_pow, Real.cos_sq', hk2]; ring]
      exact Real.sqrt_sq (by positivity)
    rw [hr, abs_of_pos (by positivity)]
    congr 1
    field_simp
  rw [setLIntegral_congr_fun measurableSet_Ioo hint, lintegral_const_mul' _ _ ENNReal.ofReal_ne_top, ← ofReal_ellipKR hm,
    ← ENNReal.ofReal_mul (by positivity), ← ENNReal.ofReal_mul (by positivity)]
  congr 1
  field_simp

end Gftool.Lemmas
