import Verif.Lemmas.Quartic
import Verif.Lemmas.Dispersion
import Verif.Lemmas.Lattice
import Mathlib.Analysis.Complex.SqrtDeriv
import Mathlib.Analysis.Calculus.ParametricIntegral

/-!
# Analyticity and values of the complete elliptic integral
-/

namespace Gftool.Lemmas

open Gftool Spec MeasureTheory

open scoped ENNReal Topology

/-- Integrals depending holomorphically on a parameter. -/
lemma differentiableOn_integral {X : Type*} [MeasurableSpace X] {μ : Measure X} [IsFiniteMeasure μ] {p : X → ℝ}
    (hp : Measurable p) {a b : ℝ} (hab : ∀ x, p x ∈ Set.Icc a b) {S : Set ℂ} (hS : IsOpen S) {f f' : ℂ → ℝ → ℂ}
    (hm : ∀ m, Measurable (f m)) (hm' : ∀ m, Measurable (f' m)) (hc : ∀ m ∈ S, ContinuousOn (f m) (Set.Icc a b))
    (hc' : ContinuousOn (Function.uncurry f') (S ×ˢ Set.Icc a b))
    (hd : ∀ m ∈ S, ∀ s ∈ Set.Icc a b, HasDerivAt (fun m => f m s) (f' m s) m) :
    DifferentiableOn ℂ (fun m => ∫ x, f m (p x) ∂μ) S := by
  intro m₀ hm₀
  obtain ⟨r, hr, hball⟩ := Metric.isOpen_iff.1 hS m₀ hm₀
  have hcb : Metric.closedBall m₀ (r / 2) ⊆ S := (Metric.closedBall_subset_ball (by linarith)).trans hball
  have hcomp : IsCompact (Metric.closedBall m₀ (r / 2) ×ˢ Set.Icc a b) := (isCompact_closedBall _ _).prod isCompact_Icc
  obtain ⟨C, hC⟩ := hcomp.exists_bound_of_continuousOn (hc'.mono (Set.prod_mono hcb subset_rfl))
  obtain ⟨C0, hC0⟩ := isCompact_Icc.exists_bound_of_continuousOn (hc m₀ hm₀)
  have h := hasDerivAt_integral_of_dominated_loc_of_deriv_le (μ := μ) (F := fun m x => f m (p x))
    (F' := fun m x => f' m (p x)) (x₀ := m₀) (s := Metric.ball m₀ (r / 2)) (bound := fun _ => C)
    (Metric.ball_mem_nhds m₀ (by positivity))
    (Filter.Eventually.of_forall fun m => ((hm m).comp hp).aestronglyMeasurable)
    (Integrable.of_bound ((hm m₀).comp hp).aestronglyMeasurable C0
      (Filter.Eventually.of_forall fun x => hC0 _ (hab x)))
    ((hm' m₀).comp hp).aestronglyMeasurable
    (Filter.Eventually.of_forall fun x m hmb => hC (m, p x) ⟨Metric.ball_subset_closedBall hmb, hab x⟩)
    (integrable_const C)
    (Filter.Eventually.of_forall fun x m hmb => hd m (hcb (Metric.ball_subset_closedBall hmb)) _ (hab x))
  exact h.2.differentiableAt.differentiableWithinAt

lemma sqrt_ne_zero {x : ℂ} (hx : x ∈ Complex.slitPlane) : Complex.sqrt x ≠ 0 := fun h => by
  have := sqrt_re_pos hx
  rw [h] at this
  simp at this

lemma hasDerivAt_sqrt {x : ℂ} (hx : x ∈ Complex.slitPlane) :
    HasDerivAt Complex.sqrt (1 / (2 * Complex.sqrt x)) x := by
  refine (Complex.hasDerivAt_sqrt hx).congr_deriv ?_
  rw [neg_div, Complex.cpow_neg]
  unfold Complex.sqrt
  rw [one_div, one_div]
  ring

/-- The domain of the elliptic integral. -/
def ellipDom : Set ℂ := {m | 1 - m ∈ Complex.slitPlane}

lemma isOpen_ellipDom : IsOpen ellipDom :=
  Complex.isOpen_slitPlane.preimage (continuous_const.sub continuous_id)

lemma slit_seg {m : ℂ} (hm : 1 - m ∈ Complex.slitPlane) {s : ℝ} (hs : s ∈ Set.Icc (0 : ℝ) 1) :
    1 - m * s ∈ Complex.slitPlane := by
  rw [Complex.mem_slitPlane_iff] at hm ⊢
  simp only [Complex.sub_re, Complex.one_re, Complex.sub_im, Complex.one_im, Complex.mul_re, Complex.ofReal_re,
    Complex.ofReal_im, mul_zero, sub_zero, Complex.mul_im, zero_add, zero_sub, neg_ne_zero] at hm ⊢
  rcases eq_or_lt_of_le hs.1 with h | h
  · left; rw [← h]; simp
  · rcases hm with h1 | h1
    · left
      nlinarith [hs.2]
    · right
      simpa using ⟨h1, h.ne'⟩

lemma differentiableOn_ellipK : DifferentiableOn ℂ ellipK ellipDom := by
  have hpi := Real.pi_pos
  have hsin := Real.continuous_sin.measurable
  have key := differentiableOn_integral (μ := volume.restrict (Set.Ioc 0 (Real.pi / 2))) (p := fun θ => Real.sin θ ^ 2)
    (by fun_prop) (a := 0) (b := 1) (fun θ => ⟨sq_nonneg _, Real.sin_sq_le_one θ⟩) isOpen_ellipDom
    (f := fun m s => 1 / Complex.sqrt (1 - m * s))
    (f' := fun m s => s / (2 * (1 - m * s) * Complex.sqrt (1 - m * s)))
    (fun m => by unfold Complex.sqrt; fun_prop) (fun m => by unfold Complex.sqrt; fun_prop)
    (fun m hm s hs => by
      have h1 := slit_seg hm hs
      apply ContinuousAt.continuousWithinAt
      refine ContinuousAt.div continuousAt_const ?_ (sqrt_ne_zero h1)
      exact ContinuousAt.comp (f := fun s : ℝ => 1 - m * (s : ℂ)) (Lemmas.continuousAt_sqrt h1) (by fun_prop))
    (fun q hq => by
      obtain ⟨m, s⟩ := q
      have h1 := slit_seg hq.1 hq.2
      apply ContinuousAt.continuousWithinAt
      simp only [Function.uncurry_def]
      have h2 : ContinuousAt (fun q : ℂ × ℝ => Complex.sqrt (1 - q.1 * (q.2 : ℂ))) (m, s) :=
        ContinuousAt.comp (f := fun q : ℂ × ℝ => 1 - q.1 * (q.2 : ℂ)) (Lemmas.continuousAt_sqrt h1) (by fun_prop)
      refine ContinuousAt.div (by fun_prop) (ContinuousAt.mul (by fun_prop) h2) ?_
      exact mul_ne_zero (mul_ne_zero two_ne_zero (Complex.slitPlane_ne_zero h1)) (sqrt_ne_zero h1))
    (fun m hm s hs => by
      have h1 := slit_seg hm hs
      have h2 : HasDerivAt (fun m : ℂ => 1 - m * (s : ℂ)) (-s) m := by
        simpa using ((hasDerivAt_id m).mul_const (s : ℂ)).const_sub 1
      have h0 : HasDerivAt (fun m : ℂ => Complex.sqrt (1 - m * (s : ℂ))) _ m :=
        HasDerivAt.comp m (h₂ := Complex.sqrt) (hasDerivAt_sqrt h1) h2
      have h3 := (hasDerivAt_const m (1 : ℂ)).div h0 (sqrt_ne_zero h1)
      refine h3.congr_deriv ?_
      have h4 := sqrt_ne_zero h1
      have h5 := sqrt_sq' (1 - m * s)
      nth_rewrite 4 [← h5]
      generalize Complex.sqrt (1 - m * s) = w at *
      field_simp
      ring)
  refine key.congr fun m _ => ?_
  unfold ellipK
  rw [intervalIntegral.integral_of_le (by linarith)]
  push_cast
  rfl

lemma sqrt_ofReal {x : ℝ} (hx : 0 ≤ x) : Complex.sqrt x = (√x : ℝ) := by
  unfold Complex.sqrt
  rw [Real.sqrt_eq_rpow, Complex.ofReal_cpow hx]
  push_cast
  norm_num

lemma sqrt_neg_ofReal {x : ℝ} (hx : 0 ≤ x) : Complex.sqrt (-x : ℂ) = Complex.I * (√x : ℝ) := by
  rw [Complex.sqrt_neg_of_nonneg (by exact_mod_cast hx), sqrt_ofReal hx]

/-- The elliptic integral of real parameters below one. -/
lemma ellipK_ofReal {m : ℝ} (hm : m < 1) : ellipK m = (ellipKR m : ℝ) := by
  unfold ellipK ellipKR
  rw [← intervalIntegral.integral_ofReal]
  congr 1
  funext θ
  have h := one_sub_pos hm θ
  have e : (1 - (m : ℂ) * (Real.sin θ : ℂ) ^ 2) = ((1 - m * Real.sin θ ^ 2 : ℝ) : ℂ) := by push_cast; ring
  rw [e, sqrt_ofReal h.le]
  push_cast
  ring

/-- Algebraic form of the elliptic integral. -/
lemma ellipK_alg (m : ℂ) :
    ellipK m = ∫ u in Set.Ioo (0 : ℝ) 1, ((1 / (2 * √(u * (1 - u))) : ℝ) : ℂ) * (1 / Complex.sqrt (1 - m * u)) := by
  have hpi := Real.pi_pos
  have hsub := integral_image_eq_integral_abs_deriv_smul (f := fun θ => Real.sin θ ^ 2) measurableSet_Ioo
    (f' := fun θ => 2 * Real.sin θ * Real.cos θ) (s := Set.Ioo 0 (Real.pi / 2))
    (fun θ _ => by
      have h1 : HasDerivAt (fun θ => Real.sin θ ^ 2) _ θ := (Real.hasDerivAt_sin θ).pow 2
      refine (h1.congr_deriv ?_).hasDerivWithinAt
      norm_num)
    (by
      intro a ha b hb hab
      have h1 := Real.sin_pos_of_pos_of_lt_pi ha.1 (by linarith [ha.2])
      have h2 := Real.sin_pos_of_pos_of_lt_pi hb.1 (by linarith [hb.2])
      have h3 : Real.sin a = Real.sin b := (pow_left_inj₀ h1.le h2.le two_ne_zero).1 hab
      exact Real.injOn_sin ⟨by linarith [ha.1], ha.2.le⟩ ⟨by linarith [hb.1], hb.2.le⟩ h3)
    (fun u : ℝ => ((1 / (2 * √(u * (1 - u))) : ℝ) : ℂ) * (1 / Complex.sqrt (1 - m * u)))
  rw [image_sin_sq] at hsub
  rw [hsub]
  unfold ellipK
  rw [intervalIntegral.integral_of_le (by linarith), integral_Ioc_eq_integral_Ioo]
  refine setIntegral_congr_fun measurableSet_Ioo fun θ hθ => ?_
  have h1 := Real.sin_pos_of_pos_of_lt_pi hθ.1 (by linarith [hθ.2])
  have h2 := Real.cos_pos_of_mem_Ioo ⟨by linarith [hθ.1], hθ.2⟩
  have hr : √(Real.sin θ ^ 2 * (1 - Real.sin θ ^ 2)) = Real.sin θ * Real.cos θ := by
    rw [← Real.cos_sq', ← mul_pow, Real.sqrt_sq (by positivity)]
  rw [hr, abs_of_pos (by positivity), Complex.real_smul, ← mul_assoc, ← Complex.ofReal_mul,
    show 2 * Real.sin θ * Real.cos θ * (1 / (2 * (Real.sin θ * Real.cos θ))) = 1 by field_simp]
  push_cast
  ring

/-- The two parts of the elliptic integral for parameters on the cut. -/
lemma lintegral_cut_low {m : ℝ} (hm : 1 < m) :
    ∫⁻ u in Set.Ioo (0 : ℝ) (1 / m), ENNReal.ofReal (1 / (2 * √(u * (1 - u))) * (1 / √(1 - m * u)))
      = ENNReal.ofReal (ellipKR (1 / m) / √m) := by
  have hm0 : 0 < m := by linarith
  have hm1 : 1 / m < 1 := by rw [div_lt_one hm0]; exact hm
  have hsub := lintegral_image_eq_lintegral_abs_deriv_mul (f := fun v : ℝ => 1 / m * v) measurableSet_Ioo
    (f' := fun _ => 1 / m) (s := Set.Ioo (0 : ℝ) 1)
    (fun v _ => by simpa using ((hasDerivAt_id v).const_mul (1 / m)).hasDerivWithinAt)
    (fun a _ b _ hab => mul_left_cancel₀ (by positivity) hab)
    (fun u => ENNReal.ofReal (1 / (2 * √(u * (1 - u))) * (1 / √(1 - m * u))))
  have himg : (fun v : ℝ => 1 / m * v) '' Set.Ioo (0 : ℝ) 1 = Set.Ioo (0 : ℝ) (1 / m) := by
    rw [Set.image_mul_left_Ioo (by positivity)]
    simp
  rw [himg] at hsub
  have e : ellipKR (1 / m) / √m = 1 / (2 * √m) * (2 * ellipKR (1 / m)) := by
    have := Real.sqrt_pos.2 hm0
    field_simp
  rw [hsub, e, ENNReal.ofReal_mul (by positivity), ← lintegral_ellip hm1, ← lintegral_const_mul' _ _ ENNReal.ofReal_ne_top]
  refine setLIntegral_congr_fun measurableSet_Ioo fun v hv => ?_
  have hv0 := hv.1
  have hv1 : 0 < 1 - v := by linarith [hv.2]
  have hv2 : 0 < 1 - 1 / m * v := by nlinarith
  rw [← ENNReal.ofReal_mul (abs_nonneg _), ← ENNReal.ofReal_mul (by positivity), abs_of_pos (by positivity)]
  congr 1
  have e1 : m * (1 / m * v) = v := by field_simp
  set w := v * (1 - 1 / m * v) with hw
  have hw0 : 0 < w := by positivity
  have e2 : 1 / m * v * (1 - 1 / m * v) = (1 / m) ^ 2 * (m * w) := by rw [hw]; field_simp
  have e3 : v * (1 - v) * (1 - 1 / m * v) = w * (1 - v) := by rw [hw]; ring
  clear_value w
  rw [e1, e2, Real.sqrt_mul (by positivity) (m * w), Real.sqrt_sq (by positivity), Real.sqrt_mul hm0.le w, e3,
    Real.sqrt_mul hw0.le (1 - v)]
  have h1 : 0 < √w := Real.sqrt_pos.2 hw0
  have h2 := Real.sqrt_pos.2 hv1
  have h3 := Real.sqrt_pos.2 hm0
  have h4 := Real.sq_sqrt hm0.le
  generalize √w = x at *
  field_simp

lemma lintegral_cut_high {m : ℝ} (hm : 1 < m) :
    ∫⁻ u in Set.Ioo (1 / m) (1 : ℝ), ENNReal.ofReal (1 / (2 * √(u * (1 - u))) * (1 / √(m * u - 1)))
      = ENNReal.ofReal (ellipKR (1 - 1 / m) / √m) := by
  have hm0 : 0 < m := by linarith
  have hp : 0 < 1 / m := by positivity
  have hm1 : 0 < 1 - 1 / m := by rw [sub_pos, div_lt_one hm0]; exact hm
  have hsub := lintegral_image_eq_lintegral_abs_deriv_mul (f := fun v : ℝ => 1 - (1 - 1 / m) * v) measurableSet_Ioo
    (f' := fun _ => -(1 - 1 / m)) (s := Set.Ioo (0 : ℝ) 1)
    (fun v _ => by simpa using (((hasDerivAt_id v).const_mul (1 - 1 / m)).const_sub 1).hasDerivWithinAt)
    (fun a _ b _ hab => by
      have : (1 - 1 / m) * a = (1 - 1 / m) * b := by simpa using hab
      exact mul_left_cancel₀ hm1.ne' this)
    (fun u => ENNReal.ofReal (1 / (2 * √(u * (1 - u))) * (1 / √(m * u - 1))))
  have himg : (fun v : ℝ => 1 - (1 - 1 / m) * v) '' Set.Ioo (0 : ℝ) 1 = Set.Ioo (1 / m) (1 : ℝ) := by
    have : (fun v : ℝ => 1 - (1 - 1 / m) * v) = (fun v => 1 - v) ∘ fun v => (1 - 1 / m) * v := rfl
    rw [this, Set.image_comp, Set.image_mul_left_Ioo hm1, Set.image_const_sub_Ioo]
    simp
  rw [himg] at hsub
  have e : ellipKR (1 - 1 / m) / √m = 1 / (2 * √m) * (2 * ellipKR (1 - 1 / m)) := by
    have := Real.sqrt_pos.2 hm0
    field_simp
  rw [hsub, e, ENNReal.ofReal_mul (by positivity), ← lintegral_ellip (by linarith),
    ← lintegral_const_mul' _ _ ENNReal.ofReal_ne_top]
  refine setLIntegral_congr_fun measurableSet_Ioo fun v hv => ?_
  have hv0 := hv.1
  have hv1 : 0 < 1 - v := by linarith [hv.2]
  have hv2 : 0 < 1 - (1 - 1 / m) * v := by nlinarith
  rw [← ENNReal.ofReal_mul (abs_nonneg _), ← ENNReal.ofReal_mul (by positivity), abs_neg, abs_of_pos hm1]
  congr 1
  set k := 1 - 1 / m with hk
  have e1 : m * (1 - k * v) - 1 = m * k * (1 - v) := by
    rw [hk]
    field_simp
    ring
  set w := v * (1 - k * v) with hw
  have hw0 : 0 < w := by positivity
  have e2 : (1 - k * v) * (1 - (1 - k * v)) = k * w := by rw [hw]; ring
  have e3 : v * (1 - v) * (1 - k * v) = w * (1 - v) := by rw [hw]; ring
  clear_value w
  rw [e1, e2, Real.sqrt_mul hm1.le w, Real.sqrt_mul (by positivity) (1 - v), Real.sqrt_mul hm0.le k, e3,
    Real.sqrt_mul hw0.le (1 - v)]
  have h1 : 0 < √w := Real.sqrt_pos.2 hw0
  have h2 := Real.sqrt_pos.2 hv1
  have h3 := Real.sqrt_pos.2 hm0
  have h4 := Real.sqrt_pos.2 hm1
  have h5 := Real.sq_sqrt hm1.le
  clear_value k
  generalize √w = x at *
  rw [show k * (1 / (2 * (√k * x)) * (1 / (√m * √k * √(1 - v)))) = k / (√k) ^ 2 * (1 / (2 * √m) * (1 / (x * √(1 - v)))) by
    field_simp, h5, div_self hm1.ne', one_mul]

lemma cut_integral {s : Set ℝ} (hs : MeasurableSet s) {f : ℝ → ℝ} (hf : Measurable f) (h0 : ∀ u ∈ s, 0 ≤ f u) {v : ℝ} (hv : 0 ≤ v)
    (h : ∫⁻ u in s, ENNReal.ofReal (f u) = ENNReal.ofReal v) :
    IntegrableOn f s ∧ ∫ u in s, f u = v := by
  have h0' : 0 ≤ᵐ[volume.restrict s] f := (ae_restrict_iff' hs).2 (Filter.Eventually.of_forall h0)
  constructor
  · refine ⟨hf.aestronglyMeasurable, ?_⟩
    rw [hasFiniteIntegral_iff_ofReal h0', h]
    exact ENNReal.ofReal_lt_top
  · rw [integral_eq_lintegral_of_nonneg_ae h0' hf.aestronglyMeasurable, h, ENNReal.toReal_ofReal hv]

/-- The elliptic integral on the cut. -/
lemma ellipK_cut {m : ℝ} (hm : 1 < m) :
    ellipK m = ((ellipKR (1 / m) / √m : ℝ) : ℂ) - Complex.I * ((ellipKR (1 - 1 / m) / √m : ℝ) : ℂ) := by
  have hm0 : 0 < m := by linarith
  have hm1 : 1 / m < 1 := by rw [div_lt_one hm0]; exact hm
  have hnn : ∀ k, 0 ≤ ellipKR k / √m := fun k => by
    have : 0 ≤ ellipKR k := by
      unfold ellipKR
      apply intervalIntegral.integral_nonneg (by have := Real.pi_pos; linarith)
      intro θ _
      positivity
    positivity
  have hsm : Measurable fun x : ℝ => √x := Real.continuous_sqrt.measurable
  obtain ⟨i1, v1⟩ := cut_integral measurableSet_Ioo (by fun_prop) (fun u _ => by positivity) (hnn _) (lintegral_cut_low hm)
  obtain ⟨i2, v2⟩ := cut_integral measurableSet_Ioo (by fun_prop) (fun u _ => by positivity) (hnn _) (lintegral_cut_high hm)
  rw [ellipK_alg, ← v1, ← v2, ← integral_complex_ofReal, ← integral_complex_ofReal, ← integral_const_mul]
  set F : ℝ → ℂ := fun u => ((1 / (2 * √(u * (1 - u))) : ℝ) : ℂ) * (1 / Complex.sqrt (1 - m * u)) with hF
  have e1 : Set.EqOn F (fun u => ((1 / (2 * √(u * (1 - u))) * (1 / √(1 - m * u)) : ℝ) : ℂ)) (Set.Ioo 0 (1 / m)) := by
    intro u hu
    have h : 0 ≤ 1 - m * u := by
      have := hu.2
      rw [lt_div_iff₀ hm0] at this
      linarith
    simp only [hF]
    rw [show (1 - m * u : ℂ) = ((1 - m * u : ℝ) : ℂ) by push_cast; ring, sqrt_ofReal h]
    push_cast
    ring
  have e2 : Set.EqOn F (fun u => -(Complex.I * ((1 / (2 * √(u * (1 - u))) * (1 / √(m * u - 1)) : ℝ) : ℂ)))
      (Set.Ioo (1 / m) 1) := by
    intro u hu
    have h : 0 ≤ m * u - 1 := by
      have := hu.1
      rw [div_lt_iff₀ hm0] at this
      linarith
    simp only [hF]
    rw [show (1 - m * u : ℂ) = -((m * u - 1 : ℝ) : ℂ) by push_cast; ring, sqrt_neg_ofReal h,
      ← one_div_mul_one_div Complex.I, one_div Complex.I, Complex.inv_I]
    push_cast
    ring
  have j1 : IntegrableOn F (Set.Ioo 0 (1 / m)) := (IntegrableOn.congr_fun i1.ofReal e1.symm measurableSet_Ioo)
  have j2 : IntegrableOn F (Set.Ioo (1 / m) 1) :=
    (IntegrableOn.congr_fun (i2.ofReal.const_mul Complex.I).neg e2.symm measurableSet_Ioo)
  have hpos : 0 < 1 / m := by positivity
  rw [← integral_Ioc_eq_integral_Ioo, ← Set.Ioc_union_Ioc_eq_Ioc hpos.le hm1.le,
    setIntegral_union (Set.Ioc_disjoint_Ioc_of_le le_rfl) measurableSet_Ioc
      ((integrableOn_Ioc_iff_integrableOn_Ioo).2 j1) ((integrableOn_Ioc_iff_integrableOn_Ioo).2 j2),
    integral_Ioc_eq_integral_Ioo, integral_Ioc_eq_integral_Ioo, setIntegral_congr_fun measurableSet_Ioo e1,
    setIntegral_congr_fun measurableSet_Ioo e2, integral_neg]
  rfl

end Gftool.Lemmas
