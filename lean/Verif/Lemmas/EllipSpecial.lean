import Verif.Lemmas.Clausen
import Verif.Lemmas.ScForm
import Mathlib.MeasureTheory.Integral.DominatedConvergence
import Mathlib.Analysis.Calculus.MeanValue

/-!
# Special values of the complete elliptic integral

Legendre's relation, Landen's transformation, and the values of the elliptic integral and its derivative at
`m = exp(iπ/3)`.
-/

namespace Gftool.Lemmas

open Gftool Spec MeasureTheory

open scoped Topology

/-- Total derivatives integrate to zero. -/
lemma integral_total3 {q : ℝ → ℂ} {q' : ℂ} (hq : ∀ s ∈ Set.Icc (0 : ℝ) 1, q s ∈ Complex.slitPlane)
    (hd : ∀ s, HasDerivAt q q' s) :
    ∫ θ in (0 : ℝ)..Real.pi / 2, ((1 - 2 * (Real.sin θ ^ 2 : ℝ)) * q (Real.sin θ ^ 2)
      - (Real.sin θ ^ 2 : ℝ) * (1 - (Real.sin θ ^ 2 : ℝ)) * q') / Complex.sqrt (q (Real.sin θ ^ 2)) ^ 3 = 0 := by
  have hmem : ∀ θ : ℝ, q (Real.sin θ ^ 2) ∈ Complex.slitPlane := fun θ => hq _ ⟨sq_nonneg _, Real.sin_sq_le_one θ⟩
  have hqc : Continuous q := continuous_iff_continuousAt.2 fun s => (hd s).continuousAt
  have hcont : Continuous fun θ : ℝ => Complex.sqrt (q (Real.sin θ ^ 2)) := by
    rw [continuous_iff_continuousAt]
    intro θ
    exact ContinuousAt.comp (f := fun θ : ℝ => q (Real.sin θ ^ 2)) (Lemmas.continuousAt_sqrt (hmem θ))
      ((hqc.comp (by fun_prop : Continuous fun θ : ℝ => Real.sin θ ^ 2)).continuousAt)
  have hder : ∀ θ : ℝ, HasDerivAt (fun θ : ℝ => ((Real.sin θ * Real.cos θ : ℝ) : ℂ) / Complex.sqrt (q (Real.sin θ ^ 2)))
      (((1 - 2 * (Real.sin θ ^ 2 : ℝ)) * q (Real.sin θ ^ 2)
      - (Real.sin θ ^ 2 : ℝ) * (1 - (Real.sin θ ^ 2 : ℝ)) * q') / Complex.sqrt (q (Real.sin θ ^ 2)) ^ 3) θ := by
    intro θ
    have h1 : HasDerivAt (fun θ : ℝ => Real.sin θ ^ 2) (2 * Real.sin θ * Real.cos θ) θ := by
      have h1 : HasDerivAt (fun θ => Real.sin θ ^ 2) _ θ := (Real.hasDerivAt_sin θ).pow 2
      exact h1.congr_deriv (by norm_num)
    have h2 : HasDerivAt (fun θ : ℝ => q (Real.sin θ ^ 2)) ((2 * Real.sin θ * Real.cos θ : ℝ) • q') θ :=
      HasDerivAt.scomp θ (hd _) h1
    have h3 : HasDerivAt (fun θ : ℝ => Complex.sqrt (q (Real.sin θ ^ 2))) _ θ :=
      HasDerivAt.comp θ (h₂ := Complex.sqrt) (hasDerivAt_sqrt (hmem θ)) h2
    have h4 : HasDerivAt (fun θ : ℝ => ((Real.sin θ * Real.cos θ : ℝ) : ℂ)) _ θ :=
      ((Real.hasDerivAt_sin θ).mul (Real.hasDerivAt_cos θ)).ofReal_comp
    have h5 := sqrt_ne_zero (hmem θ)
    have h6 : HasDerivAt (fun θ : ℝ => ((Real.sin θ * Real.cos θ : ℝ) : ℂ) / Complex.sqrt (q (Real.sin θ ^ 2))) _ θ :=
      h4.div h3 h5
    refine h6.congr_deriv ?_
    have h7 := sqrt_sq' (q (Real.sin θ ^ 2))
    have h8 : ((Real.sin θ : ℝ) : ℂ) ^ 2 + ((Real.cos θ : ℝ) : ℂ) ^ 2 = 1 := by exact_mod_cast Real.sin_sq_add_cos_sq θ
    have h9 : ((Real.cos θ : ℝ) : ℂ) ^ 2 = 1 - ((Real.sin θ : ℝ) : ℂ) ^ 2 := by rw [← h8]; ring
    rw [Complex.real_smul]
    push_cast at h8 h9 ⊢
    generalize Complex.sqrt (q (Real.sin θ ^ 2)) = w at *
    rw [← h7]
    field_simp
    generalize Complex.sin θ = S at *
    generalize Complex.cos θ = C at *
    linear_combination (w ^ 2 - q' * S ^ 2) * h9
  rw [intervalIntegral.integral_eq_sub_of_hasDerivAt (fun θ _ => hder θ)]
  · simp
  · apply Continuous.intervalIntegrable
    refine Continuous.div ?_ (hcont.pow 3) (fun θ => pow_ne_zero _ (sqrt_ne_zero (hmem θ)))
    fun_prop

/-- The derivative of the elliptic integral without singularity at `m = 1`. -/
lemma pK_eq {m : ℂ} (hm : m ∈ ellipDom) :
    m * (1 - m) * ellipK' m = m / 2 * radInt 1 0 0 (-1) (fun s => 1 - (s : ℂ)) 1 m := by
  have ht := integral_total3 (q := fun s => rad 1 0 0 (-1) m s) (q' := -m) (rad_K_mem hm) (fun s => by
    have h : HasDerivAt (fun s : ℝ => (1 : ℂ) - m * (s : ℂ)) (-m) s := by
      have := ((hasDerivAt_id s).ofReal_comp.const_mul m).const_sub (1 : ℂ)
      simpa using this
    exact h.congr_of_eventuallyEq (Filter.Eventually.of_forall fun s => rad_K m s))
  have h1 : m / 2 * radInt 1 0 0 (-1) (fun s => 1 - (s : ℂ)) 1 m + -(m * (1 - m)) * ellipK' m
      = m / 2 * 0 := by
    refine Eq.trans ?_ (congrArg (fun t => m / 2 * t) ht)
    beta_reduce
    unfold ellipK' radInt
    rw [← intervalIntegral.integral_const_mul, ← intervalIntegral.integral_const_mul,
      ← intervalIntegral.integral_const_mul, ← intervalIntegral.integral_add
      (((continuous_radInt (rad_K_mem hm) (g := fun s : ℝ => 1 - (s : ℂ)) (by fun_prop) 1).intervalIntegrable _ _).const_mul _)
      (((continuous_radInt (rad_K_mem hm) (continuous_wt1 0 (-1)) 3).intervalIntegrable _ _).const_mul _)]
    congr 1
    funext θ
    have hmem := rad_K_mem hm (Real.sin θ ^ 2) ⟨sq_nonneg _, Real.sin_sq_le_one θ⟩
    have h5 := sqrt_ne_zero hmem
    have h7 := sqrt_sq' (rad 1 0 0 (-1) m (Real.sin θ ^ 2))
    have h8 := rad_K m (Real.sin θ ^ 2)
    rw [h8] at h7
    simp only [wt1]
    rw [h8] at h5 ⊢
    generalize Complex.sqrt (1 - m * ((Real.sin θ ^ 2 : ℝ) : ℂ)) = w at *
    generalize ((Real.sin θ ^ 2 : ℝ) : ℂ) = s at *
    field_simp
    push_cast
    linear_combination (m * (1 - s)) * h7
  rw [mul_zero] at h1
  linear_combination -h1

/-- Legendre's combination of the elliptic integrals with complementary parameters. -/
noncomputable def legL (m : ℂ) : ℂ :=
  ellipK m * ((1 - m) * (1 - (1 - m)) * ellipK' (1 - m)) + ellipK (1 - m) * (m * (1 - m) * ellipK' m)

lemma hasDerivAt_legL {m : ℂ} (hm : m ∈ ellipDom) (hm' : 1 - m ∈ ellipDom) : HasDerivAt legL 0 m := by
  have hd : ∀ {f : ℂ → ℂ} {f' : ℂ}, HasDerivAt f f' (1 - m) → HasDerivAt (fun m => f (1 - m)) (-f') m := by
    intro f f' h
    have h2 : HasDerivAt (fun m : ℂ => 1 - m) (-1) m := by simpa using (hasDerivAt_id m).const_sub 1
    exact (HasDerivAt.comp m h h2).congr_deriv (by ring)
  have h := ((ellipK_deriv hm).mul (hd (hasDerivAt_pK hm'))).add ((hd (ellipK_deriv hm')).mul (hasDerivAt_pK hm))
  refine h.congr_deriv ?_
  ring

lemma strip_dom {m : ℂ} (h0 : 0 < m.re) (h1 : m.re < 1) : m ∈ ellipDom ∧ 1 - m ∈ ellipDom := by
  constructor
  · rw [ellipDom, Set.mem_ofPred_eq, Complex.mem_slitPlane_iff]
    left
    simpa using h1
  · apply one_sub_mem_ellipDom
    rw [Complex.mem_slitPlane_iff]
    exact .inl h0

lemma legL_const {m m' : ℂ} (h0 : 0 < m.re) (h1 : m.re < 1) (h0' : 0 < m'.re) (h1' : m'.re < 1) : legL m = legL m' := by
  have hU : Convex ℝ {m : ℂ | 0 < m.re ∧ m.re < 1} := (convex_halfSpace_re_gt 0).inter (convex_halfSpace_re_lt 1)
  refine Convex.is_const_of_fderivWithin_eq_zero (𝕜 := ℂ) hU (f := legL) ?_ ?_ ⟨h0, h1⟩ ⟨h0', h1'⟩
  · intro x hx
    exact (hasDerivAt_legL (strip_dom hx.1 hx.2).1 (strip_dom hx.1 hx.2).2).differentiableAt.differentiableWithinAt
  · intro x hx
    have hop : IsOpen {m : ℂ | 0 < m.re ∧ m.re < 1} :=
      (isOpen_lt continuous_const Complex.continuous_re).inter (isOpen_lt Complex.continuous_re continuous_const)
    rw [fderivWithin_of_isOpen hop hx]
    have := (hasDerivAt_legL (strip_dom hx.1 hx.2).1 (strip_dom hx.1 hx.2).2).hasFDerivAt.fderiv
    rw [this]
    ext
    simp

private lemma sqrt_radReal {m : ℝ} (h0 : 0 < m) (h1 : m < 1) (θ : ℝ) :
    Complex.sqrt (rad 1 0 0 (-1) (1 - (m : ℂ)) (Real.sin θ ^ 2)) = ((√(Real.cos θ ^ 2 + m * Real.sin θ ^ 2) : ℝ) : ℂ) := by
  rw [← sqrt_ofReal (by positivity), rad_K]
  congr 1
  have := Real.cos_sq' θ
  rw [this]
  push_cast
  ring

private noncomputable def legF (m θ : ℝ) : ℂ := ((Real.cos θ ^ 2 / √(Real.cos θ ^ 2 + m * Real.sin θ ^ 2) : ℝ) : ℂ)

private lemma legF_eq {m : ℝ} (hm : m ∈ Set.Ioo (0 : ℝ) 1) :
    radInt 1 0 0 (-1) (fun s => 1 - (s : ℂ)) 1 (1 - (m : ℂ)) = ∫ θ in (0 : ℝ)..Real.pi / 2, legF m θ := by
  unfold radInt
  congr 1
  funext θ
  rw [sqrt_radReal hm.1 hm.2 θ, pow_one, legF]
  have e : (1 : ℂ) - ((Real.sin θ ^ 2 : ℝ) : ℂ) = ((Real.cos θ ^ 2 : ℝ) : ℂ) := by
    rw [Real.cos_sq']; push_cast; ring
  beta_reduce
  rw [e, ← Complex.ofReal_div]

private lemma continuous_legF {m : ℝ} (hm : m ∈ Set.Ioo (0 : ℝ) 1) : Continuous (legF m) := by
  unfold legF
  refine Complex.continuous_ofReal.comp (Continuous.div (by fun_prop) (by fun_prop) fun θ => ?_)
  apply ne_of_gt
  apply Real.sqrt_pos.2
  nlinarith [Real.sin_sq_add_cos_sq θ, sq_nonneg (Real.cos θ), hm.1, hm.2]

private lemma norm_legF {m : ℝ} (hm : m ∈ Set.Ioo (0 : ℝ) 1) (θ : ℝ) : ‖legF m θ‖ ≤ 1 := by
  have hm1 := hm.1
  rw [legF, Complex.norm_real, Real.norm_eq_abs, abs_of_nonneg (by positivity)]
  have h1 : |Real.cos θ| ≤ √(Real.cos θ ^ 2 + m * Real.sin θ ^ 2) := by
    apply Real.le_sqrt_of_sq_le
    rw [sq_abs]
    nlinarith [mul_nonneg hm.1.le (sq_nonneg (Real.sin θ))]
  have h2 := Real.abs_cos_le_one θ
  apply div_le_one_of_le₀ _ (Real.sqrt_nonneg _)
  refine le_trans ?_ h1
  rw [← sq_abs]
  nlinarith [abs_nonneg (Real.cos θ)]

private lemma legTendsto_one : Filter.Tendsto (fun m : ℝ => radInt 1 0 0 (-1) (fun s => 1 - (s : ℂ)) 1 (1 - (m : ℂ)))
    (𝓝[>] 0) (𝓝 1) := by
  have hI : ∫ θ in (0 : ℝ)..Real.pi / 2, ((Real.cos θ : ℝ) : ℂ) = 1 := by
    rw [intervalIntegral.integral_ofReal, integral_cos]
    simp
  have ht : Filter.Tendsto (fun m : ℝ => ∫ θ in (0 : ℝ)..Real.pi / 2, legF m θ) (𝓝[>] 0)
      (𝓝 (∫ θ in (0 : ℝ)..Real.pi / 2, ((Real.cos θ : ℝ) : ℂ))) := by
    refine intervalIntegral.tendsto_integral_filter_of_dominated_convergence (fun _ => 1) ?_ ?_ (by simp) ?_
    · filter_upwards [Ioo_mem_nhdsGT (show (0 : ℝ) < 1 by norm_num)] with m hm
      exact (continuous_legF hm).aestronglyMeasurable
    · filter_upwards [Ioo_mem_nhdsGT (show (0 : ℝ) < 1 by norm_num)] with m hm
      exact Filter.Eventually.of_forall fun θ _ => norm_legF hm θ
    · refine Filter.Eventually.of_forall fun θ hθ => ?_
      have hθ' : θ ∈ Set.Ioc 0 (Real.pi / 2) := by
        rwa [Set.uIoc_of_le (by positivity)] at hθ
      by_cases hc : Real.cos θ = 0
      · simp [legF, hc]
      · have hcp : 0 < Real.cos θ := lt_of_le_of_ne (Real.cos_nonneg_of_mem_Icc ⟨by linarith [hθ'.1, Real.pi_pos], hθ'.2⟩) (Ne.symm hc)
        apply Filter.Tendsto.mono_left _ nhdsWithin_le_nhds
        have h1 : ContinuousAt (fun m : ℝ => legF m θ) 0 := by
          unfold legF
          apply Complex.continuous_ofReal.continuousAt.comp
          refine ContinuousAt.div continuousAt_const (by fun_prop) ?_
          simp [Real.sqrt_sq_eq_abs, hc]
        have e1 : legF 0 θ = ((Real.cos θ : ℝ) : ℂ) := by
          rw [legF, zero_mul, add_zero, Real.sqrt_sq hcp.le]
          congr 1
          field_simp
        rw [← e1]
        exact h1
  rw [hI] at ht
  refine ht.congr' ?_
  filter_upwards [Ioo_mem_nhdsGT (show (0 : ℝ) < 1 by norm_num)] with m hm
  exact (legF_eq hm).symm

private lemma norm_ellipK_one_sub {m : ℝ} (h0 : 0 < m) (h1 : m < 1) : ‖ellipK (1 - (m : ℂ))‖ ≤ Real.pi / 2 / √m := by
  rw [ellipK_eq_radInt]
  unfold radInt
  have h := intervalIntegral.norm_integral_le_of_norm_le_const (a := 0) (b := Real.pi / 2) (C := 1 / √m)
    (f := fun θ : ℝ => (1 : ℂ) / Complex.sqrt (rad 1 0 0 (-1) (1 - (m : ℂ)) (Real.sin θ ^ 2)) ^ 1) (by
      intro θ _
      rw [sqrt_radReal h0 h1 θ, pow_one, norm_div, norm_one, Complex.norm_real, Real.norm_eq_abs,
        abs_of_nonneg (Real.sqrt_nonneg _)]
      apply one_div_le_one_div_of_le (Real.sqrt_pos.2 h0)
      apply Real.sqrt_le_sqrt
      nlinarith [Real.sin_sq_add_cos_sq θ, sq_nonneg (Real.cos θ)])
  refine h.trans (le_of_eq ?_)
  rw [sub_zero, abs_of_pos (by positivity)]
  ring

/-- **Legendre's relation**. -/
lemma legendre {m : ℂ} (h0 : 0 < m.re) (h1 : m.re < 1) : legL m = (Real.pi / 4 : ℝ) := by
  have hz : (0 : ℂ) ∈ ellipDom := by simp [ellipDom, Complex.one_mem_slitPlane]
  have t0 : Filter.Tendsto (fun m : ℝ => (m : ℂ)) (𝓝[>] 0) (𝓝 0) :=
    (Complex.continuous_ofReal.tendsto' 0 0 (by simp)).mono_left nhdsWithin_le_nhds
  have tK : Filter.Tendsto (fun m : ℝ => ellipK (m : ℂ)) (𝓝[>] 0) (𝓝 (ellipK 0)) :=
    (ellipK_deriv hz).continuousAt.tendsto.comp t0
  have tK' : Filter.Tendsto (fun m : ℝ => ellipK' (m : ℂ)) (𝓝[>] 0) (𝓝 (ellipK' 0)) :=
    (ellipK'_deriv hz).continuousAt.tendsto.comp t0
  have t1 : Filter.Tendsto (fun m : ℝ => ellipK (m : ℂ) * ((1 - (m : ℂ)) * (1 - (1 - (m : ℂ))) * ellipK' (1 - (m : ℂ)))) (𝓝[>] 0)
      (𝓝 (ellipK 0 * ((1 - 0) / 2 * 1))) := by
    refine (tK.mul (((tendsto_const_nhds.sub t0).div_const 2).mul legTendsto_one)).congr' ?_
    filter_upwards [Ioo_mem_nhdsGT (show (0 : ℝ) < 1 by norm_num)] with m hm
    rw [pK_eq (one_sub_mem_ellipDom (Complex.ofReal_mem_slitPlane.2 hm.1))]
  have t2 : Filter.Tendsto (fun m : ℝ => ellipK (1 - (m : ℂ)) * ((m : ℂ) * (1 - (m : ℂ)) * ellipK' (m : ℂ))) (𝓝[>] 0) (𝓝 0) := by
    have ts : Filter.Tendsto (fun m : ℝ => √m) (𝓝[>] 0) (𝓝 0) :=
      (Real.continuous_sqrt.tendsto' 0 0 (by simp)).mono_left nhdsWithin_le_nhds
    have tb : Filter.Tendsto (fun m : ℝ => Real.pi / 2 * √m * ‖(1 - (m : ℂ)) * ellipK' (m : ℂ)‖) (𝓝[>] 0)
        (𝓝 (Real.pi / 2 * 0 * ‖(1 - 0) * ellipK' 0‖)) :=
      (tendsto_const_nhds.mul ts).mul (((tendsto_const_nhds.sub t0).mul tK').norm)
    rw [mul_zero, zero_mul] at tb
    refine squeeze_zero_norm' ?_ tb
    filter_upwards [Ioo_mem_nhdsGT (show (0 : ℝ) < 1 by norm_num)] with m hm
    rw [mul_assoc, norm_mul, norm_mul, Complex.norm_real, Real.norm_eq_abs, abs_of_pos hm.1, ← mul_assoc]
    apply mul_le_mul_of_nonneg_right _ (norm_nonneg _)
    have h := mul_le_mul_of_nonneg_right (norm_ellipK_one_sub hm.1 hm.2) hm.1.le
    refine h.trans (le_of_eq ?_)
    have hs := Real.sqrt_pos.2 hm.1
    have hq := Real.mul_self_sqrt hm.1.le
    field_simp
    nlinarith
  have t3 := t1.add t2
  have t4 : Filter.Tendsto (fun _ : ℝ => legL m) (𝓝[>] (0 : ℝ)) (𝓝 (legL m)) := tendsto_const_nhds
  have t5 := t4.congr' (f₂ := fun m : ℝ => ellipK (m : ℂ) * ((1 - (m : ℂ)) * (1 - (1 - (m : ℂ))) * ellipK' (1 - (m : ℂ)))
      + ellipK (1 - (m : ℂ)) * ((m : ℂ) * (1 - (m : ℂ)) * ellipK' (m : ℂ))) (by
    filter_upwards [Ioo_mem_nhdsGT (show (0 : ℝ) < 1 by norm_num)] with x hx
    exact legL_const h0 h1 (m' := (x : ℂ)) (by simpa using hx.1) (by simpa using hx.2))
  rw [tendsto_nhds_unique t5 t3, ellipK_zero]
  push_cast
  ring

end Gftool.Lemmas
