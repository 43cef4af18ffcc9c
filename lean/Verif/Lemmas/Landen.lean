import Verif.Lemmas.EllipSpecial
import Mathlib.Analysis.Analytic.Uniqueness

/-!
# Landen's transformation of the complete elliptic integral
-/

namespace Gftool.Lemmas

open Gftool Spec MeasureTheory

open scoped Topology

lemma sq_ball_mem_ellipDom {k : ℂ} (hk : ‖k‖ < 1) : k ^ 2 ∈ ellipDom := by
  rw [ellipDom, Set.mem_ofPred_eq, Complex.mem_slitPlane_iff]
  left
  have h : ‖k ^ 2‖ < 1 := by
    rw [norm_pow]
    exact pow_lt_one₀ (norm_nonneg _) hk (by norm_num)
  have h2 := Complex.re_le_norm (k ^ 2)
  simp only [Complex.sub_re, Complex.one_re]
  linarith

private lemma hasDerivAt_sqc (k : ℂ) : HasDerivAt (fun k : ℂ => k ^ 2) (2 * k) k := by
  have h : HasDerivAt (fun k : ℂ => k ^ 2) _ k := hasDerivAt_pow 2 k
  exact h.congr_deriv (by norm_num)

lemma one_add_ne_ball {k : ℂ} (hk : ‖k‖ < 1) : 1 + k ≠ 0 := fun h => by
  rw [show k = -1 by linear_combination h, norm_neg, norm_one] at hk
  exact lt_irrefl _ hk

lemma one_sub_ne_ball {k : ℂ} (hk : ‖k‖ < 1) : 1 - k ≠ 0 := fun h => by
  rw [show k = 1 by linear_combination -h, norm_one] at hk
  exact lt_irrefl _ hk

/-- The transformed parameter. -/
noncomputable def landenM (k : ℂ) : ℂ := 4 * k / (1 + k) ^ 2

lemma one_sub_landenM {k : ℂ} (hk : 1 + k ≠ 0) : 1 - landenM k = ((1 - k) / (1 + k)) ^ 2 := by
  unfold landenM
  field_simp
  ring

lemma re_landen_pos {k : ℂ} (hk : ‖k‖ < 1) : 0 < ((1 - k) / (1 + k)).re := by
  have h1 := one_add_ne_ball hk
  have h2 : 0 < Complex.normSq (1 + k) := Complex.normSq_pos.2 h1
  have h3 : Complex.normSq k < 1 := by
    rw [Complex.normSq_eq_norm_sq]
    exact pow_lt_one₀ (norm_nonneg _) hk (by norm_num)
  rw [Complex.normSq_apply] at h3
  rw [Complex.div_re, ← add_div]
  apply div_pos _ h2
  simp
  nlinarith

lemma sq_mem_slit_of_re {w : ℂ} (hw : 0 < w.re) : w ^ 2 ∈ Complex.slitPlane := by
  rw [Complex.mem_slitPlane_iff, pow_two]
  by_cases h : w.im = 0
  · left
    simp [h, hw]
  · right
    simp only [Complex.mul_im]
    intro h2
    apply mul_ne_zero hw.ne' h
    linarith

lemma landenM_mem {k : ℂ} (hk : ‖k‖ < 1) : landenM k ∈ ellipDom := by
  rw [ellipDom, Set.mem_ofPred_eq, one_sub_landenM (one_add_ne_ball hk)]
  exact sq_mem_slit_of_re (re_landen_pos hk)

lemma hasDerivAt_landenM {k : ℂ} (hk : 1 + k ≠ 0) : HasDerivAt landenM (4 * (1 - k) / (1 + k) ^ 3) k := by
  have h1 : HasDerivAt (fun k : ℂ => 1 + k) 1 k := (hasDerivAt_id k).const_add 1
  have h2 : HasDerivAt (fun k : ℂ => 4 * k) 4 k := by simpa using (hasDerivAt_id k).const_mul 4
  refine (h2.div (h1.pow 2) (pow_ne_zero 2 hk)).congr_deriv ?_
  push_cast
  simp only [Pi.pow_apply]
  field_simp
  ring

private noncomputable def lanC : ℂ := (2 / Real.pi) ^ 2

private noncomputable def lanW (k : ℂ) : ℂ := lanC * ((1 + k) ^ 2 * kW (k ^ 2))
private noncomputable def lanS (k : ℂ) : ℂ := lanC * (k * (1 - k) * kW (k ^ 2) + 2 * kS (k ^ 2))
private noncomputable def lanQ (k : ℂ) : ℂ :=
  lanC * ((k ^ 2 * (1 - k) ^ 2 * kW (k ^ 2) + 4 * (k * (1 - k)) * kS (k ^ 2) + 4 * kQ (k ^ 2)) / (1 + k) ^ 2)

private lemma hasDerivAt_lan {k : ℂ} (hk : ‖k‖ < 1) (h0 : k ≠ 0) :
    HasDerivAt lanW (2 * ((4 * (1 - k) / (1 + k) ^ 3) / (landenM k * (1 - landenM k))) * lanS k) k ∧
    HasDerivAt lanS ((4 * (1 - k) / (1 + k) ^ 3) * lanW k / 4
      + (4 * (1 - k) / (1 + k) ^ 3) / (landenM k * (1 - landenM k)) * lanQ k) k ∧
    HasDerivAt lanQ ((4 * (1 - k) / (1 + k) ^ 3) * lanS k / 2) k := by
  have hp := one_add_ne_ball hk
  have hm := one_sub_ne_ball hk
  have hd := sq_ball_mem_ellipDom hk
  have hne : k ^ 2 * (1 - k ^ 2) ≠ 0 := by
    have : 1 - k ^ 2 = (1 - k) * (1 + k) := by ring
    rw [this]
    exact mul_ne_zero (pow_ne_zero 2 h0) (mul_ne_zero hm hp)
  have e1 : 1 - k ^ 2 = (1 - k) * (1 + k) := by ring
  have hα : (4 * (1 - k) / (1 + k) ^ 3) / (landenM k * (1 - landenM k)) = (1 + k) / (k * (1 - k)) := by
    rw [one_sub_landenM hp, landenM]
    field_simp
  have dW : HasDerivAt (fun k => kW (k ^ 2)) (4 * kS (k ^ 2) / (k * ((1 - k) * (1 + k)))) k := by
    refine ((hasDerivAt_kW hd hne).comp k (hasDerivAt_sqc k)).congr_deriv ?_
    rw [e1]
    generalize kS (k ^ 2) = S
    field_simp
    ring
  have dS : HasDerivAt (fun k => kS (k ^ 2)) (k * kW (k ^ 2) / 2 + 2 * kQ (k ^ 2) / (k * ((1 - k) * (1 + k)))) k := by
    refine ((hasDerivAt_kS hd hne).comp k (hasDerivAt_sqc k)).congr_deriv ?_
    rw [e1]
    generalize kQ (k ^ 2) = S
    generalize kW (k ^ 2) = W
    field_simp
    ring
  have dQ : HasDerivAt (fun k => kQ (k ^ 2)) (k * kS (k ^ 2)) k := by
    refine ((hasDerivAt_kQ hd).comp k (hasDerivAt_sqc k)).congr_deriv ?_
    ring
  have dp : HasDerivAt (fun k : ℂ => 1 + k) 1 k := (hasDerivAt_id k).const_add 1
  have dm : HasDerivAt (fun k : ℂ => 1 - k) (-1) k := by simpa using (hasDerivAt_id k).const_sub 1
  have dp2 : HasDerivAt (fun k : ℂ => (1 + k) ^ 2) (2 * (1 + k)) k := (dp.pow 2).congr_deriv (by norm_num)
  have dkm : HasDerivAt (fun k : ℂ => k * (1 - k)) (1 - 2 * k) k := ((hasDerivAt_id k).mul dm).congr_deriv (by simp; ring)
  have dkm2 : HasDerivAt (fun k : ℂ => k ^ 2 * (1 - k) ^ 2) (2 * (k * (1 - k)) * (1 - 2 * k)) k := by
    have := dkm.pow 2
    refine (this.congr_deriv (by norm_num)).congr_of_eventuallyEq (Filter.Eventually.of_forall fun k => ?_)
    simp [mul_pow]
  refine ⟨?_, ?_, ?_⟩
  · refine ((dp2.mul dW).const_mul lanC).congr_deriv ?_
    rw [hα, lanS]
    generalize kW (k ^ 2) = W
    generalize kS (k ^ 2) = S
    field_simp
    ring
  · refine (((dkm.mul dW).add (dS.const_mul 2)).const_mul lanC).congr_deriv ?_
    rw [hα, lanW, lanQ]
    generalize kW (k ^ 2) = W
    generalize kS (k ^ 2) = S
    generalize kQ (k ^ 2) = Q
    field_simp
    ring
  · have h := ((((dkm2.mul dW).add ((dkm.const_mul 4).mul dS)).add (dQ.const_mul 4)).div dp2 (pow_ne_zero 2 hp)).const_mul lanC
    refine h.congr_deriv ?_
    rw [lanS]
    simp only [Pi.add_apply, Pi.mul_apply]
    generalize kW (k ^ 2) = W
    generalize kS (k ^ 2) = S
    generalize kQ (k ^ 2) = Q
    field_simp
    ring

private lemma landen_small : ∃ r : ℝ, 0 < r ∧ r ≤ 1 / 4 ∧
    ∀ x ∈ Set.Ioo (0 : ℝ) r, (1 + (x : ℂ)) ^ 2 * kW ((x : ℂ) ^ 2) = kW (landenM x) := by
  have hn : ∀ x ∈ Set.Icc (0 : ℝ) (1 / 4), ‖(x : ℂ)‖ < 1 := fun x hx => by
    rw [Complex.norm_real, Real.norm_eq_abs, abs_of_nonneg hx.1]
    linarith [hx.2]
  have hx0 : ∀ x ∈ Set.Ioo (0 : ℝ) (1 / 4), (x : ℂ) ≠ 0 := fun x hx => by exact_mod_cast hx.1.ne'
  have cK : ContinuousOn (fun x : ℝ => ellipK ((x : ℂ) ^ 2)) (Set.Icc 0 (1 / 4)) := fun x hx =>
    ContinuousAt.comp_continuousWithinAt (f := fun x : ℝ => (x : ℂ) ^ 2) (ellipK_deriv (sq_ball_mem_ellipDom (hn x hx))).continuousAt
      (by fun_prop)
  have cK' : ContinuousOn (fun x : ℝ => ellipK' ((x : ℂ) ^ 2)) (Set.Icc 0 (1 / 4)) := fun x hx =>
    ContinuousAt.comp_continuousWithinAt (f := fun x : ℝ => (x : ℂ) ^ 2) (ellipK'_deriv (sq_ball_mem_ellipDom (hn x hx))).continuousAt
      (by fun_prop)
  have cp : Continuous fun x : ℝ => (x : ℂ) ^ 2 * (1 - (x : ℂ) ^ 2) := by fun_prop
  have cW : ContinuousOn (fun x : ℝ => kW ((x : ℂ) ^ 2)) (Set.Icc 0 (1 / 4)) := cK.pow 2
  have cS : ContinuousOn (fun x : ℝ => kS ((x : ℂ) ^ 2)) (Set.Icc 0 (1 / 4)) := cp.continuousOn.mul (cK.mul cK')
  have cQ : ContinuousOn (fun x : ℝ => kQ ((x : ℂ) ^ 2)) (Set.Icc 0 (1 / 4)) := (cp.continuousOn.mul cK').pow 2
  have hpi : (Real.pi : ℂ) ≠ 0 := by exact_mod_cast Real.pi_ne_zero
  obtain ⟨r, hr0, hrR, hr⟩ := eq_kW_of_system (w := fun x => lanW x) (s := fun x => lanS x) (q := fun x => lanQ x)
    (μ := fun x => landenM x) (μ' := fun x => 4 * (1 - (x : ℂ)) / (1 + (x : ℂ)) ^ 3) (R := 1 / 4) (A := 2) (B := 4)
    (by norm_num) (by norm_num) (by norm_num)
    (by
      unfold lanW
      exact continuousOn_const.mul (ContinuousOn.mul (by fun_prop) cW))
    (by
      unfold lanS
      exact continuousOn_const.mul ((ContinuousOn.mul (by fun_prop) cW).add (continuousOn_const.mul cS)))
    (by
      unfold lanQ
      refine continuousOn_const.mul (ContinuousOn.div (((ContinuousOn.mul (by fun_prop) cW).add (ContinuousOn.mul (by fun_prop) cS)).add
        (continuousOn_const.mul cQ)) (by fun_prop) fun x hx => pow_ne_zero 2 (one_add_ne_ball (hn x hx))))
    (by
      simp only [lanW, lanC, Complex.ofReal_zero]
      norm_num
      rw [kW_zero]
      field_simp)
    (by simp [lanS, kS_zero]) (by simp [lanQ, kQ_zero])
    (fun x hx => ((hasDerivAt_landenM (one_add_ne_ball (hn x hx))).comp_ofReal).continuousAt.continuousWithinAt)
    (by simp [landenM])
    (fun x hx => landenM_mem (hn x hx))
    (fun x hx => by
      have h := hn x ⟨hx.1.le, hx.2.le⟩
      rw [one_sub_landenM (one_add_ne_ball h), landenM]
      have h1 := one_add_ne_ball h
      have h2 := one_sub_ne_ball h
      have h3 := hx0 x hx
      exact mul_ne_zero (div_ne_zero (mul_ne_zero (by norm_num) h3) (pow_ne_zero 2 h1)) (pow_ne_zero 2 (div_ne_zero h2 h1)))
    (fun x hx => (hasDerivAt_landenM (one_add_ne_ball (hn x ⟨hx.1.le, hx.2.le⟩))).comp_ofReal)
    (fun x hx => by
      have h := hn x ⟨hx.1.le, hx.2.le⟩
      have h1 := one_add_ne_ball h
      have h2 := one_sub_ne_ball h
      have h3 := hx0 x hx
      have hα : (4 * (1 - (x : ℂ)) / (1 + (x : ℂ)) ^ 3) / (landenM x * (1 - landenM x)) = (((1 + x) / (x * (1 - x)) : ℝ) : ℂ) := by
        rw [one_sub_landenM h1, landenM]
        push_cast
        field_simp
      rw [hα, Complex.norm_real, Real.norm_eq_abs]
      have h4 : 0 < 1 - x := by linarith [hx.2]
      have h5 := hx.1
      rw [abs_of_pos (by positivity), div_le_div_iff₀ (by positivity) h5]
      nlinarith [hx.2, hx.1])
    (fun x hx => by
      have h4 : 0 < 1 - x := by linarith [hx.2]
      have h5 := hx.1
      have e : 4 * (1 - (x : ℂ)) / (1 + (x : ℂ)) ^ 3 = ((4 * (1 - x) / (1 + x) ^ 3 : ℝ) : ℂ) := by push_cast; rfl
      rw [e, Complex.norm_real, Real.norm_eq_abs, abs_of_pos (by positivity), div_le_iff₀ (by positivity)]
      have : (1 : ℝ) ≤ (1 + x) ^ 3 := one_le_pow₀ (by linarith)
      linarith)
    (fun x hx => (hasDerivAt_lan (hn x ⟨hx.1.le, hx.2.le⟩) (hx0 x hx)).1.comp_ofReal)
    (fun x hx => (hasDerivAt_lan (hn x ⟨hx.1.le, hx.2.le⟩) (hx0 x hx)).2.1.comp_ofReal)
    (fun x hx => (hasDerivAt_lan (hn x ⟨hx.1.le, hx.2.le⟩) (hx0 x hx)).2.2.comp_ofReal)
  refine ⟨r, hr0, hrR, fun x hx => ?_⟩
  have h := hr x hx
  simp only [lanW, lanC, mul_pow] at h
  have hc : ((2 : ℂ) / Real.pi) ^ 2 ≠ 0 := pow_ne_zero 2 (div_ne_zero two_ne_zero hpi)
  exact mul_left_cancel₀ hc h

/-- **Landen's transformation** for the square of the elliptic integral. -/
lemma landen {k : ℂ} (hk : ‖k‖ < 1) : (1 + k) ^ 2 * kW (k ^ 2) = kW (landenM k) := by
  obtain ⟨r, hr0, hr4, hr⟩ := landen_small
  have dK : ∀ m ∈ ellipDom, DifferentiableAt ℂ kW m := fun m hm => (ellipK_deriv hm).differentiableAt.pow 2
  have hF : DifferentiableOn ℂ (fun k : ℂ => (1 + k) ^ 2 * kW (k ^ 2)) (Metric.ball 0 1) := fun k hk => by
    have hk' : ‖k‖ < 1 := by simpa using hk
    refine DifferentiableAt.differentiableWithinAt (DifferentiableAt.mul (by fun_prop) ?_)
    exact DifferentiableAt.comp (f := fun k : ℂ => k ^ 2) k (dK _ (sq_ball_mem_ellipDom hk')) (by fun_prop)
  have hG : DifferentiableOn ℂ (fun k : ℂ => kW (landenM k)) (Metric.ball 0 1) := fun k hk => by
    have hk' : ‖k‖ < 1 := by simpa using hk
    refine DifferentiableAt.differentiableWithinAt ?_
    exact DifferentiableAt.comp (f := landenM) k (dK _ (landenM_mem hk')) (hasDerivAt_landenM (one_add_ne_ball hk')).differentiableAt
  have hz : ((r / 2 : ℝ) : ℂ) ∈ Metric.ball (0 : ℂ) 1 := by
    rw [mem_ball_zero_iff, Complex.norm_real, Real.norm_eq_abs, abs_of_pos (by positivity)]
    linarith
  refine (hF.analyticOnNhd Metric.isOpen_ball).eqOn_of_preconnected_of_frequently_eq
    (hG.analyticOnNhd Metric.isOpen_ball) (convex_ball 0 1).isPreconnected hz ?_ (by simpa using hk)
  have ht : Filter.Tendsto (fun x : ℝ => (x : ℂ)) (𝓝[≠] (r / 2)) (𝓝[≠] ((r / 2 : ℝ) : ℂ)) := by
    apply tendsto_nhdsWithin_of_tendsto_nhds_of_eventually_within
    · exact (Complex.continuous_ofReal.tendsto _).mono_left nhdsWithin_le_nhds
    · filter_upwards [self_mem_nhdsWithin] with x hx
      intro h
      exact hx (Complex.ofReal_injective h)
  refine ht.frequently (Filter.Eventually.frequently ?_)
  filter_upwards [mem_nhdsWithin_of_mem_nhds (Ioo_mem_nhds (show (0 : ℝ) < r / 2 by positivity) (show r / 2 < r by linarith))] with x hx
  exact hr x hx

end Gftool.Lemmas
