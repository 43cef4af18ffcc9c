import Verif.Spec.Bands
import Verif.Lemmas.OdeSystem
import Verif.Lemmas.Identity
import Mathlib.MeasureTheory.Integral.DominatedConvergence

/-!
# Green's functions far from the band
-/

namespace Gftool.Lemmas

open Gftool Spec MeasureTheory Filter Topology

/-- Power series `∑ c n n^j x^n`. -/
noncomputable def dser (c : ℕ → ℝ) (j : ℕ) (x : ℝ) : ℝ := ∑' n, c n * (n : ℝ) ^ j * x ^ n

lemma summable_dser {c : ℕ → ℝ} (hc : ∀ n, |c n| ≤ 1) (j : ℕ) {x : ℝ} (hx : |x| < 1) :
    Summable fun n => c n * (n : ℝ) ^ j * x ^ n := by
  have h := summable_pow_mul_geometric_of_norm_lt_one j (show ‖|x|‖ < 1 by rwa [Real.norm_eq_abs, abs_abs])
  refine Summable.of_norm_bounded h fun n => ?_
  rw [Real.norm_eq_abs, abs_mul, abs_mul, abs_pow, abs_pow, Nat.abs_cast]
  have := mul_le_mul_of_nonneg_right (hc n) (show 0 ≤ (n : ℝ) ^ j * |x| ^ n by positivity)
  rw [one_mul] at this
  linarith

lemma hasDerivAt_dser {c : ℕ → ℝ} (hc : ∀ n, |c n| ≤ 1) (j : ℕ) {x : ℝ} (hx0 : x ≠ 0) (hx : |x| < 1) :
    HasDerivAt (dser c j) (dser c (j + 1) x / x) x := by
  have h := hasDerivAt_powerSeries (c := fun n => c n * (n : ℝ) ^ j) (C := 1) (j := j) (x := x)
    (fun n => by
      rw [abs_mul, abs_pow, Nat.abs_cast]
      have := mul_le_mul_of_nonneg_right (hc n) (show 0 ≤ (n : ℝ) ^ j by positivity)
      linarith) hx
  refine h.congr_deriv ?_
  unfold dser
  rw [eq_div_iff hx0, ← tsum_mul_right]
  congr 1
  funext n
  rcases n with _ | n
  · simp
  · rw [Nat.add_sub_cancel]
    ring

lemma continuousAt_dser {c : ℕ → ℝ} (hc : ∀ n, |c n| ≤ 1) (j : ℕ) {x : ℝ} (hx : |x| < 1) :
    ContinuousAt (dser c j) x :=
  (hasDerivAt_powerSeries (c := fun n => c n * (n : ℝ) ^ j) (C := 1) (j := j) (x := x)
    (fun n => by
      rw [abs_mul, abs_pow, Nat.abs_cast]
      have := mul_le_mul_of_nonneg_right (hc n) (show 0 ≤ (n : ℝ) ^ j by positivity)
      linarith) hx).continuousAt

lemma dser_zero (c : ℕ → ℝ) : dser c 0 0 = c 0 := by
  unfold dser
  rw [tsum_eq_single 0 fun n hn => by simp [hn]]
  simp

lemma dser_succ_zero (c : ℕ → ℝ) (j : ℕ) : dser c (j + 1) 0 = 0 := by
  unfold dser
  rw [tsum_eq_single 0 fun n hn => by simp [hn]]
  simp

/-- Splitting off the lowest order. -/
lemma dser_shift {c : ℕ → ℝ} (hc : ∀ n, |c n| ≤ 1) (j : ℕ) {x : ℝ} (hx : |x| < 1) :
    dser c (j + 1) x = x * ∑' n : ℕ, c (n + 1) * ((n : ℝ) + 1) ^ (j + 1) * x ^ n := by
  unfold dser
  rw [(summable_dser hc (j + 1) hx).tsum_eq_zero_add, ← tsum_mul_left]
  simp only [Nat.cast_zero, ne_eq, Nat.add_eq_zero_iff, one_ne_zero, and_false, not_false_eq_true, zero_pow,
    mul_zero, zero_mul, zero_add]
  congr 1
  funext n
  push_cast
  ring

/-- The Green's function above the band is the generating function of the moments. -/
lemma bzGreen_series {κ : Type*} [MeasurableSpace κ] {μ : Measure κ} [IsProbabilityMeasure μ] {disp : κ → ℝ}
    (hm : Measurable disp) (hb : ∀ k, |disp k| ≤ 1) {x : ℝ} (hx : 1 < x) :
    bzGreen μ disp x = ((1 / x * dser (bandMoment μ disp) 0 (1 / x) : ℝ) : ℂ) := by
  have hx0 : 0 < x := by linarith
  set t := 1 / x with ht
  have ht0 : 0 < t := by positivity
  have ht1 : t < 1 := by rw [ht, div_lt_one hx0]; exact hx
  have hint : ∀ n : ℕ, Integrable (fun k => disp k ^ n * t ^ n) μ := fun n =>
    Integrable.of_bound (by fun_prop) 1 (Filter.Eventually.of_forall fun k => by
      rw [Real.norm_eq_abs, abs_mul, abs_pow, abs_pow, abs_of_pos ht0]
      exact mul_le_one₀ (pow_le_one₀ (abs_nonneg _) (hb k)) (by positivity) (pow_le_one₀ ht0.le ht1.le))
  have hsum := hasSum_integral_of_summable_integral_norm (μ := μ) (F := fun (n : ℕ) k => disp k ^ n * t ^ n) hint (by
    refine Summable.of_nonneg_of_le (fun n => integral_nonneg fun k => norm_nonneg _) (fun n => ?_)
      (summable_geometric_of_lt_one ht0.le ht1)
    have h1 : ∫ k, ‖disp k ^ n * t ^ n‖ ∂μ ≤ ∫ _, t ^ n ∂μ := by
      refine integral_mono (hint n).norm (integrable_const _) fun k => ?_
      simp only
      rw [Real.norm_eq_abs, abs_mul, abs_pow, abs_pow, abs_of_pos ht0]
      exact mul_le_of_le_one_left (by positivity) (pow_le_one₀ (abs_nonneg _) (hb k))
    simpa using h1)
  have h1 : dser (bandMoment μ disp) 0 t = ∫ k, ∑' n : ℕ, disp k ^ n * t ^ n ∂μ := by
    unfold dser
    rw [← hsum.tsum_eq]
    congr 1
    funext n
    rw [integral_mul_const, pow_zero, mul_one]
    rfl
  rw [h1, ← integral_const_mul]
  unfold bzGreen
  rw [← integral_complex_ofReal]
  congr 1
  funext k
  simp_rw [← mul_pow]
  have hk : |disp k * t| < 1 := by
    rw [abs_mul, abs_of_pos ht0]
    calc |disp k| * t ≤ 1 * t := by gcongr; exact hb k
      _ < 1 := by linarith
  rw [tsum_geometric_of_abs_lt_one hk]
  have h2 : 1 - disp k * t ≠ 0 := by
    have := (abs_lt.1 hk).2
    linarith
  have h3 : x - disp k ≠ 0 := by
    have := hb k
    have := (abs_le.1 this).2
    linarith
  have h4 : 1 / (x - disp k) = t * (1 - disp k * t)⁻¹ := by
    rw [ht] at h2 ⊢
    field_simp
  rw [← h4]
  push_cast
  rfl

/-- Series with even powers only. -/
lemma dser_even {c : ℕ → ℝ} (hc : ∀ n, n % 2 ≠ 0 → c n = 0) (x : ℝ) :
    dser c 0 x = dser (fun n => c (2 * n)) 0 (x ^ 2) := by
  unfold dser
  have hinj : Function.Injective fun n : ℕ => 2 * n := fun a b h => by simpa using h
  rw [← hinj.tsum_eq (f := fun n => c n * (n : ℝ) ^ 0 * x ^ n)]
  · congr 1
    funext n
    rw [pow_zero, pow_zero, pow_mul]
  · intro n hn
    by_contra h
    have : n % 2 ≠ 0 := fun h0 => h ⟨n / 2, by simp only; omega⟩
    exact hn (by simp [hc n this])

/-- Two functions analytic off the band agree, if they agree on the real axis far above the band. -/
lemma eq_offBand {f g : ℂ → ℂ} {a b X : ℝ} (hf : DifferentiableOn ℂ f {z | ∀ e ∈ Set.Icc a b, z ≠ (e : ℂ)})
    (hg : DifferentiableOn ℂ g {z | ∀ e ∈ Set.Icc a b, z ≠ (e : ℂ)})
    (h : ∀ x : ℝ, X < x → f x = g x) {z : ℂ} (hz : ∀ e ∈ Set.Icc a b, z ≠ (e : ℂ)) : f z = g z := by
  have hcut : ∀ z ∈ cutPlane b, f z = g z := by
    intro z hz
    have hmem : ((max X b + 1 : ℝ) : ℂ) ∈ cutPlane b := by
      simp only [cutPlane, Set.mem_ofPred_eq, ← Complex.ofReal_sub, Complex.ofReal_mem_slitPlane]
      linarith [le_max_right X b]
    refine ((hf.mono cutPlane_offBand).analyticOnNhd (isOpen_cutPlane b)).eqOn_of_preconnected_of_frequently_eq
      ((hg.mono cutPlane_offBand).analyticOnNhd (isOpen_cutPlane b)) (isPreconnected_cutPlane b) hmem ?_ hz
    have ht : Tendsto (fun x : ℝ => (x : ℂ)) (𝓝[>] (max X b + 1)) (𝓝[≠] ((max X b + 1 : ℝ) : ℂ)) := by
      refine tendsto_nhdsWithin_of_tendsto_nhds_of_eventually_within _ ?_ ?_
      · exact (Complex.continuous_ofReal.tendsto _).mono_left nhdsWithin_le_nhds
      · filter_upwards [self_mem_nhdsWithin] with x hx
        simp only [Set.mem_compl_iff, Set.mem_singleton_iff, Complex.ofReal_inj]
        exact (ne_of_gt hx)
    refine ht.frequently (Filter.Eventually.frequently ?_)
    filter_upwards [self_mem_nhdsWithin] with x hx
    refine h x ?_
    have : max X b + 1 < x := hx
    linarith [le_max_left X b]
  rcases offBand_cases hz with h1 | ⟨x, hx, rfl⟩
  · exact hcut z h1
  · have hnhds := (isOpen_offBand a b).mem_nhds hz
    have c1 := (hf.differentiableAt hnhds).continuousAt
    have c2 := (hg.differentiableAt hnhds).continuousAt
    have hpath : Tendsto (fun δ : ℝ => (x : ℂ) + δ * Complex.I) (𝓝[>] 0) (𝓝 (x : ℂ)) := by
      have : Tendsto (fun δ : ℝ => (x : ℂ) + δ * Complex.I) (𝓝 0) (𝓝 ((x : ℂ) + (0 : ℝ) * Complex.I)) := by
        apply Continuous.tendsto; fun_prop
      simp only [Complex.ofReal_zero, zero_mul, add_zero] at this
      exact this.mono_left nhdsWithin_le_nhds
    have t1 := c1.tendsto.comp hpath
    have t2 := c2.tendsto.comp hpath
    refine tendsto_nhds_unique t1 (t2.congr' ?_)
    filter_upwards [self_mem_nhdsWithin] with δ hδ
    have hδ' : 0 < δ := hδ
    refine (hcut _ ?_).symm
    simp only [cutPlane, Set.mem_ofPred_eq, Complex.mem_slitPlane_iff]
    right
    simpa using hδ'.ne'

end Gftool.Lemmas
