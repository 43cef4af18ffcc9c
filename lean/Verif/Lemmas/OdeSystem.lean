import Mathlib.Tactic
import Mathlib.Analysis.Calculus.MeanValue
import Mathlib.Analysis.Calculus.Deriv.Pow
import Mathlib.Analysis.Complex.Basic
import Mathlib.Analysis.Calculus.SmoothSeries
import Mathlib.Analysis.SpecificLimits.Normed
import Mathlib.Topology.Order.Compact

/-!
# Power series and singular linear systems

The squares `w = y²` of the solutions of a linear differential equation of second order, with
`s = p y y'` and `q = (p y')²`, fulfil a linear system, whose regular solution is unique.
-/

namespace Gftool.Lemmas

open Filter Topology

/-- A power series with polynomially bounded coefficients can be differentiated. -/
lemma hasDerivAt_powerSeries {c : ℕ → ℝ} {C : ℝ} {j : ℕ} (hc : ∀ n, |c n| ≤ C * (n : ℝ) ^ j + C) {x : ℝ}
    (hx : |x| < 1) :
    HasDerivAt (fun x => ∑' n, c n * x ^ n) (∑' n, c n * (n * x ^ (n - 1))) x := by
  obtain ⟨r, hr1, hr2⟩ := exists_between hx
  have hr0 : 0 ≤ r := (abs_nonneg x).trans hr1.le
  have hrn : ‖r‖ < 1 := by rw [Real.norm_eq_abs, abs_of_nonneg hr0]; exact hr2
  have hs : ∀ k : ℕ, Summable fun n : ℕ => (n : ℝ) ^ k * r ^ n :=
    fun k => summable_pow_mul_geometric_of_norm_lt_one k hrn
  have hC : 0 ≤ C := by
    have := (abs_nonneg _).trans (hc 0)
    rcases j with _ | j
    · simp at this; linarith
    · simpa using this
  -- a summable bound of the derivatives
  have hsum : Summable fun n : ℕ => (C * (n : ℝ) ^ j + C) * (n * r ^ (n - 1)) := by
    rw [← summable_nat_add_iff 1]
    have h1 : Summable fun n : ℕ => ((n + 1 : ℕ) : ℝ) ^ (j + 1) * r ^ (n + 1) :=
      (summable_nat_add_iff 1).2 (hs (j + 1))
    have h2 : Summable fun n : ℕ => ((n + 1 : ℕ) : ℝ) ^ 1 * r ^ (n + 1) :=
      (summable_nat_add_iff 1).2 (hs 1)
    by_cases hr : r = 0
    · refine summable_of_ne_finset_zero (s := {0}) fun n hn => ?_
      have : n ≠ 0 := by simpa using hn
      simp [hr, this]
    · have h3 := ((h1.add h2).mul_left (C / r))
      refine h3.congr fun n => ?_
      simp only [Nat.add_sub_cancel]
      field_simp
      ring
  refine hasDerivAt_tsum_of_isPreconnected (u := fun n : ℕ => (C * (n : ℝ) ^ j + C) * (n * r ^ (n - 1))) hsum
    (g := fun n x => c n * x ^ n) (g' := fun n x => c n * (n * x ^ (n - 1))) (t := Metric.ball (0 : ℝ) r)
    Metric.isOpen_ball (convex_ball (0 : ℝ) r).isPreconnected (y₀ := 0) (y := x) ?_ ?_ ?_ ?_ ?_
  · intro n y _
    have := (hasDerivAt_pow n y).const_mul (c n)
    exact this
  · intro n y hy
    have hy' : |y| ≤ r := by
      have := mem_ball_zero_iff.1 hy
      exact this.le
    rw [Real.norm_eq_abs, abs_mul]
    refine mul_le_mul (hc n) ?_ (abs_nonneg _) (by positivity)
    rw [abs_mul, abs_pow, Nat.abs_cast]
    gcongr
  · have : 0 < r := lt_of_le_of_lt (abs_nonneg x) hr1
    simpa using this
  · refine summable_of_ne_finset_zero (s := {0}) fun n hn => ?_
    have : n ≠ 0 := by simpa using hn
    simp [this]
  · rw [mem_ball_zero_iff]; exact hr1

/-- Mean value inequality with the derivative on the open interval. -/
lemma norm_le_of_deriv {f f' : ℝ → ℂ} {r C : ℝ} (hc : ContinuousOn f (Set.Icc 0 r)) (h0 : f 0 = 0)
    (hd : ∀ x ∈ Set.Ioo 0 r, HasDerivAt f (f' x) x) (hb : ∀ x ∈ Set.Ioo 0 r, ‖f' x‖ ≤ C) {x : ℝ}
    (hx : x ∈ Set.Ioo 0 r) : ‖f x‖ ≤ C * x := by
  have h1 : ∀ e ∈ Set.Ioo 0 x, ‖f x - f e‖ ≤ C * (x - e) := by
    intro e he
    have hsub : ∀ t ∈ Set.Icc e x, t ∈ Set.Ioo 0 r := fun t ht => ⟨by linarith [he.1, ht.1], by linarith [hx.2, ht.2]⟩
    refine norm_image_sub_le_of_norm_deriv_le_segment' (f' := f') (fun t ht => (hd t (hsub t ht)).hasDerivWithinAt)
      (fun t ht => hb t (hsub t ⟨ht.1, ht.2.le⟩)) x ⟨he.2.le, le_rfl⟩
  have hr : (0 : ℝ) ≤ r := by linarith [hx.1, hx.2]
  have t1 : Tendsto f (𝓝[>] 0) (𝓝 0) := by
    have := (hc 0 ⟨le_rfl, hr⟩).tendsto
    rw [h0] at this
    refine this.mono_left ?_
    have : 𝓝[>] (0 : ℝ) = 𝓝[Set.Ioo 0 r] 0 := (nhdsWithin_Ioo_eq_nhdsGT (by linarith [hx.1, hx.2])).symm
    rw [this]
    exact nhdsWithin_mono _ Set.Ioo_subset_Icc_self
  have t2 : Tendsto (fun e => ‖f x - f e‖) (𝓝[>] 0) (𝓝 ‖f x‖) := by
    have := (tendsto_const_nhds (x := f x)).sub t1
    rw [sub_zero] at this
    exact this.norm
  have t3 : Tendsto (fun e : ℝ => C * (x - e)) (𝓝[>] 0) (𝓝 (C * x)) := by
    have : Tendsto (fun e : ℝ => C * (x - e)) (𝓝 0) (𝓝 (C * (x - 0))) := by
      apply Continuous.tendsto; fun_prop
    rw [sub_zero] at this
    exact this.mono_left nhdsWithin_le_nhds
  refine le_of_tendsto_of_tendsto t2 t3 ?_
  filter_upwards [Ioo_mem_nhdsGT hx.1] with e he
  exact h1 e he

/-- The regular solution of the singular system is unique: a solution that vanishes at the origin
vanishes close to it. -/
lemma system_zero {w s q α β : ℝ → ℂ} {R A B : ℝ} (hR : 0 < R) (hA : 0 ≤ A) (hB : 0 ≤ B)
    (hw : ContinuousOn w (Set.Icc 0 R)) (hs : ContinuousOn s (Set.Icc 0 R)) (hq : ContinuousOn q (Set.Icc 0 R))
    (hw0 : w 0 = 0) (hs0 : s 0 = 0) (hq0 : q 0 = 0)
    (hα : ∀ x ∈ Set.Ioo 0 R, ‖α x‖ ≤ A / x) (hβ : ∀ x ∈ Set.Ioo 0 R, ‖β x‖ ≤ B)
    (hw' : ∀ x ∈ Set.Ioo 0 R, HasDerivAt w (2 * α x * s x) x)
    (hs' : ∀ x ∈ Set.Ioo 0 R, HasDerivAt s (β x * w x / 4 + α x * q x) x)
    (hq' : ∀ x ∈ Set.Ioo 0 R, HasDerivAt q (β x * s x / 2) x) :
    ∃ r, 0 < r ∧ r ≤ R ∧ ∀ x ∈ Set.Ioo 0 r, w x = 0 := by
  set L : ℝ := 2 * (B / 4 + A * B / 2) * (1 + 2 * A) + 1 with hL
  have hL1 : 1 ≤ L := by rw [hL]; have : 0 ≤ 2 * (B / 4 + A * B / 2) * (1 + 2 * A) := by positivity
                         linarith
  set r : ℝ := min R (1 / (2 * L)) with hr
  have hr0 : 0 < r := lt_min hR (by positivity)
  have hrR : r ≤ R := min_le_left _ _
  have hrL : r * L ≤ 1 / 2 := by
    have : r ≤ 1 / (2 * L) := min_le_right _ _
    calc r * L ≤ 1 / (2 * L) * L := by gcongr
      _ = 1 / 2 := by field_simp
  refine ⟨r, hr0, hrR, ?_⟩
  have hsubc : Set.Icc 0 r ⊆ Set.Icc 0 R := Set.Icc_subset_Icc_right hrR
  have hsubo : ∀ x ∈ Set.Ioo 0 r, x ∈ Set.Ioo 0 R := fun x hx => ⟨hx.1, lt_of_lt_of_le hx.2 hrR⟩
  -- a common bound
  obtain ⟨M0, hM0⟩ : ∃ M0, ∀ x ∈ Set.Icc 0 r, ‖w x‖ + ‖s x‖ ≤ M0 := by
    have hcont : ContinuousOn (fun x => ‖w x‖ + ‖s x‖) (Set.Icc 0 r) :=
      ((hw.mono hsubc).norm).add ((hs.mono hsubc).norm)
    obtain ⟨x0, _, hx0⟩ := isCompact_Icc.exists_isMaxOn ⟨0, ⟨le_rfl, hr0.le⟩⟩ hcont
    exact ⟨_, fun x hx => hx0 hx⟩
  have hstep : ∀ M, (∀ x ∈ Set.Ioo 0 r, ‖w x‖ + ‖s x‖ ≤ M) → ∀ x ∈ Set.Ioo 0 r, ‖w x‖ + ‖s x‖ ≤ M / 2 := by
    intro M hM x hx
    have hM0 : 0 ≤ M := (add_nonneg (norm_nonneg _) (norm_nonneg _)).trans (hM x hx)
    have hsM : ∀ x ∈ Set.Ioo 0 r, ‖s x‖ ≤ M := fun x hx => by linarith [hM x hx, norm_nonneg (w x)]
    have hwM : ∀ x ∈ Set.Ioo 0 r, ‖w x‖ ≤ M := fun x hx => by linarith [hM x hx, norm_nonneg (s x)]
    have b1 : ∀ x ∈ Set.Ioo 0 r, ‖q x‖ ≤ B * M / 2 * x := by
      intro x hx
      refine norm_le_of_deriv (hq.mono hsubc) hq0 (fun x hx => hq' x (hsubo x hx)) (fun x hx => ?_) hx
      rw [norm_div, norm_mul]
      have : ‖(2 : ℂ)‖ = 2 := by norm_num
      rw [this]
      have := mul_le_mul (hβ x (hsubo x hx)) (hsM x hx) (norm_nonneg _) hB
      linarith
    have b2 : ∀ x ∈ Set.Ioo 0 r, ‖s x‖ ≤ (B / 4 + A * B / 2) * M * x := by
      intro x hx
      refine norm_le_of_deriv (hs.mono hsubc) hs0 (fun x hx => hs' x (hsubo x hx)) (fun x hx => ?_) hx
      refine (norm_add_le _ _).trans ?_
      rw [norm_div, norm_mul, norm_mul]
      have h4 : ‖(4 : ℂ)‖ = 4 := by norm_num
      rw [h4]
      have h1 := mul_le_mul (hβ x (hsubo x hx)) (hwM x hx) (norm_nonneg _) hB
      have h2 := mul_le_mul (hα x (hsubo x hx)) (b1 x hx) (norm_nonneg _) (div_nonneg hA hx.1.le)
      have h3 : A / x * (B * M / 2 * x) = A * B / 2 * M := by
        have := hx.1.ne'
        field_simp
      rw [h3] at h2
      linarith
    have b3 : ∀ x ∈ Set.Ioo 0 r, ‖w x‖ ≤ 2 * A * (B / 4 + A * B / 2) * M * x := by
      intro x hx
      refine norm_le_of_deriv (hw.mono hsubc) hw0 (fun x hx => hw' x (hsubo x hx)) (fun x hx => ?_) hx
      rw [norm_mul, norm_mul]
      have h2' : ‖(2 : ℂ)‖ = 2 := by norm_num
      rw [h2']
      have h2 := mul_le_mul (hα x (hsubo x hx)) (b2 x hx) (norm_nonneg _) (div_nonneg hA hx.1.le)
      have h3 : A / x * ((B / 4 + A * B / 2) * M * x) = A * (B / 4 + A * B / 2) * M := by
        have := hx.1.ne'
        field_simp
      rw [h3] at h2
      linarith
    have h1 := b2 x hx
    have h2 := b3 x hx
    have hK : 0 ≤ (B / 4 + A * B / 2) * (1 + 2 * A) * M := by positivity
    have h3 : ‖w x‖ + ‖s x‖ ≤ (B / 4 + A * B / 2) * (1 + 2 * A) * M * x := by linarith
    have h4 : (B / 4 + A * B / 2) * (1 + 2 * A) * M * x ≤ L * M * r := by
      refine mul_le_mul ?_ hx.2.le hx.1.le (by positivity)
      rw [hL]
      nlinarith
    have h5 : L * M * r ≤ M / 2 := by nlinarith
    linarith
  have hall : ∀ n : ℕ, ∀ x ∈ Set.Ioo 0 r, ‖w x‖ + ‖s x‖ ≤ M0 * (1 / 2) ^ n := by
    intro n
    induction n with
    | zero => intro x hx; simpa using hM0 x ⟨hx.1.le, hx.2.le⟩
    | succ n ih =>
      intro x hx
      have := hstep _ ih x hx
      rw [pow_succ]
      linarith
  intro x hx
  have hlim : Tendsto (fun n : ℕ => M0 * (1 / 2 : ℝ) ^ n) atTop (𝓝 0) := by
    have := (tendsto_pow_atTop_nhds_zero_of_lt_one (by norm_num : (0 : ℝ) ≤ 1 / 2) (by norm_num)).const_mul M0
    simpa using this
  have hle : ‖w x‖ + ‖s x‖ ≤ 0 := ge_of_tendsto' hlim fun n => hall n x hx
  have : ‖w x‖ ≤ 0 := by linarith [norm_nonneg (s x)]
  exact norm_le_zero_iff.1 this

end Gftool.Lemmas
