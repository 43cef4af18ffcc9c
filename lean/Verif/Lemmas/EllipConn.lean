import Verif.Lemmas.EllipK
import Mathlib.Analysis.ODE.Gronwall
import Mathlib.Analysis.Complex.Convex
import Mathlib.MeasureTheory.Integral.IntervalIntegral.FundThmCalculus

/-!
# Connection formula of the complete elliptic integral

For `Im m > 0` the elliptic integral is `K(m) = J(m) + i K(1-m)` with `J(m) = ∫ dθ/√(m - sin²θ)`, which provides the
continuation across the cut.  Proof: both sides solve the same linear differential equation of second order, and agree
with their derivatives at `m = exp(iπ/3)`.
-/

namespace Gftool.Lemmas

open Gftool Spec MeasureTheory

open scoped Topology

/-- Differentiation of integrals depending holomorphically on a parameter. -/
lemma hasDerivAt_integral {X : Type*} [MeasurableSpace X] {μ : Measure X} [IsFiniteMeasure μ] {p : X → ℝ}
    (hp : Measurable p) {a b : ℝ} (hab : ∀ x, p x ∈ Set.Icc a b) {S : Set ℂ} (hS : IsOpen S) {f f' : ℂ → ℝ → ℂ}
    (hm : ∀ m, Measurable (f m)) (hm' : ∀ m, Measurable (f' m)) (hc : ∀ m ∈ S, ContinuousOn (f m) (Set.Icc a b))
    (hc' : ContinuousOn (Function.uncurry f') (S ×ˢ Set.Icc a b))
    (hd : ∀ m ∈ S, ∀ s ∈ Set.Icc a b, HasDerivAt (fun m => f m s) (f' m s) m) {m₀ : ℂ} (hm₀ : m₀ ∈ S) :
    HasDerivAt (fun m => ∫ x, f m (p x) ∂μ) (∫ x, f' m₀ (p x) ∂μ) m₀ := by
  obtain ⟨r, hr, hball⟩ := Metric.isOpen_iff.1 hS m₀ hm₀
  have hcb : Metric.closedBall m₀ (r / 2) ⊆ S := (Metric.closedBall_subset_ball (by linarith)).trans hball
  have hcomp : IsCompact (Metric.closedBall m₀ (r / 2) ×ˢ Set.Icc a b) := (isCompact_closedBall _ _).prod isCompact_Icc
  obtain ⟨C, hC⟩ := hcomp.exists_bound_of_continuousOn (hc'.mono (Set.prod_mono hcb subset_rfl))
  obtain ⟨C0, hC0⟩ := isCompact_Icc.exists_bound_of_continuousOn (hc m₀ hm₀)
  exact (hasDerivAt_integral_of_dominated_loc_of_deriv_le (μ := μ) (F := fun m x => f m (p x))
    (F' := fun m x => f' m (p x)) (x₀ := m₀) (s := Metric.ball m₀ (r / 2)) (bound := fun _ => C)
    (Metric.ball_mem_nhds m₀ (by positivity))
    (Filter.Eventually.of_forall fun m => ((hm m).comp hp).aestronglyMeasurable)
    (Integrable.of_bound ((hm m₀).comp hp).aestronglyMeasurable C0
      (Filter.Eventually.of_forall fun x => hC0 _ (hab x)))
    ((hm' m₀).comp hp).aestronglyMeasurable
    (Filter.Eventually.of_forall fun x m hmb => hC (m, p x) ⟨Metric.ball_subset_closedBall hmb, hab x⟩)
    (integrable_const C)
    (Filter.Eventually.of_forall fun x m hmb => hd m (hcb (Metric.ball_subset_closedBall hmb)) _ (hab x))).2

/-- The radicand `a + b m + (c + d m) s`. -/
def rad (a b c d : ℂ) (m : ℂ) (s : ℝ) : ℂ := a + b * m + (c + d * m) * s

/-- Integrals of powers of the root of the radicand. -/
noncomputable def radInt (a b c d : ℂ) (g : ℝ → ℂ) (k : ℕ) (m : ℂ) : ℂ :=
  ∫ θ in (0 : ℝ)..Real.pi / 2, g (Real.sin θ ^ 2) / Complex.sqrt (rad a b c d m (Real.sin θ ^ 2)) ^ k

lemma hasDerivAt_radInt {a b c d : ℂ} {S : Set ℂ} (hS : IsOpen S)
    (hq : ∀ m ∈ S, ∀ s ∈ Set.Icc (0 : ℝ) 1, rad a b c d m s ∈ Complex.slitPlane) {g : ℝ → ℂ} (hg : Continuous g) (k : ℕ)
    {m : ℂ} (hm : m ∈ S) :
    HasDerivAt (radInt a b c d g k) (radInt a b c d (fun s => g s * (-(k / 2) * (b + d * s))) (k + 2) m) m := by
  have hpi := Real.pi_pos
  have hsin := Real.continuous_sin.measurable
  have hgm := hg.measurable
  have hcs : ∀ q ∈ S ×ˢ Set.Icc (0 : ℝ) 1,
      ContinuousAt (fun q : ℂ × ℝ => Complex.sqrt (rad a b c d q.1 q.2)) q := by
    rintro ⟨m, s⟩ h
    refine ContinuousAt.comp (f := fun q : ℂ × ℝ => rad a b c d q.1 q.2) (Lemmas.continuousAt_sqrt (hq _ h.1 _ h.2)) ?_
    unfold rad
    fun_prop
  have key := hasDerivAt_integral (μ := volume.restrict (Set.Ioc 0 (Real.pi / 2))) (p := fun θ => Real.sin θ ^ 2)
    (by fun_prop) (a := 0) (b := 1) (fun θ => ⟨sq_nonneg _, Real.sin_sq_le_one θ⟩) hS
    (f := fun m s => g s / Complex.sqrt (rad a b c d m s) ^ k)
    (f' := fun m s => g s * (-(k / 2) * (b + d * s)) / Complex.sqrt (rad a b c d m s) ^ (k + 2))
    (fun m => by unfold Complex.sqrt rad; fun_prop) (fun m => by unfold Complex.sqrt rad; fun_prop)
    (fun m hm s hs => by
      apply ContinuousAt.continuousWithinAt
      refine ContinuousAt.div (by fun_prop) (ContinuousAt.pow ?_ k) (pow_ne_zero _ (sqrt_ne_zero (hq m hm s hs)))
      exact ContinuousAt.comp (f := fun s : ℝ => (m, s)) (hcs (m, s) ⟨hm, hs⟩) (by fun_prop))
    (fun q hqm => by
      apply ContinuousAt.continuousWithinAt
      simp only [Function.uncurry_def]
      exact ContinuousAt.div (by fun_prop) ((hcs q hqm).pow (k + 2)) (pow_ne_zero _ (sqrt_ne_zero (hq _ hqm.1 _ hqm.2))))
    (fun m hm s hs => by
      have h1 := hq m hm s hs
      have h2 : HasDerivAt (fun m : ℂ => rad a b c d m s) (b + d * s) m := by
        unfold rad
        have h : HasDerivAt (fun m : ℂ => a + b * m + (c + d * m) * s) _ m :=
          (((hasDerivAt_id m).const_mul b).const_add a).add
          ((((hasDerivAt_id m).const_mul d).const_add c).mul_const (s : ℂ))
        exact h.congr_deriv (by simp)
      have h0 : HasDerivAt (fun m : ℂ => Complex.sqrt (rad a b c d m s)) _ m :=
        HasDerivAt.comp m (h₂ := Complex.sqrt) (hasDerivAt_sqrt h1) h2
      have h3 : HasDerivAt (fun m : ℂ => g s / Complex.sqrt (rad a b c d m s) ^ k) _ m :=
        (hasDerivAt_const m (g s)).div (h0.pow k) (pow_ne_zero k (sqrt_ne_zero h1))
      refine h3.congr_deriv ?_
      have h4 := sqrt_ne_zero h1
      generalize Complex.sqrt (rad a b c d m s) = w at *
      rcases k with _ | k
      · simp
      · simp only [Nat.add_sub_cancel, pow_succ]
        push_cast
        field_simp
        ring)
    hm
  have hform : ∀ (g : ℝ → ℂ) (k : ℕ), radInt a b c d g k = fun m => ∫ θ in Set.Ioc 0 (Real.pi / 2),
      g (Real.sin θ ^ 2) / Complex.sqrt (rad a b c d m (Real.sin θ ^ 2)) ^ k := by
    intro g k
    funext m
    rw [radInt, intervalIntegral.integral_of_le (by linarith : (0 : ℝ) ≤ Real.pi / 2)]
  rw [hform, hform]
  exact key

/-- Total derivatives integrate to zero. -/
lemma integral_total {q : ℝ → ℂ} {q' : ℂ} (hq : ∀ s ∈ Set.Icc (0 : ℝ) 1, q s ∈ Complex.slitPlane)
    (hd : ∀ s, HasDerivAt q q' s) :
    ∫ θ in (0 : ℝ)..Real.pi / 2, ((1 - 2 * (Real.sin θ ^ 2 : ℝ)) * q (Real.sin θ ^ 2)
      - 3 * (Real.sin θ ^ 2 : ℝ) * (1 - (Real.sin θ ^ 2 : ℝ)) * q') / Complex.sqrt (q (Real.sin θ ^ 2)) ^ 5 = 0 := by
  have hmem : ∀ θ : ℝ, q (Real.sin θ ^ 2) ∈ Complex.slitPlane := fun θ => hq _ ⟨sq_nonneg _, Real.sin_sq_le_one θ⟩
  have hqc : Continuous q := continuous_iff_continuousAt.2 fun s => (hd s).continuousAt
  have hcont : Continuous fun θ : ℝ => Complex.sqrt (q (Real.sin θ ^ 2)) := by
    rw [continuous_iff_continuousAt]
    intro θ
    exact ContinuousAt.comp (f := fun θ : ℝ => q (Real.sin θ ^ 2)) (Lemmas.continuousAt_sqrt (hmem θ))
      ((hqc.comp (by fun_prop : Continuous fun θ : ℝ => Real.sin θ ^ 2)).continuousAt)
  have hder : ∀ θ : ℝ, HasDerivAt (fun θ : ℝ => ((Real.sin θ * Real.cos θ : ℝ) : ℂ) / Complex.sqrt (q (Real.sin θ ^ 2)) ^ 3)
      (((1 - 2 * (Real.sin θ ^ 2 : ℝ)) * q (Real.sin θ ^ 2)
      - 3 * (Real.sin θ ^ 2 : ℝ) * (1 - (Real.sin θ ^ 2 : ℝ)) * q') / Complex.sqrt (q (Real.sin θ ^ 2)) ^ 5) θ := by
    intro θ
    have h1 : HasDerivAt (fun θ : ℝ => Real.sin θ ^ 2) (2 * Real.sin θ * Real.cos θ) θ := by
      have h1 : HasDerivAt (fun θ => Real.sin θ ^ 2) _ θ := (Real.hasDerivAt_sin θ).pow 2
      exact h1.congr_deriv (by norm_num)
    have h2 : HasDerivAt (fun θ : ℝ => q (Real.sin θ ^ 2)) ((2 * Real.sin θ * Real.cos θ : ℝ) • q') θ :=
      HasDerivAt.scomp θ (hd _) h1
    have h3 : HasDerivAt (fun θ : ℝ => Complex.sqrt (q (Real.sin θ ^ 2))) _ θ :=
      HasDerivAt.comp θ (h₂ := Complex.sqrt) (hasDerivAt_sqrt (hmem θ)) h2
    have h4 : HasDerivAt (fun θ : ℝ => ((Real.sin θ * Real.cos θ : ℝ) : ℂ)) _ θ :=
      ((Real.hasDerivAt_sin θ).mul (Real.hasDerivAt_cos θ)).ofReal_comp
    have h5 := sqrt_ne_zero (hmem θ)
    have h6 : HasDerivAt (fun θ : ℝ => ((Real.sin θ * Real.cos θ : ℝ) : ℂ) / Complex.sqrt (q (Real.sin θ ^ 2)) ^ 3) _ θ :=
      h4.div (h3.pow 3) (pow_ne_zero 3 h5)
    refine h6.congr_deriv ?_
    have h7 := sqrt_sq' (q (Real.sin θ ^ 2))
    have h8 : ((Real.sin θ : ℝ) : ℂ) ^ 2 + ((Real.cos θ : ℝ) : ℂ) ^ 2 = 1 := by exact_mod_cast Real.sin_sq_add_cos_sq θ
    have h9 : ((Real.cos θ : ℝ) : ℂ) ^ 2 = 1 - ((Real.sin θ : ℝ) : ℂ) ^ 2 := by rw [← h8]; ring
    rw [Complex.real_smul]
    push_cast at h8 h9 ⊢
    generalize Complex.sqrt (q (Real.sin θ ^ 2)) = w at *
    rw [← h7]
    field_simp
    generalize Complex.sin θ = S at *
    generalize Complex.cos θ = C at *
    linear_combination (w ^ 2 - 3 * q' * S ^ 2) * h9
  rw [intervalIntegral.integral_eq_sub_of_hasDerivAt (fun θ _ => hder θ)]
  · simp
  · apply Continuous.intervalIntegrable
    refine Continuous.div ?_ (hcont.pow 5) (fun θ => pow_ne_zero _ (sqrt_ne_zero (hmem θ)))
    fun_prop

lemma continuous_radInt {a b c d m : ℂ} (hq : ∀ s ∈ Set.Icc (0 : ℝ) 1, rad a b c d m s ∈ Complex.slitPlane) {g : ℝ → ℂ}
    (hg : Continuous g) (k : ℕ) :
    Continuous fun θ : ℝ => g (Real.sin θ ^ 2) / Complex.sqrt (rad a b c d m (Real.sin θ ^ 2)) ^ k := by
  have hmem : ∀ θ : ℝ, rad a b c d m (Real.sin θ ^ 2) ∈ Complex.slitPlane :=
    fun θ => hq _ ⟨sq_nonneg _, Real.sin_sq_le_one θ⟩
  refine Continuous.div (by fun_prop) (Continuous.pow ?_ k) (fun θ => pow_ne_zero _ (sqrt_ne_zero (hmem θ)))
  rw [continuous_iff_continuousAt]
  intro θ
  refine ContinuousAt.comp (f := fun θ : ℝ => rad a b c d m (Real.sin θ ^ 2)) (Lemmas.continuousAt_sqrt (hmem θ)) ?_
  unfold rad
  fun_prop

/-- The weights of the first and second derivative. -/
noncomputable def wt1 (b d : ℂ) (s : ℝ) : ℂ := 1 * (-(((1 : ℕ) : ℂ) / 2) * (b + d * s))

@[inherit_doc wt1]
noncomputable def wt2 (b d : ℂ) (s : ℝ) : ℂ := wt1 b d s * (-(((3 : ℕ) : ℂ) / 2) * (b + d * s))

lemma continuous_wt1 (b d : ℂ) : Continuous (wt1 b d) := by unfold wt1; fun_prop
lemma continuous_wt2 (b d : ℂ) : Continuous (wt2 b d) := by unfold wt2 wt1; fun_prop

/-- The hypergeometric differential equation. -/
lemma radInt_ode {a b c d m : ℂ} (hq : ∀ s ∈ Set.Icc (0 : ℝ) 1, rad a b c d m s ∈ Complex.slitPlane) (κ : ℂ)
    (hid : ∀ s : ℝ, m * (1 - m) * wt2 b d s + (1 - 2 * m) * wt1 b d s * rad a b c d m s - rad a b c d m s ^ 2 / 4
      = κ * ((1 - 2 * s) * rad a b c d m s - 3 * s * (1 - s) * (c + d * m))) :
    m * (1 - m) * radInt a b c d (wt2 b d) 5 m + (1 - 2 * m) * radInt a b c d (wt1 b d) 3 m
      - radInt a b c d (fun _ => 1) 1 m / 4 = 0 := by
  have h2 := (continuous_radInt hq (continuous_wt2 b d) 5).intervalIntegrable (μ := volume) 0 (Real.pi / 2)
  have h1 := (continuous_radInt hq (continuous_wt1 b d) 3).intervalIntegrable (μ := volume) 0 (Real.pi / 2)
  have h0 := (continuous_radInt hq (continuous_const (y := (1 : ℂ))) 1).intervalIntegrable (μ := volume) 0 (Real.pi / 2)
  have ht := integral_total (q := fun s => rad a b c d m s) (q' := c + d * m) hq (fun s => by
    have h : HasDerivAt (fun s : ℝ => a + b * m + (c + d * m) * (s : ℂ)) _ s :=
      ((Complex.ofRealCLM.hasDerivAt (x := s)).const_mul (c + d * m)).const_add (a + b * m)
    exact h.congr_deriv (by simp))
  unfold radInt
  rw [← intervalIntegral.integral_const_mul, ← intervalIntegral.integral_const_mul, ← intervalIntegral.integral_div,
    ← intervalIntegral.integral_add (h2.const_mul _) (h1.const_mul _),
    ← intervalIntegral.integral_sub ((h2.const_mul _).add (h1.const_mul _)) (h0.div_const _)]
  rw [← mul_zero κ, ← ht, ← intervalIntegral.integral_const_mul]
  congr 1
  funext θ
  have hw := sqrt_ne_zero (hq (Real.sin θ ^ 2) ⟨sq_nonneg _, Real.sin_sq_le_one θ⟩)
  have hw2 := sqrt_sq' (rad a b c d m (Real.sin θ ^ 2))
  have hi := hid (Real.sin θ ^ 2)
  rw [← mul_div_assoc κ, ← hi]
  generalize Complex.sqrt (rad a b c d m (Real.sin θ ^ 2)) = w at *
  rw [← hw2]
  field_simp

/-- Solutions of the differential equation with vanishing initial values vanish. -/
lemma ode_zero {U : Set ℂ} (hU : Convex ℝ U) {y y1 y2 : ℂ → ℂ} (h1 : ∀ m ∈ U, HasDerivAt y (y1 m) m)
    (h2 : ∀ m ∈ U, HasDerivAt y1 (y2 m) m) (hne : ∀ m ∈ U, m * (1 - m) ≠ 0)
    (hode : ∀ m ∈ U, m * (1 - m) * y2 m + (1 - 2 * m) * y1 m - y m / 4 = 0) {ρ : ℂ} (hρ : ρ ∈ U) (h0 : y ρ = 0)
    (h0' : y1 ρ = 0) {m : ℂ} (hm : m ∈ U) : y m = 0 := by
  set γ : ℝ → ℂ := fun t => ρ + t * (m - ρ) with hγ
  have hγU : ∀ t ∈ Set.Icc (0 : ℝ) 1, γ t ∈ U := by
    intro t ht
    have := hU.add_smul_sub_mem hρ hm ht
    simpa [hγ] using this
  have hγd : ∀ t, HasDerivAt γ (m - ρ) t := by
    intro t
    have h : HasDerivAt (fun t : ℝ => ρ + (t : ℂ) * (m - ρ)) _ t :=
      ((Complex.ofRealCLM.hasDerivAt (x := t)).mul_const (m - ρ)).const_add ρ
    exact h.congr_deriv (by simp)
  have hγc : Continuous γ := by rw [hγ]; fun_prop
  have hcont : ContinuousOn (fun t => (‖1 - 2 * γ t‖ + 1) / ‖γ t * (1 - γ t)‖) (Set.Icc 0 1) := by
    refine ContinuousOn.div (by fun_prop) (by fun_prop) fun t ht => ?_
    exact norm_ne_zero_iff.2 (hne _ (hγU t ht))
  obtain ⟨C, hC⟩ := isCompact_Icc.exists_bound_of_continuousOn hcont
  have hder : ∀ t ∈ Set.Icc (0 : ℝ) 1, HasDerivAt (fun t => (y (γ t), y1 (γ t)))
      (y1 (γ t) * (m - ρ), y2 (γ t) * (m - ρ)) t := by
    intro t ht
    exact HasDerivAt.prodMk (HasDerivAt.comp t (h1 _ (hγU t ht)) (hγd t)) (HasDerivAt.comp t (h2 _ (hγU t ht)) (hγd t))
  have key := eq_zero_of_abs_deriv_le_mul_abs_self_of_eq_zero_right (f := fun t => (y (γ t), y1 (γ t)))
    (f' := fun t => (y1 (γ t) * (m - ρ), y2 (γ t) * (m - ρ))) (K := (1 + C) * ‖m - ρ‖) (a := 0) (b := 1)
    (fun t ht => (hder t ht).continuousAt.continuousWithinAt)
    (fun t ht => (hder t ⟨ht.1, ht.2.le⟩).hasDerivWithinAt) (by simp [hγ, h0, h0'])
    (fun t ht => by
      have htI : t ∈ Set.Icc (0 : ℝ) 1 := ⟨ht.1, ht.2.le⟩
      have hb := hC t htI
      have ho := hode _ (hγU t htI)
      have hn := hne _ (hγU t htI)
      have hn' := norm_pos_iff.2 hn
      rw [Real.norm_eq_abs, abs_of_nonneg (by positivity)] at hb
      have hC0 : 0 ≤ C := le_trans (by positivity) hb
      have ey : ‖y (γ t)‖ ≤ ‖(y (γ t), y1 (γ t))‖ := norm_fst_le (y (γ t), y1 (γ t))
      have ey1 : ‖y1 (γ t)‖ ≤ ‖(y (γ t), y1 (γ t))‖ := norm_snd_le (y (γ t), y1 (γ t))
      generalize ‖(y (γ t), y1 (γ t))‖ = N at *
      have hN : 0 ≤ N := (norm_nonneg _).trans ey
      have e2 : ‖y2 (γ t)‖ ≤ C * N := by
        have e3 : y2 (γ t) = (y (γ t) / 4 - (1 - 2 * γ t) * y1 (γ t)) / (γ t * (1 - γ t)) := by
          rw [eq_div_iff hn]
          linear_combination ho
        rw [e3, norm_div, div_le_iff₀ hn']
        have e4 : ‖y (γ t) / 4 - (1 - 2 * γ t) * y1 (γ t)‖ ≤ N + ‖1 - 2 * γ t‖ * N := by
          refine (norm_sub_le _ _).trans (add_le_add ?_ ?_)
          · rw [norm_div]
            have : ‖(4 : ℂ)‖ = 4 := by simp
            rw [this]
            linarith [norm_nonneg (y (γ t))]
          · rw [norm_mul]
            exact mul_le_mul_of_nonneg_left ey1 (norm_nonneg _)
        rw [div_le_iff₀ hn'] at hb
        refine e4.trans ?_
        calc N + ‖1 - 2 * γ t‖ * N = (‖1 - 2 * γ t‖ + 1) * N := by ring
          _ ≤ C * ‖γ t * (1 - γ t)‖ * N := mul_le_mul_of_nonneg_right hb hN
          _ = C * N * ‖γ t * (1 - γ t)‖ := by ring
      rw [Prod.norm_mk, norm_mul, norm_mul]
      have hg := norm_nonneg (m - ρ)
      apply max_le
      · calc ‖y1 (γ t)‖ * ‖m - ρ‖ ≤ N * ‖m - ρ‖ := mul_le_mul_of_nonneg_right ey1 hg
          _ ≤ (1 + C) * ‖m - ρ‖ * N := by nlinarith [mul_nonneg hC0 (mul_nonneg hg hN)]
      · calc ‖y2 (γ t)‖ * ‖m - ρ‖ ≤ C * N * ‖m - ρ‖ := mul_le_mul_of_nonneg_right e2 hg
          _ ≤ (1 + C) * ‖m - ρ‖ * N := by nlinarith [mul_nonneg hg hN])
    1 ⟨zero_le_one, le_rfl⟩
  have := congrArg Prod.fst key
  simpa [hγ] using this

/-! ## The two integrals -/

/-- `∫ dθ/√(m - sin²θ)`. -/
noncomputable def ellipJ (m : ℂ) : ℂ := ∫ θ in (0 : ℝ)..Real.pi / 2, 1 / Complex.sqrt (m - (Real.sin θ ^ 2 : ℝ))

lemma rad_K (m : ℂ) (s : ℝ) : rad 1 0 0 (-1) m s = 1 - m * s := by unfold rad; ring
lemma rad_J (m : ℂ) (s : ℝ) : rad 0 1 (-1) 0 m s = m - s := by unfold rad; ring

lemma ellipK_eq_radInt : ellipK = radInt 1 0 0 (-1) (fun _ => 1) 1 := by
  funext m
  unfold ellipK radInt
  congr 1
  funext θ
  rw [rad_K, pow_one]
  push_cast
  rfl

lemma ellipJ_eq_radInt : ellipJ = radInt 0 1 (-1) 0 (fun _ => 1) 1 := by
  funext m
  unfold ellipJ radInt
  congr 1
  funext θ
  rw [rad_J, pow_one]

/-- The domain of `ellipJ`. -/
def ellipJDom : Set ℂ := {m | m - 1 ∈ Complex.slitPlane}

lemma isOpen_ellipJDom : IsOpen ellipJDom :=
  Complex.isOpen_slitPlane.preimage (continuous_id.sub continuous_const)

lemma slit_seg_J {m : ℂ} (hm : m ∈ ellipJDom) {s : ℝ} (hs : s ∈ Set.Icc (0 : ℝ) 1) : m - s ∈ Complex.slitPlane := by
  simp only [ellipJDom, Set.mem_ofPred_eq, Complex.mem_slitPlane_iff, Complex.sub_re, Complex.one_re, Complex.sub_im,
    Complex.one_im, sub_zero] at hm
  rw [Complex.mem_slitPlane_iff, Complex.sub_re, Complex.ofReal_re, Complex.sub_im, Complex.ofReal_im, sub_zero]
  exact hm.imp (fun h => by linarith [hs.2]) id

lemma rad_K_mem {m : ℂ} (hm : m ∈ ellipDom) : ∀ s ∈ Set.Icc (0 : ℝ) 1, rad 1 0 0 (-1) m s ∈ Complex.slitPlane := by
  intro s hs
  rw [rad_K]
  exact slit_seg hm hs

lemma rad_J_mem {m : ℂ} (hm : m ∈ ellipJDom) : ∀ s ∈ Set.Icc (0 : ℝ) 1, rad 0 1 (-1) 0 m s ∈ Complex.slitPlane := by
  intro s hs
  rw [rad_J]
  exact slit_seg_J hm hs

lemma hasDerivAt_ellipK {m : ℂ} (hm : m ∈ ellipDom) : HasDerivAt ellipK (radInt 1 0 0 (-1) (wt1 0 (-1)) 3 m) m := by
  rw [ellipK_eq_radInt]
  exact hasDerivAt_radInt isOpen_ellipDom (fun m hm => rad_K_mem hm) continuous_const 1 hm

lemma hasDerivAt_ellipJ {m : ℂ} (hm : m ∈ ellipJDom) : HasDerivAt ellipJ (radInt 0 1 (-1) 0 (wt1 1 0) 3 m) m := by
  rw [ellipJ_eq_radInt]
  exact hasDerivAt_radInt isOpen_ellipJDom (fun m hm => rad_J_mem hm) continuous_const 1 hm

lemma ellipK_ode {m : ℂ} (hm : m ∈ ellipDom) :
    m * (1 - m) * radInt 1 0 0 (-1) (wt2 0 (-1)) 5 m + (1 - 2 * m) * radInt 1 0 0 (-1) (wt1 0 (-1)) 3 m
      - ellipK m / 4 = 0 := by
  rw [ellipK_eq_radInt]
  refine radInt_ode (rad_K_mem hm) (-(1 / 4)) fun s => ?_
  rw [rad_K]
  unfold wt2 wt1
  push_cast
  ring

lemma ellipJ_ode {m : ℂ} (hm : m ∈ ellipJDom) :
    m * (1 - m) * radInt 0 1 (-1) 0 (wt2 1 0) 5 m + (1 - 2 * m) * radInt 0 1 (-1) 0 (wt1 1 0) 3 m
      - ellipJ m / 4 = 0 := by
  rw [ellipJ_eq_radInt]
  refine radInt_ode (rad_J_mem hm) (1 / 4) fun s => ?_
  rw [rad_J]
  unfold wt2 wt1
  push_cast
  ring

/-! ## Initial values at the sixth root of unity -/

lemma sqrt_unique {x w : ℂ} (h : w ^ 2 = x) (hw : 0 < w.re) : Complex.sqrt x = w := by
  have h1 : Complex.sqrt x ^ 2 = w ^ 2 := by rw [sqrt_sq', h]
  have hx : x ∈ Complex.slitPlane := by
    rw [← h, Complex.mem_slitPlane_iff, pow_two, Complex.mul_re, Complex.mul_im]
    by_cases hi : w.im = 0
    · left; rw [hi]; nlinarith
    · right
      have : w.re * w.im + w.im * w.re = 2 * (w.re * w.im) := by ring
      rw [this]
      exact mul_ne_zero two_ne_zero (mul_ne_zero hw.ne' hi)
  have h2 := sqrt_re_pos hx
  rcases sq_eq_sq_iff_eq_or_eq_neg.1 h1 with h3 | h3
  · exact h3
  · rw [h3] at h2
    simp only [Complex.neg_re] at h2
    linarith

lemma integral_reflect (f : ℝ → ℂ) :
    ∫ θ in (0 : ℝ)..Real.pi / 2, f (Real.sin θ ^ 2) = ∫ θ in (0 : ℝ)..Real.pi / 2, f (1 - Real.sin θ ^ 2) := by
  have h := intervalIntegral.integral_comp_sub_left (a := 0) (b := Real.pi / 2)
    (fun θ => f (Real.sin θ ^ 2)) (Real.pi / 2)
  rw [sub_zero, sub_self] at h
  rw [← h]
  congr 1
  funext θ
  rw [Real.sin_pi_div_two_sub, Real.cos_sq']

/-- `exp(iπ/6)`. -/
noncomputable def rootσ : ℂ := ⟨√3 / 2, 1 / 2⟩

lemma rootσ_sq : rootσ ^ 2 = ⟨1 / 2, √3 / 2⟩ := by
  have h := Real.sq_sqrt (show (0 : ℝ) ≤ 3 by norm_num)
  rw [pow_two]
  apply Complex.ext <;> simp [rootσ] <;> nlinarith

lemma rootσ_cube : rootσ ^ 3 = Complex.I := by
  have h := Real.sq_sqrt (show (0 : ℝ) ≤ 3 by norm_num)
  rw [pow_succ, rootσ_sq]
  apply Complex.ext <;> simp [rootσ] <;> nlinarith

lemma rootσ_ne : rootσ ≠ 0 := by
  intro h
  have := congrArg Complex.im h
  simp [rootσ] at this

lemma rootσ_rel : rootσ ^ 4 = rootσ ^ 2 - 1 := by
  rw [show rootσ ^ 4 = rootσ * rootσ ^ 3 by ring, rootσ_cube, rootσ_sq]
  apply Complex.ext <;> simp [rootσ]
  norm_num

/-- `√(1 - (1-ρ)(1-s)) = σ √(1 - ρ s)`. -/
lemma sqrt_reflect {s : ℝ} (hs : s ∈ Set.Icc (0 : ℝ) 1) :
    Complex.sqrt (1 - (1 - rootσ ^ 2) * ((1 - s : ℝ) : ℂ)) = rootσ * Complex.sqrt (1 - rootσ ^ 2 * s) := by
  have h3 := Real.sq_sqrt (show (0 : ℝ) ≤ 3 by norm_num)
  have h3p : 0 < √3 := Real.sqrt_pos.2 (by norm_num)
  have hslit : 1 - rootσ ^ 2 * s ∈ Complex.slitPlane := by
    rw [rootσ_sq, Complex.mem_slitPlane_iff]
    left
    simp
    linarith [hs.2]
  have hre := sqrt_re_pos hslit
  have hsq := sqrt_sq' (1 - rootσ ^ 2 * s)
  apply sqrt_unique
  · rw [mul_pow, hsq]
    push_cast
    linear_combination (-(s : ℂ)) * rootσ_rel
  · have him := congrArg Complex.im hsq
    rw [rootσ_sq] at him hre
    simp only [pow_two, Complex.mul_im, Complex.sub_im, Complex.one_im, Complex.ofReal_re, Complex.ofReal_im, mul_zero,
      zero_add, zero_sub] at him
    have hneg : (Complex.sqrt (1 - ⟨1 / 2, √3 / 2⟩ * (s : ℂ))).im ≤ 0 := by
      by_contra hc
      push Not at hc
      nlinarith [mul_pos hre hc, mul_nonneg h3p.le hs.1]
    rw [rootσ_sq, Complex.mul_re]
    simp only [rootσ]
    nlinarith [mul_pos h3p hre]

/-- `√(ρ - s) = σ √(1 - (1-ρ) s)`. -/
lemma sqrt_rho_sub {s : ℝ} (hs : s ∈ Set.Icc (0 : ℝ) 1) :
    Complex.sqrt (rootσ ^ 2 - s) = rootσ * Complex.sqrt (1 - (1 - rootσ ^ 2) * s) := by
  have h3 := Real.sq_sqrt (show (0 : ℝ) ≤ 3 by norm_num)
  have h3p : 0 < √3 := Real.sqrt_pos.2 (by norm_num)
  have hrepos : 0 < (1 - (1 - rootσ ^ 2) * (s : ℂ)).re := by
    rw [rootσ_sq]
    simp
    linarith [hs.2]
  have hslit : 1 - (1 - rootσ ^ 2) * (s : ℂ) ∈ Complex.slitPlane := Or.inl hrepos
  have hre := sqrt_re_pos hslit
  have hsq := sqrt_sq' (1 - (1 - rootσ ^ 2) * s)
  apply sqrt_unique
  · rw [mul_pow, hsq]
    linear_combination (s : ℂ) * rootσ_rel
  · have hr := congrArg Complex.re hsq
    rw [pow_two, Complex.mul_re] at hr
    generalize Complex.sqrt (1 - (1 - rootσ ^ 2) * s) = w at *
    rw [Complex.mul_re]
    simp only [rootσ]
    have h1 : (1 : ℝ) < √3 := by
      rw [Real.lt_sqrt (by norm_num)]
      norm_num
    have h2 : w.im < w.re := by
      by_contra hc
      push Not at hc
      nlinarith
    nlinarith

lemma im_rho : 0 < (rootσ ^ 2).im := by
  rw [rootσ_sq]
  have h3p : 0 < √3 := Real.sqrt_pos.2 (by norm_num)
  simpa using h3p

lemma mem_ellipDom_of_im {m : ℂ} (hm : m.im ≠ 0) : m ∈ ellipDom := by
  rw [ellipDom, Set.mem_ofPred_eq, Complex.mem_slitPlane_iff]
  right
  simpa using hm

lemma mem_ellipJDom_of_im {m : ℂ} (hm : m.im ≠ 0) : m ∈ ellipJDom := by
  rw [ellipJDom, Set.mem_ofPred_eq, Complex.mem_slitPlane_iff]
  right
  simpa using hm

lemma one_sub_mem_ellipDom {m : ℂ} (hm : m ∈ Complex.slitPlane) : 1 - m ∈ ellipDom := by
  rw [ellipDom, Set.mem_ofPred_eq, sub_sub_cancel]
  exact hm

/-- The integrals at `ρ` and `1 - ρ` expressed by each other. -/
lemma radInt_reflect (g : ℝ → ℂ) (k : ℕ) :
    radInt 1 0 0 (-1) g k (1 - rootσ ^ 2) = radInt 1 0 0 (-1) (fun s => g (1 - s)) k (rootσ ^ 2) / rootσ ^ k := by
  unfold radInt
  have h := integral_reflect (fun s => g s / Complex.sqrt (rad 1 0 0 (-1) (1 - rootσ ^ 2) s) ^ k)
  rw [h, ← intervalIntegral.integral_div]
  congr 1
  funext θ
  rw [rad_K, rad_K, sqrt_reflect ⟨sq_nonneg _, Real.sin_sq_le_one θ⟩, mul_pow, div_div]
  ring

lemma radInt_J (g : ℝ → ℂ) (k : ℕ) :
    radInt 0 1 (-1) 0 g k (rootσ ^ 2) = radInt 1 0 0 (-1) g k (1 - rootσ ^ 2) / rootσ ^ k := by
  unfold radInt
  rw [← intervalIntegral.integral_div]
  congr 1
  funext θ
  rw [rad_J, rad_K, sqrt_rho_sub ⟨sq_nonneg _, Real.sin_sq_le_one θ⟩, mul_pow, div_div]
  ring

lemma radInt_add {a b c d m : ℂ} (hq : ∀ s ∈ Set.Icc (0 : ℝ) 1, rad a b c d m s ∈ Complex.slitPlane) {g h : ℝ → ℂ}
    (hg : Continuous g) (hh : Continuous h) (x : ℂ) (k : ℕ) :
    radInt a b c d g k m + x * radInt a b c d h k m = radInt a b c d (fun s => g s + x * h s) k m := by
  unfold radInt
  rw [← intervalIntegral.integral_const_mul, ← intervalIntegral.integral_add
    ((continuous_radInt hq hg k).intervalIntegrable _ _) (((continuous_radInt hq hh k).intervalIntegrable _ _).const_mul _)]
  congr 1
  funext θ
  ring

/-- The connection formula in the upper half plane. -/
lemma ellipK_conn {m : ℂ} (hm : 0 < m.im) : ellipK m = ellipJ m + Complex.I * ellipK (1 - m) := by
  have hU : Convex ℝ {m : ℂ | 0 < m.im} := convex_halfSpace_im_gt 0
  have hsub : ∀ m : ℂ, 0 < m.im → (1 - m).im ≠ 0 := fun m hm => by simpa using hm.ne'
  have hd : ∀ {f : ℂ → ℂ} {f' m : ℂ}, HasDerivAt f f' (1 - m) → HasDerivAt (fun m => f (1 - m)) (-f') m := by
    intro f f' m h
    have h1 : HasDerivAt (fun m : ℂ => 1 - m) (-1) m := by simpa using (hasDerivAt_id m).const_sub 1
    have h2 : HasDerivAt (fun m => f (1 - m)) _ m := HasDerivAt.comp m h h1
    exact h2.congr_deriv (by ring)
  have key := ode_zero hU (y := fun m => ellipK m - Complex.I * ellipK (1 - m) - ellipJ m)
    (y1 := fun m => radInt 1 0 0 (-1) (wt1 0 (-1)) 3 m + Complex.I * radInt 1 0 0 (-1) (wt1 0 (-1)) 3 (1 - m)
      - radInt 0 1 (-1) 0 (wt1 1 0) 3 m)
    (y2 := fun m => radInt 1 0 0 (-1) (wt2 0 (-1)) 5 m - Complex.I * radInt 1 0 0 (-1) (wt2 0 (-1)) 5 (1 - m)
      - radInt 0 1 (-1) 0 (wt2 1 0) 5 m)
    (fun m hm => by
      have h := (((hasDerivAt_ellipK (mem_ellipDom_of_im (ne_of_gt hm))).sub
        ((hd (hasDerivAt_ellipK (mem_ellipDom_of_im (hsub m hm)))).const_mul Complex.I)).sub
        (hasDerivAt_ellipJ (mem_ellipJDom_of_im (ne_of_gt hm))))
      exact h.congr_deriv (by ring))
    (fun m hm => by
      have h := (((hasDerivAt_radInt isOpen_ellipDom (fun m hm => rad_K_mem hm) (continuous_wt1 0 (-1)) 3
        (mem_ellipDom_of_im (ne_of_gt hm))).add
        ((hd (hasDerivAt_radInt isOpen_ellipDom (fun m hm => rad_K_mem hm) (continuous_wt1 0 (-1)) 3
        (mem_ellipDom_of_im (hsub m hm)))).const_mul Complex.I)).sub
        (hasDerivAt_radInt isOpen_ellipJDom (fun m hm => rad_J_mem hm) (continuous_wt1 1 0) 3
        (mem_ellipJDom_of_im (ne_of_gt hm))))
      refine h.congr_deriv ?_
      unfold wt2
      ring)
    (fun m hm => by
      refine mul_ne_zero ?_ ?_
      · rintro rfl
        simp at hm
      · intro h
        have := congrArg Complex.im h
        simp at this
        simp [this] at hm)
    (fun m hm => by
      have h1 := ellipK_ode (mem_ellipDom_of_im (ne_of_gt hm))
      have h2 := ellipK_ode (mem_ellipDom_of_im (hsub m hm))
      have h3 := ellipJ_ode (mem_ellipJDom_of_im (ne_of_gt hm))
      linear_combination h1 - Complex.I * h2 - h3)
    (ρ := rootσ ^ 2) im_rho
    (by
      have hσ := rootσ_ne
      rw [ellipK_eq_radInt, ellipJ_eq_radInt, radInt_J, radInt_reflect, ← rootσ_cube]
      field_simp
      linear_combination (-radInt 1 0 0 (-1) (fun _ => 1) 1 (rootσ ^ 2)) * rootσ_rel)
    (by
      have hσ := rootσ_ne
      rw [radInt_J, radInt_reflect, radInt_reflect]
      have hq := rad_K_mem (mem_ellipDom_of_im im_rho.ne')
      have c1 : Continuous fun s : ℝ => wt1 0 (-1) (1 - s) := (continuous_wt1 0 (-1)).comp (by fun_prop)
      have c2 : Continuous fun s : ℝ => wt1 1 0 (1 - s) := (continuous_wt1 1 0).comp (by fun_prop)
      have e1 := radInt_add hq (continuous_wt1 0 (-1)) c1 1 3
      have e2 := radInt_add hq (g := fun s => wt1 0 (-1) s + 1 * wt1 0 (-1) (1 - s))
        (by have := continuous_wt1 0 (-1); fun_prop) c2 1 3
      have e3 : radInt 1 0 0 (-1) (fun s => wt1 0 (-1) s + 1 * wt1 0 (-1) (1 - s) + 1 * wt1 1 0 (1 - s)) 3 (rootσ ^ 2)
          = 0 := by
        have : (fun s : ℝ => wt1 0 (-1) s + 1 * wt1 0 (-1) (1 - s) + 1 * wt1 1 0 (1 - s)) = fun _ => 0 := by
          funext s
          unfold wt1
          push_cast
          ring
        rw [this]
        unfold radInt
        simp
      rw [← rootσ_cube, mul_div_cancel₀ _ (pow_ne_zero 3 hσ), div_div]
      have h6 : rootσ ^ 3 * rootσ ^ 3 = -1 := by rw [rootσ_cube, Complex.I_mul_I]
      rw [h6, div_neg, div_one]
      linear_combination e1 + e2 + e3)
    hm
  linear_combination key

lemma sqrt_conj {x : ℂ} (hx : x ∈ Complex.slitPlane) :
    Complex.sqrt ((starRingEnd ℂ) x) = (starRingEnd ℂ) (Complex.sqrt x) := by
  apply sqrt_unique
  · rw [← map_pow, sqrt_sq']
  · rw [Complex.conj_re]
    exact sqrt_re_pos hx

lemma ellipK_conj {m : ℂ} (hm : m ∈ ellipDom) : ellipK ((starRingEnd ℂ) m) = (starRingEnd ℂ) (ellipK m) := by
  unfold ellipK
  have := Real.pi_pos
  rw [intervalIntegral.integral_of_le (by linarith), intervalIntegral.integral_of_le (by linarith), ← integral_conj]
  congr 1
  funext θ
  have h := slit_seg hm (s := Real.sin θ ^ 2) ⟨sq_nonneg _, Real.sin_sq_le_one θ⟩
  rw [Complex.ofReal_pow] at h
  rw [map_div₀, map_one, ← sqrt_conj h, map_sub, map_mul, map_pow, Complex.conj_ofReal, map_one]

lemma ellipJ_conj {m : ℂ} (hm : m ∈ ellipJDom) : ellipJ ((starRingEnd ℂ) m) = (starRingEnd ℂ) (ellipJ m) := by
  unfold ellipJ
  have := Real.pi_pos
  rw [intervalIntegral.integral_of_le (by linarith), intervalIntegral.integral_of_le (by linarith), ← integral_conj]
  congr 1
  funext θ
  have h := slit_seg_J hm (s := Real.sin θ ^ 2) ⟨sq_nonneg _, Real.sin_sq_le_one θ⟩
  rw [map_div₀, map_one, ← sqrt_conj h, map_sub, Complex.conj_ofReal]

/-- The connection formula in the lower half plane. -/
lemma ellipK_conn' {m : ℂ} (hm : m.im < 0) : ellipK m = ellipJ m - Complex.I * ellipK (1 - m) := by
  have h := ellipK_conn (m := (starRingEnd ℂ) m) (by simpa using hm)
  rw [ellipK_conj (mem_ellipDom_of_im hm.ne), ellipJ_conj (mem_ellipJDom_of_im hm.ne),
    show 1 - (starRingEnd ℂ) m = (starRingEnd ℂ) (1 - m) by simp,
    ellipK_conj (mem_ellipDom_of_im (by simpa using hm.ne))] at h
  have h2 := congrArg (starRingEnd ℂ) h
  simp only [Complex.conj_conj, map_add, map_mul, Complex.conj_I] at h2
  rw [h2]
  ring

end Gftool.Lemmas
