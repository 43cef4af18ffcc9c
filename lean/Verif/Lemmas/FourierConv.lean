import Verif.Spec.Smooth
import Verif.Lemmas.Fourier
import Mathlib.Analysis.Convex.Deriv
import Mathlib.Analysis.Fourier.AddCircle
import Mathlib.Tactic

/-!
# Interpolation error and Fourier series
-/

namespace Gftool.Lemmas

open Gftool Model Spec MeasureTheory
open Complex (I)

lemma _root_.Gftool.Spec.SmoothOn.mono {E : Type*} [NormedAddCommGroup E] [NormedSpace ℝ E] {f f' f'' : ℝ → E} {a b M c d : ℝ}
    (h : SmoothOn f f' f'' a b M) (hc : a ≤ c) (hd : d ≤ b) : SmoothOn f f' f'' c d M :=
  ⟨h.cont.mono (Set.Icc_subset_Icc hc hd), fun x hx => h.deriv x (Set.Ioo_subset_Ioo hc hd hx),
    fun x hx => h.deriv2 x (Set.Ioo_subset_Ioo hc hd hx), fun x hx => h.bound x (Set.Ioo_subset_Ioo hc hd hx)⟩

lemma _root_.Gftool.Spec.SmoothOn.nonneg {E : Type*} [NormedAddCommGroup E] [NormedSpace ℝ E] {f f' f'' : ℝ → E} {a b M : ℝ}
    (h : SmoothOn f f' f'' a b M) (hab : a < b) : 0 ≤ M :=
  (norm_nonneg _).trans (h.bound ((a + b) / 2) ⟨by linarith, by linarith⟩)

lemma _root_.Gftool.Spec.SmoothOn.ofReal {f f' f'' : ℝ → ℝ} {a b M : ℝ} (h : SmoothOn f f' f'' a b M) :
    SmoothOn (fun x => (f x : ℂ)) (fun x => (f' x : ℂ)) (fun x => (f'' x : ℂ)) a b M :=
  ⟨Complex.continuous_ofReal.comp_continuousOn h.cont, fun x hx => (h.deriv x hx).ofReal_comp,
    fun x hx => (h.deriv2 x hx).ofReal_comp, fun x hx => by
      rw [Complex.norm_real]; exact h.bound x hx⟩

/-- Error of the linear interpolation, one sided. -/
lemma interp_real {f f' f'' : ℝ → ℝ} {a b M : ℝ} (h : SmoothOn f f' f'' a b M) (hab : a < b) {x : ℝ} (hx : x ∈ Set.Icc a b) :
    f x - (f a + (x - a) / (b - a) * (f b - f a)) ≤ M * (x - a) * (b - x) / 2 := by
  have hba : b - a ≠ 0 := by linarith
  set psi : ℝ → ℝ := fun x => M * (x - a) * (b - x) / 2 - (f x - (f a + (x - a) / (b - a) * (f b - f a))) with hpsi
  have hc : ConcaveOn ℝ (Set.Icc a b) psi := by
    refine concaveOn_of_hasDerivWithinAt2_nonpos (convex_Icc a b)
      (f' := fun x => M * (a + b - 2 * x) / 2 - (f' x - 1 / (b - a) * (f b - f a))) (f'' := fun x => -M - f'' x) ?_ ?_ ?_ ?_
    · have := h.cont
      fun_prop
    · intro y hy
      rw [interior_Icc] at hy ⊢
      refine HasDerivAt.hasDerivWithinAt ?_
      have h1 : HasDerivAt (fun x : ℝ => M * (x - a) * (b - x) / 2) (M * (a + b - 2 * y) / 2) y := by
        have := ((((hasDerivAt_id y).sub_const a).const_mul M).mul ((hasDerivAt_id y).const_sub b)).div_const 2
        refine this.congr_deriv ?_
        simp
        ring
      have h2 : HasDerivAt (fun x : ℝ => f a + (x - a) / (b - a) * (f b - f a)) (1 / (b - a) * (f b - f a)) y :=
        ((((hasDerivAt_id y).sub_const a).div_const (b - a)).mul_const (f b - f a)).const_add (f a)
      exact h1.sub ((h.deriv y hy).sub h2)
    · intro y hy
      rw [interior_Icc] at hy ⊢
      refine HasDerivAt.hasDerivWithinAt ?_
      have h1 : HasDerivAt (fun x : ℝ => M * (a + b - 2 * x) / 2) (-M) y := by
        have := (((((hasDerivAt_id y).const_mul 2).const_sub (a + b)).const_mul M)).div_const 2
        refine this.congr_deriv ?_
        simp
        ring
      exact h1.sub ((h.deriv2 y hy).sub_const _)
    · intro y hy
      rw [interior_Icc] at hy
      have := h.bound y hy
      rw [Real.norm_eq_abs, abs_le] at this
      linarith
  have ha : psi a = 0 := by simp [hpsi]
  have hb : psi b = 0 := by simp [hpsi, hba]
  have := hc.min_le_of_mem_Icc (Set.left_mem_Icc.2 hab.le) (Set.right_mem_Icc.2 hab.le) hx
  rw [ha, hb, min_self] at this
  simp only [hpsi] at this
  linarith

/-- Error of the linear interpolation. -/
lemma interp_error {f f' f'' : ℝ → ℂ} {a b M : ℝ} (h : SmoothOn f f' f'' a b M) (hab : a < b) {x : ℝ} (hx : x ∈ Set.Icc a b) :
    ‖f x - (f a + ((x : ℂ) - a) / (b - a) * (f b - f a))‖ ≤ M * (x - a) * (b - x) / 2 := by
  set e := f x - (f a + ((x : ℂ) - a) / (b - a) * (f b - f a)) with he
  by_cases h0 : e = 0
  · rw [h0, norm_zero]
    have := h.nonneg hab
    have h1 : 0 ≤ x - a := by linarith [hx.1]
    have h2 : 0 ≤ b - x := by linarith [hx.2]
    positivity
  have hn : (‖e‖ : ℂ) ≠ 0 := by exact_mod_cast norm_ne_zero_iff.2 h0
  set u : ℂ := (starRingEnd ℂ) e / ‖e‖ with hu
  have hu1 : ‖u‖ = 1 := by
    rw [hu, norm_div, RCLike.norm_conj, Complex.norm_real, norm_norm, div_self (norm_ne_zero_iff.2 h0)]
  have hs : SmoothOn (fun t => (u * f t).re) (fun t => (u * f' t).re) (fun t => (u * f'' t).re) a b M := by
    refine ⟨?_, fun t ht => ?_, fun t ht => ?_, fun t ht => ?_⟩
    · exact Complex.continuous_re.comp_continuousOn (continuousOn_const.mul h.cont)
    · exact Complex.reCLM.hasFDerivAt.comp_hasDerivAt t ((h.deriv t ht).const_mul u)
    · exact Complex.reCLM.hasFDerivAt.comp_hasDerivAt t ((h.deriv2 t ht).const_mul u)
    · rw [Real.norm_eq_abs]
      refine (Complex.abs_re_le_norm _).trans ?_
      rw [norm_mul, hu1, one_mul]
      exact h.bound t ht
  have h1 := interp_real hs hab hx
  have h2 : (u * f x).re - ((u * f a).re + (x - a) / (b - a) * ((u * f b).re - (u * f a).re)) = (u * e).re := by
    rw [he, show u * (f x - (f a + ((x : ℂ) - a) / (b - a) * (f b - f a)))
      = u * f x - (u * f a + (((x - a) / (b - a) : ℝ) : ℂ) * (u * f b - u * f a)) by push_cast; ring]
    simp only [Complex.sub_re, Complex.add_re, Complex.re_ofReal_mul]
  have h3 : (u * e).re = ‖e‖ := by
    rw [hu, div_mul_eq_mul_div, mul_comm ((starRingEnd ℂ) e), Complex.mul_conj']
    rw [sq, mul_div_assoc, div_self hn, mul_one, Complex.ofReal_re]
  linarith [h1, h2, h3]

private lemma quad_integral (a D M : ℝ) : ∫ x in a..(a + D), M * (x - a) * (a + D - x) / 2 = M * D ^ 3 / 12 := by
  have h : ∀ x ∈ Set.uIcc a (a + D), HasDerivAt (fun x => M / 2 * (D * (x - a) ^ 2 / 2 - (x - a) ^ 3 / 3))
      (M * (x - a) * (a + D - x) / 2) x := by
    intro x _
    have h1 := (((hasDerivAt_id x).sub_const a).pow 2).const_mul D |>.div_const 2
    have h2 := (((hasDerivAt_id x).sub_const a).pow 3).div_const 3
    refine ((h1.sub h2).const_mul (M / 2)).congr_deriv ?_
    simp
    ring
  rw [intervalIntegral.integral_eq_sub_of_hasDerivAt h (Continuous.intervalIntegrable (by fun_prop) _ _)]
  ring

private lemma exp_norm_le {s : ℂ} (hs : s.re ≤ 0) {x : ℝ} (hx : 0 ≤ x) : ‖Complex.exp (s * x)‖ ≤ 1 := by
  rw [Complex.norm_exp, Complex.re_mul_ofReal]
  exact Real.exp_le_one_iff.2 (mul_nonpos_of_nonpos_of_nonneg hs hx)

/-- Error of the Fourier integral of the linear spline. -/
lemma spline_error {f f' f'' : ℝ → ℂ} {b M : ℝ} {T : ℕ} (hT : T ≠ 0) (hb : 0 < b) (H : SmoothOn f f' f'' 0 b M)
    {h : ℝ → ℂ} (hh : IsLinSpline (fun k : Fin (T + 1) => f ((k : ℕ) * (b / T))) 0 (b / T) h) {s : ℂ} (hs : s.re ≤ 0) :
    ‖(∫ τ in (0 : ℝ)..b, h τ * Complex.exp (s * τ)) - ∫ τ in (0 : ℝ)..b, f τ * Complex.exp (s * τ)‖ ≤ M * b ^ 3 / (12 * T ^ 2) := by
  have hTr : (T : ℝ) ≠ 0 := by exact_mod_cast hT
  have hTpos : (0 : ℝ) < T := by exact_mod_cast Nat.pos_of_ne_zero hT
  set D := b / T with hD
  have hDpos : 0 < D := div_pos hb hTpos
  have hTD : T * D = b := by rw [hD]; field_simp
  have hi := (filon_sum s 0 D hDpos.ne' h T _ hh).1
  rw [zero_add, hTD] at hi
  have hf : IntervalIntegrable (fun τ : ℝ => f τ * Complex.exp (s * τ)) volume 0 b := by
    refine ContinuousOn.intervalIntegrable ?_
    rw [Set.uIcc_of_le hb.le]
    exact H.cont.mul (by fun_prop)
  have hdiff : IntervalIntegrable (fun τ : ℝ => h τ * Complex.exp (s * τ) - f τ * Complex.exp (s * τ)) volume 0 b := hi.sub hf
  rw [← intervalIntegral.integral_sub hi hf]
  have hsub : ∀ k < T, Set.uIcc ((k : ℝ) * D) ((k + 1 : ℕ) * D) ⊆ Set.uIcc 0 b := by
    intro k hk
    rw [Set.uIcc_of_le hb.le, Set.uIcc_of_le (by push_cast; nlinarith)]
    refine Set.Icc_subset_Icc (by positivity) ?_
    rw [← hTD]
    have : ((k + 1 : ℕ) : ℝ) ≤ T := by exact_mod_cast hk
    exact mul_le_mul_of_nonneg_right this hDpos.le
  have hadj := intervalIntegral.sum_integral_adjacent_intervals (a := fun k : ℕ => (k : ℝ) * D) (n := T) (μ := volume)
    (f := fun τ : ℝ => h τ * Complex.exp (s * τ) - f τ * Complex.exp (s * τ)) fun k hk => hdiff.mono_set (hsub k hk)
  simp only [Nat.cast_zero, zero_mul, hTD] at hadj
  rw [← hadj]
  refine (norm_sum_le _ _).trans ?_
  have hk : ∀ k ∈ Finset.range T, ‖∫ τ in ((k : ℝ) * D)..((k + 1 : ℕ) * D), (h τ * Complex.exp (s * τ)
      - f τ * Complex.exp (s * τ))‖ ≤ M * D ^ 3 / 12 := by
    intro k hk
    have hkT := Finset.mem_range.1 hk
    have e1 : ((k + 1 : ℕ) : ℝ) * D = k * D + D := by push_cast; ring
    have hle : (k : ℝ) * D ≤ k * D + D := by linarith
    rw [← quad_integral (k * D) D M, e1]
    refine intervalIntegral.norm_integral_le_of_norm_le hle ?_ (Continuous.intervalIntegrable (by fun_prop) _ _)
    refine Filter.Eventually.of_forall fun τ hτ => ?_
    have hτ' : τ ∈ Set.Icc ((k : ℝ) * D) (k * D + D) := ⟨hτ.1.le, hτ.2⟩
    have hτ0 : 0 ≤ τ := le_trans (by positivity) hτ'.1
    have hsm : SmoothOn f f' f'' (k * D) (k * D + D) M := by
      refine H.mono (by positivity) ?_
      rw [← hTD, ← e1]
      have : ((k + 1 : ℕ) : ℝ) ≤ T := by exact_mod_cast hkT
      exact mul_le_mul_of_nonneg_right this hDpos.le
    have h1 := interp_error hsm (by linarith) hτ'
    have h2 := hh ⟨k, hkT⟩ τ (by
      rw [Set.uIcc_of_le (by nlinarith)]
      simp only [zero_add]
      exact ⟨hτ'.1, hτ'.2.trans (le_of_eq (by ring))⟩)
    simp only [Fin.val_castSucc, Fin.val_succ, Complex.ofReal_zero, zero_add] at h2
    rw [← sub_mul, norm_mul]
    refine (mul_le_of_le_one_right (norm_nonneg _) (exp_norm_le hs hτ0)).trans ?_
    rw [norm_sub_rev]
    refine le_trans (le_of_eq ?_) h1
    rw [h2, e1]
    congr 2
    push_cast
    congr 2
    ring
  refine (Finset.sum_le_sum hk).trans (le_of_eq ?_)
  rw [Finset.sum_const, Finset.card_range, nsmul_eq_mul, hD]
  field_simp

/-- The same with exponentially decaying weight: uniform in the length of the interval. -/
lemma spline_error_exp {f f' f'' : ℝ → ℂ} {b M : ℝ} {T : ℕ} (hT : T ≠ 0) (hb : 0 < b) (H : SmoothOn f f' f'' 0 b M)
    {h : ℝ → ℂ} (hh : IsLinSpline (fun k : Fin (T + 1) => f ((k : ℕ) * (b / T))) 0 (b / T) h) {s : ℂ} (hs : s.re < 0) :
    ‖(∫ τ in (0 : ℝ)..b, h τ * Complex.exp (s * τ)) - ∫ τ in (0 : ℝ)..b, f τ * Complex.exp (s * τ)‖
      ≤ M * (b / T) ^ 2 / (8 * -s.re) := by
  have hTr : (T : ℝ) ≠ 0 := by exact_mod_cast hT
  have hTpos : (0 : ℝ) < T := by exact_mod_cast Nat.pos_of_ne_zero hT
  have hM := H.nonneg hb
  set D := b / T with hD
  have hDpos : 0 < D := div_pos hb hTpos
  have hTD : T * D = b := by rw [hD]; field_simp
  have hi := (filon_sum s 0 D hDpos.ne' h T _ hh).1
  rw [zero_add, hTD] at hi
  have hf : IntervalIntegrable (fun τ : ℝ => f τ * Complex.exp (s * τ)) volume 0 b := by
    refine ContinuousOn.intervalIntegrable ?_
    rw [Set.uIcc_of_le hb.le]
    exact H.cont.mul (by fun_prop)
  rw [← intervalIntegral.integral_sub hi hf]
  have hpt : ∀ τ ∈ Set.Ioc 0 b, ‖h τ - f τ‖ ≤ M * D ^ 2 / 8 := by
    intro τ hτ
    obtain ⟨k, hk⟩ : ∃ k : ℕ, k = ⌈τ / D⌉₊ - 1 := ⟨_, rfl⟩
    have hc1 : 0 < ⌈τ / D⌉₊ := Nat.ceil_pos.2 (div_pos hτ.1 hDpos)
    have hc2 : ⌈τ / D⌉₊ ≤ T := Nat.ceil_le.2 (by rw [div_le_iff₀ hDpos, hTD]; exact hτ.2)
    have hkT : k < T := by omega
    have hk1 : ((k : ℝ)) + 1 = ⌈τ / D⌉₊ := by
      have : k + 1 = ⌈τ / D⌉₊ := by omega
      exact_mod_cast this
    have hle : τ ≤ k * D + D := by
      have := Nat.le_ceil (τ / D)
      rw [div_le_iff₀ hDpos, ← hk1] at this
      linarith
    have hge : k * D ≤ τ := by
      have := Nat.ceil_lt_add_one (div_pos hτ.1 hDpos).le
      rw [← hk1, add_lt_add_iff_right, lt_div_iff₀ hDpos] at this
      exact this.le
    have hsm : SmoothOn f f' f'' (k * D) (k * D + D) M := by
      refine H.mono (by positivity) ?_
      rw [← hTD]
      have : ((k + 1 : ℕ) : ℝ) ≤ T := by exact_mod_cast hkT
      push_cast at this
      nlinarith
    have h1 := interp_error hsm (by linarith) ⟨hge, hle⟩
    have h2 := hh ⟨k, hkT⟩ τ (by
      rw [Set.uIcc_of_le (by nlinarith)]
      simp only [zero_add]
      exact ⟨hge, hle.trans (le_of_eq (by ring))⟩)
    simp only [Fin.val_castSucc, Fin.val_succ, Complex.ofReal_zero, zero_add] at h2
    rw [norm_sub_rev]
    have h3 : M * (τ - k * D) * (k * D + D - τ) / 2 ≤ M * D ^ 2 / 8 := by
      nlinarith [mul_nonneg hM (sq_nonneg ((τ - k * D) - D / 2))]
    refine (le_of_eq ?_).trans (h1.trans h3)
    rw [h2]
    congr 2
    push_cast
    rw [show ((k : ℝ) + 1) * D = k * D + D by ring, add_sub_cancel_left]
  have hexp : ∫ τ in (0 : ℝ)..b, M * D ^ 2 / 8 * Real.exp (s.re * τ) ≤ M * D ^ 2 / (8 * -s.re) := by
    rw [intervalIntegral.integral_const_mul, intervalIntegral.integral_comp_mul_left (fun x => Real.exp x) hs.ne, integral_exp,
      mul_zero, Real.exp_zero, smul_eq_mul, div_mul_eq_div_div]
    rw [show M * D ^ 2 / 8 * (s.re⁻¹ * (Real.exp (s.re * b) - 1)) = M * D ^ 2 / 8 * (1 - Real.exp (s.re * b)) / -s.re by
      have := hs.ne
      field_simp
      ring]
    refine div_le_div_of_nonneg_right ?_ (by linarith)
    exact mul_le_of_le_one_right (by positivity) (by linarith [Real.exp_pos (s.re * b)])
  refine le_trans (intervalIntegral.norm_integral_le_of_norm_le hb.le ?_ (Continuous.intervalIntegrable (by fun_prop) _ _)) hexp
  refine Filter.Eventually.of_forall fun τ hτ => ?_
  rw [← sub_mul, norm_mul, Complex.norm_exp, Complex.re_mul_ofReal]
  exact mul_le_mul_of_nonneg_right (hpt τ hτ) (Real.exp_pos _).le

/-- Error of the trapezoidal rule on one interval. -/
lemma trapz_interval {f f' f'' : ℝ → ℂ} {a b M : ℝ} (H : SmoothOn f f' f'' a b M) (hab : a < b) :
    ‖((b - a : ℝ) : ℂ) * ((f a + f b) / 2) - ∫ t in a..b, f t‖ ≤ M * (b - a) ^ 3 / 12 := by
  have hne : (b : ℂ) - a ≠ 0 := by
    rw [← Complex.ofReal_sub]
    exact_mod_cast (sub_pos.2 hab).ne'
  have hder : ∀ t : ℝ, HasDerivAt (fun t : ℝ => f a * t + ((t : ℂ) - a) ^ 2 / 2 / (b - a) * (f b - f a))
      (f a + ((t : ℂ) - a) / (b - a) * (f b - f a)) t := by
    intro t
    have h1 : HasDerivAt (fun z : ℂ => f a * z + (z - a) ^ 2 / 2 / (b - a) * (f b - f a))
        (f a * 1 + ((2 : ℕ) * ((t : ℂ) - a) ^ (2 - 1) * 1 / 2 / (b - a)) * (f b - f a)) (t : ℂ) :=
      ((hasDerivAt_id _).const_mul _).add ((((((hasDerivAt_id _).sub_const _).pow 2).div_const 2).div_const _).mul_const _)
    refine h1.comp_ofReal.congr_deriv ?_
    push_cast
    ring
  have hlin : ∫ t in a..b, (f a + ((t : ℂ) - a) / (b - a) * (f b - f a)) = ((b - a : ℝ) : ℂ) * ((f a + f b) / 2) := by
    rw [intervalIntegral.integral_eq_sub_of_hasDerivAt (fun t _ => hder t) (Continuous.intervalIntegrable (by fun_prop) _ _)]
    push_cast
    field_simp
    ring
  have hf : IntervalIntegrable f volume a b := by
    refine ContinuousOn.intervalIntegrable ?_
    rw [Set.uIcc_of_le hab.le]
    exact H.cont
  rw [← hlin, ← intervalIntegral.integral_sub (Continuous.intervalIntegrable (by fun_prop) _ _) hf]
  have hq := quad_integral a (b - a) M
  rw [add_sub_cancel] at hq
  rw [← hq]
  refine intervalIntegral.norm_integral_le_of_norm_le hab.le ?_ (Continuous.intervalIntegrable (by fun_prop) _ _)
  refine Filter.Eventually.of_forall fun τ hτ => ?_
  rw [norm_sub_rev]
  exact interp_error H hab ⟨hτ.1.le, hτ.2⟩

/-- Fourier series of antiperiodic functions: Matsubara sum. -/
lemma hasSum_matsubara_series {F : ℝ → ℂ} {beta : ℝ} (hb : 0 < beta) (hF : ContinuousOn F (Set.Icc 0 beta)) (hanti : F beta = -F 0)
    {c : ℤ → ℂ} (hc : ∀ n, ∫ τ in (0 : ℝ)..beta, F τ * Complex.exp (matsubaraFrequencies n beta * τ) = c n)
    (hsum : Summable c) {τ : ℝ} (hτ : τ ∈ Set.Icc 0 beta) :
    HasSum (fun n : ℤ => 1 / beta * c n * Complex.exp (-(matsubaraFrequencies n beta * τ))) (F τ) := by
  have : Fact (0 < beta) := ⟨hb⟩
  have hbc : (beta : ℂ) ≠ 0 := by exact_mod_cast hb.ne'
  set P : ℝ → ℂ := fun x => F x * Complex.exp (matsubaraFrequencies 0 beta * x) with hP
  have hPc : ContinuousOn P (Set.Icc 0 (0 + beta)) := by
    rw [zero_add]
    exact hF.mul (by fun_prop)
  have hexpb : Complex.exp (matsubaraFrequencies 0 beta * beta) = -1 := by
    rw [matsubaraFrequencies]
    rw [show I * (Real.pi : ℂ) / beta * (2 * (0 : ℤ) + 1) * beta = Real.pi * I by push_cast; field_simp; ring]
    exact Complex.exp_pi_mul_I
  have hPper : P 0 = P (0 + beta) := by
    simp only [hP, zero_add]
    rw [hexpb, hanti]
    simp
  have hcont := AddCircle.liftIco_continuous hPper hPc
  set f : C(AddCircle beta, ℂ) := ⟨AddCircle.liftIco beta 0 P, hcont⟩ with hf
  have hmat : ∀ n : ℤ, ∀ x : ℝ, matsubaraFrequencies n beta * x
      = matsubaraFrequencies 0 beta * x + 2 * Real.pi * I * n * x / beta := by
    intro n x
    rw [matsubaraFrequencies, matsubaraFrequencies]
    push_cast
    field_simp
    ring
  have hcoef : ∀ n : ℤ, fourierCoeff f n = 1 / beta * c (-n) := by
    intro n
    rw [hf, ContinuousMap.coe_mk, fourierCoeff_liftIco_eq, fourierCoeffOn_eq_integral, ← hc]
    rw [zero_add, sub_zero, Complex.real_smul]
    push_cast
    congr 1
    refine intervalIntegral.integral_congr fun x _ => ?_
    simp only [hP, smul_eq_mul]
    rw [fourier_coe_apply, hmat (-n), Complex.exp_add]
    push_cast
    ring
  have hs : Summable (fourierCoeff f) := by
    have : (fourierCoeff f : ℤ → ℂ) = fun n => 1 / (beta : ℂ) * c (-n) := funext hcoef
    rw [this]
    exact ((Equiv.neg ℤ).summable_iff.2 hsum).mul_left _
  have key : f (τ : AddCircle beta) = P τ := by
    rw [hf, ContinuousMap.coe_mk]
    rcases eq_or_lt_of_le hτ.2 with h | h
    · rw [h]
      have : ((beta : ℝ) : AddCircle beta) = ((0 : ℝ) : AddCircle beta) := by
        rw [AddCircle.coe_period]; rfl
      rw [this, AddCircle.liftIco_coe_apply ⟨le_rfl, by linarith⟩, hPper, zero_add]
    · exact AddCircle.liftIco_coe_apply ⟨hτ.1, by linarith⟩
  have h1 := has_pointwise_sum_fourier_series_of_summable hs (τ : AddCircle beta)
  rw [key] at h1
  have h2 := (Equiv.neg ℤ).hasSum_iff.2 h1
  have h3 := h2.mul_right (Complex.exp (-(matsubaraFrequencies 0 beta * τ)))
  have e : P τ * Complex.exp (-(matsubaraFrequencies 0 beta * τ)) = F τ := by
    simp only [hP]
    rw [mul_assoc, ← Complex.exp_add, add_neg_cancel, Complex.exp_zero, mul_one]
  rw [e] at h3
  refine h3.congr_fun fun n => ?_
  simp only [Function.comp, Equiv.neg_apply, hcoef, neg_neg, smul_eq_mul]
  rw [fourier_coe_apply, hmat n, neg_add, Complex.exp_add]
  push_cast
  rw [show -(2 * Real.pi * I * n * τ / beta : ℂ) = 2 * Real.pi * I * (-n) * τ / beta by ring]
  ring

end Gftool.Lemmas
