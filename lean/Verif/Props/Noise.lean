import Verif.Spec.Noise
import Verif.Props.Linear
import Verif.Props.FourierConv
import Verif.Props.Spectrum
import Verif.Props.Pade
import Mathlib.Analysis.InnerProductSpace.Orthonormal

/-!
# Property C86: errors of the data are amplified by explicit factors only
-/

namespace Gftool.Props

open Gftool Model Lemmas Spec
open Complex (I)

/-! ## Transforms of imaginary time -/

private lemma sup_of_linear {ι κ D R : Type*} [NormedAddCommGroup D] [NormedAddCommGroup R] [Module ℝ D] [Module ℝ R]
    {f : (ι → D) → Except Err (κ → R)} {C : ℝ} (hf : Linear ℝ f)
    (hb : ∀ g x, f g = .ok x → ∀ ε : ℝ, (∀ i, ‖g i‖ ≤ ε) → ∀ k, ‖x k‖ ≤ C * ε) : SupStable C f := by
  intro g h x y hx hy ε hε k
  have h1 := hf 1 (-1) g h x y hx hy
  have h2 := hb _ _ h1 ε (fun i => by simpa [sub_eq_add_neg] using hε i) k
  simpa [sub_eq_add_neg] using h2

private lemma norm_exp_iw (n : ℤ) (beta τ : ℝ) : ‖Complex.exp (matsubaraFrequencies n beta * τ)‖ = 1 := by
  rw [Complex.norm_exp]
  have : (matsubaraFrequencies n beta * τ).re = 0 := by
    unfold matsubaraFrequencies
    simp [Complex.div_re, Complex.mul_re]
  rw [this, Real.exp_zero]

private lemma norm_exp_iv (n : ℤ) (beta τ : ℝ) : ‖Complex.exp (matsubaraFrequenciesB n beta * τ)‖ = 1 := by
  rw [Complex.norm_exp]
  have : (matsubaraFrequenciesB n beta * τ).re = 0 := by
    unfold matsubaraFrequenciesB
    simp [Complex.div_re, Complex.mul_re]
  rw [this, Real.exp_zero]

private lemma spline_norm_le {T : ℕ} (hT : T ≠ 0) {g : Fin (T + 1) → ℂ} {a d ε : ℝ} (hd : 0 < d) {h : ℝ → ℂ}
    (hh : IsLinSpline g a d h) (hg : ∀ k, ‖g k‖ ≤ ε) {τ : ℝ} (h0 : a ≤ τ) (h1 : τ ≤ a + T * d) : ‖h τ‖ ≤ ε := by
  obtain ⟨k, hk0, hk1⟩ : ∃ k : Fin T, a + (k : ℕ) * d ≤ τ ∧ τ ≤ a + ((k : ℕ) + 1) * d := by
    rcases eq_or_lt_of_le h1 with h | h
    · refine ⟨⟨T - 1, by omega⟩, ?_, ?_⟩
      · have : ((T - 1 : ℕ) : ℝ) ≤ T := by exact_mod_cast Nat.sub_le T 1
        simp only [h]
        nlinarith
      · have : ((T - 1 : ℕ) : ℝ) + 1 = T := by exact_mod_cast Nat.sub_add_cancel (Nat.pos_of_ne_zero hT)
        simp only [this, h, le_refl]
    · have hx : 0 ≤ (τ - a) / d := div_nonneg (by linarith) hd.le
      have hlt : ⌊(τ - a) / d⌋₊ < T := by
        rw [Nat.floor_lt hx, div_lt_iff₀ hd]
        linarith
      refine ⟨⟨_, hlt⟩, ?_, ?_⟩
      · have := Nat.floor_le hx
        rw [le_div_iff₀ hd] at this
        simp only
        linarith
      · have := (Nat.lt_floor_add_one ((τ - a) / d)).le
        rw [div_le_iff₀ hd] at this
        simp only
        linarith
  have hm : τ ∈ Set.uIcc (a + (k : ℕ) * d) (a + ((k : ℕ) + 1) * d) := by
    rw [Set.uIcc_of_le (by nlinarith)]
    exact ⟨hk0, hk1⟩
  rw [hh k τ hm]
  set s : ℝ := (τ - (a + (k : ℕ) * d)) / d with hs
  have hs0 : 0 ≤ s := div_nonneg (by linarith) hd.le
  have hs1 : s ≤ 1 := by
    rw [hs, div_le_one hd]
    linarith
  have heq : g k.castSucc + ((τ : ℂ) - (a + (k : ℕ) * d)) / d * (g k.succ - g k.castSucc)
      = ((1 - s : ℝ) : ℂ) * g k.castSucc + (s : ℂ) * g k.succ := by
    rw [hs]
    push_cast
    ring
  rw [heq]
  calc ‖((1 - s : ℝ) : ℂ) * g k.castSucc + (s : ℂ) * g k.succ‖
      ≤ ‖((1 - s : ℝ) : ℂ) * g k.castSucc‖ + ‖(s : ℂ) * g k.succ‖ := norm_add_le _ _
    _ = (1 - s) * ‖g k.castSucc‖ + s * ‖g k.succ‖ := by
        rw [norm_mul, norm_mul, Complex.norm_real, Complex.norm_real, Real.norm_of_nonneg hs0,
          Real.norm_of_nonneg (by linarith)]
    _ ≤ (1 - s) * ε + s * ε := by
        have := hg k.castSucc
        have := hg k.succ
        gcongr
    _ = ε := by ring

/-- C86: `tau2iw_dft` amplifies errors by at most `beta`, for any number of points. -/
theorem tau2iw_dft_noise {T : ℕ} {beta : ℝ} (hb : 0 < beta) :
    SupStable beta fun g : Fin (T + 1) → ℝ => tau2iwDft g beta := by
  refine sup_of_linear (tau2iw_dft_linear beta).1 fun g x hx ε hε n => ?_
  have hT : T ≠ 0 := by
    rintro rfl
    rw [tau2iw_dft_empty] at hx
    cases hx
  obtain ⟨r, hr, hr'⟩ := tau2iw_dft_correct hT g hb.ne'
  obtain rfl : r = x := Except.ok.inj (hr.symm.trans hx)
  have hT0 : (0 : ℝ) < T := by exact_mod_cast Nat.pos_of_ne_zero hT
  rw [hr' n, norm_mul]
  have h1 : ‖(beta / T : ℂ)‖ = beta / T := by
    rw [norm_div, Complex.norm_real, Complex.norm_natCast, Real.norm_of_nonneg hb.le]
  have h2 : ‖∑ k : Fin T, (g k.castSucc : ℂ) * Complex.exp (matsubaraFrequencies (n : ℕ) beta * tauPt beta T k)‖
      ≤ T * ε := by
    refine (norm_sum_le _ _).trans ?_
    calc _ ≤ ∑ _k : Fin T, ε := Finset.sum_le_sum fun k _ => by
          rw [norm_mul, norm_exp_iw, mul_one, Complex.norm_real]
          exact hε _
      _ = T * ε := by simp
  rw [h1]
  calc beta / T * _ ≤ beta / T * (T * ε) := by gcongr
    _ = beta * ε := by field_simp

/-- C86: `tau2iw_ft_lin` amplifies errors by at most `beta`. -/
theorem tau2iw_ft_lin_noise {T : ℕ} {beta : ℝ} (hb : 0 < beta) :
    SupStable beta fun g : Fin (T + 1) → ℝ => tau2iwFtLin g beta := by
  refine sup_of_linear (tau2iw_ft_lin_linear beta).1 fun g x hx ε hε n => ?_
  have hT : T ≠ 0 := by
    rintro rfl
    unfold tau2iwFtLin ihfft at hx
    rw [if_pos (by omega)] at hx
    cases hx
  have hT0 : (0 : ℝ) < T := by exact_mod_cast Nat.pos_of_ne_zero hT
  obtain ⟨h, hh⟩ := exists_spline (fun k => (fullRange g k : ℂ)) (-beta) (div_pos hb hT0).ne'
  obtain ⟨r, hr, hr'⟩ := tau2iw_ft_lin_exact hT g hb.ne' h hh
  obtain rfl : r = x := Except.ok.inj (hr.symm.trans hx)
  rw [hr' n, norm_mul]
  have h2 : ‖∫ τ in (-beta : ℝ)..beta, h τ * Complex.exp (matsubaraFrequencies (n : ℕ) beta * τ)‖ ≤ ε * |beta - -beta| := by
    refine intervalIntegral.norm_integral_le_of_norm_le_const fun τ hτ => ?_
    rw [Set.uIoc_of_le (by linarith)] at hτ
    rw [norm_mul, norm_exp_iw, mul_one]
    refine spline_norm_le (by omega) (div_pos hb hT0) hh (fun k => ?_) hτ.1.le ?_
    · rw [Complex.norm_real]
      unfold fullRange
      split_ifs
      · rw [norm_neg]; exact hε _
      · exact hε _
    · have : ((2 * T : ℕ) : ℝ) * (beta / T) = 2 * beta := by
        push_cast
        field_simp
      rw [this]
      linarith [hτ.2]
  rw [abs_of_pos (by linarith)] at h2
  have : ‖(1 / 2 : ℂ)‖ = 1 / 2 := by norm_num
  rw [this]
  linarith

/-- C86: `tau2iw` with default arguments amplifies errors by at most `beta`, although the moments are determined from the
data. -/
theorem tau2iw_noise (ext : LinalgExt ℝ) {T : ℕ} (hT : T ≠ 0) {beta : ℝ} (hb : 0 < beta) :
    SupStable beta fun g : Fin (T + 1) → ℝ => tau2iw ext g beta none none tau2iwFtLin := by
  have hT0 : (0 : ℝ) < T := by exact_mod_cast Nat.pos_of_ne_zero hT
  intro g g' x y hx hy ε hε n
  have hdT := div_pos hb hT0
  have hrep : ∀ (f : Fin (T + 1) → ℝ) (v : Fin ((T + 1) / 2) → ℂ),
      tau2iw ext f beta none none tau2iwFtLin = .ok v → ∀ s : ℝ → ℂ, IsLinSplineR f 0 (beta / T) s →
      v n = ∫ τ in (0 : ℝ)..beta, s τ * Complex.exp (matsubaraFrequencies (n : ℕ) beta * τ) := by
    intro f v hv s hs
    obtain ⟨r, hr, hr'⟩ := tau2iw_ft_lin_total ext hT f hb s hs
    obtain rfl : r = v := Except.ok.inj (hr.symm.trans hv)
    exact hr' n
  obtain ⟨d, hd⟩ := exists_spline (fun k => ((g k - g' k : ℝ) : ℂ)) 0 hdT.ne'
  obtain ⟨h', hh'⟩ := exists_spline (fun k => (g' k : ℂ)) 0 hdT.ne'
  have hh : IsLinSplineR g 0 (beta / T) fun τ => h' τ + d τ := by
    intro k τ hτ
    simp only
    rw [hh' k τ hτ, hd k τ hτ]
    push_cast
    ring
  have hsum : x n = y n + ∫ τ in (0 : ℝ)..beta, d τ * Complex.exp (matsubaraFrequencies (n : ℕ) beta * τ) := by
    rw [hrep g x hx _ hh, hrep g' y hy _ hh']
    have hi : ∀ (f : Fin (T + 1) → ℂ) (s : ℝ → ℂ), IsLinSpline f 0 (beta / T) s → IntervalIntegrable
        (fun τ => s τ * Complex.exp (matsubaraFrequencies (n : ℕ) beta * τ)) MeasureTheory.volume 0 beta := by
      intro f s hs
      have h1 := (filon_sum (matsubaraFrequencies (n : ℕ) beta) 0 (beta / T) hdT.ne' s T f hs).1
      rwa [zero_add, mul_div_cancel₀ _ hT0.ne'] at h1
    rw [← intervalIntegral.integral_add (hi _ _ hh') (hi _ _ hd)]
    simp only [add_mul]
  have hle : ‖∫ τ in (0 : ℝ)..beta, d τ * Complex.exp (matsubaraFrequencies (n : ℕ) beta * τ)‖ ≤ ε * |beta - 0| := by
    refine intervalIntegral.norm_integral_le_of_norm_le_const fun τ hτ => ?_
    rw [Set.uIoc_of_le hb.le] at hτ
    rw [norm_mul, norm_exp_iw, mul_one]
    refine spline_norm_le hT hdT hd (fun k => ?_) hτ.1.le ?_
    · rw [Complex.norm_real]
      exact hε _
    · rw [mul_div_cancel₀ _ hT0.ne', zero_add]
      exact hτ.2
  rw [sub_zero, abs_of_pos hb] at hle
  rw [hsum, add_sub_cancel_left]
  linarith

/-- C86: `tau2iv_dft` amplifies errors by at most `beta`. -/
theorem tau2iv_dft_noise {T : ℕ} {beta : ℝ} (hb : 0 < beta) :
    SupStable beta fun g : Fin (T + 1) → ℝ => tau2ivDft g beta := by
  refine sup_of_linear (tau2iv_dft_linear beta).1 fun g x hx ε hε n => ?_
  have hT : T ≠ 0 := by
    rintro rfl
    rw [tau2iv_dft_single] at hx
    cases hx
  obtain ⟨r, hr, hr0, hr'⟩ := tau2iv_dft_correct hT g hb.ne'
  obtain rfl : r = x := Except.ok.inj (hr.symm.trans hx)
  have hT0 : (0 : ℝ) < T := by exact_mod_cast Nat.pos_of_ne_zero hT
  by_cases hn : n = 0
  · rw [hn, hr0]
    unfold trapz
    refine (norm_sum_le _ _).trans ?_
    calc _ ≤ ∑ _k : Fin T, beta / T * ε := Finset.sum_le_sum fun k _ => by
          have h1 := hε k.castSucc
          have h2 := hε k.succ
          rw [← Complex.norm_real] at h1 h2
          have h3 := norm_add_le (g k.castSucc : ℂ) (g k.succ)
          have h4 : ‖((beta / T : ℝ) : ℂ)‖ = beta / T := by
            rw [Complex.norm_real, Real.norm_of_nonneg (by positivity)]
          rw [norm_div, norm_mul, h4]
          have : ‖(2 : ℂ)‖ = 2 := by norm_num
          rw [this, mul_div_assoc]
          have : 0 ≤ beta / T := by positivity
          gcongr
          linarith
      _ = beta * ε := by
          rw [Finset.sum_const, Finset.card_univ, Fintype.card_fin, nsmul_eq_mul]
          field_simp
  · rw [(hr' n hn).1, norm_mul]
    have h1 : ‖(beta / T : ℂ)‖ = beta / T := by
      rw [norm_div, Complex.norm_real, Complex.norm_natCast, Real.norm_of_nonneg hb.le]
    have h2 : ‖∑ k : Fin T, (g k.castSucc : ℂ) * Complex.exp (matsubaraFrequenciesB (n : ℕ) beta * tauPt beta T k)‖
        ≤ T * ε := by
      refine (norm_sum_le _ _).trans ?_
      calc _ ≤ ∑ _k : Fin T, ε := Finset.sum_le_sum fun k _ => by
            rw [norm_mul, norm_exp_iv, mul_one, Complex.norm_real]
            exact hε _
        _ = T * ε := by simp
    rw [h1]
    calc beta / T * _ ≤ beta / T * (T * ε) := by gcongr
      _ = beta * ε := by field_simp

/-- C86: `tau2iv_ft_lin` amplifies errors by at most `beta`. -/
theorem tau2iv_ft_lin_noise {T : ℕ} {beta : ℝ} (hb : 0 < beta) :
    SupStable beta fun g : Fin (T + 1) → ℝ => tau2ivFtLin g beta := by
  refine sup_of_linear (tau2iv_ft_lin_linear beta).1 fun g x hx ε hε n => ?_
  have hT : T ≠ 0 := by
    rintro rfl
    unfold tau2ivFtLin ihfft at hx
    rw [if_pos rfl] at hx
    cases hx
  have hT0 : (0 : ℝ) < T := by exact_mod_cast Nat.pos_of_ne_zero hT
  obtain ⟨h, hh⟩ := exists_spline (fun k => (g k : ℂ)) 0 (div_pos hb hT0).ne'
  obtain ⟨r, hr, hr'⟩ := tau2iv_ft_lin_exact hT g hb.ne' h hh
  obtain rfl : r = x := Except.ok.inj (hr.symm.trans hx)
  rw [hr' n]
  have h2 : ‖∫ τ in (0 : ℝ)..beta, h τ * Complex.exp (matsubaraFrequenciesB (n : ℕ) beta * τ)‖ ≤ ε * |beta - 0| := by
    refine intervalIntegral.norm_integral_le_of_norm_le_const fun τ hτ => ?_
    rw [Set.uIoc_of_le hb.le] at hτ
    rw [norm_mul, norm_exp_iv, mul_one]
    refine spline_norm_le hT (div_pos hb hT0) hh (fun k => ?_) hτ.1.le ?_
    · rw [Complex.norm_real]
      exact hε _
    · rw [mul_div_cancel₀ _ hT0.ne', zero_add]
      exact hτ.2
  rw [sub_zero, abs_of_pos hb] at h2
  linarith

/-- C86: `tau2iv` with default arguments amplifies errors by at most `beta`, although the jump is subtracted. -/
theorem tau2iv_noise {T : ℕ} (hT : T ≠ 0) {beta : ℝ} (hb : 0 < beta) :
    SupStable beta fun g : Fin (T + 1) → ℝ => tau2iv g beta tau2ivFtLin := by
  have hT0 : (0 : ℝ) < T := by exact_mod_cast Nat.pos_of_ne_zero hT
  refine sup_of_linear (tau2iv_linear beta (tau2iv_ft_lin_linear beta)).1 fun g x hx ε hε n => ?_
  obtain ⟨h, hh⟩ := exists_spline (fun k => (g k : ℂ)) 0 (div_pos hb hT0).ne'
  obtain ⟨r, hr, hr'⟩ := tau2iv_ft_lin_total hT g hb.ne' h hh
  obtain rfl : r = x := Except.ok.inj (hr.symm.trans hx)
  rw [hr' n]
  have h2 : ‖∫ τ in (0 : ℝ)..beta, h τ * Complex.exp (matsubaraFrequenciesB (n : ℕ) beta * τ)‖ ≤ ε * |beta - 0| := by
    refine intervalIntegral.norm_integral_le_of_norm_le_const fun τ hτ => ?_
    rw [Set.uIoc_of_le hb.le] at hτ
    rw [norm_mul, norm_exp_iv, mul_one]
    refine spline_norm_le hT (div_pos hb hT0) hh (fun k => ?_) hτ.1.le ?_
    · rw [Complex.norm_real]
      exact hε _
    · rw [mul_div_cancel₀ _ hT0.ne', zero_add]
      exact hτ.2
  rw [sub_zero, abs_of_pos hb] at h2
  linarith

/-- C86: independent errors average out in `tau2iw_dft`: the mean square of the errors of the results is smaller the more points
are given. -/
theorem tau2iw_dft_noise_square {T : ℕ} {beta : ℝ} (hb : 0 < beta) :
    SquareStable (beta ^ 2 / T) fun g : Fin (T + 1) → ℝ => tau2iwDft g beta := by
  intro g g' x y hx hy
  have hlin := (tau2iw_dft_linear beta).1 1 (-1) g g' x y hx hy
  have hT : T ≠ 0 := by
    rintro rfl
    simp only at hx
    rw [tau2iw_dft_empty] at hx
    cases hx
  have hT0 : (0 : ℝ) < T := by exact_mod_cast Nat.pos_of_ne_zero hT
  have hTc : (T : ℂ) ≠ 0 := by exact_mod_cast hT
  have hbc : (beta : ℂ) ≠ 0 := by exact_mod_cast hb.ne'
  obtain ⟨r, hr, hr'⟩ := tau2iw_dft_correct hT ((1 : ℝ) • g + (-1 : ℝ) • g') hb.ne'
  have hrx : r = (1 : ℝ) • x + (-1 : ℝ) • y := Except.ok.inj (hr.symm.trans hlin)
  set E : Fin ((T + 1) / 2) → Fin T → ℂ := fun n k => Complex.exp (matsubaraFrequencies (n : ℕ) beta * tauPt beta T k) with hE
  have horth : ∀ n m : Fin ((T + 1) / 2), ∑ k, E m k * star (E n k) = if n = m then (T : ℂ) else 0 := by
    intro n m
    have hterm : ∀ k : Fin T, E m k * star (E n k)
        = Complex.exp (2 * Real.pi * I * (((m : ℕ) : ℤ) - ((n : ℕ) : ℤ) : ℤ) / T * ((k : ℕ) : ℂ)) := by
      intro k
      have hc : star (E n k) = Complex.exp (-(matsubaraFrequencies (n : ℕ) beta * tauPt beta T k)) := by
        simp only [hE]
        rw [Complex.star_def, ← Complex.exp_conj]
        congr 1
        have h2 : (starRingEnd ℂ) 2 = 2 := Complex.conj_ofNat 2
        unfold matsubaraFrequencies
        simp [h2]
        ring
      rw [hc, hE, ← Complex.exp_add]
      congr 1
      unfold matsubaraFrequencies tauPt
      push_cast
      field_simp
      ring
    rw [Finset.sum_congr rfl fun k _ => hterm k,
      Fin.sum_univ_eq_sum_range (fun k => Complex.exp (2 * Real.pi * I * (((m : ℕ) : ℤ) - ((n : ℕ) : ℤ) : ℤ) / T * (k : ℂ))),
      exp_sum T hT]
    have hn := n.2
    have hm := m.2
    by_cases hnm : n = m
    · rw [if_pos hnm, if_pos (by rw [hnm]; simp)]
    · rw [if_neg hnm, if_neg]
      intro hdvd
      have : ((n : ℕ) : ℤ) ≠ (m : ℕ) := fun h => hnm (Fin.ext (by exact_mod_cast h))
      have hle := Int.le_of_dvd (abs_pos.2 (sub_ne_zero.2 this.symm)) ((dvd_abs _ _).2 hdvd)
      have : |((m : ℕ) : ℤ) - ((n : ℕ) : ℤ)| < T := by
        rw [abs_lt]
        constructor <;> omega
      omega
  have hsq : ((Real.sqrt T : ℝ) : ℂ) * (Real.sqrt T : ℝ) = T := by
    rw [← Complex.ofReal_mul, Real.mul_self_sqrt hT0.le, Complex.ofReal_natCast]
  have hsq0 : ((Real.sqrt T : ℝ) : ℂ) ≠ 0 := by
    intro h
    rw [h, mul_zero] at hsq
    exact hTc hsq.symm
  let v : Fin ((T + 1) / 2) → EuclideanSpace ℂ (Fin T) := fun n => WithLp.toLp 2 fun k => star (E n k) / (Real.sqrt T : ℝ)
  have hv : Orthonormal ℂ v := by
    rw [orthonormal_iff_ite]
    intro n m
    rw [PiLp.inner_apply]
    have : ∀ k : Fin T, inner ℂ ((v n).ofLp k) ((v m).ofLp k) = E n k * star (E m k) / T := by
      intro k
      simp only [v, RCLike.inner_apply]
      rw [map_div₀, Complex.conj_ofReal, ← hsq, Complex.star_def, Complex.conj_conj]
      field_simp
    rw [Finset.sum_congr rfl fun k _ => this k, ← Finset.sum_div, horth]
    by_cases hnm : n = m
    · rw [if_pos hnm, if_pos hnm.symm, div_self hTc]
    · rw [if_neg hnm, if_neg (Ne.symm hnm), zero_div]
  let u : EuclideanSpace ℂ (Fin T) := WithLp.toLp 2 fun k => ((g k.castSucc - g' k.castSucc : ℝ) : ℂ)
  have hB := hv.sum_inner_products_le u (s := Finset.univ)
  have hu : ‖u‖ ^ 2 = ∑ k : Fin T, ‖g k.castSucc - g' k.castSucc‖ ^ 2 := by
    rw [EuclideanSpace.norm_sq_eq]
    simp only [u, Complex.norm_real]
  have hin : ∀ n, ‖inner ℂ (v n) u‖ ^ 2 * (beta ^ 2 / T) = ‖x n - y n‖ ^ 2 := by
    intro n
    have h1 : inner ℂ (v n) u * (beta / (Real.sqrt T : ℝ)) = x n - y n := by
      have h2 := hr' n
      rw [hrx] at h2
      have h3 : x n - y n = beta / T * ∑ k : Fin T, ((g k.castSucc - g' k.castSucc : ℝ) : ℂ) * E n k := by
        have h4 : ((1 : ℝ) • x + (-1 : ℝ) • y) n = x n - y n := by simp [sub_eq_add_neg]
        rw [← h4, h2]
        congr 1
        refine Finset.sum_congr rfl fun k _ => ?_
        simp [hE, sub_eq_add_neg]
      rw [h3, PiLp.inner_apply, Finset.sum_mul, Finset.mul_sum]
      refine Finset.sum_congr rfl fun k _ => ?_
      simp only [v, u, RCLike.inner_apply]
      rw [map_div₀, Complex.conj_ofReal, ← hsq, Complex.star_def, Complex.conj_conj]
      field_simp
    rw [← h1, norm_mul, mul_pow]
    congr 1
    rw [norm_div, Complex.norm_real, Complex.norm_real, div_pow, Real.norm_eq_abs, Real.norm_eq_abs, sq_abs, sq_abs,
      Real.sq_sqrt hT0.le]
  calc ∑ n, ‖x n - y n‖ ^ 2 = (∑ n, ‖inner ℂ (v n) u‖ ^ 2) * (beta ^ 2 / T) := by
        rw [Finset.sum_mul]
        exact Finset.sum_congr rfl fun n _ => (hin n).symm
    _ ≤ ‖u‖ ^ 2 * (beta ^ 2 / T) := by gcongr
    _ ≤ beta ^ 2 / T * ∑ i, ‖g i - g' i‖ ^ 2 := by
        rw [hu, mul_comm, Fin.sum_univ_castSucc]
        have : 0 ≤ ‖g (Fin.last T) - g' (Fin.last T)‖ ^ 2 := by positivity
        gcongr
        linarith

/-- The factor `beta` cannot be improved: it is reached for a constant error. -/
theorem tau2iv_noise_sharp {T : ℕ} (hT : T ≠ 0) {beta C : ℝ} (hb : 0 < beta)
    (h : SupStable C fun g : Fin (T + 1) → ℝ => tau2iv g beta tau2ivFtLin) : beta ≤ C := by
  obtain ⟨r, hr, hr'⟩ := tau2iv_ft_lin_total hT (fun _ => 1) hb.ne' (fun _ => 1) (fun k τ _ => by simp)
  obtain ⟨r0, hr0, hr0'⟩ := tau2iv_ft_lin_total hT (fun _ => 0) hb.ne' (fun _ => 0) (fun k τ _ => by simp)
  have h1 := h _ _ r r0 hr hr0 1 (fun i => by simp) 0
  rw [hr', hr0'] at h1
  have h2 : matsubaraFrequenciesB ((0 : Fin (T / 2 + 1)) : ℕ) beta = 0 := by simp [matsubaraFrequenciesB]
  rw [h2] at h1
  simp only [zero_mul, Complex.exp_zero, mul_one, intervalIntegral.integral_const, sub_zero, smul_zero] at h1
  simpa [abs_of_pos hb] using h1

/-- Two data sets of five points with errors up to `1/10` to which `tau2iw_noise` applies. -/
example : ∃ x y, tau2iw (linalgExt ℝ) (fun k : Fin 5 => -(k : ℝ)) 3 none none tau2iwFtLin = .ok x ∧
    tau2iw (linalgExt ℝ) (fun k : Fin 5 => -(k : ℝ) + if k = 2 then 1 / 10 else 0) 3 none none tau2iwFtLin = .ok y ∧
    ∀ k, ‖x k - y k‖ ≤ 3 * (1 / 10) := by
  have hd : (3 / (4 : ℕ) : ℝ) ≠ 0 := by norm_num
  obtain ⟨s, hs⟩ := exists_spline (fun k : Fin (4 + 1) => ((-(k : ℝ) : ℝ) : ℂ)) 0 hd
  obtain ⟨t, ht⟩ := exists_spline (fun k : Fin (4 + 1) => ((-(k : ℝ) + if k = 2 then 1 / 10 else 0 : ℝ) : ℂ)) 0 hd
  obtain ⟨x, hx, -⟩ := tau2iw_ft_lin_total (linalgExt ℝ) (T := 4) (by norm_num) (fun k => -(k : ℝ)) (by norm_num : (0 : ℝ) < 3) s hs
  obtain ⟨y, hy, -⟩ := tau2iw_ft_lin_total (linalgExt ℝ) (T := 4) (by norm_num) (fun k => -(k : ℝ) + if k = 2 then 1 / 10 else 0)
    (by norm_num : (0 : ℝ) < 3) t ht
  refine ⟨x, y, hx, hy, tau2iw_noise (linalgExt ℝ) (T := 4) (by norm_num) (by norm_num) _ _ x y hx hy (1 / 10) fun i => ?_⟩
  by_cases hi : i = 2 <;> norm_num [hi]

/-! ## Transforms of Matsubara frequencies -/

private lemma dft_bound {N M : ℕ} {beta τ ε : ℝ} (hb : 0 < beta) (hNM : M = N) (f : Fin M → ℂ) (hf : ∀ l, ‖f l‖ ≤ ε) {r : ℝ}
    (h : (r : ℂ) = 1 / beta * ∑ l : Fin M, (f l * Complex.exp (-(matsubaraFrequencies (l : ℕ) beta * τ))
      + star (f l) * Complex.exp (matsubaraFrequencies (l : ℕ) beta * τ))) : ‖r‖ ≤ 2 * N / beta * ε := by
  subst hNM
  rw [← Complex.norm_real, h, norm_mul]
  have h1 : ‖(1 / beta : ℂ)‖ = 1 / beta := by
    rw [norm_div, Complex.norm_real, norm_one, Real.norm_of_nonneg hb.le]
  rw [h1]
  have h2 : ‖∑ l : Fin M, (f l * Complex.exp (-(matsubaraFrequencies (l : ℕ) beta * τ))
      + star (f l) * Complex.exp (matsubaraFrequencies (l : ℕ) beta * τ))‖ ≤ ∑ _l : Fin M, 2 * ε := by
    refine (norm_sum_le _ _).trans (Finset.sum_le_sum fun l _ => (norm_add_le _ _).trans ?_)
    rw [norm_mul, norm_mul, Complex.exp_neg, norm_inv, norm_exp_iw, norm_star]
    linarith [hf l]
  calc 1 / beta * _ ≤ 1 / beta * ∑ _l : Fin M, 2 * ε := by gcongr
    _ = 2 * M / beta * ε := by
      rw [Finset.sum_const, Finset.card_univ, Fintype.card_fin, nsmul_eq_mul]
      ring

/-- C86: `iw2tau_dft` amplifies errors by at most `2 N/beta`. -/
theorem iw2tau_dft_noise {N : ℕ} {beta : ℝ} (hb : 0 < beta) :
    SupStable (2 * N / beta) fun g : Fin N → ℂ => iw2tauDft g beta := by
  refine sup_of_linear (iw2tau_dft_linear beta).1 fun g x hx ε hε j => ?_
  by_cases hN : N = 0
  · subst hN
    unfold iw2tauDft hfft at hx
    rw [if_pos (by omega)] at hx
    cases hx
  obtain ⟨r, hr, hr'⟩ := iw2tau_dft_correct hN g hb.ne'
  obtain rfl : r = x := Except.ok.inj (hr.symm.trans hx)
  exact dft_bound hb rfl g hε (hr' j)

/-- C86: `iw2tau_dft_soft` amplifies errors by at most `4 N/beta`: the tail that is appended adds a factor of two. -/
theorem iw2tau_dft_soft_noise {N : ℕ} {beta : ℝ} (hb : 0 < beta) :
    SupStable (4 * N / beta) fun g : Fin N → ℂ => iw2tauDftSoft g beta := by
  refine sup_of_linear (iw2tau_dft_soft_linear beta).1 fun g x hx ε hε j => ?_
  by_cases hN : N = 0
  · subst hN
    unfold iw2tauDftSoft iw2tauDft hfft at hx
    rw [if_pos (by omega)] at hx
    cases hx
  obtain ⟨r, hr, hr'⟩ := iw2tau_dft_soft_correct hN g hb.ne'
  obtain rfl : r = x := Except.ok.inj (hr.symm.trans hx)
  have h1 := dft_bound (N := 2 * N) (ε := ε) hb rfl (softExtend g) (fun l => ?_) (hr' j)
  · push_cast at h1
    calc _ ≤ _ := h1
      _ = 4 * N / beta * ε := by ring
  · unfold softExtend
    split_ifs with hl
    · exact hε _
    · rw [norm_mul, Complex.norm_real, Real.norm_eq_abs]
      set t := Real.pi * ((l : ℕ) - N + 1 : ℕ) / N
      have h2 : |0.5 * (Real.cos t + 1)| ≤ 1 := by
        rw [abs_le]
        constructor <;> linarith [Real.neg_one_le_cos t, Real.cos_le_one t]
      calc _ ≤ 1 * ε := mul_le_mul h2 (hε _) (norm_nonneg _) (by norm_num)
        _ = ε := one_mul _

/-- C86: with fixed moments (`n_fit=0`) `iw2tau` amplifies errors as much as the Fourier transform that it uses. -/
theorem iw2tau_noise (ext : LinalgExt ℝ) {N l : ℕ} {beta C : ℝ} (moments : Fin l → ℝ)
    {fourier : (Fin N → ℂ) → ℝ → Except Err (Fin (2 * N + 1) → ℝ)} (hf : SupStable C fun g => fourier g beta) :
    SupStable C fun g : Fin N → ℂ => iw2tau ext g beta moments fourier 0 := by
  intro g h x y hx hy ε hε k
  simp only [iw2tau, iw2tauPoles] at hx hy
  cases hp : gfFromMoments moments (some 1) with
  | error e => rw [hp] at hx; cases hx
  | ok p =>
    rw [hp] at hx hy
    simp only at hx hy
    cases h1 : fourier (fun i => g i - p.evalZ (matsubaraFrequencies (i : ℕ) beta)) beta with
    | error e => rw [h1] at hx; cases hx
    | ok a =>
      cases h2 : fourier (fun i => h i - p.evalZ (matsubaraFrequencies (i : ℕ) beta)) beta with
      | error e => rw [h2] at hy; cases hy
      | ok b =>
        rw [h1] at hx
        rw [h2] at hy
        cases ht : evalTauGrid p beta (2 * N + 1) with
        | error e => rw [ht] at hx; cases hx
        | ok t =>
          rw [ht] at hx hy
          obtain rfl := Except.ok.inj hx
          obtain rfl := Except.ok.inj hy
          have := hf _ _ a b h1 h2 ε (fun i => by simpa using hε i) k
          simpa using this

/-- C86: with fixed moments (`n_fit=0`) `density_iw` amplifies errors by at most `2/beta` times the sum of the weights. -/
theorem density_iw_noise (ext : LinalgExt ℝ) {k l : ℕ} (iws : Fin k → ℂ) {beta : ℝ} (hb : 0 < beta) (weights : Fin k → ℝ)
    (moments : Fin l → ℝ) :
    SupStable (2 / beta * ∑ i, |weights i|) fun g : Fin k → ℂ =>
      (densityIw ext iws g beta weights moments 0).map fun (n : ℝ) (_ : Unit) => n := by
  intro g h x y hx hy ε hε u
  simp only [densityIw] at hx hy
  rw [if_neg (by simp)] at hx hy
  cases hp : gfFromMoments moments none with
  | error e => rw [hp] at hx; cases hx
  | ok p =>
    rw [hp] at hx hy
    obtain rfl := Except.ok.inj hx
    obtain rfl := Except.ok.inj hy
    simp only
    rw [add_sub_add_right_eq_sub, ← mul_sub, ← Finset.sum_sub_distrib, norm_mul, Real.norm_of_nonneg (by positivity), mul_assoc,
      Finset.sum_mul]
    refine mul_le_mul_of_nonneg_left ((norm_sum_le _ _).trans (Finset.sum_le_sum fun i _ => ?_)) (by positivity)
    rw [← mul_sub, norm_mul, Real.norm_eq_abs, sub_sub_sub_cancel_right, ← Complex.sub_re]
    exact mul_le_mul_of_nonneg_left ((Complex.abs_re_le_norm _).trans (hε i)) (abs_nonneg _)

/-! ## Transforms of real time -/

private lemma phase_le {z : ℂ} (hz : 0 ≤ z.im) {t : ℝ} (ht : 0 ≤ t) : ‖Complex.exp (I * z * t)‖ ≤ 1 := by
  rw [Complex.norm_exp, Real.exp_le_one_iff]
  have : (I * z * t).re = -(z.im * t) := by simp [Complex.mul_re]
  rw [this]
  nlinarith

/-- C86: `tt2z_trapz` amplifies errors by at most the length of the time interval. -/
theorem tt2z_trapz_noise {n : ℕ} {tt : ℕ → ℝ} (h0 : 0 ≤ tt 0) (hm : Monotone tt) {z : ℂ} (hz : 0 ≤ z.im) {g h : ℕ → ℂ} {x y : ℂ}
    (hx : tt2zTrapz n tt g z = .ok x) (hy : tt2zTrapz n tt h z = .ok y) {ε : ℝ} (hε : ∀ k < n, ‖g k - h k‖ ≤ ε) :
    ‖x - y‖ ≤ (tt (n - 1) - tt 0) * ε := by
  have hn : 2 ≤ n := by
    by_contra hlt
    rw [(tt2z_trapz_correct n tt g z).1 (by omega)] at hx
    cases hx
  rw [(tt2z_trapz_correct n tt g z).2 hn] at hx
  rw [(tt2z_trapz_correct n tt h z).2 hn] at hy
  obtain rfl := Except.ok.inj hx
  obtain rfl := Except.ok.inj hy
  have ht : ∀ k, 0 ≤ tt k := fun k => h0.trans (hm (Nat.zero_le k))
  have hk : ∀ k < n, ‖Complex.exp (I * z * tt k) * g k - Complex.exp (I * z * tt k) * h k‖ ≤ ε := by
    intro k hk
    rw [← mul_sub, norm_mul]
    calc _ ≤ 1 * ε := mul_le_mul (phase_le hz (ht k)) (hε k hk) (norm_nonneg _) zero_le_one
      _ = ε := one_mul _
  unfold trapezoid
  rw [← Finset.sum_sub_distrib]
  refine (norm_sum_le _ _).trans ?_
  calc _ ≤ ∑ k ∈ Finset.range (n - 1), (tt (k + 1) - tt k) * ε := Finset.sum_le_sum fun k hk' => by
        have hlt := Finset.mem_range.1 hk'
        have h1 := hk k (by omega)
        have h2 := hk (k + 1) (by omega)
        have hd : 0 ≤ tt (k + 1) - tt k := sub_nonneg.2 (hm (Nat.le_succ k))
        rw [← mul_sub, norm_mul, Complex.norm_real, Real.norm_of_nonneg hd]
        refine mul_le_mul_of_nonneg_left ?_ hd
        have h3 : ∀ a b c d : ℂ, (a + b) / 2 - (c + d) / 2 = ((a - c) + (b - d)) / 2 := fun a b c d => by ring
        rw [h3, norm_div]
        have h4 := norm_add_le (Complex.exp (I * z * tt k) * g k - Complex.exp (I * z * tt k) * h k)
          (Complex.exp (I * z * tt (k + 1)) * g (k + 1) - Complex.exp (I * z * tt (k + 1)) * h (k + 1))
        have h5 : ‖(2 : ℂ)‖ = 2 := by norm_num
        rw [h5]
        linarith
    _ = (tt (n - 1) - tt 0) * ε := by rw [← Finset.sum_mul, Finset.sum_range_sub]

/-- C86: `tt2z_lin` amplifies errors by at most the length of the time interval. -/
theorem tt2z_lin_noise {n : ℕ} {t0 dt : ℝ} (h0 : 0 ≤ t0) (hdt : 0 < dt) {z : ℂ} (hz : 0 ≤ z.im) {g h : ℕ → ℂ} {x y : ℂ}
    (hx : tt2zLin n (fun k => t0 + k * dt) g z = .ok x) (hy : tt2zLin n (fun k => t0 + k * dt) h z = .ok y) {ε : ℝ}
    (hε : ∀ k < n, ‖g k - h k‖ ≤ ε) : ‖x - y‖ ≤ (n - 1 : ℕ) * dt * ε := by
  have hn : 2 ≤ n := by
    by_contra hlt
    unfold tt2zLin at hx
    rw [if_pos (by omega)] at hx
    cases hx
  obtain ⟨T, rfl⟩ : ∃ T, n = T + 1 := ⟨n - 1, by omega⟩
  have hl := (tt2z_lin_linear (T + 1) (fun k => t0 + k * dt) z).1 1 (-1) g h x y hx hy
  obtain ⟨s, hs⟩ := exists_spline (fun k : Fin (T + 1) => g k - h k) t0 hdt.ne'
  have hpl : IsPiecewiseLinear (T + 1) (fun k => t0 + k * dt) ((1 : ℂ) • g + (-1 : ℂ) • h) s := by
    intro k hk τ hτ
    have hk' : k < T := by simpa using hk
    have := hs ⟨k, hk'⟩ τ (by simpa using hτ)
    rw [this]
    have e : (t0 + (k + 1 : ℕ) * dt - (t0 + (k : ℕ) * dt) : ℝ) = dt := by push_cast; ring
    simp only [e]
    simp [sub_eq_add_neg]
  simp only at hl
  rw [tt2z_lin_exact (T + 1) hn t0 dt hdt.ne' _ z s hpl] at hl
  have hxy : (1 : ℂ) • x + (-1 : ℂ) • y = x - y := by simp [sub_eq_add_neg]
  rw [← hxy, ← Except.ok.inj hl]
  simp only [Nat.add_sub_cancel]
  have hT : (0 : ℝ) ≤ T * dt := by positivity
  have h2 : ‖∫ t in t0..(t0 + T * dt), s t * Complex.exp (I * z * t)‖ ≤ ε * |t0 + T * dt - t0| := by
    refine intervalIntegral.norm_integral_le_of_norm_le_const fun τ hτ => ?_
    rw [Set.uIoc_of_le (by linarith)] at hτ
    rw [norm_mul]
    have h3 : ‖s τ‖ ≤ ε := spline_norm_le (by omega) hdt hs (fun k => hε k k.2) hτ.1.le hτ.2
    calc _ ≤ ε * 1 := mul_le_mul h3 (phase_le hz (h0.trans hτ.1.le)) (norm_nonneg _) ((norm_nonneg _).trans h3)
      _ = ε := mul_one _
  rw [add_sub_cancel_left, abs_of_nonneg hT] at h2
  linarith

/-- C86: `tt2z_simps` amplifies errors by at most `4/3` of the number of points times the spacing. -/
theorem tt2z_simps_noise {n : ℕ} {tt : ℕ → ℝ} (ht : ∀ k, 0 ≤ tt k) (hdt : tt 0 ≤ tt 1) {z : ℂ} (hz : 0 ≤ z.im) {g h : ℕ → ℂ}
    {x y : ℂ} (hx : tt2zSimps n tt g z = .ok x) (hy : tt2zSimps n tt h z = .ok y) {ε : ℝ} (hε : ∀ k < n, ‖g k - h k‖ ≤ ε) :
    ‖x - y‖ ≤ 4 / 3 * n * (tt 1 - tt 0) * ε := by
  have hd : 0 ≤ tt 1 - tt 0 := sub_nonneg.2 hdt
  unfold tt2zSimps at hx hy
  split_ifs at hx hy with hn
  obtain rfl := Except.ok.inj hx
  obtain rfl := Except.ok.inj hy
  rw [← Finset.sum_sub_distrib]
  refine (norm_sum_le _ _).trans ?_
  calc _ ≤ ∑ _k ∈ Finset.range n, 4 / 3 * (tt 1 - tt 0) * ε := Finset.sum_le_sum fun k hk => by
        have hk' := hε k (Finset.mem_range.1 hk)
        have hw : ∃ c : ℝ, 0 ≤ c ∧ c ≤ 4 ∧ ∀ f : ℕ → ℂ, simpsWeight n (tt 1 - tt 0) f false k
            = ((tt 1 - tt 0 : ℝ) : ℂ) / 3 * f k * (c : ℂ) := by
          rcases Nat.mod_two_eq_zero_or_one k with h2 | h2
          · by_cases h3 : 2 ≤ k
            · exact ⟨2, by norm_num, by norm_num, fun f => by simp [simpsWeight, h2, h3]⟩
            · exact ⟨1, by norm_num, by norm_num, fun f => by simp [simpsWeight, h2, h3]⟩
          · exact ⟨4, by norm_num, by norm_num, fun f => by simp [simpsWeight, h2, show 1 ≤ k by omega]⟩
        obtain ⟨c, hc0, hc4, hc⟩ := hw
        rw [hc, hc, ← mul_sub, ← sub_mul, ← mul_sub, norm_mul, norm_mul, norm_mul, norm_div, Complex.norm_real, Complex.norm_real,
          Real.norm_of_nonneg hd, Real.norm_of_nonneg hc0]
        have h3 : ‖(3 : ℂ)‖ = 3 := by norm_num
        have hp := phase_le hz (ht k)
        have hε0 : 0 ≤ ε := (norm_nonneg _).trans hk'
        rw [h3]
        calc _ ≤ 1 * ((tt 1 - tt 0) / 3 * ε * 4) := by
              refine mul_le_mul hp ?_ (by positivity) zero_le_one
              gcongr
          _ = _ := by ring
    _ = _ := by
        rw [Finset.sum_const, Finset.card_range, nsmul_eq_mul]
        ring

/-! ## Green's functions -/

/-- C86: errors of the frequency: in the upper half-plane every Green's function with a spectral distribution is Lipschitz
continuous, with the product of the distances to the real axis. -/
theorem spectrum_lipschitz {G : ℂ → ℂ} {A : MeasureTheory.Measure ℝ} [MeasureTheory.IsFiniteMeasure A] (hG : HasSpectrum G A)
    {z w : ℂ} (hz : 0 < z.im) (hw : 0 < w.im) : ‖G z - G w‖ ≤ A.real Set.univ * (‖z - w‖ / (z.im * w.im)) := by
  rw [hG z hz, hG w hw, ← MeasureTheory.integral_sub (upper_integrable hz) (upper_integrable hw), mul_comm]
  refine MeasureTheory.norm_integral_le_of_norm_le_const (Filter.Eventually.of_forall fun x => ?_)
  have h1 := upper_ne hz x
  have h2 := upper_ne hw x
  have h3 : 1 / (z - (x : ℂ)) - 1 / (w - x) = (w - z) * (1 / (z - x) * (1 / (w - x))) := by
    field_simp
    ring
  rw [h3, norm_mul, norm_mul, norm_sub_rev w z, div_eq_mul_one_div ‖z - w‖, ← one_div_mul_one_div]
  have h4 := upper_bound hz x
  have h5 := upper_bound hw x
  gcongr

/-- A Green's function with two poles. -/
example (z w : ℂ) (hz : 1 ≤ z.im) (hw : 1 ≤ w.im) : ‖(1 / z + 1 / (z - 3)) - (1 / w + 1 / (w - 3))‖ ≤ 2 * ‖z - w‖ := by
  have h1 : HasSpectrum (fun z => 1 / z + 1 / (z - 3)) (MeasureTheory.Measure.dirac 0 + MeasureTheory.Measure.dirac 3) := by
    intro z hz
    rw [MeasureTheory.integral_add_measure (upper_integrable hz) (upper_integrable hz), MeasureTheory.integral_dirac,
      MeasureTheory.integral_dirac]
    simp
  have h2 := spectrum_lipschitz h1 (zero_lt_one.trans_le hz) (zero_lt_one.trans_le hw)
  have h3 : (MeasureTheory.Measure.dirac (0 : ℝ) + MeasureTheory.Measure.dirac (3 : ℝ)).real Set.univ = 2 := by
    rw [MeasureTheory.measureReal_add_apply]
    simp
    norm_num
  rw [h3] at h2
  refine h2.trans (mul_le_mul_of_nonneg_left (div_le_self (norm_nonneg _) ?_) zero_le_two)
  nlinarith

/-- C86: Padé continuation has no such factor: for every factor `C` and every size `ε` of the errors there are data at two points
of the imaginary axis for which it is exceeded at a third one, all numbers being finite. -/
theorem pade_noise_unbounded (C : ℝ) {ε : ℝ} (hε : 0 < ε) :
    ∃ (f g a b : ℕ → ℂ) (x y : ℂ), (∀ k, ‖f k - g k‖ ≤ ε) ∧
      coefficients 2 2 (fun k => (k + 1) * I) f = .ok (some a) ∧ coefficients 2 2 (fun k => (k + 1) * I) g = .ok (some b) ∧
      calcIterator (3 * I) 2 2 (fun k => (k + 1) * I) a = .ok [x] ∧ calcIterator (3 * I) 2 2 (fun k => (k + 1) * I) b = .ok [y] ∧
      C * ε < ‖x - y‖ := by
  obtain ⟨δ, hδ0, hδ1, hδε, hδC⟩ : ∃ δ : ℝ, 0 < δ ∧ δ ≤ 1 ∧ δ / 2 ≤ ε ∧ C * ε < 2 / δ := by
    have hp : 0 < |C * ε| + 1 := by positivity
    refine ⟨min (min 1 ε) (1 / (|C * ε| + 1)), by positivity, (min_le_left _ _).trans (min_le_left _ _), ?_, ?_⟩
    · have := (min_le_left (min 1 ε) (1 / (|C * ε| + 1))).trans (min_le_right _ _)
      linarith
    · rw [lt_div_iff₀ (by positivity)]
      have h1 := min_le_right (min 1 ε) (1 / (|C * ε| + 1))
      set δ := min (min 1 ε) (1 / (|C * ε| + 1))
      rw [le_div_iff₀ hp] at h1
      have h0 : 0 < δ := by positivity
      nlinarith [le_abs_self (C * ε)]
  have key : ∀ d : ℝ, 0 < d → d ≤ 1 → ∃ a : ℕ → ℂ,
      coefficients 2 2 (fun k => (k + 1) * I) (fun k => if k = 0 then 1 else 2 - (d : ℂ)) = .ok (some a) ∧
      calcIterator (3 * I) 2 2 (fun k => (k + 1) * I) a = .ok [(2 - (d : ℂ)) / d] := by
    intro d hd0 hd1
    have hdc : (d : ℂ) ≠ 0 := by exact_mod_cast hd0.ne'
    have h2d : (2 : ℂ) - d ≠ 0 := by
      rw [← Complex.ofReal_ofNat, ← Complex.ofReal_sub, Complex.ofReal_ne_zero]
      linarith
    have hI := Complex.I_ne_zero
    have hI2 := Complex.I_sq
    refine ⟨coefRes (fun k => (k + 1) * I) (fun k => if k = 0 then 1 else 2 - (d : ℂ)) 1, ?_, ?_⟩
    · unfold coefficients
      rw [if_neg (by simp), if_pos]
      intro ii j hij hj
      obtain rfl : ii = 0 := by omega
      obtain rfl : j = 1 := by omega
      refine ⟨by simpa [coefRes] using h2d, ?_⟩
      push_cast
      ring_nf
      exact hI
    · unfold calcIterator
      rw [if_neg (by simp)]
      have h1 : coefRes (fun k : ℕ => ((k : ℂ) + 1) * I) (fun k => if k = 0 then 1 else 2 - (d : ℂ)) 1 1
          = (1 / (2 - (d : ℂ)) - 1) / I := by
        have h2 : ((1 : ℕ) + 1) * I - ((0 : ℕ) + 1) * I = I := by
          push_cast
          ring
        simp only [coefRes, if_true, if_false, one_ne_zero, h2, zero_lt_one]
      have h0 : coefRes (fun k : ℕ => ((k : ℂ) + 1) * I) (fun k => if k = 0 then 1 else 2 - (d : ℂ)) 1 0 = 1 := by
        simp [coefRes]
      simp only [Nat.add_one_sub_one, List.range_one, List.map_cons, List.map_nil, padeState, h0, h1, zero_add]
      congr 2
      have h3 : 1 + (3 * I - ((0 : ℕ) + 1) * I) * ((1 / (2 - (d : ℂ)) - 1) / I) / 1 = d / (2 - d) := by
        field_simp
        push_cast
        ring
      rw [h3]
      field_simp
      simp
  obtain ⟨a, ha, ha'⟩ := key δ hδ0 hδ1
  obtain ⟨b, hb, hb'⟩ := key (δ / 2) (by linarith) (by linarith)
  refine ⟨_, _, a, b, _, _, fun k => ?_, ha, hb, ha', hb', ?_⟩
  · by_cases hk : k = 0
    · simp [hk, hε.le]
    · simp only [if_neg hk]
      have : (2 - (δ : ℂ)) - (2 - ((δ / 2 : ℝ) : ℂ)) = ((-(δ / 2) : ℝ) : ℂ) := by push_cast; ring
      rw [this, Complex.norm_real, norm_neg, Real.norm_of_nonneg (by linarith)]
      exact hδε
  · have hδc : (δ : ℂ) ≠ 0 := by exact_mod_cast hδ0.ne'
    have : (2 - (δ : ℂ)) / δ - (2 - ((δ / 2 : ℝ) : ℂ)) / ((δ / 2 : ℝ) : ℂ) = ((-(2 / δ) : ℝ) : ℂ) := by
      push_cast
      field_simp
      ring
    rw [this, Complex.norm_real, norm_neg, Real.norm_of_nonneg (by positivity)]
    exact hδC

end Gftool.Props
