import Verif.Props.Moments
import Mathlib.MeasureTheory.Group.Integral
import Mathlib.MeasureTheory.Measure.Haar.Unique

/-!
# Retarded Green's functions in time (C55)
-/

namespace Gftool.Props

open Gftool Model Spec Lemmas
open Complex (I)
open MeasureTheory

/-! ## Fourier transforms of densities of states -/

section
variable {dos : ℝ → ℝ} {D : ℝ}

lemma dos_mul_integrable (hd : IsDos dos D) {g : ℝ → ℂ} (hg : Continuous g) {C : ℝ}
    (hC : ∀ e, |e| ≤ D → ‖g e‖ ≤ C) : Integrable fun e => (dos e : ℂ) * g e := by
  refine (hd.integrable.mul_const C).mono' (Measurable.aestronglyMeasurable ?_) (Filter.Eventually.of_forall ?_)
  · have := hd.measurable
    have := hg.measurable
    fun_prop
  · intro e
    rw [norm_mul, Complex.norm_real, Real.norm_of_nonneg (hd.nonneg e)]
    by_cases he : |e| ≤ D
    · exact mul_le_mul_of_nonneg_left (hC e he) (hd.nonneg e)
    · rw [hd.outside e (not_le.1 he)]
      simp

lemma dos_mul_norm_le (hd : IsDos dos D) {g : ℝ → ℂ} {C : ℝ}
    (hC : ∀ e, |e| ≤ D → ‖g e‖ ≤ C) : ‖∫ e, (dos e : ℂ) * g e‖ ≤ C := by
  have h := norm_integral_le_of_norm_le (f := fun e => (dos e : ℂ) * g e) (hd.integrable.mul_const C)
    (Filter.Eventually.of_forall fun e => by
      rw [norm_mul, Complex.norm_real, Real.norm_of_nonneg (hd.nonneg e)]
      by_cases he : |e| ≤ D
      · exact mul_le_mul_of_nonneg_left (hC e he) (hd.nonneg e)
      · rw [hd.outside e (not_le.1 he)]
        simp)
  rwa [integral_mul_const, hd.norm, one_mul] at h

lemma dos_term (n : ℕ) (t : ℝ) :
    ∫ e, (dos e : ℂ) * ((-I * e * t) ^ n / n.factorial)
      = (-I * t) ^ n / n.factorial * ((∫ e, e ^ n * dos e : ℝ) : ℂ) := by
  rw [← integral_complex_ofReal, ← integral_const_mul]
  congr 1
  funext e
  push_cast
  rw [mul_pow, mul_pow, mul_pow]
  ring

/-- The Fourier transform is the exponential generating function of the moments. -/
lemma dos_fourier_hasSum (hd : IsDos dos D) (t : ℝ) :
    HasSum (fun n : ℕ => (-I * t) ^ n / n.factorial * ((∫ e, e ^ n * dos e : ℝ) : ℂ))
      (∫ e, (dos e : ℂ) * Complex.exp (-I * e * t)) := by
  have hb : ∀ n : ℕ, ∀ e : ℝ, |e| ≤ D → ‖((-I * e * t) ^ n / n.factorial : ℂ)‖ ≤ (D * |t|) ^ n / n.factorial := by
    intro n e he
    rw [norm_div, norm_pow, norm_mul, norm_mul, norm_neg, Complex.norm_I, one_mul, Complex.norm_real,
      Complex.norm_real, Complex.norm_natCast, Real.norm_eq_abs, Real.norm_eq_abs]
    gcongr
  have hint : ∀ n : ℕ, Integrable fun e : ℝ => (dos e : ℂ) * ((-I * e * t) ^ n / n.factorial) :=
    fun n => dos_mul_integrable hd (by fun_prop) (hb n)
  have h := hasSum_integral_of_summable_integral_norm hint (by
    refine Summable.of_nonneg_of_le (fun n => integral_nonneg fun e => norm_nonneg _) (fun n => ?_)
      (Real.summable_pow_div_factorial (D * |t|))
    have h1 : ∫ e, ‖(dos e : ℂ) * ((-I * e * t) ^ n / n.factorial)‖
        ≤ ∫ e, dos e * ((D * |t|) ^ n / n.factorial) := by
      refine integral_mono (hint n).norm (hd.integrable.mul_const _) fun e => ?_
      simp only
      rw [norm_mul, Complex.norm_real, Real.norm_of_nonneg (hd.nonneg e)]
      by_cases he : |e| ≤ D
      · exact mul_le_mul_of_nonneg_left (hb n e he) (hd.nonneg e)
      · rw [hd.outside e (not_le.1 he)]
        simp
    rwa [integral_mul_const, hd.norm, one_mul] at h1)
  simp_rw [dos_term] at h
  have e1 : (fun e : ℝ => (dos e : ℂ) * Complex.exp (-I * e * t))
      = fun e : ℝ => ∑' i : ℕ, (dos e : ℂ) * ((-I * e * t) ^ i / i.factorial) := by
    funext e
    rw [tsum_mul_left, Complex.exp_eq_exp_ℂ, NormedSpace.exp_eq_tsum_div]
  rw [e1]
  exact h

lemma dos_odd_moment (hd : IsDos dos D) {m : ℕ} (hm : Odd m) : ∫ e, e ^ m * dos e = 0 := by
  have h := integral_neg_eq_self (fun e => e ^ m * dos e) volume
  simp_rw [hd.symm, hm.neg_pow, neg_mul] at h
  rw [integral_neg] at h
  linarith

/-- Truncation of the Fourier transform after the fourth moment. -/
lemma dos_fourier_bound (hd : IsDos dos D) {t : ℝ} (ht : D * |t| ≤ 1) {M2 M4 : ℝ}
    (h2 : ∫ e, e ^ 2 * dos e = M2) (h4 : ∫ e, e ^ 4 * dos e = M4) :
    ‖(∫ e, (dos e : ℂ) * Complex.exp (-I * e * t)) - (1 - M2 / 2 * t ^ 2 + M4 / 24 * t ^ 4)‖
      ≤ 7 / 4320 * (D * |t|) ^ 6 := by
  have hb : ∀ n : ℕ, ∀ e : ℝ, |e| ≤ D → ‖((-I * e * t) ^ n / n.factorial : ℂ)‖ ≤ (D * |t|) ^ n / n.factorial := by
    intro n e he
    rw [norm_div, norm_pow, norm_mul, norm_mul, norm_neg, Complex.norm_I, one_mul, Complex.norm_real,
      Complex.norm_real, Complex.norm_natCast, Real.norm_eq_abs, Real.norm_eq_abs]
    gcongr
  have hint : ∀ n : ℕ, Integrable fun e : ℝ => (dos e : ℂ) * ((-I * e * t) ^ n / n.factorial) :=
    fun n => dos_mul_integrable hd (by fun_prop) (hb n)
  have hint' : Integrable fun e : ℝ => (dos e : ℂ) * Complex.exp (-I * e * t) :=
    dos_mul_integrable hd (C := 1) (by fun_prop) fun e _ => by
      rw [show -I * e * t = ((-(e * t) : ℝ) : ℂ) * I by push_cast; ring, Complex.norm_exp_ofReal_mul_I]
  have hsum : ∑ n ∈ Finset.range 6, ∫ e, (dos e : ℂ) * ((-I * e * t) ^ n / n.factorial)
      = 1 - M2 / 2 * t ^ 2 + M4 / 24 * t ^ 4 := by
    simp_rw [dos_term]
    have h0 : ∫ e, e ^ 0 * dos e = 1 := by simpa using hd.norm
    simp only [Finset.sum_range_succ, Finset.range_zero, Finset.sum_empty, h0, h2, h4,
      dos_odd_moment hd (show Odd 1 by decide), dos_odd_moment hd (show Odd 3 by decide),
      dos_odd_moment hd (show Odd 5 by decide)]
    norm_num [Nat.factorial]
    linear_combination (M2 * t ^ 2 / 2 + M4 * t ^ 4 / 24 * (I ^ 2 - 1)) * Complex.I_sq
  rw [← hsum, ← integral_finsetSum _ (fun n _ => hint n), ← integral_sub hint' (integrable_finsetSum _ fun n _ => hint n)]
  have e1 : ∀ e : ℝ, (dos e : ℂ) * Complex.exp (-I * e * t)
        - ∑ n ∈ Finset.range 6, (dos e : ℂ) * ((-I * e * t) ^ n / n.factorial)
      = (dos e : ℂ) * (Complex.exp (-I * e * t) - ∑ n ∈ Finset.range 6, (-I * e * t) ^ n / n.factorial) := by
    intro e
    rw [mul_sub, Finset.mul_sum]
  simp_rw [e1]
  apply dos_mul_norm_le hd
  intro e he
  have hx : ‖-I * e * t‖ ≤ D * |t| := by
    rw [norm_mul, norm_mul, norm_neg, Complex.norm_I, one_mul, Complex.norm_real,
      Complex.norm_real, Real.norm_eq_abs, Real.norm_eq_abs]
    gcongr
  have := Complex.exp_bound (hx.trans ht) (n := 6) (by norm_num)
  refine this.trans ?_
  norm_num [Nat.factorial]
  rw [mul_comm]
  gcongr
end

/-! ## Box -/

/-- C55: the box Green's function in time vanishes for negative times and is `-i` at time zero. -/
theorem box_gf_ret_t_causal {D : ℝ} (hD : 0 < D) (c : ℝ) :
    (∀ t < 0, boxGfRetT t D c = 0) ∧ boxGfRetT 0 D c = -I := by
  constructor
  · intro t ht
    unfold boxGfRetT
    simp only
    rw [if_neg (not_le.2 (mul_neg_of_pos_of_neg hD ht))]
    split_ifs <;> simp
  · unfold boxGfRetT
    simp only [mul_zero]
    have hs : |(0 : ℝ)| < retSmall := by rw [abs_zero]; unfold retSmall; positivity
    rw [if_pos le_rfl, if_pos hs]
    split_ifs <;> simp

/-- C55: at times `t ≥ 2⁻¹³/D` the function is exactly `-i` times the Fourier transform of the box DOS. -/
theorem box_gf_ret_t_fourier {t D : ℝ} (hD : 0 < D) (ht : retSmall ≤ D * t) :
    boxGfRetT t D 0 = retardedTime (fun e => boxDos e D) t := by
  have hs : 0 < retSmall := by unfold retSmall; positivity
  have hx : 0 < D * t := hs.trans_le ht
  have ht0 : 0 < t := by
    by_contra h
    nlinarith [not_lt.1 h]
  unfold boxGfRetT retardedTime
  simp only
  rw [if_neg (by simp), if_pos hx.le, if_neg (by rw [abs_of_pos hx]; exact not_lt.2 ht), if_pos ht0.le]
  have e1 : ∫ e, (boxDos e D : ℂ) * Complex.exp (-I * e * t) = ∫ e, boxDos e D • Complex.exp (-I * t * e) := by
    congr 1; funext e; rw [Complex.real_smul]; ring_nf
  have htc : (t : ℂ) ≠ 0 := by exact_mod_cast ht0.ne'
  have hDc : (D : ℂ) ≠ 0 := by exact_mod_cast hD.ne'
  rw [e1, box_integral hD, integral_exp_mul_complex (by simp [htc]), Complex.real_smul, Complex.ofReal_sin,
    Complex.sin]
  push_cast
  rw [show -(D * t : ℂ) * I = -I * t * D by ring, show (D * t : ℂ) * I = -I * t * -D by ring]
  have hI := Complex.I_ne_zero
  generalize Complex.exp (-I * t * D) = a
  generalize Complex.exp (-I * t * -D) = b
  norm_num
  field_simp
  linear_combination (b - a) * Complex.I_sq

/-- C55: at smaller times the expansion has an error of at most `7/4320 (Dt)⁶ < 10⁻²⁶`. -/
theorem box_gf_ret_t_small {t D : ℝ} (hD : 0 < D) (h0 : 0 ≤ t) (ht : D * t < retSmall) :
    ‖boxGfRetT t D 0 - retardedTime (fun e => boxDos e D) t‖ ≤ 7 / 4320 * (D * t) ^ 6 := by
  have hx : 0 ≤ D * t := by positivity
  have h1 : D * |t| ≤ 1 := by
    rw [abs_of_nonneg h0]
    refine ht.le.trans ?_
    unfold retSmall
    norm_num
  have hb := dos_fourier_bound (box_dos hD) h1 (M2 := D ^ 2 / 3) (M4 := D ^ 4 / 5)
    (by rw [← box_dos_moment 2 hD]; norm_num [boxDosMoment])
    (by rw [← box_dos_moment 4 hD]; norm_num [boxDosMoment])
  unfold boxGfRetT retardedTime
  simp only
  rw [if_neg (by simp), if_pos hx, if_pos (by rwa [abs_of_nonneg hx]), if_pos h0, ← mul_sub, norm_mul, norm_neg,
    Complex.norm_I, one_mul, norm_sub_rev]
  rw [abs_of_nonneg h0] at hb
  refine le_trans (le_of_eq ?_) hb
  congr 1
  push_cast
  ring

/-- C55: the effect of the parameter `center`: the phase contains `center * D`. -/
theorem box_gf_ret_t_center (t D c : ℝ) :
    boxGfRetT t D c = Complex.exp (-I * c * (D * t)) * boxGfRetT t D 0 := by
  unfold boxGfRetT
  simp only [ne_eq, not_true, if_false]
  by_cases hc : c = 0
  · simp [hc]
  · rw [if_pos hc, mul_comm]
    push_cast
    rfl

/-- C55: for half-bandwidth one the shift is correct. -/
theorem box_gf_ret_t_center_partial (t c : ℝ) :
    boxGfRetT t 1 c = Complex.exp (-I * c * t) * boxGfRetT t 1 0 := by
  have := box_gf_ret_t_center t 1 c
  simpa using this

/-- C55: for other half-bandwidths the shift by `center` is wrong. -/
theorem box_gf_ret_t_center_wrong :
    boxGfRetT (1 / 2) 2 (2 * Real.pi) ≠ Complex.exp (-I * (2 * Real.pi : ℝ) * (1 / 2 : ℝ)) * boxGfRetT (1 / 2) 2 0 := by
  rw [box_gf_ret_t_center]
  have hne : boxGfRetT (1 / 2) 2 0 ≠ 0 := by
    unfold boxGfRetT
    simp only
    norm_num
    rw [if_neg (by unfold retSmall; norm_num)]
    have : 0 < Real.sin 1 := Real.sin_pos_of_pos_of_lt_pi one_pos (by linarith [Real.two_le_pi])
    have h : ((Real.sin 1 : ℝ) : ℂ) ≠ 0 := by exact_mod_cast this.ne'
    simpa using h
  intro h
  have h2 := mul_right_cancel₀ hne h
  have e1 : Complex.exp (-I * (2 * Real.pi : ℝ) * ((2 : ℝ) * (1 / 2 : ℝ))) = 1 := by
    rw [show -I * (2 * Real.pi : ℝ) * ((2 : ℝ) * (1 / 2 : ℝ)) = -(2 * Real.pi * I) by push_cast; ring,
      Complex.exp_neg, Complex.exp_two_pi_mul_I, inv_one]
  have e2 : Complex.exp (-I * (2 * Real.pi : ℝ) * (1 / 2 : ℝ)) = -1 := by
    rw [show -I * (2 * Real.pi : ℝ) * (1 / 2 : ℝ) = -(Real.pi * I) by push_cast; ring,
      Complex.exp_neg, Complex.exp_pi_mul_I]
    norm_num
  rw [e1, e2] at h2
  norm_num at h2

/-! ## Bethe lattice -/

/-- C55: the Bethe Green's function in time vanishes for negative times and is `-i` at time zero. -/
theorem bethe_gf_ret_t_causal (jv1 : ℝ → ℝ) {D : ℝ} (hD : 0 < D) (c : ℝ) :
    (∀ t < 0, betheGfRetT jv1 t D c = 0) ∧ betheGfRetT jv1 0 D c = -I := by
  constructor
  · intro t ht
    unfold betheGfRetT
    simp only
    rw [if_neg (not_le.2 (mul_neg_of_pos_of_neg hD ht))]
    split_ifs <;> simp
  · unfold betheGfRetT
    simp only [mul_zero]
    have hs : |(0 : ℝ)| < retSmall := by rw [abs_zero]; unfold retSmall; positivity
    rw [if_pos le_rfl, if_pos hs]
    split_ifs <;> simp

/-- The Fourier transform of the Bethe DOS is a Bessel function. -/
lemma bethe_fourier {D : ℝ} (hD : 0 < D) {t : ℝ} (ht : t ≠ 0) :
    ∫ e, (betheDos e D : ℂ) * Complex.exp (-I * e * t) = ((2 * besselJ1 (D * t) / (D * t) : ℝ) : ℂ) := by
  have hs := dos_fourier_hasSum (bethe_dos hD) t
  -- only the even orders contribute
  have heven : HasSum (fun k : ℕ => (-I * t) ^ (2 * k) / (2 * k).factorial *
      ((∫ e, e ^ (2 * k) * betheDos e D : ℝ) : ℂ)) (∫ e, (betheDos e D : ℂ) * Complex.exp (-I * e * t)) := by
    have hinj : Function.Injective fun k : ℕ => 2 * k := fun a b h => by simpa using h
    refine (hinj.hasSum_iff ?_).2 hs
    intro n hn
    have : Odd n := by
      by_contra hc
      rw [Nat.not_odd_iff_even] at hc
      obtain ⟨k, rfl⟩ := hc
      exact hn ⟨k, by ring⟩
    rw [dos_odd_moment (bethe_dos hD) this]
    simp
  have hreal : HasSum (fun k : ℕ => 2 / (D * t) * ((-1) ^ k / ((k.factorial : ℝ) * ((k + 1).factorial : ℝ))
      * ((D * t) / 2) ^ (2 * k + 1))) (∫ e, (betheDos e D : ℂ) * Complex.exp (-I * e * t)).re := by
    have h := Complex.hasSum_re heven
    have e : (fun k : ℕ => ((-I * t) ^ (2 * k) / (2 * k).factorial *
        ((∫ e, e ^ (2 * k) * betheDos e D : ℝ) : ℂ)).re)
        = fun k : ℕ => 2 / (D * t) * ((-1) ^ k / ((k.factorial : ℝ) * ((k + 1).factorial : ℝ))
      * ((D * t) / 2) ^ (2 * k + 1)) := by
      funext k
      rw [bethe_moment_catalan hD, catalan_eq_centralBinom_div]
      have e1 : (-I * t) ^ (2 * k) = (((-1) ^ k * t ^ (2 * k) : ℝ) : ℂ) := by
        rw [mul_pow, pow_mul (-I), neg_sq, Complex.I_sq]
        push_cast
        ring
      have e2 : (((Nat.centralBinom k / (k + 1) : ℕ) : ℝ)) = (2 * k).factorial / (k.factorial * (k + 1).factorial) := by
        rw [Nat.cast_div (Nat.succ_dvd_centralBinom k) (by positivity), Nat.centralBinom_eq_two_mul_choose,
          Nat.cast_choose ℝ (by omega), Nat.factorial_succ, show 2 * k - k = k by omega]
        push_cast
        rw [div_div]
        congr 1
        ring
      rw [e2, e1, ← Complex.ofReal_natCast, ← Complex.ofReal_div, ← Complex.ofReal_mul, Complex.ofReal_re]
      have f1 : ((2 * k).factorial : ℝ) ≠ 0 := by positivity
      have f2 : (k.factorial : ℝ) ≠ 0 := by positivity
      have f3 : ((k + 1).factorial : ℝ) ≠ 0 := by positivity
      have hDt : D * t ≠ 0 := mul_ne_zero hD.ne' ht
      rw [pow_succ (D * t / 2), div_pow, div_pow, mul_pow]
      field_simp
    rwa [e] at h
  have him : (∫ e, (betheDos e D : ℂ) * Complex.exp (-I * e * t)).im = 0 := by
    have h := Complex.hasSum_im heven
    have e : (fun k : ℕ => ((-I * t) ^ (2 * k) / (2 * k).factorial *
        ((∫ e, e ^ (2 * k) * betheDos e D : ℝ) : ℂ)).im) = fun _ => 0 := by
      funext k
      have e1 : (-I * t) ^ (2 * k) = (((-1) ^ k * t ^ (2 * k) : ℝ) : ℂ) := by
        rw [mul_pow, pow_mul (-I), neg_sq, Complex.I_sq]
        push_cast
        ring
      rw [e1, ← Complex.ofReal_natCast, ← Complex.ofReal_div, ← Complex.ofReal_mul, Complex.ofReal_im]
    rw [e] at h
    exact h.unique hasSum_zero
  apply Complex.ext
  · rw [Complex.ofReal_re, ← hreal.tsum_eq, tsum_mul_left]
    unfold besselJ1
    ring
  · rw [him, Complex.ofReal_im]

/-- C55: at times `t ≥ 2⁻¹³/D` the function is exactly `-i` times the Fourier transform of the Bethe DOS,
for `scipy.special.jv` evaluating the Bessel function. -/
theorem bethe_gf_ret_t_fourier {t D : ℝ} (hD : 0 < D) (ht : retSmall ≤ D * t) :
    betheGfRetT besselJ1 t D 0 = retardedTime (fun e => betheDos e D) t := by
  have hs : 0 < retSmall := by unfold retSmall; positivity
  have hx : 0 < D * t := hs.trans_le ht
  have ht0 : 0 < t := by
    by_contra h
    nlinarith [not_lt.1 h]
  unfold betheGfRetT retardedTime
  simp only
  rw [if_neg (by simp), if_pos hx.le, if_neg (by rw [abs_of_pos hx]; exact not_lt.2 ht), if_pos ht0.le,
    bethe_fourier hD ht0.ne']
  push_cast
  ring

/-- C55: at smaller times the expansion has an error of at most `7/4320 (Dt)⁶ < 10⁻²⁶`. -/
theorem bethe_gf_ret_t_small (jv1 : ℝ → ℝ) {t D : ℝ} (hD : 0 < D) (h0 : 0 ≤ t) (ht : D * t < retSmall) :
    ‖betheGfRetT jv1 t D 0 - retardedTime (fun e => betheDos e D) t‖ ≤ 7 / 4320 * (D * t) ^ 6 := by
  have hx : 0 ≤ D * t := by positivity
  have h1 : D * |t| ≤ 1 := by
    rw [abs_of_nonneg h0]
    refine ht.le.trans ?_
    unfold retSmall
    norm_num
  have hb := dos_fourier_bound (bethe_dos hD) h1 (M2 := D ^ 2 / 4) (M4 := D ^ 4 / 8)
    (by rw [bethe_moment_catalan hD 1, catalan_one]; push_cast; ring)
    (by rw [bethe_moment_catalan hD 2, catalan_two]; push_cast; ring)
  unfold betheGfRetT retardedTime
  simp only
  rw [if_neg (by simp), if_pos hx, if_pos (by rwa [abs_of_nonneg hx]), if_pos h0, ← mul_sub, norm_mul, norm_neg,
    Complex.norm_I, one_mul, norm_sub_rev]
  rw [abs_of_nonneg h0] at hb
  refine le_trans (le_of_eq ?_) hb
  congr 1
  push_cast
  ring

/-- C55: the effect of the parameter `center`: the phase contains `center * D`. -/
theorem bethe_gf_ret_t_center (jv1 : ℝ → ℝ) (t D c : ℝ) :
    betheGfRetT jv1 t D c = Complex.exp (-I * c * (D * t)) * betheGfRetT jv1 t D 0 := by
  unfold betheGfRetT
  simp only [ne_eq, not_true, if_false]
  by_cases hc : c = 0
  · simp [hc]
  · rw [if_pos hc, mul_comm]
    push_cast
    rfl

/-- C55: for half-bandwidth one the shift is correct. -/
theorem bethe_gf_ret_t_center_partial (jv1 : ℝ → ℝ) (t c : ℝ) :
    betheGfRetT jv1 t 1 c = Complex.exp (-I * c * t) * betheGfRetT jv1 t 1 0 := by
  have := bethe_gf_ret_t_center jv1 t 1 c
  simpa using this

/-- C55: for other half-bandwidths the shift by `center` is wrong. -/
theorem bethe_gf_ret_t_center_wrong (jv1 : ℝ → ℝ) :
    betheGfRetT jv1 (1 / 2 ^ 15) 2 (2 ^ 15 * Real.pi)
      ≠ Complex.exp (-I * (2 ^ 15 * Real.pi : ℝ) * (1 / 2 ^ 15 : ℝ)) * betheGfRetT jv1 (1 / 2 ^ 15) 2 0 := by
  rw [bethe_gf_ret_t_center]
  have hne : betheGfRetT jv1 (1 / 2 ^ 15) 2 0 ≠ 0 := by
    unfold betheGfRetT
    simp only
    norm_num
    rw [if_pos (by unfold retSmall; norm_num)]
    norm_num
  intro h
  have h2 := mul_right_cancel₀ hne h
  have e1 : Complex.exp (-I * (2 ^ 15 * Real.pi : ℝ) * ((2 : ℝ) * (1 / 2 ^ 15 : ℝ))) = 1 := by
    rw [show -I * (2 ^ 15 * Real.pi : ℝ) * ((2 : ℝ) * (1 / 2 ^ 15 : ℝ)) = -(2 * Real.pi * I) by push_cast; ring,
      Complex.exp_neg, Complex.exp_two_pi_mul_I, inv_one]
  have e2 : Complex.exp (-I * (2 ^ 15 * Real.pi : ℝ) * (1 / 2 ^ 15 : ℝ)) = -1 := by
    rw [show -I * (2 ^ 15 * Real.pi : ℝ) * (1 / 2 ^ 15 : ℝ) = -(Real.pi * I) by push_cast; ring,
      Complex.exp_neg, Complex.exp_pi_mul_I]
    norm_num
  rw [e1, e2] at h2
  norm_num at h2

example : boxGfRetT 3 1 0 = retardedTime (fun e => boxDos e 1) 3 :=
  box_gf_ret_t_fourier one_pos (by unfold retSmall; norm_num)

end Gftool.Props
