import Verif.Lemmas.FourierConv
import Verif.Props.FourierPole
import Verif.Props.Laplace
import Mathlib.Analysis.PSeries

/-!
# Property C68: the Fourier and Laplace transforms converge to the exact result, with explicit rates
-/

namespace Gftool.Props

open Gftool Model Spec Lemmas MeasureTheory
open Complex (I)

/-! ## Imaginary time to Matsubara frequencies -/

private lemma iw_re (n : ℤ) (beta : ℝ) : (matsubaraFrequencies n beta).re = 0 := by
  rw [matsubaraFrequencies, show I * (Real.pi : ℂ) / beta * (2 * n + 1) = ((Real.pi / beta * (2 * n + 1) : ℝ) : ℂ) * I by
    push_cast; ring]
  simp

private lemma iv_re (n : ℤ) (beta : ℝ) : (matsubaraFrequenciesB n beta).re = 0 := by
  rw [matsubaraFrequenciesB, show 2 * I * (Real.pi : ℂ) / beta * n = ((2 * Real.pi / beta * n : ℝ) : ℂ) * I by
    push_cast; ring]
  simp

/-- C68: `tau2iw` with `tau2iw_ft_lin`: quadratic convergence in the number of grid points, uniformly in the frequency. -/
theorem tau2iw_ft_lin_error (ext : LinalgExt ℝ) {T : ℕ} (hT : T ≠ 0) {beta : ℝ} (hb : 0 < beta) {f f' f'' : ℝ → ℝ} {M : ℝ}
    (H : SmoothOn f f' f'' 0 beta M) :
    ∃ r, tau2iw ext (fun k : Fin (T + 1) => f (tauPt beta T k)) beta none none tau2iwFtLin = .ok r ∧ ∀ n : Fin ((T + 1) / 2),
      ‖r n - ∫ τ in (0 : ℝ)..beta, (f τ : ℂ) * Complex.exp (matsubaraFrequencies (n : ℕ) beta * τ)‖
        ≤ M * beta ^ 3 / (12 * T ^ 2) := by
  have hTr : (T : ℝ) ≠ 0 := by exact_mod_cast hT
  obtain ⟨h, hh⟩ := exists_spline (fun k : Fin (T + 1) => (f (tauPt beta T k) : ℂ)) 0 (div_ne_zero hb.ne' hTr)
  obtain ⟨r, h1, h2⟩ := tau2iw_ft_lin_total ext hT (fun k : Fin (T + 1) => f (tauPt beta T k)) hb h hh
  refine ⟨r, h1, fun n => ?_⟩
  rw [h2]
  exact spline_error hT hb H.ofReal hh (iw_re _ _).le

/-- C68: the same for the bosonic transform `tau2iv` with `tau2iv_ft_lin`. -/
theorem tau2iv_ft_lin_error {T : ℕ} (hT : T ≠ 0) {beta : ℝ} (hb : 0 < beta) {f f' f'' : ℝ → ℝ} {M : ℝ}
    (H : SmoothOn f f' f'' 0 beta M) :
    ∃ r, tau2iv (fun k : Fin (T + 1) => f (tauPt beta T k)) beta tau2ivFtLin = .ok r ∧ ∀ n : Fin (T / 2 + 1),
      ‖r n - ∫ τ in (0 : ℝ)..beta, (f τ : ℂ) * Complex.exp (matsubaraFrequenciesB (n : ℕ) beta * τ)‖
        ≤ M * beta ^ 3 / (12 * T ^ 2) := by
  have hTr : (T : ℝ) ≠ 0 := by exact_mod_cast hT
  obtain ⟨h, hh⟩ := exists_spline (fun k : Fin (T + 1) => (f (tauPt beta T k) : ℂ)) 0 (div_ne_zero hb.ne' hTr)
  obtain ⟨r, h1, h2⟩ := tau2iv_ft_lin_total hT (fun k : Fin (T + 1) => f (tauPt beta T k)) hb.ne' h hh
  refine ⟨r, h1, fun n => ?_⟩
  rw [h2]
  exact spline_error hT hb H.ofReal hh (iv_re _ _).le

/-- Trapezoidal rule. -/
private lemma trapz_error {F F' F'' : ℝ → ℂ} {b M : ℝ} {T : ℕ} (hT : T ≠ 0) (hb : 0 < b) (H : SmoothOn F F' F'' 0 b M) :
    ‖trapz (fun k : Fin (T + 1) => F (tauPt b T k)) (b / T) - ∫ τ in (0 : ℝ)..b, F τ‖ ≤ M * b ^ 3 / (12 * T ^ 2) := by
  have hTr : (T : ℝ) ≠ 0 := by exact_mod_cast hT
  have hD := div_ne_zero hb.ne' hTr
  obtain ⟨h, hh⟩ := exists_spline (fun k : Fin (T + 1) => F (tauPt b T k)) 0 hD
  have h1 := spline_error hT hb H hh (s := 0) le_rfl
  have h2 := (filon_sum 0 0 (b / T) hD h T _ hh).2
  rw [zero_add, mul_div_cancel₀ _ hTr] at h2
  rw [h2] at h1
  simp only [zero_mul, Complex.exp_zero, mul_one, one_mul, fW1, fW2, if_true] at h1
  refine le_trans (le_of_eq ?_) h1
  congr 2
  rw [trapz, Finset.mul_sum]
  refine Finset.sum_congr rfl fun k _ => ?_
  push_cast
  ring

/-- Product with an exponential. -/
private lemma smooth_mul_exp {f f' f'' : ℝ → ℝ} {b M M1 M0 : ℝ} (H : SmoothOn f f' f'' 0 b M)
    (h0 : ∀ τ ∈ Set.Ioo 0 b, |f τ| ≤ M0) (h1 : ∀ τ ∈ Set.Ioo 0 b, |f' τ| ≤ M1) {s : ℂ} (hs : s.re = 0) :
    SmoothOn (fun τ => (f τ : ℂ) * Complex.exp (s * τ)) (fun τ => ((f' τ : ℂ) + s * f τ) * Complex.exp (s * τ))
      (fun τ => ((f'' τ : ℂ) + 2 * s * f' τ + s ^ 2 * f τ) * Complex.exp (s * τ)) 0 b (M + 2 * ‖s‖ * M1 + ‖s‖ ^ 2 * M0) := by
  have he : ∀ τ : ℝ, HasDerivAt (fun τ : ℝ => Complex.exp (s * τ)) (Complex.exp (s * τ) * s) τ := by
    intro τ
    have := ((hasDerivAt_id (τ : ℝ)).ofReal_comp.const_mul s).cexp
    simpa using this
  have HC := H.ofReal
  refine ⟨HC.cont.mul (by fun_prop), fun τ hτ => ?_, fun τ hτ => ?_, fun τ hτ => ?_⟩
  · refine ((HC.deriv τ hτ).mul (he τ)).congr_deriv ?_
    ring
  · refine (((HC.deriv2 τ hτ).add ((HC.deriv τ hτ).const_mul s)).mul (he τ)).congr_deriv ?_
    simp only [Pi.add_apply]
    ring
  · have hexp : ‖Complex.exp (s * τ)‖ = 1 := by
      rw [Complex.norm_exp, Complex.re_mul_ofReal, hs, zero_mul, Real.exp_zero]
    rw [norm_mul, hexp, mul_one]
    refine (norm_add_le _ _).trans (add_le_add ((norm_add_le _ _).trans (add_le_add (HC.bound τ hτ) ?_)) ?_)
    · rw [norm_mul, norm_mul, Complex.norm_real, Complex.norm_ofNat]
      exact mul_le_mul_of_nonneg_left (h1 τ hτ) (by positivity)
    · rw [norm_mul, norm_pow, Complex.norm_real]
      exact mul_le_mul_of_nonneg_left (h0 τ hτ) (by positivity)

/-- `tau2iw` with default arguments in terms of its transformation. -/
private lemma tau2iw_default (ext : LinalgExt ℝ) {T : ℕ} (hT : T ≠ 0) {beta : ℝ} (hb : 0 < beta) (g : Fin (T + 1) → ℝ)
    (fourier : (Fin (T + 1) → ℝ) → ℝ → Except Err (Fin ((T + 1) / 2) → ℂ)) {r : Fin ((T + 1) / 2) → ℂ}
    (hr : fourier (fun k => g k + tauJump g / 2) beta = .ok r) :
    tau2iw ext g beta none none fourier = .ok fun i => r i + tauJump g / matsubaraFrequencies (i : ℕ) beta := by
  obtain ⟨x, h1, h2⟩ := gf_from_tau_lsq ext (n := 1) g hb.le (fun _ : Fin 1 => tauJump g) (width := 1)
    none one_ne_zero le_rfl one_ne_zero (fun _ => 0) (by
      funext j
      have : (j : ℕ) = 0 := by omega
      simp [chebyshevPoints, this])
  have hx : x 0 = tauJump g := by
    have := congrFun h2.1 0
    rw [vander_mulVec] at this
    simpa [poleMoments] using this
  have hpt : ∀ τ, lehmannTau beta (fun _ : Fin 1 => 0) x τ = -(tauJump g / 2) := by
    intro τ
    simp [lehmannTau, Spec.fermi, hx]
    ring
  simp only [tau2iw, Option.getD_none, tau2iwMoments]
  rw [h1]
  simp only [eval_tau_grid hT hb.le, hpt, sub_neg_eq_add, hr, PoleFct.evalZ]
  simp [poleGfZ, hx]

private lemma const_integral (c : ℝ) (n : ℕ) {beta : ℝ} (hb : 0 < beta) :
    ∫ τ in (0 : ℝ)..beta, ((c : ℂ) / 2) * Complex.exp (matsubaraFrequencies (n : ℕ) beta * τ)
      = -(c / matsubaraFrequencies (n : ℕ) beta) := by
  have hne : matsubaraFrequencies (n : ℕ) beta ≠ 0 := by
    intro h0
    have := matsubara_im_pos n hb
    rw [h0] at this
    simp at this
  rw [intervalIntegral.integral_const_mul, integral_exp_mul_complex hne, exp_iw_beta _ hb.ne']
  simp only [Complex.ofReal_zero, mul_zero, Complex.exp_zero]
  field_simp
  ring

/-- C68: `tau2iw` with `tau2iw_dft`: quadratic convergence at every frequency. -/
theorem tau2iw_dft_error (ext : LinalgExt ℝ) {T : ℕ} (hT : T ≠ 0) {beta : ℝ} (hb : 0 < beta) {f f' f'' : ℝ → ℝ}
    {M M1 M0 : ℝ} (H : SmoothOn f f' f'' 0 beta M) (h0 : ∀ τ ∈ Set.Icc 0 beta, |f τ| ≤ M0)
    (h1 : ∀ τ ∈ Set.Ioo 0 beta, |f' τ| ≤ M1) :
    ∃ r, tau2iw ext (fun k : Fin (T + 1) => f (tauPt beta T k)) beta none none tau2iwDft = .ok r ∧ ∀ n : Fin ((T + 1) / 2),
      ‖r n - ∫ τ in (0 : ℝ)..beta, (f τ : ℂ) * Complex.exp (matsubaraFrequencies (n : ℕ) beta * τ)‖
        ≤ (M + 2 * ‖matsubaraFrequencies (n : ℕ) beta‖ * M1 + ‖matsubaraFrequencies (n : ℕ) beta‖ ^ 2 * (2 * M0))
          * beta ^ 3 / (12 * T ^ 2) := by
  have hTr : (T : ℝ) ≠ 0 := by exact_mod_cast hT
  have hlast : tauPt beta T (Fin.last T) = beta := by
    rw [tauPt, Fin.val_last]
    field_simp
  have hzero : tauPt beta T (0 : Fin (T + 1)) = 0 := by simp [tauPt]
  set g : Fin (T + 1) → ℝ := fun k => f (tauPt beta T k) with hg
  set c := tauJump g with hc
  have hcf : c = -f beta - f 0 := by
    rw [hc, tauJump, hg]
    simp only [hlast, hzero]
  have hcb : |c / 2| ≤ M0 := by
    have e1 := abs_le.1 (h0 beta ⟨hb.le, le_rfl⟩)
    have e2 := abs_le.1 (h0 0 ⟨le_rfl, hb.le⟩)
    rw [abs_le, hcf]
    constructor <;> linarith
  obtain ⟨r, hr1, hr2⟩ := tau2iw_dft_correct hT (fun k => g k + c / 2) hb.ne'
  refine ⟨_, tau2iw_default ext hT hb g _ hr1, fun n => ?_⟩
  rw [← hc]
  set s := matsubaraFrequencies (n : ℕ) beta with hs
  have HF : SmoothOn (fun τ => f τ + c / 2) f' f'' 0 beta M :=
    ⟨H.cont.add continuousOn_const, fun x hx => (H.deriv x hx).add_const _, H.deriv2, H.bound⟩
  have hsm := smooth_mul_exp HF (M0 := 2 * M0) (fun τ hτ => by
    refine (abs_add_le _ _).trans ?_
    have := h0 τ ⟨hτ.1.le, hτ.2.le⟩
    linarith) h1 (s := s) (iw_re _ _)
  have hte := trapz_error hT hb hsm
  have htr : trapz (fun k : Fin (T + 1) => ((f (tauPt beta T k) + c / 2 : ℝ) : ℂ) * Complex.exp (s * tauPt beta T k)) (beta / T)
      = r n := by
    rw [hr2, trapz]
    set E : ℕ → ℂ := fun k => ((f (tauPt beta T k) + c / 2 : ℝ) : ℂ) * Complex.exp (s * tauPt beta T k) with hE
    have hper : E T = E 0 := by
      simp only [hE]
      rw [show tauPt beta T T = beta from hlast, show tauPt beta T 0 = 0 from hzero, exp_iw_beta _ hb.ne', hcf]
      simp
      ring
    have e1 : ∑ k : Fin T, ((beta / T : ℝ) : ℂ) * (E (k.castSucc : Fin (T + 1)) + E (k.succ : Fin (T + 1))) / 2
        = ∑ k ∈ Finset.range T, ((beta / T : ℝ) : ℂ) * (E k + E (k + 1)) / 2 := by
      rw [Finset.sum_range]
      rfl
    have e2 : (beta / T : ℂ) * ∑ k : Fin T, ((g k.castSucc + c / 2 : ℝ) : ℂ) * Complex.exp (s * tauPt beta T k)
        = (beta / T : ℂ) * ∑ k ∈ Finset.range T, E k := by
      rw [Finset.sum_range]
      rfl
    have e3 : ∑ k ∈ Finset.range T, E (k + 1) = ∑ k ∈ Finset.range T, E k := by
      have := Finset.sum_range_succ' E T
      rw [Finset.sum_range_succ, hper] at this
      exact (add_right_cancel this).symm
    refine e1.trans (Eq.trans ?_ e2.symm)
    rw [← Finset.sum_div, ← Finset.mul_sum, Finset.sum_add_distrib, e3]
    push_cast
    ring
  rw [htr] at hte
  refine le_trans (le_of_eq ?_) hte
  congr 1
  have hint : ∫ τ in (0 : ℝ)..beta, ((f τ + c / 2 : ℝ) : ℂ) * Complex.exp (s * τ)
      = (∫ τ in (0 : ℝ)..beta, (f τ : ℂ) * Complex.exp (s * τ)) + ∫ τ in (0 : ℝ)..beta, ((c : ℂ) / 2) * Complex.exp (s * τ) := by
    rw [← intervalIntegral.integral_add]
    · refine intervalIntegral.integral_congr fun τ _ => ?_
      push_cast
      ring
    · refine ContinuousOn.intervalIntegrable ?_
      rw [Set.uIcc_of_le hb.le]
      exact H.ofReal.cont.mul (by fun_prop)
    · exact Continuous.intervalIntegrable (by fun_prop) _ _
  rw [hint, const_integral c n hb]
  ring

/-- The Lehmann function of poles is smooth, with bounded derivatives. -/
private lemma lehmann_smooth {ι : Type} [Fintype ι] (p w : ι → ℝ) {beta : ℝ} (hb : 0 < beta) :
    SmoothOn (lehmannTau beta p w) (fun τ => ∑ i, w i * p i * ((1 - Spec.fermi beta (p i)) * Real.exp (-(p i) * τ)))
      (fun τ => -∑ i, w i * p i ^ 2 * ((1 - Spec.fermi beta (p i)) * Real.exp (-(p i) * τ))) 0 beta (∑ i, |w i| * p i ^ 2) ∧
    (∀ τ ∈ Set.Icc 0 beta, |lehmannTau beta p w τ| ≤ ∑ i, |w i|) ∧
    ∀ τ ∈ Set.Ioo 0 beta, |∑ i, w i * p i * ((1 - Spec.fermi beta (p i)) * Real.exp (-(p i) * τ))| ≤ ∑ i, |w i| * |p i| := by
  have hb1 : ∀ (a : ι → ℝ) (τ : ℝ), τ ∈ Set.Icc 0 beta →
      |∑ i, a i * ((1 - Spec.fermi beta (p i)) * Real.exp (-(p i) * τ))| ≤ ∑ i, |a i| := by
    intro a τ hτ
    refine (Finset.abs_sum_le_sum_abs _ _).trans (Finset.sum_le_sum fun i _ => ?_)
    rw [abs_mul]
    refine mul_le_of_le_one_right (abs_nonneg _) ?_
    have e1 := Real.exp_pos (beta * p i)
    have e2 : (1 - Spec.fermi beta (p i)) * Real.exp (-(p i) * τ)
        = Real.exp (beta * p i - p i * τ) / (Real.exp (beta * p i) + 1) := by
      rw [Spec.fermi, Real.exp_sub, show -(p i) * τ = -(p i * τ) by ring, Real.exp_neg]
      field_simp
      ring
    rw [e2, abs_of_pos (by positivity), div_le_one (by positivity)]
    rcases le_total 0 (p i) with h | h
    · refine (Real.exp_le_exp.2 ?_).trans (by linarith : Real.exp (beta * p i) ≤ _)
      have := mul_nonneg h hτ.1
      linarith
    · refine (Real.exp_le_one_iff.2 ?_).trans (by linarith)
      nlinarith [hτ.2]
  have hd : ∀ (a : ι → ℝ) (τ : ℝ), HasDerivAt (fun τ => ∑ i, a i * ((1 - Spec.fermi beta (p i)) * Real.exp (-(p i) * τ)))
      (-∑ i, a i * p i * ((1 - Spec.fermi beta (p i)) * Real.exp (-(p i) * τ))) τ := by
    intro a τ
    have h1 : ∀ i ∈ Finset.univ, HasDerivAt (fun τ => a i * ((1 - Spec.fermi beta (p i)) * Real.exp (-(p i) * τ)))
        (-(a i * p i * ((1 - Spec.fermi beta (p i)) * Real.exp (-(p i) * τ)))) τ := by
      intro i _
      have := ((((hasDerivAt_id τ).const_mul (-(p i))).exp).const_mul (1 - Spec.fermi beta (p i))).const_mul (a i)
      refine this.congr_deriv ?_
      simp only [id]
      ring
    have h2 := HasDerivAt.fun_sum h1
    rwa [Finset.sum_neg_distrib] at h2
  refine ⟨⟨?_, fun τ _ => ?_, fun τ _ => ?_, fun τ hτ => ?_⟩, fun τ hτ => ?_, fun τ hτ => ?_⟩
  · unfold lehmannTau
    fun_prop
  · have := (hd w τ).neg
    rw [neg_neg] at this
    exact this
  · have := hd (fun i => w i * p i) τ
    simpa only [mul_assoc, sq] using this
  · rw [norm_neg, Real.norm_eq_abs]
    refine (hb1 (fun i => w i * p i ^ 2) τ ⟨hτ.1.le, hτ.2.le⟩).trans (le_of_eq ?_)
    exact Finset.sum_congr rfl fun i _ => by rw [abs_mul, abs_of_nonneg (sq_nonneg (p i))]
  · unfold lehmannTau
    rw [abs_neg]
    exact hb1 w τ hτ
  · refine (hb1 (fun i => w i * p i) τ ⟨hτ.1.le, hτ.2.le⟩).trans (le_of_eq ?_)
    exact Finset.sum_congr rfl fun i _ => abs_mul _ _

private lemma lehmann_fourier {ι : Type} [Fintype ι] (p w : ι → ℝ) {beta : ℝ} (hb : 0 < beta) (n : ℤ) :
    ∫ τ in (0 : ℝ)..beta, (lehmannTau beta p w τ : ℂ) * Complex.exp (matsubaraFrequencies n beta * τ)
      = poleGfZ (matsubaraFrequencies n beta) (fun i => (p i : ℂ)) fun i => (w i : ℂ) :=
  pole_gf_tau_fourier p w hb n _ fun τ hτ => by rw [pole_gf_tau_eq, if_pos ⟨hτ.1, hτ.2⟩]

/-- C68: for every Green's function with finitely many real poles the default `tau2iw` with `tau2iw_ft_lin` gives its values at the
Matsubara frequencies up to `beta^3/(12 T^2) ∑ |w_i| p_i^2`. -/
theorem tau2iw_ft_lin_pole_error (ext : LinalgExt ℝ) {T : ℕ} (hT : T ≠ 0) {beta : ℝ} (hb : 0 < beta) {n : ℕ} (p w : Fin n → ℝ) :
    ∃ r, tau2iw ext (fun k : Fin (T + 1) => lehmannTau beta p w (tauPt beta T k)) beta none none tau2iwFtLin = .ok r ∧
      ∀ m : Fin ((T + 1) / 2), ‖r m - poleGfZ (matsubaraFrequencies (m : ℕ) beta) (fun i => (p i : ℂ)) fun i => (w i : ℂ)‖
        ≤ (∑ i, |w i| * p i ^ 2) * beta ^ 3 / (12 * T ^ 2) := by
  obtain ⟨r, h1, h2⟩ := tau2iw_ft_lin_error ext hT hb (lehmann_smooth p w hb).1
  exact ⟨r, h1, fun m => by rw [← lehmann_fourier p w hb]; exact h2 m⟩

/-- C68: … and with `tau2iw_dft` up to `beta^3/(12 T^2) ∑ |w_i| (p_i^2 + 2 |p_i| ω + 2 ω^2)`. -/
theorem tau2iw_dft_pole_error (ext : LinalgExt ℝ) {T : ℕ} (hT : T ≠ 0) {beta : ℝ} (hb : 0 < beta) {n : ℕ} (p w : Fin n → ℝ) :
    ∃ r, tau2iw ext (fun k : Fin (T + 1) => lehmannTau beta p w (tauPt beta T k)) beta none none tau2iwDft = .ok r ∧
      ∀ m : Fin ((T + 1) / 2), ‖r m - poleGfZ (matsubaraFrequencies (m : ℕ) beta) (fun i => (p i : ℂ)) fun i => (w i : ℂ)‖
        ≤ (∑ i, |w i| * (p i ^ 2 + 2 * |p i| * ‖matsubaraFrequencies (m : ℕ) beta‖ + 2 * ‖matsubaraFrequencies (m : ℕ) beta‖ ^ 2))
          * beta ^ 3 / (12 * T ^ 2) := by
  obtain ⟨hs, h0, h1⟩ := lehmann_smooth p w hb
  obtain ⟨r, h2, h3⟩ := tau2iw_dft_error ext hT hb hs h0 h1
  refine ⟨r, h2, fun m => ?_⟩
  rw [← lehmann_fourier p w hb]
  refine (h3 m).trans (le_of_eq ?_)
  congr 2
  simp only [mul_add, Finset.sum_add_distrib, Finset.mul_sum]
  congr 1
  · congr 1
    exact Finset.sum_congr rfl fun i _ => by ring
  · exact Finset.sum_congr rfl fun i _ => by ring

/-- C68: `tau2iv` with `tau2iv_dft`: quadratic convergence at every frequency. -/
theorem tau2iv_dft_error {T : ℕ} (hT : T ≠ 0) {beta : ℝ} (hb : 0 < beta) {f f' f'' : ℝ → ℝ}
    {M M1 M0 : ℝ} (H : SmoothOn f f' f'' 0 beta M) (h0 : ∀ τ ∈ Set.Icc 0 beta, |f τ| ≤ M0)
    (h1 : ∀ τ ∈ Set.Ioo 0 beta, |f' τ| ≤ M1) :
    ∃ r, tau2iv (fun k : Fin (T + 1) => f (tauPt beta T k)) beta tau2ivDft = .ok r ∧ ∀ n : Fin (T / 2 + 1),
      ‖r n - ∫ τ in (0 : ℝ)..beta, (f τ : ℂ) * Complex.exp (matsubaraFrequenciesB (n : ℕ) beta * τ)‖
        ≤ (M + 2 * ‖matsubaraFrequenciesB (n : ℕ) beta‖ * (M1 + 2 * M0 / beta)
            + ‖matsubaraFrequenciesB (n : ℕ) beta‖ ^ 2 * (3 * M0)) * beta ^ 3 / (12 * T ^ 2) := by
  have hTr : (T : ℝ) ≠ 0 := by exact_mod_cast hT
  have hlast : tauPt beta T (Fin.last T) = beta := by
    rw [tauPt, Fin.val_last]
    field_simp
  have hzero : tauPt beta T (0 : Fin (T + 1)) = 0 := by simp [tauPt]
  set g : Fin (T + 1) → ℝ := fun k => f (tauPt beta T k) with hg
  set c := g (Fin.last T) - g 0 with hc
  have hcf : c = f beta - f 0 := by
    rw [hc, hg]
    simp only [hlast, hzero]
  have hcb : |c| ≤ 2 * M0 := by
    have e1 := abs_le.1 (h0 beta ⟨hb.le, le_rfl⟩)
    have e2 := abs_le.1 (h0 0 ⟨le_rfl, hb.le⟩)
    rw [abs_le, hcf]
    constructor <;> linarith
  have hM0 : 0 ≤ M0 := (abs_nonneg _).trans (h0 0 ⟨le_rfl, hb.le⟩)
  set g' : Fin (T + 1) → ℝ := fun k => g k - c * (tauPt beta T k / beta) with hg'
  have hper : g' (Fin.last T) = g' 0 := by
    simp only [hg', hlast, hzero, hg]
    rw [hcf]
    field_simp
    ring
  obtain ⟨r, hr1, hr2⟩ := tau2iv_dft_no_jump hT g' hb.ne' hper
  obtain ⟨-, r', hr3, hr4⟩ := tau2iv_jump hT g hb.ne' tau2ivDft g' (fun k => rfl) hr1
  refine ⟨r', hr3, fun n => ?_⟩
  rw [hr4, hr2, ← hc]
  set s := matsubaraFrequenciesB (n : ℕ) beta with hs
  have HF : SmoothOn (fun τ => f τ - c * (τ / beta)) (fun τ => f' τ - c * (1 / beta)) f'' 0 beta M :=
    ⟨H.cont.sub (by fun_prop), fun x hx => (H.deriv x hx).sub (((hasDerivAt_id x).div_const beta).const_mul c),
      fun x hx => (H.deriv2 x hx).sub_const _, H.bound⟩
  have hsm := smooth_mul_exp HF (M0 := 3 * M0) (M1 := M1 + 2 * M0 / beta) (fun τ hτ => by
    refine (abs_sub _ _).trans ?_
    have e1 := h0 τ ⟨hτ.1.le, hτ.2.le⟩
    have e2 : |c * (τ / beta)| ≤ 2 * M0 := by
      rw [abs_mul, abs_of_pos (div_pos hτ.1 hb)]
      exact (mul_le_of_le_one_right (abs_nonneg _) ((div_le_one hb).2 hτ.2.le)).trans hcb
    linarith) (fun τ hτ => by
    refine (abs_sub _ _).trans (add_le_add (h1 τ hτ) ?_)
    rw [abs_mul, abs_of_pos (by positivity : 0 < 1 / beta), mul_one_div]
    exact div_le_div_of_nonneg_right hcb hb.le) (s := s) (iv_re _ _)
  have hte := trapz_error hT hb hsm
  refine le_trans (le_of_eq ?_) hte
  congr 1
  have hint : ∫ τ in (0 : ℝ)..beta, ((f τ - c * (τ / beta) : ℝ) : ℂ) * Complex.exp (s * τ)
      = (∫ τ in (0 : ℝ)..beta, (f τ : ℂ) * Complex.exp (s * τ))
        - ∫ τ in (0 : ℝ)..beta, (c * ((τ : ℂ) / beta)) * Complex.exp (s * τ) := by
    rw [← intervalIntegral.integral_sub]
    · refine intervalIntegral.integral_congr fun τ _ => ?_
      push_cast
      ring
    · refine ContinuousOn.intervalIntegrable ?_
      rw [Set.uIcc_of_le hb.le]
      exact H.ofReal.cont.mul (by fun_prop)
    · exact Continuous.intervalIntegrable (by fun_prop) _ _
  rw [hint]
  ring

/-! ## Matsubara frequencies to imaginary time -/

private lemma iw_norm (n : ℤ) {beta : ℝ} (hb : 0 < beta) : ‖matsubaraFrequencies n beta‖ = Real.pi / beta * |2 * (n : ℝ) + 1| := by
  rw [matsubaraFrequencies, show I * (Real.pi : ℂ) / beta * (2 * n + 1) = ((Real.pi / beta * (2 * n + 1) : ℝ) : ℂ) * I by
    push_cast; ring, norm_mul, Complex.norm_I, mul_one, Complex.norm_real, Real.norm_eq_abs, abs_mul,
    abs_of_pos (div_pos Real.pi_pos hb)]

/-- Remainder of the high-frequency expansion of a pole on the imaginary axis. -/
private lemma pole_expansion {z : ℂ} (hz : z ≠ 0) (hre : z.re = 0) (p : ℝ) (l : ℕ) :
    1 / (z - p) = ∑ k ∈ Finset.range l, (p : ℂ) ^ k / z ^ (k + 1) + (p : ℂ) ^ l / (z ^ l * (z - p)) ∧
      ‖(p : ℂ) ^ l / (z ^ l * (z - p))‖ ≤ |p| ^ l / ‖z‖ ^ (l + 1) := by
  have hge : ‖z‖ ≤ ‖z - p‖ := by
    have e1 : ‖z‖ = |z.im| := by
      rw [show z = (z.im : ℂ) * I from Complex.ext (by simp [hre]) (by simp), norm_mul, Complex.norm_I, Complex.norm_real]
      simp
    rw [e1]
    have := Complex.abs_im_le_norm (z - p)
    simpa using this
  have hpos : 0 < ‖z‖ := norm_pos_iff.2 hz
  have hne : z - p ≠ 0 := norm_pos_iff.1 (hpos.trans_le hge)
  constructor
  · induction l with
    | zero => simp
    | succ l ih =>
      rw [ih, Finset.sum_range_succ, add_assoc]
      congr 1
      field_simp
      ring
  · rw [norm_div, norm_mul, norm_pow, norm_pow, Complex.norm_real, Real.norm_eq_abs, pow_succ]
    refine div_le_div_of_nonneg_left (by positivity) (by positivity) ?_
    exact mul_le_mul_of_nonneg_left hge (by positivity)

/-- Pole functions whose first `l` moments agree. -/
private lemma pole_diff {ι κ : Type} [Fintype ι] [Fintype κ] (p w : ι → ℝ) (q v : κ → ℝ) {l : ℕ}
    (h : ∀ k < l, ∑ i, w i * p i ^ k = ∑ j, v j * q j ^ k) {z : ℂ} (hz : z ≠ 0) (hre : z.re = 0) :
    ‖poleGfZ z (fun i => (p i : ℂ)) (fun i => (w i : ℂ)) - poleGfZ z (fun j => (q j : ℂ)) (fun j => (v j : ℂ))‖
      ≤ (∑ i, |w i| * |p i| ^ l + ∑ j, |v j| * |q j| ^ l) / ‖z‖ ^ (l + 1) := by
  have hp : ∀ {α : Type} [Fintype α] (p w : α → ℝ), poleGfZ z (fun i => (p i : ℂ)) (fun i => (w i : ℂ))
      = ∑ k ∈ Finset.range l, ((∑ i, w i * p i ^ k : ℝ) : ℂ) / z ^ (k + 1)
        + ∑ i, (w i : ℂ) * ((p i : ℂ) ^ l / (z ^ l * (z - p i))) := by
    intro α _ p w
    rw [poleGfZ]
    have e : ∀ i, (w i : ℂ) / (z - p i) = ∑ k ∈ Finset.range l, (w i : ℂ) * ((p i : ℂ) ^ k / z ^ (k + 1))
        + (w i : ℂ) * ((p i : ℂ) ^ l / (z ^ l * (z - p i))) := by
      intro i
      rw [div_eq_mul_one_div, (pole_expansion hz hre (p i) l).1, mul_add, Finset.mul_sum]
    rw [Finset.sum_congr rfl fun i _ => e i, Finset.sum_add_distrib, Finset.sum_comm]
    congr 1
    refine Finset.sum_congr rfl fun k _ => ?_
    push_cast
    rw [Finset.sum_div]
    exact Finset.sum_congr rfl fun i _ => by ring
  have hb : ∀ {α : Type} [Fintype α] (p w : α → ℝ), ‖∑ i, (w i : ℂ) * ((p i : ℂ) ^ l / (z ^ l * (z - p i)))‖
      ≤ (∑ i, |w i| * |p i| ^ l) / ‖z‖ ^ (l + 1) := by
    intro α _ p w
    rw [Finset.sum_div]
    refine (norm_sum_le _ _).trans (Finset.sum_le_sum fun i _ => ?_)
    rw [norm_mul, Complex.norm_real, Real.norm_eq_abs, mul_div_assoc]
    exact mul_le_mul_of_nonneg_left (pole_expansion hz hre (p i) l).2 (abs_nonneg _)
  rw [hp p w, hp q v, Finset.sum_congr rfl fun k hk => by rw [h k (Finset.mem_range.1 hk)], add_sub_add_left_eq_sub, add_div]
  exact (norm_sub_le _ _).trans (add_le_add (hb p w) (hb q v))

private lemma iw_neg (n : ℕ) (beta : ℝ) : matsubaraFrequencies (-((n : ℤ) + 1)) beta = -matsubaraFrequencies n beta := by
  unfold matsubaraFrequencies
  push_cast
  ring

private lemma poleGfZ_conj {ι : Type} [Fintype ι] (p w : ι → ℝ) {z : ℂ} (hre : z.re = 0) :
    poleGfZ (-z) (fun i => (p i : ℂ)) (fun i => (w i : ℂ)) = star (poleGfZ z (fun i => (p i : ℂ)) (fun i => (w i : ℂ))) := by
  have hz : (starRingEnd ℂ) z = -z := Complex.ext (by simp [hre]) (by simp)
  rw [poleGfZ, poleGfZ, Complex.star_def, map_sum]
  refine Finset.sum_congr rfl fun i _ => ?_
  rw [map_div₀, map_sub, Complex.conj_ofReal, Complex.conj_ofReal, hz]

/-- Tail of a series bounded by a telescoping one. -/
private lemma tail_le {t : ℕ → ℂ} {a : ℂ} (h : HasSum t a) {N : ℕ} (hN : N ≠ 0) {B : ℝ} (hB0 : 0 ≤ B)
    (hB : ∀ n, N ≤ n → ‖t n‖ ≤ B * (1 / (n : ℝ) - 1 / ((n : ℝ) + 1))) :
    ‖∑ n ∈ Finset.range N, t n - a‖ ≤ B / N := by
  have hNp : (0 : ℝ) < N := by exact_mod_cast Nat.pos_of_ne_zero hN
  have hpart : ∀ K, ‖∑ n ∈ Finset.range N, t n - ∑ n ∈ Finset.range (K + N), t n‖ ≤ B * (1 / (N : ℝ) - 1 / ((K : ℝ) + N)) := by
    intro K
    induction K with
    | zero => simp
    | succ K ih =>
      rw [show K + 1 + N = (K + N) + 1 by ring, Finset.sum_range_succ, ← sub_sub]
      refine (norm_sub_le _ _).trans ((add_le_add ih (hB (K + N) (by omega))).trans (le_of_eq ?_))
      push_cast
      ring
  have hlim := (h.tendsto_sum_nat.comp (Filter.tendsto_add_atTop_nat N))
  have h2 := (tendsto_const_nhds (x := ∑ n ∈ Finset.range N, t n)).sub hlim
  refine le_of_tendsto h2.norm (Filter.Eventually.of_forall fun K => (hpart K).trans ?_)
  rw [div_eq_mul_one_div B]
  refine mul_le_mul_of_nonneg_left ?_ hB0
  have : (0 : ℝ) ≤ 1 / ((K : ℝ) + N) := by positivity
  linarith

/-- Truncated Matsubara sum of the difference of two pole functions with the same first `l` moments. -/
private lemma matsubara_truncation {ι κ : Type} [Fintype ι] [Fintype κ] (p w : ι → ℝ) (q v : κ → ℝ) {l : ℕ} (hl : l ≠ 0)
    (h : ∀ k < l, ∑ i, w i * p i ^ k = ∑ j, v j * q j ^ k) {beta : ℝ} (hb : 0 < beta) {N : ℕ} (hN : N ≠ 0) {τ : ℝ}
    (hτ : τ ∈ Set.Icc 0 beta) (c : ℕ → ℂ) (hc : ∀ n : ℕ, c n = poleGfZ (matsubaraFrequencies n beta) (fun i => (p i : ℂ))
      (fun i => (w i : ℂ)) - poleGfZ (matsubaraFrequencies n beta) (fun j => (q j : ℂ)) (fun j => (v j : ℂ))) :
    ‖1 / (beta : ℂ) * (∑ n ∈ Finset.range N, (c n * Complex.exp (-(matsubaraFrequencies n beta * τ))
        + star (c n) * Complex.exp (matsubaraFrequencies n beta * τ)))
      - ((lehmannTau beta p w τ - lehmannTau beta q v τ : ℝ) : ℂ)‖
      ≤ (∑ i, |w i| * |p i| ^ l + ∑ j, |v j| * |q j| ^ l) / Real.pi * (beta / (2 * Real.pi * N)) ^ l := by
  have hNp : (0 : ℝ) < N := by exact_mod_cast Nat.pos_of_ne_zero hN
  set C := ∑ i, |w i| * |p i| ^ l + ∑ j, |v j| * |q j| ^ l with hC
  have hC0 : 0 ≤ C := by positivity
  set d : ℤ → ℂ := fun n => poleGfZ (matsubaraFrequencies n beta) (fun i => (p i : ℂ)) (fun i => (w i : ℂ))
    - poleGfZ (matsubaraFrequencies n beta) (fun j => (q j : ℂ)) (fun j => (v j : ℂ)) with hd
  have hodd : ∀ n : ℤ, (1 : ℝ) ≤ |2 * (n : ℝ) + 1| := by
    intro n
    have : (1 : ℤ) ≤ |2 * n + 1| := Int.one_le_abs (by omega)
    exact_mod_cast this
  have hz : ∀ n : ℤ, matsubaraFrequencies n beta ≠ 0 := by
    intro n
    rw [← norm_pos_iff, iw_norm n hb]
    have := hodd n
    have := Real.pi_pos
    positivity
  have hdb : ∀ n : ℤ, ‖d n‖ ≤ C * (beta / Real.pi) ^ (l + 1) / |2 * (n : ℝ) + 1| ^ (l + 1) := by
    intro n
    refine (pole_diff p w q v h (hz n) (iw_re n beta)).trans (le_of_eq ?_)
    rw [iw_norm n hb, mul_pow, ← hC, div_pow, div_pow]
    have := Real.pi_ne_zero
    have := hb.ne'
    have : |2 * (n : ℝ) + 1| ≠ 0 := by have := hodd n; positivity
    field_simp
  have hsum : Summable d := by
    have h1 : Summable fun n : ℤ => C * (beta / Real.pi) ^ (l + 1) * (1 / ((2 * n + 1 : ℤ) : ℝ) ^ 2) := by
      have := (Real.summable_one_div_int_pow.2 one_lt_two).comp_injective (i := fun n : ℤ => 2 * n + 1)
        (fun a b hab => by simp only at hab; omega)
      exact this.mul_left _
    refine Summable.of_norm_bounded h1 fun n => (hdb n).trans ?_
    rw [mul_one_div]
    refine div_le_div_of_nonneg_left (by have := Real.pi_pos; positivity) ?_ ?_
    · have : ((2 * n + 1 : ℤ) : ℝ) ≠ 0 := by exact_mod_cast (by omega : 2 * n + 1 ≠ 0)
      positivity
    · push_cast
      rw [← sq_abs]
      exact pow_le_pow_right₀ (hodd n) (by omega)
  set F : ℝ → ℂ := fun τ => ((lehmannTau beta p w τ - lehmannTau beta q v τ : ℝ) : ℂ) with hF
  have hcont : Continuous F := by
    rw [hF]
    unfold lehmannTau
    fun_prop
  have hends : ∀ {α : Type} [Fintype α] (p w : α → ℝ), lehmannTau beta p w beta + lehmannTau beta p w 0 = -∑ i, w i := by
    intro α _ p w
    rw [lehmannTau, lehmannTau, ← neg_add, ← Finset.sum_add_distrib]
    congr 1
    refine Finset.sum_congr rfl fun i _ => ?_
    rw [mul_zero, Real.exp_zero, Spec.fermi, neg_mul, mul_comm (p i), Real.exp_neg]
    have := Real.exp_pos (beta * p i)
    field_simp
    ring
  have hanti : F beta = -F 0 := by
    have h1 := hends p w
    have h2 := hends q v
    have h3 := h 0 (Nat.pos_of_ne_zero hl)
    simp only [pow_zero, mul_one] at h3
    rw [h3] at h1
    simp only [hF]
    rw [← Complex.ofReal_neg]
    congr 1
    linarith
  have hcoef : ∀ n : ℤ, ∫ τ in (0 : ℝ)..beta, F τ * Complex.exp (matsubaraFrequencies n beta * τ) = d n := by
    intro n
    simp only [hd]
    rw [← lehmann_fourier p w hb n, ← lehmann_fourier q v hb n, ← intervalIntegral.integral_sub]
    · refine intervalIntegral.integral_congr fun τ _ => ?_
      simp only [hF]
      push_cast
      ring
    · exact Continuous.intervalIntegrable (by unfold lehmannTau; fun_prop) _ _
    · exact Continuous.intervalIntegrable (by unfold lehmannTau; fun_prop) _ _
  have hser := (hasSum_matsubara_series hb hcont.continuousOn hanti hcoef hsum hτ).nat_add_neg_add_one
  have hterm : ∀ n : ℕ, 1 / (beta : ℂ) * (c n * Complex.exp (-(matsubaraFrequencies n beta * τ))
        + star (c n) * Complex.exp (matsubaraFrequencies n beta * τ))
      = 1 / beta * d (n : ℤ) * Complex.exp (-(matsubaraFrequencies (n : ℤ) beta * τ))
        + 1 / beta * d (-((n : ℤ) + 1)) * Complex.exp (-(matsubaraFrequencies (-((n : ℤ) + 1)) beta * τ)) := by
    intro n
    have e1 : d (-((n : ℤ) + 1)) = star (c n) := by
      simp only [hd]
      rw [hc, iw_neg, poleGfZ_conj _ _ (iw_re _ _), poleGfZ_conj _ _ (iw_re _ _), star_sub]
    have e2 : d (n : ℤ) = c n := (hc n).symm
    rw [e1, e2, iw_neg, neg_mul, neg_neg]
    ring
  rw [Finset.mul_sum, Finset.sum_congr rfl fun n _ => hterm n]
  have hpi := Real.pi_pos
  have hB : ∀ n, N ≤ n → ‖1 / (beta : ℂ) * d (n : ℤ) * Complex.exp (-(matsubaraFrequencies (n : ℤ) beta * τ))
        + 1 / beta * d (-((n : ℤ) + 1)) * Complex.exp (-(matsubaraFrequencies (-((n : ℤ) + 1)) beta * τ))‖
      ≤ 2 / beta * (C * (beta / Real.pi) ^ (l + 1) / (4 * (2 * N : ℝ) ^ (l - 1))) * (1 / (n : ℝ) - 1 / ((n : ℝ) + 1)) := by
    intro n hn
    have hnp : (0 : ℝ) < n := hNp.trans_le (by exact_mod_cast hn)
    have hexp : ∀ m : ℤ, ‖Complex.exp (-(matsubaraFrequencies m beta * τ))‖ = 1 := by
      intro m
      rw [Complex.norm_exp, Complex.neg_re, Complex.re_mul_ofReal, iw_re, zero_mul, neg_zero, Real.exp_zero]
    have hbn : ‖1 / (beta : ℂ)‖ = 1 / beta := by
      rw [norm_div, norm_one, Complex.norm_real, Real.norm_eq_abs, abs_of_pos hb]
    have hx : (2 * N : ℝ) ^ (l - 1) * (4 * (n * (n + 1))) ≤ (2 * (n : ℝ) + 1) ^ (l + 1) := by
      rw [show l + 1 = (l - 1) + 2 by omega, pow_add]
      refine mul_le_mul (pow_le_pow_left₀ (by positivity) ?_ _) (by nlinarith) (by positivity) (by positivity)
      have : (N : ℝ) ≤ n := by exact_mod_cast hn
      linarith
    have hmain : C * (beta / Real.pi) ^ (l + 1) / (2 * (n : ℝ) + 1) ^ (l + 1)
        ≤ C * (beta / Real.pi) ^ (l + 1) / (4 * (2 * N : ℝ) ^ (l - 1)) * (1 / (n : ℝ) - 1 / ((n : ℝ) + 1)) := by
      have e : C * (beta / Real.pi) ^ (l + 1) / (4 * (2 * N : ℝ) ^ (l - 1)) * (1 / (n : ℝ) - 1 / ((n : ℝ) + 1))
          = C * (beta / Real.pi) ^ (l + 1) / ((2 * N : ℝ) ^ (l - 1) * (4 * (n * (n + 1)))) := by
        have h1 : (n : ℝ) + 1 ≠ 0 := by positivity
        have h2 : (2 * N : ℝ) ^ (l - 1) ≠ 0 := by positivity
        field_simp
        ring
      rw [e]
      exact div_le_div_of_nonneg_left (by positivity) (by positivity) hx
    have hd1 : ‖d (n : ℤ)‖ ≤ C * (beta / Real.pi) ^ (l + 1) / (2 * (n : ℝ) + 1) ^ (l + 1) := by
      refine (hdb n).trans (le_of_eq ?_)
      rw [abs_of_pos (by push_cast; positivity)]
      push_cast
      rfl
    have hd2 : ‖d (-((n : ℤ) + 1))‖ ≤ C * (beta / Real.pi) ^ (l + 1) / (2 * (n : ℝ) + 1) ^ (l + 1) := by
      refine (hdb _).trans (le_of_eq ?_)
      rw [show 2 * ((-((n : ℤ) + 1) : ℤ) : ℝ) + 1 = -(2 * (n : ℝ) + 1) by push_cast; ring, abs_neg,
        abs_of_pos (by positivity)]
    refine (norm_add_le _ _).trans ?_
    rw [norm_mul, norm_mul, norm_mul, norm_mul, hexp, hexp, hbn, mul_one, mul_one, ← mul_add]
    rw [show 2 / beta * (C * (beta / Real.pi) ^ (l + 1) / (4 * (2 * N : ℝ) ^ (l - 1))) * (1 / (n : ℝ) - 1 / ((n : ℝ) + 1))
      = 1 / beta * (2 * (C * (beta / Real.pi) ^ (l + 1) / (4 * (2 * N : ℝ) ^ (l - 1)) * (1 / (n : ℝ) - 1 / ((n : ℝ) + 1)))) by ring]
    refine mul_le_mul_of_nonneg_left ?_ (by positivity)
    linarith
  refine (tail_le hser hN (by positivity) hB).trans (le_of_eq ?_)
  obtain ⟨m, rfl⟩ : ∃ m, l = m + 1 := ⟨l - 1, by omega⟩
  rw [Nat.add_sub_cancel, div_pow, div_pow, show m + 1 + 1 = (m + 1) + 1 from rfl, mul_assoc 2 Real.pi, mul_comm Real.pi,
    ← mul_assoc, mul_pow (2 * (N : ℝ))]
  field_simp
  ring

/-- `iw2tau` without fitted moments in terms of its transformation. -/
private lemma iw2tau_nofit (ext : LinalgExt ℝ) {beta : ℝ} (hb : 0 < beta) {n l N : ℕ} (hN : N ≠ 0) (p w : Fin n → ℝ)
    {moments : Fin l → ℝ} {g : PoleFct ℝ l} (hg : gfFromMoments moments (some 1) = .ok g) {c : ℕ → ℂ}
    (hc : ∀ m : ℕ, c m = poleGfZ (matsubaraFrequencies m beta) (fun i => (p i : ℂ)) (fun i => (w i : ℂ))
      - poleGfZ (matsubaraFrequencies m beta) (fun j => (g.poles j : ℂ)) (fun j => (g.residues j : ℂ)))
    (fourier : (Fin N → ℂ) → ℝ → Except Err (Fin (2 * N + 1) → ℝ)) {r : Fin (2 * N + 1) → ℝ}
    (hr : fourier (fun i : Fin N => c i) beta = .ok r) :
    iw2tau ext (fun i : Fin N => poleGfZ (matsubaraFrequencies (i : ℕ) beta) (fun i => (p i : ℂ)) fun i => (w i : ℂ)) beta
        moments fourier 0 = .ok fun j => r j + lehmannTau beta g.poles g.residues (tauPt beta (2 * N) j) := by
  simp only [hc] at hr
  unfold iw2tau
  rw [show iw2tauPoles ext (fun i : Fin N => poleGfZ (matsubaraFrequencies (i : ℕ) beta) (fun i => (p i : ℂ)) fun i => (w i : ℂ))
    beta moments 0 = .ok g from hg]
  simp only [PoleFct.evalZ]
  erw [hr, eval_tau_grid (T := 2 * N) (by omega) hb.le g]

private lemma gf_moments_eq {n l : ℕ} (p w : Fin n → ℝ) {moments : Fin l → ℝ}
    (hm : ∀ k : Fin l, moments k = ∑ i, w i * p i ^ (k : ℕ)) :
    ∃ g : PoleFct ℝ l, gfFromMoments moments (some 1) = .ok g ∧ ∀ k < l, ∑ i, w i * p i ^ k = ∑ j, g.residues j * g.poles j ^ k := by
  obtain ⟨g, hg, -, -, hmom⟩ := gf_from_moments_correct moments (some 1) (Or.inl (by simp))
  refine ⟨g, hg, fun k hk => ?_⟩
  have h1 := hmom ⟨k, hk⟩
  rw [hm] at h1
  rw [← h1]
  simp [poleMoments, RCLike.ofReal_real_eq_id]

private lemma tauPt_mem {beta : ℝ} (hb : 0 < beta) {N : ℕ} (hN : N ≠ 0) (j : Fin (2 * N + 1)) :
    tauPt beta (2 * N) j ∈ Set.Icc 0 beta := by
  have hj : ((j : ℕ) : ℝ) ≤ (2 * N : ℕ) := by exact_mod_cast Nat.le_of_lt_succ j.2
  have h2N : (0 : ℝ) < (2 * N : ℕ) := by exact_mod_cast (by omega : 0 < 2 * N)
  constructor
  · unfold tauPt; positivity
  · unfold tauPt
    rw [mul_div_assoc', div_le_iff₀ h2N, mul_comm]
    exact mul_le_mul_of_nonneg_left hj hb.le

/-- C68: `iw2tau` with `l` correct moments converges like `N^-l` in the number of frequencies, uniformly in the time, for every
Green's function with finitely many real poles. -/
theorem iw2tau_dft_error (ext : LinalgExt ℝ) {beta : ℝ} (hb : 0 < beta) {n : ℕ} (p w : Fin n → ℝ) {l : ℕ} (hl : l ≠ 0)
    (moments : Fin l → ℝ) (hm : ∀ k : Fin l, moments k = ∑ i, w i * p i ^ (k : ℕ)) :
    ∃ g : PoleFct ℝ l, gfFromMoments moments (some 1) = .ok g ∧ ∀ N, N ≠ 0 → ∃ r,
      iw2tau ext (fun i : Fin N => poleGfZ (matsubaraFrequencies (i : ℕ) beta) (fun i => (p i : ℂ)) fun i => (w i : ℂ)) beta
        moments iw2tauDft 0 = .ok r ∧
      ∀ j, |r j - lehmannTau beta p w (tauPt beta (2 * N) j)|
        ≤ (∑ i, |w i| * |p i| ^ l + ∑ j, |g.residues j| * |g.poles j| ^ l) / Real.pi * (beta / (2 * Real.pi * N)) ^ l := by
  obtain ⟨g, hg, heq⟩ := gf_moments_eq p w hm
  refine ⟨g, hg, fun N hN => ?_⟩
  set c : ℕ → ℂ := fun m => poleGfZ (matsubaraFrequencies m beta) (fun i => (p i : ℂ)) (fun i => (w i : ℂ))
    - poleGfZ (matsubaraFrequencies m beta) (fun j => (g.poles j : ℂ)) (fun j => (g.residues j : ℂ)) with hc
  obtain ⟨r, hr1, hr2⟩ := iw2tau_dft_correct hN (fun i : Fin N => c i) hb.ne'
  refine ⟨_, iw2tau_nofit ext hb hN p w hg (fun m => rfl) iw2tauDft hr1, fun j => ?_⟩
  have h1 := matsubara_truncation p w g.poles g.residues hl heq hb hN (tauPt_mem hb hN j) c fun m => rfl
  rw [← Real.norm_eq_abs, ← Complex.norm_real]
  refine le_trans (le_of_eq ?_) h1
  congr 1
  push_cast
  rw [hr2, Finset.sum_range]
  ring

/-- C68: with the default `moments=(1.,)`, for Green's functions of total weight one. -/
theorem iw2tau_dft_error_default (ext : LinalgExt ℝ) {beta : ℝ} (hb : 0 < beta) {n : ℕ} (p w : Fin n → ℝ) (hw : ∑ i, w i = 1)
    {N : ℕ} (hN : N ≠ 0) :
    ∃ r, iw2tau ext (fun i : Fin N => poleGfZ (matsubaraFrequencies (i : ℕ) beta) (fun i => (p i : ℂ)) fun i => (w i : ℂ)) beta
        ![1] iw2tauDft 0 = .ok r ∧
      ∀ j, |r j - lehmannTau beta p w (tauPt beta (2 * N) j)| ≤ (∑ i, |w i| * |p i|) * beta / (2 * Real.pi ^ 2 * N) := by
  obtain ⟨g, hg, h⟩ := iw2tau_dft_error ext hb p w one_ne_zero ![1] fun k => by
    rw [Subsingleton.elim k 0]
    simp [hw]
  obtain ⟨r, h1, h2⟩ := h N hN
  refine ⟨r, h1, fun j => (h2 j).trans (le_of_eq ?_)⟩
  have h0 : g.poles 0 = 0 := by
    unfold gfFromMoments at hg
    simp only at hg
    split at hg
    · rw [← Except.ok.inj hg]
      simp [chebyshevPoints]
    · exact absurd hg (by simp)
  rw [Fin.sum_univ_one, h0]
  simp only [pow_one, abs_zero, mul_zero, add_zero]
  have := Real.pi_ne_zero
  field_simp

/-- C68: `iw2tau` with `iw2tau_dft_soft` converges with the same power. -/
theorem iw2tau_dft_soft_error (ext : LinalgExt ℝ) {beta : ℝ} (hb : 0 < beta) {n : ℕ} (p w : Fin n → ℝ) {l : ℕ} (hl : l ≠ 0)
    (moments : Fin l → ℝ) (hm : ∀ k : Fin l, moments k = ∑ i, w i * p i ^ (k : ℕ)) :
    ∃ g : PoleFct ℝ l, gfFromMoments moments (some 1) = .ok g ∧ ∀ N, N ≠ 0 → ∃ r,
      iw2tau ext (fun i : Fin N => poleGfZ (matsubaraFrequencies (i : ℕ) beta) (fun i => (p i : ℂ)) fun i => (w i : ℂ)) beta
        moments iw2tauDftSoft 0 = .ok r ∧
      ∀ j, |r j - lehmannTau beta p w (tauPt beta (2 * N) j)|
        ≤ 3 * ((∑ i, |w i| * |p i| ^ l + ∑ j, |g.residues j| * |g.poles j| ^ l) / Real.pi * (beta / (Real.pi * N)) ^ l) := by
  obtain ⟨g, hg, heq⟩ := gf_moments_eq p w hm
  refine ⟨g, hg, fun N hN => ?_⟩
  have hpi := Real.pi_pos
  have hNp : (0 : ℝ) < N := by exact_mod_cast Nat.pos_of_ne_zero hN
  set c : ℕ → ℂ := fun m => poleGfZ (matsubaraFrequencies m beta) (fun i => (p i : ℂ)) (fun i => (w i : ℂ))
    - poleGfZ (matsubaraFrequencies m beta) (fun j => (g.poles j : ℂ)) (fun j => (g.residues j : ℂ)) with hc
  set C := ∑ i, |w i| * |p i| ^ l + ∑ j, |g.residues j| * |g.poles j| ^ l with hC
  have hC0 : 0 ≤ C := by positivity
  obtain ⟨r, hr1, hr2⟩ := iw2tau_dft_soft_correct hN (fun i : Fin N => c i) hb.ne'
  refine ⟨_, iw2tau_nofit ext hb hN p w hg (fun m => rfl) iw2tauDftSoft hr1, fun j => ?_⟩
  have h1 := matsubara_truncation p w g.poles g.residues hl heq hb hN (tauPt_mem hb hN j) c fun m => rfl
  rw [← hC] at h1
  set τ := tauPt beta (2 * N) j with hτ
  -- the artificial tail
  set sE : ℕ → ℂ := fun k => if h : k < 2 * N then softExtend (fun i : Fin N => c i) ⟨k, h⟩ else 0 with hsE
  have hlast : ‖c (N - 1)‖ ≤ C * (beta / Real.pi) ^ (l + 1) / (N : ℝ) ^ (l + 1) := by
    have hz : matsubaraFrequencies ((N - 1 : ℕ) : ℤ) beta ≠ 0 := by
      intro h0
      have := matsubara_im_pos (N - 1) hb
      rw [h0] at this
      simp at this
    refine (pole_diff p w g.poles g.residues heq hz (iw_re _ beta)).trans ?_
    rw [← hC, iw_norm _ hb]
    have hN1 : (N : ℝ) ≤ |2 * (((N - 1 : ℕ) : ℤ) : ℝ) + 1| := by
      have : (N : ℤ) ≤ |2 * ((N - 1 : ℕ) : ℤ) + 1| := by
        rw [abs_of_pos (by omega)]
        omega
      exact_mod_cast this
    have e : C * (beta / Real.pi) ^ (l + 1) / (N : ℝ) ^ (l + 1) = C / (Real.pi / beta * N) ^ (l + 1) := by
      rw [mul_pow, div_pow, div_pow]
      field_simp
    rw [e]
    refine div_le_div_of_nonneg_left hC0 (by positivity) (pow_le_pow_left₀ (by positivity) ?_ _)
    exact mul_le_mul_of_nonneg_left hN1 (by positivity)
  have hsoft : ∀ k, N ≤ k → ‖sE k‖ ≤ C * (beta / Real.pi) ^ (l + 1) / (N : ℝ) ^ (l + 1) := by
    intro k hk
    simp only [hsE]
    split_ifs with h
    · rw [softExtend, dif_neg (by simpa using hk), norm_mul, Complex.norm_real, Real.norm_eq_abs]
      refine le_trans (mul_le_of_le_one_left (norm_nonneg _) ?_) hlast
      rw [abs_le]
      have h1 := Real.neg_one_le_cos (Real.pi * ((k - N + 1 : ℕ) : ℝ) / N)
      have h2 := Real.cos_le_one (Real.pi * ((k - N + 1 : ℕ) : ℝ) / N)
      simp only at h1 h2 ⊢
      generalize Real.cos (Real.pi * ((k - N + 1 : ℕ) : ℝ) / N) = x at h1 h2 ⊢
      constructor <;> norm_num <;> linarith
    · rw [norm_zero]
      positivity
  have hhead : ∀ k < N, sE k = c k := by
    intro k hk
    have h2 : k < 2 * N := by omega
    simp only [hsE, dif_pos h2]
    rw [softExtend, dif_pos hk]
  set term : (ℕ → ℂ) → ℕ → ℂ := fun a k => a k * Complex.exp (-(matsubaraFrequencies k beta * τ))
    + star (a k) * Complex.exp (matsubaraFrequencies k beta * τ) with hterm
  have hr3 : (r j : ℂ) = 1 / beta * ∑ k ∈ Finset.range N, term c k
      + 1 / beta * ∑ k ∈ Finset.range N, term sE (N + k) := by
    rw [hr2, ← mul_add]
    congr 1
    have e1 : ∑ k : Fin (2 * N), (softExtend (fun i : Fin N => c i) k * Complex.exp (-(matsubaraFrequencies (k : ℕ) beta * τ))
        + star (softExtend (fun i : Fin N => c i) k) * Complex.exp (matsubaraFrequencies (k : ℕ) beta * τ))
        = ∑ k ∈ Finset.range (2 * N), term sE k := by
      rw [Finset.sum_range]
      refine Finset.sum_congr rfl fun k _ => ?_
      simp only [hterm, hsE, dif_pos k.2]
    rw [e1, two_mul, Finset.sum_range_add]
    congr 1
    refine Finset.sum_congr rfl fun k hk => ?_
    simp only [hterm]
    rw [hhead k (Finset.mem_range.1 hk)]
  have htail : ‖1 / (beta : ℂ) * ∑ k ∈ Finset.range N, term sE (N + k)‖ ≤ 2 * (C / Real.pi * (beta / (Real.pi * N)) ^ l) := by
    have hexp : ∀ m : ℕ, ‖Complex.exp (-(matsubaraFrequencies m beta * τ))‖ = 1 ∧ ‖Complex.exp (matsubaraFrequencies m beta * τ)‖ = 1 := by
      intro m
      rw [Complex.norm_exp, Complex.norm_exp, Complex.neg_re, Complex.re_mul_ofReal, iw_re, zero_mul, neg_zero, Real.exp_zero]
      exact ⟨rfl, rfl⟩
    have hb1 : ∀ k ∈ Finset.range N, ‖term sE (N + k)‖ ≤ 2 * (C * (beta / Real.pi) ^ (l + 1) / (N : ℝ) ^ (l + 1)) := by
      intro k _
      simp only [hterm]
      refine (norm_add_le _ _).trans ?_
      rw [norm_mul, norm_mul, (hexp _).1, (hexp _).2, norm_star, mul_one]
      have := hsoft (N + k) (by omega)
      linarith
    rw [norm_mul, norm_div, norm_one, Complex.norm_real, Real.norm_eq_abs, abs_of_pos hb]
    refine (mul_le_mul_of_nonneg_left ((norm_sum_le _ _).trans (Finset.sum_le_sum hb1)) (by positivity)).trans (le_of_eq ?_)
    rw [Finset.sum_const, Finset.card_range, nsmul_eq_mul, div_pow, div_pow, mul_pow]
    field_simp
    ring
  have hmono : (beta / (2 * Real.pi * N)) ^ l ≤ (beta / (Real.pi * N)) ^ l := by
    refine pow_le_pow_left₀ (by positivity) (div_le_div_of_nonneg_left hb.le (by positivity) ?_) _
    nlinarith [mul_pos hpi hNp]
  have hmono2 : C / Real.pi * (beta / (2 * Real.pi * N)) ^ l ≤ C / Real.pi * (beta / (Real.pi * N)) ^ l :=
    mul_le_mul_of_nonneg_left hmono (by positivity)
  rw [← Real.norm_eq_abs, ← Complex.norm_real]
  have hsplit : (((r j + lehmannTau beta g.poles g.residues τ) - lehmannTau beta p w τ : ℝ) : ℂ)
      = (1 / (beta : ℂ) * ∑ k ∈ Finset.range N, term c k - ((lehmannTau beta p w τ - lehmannTau beta g.poles g.residues τ : ℝ) : ℂ))
        + 1 / (beta : ℂ) * ∑ k ∈ Finset.range N, term sE (N + k) := by
    push_cast
    rw [hr3]
    ring
  rw [hsplit]
  refine (norm_add_le _ _).trans ((add_le_add h1 htail).trans ?_)
  linarith

/-! ## Laplace transform -/

/-- C68: `tt2z_lin` of the retarded function with finitely many real poles: quadratic convergence in the time step, exponential one
in the largest time, with constants given by the distance of `z` to the real axis. -/
theorem tt2z_lin_error {T : ℕ} (hT : T ≠ 0) {dt : ℝ} (hdt : 0 < dt) {n : ℕ} (p : Fin n → ℝ) (w : Fin n → ℂ) {z : ℂ}
    (hz : 0 < z.im) :
    ∃ r, tt2zLin (T + 1) (fun k => k * dt) (fun k => -I * ∑ i, w i * Complex.exp (-I * p i * (k * dt : ℝ))) z = .ok r ∧
      ‖r - ∑ i, w i / (z - p i)‖ ≤ (∑ i, ‖w i‖ * p i ^ 2) * dt ^ 2 / (8 * z.im)
        + (∑ i, ‖w i‖) * Real.exp (-(z.im * (T * dt))) / z.im := by
  have hTr : (T : ℝ) ≠ 0 := by exact_mod_cast hT
  have hTpos : (0 : ℝ) < T := by exact_mod_cast Nat.pos_of_ne_zero hT
  set b := T * dt with hbdef
  have hb : 0 < b := mul_pos hTpos hdt
  have hD : b / T = dt := by rw [hbdef]; field_simp
  set f : ℝ → ℂ := fun t => -I * ∑ i, w i * Complex.exp (-I * p i * t) with hf
  have hder : ∀ (a : Fin n → ℂ) (t : ℝ), HasDerivAt (fun t : ℝ => ∑ i, a i * Complex.exp (-I * p i * t))
      (∑ i, a i * (-I * p i) * Complex.exp (-I * p i * t)) t := by
    intro a t
    refine HasDerivAt.fun_sum fun i _ => ?_
    have := (((hasDerivAt_id (t : ℝ)).ofReal_comp.const_mul (-I * (p i : ℂ))).cexp).const_mul (a i)
    refine this.congr_deriv ?_
    simp only [id, Complex.ofReal_one]
    ring
  have hsm : SmoothOn f (fun t => -I * ∑ i, w i * (-I * p i) * Complex.exp (-I * p i * t))
      (fun t => -I * ∑ i, w i * (-I * p i) * (-I * p i) * Complex.exp (-I * p i * t)) 0 b (∑ i, ‖w i‖ * p i ^ 2) := by
    refine ⟨?_, fun t _ => (hder w t).const_mul _, fun t _ => (hder (fun i => w i * (-I * p i)) t).const_mul _, fun t _ => ?_⟩
    · rw [hf]
      fun_prop
    · rw [norm_mul, norm_neg, Complex.norm_I, one_mul]
      refine (norm_sum_le _ _).trans (Finset.sum_le_sum fun i _ => le_of_eq ?_)
      have h1 : ‖Complex.exp (-I * p i * t)‖ = 1 := by
        rw [Complex.norm_exp, show -I * (p i : ℂ) * t = ((-(p i * t) : ℝ) : ℂ) * I by push_cast; ring, Complex.re_ofReal_mul]
        simp
      rw [norm_mul, norm_mul, norm_mul, h1, norm_mul, norm_neg, Complex.norm_I, Complex.norm_real, Real.norm_eq_abs, one_mul, mul_one,
        mul_assoc, ← sq, sq_abs]
  obtain ⟨h, hh⟩ := exists_spline (fun k : Fin (T + 1) => f ((k : ℕ) * (b / T))) 0 (by rw [hD]; exact hdt.ne' : b / T ≠ 0)
  have hpl : IsPiecewiseLinear (T + 1) (fun k => 0 + k * dt) (fun k => -I * ∑ i, w i * Complex.exp (-I * p i * (k * dt : ℝ))) h := by
    intro k hk x hx
    rw [Nat.add_sub_cancel] at hk
    have h1 := hh ⟨k, hk⟩ x (by
      rw [hD]
      push_cast at hx
      exact hx)
    rw [h1]
    simp only [Fin.val_castSucc, Fin.val_succ, hf, hD]
    push_cast
    congr 2
    ring
  have hr := tt2z_lin_exact (T + 1) (by omega) 0 dt hdt.ne' _ z h hpl
  simp only [zero_add, Nat.add_sub_cancel] at hr
  refine ⟨_, hr, ?_⟩
  rw [← hbdef]
  have h1 := spline_error_exp hT hb hsm hh (s := I * z) (by simpa using hz)
  have h2 : ∫ t in (0 : ℝ)..b, f t * Complex.exp (I * z * t)
      = ∑ i, w i / (z - p i) - ∑ i, w i / (z - p i) * Complex.exp (I * (z - p i) * b) := by
    have e1 : ∀ t : ℝ, f t * Complex.exp (I * z * t) = ∑ i, (-I * w i) * Complex.exp (I * (z - p i) * t) := by
      intro t
      rw [hf]
      simp only
      rw [Finset.mul_sum, Finset.sum_mul]
      refine Finset.sum_congr rfl fun i _ => ?_
      rw [show I * (z - p i) * (t : ℂ) = -I * p i * t + I * z * t by ring, Complex.exp_add]
      ring
    simp only [e1]
    rw [intervalIntegral.integral_finsetSum fun i _ => Continuous.intervalIntegrable (by fun_prop) _ _, ← Finset.sum_sub_distrib]
    refine Finset.sum_congr rfl fun i _ => ?_
    have hne : z - p i ≠ 0 := by
      intro h0
      have := congrArg Complex.im h0
      simp at this
      exact hz.ne' this
    rw [intervalIntegral.integral_const_mul, integral_exp_mul_complex (mul_ne_zero Complex.I_ne_zero hne)]
    simp only [Complex.ofReal_zero, mul_zero, Complex.exp_zero]
    have hI := Complex.I_ne_zero
    field_simp
    ring
  have h3 : ‖∑ i, w i / (z - p i) * Complex.exp (I * (z - p i) * b)‖ ≤ (∑ i, ‖w i‖) * Real.exp (-(z.im * b)) / z.im := by
    rw [mul_div_assoc, Finset.sum_mul]
    refine (norm_sum_le _ _).trans (Finset.sum_le_sum fun i _ => ?_)
    have e1 : ‖Complex.exp (I * (z - p i) * b)‖ = Real.exp (-(z.im * b)) := by
      rw [Complex.norm_exp, Complex.re_mul_ofReal]
      simp
    have e2 : z.im ≤ ‖z - p i‖ := by
      have := Complex.abs_im_le_norm (z - p i)
      rw [Complex.sub_im, Complex.ofReal_im, sub_zero] at this
      exact (le_abs_self _).trans this
    rw [norm_mul, norm_div, e1, div_mul_eq_mul_div, ← mul_div_assoc]
    exact div_le_div_of_nonneg_left (by positivity) hz e2
  have h4 : (∫ t in (0 : ℝ)..b, h t * Complex.exp (I * z * t)) - ∑ i, w i / (z - p i)
      = ((∫ t in (0 : ℝ)..b, h t * Complex.exp (I * z * t)) - ∫ t in (0 : ℝ)..b, f t * Complex.exp (I * z * t))
        - ∑ i, w i / (z - p i) * Complex.exp (I * (z - p i) * b) := by
    rw [h2]
    ring
  rw [h4]
  refine (norm_sub_le _ _).trans (add_le_add (h1.trans (le_of_eq ?_)) h3)
  rw [hD]
  simp

/-- C68: `tt2z_trapz` on an arbitrary increasing grid starting at `0` whose steps are at most `d`. -/
theorem tt2z_trapz_error {T : ℕ} (hT : T ≠ 0) {tt : ℕ → ℝ} (h0 : tt 0 = 0) {d : ℝ} (hlt : ∀ k < T, tt k < tt (k + 1))
    (hd : ∀ k < T, tt (k + 1) - tt k ≤ d) {n : ℕ} (p : Fin n → ℝ) (w : Fin n → ℂ) {z : ℂ} (hz : 0 < z.im) :
    ∃ r, tt2zTrapz (T + 1) tt (fun k => -I * ∑ i, w i * Complex.exp (-I * p i * tt k)) z = .ok r ∧
      ‖r - ∑ i, w i / (z - p i)‖ ≤ (∑ i, ‖w i‖ * ‖z - p i‖ ^ 2) * d ^ 2 * Real.exp (z.im * d) / (12 * z.im)
        + (∑ i, ‖w i‖) * Real.exp (-(z.im * tt T)) / z.im := by
  refine ⟨_, (tt2z_trapz_correct (T + 1) tt _ z).2 (by omega), ?_⟩
  obtain ⟨M, hM⟩ : ∃ M, M = ∑ i, ‖w i‖ * ‖z - p i‖ ^ 2 := ⟨_, rfl⟩
  have hM0 : 0 ≤ M := by rw [hM]; positivity
  obtain ⟨c, hc⟩ : ∃ c : Fin n → ℂ, c = fun i => I * (z - p i) := ⟨_, rfl⟩
  obtain ⟨F, hF⟩ : ∃ F : (Fin n → ℂ) → ℝ → ℂ, F = fun (a : Fin n → ℂ) (t : ℝ) => ∑ i, a i * Complex.exp (c i * t) := ⟨_, rfl⟩
  have hcre : ∀ i, (c i).re = -z.im := fun i => by simp [hc]
  have hnorm : ∀ i (t : ℝ), ‖Complex.exp (c i * t)‖ = Real.exp (-(z.im * t)) := fun i t => by
    rw [Complex.norm_exp, Complex.re_mul_ofReal, hcre, neg_mul]
  have hder : ∀ a t, HasDerivAt (F a) (F (fun i => a i * c i) t) t := by
    intro a t
    rw [hF]
    refine HasDerivAt.fun_sum fun i _ => ?_
    have := (((hasDerivAt_id (t : ℝ)).ofReal_comp.const_mul (c i)).cexp).const_mul (a i)
    refine this.congr_deriv ?_
    simp only [id, Complex.ofReal_one]
    ring
  have hsmooth : ∀ a b : ℝ, SmoothOn (F fun i => -I * w i) (F fun i => -I * w i * c i) (F fun i => -I * w i * c i * c i) a b
      (M * Real.exp (-(z.im * a))) := by
    intro a b
    refine ⟨?_, fun t _ => hder _ t, fun t _ => hder _ t, fun t ht => ?_⟩
    · rw [hF]
      fun_prop
    · rw [hF, hM, Finset.sum_mul]
      refine (norm_sum_le _ _).trans (Finset.sum_le_sum fun i _ => ?_)
      rw [norm_mul, hnorm, norm_mul, norm_mul, norm_mul, norm_neg, Complex.norm_I, one_mul, mul_assoc ‖w i‖, ← sq]
      have h1 : ‖c i‖ = ‖z - p i‖ := by rw [hc]; simp
      rw [h1]
      refine mul_le_mul_of_nonneg_left (Real.exp_le_exp.2 ?_) (by positivity)
      nlinarith [ht.1]
  have hFt : ∀ t : ℝ, Complex.exp (I * z * t) * (-I * ∑ i, w i * Complex.exp (-I * p i * t)) = F (fun i => -I * w i) t := by
    intro t
    rw [hF, Finset.mul_sum, Finset.mul_sum]
    refine Finset.sum_congr rfl fun i _ => ?_
    rw [hc]
    simp only
    rw [show I * (z - p i) * (t : ℂ) = -I * p i * t + I * z * t by ring, Complex.exp_add]
    ring
  have hcont : Continuous (F fun i => -I * w i) := by
    rw [hF]
    fun_prop
  have hint : ∫ t in (0 : ℝ)..tt T, F (fun i => -I * w i) t
      = ∑ i, w i / (z - p i) - ∑ i, w i / (z - p i) * Complex.exp (c i * tt T) := by
    rw [hF]
    simp only
    rw [intervalIntegral.integral_finsetSum fun i _ => Continuous.intervalIntegrable (by fun_prop) _ _, ← Finset.sum_sub_distrib]
    refine Finset.sum_congr rfl fun i _ => ?_
    have hne : z - p i ≠ 0 := by
      intro h0
      have := congrArg Complex.im h0
      simp at this
      exact hz.ne' this
    have hci : c i ≠ 0 := by rw [hc]; exact mul_ne_zero Complex.I_ne_zero hne
    rw [intervalIntegral.integral_const_mul, integral_exp_mul_complex hci]
    simp only [Complex.ofReal_zero, mul_zero, Complex.exp_zero]
    generalize Complex.exp (c i * tt T) = e
    rw [hc]
    have hI := Complex.I_ne_zero
    field_simp
    ring
  have htail : ‖∑ i, w i / (z - p i) * Complex.exp (c i * tt T)‖ ≤ (∑ i, ‖w i‖) * Real.exp (-(z.im * tt T)) / z.im := by
    rw [mul_div_assoc, Finset.sum_mul]
    refine (norm_sum_le _ _).trans (Finset.sum_le_sum fun i _ => ?_)
    have e2 : z.im ≤ ‖z - p i‖ := by
      have := Complex.abs_im_le_norm (z - p i)
      rw [Complex.sub_im, Complex.ofReal_im, sub_zero] at this
      exact (le_abs_self _).trans this
    rw [norm_mul, norm_div, hnorm, div_mul_eq_mul_div, ← mul_div_assoc]
    exact div_le_div_of_nonneg_left (by positivity) hz e2
  have hadj := intervalIntegral.sum_integral_adjacent_intervals (a := tt) (n := T) (μ := volume)
    (f := F fun i => -I * w i) fun k _ => hcont.intervalIntegrable _ _
  rw [h0] at hadj
  have hstep : ∀ k ∈ Finset.range T, ‖((tt (k + 1) - tt k : ℝ) : ℂ) * ((F (fun i => -I * w i) (tt k) + F (fun i => -I * w i) (tt (k + 1))) / 2)
      - ∫ t in tt k..tt (k + 1), F (fun i => -I * w i) t‖
      ≤ M * d ^ 2 * Real.exp (z.im * d) / (12 * z.im) * (Real.exp (-(z.im * tt k)) - Real.exp (-(z.im * tt (k + 1)))) := by
    intro k hk
    have hkT := Finset.mem_range.1 hk
    have h1 := hlt k hkT
    have h2 := hd k hkT
    refine (trapz_interval (hsmooth _ _) h1).trans ?_
    obtain ⟨s, hs⟩ : ∃ s, s = tt (k + 1) - tt k := ⟨_, rfl⟩
    have hs0 : 0 < s := by rw [hs]; linarith
    have hsd : s ≤ d := by rw [hs]; exact h2
    have e1 : Real.exp (-(z.im * tt k)) = Real.exp (-(z.im * tt (k + 1))) * Real.exp (z.im * s) := by
      rw [← Real.exp_add, hs]
      congr 1
      ring
    have e2 := Real.add_one_le_exp (z.im * s)
    have e3 : Real.exp (z.im * s) ≤ Real.exp (z.im * d) := Real.exp_le_exp.2 (mul_le_mul_of_nonneg_left hsd hz.le)
    rw [← hs, e1]
    have hE := Real.exp_pos (-(z.im * tt (k + 1)))
    generalize Real.exp (-(z.im * tt (k + 1))) = E at hE ⊢
    have hes := Real.exp_pos (z.im * s)
    generalize Real.exp (z.im * s) = es at e2 e3 hes ⊢
    generalize Real.exp (z.im * d) = ed at e3 ⊢
    have hsq : s ^ 2 ≤ d ^ 2 := by nlinarith
    have e4 : es * s ≤ ed * ((es - 1) / z.im) := by
      refine mul_le_mul e3 ?_ hs0.le (hes.le.trans e3)
      rw [le_div_iff₀ hz]
      linarith
    calc M * (E * es) * s ^ 3 / 12 = M * E / 12 * (s ^ 2 * (es * s)) := by ring
      _ ≤ M * E / 12 * (d ^ 2 * (ed * ((es - 1) / z.im))) :=
          mul_le_mul_of_nonneg_left (mul_le_mul hsq e4 (by positivity) (by positivity)) (by positivity)
      _ = _ := by
          field_simp
  unfold trapezoid
  simp only [hFt, Nat.add_sub_cancel]
  have h4 : ∀ S : ℂ, S - ∑ i, w i / (z - p i) = (S - ∫ t in (0 : ℝ)..tt T, F (fun i => -I * w i) t)
      - ∑ i, w i / (z - p i) * Complex.exp (c i * tt T) := fun S => by
    rw [hint]
    ring
  rw [h4]
  refine (norm_sub_le _ _).trans (add_le_add ?_ htail)
  rw [← hadj, ← Finset.sum_sub_distrib, ← hM]
  refine (norm_sum_le _ _).trans ((Finset.sum_le_sum hstep).trans ?_)
  rw [← Finset.mul_sum, Finset.sum_range_sub', h0, mul_zero, neg_zero, Real.exp_zero]
  refine mul_le_of_le_one_right (by positivity) ?_
  linarith [Real.exp_pos (-(z.im * tt T))]

/-- The hypotheses of the theorems for smooth functions are met, e.g. by a parabola. -/
example : SmoothOn (fun t : ℝ => t ^ 2) (fun t => 2 * t) (fun _ => 2) 0 1 2 := by
  refine ⟨by fun_prop, fun t _ => ?_, fun t _ => ?_, fun t _ => by norm_num⟩
  · simpa using hasDerivAt_pow 2 t
  · simpa using (hasDerivAt_id t).const_mul 2

/-- A grid with growing steps as accepted by `tt2z_trapz_error`. -/
example : ∃ r, tt2zTrapz 3 (fun k => (k : ℝ) ^ 2) (fun k => -I * ∑ _i : Fin 1, 1 * Complex.exp (-I * (2 : ℝ) * ((k : ℝ) ^ 2 : ℝ))) I = .ok r ∧
    ‖r - ∑ _i : Fin 1, 1 / (I - (2 : ℝ))‖ ≤ (∑ _i : Fin 1, ‖(1 : ℂ)‖ * ‖I - (2 : ℝ)‖ ^ 2) * 3 ^ 2 * Real.exp (I.im * 3) / (12 * I.im)
        + (∑ _i : Fin 1, ‖(1 : ℂ)‖) * Real.exp (-(I.im * ((2 : ℕ) : ℝ) ^ 2)) / I.im :=
  tt2z_trapz_error (T := 2) two_ne_zero (tt := fun k => (k : ℝ) ^ 2) (by norm_num)
    (fun k _ => by push_cast; nlinarith [(Nat.cast_nonneg k : (0 : ℝ) ≤ k)])
    (fun k hk => by
      have : (k : ℝ) ≤ 1 := by exact_mod_cast Nat.lt_succ_iff.1 hk
      push_cast; nlinarith)
    (fun _ => 2) (fun _ => 1) (by simp)

end Gftool.Props
