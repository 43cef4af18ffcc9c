import Verif.Lemmas.Hermpade
import Verif.Lemmas.Linalg
import Mathlib.RingTheory.PowerSeries.WellKnown
import Mathlib.Tactic

/-!
# Properties C33-C35: (Hermite-)Padé approximants of Taylor series
-/

namespace Gftool.Props

open Gftool Model Spec Lemmas Polynomial Matrix

/-! ## Null vectors -/

/-- `_nullvec` returns a non-zero vector in the kernel. -/
theorem nullvec_correct (ext : LinalgExt ℂ) {n : ℕ} (mat : Matrix (Fin n) (Fin (n + 1)) ℂ) :
    mat *ᵥ nullvec ext mat = 0 ∧ nullvec ext mat ≠ 0 := by
  set Q := (ext.qr matᴴ).1 with hQ
  set R := (ext.qr matᴴ).2 with hR
  have hQR : Q * R = matᴴ := ext.qr_mul _
  have hmat : mat = Rᴴ * Qᴴ := by
    rw [← conjTranspose_mul, hQR, conjTranspose_conjTranspose]
  have hU : Qᴴ * Q = 1 := Matrix.mem_unitaryGroup_iff'.1 (ext.qr_unitary matᴴ)
  have hv : nullvec ext mat = Q *ᵥ Pi.single (Fin.last n) 1 := by
    rw [mulVec_single_one]
    rfl
  have hQv : Qᴴ *ᵥ nullvec ext mat = Pi.single (Fin.last n) 1 := by
    rw [hv, mulVec_mulVec, hU, one_mulVec]
  constructor
  · calc mat *ᵥ nullvec ext mat = Rᴴ *ᵥ (Qᴴ *ᵥ nullvec ext mat) := by
          rw [mulVec_mulVec, ← hmat]
      _ = 0 := by
          rw [hQv, mulVec_single_one]
          ext i
          simp only [col_apply, conjTranspose_apply, Pi.zero_apply, star_eq_zero]
          exact ext.qr_upper matᴴ (Fin.last n) i (by simp)
  · intro h0
    rw [h0, mulVec_zero] at hQv
    have := congrFun hQv (Fin.last n)
    simp at this

private lemma sqNorm_eq_zero {n : ℕ} {v : Fin n → ℂ} (h : sqNorm v ≤ 0) : v = 0 := by
  unfold sqNorm at h
  have h0 : ∑ i, ‖v i‖ ^ 2 = 0 := le_antisymm h (Finset.sum_nonneg fun i _ => by positivity)
  rw [Finset.sum_eq_zero_iff_of_nonneg fun i _ => by positivity] at h0
  ext i
  have := h0 i (Finset.mem_univ i)
  simpa using this

private lemma mulVec_insertNth {l n : ℕ} (mat : Matrix (Fin l) (Fin (n + 1)) ℂ) (f : Fin (n + 1))
    (x : ℂ) (v : Fin n → ℂ) :
    mat *ᵥ (f.insertNth (α := fun _ => ℂ) x v)
      = mat.submatrix id f.succAbove *ᵥ v - fun i => - mat i f * x := by
  ext i
  simp only [mulVec, dotProduct, Pi.sub_apply, submatrix_apply, id]
  rw [Fin.sum_univ_succAbove _ f]
  simp only [Fin.insertNth_apply_same, Fin.insertNth_apply_succAbove]
  ring

/-- `_nullvec_lst` minimises `|mat v|` among all vectors with `v[fix] = 1`, and raises `ValueError`
iff there is no such component. -/
theorem nullvec_lst_correct (ext : LinalgExt ℂ) {l n : ℕ} (mat : Matrix (Fin l) (Fin (n + 1)) ℂ) :
    (∀ fix, n + 1 ≤ fix → nullvecLst ext mat fix = .error .valueError) ∧
    ∀ fix : Fin (n + 1), ∃ v, nullvecLst ext mat fix = .ok v ∧ v fix = 1 ∧
      ∀ w : Fin (n + 1) → ℂ, w fix = 1 → sqNorm (mat *ᵥ v) ≤ sqNorm (mat *ᵥ w) := by
  constructor
  · intro fix h
    unfold nullvecLst
    rw [dif_neg (by omega)]
  · intro fix
    unfold nullvecLst
    rw [dif_pos fix.2]
    refine ⟨_, rfl, by simp, fun w hw => ?_⟩
    have hw' : w = fix.insertNth (α := fun _ => ℂ) 1 fun j => w (fix.succAbove j) := by
      rw [← hw]
      exact (Fin.insertNth_self_removeNth fix w).symm
    rw [hw', mulVec_insertNth, mulVec_insertNth]
    simp only [mul_one]
    exact ext.lstsq_min _ _ _

/-! ## C33: Padé approximants -/

private lemma toeplitz_top (an : ℕ → ℂ) (m i j : ℕ) :
    toeplitz (fun k => an (m + 1 + k)) (padeTop an m) i j
      = toeplitz an (fun _ => 0) (m + 1 + i) j := by
  unfold toeplitz padeTop
  by_cases h1 : j ≤ i
  · rw [if_pos h1, if_pos (by omega), show m + 1 + i - j = m + 1 + (i - j) by omega]
  · rw [if_neg h1]
    by_cases h2 : j - i ≤ m + 1
    · rw [if_pos h2, if_pos (by omega)]
      congr 1
      omega
    · rw [if_neg h2, if_neg (by omega)]

/-- Kernel vectors of the Toeplitz matrix are denominators. -/
lemma isPade_of_null (an : ℕ → ℂ) (m n : ℕ) (q : Fin (n + 1) → ℂ) (hq : q ≠ 0)
    (hnull : ∀ i < n, ∑ j : Fin (n + 1), toeplitz an (fun _ => 0) (m + 1 + i) j * q j = 0) :
    IsPade an m n (toPoly (padeNumer an m q)) (toPoly (List.ofFn q)) where
  num_deg := toPoly_natDegree_lt _ _ (by simp [padeNumer])
  den_deg := toPoly_natDegree_lt _ _ (by simp)
  den_ne := by
    intro h0
    apply hq
    ext j
    have := congrArg (coeff · (j : ℕ)) h0
    simp only [toPoly_coeff, getD_ofFn, coeff_zero] at this
    rwa [dif_pos j.2] at this
  order := by
    rw [PowerSeries.X_pow_dvd_iff]
    intro k hk
    rw [map_sub, coeff_toPoly_mul, Polynomial.coeff_coe, toPoly_coeff, padeNumer, getD_ofFn]
    by_cases h : k < m + 1
    · rw [dif_pos h, sub_self]
    · rw [dif_neg h, sub_zero]
      have := hnull (k - (m + 1)) (by omega)
      rwa [show m + 1 + (k - (m + 1)) = k by omega] at this

/-- C33: with the null vector (`fast=False`), `pade` succeeds whenever there are enough coefficients
and returns a Padé approximant of the requested degrees. -/
theorem herm_pade_correct (ext : LinalgExt ℂ) (text : ToeplitzExt) (L : ℕ) (an : ℕ → ℂ) (m n : ℕ)
    (hL : m + n + 1 ≤ L) :
    ∃ r, hermPade ext text L an m n false = .ok r ∧
      IsPade an m n (toPoly r.numer) (toPoly r.denom) := by
  unfold hermPade
  rw [if_neg (by omega)]
  by_cases hn : n = 0
  · rw [if_pos hn]
    subst hn
    refine ⟨_, rfl, toPoly_natDegree_lt _ _ (by simp), toPoly_natDegree_lt _ _ (by simp), ?_, ?_⟩
    · intro h0
      have := congrArg (coeff · 0) h0
      simp [toPoly_coeff] at this
    · rw [PowerSeries.X_pow_dvd_iff]
      intro k hk
      have h1 : toPoly [1] = 1 := by simp [toPoly]
      simp only
      rw [h1, Polynomial.coe_one, one_mul, map_sub, PowerSeries.coeff_mk, Polynomial.coeff_coe,
        toPoly_coeff, getD_ofFn, dif_pos (by omega), sub_self]
  · rw [if_neg hn]
    refine ⟨_, rfl, ?_⟩
    set mat : Matrix (Fin n) (Fin (n + 1)) ℂ := Matrix.of fun i j =>
      toeplitz (fun k => an (m + 1 + k)) (padeTop an m) i j with hmat
    obtain ⟨h1, h2⟩ := nullvec_correct ext mat
    refine isPade_of_null an m n _ h2 fun i hi => ?_
    have := congrFun h1 ⟨i, hi⟩
    simpa [mulVec, dotProduct, hmat, toeplitz_top] using this

/-- C33: the fast variant returns a Padé approximant, too, normalised such that the highest
coefficient of the denominator is one. -/
theorem herm_pade_fast_correct (ext : LinalgExt ℂ) (text : ToeplitzExt) (L : ℕ) (an : ℕ → ℂ)
    (m n : ℕ) (hn : n ≠ 0) (r : RatPol) (hr : hermPade ext text L an m n true = .ok r) :
    IsPade an m n (toPoly r.numer) (toPoly r.denom) ∧ (toPoly r.denom).coeff n = 1 := by
  unfold hermPade at hr
  split_ifs at hr with hL h2
  swap
  · exact absurd rfl h2
  simp only at hr
  rcases hsol : text.solve (n := n) (fun k => an (m + 1 + k)) (padeTop an m)
    (fun i => - padeTop an m (n - i)) with e | v
  · rw [hsol] at hr; cases hr
  · rw [hsol] at hr
    obtain rfl := Except.ok.inj hr
    have hlast : (Fin.snoc (α := fun _ => ℂ) v 1 : Fin (n + 1) → ℂ) (Fin.last n) = 1 := by simp
    refine ⟨isPade_of_null an m n _ ?_ fun i hi => ?_, ?_⟩
    · intro h0
      rw [h0] at hlast
      simp at hlast
    · have h1 := congrFun (text.sound _ _ _ _ hsol) ⟨i, hi⟩
      simp only [mulVec, dotProduct, of_apply, toeplitz_top] at h1
      rw [Fin.sum_univ_castSucc]
      simp only [Fin.snoc_castSucc, Fin.snoc_last, Fin.val_castSucc, Fin.val_last, mul_one]
      rw [h1, ← toeplitz_top]
      unfold toeplitz
      rw [if_neg (by omega)]
      ring
    · rw [toPoly_coeff, getD_ofFn, dif_pos (by omega)]
      exact hlast

/-- C33, error branch. -/
theorem herm_pade_error_iff (ext : LinalgExt ℂ) (text : ToeplitzExt) (L : ℕ) (an : ℕ → ℂ) (m n : ℕ)
    (e : Err) : hermPade ext text L an m n false = .error e ↔ e = .valueError ∧ L < m + n + 1 := by
  by_cases hL : L < m + n + 1
  · unfold hermPade
    rw [if_pos hL]
    constructor
    · intro h; exact ⟨(Except.error.inj h).symm, hL⟩
    · rintro ⟨rfl, _⟩; rfl
  · obtain ⟨r, hr, _⟩ := herm_pade_correct ext text L an m n (not_lt.1 hL)
    rw [hr]
    constructor
    · intro h; cases h
    · rintro ⟨_, h⟩; exact absurd h hL

/-- Every Padé approximant of the expansion of a rational function of these degrees is that
function. -/
lemma isPade_unique {a : ℕ → ℂ} {m n : ℕ} {p q P Q : ℂ[X]} (h : IsPade a m n p q)
    (hexp : IsExpansion a P Q) (hP : P.natDegree ≤ m) (hQ : Q.natDegree ≤ n) : q * P = p * Q := by
  have h1 : (PowerSeries.X : PowerSeries ℂ) ^ (m + n + 1)
      ∣ ((q * P - p * Q : ℂ[X]) : PowerSeries ℂ) := by
    have h2 : ((q * P - p * Q : ℂ[X]) : PowerSeries ℂ)
        = (Q : PowerSeries ℂ) * ((q : PowerSeries ℂ) * PowerSeries.mk a - (p : PowerSeries ℂ)) := by
      rw [Polynomial.coe_sub, Polynomial.coe_mul, Polynomial.coe_mul, ← hexp.2]
      ring
    rw [h2]
    exact h.order.mul_left _
  rw [PowerSeries.X_pow_dvd_iff] at h1
  rw [← sub_eq_zero]
  ext k
  rw [coeff_zero]
  by_cases hk : k < m + n + 1
  · have := h1 k hk
    rwa [Polynomial.coeff_coe] at this
  · apply coeff_eq_zero_of_natDegree_lt
    have h3 := natDegree_sub_le (q * P) (p * Q)
    have h4 : (q * P).natDegree ≤ m + n :=
      natDegree_mul_le.trans ((add_le_add h.den_deg hP).trans (by omega))
    have h5 : (p * Q).natDegree ≤ m + n :=
      natDegree_mul_le.trans (add_le_add h.num_deg hQ)
    have := max_le h4 h5
    omega

/-- C33: for the expansion of a rational function `P/Q` of the requested degrees, the result is that
function, wherever both are defined. -/
theorem herm_pade_exact (ext : LinalgExt ℂ) (text : ToeplitzExt) (L : ℕ) (an : ℕ → ℂ) (m n : ℕ)
    (hL : m + n + 1 ≤ L) (P Q : ℂ[X]) (hexp : IsExpansion an P Q) (hP : P.natDegree ≤ m)
    (hQ : Q.natDegree ≤ n) :
    ∃ r, hermPade ext text L an m n false = .ok r ∧
      ∀ z, polyval r.denom z ≠ 0 → Q.eval z ≠ 0 → r.eval z = P.eval z / Q.eval z := by
  obtain ⟨r, hr, hpade⟩ := herm_pade_correct ext text L an m n hL
  refine ⟨r, hr, fun z h1 h2 => ?_⟩
  have h3 := congrArg (eval z) (isPade_unique hpade hexp hP hQ)
  rw [eval_mul, eval_mul, toPoly_eval, toPoly_eval] at h3
  unfold RatPol.eval
  rw [div_eq_div_iff h1 h2]
  linear_combination -h3

/-- The geometric series `1/(1-z)` is an expansion of degrees `[0/1]`. -/
example : IsExpansion (fun _ => 1) 1 (1 - X) := by
  constructor
  · simp
  · have := PowerSeries.mk_one_mul_one_sub_eq_one ℂ
    simp only [Polynomial.coe_sub, Polynomial.coe_one, Polynomial.coe_X]
    rw [mul_comm]
    exact this

/-- The contract of the Toeplitz solver can be met. -/
example : Nonempty ToeplitzExt := ⟨{
  solve := fun {n} c r b => vecsolve (Matrix.of fun i j : Fin n => toeplitz c r i j) b
  sound := by
    intro n c r b x h
    unfold vecsolve at h
    split_ifs at h with hd
    obtain rfl := Except.ok.inj h
    rw [mulVec_mulVec, Matrix.mul_nonsing_inv _ (isUnit_iff_ne_zero.2 hd), one_mulVec] }⟩

/-! ### Least squares -/

/-- C33: `pade_lstsq` returns the denominator with constant term one for which the coefficients
`num_deg+1, …, L-1` of `q a - p` are smallest (least squares); the coefficients up to `num_deg`
vanish. -/
theorem pade_lstsq_optimal (ext : LinalgExt ℂ) (L : ℕ) (an : ℕ → ℂ) (m n : ℕ) (hn : n ≠ 0)
    (hL : m + n + 1 ≤ L) :
    ∃ r, padeLstsq ext L an m n = .ok r ∧ (toPoly r.numer).natDegree ≤ m ∧
      (toPoly r.denom).natDegree ≤ n ∧ (toPoly r.denom).coeff 0 = 1 ∧
      (∀ k ≤ m, PowerSeries.coeff k ((toPoly r.denom : PowerSeries ℂ) * PowerSeries.mk an)
        = (toPoly r.numer).coeff k) ∧
      ∀ q : ℂ[X], q.natDegree ≤ n → q.coeff 0 = 1 →
        ∑ k ∈ Finset.Ico (m + 1) L,
            ‖PowerSeries.coeff k ((toPoly r.denom : PowerSeries ℂ) * PowerSeries.mk an)‖ ^ 2
          ≤ ∑ k ∈ Finset.Ico (m + 1) L,
            ‖PowerSeries.coeff k ((q : PowerSeries ℂ) * PowerSeries.mk an)‖ ^ 2 := by
  unfold padeLstsq
  rw [if_neg (by omega), if_neg hn]
  simp only
  set mat : Matrix (Fin (L - (m + 1))) (Fin (n + 1)) ℂ := Matrix.of fun i j =>
    toeplitz (fun k => an (m + 1 + k)) (padeTop an m) i j with hmat
  obtain ⟨v, hv, hv0, hmin⟩ := (nullvec_lst_correct ext mat).2 0
  simp only [Fin.val_zero] at hv
  rw [hv]
  have hnorm : ∀ w : Fin (n + 1) → ℂ, sqNorm (mat *ᵥ w) = ∑ k ∈ Finset.Ico (m + 1) L,
      ‖PowerSeries.coeff k ((toPoly (List.ofFn w) : PowerSeries ℂ) * PowerSeries.mk an)‖ ^ 2 := by
    intro w
    rw [Finset.sum_Ico_eq_sum_range, Finset.sum_range]
    unfold sqNorm
    refine Finset.sum_congr rfl fun i _ => ?_
    rw [coeff_toPoly_mul]
    simp only [mulVec, dotProduct, hmat, of_apply, toeplitz_top]
  refine ⟨_, rfl, toPoly_natDegree_lt _ _ (by simp [padeNumer]), toPoly_natDegree_lt _ _ (by simp),
    ?_, ?_, ?_⟩
  · rw [toPoly_coeff, getD_ofFn, dif_pos (by omega)]
    exact hv0
  · intro k hk
    rw [coeff_toPoly_mul, toPoly_coeff, padeNumer, getD_ofFn, dif_pos (by omega)]
  · intro q hq hq0
    have hqeq : q = toPoly (List.ofFn fun j : Fin (n + 1) => q.coeff j) := by
      ext k
      rw [toPoly_coeff, getD_ofFn]
      split_ifs with h
      · rfl
      · exact coeff_eq_zero_of_natDegree_lt (by omega)
    have := hmin (fun j => q.coeff j) (by simpa using hq0)
    rw [hnorm, hnorm, ← hqeq] at this
    exact this

/-- C33: `pade_lstsq` is exact for rational functions of the requested degrees. -/
theorem pade_lstsq_exact (ext : LinalgExt ℂ) (L : ℕ) (an : ℕ → ℂ) (m n : ℕ) (hn : n ≠ 0)
    (hL : m + n + 1 ≤ L) (P Q : ℂ[X]) (hexp : IsExpansion an P Q) (hP : P.natDegree ≤ m)
    (hQ : Q.natDegree ≤ n) :
    ∃ r, padeLstsq ext L an m n = .ok r ∧ polyval r.denom 0 = 1 ∧
      ∀ z, polyval r.denom z ≠ 0 → Q.eval z ≠ 0 → r.eval z = P.eval z / Q.eval z := by
  obtain ⟨r, hr, h1, h2, h3, h4, h5⟩ := pade_lstsq_optimal ext L an m n hn hL
  have hden0 : polyval r.denom 0 = 1 := by
    rw [← toPoly_eval, ← coeff_zero_eq_eval_zero, h3]
  refine ⟨r, hr, hden0, ?_⟩
  have h6 := h5 (C (Q.coeff 0)⁻¹ * Q) ((natDegree_C_mul_le _ _).trans hQ)
    (by rw [coeff_C_mul, inv_mul_cancel₀ hexp.1])
  have h7 : ∑ k ∈ Finset.Ico (m + 1) L, ‖PowerSeries.coeff k
      (((C (Q.coeff 0)⁻¹ * Q : ℂ[X]) : PowerSeries ℂ) * PowerSeries.mk an)‖ ^ 2 = 0 := by
    apply Finset.sum_eq_zero
    intro k hk
    rw [Polynomial.coe_mul, mul_assoc, hexp.2, ← Polynomial.coe_mul, Polynomial.coeff_coe,
      coeff_C_mul, coeff_eq_zero_of_natDegree_lt
        (hP.trans_lt (by have := (Finset.mem_Ico.1 hk).1; omega))]
    simp
  rw [h7] at h6
  have h8 : ∀ k, m + 1 ≤ k → k < L →
      PowerSeries.coeff k ((toPoly r.denom : PowerSeries ℂ) * PowerSeries.mk an) = 0 := by
    have h9 := le_antisymm h6 (Finset.sum_nonneg fun i _ => by positivity)
    rw [Finset.sum_eq_zero_iff_of_nonneg fun i _ => by positivity] at h9
    intro k hk1 hk2
    have := h9 k (Finset.mem_Ico.2 ⟨hk1, hk2⟩)
    simpa using this
  have hpade : IsPade an m n (toPoly r.numer) (toPoly r.denom) := by
    refine ⟨h1, h2, ?_, ?_⟩
    · intro h0
      rw [h0] at h3
      simp at h3
    · rw [PowerSeries.X_pow_dvd_iff]
      intro k hk
      rw [map_sub, Polynomial.coeff_coe]
      by_cases hkm : k ≤ m
      · rw [h4 k hkm, sub_self]
      · rw [h8 k (by omega) (by omega),
          coeff_eq_zero_of_natDegree_lt (h1.trans_lt (by omega)), sub_zero]
  intro z h1 h2
  have h3 := congrArg (eval z) (isPade_unique hpade hexp hP hQ)
  rw [eval_mul, eval_mul, toPoly_eval, toPoly_eval] at h3
  unfold RatPol.eval
  rw [div_eq_div_iff h1 h2]
  linear_combination -h3

/-- C33, disagreement: for `den_deg = 0`, `pade_lstsq` ignores the requested degree of the
numerator and returns all given coefficients. -/
theorem pade_lstsq_den_zero (ext : LinalgExt ℂ) (L : ℕ) (an : ℕ → ℂ) (m : ℕ) (hL : m + 1 < L)
    (han : an (m + 1) ≠ 0) :
    ∃ r, padeLstsq ext L an m 0 = .ok r ∧ m < (toPoly r.numer).natDegree := by
  unfold padeLstsq
  rw [if_neg (by omega), if_pos rfl]
  refine ⟨_, rfl, ?_⟩
  apply Nat.lt_of_succ_le
  apply le_natDegree_of_ne_zero
  rw [toPoly_coeff, getD_ofFn, dif_pos (by omega)]
  exact han

/-! ## C35: robust version -/

/-- C35, disagreement: for `num_deg = 0` (and enough coefficients) `pader` always returns the zero
function, whatever the series: the test for a vanishing function looks at `an[:num_deg]` instead of
`an[:num_deg+1]`. -/
theorem pader_num_zero_wrong (ext : LinalgExt ℂ) (svd : SvdVals) (L : ℕ) (an : ℕ → ℂ) (n : ℕ)
    (rcond : ℝ) (hL : n + 1 ≤ L) :
    ∃ r, pader ext svd L an 0 n rcond = .ok r ∧ ∀ z, r.eval z = 0 := by
  unfold pader
  rw [if_neg (by omega)]
  simp only
  rw [if_pos (fun i hi => by omega)]
  exact ⟨_, rfl, fun z => by simp [RatPol.eval, polyval]⟩

/-- C35, disagreement: for `den_deg = 0` `pader` raises `ValueError` for every series that is not
taken for zero, instead of returning the Taylor polynomial: the numerator is `an[:den_deg]`, which
is empty. -/
theorem pader_den_zero_fails (ext : LinalgExt ℂ) (svd : SvdVals) (L : ℕ) (an : ℕ → ℂ) (m : ℕ)
    (rcond : ℝ) (hL : m + 1 ≤ L)
    (han : ∃ i < m, rcond * Real.sqrt (∑ i ∈ Finset.range (m + 1), ‖an i‖ ^ 2) < ‖an i‖) :
    pader ext svd L an m 0 rcond = .error .valueError := by
  unfold pader
  rw [if_neg (by omega)]
  simp only
  rw [if_neg]
  · rw [paderLoop, if_pos rfl]
    simp [stripCoeffs, argmaxNonzero, bind, Except.bind]
  · push Not
    exact han

lemma argmaxNonzero_spec {l : List ℂ} {i : ℕ} (h : argmaxNonzero l = .ok i) :
    (∀ j < i, l.getD j 0 = 0) ∧ ((∃ j, l.getD j 0 ≠ 0) → l.getD i 0 ≠ 0) ∧ l ≠ [] ∧
      i < l.length := by
  unfold argmaxNonzero at h
  split_ifs at h with h0
  have hi := Except.ok.inj h
  have hpos : 0 < l.length := List.length_pos_iff.2 h0
  rcases hf : l.findIdx? (fun x => decide (x ≠ 0)) with _ | k
  · rw [hf] at hi
    simp only [Option.getD_none] at hi
    subst hi
    refine ⟨by omega, ?_, h0, hpos⟩
    rintro ⟨j, hj⟩
    rw [List.findIdx?_eq_none_iff] at hf
    exfalso
    by_cases hjl : j < l.length
    · have := hf l[j] (List.getElem_mem hjl)
      rw [getD_of_lt _ hjl] at hj
      simp at this
      exact hj this
    · exact hj (getD_of_le _ (not_lt.1 hjl))
  · rw [hf] at hi
    simp only [Option.getD_some] at hi
    subst hi
    rw [List.findIdx?_eq_some_iff_getElem] at hf
    obtain ⟨hk, h1, h2⟩ := hf
    refine ⟨fun j hj => ?_, fun _ => ?_, h0, hk⟩
    · have := h2 j hj
      rw [getD_of_lt _ (hj.trans hk)]
      simpa using this
    · rw [getD_of_lt _ hk]
      simpa using h1

private lemma getD_dropTrailing {l : List ℂ} {t : ℕ} (h : argmaxNonzero l.reverse = .ok t) (i : ℕ) :
    (dropTrailing l t).getD i 0 = l.getD i 0 := by
  obtain ⟨h1, -, -, hlt⟩ := argmaxNonzero_spec h
  unfold dropTrailing
  split_ifs with h0
  · by_cases hi : i < l.length - t
    · simp only [List.getD_eq_getElem?_getD]
      rw [List.getElem?_take_of_lt hi]
    · rw [getD_of_le _ (by rw [List.length_take]; omega)]
      by_cases hi' : i < l.length
      · have := h1 (l.length - 1 - i) (by omega)
        rw [getD_of_lt _ (by rw [List.length_reverse]; omega), List.getElem_reverse] at this
        rw [getD_of_lt _ hi']
        simp only [show l.length - 1 - (l.length - 1 - i) = i by omega] at this
        exact this.symm
      · rw [getD_of_le _ (not_lt.1 hi')]
  · rfl

/-- Removing superfluous zeros does not change the quotient: a common power of `x` is cancelled. -/
lemma stripCoeffs_spec {p q : List ℂ} {r : RatPol} (hr : stripCoeffs p q = .ok r)
    (hp : ∀ i, (∀ j ≤ i, q.getD j 0 = 0) → p.getD i 0 = 0) :
    ∃ s, toPoly p = X ^ s * toPoly r.numer ∧ toPoly q = X ^ s * toPoly r.denom ∧
      ((∃ j, q.getD j 0 ≠ 0) → (toPoly r.denom).coeff 0 ≠ 0) := by
  unfold stripCoeffs at hr
  simp only [bind, Except.bind] at hr
  rcases h1 : argmaxNonzero q with e | s
  · rw [h1] at hr; cases hr
  rw [h1] at hr
  simp only at hr
  rcases h2 : argmaxNonzero (q.drop s).reverse with e | tq
  · rw [h2] at hr; cases hr
  rw [h2] at hr
  simp only at hr
  rcases h3 : argmaxNonzero (p.drop s).reverse with e | tp
  · rw [h3] at hr; cases hr
  rw [h3] at hr
  obtain rfl := Except.ok.inj hr
  obtain ⟨hz, hne, -, -⟩ := argmaxNonzero_spec h1
  refine ⟨s, ?_, ?_, fun h => ?_⟩
  · ext k
    rw [coeff_X_pow_mul', toPoly_coeff]
    split_ifs with hk
    · rw [toPoly_coeff, getD_dropTrailing h3]
      simp only [List.getD_eq_getElem?_getD, List.getElem?_drop]
      rw [show s + (k - s) = k by omega]
    · exact hp k fun j hj => hz j (by omega)
  · ext k
    rw [coeff_X_pow_mul', toPoly_coeff]
    split_ifs with hk
    · rw [toPoly_coeff, getD_dropTrailing h2]
      simp only [List.getD_eq_getElem?_getD, List.getElem?_drop]
      rw [show s + (k - s) = k by omega]
    · exact hz k (by omega)
  · rw [toPoly_coeff]
    simp only
    rw [getD_dropTrailing h2]
    have := hne h
    simpa only [List.getD_eq_getElem?_getD, List.getElem?_drop, add_zero] using this

lemma pade_numer_zero (an : ℕ → ℂ) (m : ℕ) {n : ℕ} (q : Fin n → ℂ) (i : ℕ)
    (h : ∀ j ≤ i, (List.ofFn q).getD j 0 = 0) : (padeNumer an m q).getD i 0 = 0 := by
  unfold padeNumer
  rw [getD_ofFn]
  split_ifs with hi
  · apply Finset.sum_eq_zero
    intro j _
    by_cases hj : (j : ℕ) ≤ i
    · have := h j hj
      rw [getD_ofFn, dif_pos j.2] at this
      rw [this, mul_zero]
    · simp [toeplitz, hj]
  · rfl

private lemma paderLoop_spec (ext : LinalgExt ℂ) (svd : SvdVals) (an : ℕ → ℂ) (rcond : ℝ) (n : ℕ) :
    ∀ m p q, paderLoop ext svd an rcond m n = .ok (p, q) →
      (p = [] ∧ q = [1] ∧ (n ≠ 0 → paderRho svd an rcond m n ≠ n)) ∨
      ∃ m' n', ∃ v : Fin (n' + 1) → ℂ, n' ≤ n ∧ m' + n = m + n' ∧ n' ≠ 0 ∧
        p = padeNumer an m' v ∧ q = List.ofFn v ∧
        IsPade an m' n' (toPoly p) (toPoly q) ∧
        (paderRho svd an rcond m n = n → m' = m ∧ n' = n) := by
  induction n using Nat.strong_induction_on with
  | _ n ih =>
    intro m p q h
    rw [paderLoop] at h
    simp only at h
    by_cases hn : n = 0
    · rw [if_pos hn] at h
      have := Except.ok.inj h
      left
      rw [hn] at this
      simp at this
      exact ⟨this.1, this.2.symm, fun h => absurd hn h⟩
    rw [if_neg hn] at h
    split_ifs at h with h1 h2
    · rcases ih _ h1 _ p q h with ⟨rfl, rfl, _⟩ | ⟨m', n', v, h3, h4, h5, h6, h7, h8, h9⟩
      · exact Or.inl ⟨rfl, rfl, fun _ => h1.ne⟩
      · exact Or.inr ⟨m', n', v, by omega, by omega, h5, h6, h7, h8, fun h => absurd h1 (by omega)⟩
    · right
      obtain ⟨rfl, rfl⟩ := Prod.mk.injEq .. ▸ Except.ok.inj h
      obtain ⟨h4, h5⟩ := nullvec_correct ext (paderMat an m n)
      refine ⟨m, n, _, le_rfl, rfl, hn, rfl, rfl, ?_, fun _ => ⟨rfl, rfl⟩⟩
      refine isPade_of_null an m n _ h5 fun i hi => ?_
      have := congrFun h4 ⟨i, hi⟩
      simpa [mulVec, dotProduct, paderMat] using this

/-- C35, the proved part: if `pader` returns, then either the zero function because all
`an[:num_deg]` are below the tolerance, or, up to a cancelled power of `x`, a Padé approximant of
some reduced degrees `[num_deg - δ / den_deg - δ]` with a denominator that does not vanish at
zero. Missing: it does not return for `den_deg = 0` (nor when everything is reduced), and the zero
function can be wrong (theorems `pader_den_zero_fails` and `pader_num_zero_wrong`). -/
theorem pader_partial (ext : LinalgExt ℂ) (svd : SvdVals) (L : ℕ) (an : ℕ → ℂ) (m n : ℕ) (rcond : ℝ)
    (r : RatPol) (hr : pader ext svd L an m n rcond = .ok r) :
    ((∀ i < m, ‖an i‖ ≤ rcond * Real.sqrt (∑ i ∈ Finset.range (m + n + 1), ‖an i‖ ^ 2)) ∧
      ∀ z, r.eval z = 0) ∨
    ∃ s m' n', n' ≤ n ∧ m' + n = m + n' ∧
      IsPade an m' n' (X ^ s * toPoly r.numer) (X ^ s * toPoly r.denom) ∧
      (toPoly r.denom).coeff 0 ≠ 0 ∧
      (paderRho svd an rcond m n = n → m' = m ∧ n' = n) := by
  unfold pader at hr
  split_ifs at hr with hL
  simp only at hr
  split_ifs at hr with hsmall
  · left
    obtain rfl := Except.ok.inj hr
    exact ⟨hsmall, fun z => by simp [RatPol.eval, polyval]⟩
  · right
    rcases hloop : paderLoop ext svd an rcond m n with e | ⟨p, q⟩
    · rw [hloop] at hr; cases hr
    rw [hloop] at hr
    simp only at hr
    rcases paderLoop_spec ext svd an rcond n m p q hloop with
      ⟨rfl, rfl, -⟩ | ⟨m', n', v, h1, h2, h3, rfl, rfl, h6, h7⟩
    · exfalso
      simp [stripCoeffs, argmaxNonzero, bind, Except.bind] at hr
    · obtain ⟨s, h8, h9, h10⟩ := stripCoeffs_spec hr (pade_numer_zero an m' v)
      refine ⟨s, m', n', h1, h2, ?_, h10 ?_, h7⟩
      · rw [← h8, ← h9]
        exact h6
      · by_contra hall
        push Not at hall
        apply h6.den_ne
        ext k
        rw [toPoly_coeff, hall k, coeff_zero]

/-- C35: for the expansion of a rational function of the requested degrees, if no degree is
reduced, the result of `pader` is that function. -/
theorem pader_exact_partial (ext : LinalgExt ℂ) (svd : SvdVals) (L : ℕ) (an : ℕ → ℂ) (m n : ℕ)
    (rcond : ℝ) (r : RatPol) (hr : pader ext svd L an m n rcond = .ok r)
    (hbig : ∃ i < m, rcond * Real.sqrt (∑ i ∈ Finset.range (m + n + 1), ‖an i‖ ^ 2) < ‖an i‖)
    (hrho : paderRho svd an rcond m n = n) (P Q : ℂ[X]) (hexp : IsExpansion an P Q)
    (hP : P.natDegree ≤ m) (hQ : Q.natDegree ≤ n) (z : ℂ) (h1 : polyval r.denom z ≠ 0)
    (h2 : Q.eval z ≠ 0) : r.eval z = P.eval z / Q.eval z := by
  rcases pader_partial ext svd L an m n rcond r hr with ⟨h, -⟩ | ⟨s, m', n', -, -, hpade, -, h⟩
  · obtain ⟨i, hi, hlt⟩ := hbig
    exact absurd (h i hi) (not_le.2 hlt)
  · obtain ⟨rfl, rfl⟩ := h hrho
    have h3 := isPade_unique hpade hexp hP hQ
    have h4 : toPoly r.denom * P = toPoly r.numer * Q := by
      apply mul_left_cancel₀ (pow_ne_zero s (X_ne_zero (R := ℂ)))
      linear_combination h3
    have h5 := congrArg (eval z) h4
    rw [eval_mul, eval_mul, toPoly_eval, toPoly_eval] at h5
    unfold RatPol.eval
    rw [div_eq_div_iff h1 h2]
    linear_combination -h5

/-- C35: without reduction of the degrees `pader` does return. -/
theorem pader_returns_partial (ext : LinalgExt ℂ) (svd : SvdVals) (L : ℕ) (an : ℕ → ℂ) (m n : ℕ)
    (rcond : ℝ) (hL : m + n + 1 ≤ L) (hn : n ≠ 0) (hrc : 0 ≤ rcond)
    (hrho : paderRho svd an rcond m n = n) : ∃ r, pader ext svd L an m n rcond = .ok r := by
  unfold pader
  rw [if_neg (by omega)]
  simp only
  split_ifs with hsmall
  · exact ⟨_, rfl⟩
  · push Not at hsmall
    have hloop : paderLoop ext svd an rcond m n = .ok (padeNumer an m (nullvec ext (paderMat an m n)),
        List.ofFn (nullvec ext (paderMat an m n))) := by
      rw [paderLoop, if_neg hn]
      simp only
      rw [dif_neg (by omega)]
    rw [hloop]
    simp only
    have hpade : IsPade an m n (toPoly (padeNumer an m (nullvec ext (paderMat an m n))))
        (toPoly (List.ofFn (nullvec ext (paderMat an m n)))) := by
      obtain ⟨h4, h5⟩ := nullvec_correct ext (paderMat an m n)
      refine isPade_of_null an m n _ h5 fun i hi => ?_
      have := congrFun h4 ⟨i, hi⟩
      simpa [mulVec, dotProduct, paderMat] using this
    set p := padeNumer an m (nullvec ext (paderMat an m n)) with hp
    set q := List.ofFn (nullvec ext (paderMat an m n)) with hq
    have hqlen : q.length = n + 1 := by simp [hq]
    have hplen : p.length = m + 1 := by simp [hp, padeNumer]
    have hqne : ∃ j, q.getD j 0 ≠ 0 := by
      by_contra hall
      push Not at hall
      apply hpade.den_ne
      ext k
      rw [toPoly_coeff, hall k, coeff_zero]
    have harg : ∀ l : List ℂ, l ≠ [] → ∃ i, argmaxNonzero l = .ok i := by
      intro l hl
      unfold argmaxNonzero
      rw [if_neg hl]
      exact ⟨_, rfl⟩
    obtain ⟨s, hs⟩ := harg q (by rintro h; rw [h] at hqlen; simp at hqlen)
    obtain ⟨hs1, hs2, -, hs3⟩ := argmaxNonzero_spec hs
    -- the first non-zero coefficient of the series
    have hex : ∃ i, an i ≠ 0 := by
      obtain ⟨i, hi, h⟩ := hsmall
      refine ⟨i, ?_⟩
      intro h0
      rw [h0, norm_zero] at h
      have : 0 ≤ rcond * Real.sqrt (∑ i ∈ Finset.range (m + n + 1), ‖an i‖ ^ 2) := by positivity
      linarith
    classical
    set k := Nat.find hex with hk
    have hk1 : an k ≠ 0 := Nat.find_spec hex
    have hk2 : ∀ j < k, an j = 0 := fun j hj => by
      have := Nat.find_min hex hj
      push Not at this
      exact this
    have hkm : k < m := by
      obtain ⟨i, hi, h⟩ := hsmall
      refine lt_of_le_of_lt (Nat.find_min' hex ?_) hi
      intro h0
      rw [h0, norm_zero] at h
      have : 0 ≤ rcond * Real.sqrt (∑ i ∈ Finset.range (m + n + 1), ‖an i‖ ^ 2) := by positivity
      linarith
    have hsm : s ≤ m := by
      by_contra hsm
      have hcoef : PowerSeries.coeff (s + k) ((toPoly q : PowerSeries ℂ) * PowerSeries.mk an)
          = q.getD s 0 * an k := by
        rw [PowerSeries.coeff_mul, Finset.sum_eq_single (s, k)]
        · simp [Polynomial.coeff_coe, toPoly_coeff]
        · rintro ⟨i, j⟩ hij hne
          have hsum := Finset.mem_antidiagonal.1 hij
          simp only at hsum
          rw [Polynomial.coeff_coe, toPoly_coeff, PowerSeries.coeff_mk]
          simp only
          rcases lt_trichotomy i s with h | h | h
          · rw [hs1 i h, zero_mul]
          · exact absurd (Prod.ext h (by simp; omega)) hne
          · rw [hk2 j (by omega), mul_zero]
        · intro h
          exact absurd (by simp) h
      have h1 := (PowerSeries.X_pow_dvd_iff.1 hpade.order) (s + k) (by omega)
      rw [map_sub, hcoef, Polynomial.coeff_coe, toPoly_coeff, getD_of_le p (by omega),
        sub_zero] at h1
      exact mul_ne_zero (hs2 hqne) hk1 h1
    obtain ⟨tq, htq⟩ := harg (q.drop s).reverse (by
      intro h; have := congrArg List.length h; simp at this; omega)
    obtain ⟨tp, htp⟩ := harg (p.drop s).reverse (by
      intro h; have := congrArg List.length h; simp at this; omega)
    unfold stripCoeffs
    simp only [bind, Except.bind, hs, htq, htp]
    exact ⟨_, rfl⟩

/-! ## C34: quadratic Hermite-Padé approximants -/

lemma herm2_sum (an : ℕ → ℂ) (L pDeg qDeg rDeg k : ℕ) (hk : k < L)
    (qr : Fin (qDeg + rDeg + 1 + 1) → ℂ) :
    ∑ j : Fin (qDeg + rDeg + 1 + 1), herm2Row an L qDeg k j * qr j
      = PowerSeries.coeff k ((toPoly (herm2Result an L pDeg qDeg rDeg qr).q : PowerSeries ℂ)
          * PowerSeries.mk an)
        + PowerSeries.coeff k ((toPoly (herm2Result an L pDeg qDeg rDeg qr).r : PowerSeries ℂ)
          * (PowerSeries.mk an * PowerSeries.mk an)) := by
  simp only [herm2Result]
  rw [coeff_toPoly_mul, coeff_sq_toeplitz _ _ L k hk]
  have h := Fin.sum_univ_add (a := qDeg + 1) (b := rDeg + 1)
    (fun j : Fin (qDeg + 1 + (rDeg + 1)) =>
      herm2Row an L qDeg k j * qr ⟨j, by have := j.2; omega⟩)
  have h2 : ∑ j : Fin (qDeg + rDeg + 1 + 1), herm2Row an L qDeg k j * qr j
      = ∑ j : Fin (qDeg + 1 + (rDeg + 1)),
          herm2Row an L qDeg k j * qr ⟨j, by have := j.2; omega⟩ := by
    apply Fintype.sum_equiv (finCongr (by omega))
    intro j
    rfl
  rw [h2, h]
  congr 1
  · refine Finset.sum_congr rfl fun j _ => ?_
    simp [herm2Row, fullAmat, j.2]
  · refine Finset.sum_congr rfl fun j _ => ?_
    simp [herm2Row]
    intro h; omega

private lemma isHermite2_of_null (an : ℕ → ℂ) (L pDeg qDeg rDeg : ℕ)
    (hL : pDeg + qDeg + rDeg + 2 ≤ L) (qr : Fin (qDeg + rDeg + 1 + 1) → ℂ) (hqr : qr ≠ 0)
    (hnull : ∀ i, pDeg + 1 + i < pDeg + qDeg + rDeg + 2 →
      ∑ j : Fin (qDeg + rDeg + 1 + 1), herm2Row an L qDeg (pDeg + 1 + i) j * qr j = 0) :
    IsHermite2 an pDeg qDeg rDeg (toPoly (herm2Result an L pDeg qDeg rDeg qr).p)
      (toPoly (herm2Result an L pDeg qDeg rDeg qr).q)
      (toPoly (herm2Result an L pDeg qDeg rDeg qr).r) where
  p_deg := toPoly_natDegree_lt _ _ (by simp [herm2Result])
  q_deg := toPoly_natDegree_lt _ _ (by simp [herm2Result])
  r_deg := toPoly_natDegree_lt _ _ (by simp [herm2Result])
  ne := by
    by_contra h
    push Not at h
    obtain ⟨h1, h2⟩ := h
    apply hqr
    ext j
    by_cases hj : (j : ℕ) < qDeg + 1
    · have := congrArg (coeff · (j : ℕ)) h1
      simp only [herm2Result, toPoly_coeff, getD_ofFn, coeff_zero] at this
      rwa [dif_pos hj] at this
    · have := congrArg (coeff · ((j : ℕ) - (qDeg + 1))) h2
      simp only [herm2Result, toPoly_coeff, getD_ofFn, coeff_zero] at this
      rw [dif_pos (by have := j.2; omega)] at this
      rw [Pi.zero_apply, ← this]
      congr 1
      ext
      simp
      omega
  order := by
    rw [PowerSeries.X_pow_dvd_iff]
    intro k hk
    rw [map_add, map_add, add_assoc, ← herm2_sum an L pDeg qDeg rDeg k (by omega),
      Polynomial.coeff_coe, toPoly_coeff]
    simp only [herm2Result]
    rw [getD_ofFn]
    by_cases h : k < pDeg + 1
    · rw [dif_pos h]
      ring
    · rw [dif_neg h, zero_add]
      have := hnull (k - (pDeg + 1)) (by omega)
      rwa [show pDeg + 1 + (k - (pDeg + 1)) = k by omega] at this

/-- C34: `hermite2` succeeds iff there are enough coefficients (else `ValueError`) and returns a
quadratic Hermite-Padé approximant of the requested degrees. -/
theorem hermite2_correct (ext : LinalgExt ℂ) (L : ℕ) (an : ℕ → ℂ) (np nq nr : ℕ) :
    (np + nq + nr + 2 ≤ L → ∃ h, hermite2 ext L an np nq nr = .ok h ∧
      IsHermite2 an np nq nr (toPoly h.p) (toPoly h.q) (toPoly h.r)) ∧
    (L < np + nq + nr + 2 → hermite2 ext L an np nq nr = .error .valueError) := by
  unfold hermite2
  constructor
  · intro hL
    simp only
    rw [if_neg (by omega)]
    refine ⟨_, rfl, ?_⟩
    obtain ⟨h1, h2⟩ := nullvec_correct ext (Matrix.of fun (i : Fin (nq + nr + 1))
      (j : Fin (nq + nr + 1 + 1)) => herm2Row an (nr + nq + np + 2) nq (np + 1 + i) j)
    refine isHermite2_of_null an (nr + nq + np + 2) np nq nr (by omega) _ h2 fun i hi => ?_
    have := congrFun h1 ⟨i, by omega⟩
    simpa [mulVec, dotProduct] using this
  · intro hL
    simp only
    rw [if_pos (by omega)]

/-- C34: a quadratic Hermite-Padé approximant that `hermite2_lstsq` returns for data that admit one
with `qr[fix] ≠ 0` for all `L` coefficients is one (in particular for `L = np+nq+nr+2` with a
suitable `fix`). -/
theorem hermite2_lstsq_correct (ext : LinalgExt ℂ) (L : ℕ) (an : ℕ → ℂ) (np nq nr : ℕ)
    (fix : Fin (nq + nr + 1 + 1)) (hL : np + nq + nr + 2 ≤ L) (han : ∃ i < L, an i ≠ 0)
    (w : Fin (nq + nr + 1 + 1) → ℂ) (hw : w fix = 1)
    (hexact : ∀ k, np < k → k < L → PowerSeries.coeff k
      ((toPoly (List.ofFn fun i : Fin (nq + 1) => w ⟨i, by omega⟩) : PowerSeries ℂ)
          * PowerSeries.mk an
        + (toPoly (List.ofFn fun i : Fin (nr + 1) => w ⟨nq + 1 + i, by omega⟩) : PowerSeries ℂ)
          * (PowerSeries.mk an * PowerSeries.mk an)) = 0) :
    ∃ h, hermite2Lstsq ext L an np nq nr fix = .ok h ∧
      IsHermite2 an np nq nr (toPoly h.p) (toPoly h.q) (toPoly h.r) := by
  unfold hermite2Lstsq
  rw [if_neg (by omega), if_neg (by push Not; exact han)]
  simp only
  set lower : Matrix (Fin (L - (np + 1))) (Fin (nq + nr + 1 + 1)) ℂ :=
    Matrix.of fun i j => herm2Row an L nq (np + 1 + i) j with hlower
  obtain ⟨v, hv, hv1, hmin⟩ := (nullvec_lst_correct ext lower).2 fix
  rw [hv]
  refine ⟨_, rfl, ?_⟩
  have hw0 : lower *ᵥ w = 0 := by
    ext i
    have h1 := hexact (np + 1 + i) (by omega) (by have := i.2; omega)
    rw [map_add] at h1
    have h2 := herm2_sum an L np nq nr (np + 1 + i) (by have := i.2; omega) w
    simp only [herm2Result] at h2
    rw [← h2] at h1
    simpa [mulVec, dotProduct, hlower] using h1
  have hv0 : lower *ᵥ v = 0 := by
    apply sqNorm_eq_zero
    refine (hmin w hw).trans ?_
    rw [hw0]
    simp [sqNorm]
  refine isHermite2_of_null an L np nq nr hL v ?_ fun i hi => ?_
  · intro h0
    rw [h0] at hv1
    simp at hv1
  · have := congrFun hv0 ⟨i, by omega⟩
    simpa [mulVec, dotProduct, hlower] using this

private lemma sqrt_sq (x : ℂ) : (x ^ (1 / 2 : ℂ)) * (x ^ (1 / 2 : ℂ)) = x := by
  rw [← sq, one_div]
  exact_mod_cast Complex.cpow_nat_inv_pow x (n := 2) (by norm_num)

/-- C34: at every point with `r(z) ≠ 0`, `eval_branches` returns the two solutions of
`p + q F + r F² = 0`, with multiplicities: `r (X - F₊)(X - F₋) = r X² + q X + p`. -/
theorem eval_branches_correct (h : Herm2) (z : ℂ) (hr : polyval h.r z ≠ 0) :
    ∃ fp fm, evalBranches h false z = .ok (some (fp, fm)) ∧
      ∀ x, polyval h.r z * (x - fp) * (x - fm)
        = polyval h.p z + polyval h.q z * x + polyval h.r z * x ^ 2 := by
  unfold evalBranches
  simp only [Bool.false_eq_true, if_false]
  rw [if_neg hr]
  refine ⟨_, _, rfl, ?_⟩
  generalize polyval h.p z = P at *
  generalize polyval h.q z = Q at *
  generalize polyval h.r z = R at *
  have hd := sqrt_sq (Q ^ 2 - 4 * P * R)
  generalize (Q ^ 2 - 4 * P * R) ^ (1 / 2 : ℂ) = d at *
  set fp := 0.5 * (-Q + d) / R with hfp
  set fm := 0.5 * (-Q - d) / R with hfm
  have hprod : R * fp * fm = P := by
    rw [hfp, hfm]
    field_simp
    linear_combination (-1 / 4) * hd
  have hsum : R * (fp + fm) = -Q := by
    rw [hfp, hfm]
    field_simp
    ring
  have hp' : (if ‖fp‖ < ‖fm‖ then P / (R * fm) else fp) = fp := by
    split_ifs with hlt
    · have : fm ≠ 0 := by
        rintro h0
        rw [h0, norm_zero] at hlt
        exact absurd hlt (not_lt.2 (norm_nonneg _))
      rw [div_eq_iff (mul_ne_zero hr this), ← hprod]
      ring
    · rfl
  have hm' : (if ‖fm‖ < ‖fp‖ then P / (R * fp) else fm) = fm := by
    split_ifs with hlt
    · have : fp ≠ 0 := by
        rintro h0
        rw [h0, norm_zero] at hlt
        exact absurd hlt (not_lt.2 (norm_nonneg _))
      rw [div_eq_iff (mul_ne_zero hr this), ← hprod]
      ring
    · rfl
  rw [hp', hm']
  intro x
  linear_combination (-x) * hsum + hprod

/-- C34: consequently both branches solve the quadratic equation, and every solution is one of
them. -/
theorem eval_branches_solve (h : Herm2) (z : ℂ) (hr : polyval h.r z ≠ 0) :
    ∃ fp fm, evalBranches h false z = .ok (some (fp, fm)) ∧
      ∀ x, polyval h.p z + polyval h.q z * x + polyval h.r z * x ^ 2 = 0 ↔ x = fp ∨ x = fm := by
  obtain ⟨fp, fm, h1, h2⟩ := eval_branches_correct h z hr
  refine ⟨fp, fm, h1, fun x => ?_⟩
  rw [← h2 x]
  simp [hr, sub_eq_zero]

/-- C34: `Hermite2.eval` returns a solution of the quadratic equation, and no solution is closer to
the value of the Padé approximant. -/
theorem hermite2_eval_closest (h : Herm2) (pade : RatPol) (z : ℂ) (hr : polyval h.r z ≠ 0)
    (hpade : polyval pade.denom z ≠ 0) :
    ∃ x, hermite2Eval h pade false z = .ok (some x) ∧
      polyval h.p z + polyval h.q z * x + polyval h.r z * x ^ 2 = 0 ∧
      ∀ y, polyval h.p z + polyval h.q z * y + polyval h.r z * y ^ 2 = 0 →
        ‖x - pade.eval z‖ ≤ ‖y - pade.eval z‖ := by
  obtain ⟨fp, fm, h1, h2⟩ := eval_branches_solve h z hr
  unfold hermite2Eval
  rw [h1]
  simp only
  rw [if_neg hpade]
  refine ⟨_, rfl, ?_, fun y hy => ?_⟩
  · rw [h2]
    split_ifs <;> simp
  · rcases (h2 y).1 hy with rfl | rfl
    · split_ifs with hlt
      · exact le_rfl
      · exact not_lt.1 hlt
    · split_ifs with hlt
      · exact hlt.le
      · exact le_rfl

/-- C34, disagreement: evaluation at a scalar raises `TypeError`. -/
theorem hermite2_eval_scalar_fails (h : Herm2) (pade : RatPol) (z : ℂ) :
    hermite2Eval h pade true z = .error .typeError := by
  simp [hermite2Eval, evalBranches]

/-- C34: `Hermite2.from_taylor` succeeds whenever there are enough coefficients: the degrees chosen
for the Padé approximant are admissible. -/
theorem hermite2_from_taylor (ext : LinalgExt ℂ) (text : ToeplitzExt) (L : ℕ) (an : ℕ → ℂ)
    (np nq nr : ℕ) (hL : np + nq + nr + 2 ≤ L) :
    ∃ h r m n, hermite2FromTaylor ext text L an np nq nr = .ok (h, r) ∧
      IsHermite2 an np nq nr (toPoly h.p) (toPoly h.q) (toPoly h.r) ∧
      IsPade an m n (toPoly r.numer) (toPoly r.denom) ∧ np + nq + nr ≤ m + n + 1 ∧
      m + n ≤ np + nq + nr := by
  obtain ⟨h, h1, h2⟩ := (hermite2_correct ext L an np nq nr).1 hL
  have hs : Nat.sqrt (np * nr) ≤ max np nr := by
    calc Nat.sqrt (np * nr) ≤ Nat.sqrt (max np nr * max np nr) :=
          Nat.sqrt_le_sqrt (Nat.mul_le_mul (le_max_left _ _) (le_max_right _ _))
      _ = max np nr := Nat.sqrt_eq _
  unfold hermite2FromTaylor
  rw [h1]
  simp only
  have hd1 : 0 ≤ (herm2PadeDeg np nq nr).1 := by
    simp only [herm2PadeDeg]
    omega
  have hd2 : 0 ≤ (herm2PadeDeg np nq nr).2 := by
    simp only [herm2PadeDeg]
    omega
  have hd3 : (herm2PadeDeg np nq nr).1 + (herm2PadeDeg np nq nr).2 ≤ np + nq + nr ∧
      (np + nq + nr : ℤ) ≤ (herm2PadeDeg np nq nr).1 + (herm2PadeDeg np nq nr).2 + 1 := by
    simp only [herm2PadeDeg]
    omega
  rw [if_neg (by omega)]
  obtain ⟨r, hr, hpade⟩ := herm_pade_correct ext text L an (herm2PadeDeg np nq nr).1.toNat
    (herm2PadeDeg np nq nr).2.toNat (by omega)
  rw [hr]
  exact ⟨h, r, _, _, rfl, h2, hpade, by omega, by omega⟩

/-- C34: the retarded selection returns one of the branches; one with non-positive imaginary part
if there is any, and the one with the imaginary part closest to zero if both agree in this. -/
theorem ret_select_correct (p m : ℂ) :
    (retSelect p m = p ∨ retSelect p m = m) ∧
    (p.im ≤ 0 ∨ m.im ≤ 0 → (retSelect p m).im ≤ 0) ∧
    ((p.im ≤ 0 ↔ m.im ≤ 0) → |(retSelect p m).im| ≤ |p.im| ∧ |(retSelect p m).im| ≤ |m.im|) := by
  unfold retSelect
  refine ⟨?_, ?_, ?_⟩
  · split_ifs <;> simp_all
    all_goals grind
  · split_ifs <;> simp_all
  · intro h
    by_cases hp : p.im ≤ 0
    · have hm := h.1 hp
      rw [if_neg (by tauto), if_neg (by tauto)]
      split_ifs with h1 h2
      · refine ⟨le_rfl, ?_⟩
        rw [abs_of_nonpos hp, abs_of_nonpos hm]; linarith [h1.2.2]
      · refine ⟨?_, le_rfl⟩
        rw [abs_of_nonpos hp, abs_of_nonpos hm]; linarith [h2.2.2]
      all_goals grind
    · have hm : ¬ m.im ≤ 0 := fun h' => hp (h.2 h')
      rw [if_neg (by tauto), if_neg (by tauto), if_neg (by tauto), if_neg (by tauto)]
      push Not at hp hm
      split_ifs with h1 h2
      · refine ⟨le_rfl, ?_⟩
        rw [abs_of_pos hp, abs_of_pos hm]; exact h1.2.2
      · refine ⟨?_, le_rfl⟩
        rw [abs_of_pos hp, abs_of_pos hm]; exact h2.2.2
      · rcases le_total p.im m.im with h' | h'
        · exact absurd ⟨not_le.2 hp, not_le.2 hm, h'⟩ h1
        · exact absurd ⟨not_le.2 hp, not_le.2 hm, h'⟩ h2

/-- A quadratic with two different branches. -/
example : polyval [(1 : ℂ)] 2 ≠ 0 ∧ ∃ fp fm,
    evalBranches ⟨[-4], [0], [1]⟩ false 2 = .ok (some (fp, fm)) ∧
    ∀ x, (-4 : ℂ) + 0 * x + 1 * x ^ 2 = 0 ↔ x = fp ∨ x = fm := by
  have h : polyval [(1 : ℂ)] 2 ≠ 0 := by simp [polyval]
  refine ⟨h, ?_⟩
  have := eval_branches_solve ⟨[-4], [0], [1]⟩ 2 h
  simpa [polyval] using this

end Gftool.Props
