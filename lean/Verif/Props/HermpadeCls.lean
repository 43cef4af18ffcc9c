import Verif.Model.HermpadeCls
import Verif.Props.Hermpade

/-!
# C34: quadratic Hermite-Padé, least squares and the retarded branch
-/

namespace Gftool.Props

open Gftool.Model Gftool.Spec Gftool.Lemmas Matrix Polynomial

/-- The residual `q a + r a²` of order `k`. -/
noncomputable def herm2Resid (an : ℕ → ℂ) (q r : ℂ[X]) (k : ℕ) : ℂ :=
  PowerSeries.coeff k ((q : PowerSeries ℂ) * PowerSeries.mk an
    + (r : PowerSeries ℂ) * (PowerSeries.mk an * PowerSeries.mk an))

/-- The coefficient of `q` or `r` with number `fix` in the concatenation of both. -/
def qrCoeff (nq : ℕ) (q r : ℂ[X]) (fix : ℕ) : ℂ := if fix < nq + 1 then q.coeff fix else r.coeff (fix - (nq + 1))

/-- C34: `hermite2_lstsq` minimises the sum of squares of the residuals of the orders `p_deg+1, …, L-1` among all
polynomials with the given degrees and the coefficient `fix` equal to one; `p` cancels the residuals up to `p_deg`. -/
theorem hermite2_lstsq_optimal (ext : LinalgExt ℂ) (L : ℕ) (an : ℕ → ℂ) (np nq nr : ℕ)
    (fix : Fin (nq + nr + 1 + 1)) (hL : np + nq + nr + 2 ≤ L) (han : ∃ i < L, an i ≠ 0) :
    ∃ h, hermite2Lstsq ext L an np nq nr fix = .ok h ∧ (toPoly h.p).natDegree ≤ np ∧ (toPoly h.q).natDegree ≤ nq ∧
      (toPoly h.r).natDegree ≤ nr ∧ qrCoeff nq (toPoly h.q) (toPoly h.r) fix = 1 ∧
      (∀ k ≤ np, (toPoly h.p).coeff k + herm2Resid an (toPoly h.q) (toPoly h.r) k = 0) ∧
      ∀ q r : ℂ[X], q.natDegree ≤ nq → r.natDegree ≤ nr → qrCoeff nq q r fix = 1 →
        ∑ k ∈ Finset.Ico (np + 1) L, ‖herm2Resid an (toPoly h.q) (toPoly h.r) k‖ ^ 2
          ≤ ∑ k ∈ Finset.Ico (np + 1) L, ‖herm2Resid an q r k‖ ^ 2 := by
  unfold hermite2Lstsq
  rw [if_neg (by omega), if_neg (by push Not; exact han)]
  simp only
  set lower : Matrix (Fin (L - (np + 1))) (Fin (nq + nr + 1 + 1)) ℂ :=
    Matrix.of fun i j => herm2Row an L nq (np + 1 + i) j with hlower
  obtain ⟨v, hv, hv1, hmin⟩ := (nullvec_lst_correct ext lower).2 fix
  rw [hv]
  have hres : ∀ w : Fin (nq + nr + 1 + 1) → ℂ, ∀ k < L, ∑ j : Fin (nq + nr + 1 + 1), herm2Row an L nq k j * w j
      = herm2Resid an (toPoly (herm2Result an L np nq nr w).q) (toPoly (herm2Result an L np nq nr w).r) k := by
    intro w k hk
    rw [herm2Resid, map_add]
    exact herm2_sum an L np nq nr k hk w
  have hnorm : ∀ w : Fin (nq + nr + 1 + 1) → ℂ, sqNorm (lower *ᵥ w) = ∑ k ∈ Finset.Ico (np + 1) L,
      ‖herm2Resid an (toPoly (herm2Result an L np nq nr w).q) (toPoly (herm2Result an L np nq nr w).r) k‖ ^ 2 := by
    intro w
    rw [Finset.sum_Ico_eq_sum_range, Finset.sum_range]
    unfold sqNorm
    refine Finset.sum_congr rfl fun i _ => ?_
    rw [← hres w _ (by have := i.2; omega)]
    simp only [mulVec, dotProduct, hlower, of_apply]
  have hcoeff : ∀ w : Fin (nq + nr + 1 + 1) → ℂ,
      qrCoeff nq (toPoly (herm2Result an L np nq nr w).q) (toPoly (herm2Result an L np nq nr w).r) fix = w fix := by
    intro w
    unfold qrCoeff herm2Result
    have := fix.2
    split_ifs with h
    · rw [toPoly_coeff, getD_ofFn, dif_pos h]
    · rw [toPoly_coeff, getD_ofFn, dif_pos (by omega)]
      congr 1
      ext
      simp only
      omega
  refine ⟨_, rfl, toPoly_natDegree_lt _ _ (by simp [herm2Result]), toPoly_natDegree_lt _ _ (by simp [herm2Result]),
    toPoly_natDegree_lt _ _ (by simp [herm2Result]), (hcoeff v).trans hv1, fun k hk => ?_, fun q r hq hr hqr => ?_⟩
  · rw [← hres v k (by omega)]
    simp only [herm2Result]
    rw [toPoly_coeff, getD_ofFn, dif_pos (by omega)]
    ring
  · set w : Fin (nq + nr + 1 + 1) → ℂ := fun j => qrCoeff nq q r j with hw
    have hq' : toPoly (herm2Result an L np nq nr w).q = q := by
      ext k
      simp only [herm2Result]
      rw [toPoly_coeff, getD_ofFn]
      split_ifs with h
      · simp only [hw, qrCoeff, if_pos h]
      · exact (coeff_eq_zero_of_natDegree_lt (by omega)).symm
    have hr' : toPoly (herm2Result an L np nq nr w).r = r := by
      ext k
      simp only [herm2Result]
      rw [toPoly_coeff, getD_ofFn]
      split_ifs with h
      · simp only [hw, qrCoeff]
        rw [if_neg (by omega), Nat.add_sub_cancel_left]
      · exact (coeff_eq_zero_of_natDegree_lt (by omega)).symm
    have := hmin w hqr
    rw [hnorm, hnorm, hq', hr'] at this
    exact this

/-- C34: for vanishing data `hermite2_lstsq` returns the equation `F² = 0`. -/
theorem hermite2_lstsq_zero (ext : LinalgExt ℂ) (L : ℕ) (an : ℕ → ℂ) (np nq nr fix : ℕ)
    (hL : np + nq + nr + 2 ≤ L) (han : ∀ i < L, an i = 0) :
    ∃ h, hermite2Lstsq ext L an np nq nr fix = .ok h ∧ toPoly h.p = 0 ∧ toPoly h.q = 0 ∧ toPoly h.r = 1 := by
  unfold hermite2Lstsq
  rw [if_neg (by omega), if_pos han]
  have hrep : ∀ n k, (List.replicate n (0 : ℂ)).getD k 0 = 0 := fun n k => by
    rw [List.getD_eq_getElem?_getD, List.getElem?_replicate]
    split_ifs <;> rfl
  have h0 : ∀ n, toPoly (List.replicate n (0 : ℂ)) = 0 := fun n => by
    ext k
    rw [toPoly_coeff, hrep, coeff_zero]
  refine ⟨_, rfl, h0 _, h0 _, ?_⟩
  ext k
  rw [toPoly_coeff]
  cases k with
  | zero => simp
  | succ k =>
    rw [List.getD_cons_succ, hrep]
    simp [coeff_one]

/-- C34: `Hermite2.from_taylor_lstsq` succeeds whenever there are enough coefficients and raises `ValueError` otherwise.
The first component is the result of `hermite2_lstsq`, the second one a result of `pade_lstsq` whose degrees are
admissible: as many coefficients as the quadratic approximant, with the difference of degrees that the quadratic
equation `p + q f + r f² = 0` implies for the growth of `f`. -/
theorem hermite2_from_taylor_lstsq (ext : LinalgExt ℂ) (L : ℕ) (an : ℕ → ℂ) (np nq nr : ℕ)
    (fix : Fin (nq + nr + 1 + 1)) :
    (np + nq + nr + 2 ≤ L → ∃ h r m n, hermite2FromTaylorLstsq ext L an np nq nr fix = .ok (h, r) ∧
      hermite2Lstsq ext L an np nq nr fix = .ok h ∧ padeLstsq ext L an m n = .ok r ∧
      np + nq + nr ≤ m + n + 1 ∧ m + n ≤ np + nq + nr ∧
      (m : ℤ) - n = (max nq (Nat.sqrt (np * nr)) : ℕ) - nr) ∧
    (L < np + nq + nr + 2 → hermite2FromTaylorLstsq ext L an np nq nr fix = .error .valueError) := by
  constructor
  · intro hL
    have hex : ∃ h, hermite2Lstsq ext L an np nq nr fix = .ok h := by
      by_cases han : ∃ i < L, an i ≠ 0
      · obtain ⟨h, h1, -⟩ := hermite2_lstsq_optimal ext L an np nq nr fix hL han
        exact ⟨h, h1⟩
      · push Not at han
        obtain ⟨h, h1, -⟩ := hermite2_lstsq_zero ext L an np nq nr fix hL han
        exact ⟨h, h1⟩
    obtain ⟨h, h1⟩ := hex
    have hs : Nat.sqrt (np * nr) ≤ max np nr := by
      calc Nat.sqrt (np * nr) ≤ Nat.sqrt (max np nr * max np nr) :=
            Nat.sqrt_le_sqrt (Nat.mul_le_mul (le_max_left _ _) (le_max_right _ _))
        _ = max np nr := Nat.sqrt_eq _
    have hd1 : 0 ≤ (herm2PadeDeg np nq nr).1 := by
      simp only [herm2PadeDeg]
      omega
    have hd2 : 0 ≤ (herm2PadeDeg np nq nr).2 := by
      simp only [herm2PadeDeg]
      omega
    have hd3 : (herm2PadeDeg np nq nr).1 + (herm2PadeDeg np nq nr).2 ≤ np + nq + nr ∧
        (np + nq + nr : ℤ) ≤ (herm2PadeDeg np nq nr).1 + (herm2PadeDeg np nq nr).2 + 1 := by
      simp only [herm2PadeDeg]
      omega
    have hpade : ∃ r, padeLstsq ext L an (herm2PadeDeg np nq nr).1.toNat (herm2PadeDeg np nq nr).2.toNat = .ok r := by
      by_cases hn : (herm2PadeDeg np nq nr).2.toNat = 0
      · rw [hn]
        unfold padeLstsq
        rw [if_neg (by omega), if_pos rfl]
        exact ⟨_, rfl⟩
      · obtain ⟨r, hr, -⟩ := pade_lstsq_optimal ext L an (herm2PadeDeg np nq nr).1.toNat _ hn (by omega)
        exact ⟨r, hr⟩
    obtain ⟨r, hr⟩ := hpade
    refine ⟨h, r, (herm2PadeDeg np nq nr).1.toNat, (herm2PadeDeg np nq nr).2.toNat, ?_, h1, hr, by omega, by omega, ?_⟩
    swap
    · rw [Int.toNat_of_nonneg hd1, Int.toNat_of_nonneg hd2]
      simp only [herm2PadeDeg]
      omega
    unfold hermite2FromTaylorLstsq
    rw [h1]
    simp only
    rw [if_neg (by omega), hr]
  · intro hL
    unfold hermite2FromTaylorLstsq hermite2Lstsq
    rw [if_pos (by omega)]

/-- C34: `_Hermite2Ret.eval` returns a solution of the quadratic equation. It has negative spectral weight only if both
solutions have; if both solutions are (not) retarded it is the one closest to the real axis. -/
theorem hermite2_ret_eval (h : Herm2) (z : ℂ) (hr : polyval h.r z ≠ 0) :
    ∃ x, hermite2RetEval h false z = .ok (some x) ∧
      polyval h.p z + polyval h.q z * x + polyval h.r z * x ^ 2 = 0 ∧
      ((∃ y, polyval h.p z + polyval h.q z * y + polyval h.r z * y ^ 2 = 0 ∧ y.im ≤ 0) → x.im ≤ 0) ∧
      ((∀ y, polyval h.p z + polyval h.q z * y + polyval h.r z * y ^ 2 = 0 → (y.im ≤ 0 ↔ x.im ≤ 0)) →
        ∀ y, polyval h.p z + polyval h.q z * y + polyval h.r z * y ^ 2 = 0 → |x.im| ≤ |y.im|) := by
  obtain ⟨fp, fm, h1, h2⟩ := eval_branches_solve h z hr
  obtain ⟨s1, s2, s3⟩ := ret_select_correct fp fm
  refine ⟨retSelect fp fm, ?_, (h2 _).2 s1, ?_, ?_⟩
  · unfold hermite2RetEval
    rw [h1]
  · rintro ⟨y, hy, him⟩
    rcases (h2 y).1 hy with rfl | rfl
    · exact s2 (.inl him)
    · exact s2 (.inr him)
  · intro hall y hy
    have hp := hall fp ((h2 fp).2 (.inl rfl))
    have hm := hall fm ((h2 fm).2 (.inr rfl))
    obtain ⟨a, b⟩ := s3 (hp.trans hm.symm)
    rcases (h2 y).1 hy with rfl | rfl
    · exact a
    · exact b

/-- C34: `_Hermite2Ret.from_taylor` takes the degrees in the order `r`, `q`, `p`, in contrast to
`Hermite2.from_taylor` and `_Hermite2Ret.from_taylor_lstsq`. -/
theorem ret_from_taylor (ext : LinalgExt ℂ) (L : ℕ) (an : ℕ → ℂ) (np nq nr : ℕ) (hL : np + nq + nr + 2 ≤ L) :
    ∃ h, retFromTaylor ext L an nr nq np = .ok h ∧
      IsHermite2 an np nq nr (toPoly h.p) (toPoly h.q) (toPoly h.r) :=
  (hermite2_correct ext L an np nq nr).1 hL

/-- C34: as `hermite2_lstsq_optimal`, the result of `_Hermite2Ret.from_taylor_lstsq` is `hermite2_lstsq`. -/
theorem ret_from_taylor_lstsq (ext : LinalgExt ℂ) (L : ℕ) (an : ℕ → ℂ) (np nq nr : ℕ)
    (fix : Fin (nq + nr + 1 + 1)) (hL : np + nq + nr + 2 ≤ L) (han : ∃ i < L, an i ≠ 0) :
    ∃ h, retFromTaylorLstsq ext L an np nq nr fix = .ok h ∧
      qrCoeff nq (toPoly h.q) (toPoly h.r) fix = 1 ∧
      (∀ k ≤ np, (toPoly h.p).coeff k + herm2Resid an (toPoly h.q) (toPoly h.r) k = 0) ∧
      ∀ q r : ℂ[X], q.natDegree ≤ nq → r.natDegree ≤ nr → qrCoeff nq q r fix = 1 →
        ∑ k ∈ Finset.Ico (np + 1) L, ‖herm2Resid an (toPoly h.q) (toPoly h.r) k‖ ^ 2
          ≤ ∑ k ∈ Finset.Ico (np + 1) L, ‖herm2Resid an q r k‖ ^ 2 := by
  obtain ⟨h, h1, -, -, -, h2, h3, h4⟩ := hermite2_lstsq_optimal ext L an np nq nr fix hL han
  exact ⟨h, h1, h2, h3, h4⟩

/-- The retarded branch of `F² = -1` is `-i`. -/
example : ∃ x, hermite2RetEval ⟨[1], [0], [1]⟩ false 2 = .ok (some x) ∧ x = -Complex.I := by
  obtain ⟨x, h1, h2, h3, -⟩ := hermite2_ret_eval ⟨[1], [0], [1]⟩ 2 (by simp [polyval])
  refine ⟨x, h1, ?_⟩
  have hneg := h3 ⟨-Complex.I, by simp [polyval], by simp⟩
  simp only [polyval, List.foldr_cons, List.foldr_nil, mul_zero, add_zero, zero_mul, one_mul] at h2
  have hf : (x - Complex.I) * (x + Complex.I) = 0 := by
    linear_combination h2 - Complex.I_sq
  rcases mul_eq_zero.1 hf with h | h
  · rw [sub_eq_zero.1 h] at hneg
    norm_num at hneg
  · exact eq_neg_of_add_eq_zero_left h

end Gftool.Props
