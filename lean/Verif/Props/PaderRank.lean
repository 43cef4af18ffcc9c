import Verif.Props.Hermpade
import Mathlib.LinearAlgebra.FiniteDimensional.Lemmas
import Mathlib.LinearAlgebra.Matrix.Rank
import Mathlib.RingTheory.PowerSeries.Order

/-!
# Reducing the degrees in `pader` does not change the approximant (C35)
-/

namespace Gftool.Props

open Gftool Model Spec Lemmas Polynomial Matrix

/-- The number of singular values above the cut-off is the rank of the matrix, for all degrees. -/
def RankCorrect (svd : SvdVals) (an : ℕ → ℂ) (rcond : ℝ) : Prop :=
  ∀ m n, n ≠ 0 → paderRho svd an rcond m n = (paderMat an m n).rank

/-- Polynomials which approximate the same series to a high enough order have the same quotient. -/
lemma isPade_cross {a : ℕ → ℂ} {N : ℕ} {p q p' q' : ℂ[X]}
    (h : (PowerSeries.X : PowerSeries ℂ) ^ N ∣ (q : PowerSeries ℂ) * PowerSeries.mk a - (p : PowerSeries ℂ))
    (h' : (PowerSeries.X : PowerSeries ℂ) ^ N ∣ (q' : PowerSeries ℂ) * PowerSeries.mk a - (p' : PowerSeries ℂ))
    (h1 : p.natDegree + q'.natDegree < N) (h2 : p'.natDegree + q.natDegree < N) : p * q' = p' * q := by
  have h3 : (PowerSeries.X : PowerSeries ℂ) ^ N ∣ ((p * q' - p' * q : ℂ[X]) : PowerSeries ℂ) := by
    have : ((p * q' - p' * q : ℂ[X]) : PowerSeries ℂ)
        = (q : PowerSeries ℂ) * ((q' : PowerSeries ℂ) * PowerSeries.mk a - (p' : PowerSeries ℂ))
          - (q' : PowerSeries ℂ) * ((q : PowerSeries ℂ) * PowerSeries.mk a - (p : PowerSeries ℂ)) := by
      rw [Polynomial.coe_sub, Polynomial.coe_mul, Polynomial.coe_mul]
      ring
    rw [this]
    exact dvd_sub (h'.mul_left _) (h.mul_left _)
  rw [PowerSeries.X_pow_dvd_iff] at h3
  rw [← sub_eq_zero]
  ext k
  rw [coeff_zero]
  by_cases hk : k < N
  · have := h3 k hk
    rwa [Polynomial.coeff_coe] at this
  · apply coeff_eq_zero_of_natDegree_lt
    have h4 := natDegree_sub_le (p * q') (p' * q)
    have h5 : (p * q').natDegree ≤ p.natDegree + q'.natDegree := natDegree_mul_le
    have h6 : (p' * q).natDegree ≤ p'.natDegree + q.natDegree := natDegree_mul_le
    have := max_le_iff.1 (le_refl (max (p * q').natDegree (p' * q).natDegree))
    have h7 : max (p * q').natDegree (p' * q).natDegree < N := max_lt (by omega) (by omega)
    omega

private lemma isPade_same {a : ℕ → ℂ} {m n : ℕ} {p q p' q' : ℂ[X]} (h : IsPade a m n p q) (h' : IsPade a m n p' q') :
    p * q' = p' * q :=
  isPade_cross h.order h'.order (by have := h.num_deg; have := h'.den_deg; omega)
    (by have := h'.num_deg; have := h.den_deg; omega)

/-- A kernel vector with further `δ` conditions. -/
private lemma exists_kernel {n δ : ℕ} (A : Matrix (Fin n) (Fin (n + 1)) ℂ) (hδ : A.rank + δ = n)
    (f : (Fin (n + 1) → ℂ) →ₗ[ℂ] (Fin δ → ℂ)) : ∃ v, v ≠ 0 ∧ A *ᵥ v = 0 ∧ f v = 0 := by
  have hr := LinearMap.finrank_range_add_finrank_ker A.mulVecLin
  have hr' : A.rank + Module.finrank ℂ (LinearMap.ker A.mulVecLin) = n + 1 := by
    rw [Matrix.rank]
    rw [hr]
    simp
  have hlt : Module.finrank ℂ (Fin δ → ℂ) < Module.finrank ℂ (LinearMap.ker A.mulVecLin) := by
    rw [Module.finrank_fin_fun]
    omega
  have := LinearMap.ker_ne_bot_of_finrank_lt (f := f.comp (LinearMap.ker A.mulVecLin).subtype) hlt
  obtain ⟨⟨v, hv⟩, h1, h2⟩ := (Submodule.ne_bot_iff _).1 this
  refine ⟨v, fun h => h2 (Subtype.ext h), by simpa using hv, ?_⟩
  simpa using h1

private lemma isPade_of_kernel (an : ℕ → ℂ) (m n : ℕ) (v : Fin (n + 1) → ℂ) (hv : v ≠ 0) (h : paderMat an m n *ᵥ v = 0) :
    IsPade an m n (toPoly (padeNumer an m v)) (toPoly (List.ofFn v)) := by
  refine isPade_of_null an m n v hv fun i hi => ?_
  have := congrFun h ⟨i, hi⟩
  simpa [mulVec, dotProduct, paderMat] using this

/-- If the matrix has rank `ρ`, there is an approximant whose degrees are smaller by `den_deg - ρ`. -/
private lemma reduce_exists (an : ℕ → ℂ) (m n δ : ℕ) (hδ : (paderMat an m n).rank + δ = n)
    (hnz : ∀ p q, IsPade an m n p q → p ≠ 0) :
    ∃ p q, IsPade an m n p q ∧ p.natDegree + δ ≤ m ∧ q.natDegree + δ ≤ n := by
  obtain ⟨v0, hv0, hk0, -⟩ := exists_kernel (paderMat an m n) hδ 0
  have h0 := isPade_of_kernel an m n v0 hv0 hk0
  generalize toPoly (padeNumer an m v0) = P0 at h0
  generalize toPoly (List.ofFn v0) = Q0 at h0
  have hP0 : P0 ≠ 0 := hnz _ _ h0
  have hdeg : ∀ p q, IsPade an m n p q → P0.natDegree + q.natDegree = p.natDegree + Q0.natDegree := by
    intro p q h
    have := congrArg natDegree (isPade_same h0 h)
    rwa [natDegree_mul hP0 h.den_ne, natDegree_mul (hnz _ _ h) h0.den_ne] at this
  by_cases hcase : P0.natDegree + n ≤ Q0.natDegree + m
  · obtain ⟨v, hv, hk, hf⟩ := exists_kernel (paderMat an m n) hδ
      (LinearMap.pi fun i : Fin δ => LinearMap.proj (⟨n - i, by omega⟩ : Fin (n + 1)))
    have h := isPade_of_kernel an m n v hv hk
    have hq : (toPoly (List.ofFn v)).natDegree ≤ n - δ := by
      rw [natDegree_le_iff_coeff_eq_zero]
      intro k hk'
      rw [toPoly_coeff, getD_ofFn]
      split_ifs with hkn
      · have := congrFun hf ⟨n - k, by omega⟩
        simp only [LinearMap.pi_apply, LinearMap.proj_apply, Pi.zero_apply] at this
        rw [← this]
        congr 1
        ext
        simp only
        omega
      · rfl
    have hd := hdeg _ _ h
    exact ⟨_, _, h, by omega, by omega⟩
  · have hlin : ∃ f : (Fin (n + 1) → ℂ) →ₗ[ℂ] (Fin δ → ℂ), ∀ v i, f v i = ∑ j : Fin (n + 1),
        toeplitz an (fun _ => 0) (m - i) j * v j :=
      ⟨(Matrix.of fun (i : Fin δ) (j : Fin (n + 1)) => toeplitz an (fun _ => 0) (m - i) j).mulVecLin, fun v i => rfl⟩
    obtain ⟨f, hf⟩ := hlin
    obtain ⟨v, hv, hk, hfv⟩ := exists_kernel (paderMat an m n) hδ f
    have h := isPade_of_kernel an m n v hv hk
    have hcoef : ∀ i < δ, (toPoly (padeNumer an m v)).coeff (m - i) = 0 := by
      intro i hi
      rw [toPoly_coeff, padeNumer, getD_ofFn, dif_pos (by omega)]
      have := congrFun hfv ⟨i, hi⟩
      rw [hf] at this
      exact this
    have hmδ : δ ≤ m := by
      by_contra hlt
      refine hnz _ _ h ?_
      ext k
      rw [coeff_zero]
      by_cases hkm : k ≤ m
      · have := hcoef (m - k) (by omega)
        rwa [show m - (m - k) = k by omega] at this
      · exact coeff_eq_zero_of_natDegree_lt (by have := h.num_deg; omega)
    have hp : (toPoly (padeNumer an m v)).natDegree ≤ m - δ := by
      rw [natDegree_le_iff_coeff_eq_zero]
      intro k hk'
      by_cases hkm : k ≤ m
      · have := hcoef (m - k) (by omega)
        rwa [show m - (m - k) = k by omega] at this
      · exact coeff_eq_zero_of_natDegree_lt (by have := h.num_deg; omega)
    have hd := hdeg _ _ h
    exact ⟨_, _, h, by omega, by omega⟩

/-- Reducing both degrees by the rank deficiency does not change the approximant. -/
private lemma reduce_equiv (an : ℕ → ℂ) (m n δ : ℕ) (hδ : (paderMat an m n).rank + δ = n)
    (hnz : ∀ p q, IsPade an m n p q → p ≠ 0) :
    δ ≤ m ∧ ∀ p q p' q', IsPade an m n p q → IsPade an (m - δ) (n - δ) p' q' → p * q' = p' * q ∧ p' ≠ 0 := by
  obtain ⟨p1, q1, h1, hp1, hq1⟩ := reduce_exists an m n δ hδ hnz
  refine ⟨by omega, fun p q p' q' h h' => ?_⟩
  have e1 : p * q1 = p1 * q := isPade_same h h1
  have e2 : p1 * q' = p' * q1 := by
    refine isPade_cross (N := m - δ + (n - δ) + 1) ((pow_dvd_pow _ (by omega)).trans h1.order) h'.order ?_ ?_
    · have := h'.den_deg
      omega
    · have := h'.num_deg
      omega
  refine ⟨?_, ?_⟩
  · apply mul_right_cancel₀ h1.den_ne
    linear_combination q' * e1 + q * e2
  · rintro rfl
    rw [zero_mul] at e2
    exact mul_ne_zero (hnz _ _ h1) h'.den_ne e2

/-- The Taylor polynomial of degree `k`. -/
noncomputable def taylorPoly (an : ℕ → ℂ) (k : ℕ) : ℂ[X] := toPoly (List.ofFn fun i : Fin (k + 1) => an i)

private lemma isPade_taylor (an : ℕ → ℂ) (m : ℕ) : IsPade an m 0 (taylorPoly an m) 1 where
  num_deg := toPoly_natDegree_lt _ _ (by simp)
  den_deg := by simp
  den_ne := one_ne_zero
  order := by
    rw [PowerSeries.X_pow_dvd_iff]
    intro k hk
    rw [Polynomial.coe_one, one_mul, map_sub, PowerSeries.coeff_mk, Polynomial.coeff_coe, taylorPoly, toPoly_coeff, getD_ofFn,
      dif_pos (by omega), sub_self]

private lemma loop_equiv (ext : LinalgExt ℂ) (svd : SvdVals) (an : ℕ → ℂ) (rcond : ℝ) (hrank : RankCorrect svd an rcond) (n : ℕ) :
    ∀ m, (∀ p q, IsPade an m n p q → p ≠ 0) →
      (paderLoop ext svd an rcond m n = .ok ([], [1]) ∧ n ≤ m ∧ ∀ P Q, IsPade an m n P Q → P = taylorPoly an (m - n) * Q) ∨
      ∃ m' n', ∃ v : Fin (n' + 1) → ℂ, paderLoop ext svd an rcond m n = .ok (padeNumer an m' v, List.ofFn v) ∧
        toPoly (padeNumer an m' v) ≠ 0 ∧ toPoly (List.ofFn v) ≠ 0 ∧
        ∀ P Q, IsPade an m n P Q → P * toPoly (List.ofFn v) = toPoly (padeNumer an m' v) * Q := by
  induction n using Nat.strong_induction_on with
  | _ n ih =>
    intro m hnz
    by_cases hn : n = 0
    · subst hn
      left
      refine ⟨?_, Nat.zero_le _, fun P Q h => ?_⟩
      · rw [paderLoop, if_pos rfl]
        simp
      · have := isPade_same h (isPade_taylor an m)
        rwa [mul_one] at this
    · have hρ := hrank m n hn
      have hrk : (paderMat an m n).rank ≤ n := by simpa using (paderMat an m n).rank_le_card_height
      rcases hrk.lt_or_eq with hlt | heq
      · obtain ⟨δ, hδ⟩ : ∃ δ, δ = n - (paderMat an m n).rank := ⟨_, rfl⟩
        obtain ⟨hδm, heqv⟩ := reduce_equiv an m n δ (by omega) hnz
        have hstep : paderLoop ext svd an rcond m n = paderLoop ext svd an rcond (m - δ) (n - δ) := by
          rw [paderLoop, if_neg hn]
          simp only
          rw [hρ, dif_pos hlt, if_neg (by omega), ← hδ, show n - δ = (paderMat an m n).rank by omega]
        obtain ⟨p1, q1, h1, -, -⟩ := reduce_exists an m n δ (by omega) hnz
        have hnz' : ∀ p q, IsPade an (m - δ) (n - δ) p q → p ≠ 0 := fun p q h => (heqv p1 q1 p q h1 h).2
        obtain ⟨p2, q2, h2'⟩ : ∃ p q, IsPade an (m - δ) (n - δ) p q := by
          obtain ⟨h4, h5⟩ := nullvec_correct ext (paderMat an (m - δ) (n - δ))
          exact ⟨_, _, isPade_of_kernel an _ _ _ h5 h4⟩
        rw [hstep]
        rcases ih (n - δ) (by omega) (m - δ) hnz' with ⟨h2, h3, h4⟩ | ⟨m', n', v, h2, h3, h4, h5⟩
        · refine Or.inl ⟨h2, by omega, fun P Q h => ?_⟩
          have e1 := (heqv P Q p2 q2 h h2').1
          rw [h4 _ _ h2', show m - δ - (n - δ) = m - n by omega] at e1
          apply mul_right_cancel₀ h2'.den_ne
          linear_combination e1
        · refine Or.inr ⟨m', n', v, h2, h3, h4, fun P Q h => ?_⟩
          have e1 := (heqv P Q p2 q2 h h2').1
          have e2 := h5 p2 q2 h2'
          apply mul_right_cancel₀ h2'.den_ne
          linear_combination toPoly (List.ofFn v) * e1 + Q * e2
      · right
        obtain ⟨h4, h5⟩ := nullvec_correct ext (paderMat an m n)
        have h := isPade_of_kernel an m n _ h5 h4
        refine ⟨m, n, nullvec ext (paderMat an m n), ?_, hnz _ _ h, h.den_ne, fun P Q h' => isPade_same h' h⟩
        rw [paderLoop, if_neg hn]
        simp only
        rw [hρ, dif_neg (by omega)]

private lemma argmaxNonzero_ok {l : List ℂ} (h : l ≠ []) : ∃ i, argmaxNonzero l = .ok i := by
  unfold argmaxNonzero
  rw [if_neg h]
  exact ⟨_, rfl⟩

private lemma exists_coeff_ne {l : List ℂ} (h : toPoly l ≠ 0) : ∃ j, l.getD j 0 ≠ 0 := by
  by_contra hno
  push Not at hno
  refine h ?_
  ext k
  rw [toPoly_coeff, coeff_zero]
  exact hno k

private lemma stripCoeffs_ok {p q : List ℂ} (hp0 : toPoly p ≠ 0) (hq0 : toPoly q ≠ 0)
    (hp : ∀ i, (∀ j ≤ i, q.getD j 0 = 0) → p.getD i 0 = 0) : ∃ r, stripCoeffs p q = .ok r := by
  obtain ⟨jp, hjp⟩ := exists_coeff_ne hp0
  obtain ⟨jq, hjq⟩ := exists_coeff_ne hq0
  have hqne : q ≠ [] := by
    rintro rfl
    simp at hjq
  obtain ⟨s, hs⟩ := argmaxNonzero_ok hqne
  obtain ⟨h1, -, -, hslt⟩ := argmaxNonzero_spec hs
  have hsj : s ≤ jp := by
    by_contra hlt
    exact hjp (hp jp fun j hj => h1 j (by omega))
  have hjl : jp < p.length := by
    by_contra hlt
    exact hjp (getD_of_le _ (by omega))
  have hqd : (q.drop s).reverse ≠ [] := by
    rw [← List.length_pos_iff]
    simp
    omega
  have hpd : (p.drop s).reverse ≠ [] := by
    rw [← List.length_pos_iff]
    simp
    omega
  obtain ⟨tq, htq⟩ := argmaxNonzero_ok hqd
  obtain ⟨tp, htp⟩ := argmaxNonzero_ok hpd
  unfold stripCoeffs
  simp only [bind, Except.bind, hs, htq, htp]
  exact ⟨_, rfl⟩

private lemma isPade_num_ne {an : ℕ → ℂ} {m n i : ℕ} (hi : i ≤ m) (han : an i ≠ 0) (p q : ℂ[X]) (h : IsPade an m n p q) : p ≠ 0 := by
  rintro rfl
  have h1 := h.order
  rw [Polynomial.coe_zero, sub_zero] at h1
  have h2 : ((m + n + 1 : ℕ) : ℕ∞) ≤ ((q : PowerSeries ℂ) * PowerSeries.mk an).order := by
    refine PowerSeries.le_order _ _ fun k hk => ?_
    exact PowerSeries.X_pow_dvd_iff.1 h1 k (by exact_mod_cast hk)
  rw [PowerSeries.order_mul] at h2
  have h3 : (PowerSeries.mk an).order ≤ (m : ℕ∞) := by
    refine (PowerSeries.order_le i ?_).trans (by exact_mod_cast hi)
    rwa [PowerSeries.coeff_mk]
  have h4 : (q : PowerSeries ℂ).order ≤ (n : ℕ∞) := by
    refine (PowerSeries.order_le q.natDegree ?_).trans (by exact_mod_cast h.den_deg)
    rw [Polynomial.coeff_coe]
    exact leadingCoeff_ne_zero.2 h.den_ne
  have h5 := h2.trans (add_le_add h4 h3)
  have h6 : m + n + 1 ≤ n + m := by exact_mod_cast h5
  omega

/-- C35: if the numerical rank is the rank, `pader` returns the Padé approximant although it reduces the degrees: whatever
approximant of the requested degrees is taken, the quotient of the returned polynomials is the same. The returned
denominator does not vanish at the expansion point. The only other outcome is a `ValueError`, which needs that the
approximant is the Taylor polynomial of degree `num_deg - den_deg`. -/
theorem pader_reduction_partial (ext : LinalgExt ℂ) (svd : SvdVals) (L : ℕ) (an : ℕ → ℂ) (m n : ℕ) (rcond : ℝ)
    (hL : m + n + 1 ≤ L) (hrc : 0 ≤ rcond) (hrank : RankCorrect svd an rcond)
    (hbig : ∃ i < m, rcond * Real.sqrt (∑ i ∈ Finset.range (m + n + 1), ‖an i‖ ^ 2) < ‖an i‖) :
    (∃ r, pader ext svd L an m n rcond = .ok r ∧ (toPoly r.denom).coeff 0 ≠ 0 ∧
      ∀ P Q, IsPade an m n P Q → toPoly r.numer * Q = P * toPoly r.denom) ∨
    (pader ext svd L an m n rcond = .error .valueError ∧ n ≤ m ∧
      ∀ P Q, IsPade an m n P Q → P = taylorPoly an (m - n) * Q) := by
  have hnz : ∀ p q, IsPade an m n p q → p ≠ 0 := by
    obtain ⟨i, hi, hlt⟩ := hbig
    refine isPade_num_ne hi.le ?_
    have : 0 < ‖an i‖ := lt_of_le_of_lt (mul_nonneg hrc (Real.sqrt_nonneg _)) hlt
    exact norm_pos_iff.1 this
  have hpader : pader ext svd L an m n rcond = match paderLoop ext svd an rcond m n with
      | .error e => .error e
      | .ok (p, q) => stripCoeffs p q := by
    unfold pader
    rw [if_neg (by omega)]
    simp only
    rw [if_neg]
    · rcases paderLoop ext svd an rcond m n with e | ⟨p, q⟩ <;> rfl
    · intro hall
      obtain ⟨i, hi, hlt⟩ := hbig
      exact absurd (hall i hi) (not_le.2 hlt)
  rcases loop_equiv ext svd an rcond hrank n m hnz with ⟨h1, h2, h3⟩ | ⟨m', n', v, h1, h2, h3, h4⟩
  · right
    refine ⟨?_, h2, h3⟩
    rw [hpader, h1]
    simp [stripCoeffs, argmaxNonzero, bind, Except.bind]
  · left
    obtain ⟨r, hr⟩ := stripCoeffs_ok h2 h3 (pade_numer_zero an m' v)
    refine ⟨r, ?_, ?_⟩
    · rw [hpader, h1]
      exact hr
    obtain ⟨s, e1, e2, e3⟩ := stripCoeffs_spec hr (pade_numer_zero an m' v)
    refine ⟨e3 (exists_coeff_ne h3), fun P Q h => ?_⟩
    have := h4 P Q h
    rw [e1, e2] at this
    apply mul_left_cancel₀ (pow_ne_zero s (X_ne_zero (R := ℂ)))
    linear_combination -this

private lemma isPade_of_expansion {an : ℕ → ℂ} {m n : ℕ} {P Q : ℂ[X]} (h : IsExpansion an P Q) (hP : P.natDegree ≤ m)
    (hQ : Q.natDegree ≤ n) : IsPade an m n P Q where
  num_deg := hP
  den_deg := hQ
  den_ne := by
    rintro rfl
    exact h.1 (by simp)
  order := by
    rw [h.2, sub_self]
    exact dvd_zero _

/-- C35: `pader` recovers every rational function of at most the given degrees which is not a polynomial from its
Taylor series, for all degrees for which there are enough coefficients. -/
theorem pader_rational (ext : LinalgExt ℂ) (svd : SvdVals) (L : ℕ) (an : ℕ → ℂ) (m n : ℕ) (rcond : ℝ)
    (hL : m + n + 1 ≤ L) (hrc : 0 ≤ rcond) (hrank : RankCorrect svd an rcond)
    (hbig : ∃ i < m, rcond * Real.sqrt (∑ i ∈ Finset.range (m + n + 1), ‖an i‖ ^ 2) < ‖an i‖)
    (P Q : ℂ[X]) (hexp : IsExpansion an P Q) (hP : P.natDegree ≤ m) (hQ : Q.natDegree ≤ n) (hpol : ¬ Q ∣ P) :
    ∃ r, pader ext svd L an m n rcond = .ok r ∧ toPoly r.numer * Q = P * toPoly r.denom ∧
      ∀ z, polyval r.denom z ≠ 0 → Q.eval z ≠ 0 → r.eval z = P.eval z / Q.eval z := by
  have hpade := isPade_of_expansion hexp hP hQ
  rcases pader_reduction_partial ext svd L an m n rcond hL hrc hrank hbig with ⟨r, h1, -, h3⟩ | ⟨-, -, h3⟩
  · have h4 := h3 P Q hpade
    refine ⟨r, h1, h4, fun z hz1 hz2 => ?_⟩
    have h5 := congrArg (eval z) h4
    rw [eval_mul, eval_mul, toPoly_eval, toPoly_eval] at h5
    rw [RatPol.eval, div_eq_div_iff hz1 hz2, h5]
  · exact absurd (Dvd.intro_left _ (h3 P Q hpade).symm) hpol

/-- C35, disagreement: `pader` raises `ValueError` for every polynomial of a degree up to `num_deg - den_deg`, unless all
coefficients below `num_deg` are below the tolerance. The degrees are correctly reduced to the ones of the polynomial, but
then the numerator is taken as `an[:den_deg]`, which is empty. -/
theorem pader_polynomial_fails (ext : LinalgExt ℂ) (svd : SvdVals) (L : ℕ) (an : ℕ → ℂ) (m n : ℕ) (rcond : ℝ)
    (hL : m + n + 1 ≤ L) (hnm : n ≤ m) (hrank : RankCorrect svd an rcond)
    (hbig : ∃ i < m, rcond * Real.sqrt (∑ i ∈ Finset.range (m + n + 1), ‖an i‖ ^ 2) < ‖an i‖)
    (hpol : ∀ k, m - n < k → an k = 0) : pader ext svd L an m n rcond = .error .valueError := by
  have hloop : paderLoop ext svd an rcond m n = .ok ([], [1]) := by
    by_cases hn : n = 0
    · subst hn
      rw [paderLoop, if_pos rfl]
      simp
    · have hmat : paderMat an m n = 0 := by
        ext i j
        simp only [paderMat, Matrix.of_apply, toeplitz, Matrix.zero_apply]
        split_ifs
        · exact hpol _ (by omega)
        · rfl
      have hρ : paderRho svd an rcond m n = 0 := by rw [hrank m n hn, hmat, Matrix.rank_zero]
      rw [paderLoop, if_neg hn]
      simp only
      rw [hρ, dif_pos (by omega), if_neg (by omega), paderLoop, if_pos rfl]
      simp
  unfold pader
  rw [if_neg (by omega)]
  simp only
  rw [if_neg, hloop]
  · simp [stripCoeffs, argmaxNonzero, bind, Except.bind]
  · intro hall
    obtain ⟨i, hi, hlt⟩ := hbig
    exact absurd (hall i hi) (not_le.2 hlt)

/-- C35, disagreement: a series which starts with `z ^ num_deg` is taken for zero, as only the coefficients below `num_deg`
are compared with the tolerance: the monomial `c * z ^ num_deg` is of the admitted degree, but the result is zero. -/
theorem pader_monomial_fails (ext : LinalgExt ℂ) (svd : SvdVals) (L : ℕ) (an : ℕ → ℂ) (m n : ℕ) (rcond : ℝ)
    (hL : m + n + 1 ≤ L) (hrc : 0 ≤ rcond) (hzero : ∀ i < m, an i = 0) :
    ∃ r, pader ext svd L an m n rcond = .ok r ∧ ∀ z, r.eval z = 0 := by
  unfold pader
  rw [if_neg (by omega)]
  simp only
  rw [if_pos]
  · exact ⟨_, rfl, fun z => by simp [RatPol.eval, polyval]⟩
  · intro i hi
    rw [hzero i hi, norm_zero]
    exact mul_nonneg hrc (Real.sqrt_nonneg _)

/-! ### The hypotheses can be met -/

/-- Singular values one and zero, as many ones as the rank. -/
private noncomputable def rankSvd : SvdVals where
  vals {n} A := List.replicate A.rank 1 ++ List.replicate (n - A.rank) 0
  length {n} A := by
    have : A.rank ≤ n := by simpa using A.rank_le_card_height
    simp
    omega

private lemma rankSvd_correct (an : ℕ → ℂ) : RankCorrect rankSvd an 0 := by
  classical
  intro m n _
  unfold paderRho
  simp [rankSvd, List.countP_append, List.countP_replicate]

/-- The geometric series, with degrees which have to be reduced. -/
example (ext : LinalgExt ℂ) : ∃ r, pader ext rankSvd 7 (fun _ => 1) 3 3 0 = .ok r ∧
    ∀ z, polyval r.denom z ≠ 0 → z ≠ 1 → r.eval z = 1 / (1 - z) := by
  have hexp : IsExpansion (fun _ => 1) 1 (1 - X) := by
    refine ⟨by simp, ?_⟩
    rw [Polynomial.coe_sub, Polynomial.coe_one, Polynomial.coe_X, mul_comm]
    exact PowerSeries.mk_one_mul_one_sub_eq_one ℂ
  have hdeg : (1 - X : ℂ[X]).natDegree = 1 := by
    rw [← natDegree_neg, neg_sub, ← C_1, natDegree_X_sub_C]
  obtain ⟨r, h1, -, h3⟩ := pader_rational ext rankSvd 7 (fun _ => 1) 3 3 0 (by norm_num) le_rfl (rankSvd_correct _)
    ⟨0, by norm_num, by simp⟩ 1 (1 - X) hexp (by simp) (by omega) (fun h => by
      have := natDegree_le_of_dvd h one_ne_zero
      rw [hdeg] at this
      simp at this)
  refine ⟨r, h1, fun z hz hz1 => ?_⟩
  rw [h3 z hz (by simpa [sub_eq_zero] using hz1.symm)]
  simp

example : ∃ svd : SvdVals, RankCorrect svd (fun k => if k = 0 then 1 else 0) 0 ∧ ∀ ext : LinalgExt ℂ,
    pader ext svd 3 (fun k => if k = 0 then 1 else 0) 1 1 0 = .error .valueError :=
  ⟨rankSvd, rankSvd_correct _, fun ext => pader_polynomial_fails ext _ _ _ _ _ _ (by norm_num) le_rfl (rankSvd_correct _)
    ⟨0, by norm_num, by simp⟩ fun k hk => if_neg (by omega)⟩

end Gftool.Props
