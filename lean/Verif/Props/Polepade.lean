import Verif.Props.NumberPoles
import Verif.Props.Linalg

/-!
# C59: `polepade`: representation and exactness of the Padé approximant
-/

namespace Gftool.Props

open Matrix Polynomial Gftool.Model Gftool.Lemmas Gftool.Spec

/-! ## Zero/pole form and pole expansion -/

/-- Partial fractions: `P / ∏ (x - p_k) = [a] + ∑ r_k / (x - p_k)` with the residues of the
spec; `a` is the leading coefficient if the degrees are equal. -/
lemma partial_fractions {m : ℕ} {P : ℂ[X]} (hP : P.natDegree ≤ m) (p : Fin m → ℂ)
    (hp : Function.Injective p) {x : ℂ} (hx : ∀ k, x ≠ p k) :
    P.eval x / (∏ k, (x - p k)) = (if P.natDegree = m then P.leadingCoeff else 0)
      + ∑ k, residueAt P (Lagrange.nodal Finset.univ p) (p k) / (x - p k) := by
  classical
  set Q := Lagrange.nodal Finset.univ p with hQ
  set a : ℂ := if P.natDegree = m then P.leadingCoeff else 0 with ha
  have hQx : Q.eval x = ∏ k, (x - p k) := Lagrange.eval_nodal
  have hQ0 : Q.eval x ≠ 0 := Lagrange.eval_nodal_not_at_node (fun k _ => hx k)
  have hQm : Q.Monic := Lagrange.nodal_monic
  have hQd : Q.natDegree = m := by rw [hQ, Lagrange.natDegree_nodal]; simp
  have hdeg : (P - C a * Q).degree < m := by
    rcases eq_or_ne m 0 with rfl | hm0
    · have h0 : P.natDegree = 0 := by omega
      obtain ⟨c, rfl⟩ := natDegree_eq_zero.1 h0
      have : Q = 1 := by
        have := hQm.natDegree_eq_zero.1 hQd
        exact this
      rw [ha, if_pos h0, this]
      simp
    rw [degree_lt_iff_coeff_zero]
    intro j hj
    rw [coeff_sub, coeff_C_mul]
    rcases eq_or_lt_of_le hj with rfl | hj'
    · have h1 : Q.coeff m = 1 := by
        have := hQm.coeff_natDegree
        rwa [hQd] at this
      rw [h1, mul_one, ha]
      split_ifs with h
      · rw [← h, coeff_natDegree, sub_self]
      · rw [coeff_eq_zero_of_natDegree_lt (by omega), sub_zero]
    · rw [coeff_eq_zero_of_natDegree_lt (by omega), coeff_eq_zero_of_natDegree_lt (by omega)]
      simp
  have hint := Lagrange.eq_interpolate (s := (Finset.univ : Finset (Fin m))) (v := p) hp.injOn
    (f := P - C a * Q) (by simpa using hdeg)
  have hev := congrArg (eval x) hint
  rw [Lagrange.eval_interpolate_not_at_node _ (fun k _ => hx k), ← hQ] at hev
  have hsum : ∑ k, Lagrange.nodalWeight Finset.univ p k * (x - p k)⁻¹ * (P - C a * Q).eval (p k)
      = ∑ k, residueAt P Q (p k) / (x - p k) := by
    apply Finset.sum_congr rfl
    intro k _
    have h0 : Q.eval (p k) = 0 := Lagrange.eval_nodal_at_node (Finset.mem_univ k)
    rw [Lagrange.nodalWeight_eq_eval_derivative_nodal (Finset.mem_univ k), eval_sub, eval_mul, h0,
      mul_zero, sub_zero, residueAt, ← hQ]
    ring
  rw [hsum, eval_sub, eval_mul, eval_C] at hev
  rw [← hQx]
  field_simp
  linear_combination hev

/-- C59: for simple poles and the residues of the zero/pole form, `eval_polefct` and
`eval_zeropole` are the same function away from the poles. -/
theorem padeapprox_same_function {n m : ℕ} (hnm : n ≤ m) (zeros : Fin n → ℂ) (poles : Fin m → ℂ)
    (a : ℂ) (hinj : Function.Injective poles) {x : ℂ} (hx : ∀ k, x ≠ poles k) :
    (PadeApprox.mk zeros poles
      (fun k => a * (∏ j, (poles k - zeros j)) / ∏ j ∈ Finset.univ.erase k, (poles k - poles j))
      a).evalPolefct x = .ok ((PadeApprox.mk zeros poles 0 a).evalZeropole x) := by
  classical
  unfold PadeApprox.evalPolefct PadeApprox.evalZeropole ZeroPole.eval poleGfZ
  rw [if_neg (by omega)]
  congr 1
  rcases eq_or_ne a 0 with rfl | ha
  · simp
  set P : ℂ[X] := C a * Lagrange.nodal Finset.univ zeros with hPdef
  have hnd : (Lagrange.nodal Finset.univ zeros : ℂ[X]).natDegree = n := by
    rw [Lagrange.natDegree_nodal]; simp
  have hPd : P.natDegree = n := by rw [hPdef, natDegree_C_mul ha, hnd]
  have hPl : P.leadingCoeff = a := by
    rw [hPdef, leadingCoeff_mul, leadingCoeff_C, (Lagrange.nodal_monic).leadingCoeff, mul_one]
  have hPe : ∀ y, P.eval y = a * ∏ j, (y - zeros j) := by
    intro y; rw [hPdef, eval_mul, eval_C, Lagrange.eval_nodal]
  have h := partial_fractions (P := P) (by omega) poles hinj hx
  rw [hPe, hPd, hPl] at h
  simp only
  rw [h]
  congr 1
  apply Finset.sum_congr rfl
  intro k _
  rw [residueAt, hPe, Lagrange.eval_nodal_derivative_eval_node_eq (Finset.mem_univ k),
    Lagrange.eval_nodal]

/-- C59: `eval_polefct` refuses more zeros than poles. -/
theorem padeapprox_polefct_assert {n m : ℕ} (a : PadeApprox n m) (x : ℂ) :
    (∃ e, a.evalPolefct x = .error e) ↔ m < n := by
  unfold PadeApprox.evalPolefct
  split_ifs with h <;> simp [h]

/-! ## `poles` and `zeros` -/

section Exact

variable {N : ℕ} {z f : Fin N → ℂ} {P Q : ℂ[X]}

lemma degree_C_mul_le' (c : ℂ) (S : ℂ[X]) : (C c * S).degree ≤ S.degree := by
  rw [← smul_eq_C_mul]; exact degree_smul_le c S

lemma qrReduced_cast (ext : LinalgExt ℂ) {k : ℕ} (A : Matrix (Fin N) (Fin k) ℂ) (hk : k ≤ N)
    (h : k = min N k) (hinj : ∀ x, A *ᵥ x = 0 → x = 0) :
    ∃ φ : (Fin k → ℂ) ≃ₗ[ℂ] (Fin k → ℂ),
      ∀ u, (qrReduced ext A).submatrix id (Fin.cast h) *ᵥ u = A *ᵥ φ u := by
  obtain ⟨φ, hφ⟩ := qrReduced_equiv ext A hinj
  refine ⟨(LinearEquiv.funCongrLeft ℂ ℂ (finCongr h.symm)).trans φ, fun u => ?_⟩
  rw [LinearEquiv.trans_apply, ← hφ]
  funext i
  simp only [mulVec, dotProduct, Matrix.submatrix_apply, id]
  exact Fintype.sum_equiv (finCongr h) _ _ (fun j => by
    simp [LinearEquiv.funCongrLeft_apply, LinearMap.funLeft])

/-- C59: `poles` finds the poles of a rational function exactly, with multiplicities: the product
`∏ (x - poles)` is the denominator. -/
theorem polepade_poles_exact (ext : PolepadeExt) (hd : IsRationalData z f P Q) {n p : ℕ}
    (hp : Q.natDegree = p) (hn : P.natDegree = n) (hnp : n ≤ p) (hp1 : 1 ≤ p)
    (hN : 2 * p + 1 ≤ N) (hmed : npMedian f ≠ 0) {weight : Option (Fin N → ℝ)}
    (hw : GoodWeight weight) :
    ∃ pls, polepadePoles ext z f n p weight = .ok pls ∧ ∀ x, ∏ k, (x - pls k) = Q.eval x := by
  have hP0 : P ≠ 0 := by
    rintro rfl
    have := natDegree_eq_zero_of_isUnit (isCoprime_zero_left.1 hd.coprime)
    omega
  set s := rowScaling (hcat (vanderC z p) (-vanderC z (n + 1))) weight with hsdef
  have hs : ∀ i, s i ≠ 0 := by
    intro i
    refine rowScaling_ne _ i (j := ⟨0, by omega⟩) ?_ hw
    have : (⟨0, by omega⟩ : Fin (p + (n + 1))) = Fin.castAdd (n + 1) ⟨0, by omega⟩ := by
      ext; simp
    rw [this]
    simp only [hcat, Matrix.of_apply, Fin.append_left]
    simp [vanderC]
  set B : Matrix (Fin N) (Fin (n + 1)) ℂ :=
    Matrix.of fun i j => s i * (-vanderC z (n + 1)) i j with hB
  have hBx : ∀ x i, (B *ᵥ x) i = -(s i * (vecPoly (n + 1) x : ℂ[X]).eval (z i)) := by
    intro x i
    rw [← smul_vander_mulVec]
    simp [hB, mulVec, dotProduct]
  have hBinj : ∀ x, B *ᵥ x = 0 → x = 0 := by
    intro x hx
    apply scaled_vander_inj hd.inj (by omega : n + 1 ≤ N) hs
    funext i
    have := congrFun hx i
    rw [hBx] at this
    rw [smul_vander_mulVec]
    simpa using this
  have hok : ∃ perp, orthCompl ext.toLinalgExt B = .ok perp := by
    unfold orthCompl
    rw [if_neg (by omega)]
    exact ⟨_, rfl⟩
  obtain ⟨perp, hperp⟩ := hok
  set A : Matrix (Fin N) (Fin p) ℂ :=
    Matrix.of fun i j => s i * (f i / npMedian f) * vanderC z p i j with hA
  have hAx : ∀ x i, (A *ᵥ x) i
      = s i * (f i / npMedian f) * (vecPoly p x : ℂ[X]).eval (z i) := by
    intro x i
    rw [hA, smul_vander_mulVec]
  have hAinj : ∀ x, A *ᵥ x = 0 → x = 0 := by
    intro x hx
    apply scaled_fvander_inj hd hP0 (hn.le.trans hnp) (by omega : p + p ≤ N) hs
    funext i
    have := congrFun hx i
    rw [hAx] at this
    rw [smul_vander_mulVec, Pi.zero_apply]
    have h2 : s i * f i * (vecPoly p x : ℂ[X]).eval (z i)
        = npMedian f * (s i * (f i / npMedian f) * (vecPoly p x : ℂ[X]).eval (z i)) := by
      field_simp
    rw [h2, this]; simp
  obtain ⟨φ, hφ⟩ := qrReduced_cast ext.toLinalgExt A (by omega) (by omega) hAinj
  refine ⟨pencilEig ext z perp ((qrReduced ext.toLinalgExt A).submatrix id
    (Fin.cast (by omega))), ?_, ?_⟩
  · unfold polepadePoles
    simp only
    rw [← hsdef, ← hB, hperp]
    simp only
    rw [if_neg hmed, dif_pos (by omega : p ≤ N)]
  · intro x
    refine pencilEig_exact ext z (fun i => s i * (f i / npMedian f)) B hperp hBinj _
      (φ.trans (vecPoly p)) ?_ hd.monic hp ?_ x
    · intro u i
      rw [hφ, hAx]; rfl
    · intro S hS
      constructor
      · rintro ⟨x, hx⟩
        have hfit := (fit_iff hd (hn.le.trans hnp) hp (by omega : p + 1 + p ≤ N)
          (by omega : n + 1 + p ≤ N) hS
          (Submodule.smul_mem _ (-npMedian f) (vecPoly (n + 1) x).2)).1 (by
            intro i
            have := congrFun hx i
            rw [hBx] at this
            have h3 : s i * (f i * S.eval (z i) - eval (z i) (-npMedian f • (vecPoly (n + 1) x : ℂ[X])))
                = 0 := by
              rw [eval_smul, smul_eq_mul]
              field_simp at this
              linear_combination this
            exact sub_eq_zero.1 ((mul_eq_zero.1 h3).resolve_left (hs i)))
        obtain ⟨T, hT, _⟩ := hfit
        have hT0 : T.natDegree = 0 := by
          rcases eq_or_ne T 0 with h0 | h0
          · rw [h0]; simp
          rw [hT, mem_degreeLT, ← natDegree_lt_iff_degree_lt (mul_ne_zero h0 hd.monic.ne_zero),
            natDegree_mul h0 hd.monic.ne_zero] at hS
          omega
        obtain ⟨c, rfl⟩ := natDegree_eq_zero.1 hT0
        exact ⟨c, hT⟩
      · rintro ⟨c, rfl⟩
        have hmem : C (-(c / npMedian f)) * P ∈ degreeLT ℂ (n + 1) := by
          rw [mem_degreeLT]
          refine lt_of_le_of_lt (degree_C_mul_le' _ _) ?_
          rw [degree_eq_natDegree hP0, hn]
          exact_mod_cast Nat.lt_succ_self n
        refine ⟨(vecPoly (n + 1)).symm ⟨_, hmem⟩, ?_⟩
        funext i
        rw [hBx, LinearEquiv.apply_symm_apply, hd.val i]
        have hq := hd.den_ne i
        simp only [eval_mul, eval_C]
        field_simp

/-- C59: `zeros` finds the zeros of a rational function exactly, with multiplicities. -/
theorem polepade_zeros_exact (ext : PolepadeExt) (hd : IsRationalData z f P Q) {n m : ℕ}
    (hn : P.natDegree = n) (hn1 : 1 ≤ n) (hN : n + 1 ≤ N) (hmed : npMedian f ≠ 0)
    {weight : Option (Fin N → ℝ)} (hw : GoodWeight weight) (pls : Fin m → ℂ)
    (hpls : ∀ x, ∏ k, (x - pls k) = Q.eval x) :
    ∃ zrs, polepadeZeros ext z f pls n weight = .ok zrs ∧
      ∀ x, P.leadingCoeff * ∏ k, (x - zrs k) = P.eval x := by
  have hP0 : P ≠ 0 := by
    rintro rfl
    simp at hn; omega
  have hl0 : P.leadingCoeff ≠ 0 := leadingCoeff_ne_zero.2 hP0
  set s := rowScaling (vanderC z n) weight with hsdef
  have hs : ∀ i, s i ≠ 0 := by
    intro i
    refine rowScaling_ne _ i (j := ⟨0, by omega⟩) ?_ hw
    simp [vanderC]
  set B : Matrix (Fin N) (Fin 1) ℂ :=
    Matrix.of fun i (_ : Fin 1) => s i * ((f i / npMedian f) * ∏ k, (z i - pls k)) with hB
  have hBx : ∀ x i, (B *ᵥ x) i = s i * (P.eval (z i) / npMedian f * x 0) := by
    intro x i
    have hq := hd.den_ne i
    simp only [hB, mulVec, dotProduct, Matrix.of_apply, Fin.sum_univ_one]
    rw [hpls, hd.val i]
    field_simp
  have hBinj : ∀ x, B *ᵥ x = 0 → x = 0 := by
    intro x hx
    by_contra hne
    have hx0 : x 0 ≠ 0 := by
      intro h0; apply hne; funext i; rw [Subsingleton.elim i 0, h0]; rfl
    apply hP0
    apply poly_eq_zero_of_eval hd.inj
    · rw [mem_degreeLT, degree_eq_natDegree hP0, hn]
      exact_mod_cast (by omega : n < N)
    · intro i
      have := congrFun hx i
      rw [hBx] at this
      simpa [hs i, hx0, hmed] using this
  have hok : ∃ perp, orthCompl ext.toLinalgExt B = .ok perp := by
    unfold orthCompl
    rw [if_neg (by omega)]
    exact ⟨_, rfl⟩
  obtain ⟨perp, hperp⟩ := hok
  obtain ⟨φ, hφ⟩ := qrReduced_cast ext.toLinalgExt
    (Matrix.of fun i j => s i * vanderC z n i j) (by omega) (by omega)
    (scaled_vander_inj hd.inj (by omega) hs)
  set Q' : ℂ[X] := C (P.leadingCoeff)⁻¹ * P with hQ'
  have hmonic : Q'.Monic := by
    rw [Monic, hQ', leadingCoeff_mul, leadingCoeff_C, inv_mul_cancel₀ hl0]
  have hdeg' : Q'.natDegree = n := by
    rw [hQ', natDegree_C_mul (inv_ne_zero hl0), hn]
  have hPQ : P = C P.leadingCoeff * Q' := by
    rw [hQ', ← mul_assoc, ← C_mul, mul_inv_cancel₀ hl0]; simp
  refine ⟨pencilEig ext z perp ((qrReduced ext.toLinalgExt
    (Matrix.of fun i j => s i * vanderC z n i j)).submatrix id (Fin.cast (by omega))), ?_, ?_⟩
  · unfold polepadeZeros
    simp only
    rw [if_neg (by omega), ← hsdef, ← hB, hperp]
    simp only
    rw [if_neg hmed, dif_pos (by omega : n ≤ N)]
  · intro x
    have key := pencilEig_exact ext z s B hperp hBinj
      ((qrReduced ext.toLinalgExt
        (Matrix.of fun i j => s i * vanderC z n i j)).submatrix id (Fin.cast (by omega)))
      (φ.trans (vecPoly n)) (by
        intro u i
        rw [hφ, smul_vander_mulVec]; rfl) hmonic hdeg' (by
        intro S hS
        constructor
        · rintro ⟨x, hx⟩
          refine ⟨x 0 / npMedian f * P.leadingCoeff, ?_⟩
          rw [C_mul, mul_assoc, ← hPQ]
          have h0 : S - C (x 0 / npMedian f) * P = 0 := by
            apply poly_eq_zero_of_eval hd.inj
            · apply Submodule.sub_mem
              · exact degreeLT_mono (by omega) hS
              · rw [mem_degreeLT]
                refine lt_of_le_of_lt (degree_C_mul_le' _ _) ?_
                rw [degree_eq_natDegree hP0, hn]
                exact_mod_cast (by omega : n < N)
            · intro i
              have := congrFun hx i
              rw [hBx] at this
              have h2 := mul_left_cancel₀ (hs i) this
              simp only [eval_sub, eval_mul, eval_C]
              rw [h2]; ring
          linear_combination h0
        · rintro ⟨c, rfl⟩
          refine ⟨fun _ => c * npMedian f / P.leadingCoeff, ?_⟩
          funext i
          rw [hBx, hQ']
          simp only [eval_mul, eval_C]
          field_simp) x
    rw [key]
    have h9 := congrArg (eval x) hPQ
    rw [eval_mul, eval_C] at h9
    exact h9.symm

/-- C59 is violated for `n = 0`, e.g. for the continuation of a function with a single pole and
`degree = -1`: `zeros` always raises a `ValueError`. -/
theorem polepade_zeros_empty_fails (ext : PolepadeExt) {m : ℕ} (pls : Fin m → ℂ)
    (weight : Option (Fin N → ℝ)) :
    polepadeZeros ext z f pls 0 weight = .error .valueError := by
  simp [polepadeZeros]

/-! ## `asymptotic` -/

/-- C59: for exact data the asymptotic is the amplitude and its error vanishes. -/
theorem asymptotic_exact {n m : ℕ} (a : ℂ) (zrs : Fin n → ℂ) (pls : Fin m → ℂ) (hN : 0 < N)
    (hf : ∀ i, f i = (ZeroPole.mk zrs pls a).eval (z i))
    (hz : ∀ i k, z i ≠ zrs k) (hp : ∀ i k, z i ≠ pls k) (weight : Option (Fin N → ℝ))
    (hw : ∀ w, weight = some w → ∑ i, w i ≠ 0) :
    asymptotic z f zrs pls weight = .ok (a, 0) := by
  have hr : ∀ i, asymRatios z f zrs pls i = a := by
    intro i
    have h1 : ∏ k, (z i - zrs k) ≠ 0 := Finset.prod_ne_zero_iff.2 fun k _ => sub_ne_zero.2 (hz i k)
    have h2 : ∏ k, (z i - pls k) ≠ 0 := Finset.prod_ne_zero_iff.2 fun k _ => sub_ne_zero.2 (hp i k)
    unfold asymRatios
    rw [hf i]
    unfold ZeroPole.eval ZeroPole.reciprocal
    simp only
    field_simp
  have hN' : (N : ℂ) ≠ 0 := by exact_mod_cast hN.ne'
  unfold asymptotic
  cases weight with
  | none =>
    simp only [hr]
    have : (∑ _i : Fin N, a) / (N : ℂ) = a := by
      rw [Finset.sum_const, Finset.card_univ, Fintype.card_fin, nsmul_eq_mul]
      field_simp
    simp only [this, sub_self]
    simp
  | some w =>
    simp only [hr]
    have hw0 := hw w rfl
    rw [if_neg hw0]
    have : (∑ i, (w i : ℂ) * a) / ((∑ i, w i : ℝ) : ℂ) = a := by
      have h0 : ((∑ i, w i : ℝ) : ℂ) ≠ 0 := by exact_mod_cast hw0
      rw [← Finset.sum_mul, div_eq_iff h0]
      push_cast
      ring
    simp only [this, sub_self]
    simp

/-- C59: without weights the reported error is the sample standard deviation. -/
theorem asymptotic_std {n m : ℕ} (zrs : Fin n → ℂ) (pls : Fin m → ℂ) :
    ∃ a s, asymptotic z f zrs pls none = .ok (a, s) ∧
      a = (∑ i, asymRatios z f zrs pls i) / N ∧
      s = Real.sqrt ((∑ i, ‖asymRatios z f zrs pls i - a‖ ^ 2) / ((N : ℝ) - 1)) :=
  ⟨_, _, rfl, rfl, rfl⟩

/-- C59 is violated with weights: the reported "standard deviation" is the variance. Data `3` and
`-3` at equal weights have the standard deviation `3`, reported is `9`. -/
theorem asymptotic_weighted_std_wrong :
    asymptotic ![0, 1] ![3, -3] (![] : Fin 0 → ℂ) (![] : Fin 0 → ℂ) (some ![1, 1]) = .ok (0, 9) ∧
      Real.sqrt ((1 * ‖(3 : ℂ) - 0‖ ^ 2 + 1 * ‖(-3 : ℂ) - 0‖ ^ 2) / 2) = 3 := by
  constructor
  · unfold asymptotic asymRatios ZeroPole.reciprocal
    simp [Fin.sum_univ_two]
    try norm_num
  · have : (1 * ‖(3 : ℂ) - 0‖ ^ 2 + 1 * ‖(-3 : ℂ) - 0‖ ^ 2) / 2 = (3 : ℝ) ^ 2 := by
      simp
    rw [this]
    exact Real.sqrt_sq (by norm_num)

/-! ## `residues_ols` -/

lemma cauchy_inj {m : ℕ} (hz : Function.Injective z) (pls : Fin m → ℂ)
    (hpls : Function.Injective pls) (hzp : ∀ i k, z i ≠ pls k) (hN : m ≤ N) {w : Fin N → ℂ}
    (hw : ∀ i, w i ≠ 0) (r : Fin m → ℂ)
    (h : (Matrix.of fun i j => 1 / (z i - pls j) * w i) *ᵥ r = 0) : r = 0 := by
  classical
  set S : ℂ[X] := ∑ k, C (r k) * Lagrange.nodal (Finset.univ.erase k) pls with hS
  have hSe : ∀ x, (∀ k, x ≠ pls k) →
      S.eval x = (∏ k, (x - pls k)) * ∑ k, r k / (x - pls k) := by
    intro x hx
    rw [hS, eval_finsetSum, Finset.mul_sum]
    apply Finset.sum_congr rfl
    intro k _
    rw [eval_mul, eval_C, Lagrange.eval_nodal,
      ← Finset.mul_prod_erase Finset.univ (fun j => x - pls j) (Finset.mem_univ k)]
    have := sub_ne_zero.2 (hx k)
    field_simp
  have hS0 : S = 0 := by
    apply poly_eq_zero_of_eval hz
    · rw [hS]
      apply Submodule.sum_mem
      intro k _
      rw [mem_degreeLT]
      refine lt_of_le_of_lt (degree_C_mul_le' _ _) ?_
      rw [Lagrange.degree_nodal, Finset.card_erase_of_mem (Finset.mem_univ k), Finset.card_univ,
        Fintype.card_fin]
      have := k.2
      exact_mod_cast (by omega : m - 1 < N)
    · intro i
      rw [hSe _ (hzp i)]
      have := congrFun h i
      have h2 : ((Matrix.of fun i j => 1 / (z i - pls j) * w i) *ᵥ r) i
          = w i * ∑ k, r k / (z i - pls k) := by
        simp only [mulVec, dotProduct, Matrix.of_apply, Finset.mul_sum]
        apply Finset.sum_congr rfl
        intro k _; ring
      rw [h2] at this
      rw [(mul_eq_zero.1 this).resolve_left (hw i), mul_zero]
  funext k
  have h3 := congrArg (eval (pls k)) hS0
  rw [hS, eval_finsetSum, eval_zero, Finset.sum_eq_single k] at h3
  · rw [eval_mul, eval_C, Lagrange.eval_nodal] at h3
    refine (mul_eq_zero.1 h3).resolve_right ?_
    refine Finset.prod_ne_zero_iff.2 fun j hj => ?_
    exact sub_ne_zero.2 fun he => (Finset.ne_of_mem_erase hj) (hpls he).symm
  · intro j _ hj
    rw [eval_mul, Lagrange.eval_nodal_at_node (Finset.mem_erase.2 ⟨hj.symm, Finset.mem_univ k⟩),
      mul_zero]
  · simp

/-- C59: for data which are a sum of simple poles at the given positions, `residues_ols` returns
the residues, also if the exact moments are given as constraints. -/
theorem residues_ols_exact (ext : LinalgExt ℂ) {m l : ℕ} (hz : Function.Injective z)
    (pls : Fin m → ℂ) (hpls : Function.Injective pls) (hzp : ∀ i k, z i ≠ pls k) (hm : 1 ≤ m)
    (hN : m ≤ N) (r : Fin m → ℂ) (hf : ∀ i, f i = poleGfZ (z i) pls r)
    {weight : Option (Fin N → ℝ)} (hw : GoodWeight weight) (moments : Fin l → ℂ) (hl : l ≤ m)
    (hmom : ∀ j, moments j = ∑ k, r k * pls k ^ (j : ℕ)) :
    residuesOls ext z f pls weight moments = .ok r := by
  set w : Fin N → ℂ := weightFn weight with hwdef
  have hw0 : ∀ i, w i ≠ 0 := by
    intro i
    rw [hwdef]
    cases weight with
    | none => simp [weightFn]
    | some v => simpa [weightFn] using hw v rfl i
  set A : Matrix (Fin N) (Fin m) ℂ := Matrix.of fun i j => 1 / (z i - pls j) * w i with hA
  have hAr : A *ᵥ r = fun i => f i * w i := by
    funext i
    rw [hf i, poleGfZ, Finset.sum_mul]
    simp only [hA, mulVec, dotProduct, Matrix.of_apply]
    apply Finset.sum_congr rfl
    intro k _; ring
  have huniq : ∀ x, sqNorm (A *ᵥ x - fun i => f i * w i) ≤ 0 → x = r := by
    intro x hx
    have h0 := sqNorm_eq_zero (le_antisymm hx (sqNorm_nonneg _))
    have h1 : A *ᵥ (x - r) = 0 := by rw [mulVec_sub, hAr]; exact h0
    exact sub_eq_zero.1 (cauchy_inj hz pls hpls hzp hN hw0 _ h1)
  have hzero : sqNorm (A *ᵥ r - fun i => f i * w i) = 0 := by
    rw [hAr, sub_self]; exact sqNorm_zero
  unfold residuesOls
  simp only
  rw [← hwdef, ← hA]
  split_ifs with h0 h1
  · congr 1
    apply huniq
    rw [← hzero]
    exact ext.lstsq_min A _ r
  · omega
  · set c : Matrix (Fin l) (Fin m) ℂ := Matrix.of fun i j => pls j ^ (i : ℕ) with hc
    have hcr : c *ᵥ r = moments := by
      funext j
      rw [hmom]
      simp [hc, mulVec, dotProduct, mul_comm]
    have hrank : c.rank = l := by
      -- the rows are independent
      have hinj : Function.Injective cᵀ.mulVecLin := by
        rw [← LinearMap.ker_eq_bot, LinearMap.ker_eq_bot']
        intro x hx
        have hx' : vanderC pls l *ᵥ x = 0 := hx
        have h3 : (vecPoly l x : ℂ[X]) = 0 := by
          apply poly_eq_zero_of_eval hpls (degreeLT_mono hl (vecPoly l x).2)
          intro k
          rw [← vanderC_mulVec, hx']; rfl
        exact (LinearEquiv.map_eq_zero_iff (vecPoly l)).1 (Subtype.ext h3)
      rw [← Matrix.rank_transpose, Matrix.rank, LinearMap.finrank_range_of_inj hinj]
      simp
    obtain ⟨x, hx1, hx2, hx3⟩ := lstsq_ec_optimal ext A (fun i => f i * w i) c moments (by omega) hrank
    rw [hx1]
    congr 1
    apply huniq
    rw [← hzero]
    exact hx3 r hcr

/-- C59: more moments than poles are refused. -/
theorem residues_ols_too_many_moments (ext : LinalgExt ℂ) {m l : ℕ} (pls : Fin m → ℂ)
    (weight : Option (Fin N → ℝ)) (moments : Fin l → ℂ) (hl : m < l) :
    residuesOls ext z f pls weight moments = .error .valueError := by
  unfold residuesOls
  simp only
  rw [if_neg (by omega), if_pos hl]

end Exact

end Gftool.Props
