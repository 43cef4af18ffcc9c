import Verif.Lemmas.Polepade

/-!
# C58: `polepade.number_poles`
-/

namespace Gftool.Props

open Matrix Polynomial Gftool.Model Gftool.Lemmas Gftool.Spec

/-! ## Bounds and errors, for arbitrary singular values -/

lemma numPolesStep_no_assert (nullDim : ℤ → ℕ) (degree absMax : ℤ) (fuel : ℕ) (s : NumPolesState)
    (e : Err) (h : numPolesLoop nullDim degree absMax fuel s = some (.error e)) :
    e = .runtimeError := by
  have := numPolesLoop_inv (nullDim := nullDim) (degree := degree) (absMax := absMax)
    (fun _ => True) (fun r => ∀ e, r = .error e → e = .runtimeError) (by
      intro s _
      unfold numPolesStep
      split_ifs
      all_goals first
        | trivial
        | (intro e he; cases he; rfl)
        | (intro e he; cases he)) (s := s) (fuel := fuel) trivial h
  exact this e rfl

/-- C58: the assertion in `number_poles` fails for the default start exactly if
`z.size - degree` is even and at most 100, whatever the data. -/
theorem number_poles_assert_iff (nullDim : ℤ → ℕ) (size degree : ℤ) (fuel : ℕ) :
    numberPoles nullDim size degree none fuel = some (.error .assertionError) ↔
      (size - degree) % 2 = 0 ∧ size - degree ≤ 100 := by
  unfold numberPoles
  simp only
  split_ifs with h
  · constructor
    · intro h1
      have := numPolesStep_no_assert _ _ _ _ _ _ h1
      cases this
    · rintro ⟨h1, h2⟩
      exfalso
      rw [min_def] at h
      split_ifs at h <;> omega
  · simp only [true_iff]
    rw [min_def] at h
    split_ifs at h <;> omega

/-- C58 is violated: five data points of a Green's function (`degree = -1`) are enough for two
poles, as `2 * 2 - 1 < 5`, but `number_poles` raises an `AssertionError` for all such data. -/
theorem number_poles_assert_fails (nullDim : ℤ → ℕ) (fuel : ℕ) :
    2 * (2 : ℤ) + -1 < 5 ∧
      numberPoles nullDim 5 (-1) none fuel = some (.error .assertionError) :=
  ⟨by norm_num, (number_poles_assert_iff nullDim 5 (-1) fuel).2 (by norm_num)⟩

/-- C58: a start value beyond the limit raises a `ValueError`. -/
theorem number_poles_value_error (nullDim : ℤ → ℕ) (size degree n0 : ℤ) (fuel : ℕ)
    (h : (size - degree) / 2 < n0) :
    numberPoles nullDim size degree (some n0) fuel = some (.error .valueError) := by
  simp [numberPoles, h]

/-- What `number_poles` promises for a result `n`: at most `(size - degree) / 2` poles, and
either the solution is unique (null dimension one), or there is none for `n` poles while for
`n + 1` poles it is not unique. -/
theorem number_poles_sound {nullDim : ℤ → ℕ} {size degree : ℤ} {n0 : Option ℤ} {fuel : ℕ} {n : ℤ}
    (hdeg : degree ≤ 0) (h : numberPoles nullDim size degree n0 fuel = some (.ok n)) :
    n ≤ (size - degree) / 2 ∧ (nullDim n = 1 ∨
      (nullDim n = 0 ∧ n < (size - degree) / 2 ∧ 2 ≤ nullDim (n + 1))) := by
  have key : ∀ start : ℤ, start ≤ (size - degree) / 2 →
      numPolesLoop nullDim degree ((size - degree) / 2) fuel ⟨(size - degree) / 2, start⟩
        = some (.ok n) → n ≤ (size - degree) / 2 ∧ (nullDim n = 1 ∨
      (nullDim n = 0 ∧ n < (size - degree) / 2 ∧ 2 ≤ nullDim (n + 1))) := by
    intro start hstart hl
    generalize (size - degree) / 2 = A at *
    have := numPolesLoop_inv (nullDim := nullDim) (degree := degree) (absMax := A)
      (fun s => s.n ≤ s.maxN ∧ s.maxN ≤ A ∧ (s.maxN = A ∨ 2 ≤ nullDim (s.maxN + 1)))
      (fun r => ∀ n, r = .ok n → n ≤ A ∧ (nullDim n = 1 ∨
        (nullDim n = 0 ∧ n < A ∧ 2 ≤ nullDim (n + 1)))) (by
        rintro ⟨mx, k⟩ ⟨h1, h2, h3⟩
        simp only at h1 h2 h3
        unfold numPolesStep
        simp only
        split_ifs with c1 c2 c3 c4
        · intro n hn; cases hn; exact ⟨by omega, Or.inl c1⟩
        · intro n hn; cases hn
        · intro n hn; cases hn
          refine ⟨by omega, Or.inr ⟨c2, by omega, ?_⟩⟩
          rcases h3 with h3 | h3
          · omega
          · rwa [c4]
        · exact ⟨min_le_right _ _, h2, h3⟩
        · refine ⟨?_, by simp only; omega, Or.inr ?_⟩
          · simp only; omega
          · simp only [sub_add_cancel]; omega)
      (s := ⟨A, start⟩) (fuel := fuel) ⟨hstart, le_rfl, Or.inl rfl⟩ hl
    exact this n rfl
  unfold numberPoles at h
  cases n0 with
  | none =>
    simp only at h
    split_ifs at h with h1
    · exact key _ (min_le_left _ _) h
    · cases h
  | some k =>
    simp only at h
    by_cases hk : (size - degree) / 2 < k
    · rw [if_pos hk] at h; cases h
    · rw [if_neg hk] at h
      simp only at h
      split_ifs at h with h1
      · exact key _ (by omega) h
      · cases h

/-- C58: a `RuntimeError` is only raised if there is no solution with the maximal number of
poles. -/
theorem number_poles_runtime_error {nullDim : ℤ → ℕ} {size degree : ℤ} {n0 : Option ℤ} {fuel : ℕ}
    (h : numberPoles nullDim size degree n0 fuel = some (.error .runtimeError)) :
    nullDim ((size - degree) / 2) = 0 := by
  have key : ∀ start : ℤ,
      numPolesLoop nullDim degree ((size - degree) / 2) fuel ⟨(size - degree) / 2, start⟩
        = some (.error .runtimeError) → nullDim ((size - degree) / 2) = 0 := by
    intro start hl
    generalize (size - degree) / 2 = A at *
    have := numPolesLoop_inv (nullDim := nullDim) (degree := degree) (absMax := A)
      (fun _ => True) (fun r => r = .error .runtimeError → nullDim A = 0) (by
        rintro ⟨mx, k⟩ _
        unfold numPolesStep
        simp only
        split_ifs with c1 c2 c3 c4
        · intro hn; cases hn
        · intro _; rwa [← c3]
        · intro hn; cases hn
        · trivial
        · trivial)
      (s := ⟨A, start⟩) (fuel := fuel) trivial hl
    exact this rfl
  unfold numberPoles at h
  cases n0 with
  | none =>
    simp only at h
    split_ifs at h with h1
    · exact key _ h
    · cases h
  | some k =>
    simp only at h
    by_cases hk : (size - degree) / 2 < k
    · rw [if_pos hk] at h; cases h
    · rw [if_neg hk] at h
      simp only at h
      split_ifs at h with h1
      · exact key _ h
      · cases h

/-! ## Termination -/

/-- Termination of the loop if every step leaves at least zero poles. -/
lemma numPolesLoop_terminates {nullDim : ℤ → ℕ} {degree A start : ℤ} (hdeg : degree ≤ 0)
    (h0 : nullDim 0 ≤ 1)
    (hbound : ∀ k : ℤ, 1 ≤ k → k ≤ A → 2 ≤ nullDim k →
      ((nullDim k : ℤ) - degree) / 2 < k ∨ (k = 1 ∧ ((nullDim k : ℤ) - degree) / 2 = 1))
    (hs : (1 ≤ start ∧ start ≤ A) ∨ (start = 0 ∧ A = 0)) :
    ∃ r, numPolesLoop nullDim degree A ((A * (A + 1) + A).toNat + 1) ⟨A, start⟩ = some r := by
  refine numPolesLoop_term
    (fun s => ((1 ≤ s.n ∧ s.n ≤ s.maxN) ∨ (s.n = 0 ∧ s.maxN = 0)) ∧ s.maxN ≤ A)
    (fun s => (s.maxN * (A + 1) + (s.maxN - s.n)).toNat) ?_ _ _ ⟨?_, le_rfl⟩ ?_
  · rintro ⟨mx, k⟩ ⟨h1, h2⟩
    simp only at h1 h2
    unfold numPolesStep
    simp only
    split_ifs with c1 c2 c3 c4
    · trivial
    · trivial
    · trivial
    · rcases h1 with ⟨ha, hb⟩ | ⟨ha, hb⟩
      · simp only
        refine ⟨⟨Or.inl ⟨?_, min_le_right _ _⟩, h2⟩, ?_⟩
        · rw [le_min_iff]; omega
        · have hmin : k < min (2 * k) mx := by rw [lt_min_iff]; omega
          have hmin2 : min (2 * k) mx ≤ mx := min_le_right _ _
          have : 0 ≤ mx * (A + 1) := mul_nonneg (by omega) (by omega)
          omega
      · omega
    · have hk1 : 1 ≤ k ∧ k ≤ mx := by
        rcases h1 with h1 | ⟨ha, hb⟩
        · exact h1
        · subst ha; omega
      have hnull : 2 ≤ nullDim k := by omega
      simp only
      have hge1 : 1 ≤ ((nullDim k : ℤ) - degree) / 2 := by omega
      have hmu : ∀ k' : ℤ, 0 ≤ k' → ((k - 1) * (A + 1) + (k - 1 - k')).toNat
          < (mx * (A + 1) + (mx - k)).toNat := by
        intro k' hk'
        have h3 : (k - 1) * (A + 1) + (A + 1) ≤ mx * (A + 1) := by nlinarith
        have h4 : 0 ≤ (k - 1) * (A + 1) := mul_nonneg (by omega) (by omega)
        omega
      rcases hbound k hk1.1 (by omega) hnull with hb | ⟨hb1, hb2⟩
      · exact ⟨⟨Or.inl ⟨by omega, by omega⟩, by omega⟩, hmu _ (by omega)⟩
      · exact ⟨⟨Or.inr ⟨by omega, by omega⟩, by omega⟩, hmu _ (by omega)⟩
  · exact hs
  · simp only
    have hA : 0 ≤ A := by omega
    have : 0 ≤ A * (A + 1) := by positivity
    omega

/-- The two orthonormal blocks bound the null dimension by the number of columns of the second. -/
lemma polesNullDim_le (ext : LinalgExt ℂ) {N : ℕ} (z f : Fin N → ℂ) (degree : ℤ)
    (weight : Option (Fin N → ℝ)) (n : ℤ) :
    polesNullDim ext z f degree weight n ≤ sliceLen (max n (n + degree) + 2) (n + degree + 1) := by
  unfold polesNullDim
  simp only
  generalize sliceLen (max n (n + degree) + 2) (n + degree + 1) = k2
  generalize sliceLen (max n (n + degree) + 2) (n + 1) = k1
  generalize hA : (Matrix.of fun i j => rowScaling (hcat (vanderC z k1) (vanderC z k2)) weight i
    * f i * vanderC z k1 i j) = A
  generalize (Matrix.of fun i j => rowScaling (hcat (vanderC z k1) (vanderC z k2)) weight i
    * vanderC z k2 i j) = B
  have hrank : min N k1 ≤ (hcat (qrReduced ext A) (qrReduced ext B)).rank := by
    have horth : (qrReduced ext A)ᴴ * qrReduced ext A = 1 := by
      have hU := (Matrix.mem_unitaryGroup_iff').1 (ext.qr_unitary A)
      ext i j
      have := congrFun (congrFun hU ⟨i, by omega⟩) ⟨j, by omega⟩
      simp only [Matrix.mul_apply, Matrix.star_apply, Matrix.one_apply, Fin.mk.injEq] at this
      simp only [Matrix.mul_apply, qrReduced, Matrix.conjTranspose_apply, Matrix.of_apply,
        Matrix.one_apply, Fin.ext_iff]
      exact this
    have h1 : (qrReduced ext A).rank = min N k1 := by
      have hle : (qrReduced ext A).rank ≤ min N k1 := by
        simpa using (qrReduced ext A).rank_le_width
      have hge : min N k1 ≤ (qrReduced ext A).rank := by
        have := Matrix.rank_mul_le_right (qrReduced ext A)ᴴ (qrReduced ext A)
        rwa [horth, Matrix.rank_one, Fintype.card_fin] at this
      omega
    refine h1.ge.trans ?_
    have h2 : qrReduced ext A = hcat (qrReduced ext A) (qrReduced ext B)
        * (Matrix.of fun (i : Fin (min N k1 + min N k2)) (j : Fin (min N k1)) =>
            if i = Fin.castAdd _ j then (1 : ℂ) else 0) := by
      ext i j
      simp [Matrix.mul_apply, hcat]
    conv_lhs => rw [h2]
    exact Matrix.rank_mul_le_left _ _
  omega

/-- C58: `number_poles` with the default start terminates for every data set, weight and
`degree = 0, -1, -2`; if it does not fail, the result obeys `number_poles_sound`. -/
theorem number_poles_terminates (ext : LinalgExt ℂ) {N : ℕ} (z f : Fin N → ℂ) {degree : ℤ}
    (hdeg : degree ≤ 0) (hdeg2 : -2 ≤ degree) (weight : Option (Fin N → ℝ)) (n0 : Option ℤ)
    (hn0 : ∀ k, n0 = some k → 1 ≤ k) :
    ∃ fuel r, ∀ fuel' ≥ fuel,
      numberPoles (polesNullDim ext z f degree weight) N degree n0 fuel' = some r := by
  set nd := polesNullDim ext z f degree weight with hnd
  set A : ℤ := ((N : ℤ) - degree) / 2 with hA
  have hA0 : 0 ≤ A := by omega
  have hle : ∀ k : ℤ, nd k ≤ sliceLen (max k (k + degree) + 2) (k + degree + 1) :=
    fun k => polesNullDim_le ext z f degree weight k
  have h0 : nd 0 ≤ 1 := by
    have := hle 0
    unfold sliceLen at this
    rw [max_eq_left (by omega)] at this
    split_ifs at this <;> omega
  have hb : ∀ k : ℤ, 1 ≤ k → k ≤ A → 2 ≤ nd k →
      ((nd k : ℤ) - degree) / 2 < k ∨ (k = 1 ∧ ((nd k : ℤ) - degree) / 2 = 1) := by
    intro k hk _ h2
    have := hle k
    unfold sliceLen at this
    rw [max_eq_left (by omega)] at this
    split_ifs at this <;> omega
  have key : ∀ start : ℤ, ((1 ≤ start ∧ start ≤ A) ∨ (start = 0 ∧ A = 0)) →
      ∃ fuel r, ∀ fuel' ≥ fuel, numPolesLoop nd degree A fuel' ⟨A, start⟩ = some r := by
    intro start hs
    obtain ⟨r, hr⟩ := numPolesLoop_terminates hdeg h0 hb hs
    exact ⟨_, r, fun fuel' h => numPolesLoop_mono hr h⟩
  unfold numberPoles
  cases n0 with
  | none =>
    simp only
    by_cases h1 : 2 * min A 50 + degree < N
    · simp only [← hA, h1, if_true]
      apply key
      by_cases hA1 : A = 0
      · right; rw [hA1]; simp
      · left; refine ⟨?_, min_le_left _ _⟩
        rw [le_min_iff]; omega
    · exact ⟨0, _, fun _ _ => by rw [← hA, if_neg h1]⟩
  | some k =>
    simp only [← hA]
    by_cases hk : A < k
    · exact ⟨0, _, fun _ _ => by rw [if_pos hk]⟩
    · simp only [if_neg hk]
      by_cases h1 : 2 * k + degree < N
      · simp only [h1, if_true]
        exact key k (Or.inl ⟨hn0 k rfl, by omega⟩)
      · exact ⟨0, _, fun _ _ => by rw [if_neg h1]⟩

/-- C58 is violated for `n_poles0 = 0`: if no solution with zero poles exists, `number_poles`
doubles zero forever. -/
theorem number_poles_zero_start_diverges (nullDim : ℤ → ℕ) (size degree : ℤ)
    (h0 : nullDim 0 = 0) (hsize : degree < size) (hA : 1 ≤ (size - degree) / 2) (fuel : ℕ) :
    numberPoles nullDim size degree (some 0) fuel = none := by
  unfold numberPoles
  simp only
  rw [if_neg (by omega)]
  simp only [mul_zero, zero_add, hsize, if_true]
  generalize (size - degree) / 2 = A at *
  induction fuel with
  | zero => rfl
  | succ n ih =>
    rw [numPolesLoop]
    have : numPolesStep nullDim degree A ⟨A, 0⟩ = .inl ⟨A, 0⟩ := by
      unfold numPolesStep
      simp only [h0]
      rw [if_neg (by omega), if_pos trivial, if_neg (by omega), if_neg (by omega)]
      congr 2
      simp; omega
    rw [this]
    exact ih

/-! ## Exact data -/

/-- The start value of the loop is found exactly: profile of the null dimension of a rational
function with `p` poles. -/
lemma numPolesLoop_exact {nullDim : ℤ → ℕ} {degree A p start : ℤ} (hdeg : degree ≤ 0)
    (hp0 : 0 ≤ p) (hpd : 0 ≤ p + degree) (hpA : p < A)
    (hlow : ∀ n, 0 ≤ n → n < p → nullDim n = 0) (hp : nullDim p = 1)
    (hhigh : ∀ n, p < n → n ≤ A → 2 ≤ nullDim n ∧ (nullDim n : ℤ) ≤ n - p + 1)
    (hs : 1 ≤ start) (hsA : start ≤ A) :
    ∃ fuel, numPolesLoop nullDim degree A fuel ⟨A, start⟩ = some (.ok p) := by
  have hstep : ∀ s : NumPolesState,
      (0 ≤ s.n ∧ (p = 0 ∨ 1 ≤ s.n) ∧ s.n ≤ s.maxN ∧ p ≤ s.maxN ∧ s.maxN ≤ A) →
      match numPolesStep nullDim degree A s with
      | .inl s' => (0 ≤ s'.n ∧ (p = 0 ∨ 1 ≤ s'.n) ∧ s'.n ≤ s'.maxN ∧ p ≤ s'.maxN ∧ s'.maxN ≤ A) ∧
          (s'.maxN * (A + 1) + (s'.maxN - s'.n)).toNat < (s.maxN * (A + 1) + (s.maxN - s.n)).toNat
      | .inr r => r = .ok p := by
    rintro ⟨mx, k⟩ ⟨h1, h2, h3, h4, h5⟩
    simp only at h1 h2 h3 h4 h5
    unfold numPolesStep
    simp only
    rcases lt_trichotomy k p with hk | hk | hk
    · have hn := hlow k h1 hk
      rw [if_neg (by omega), if_pos hn, if_neg (by omega), if_neg (by omega)]
      simp only
      have hmin : k < min (2 * k) mx := by rw [lt_min_iff]; omega
      have hmin2 : min (2 * k) mx ≤ mx := min_le_right _ _
      have : 0 ≤ mx * (A + 1) := mul_nonneg (by omega) (by omega)
      refine ⟨⟨by omega, by omega, hmin2, h4, h5⟩, by omega⟩
    · subst hk
      rw [if_pos hp]
    · obtain ⟨ha, hb⟩ := hhigh k hk (by omega)
      rw [if_neg (by omega), if_neg (by omega)]
      simp only
      have h6 : (k - 1) * (A + 1) + (A + 1) ≤ mx * (A + 1) := by nlinarith
      have h7 : 0 ≤ (k - 1) * (A + 1) := mul_nonneg (by omega) (by omega)
      refine ⟨⟨by omega, by omega, by omega, by omega, by omega⟩, by omega⟩
  obtain ⟨r, hr⟩ := numPolesLoop_term
    (fun s => 0 ≤ s.n ∧ (p = 0 ∨ 1 ≤ s.n) ∧ s.n ≤ s.maxN ∧ p ≤ s.maxN ∧ s.maxN ≤ A)
    (fun s => (s.maxN * (A + 1) + (s.maxN - s.n)).toNat) (by
      intro s hs
      have := hstep s hs
      split at this
      · rename_i s' hs'; rw [hs']; exact this
      · rename_i r hr; rw [hr]; trivial)
    _ ⟨A, start⟩ (by simp only; omega) (Nat.lt_succ_self _)
  refine ⟨_, hr.trans ?_⟩
  congr 1
  refine numPolesLoop_inv
    (fun s => 0 ≤ s.n ∧ (p = 0 ∨ 1 ≤ s.n) ∧ s.n ≤ s.maxN ∧ p ≤ s.maxN ∧ s.maxN ≤ A)
    (fun r => r = .ok p) (by
      intro s hs
      have := hstep s hs
      split at this
      · rename_i s' hs'; rw [hs']; exact this.1
      · rename_i r hr; rw [hr]; exact this) (by simp only; omega) hr

variable {N : ℕ} {z f : Fin N → ℂ} {P Q : ℂ[X]}

/-- Weights are usable if none vanishes. -/
def GoodWeight {N : ℕ} (weight : Option (Fin N → ℝ)) : Prop := ∀ w, weight = some w → ∀ i, w i ≠ 0

lemma rowScaling_ne {N k : ℕ} (a : Matrix (Fin N) (Fin k) ℂ) (i : Fin N) {j : Fin k}
    (h : a i j ≠ 0) {weight : Option (Fin N → ℝ)} (hw : GoodWeight weight) :
    rowScaling a weight i ≠ 0 := by
  have hpos : 0 < sqNorm (a i) := by
    unfold sqNorm
    refine Finset.sum_pos' (fun _ _ => by positivity) ⟨j, Finset.mem_univ _, ?_⟩
    have := norm_pos_iff.2 h
    positivity
  have h1 : (1 : ℂ) / ((Real.sqrt (sqNorm (a i)) : ℝ) : ℂ) ≠ 0 := by
    have := Real.sqrt_pos.2 hpos
    simp [this.ne']
  unfold rowScaling
  cases weight with
  | none => exact h1
  | some w => exact mul_ne_zero h1 (by exact_mod_cast hw w rfl i)

/-- `null_dim` for exact data of a rational function with `p` poles: it vanishes for fewer
poles, otherwise it is the number of surplus poles plus one, reduced by the number of columns
in excess of the number of points. -/
theorem poles_null_dim_exact (ext : LinalgExt ℂ) (hd : IsRationalData z f P Q) (hP0 : P ≠ 0)
    {p : ℕ} {degree : ℤ} (hdeg : degree ≤ 0) (hp : Q.natDegree = p)
    (hP : (P.natDegree : ℤ) = p + degree) {weight : Option (Fin N → ℝ)} (hw : GoodWeight weight)
    (n : ℕ) (hn : n + 1 + p ≤ N) :
    (n < p → polesNullDim ext z f degree weight n = 0) ∧
    (p ≤ n → (polesNullDim ext z f degree weight n : ℤ)
      = max 0 (min ((n : ℤ) - p + 1) ((N : ℤ) - 2 * n - degree - 2 + (n - p + 1)))) := by
  have hk1 : sliceLen (max (n : ℤ) (n + degree) + 2) (n + 1) = n + 1 := by
    unfold sliceLen
    rw [max_eq_left (by omega), if_pos (by omega)]; omega
  have hk2le : sliceLen (max (n : ℤ) (n + degree) + 2) (n + degree + 1) ≤ n + 1 := by
    unfold sliceLen
    rw [max_eq_left (by omega)]
    split_ifs <;> omega
  have hrank : ∀ k2, sliceLen (max (n : ℤ) (n + degree) + 2) (n + degree + 1) = k2 →
      (∀ T ∈ degreeLT ℂ (n + 1 - p), T * P ∈ degreeLT ℂ k2) →
      polesNullDim ext z f degree weight n = min N (n + 1 + k2) - (n + 1 + k2 - (n + 1 - p)) := by
    intro k2 hk2 hk
    have h := rank_fit ext hd hP0 (p := p) (k1 := n + 1) (k2 := k2) (by omega) hp hn (by omega) hk
      (s := rowScaling (hcat (vanderC z (n + 1)) (vanderC z k2)) weight) (by
        intro i
        refine rowScaling_ne _ i (j := ⟨0, by omega⟩) ?_ hw
        have : (⟨0, by omega⟩ : Fin (n + 1 + k2)) = Fin.castAdd k2 ⟨0, by omega⟩ := by ext; simp
        rw [this]
        simp only [hcat, Matrix.of_apply, Fin.append_left]
        simp [vanderC])
    unfold polesNullDim
    simp only
    generalize sliceLen (max (n : ℤ) (n + degree) + 2) (n + 1) = k1' at hk1 ⊢
    generalize sliceLen (max (n : ℤ) (n + degree) + 2) (n + degree + 1) = k2' at hk2 hk2le ⊢
    subst hk1 hk2
    omega
  constructor
  · intro hnp
    rw [hrank _ rfl (by
      intro T hT
      rw [show n + 1 - p = 0 by omega, mem_degreeLT] at hT
      have : T = 0 := by
        rw [← degree_eq_bot]
        simpa using hT
      rw [this, zero_mul]; exact Submodule.zero_mem _)]
    omega
  · intro hpn
    have hk2 : sliceLen (max (n : ℤ) (n + degree) + 2) (n + degree + 1)
        = n + 1 - p + P.natDegree := by
      unfold sliceLen
      rw [max_eq_left (by omega), if_pos (by omega)]; omega
    rw [hrank _ hk2 (fun T hT => mul_mem_degreeLT hT le_rfl)]
    omega

/-- C58, exactness: for data of a rational function with `p` poles and `p + degree` zeros, given
at sufficiently many points (at least six more than the number of parameters `2 p + degree`),
`number_poles` returns `p`. The condition on `N - degree` is that of
`number_poles_assert_iff`. -/
theorem number_poles_exact (ext : LinalgExt ℂ) (hd : IsRationalData z f P Q)
    {p : ℕ} {degree : ℤ} (hdeg : degree ≤ 0) (hp : Q.natDegree = p) (hp1 : 1 ≤ p)
    (hP : (P.natDegree : ℤ) = p + degree) {weight : Option (Fin N → ℝ)} (hw : GoodWeight weight)
    (hN : 2 * (p : ℤ) + degree + 6 ≤ N) (hN2 : 2 * (p : ℤ) - degree + 2 ≤ N)
    (hodd : ¬((((N : ℤ) - degree) % 2 = 0) ∧ (N : ℤ) - degree ≤ 100)) :
    ∃ fuel, ∀ fuel' ≥ fuel,
      numberPoles (polesNullDim ext z f degree weight) N degree none fuel' = some (.ok (p : ℤ)) := by
  have hP0 : P ≠ 0 := by
    rintro rfl
    have := (isCoprime_zero_left.1 hd.coprime)
    have h1 := natDegree_eq_zero_of_isUnit this
    omega
  set A : ℤ := ((N : ℤ) - degree) / 2 with hA
  have hex := fun (n : ℕ) hn =>
    poles_null_dim_exact ext hd hP0 hdeg hp hP hw n hn
  obtain ⟨fuel, hfuel⟩ := numPolesLoop_exact
    (nullDim := polesNullDim ext z f degree weight) (degree := degree) (A := A) (p := p)
    (start := min A 50) hdeg (by omega) (by omega) (by omega)
    (by
      intro n hn0 hnp
      lift n to ℕ using hn0
      exact (hex n (by omega)).1 (by exact_mod_cast hnp))
    (by
      have := (hex p (by omega)).2 le_rfl
      omega)
    (by
      intro n hpn hnA
      have hn0 : 0 ≤ n := by omega
      lift n to ℕ using hn0
      have := (hex n (by omega)).2 (by omega)
      omega)
    (by rw [le_min_iff]; omega) (min_le_left _ _)
  refine ⟨fuel, fun fuel' hf => ?_⟩
  unfold numberPoles
  simp only [← hA]
  have hcond : 2 * min A 50 + degree < N := by
    rw [min_def]; split_ifs <;> omega
  rw [if_pos hcond]
  exact numPolesLoop_mono hfuel hf

/-- C58 is violated for small data sets: with `2 p + degree + 3` points, two more than
parameters, `number_poles` returns `p + 1` although the solution with `p + 1` poles is not
unique and the one with `p` poles is. -/
theorem number_poles_overestimates (ext : LinalgExt ℂ) (hd : IsRationalData z f P Q)
    {p : ℕ} {degree : ℤ} (hdeg : degree ≤ 0) (hdeg1 : -1 ≤ degree) (hp : Q.natDegree = p)
    (hp1 : 1 ≤ p) (hp49 : p ≤ 49)
    (hP : (P.natDegree : ℤ) = p + degree) {weight : Option (Fin N → ℝ)} (hw : GoodWeight weight)
    (hN : (N : ℤ) = 2 * p + degree + 3) (fuel : ℕ) :
    numberPoles (polesNullDim ext z f degree weight) N degree none (fuel + 1)
      = some (.ok ((p : ℤ) + 1)) := by
  have hP0 : P ≠ 0 := by
    rintro rfl
    have := (isCoprime_zero_left.1 hd.coprime)
    have h1 := natDegree_eq_zero_of_isUnit this
    omega
  have h1 := (poles_null_dim_exact ext hd hP0 hdeg hp hP hw (p + 1) (by omega)).2 (by omega)
  have h2 : polesNullDim ext z f degree weight ((p : ℤ) + 1) = 1 := by
    push_cast at h1; omega
  unfold numberPoles
  simp only
  have hA : ((N : ℤ) - degree) / 2 = p + 1 := by omega
  rw [hA, min_eq_left (by omega), if_pos (by omega), numPolesLoop]
  simp [numPolesStep, h2]

/-- C58, small data sets: with as many points as parameters, `number_poles` finds no solution,
although one exists. -/
theorem number_poles_determined_fails (ext : LinalgExt ℂ) (hd : IsRationalData z f P Q)
    {p : ℕ} {degree : ℤ} (hdeg : degree ≤ 0) (hp : Q.natDegree = p)
    (hp1 : 1 ≤ p) (hp49 : p ≤ 49) (hdeg1 : degree = 0)
    (hP : (P.natDegree : ℤ) = p + degree) {weight : Option (Fin N → ℝ)} (hw : GoodWeight weight)
    (hN : (N : ℤ) = 2 * p + degree + 1) (fuel : ℕ) :
    numberPoles (polesNullDim ext z f degree weight) N degree none (fuel + 1)
      = some (.error .runtimeError) := by
  have hP0 : P ≠ 0 := by
    rintro rfl
    have := (isCoprime_zero_left.1 hd.coprime)
    have h1 := natDegree_eq_zero_of_isUnit this
    omega
  have h1 := (poles_null_dim_exact ext hd hP0 hdeg hp hP hw p (by omega)).2 (by omega)
  have h2 : polesNullDim ext z f degree weight (p : ℤ) = 0 := by
    omega
  unfold numberPoles
  simp only
  have hA : ((N : ℤ) - degree) / 2 = p := by omega
  rw [hA, min_eq_left (by omega), if_pos (by omega), numPolesLoop]
  simp [numPolesStep, h2]

end Gftool.Props
