import Verif.Model.LinearPrediction
import Verif.Props.Matrix
import Mathlib.LinearAlgebra.Matrix.Charpoly.Basic
import Mathlib.LinearAlgebra.Matrix.Charpoly.Eigs
import Mathlib.LinearAlgebra.Matrix.Block
import Mathlib.Tactic

/-!
# Properties C36-C40: linear prediction
-/

namespace Gftool.Props

open Gftool Model Matrix Polynomial

/-! ## C36: prediction by the recurrence -/

/-- Specification: element `i` of `y` is given by the linear recurrence with the prediction
coefficients `pc`: `y_i = - ∑_k pc_k y_{i-1-k}`. -/
def RecursAt (pc : List ℂ) (y : ℕ → ℂ) (i : ℕ) : Prop :=
  y i = - ∑ k ∈ Finset.range pc.length, pc.getD k 0 * y (i - 1 - k)

private lemma sum_zipWith (a b : List ℂ) (h : a.length = b.length) :
    (List.zipWith (· * ·) a b).sum
      = ∑ i ∈ Finset.range a.length, a.getD i 0 * b.getD i 0 := by
  induction a generalizing b with
  | nil => simp
  | cons x a ih =>
    cases b with
    | nil => simp at h
    | cons y b =>
      rw [List.length_cons, Finset.sum_range_succ']
      simp only [List.zipWith_cons_cons, List.sum_cons, List.getD_cons_succ, List.getD_cons_zero]
      rw [ih b (by simpa using h), add_comm]

lemma predictStep_ok (total : ℕ) (pc xt : List ℂ) (h : pc.length ≤ xt.length) :
    predictStep total pc xt = .ok
      (- ∑ k ∈ Finset.range pc.length, pc.getD k 0 * xt.getD (xt.length - 1 - k) 0) := by
  unfold predictStep
  simp only
  rw [if_pos h]
  have hlen : pc.reverse.length = (xt.drop (xt.length - pc.length)).length := by
    rw [List.length_reverse, List.length_drop]; omega
  unfold bcastMul
  rw [if_pos hlen]
  simp only
  rw [sum_zipWith _ _ hlen, List.length_reverse, ← Finset.sum_range_reflect]
  congr 2
  refine Finset.sum_congr rfl fun k hk => ?_
  have hk' := Finset.mem_range.1 hk
  simp only [List.getD_eq_getElem?_getD, List.getElem?_drop]
  rw [List.getElem?_reverse (by omega)]
  congr 3
  · omega
  · omega

private lemma getD_append_lt (l l' : List ℂ) {i : ℕ} (h : i < l.length) :
    (l ++ l').getD i 0 = l.getD i 0 := by
  simp only [List.getD_eq_getElem?_getD]
  rw [List.getElem?_append_left h]

private lemma predictLoop_spec (total : ℕ) (pc : List ℂ) (num : ℕ) :
    ∀ xt : List ℂ, pc.length ≤ xt.length →
      ∃ y, predictLoop total pc num xt = .ok y ∧ y.length = xt.length + num ∧
        y.take xt.length = xt ∧
        ∀ i, xt.length ≤ i → i < xt.length + num → RecursAt pc (fun i => y.getD i 0) i := by
  induction num with
  | zero => intro xt _; exact ⟨xt, rfl, rfl, by simp, by omega⟩
  | succ num ih =>
    intro xt h
    have hstep := predictStep_ok total pc xt h
    set v := - ∑ k ∈ Finset.range pc.length, pc.getD k 0 * xt.getD (xt.length - 1 - k) 0 with hv
    obtain ⟨y, h1, h2, h3, h4⟩ := ih (xt ++ [v]) (by simp; omega)
    simp only [List.length_append, List.length_cons, List.length_nil, zero_add] at h2 h3 h4
    refine ⟨y, ?_, by omega, ?_, fun i hi1 hi2 => ?_⟩
    · simp only [predictLoop, hstep, h1]
    · have := congrArg (List.take xt.length) h3
      rw [List.take_take, min_eq_left (by omega)] at this
      rw [this]
      simp
    · rcases Nat.eq_or_lt_of_le hi1 with rfl | hi
      · have hy : ∀ j < xt.length + 1, y.getD j 0 = (xt ++ [v]).getD j 0 := by
          intro j hj
          rw [← h3]
          simp only [List.getD_eq_getElem?_getD]
          rw [List.getElem?_take_of_lt hj]
        unfold RecursAt
        simp only
        rw [hy _ (by omega)]
        have hlast : (xt ++ [v]).getD xt.length 0 = v := by simp
        rw [hlast, hv]
        congr 1
        refine Finset.sum_congr rfl fun k hk => ?_
        have hk' := Finset.mem_range.1 hk
        rw [hy _ (by omega), getD_append_lt _ _ (by omega)]
      · exact h4 i (by omega) (by omega)

/-- C36: for at least `order` data, `predict` returns `len(x) + num` values, starting with `x`, and
every new value satisfies the recurrence. -/
theorem predict_correct (x pc : List ℂ) (num : ℕ) (h : pc.length ≤ x.length) :
    ∃ y, predict x pc num = .ok y ∧ y.length = x.length + num ∧ y.take x.length = x ∧
      ∀ i, x.length ≤ i → i < x.length + num → RecursAt pc (fun i => y.getD i 0) i := by
  unfold predict
  rw [if_neg (by omega), Int.toNat_natCast]
  exact predictLoop_spec _ _ _ _ h

/-- C36: `ValueError` for a negative number of steps. -/
theorem predict_neg (x pc : List ℂ) (num : ℤ) (h : num < 0) :
    predict x pc num = .error .valueError := by
  unfold predict
  rw [if_pos h]

lemma recurs_unique (pc : List ℂ) (N M : ℕ) (s t : ℕ → ℂ) (hp : pc.length ≤ N)
    (h0 : ∀ i < N, s i = t i) (hs : ∀ i, N ≤ i → i < M → RecursAt pc s i)
    (ht : ∀ i, N ≤ i → i < M → RecursAt pc t i) : ∀ i < M, s i = t i := by
  intro i
  induction i using Nat.strong_induction_on with
  | _ i ih =>
    intro hi
    by_cases hN : i < N
    · exact h0 i hN
    · have h1 := hs i (by omega) hi
      have h2 := ht i (by omega) hi
      unfold RecursAt at h1 h2
      rw [h1, h2]
      congr 1
      refine Finset.sum_congr rfl fun k hk => ?_
      have hk' := Finset.mem_range.1 hk
      rw [ih _ (by omega) (by omega)]

/-- C36: consequently a series that satisfies the recurrence is continued exactly. -/
theorem predict_exact (s : ℕ → ℂ) (N num : ℕ) (pc : List ℂ) (h : pc.length ≤ N)
    (hs : ∀ i, N ≤ i → RecursAt pc s i) :
    predict ((List.range N).map s) pc num = .ok ((List.range (N + num)).map s) := by
  obtain ⟨y, h1, h2, h3, h4⟩ := predict_correct ((List.range N).map s) pc num (by simpa using h)
  simp only [List.length_map, List.length_range] at h2 h3 h4
  rw [h1]
  congr 1
  have hy := recurs_unique pc N (N + num) (fun i => y.getD i 0) s h
    (fun i hi => by
      simp only [List.getD_eq_getElem?_getD]
      have : (y.take N)[i]? = ((List.range N).map s)[i]? := by rw [h3]
      rw [List.getElem?_take_of_lt hi] at this
      rw [this]
      simp [hi]) h4 (fun i hi _ => hs i hi)
  apply List.ext_getElem?
  intro i
  by_cases hi : i < N + num
  · have := hy i hi
    simp only [List.getD_eq_getElem?_getD] at this
    rw [List.getElem?_eq_getElem (by omega)] at this ⊢
    simp only [Option.getD_some] at this
    rw [this, List.getElem?_map, List.getElem?_range hi, Option.map_some]
  · rw [List.getElem?_eq_none (by omega), List.getElem?_eq_none (by simp; omega)]

/-- C36: predicting in two steps equals predicting in one. -/
theorem predict_compose (x pc : List ℂ) (n m : ℕ) (h : pc.length ≤ x.length) :
    ∃ y, predict x pc n = .ok y ∧ predict y pc m = predict x pc (n + m : ℕ) := by
  obtain ⟨y, h1, h2, h3, h4⟩ := predict_correct x pc n h
  obtain ⟨u, hu1, hu2, hu3, hu4⟩ := predict_correct y pc m (by omega)
  obtain ⟨w, hw1, hw2, hw3, hw4⟩ := predict_correct x pc (n + m) h
  refine ⟨y, h1, ?_⟩
  rw [hu1, hw1]
  congr 1
  have hux : ∀ i < y.length, u.getD i 0 = y.getD i 0 := by
    intro i hi
    simp only [List.getD_eq_getElem?_getD]
    conv_rhs => rw [← hu3]
    rw [List.getElem?_take_of_lt hi]
  have heq := recurs_unique pc x.length (x.length + (n + m)) (fun i => u.getD i 0)
    (fun i => w.getD i 0) h
    (fun i hi => by
      rw [hux i (by omega)]
      simp only [List.getD_eq_getElem?_getD]
      have ha : (y.take x.length)[i]? = x[i]? := by rw [h3]
      have hb : (w.take x.length)[i]? = x[i]? := by rw [hw3]
      rw [List.getElem?_take_of_lt hi] at ha hb
      rw [ha, hb])
    (fun i hi1 hi2 => by
      by_cases hi : i < y.length
      · have := h4 i hi1 (by omega)
        unfold RecursAt at this ⊢
        simp only at this ⊢
        rw [hux i hi, this]
        congr 1
        refine Finset.sum_congr rfl fun k hk => ?_
        have hk' := Finset.mem_range.1 hk
        rw [hux _ (by omega)]
      · exact hu4 i (by omega) (by omega))
    (fun i hi1 hi2 => hw4 i hi1 (by omega))
  apply List.ext_getElem?
  intro i
  by_cases hi : i < x.length + (n + m)
  · have := heq i hi
    simp only [List.getD_eq_getElem?_getD] at this
    rw [List.getElem?_eq_getElem (by omega), List.getElem?_eq_getElem (by omega)] at this ⊢
    simpa using this
  · rw [List.getElem?_eq_none (by omega), List.getElem?_eq_none (by omega)]

/-- Geometric series. -/
example : predict [1, 2] [-2] 3 = .ok [1, 2, 4, 8, 16] := by
  have h : Int.toNat 3 = 3 := rfl
  norm_num [predict, predictLoop, predictStep, bcastMul, h]

/-- C36, disagreement: with more coefficients than data there is not always an error: if
`order = len(x) + num + 1` the slice with wrapped start has one element, which is
broadcasted; here two data, one step and four coefficients give `-(∑ pc) x[1]`. -/
theorem predict_order_silent (x0 x1 a b c d : ℂ) :
    predict [x0, x1] [a, b, c, d] 1 = .ok [x0, x1, -((a + b + c + d) * x1)] := by
  simp [predict, predictLoop, predictStep, bcastMul]
  ring

/-! ## C37: the companion matrix -/

private lemma det_comp {R : Type*} [CommRing R] (x : R) (n : ℕ) : ∀ r : Fin n → R,
    (Matrix.of fun i j : Fin n => (if i = j then x else 0)
      - (if (i : ℕ) = 0 then r j else if (i : ℕ) = j + 1 then 1 else 0)).det
      = x ^ n - ∑ j : Fin n, r j * x ^ (n - 1 - (j : ℕ)) := by
  induction n with
  | zero => intro r; simp
  | succ n ih =>
    intro r
    rcases Nat.eq_zero_or_pos n with rfl | hn
    · simp
    set A : Matrix (Fin (n + 1)) (Fin (n + 1)) R := Matrix.of fun i j => (if i = j then x else 0)
      - (if (i : ℕ) = 0 then r j else if (i : ℕ) = j + 1 then 1 else 0) with hA
    rw [Matrix.det_succ_column A (Fin.last n), Fin.sum_univ_castSucc]
    have hmid : ∑ i : Fin n, (-1 : R) ^ (((Fin.castSucc i : Fin (n + 1)) : ℕ) + (Fin.last n : Fin (n + 1)))
        * A (Fin.castSucc i) (Fin.last n)
        * (A.submatrix (Fin.castSucc i).succAbove (Fin.last n).succAbove).det = - r (Fin.last n) := by
      rw [Finset.sum_eq_single (⟨0, hn⟩ : Fin n)]
      · have h0 : (Fin.castSucc (⟨0, hn⟩ : Fin n)) = (0 : Fin (n + 1)) := rfl
        have hA0 : A (Fin.castSucc (⟨0, hn⟩ : Fin n)) (Fin.last n) = - r (Fin.last n) := by
          rw [h0, hA]
          simp only [of_apply, Fin.val_zero, if_true]
          rw [if_neg, zero_sub]
          intro h
          have := congrArg Fin.val h
          simp at this
          omega
        have htri : (A.submatrix (Fin.castSucc (⟨0, hn⟩ : Fin n)).succAbove
            (Fin.last n).succAbove).det = (-1) ^ n := by
          rw [Matrix.det_of_isUpperTriangular]
          · have : ∀ i : Fin n, (A.submatrix (Fin.castSucc (⟨0, hn⟩ : Fin n)).succAbove
                (Fin.last n).succAbove) i i = -1 := by
              intro i
              rw [h0]
              simp only [submatrix_apply, Fin.zero_succAbove, Fin.succAbove_last, hA, of_apply,
                Fin.val_succ, Fin.val_castSucc, if_true]
              rw [if_neg (by intro h; have := congrArg Fin.val h; simp at this),
                if_neg (by omega)]
              ring
            rw [Finset.prod_congr rfl fun i _ => this i]
            simp
          · intro i j hij
            rw [h0]
            simp only [submatrix_apply, Fin.zero_succAbove, Fin.succAbove_last, hA, of_apply,
              Fin.val_succ, Fin.val_castSucc]
            have hij' : (j : ℕ) < i := hij
            rw [if_neg (by intro h; have := congrArg Fin.val h; simp at this; omega),
              if_neg (by omega), if_neg (by omega)]
            ring
        rw [hA0, htri]
        simp only [Fin.val_castSucc, Fin.val_last, zero_add]
        have : ((-1 : R) ^ n) * (-1) ^ n = 1 := by
          rw [← mul_pow]; simp
        linear_combination (-r (Fin.last n)) * this
      · intro i _ hi
        have : A (Fin.castSucc i) (Fin.last n) = 0 := by
          simp only [hA, of_apply, Fin.val_castSucc, Fin.val_last]
          have hi' : (i : ℕ) ≠ 0 := fun h => hi (Fin.ext h)
          rw [if_neg (by intro h; have := congrArg Fin.val h; simp at this; omega),
            if_neg hi', if_neg (by omega), sub_zero]
        rw [this]
        ring
      · intro h; exact absurd (Finset.mem_univ _) h
    rw [hmid]
    have hlast : A (Fin.last n) (Fin.last n) = x := by
      simp only [hA, of_apply, if_true, Fin.val_last]
      rw [if_neg (by omega), if_neg (by omega), sub_zero]
    have hsub : A.submatrix (Fin.last n).succAbove (Fin.last n).succAbove
        = Matrix.of fun i j : Fin n => (if i = j then x else 0)
      - (if (i : ℕ) = 0 then r (Fin.castSucc j) else if (i : ℕ) = j + 1 then 1 else 0) := by
      ext i j
      simp only [submatrix_apply, Fin.succAbove_last, hA, of_apply, Fin.val_castSucc,
        Fin.castSucc_inj]
    rw [hlast, hsub, ih fun j => r (Fin.castSucc j), Fin.sum_univ_castSucc]
    have hsgn : ((-1 : R) ^ (((Fin.last n : Fin (n + 1)) : ℕ) + (Fin.last n : Fin (n + 1)))) = 1 := by
      rw [← two_mul, pow_mul]; simp
    rw [hsgn]
    have hsum : x * ∑ j : Fin n, r (Fin.castSucc j) * x ^ (n - 1 - (j : ℕ))
        = ∑ j : Fin n, r (Fin.castSucc j) * x ^ (n + 1 - 1 - ((Fin.castSucc j : Fin (n + 1)) : ℕ)) := by
      rw [Finset.mul_sum]
      refine Finset.sum_congr rfl fun j _ => ?_
      have : n + 1 - 1 - ((Fin.castSucc j : Fin (n + 1)) : ℕ) = n - 1 - (j : ℕ) + 1 := by
        simp only [Fin.val_castSucc]; have := j.2; omega
      rw [this, pow_succ]
      ring
    simp only [Fin.val_last, Nat.add_sub_cancel, Nat.sub_self, pow_zero, mul_one]
    simp only [Nat.add_sub_cancel] at hsum
    rw [← hsum]
    ring

/-- C37: `companion` raises `ValueError` iff there are fewer than two coefficients or the first one
vanishes; otherwise the characteristic polynomial of the result is the given polynomial, divided by
its leading coefficient. -/
theorem companion_charpoly {n : ℕ} (a0 : ℂ) (rest : Fin n → ℂ) :
    (∀ e, companion a0 rest = .error e ↔ e = .valueError ∧ (n = 0 ∨ a0 = 0)) ∧
    ∀ M, companion a0 rest = .ok M →
      M.charpoly = X ^ n + ∑ j : Fin n, C (rest j / a0) * X ^ (n - 1 - (j : ℕ)) := by
  constructor
  · intro e
    unfold companion
    split_ifs with h1 h2
    · constructor
      · intro h; exact ⟨(Except.error.inj h).symm, Or.inl (by omega)⟩
      · rintro ⟨rfl, _⟩; rfl
    · constructor
      · intro h; exact ⟨(Except.error.inj h).symm, Or.inr h2⟩
      · rintro ⟨rfl, _⟩; rfl
    · constructor
      · intro h; cases h
      · rintro ⟨_, h | h⟩
        · omega
        · exact absurd h h2
  · intro M hM
    unfold companion at hM
    split_ifs at hM with h1 h2
    obtain rfl := Except.ok.inj hM
    have h := det_comp (R := ℂ[X]) X n fun j => C (- rest j / (1.0 * a0))
    unfold Matrix.charpoly
    have hmat : (Matrix.of fun i j : Fin n => if (i : ℕ) = 0 then - rest j / (1.0 * a0)
          else if (i : ℕ) = j + 1 then (1 : ℂ) else 0).charmatrix
        = Matrix.of fun i j : Fin n => (if i = j then X else 0)
          - (if (i : ℕ) = 0 then C (- rest j / (1.0 * a0))
            else if (i : ℕ) = j + 1 then (1 : ℂ[X]) else 0) := by
      ext1 i j
      rw [Matrix.charmatrix_apply]
      simp only [of_apply, diagonal_apply]
      congr 1
      split_ifs <;> simp
    rw [hmat, h, sub_eq_add_neg, ← Finset.sum_neg_distrib]
    congr 1
    refine Finset.sum_congr rfl fun j _ => ?_
    rw [← neg_mul, ← map_neg]
    congr 2
    have : (1.0 : ℂ) = 1 := by norm_num
    rw [this, one_mul]
    ring

/-- The last `p` values before index `i`, newest first. -/
def lpState {p : ℕ} (y : ℕ → ℂ) (i : ℕ) (j : Fin p) : ℂ := y (i - 1 - j)

private lemma ofFn_getD {p : ℕ} (pc : Fin p → ℂ) (k : Fin p) : (List.ofFn pc).getD k 0 = pc k := by
  simp [List.getD_eq_getElem?_getD]

/-- C37: the companion matrix of the prediction coefficients advances the state by one step. -/
theorem companion_advances {p : ℕ} (pc : Fin p → ℂ) (M : Matrix (Fin p) (Fin p) ℂ)
    (hM : companion 1 pc = .ok M) (y : ℕ → ℂ) (i : ℕ) (hi : p ≤ i)
    (hrec : RecursAt (List.ofFn pc) y i) : M *ᵥ lpState y i = lpState y (i + 1) := by
  unfold companion at hM
  split_ifs at hM with h1 h2
  obtain rfl := Except.ok.inj hM
  have h1' : (1.0 : ℂ) * 1 = 1 := by norm_num
  ext k
  simp only [mulVec, dotProduct, of_apply, lpState, h1', div_one]
  by_cases hk : (k : ℕ) = 0
  · simp only [hk, if_true]
    unfold RecursAt at hrec
    rw [List.length_ofFn, Finset.sum_range] at hrec
    simp only [Nat.add_sub_cancel, Nat.sub_zero]
    rw [hrec, ← Finset.sum_neg_distrib]
    refine Finset.sum_congr rfl fun j _ => ?_
    rw [ofFn_getD]
    ring
  · simp only [hk, if_false]
    rw [Finset.sum_eq_single (⟨(k : ℕ) - 1, by have := k.2; omega⟩ : Fin p)]
    · simp only
      rw [if_pos (by omega), one_mul]
      congr 1
      have := k.2
      omega
    · intro j _ hj
      rw [if_neg, zero_mul]
      intro h
      apply hj
      ext
      simp
      omega
    · intro h; exact absurd (Finset.mem_univ _) h

/-- C37: consequently the `k`-th predicted value is the first component of `M^(k+1)` applied to the
last data. -/
theorem predict_companion {p : ℕ} (pc : Fin p → ℂ) (M : Matrix (Fin p) (Fin p) ℂ)
    (hM : companion 1 pc = .ok M) (hp : 0 < p) (x : List ℂ) (hx : p ≤ x.length) (num k : ℕ)
    (hk : k < num) :
    ∃ y, predict x (List.ofFn pc) num = .ok y ∧
      y.getD (x.length + k) 0
        = (M ^ (k + 1) *ᵥ lpState (fun i => x.getD i 0) x.length) ⟨0, hp⟩ := by
  obtain ⟨y, h1, h2, h3, h4⟩ := predict_correct x (List.ofFn pc) num (by simpa using hx)
  refine ⟨y, h1, ?_⟩
  have hyx : ∀ i < x.length, y.getD i 0 = x.getD i 0 := by
    intro i hi
    simp only [List.getD_eq_getElem?_getD]
    conv_rhs => rw [← h3]
    rw [List.getElem?_take_of_lt hi]
  have hstate : ∀ k ≤ num, M ^ k *ᵥ lpState (fun i => x.getD i 0) x.length
      = lpState (p := p) (fun i => y.getD i 0) (x.length + k) := by
    intro k
    induction k with
    | zero =>
      intro _
      rw [pow_zero, one_mulVec]
      ext j
      simp only [lpState, add_zero]
      rw [hyx _ (by have := j.2; omega)]
    | succ k ih =>
      intro hk
      rw [pow_succ', ← mulVec_mulVec, ih (by omega)]
      exact companion_advances pc M hM _ _ (by omega) (h4 _ (by omega) (by omega))
  rw [hstate (k + 1) (by omega)]
  simp [lpState]

/-- The Fibonacci predictor: its companion matrix exists and predicts. -/
example : ∃ M, companion 1 (![-1, -1] : Fin 2 → ℂ) = .ok M := by
  unfold companion
  rw [if_neg (by omega), if_neg one_ne_zero]
  exact ⟨_, rfl⟩

/-! ## C38: stable prediction -/

/-- The values of the stable prediction: a sum over the eigenvalues inside the closed unit disc, all
of which are roots of the predictor polynomial. -/
theorem predict_stable_values (ext : EigExt) {p : ℕ} (pc : Fin p → ℂ) (x : List ℂ) :
    (∃ e, ∀ num, predictStable ext x pc num = .error e) ∨
    ∃ (eig w : Fin p → ℂ), (∀ j, 1 < ‖eig j‖ → w j = 0) ∧
      (∀ j, eig j ^ p + ∑ k : Fin p, pc k * eig j ^ (p - 1 - (k : ℕ)) = 0) ∧
      ∀ num, predictStable ext x pc num
        = .ok (x ++ (List.range num).map fun k => ∑ j, w j * eig j ^ (k + 1)) := by
  unfold predictStable
  rcases hM : companion 1 pc with e | M
  · exact Or.inl ⟨e, fun _ => rfl⟩
  simp only
  rcases hdec : decomposeMat ext M with e | dec
  · exact Or.inl ⟨e, fun _ => rfl⟩
  simp only
  by_cases hp : p = 0
  · exact Or.inl ⟨_, fun _ => dif_pos hp⟩
  by_cases hx : x.length < p
  · exact Or.inl ⟨.valueError, fun _ => by rw [dif_neg hp, if_pos hx]⟩
  right
  have hIs : IsDecomposition M dec := by
    rcases decompose_mat_correct ext M with ⟨dec', h1, h2⟩ | ⟨h1, _⟩
    · rw [hdec] at h1
      obtain rfl := Except.ok.inj h1
      exact h2
    · rw [hdec] at h1; cases h1
  refine ⟨dec.eig, fun j => if 1 < ‖dec.eig j‖ then 0 else dec.rv ⟨0, by omega⟩ j
    * (dec.rvInv *ᵥ fun i : Fin p => x.getD (x.length - 1 - i) 0) j, ?_, ?_, ?_⟩
  · intro j hj
    simp only
    rw [if_pos hj]
  · intro j
    have hcp := (companion_charpoly 1 pc).2 M hM
    have hchar : M.charpoly = (Matrix.diagonal dec.eig).charpoly := by
      rw [hIs.eq]
      rw [Matrix.mul_assoc, Matrix.charpoly_mul_comm, Matrix.mul_assoc, hIs.inv, Matrix.mul_one]
    have hroot : M.charpoly.eval (dec.eig j) = 0 := by
      rw [hchar, Matrix.charpoly_diagonal, eval_prod]
      apply Finset.prod_eq_zero (Finset.mem_univ j)
      simp
    rw [hcp] at hroot
    simpa [eval_finsetSum] using hroot
  · intro num
    rw [dif_neg hp, if_neg hx]

/-- C38: the stable prediction is bounded, uniformly in the number of steps. -/
theorem predict_stable_bounded (ext : EigExt) {p : ℕ} (pc : Fin p → ℂ) (x : List ℂ) :
    ∃ B : ℝ, ∀ num y, predictStable ext x pc num = .ok y → ∀ v ∈ y, ‖v‖ ≤ B := by
  rcases predict_stable_values ext pc x with ⟨e, h⟩ | ⟨eig, w, h1, -, h3⟩
  · exact ⟨0, fun num y hy => by rw [h num] at hy; cases hy⟩
  · refine ⟨(x.map (‖·‖)).sum + ∑ j, ‖w j‖, fun num y hy v hv => ?_⟩
    rw [h3 num] at hy
    obtain rfl := Except.ok.inj hy
    have hx0 : 0 ≤ (x.map (‖·‖)).sum := List.sum_nonneg (by
      intro a ha
      obtain ⟨b, _, rfl⟩ := List.mem_map.1 ha
      exact norm_nonneg b)
    have hw0 : 0 ≤ ∑ j, ‖w j‖ := Finset.sum_nonneg fun j _ => norm_nonneg _
    rcases List.mem_append.1 hv with hv | hv
    · have : ‖v‖ ≤ (x.map (‖·‖)).sum := List.single_le_sum (by
        intro a ha
        obtain ⟨b, _, rfl⟩ := List.mem_map.1 ha
        exact norm_nonneg b) _ (List.mem_map_of_mem hv)
      linarith
    · obtain ⟨k, _, rfl⟩ := List.mem_map.1 hv
      have : ‖∑ j, w j * eig j ^ (k + 1)‖ ≤ ∑ j, ‖w j‖ := by
        refine (norm_sum_le _ _).trans (Finset.sum_le_sum fun j _ => ?_)
        rw [norm_mul, norm_pow]
        by_cases hj : 1 < ‖eig j‖
        · rw [h1 j hj]; simp
        · have := pow_le_one₀ (n := k + 1) (norm_nonneg (eig j)) (not_lt.1 hj)
          nlinarith [norm_nonneg (w j)]
      linarith

/-- C38: if no eigenvalue lies outside the unit circle, the stable prediction is the plain one. -/
theorem predict_stable_eq_plain (ext : EigExt) {p : ℕ} (pc : Fin p → ℂ) (hp : 0 < p) (x : List ℂ)
    (hx : p ≤ x.length) (M : Matrix (Fin p) (Fin p) ℂ) (hM : companion 1 pc = .ok M)
    (dec : Decomposition (Fin p) (Fin p)) (hdec : decomposeMat ext M = .ok dec)
    (heig : ∀ j, ‖dec.eig j‖ ≤ 1) (num : ℕ) :
    predictKw ext x pc num true = predictKw ext x pc num false := by
  have hIs : IsDecomposition M dec := by
    rcases decompose_mat_correct ext M with ⟨dec', h1, h2⟩ | ⟨h1, _⟩
    · rw [hdec] at h1
      obtain rfl := Except.ok.inj h1
      exact h2
    · rw [hdec] at h1; cases h1
  have hnum : ¬ ((num : ℤ) < 0) := by omega
  simp only [predictKw, hnum, if_false, if_true, Int.toNat_natCast, Bool.false_eq_true]
  obtain ⟨y, h1, h2, h3, -⟩ := predict_correct x (List.ofFn pc) num (by simpa using hx)
  rw [h1]
  unfold predictStable
  rw [hM]
  simp only
  rw [hdec]
  simp only
  rw [dif_neg (by omega), if_neg (by omega)]
  congr 1
  apply List.ext_getElem?
  intro i
  by_cases hi : i < x.length
  · rw [List.getElem?_append_left hi]
    conv_lhs => rw [← h3]
    rw [List.getElem?_take_of_lt hi]
  by_cases hi' : i < x.length + num
  · obtain ⟨k, rfl⟩ : ∃ k, i = x.length + k := ⟨i - x.length, by omega⟩
    have hk : k < num := by omega
    obtain ⟨y', hy1, hy2⟩ := predict_companion pc M hM hp x hx num k hk
    rw [h1] at hy1
    obtain rfl := Except.ok.inj hy1
    rw [List.getElem?_append_right (by omega), Nat.add_sub_cancel_left, List.getElem?_map,
      List.getElem?_range hk, Option.map_some]
    have hyk : y[x.length + k]? = some (y.getD (x.length + k) 0) := by
      rw [List.getD_eq_getElem?_getD, List.getElem?_eq_getElem (by omega)]
      rfl
    rw [hyk, hy2]
    congr 1
    rw [← reconstruct_pow hIs (k + 1), full_eq, ← mulVec_mulVec, ← mulVec_mulVec]
    simp only [mulVec, dotProduct, diagonal_apply]
    refine Finset.sum_congr rfl fun j _ => ?_
    rw [if_neg (not_lt.2 (heig j))]
    simp only [ite_mul, zero_mul, Finset.sum_ite_eq, Finset.mem_univ, if_true]
    simp only [lpState]
    ring
  · rw [List.getElem?_eq_none (by simp; omega), List.getElem?_eq_none (by omega)]

/-- Scalar case: the predictor with a growing root `2` is damped to zero, the one with root `1/2` is
left as it is; the hypothesis of `predict_stable_eq_plain` is met by the latter. -/
example (ext : EigExt) : ∃ M dec, companion 1 (![(-1/2 : ℂ)] : Fin 1 → ℂ) = .ok M ∧
    (decomposeMat ext M = .ok dec → ∀ j, ‖dec.eig j‖ ≤ 1) := by
  have hM : ∃ M, companion 1 (![(-1/2 : ℂ)] : Fin 1 → ℂ) = .ok M := by
    unfold companion
    rw [if_neg (by omega), if_neg one_ne_zero]
    exact ⟨_, rfl⟩
  obtain ⟨M, hM⟩ := hM
  rcases hdec : decomposeMat ext M with e | dec
  · exact ⟨M, ⟨1, 0, 1⟩, hM, fun h => by rw [hdec] at h; cases h⟩
  · refine ⟨M, dec, hM, fun _ j => ?_⟩
    have hv := predict_stable_values ext (![(-1/2 : ℂ)] : Fin 1 → ℂ) [0]
    have hIs : IsDecomposition M dec := by
      rcases decompose_mat_correct ext M with ⟨dec', h1, h2⟩ | ⟨h1, _⟩
      · rw [hdec] at h1
        obtain rfl := Except.ok.inj h1
        exact h2
      · rw [hdec] at h1; cases h1
    have hcp := (companion_charpoly 1 (![(-1/2 : ℂ)] : Fin 1 → ℂ)).2 M hM
    have hchar : M.charpoly = (Matrix.diagonal dec.eig).charpoly := by
      rw [hIs.eq]
      rw [Matrix.mul_assoc, Matrix.charpoly_mul_comm, Matrix.mul_assoc, hIs.inv, Matrix.mul_one]
    have hroot : M.charpoly.eval (dec.eig j) = 0 := by
      rw [hchar, Matrix.charpoly_diagonal, eval_prod]
      apply Finset.prod_eq_zero (Finset.mem_univ j)
      simp
    rw [hcp] at hroot
    simp at hroot
    have : dec.eig j = 1 / 2 := by linear_combination hroot
    rw [this]
    norm_num

/-! ## C39: Burg's method -/

private lemma burg_num_le (s : BurgState) :
    ‖-2 * ∑ i ∈ Finset.range s.n, s.f i * star (s.b i)‖ ≤ burgDenom s := by
  rw [norm_mul, norm_neg]
  have h2 : ‖(2 : ℂ)‖ = 2 := by norm_num
  rw [h2, burgDenom, ← Finset.sum_add_distrib]
  have : ‖∑ i ∈ Finset.range s.n, s.f i * star (s.b i)‖
      ≤ ∑ i ∈ Finset.range s.n, ‖s.f i‖ * ‖s.b i‖ := by
    refine (norm_sum_le _ _).trans (Finset.sum_le_sum fun i _ => ?_)
    rw [norm_mul, norm_star]
  refine (mul_le_mul_of_nonneg_left this (by norm_num)).trans ?_
  rw [Finset.mul_sum]
  refine Finset.sum_le_sum fun i _ => ?_
  nlinarith [sq_nonneg (‖s.f i‖ - ‖s.b i‖)]

private lemma burg_refl_le (s : BurgState) : ‖burgRefl s‖ ≤ 1 := by
  unfold burgRefl
  rw [norm_div, Complex.norm_real]
  have h0 : 0 ≤ burgDenom s := (norm_nonneg _).trans (burg_num_le s)
  rw [Real.norm_of_nonneg h0]
  exact div_le_one_of_le₀ (burg_num_le s) h0

/-- C39: every reflection coefficient (the last coefficient of each order) has modulus at most one;
hence the variance estimate is non-negative and does not increase with the order. -/
theorem burg_reflection (x : ℕ → ℂ) (N k : ℕ) :
    ‖(burgState x N (k + 1)).a k‖ ≤ 1 ∧ 0 ≤ (burgState x N k).rho ∧
      (burgState x N (k + 1)).rho ≤ (burgState x N k).rho := by
  have hrefl : (burgState x N (k + 1)).a k = burgRefl (burgState x N k) := by
    simp [burgState, burgStep]
  have hpos : ∀ k, 0 ≤ (burgState x N k).rho := by
    intro k
    induction k with
    | zero =>
      simp only [burgState, burgInit]
      exact div_nonneg (Finset.sum_nonneg fun i _ => by positivity) (by positivity)
    | succ k ih =>
      simp only [burgState, burgStep]
      have h1 := burg_refl_le (burgState x N k)
      have h2 := norm_nonneg (burgRefl (burgState x N k))
      exact mul_nonneg (by nlinarith) ih
  refine ⟨hrefl ▸ burg_refl_le _, hpos k, ?_⟩
  simp only [burgState, burgStep]
  have := hpos k
  nlinarith [sq_nonneg ‖burgRefl (burgState x N k)‖]

/-- C39 about the returned values. -/
theorem pcoeff_burg_result (x : ℕ → ℂ) (N order : ℕ) (a : Fin order → ℂ) (rho : ℝ)
    (h : pcoeffBurg x N order = .ok (some (a, rho))) :
    0 ≤ rho ∧ rho ≤ (∑ i ∈ Finset.range N, ‖x i‖ ^ 2) / N ∧
      ∀ hp : 0 < order, ‖a ⟨order - 1, by omega⟩‖ ≤ 1 := by
  unfold pcoeffBurg at h
  split_ifs at h with h1 h2
  · simp only [Except.ok.injEq, Option.some.injEq, Prod.mk.injEq] at h
    obtain ⟨rfl, rfl⟩ := h
    refine ⟨(burg_reflection x N order).2.1, ?_, fun hp => ?_⟩
    · have : ∀ k, (burgState x N k).rho ≤ (burgState x N 0).rho := by
        intro k
        induction k with
        | zero => rfl
        | succ k ih => exact (burg_reflection x N k).2.2.trans ih
      exact this order
    · obtain ⟨k, rfl⟩ : ∃ k, order = k + 1 := ⟨order - 1, by omega⟩
      exact (burg_reflection x N k).1
  · cases h

private lemma sum_reflect' (f : ℕ → ℕ → ℂ) (k : ℕ) :
    ∑ j ∈ Finset.range k, f (k - 1 - j) j = ∑ j ∈ Finset.range k, f j (k - 1 - j) := by
  rw [← Finset.sum_range_reflect]
  refine Finset.sum_congr rfl fun j hj => ?_
  have := Finset.mem_range.1 hj
  congr 1
  omega

/-- The coefficients of order `k+1` from those of order `k` (Levinson recursion). -/
private lemma burg_levinson (x : ℕ → ℂ) (N k : ℕ) :
    (∀ j < k, (burgState x N (k + 1)).a j = (burgState x N k).a j
      + burgRefl (burgState x N k) * star ((burgState x N k).a (k - 1 - j))) ∧
    (burgState x N (k + 1)).a k = burgRefl (burgState x N k) := by
  constructor
  · intro j hj
    simp only [burgState, burgStep, Nat.add_sub_cancel]
    rw [if_neg (by omega), if_pos hj]
    congr 4
  · simp [burgState, burgStep]

/-- C39: the error series kept in the loop are the errors of the forward and of the (conjugate)
backward prediction with the coefficients of the current order. -/
theorem burg_errors (x : ℕ → ℂ) (N k i : ℕ) :
    (burgState x N k).f i
      = x (i + k + 1) + ∑ j ∈ Finset.range k, (burgState x N k).a j * x (i + k - j) ∧
    (burgState x N k).b i
      = x i + ∑ j ∈ Finset.range k, star ((burgState x N k).a j) * x (i + 1 + j) := by
  induction k generalizing i with
  | zero => simp [burgState, burgInit]
  | succ k ih =>
    obtain ⟨hL, hlast⟩ := burg_levinson x N k
    have hf : (burgState x N (k + 1)).f i = (burgState x N k).f (i + 1)
        + burgRefl (burgState x N k) * (burgState x N k).b (i + 1) := rfl
    have hb : (burgState x N (k + 1)).b i = (burgState x N k).b i
        + star (burgRefl (burgState x N k)) * (burgState x N k).f i := rfl
    rw [hf, hb, (ih (i + 1)).1, (ih (i + 1)).2, (ih i).1, (ih i).2, Finset.sum_range_succ,
      Finset.sum_range_succ, hlast]
    set κ := burgRefl (burgState x N k)
    set a := (burgState x N k).a
    constructor
    · have h1 : ∑ j ∈ Finset.range k, (burgState x N (k + 1)).a j * x (i + (k + 1) - j)
          = ∑ j ∈ Finset.range k, a j * x (i + 1 + k - j)
            + κ * ∑ j ∈ Finset.range k, star (a j) * x (i + 1 + 1 + j) := by
        rw [Finset.mul_sum, Finset.sum_congr rfl fun j hj => by rw [hL j (Finset.mem_range.1 hj)]]
        simp only [add_mul, Finset.sum_add_distrib]
        congr 1
        · refine Finset.sum_congr rfl fun j _ => by congr 2; omega
        · have := sum_reflect' (fun m j => κ * star (a m) * x (i + (k + 1) - j)) k
          rw [this]
          refine Finset.sum_congr rfl fun j hj => ?_
          have hj' := Finset.mem_range.1 hj
          rw [mul_assoc]
          congr 3
          omega
      rw [h1]
      have e1 : i + (k + 1) + 1 = i + 1 + k + 1 := by omega
      have e2 : i + (k + 1) - k = i + 1 := by omega
      rw [e1, e2]
      ring
    · have h1 : ∑ j ∈ Finset.range k, star ((burgState x N (k + 1)).a j) * x (i + 1 + j)
          = ∑ j ∈ Finset.range k, star (a j) * x (i + 1 + j)
            + star κ * ∑ j ∈ Finset.range k, a j * x (i + k - j) := by
        rw [Finset.mul_sum, Finset.sum_congr rfl fun j hj => by rw [hL j (Finset.mem_range.1 hj)]]
        simp only [star_add, star_mul', star_star, add_mul, Finset.sum_add_distrib]
        congr 1
        have := sum_reflect' (fun m j => star κ * a m * x (i + 1 + j)) k
        rw [this]
        refine Finset.sum_congr rfl fun j hj => ?_
        have hj' := Finset.mem_range.1 hj
        rw [mul_assoc]
        congr 3
        omega
      rw [h1]
      have e1 : i + 1 + k = i + k + 1 := by omega
      rw [e1]
      ring

/-- C39: the reflection coefficient minimises the sum of the squared forward and backward errors of
the next order. -/
theorem burg_optimal (s : BurgState) (h : burgDenom s ≠ 0) (κ : ℂ) :
    ∑ i ∈ Finset.range s.n, (‖s.f i + burgRefl s * s.b i‖ ^ 2
        + ‖s.b i + star (burgRefl s) * s.f i‖ ^ 2)
      ≤ ∑ i ∈ Finset.range s.n, (‖s.f i + κ * s.b i‖ ^ 2 + ‖s.b i + star κ * s.f i‖ ^ 2) := by
  have hJ : ∀ κ : ℂ, ∑ i ∈ Finset.range s.n, (‖s.f i + κ * s.b i‖ ^ 2
      + ‖s.b i + star κ * s.f i‖ ^ 2)
      = burgDenom s * (1 + ‖κ‖ ^ 2)
        + 4 * (star κ * ∑ i ∈ Finset.range s.n, s.f i * star (s.b i)).re := by
    intro κ
    rw [burgDenom, ← Finset.sum_add_distrib, Finset.sum_mul, Finset.mul_sum, Complex.re_sum,
      Finset.mul_sum, ← Finset.sum_add_distrib]
    refine Finset.sum_congr rfl fun i _ => ?_
    simp only [← Complex.normSq_eq_norm_sq, Complex.normSq_apply, Complex.add_re, Complex.add_im,
      Complex.mul_re, Complex.mul_im, Complex.star_def, Complex.conj_re, Complex.conj_im]
    ring
  rw [hJ, hJ]
  set S := ∑ i ∈ Finset.range s.n, s.f i * star (s.b i) with hS
  have hk : burgRefl s * burgDenom s = -2 * S := by
    unfold burgRefl
    rw [div_mul_cancel₀ _ (by exact_mod_cast h)]
  have hD : 0 ≤ burgDenom s := (norm_nonneg _).trans (burg_num_le s)
  set q := burgRefl s
  set D := burgDenom s
  have hre := congrArg Complex.re hk
  have him := congrArg Complex.im hk
  simp [Complex.mul_re, Complex.mul_im] at hre him
  have key : D * (1 + ‖κ‖ ^ 2) + 4 * (star κ * S).re - (D * (1 + ‖q‖ ^ 2) + 4 * (star q * S).re)
      = D * ((κ.re - q.re) ^ 2 + (κ.im - q.im) ^ 2) := by
    simp only [← Complex.normSq_eq_norm_sq, Complex.normSq_apply,
      Complex.mul_re, Complex.star_def, Complex.conj_re, Complex.conj_im]
    linear_combination (2 * κ.re - 2 * q.re) * hre + (2 * κ.im - 2 * q.im) * him
  have : 0 ≤ D * ((κ.re - q.re) ^ 2 + (κ.im - q.im) ^ 2) := by positivity
  linarith

/-- Value of the predictor polynomial `z^k + ∑ a_j z^(k-1-j)`. -/
noncomputable def predPoly (a : ℕ → ℂ) (k : ℕ) (z : ℂ) : ℂ :=
  z ^ k + ∑ j ∈ Finset.range k, a j * z ^ (k - 1 - j)

private noncomputable def revPoly (a : ℕ → ℂ) (k : ℕ) (z : ℂ) : ℂ :=
  1 + ∑ j ∈ Finset.range k, star (a j) * z ^ (j + 1)

private lemma poly_step (x : ℕ → ℂ) (N k : ℕ) (z : ℂ) :
    predPoly (burgState x N (k + 1)).a (k + 1) z
      = z * predPoly (burgState x N k).a k z
        + burgRefl (burgState x N k) * revPoly (burgState x N k).a k z ∧
    revPoly (burgState x N (k + 1)).a (k + 1) z
      = revPoly (burgState x N k).a k z
        + star (burgRefl (burgState x N k)) * (z * predPoly (burgState x N k).a k z) := by
  obtain ⟨hL, hlast⟩ := burg_levinson x N k
  unfold predPoly revPoly
  rw [Finset.sum_range_succ, Finset.sum_range_succ, hlast]
  set κ := burgRefl (burgState x N k)
  set a := (burgState x N k).a
  constructor
  · have h1 : ∑ j ∈ Finset.range k, (burgState x N (k + 1)).a j * z ^ (k + 1 - 1 - j)
        = z * ∑ j ∈ Finset.range k, a j * z ^ (k - 1 - j)
          + κ * ∑ j ∈ Finset.range k, star (a j) * z ^ (j + 1) := by
      rw [Finset.mul_sum, Finset.mul_sum,
        Finset.sum_congr rfl fun j hj => by rw [hL j (Finset.mem_range.1 hj)]]
      simp only [add_mul, Finset.sum_add_distrib]
      congr 1
      · refine Finset.sum_congr rfl fun j hj => ?_
        have hj' := Finset.mem_range.1 hj
        have : k + 1 - 1 - j = k - 1 - j + 1 := by omega
        rw [this, pow_succ]
        ring
      · have := sum_reflect' (fun m j => κ * star (a m) * z ^ (k + 1 - 1 - j)) k
        rw [this]
        refine Finset.sum_congr rfl fun j hj => ?_
        have hj' := Finset.mem_range.1 hj
        rw [mul_assoc]
        congr 3
        omega
    rw [h1]
    have e2 : k + 1 - 1 - k = 0 := by omega
    rw [e2]
    ring
  · have h1 : ∑ j ∈ Finset.range k, star ((burgState x N (k + 1)).a j) * z ^ (j + 1)
        = ∑ j ∈ Finset.range k, star (a j) * z ^ (j + 1)
          + star κ * (z * ∑ j ∈ Finset.range k, a j * z ^ (k - 1 - j)) := by
      rw [Finset.mul_sum, Finset.mul_sum,
        Finset.sum_congr rfl fun j hj => by rw [hL j (Finset.mem_range.1 hj)]]
      simp only [star_add, star_mul', star_star, add_mul, Finset.sum_add_distrib]
      congr 1
      have := sum_reflect' (fun m j => star κ * a m * z ^ (j + 1)) k
      rw [this]
      refine Finset.sum_congr rfl fun j hj => ?_
      have hj' := Finset.mem_range.1 hj
      have : k - 1 - j + 1 = (k - 1 - j) + 1 := rfl
      rw [pow_succ]
      ring
    rw [h1]
    ring

/-- C39: stability. If all reflection coefficients have modulus less than one (otherwise `rho`
vanishes), all roots of the predictor polynomial lie inside the unit circle. -/
theorem burg_stable (x : ℕ → ℂ) (N p : ℕ)
    (hk : ∀ k < p, ‖(burgState x N (k + 1)).a k‖ < 1) (z : ℂ)
    (hz : predPoly (burgState x N p).a p z = 0) : ‖z‖ < 1 := by
  by_contra hz1
  have hz1 : 1 ≤ ‖z‖ := not_lt.1 hz1
  have key : ∀ k ≤ p, predPoly (burgState x N k).a k z ≠ 0 ∧
      ‖revPoly (burgState x N k).a k z‖ ≤ ‖z‖ * ‖predPoly (burgState x N k).a k z‖ := by
    intro k
    induction k with
    | zero => intro _; simpa [predPoly, revPoly] using hz1
    | succ k ih =>
      intro hkp
      obtain ⟨h1, h2⟩ := ih (by omega)
      obtain ⟨s1, s2⟩ := poly_step x N k z
      have hκ : ‖burgRefl (burgState x N k)‖ < 1 := by
        have := hk k (by omega)
        rwa [(burg_levinson x N k).2] at this
      rw [s1, s2]
      set κ := burgRefl (burgState x N k)
      set A := predPoly (burgState x N k).a k z
      set R := revPoly (burgState x N k).a k z
      have hzA : ‖R‖ ≤ ‖z * A‖ := by rw [norm_mul]; exact h2
      have hzA0 : 0 < ‖z * A‖ := by
        rw [norm_mul]; exact mul_pos (by linarith) (norm_pos_iff.2 h1)
      have hne : z * A + κ * R ≠ 0 := by
        intro h
        have : z * A = -(κ * R) := by linear_combination h
        have h3 : ‖z * A‖ = ‖κ‖ * ‖R‖ := by rw [this, norm_neg, norm_mul]
        nlinarith [norm_nonneg R, norm_nonneg κ]
      refine ⟨hne, ?_⟩
      have hsq : ‖z * A + κ * R‖ ^ 2 - ‖R + star κ * (z * A)‖ ^ 2
          = (1 - ‖κ‖ ^ 2) * (‖z * A‖ ^ 2 - ‖R‖ ^ 2) := by
        generalize z * A = B
        simp only [← Complex.normSq_eq_norm_sq, Complex.normSq_apply, Complex.add_re, Complex.add_im,
          Complex.mul_re, Complex.mul_im, Complex.star_def, Complex.conj_re, Complex.conj_im]
        ring
      have hpos : 0 ≤ (1 - ‖κ‖ ^ 2) * (‖z * A‖ ^ 2 - ‖R‖ ^ 2) :=
        mul_nonneg (by nlinarith [norm_nonneg κ]) (by nlinarith [norm_nonneg R])
      have hle : ‖R + star κ * (z * A)‖ ≤ ‖z * A + κ * R‖ := by
        rw [← sq_le_sq₀ (norm_nonneg _) (norm_nonneg _)]
        linarith
      calc _ ≤ ‖z * A + κ * R‖ := hle
        _ ≤ ‖z‖ * ‖z * A + κ * R‖ := by nlinarith [norm_nonneg (z * A + κ * R)]
  exact (key p le_rfl).1 hz

/-- C39: without any condition, the roots never lie outside the unit circle. -/
theorem burg_marginal (x : ℕ → ℂ) (N p : ℕ) (z : ℂ)
    (hz : predPoly (burgState x N p).a p z = 0) : ‖z‖ ≤ 1 := by
  by_contra hz1
  have hz1 : 1 < ‖z‖ := not_le.1 hz1
  have key : ∀ k, predPoly (burgState x N k).a k z ≠ 0 ∧
      ‖revPoly (burgState x N k).a k z‖ < ‖z‖ * ‖predPoly (burgState x N k).a k z‖ := by
    intro k
    induction k with
    | zero => simpa [predPoly, revPoly] using hz1
    | succ k ih =>
      obtain ⟨h1, h2⟩ := ih
      obtain ⟨s1, s2⟩ := poly_step x N k z
      have hκ := burg_refl_le (burgState x N k)
      rw [s1, s2]
      set κ := burgRefl (burgState x N k)
      set A := predPoly (burgState x N k).a k z
      set R := revPoly (burgState x N k).a k z
      have hzA : ‖R‖ < ‖z * A‖ := by rw [norm_mul]; exact h2
      have hne : z * A + κ * R ≠ 0 := by
        intro h
        have : z * A = -(κ * R) := by linear_combination h
        have h3 : ‖z * A‖ = ‖κ‖ * ‖R‖ := by rw [this, norm_neg, norm_mul]
        nlinarith [norm_nonneg R, norm_nonneg κ]
      refine ⟨hne, ?_⟩
      have hsq : ‖z * A + κ * R‖ ^ 2 - ‖R + star κ * (z * A)‖ ^ 2
          = (1 - ‖κ‖ ^ 2) * (‖z * A‖ ^ 2 - ‖R‖ ^ 2) := by
        generalize z * A = B
        simp only [← Complex.normSq_eq_norm_sq, Complex.normSq_apply, Complex.add_re, Complex.add_im,
          Complex.mul_re, Complex.mul_im, Complex.star_def, Complex.conj_re, Complex.conj_im]
        ring
      have hpos : 0 ≤ (1 - ‖κ‖ ^ 2) * (‖z * A‖ ^ 2 - ‖R‖ ^ 2) :=
        mul_nonneg (by nlinarith [norm_nonneg κ]) (by nlinarith [norm_nonneg R])
      have hle : ‖R + star κ * (z * A)‖ ≤ ‖z * A + κ * R‖ := by
        rw [← sq_le_sq₀ (norm_nonneg _) (norm_nonneg _)]
        linarith
      calc _ ≤ ‖z * A + κ * R‖ := hle
        _ < ‖z‖ * ‖z * A + κ * R‖ := by nlinarith [norm_pos_iff.2 hne]
  exact (key p).1 hz

/-- C39 about the returned coefficients: all roots of the predictor polynomial lie in the closed unit
disc, and inside it if the returned variance is positive. -/
theorem pcoeff_burg_stable (x : ℕ → ℂ) (N order : ℕ) (a : Fin order → ℂ) (rho : ℝ)
    (h : pcoeffBurg x N order = .ok (some (a, rho))) (z : ℂ)
    (hz : z ^ order + ∑ j : Fin order, a j * z ^ (order - 1 - (j : ℕ)) = 0) :
    ‖z‖ ≤ 1 ∧ (0 < rho → ‖z‖ < 1) := by
  unfold pcoeffBurg at h
  split_ifs at h with h1 h2
  · simp only [Except.ok.injEq, Option.some.injEq, Prod.mk.injEq] at h
    obtain ⟨rfl, rfl⟩ := h
    have hz' : predPoly (burgState x N order).a order z = 0 := by
      unfold predPoly
      rw [Finset.sum_range]
      exact hz
    refine ⟨burg_marginal x N order z hz', fun hrho => burg_stable x N order ?_ z hz'⟩
    have hall : ∀ m, 0 < (burgState x N m).rho →
        ∀ k < m, ‖(burgState x N (k + 1)).a k‖ < 1 := by
      intro m
      induction m with
      | zero => intro _ k hk; omega
      | succ m ih =>
        intro hm k hk
        have hm' : 0 < (burgState x N m).rho :=
          hm.trans_le (burg_reflection x N m).2.2
        rcases Nat.lt_succ_iff_lt_or_eq.1 hk with hk' | rfl
        · exact ih hm' k hk'
        · rw [(burg_levinson x N k).2]
          have he : (burgState x N (k + 1)).rho
            = (1 - ‖burgRefl (burgState x N k)‖ ^ 2) * (burgState x N k).rho := rfl
          rw [he] at hm
          have := (mul_pos_iff_of_pos_right hm').1 hm
          nlinarith [norm_nonneg (burgRefl (burgState x N k))]
    exact hall order hrho
  · cases h

/-- For a constant series the root is exactly on the unit circle (and the variance is zero): the
docstring's "inside the unit circle" holds only in the weak sense. -/
theorem burg_on_circle : ∃ a rho, pcoeffBurg (fun _ => 1) 2 1 = .ok (some (a, rho)) ∧ rho = 0 ∧
    (1 : ℂ) ^ 1 + ∑ j : Fin 1, a j * 1 ^ (1 - 1 - (j : ℕ)) = 0 := by
  have hd : burgDenom (burgState (fun _ => 1) 2 0) = 2 := by
    simp [burgState, burgInit, burgDenom]; norm_num
  have hr : burgRefl (burgState (fun _ => 1) 2 0) = -1 := by
    unfold burgRefl
    rw [hd]
    simp [burgState, burgInit]
  refine ⟨fun j => (burgState (fun _ => 1) 2 1).a j, (burgState (fun _ => 1) 2 1).rho, ?_, ?_, ?_⟩
  · unfold pcoeffBurg
    rw [if_neg (by omega), if_pos]
    intro k hk
    obtain rfl : k = 0 := by omega
    rw [hd]
    norm_num
  · have : (burgState (fun _ => 1) 2 1).rho = (1 - ‖burgRefl (burgState (fun _ => 1) 2 0)‖ ^ 2)
      * (burgState (fun _ => 1) 2 0).rho := rfl
    rw [this, hr]
    simp
  · have : (burgState (fun _ => 1) 2 1).a 0 = burgRefl (burgState (fun _ => 1) 2 0) :=
      (burg_levinson _ 2 0).2
    simp [this, hr]

/-- The series `1, 2, 0, ...`: the first reflection coefficient is `-4/5`. -/
example : ‖(burgState (fun n => if n = 0 then 1 else if n = 1 then 2 else 0) 2 1).a 0‖ = 4 / 5 := by
  have h : (burgState (fun n => if n = 0 then 1 else if n = 1 then 2 else 0) 2 1).a 0
      = (-4 / 5 : ℂ) := by
    simp [burgState, burgStep, burgInit, burgRefl, burgDenom]
    norm_num
  rw [h]
  norm_num

/-! ## C40: the covariance method -/

private lemma covar_row (x : ℕ → ℂ) (N p : ℕ) (c : Fin p → ℂ) (i : Fin (N - p)) :
    (covarMat x N p *ᵥ c) i = ∑ j : Fin p, c j * x (p + i - 1 - j) := by
  simp only [mulVec, dotProduct, covarMat, of_apply]
  refine Finset.sum_congr rfl fun j _ => ?_
  rw [mul_comm]
  congr 1
  have := j.2
  split_ifs with h <;> congr 1 <;> omega

/-- C40: `ValueError` iff the order is not smaller than the number of data; otherwise the
coefficients minimise the sum of squared one-step prediction errors
`x_i + ∑_j a_j x_{i-1-j}`, and the error estimate is the root of the minimum. -/
theorem pcoeff_covar_min (ext : LinalgExt ℂ) (x : ℕ → ℂ) (N p : ℕ) :
    (pcoeffCovar ext x N p = .error .valueError ↔ N ≤ p) ∧
    ∀ a rho, pcoeffCovar ext x N p = .ok (a, rho) →
      rho ^ 2 = ∑ i ∈ Finset.Ico p N, ‖x i + ∑ j : Fin p, a j * x (i - 1 - j)‖ ^ 2 ∧ 0 ≤ rho ∧
      ∀ a' : Fin p → ℂ, rho ^ 2
        ≤ ∑ i ∈ Finset.Ico p N, ‖x i + ∑ j : Fin p, a' j * x (i - 1 - j)‖ ^ 2 := by
  have hnorm : ∀ a : Fin p → ℂ, sqNorm ((fun i : Fin (N - p) => x (p + i)) + covarMat x N p *ᵥ a)
      = ∑ i ∈ Finset.Ico p N, ‖x i + ∑ j : Fin p, a j * x (i - 1 - j)‖ ^ 2 := by
    intro a
    rw [Finset.sum_Ico_eq_sum_range, Finset.sum_range]
    unfold sqNorm
    refine Finset.sum_congr rfl fun i _ => ?_
    rw [Pi.add_apply, covar_row]
  constructor
  · unfold pcoeffCovar
    split_ifs with h1 h2
    · simp [h1]
    · simp [h1]
    · simp [h1]
  · intro a rho h
    unfold pcoeffCovar at h
    split_ifs at h with h1 h2
    simp only [Except.ok.injEq, Prod.mk.injEq] at h
    obtain ⟨rfl, rfl⟩ := h
    have hnn : ∀ v : Fin (N - p) → ℂ, 0 ≤ sqNorm v := fun v =>
      Finset.sum_nonneg fun i _ => by positivity
    rw [Real.sq_sqrt (hnn _)]
    refine ⟨hnorm _, Real.sqrt_nonneg _, fun a' => ?_⟩
    rw [← hnorm a']
    have := ext.lstsq_min (covarMat x N p) (-(fun i : Fin (N - p) => x (p + i))) a'
    simpa [sub_neg_eq_add, add_comm] using this

/-- C40: for a series that satisfies a recurrence of that order, the error estimate vanishes, the
found coefficients satisfy all equations, and the data are reproduced. -/
theorem pcoeff_covar_exact (ext : LinalgExt ℂ) (x : ℕ → ℂ) (N p : ℕ) (c : Fin p → ℂ)
    (hc : ∀ i, p ≤ i → i < N → x i = - ∑ j : Fin p, c j * x (i - 1 - j))
    (a : Fin p → ℂ) (rho : ℝ) (h : pcoeffCovar ext x N p = .ok (a, rho)) :
    rho = 0 ∧ (∀ i, p ≤ i → i < N → RecursAt (List.ofFn a) x i) ∧
    predict ((List.range p).map x) (List.ofFn a) ((N - p : ℕ) : ℤ)
      = .ok ((List.range N).map x) := by
  obtain ⟨h1, h2, h3⟩ := (pcoeff_covar_min ext x N p).2 a rho h
  have hzero : rho ^ 2 ≤ 0 := by
    refine (h3 c).trans (le_of_eq (Finset.sum_eq_zero fun i hi => ?_))
    obtain ⟨hi1, hi2⟩ := Finset.mem_Ico.1 hi
    rw [hc i hi1 hi2]
    simp
  have hr : rho = 0 := by nlinarith
  have hrec : ∀ i, p ≤ i → i < N → RecursAt (List.ofFn a) x i := by
    intro i hi1 hi2
    rw [hr] at h1
    have h0 := (Finset.sum_eq_zero_iff_of_nonneg (fun i _ => sq_nonneg _)).1
      (h1.symm.trans (by norm_num)) i (Finset.mem_Ico.2 ⟨hi1, hi2⟩)
    have h0' := norm_eq_zero.1 (pow_eq_zero_iff (two_ne_zero) |>.1 h0)
    unfold RecursAt
    rw [List.length_ofFn, Finset.sum_range]
    simp only [ofFn_getD]
    linear_combination h0'
  refine ⟨hr, hrec, ?_⟩
  have hpN : p < N := by
    by_contra hcon
    rw [(pcoeff_covar_min ext x N p).1.2 (by omega)] at h
    cases h
  obtain ⟨y, hy1, hy2, hy3, hy4⟩ := predict_correct ((List.range p).map x) (List.ofFn a) (N - p)
    (by simp)
  rw [hy1]
  simp only [List.length_map, List.length_range] at hy2 hy3 hy4
  congr 1
  have hy := recurs_unique (List.ofFn a) p (p + (N - p)) (fun i => y.getD i 0) x (by simp)
    (fun i hi => by
      simp only [List.getD_eq_getElem?_getD]
      have : (y.take p)[i]? = ((List.range p).map x)[i]? := by rw [hy3]
      rw [List.getElem?_take_of_lt hi] at this
      rw [this]
      simp [hi]) hy4 (fun i hi hi' => hrec i hi (by omega))
  apply List.ext_getElem?
  intro i
  by_cases hi : i < N
  · have := hy i (by omega)
    simp only [List.getD_eq_getElem?_getD] at this
    rw [List.getElem?_eq_getElem (by omega)] at this ⊢
    simp only [Option.getD_some] at this
    rw [this, List.getElem?_map, List.getElem?_range hi, Option.map_some]
  · rw [List.getElem?_eq_none (by omega), List.getElem?_eq_none (by simp; omega)]

/-- C40: with at least `2 p` samples of a series that satisfies a recurrence of order `p`, the found
coefficients satisfy the recurrence for the whole series, also if the data do not determine them. -/
theorem pcoeff_covar_recurs (ext : LinalgExt ℂ) (x : ℕ → ℂ) (N p : ℕ) (hN : 2 * p ≤ N) (c : Fin p → ℂ)
    (hc : ∀ i, p ≤ i → x i = - ∑ j : Fin p, c j * x (i - 1 - j))
    (a : Fin p → ℂ) (rho : ℝ) (h : pcoeffCovar ext x N p = .ok (a, rho)) (i : ℕ) (hi : p ≤ i) :
    x i = - ∑ j : Fin p, a j * x (i - 1 - j) := by
  obtain ⟨-, h2, -⟩ := pcoeff_covar_exact ext x N p c (fun i hi _ => hc i hi) a rho h
  have key : ∀ i, p ≤ i → ∑ j : Fin p, (a j - c j) * x (i - 1 - j) = 0 := by
    intro i
    induction i using Nat.strong_induction_on with
    | _ i ih =>
      intro hi
      by_cases hiN : i < N
      · have e1 := h2 i hi hiN
        unfold RecursAt at e1
        rw [List.length_ofFn, Finset.sum_range] at e1
        simp only [ofFn_getD] at e1
        have e2 := hc i hi
        simp only [sub_mul, Finset.sum_sub_distrib]
        linear_combination e1 - e2
      · have e : ∀ j : Fin p, (a j - c j) * x (i - 1 - j)
            = - ∑ k : Fin p, c k * ((a j - c j) * x (i - 1 - k - 1 - j)) := by
          intro j
          have hj := j.2
          rw [hc (i - 1 - j) (by omega), mul_neg, Finset.mul_sum]
          congr 1
          refine Finset.sum_congr rfl fun k _ => ?_
          rw [show i - 1 - (j : ℕ) - 1 - (k : ℕ) = i - 1 - k - 1 - j by omega]
          ring
        simp only [e]
        rw [Finset.sum_neg_distrib, Finset.sum_comm, neg_eq_zero]
        refine Finset.sum_eq_zero fun k _ => ?_
        have hk := k.2
        rw [← Finset.mul_sum, ih (i - 1 - k) (by omega) (by omega), mul_zero]
  have e1 := key i hi
  have e2 := hc i hi
  simp only [sub_mul, Finset.sum_sub_distrib] at e1
  linear_combination e2 + e1

/-- C40: if moreover the data determine the coefficients, they are found and the series is
continued exactly to any length. -/
theorem pcoeff_covar_continues (ext : LinalgExt ℂ) (x : ℕ → ℂ) (N p : ℕ) (c : Fin p → ℂ)
    (hc : ∀ i, p ≤ i → x i = - ∑ j : Fin p, c j * x (i - 1 - j))
    (hinj : Function.Injective (covarMat x N p).mulVec)
    (a : Fin p → ℂ) (rho : ℝ) (h : pcoeffCovar ext x N p = .ok (a, rho)) (num : ℕ) :
    a = c ∧ predict ((List.range N).map x) (List.ofFn a) num
      = .ok ((List.range (N + num)).map x) := by
  obtain ⟨-, h2, -⟩ := pcoeff_covar_exact ext x N p c (fun i hi _ => hc i hi) a rho h
  have hpN : p < N := by
    by_contra hcon
    rw [(pcoeff_covar_min ext x N p).1.2 (by omega)] at h
    cases h
  have hac : a = c := by
    apply hinj
    ext i
    have e1 := h2 (p + i) (by omega) (by have := i.2; omega)
    have e2 := hc (p + i) (by omega)
    unfold RecursAt at e1
    rw [List.length_ofFn, Finset.sum_range] at e1
    simp only [ofFn_getD] at e1
    rw [covar_row, covar_row]
    linear_combination e1 - e2
  refine ⟨hac, ?_⟩
  apply predict_exact x N num _ (by simp; omega)
  intro i hi
  unfold RecursAt
  rw [List.length_ofFn, Finset.sum_range]
  simp only [ofFn_getD]
  rw [hac]
  exact hc i (by omega)

/-- A geometric series: order one, three data. -/
example : (∀ i : ℕ, 1 ≤ i → (3 : ℂ) ^ i
      = - ∑ j : Fin 1, (fun _ => -3 : Fin 1 → ℂ) j * (3 : ℂ) ^ (i - 1 - (j : ℕ))) ∧
    Function.Injective (covarMat (fun n : ℕ => (3 : ℂ) ^ n) 3 1).mulVec := by
  constructor
  · intro i hi
    obtain ⟨k, rfl⟩ : ∃ k, i = k + 1 := ⟨i - 1, by omega⟩
    simp [pow_succ]
    ring
  · intro u v huv
    have := congrFun huv ⟨0, by omega⟩
    rw [covar_row, covar_row] at this
    ext j
    fin_cases j
    simpa using this

end Gftool.Props
