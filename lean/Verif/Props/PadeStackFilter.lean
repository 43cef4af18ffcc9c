import Verif.Spec.PadeStack
import Verif.Props.Pade

/-!
# Filters and averages for stacks of functions (property C70)
-/

namespace Gftool.Props

open Model Spec

/-! ### The filters -/

/-- `FilterNegImag` judges every function of a stack separately. -/
theorem filter_neg_imag_stack (c : ℕ) (thr : ℝ) : PerFunction (stackNegImag c thr) := by
  intro pades
  refine ⟨_, rfl, by simp [filterNegImagStack], fun i => ?_⟩
  simp only [filterNegImagStack, stackNegImag, filterNegImag, List.map_map]
  rfl

/-- `FilterNegImagNum` for a stack never fails, and keeps for every function at least what is kept for the function alone.
The full property (equality) is false, see `filter_neg_imag_num_stack_fails`. -/
theorem filter_neg_imag_num_stack_partial {c : ℕ} (as : ArgSort) (n : ℕ) (badness : List (Fin c → ℝ)) :
    ∃ v, filterNegImagNumStack as n badness = .ok v ∧ v.length = badness.length ∧
      ∀ i w, filterNegImagNum as (.inl n) (badness.map (· i)) = .ok w →
        ∀ r, w.getD r false = true → (v.map (· i)).getD r false = true := by
  classical
  unfold filterNegImagNumStack
  by_cases hn : n ≥ badness.length
  · rw [if_pos hn]
    refine ⟨_, rfl, by simp, fun i w hw r hr => ?_⟩
    unfold filterNegImagNum at hw
    simp only [List.length_map] at hw
    rw [if_pos hn] at hw
    simp only [Except.ok.injEq] at hw
    rw [← hw, List.map_map] at hr
    rw [List.map_map]
    exact hr
  · rw [if_neg hn]
    simp only
    have hcount : ∀ i : Fin c, (((List.range badness.length).map fun r (i : Fin c) =>
        decide (∃ i', r ∈ (as.sort (badness.map (· i'))).take n) || decide ((badness.map (· i)).getD r 0 ≤ 0)).map
          (· i)).count true ≥ n := by
      intro i
      rw [List.map_map, List.count_eq_countP, List.countP_map, List.countP_eq_length_filter]
      have hsub : (as.sort (badness.map (· i))).take n ⊆ (List.range badness.length).filter ((fun x => x == true) ∘
          ((fun f : Fin c → Bool => f i) ∘ fun r (i : Fin c) =>
        decide (∃ i', r ∈ (as.sort (badness.map (· i'))).take n) || decide ((badness.map (· i)).getD r 0 ≤ 0))) := by
        intro r hr
        rw [List.mem_filter]
        have hp := as.perm (badness.map (· i))
        refine ⟨?_, ?_⟩
        · have := hp.mem_iff.1 (List.mem_of_mem_take hr)
          simpa using this
        · simp only [Function.comp_apply, beq_true, Bool.or_eq_true, decide_eq_true_eq]
          exact Or.inl ⟨i, hr⟩
      have hnd : ((as.sort (badness.map (· i))).take n).Nodup :=
        ((as.perm _).nodup_iff.2 List.nodup_range).sublist (List.take_sublist _ _)
      have hlen : ((as.sort (badness.map (· i))).take n).length = n := by
        rw [List.length_take, (as.perm _).length_eq]
        simp only [List.length_range, List.length_map]
        omega
      exact le_trans hlen.ge (List.subperm_of_subset hnd hsub).length_le
    rw [if_pos hcount]
    refine ⟨_, rfl, by simp, fun i w hw r hr => ?_⟩
    unfold filterNegImagNum at hw
    simp only [List.length_map] at hw
    rw [if_neg hn] at hw
    split_ifs at hw with h2
    simp only [Except.ok.injEq] at hw
    rw [← hw] at hr
    by_cases hrl : r < badness.length
    · rw [List.getD_eq_getElem?_getD, List.getElem?_eq_getElem (by simpa using hrl)] at hr ⊢
      simp only [List.getElem_map, List.getElem_range, Option.getD_some, Bool.or_eq_true, decide_eq_true_eq] at hr ⊢
      exact hr.imp (fun h => ⟨i, h⟩) id
    · rw [List.getD_eq_getElem?_getD, List.getElem?_eq_none (by simpa using hrl)] at hr
      simp at hr

private lemma sort_two (as : ArgSort) {a b : ℝ} (h : a < b) : as.sort [a, b] = [0, 1] ∧ as.sort [b, a] = [1, 0] := by
  have key : ∀ l : List ℝ, l.length = 2 → as.sort l = [0, 1] ∨ as.sort l = [1, 0] := by
    intro l hl
    have hp := as.perm l
    rw [hl] at hp
    have hlen := hp.length_eq
    have hnd := hp.nodup_iff.2 List.nodup_range
    rw [List.length_range, List.length_eq_two] at hlen
    obtain ⟨x, y, hxy⟩ := hlen
    have hx : x ∈ List.range 2 := hp.mem_iff.1 (by simp [hxy])
    have hy : y ∈ List.range 2 := hp.mem_iff.1 (by simp [hxy])
    rw [hxy] at hnd ⊢
    simp only [List.mem_range, List.nodup_cons, List.mem_singleton] at hx hy hnd
    have hne : x ≠ y := hnd.1
    have : (x = 0 ∧ y = 1) ∨ (x = 1 ∧ y = 0) := by omega
    rcases this with ⟨rfl, rfl⟩ | ⟨rfl, rfl⟩ <;> simp
  refine ⟨?_, ?_⟩
  · rcases key [a, b] rfl with h1 | h1
    · exact h1
    · have := as.sorted [a, b]
      rw [h1] at this
      simp at this
      linarith
  · rcases key [b, a] rfl with h1 | h1
    · have := as.sorted [b, a]
      rw [h1] at this
      simp at this
      linarith
    · exact h1

/-- **Violation**: `FilterNegImagNum(abs_num=1)` for two functions with two approximants each, whose imaginary parts are positive:
on its own each function keeps one approximant, in a stack both keep both. -/
theorem filter_neg_imag_num_stack_fails (as : ArgSort) :
    ∃ badness : List (Fin 2 → ℝ), filterNegImagNumStack as 1 badness = .ok [fun _ => true, fun _ => true] ∧
      filterNegImagNum as (.inl 1) (badness.map (· 0)) = .ok [true, false] ∧
      filterNegImagNum as (.inl 1) (badness.map (· 1)) = .ok [false, true] := by
  obtain ⟨h1, h2⟩ := sort_two as (show (1 : ℝ) < 2 by norm_num)
  refine ⟨[![1, 2], ![2, 1]], ?_, ?_, ?_⟩
  · obtain ⟨v, hv, hlen, -⟩ := filter_neg_imag_num_stack_partial as 1 ([![1, 2], ![2, 1]] : List (Fin 2 → ℝ))
    rw [hv]
    unfold filterNegImagNumStack at hv
    rw [if_neg (by simp)] at hv
    simp only at hv
    split_ifs at hv with hc
    simp only [Except.ok.injEq] at hv
    rw [← hv]
    congr 1
    simp only [List.length_cons, List.length_nil, List.range_succ, List.range_zero, List.nil_append, List.cons_append,
      List.map_cons, List.map_nil, List.cons.injEq, and_true]
    refine ⟨?_, ?_⟩
    · funext i
      have : ∃ i' : Fin 2, 0 ∈ (as.sort [(![1, 2] : Fin 2 → ℝ) i', (![2, 1] : Fin 2 → ℝ) i']).take 1 := ⟨0, by simp [h1]⟩
      simp [this]
    · funext i
      have : ∃ i' : Fin 2, 1 ∈ (as.sort [(![1, 2] : Fin 2 → ℝ) i', (![2, 1] : Fin 2 → ℝ) i']).take 1 := ⟨1, by simp [h2]⟩
      simp [this]
  · unfold filterNegImagNum
    simp [h1, List.range_succ]
  · unfold filterNegImagNum
    simp [h2, List.range_succ]

/-- The filter for high variance gives the same verdict for all functions of a stack. -/
theorem filter_high_variance_stack_shared (as : ArgSort) {N c m : ℕ} (pade : Fin N → Fin c → Fin m → ℂ) (n : ℕ)
    (v : List (Fin c → Bool)) (h : filterHighVarianceStack as pade n = .ok v) (i i' : Fin c) :
    v.map (· i) = v.map (· i') := by
  unfold filterHighVarianceStack at h
  split_ifs at h
  · simp only [Except.ok.injEq] at h
    rw [← h]
    simp
  · cases hl : highVarianceLoopStack as pade (N - n) N [] (fun _ => []) with
    | error e => rw [hl] at h; cases h
    | ok b =>
      rw [hl] at h
      simp only [bind, Except.bind, Except.ok.injEq] at h
      rw [← h]
      simp

private lemma order_perm (as : ArgSort) {N m : ℕ} (pade : Fin N → Fin m → ℂ) (bad : List (Fin N)) (nn : ℕ) :
    (highVarianceOrder as pade bad nn).Perm (List.range N) := by
  unfold highVarianceOrder
  simp only
  refine (List.reverse_perm _).trans ((as.perm _).trans ?_)
  simp

private lemma exists_not_bad {N : ℕ} (bad : List (Fin N)) (h : bad.length < N) : ∃ r < N, r ∉ bad.map Fin.val := by
  by_contra hcon
  push Not at hcon
  have hsub : List.range N ⊆ bad.map Fin.val := fun r hr => hcon r (List.mem_range.1 hr)
  have := (List.subperm_of_subset List.nodup_range hsub).length_le
  simp at this
  omega

private lemma loop_one (as : ArgSort) {N m : ℕ} (pade : Fin N → Fin 1 → Fin m → ℂ) (k : ℕ) :
    ∀ (nn : ℕ) (bad : List (Fin N)) (last : List ℕ), bad.length + k ≤ N →
      highVarianceLoopStack as pade k nn bad (fun _ => last)
        = .ok fun _ => highVarianceLoop as (fun r x => pade r 0 x) k nn bad last := by
  induction k with
  | zero => intros; rfl
  | succ k ih =>
    intro nn bad last hb
    have hp := order_perm as (fun r x => pade r 0 x) bad nn
    have hflat : ((List.range N).flatMap fun r => (List.finRange 1).map fun i =>
        (highVarianceColumn as pade bad nn i).getD r 0) = highVarianceOrder as (fun r x => pade r 0 x) bad nn := by
      have hlen := hp.length_eq
      rw [List.length_range] at hlen
      have : (fun r => (List.finRange 1).map fun i => (highVarianceColumn as pade bad nn i).getD r 0)
          = fun r => [(highVarianceOrder as (fun r x => pade r 0 x) bad nn).getD r 0] := by
        funext r
        simp [highVarianceColumn, List.finRange_succ]
      rw [this, ← List.map_eq_flatMap]
      refine List.ext_getElem (by simp [hlen]) fun r h1 h2 => ?_
      simp only [List.getElem_map, List.getElem_range]
      rw [List.getD_eq_getElem?_getD, List.getElem?_eq_getElem h2, Option.getD_some]
    rw [highVarianceLoopStack, highVarianceLoop]
    rw [hflat]
    cases hf : (highVarianceOrder as (fun r x => pade r 0 x) bad nn).find? fun r => decide (r ∉ bad.map Fin.val) with
    | none =>
      exfalso
      obtain ⟨r, hr, hnb⟩ := exists_not_bad bad (by omega)
      have := List.find?_eq_none.1 hf r (hp.mem_iff.2 (List.mem_range.2 hr))
      simp only [decide_eq_true_eq] at this
      exact this hnb
    | some r =>
      have hr : r < N := List.mem_range.1 (hp.mem_iff.1 (List.mem_of_find?_eq_some hf))
      simp only [hr, dite_true]
      have := ih (nn - 1) (bad ++ [⟨r, hr⟩]) (highVarianceOrder as (fun r x => pade r 0 x) bad nn)
        (by simp only [List.length_append, List.length_singleton]; omega)
      refine Eq.trans ?_ this
      congr 1
      funext i
      rw [Subsingleton.elim i 0]
      rfl

/-- A stack of one function is treated like the function. -/
theorem filter_high_variance_stack_partial (as : ArgSort) {N m : ℕ} (pade : Fin N → Fin 1 → Fin m → ℂ) (n : ℕ) :
    ∃ v, filterHighVarianceStack as pade n = .ok v ∧
      v.map (· 0) = filterHighVariance as (fun r x => pade r 0 x) n := by
  unfold filterHighVarianceStack filterHighVariance
  split_ifs with h
  · exact ⟨_, rfl, by simp⟩
  · rw [loop_one as pade (N - n) N [] [] (by simp)]
    refine ⟨_, rfl, ?_⟩
    simp

/-- An order with a unique largest element starts with it. -/
private lemma sort_head (as : ArgSort) (l : List ℝ) (i : ℕ) (hi : i < l.length)
    (hmax : ∀ r < l.length, r ≠ i → l.getD r 0 < l.getD i 0) : ((as.sort l).reverse).take 1 = [i] := by
  have hp : ((as.sort l).reverse).Perm (List.range l.length) := (List.reverse_perm _).trans (as.perm l)
  have hs : ((as.sort l).reverse).Pairwise fun a b => l.getD b 0 ≤ l.getD a 0 := List.pairwise_reverse.2 (as.sorted l)
  have hmem : i ∈ (as.sort l).reverse := hp.mem_iff.2 (List.mem_range.2 hi)
  cases hl : (as.sort l).reverse with
  | nil => rw [hl] at hmem; simp at hmem
  | cons h t =>
    rw [hl] at hmem hs hp
    rw [List.take_succ_cons, List.take_zero]
    rcases List.mem_cons.1 hmem with h1 | h1
    · rw [h1]
    · have h2 := (List.pairwise_cons.1 hs).1 i h1
      by_contra hne
      have hr : h < l.length := List.mem_range.1 (hp.mem_iff.1 (by simp))
      exact absurd h2 (not_le.2 (hmax h hr fun h => hne (by rw [h])))

/-- `N` approximants of `N` functions, the `i`-th function has one outlier: the `i`-th approximant. -/
def outliers (N : ℕ) : Fin N → Fin N → Fin 1 → ℂ := fun r i _ => if r = i then 1 else 0

private lemma outliers_order (as : ArgSort) (N : ℕ) (hN : 3 ≤ N) (i : Fin N) :
    (highVarianceOrder as (fun r x => outliers N r i x) [] N).take 1 = [(i : ℕ)] := by
  unfold highVarianceOrder
  simp only
  have hd : ∀ r : Fin N, (∑ x : Fin 1, Complex.normSq ((N : ℂ) * outliers N r i x - (∑ i_1, outliers N i_1 i x
      - (([] : List (Fin N)).map fun i_1 => outliers N i_1 i x).sum))) = if r = i then ((N : ℝ) - 1) ^ 2 else 1 := by
    intro r
    simp only [outliers, Finset.univ_unique, Finset.sum_singleton, List.map_nil, List.sum_nil, sub_zero,
      Finset.sum_ite_eq', Finset.mem_univ, if_true]
    split_ifs with h
    · rw [mul_one, show ((N : ℂ) - 1) = (((N : ℝ) - 1 : ℝ) : ℂ) by push_cast; ring, Complex.normSq_ofReal, sq]
    · simp
  simp only [hd]
  have hget : ∀ r, ∀ hr : r < N, ((List.finRange N).map fun r : Fin N => if r = i then ((N : ℝ) - 1) ^ 2 else 1).getD r 0
      = if r = i then ((N : ℝ) - 1) ^ 2 else 1 := by
    intro r hr
    rw [List.getD_eq_getElem?_getD, List.getElem?_eq_getElem (by simpa using hr), Option.getD_some]
    simp only [List.getElem_map, List.getElem_finRange, Fin.cast_mk, Fin.ext_iff]
  refine sort_head as _ i (by simp) fun r hr hne => ?_
  rw [hget r (by simpa using hr), hget i i.2, if_neg hne, if_pos rfl]
  have : (3 : ℝ) ≤ N := by exact_mod_cast hN
  nlinarith

private lemma flat_outliers (as : ArgSort) (N : ℕ) (hN : 3 ≤ N) (i : Fin N) :
    filterHighVariance as (fun r x => outliers N r i x) (N - 1) = (List.range N).map fun r => decide (r ≠ (i : ℕ)) := by
  unfold filterHighVariance
  rw [if_neg (by omega), show N - (N - 1) = 0 + 1 by omega, highVarianceLoop, highVarianceLoop]
  simp only
  have hlen := (order_perm as (fun r x => outliers N r i x) [] N).length_eq
  rw [List.length_range] at hlen
  rw [sliceNeg, if_neg (by omega), hlen, show N - (N - 1) = 1 by omega, outliers_order as N hN i]
  simp

/-- **Violation**: `FilterHighVariance(abs_num=N-1)` for a stack of `N ≥ 3` functions with `N` approximants each: every function on
its own only loses its outlier, but in the stack **no** approximant is left for any function; so `averaged` raises
`RuntimeError`. -/
theorem filter_high_variance_stack_fails (as : ArgSort) (N : ℕ) (hN : 3 ≤ N) :
    filterHighVarianceStack as (outliers N) (N - 1) = .ok (List.replicate N fun _ => false) ∧
      (∀ i : Fin N, filterHighVariance as (fun r x => outliers N r i x) (N - 1)
        = (List.range N).map fun r => decide (r ≠ (i : ℕ))) ∧
      ∀ kind pades, averager2d (c := N) kind (List.replicate N fun _ => false) pades = .error .runtimeError := by
  refine ⟨?_, flat_outliers as N hN, fun kind pades => ?_⟩
  · unfold filterHighVarianceStack
    rw [if_neg (by omega), show N - (N - 1) = 0 + 1 by omega, highVarianceLoopStack]
    cases hf : (((List.range N).flatMap fun r => (List.finRange N).map fun i =>
        (highVarianceColumn as (outliers N) [] N i).getD r 0).find? fun r => decide (r ∉ ([] : List (Fin N)).map Fin.val)) with
    | none =>
      exfalso
      have := List.find?_eq_none.1 hf ((highVarianceColumn as (outliers N) [] N ⟨0, by omega⟩).getD 0 0) (by
        rw [List.mem_flatMap]
        exact ⟨0, by simp; omega, List.mem_map.2 ⟨⟨0, by omega⟩, by simp, rfl⟩⟩)
      simp at this
    | some r =>
      simp only [highVarianceLoopStack, bind, Except.bind]
      congr 1
      have hdrop : ∀ i, sliceNeg (highVarianceColumn as (outliers N) [] N i) (N - 1) = [(i : ℕ)] := by
        intro i
        have hlen := (order_perm as (fun r x => outliers N r i x) [] N).length_eq
        rw [List.length_range] at hlen
        unfold highVarianceColumn
        rw [sliceNeg, if_neg (by omega), hlen, show N - (N - 1) = 1 by omega, outliers_order as N hN i]
      simp only [hdrop]
      refine List.ext_getElem (by simp) fun r h1 h2 => ?_
      simp only [List.getElem_map, List.getElem_range, List.getElem_replicate]
      funext _
      simp only [decide_eq_false_iff_not, not_forall]
      exact ⟨⟨r, by simpa using h1⟩, by simp⟩
  · unfold averager2d
    rw [if_pos]
    push Not
    exact ⟨⟨0, by omega⟩, by simp⟩

/-! ### `apply_filter` -/

private lemma mapM_ok {α β : Type*} (g : α → Except Err β) (v : α → β) (l : List α) (h : ∀ x ∈ l, g x = .ok (v x)) :
    l.mapM g = .ok (l.map v) := by
  induction l with
  | nil => rfl
  | cons a l ih =>
    rw [List.mapM_cons, h a (by simp), ih fun x hx => h x (by simp [hx])]
    rfl

private lemma mapM_error {α β : Type*} (g : α → Except Err β) (e : Err) (l : List α)
    (hg : ∀ x e', g x = .error e' → e' = e) (h : ∃ x ∈ l, ∃ e', g x = .error e') : l.mapM g = .error e := by
  induction l with
  | nil => simp at h
  | cons a l ih =>
    rw [List.mapM_cons]
    cases ha : g a with
    | error e' => rw [hg a e' ha]; rfl
    | ok b =>
      have : ∃ x ∈ l, ∃ e', g x = .error e' := by
        obtain ⟨x, hx, e', he⟩ := h
        rcases List.mem_cons.1 hx with rfl | hx
        · rw [ha] at he; cases he
        · exact ⟨x, hx, e', he⟩
      simp only [bind, Except.bind]
      rw [show List.mapM g l = _ from ih this]

private lemma maskSet_len (v new : List Bool) : (maskSet v new).length = v.length := by
  induction v generalizing new with
  | nil => simp [maskSet]
  | cons b v ih => cases b <;> cases new <;> simp [maskSet, ih]

private lemma loop_length {α : Type*} (pades : List α) (fs : List (List α → List Bool)) :
    ∀ (valid w : List Bool), applyFilterLoop pades fs valid = .ok w → w.length = valid.length := by
  induction fs with
  | nil =>
    intro valid w h
    cases h
    rfl
  | cons f fs ih =>
    intro valid w h
    rw [applyFilterLoop] at h
    split_ifs at h with hc
    rw [ih _ _ h, maskSet_len]

private lemma loop_error {α : Type*} (pades : List α) (fs : List (List α → List Bool)) :
    ∀ (valid : List Bool) (e : Err), applyFilterLoop pades fs valid = .error e → e = .runtimeError := by
  induction fs with
  | nil =>
    intro valid e h
    cases h
  | cons f fs ih =>
    intro valid e h
    rw [applyFilterLoop] at h
    split_ifs at h with hc
    · cases h
      rfl
    · exact ih _ _ h

private lemma applyFilter_many {α : Type*} (fs : List (List α → List Bool)) (h : fs.length ≠ 1) (pades : List α) :
    applyFilter fs pades = applyFilterLoop pades fs (pades.map fun _ => true) := by
  match fs with
  | [] => rfl
  | [f] => simp at h
  | f :: g :: fs => rfl

private lemma applyFilterStack_many {c : ℕ} (fs : List (StackFilter c)) (h : fs.length ≠ 1) (pades : List (Fin c → PadeVals)) :
    applyFilterStack fs pades = ((List.finRange c).mapM fun i =>
      applyFilterLoop (pades.map (· i)) (fs.map StackFilter.flat) (pades.map fun _ => true)) >>= fun cols =>
      .ok ((List.range pades.length).map fun r (i : Fin c) => (cols.getD i []).getD r false) := by
  match fs with
  | [] => rfl
  | [f] => simp at h
  | f :: g :: fs => rfl

/-- `apply_filter` with several filters (or none), or with one which treats the functions separately: every function gets the
verdict it gets alone. -/
theorem apply_filter_stack {c : ℕ} (fs : List (StackFilter c)) (hfs : fs.length ≠ 1 ∨ ∀ F ∈ fs, PerFunction F)
    (pades : List (Fin c → PadeVals)) (w : Fin c → List Bool)
    (hw : ∀ i, applyFilter (fs.map StackFilter.flat) (pades.map (· i)) = .ok (w i)) :
    ∃ v, applyFilterStack fs pades = .ok v ∧ v.length = pades.length ∧ ∀ i, v.map (· i) = w i := by
  by_cases h1 : fs.length = 1
  · obtain ⟨F, rfl⟩ := List.length_eq_one_iff.1 h1
    obtain ⟨v, hv, hlen, hcol⟩ := (hfs.resolve_left (by simp)) F (by simp) pades
    refine ⟨v, hv, hlen, fun i => ?_⟩
    have := hw i
    simp only [List.map_cons, List.map_nil, applyFilter, Except.ok.injEq] at this
    rw [hcol, this]
  · have hl : ∀ i, applyFilterLoop (pades.map (· i)) (fs.map StackFilter.flat) (pades.map fun _ => true) = .ok (w i) := by
      intro i
      rw [← hw i, applyFilter_many _ (by simpa using h1)]
      simp
    rw [applyFilterStack_many fs h1, mapM_ok _ w _ fun i _ => hl i]
    refine ⟨_, rfl, by simp, fun i => ?_⟩
    have hlen : (w i).length = pades.length := by rw [loop_length _ _ _ _ (hl i)]; simp
    refine List.ext_getElem (by simp [hlen]) fun r h1 h2 => ?_
    simp only [List.getElem_map, List.getElem_range]
    rw [show ((List.finRange c).map w).getD i [] = w i by simp [List.getD_eq_getElem?_getD], List.getD_eq_getElem?_getD, List.getElem?_eq_getElem h2, Option.getD_some]

/-- If several filters leave nothing for some function, `apply_filter` raises `RuntimeError` for the stack. -/
theorem apply_filter_stack_error {c : ℕ} (fs : List (StackFilter c)) (hfs : fs.length ≠ 1) (pades : List (Fin c → PadeVals))
    (i : Fin c) (e : Err) (he : applyFilter (fs.map StackFilter.flat) (pades.map (· i)) = .error e) :
    applyFilterStack fs pades = .error .runtimeError := by
  rw [applyFilterStack_many fs hfs, mapM_error _ .runtimeError _ (fun x e' h => loop_error _ _ _ _ h)
    ⟨i, by simp, e, ?_⟩]
  · rfl
  · rw [← he, applyFilter_many _ (by simpa using hfs)]
    simp

/-- The list of the approximants of `outliers`. -/
def outlierList (N : ℕ) : List (Fin N → PadeVals) := (List.finRange N).map fun r i => [outliers N r i 0]

private lemma maskSet_all (v : List Bool) : ∀ n, n = v.count true → maskSet v ((List.range n).map fun _ => true) = v := by
  induction v with
  | nil => intro n _; rfl
  | cons b v ih =>
    intro n hn
    cases b with
    | false =>
      rw [maskSet, ih n (by simpa using hn)]
    | true =>
      obtain ⟨m, rfl⟩ : ∃ m, n = m + 1 := ⟨v.count true, by simpa using hn⟩
      rw [List.range_succ_eq_map, List.map_cons, maskSet, List.map_map]
      rw [show ((fun _ => true) ∘ Nat.succ : ℕ → Bool) = fun _ => true from rfl, ih m (by simpa using hn)]

private lemma maskGet_len {α : Type*} (v : List Bool) : ∀ (l : List α), v.length = l.length →
    (maskGet v l).length = v.count true := by
  induction v with
  | nil => intro l _; simp [maskGet]
  | cons b v ih =>
    intro l hl
    cases l with
    | nil => simp at hl
    | cons x l => cases b <;> simp [maskGet, ih l (by simpa using hl)]

private lemma maskSet_first (new : List Bool) : ∀ l : List PadeVals, new.length = l.length →
    maskSet (l.map fun _ => true) new = new := by
  induction new with
  | nil => intro l hl; rw [List.length_nil, eq_comm, List.length_eq_zero_iff] at hl; subst hl; rfl
  | cons b new ih =>
    intro l hl
    cases l with
    | nil => simp at hl
    | cons x l => simp only [List.map_cons, maskSet]; rw [ih l (by simpa using hl)]

private lemma maskGet_all {α : Type*} (l : List α) : maskGet (l.map fun _ => true) l = l := by
  induction l with
  | nil => rfl
  | cons x l ih => rw [List.map_cons, maskGet, ih]

private lemma count_ne (N : ℕ) (i : Fin N) : ((List.range N).map fun r => decide (r ≠ (i : ℕ))).count true = N - 1 := by
  rw [List.count_eq_countP, List.countP_map]
  have h1 : (List.range N).countP ((fun x => x == true) ∘ fun r => decide (r ≠ (i : ℕ)))
      = (List.range N).countP fun r => !(r == (i : ℕ)) := by
    congr 1
    funext r
    by_cases h : r = (i : ℕ) <;> simp [h]
  have h2 := List.length_eq_countP_add_countP (fun r => r == (i : ℕ)) (l := List.range N)
  have h3 : (List.range N).countP (fun r => r == (i : ℕ)) = 1 := by
    rw [← List.count_eq_countP]
    exact List.count_eq_one_of_mem List.nodup_range (List.mem_range.2 i.2)
  rw [h1]
  rw [h3, List.length_range] at h2
  simp only [decide_not, Bool.decide_eq_true] at h2
  omega

private lemma hv_congr (as : ArgSort) {N N' m : ℕ} (h : N' = N) (p : Fin N → Fin m → ℂ) (p' : Fin N' → Fin m → ℂ)
    (hp : ∀ r, p' r = p (Fin.cast h r)) (n : ℕ) : filterHighVariance as p' n = filterHighVariance as p n := by
  subst h
  rw [show p' = p from funext hp]

private lemma hv_stack_congr (as : ArgSort) {N N' c m : ℕ} (h : N' = N) (p : Fin N → Fin c → Fin m → ℂ)
    (p' : Fin N' → Fin c → Fin m → ℂ) (hp : ∀ r, p' r = p (Fin.cast h r)) (n : ℕ) :
    filterHighVarianceStack as p' n = filterHighVarianceStack as p n := by
  subst h
  rw [show p' = p from funext hp]

/-- **Violation**: whether a stack is filtered correctly depends on the number of filters.  `apply_filter` with one
`FilterHighVariance` rejects everything, but giving the same filter twice yields for every function the correct result,
that of the filter applied (once or twice) to the function alone. -/
theorem apply_filter_stack_inconsistent (as : ArgSort) (N : ℕ) (hN : 3 ≤ N) :
    applyFilterStack [stackHighVariance N as 1 (N - 1)] (outlierList N) = .ok (List.replicate N fun _ => false) ∧
      ∃ v, applyFilterStack [stackHighVariance N as 1 (N - 1), stackHighVariance N as 1 (N - 1)] (outlierList N) = .ok v ∧
        ∀ i, .ok (v.map (· i)) = applyFilter [(stackHighVariance N as 1 (N - 1)).flat] ((outlierList N).map (· i)) ∧
          v.map (· i) = (List.range N).map fun r => decide (r ≠ (i : ℕ)) := by
  have hflat : ∀ i : Fin N, (stackHighVariance N as 1 (N - 1)).flat ((outlierList N).map (· i))
      = (List.range N).map fun r => decide (r ≠ (i : ℕ)) := by
    intro i
    rw [← flat_outliers as N hN i]
    refine hv_congr as (by simp [outlierList]) _ _ (fun r => ?_) _
    funext x
    rw [Subsingleton.elim x 0]
    obtain ⟨r, hr⟩ := r
    change List.getD (((outlierList N).map (· i))[r]'hr) 0 0 = _
    simp [outlierList]
    rfl
  have hstack : (stackHighVariance N as 1 (N - 1)).stack (outlierList N) = filterHighVarianceStack as (outliers N) (N - 1) := by
    refine hv_stack_congr as (by simp [outlierList]) _ _ (fun r => ?_) _
    funext i x
    rw [Subsingleton.elim x 0]
    obtain ⟨r, hr⟩ := r
    change List.getD (((outlierList N)[r]'hr) i) 0 0 = _
    have h2 : (outlierList N)[r]'hr = fun i => [outliers N ⟨r, by simpa [outlierList] using hr⟩ i 0] := by
      simp [outlierList]
    rw [h2]
    rfl
  refine ⟨?_, ?_⟩
  · change (stackHighVariance N as 1 (N - 1)).stack (outlierList N) = _
    rw [hstack]
    exact (filter_high_variance_stack_fails as N hN).1
  · have h2 : ∀ i, applyFilter ([stackHighVariance N as 1 (N - 1), stackHighVariance N as 1 (N - 1)].map StackFilter.flat)
        ((outlierList N).map (· i)) = .ok ((List.range N).map fun r => decide (r ≠ (i : ℕ))) := by
      intro i
      have hc := count_ne N i
      rw [applyFilter_many _ (by simp)]
      simp only [List.map_cons, List.map_nil, applyFilterLoop, maskGet_all]
      rw [hflat, maskSet_first _ _ (by simp [outlierList])]
      rw [hc, if_neg (by omega)]
      have hlen : (maskGet ((List.range N).map fun r => decide (r ≠ (i : ℕ))) ((outlierList N).map (· i))).length = N - 1 := by
        rw [maskGet_len _ _ (by simp [outlierList]), hc]
      have hskip : (stackHighVariance N as 1 (N - 1)).flat
          (maskGet ((List.range N).map fun r => decide (r ≠ (i : ℕ))) ((outlierList N).map (· i)))
          = (List.range (N - 1)).map fun _ => true := by
        simp only [stackHighVariance, filterHighVariance]
        rw [if_pos hlen.le, hlen]
      rw [hskip, maskSet_all _ _ hc.symm, hc, if_neg (by omega)]
    obtain ⟨v, hv, -, hcol⟩ := apply_filter_stack _ (Or.inl (by simp)) (outlierList N) _ h2
    refine ⟨v, hv, fun i => ⟨?_, hcol i⟩⟩
    rw [hcol i]
    simp only [applyFilter]
    rw [hflat]

/-! ### Averages -/

private lemma zip_col {β γ : Type*} {c : ℕ} (f : β × Bool → Option γ) (i : Fin c) (l : List (Fin c → β)) (v : List (Fin c → Bool)) :
    (l.zip v).filterMap (fun p => f (p.1 i, p.2 i)) = ((l.map (· i)).zip (v.map (· i))).filterMap f := by
  rw [List.zip_map, List.filterMap_map]
  rfl

private lemma islice_map {β γ : Type*} (kind : KindSelector) (l : List β) (g : β → γ) :
    kind.islice (l.map g) = (kind.islice l).map g := by
  unfold KindSelector.islice
  rw [List.map_filterMap]
  congr 1
  funext k
  rw [List.getElem?_map]

private lemma islice_col {β : Type*} {c : ℕ} (kind : KindSelector) (l : List (Fin c → β)) (i : Fin c) :
    (kind.islice l).map (· i) = kind.islice (l.map (· i)) := by
  unfold KindSelector.islice
  rw [List.map_filterMap]
  congr 1
  funext k
  rw [List.getElem?_map]

/-- `Averager` for a stack of functions, with a verdict for every approximant and every function: the average of each function
alone. -/
theorem averager_stack {c : ℕ} (kind : KindSelector) (valid : List (Fin c → Bool)) (pades : List (Fin c → ℂ))
    (hlen : (kind.islice pades).length = valid.length) (R : Fin c → AvgResult) :
    averager2d kind valid pades = .ok R ↔ ∀ i, averager kind (valid.map (· i)) (pades.map (· i)) = .ok (R i) := by
  have hany : ∀ i, (valid.map (· i)).any id = valid.any (· i) := fun i => by rw [List.any_map]; rfl
  have hval : ∀ i, avgStat (((kind.islice pades).zip valid).filterMap fun p => if p.2 i then some (p.1 i) else none)
      = avgStat (((kind.islice (pades.map (· i))).zip (valid.map (· i))).filterMap fun p => if p.2 then some p.1 else none) := by
    intro i
    rw [← islice_col, ← zip_col (fun p : ℂ × Bool => if p.2 then some p.1 else none) i]
  unfold averager2d averager
  by_cases h : ∀ i, valid.any (· i)
  · rw [if_neg (by simpa using h), if_neg (by simpa using hlen)]
    simp only [Except.ok.injEq]
    constructor
    · rintro rfl i
      rw [if_neg (by rw [hany]; simpa using h i)]
      exact congrArg Except.ok (hval i).symm
    · intro hR
      funext i
      have := hR i
      rw [if_neg (by rw [hany]; simpa using h i)] at this
      simp only [Except.ok.injEq] at this
      rw [← this, hval i]
  · rw [if_pos h]
    refine ⟨fun h => (by cases h), fun hR => ?_⟩
    push Not at h
    obtain ⟨i, hi⟩ := h
    have := hR i
    rw [if_pos (by rw [hany]; simpa using hi)] at this
    cases this

/-- **Violation**: an approximant which is NaN and rejected by the filters does not matter for a single function, but in a stack
it makes `Averager` raise `RuntimeError`, for all functions. -/
theorem averager_nan_stack_fails (a : ℂ) (b : ℂ) :
    ∃ (kind : KindSelector) (valid : List (Fin 2 → Bool)) (pades : List (Fin 2 → Option ℂ)),
      averagerNan kind (valid.map (· 0)) (pades.map (· 0)) = .ok (avgStat [a]) ∧
      averagerNan kind (valid.map (· 1)) (pades.map (· 1)) = .ok (avgStat [b]) ∧
      averagerNanStack kind valid pades = .error .runtimeError := by
  have hr : pyRange 0 2 1 = [0, 1] := by decide
  refine ⟨⟨0, 2, 1⟩, [fun _ => true, fun _ => false], [![some a, some b], ![none, some 0]], ?_, ?_, ?_⟩
  · simp [averagerNan, KindSelector.islice, hr]
  · simp [averagerNan, KindSelector.islice, hr]
  · unfold averagerNanStack
    rw [if_neg (by simp), if_pos]
    exact ⟨0, by simp [KindSelector.islice, hr]⟩

/-- Without NaNs the two descriptions of `Averager` agree with those for finite numbers. -/
theorem averager_nan_finite {c : ℕ} (kind : KindSelector) (valid : List (Fin c → Bool)) (pades : List (Fin c → ℂ)) :
    averagerNanStack kind valid (pades.map fun p i => some (p i)) = averager2d kind valid pades ∧
      ∀ (v : List Bool) (l : List ℂ), averagerNan kind v (l.map some) = averager kind v l := by
  refine ⟨?_, fun v l => ?_⟩
  · unfold averagerNanStack averager2d
    rw [islice_map, List.length_map]
    refine ite_congr rfl (fun _ => rfl) fun _ => ?_
    rw [if_neg (by simp)]
    refine ite_congr rfl (fun _ => rfl) fun _ => ?_
    congr 1
    funext i
    rw [List.zip_map_left, List.filterMap_map]
    rfl
  · unfold averagerNan averager
    rw [islice_map]
    refine ite_congr rfl (fun _ => rfl) fun _ => ?_
    simp only
    have : (((kind.islice l).map some).zip v).filterMap (fun p => if p.2 then some p.1 else none)
        = (((kind.islice l).zip v).filterMap fun p => if p.2 then some p.1 else none).map some := by
      rw [List.zip_map_left, List.filterMap_map, List.map_filterMap]
      congr 1
      funext p
      simp only [Function.comp_apply, Prod.map_fst, Prod.map_snd, id_eq]
      split_ifs <;> rfl
    rw [this, if_neg (by simp)]
    simp

/-- `averaged` for a stack of functions, with several filters or with one that judges each function separately: if it succeeds for
each function alone, the result for the stack consists of these results. -/
theorem averaged_stack {c : ℕ} (kind : KindSelector) (zOut : ℂ) (N : ℕ) (zin : ℕ → ℂ) (f : Fin c → ℕ → ℂ) (validZ : List ℂ)
    (fs : List (StackFilter c)) (hfs : fs.length ≠ 1 ∨ ∀ F ∈ fs, PerFunction F) (R : Fin c → AvgResult)
    (h : ∀ i, averaged kind zOut N zin (f i) validZ (some (fs.map StackFilter.flat)) = .ok (R i)) :
    averagedStack kind zOut N zin f validZ fs = .ok R := by
  obtain ⟨M, hM⟩ : ∃ M, M = min N kind.stop := ⟨_, rfl⟩
  have hco : ∀ i, ∃ a, coefficients M M zin (f i) = .ok (some a) ∧
      ∃ w, applyFilter (fs.map StackFilter.flat) (kind.islice ((List.range (M - 1)).map fun k =>
        validZ.map fun v => (padeState v zin a (k + 1)).pade)) = .ok w ∧
        averager kind w ((List.range (M - 1)).map fun k => (padeState zOut zin a (k + 1)).pade) = .ok (R i) := by
    intro i
    have hi := h i
    unfold averaged at hi
    rw [← hM] at hi
    simp only at hi
    cases hc : coefficients M M zin (f i) with
    | error e => rw [hc] at hi; cases hi
    | ok o =>
      cases o with
      | none => rw [hc] at hi; cases hi
      | some a =>
        rw [hc] at hi
        simp only [calcIterator, ne_eq, not_true_eq_false, if_false] at hi
        refine ⟨a, rfl, ?_⟩
        cases hw : applyFilter (fs.map StackFilter.flat) (kind.islice ((List.range (M - 1)).map fun k =>
          validZ.map fun v => (padeState v zin a (k + 1)).pade)) with
        | error e => rw [hw] at hi; cases hi
        | ok w => rw [hw] at hi; exact ⟨w, rfl, hi⟩
  choose a ha w hw hR using hco
  unfold averagedStack
  rw [← hM]
  simp only
  rw [mapM_ok _ a _ fun i _ => by rw [ha i]]
  simp only [bind, Except.bind]
  have hget : ∀ i : Fin c, ((List.finRange c).map a).getD i (fun _ => 0) = a i := fun i => by
    simp [List.getD_eq_getElem?_getD]
  simp only [hget]
  obtain ⟨v, hv, hlen, hcol⟩ := apply_filter_stack fs hfs
    (kind.islice ((List.range (M - 1)).map fun k (i : Fin c) => validZ.map fun v => (padeState v zin (a i) (k + 1)).pade)) w (by
      intro i
      rw [islice_col, List.map_map]
      exact hw i)
  rw [hv]
  simp only
  refine (averager_stack kind v _ ?_ R).2 fun i => ?_
  · rw [hlen]
    rw [islice_map, islice_map, List.length_map, List.length_map]
  · rw [hcol, List.map_map]
    exact hR i

/-- The hypotheses are met: two functions, known at two points. -/
example : ∃ R : Fin 2 → AvgResult, ∀ i : Fin 2, averaged ⟨0, 2, 1⟩ 5 2 (fun j => (j : ℂ)) (fun j => (j : ℂ) + 1 + (i : ℕ)) []
    (some ([stackNegImag 2 1, stackNegImag 2 2].map StackFilter.flat)) = .ok (R i) := by
  have hr : pyRange 0 2 1 = [0, 1] := by decide
  have hreg : ∀ i : Fin 2, CoefRegular (fun j => (j : ℂ)) (fun j => (j : ℂ) + 1 + (i : ℕ)) 2 := by
    intro i ii j hij hj
    obtain rfl : ii = 0 := by omega
    obtain rfl : j = 1 := by omega
    refine ⟨?_, by simp⟩
    simp only [coefRes]
    intro h
    have := congrArg Complex.re h
    simp at this
    have hpos : (0 : ℝ) ≤ ((i : ℕ) : ℝ) := Nat.cast_nonneg _
    linarith
  have : ∀ i : Fin 2, ∃ x, averaged ⟨0, 2, 1⟩ 5 2 (fun j => (j : ℂ)) (fun j => (j : ℂ) + 1 + (i : ℕ)) []
      (some ([stackNegImag 2 1, stackNegImag 2 2].map StackFilter.flat)) = .ok x := by
    intro i
    unfold averaged
    simp only [coefficients, ne_eq, not_true_eq_false, if_false, min_self, calcIterator]
    simp only [KindSelector.islice, hr, stackNegImag, List.map_cons, List.map_nil, applyFilter, applyFilterLoop, filterNegImag,
      List.range_succ, List.range_zero, Nat.reduceSub]
    simp [maskGet, maskSet, averager, KindSelector.islice, hr]
    rw [if_pos (by simpa using hreg i)]
    exact ⟨_, rfl⟩
  choose R hR using this
  exact ⟨R, hR⟩

/-- For example, `averaged` with `FilterNegImag`, as in `avg_no_neg_imag`. -/
theorem avg_no_neg_imag_stack {c : ℕ} (kind : KindSelector) (zOut : ℂ) (N : ℕ) (zin : ℕ → ℂ) (f : Fin c → ℕ → ℂ)
    (validZ : List ℂ) (thr : ℝ) (R : Fin c → AvgResult)
    (h : ∀ i, averaged kind zOut N zin (f i) validZ (some [filterNegImag thr]) = .ok (R i)) :
    averagedStack kind zOut N zin f validZ [stackNegImag c thr] = .ok R :=
  averaged_stack kind zOut N zin f validZ [stackNegImag c thr]
    (Or.inr fun F hF => by rw [List.mem_singleton.1 hF]; exact filter_neg_imag_stack c thr) R h

/-- `Averager` raises an error exactly if every approximant is rejected or an accepted one is NaN; rejected NaNs are harmless. -/
theorem averager_nan_raises (kind : KindSelector) (valid : List Bool) (pades : List (Option ℂ)) :
    (averagerNan kind valid pades = .error .runtimeError ↔
      (∀ b ∈ valid, b = false) ∨ ∃ p ∈ (kind.islice pades).zip valid, p.1 = none ∧ p.2 = true) ∧
    ∀ e, averagerNan kind valid pades = .error e → e = .runtimeError := by
  have key : averagerNan kind valid pades
      = if (∀ b ∈ valid, b = false) ∨ ∃ p ∈ (kind.islice pades).zip valid, p.1 = none ∧ p.2 = true then .error .runtimeError
        else .ok (avgStat ((((kind.islice pades).zip valid).filterMap fun p => if p.2 then some p.1 else none).filterMap id)) := by
    unfold averagerNan
    by_cases h1 : ∀ b ∈ valid, b = false
    · rw [if_pos (by simpa using h1), if_pos (Or.inl h1)]
    · rw [if_neg (by simpa using h1)]
      simp only
      by_cases h2 : ∃ p ∈ (kind.islice pades).zip valid, p.1 = none ∧ p.2 = true
      · rw [if_pos (Or.inr h2), if_pos]
        obtain ⟨p, hp, h3, h4⟩ := h2
        rw [List.any_eq_true]
        exact ⟨none, List.mem_filterMap.2 ⟨p, hp, by rw [if_pos h4, h3]⟩, rfl⟩
      · rw [if_neg (not_or.2 ⟨h1, h2⟩), if_neg]
        rw [List.any_eq_true]
        rintro ⟨a, ha, hn⟩
        obtain ⟨p, hp, h3⟩ := List.mem_filterMap.1 ha
        by_cases h4 : p.2 = true
        · rw [if_pos h4, Option.some.injEq] at h3
          exact h2 ⟨p, hp, by rw [h3]; simpa using hn, h4⟩
        · rw [if_neg h4] at h3
          cases h3
  constructor
  · rw [key]
    split_ifs with h
    · exact iff_of_true rfl h
    · exact iff_of_false (by simp) h
  · intro e
    rw [key]
    split_ifs
    · intro h; injection h with h; exact h.symm
    · intro h; cases h

end Gftool.Props
