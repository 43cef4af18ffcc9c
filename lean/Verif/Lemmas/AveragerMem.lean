import Verif.Spec.AveragerMem
import Verif.Lemmas.Generator

/-!
# Lemmas about functions returned by `Averager`
-/

namespace Gftool.Lemmas

open Gftool Model Spec MM

variable {ι : Type} [Encodable ι] {N M L : ℕ}

lemma readAll_apply {κ : Type} (l : List (Arr κ)) (m : Mem ℂ) : readAll l m = (.ok (l.map (contents m)), m) := by
  induction l with
  | nil => rfl
  | cons a l ih =>
    rw [readAll, bind_read, mm_bind_ok ih]
    rfl

lemma padeGenTake_untouched (n : ℕ) (g : PadeGen Unit ι N M) (m : Mem ℂ) : Untouched m (padeGenTake n g m).2 := by
  induction n generalizing g m with
  | zero => exact Untouched.refl m
  | succ n ih =>
    have h := padeGenNext_untouched g m
    rw [padeGenTake]
    rcases hg : padeGenNext g m with ⟨r, m'⟩
    rw [hg] at h
    rcases r with e | ⟨y, g'⟩
    · rw [mm_bind_error hg]
      exact h
    · rw [mm_bind_ok hg]
      rcases y with _ | y
      · exact h
      · have h' := ih g' m'
        simp only
        rcases ht : padeGenTake n g' m' with ⟨r', m''⟩
        rw [ht] at h'
        rcases r' with e | ys
        · rw [mm_bind_error ht]
          exact Untouched.trans h h'
        · rw [mm_bind_ok ht]
          exact Untouched.trans h h'

/-- Drawing from a generator in the loop. -/
lemma padeGenTake_running (z : ι → ℂ) (zin c : ℕ → ℂ) (n k : ℕ) (m : Mem ℂ) (mult : Arr (Fin N × Unit × ι))
    (pade prev b2 : Arr (Unit × ι)) (a1 : Allocated m mult) (a2 : Allocated m pade) (a3 : Allocated m prev)
    (v1 : ∀ (i : Fin N) p, contents m mult (i, p) = (z p.2 - zin i) * c (i + 1))
    (v2 : ∀ p, contents m pade p = (padeState (z p.2) zin c k).pade)
    (v3 : ∀ p, contents m prev p = (padeState (z p.2) zin c k).padePrev)
    (v4 : ∀ p, contents m b2 p = (padeState (z p.2) zin c k).b2) :
    ∃ ys m', padeGenTake (M := M) n (.running mult k pade prev b2) m = (.ok ys, m') ∧ Untouched m m' ∧
      (∀ y ∈ ys, y.addr < m'.next) ∧
      ys.map (contents m') = (List.range (min n (N - k))).map fun j p => (padeState (z p.2) zin c (k + j + 1)).pade := by
  induction n generalizing k m pade prev b2 with
  | zero => exact ⟨[], m, rfl, Untouched.refl m, by simp, by simp⟩
  | succ n ih =>
    by_cases hk : k < N
    · obtain ⟨a, b, m', hs, hu, hb, hba, ha, -, hbv, hav⟩ := padeGenLoop_step (M := M) m (mult := mult) hk
        (b2 := b2) a2 a3
      have hle := hu.1
      unfold Allocated at a1 a2 a3
      obtain ⟨ys, m'', ht, hu', hy, hv⟩ := ih (k + 1) m' a pade b (by unfold Allocated; omega) ha
        (by unfold Allocated; omega) (fun i p => by rw [Untouched.contents hu a1, v1])
        (fun p => by rw [hav, v1, v2, v3, v4]; rfl) (fun p => by rw [Untouched.contents hu a2, v2]; rfl)
        (fun p => by rw [hbv, v1, v4]; rfl)
      refine ⟨a :: ys, m'', ?_, Untouched.trans hu hu', ?_, ?_⟩
      · rw [padeGenTake]
        have hs' : padeGenNext (.running mult k pade prev b2) m =
          (.ok (some a, .running (M := M) mult (k + 1) a pade b), m') := hs
        rw [mm_bind_ok hs']
        simp only
        rw [mm_bind_ok ht]
        rfl
      · intro y hy'
        rcases List.mem_cons.1 hy' with rfl | hy'
        · exact ha.trans_le hu'.1
        · exact hy y hy'
      · rw [List.map_cons, hv, show min (n + 1) (N - k) = min n (N - (k + 1)) + 1 by omega, List.range_succ_eq_map,
          List.map_cons, List.map_map]
        congr 1
        · rw [Untouched.contents hu' ha]
          funext p
          rw [hav, v1, v2, v3, v4]
          rfl
        · refine List.map_congr_left fun j _ => ?_
          funext p
          simp only [Function.comp]
          rw [show k + 1 + j + 1 = k + (j + 1) + 1 by ring]
    · refine ⟨[], m, ?_, Untouched.refl m, by simp, ?_⟩
      · rw [padeGenTake]
        have hs' : padeGenNext (.running mult k pade prev b2) m =
            (.ok (none, (.finished : PadeGen Unit ι N M)), m) := by
          change padeGenLoop _ _ _ _ _ _ = _
          unfold padeGenLoop
          rw [dif_neg hk]
          rfl
        rw [mm_bind_ok hs']
        rfl
      · rw [show min (n + 1) (N - k) = 0 by omega]
        rfl

/-- Drawing from a new generator. -/
lemma padeGenTake_created (n : ℕ) (m : Mem ℂ) (zOut : Arr ι) (zIn : Arr (Fin (N + 1))) (coeff : Arr (Unit × Fin (N + 1)))
    (h1 : Allocated m zIn) (h2 : Allocated m coeff) :
    ∃ ys m', padeGenTake n (.created zOut zIn coeff) m = (.ok ys, m') ∧ Untouched m m' ∧
      (∀ y ∈ ys, y.addr < m'.next) ∧
      ys.map (contents m') = (List.range (min n N)).map fun j => approximant m zOut zIn coeff j := by
  rcases n with _ | n
  · exact ⟨[], m, rfl, Untouched.refl m, by simp, by simp⟩
  · obtain ⟨mult, pade, prev, b2, m', hn, hu, l1, l2, l3, l4, u1, u2, u3, u4, v1, v2, v3, v4⟩ :=
      padeGenNext_created m zOut zIn coeff h1 h2
    have hc : ∀ k : Fin (N + 1), extend (fun j => contents m coeff ((), j)) k = contents m coeff ((), k) := by
      intro k
      unfold extend
      rw [dif_pos k.2]
    have hz : ∀ k : Fin (N + 1), extend (contents m zIn) k = contents m zIn k := by
      intro k
      unfold extend
      rw [dif_pos k.2]
    obtain ⟨ys, m'', ht, hu', hy, hv⟩ := padeGenTake_running (M := N + 1) (contents m zOut) (extend (contents m zIn))
      (extend fun j => contents m coeff ((), j)) (n + 1) 0 m' mult pade prev b2 u1 u2 u3
      (fun i p => by
        have e1 := hz i.castSucc
        have e2 := hc i.succ
        simp only [Fin.val_castSucc, Fin.val_succ] at e1 e2
        rw [v1, e1, e2])
      (fun p => by rw [v2]; exact (hc 0).symm) (fun p => by rw [v3]; rfl) (fun p => by rw [v4]; rfl)
    refine ⟨ys, m'', ?_, Untouched.trans hu hu', hy, ?_⟩
    · rw [← ht, padeGenTake, padeGenTake, mm_bind, mm_bind, hn]
      rfl
    · rw [hv]
      refine List.map_congr_left fun j _ => ?_
      funext p
      unfold approximant
      rw [Nat.zero_add]

lemma islice_map {α β : Type} (kind : KindSelector) (g : α → β) (l : List α) :
    kind.islice (l.map g) = (kind.islice l).map g := by
  unfold KindSelector.islice
  rw [List.map_filterMap]
  refine List.filterMap_congr fun i _ => ?_
  simp

/-- `islice` does not need more than `stop` elements. -/
lemma islice_range {α : Type} (kind : KindSelector) (hstep : 0 < kind.step) (n : ℕ) (g : ℕ → α) :
    kind.islice ((List.range (min kind.stop n)).map g) = kind.islice ((List.range n).map g) := by
  unfold KindSelector.islice
  refine List.filterMap_congr fun i hi => ?_
  have : i < kind.stop := by
    unfold pyRange rangeLen at hi
    obtain ⟨j, hj, rfl⟩ := List.mem_map.1 hi
    rw [List.mem_range, Nat.lt_iff_add_one_le, Nat.le_div_iff_mul_le hstep] at hj
    have : (j + 1) * kind.step = j * kind.step + kind.step := by ring
    omega
  by_cases hn : i < n
  · rw [List.getElem?_map, List.getElem?_map, List.getElem?_range (by omega), List.getElem?_range hn]
  · rw [List.getElem?_eq_none (by simp; omega), List.getElem?_eq_none (by simp; omega)]

open scoped Classical in
/-- Selecting arrays and reading them is selecting values. -/
lemma select_map {α β : Type} (l : List α) (v : List ℂ) (g : α → β) :
    ((l.zip v).filterMap fun p => if p.2 ≠ 0 then some p.1 else none).map g =
      ((l.map g).zip (v.map fun x => decide (x ≠ 0))).filterMap fun p => if p.2 then some p.1 else none := by
  induction l generalizing v with
  | nil => simp
  | cons a l ih =>
    rcases v with _ | ⟨x, v⟩
    · simp
    · have := ih v
      by_cases hx : x = 0
      · simpa [hx] using this
      · simpa [hx] using this

open scoped Classical in
/-- A call of the function. -/
lemma avgFct_call (f : AvgFct N (N + 1) L) (hstep : 0 < f.kind.step) (z : Arr ι) (m : Mem ℂ) (h1 : Allocated m f.zIn)
    (h2 : Allocated m f.coeff) (h3 : Allocated m f.valid) (hv : ∃ l, contents m f.valid l ≠ 0) :
    ∃ r m', f.call z m = (.ok r, m') ∧ Untouched m m' ∧ ∀ i, averageAt f.kind (bools m f.valid) (contents m f.zIn)
      (fun j => contents m f.coeff ((), j)) (contents m z i) = .ok (r i) := by
  obtain ⟨ys, m', ht, hu, -, hy⟩ := padeGenTake_created f.kind.stop m z f.zIn f.coeff h1 h2
  have hcall : f.call z m = (.ok fun i => avgStat (((((f.kind.islice ys).zip (List.ofFn (contents m' f.valid))).filterMap
      fun p => if p.2 ≠ 0 then some p.1 else none).map (contents m')).map fun pade => pade ((), i)), m') := by
    unfold AvgFct.call
    rw [mm_bind_ok ht, bind_read, mm_bind_ok (readAll_apply _ m')]
    rfl
  refine ⟨_, m', hcall, hu, fun i => ?_⟩
  · unfold averageAt calcIterator averager
    rw [if_neg (by simp)]
    simp only
    have hb : (bools m f.valid).any id = true := by
      obtain ⟨l, hl⟩ := hv
      rw [List.any_eq_true]
      exact ⟨true, by unfold bools; rw [List.mem_ofFn]; exact ⟨l, by simpa using hl⟩, rfl⟩
    rw [if_neg (by simp [hb])]
    congr 2
    rw [List.map_map, select_map, ← islice_map, ← List.map_map, hy]
    congr 1
    congr 1
    · rw [List.map_map, islice_range f.kind hstep]
      rfl
    · rw [Untouched.contents hu h3]
      unfold bools
      rw [List.map_ofFn]
      rfl

end Gftool.Lemmas
