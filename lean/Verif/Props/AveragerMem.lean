import Verif.Lemmas.AveragerMem
import Mathlib.Tactic.NormNum

/-!
# Property C88: histories of the functions returned by `Averager`

`Averager(z_in, coeff, valid_pades=…, kind=…)` returns a function, which is called any number of times later.
-/

namespace Gftool.Props

open Gftool Model Lemmas Spec MM

variable {ι : Type} [Encodable ι] {N M L : ℕ} {kind : KindSelector}

/-- C88: `Averager` raises `RuntimeError` exactly if no approximant is valid. Otherwise it returns a function, with a
private copy of `valid_pades`. It changes no array. -/
theorem averager_new (kind : KindSelector) (zIn : Arr (Fin M)) (coeff : Arr (Unit × Fin (N + 1)))
    (validPades : Arr (Fin L)) (m : Mem ℂ) :
    Untouched m (averagerNew kind zIn coeff validPades m).2 ∧
      ((averagerNew kind zIn coeff validPades m).1 = .error .runtimeError ↔ ∀ b ∈ bools m validPades, b = false) ∧
      ((∃ b ∈ bools m validPades, b = true) → ∃ f, (averagerNew kind zIn coeff validPades m).1 = .ok f ∧ f.kind = kind ∧
        f.zIn = zIn ∧ f.coeff = coeff ∧ m.next ≤ f.valid.addr ∧
        f.valid.addr < (averagerNew kind zIn coeff validPades m).2.next ∧
        bools (averagerNew kind zIn coeff validPades m).2 f.valid = bools m validPades) := by
  classical
  have hb : (∃ b ∈ bools m validPades, b = true) ↔ ∃ l, contents m validPades l ≠ 0 := by
    unfold bools
    simp only [List.mem_ofFn]
    constructor
    · rintro ⟨b, ⟨l, hl⟩, rfl⟩
      exact ⟨l, by simpa using hl⟩
    · rintro ⟨l, hl⟩
      exact ⟨true, ⟨l, by simpa using hl⟩, rfl⟩
  have hnot : (∀ b ∈ bools m validPades, b = false) ↔ ¬ ∃ l, contents m validPades l ≠ 0 := by
    rw [← hb]
    push Not
    simp
  have hnew : averagerNew kind zIn coeff validPades m =
      if ∃ l, contents m validPades l ≠ 0 then
        (.ok ⟨kind, zIn, coeff, freshArr (Fin L) m⟩, Mem.push m (contents m validPades))
      else (.error .runtimeError, Mem.push m (contents m validPades)) := by
    unfold averagerNew
    rw [bind_read, bind_new, bind_read, contents_push_fresh, mm_ite]
    congr
  rw [hnot, hb, hnew]
  by_cases h : ∃ l, contents m validPades l ≠ 0
  · rw [if_pos h]
    refine ⟨Untouched.push (Untouched.refl m) _, by simp [h], fun _ => ⟨_, rfl, rfl, rfl, rfl, ?_, ?_, ?_⟩⟩
    · simp
    · simp
    · unfold bools
      simp only [contents_push_fresh]
  · rw [if_neg h]
    exact ⟨Untouched.push (Untouched.refl m) _, by simp [h], fun h' => absurd h' h⟩

/-- C88: a call changes no array that exists, whether it returns or raises. -/
theorem averager_call_untouched (f : AvgFct N M L) (z : Arr ι) (m : Mem ℂ) : Untouched m (f.call z m).2 := by
  have h := padeGenTake_untouched f.kind.stop (.created z f.zIn f.coeff : PadeGen Unit ι N M) m
  unfold AvgFct.call
  rcases ht : padeGenTake f.kind.stop (.created z f.zIn f.coeff : PadeGen Unit ι N M) m with ⟨r, m'⟩
  rw [ht] at h
  rcases r with e | ys
  · rw [mm_bind_error ht]
    exact h
  · rw [mm_bind_ok ht, bind_read, mm_bind_ok (readAll_apply _ m')]
    exact h

section

variable (f : AvgFct N M L) (act : List (Except Err (ι → AvgResult)) → Mem ℂ → Mem ℂ × Arr ι) (m : Mem ℂ)

lemma avgSession_length (k : ℕ) : (avgSession f act m k).out.length = k := by
  induction k with
  | zero => rfl
  | succ k ih =>
    rw [avgSession]
    simp [ih]

lemma avgOutcome_eq (k : ℕ) : avgOutcome f act m k = (f.call (avgArgument f act m k) (avgMemBefore f act m k)).1 := by
  unfold avgOutcome
  rw [avgSession]
  simp only
  rw [List.getElem?_append_right (by rw [avgSession_length])]
  simp [avgSession_length, avgArgument, avgMemBefore]

lemma avgMemAfter_succ (k : ℕ) :
    avgMemAfter f act m (k + 1) = (f.call (avgArgument f act m k) (avgMemBefore f act m k)).2 := rfl

variable {f act m}

/-- The contents of an array which the caller leaves alone never change. -/
lemma contents_kept {κ : Type} {a : Arr κ} {s : Set ℕ} (hact : LeavesAlone f act m s) (ha : a.addr ∈ s)
    (hm : Allocated m a) (k : ℕ) :
    (Allocated (avgMemBefore f act m k) a ∧ contents (avgMemBefore f act m k) a = contents m a) := by
  have hb : ∀ k, Allocated (avgMemAfter f act m k) a ∧ contents (avgMemAfter f act m k) a = contents m a →
      Allocated (avgMemBefore f act m k) a ∧ contents (avgMemBefore f act m k) a = contents m a := by
    intro k h
    refine ⟨lt_of_lt_of_le h.1 (hact k).1, ?_⟩
    rw [← h.2]
    funext i
    unfold contents
    rw [(hact k).2 _ ha]
  refine hb k ?_
  induction k with
  | zero => exact ⟨hm, rfl⟩
  | succ k ih =>
    obtain ⟨h1, h2⟩ := hb k ih
    have hu := averager_call_untouched f (avgArgument f act m k) (avgMemBefore f act m k)
    rw [avgMemAfter_succ]
    exact ⟨lt_of_lt_of_le h1 hu.1, by rw [Untouched.contents hu h1, h2]⟩

end

/-- C88: every call gives the averages for the validity at the time when the function was created, and for the points
with which it is called, independent of the history: of previous calls, and of what the caller writes to their arrays
`valid_pades`, `z` and all others. Missing: the caller must not write to `z_in` and `coeff` (nor to the private copy). -/
theorem averager_history_partial (hstep : 0 < kind.step) (zIn : Arr (Fin (N + 1))) (coeff : Arr (Unit × Fin (N + 1)))
    (validPades : Arr (Fin L)) (m m' : Mem ℂ) (f : AvgFct N (N + 1) L)
    (hnew : averagerNew kind zIn coeff validPades m = (.ok f, m')) (h1 : Allocated m zIn) (h2 : Allocated m coeff)
    (act : List (Except Err (ι → AvgResult)) → Mem ℂ → Mem ℂ × Arr ι)
    (hact : LeavesAlone f act m' {zIn.addr, coeff.addr, f.valid.addr}) (k : ℕ) :
    ∃ r, avgOutcome f act m' k = .ok r ∧ ∀ i, averageAt kind (bools m validPades) (contents m zIn)
      (fun j => contents m coeff ((), j)) (contents (avgMemBefore f act m' k) (avgArgument f act m' k) i) = .ok (r i) := by
  obtain ⟨hu, herr, hok⟩ := averager_new kind zIn coeff validPades m
  rw [hnew] at hu herr hok
  have hval : ∃ b ∈ bools m validPades, b = true := by
    by_contra hne
    have : ∀ b ∈ bools m validPades, b = false := fun b hb => by
      by_contra hb'
      exact hne ⟨b, hb, by simpa using hb'⟩
    have := herr.2 this
    simp at this
  obtain ⟨f', hf, e1, e2, e3, e4, e5, e6⟩ := hok hval
  obtain rfl : f = f' := by simpa using hf
  have hA1 : Allocated m' f.zIn := by rw [e2]; exact lt_of_lt_of_le h1 hu.1
  have hA2 : Allocated m' f.coeff := by rw [e3]; exact lt_of_lt_of_le h2 hu.1
  obtain ⟨a1, c1⟩ := contents_kept hact (a := f.zIn) (by rw [e2]; simp) hA1 k
  obtain ⟨a2, c2⟩ := contents_kept hact (a := f.coeff) (by rw [e3]; simp) hA2 k
  obtain ⟨a3, c3⟩ := contents_kept hact (a := f.valid) (by simp) e5 k
  have hb : bools (avgMemBefore f act m' k) f.valid = bools m validPades := by
    rw [← e6]
    unfold bools
    rw [c3]
  obtain ⟨r, m'', hr, -, hv⟩ := avgFct_call f (by rw [e1]; exact hstep) (avgArgument f act m' k)
    (avgMemBefore f act m' k) a1 a2 a3 (by
      obtain ⟨b, hb', rfl⟩ := hval
      rw [← hb] at hb'
      unfold bools at hb'
      obtain ⟨l, hl⟩ := List.mem_ofFn.1 hb'
      exact ⟨l, by simpa using hl⟩)
  refine ⟨r, by rw [avgOutcome_eq, hr], fun i => ?_⟩
  rw [← hv i, hb, e1, c1, c2, e2, e3, Untouched.contents hu h1, Untouched.contents hu h2]

/-- C88: in such a history two calls with the same points give the same result. -/
theorem averager_repeatable_partial (hstep : 0 < kind.step) (zIn : Arr (Fin (N + 1))) (coeff : Arr (Unit × Fin (N + 1)))
    (validPades : Arr (Fin L)) (m m' : Mem ℂ) (f : AvgFct N (N + 1) L)
    (hnew : averagerNew kind zIn coeff validPades m = (.ok f, m')) (h1 : Allocated m zIn) (h2 : Allocated m coeff)
    (act : List (Except Err (ι → AvgResult)) → Mem ℂ → Mem ℂ × Arr ι)
    (hact : LeavesAlone f act m' {zIn.addr, coeff.addr, f.valid.addr}) (j k : ℕ)
    (hz : contents (avgMemBefore f act m' j) (avgArgument f act m' j) =
      contents (avgMemBefore f act m' k) (avgArgument f act m' k)) :
    avgOutcome f act m' j = avgOutcome f act m' k := by
  obtain ⟨r, hr, hv⟩ := averager_history_partial hstep zIn coeff validPades m m' f hnew h1 h2 act hact j
  obtain ⟨r', hr', hv'⟩ := averager_history_partial hstep zIn coeff validPades m m' f hnew h1 h2 act hact k
  rw [hr, hr']
  congr 1
  funext i
  have := (hv i).symm.trans ((congrArg _ (congrFun hz i)).trans (hv' i))
  simpa using this

/-- C88: a wrong number of points is not noticed by `Averager`, but by every call of the function, in all histories. -/
theorem averager_wrong_size (f : AvgFct N M L) (hM : N + 1 ≠ M) (hstop : 0 < f.kind.stop)
    (act : List (Except Err (ι → AvgResult)) → Mem ℂ → Mem ℂ × Arr ι) (m : Mem ℂ) (k : ℕ) :
    avgOutcome f act m k = .error .assertionError := by
  rw [avgOutcome_eq]
  obtain ⟨n, hn⟩ : ∃ n, f.kind.stop = n + 1 := ⟨f.kind.stop - 1, by omega⟩
  set z := avgArgument f act m k
  set m' := avgMemBefore f act m k
  have h : padeGenNext (.created z f.zIn f.coeff : PadeGen Unit ι N M) m' = (.error .assertionError, m') := by
    simp only [padeGenNext]
    rw [dif_neg hM]
    rfl
  have ht : padeGenTake f.kind.stop (.created z f.zIn f.coeff : PadeGen Unit ι N M) m' = (.error .assertionError, m') := by
    rw [hn, padeGenTake, mm_bind_error h]
  unfold AvgFct.call
  rw [mm_bind_error ht]

/-! ## Examples -/

/-- A memory with `z = [1]` in buffer 0, `z_in = [0, 0]` in buffer 1, `coeff = [1, 1]` in buffer 2 and
`valid_pades = [True]` in buffer 3. -/
noncomputable def avgExampleMem : Mem ℂ := ⟨4, fun a _ => if a = 1 then 0 else 1⟩

/-- The caller sets buffer `b` to zero after the first call, and always calls the function with `z`. -/
def clearBuffer (b : ℕ) (out : List (Except Err (Unit → AvgResult))) (m : Mem ℂ) : Mem ℂ × Arr Unit :=
  match out with
  | [] => (m, ⟨0, fun _ => 0⟩)
  | _ => (⟨m.next, fun a p => if a = b then 0 else m.buf a p⟩, ⟨0, fun _ => 0⟩)

/-- The function of the example. -/
def avgExample : AvgFct 1 (1 + 1) 1 := ⟨⟨0, 1, 2⟩, ⟨1, fun j => j⟩, ⟨2, fun j => j.2⟩, ⟨4, fun j => j⟩⟩

lemma avgExample_new : averagerNew ⟨0, 1, 2⟩ (⟨1, fun j => j⟩ : Arr (Fin (1 + 1)))
    (⟨2, fun j => j.2⟩ : Arr (Unit × Fin (1 + 1))) (⟨3, fun j => j⟩ : Arr (Fin 1)) avgExampleMem =
      (.ok avgExample, Mem.push avgExampleMem fun _ : Fin 1 => 1) := by
  classical
  have hc : contents avgExampleMem (⟨3, fun j => j⟩ : Arr (Fin 1)) = fun _ => 1 := by
    funext i
    simp [contents, avgExampleMem]
  unfold averagerNew
  rw [bind_read, bind_new, bind_read, contents_push_fresh, mm_ite, hc, if_pos ⟨0, one_ne_zero⟩, mm_pure]
  rfl

/-- The averages of the example for constant coefficients. -/
lemma avgExample_average (c : ℂ) :
    averageAt (M := 1 + 1) (N := 1) ⟨0, 1, 2⟩ [true] (fun _ => 0) (fun _ => c) 1 = .ok (avgStat [c / (1 + c)]) := by
  unfold averageAt calcIterator averager
  rw [if_neg (by simp)]
  simp [KindSelector.islice, pyRange, rangeLen, padeState, extend]

/-- A call of the function of the example. -/
lemma avgExample_call (z : Arr Unit) (m : Mem ℂ) (c : ℂ) (h0 : contents m z = fun _ => 1)
    (h1 : contents m avgExample.zIn = fun _ => 0) (h2 : contents m avgExample.coeff = fun _ => c)
    (h3 : contents m avgExample.valid = fun _ => 1) (hn : 4 < m.next) :
    (avgExample.call z m).1 = .ok fun _ => avgStat [c / (1 + c)] := by
  have a1 : Allocated m avgExample.zIn := lt_trans (b := 4) (by decide) hn
  have a2 : Allocated m avgExample.coeff := lt_trans (b := 4) (by decide) hn
  obtain ⟨r, m'', hr, -, hv⟩ := avgFct_call avgExample (by decide) z m a1 a2 hn ⟨0, by rw [h3]; exact one_ne_zero⟩
  rw [hr]
  have hb : bools m avgExample.valid = [true] := by
    unfold bools
    rw [h3]
    simp
  refine congrArg Except.ok (funext fun i => ?_)
  have hi := hv i
  rw [hb, h0, h1, h2] at hi
  exact (Except.ok.inj (hi.symm.trans (avgExample_average c)))

/-- The memory after the function of the example has been created. -/
noncomputable def avgExampleMem' : Mem ℂ := Mem.push avgExampleMem fun _ : Fin 1 => 1

lemma avgExampleMem'_next : avgExampleMem'.next = 5 := rfl

lemma avgExampleMem'_untouched : Untouched avgExampleMem avgExampleMem' := Untouched.push (Untouched.refl _) _

lemma avgExampleMem'_z : contents avgExampleMem' (⟨0, fun _ => 0⟩ : Arr Unit) = fun _ => 1 := by
  rw [Untouched.contents avgExampleMem'_untouched (by unfold Allocated avgExampleMem; norm_num)]
  funext i
  simp [contents, avgExampleMem]

lemma avgExampleMem'_zIn : contents avgExampleMem' avgExample.zIn = fun _ => 0 := by
  rw [Untouched.contents avgExampleMem'_untouched (by unfold Allocated avgExampleMem avgExample; norm_num)]
  funext i
  simp [contents, avgExampleMem, avgExample]

lemma avgExampleMem'_coeff : contents avgExampleMem' avgExample.coeff = fun _ => 1 := by
  rw [Untouched.contents avgExampleMem'_untouched (by unfold Allocated avgExampleMem avgExample; norm_num)]
  funext i
  simp [contents, avgExampleMem, avgExample]

lemma avgExampleMem'_valid : contents avgExampleMem' avgExample.valid = fun _ => 1 :=
  contents_push_fresh avgExampleMem (fun _ : Fin 1 => (1 : ℂ))

lemma clearBuffer_arg (b : ℕ) (out : List (Except Err (Unit → AvgResult))) (m : Mem ℂ) :
    (clearBuffer b out m).2 = ⟨0, fun _ => 0⟩ := by
  cases out <;> rfl

lemma clearBuffer_next (b : ℕ) (out : List (Except Err (Unit → AvgResult))) (m : Mem ℂ) :
    (clearBuffer b out m).1.next = m.next := by
  cases out <;> rfl

lemma clearBuffer_other (b : ℕ) (out : List (Except Err (Unit → AvgResult))) (m : Mem ℂ) {a : ℕ} (ha : a ≠ b) :
    (clearBuffer b out m).1.buf a = m.buf a := by
  cases out with
  | nil => rfl
  | cons x l =>
    funext p
    exact if_neg ha

lemma clearBuffer_same (b : ℕ) {out : List (Except Err (Unit → AvgResult))} (ho : out.length = 1) (m : Mem ℂ) (p : ℕ) :
    (clearBuffer b out m).1.buf b p = 0 := by
  cases out with
  | nil => simp at ho
  | cons x l => exact if_pos rfl

lemma clearBuffer_leaves (b : ℕ) : LeavesAlone avgExample (clearBuffer b) avgExampleMem' {a | a ≠ b} := by
  intro k
  unfold avgMemBefore avgMemAfter
  exact ⟨(clearBuffer_next b _ _).ge, fun a ha => clearBuffer_other b _ _ ha⟩

/-- C88 (violated): the function changes if the caller reuses the array of the coefficients after creating it.
The second call, with the same point as the first, gives a different result. -/
theorem averager_depends_on_coefficients :
    ∃ (zIn : Arr (Fin (1 + 1))) (coeff : Arr (Unit × Fin (1 + 1))) (validPades : Arr (Fin 1)) (m m' : Mem ℂ)
      (f : AvgFct 1 (1 + 1) 1) (act : List (Except Err (Unit → AvgResult)) → Mem ℂ → Mem ℂ × Arr Unit),
      Allocated m zIn ∧ Allocated m coeff ∧ Allocated m validPades ∧
      averagerNew ⟨0, 1, 2⟩ zIn coeff validPades m = (.ok f, m') ∧
      LeavesAlone f act m' {a | a ≠ coeff.addr} ∧
      contents (avgMemBefore f act m' 0) (avgArgument f act m' 0) =
        contents (avgMemBefore f act m' 1) (avgArgument f act m' 1) ∧
      avgOutcome f act m' 0 ≠ avgOutcome f act m' 1 := by
  have hlen := avgSession_length avgExample (clearBuffer 2) avgExampleMem' 1
  have hact := clearBuffer_leaves 2
  have hb0 : avgMemBefore avgExample (clearBuffer 2) avgExampleMem' 0 = avgExampleMem' := by
    unfold avgMemBefore
    rw [avgSession]
    rfl
  have harg : ∀ k, avgArgument avgExample (clearBuffer 2) avgExampleMem' k = ⟨0, fun _ => 0⟩ := fun k =>
    clearBuffer_arg 2 _ _
  have k0 := contents_kept hact (a := (⟨0, fun _ => 0⟩ : Arr Unit)) (by simp)
    (by unfold Allocated; rw [avgExampleMem'_next]; norm_num) 1
  have k1 := contents_kept hact (a := avgExample.zIn) (by simp [avgExample])
    (by unfold Allocated; rw [avgExampleMem'_next]; decide) 1
  have k3 := contents_kept hact (a := avgExample.valid) (by simp [avgExample])
    (by unfold Allocated; rw [avgExampleMem'_next]; decide) 1
  have k2 : contents (avgMemBefore avgExample (clearBuffer 2) avgExampleMem' 1) avgExample.coeff = fun _ => 0 := by
    funext i
    unfold contents avgMemBefore
    rw [show avgExample.coeff.addr = 2 from rfl, clearBuffer_same 2 hlen]
  have o0 : avgOutcome avgExample (clearBuffer 2) avgExampleMem' 0 = .ok fun _ => avgStat [1 / (1 + 1)] := by
    rw [avgOutcome_eq, hb0, harg]
    exact avgExample_call _ _ 1 avgExampleMem'_z avgExampleMem'_zIn avgExampleMem'_coeff avgExampleMem'_valid
      (by rw [avgExampleMem'_next]; norm_num)
  have o1 : avgOutcome avgExample (clearBuffer 2) avgExampleMem' 1 = .ok fun _ => avgStat [0 / (1 + 0)] := by
    rw [avgOutcome_eq, harg]
    exact avgExample_call _ _ 0 (k0.2.trans avgExampleMem'_z) (k1.2.trans avgExampleMem'_zIn) k2
      (k3.2.trans avgExampleMem'_valid) k3.1
  refine ⟨_, _, _, avgExampleMem, avgExampleMem', avgExample, clearBuffer 2, ?_, ?_, ?_, avgExample_new, hact, ?_, ?_⟩
  · unfold Allocated avgExampleMem; norm_num
  · unfold Allocated avgExampleMem; norm_num
  · unfold Allocated avgExampleMem; norm_num
  · rw [hb0, harg, harg, k0.2]
  · rw [o0, o1]
    intro h
    have := congrArg AvgResult.x (congrFun (Except.ok.inj h) ())
    simp [avgStat, meanC] at this

-- the caller clears `valid_pades` after the first call: the second one gives the same result
example : averagerNew ⟨0, 1, 2⟩ (⟨1, fun j => j⟩ : Arr (Fin (1 + 1))) (⟨2, fun j => j.2⟩ : Arr (Unit × Fin (1 + 1)))
      (⟨3, fun j => j⟩ : Arr (Fin 1)) avgExampleMem = (.ok avgExample, avgExampleMem') ∧
    avgOutcome avgExample (clearBuffer 3) avgExampleMem' 0 = avgOutcome avgExample (clearBuffer 3) avgExampleMem' 1 := by
  refine ⟨avgExample_new, ?_⟩
  have hact : LeavesAlone avgExample (clearBuffer 3) avgExampleMem' {1, 2, avgExample.valid.addr} := fun k =>
    ⟨(clearBuffer_leaves 3 k).1, fun a ha => (clearBuffer_leaves 3 k).2 a (by
      rcases ha with rfl | rfl | rfl <;> simp [avgExample])⟩
  have harg : ∀ k, avgArgument avgExample (clearBuffer 3) avgExampleMem' k = ⟨0, fun _ => 0⟩ := fun k =>
    clearBuffer_arg 3 _ _
  have k0 := fun k => contents_kept (clearBuffer_leaves 3) (a := (⟨0, fun _ => 0⟩ : Arr Unit)) (by simp)
    (by unfold Allocated; rw [avgExampleMem'_next]; norm_num) k
  exact averager_repeatable_partial (by norm_num) (⟨1, fun j => j⟩ : Arr (Fin (1 + 1)))
    (⟨2, fun j => j.2⟩ : Arr (Unit × Fin (1 + 1))) (⟨3, fun j => j⟩ : Arr (Fin 1)) avgExampleMem avgExampleMem' avgExample
    avgExample_new (by unfold Allocated avgExampleMem; norm_num) (by unfold Allocated avgExampleMem; norm_num)
    (clearBuffer 3) hact 0 1 (by rw [harg, harg, (k0 0).2, (k0 1).2])

end Gftool.Props
