import Verif.Lemmas.Generator
import Mathlib.Tactic.NormNum

/-!
# Property C87: histories of the generator of Padé approximants

`calc_iterator` runs interleaved with code of the caller.
-/

namespace Gftool.Props

open Gftool Model Lemmas Spec MM

variable {σ ι : Type} [Encodable σ] [Encodable ι] {N M : ℕ}
  (act : List (Except Err (Option (Arr (σ × ι)))) → Mem ℂ → Mem ℂ) (zOut : Arr ι)

/-- C87: whatever the caller does, a call of `next` changes no array that exists: neither the arguments, nor the arrays
yielded before, nor other arrays. -/
theorem calc_iterator_untouched (zIn : Arr (Fin M)) (coeff : Arr (σ × Fin (N + 1))) (m : Mem ℂ) (k : ℕ) :
    Untouched (memBefore act zOut zIn coeff m k) (memAfter act zOut zIn coeff m (k + 1)) :=
  memBefore_untouched act zOut zIn coeff m k

/-- C87: call `k` of `next` gives a new array with the approximant for the contents which the arguments have at the
*first* call of `next`. In between the caller may do anything, but not write to the last two yielded arrays. -/
theorem calc_iterator_history_partial (zIn : Arr (Fin (N + 1))) (coeff : Arr (σ × Fin (N + 1))) (m : Mem ℂ)
    (hpol : Polite act zOut zIn coeff m) (h1 : Allocated m zIn) (h2 : Allocated m coeff) (k : ℕ) (hk : k < N) :
    ∃ a, nextResult act zOut zIn coeff m k = .ok (some a) ∧
      (memBefore act zOut zIn coeff m k).next ≤ a.addr ∧ a.addr < (memAfter act zOut zIn coeff m (k + 1)).next ∧
      a.pos.Injective ∧
      contents (memAfter act zOut zIn coeff m (k + 1)) a =
        approximant (memBefore act zOut zIn coeff m 0) zOut zIn coeff k := by
  obtain ⟨mult, pade, prev, b2, h, hr, hi, hl, hu⟩ := genInv_all hpol h1 h2 k hk
  exact ⟨pade, hr, hl, hu, hi, funext h.pade_val⟩

/-- C87: after `N` approximants for `N + 1` coefficients the generator stops, and stays so. -/
theorem calc_iterator_stops_partial (zIn : Arr (Fin (N + 1))) (coeff : Arr (σ × Fin (N + 1))) (m : Mem ℂ)
    (hpol : Polite act zOut zIn coeff m) (h1 : Allocated m zIn) (h2 : Allocated m coeff) (k : ℕ) (hk : N ≤ k) :
    nextResult act zOut zIn coeff m k = .ok none := by
  have hstop : ∃ j ≤ N + 1, (padeSession act zOut zIn coeff m j).gen = .finished ∧
      ∀ i, N ≤ i → i < j → nextResult act zOut zIn coeff m i = .ok none := by
    rcases Nat.eq_zero_or_pos N with rfl | hN
    · have hmono := (hpol 0).1
      have hm0 : memAfter act zOut zIn coeff m 0 = m := rfl
      rw [hm0] at hmono
      obtain ⟨mult, pade, prev, b2, m', hn, -⟩ := padeGenNext_created (memBefore act zOut zIn coeff m 0) zOut zIn coeff
        (by unfold Allocated at *; omega) (by unfold Allocated at *; omega)
      have hl : padeGenLoop (M := 0 + 1) mult 0 pade prev b2 m' = (.ok (none, .finished), m') := by
        unfold padeGenLoop
        rw [dif_neg (by omega)]
        rfl
      obtain ⟨hg, -, hr⟩ := session_of_ok act zOut zIn coeff m (k := 0) (hn.trans hl)
      refine ⟨1, by omega, hg, fun i _ hi => ?_⟩
      obtain rfl : i = 0 := by omega
      exact hr
    · obtain ⟨mult, pade, prev, b2, h, -⟩ := genInv_all hpol h1 h2 (N - 1) (by omega)
      have hN1 : N - 1 + 1 = N := by omega
      rw [hN1] at h
      have hl : padeGenNext (padeSession act zOut zIn coeff m N).gen (memBefore act zOut zIn coeff m N) =
          (.ok (none, .finished), memBefore act zOut zIn coeff m N) := by
        rw [h.gen]
        change padeGenLoop _ _ _ _ _ _ = _
        unfold padeGenLoop
        rw [dif_neg (by omega)]
        rfl
      obtain ⟨hg, -, hr⟩ := session_of_ok act zOut zIn coeff m (k := N) hl
      refine ⟨N + 1, le_rfl, hg, fun i hi hi' => ?_⟩
      obtain rfl : i = N := by omega
      exact hr
  obtain ⟨j, hj, hf, hlast⟩ := hstop
  rcases lt_or_ge k j with h | h
  · exact hlast k hk h
  · exact session_finished act zOut zIn coeff m hf k h

/-- C87: a wrong number of points is only noticed by the first `next`, which raises; then the generator is finished. -/
theorem calc_iterator_wrong_size (zIn : Arr (Fin M)) (coeff : Arr (σ × Fin (N + 1))) (m : Mem ℂ) (hM : N + 1 ≠ M) :
    nextResult act zOut zIn coeff m 0 = .error .assertionError ∧
      ∀ k, 0 < k → nextResult act zOut zIn coeff m k = .ok none := by
  have h : padeGenNext (padeSession act zOut zIn coeff m 0).gen (memBefore act zOut zIn coeff m 0) =
      (.error .assertionError, memBefore act zOut zIn coeff m 0) := by
    change padeGenNext (.created zOut zIn coeff) _ = _
    simp only [padeGenNext]
    rw [dif_neg hM]
    rfl
  obtain ⟨hg, -, hr⟩ := session_of_error act zOut zIn coeff m h
  exact ⟨hr, fun k hk => session_finished act zOut zIn coeff m hg k hk⟩

/-- C87: `list(calc_iterator(z_out, z_in, coeff))` gives `N` different arrays, which contain the approximants when the
list is complete. -/
theorem calc_iterator_list (zIn : Arr (Fin (N + 1))) (coeff : Arr (σ × Fin (N + 1))) (m : Mem ℂ)
    (h1 : Allocated m zIn) (h2 : Allocated m coeff) :
    ∃ a : Fin N → Arr (σ × ι),
      (∀ k : Fin N, nextResult (fun _ => id) zOut zIn coeff m k = .ok (some (a k))) ∧
      nextResult (fun _ => id) zOut zIn coeff m N = .ok none ∧
      (Function.Injective fun k => (a k).addr) ∧
      Untouched m (memAfter (fun _ => id) zOut zIn coeff m N) ∧
      ∀ k : Fin N, m.next ≤ (a k).addr ∧ contents (memAfter (fun _ => id) zOut zIn coeff m N) (a k) =
        approximant m zOut zIn coeff k := by
  have hpol : Polite (fun _ => id) zOut zIn coeff m := fun k => ⟨le_rfl, fun _ _ _ => rfl⟩
  have hid : ∀ k, memBefore (fun _ => id) zOut zIn coeff m k = memAfter (fun _ => id) zOut zIn coeff m k :=
    fun _ => rfl
  have h0 : memAfter (fun _ => id) zOut zIn coeff m 0 = m := rfl
  have hmono : ∀ j k, j ≤ k →
      Untouched (memAfter (fun _ => id) zOut zIn coeff m j) (memAfter (fun _ => id) zOut zIn coeff m k) := by
    intro j k hjk
    induction k, hjk using Nat.le_induction with
    | base => exact Untouched.refl _
    | succ k _ ih => exact Untouched.trans ih (hid k ▸ calc_iterator_untouched (fun _ => id) zOut zIn coeff m k)
  choose a ha using fun k : Fin N =>
    calc_iterator_history_partial (fun _ => id) zOut zIn coeff m hpol h1 h2 k k.2
  refine ⟨a, fun k => (ha k).1, calc_iterator_stops_partial _ zOut zIn coeff m hpol h1 h2 N le_rfl, ?_,
    h0 ▸ hmono 0 N (Nat.zero_le N), fun k => ⟨?_, ?_⟩⟩
  · have hlt : ∀ j k : Fin N, j < k → (a j).addr < (a k).addr := by
      intro j k hjk
      have e1 := (ha j).2.2.1
      have e2 := (ha k).2.1
      rw [hid] at e2
      have e3 := (hmono (j + 1) k (by have : (j : ℕ) < k := hjk; omega)).1
      omega
    intro j k hjk
    rcases lt_trichotomy j k with h | h | h
    · exact absurd hjk (hlt j k h).ne
    · exact h
    · exact absurd hjk (hlt k j h).ne'
  · have e2 := (ha k).2.1
    rw [hid] at e2
    have e3 := (hmono 0 k (Nat.zero_le _)).1
    rw [h0] at e3
    omega
  · rw [Untouched.contents (hmono (k + 1) N k.2) (ha k).2.2.1, (ha k).2.2.2.2]
    rfl

/-- A caller who overwrites the first yielded array with `w` before the second `next`, and does nothing else. -/
noncomputable def overwriteFirst (w : σ × ι → ℂ) (out : List (Except Err (Option (Arr (σ × ι))))) (m : Mem ℂ) : Mem ℂ :=
  match out with
  | [.ok (some a)] => (assign a (fun _ => True) w m).2
  | _ => m

/-- C87: if the caller overwrites the first yielded array, the generator goes on with the values of the caller. -/
theorem calc_iterator_overwritten (w : σ × ι → ℂ) (zIn : Arr (Fin (N + 1))) (coeff : Arr (σ × Fin (N + 1))) (m : Mem ℂ)
    (h1 : Allocated m zIn) (h2 : Allocated m coeff) (hN : 2 ≤ N) :
    ∃ a, nextResult (overwriteFirst w) zOut zIn coeff m 1 = .ok (some a) ∧
      ∀ p, contents (memAfter (overwriteFirst w) zOut zIn coeff m 2) a p =
        (let c := fun j => extend (fun j => contents m coeff (p.1, j)) j
         let z := fun j => extend (contents m zIn) j
         let x := (contents m zOut p.2 - z 1) * c 2 / (1 + (contents m zOut p.2 - z 0) * c 1)
         (w p + x * c 0) / (1 + x)) := by
  have hb0 : memBefore (overwriteFirst w) zOut zIn coeff m 0 = m := rfl
  obtain ⟨mult, pade, prev, b2, h, hr, hi, hl, hu⟩ := genInv_one (act := overwriteFirst w) (zOut := zOut) (zIn := zIn)
    (coeff := coeff) (m := m) le_rfl (by omega) h1 h2
  have hout : (padeSession (overwriteFirst w) zOut zIn coeff m 1).out = [.ok (some pade)] := by
    have hlen := padeSession_length (overwriteFirst w) zOut zIn coeff m 1
    obtain ⟨x, hx⟩ := List.length_eq_one_iff.1 hlen
    have hr' := hr
    unfold nextResult at hr'
    rw [hx] at hr' ⊢
    simpa using hr'
  have hb1 : memBefore (overwriteFirst w) zOut zIn coeff m 1 =
      Mem.write (memAfter (overwriteFirst w) zOut zIn coeff m 1) pade (fun _ => True) w := by
    unfold memBefore PadeSession.caller
    simp only [hout]
    rfl
  obtain ⟨y, hy, hmy, -⟩ := h.yields 0 (by omega)
  have hyp : y = pade := by
    rw [hr] at hy
    simpa using hy.symm
  rw [hyp] at hmy
  have ho := h.order
  have hB := h.buffers
  simp only [List.mem_cons, List.not_mem_nil, or_false, forall_eq_or_imp, forall_eq] at hB
  set ma := memAfter (overwriteFirst w) zOut zIn coeff m 1 with hma
  set mb := memBefore (overwriteFirst w) zOut zIn coeff m 1 with hmb
  have cM : contents mb mult = contents ma mult := by rw [hb1, contents_write_ne _ _ _ _ _ (by omega)]
  have cQ : contents mb prev = contents ma prev := by rw [hb1, contents_write_ne _ _ _ _ _ (by omega)]
  have cB : contents mb b2 = contents ma b2 := by rw [hb1, contents_write_ne _ _ _ _ _ (by omega)]
  have cP : contents mb pade = w := by
    rw [hb1, contents_write _ _ hi]
    simp
  have hnext : mb.next = ma.next := by rw [hb1, write_next]
  obtain ⟨a, b, m'', hs, -, -, -, -, -, -, hav⟩ := padeGenLoop_step (M := N + 1) mb (mult := mult)
    (show 1 < N by omega) (pade := pade) (prev := prev) (b2 := b2) (by omega) (by omega)
  have hstep : padeGenNext (padeSession (overwriteFirst w) zOut zIn coeff m 1).gen mb =
      (.ok (some a, .running mult (1 + 1) a pade b), m'') := by
    rw [h.gen]
    exact hs
  obtain ⟨-, hm2, hr2⟩ := session_of_ok (overwriteFirst w) zOut zIn coeff m hstep
  refine ⟨a, hr2, fun p => ?_⟩
  have hm2' : memAfter (overwriteFirst w) zOut zIn coeff m 2 = m'' := hm2
  rw [hm2', hav, cM, cP, cQ, cB, h.mult_val, h.prev_val, h.b2_val]
  have e1 : extend (contents m zIn) 1 = contents m zIn (Fin.castSucc ⟨1, by omega⟩) := by
    unfold extend
    rw [dif_pos (by omega)]
    rfl
  have e2 : extend (fun j => contents m coeff (p.1, j)) 2 = contents m coeff (p.1, Fin.succ ⟨1, by omega⟩) := by
    unfold extend
    rw [dif_pos (by omega)]
    rfl
  simp only [refState, padeState, hb0, e1, e2, div_one]

/-- A memory with `z_out = [1]` in buffer 0, `z_in = [0, 0, 0]` in buffer 1 and `coeff = [1, 1, 1]` in buffer 2. -/
noncomputable def exampleMem : Mem ℂ := ⟨3, fun a _ => if a = 1 then 0 else 1⟩

/-- C87 (violated): the approximants depend on what the caller does with the arrays they got. Setting the elements of
the first one to zero, `for pade in calc_iterator(z_out, z_in, coeff): …; pade[...] = 0`, changes the next one:
`1/3` instead of `2/3`. -/
theorem calc_iterator_depends_on_caller :
    ∃ (act : List (Except Err (Option (Arr (Unit × Unit)))) → Mem ℂ → Mem ℂ) (zOut : Arr Unit) (zIn : Arr (Fin (2 + 1)))
      (coeff : Arr (Unit × Fin (2 + 1))) (m : Mem ℂ) (a : Arr (Unit × Unit)),
      Allocated m zOut ∧ Allocated m zIn ∧ Allocated m coeff ∧
      (∀ out m', (act out m').next = m'.next ∧ ∀ b, (act out m').buf b ≠ m'.buf b →
        ∃ y, Except.ok (some y) ∈ out ∧ y.addr = b) ∧
      nextResult act zOut zIn coeff m 1 = .ok (some a) ∧
      contents (memAfter act zOut zIn coeff m 2) a ≠ approximant m zOut zIn coeff 1 := by
  obtain ⟨a, ha, hv⟩ := calc_iterator_overwritten (⟨0, fun _ => 0⟩ : Arr Unit) (fun _ => 0)
    (⟨1, fun j => j⟩ : Arr (Fin (2 + 1))) (⟨2, fun j => j.2⟩ : Arr (Unit × Fin (2 + 1))) exampleMem
    (by unfold Allocated exampleMem; norm_num) (by unfold Allocated exampleMem; norm_num) le_rfl
  refine ⟨overwriteFirst fun _ => 0, ⟨0, fun _ => 0⟩, ⟨1, fun j => j⟩, ⟨2, fun j => j.2⟩, exampleMem, a, ?_, ?_, ?_, ?_,
    ha, fun h => ?_⟩
  · unfold Allocated exampleMem; norm_num
  · unfold Allocated exampleMem; norm_num
  · unfold Allocated exampleMem; norm_num
  · intro out m'
    unfold overwriteFirst
    split
    · rename_i y
      refine ⟨rfl, fun b hb => ⟨y, by simp, ?_⟩⟩
      by_contra hne
      exact hb (write_buf m' y _ _ (Ne.symm hne))
    · exact ⟨rfl, fun b hb => absurd rfl hb⟩
  · have := congrFun h ((), ())
    rw [hv] at this
    simp only [approximant, padeState, extend, contents, exampleMem] at this
    norm_num at this

/-- The caller of the next example sets `z_out`, `z_in`, `coeff` to zero after the first `next`. -/
def clearArguments (out : List (Except Err (Option (Arr (Unit × Unit))))) (m : Mem ℂ) : Mem ℂ :=
  match out with
  | [] => m
  | _ => ⟨m.next, fun b p => if b < 3 then 0 else m.buf b p⟩

lemma clearArguments_polite : Polite clearArguments (⟨0, fun _ => 0⟩ : Arr Unit) (⟨1, fun j => j⟩ : Arr (Fin (2 + 1)))
    (⟨2, fun j => j.2⟩ : Arr (Unit × Fin (2 + 1))) exampleMem := by
  have hcn : ∀ out m, (clearArguments out m).next = m.next := by
    intro out m
    unfold clearArguments
    split <;> rfl
  have hge : ∀ k, 3 ≤ (memAfter clearArguments (⟨0, fun _ => 0⟩ : Arr Unit) (⟨1, fun j => j⟩ : Arr (Fin (2 + 1)))
      (⟨2, fun j => j.2⟩ : Arr (Unit × Fin (2 + 1))) exampleMem k).next := by
    intro k
    induction k with
    | zero => exact le_rfl
    | succ k ih =>
      refine ih.trans (le_trans ?_ (calc_iterator_untouched clearArguments _ _ _ _ k).1)
      unfold memBefore PadeSession.caller
      rw [hcn]
      exact le_rfl
  intro k
  refine ⟨by unfold memBefore PadeSession.caller; rw [hcn]; exact le_rfl, ?_⟩
  rintro a ⟨j, -, hj, -⟩ -
  have h3 : 3 ≤ a := by
    refine le_trans (hge j) (le_trans (le_of_eq ?_) hj)
    unfold memBefore PadeSession.caller
    rw [hcn]
    rfl
  unfold memBefore memAfter PadeSession.caller clearArguments
  split
  · rfl
  · funext p
    exact if_neg (by omega)

/-- Overwriting the arguments after the first `next` does not matter: the second approximant is `2/3`. -/
example : ∃ a, nextResult clearArguments (⟨0, fun _ => 0⟩ : Arr Unit) (⟨1, fun j => j⟩ : Arr (Fin (2 + 1)))
      (⟨2, fun j => j.2⟩ : Arr (Unit × Fin (2 + 1))) exampleMem 1 = .ok (some a) ∧
    contents (memAfter clearArguments (⟨0, fun _ => 0⟩ : Arr Unit) (⟨1, fun j => j⟩ : Arr (Fin (2 + 1)))
      (⟨2, fun j => j.2⟩ : Arr (Unit × Fin (2 + 1))) exampleMem 2) a ((), ()) = 2 / 3 := by
  obtain ⟨a, ha, -, -, -, hv⟩ := calc_iterator_history_partial clearArguments (⟨0, fun _ => 0⟩ : Arr Unit)
    (⟨1, fun j => j⟩ : Arr (Fin (2 + 1))) (⟨2, fun j => j.2⟩ : Arr (Unit × Fin (2 + 1))) exampleMem
    clearArguments_polite (by unfold Allocated exampleMem; norm_num) (by unfold Allocated exampleMem; norm_num) 1
    (by omega)
  refine ⟨a, ha, ?_⟩
  rw [hv]
  change approximant exampleMem _ _ _ 1 ((), ()) = _
  simp only [approximant, padeState, extend, contents, exampleMem]
  norm_num

end Gftool.Props
