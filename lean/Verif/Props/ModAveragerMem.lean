import Verif.Lemmas.ModAveragerMem
import Verif.Props.AveragerMem

/-!
# Property C88: histories of the functions returned by `Mod_Averager`

The function `mod_fct` of the user may change the approximants it is given in place.
-/

namespace Gftool.Props

open Gftool Model Lemmas Spec MM

variable {ι : Type} [Encodable ι] {N M L : ℕ} {kind : KindSelector}

section

variable (f : AvgFct N M L) (mod : ModMem ι) (act : List (Except Err (ι → AvgResult)) → Mem ℂ → Mem ℂ × Arr ι) (m : Mem ℂ)

lemma modSession_length (k : ℕ) : (modSession f mod act m k).out.length = k := by
  induction k with
  | zero => rfl
  | succ k ih =>
    rw [modSession]
    simp [ih]

lemma modOutcome_eq (k : ℕ) :
    modOutcome f mod act m k = (modAvgCall f mod (modArgument f mod act m k) (modMemBefore f mod act m k)).1 := by
  unfold modOutcome
  rw [modSession]
  simp only
  rw [List.getElem?_append_right (by rw [modSession_length])]
  simp [modSession_length, modArgument, modMemBefore]

lemma modMemAfter_succ (k : ℕ) :
    modMemAfter f mod act m (k + 1) = (modAvgCall f mod (modArgument f mod act m k) (modMemBefore f mod act m k)).2 := rfl

end

/-- C88: every call of the function returned by `Mod_Averager` returns the averages of the modified approximants, for the
validity at the time when the function was created. It depends neither on the history nor on what `mod_fct` has written to
the approximants in this or previous calls. A call changes no array that exists before it. Missing: the caller must not write
to `z_in` and `coeff` (nor to the private copy of `valid_pades`). -/
theorem mod_averager_history_partial {mod : ModMem ι} {p : ModFct ℂ} (hmod : Modifies mod p) (hstep : 0 < kind.step)
    (zIn : Arr (Fin (N + 1))) (coeff : Arr (Unit × Fin (N + 1)))
    (validPades : Arr (Fin L)) (m m' : Mem ℂ) (f : AvgFct N (N + 1) L)
    (hnew : averagerNew kind zIn coeff validPades m = (.ok f, m')) (h1 : Allocated m zIn) (h2 : Allocated m coeff)
    (act : List (Except Err (ι → AvgResult)) → Mem ℂ → Mem ℂ × Arr ι)
    (hact : ModLeavesAlone f mod act m' {zIn.addr, coeff.addr, f.valid.addr}) (k : ℕ) :
    Untouched (modMemBefore f mod act m' k) (modMemAfter f mod act m' (k + 1)) ∧
    ∃ r, modOutcome f mod act m' k = .ok r ∧ ∀ i, modAverageAt kind p (bools m validPades) (contents m zIn)
      (fun j => contents m coeff ((), j)) (contents (modMemBefore f mod act m' k) (modArgument f mod act m' k) i) =
        .ok (r i) := by
  obtain ⟨hu, herr, hok⟩ := averager_new kind zIn coeff validPades m
  rw [hnew] at hu herr hok
  have hval : ∃ b ∈ bools m validPades, b = true := by
    by_contra hne
    have : ∀ b ∈ bools m validPades, b = false := fun b hb => by
      by_contra hb'
      exact hne ⟨b, hb, by simpa using hb'⟩
    have := herr.2 this
    simp at this
  obtain ⟨f', hf, e1, e2, e3, e4, e5, e6⟩ := hok hval
  obtain rfl : f = f' := by simpa using hf
  -- the captured arrays in a memory in which their buffers are as in the beginning
  have call : ∀ (mk : Mem ℂ) (z : Arr ι), m'.next ≤ mk.next →
      (∀ a ∈ ({zIn.addr, coeff.addr, f.valid.addr} : Set ℕ), mk.buf a = m'.buf a) → Allocated mk z →
      ∃ r m'', modAvgCall f mod z mk = (.ok r, m'') ∧ Untouched mk m'' ∧ ∀ i, modAverageAt kind p (bools m validPades)
        (contents m zIn) (fun j => contents m coeff ((), j)) (contents mk z i) = .ok (r i) := by
    intro mk z hn hb hz
    have c1 : contents mk f.zIn = contents m zIn := by
      rw [e2, contents_of_buf (hb _ (by simp)), Untouched.contents hu h1]
    have c2 : contents mk f.coeff = contents m coeff := by
      rw [e3, contents_of_buf (hb _ (by simp)), Untouched.contents hu h2]
    have c3 : contents mk f.valid = contents m' f.valid := contents_of_buf (hb _ (by simp))
    have c3' : bools mk f.valid = bools m validPades := by
      rw [← e6]
      unfold bools
      rw [c3]
    have a1 : Allocated mk f.zIn := by
      rw [e2]
      exact lt_of_lt_of_le (lt_of_lt_of_le h1 hu.1) hn
    have a2 : Allocated mk f.coeff := by
      rw [e3]
      exact lt_of_lt_of_le (lt_of_lt_of_le h2 hu.1) hn
    obtain ⟨r, m'', hr, hu', hv⟩ := modAvg_call f hmod (by rw [e1]; exact hstep) z mk hz a1 a2 (lt_of_lt_of_le e5 hn) (by
      obtain ⟨b, hb', rfl⟩ := hval
      rw [← c3'] at hb'
      unfold bools at hb'
      obtain ⟨l, hl⟩ := List.mem_ofFn.1 hb'
      exact ⟨l, by simpa using hl⟩)
    refine ⟨r, m'', hr, hu', fun i => ?_⟩
    rw [← hv i, c3', e1, c1, c2]
  have small : ∀ a ∈ ({zIn.addr, coeff.addr, f.valid.addr} : Set ℕ), a < m'.next := by
    intro a ha
    rcases ha with rfl | rfl | rfl
    · exact lt_of_lt_of_le h1 hu.1
    · exact lt_of_lt_of_le h2 hu.1
    · exact e5
  have inv : ∀ k, m'.next ≤ (modMemBefore f mod act m' k).next ∧
      ∀ a ∈ ({zIn.addr, coeff.addr, f.valid.addr} : Set ℕ), (modMemBefore f mod act m' k).buf a = m'.buf a := by
    intro k
    induction k with
    | zero => exact ⟨(hact 0).2.1, fun a ha => (hact 0).2.2 a ha⟩
    | succ k ih =>
      obtain ⟨r, m'', hr, hu', -⟩ := call _ _ ih.1 ih.2 (hact k).1
      have hm : modMemAfter f mod act m' (k + 1) = m'' := by rw [modMemAfter_succ, hr]
      have hk := (hact (k + 1)).2
      rw [hm] at hk
      refine ⟨ih.1.trans (hu'.1.trans hk.1), fun a ha => ?_⟩
      rw [hk.2 a ha, hu'.2 a (lt_of_lt_of_le (small a ha) ih.1), ih.2 a ha]
  obtain ⟨r, m'', hr, hu', hv⟩ := call _ _ (inv k).1 (inv k).2 (hact k).1
  refine ⟨?_, r, ?_, hv⟩
  · rw [modMemAfter_succ, hr]
    exact hu'
  · rw [modOutcome_eq, hr]

/-! ## Examples -/

/-- A function that doubles the approximant in place: `pade *= 2; return pade`. -/
noncomputable def doubleInPlace (_ : Arr ι) (a : Arr ι) : MM ℂ (Arr ι) := do
  let x ← read a
  assign a (fun _ => True) fun i => 2 * x i
  return a

omit [Encodable ι] in
lemma doubleInPlace_modifies : Modifies (.single (doubleInPlace (ι := ι))) (.single fun _ x => 2 * x) := by
  classical
  intro m z a _ _ _ hp
  refine ⟨a, Mem.write m a (fun _ => True) fun i => 2 * contents m a i, rfl, le_rfl, fun b _ hb => write_buf _ _ _ _ hb,
    Or.inl rfl, ?_⟩
  rw [contents_write _ _ hp]
  simp

lemma doubleInPlace_average : modAverageAt (M := 1 + 1) (N := 1) ⟨0, 1, 2⟩ (.single fun _ x => 2 * x) [true] (fun _ => 0)
    (fun _ => 1) 1 = .ok (avgStat [1]) := by
  unfold modAverageAt calcIterator modAverager
  rw [if_neg (by simp)]
  simp [KindSelector.islice, pyRange, rangeLen, padeState, extend, ModFct.apply]
  norm_num

/-- A call of the function of the example. -/
lemma doubleInPlace_call (mk : Mem ℂ) (h5 : 5 ≤ mk.next) (hbuf : ∀ a, a < 5 → a ≠ 3 → mk.buf a = avgExampleMem'.buf a) :
    ∃ m'', modAvgCall avgExample (.single doubleInPlace) (⟨0, fun _ => 0⟩ : Arr Unit) mk =
      (.ok fun _ => avgStat [1], m'') ∧ Untouched mk m'' := by
  have c0 : contents mk (⟨0, fun _ => 0⟩ : Arr Unit) = fun _ => 1 :=
    (contents_of_buf (hbuf 0 (by norm_num) (by norm_num))).trans avgExampleMem'_z
  have c1 : contents mk avgExample.zIn = fun _ => 0 :=
    (contents_of_buf (hbuf 1 (by norm_num) (by norm_num))).trans avgExampleMem'_zIn
  have c2 : contents mk avgExample.coeff = fun _ => 1 :=
    (contents_of_buf (hbuf 2 (by norm_num) (by norm_num))).trans avgExampleMem'_coeff
  have c3 : contents mk avgExample.valid = fun _ => 1 :=
    (contents_of_buf (hbuf 4 (by norm_num) (by norm_num))).trans avgExampleMem'_valid
  obtain ⟨r, m'', hr, hu, hv⟩ := modAvg_call avgExample doubleInPlace_modifies (by decide) (⟨0, fun _ => 0⟩ : Arr Unit) mk
    (show 0 < mk.next by omega) (show 1 < mk.next by omega) (show 2 < mk.next by omega) (show 4 < mk.next by omega)
    ⟨0, by rw [c3]; exact one_ne_zero⟩
  have hbo : bools mk avgExample.valid = [true] := by
    unfold bools
    rw [c3]
    simp
  have hrr : r = fun _ => avgStat [1] := by
    funext i
    have hi := hv i
    rw [hbo, c0, c1, c2] at hi
    exact (Except.ok.inj (hi.symm.trans doubleInPlace_average))
  exact ⟨m'', by rw [hr, hrr], hu⟩

-- the approximants are changed in place in every call, and the caller clears `valid_pades` after the first one:
-- all calls give twice the average of `Averager`
example : ModLeavesAlone avgExample (.single doubleInPlace) (clearBuffer 3) avgExampleMem' {1, 2, avgExample.valid.addr} ∧
    ∀ k, modOutcome avgExample (.single doubleInPlace) (clearBuffer 3) avgExampleMem' k = .ok fun _ => avgStat [1] := by
  have hb : ∀ k a, a ≠ 3 → (modMemBefore avgExample (.single doubleInPlace) (clearBuffer 3) avgExampleMem' k).buf a =
      (modMemAfter avgExample (.single doubleInPlace) (clearBuffer 3) avgExampleMem' k).buf a := fun k a ha =>
    clearBuffer_other 3 _ _ ha
  have hn : ∀ k, (modMemBefore avgExample (.single doubleInPlace) (clearBuffer 3) avgExampleMem' k).next =
      (modMemAfter avgExample (.single doubleInPlace) (clearBuffer 3) avgExampleMem' k).next := fun k =>
    clearBuffer_next 3 _ _
  have harg : ∀ k, modArgument avgExample (.single doubleInPlace) (clearBuffer 3) avgExampleMem' k = ⟨0, fun _ => 0⟩ :=
    fun k => clearBuffer_arg 3 _ _
  have hcall := doubleInPlace_call
  have inv : ∀ k, 5 ≤ (modMemBefore avgExample (.single doubleInPlace) (clearBuffer 3) avgExampleMem' k).next ∧
      ∀ a, a < 5 → a ≠ 3 → (modMemBefore avgExample (.single doubleInPlace) (clearBuffer 3) avgExampleMem' k).buf a =
        avgExampleMem'.buf a := by
    intro k
    induction k with
    | zero => exact ⟨(hn 0).ge.trans' (by exact avgExampleMem'_next.ge), fun a _ ha => hb 0 a ha⟩
    | succ k ih =>
      obtain ⟨m'', hr, hu⟩ := hcall _ ih.1 ih.2
      have hm : modMemAfter avgExample (.single doubleInPlace) (clearBuffer 3) avgExampleMem' (k + 1) = m'' := by
        rw [modMemAfter_succ, harg, hr]
      refine ⟨?_, fun a ha ha' => ?_⟩
      · rw [hn, hm]
        exact ih.1.trans hu.1
      · rw [hb _ a ha', hm, hu.2 a (by have := ih.1; omega), ih.2 a ha ha']
  refine ⟨fun k => ⟨?_, (hn k).ge, fun a ha => hb k a ?_⟩, fun k => ?_⟩
  · rw [harg]
    have := (inv k).1
    unfold Allocated
    simp only
    omega
  · rcases ha with rfl | rfl | rfl <;> simp [avgExample]
  · obtain ⟨m'', hr, -⟩ := hcall _ (inv k).1 (inv k).2
    rw [modOutcome_eq, harg, hr]

end Gftool.Props
