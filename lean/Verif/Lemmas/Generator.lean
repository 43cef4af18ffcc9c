import Verif.Spec.Generator
import Verif.Lemmas.Memory

/-!
# Lemmas about the generator `calc_iterator`
-/

namespace Gftool.Lemmas

open Gftool Model Spec MM

variable {σ ι : Type} [Encodable σ] [Encodable ι] {N M : ℕ}

/-- One iteration of the loop. -/
lemma padeGenLoop_step (m : Mem ℂ) {mult : Arr (Fin N × σ × ι)} {k : ℕ} (hk : k < N) {pade prev b2 : Arr (σ × ι)}
    (hp : pade.addr < m.next) (hq : prev.addr < m.next) :
    ∃ (a b : Arr (σ × ι)) (m' : Mem ℂ),
      padeGenLoop (M := M) mult k pade prev b2 m = (.ok (some a, .running mult (k + 1) a pade b), m') ∧
      Untouched m m' ∧ m.next ≤ b.addr ∧ b.addr < a.addr ∧ a.addr < m'.next ∧ a.pos.Injective ∧
      (∀ p, contents m' b p = 1 + contents m mult (⟨k, hk⟩, p) / contents m b2 p) ∧
      ∀ p, contents m' a p = (contents m pade p + contents m mult (⟨k, hk⟩, p) / contents m b2 p * contents m prev p) /
        (1 + contents m mult (⟨k, hk⟩, p) / contents m b2 p) := by
  unfold padeGenLoop
  rw [dif_pos hk]
  simp (disch := ((try simp only [freshArr_addr, push_next, write_next]); omega)) only [bind_read, bind_new,
    mm_pure, contents_push_fresh, contents_push]
  refine ⟨_, _, _, rfl, ?_, ?_, ?_, ?_, freshArr_pos _, ?_, ?_⟩
  · repeat first | exact Untouched.refl _ | apply Untouched.push
  · simp only [freshArr_addr, push_next]; omega
  · simp only [freshArr_addr, push_next]; omega
  · simp only [freshArr_addr, push_next]; omega
  · intro p
    rw [contents_push _ _ _ (by simp only [freshArr_addr, push_next]; omega), contents_push_fresh]
  · intro p
    rw [contents_push_fresh]

/-- The first `next`, up to the loop. -/
lemma padeGenNext_created (m : Mem ℂ) (zOut : Arr ι) (zIn : Arr (Fin (N + 1))) (coeff : Arr (σ × Fin (N + 1)))
    (h1 : Allocated m zIn) (h2 : Allocated m coeff) :
    ∃ (mult : Arr (Fin N × σ × ι)) (pade prev b2 : Arr (σ × ι)) (m' : Mem ℂ),
      padeGenNext (.created zOut zIn coeff) m = padeGenLoop mult 0 pade prev b2 m' ∧ Untouched m m' ∧
      m.next ≤ mult.addr ∧ m.next ≤ pade.addr ∧ m.next ≤ prev.addr ∧ m.next ≤ b2.addr ∧
      mult.addr < m'.next ∧ pade.addr < m'.next ∧ prev.addr < m'.next ∧ b2.addr < m'.next ∧
      (∀ k p, contents m' mult (k, p) =
        (contents m zOut p.2 - contents m zIn k.castSucc) * contents m coeff (p.1, k.succ)) ∧
      (∀ p, contents m' pade p = contents m coeff (p.1, 0)) ∧ (∀ p, contents m' prev p = 0) ∧
      ∀ p, contents m' b2 p = 1 := by
  unfold Allocated at h1 h2
  have hb : ∀ (m : Mem ℂ) (a : Arr ι) (p : σ × ι), contents m (a.bcast σ) p = contents m a p.2 := fun _ _ _ => rfl
  simp (disch := ((try simp only [freshArr_addr, push_next, write_next]); omega)) only [padeGenNext, dite_true, bind_read,
    bind_new, contents_push_fresh, contents_push]
  refine ⟨_, _, _, _, _, rfl, ?_, ?_, ?_, ?_, ?_, ?_, ?_, ?_, ?_, ?_, ?_, ?_, ?_⟩
  · repeat first | exact Untouched.refl _ | apply Untouched.push
  any_goals first
    | (simp only [Arr.bcast, freshArr_addr, push_next]; omega)
    | skip
  · intro k p
    rw [contents_push_fresh]
    rfl
  · intro p
    simp (disch := ((try simp only [freshArr_addr, push_next, write_next]); omega)) only [contents_push_fresh,
      contents_push, mul_one]
  · intro p
    simp (disch := ((try simp only [freshArr_addr, push_next, write_next]); omega)) only [hb, contents_push_fresh,
      contents_push, zero_mul]
  · intro p
    simp (disch := ((try simp only [freshArr_addr, push_next, write_next]); omega)) only [hb, contents_push_fresh,
      contents_push]

/-- `next` never changes existing buffers. -/
lemma padeGenNext_untouched (g : PadeGen σ ι N M) (m : Mem ℂ) : Untouched m (padeGenNext g m).2 := by
  have hl : ∀ (m : Mem ℂ) mult k pade prev b2, Untouched m (padeGenLoop (M := M) (N := N) (σ := σ) (ι := ι)
      mult k pade prev b2 m).2 := by
    intro m mult k pade prev b2
    unfold padeGenLoop
    split_ifs with h
    · simp only [bind_read, bind_new, mm_pure]
      repeat first | exact Untouched.refl _ | apply Untouched.push
    · exact Untouched.refl m
  cases g with
  | created zOut zIn coeff =>
    unfold padeGenNext
    split_ifs with h
    · simp only [bind_read, bind_new]
      refine Untouched.trans ?_ (hl _ _ _ _ _ _)
      repeat first | exact Untouched.refl _ | apply Untouched.push
    · exact Untouched.refl m
  | running mult k pade prev b2 => exact hl _ _ _ _ _ _
  | finished => exact Untouched.refl m

lemma padeSession_next_untouched (s : PadeSession σ ι N M) : Untouched s.mem s.next.mem := by
  have h := padeGenNext_untouched s.gen s.mem
  unfold PadeSession.next
  split <;> rename_i heq <;> rw [heq] at h <;> exact h

lemma padeSession_next_length (s : PadeSession σ ι N M) : s.next.out.length = s.out.length + 1 := by
  unfold PadeSession.next
  split <;> simp

section

variable (act : List (Except Err (Option (Arr (σ × ι)))) → Mem ℂ → Mem ℂ) (zOut : Arr ι) (zIn : Arr (Fin M))
  (coeff : Arr (σ × Fin (N + 1))) (m : Mem ℂ)

lemma padeSession_length (k : ℕ) : (padeSession act zOut zIn coeff m k).out.length = k := by
  induction k with
  | zero => rfl
  | succ k ih =>
    rw [padeSession, padeSession_next_length]
    simpa [PadeSession.caller] using ih

/-- A call of `next` that returns. -/
lemma session_of_ok {k : ℕ} {y : Option (Arr (σ × ι))} {g : PadeGen σ ι N M} {m' : Mem ℂ}
    (h : padeGenNext (padeSession act zOut zIn coeff m k).gen (memBefore act zOut zIn coeff m k) = (.ok (y, g), m')) :
    (padeSession act zOut zIn coeff m (k + 1)).gen = g ∧ memAfter act zOut zIn coeff m (k + 1) = m' ∧
      nextResult act zOut zIn coeff m k = .ok y := by
  have hs : padeSession act zOut zIn coeff m (k + 1) = ⟨g, m', (padeSession act zOut zIn coeff m k).out ++ [.ok y]⟩ := by
    rw [padeSession]
    unfold PadeSession.next
    have h' : padeGenNext ((padeSession act zOut zIn coeff m k).caller act).gen
      ((padeSession act zOut zIn coeff m k).caller act).mem = (.ok (y, g), m') := h
    rw [h']
    rfl
  refine ⟨by rw [hs], by unfold memAfter; rw [hs], ?_⟩
  unfold nextResult
  rw [hs]
  simp only
  rw [List.getElem?_append_right (by rw [padeSession_length])]
  simp [padeSession_length]

/-- A call of `next` that raises. -/
lemma session_of_error {k : ℕ} {e : Err} {m' : Mem ℂ}
    (h : padeGenNext (padeSession act zOut zIn coeff m k).gen (memBefore act zOut zIn coeff m k) = (.error e, m')) :
    (padeSession act zOut zIn coeff m (k + 1)).gen = .finished ∧ memAfter act zOut zIn coeff m (k + 1) = m' ∧
      nextResult act zOut zIn coeff m k = .error e := by
  have hs : padeSession act zOut zIn coeff m (k + 1) =
      ⟨.finished, m', (padeSession act zOut zIn coeff m k).out ++ [.error e]⟩ := by
    rw [padeSession]
    unfold PadeSession.next
    have h' : padeGenNext ((padeSession act zOut zIn coeff m k).caller act).gen
      ((padeSession act zOut zIn coeff m k).caller act).mem = (.error e, m') := h
    rw [h']
    rfl
  refine ⟨by rw [hs], by unfold memAfter; rw [hs], ?_⟩
  unfold nextResult
  rw [hs]
  simp only
  rw [List.getElem?_append_right (by rw [padeSession_length])]
  simp [padeSession_length]

/-- A finished generator stays finished. -/
lemma session_finished {k : ℕ} (h : (padeSession act zOut zIn coeff m k).gen = .finished) (j : ℕ) (hj : k ≤ j) :
    nextResult act zOut zIn coeff m j = .ok none := by
  have hg : ∀ j, k ≤ j → (padeSession act zOut zIn coeff m j).gen = .finished := by
    intro j hj
    induction j, hj using Nat.le_induction with
    | base => exact h
    | succ j _ ih =>
      exact (session_of_ok act zOut zIn coeff m (k := j) (y := none) (g := .finished)
        (m' := memBefore act zOut zIn coeff m j) (by rw [ih]; rfl)).1
  exact (session_of_ok act zOut zIn coeff m (k := j) (y := none) (g := .finished)
    (m' := memBefore act zOut zIn coeff m j) (by rw [hg j hj]; rfl)).2.2

lemma memBefore_untouched (k : ℕ) :
    Untouched (memBefore act zOut zIn coeff m k) (memAfter act zOut zIn coeff m (k + 1)) := by
  unfold memBefore memAfter
  exact padeSession_next_untouched _

end

section

variable (act : List (Except Err (Option (Arr (σ × ι)))) → Mem ℂ → Mem ℂ) (zOut : Arr ι) (zIn : Arr (Fin (N + 1)))
  (coeff : Arr (σ × Fin (N + 1))) (m : Mem ℂ)

/-- The state of the loop for the contents of the arguments at the first `next`. -/
noncomputable def refState (k : ℕ) (p : σ × ι) : PadeState :=
  padeState (contents (memBefore act zOut zIn coeff m 0) zOut p.2)
    (extend (contents (memBefore act zOut zIn coeff m 0) zIn))
    (extend fun j => contents (memBefore act zOut zIn coeff m 0) coeff (p.1, j)) k

/-- The state of the generator after `k` calls of `next`. -/
structure GenInv (k : ℕ) (mult : Arr (Fin N × σ × ι)) (pade prev b2 : Arr (σ × ι)) : Prop where
  gen : (padeSession act zOut zIn coeff m k).gen = .running mult k pade prev b2
  buffers : ∀ a ∈ [mult.addr, pade.addr, prev.addr, b2.addr], a ∈ genBuffers act zOut zIn coeff m k ∧
    a < (memAfter act zOut zIn coeff m k).next ∧ ¬ OldYield act zOut zIn coeff m k a
  yields : ∀ j < k, ∃ y, nextResult act zOut zIn coeff m j = .ok (some y) ∧ mult.addr < y.addr ∧
    (j + 1 < k → y.addr < pade.addr ∧ y.addr < b2.addr) ∧ (j + 2 < k → y.addr < prev.addr) ∧
    y.addr < (memAfter act zOut zIn coeff m k).next
  order : prev.addr < b2.addr ∧ b2.addr < pade.addr
  mult_val : ∀ i p, contents (memAfter act zOut zIn coeff m k) mult (i, p) =
    (contents (memBefore act zOut zIn coeff m 0) zOut p.2 -
      contents (memBefore act zOut zIn coeff m 0) zIn i.castSucc) *
      contents (memBefore act zOut zIn coeff m 0) coeff (p.1, i.succ)
  pade_val : ∀ p, contents (memAfter act zOut zIn coeff m k) pade p = (refState act zOut zIn coeff m k p).pade
  prev_val : ∀ p, contents (memAfter act zOut zIn coeff m k) prev p = (refState act zOut zIn coeff m k p).padePrev
  b2_val : ∀ p, contents (memAfter act zOut zIn coeff m k) b2 p = (refState act zOut zIn coeff m k p).b2

variable {act zOut zIn coeff m}

lemma refState_succ {k : ℕ} (hk : k < N) (p : σ × ι) :
    refState act zOut zIn coeff m (k + 1) p =
      (let s := refState act zOut zIn coeff m k p
       let multIm := (contents (memBefore act zOut zIn coeff m 0) zOut p.2 -
          contents (memBefore act zOut zIn coeff m 0) zIn (Fin.castSucc ⟨k, hk⟩)) *
          contents (memBefore act zOut zIn coeff m 0) coeff (p.1, Fin.succ ⟨k, hk⟩) / s.b2
       ⟨(s.pade + multIm * s.padePrev) / (1 + multIm), s.pade, 1 + multIm⟩) := by
  have h1 : extend (contents (memBefore act zOut zIn coeff m 0) zIn) k =
      contents (memBefore act zOut zIn coeff m 0) zIn (Fin.castSucc ⟨k, hk⟩) := by
    unfold extend
    rw [dif_pos (by omega)]
    rfl
  have h2 : extend (fun j => contents (memBefore act zOut zIn coeff m 0) coeff (p.1, j)) (k + 1) =
      contents (memBefore act zOut zIn coeff m 0) coeff (p.1, Fin.succ ⟨k, hk⟩) := by
    unfold extend
    rw [dif_pos (by omega)]
    rfl
  unfold refState
  rw [padeState]
  simp only [h1, h2]

lemma genBuffers_mono {j k : ℕ} (h : j ≤ k) {a : ℕ} (ha : a ∈ genBuffers act zOut zIn coeff m j) :
    a ∈ genBuffers act zOut zIn coeff m k := by
  obtain ⟨i, hi, hr⟩ := ha
  exact ⟨i, by omega, hr⟩

/-- The first call of `next`. -/
lemma genInv_one (hmono : (memAfter act zOut zIn coeff m 0).next ≤ (memBefore act zOut zIn coeff m 0).next) (hN : 0 < N) (h1 : Allocated m zIn) (h2 : Allocated m coeff) :
    ∃ mult pade prev b2, GenInv act zOut zIn coeff m 1 mult pade prev b2 ∧
      nextResult act zOut zIn coeff m 0 = .ok (some pade) ∧ pade.pos.Injective ∧
      (memBefore act zOut zIn coeff m 0).next ≤ pade.addr ∧ pade.addr < (memAfter act zOut zIn coeff m 1).next := by
  have hm0 : memAfter act zOut zIn coeff m 0 = m := rfl
  rw [hm0] at hmono
  set mb := memBefore act zOut zIn coeff m 0 with hmb
  obtain ⟨mult, pade, prev, b2, m', hn, hu, l1, l2, l3, l4, u1, u2, u3, u4, v1, v2, v3, v4⟩ :=
    padeGenNext_created mb zOut zIn coeff (by unfold Allocated at *; omega) (by unfold Allocated at *; omega)
  obtain ⟨a, b, m'', hs, hu', hb, hba, ha, hinj, hbv, hav⟩ := padeGenLoop_step (M := N + 1) m' (mult := mult) hN
    (b2 := b2) u2 u3
  have hstep : padeGenNext (padeSession act zOut zIn coeff m 0).gen (memBefore act zOut zIn coeff m 0) =
      (.ok (some a, .running mult (0 + 1) a pade b), m'') := by
    rw [← hmb]
    exact hn.trans hs
  obtain ⟨hg, hma, hr⟩ := session_of_ok act zOut zIn coeff m hstep
  have hle : mb.next ≤ m'.next := hu.1
  have hle' : m'.next ≤ m''.next := hu'.1
  have hbuf : ∀ x, mb.next ≤ x → x < m''.next → x ∈ genBuffers act zOut zIn coeff m 1 := fun x hx hx' =>
    ⟨0, by omega, by rw [← hmb]; exact hx, by rw [hma]; exact hx'⟩
  have hold : ∀ x, ¬ OldYield act zOut zIn coeff m 1 x := by
    rintro x ⟨j, hj, -⟩
    omega
  have hma' : memAfter act zOut zIn coeff m 1 = m'' := hma
  refine ⟨mult, a, pade, b, ⟨hg, ?_, ?_, ⟨by omega, hba⟩, ?_, ?_, ?_, ?_⟩, hr, hinj, by omega, by rw [hma']; exact ha⟩
  · intro x hx
    simp only [List.mem_cons, List.not_mem_nil, or_false] at hx
    have : mb.next ≤ x ∧ x < m''.next := by rcases hx with rfl | rfl | rfl | rfl <;> omega
    exact ⟨hbuf x this.1 this.2, by rw [hma']; exact this.2, hold x⟩
  · intro j hj
    obtain rfl : j = 0 := by omega
    exact ⟨a, hr, by omega, fun h => by omega, fun h => by omega, by rw [hma']; exact ha⟩
  · intro i p
    rw [hma', Untouched.contents hu' u1, v1]
  · intro p
    rw [hma', hav, refState_succ hN, v1, v2, v3, v4]
    simp only [refState, padeState]
    congr 2
  · intro p
    rw [hma', Untouched.contents hu' u2, refState_succ hN, v2]
    simp only [refState, padeState]
    unfold extend
    rw [dif_pos (by omega)]
    rfl
  · intro p
    rw [hma', hbv, refState_succ hN, v1, v4]
    simp only [refState, padeState]
    rfl

/-- The following calls of `next`. -/
lemma genInv_succ (hpol : Polite act zOut zIn coeff m) {k : ℕ} (hk : 0 < k) (hkN : k < N)
    {mult : Arr (Fin N × σ × ι)} {pade prev b2 : Arr (σ × ι)} (h : GenInv act zOut zIn coeff m k mult pade prev b2) :
    ∃ a b, GenInv act zOut zIn coeff m (k + 1) mult a pade b ∧
      nextResult act zOut zIn coeff m k = .ok (some a) ∧ a.pos.Injective ∧
      (memBefore act zOut zIn coeff m k).next ≤ a.addr ∧ a.addr < (memAfter act zOut zIn coeff m (k + 1)).next := by
  obtain ⟨hmono, hbufs⟩ := hpol k
  have hB := h.buffers
  simp only [List.mem_cons, List.not_mem_nil, or_false, forall_eq_or_imp, forall_eq] at hB
  obtain ⟨⟨m1, m2, m3⟩, ⟨p1, p2, p3⟩, ⟨q1, q2, q3⟩, ⟨b1, b2', b3⟩⟩ := hB
  set mb := memBefore act zOut zIn coeff m k with hmb
  set ma := memAfter act zOut zIn coeff m k with hmaeq
  have cM : contents mb mult = contents ma mult := by funext i; unfold contents; rw [hbufs _ m1 m3]
  have cP : contents mb pade = contents ma pade := by funext i; unfold contents; rw [hbufs _ p1 p3]
  have cQ : contents mb prev = contents ma prev := by funext i; unfold contents; rw [hbufs _ q1 q3]
  have cB : contents mb b2 = contents ma b2 := by funext i; unfold contents; rw [hbufs _ b1 b3]
  obtain ⟨a, b, m'', hs, hu', hb, hba, ha, hinj, hbv, hav⟩ := padeGenLoop_step (M := N + 1) mb (mult := mult) hkN
    (pade := pade) (prev := prev) (b2 := b2) (by omega) (by omega)
  have hstep : padeGenNext (padeSession act zOut zIn coeff m k).gen (memBefore act zOut zIn coeff m k) =
      (.ok (some a, .running mult (k + 1) a pade b), m'') := by
    rw [← hmb, h.gen]
    exact hs
  obtain ⟨hg, hma, hr⟩ := session_of_ok act zOut zIn coeff m hstep
  have hle' : mb.next ≤ m''.next := hu'.1
  have hnew : ∀ x, mb.next ≤ x → x < m''.next → x ∈ genBuffers act zOut zIn coeff m (k + 1) := fun x hx hx' =>
    ⟨k, by omega, by rw [← hmb]; exact hx, by rw [hma]; exact hx'⟩
  have hyl : ∀ j < k + 1, ∃ y, nextResult act zOut zIn coeff m j = .ok (some y) ∧ mult.addr < y.addr ∧
      (j + 1 < k + 1 → y.addr < a.addr ∧ y.addr < b.addr) ∧ (j + 2 < k + 1 → y.addr < pade.addr) ∧
      y.addr < m''.next := by
    intro j hj
    rcases Nat.lt_succ_iff_lt_or_eq.1 hj with hj | rfl
    · obtain ⟨y, y1, y2, y3, -, y4⟩ := h.yields j hj
      rw [← hmaeq] at y4
      exact ⟨y, y1, y2, fun _ => by omega, fun hh => (y3 (by omega)).1, by omega⟩
    · exact ⟨a, hr, by omega, fun hh => by omega, fun hh => by omega, ha⟩
  have hold : ∀ x, x = mult.addr ∨ x = pade.addr ∨ x = a.addr ∨ x = b.addr →
      ¬ OldYield act zOut zIn coeff m (k + 1) x := by
    rintro x hx ⟨j, hj, y, hy, rfl⟩
    obtain ⟨y', hy', r1, r2, r3, r4⟩ := hyl j (by omega)
    have : y = y' := by
      rw [hy] at hy'
      simpa using hy'
    subst this
    have := r2 (by omega)
    have := r3 (by omega)
    omega
  refine ⟨a, b, ⟨hg, ?_, ?_, ⟨by omega, hba⟩, ?_, ?_, ?_, ?_⟩, hr, hinj, by omega, by rw [hma]; exact ha⟩
  · intro x hx
    simp only [List.mem_cons, List.not_mem_nil, or_false] at hx
    refine ⟨?_, ?_, hold x (by tauto)⟩
    · rcases hx with rfl | rfl | rfl | rfl
      · exact genBuffers_mono (Nat.le_succ k) m1
      · exact hnew _ (by omega) (by omega)
      · exact genBuffers_mono (Nat.le_succ k) p1
      · exact hnew _ (by omega) (by omega)
    · rw [hma]
      rcases hx with rfl | rfl | rfl | rfl <;> omega
  · intro j hj
    rw [hma]
    exact hyl j hj
  · intro i p
    rw [hma, Untouched.contents hu' (show Allocated mb mult by unfold Allocated; omega), cM, h.mult_val]
  · intro p
    rw [hma, hav, refState_succ hkN, cM, cP, cQ, cB, h.mult_val, h.pade_val, h.prev_val, h.b2_val]
  · intro p
    rw [hma, Untouched.contents hu' (show Allocated mb pade by unfold Allocated; omega), refState_succ hkN, cP, h.pade_val]
  · intro p
    rw [hma, hbv, refState_succ hkN, cM, cB, h.mult_val, h.b2_val]

/-- All calls of `next`. -/
lemma genInv_all (hpol : Polite act zOut zIn coeff m) (h1 : Allocated m zIn) (h2 : Allocated m coeff) (k : ℕ)
    (hk : k < N) :
    ∃ mult pade prev b2, GenInv act zOut zIn coeff m (k + 1) mult pade prev b2 ∧
      nextResult act zOut zIn coeff m k = .ok (some pade) ∧ pade.pos.Injective ∧
      (memBefore act zOut zIn coeff m k).next ≤ pade.addr ∧
      pade.addr < (memAfter act zOut zIn coeff m (k + 1)).next := by
  induction k with
  | zero => exact genInv_one (hpol 0).1 hk h1 h2
  | succ k ih =>
    obtain ⟨mult, pade, prev, b2, h, -⟩ := ih (by omega)
    obtain ⟨a, b, hh⟩ := genInv_succ hpol (by omega) hk h
    exact ⟨mult, a, pade, b, hh⟩

end

end Gftool.Lemmas
