import Verif.Spec.ModAveragerMem
import Verif.Lemmas.AveragerMem

/-!
# Lemmas about functions returned by `Mod_Averager`
-/

namespace Gftool.Lemmas

open Gftool Model Spec MM

variable {ι : Type} {N M L : ℕ}

lemma newAll_apply [Encodable ι] (l : List (ι → ℂ)) (m : Mem ℂ) :
    ∃ as m', newAll l m = (.ok as, m') ∧ Untouched m m' ∧ as.map (contents m') = l ∧ (as.map Arr.addr).Nodup ∧
      ∀ a ∈ as, m.next ≤ a.addr ∧ a.addr < m'.next ∧ a.pos.Injective := by
  induction l generalizing m with
  | nil => exact ⟨[], m, rfl, Untouched.refl m, rfl, by simp, by simp⟩
  | cons x l ih =>
    obtain ⟨as, m', h1, h2, h3, h4, h5⟩ := ih (Mem.push m x)
    have hn := h2.1
    rw [push_next] at hn
    refine ⟨freshArr ι m :: as, m', ?_, Untouched.trans (Untouched.push (Untouched.refl m) x) h2, ?_, ?_, ?_⟩
    · rw [newAll, bind_new, mm_bind_ok h1]
      rfl
    · rw [List.map_cons, h3, Untouched.contents h2 (by unfold Allocated; rw [freshArr_addr, push_next]; omega),
        contents_push_fresh]
    · rw [List.map_cons, List.nodup_cons]
      refine ⟨fun h => ?_, h4⟩
      obtain ⟨a, ha, he⟩ := List.mem_map.1 h
      have := (h5 a ha).1
      rw [push_next, he, freshArr_addr] at this
      omega
    · intro a ha
      rcases List.mem_cons.1 ha with rfl | ha
      · exact ⟨le_rfl, by rw [freshArr_addr]; omega, freshArr_pos m⟩
      · obtain ⟨b1, b2, b3⟩ := h5 a ha
        rw [push_next] at b1
        exact ⟨by omega, b2, b3⟩

/-- Contents of an array whose buffer is unchanged. -/
lemma contents_of_buf {m m' : Mem ℂ} {a : Arr ι} (h : m'.buf a.addr = m.buf a.addr) : contents m' a = contents m a := by
  funext i
  unfold contents
  rw [h]

lemma modEach_apply {fct : Arr ι → Arr ι → MM ℂ (Arr ι)} {g : ℂ → ℂ → ℂ} (h : Modifies (.single fct) (.single g))
    (z : Arr ι) (pades : List (Arr ι)) (m : Mem ℂ) (hz : Allocated m z)
    (hp : ∀ a ∈ pades, Allocated m a ∧ a.addr ≠ z.addr ∧ a.pos.Injective) (hd : (pades.map Arr.addr).Nodup) :
    ∃ r m', modEach fct z pades m = (.ok r, m') ∧ m.next ≤ m'.next ∧
      (∀ b < m.next, b ∉ pades.map Arr.addr → m'.buf b = m.buf b) ∧
      r.map (contents m') = pades.map fun a i => g (contents m z i) (contents m a i) := by
  induction pades generalizing m with
  | nil => exact ⟨[], m, rfl, le_rfl, fun _ _ _ => rfl, rfl⟩
  | cons a l ih =>
    rw [List.map_cons, List.nodup_cons] at hd
    obtain ⟨ha1, ha2, ha3⟩ := hp a (by simp)
    obtain ⟨r, m1, h1, h2, h3, h4, h5⟩ := h m z a hz ha1 ha2 ha3
    have hne : ∀ b ∈ l, b.addr ≠ a.addr := fun b hb he => hd.1 (List.mem_map.2 ⟨b, hb, he⟩)
    have hl : ∀ b ∈ l, contents m1 b = contents m b := fun b hb =>
      contents_of_buf (h3 _ (hp b (by simp [hb])).1 (hne b hb))
    have hz1 : contents m1 z = contents m z := contents_of_buf (h3 _ hz ha2.symm)
    obtain ⟨rs, m', k1, k2, k3, k4⟩ := ih m1 (lt_of_lt_of_le hz h2)
      (fun b hb => ⟨lt_of_lt_of_le (hp b (by simp [hb])).1 h2, (hp b (by simp [hb])).2⟩) hd.2
    refine ⟨r :: rs, m', ?_, h2.trans k2, fun b hb hb' => ?_, ?_⟩
    · rw [modEach, mm_bind_ok h1, mm_bind_ok k1]
      rfl
    · rw [List.map_cons, List.mem_cons, not_or] at hb'
      rw [k3 b (by omega) hb'.2, h3 b hb hb'.1]
    · have hr : contents m' r = contents m1 r := by
        refine contents_of_buf (k3 _ ?_ ?_)
        · rcases h4 with h4 | h4
          · rw [h4]
            exact lt_of_lt_of_le ha1 h2
          · exact h4.2
        · rcases h4 with h4 | h4
          · rw [h4]
            exact hd.1
          · intro hm
            obtain ⟨b, hb, he⟩ := List.mem_map.1 hm
            have := (hp b (by simp [hb])).1
            unfold Allocated at this
            omega
      rw [List.map_cons, List.map_cons, hr, h5, k4]
      congr 1
      exact List.map_congr_left fun b hb => by rw [hl b hb, hz1]

lemma mod_apply {mod : ModMem ι} {p : ModFct ℂ} (h : Modifies mod p)
    (z : Arr ι) (pades : List (Arr ι)) (m : Mem ℂ) (hz : Allocated m z)
    (hp : ∀ a ∈ pades, Allocated m a ∧ a.addr ≠ z.addr ∧ a.pos.Injective) (hd : (pades.map Arr.addr).Nodup) :
    ∃ r m', mod.apply z pades m = (.ok r, m') ∧ m.next ≤ m'.next ∧
      (∀ b < m.next, b ∉ pades.map Arr.addr → m'.buf b = m.buf b) ∧
      ∀ i, (r.map fun a => contents m' a i) = p.apply (contents m z i) (pades.map fun a => contents m a i) := by
  cases mod with
  | vectorized f =>
    cases p with
    | vectorized g => exact h m z pades hz hp hd
    | single g => exact h.elim
  | single f =>
    cases p with
    | vectorized g => exact h.elim
    | single g =>
      obtain ⟨r, m', h1, h2, h3, h4⟩ := modEach_apply h z pades m hz hp hd
      refine ⟨r, m', h1, h2, h3, fun i => ?_⟩
      have := congrArg (List.map fun x : ι → ℂ => x i) h4
      rw [List.map_map, List.map_map] at this
      change _ = (pades.map fun a => contents m a i).map (g (contents m z i))
      rw [List.map_map]
      exact this

open scoped Classical in
/-- A call of the function. -/
lemma modAvg_call [Encodable ι] (f : AvgFct N (N + 1) L) {mod : ModMem ι} {p : ModFct ℂ} (hmod : Modifies mod p)
    (hstep : 0 < f.kind.step) (z : Arr ι) (m : Mem ℂ) (hz : Allocated m z) (h1 : Allocated m f.zIn)
    (h2 : Allocated m f.coeff) (h3 : Allocated m f.valid) (hv : ∃ l, contents m f.valid l ≠ 0) :
    ∃ r m', modAvgCall f mod z m = (.ok r, m') ∧ Untouched m m' ∧ ∀ i, modAverageAt f.kind p (bools m f.valid)
      (contents m f.zIn) (fun j => contents m f.coeff ((), j)) (contents m z i) = .ok (r i) := by
  obtain ⟨ys, m', ht, hu, -, hy⟩ := padeGenTake_created f.kind.stop m z f.zIn f.coeff h1 h2
  set vals := ((((f.kind.islice ys).zip (List.ofFn (contents m' f.valid))).filterMap
      fun p => if p.2 ≠ 0 then some p.1 else none).map (contents m')) with hvals
  obtain ⟨as, m2, n1, n2, n3, n4, n5⟩ := newAll_apply (vals.map fun x (i : ι) => x ((), i)) m'
  have hz2 : Allocated m2 z := lt_of_lt_of_le (lt_of_lt_of_le hz hu.1) n2.1
  obtain ⟨r, m3, r1, r2, r3, r4⟩ := mod_apply hmod z as m2 hz2
    (fun a ha => ⟨(n5 a ha).2.1, by
      have := (n5 a ha).1
      have := hu.1
      unfold Allocated at hz
      omega, (n5 a ha).2.2⟩) n4
  have hcall : modAvgCall f mod z m = (.ok fun i => avgStat ((r.map (contents m3)).map fun x => x i), m3) := by
    unfold modAvgCall
    rw [mm_bind_ok ht, bind_read, mm_bind_ok (readAll_apply _ m')]
    beta_reduce
    rw [mm_bind_ok n1, mm_bind_ok r1, mm_bind_ok (readAll_apply _ m3)]
    rfl
  refine ⟨_, m3, hcall, ⟨(hu.1.trans n2.1).trans r2, fun a ha => ?_⟩, fun i => ?_⟩
  · have h' := (Untouched.trans hu n2).2 a ha
    rw [r3 a (lt_of_lt_of_le ha (hu.1.trans n2.1)) ?_, h']
    intro hm
    obtain ⟨b, hb, he⟩ := List.mem_map.1 hm
    have := (n5 b hb).1
    have := hu.1
    omega
  · unfold modAverageAt calcIterator modAverager
    rw [if_neg (by simp)]
    simp only
    have hb : (bools m f.valid).any id = true := by
      obtain ⟨l, hl⟩ := hv
      rw [List.any_eq_true]
      exact ⟨true, by unfold bools; rw [List.mem_ofFn]; exact ⟨l, by simpa using hl⟩, rfl⟩
    rw [if_neg (by simp [hb])]
    congr 2
    rw [List.map_map]
    refine Eq.trans ?_ (r4 i).symm
    have hzc : contents m2 z = contents m z := Untouched.contents (Untouched.trans hu n2) hz
    rw [hzc]
    congr 1
    have e1 : (as.map fun a => contents m2 a i) = vals.map fun x => x ((), i) := by
      have := congrArg (List.map fun x : ι → ℂ => x i) n3
      rw [List.map_map, List.map_map] at this
      exact this
    rw [e1, hvals, List.map_map, select_map, ← islice_map, ← List.map_map, hy]
    congr 1
    congr 1
    · rw [List.map_map, islice_range f.kind hstep]
      rfl
    · rw [Untouched.contents hu h3]
      unfold bools
      rw [List.map_ofFn]
      rfl

end Gftool.Lemmas
