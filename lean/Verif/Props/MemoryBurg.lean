import Verif.Props.Memory2

/-!
# Property C85: the arrays of `pcoeff_burg`
-/

namespace Gftool.Props

open Gftool Model Lemmas Spec MM

/-- List of the first `n` elements, none of which is NaN. -/
private def good (n : ℕ) (f : ℕ → ℂ) : List (Option ℂ) := ((List.range n).map f).map some

private lemma good_length (n : ℕ) (f : ℕ → ℂ) : (good n f).length = n := by simp [good]

private lemma nanSum_good (n : ℕ) (f : ℕ → ℂ) : nanSum (good n f) = some (∑ i ∈ Finset.range n, f i) := by
  unfold good
  rw [nanSum_some]
  congr 1

private lemma map_good (n : ℕ) (f : ℕ → ℂ) (g : ℂ → ℂ) : (good n f).map (Option.map g) = good n fun i => g (f i) := by
  simp [good]

private lemma zip_good (n : ℕ) (f b : ℕ → ℂ) (g : ℂ → ℂ → ℂ) :
    List.zipWith (Option.map₂ g) (good n f) (good n b) = good n fun i => g (f i) (b i) := by
  apply List.ext_getElem
  · simp [good]
  · intro i h1 h2
    simp [good]

private lemma nanAbs2_good (n : ℕ) (f : ℕ → ℂ) : (good n f).map nanAbs2 = good n fun i => ((‖f i‖ ^ 2 : ℝ) : ℂ) :=
  map_good n f _

/-- The reflection coefficient of finite data: NaN exactly if the denominator vanishes. -/
private lemma refl_good (s : BurgState) :
    nanBurgRefl (good s.n s.f) (good s.n s.b) = if burgDenom s = 0 then none else some (burgRefl s) := by
  unfold nanBurgRefl
  simp only [zip_good, nanSum_good, nanAbs2_good, Option.map_some, Option.map₂_some_some]
  have hd : ((∑ i ∈ Finset.range s.n, ((‖s.f i‖ ^ 2 : ℝ) : ℂ)) + ∑ i ∈ Finset.range s.n, ((‖s.b i‖ ^ 2 : ℝ) : ℂ))
      = (burgDenom s : ℂ) := by
    unfold burgDenom
    push_cast
    rfl
  rw [hd]
  unfold nanDiv
  by_cases h : burgDenom s = 0
  · rw [if_pos h, h, if_pos (by simp)]
  · rw [if_neg h, if_neg (by simpa using h)]
    rfl

/-- The reflection coefficient of NaN, or of no data. -/
private lemma refl_bad {f b : List (Option ℂ)} (hf : ∀ e ∈ f, e = none) (hl : f.length = b.length) :
    nanBurgRefl f b = none := by
  unfold nanBurgRefl nanDiv
  cases f with
  | nil =>
    have hb : b = [] := by simpa using hl.symm
    rw [hb]
    simp [nanSum]
  | cons e f =>
    rw [hf e (by simp)]
    simp [nanSum, nanAbs2]

/-- What is known after `k` iterations. -/
private def BurgInv (x : ℕ → ℂ) (N order k : ℕ) (m : Mem (Option ℂ)) (a : Arr (Fin order × Fin order))
    (rho : Arr (Fin (order + 1))) (s : List (Option ℂ) × List (Option ℂ)) : Prop :=
  ((∀ j < k, burgDenom (burgState x N j) ≠ 0) →
      s.1 = good (burgState x N k).n (burgState x N k).f ∧ s.2 = good (burgState x N k).n (burgState x N k).b ∧
      (∀ p : Fin order × Fin order, (p.1 : ℕ) + 1 = k → (p.2 : ℕ) < k →
        contents m a p = some ((burgState x N k).a p.2)) ∧
      (N ≠ 0 → ∀ j : Fin (order + 1), (j : ℕ) = k → contents m rho j = some (((burgState x N k).rho : ℝ) : ℂ))) ∧
  ((∃ j < k, burgDenom (burgState x N j) = 0) →
      (∀ e ∈ s.1, e = none) ∧ (∀ e ∈ s.2, e = none) ∧ s.1.length = s.2.length ∧
      (∀ p : Fin order × Fin order, (p.1 : ℕ) + 1 = k → (p.2 : ℕ) < k → contents m a p = none) ∧
      ∀ j : Fin (order + 1), (j : ℕ) = k → contents m rho j = none)

private lemma zip_none {f b : List (Option ℂ)} (g : ℂ → ℂ → ℂ) (h : ℂ → ℂ → ℂ) :
    ∀ e ∈ List.zipWith (fun f b => Option.map₂ g f (Option.map₂ h none b)) f b, e = none := by
  intro e he
  rw [List.mem_iff_getElem] at he
  obtain ⟨i, hi, rfl⟩ := he
  simp

private lemma zip_shift {n : ℕ} (f b : ℕ → ℂ) (g h : ℂ → ℂ → ℂ) (c : ℂ) :
    List.zipWith (fun f b => Option.map₂ g f (Option.map₂ h (some c) b)) ((good n f).drop 1) ((good n b).drop 1)
      = good (n - 1) fun i => g (f (i + 1)) (h c (b (i + 1))) := by
  apply List.ext_getElem
  · simp [good]
  · intro i h1 h2
    simp [good]

private lemma zip_last {n : ℕ} (f b : ℕ → ℂ) (g h : ℂ → ℂ → ℂ) (c : ℂ) :
    List.zipWith (fun b f => Option.map₂ g b (Option.map₂ h (some c) f)) (good n b).dropLast (good n f).dropLast
      = good (n - 1) fun i => g (b i) (h c (f i)) := by
  apply List.ext_getElem
  · simp [good]
  · intro i h1 h2
    simp [good]

/-- C85: `pcoeff_burg` leaves the series unchanged and returns new arrays. If no denominator vanishes, all
coefficients and the variance are the ones of the recursion, no NaN placeholder is left. Otherwise all coefficients and
the variance are NaN. Order zero raises. -/
theorem pcoeff_burg_memory {N : ℕ} (m : Mem (Option ℂ)) (x : Arr (Fin N)) (hx : Allocated m x) (order : ℕ)
    (xs : ℕ → ℂ) (hxs : ∀ k : Fin N, contents m x k = some (xs k)) :
    ∃ r m', pcoeffBurgArr x order m = (r, m') ∧ Untouched m m' ∧
      match pcoeffBurg xs N order, r with
      | .error e, .error e' => e' = e
      | .ok (some (coeff, sig2)), .ok (a, s) => m.next ≤ a.addr ∧ m.next ≤ s.addr ∧ a.addr ≠ s.addr ∧
          a.pos.Injective ∧ (∀ j, contents m' a j = some (coeff j)) ∧ contents m' s () = some ((sig2 : ℝ) : ℂ)
      | .ok none, .ok (a, s) => m.next ≤ a.addr ∧ m.next ≤ s.addr ∧ a.addr ≠ s.addr ∧
          a.pos.Injective ∧ (∀ j, contents m' a j = none) ∧ contents m' s () = none
      | _, _ => False := by
  classical
  unfold Allocated at hx
  have hxs' : contents m x = fun k : Fin N => some (xs k) := funext hxs
  have hofn : (List.ofFn fun k : Fin N => some (xs k)) = good N xs := by
    apply List.ext_getElem
    · simp [good]
    · intro i h1 h2
      simp [good]
  -- one iteration
  set body : Arr (Fin order × Fin order) → Arr (Fin (order + 1)) → ℕ → List (Option ℂ) × List (Option ℂ) →
      MM (Option ℂ) (List (Option ℂ) × List (Option ℂ)) := fun a rho k => fun (f, b) => do
    let kk := nanBurgRefl f b
    assign a (fun p => (p.1 : ℕ) = k ∧ (p.2 : ℕ) = k) fun _ => kk
    let r ← read rho
    assign rho (fun j => (j : ℕ) = k + 1) fun _ =>
      if h : k < order + 1 then Option.map₂ (fun kk r => (1 - ((‖kk‖ ^ 2 : ℝ) : ℂ)) * r) kk (r ⟨k, h⟩) else none
    if 0 < k then
      let y ← read a
      assign a (fun p => (p.1 : ℕ) = k ∧ (p.2 : ℕ) < k) fun p =>
        if h : k - 1 < order then
          Option.map₂ (· + ·) (y (⟨k - 1, h⟩, p.2))
            (Option.map₂ (fun kk c => kk * star c) kk (y (⟨k - 1, h⟩, ⟨k - 1 - p.2, by omega⟩)))
        else none
    else pure ()
    let shift := fun f b => Option.map₂ (· + ·) f (Option.map₂ (· * ·) kk b)
    let shiftStar := fun b f => Option.map₂ (· + ·) b (Option.map₂ (fun kk f => star kk * f) kk f)
    return (List.zipWith shift (f.drop 1) (b.drop 1), List.zipWith shiftStar b.dropLast f.dropLast) with hbody
  have step : ∀ (a : Arr (Fin order × Fin order)) (rho : Arr (Fin (order + 1))) (k : ℕ)
      (s : List (Option ℂ) × List (Option ℂ)) (m0 : Mem (Option ℂ)), Untouched m m0 → m.next ≤ a.addr →
      m.next ≤ rho.addr → a.addr ≠ rho.addr → a.pos.Injective → rho.pos.Injective → k < order →
      BurgInv xs N order k m0 a rho s →
      ∃ m' s', body a rho k s m0 = (.ok s', m') ∧ m0.next = m'.next ∧ Untouched m m' ∧
        BurgInv xs N order (k + 1) m' a rho s' := by
    rintro a rho k ⟨f, b⟩ m0 hu ha hr har hi hj hk ⟨hgood, hbad⟩
    set kk := nanBurgRefl f b with hkk
    set m1 := Mem.write m0 a (fun p => (p.1 : ℕ) = k ∧ (p.2 : ℕ) = k) fun _ => kk with hm1
    set m2 := Mem.write m1 rho (fun j => (j : ℕ) = k + 1) fun _ =>
      if h : k < order + 1 then
        Option.map₂ (fun kk r => (1 - ((‖kk‖ ^ 2 : ℝ) : ℂ)) * r) kk (contents m1 rho ⟨k, h⟩) else none with hm2
    set m3 := if 0 < k then Mem.write m2 a (fun p => (p.1 : ℕ) = k ∧ (p.2 : ℕ) < k) fun p =>
        if h : k - 1 < order then
          Option.map₂ (· + ·) (contents m2 a (⟨k - 1, h⟩, p.2))
            (Option.map₂ (fun kk c => kk * star c) kk (contents m2 a (⟨k - 1, h⟩, ⟨k - 1 - p.2, by omega⟩)))
        else none else m2 with hm3
    have hrho1 : contents m1 rho = contents m0 rho := contents_write_ne _ _ _ _ _ (Ne.symm har)
    have hrho3 : ∀ j : Fin (order + 1), (j : ℕ) = k + 1 → contents m3 rho j
        = Option.map₂ (fun kk r => (1 - ((‖kk‖ ^ 2 : ℝ) : ℂ)) * r) kk (contents m0 rho ⟨k, by omega⟩) := by
      intro j hjk
      have h2 : contents m2 rho j
          = Option.map₂ (fun kk r => (1 - ((‖kk‖ ^ 2 : ℝ) : ℂ)) * r) kk (contents m0 rho ⟨k, by omega⟩) := by
        rw [hm2, contents_write _ _ hj]
        simp only
        rw [if_pos hjk, dif_pos (by omega), hrho1]
      rw [hm3]
      by_cases h0 : 0 < k <;> [rw [if_pos h0]; rw [if_neg h0]]
      · rw [contents_write_ne _ _ _ _ _ (Ne.symm har), h2]
      · exact h2
    have ha2 : contents m2 a = fun p => if (p.1 : ℕ) = k ∧ (p.2 : ℕ) = k then kk else contents m0 a p := by
      rw [hm2, contents_write_ne _ _ _ _ _ har, hm1, contents_write _ _ hi]
    have hdiag : ∀ p : Fin order × Fin order, (p.1 : ℕ) = k → (p.2 : ℕ) = k → contents m3 a p = kk := by
      intro p hp hq
      rw [hm3]
      by_cases h0 : 0 < k <;> [rw [if_pos h0]; rw [if_neg h0]]
      · rw [contents_write _ _ hi]
        simp only
        rw [if_neg (by omega), ha2]
        simp only
        rw [if_pos ⟨hp, hq⟩]
      · rw [ha2]
        simp only
        rw [if_pos ⟨hp, hq⟩]
    have hrow : ∀ p : Fin order × Fin order, (p.1 : ℕ) = k → (p.2 : ℕ) < k → contents m3 a p
        = Option.map₂ (· + ·) (contents m0 a (⟨k - 1, by omega⟩, p.2))
          (Option.map₂ (fun kk c => kk * star c) kk (contents m0 a (⟨k - 1, by omega⟩, ⟨k - 1 - p.2, by omega⟩))) := by
      intro p hp hq
      rw [hm3, if_pos (by omega), contents_write _ _ hi]
      simp only
      rw [if_pos ⟨hp, hq⟩, dif_pos (by omega), ha2]
      simp only
      rw [if_neg (by omega), if_neg (by omega)]
    refine ⟨m3, (List.zipWith (fun f b => Option.map₂ (· + ·) f (Option.map₂ (· * ·) kk b)) (f.drop 1) (b.drop 1),
        List.zipWith (fun b f => Option.map₂ (· + ·) b (Option.map₂ (fun kk f => star kk * f) kk f))
          b.dropLast f.dropLast), ?_, ?_, ?_, ?_⟩
    · rw [hbody]
      simp only
      rw [bind_assign, ← hkk, ← hm1, bind_read, bind_assign, ← hm2, hm3]
      by_cases h0 : 0 < k
      · rw [if_pos h0, if_pos h0]
        rfl
      · rw [if_neg h0, if_neg h0]
        rfl
    · rw [hm3]
      by_cases h0 : 0 < k <;> [rw [if_pos h0]; rw [if_neg h0]] <;> rfl
    · have hu2 : Untouched m m2 := Untouched.write (Untouched.write hu ha _ _) hr _ _
      rw [hm3]
      by_cases h0 : 0 < k <;> [rw [if_pos h0]; rw [if_neg h0]]
      · exact Untouched.write hu2 ha _ _
      · exact hu2
    · constructor
      · intro hd
        obtain ⟨hf, hb, hca, hcr⟩ := hgood fun j hj => hd j (by omega)
        simp only at hf hb
        have hdk := hd k (by omega)
        have hkk' : kk = some (burgRefl (burgState xs N k)) := by
          rw [hkk, hf, hb, refl_good, if_neg hdk]
        rw [hkk', hf, hb]
        refine ⟨zip_shift _ _ _ _ _, zip_last _ _ _ _ _, ?_, ?_⟩
        · intro p hp hq
          by_cases hpk : (p.2 : ℕ) = k
          · rw [hdiag p (by omega) hpk, hkk']
            simp [burgState, burgStep, hpk]
          · have hpk' : (p.2 : ℕ) < k := by omega
            rw [hrow p (by omega) hpk', hca (⟨k - 1, by omega⟩, p.2) (by show k - 1 + 1 = k; omega) hpk',
              hca (⟨k - 1, by omega⟩, ⟨k - 1 - p.2, by omega⟩) (by show k - 1 + 1 = k; omega)
                (by show k - 1 - (p.2 : ℕ) < k; omega), hkk']
            have e1 : k + 1 - 2 - (p.2 : ℕ) = k - 1 - (p.2 : ℕ) := by omega
            simp [burgState, burgStep, hpk, hpk', e1]
        · intro hN j hjk
          rw [hrho3 j hjk, hcr hN ⟨k, by omega⟩ rfl, hkk']
          simp [burgState, burgStep]
      · rintro ⟨j, hjk, hd⟩
        have hkk' : kk = none ∧ (f.drop 1).length = (b.drop 1).length ∧ f.length = b.length := by
          by_cases hex : ∃ j < k, burgDenom (burgState xs N j) = 0
          · obtain ⟨h1, h2, h3, -, -⟩ := hbad hex
            refine ⟨refl_bad h1 h3, ?_, h3⟩
            simp only at h3
            simp [h3]
          · have hall : ∀ j < k, burgDenom (burgState xs N j) ≠ 0 := fun j hj h => hex ⟨j, hj, h⟩
            obtain ⟨hf, hb, -, -⟩ := hgood hall
            simp only at hf hb
            have hjk' : j = k := by
              by_contra hne
              exact hall j (by omega) hd
            rw [hjk'] at hd
            refine ⟨by rw [hkk, hf, hb, refl_good, if_pos hd], by rw [hf, hb]; simp [good_length], by
              rw [hf, hb]; simp [good_length]⟩
        rw [hkk'.1]
        refine ⟨zip_none _ _, zip_none _ _, ?_, ?_, ?_⟩
        · have := hkk'.2.2
          simp only [List.length_zipWith, List.length_drop, List.length_dropLast, this, min_self]
        · intro p hp hq
          by_cases hpk : (p.2 : ℕ) = k
          · rw [hdiag p (by omega) hpk, hkk'.1]
          · rw [hrow p (by omega) (by omega), hkk'.1]
            simp
        · intro j hjk
          rw [hrho3 j hjk, hkk'.1]
          simp
  have loop : ∀ (a : Arr (Fin order × Fin order)) (rho : Arr (Fin (order + 1))) (k : ℕ)
      (s : List (Option ℂ) × List (Option ℂ)) (m0 : Mem (Option ℂ)), Untouched m m0 → m.next ≤ a.addr →
      m.next ≤ rho.addr → a.addr ≠ rho.addr → a.pos.Injective → rho.pos.Injective → k ≤ order →
      BurgInv xs N order 0 m0 a rho s →
      ∃ m' s', forRangeWith k s (body a rho) m0 = (.ok s', m') ∧ m0.next = m'.next ∧ Untouched m m' ∧
        BurgInv xs N order k m' a rho s' := by
    intro a rho k s m0 hu ha hr har hi hj
    induction k with
    | zero => exact fun _ h => ⟨m0, s, rfl, rfl, hu, h⟩
    | succ k ih =>
      intro hk h
      obtain ⟨m1, s1, h1, hn1, hu1, hI1⟩ := ih (by omega) h
      obtain ⟨m2, s2, h2, hn2, hu2, hI2⟩ := step a rho k s1 m1 hu1 ha hr har hi hj (by omega) hI1
      refine ⟨m2, s2, ?_, hn1.trans hn2, hu2, hI2⟩
      unfold forRangeWith
      rw [mm_bind_ok h1]
      exact h2
  -- before the loop
  set m1 := Mem.push m fun _ : Fin (order + 1) => (none : Option ℂ) with hm1
  set m2 := Mem.write m1 (freshArr (Fin (order + 1)) m) (fun k => (k : ℕ) = 0) fun _ =>
    nanDiv (nanSum ((good N xs).map nanAbs2)) (some (N : ℂ)) with hm2
  set m3 := Mem.push m2 fun _ : Fin order × Fin order => (none : Option ℂ) with hm3
  set rho := freshArr (Fin (order + 1)) m with hrho
  set a := freshArr (Fin order × Fin order) m2 with ha
  have haa : a.addr = m.next + 1 := rfl
  have hra : rho.addr = m.next := rfl
  have hx2 : contents m2 x = fun k : Fin N => some (xs k) := by
    rw [hm2, contents_write_ne _ _ _ _ _ (by rw [hra]; omega), hm1, contents_push _ _ _ (by omega), hxs']
  have hu3 : Untouched m m3 := by
    rw [hm3, hm2, hm1]
    exact Untouched.push (Untouched.write (Untouched.push (Untouched.refl m) _) (le_of_eq hra.symm) _ _) _
  have hcall : pcoeffBurgArr x order m = (forRangeWith order ((good N xs).drop 1, (good N xs).dropLast) (body a rho)
      >>= fun _ => if h : order = 0 then raise .indexError
        else do
          let y ← read a
          let last ← new fun j : Fin order => y (⟨order - 1, by omega⟩, j)
          return (last, ⟨rho.addr, fun _ => rho.pos (Fin.last order)⟩)) m3 := by
    unfold pcoeffBurgArr
    rw [bind_read, hxs', bind_new, ← hm1, bind_assign, hofn, ← hrho, ← hm2, bind_read, hx2, bind_new, ← hm3, hofn]
  have hinit : BurgInv xs N order 0 m3 a rho ((good N xs).drop 1, (good N xs).dropLast) := by
    constructor
    · intro _
      refine ⟨?_, ?_, fun p hp => by omega, ?_⟩
      · apply List.ext_getElem
        · simp [good, burgState, burgInit]
        · intro i h1 h2
          simp [good, burgState, burgInit]
      · apply List.ext_getElem
        · simp [good, burgState, burgInit]
        · intro i h1 h2
          simp [good, burgState, burgInit]
      · intro hN j hj
        rw [hm3, contents_push _ _ _ (by rw [hra, hm2, write_next, hm1, push_next]; omega), hm2,
          contents_write _ _ (freshArr_pos m)]
        simp only
        rw [if_pos hj, nanAbs2_good, nanSum_good]
        unfold nanDiv
        rw [if_neg (by simpa using hN)]
        simp [burgState, burgInit]
    · rintro ⟨j, hj, -⟩
      omega
  obtain ⟨m4, s4, h4, hn4, hu4, hI4⟩ := loop a rho order _ m3 hu3 (by omega) (by omega) (by omega) (freshArr_pos _)
    (freshArr_pos _) le_rfl hinit
  rw [mm_bind_ok h4] at hcall
  have hn4' : m4.next = m.next + 2 := hn4.symm
  unfold pcoeffBurg
  by_cases ho : order = 0
  · rw [dif_pos ho] at hcall
    refine ⟨_, m4, hcall, hu4, ?_⟩
    rw [if_pos ho]
  rw [dif_neg ho, bind_read, bind_new] at hcall
  refine ⟨_, _, hcall, Untouched.push hu4 _, ?_⟩
  rw [if_neg ho]
  have hlast : ∀ v : Fin order → Option ℂ, contents (Mem.push m4 v) (⟨rho.addr, fun _ => rho.pos (Fin.last order)⟩ : Arr Unit) ()
      = contents m4 rho (Fin.last order) := by
    intro v
    rw [contents_push _ _ _ (by rw [hra]; omega)]
    rfl
  by_cases hd : ∀ k < order, burgDenom (burgState xs N k) ≠ 0
  · rw [if_pos hd]
    obtain ⟨-, -, hca, hcr⟩ := hI4.1 hd
    have hN : N ≠ 0 := by
      rintro rfl
      apply hd 0 (by omega)
      simp [burgState, burgInit, burgDenom]
    refine ⟨by rw [freshArr_addr]; omega, by rw [hra], by rw [freshArr_addr, hra]; omega, freshArr_pos _, ?_, ?_⟩
    · intro j
      rw [contents_push_fresh]
      exact hca _ (by show order - 1 + 1 = order; omega) j.2
    · rw [hlast]
      exact hcr hN _ rfl
  · rw [if_neg hd]
    push Not at hd
    obtain ⟨-, -, -, hca, hcr⟩ := hI4.2 hd
    refine ⟨by rw [freshArr_addr]; omega, by rw [hra], by rw [freshArr_addr, hra]; omega, freshArr_pos _, ?_, ?_⟩
    · intro j
      rw [contents_push_fresh]
      exact hca _ (by show order - 1 + 1 = order; omega) j.2
    · rw [hlast]
      exact hcr _ rfl

/-- A constant series has coefficients, a vanishing one does not: both cases occur. -/
example : (∃ r, pcoeffBurg (fun _ => 1) 3 1 = .ok (some r)) ∧ pcoeffBurg (fun _ => 0) 3 1 = .ok none := by
  constructor
  · unfold pcoeffBurg
    rw [if_neg one_ne_zero, if_pos]
    · exact ⟨_, rfl⟩
    intro k hk
    have : k = 0 := by omega
    subst this
    norm_num [burgDenom, burgState, burgInit]
  · unfold pcoeffBurg
    rw [if_neg one_ne_zero, if_neg]
    intro h
    exact h 0 one_pos (by norm_num [burgDenom, burgState, burgInit])

/-- Series, coefficients and energies in memory, also as reversed view of a buffer with other contents. -/
example (xs : Fin 3 → ℂ) : ∃ (m : Mem (Option ℂ)) (x : Arr (Fin 3)), Allocated m x ∧ x.pos 0 = 2 ∧
    ∀ k, contents m x k = some (xs k) := by
  refine ⟨⟨1, fun _ p => if h : p ≤ 2 then some (xs ⟨2 - p, by omega⟩) else none⟩, ⟨0, fun k => 2 - k⟩,
    by simp [Allocated], rfl, fun k => ?_⟩
  have := k.2
  simp only [contents]
  rw [dif_pos (by omega)]
  congr 2
  ext
  simp only
  omega

end Gftool.Props
