import Verif.Model.MaskedMem
import Verif.Lemmas.Memory
import Mathlib.Tactic

/-!
# Property C85: `masked_coefficients` in memory
-/

namespace Gftool.Props

open Gftool Model Lemmas Spec MM

variable {N : ℕ}

/-- Writing one element of a matrix. -/
lemma elem2_setElem (m : Mem (Option ℂ)) (mat : Arr (Fin N × Fin N)) (hp : mat.pos.Injective) (a b : ℕ) (ha : a < N)
    (hb : b < N) (v : Option ℂ) (c d : ℕ) :
    elem2 (contents (Mem.write m mat (fun p => (p.1 : ℕ) = a ∧ (p.2 : ℕ) = b) fun _ => v) mat) c d =
      if c = a ∧ d = b then v else elem2 (contents m mat) c d := by
  classical
  rw [contents_write _ _ hp]
  unfold elem2
  by_cases h : c = a ∧ d = b
  · obtain ⟨rfl, rfl⟩ := h
    rw [dif_pos ⟨ha, hb⟩]
    simp
  · rw [if_neg h]
    by_cases h' : c < N ∧ d < N
    · rw [dif_pos h', dif_pos h']
      exact if_neg h
    · rw [dif_neg h', dif_neg h']

/-- C85: the loops of `masked_coefficients` calculate the coefficients in a matrix of their own: no array of the caller is
changed, and the result is the one of the description by the last valid row. -/
theorem masked_coefficients_memory (m : Mem (Option ℂ)) (z f : Arr (Fin N)) (hN : 0 < N) (hz : Allocated m z)
    (hf : Allocated m f) (zs fs : ℕ → ℂ) (hzs : ∀ k : Fin N, contents m z k = some (zs k))
    (hfs : ∀ k : Fin N, contents m f k = some (fs k)) :
    match maskedCoefficients N zs fs with
    | .error e => PureCall (maskedCoefficientsArr z f) m (.error e)
    | .ok (some d) => PureCall (maskedCoefficientsArr z f) m (.ok fun i => some (d i))
    | .ok none => ¬ Set.InjOn zs (Set.Iio N) := by
  classical
  unfold Allocated at hz hf
  set m1 := Mem.push m fun _ : Fin N × Fin N => some (0 : ℂ) with hm1
  set mat : Arr (Fin N × Fin N) := freshArr (Fin N × Fin N) m with hmat
  have hp : mat.pos.Injective := freshArr_pos m
  have haddr : mat.addr = m.next := rfl
  set m2 := Mem.write m1 mat (fun p => (p.1 : ℕ) = 0) fun p => contents m1 f p.2 with hm2
  have hu1 : Untouched m m1 := Untouched.push (Untouched.refl m) _
  have hu2 : Untouched m m2 := Untouched.write hu1 haddr.ge _ _
  have hf1 : contents m1 f = contents m f := Untouched.contents hu1 hf
  have hf2 : contents m2 f = contents m f := Untouched.contents hu2 hf
  have hz' : ∀ m', Untouched m m' → ∀ a < N, elem1 (contents m' z) a = zs a := fun m' h a ha => by
    rw [Untouched.contents h hz]
    unfold elem1
    rw [dif_pos ha, hzs]
    rfl
  have hf0 : elem1 (contents m2 f) 0 = fs 0 := by
    rw [hf2]
    unfold elem1
    rw [dif_pos hN, hfs]
    rfl
  have hstart : ∀ a < N, ∀ b < N, elem2 (contents m2 mat) a b = if a = 0 then some (fs b) else some 0 := by
    intro a ha b hb
    rw [hm2, contents_write _ _ hp, hf1, hm1, hmat, contents_push_fresh]
    unfold elem2
    rw [dif_pos ⟨ha, hb⟩]
    by_cases h : a = 0
    · simp [h, hfs]
    · simp [h]
  -- the inner loop
  have inner : ∀ (s : MaskVars) (ii k : ℕ) (m0 : Mem (Option ℂ)), Untouched m m0 → mat.addr < m0.next → s.lastIt < ii →
      ii + 1 + k ≤ N → (∀ j, ii < j → s.mask j = true) →
      ∃ m', forRange k (fun k => maskInner mat z s ii (ii + 1 + k)) m0 = (.ok (), m') ∧ Untouched m m' ∧
        mat.addr < m'.next ∧
        ∀ a b, elem2 (contents m' mat) a b = if a = ii ∧ ii < b ∧ b < ii + 1 + k then
          maskedEntry s.last (zs s.lastIt) (zs b) (elem2 (contents m0 mat) s.lastIt b) else elem2 (contents m0 mat) a b := by
    intro s ii k m0 hu hn hlt
    induction k with
    | zero =>
      intro _ _
      refine ⟨m0, rfl, hu, hn, fun a b => ?_⟩
      rw [if_neg (by omega)]
    | succ k ih =>
      intro hk hmask
      obtain ⟨m', h1, h2, h3, h4⟩ := ih (by omega) hmask
      refine ⟨Mem.write m' mat (fun p => (p.1 : ℕ) = ii ∧ (p.2 : ℕ) = ii + 1 + k) fun _ =>
        maskedEntry s.last (elem1 (contents m' z) s.lastIt) (elem1 (contents m' z) (ii + 1 + k))
          (elem2 (contents m' mat) s.lastIt (ii + 1 + k)), ?_, Untouched.write h2 haddr.ge _ _, h3, fun a b => ?_⟩
      · unfold forRange
        rw [mm_bind_ok h1]
        have hmk := hmask (ii + 1 + k) (by omega)
        beta_reduce
        unfold maskInner
        rw [if_pos hmk, bind_read, bind_read]
        rfl
      · rw [elem2_setElem _ _ hp _ _ (by omega) (by omega), hz' _ h2 _ (by omega), hz' _ h2 _ (by omega), h4, h4,
          if_neg (by omega : ¬ (s.lastIt = ii ∧ ii < ii + 1 + k ∧ ii + 1 + k < ii + 1 + k))]
        by_cases hab : a = ii ∧ b = ii + 1 + k
        · obtain ⟨rfl, rfl⟩ := hab
          rw [if_pos ⟨rfl, rfl⟩, if_pos ⟨rfl, by omega, by omega⟩]
        · rw [if_neg hab]
          by_cases hab' : a = ii ∧ ii < b ∧ b < ii + 1 + k
          · rw [if_pos hab', if_pos ⟨hab'.1, hab'.2.1, by omega⟩]
          · rw [if_neg hab', if_neg (by omega)]
  -- the outer loop
  have outer : ∀ n, n < N → ∃ m' mask, maskLoop mat z ⟨0, fs 0, fun _ => true⟩ n m2 =
        (.ok ⟨(maskRun zs fs n).lastIt, (maskRun zs fs n).last, mask⟩, m') ∧ mask = (maskRun zs fs n).mask ∧
      Untouched m m' ∧ mat.addr < m'.next ∧ (maskRun zs fs n).lastIt ≤ n ∧ (∀ j, n < j → mask j = true) ∧
      (∀ b < N, elem2 (contents m' mat) (maskRun zs fs n).lastIt b = (maskRun zs fs n).row b) ∧
      (∀ i < N, elem2 (contents m' mat) i i = some ((maskRun zs fs n).diag i)) ∧
      ∀ a, n < a → a < N → ∀ b < N, elem2 (contents m' mat) a b = some 0 := by
    intro n
    induction n with
    | zero =>
      intro _
      refine ⟨m2, fun _ => true, rfl, rfl, hu2, ?_, le_rfl, fun _ _ => rfl, ?_, ?_, ?_⟩
      · rw [haddr, hm2, write_next, hm1, push_next]
        omega
      · intro b hb
        exact (hstart 0 hN b hb).trans (if_pos rfl)
      · intro i hi
        rw [hstart i hi i hi]
        show _ = some (if i = 0 then fs 0 else 0)
        by_cases h : i = 0 <;> simp [h]
      · intro a ha ha' b hb
        rw [hstart a ha' b hb, if_neg (by omega)]
    | succ n ih =>
      intro hn
      obtain ⟨m', mask, h1, h2, h3, h4, h5, h6, h7, h8, h9⟩ := ih (by omega)
      set S := maskRun zs fs n with hS
      have hrun : maskRun zs fs (n + 1) = maskStep zs S (n + 1) := rfl
      have hbody : maskLoop mat z ⟨0, fs 0, fun _ => true⟩ (n + 1) m2 = maskBody mat z ⟨S.lastIt, S.last, mask⟩ (n + 1) m' := by
        rw [maskLoop, mm_bind_ok h1]
      rw [hbody, hrun]
      unfold maskBody maskStep
      rw [bind_read]
      simp only [h7 (n + 1) hn]
      by_cases hc : (signiDiff S.last (S.row (n + 1)) && comparableMag S.last (S.row (n + 1))) = true
      · simp only [if_pos hc]
        set new := (S.last / (S.row (n + 1)).getD 0 - 1) / (zs (n + 1) - zs S.lastIt) with hnew
        set m3 := Mem.write m' mat (fun p => (p.1 : ℕ) = n + 1 ∧ (p.2 : ℕ) = n + 1) fun _ => some new with hm3
        have hu3 : Untouched m m3 := Untouched.write h3 haddr.ge _ _
        obtain ⟨m4, k1, k2, k3, k4⟩ := inner ⟨S.lastIt, S.last, mask⟩ (n + 1) (N - (n + 1 + 1)) m3 hu3 h4
          (show S.lastIt < n + 1 by omega) (by omega) (fun j hj => h6 j (by omega))
        have e3 : ∀ c d, elem2 (contents m3 mat) c d = if c = n + 1 ∧ d = n + 1 then some new else
            elem2 (contents m' mat) c d := fun c d => elem2_setElem _ _ hp _ _ hn hn _ c d
        have e4 : elem2 (contents m4 mat) (n + 1) (n + 1) = some new := by
          rw [k4, if_neg (by omega), e3, if_pos ⟨rfl, rfl⟩]
        refine ⟨m4, mask, ?_, h2, k2, k3, le_rfl, fun j hj => h6 j (by omega), ?_, ?_, ?_⟩
        · rw [bind_read, hz' _ h3 _ hn, hz' _ h3 _ (by omega), ← hnew]
          rw [mm_bind_ok (show setElem mat (n + 1) (n + 1) (some new) m' = (.ok (), m3) from rfl), mm_bind_ok k1, bind_read, e4]
          rfl
        · intro b hb
          rw [k4]
          simp only
          by_cases hb1 : b < n + 1
          · rw [if_neg (by omega), if_pos hb1, e3, if_neg (by omega), h9 _ (by omega) hn _ hb]
          · rw [if_neg hb1]
            by_cases hb2 : b = n + 1
            · subst hb2
              rw [if_neg (by omega), if_pos rfl, e3, if_pos ⟨rfl, rfl⟩]
            · rw [if_neg hb2, if_pos ⟨trivial, by omega, by omega⟩, e3, if_neg (by omega), h7 _ hb]
        · intro i hi
          rw [k4, if_neg (by omega), e3]
          by_cases hi' : i = n + 1
          · subst hi'
            rw [if_pos ⟨rfl, rfl⟩]
            simp
          · rw [if_neg (by omega), h8 i hi]
            simp [hi']
        · intro a ha ha' b hb
          rw [k4, if_neg (by omega), e3, if_neg (by omega)]
          exact h9 a (by omega) ha' b hb
      · simp only [if_neg hc]
        refine ⟨m', Function.update mask (n + 1) false, rfl, by rw [h2], h3, h4, by omega, fun j hj => ?_, h7, h8,
          fun a ha => h9 a (by omega)⟩
        rw [Function.update_of_ne (by omega)]
        exact h6 j (by omega)
  have hcall : maskedCoefficientsArr z f m = (if ¬ ‖fs 0‖ > maskCutoff then raise .assertionError
      else do
        let x ← read mat
        let _ ← maskLoop mat z ⟨0, (elem2 x 0 0).getD 0, fun _ => true⟩ (N - 1)
        let d ← read (⟨mat.addr, fun i => mat.pos (i, i)⟩ : Arr (Fin N))
        new d) m2 := by
    unfold maskedCoefficientsArr
    rw [bind_new, if_neg (by omega), bind_read, bind_assign, bind_read]
    rw [← hf0]
  unfold maskedCoefficients
  by_cases h0 : ¬ ‖fs 0‖ > maskCutoff
  · rw [if_pos h0]
    refine PureCall.of_error (m' := m2) ?_ hu2
    rw [hcall, if_pos h0]
    rfl
  rw [if_neg h0]
  by_cases hinj : Set.InjOn zs (Set.Iio N)
  swap
  · rw [if_neg hinj]
    exact hinj
  rw [if_pos hinj]
  obtain ⟨m', mask, h1, -, h3, h4, -, -, -, h8, -⟩ := outer (N - 1) (by omega)
  have hdiag : contents m' (⟨mat.addr, fun i => mat.pos (i, i)⟩ : Arr (Fin N)) =
      fun i : Fin N => some ((maskRun zs fs (N - 1)).diag i) := by
    funext i
    rw [← h8 i i.2]
    unfold elem2
    rw [dif_pos ⟨i.2, i.2⟩]
    rfl
  refine PureCall.of_ok (a := freshArr (Fin N) m') (m' := Mem.push m' fun i : Fin N => some ((maskRun zs fs (N - 1)).diag i))
    ?_ (Untouched.push h3 _) (by rw [freshArr_addr]; exact h3.1) (by rw [freshArr_addr, push_next]; omega) (freshArr_pos m')
    (contents_push_fresh _ _)
  rw [hcall, if_neg h0, bind_read, hstart 0 hN 0 hN, if_pos rfl]
  rw [Option.getD_some, mm_bind_ok h1, bind_read, hdiag]
  rfl

-- points and values are the same array `[1, 2]`
example : PureCall (maskedCoefficientsArr (N := 2) ⟨0, fun k => k⟩ ⟨0, fun k => k⟩)
    (⟨1, fun _ p => some (p + 1)⟩ : Mem (Option ℂ)) (.ok ![some 1, some (-1 / 2)]) := by
  have h := masked_coefficients_memory (N := 2) (⟨1, fun _ p => some (p + 1)⟩ : Mem (Option ℂ)) ⟨0, fun k => k⟩
    ⟨0, fun k => k⟩ (by norm_num) (by simp [Allocated]) (by simp [Allocated]) (fun k => k + 1) (fun k => k + 1)
    (fun k => rfl) (fun k => rfl)
  have hinj : Set.InjOn (fun k : ℕ => (k : ℂ) + 1) (Set.Iio 2) := fun a _ b _ hab => by
    exact_mod_cast add_right_cancel hab
  have h0 : ¬ ¬ ‖((0 : ℕ) : ℂ) + 1‖ > maskCutoff := by
    unfold maskCutoff
    norm_num
  have hc : (signiDiff 1 (some (1 + 1)) && comparableMag 1 (some (1 + 1))) = true := by
    unfold signiDiff comparableMag maskCutoff
    norm_num
  have hd : (fun i : Fin 2 => some ((maskRun (fun k => (k : ℂ) + 1) (fun k => (k : ℂ) + 1) (2 - 1)).diag i)) =
      ![some 1, some (-1 / 2)] := by
    simp only [maskRun, maskStep, maskInit, Nat.cast_zero, Nat.cast_one, zero_add, Nat.reduceSub, if_pos hc]
    funext i
    fin_cases i
    · simp
    · simp
      norm_num
  unfold maskedCoefficients at h
  rw [if_neg h0, if_pos hinj] at h
  simp only [hd] at h
  exact h

end Gftool.Props
