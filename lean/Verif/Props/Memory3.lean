import Verif.Model.InPlace3
import Verif.Props.Memory2

/-!
# Property C85: `tt2z_lin` in memory
-/

namespace Gftool.Props

open Gftool Model Lemmas Spec MM

variable {ι : Type} [Encodable ι]

lemma bind_pure_mm {E α β : Type} (a : α) (f : α → MM E β) (m : Mem E) : ((pure a : MM E α) >>= f) m = f a m := rfl

/-- C85: `tt2z_lin` changes no array of the caller, in particular neither the points `z`, in which zeros are replaced, nor
the Green's function; the result is the one at each point on its own. -/
theorem tt2z_lin_memory {n : ℕ} (m : Mem ℂ) (tt gfT : Arr (Fin n)) (z : Arr ι) (ht : Allocated m tt)
    (hg : Allocated m gfT) (hz : Allocated m z) (ts : ℕ → ℝ) (gs : ℕ → ℂ)
    (hts : ∀ k : Fin n, contents m tt k = ts k) (hgs : ∀ k : Fin n, contents m gfT k = gs k) :
    ∃ r, PureCall (tt2zLinArr tt gfT z) m r ∧
      match r with
      | .ok v => ∀ i, tt2zLin n ts gs (contents m z i) = .ok (v i)
      | .error e => ∀ x, tt2zLin n ts gs x = .error e := by
  classical
  unfold Allocated at ht hg hz
  have et : ∀ k < n, (nth (contents m tt) k).re = ts k := fun k hk => by
    unfold nth
    rw [dif_pos hk, hts, Complex.ofReal_re]
  have eg : ∀ k < n, nth (contents m gfT) k = gs k := fun k hk => by
    unfold nth
    rw [dif_pos hk, hgs]
  by_cases hn : n < 2
  · refine ⟨.error .indexError, PureCall.of_error (m' := m) ?_ (Untouched.refl m), fun x => ?_⟩
    · unfold tt2zLinArr
      rw [if_pos hn]
      rfl
    · unfold tt2zLin
      rw [if_pos hn]
  have heq : equidistant n (fun k => (nth (contents m tt) k).re) ↔ equidistant n ts := by
    unfold equidistant
    refine forall₂_congr fun k hk => ?_
    beta_reduce
    rw [et _ (by omega), et _ (by omega), et _ (by omega), et _ (by omega)]
  by_cases he : equidistant n ts
  swap
  · refine ⟨.error .valueError, PureCall.of_error (m' := m) ?_ (Untouched.refl m), fun x => ?_⟩
    · unfold tt2zLinArr
      rw [if_neg hn, bind_read]
      simp only
      rw [if_pos (by rw [heq]; exact he)]
      rfl
    · unfold tt2zLin
      rw [if_neg hn, if_pos he]
  have s1 : ∀ x : ℂ, ∑ k : Fin (n - 1), phase x (nth (contents m tt) k).re * nth (contents m gfT) k =
      ∑ k ∈ Finset.range (n - 1), phase x (ts k) * gs k := fun x => by
    rw [Finset.sum_range]
    exact Finset.sum_congr rfl fun k _ => by rw [et _ (by omega), eg _ (by omega)]
  have s2 : ∀ x : ℂ, ∑ k : Fin (n - 1), phase x (nth (contents m tt) k).re *
        (nth (contents m gfT) (k + 1) - nth (contents m gfT) k) =
      ∑ k ∈ Finset.range (n - 1), phase x (ts k) * (gs (k + 1) - gs k) := fun x => by
    rw [Finset.sum_range]
    exact Finset.sum_congr rfl fun k _ => by rw [et _ (by omega), eg _ (by omega), eg _ (by omega)]
  have s3 : ∑ k ∈ Finset.range (n - 1), (((nth (contents m tt) (k + 1)).re - (nth (contents m tt) k).re : ℝ) : ℂ) *
        (nth (contents m gfT) (k + 1) + nth (contents m gfT) k) / 2 =
      ∑ k ∈ Finset.range (n - 1), ((ts (k + 1) - ts k : ℝ) : ℂ) * (gs (k + 1) + gs k) / 2 :=
    Finset.sum_congr rfl fun k hk => by
      have := Finset.mem_range.1 hk
      rw [et _ (by omega), et _ (by omega), eg _ (by omega), eg _ (by omega)]
  have e0 := et 0 (by omega)
  have e1 := et 1 (by omega)
  have hval : ∀ i, ∃ y : ℂ, tt2zLin n ts gs (contents m z i) = .ok y := by
    intro i
    unfold tt2zLin
    rw [if_neg hn, if_neg (not_not.2 he)]
    by_cases h0 : contents m z i = 0
    · exact ⟨_, if_pos h0⟩
    · exact ⟨_, if_neg h0⟩
  choose v hv using hval
  refine ⟨.ok v, ?_, hv⟩
  unfold PureCall tt2zLinArr
  rw [if_neg hn]
  simp only [bind_read, if_neg (not_not.2 (heq.2 he))]
  by_cases h0 : ∃ i, contents m z i = 0
  · simp only [if_pos h0]
    mem_simp
    refine ⟨by untouched, by omega, by omega, freshArr_pos _, ?_⟩
    funext i
    have hi := hv i
    unfold tt2zLin at hi
    rw [if_neg hn, if_neg (not_not.2 he)] at hi
    by_cases hi0 : contents m z i = 0
    · rw [if_pos hi0] at hi
      rw [if_pos hi0, s3]
      exact Except.ok.inj hi
    · rw [if_neg hi0] at hi
      simp only [if_neg hi0, s1, s2, e0, e1]
      exact Except.ok.inj hi
  · simp only [if_neg h0, bind_pure_mm]
    mem_simp
    refine ⟨by untouched, by omega, by omega, freshArr_pos _, ?_⟩
    funext i
    have hi0 : contents m z i ≠ 0 := fun h => h0 ⟨i, h⟩
    have hi := hv i
    unfold tt2zLin at hi
    rw [if_neg hn, if_neg (not_not.2 he), if_neg hi0] at hi
    simp only [s1, s2, e0, e1]
    exact Except.ok.inj hi

-- all three arguments are the same array `[0, 1]`
example : ∃ v : Fin 2 → ℂ, PureCall (tt2zLinArr (n := 2) ⟨0, fun k => k⟩ ⟨0, fun k => k⟩ ⟨0, fun k : Fin 2 => k⟩)
    (⟨1, fun _ p => p⟩ : Mem ℂ) (.ok v) ∧ v 0 = 1 / 2 := by
  obtain ⟨r, h, hr⟩ := tt2z_lin_memory (n := 2) (⟨1, fun _ p => p⟩ : Mem ℂ) ⟨0, fun k => k⟩ ⟨0, fun k => k⟩
    ⟨0, fun k : Fin 2 => k⟩ (by simp [Allocated]) (by simp [Allocated]) (by simp [Allocated]) (fun k => k) (fun k => k)
    (fun k => by simp [contents]) (fun k => by simp [contents])
  have he : equidistant 2 (fun k => (k : ℝ)) := by
    intro k hk
    obtain rfl : k = 0 := by omega
    norm_num
  have h0 : tt2zLin 2 (fun k => k) (fun k => k) 0 = .ok (1 / 2) := by
    unfold tt2zLin
    rw [if_neg (by norm_num), if_neg (not_not.2 he), if_pos rfl]
    norm_num
  cases r with
  | error e => exact absurd (h0.symm.trans (hr 0)) (by simp)
  | ok v =>
    refine ⟨v, h, ?_⟩
    have h1 := hr 0
    rw [show contents (⟨1, fun _ p => p⟩ : Mem ℂ) (⟨0, fun k : Fin 2 => k⟩ : Arr (Fin 2)) 0 = 0 by simp [contents], h0] at h1
    exact (Except.ok.inj h1).symm

end Gftool.Props
