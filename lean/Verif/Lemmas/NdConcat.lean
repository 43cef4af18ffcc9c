import Verif.Model.StackFitZ
import Verif.Lemmas.Nd

/-!
# Concatenations of arrays, in-place operations
-/

namespace Gftool.Lemmas

open Model Spec

variable {α β : Type}

lemma Rep.at_eq {a : Nd α} {s : Option (List ℕ)} {F : List ℕ → α} (h : Rep (.ok a) s F) (i : List ℕ) : a.at i = F i := by
  cases s with
  | none => cases h
  | some t =>
    obtain ⟨b, h1, h2, h3⟩ := h
    cases h1
    rw [Nd.at, h2, h3]

lemma Rep.dims_eq {a : Nd α} {s : List ℕ} {F : List ℕ → α} (h : Rep (.ok a) (some s) F) : a.dims = s := by
  obtain ⟨b, h1, h2, h3⟩ := h
  cases h1
  exact h2

lemma at_proj (a : Nd α) (i : List ℕ) : a.at (proj a.dims i) = a.at i := by rw [Nd.at, Nd.at, proj_self]

lemma at_of_bcast {a : Nd α} {b s : List ℕ} (h : bcast a.dims b = some s) (i : List ℕ) : a.at (proj s i) = a.at i := by
  rw [Nd.at, Nd.at, proj_proj_left h]

lemma Rep.imap2' {a : Nd α} {b : Nd β} {sa sb : Option (List ℕ)} {Fa : List ℕ → α} {Fb : List ℕ → β}
    (ha : Rep (.ok a) sa Fa) (hb : Rep (.ok b) sb Fb) (hs : bc sa sb = sa) (f : α → β → α) :
    Rep (Nd.imap2 f a b) sa fun i => f (Fa i) (Fb i) := by
  have h := Rep.map2' ha hb f
  rw [hs] at h
  cases sa with
  | none => cases ha
  | some t =>
    have hd := ha.dims_eq
    obtain ⟨c, h1, h2, h3⟩ := h
    unfold Nd.map2 at h1
    refine ⟨c, ?_, h2, h3⟩
    unfold Nd.imap2
    cases hb : bcast a.dims b.dims with
    | none => rw [hb] at h1; cases h1
    | some s =>
      rw [hb] at h1
      have h1 := Except.ok.inj h1
      have : s = a.dims := by rw [hd, ← h2, ← h1]
      simp only [if_pos this]
      rw [h1]

private lemma two_ne_one (n : ℕ) : n + n ≠ 1 := by omega

lemma Rep.reim' {a : Nd ℂ} {n : ℕ} {s : Option (List ℕ)} {F : List ℕ → ℂ} (h : Rep (.ok a) (s.map (n :: ·)) F) :
    Rep a.reim (s.map ((n + n) :: ·)) fun i =>
      if i.headD 0 < n then (F i).re else (F ((i.headD 0 - n) :: i.tail)).im := by
  cases s with
  | none => cases h
  | some t =>
    have hd : a.dims = n :: t := h.dims_eq
    have hp : ∀ (k : ℕ) i, a.at (k :: proj t i) = F (k :: i) := by
      intro k i
      rw [← h.at_eq, ← at_proj a (k :: proj t i), ← at_proj a (k :: i), hd, proj_cons, proj_cons]
      simp only [List.headD_cons, List.tail_cons, proj_self]
    have hp' : ∀ i, a.at (i.headD 0 :: proj t i.tail) = F i := by
      intro i
      rw [← h.at_eq, ← at_proj a (i.headD 0 :: proj t i.tail), ← at_proj a i, hd, proj_cons, proj_cons]
      simp only [List.headD_cons, List.tail_cons, proj_self]
    unfold Nd.reim
    rw [hd]
    refine ⟨_, rfl, rfl, fun i => ?_⟩
    rw [proj_cons, if_neg (two_ne_one n)]
    simp only [List.headD_cons, List.tail_cons]
    rw [hp', hp]
    by_cases hc : i.headD 0 < n
    · rw [if_pos hc]
      exact if_pos hc
    · rw [if_neg hc]
      exact if_neg hc

lemma Rep.twice' {a : Nd ℝ} {n : ℕ} {s : Option (List ℕ)} {F : List ℕ → ℝ} (h : Rep (.ok a) (s.map (n :: ·)) F) :
    Rep a.twice (s.map ((n + n) :: ·)) fun i =>
      if i.headD 0 < n then F i else F ((i.headD 0 - n) :: i.tail) := by
  cases s with
  | none => cases h
  | some t =>
    have hd : a.dims = n :: t := h.dims_eq
    have hp : ∀ (k : ℕ) i, a.at (k :: proj t i) = F (k :: i) := by
      intro k i
      rw [← h.at_eq, ← at_proj a (k :: proj t i), ← at_proj a (k :: i), hd, proj_cons, proj_cons]
      simp only [List.headD_cons, List.tail_cons, proj_self]
    have hp' : ∀ i, a.at (i.headD 0 :: proj t i.tail) = F i := by
      intro i
      rw [← h.at_eq, ← at_proj a (i.headD 0 :: proj t i.tail), ← at_proj a i, hd, proj_cons, proj_cons]
      simp only [List.headD_cons, List.tail_cons, proj_self]
    unfold Nd.twice
    rw [hd]
    refine ⟨_, rfl, rfl, fun i => ?_⟩
    rw [proj_cons, if_neg (two_ne_one n)]
    simp only [List.headD_cons, List.tail_cons]
    rw [hp', hp]
    by_cases hc : i.headD 0 < n
    · rw [if_pos hc]
      exact if_pos hc
    · rw [if_neg hc]
      exact if_neg hc

lemma Rep.reim2' {a : Nd ℂ} {m n : ℕ} {s : Option (List ℕ)} {F : List ℕ → ℂ}
    (h : Rep (.ok a) ((s.map (n :: ·)).map (m :: ·)) F) :
    Rep a.reim2 ((s.map ((n + n) :: ·)).map (m :: ·)) fun i =>
      if i.tail.headD 0 < n then (F i).re else (F (i.headD 0 :: (i.tail.headD 0 - n) :: i.tail.tail)).im := by
  cases s with
  | none => cases h
  | some t =>
    have hd : a.dims = m :: n :: t := h.dims_eq
    have hp : ∀ (i : List ℕ) (k : ℕ), a.at ((if m = 1 then 0 else i.headD 0) :: k :: proj t i.tail.tail)
        = F (i.headD 0 :: k :: i.tail.tail) := by
      intro i k
      rw [← h.at_eq, ← at_proj a (_ :: _), ← at_proj a (i.headD 0 :: k :: _), hd]
      simp only [proj_cons, List.headD_cons, List.tail_cons, proj_self]
      congr 2
      split_ifs <;> rfl
    have hp' : ∀ i : List ℕ, a.at ((if m = 1 then 0 else i.headD 0) :: i.tail.headD 0 :: proj t i.tail.tail) = F i := by
      intro i
      rw [← h.at_eq, ← at_proj a (_ :: _), ← at_proj a i, hd]
      simp only [proj_cons, List.headD_cons, List.tail_cons, proj_self]
      congr 2
      split_ifs <;> rfl
    unfold Nd.reim2
    rw [hd]
    refine ⟨_, rfl, rfl, fun i => ?_⟩
    rw [proj_cons, proj_cons, if_neg (two_ne_one n)]
    simp only [List.headD_cons, List.tail_cons]
    rw [hp', hp]
    by_cases hc : i.tail.headD 0 < n
    · rw [if_pos hc]
      exact if_pos hc
    · rw [if_neg hc]
      exact if_neg hc

end Gftool.Lemmas
