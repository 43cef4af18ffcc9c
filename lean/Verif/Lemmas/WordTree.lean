import Mathlib.Combinatorics.SimpleGraph.Acyclic
import Mathlib.Combinatorics.SimpleGraph.Finite
import Mathlib.Data.List.Chain
import Mathlib.Tactic

/-!
# The regular tree of reduced words

For every `Z` there is a tree whose vertices all have `Z` neighbours: the words without repeated consecutive letters in an
alphabet of `Z` letters.
-/

namespace Gftool.Lemmas

/-- Words without repeated consecutive letters. -/
abbrev Word (Z : ℕ) := {l : List (Fin Z) // l.IsChain (· ≠ ·)}

/-- Follow the edge with label `a`. -/
def Word.act {Z : ℕ} (a : Fin Z) : Word Z → Word Z
  | ⟨[], _⟩ => ⟨[a], by simp⟩
  | ⟨b :: l, h⟩ => if hab : a = b then ⟨l, h.tail⟩ else ⟨a :: b :: l, List.isChain_cons_cons.2 ⟨hab, h⟩⟩

lemma Word.act_cases {Z : ℕ} (a : Fin Z) (l : Word Z) : (l.act a).1 = a :: l.1 ∨ l.1 = a :: (l.act a).1 := by
  obtain ⟨l, h⟩ := l
  cases l with
  | nil => left; rfl
  | cons b l =>
    by_cases hab : a = b
    · right; subst hab; simp [Word.act]
    · left; simp [Word.act, hab]

lemma Word.act_of_cons {Z : ℕ} (a : Fin Z) {l m : Word Z} (h : m.1 = a :: l.1) : l.act a = m ∧ m.act a = l := by
  obtain ⟨l, hl⟩ := l
  obtain ⟨m, hm⟩ := m
  simp only at h
  subst h
  constructor
  · cases l with
    | nil => rfl
    | cons b l =>
      have : a ≠ b := (List.isChain_cons_cons.1 hm).1
      simp [Word.act, this]
  · simp [Word.act]

lemma Word.act_act {Z : ℕ} (a : Fin Z) (l : Word Z) : (l.act a).act a = l := by
  rcases Word.act_cases a l with h | h
  · exact (Word.act_of_cons a h).2
  · exact (Word.act_of_cons a h).1

lemma Word.act_inj {Z : ℕ} (l : Word Z) : Function.Injective fun a => l.act a := by
  intro a b h
  have h' : (l.act a).1 = (l.act b).1 := congrArg Subtype.val h
  rcases Word.act_cases a l with h1 | h1 <;> rcases Word.act_cases b l with h2 | h2
  · rw [h1, h2] at h'
    exact (List.cons.inj h').1
  · have := congrArg List.length h'
    rw [h1] at this
    have h3 := congrArg List.length h2
    simp at this h3
    omega
  · have := congrArg List.length h'
    rw [h2] at this
    have h3 := congrArg List.length h1
    simp at this h3
    omega
  · rw [h1, h'] at h2
    exact (List.cons.inj h2).1

/-- The tree of reduced words. -/
def wordTree (Z : ℕ) : SimpleGraph (Word Z) where
  Adj l m := ∃ a, l.act a = m
  symm := ⟨by
    rintro l m ⟨a, rfl⟩
    exact ⟨a, Word.act_act a l⟩⟩
  loopless := ⟨by
    rintro l ⟨a, h⟩
    have h' : (l.act a).1 = l.1 := congrArg Subtype.val h
    rcases Word.act_cases a l with h1 | h1
    · rw [h'] at h1
      exact List.cons_ne_self a l.1 h1.symm
    · rw [h'] at h1
      exact List.cons_ne_self a l.1 h1.symm⟩

instance (Z : ℕ) : (wordTree Z).LocallyFinite := fun l =>
  Fintype.ofFinset (Finset.univ.image fun a => l.act a) (by
    intro m
    simp [wordTree, SimpleGraph.neighborSet])

lemma wordTree_regular (Z : ℕ) : (wordTree Z).IsRegularOfDegree Z := by
  intro l
  rw [← SimpleGraph.card_neighborFinset_eq_degree]
  have : (wordTree Z).neighborFinset l = Finset.univ.image fun a => l.act a := by
    ext m
    rw [SimpleGraph.mem_neighborFinset]
    simp [wordTree]
  rw [this, Finset.card_image_of_injective _ (Word.act_inj l), Finset.card_univ, Fintype.card_fin]

lemma wordTree_reach (Z : ℕ) : ∀ l : Word Z, (wordTree Z).Reachable l ⟨[], by simp⟩ := by
  rintro ⟨l, h⟩
  induction l with
  | nil => exact SimpleGraph.Reachable.refl _
  | cons a l ih =>
    refine SimpleGraph.Reachable.trans (SimpleGraph.Adj.reachable ?_) (ih h.tail)
    exact ⟨a, (Word.act_of_cons a (l := ⟨l, h.tail⟩) (m := ⟨a :: l, h⟩) rfl).2⟩

lemma wordTree_isTree (Z : ℕ) : (wordTree Z).IsTree := by
  have : Nonempty (Word Z) := ⟨⟨[], by simp⟩⟩
  refine ⟨⟨fun l m => (wordTree_reach Z l).trans (wordTree_reach Z m).symm⟩, ?_⟩
  rw [SimpleGraph.isAcyclic_iff_forall_adj_isBridge]
  have key : ∀ (a : Fin Z) (l m : Word Z), m.1 = a :: l.1 → (wordTree Z).IsBridge s(l, m) := by
    intro a l m h
    rw [SimpleGraph.isBridge_iff]
    intro hr
    have hinv : ∀ u w : Word Z, ((wordTree Z).deleteEdges {s(l, m)}).Reachable u w → m.1 <:+ w.1 → m.1 <:+ u.1 := by
      rintro u w ⟨p⟩
      induction p with
      | nil => exact id
      | @cons u v w huv p ih =>
        intro hw
        have hv := ih hw
        rw [SimpleGraph.deleteEdges_adj] at huv
        obtain ⟨⟨b, hb⟩, hne⟩ := huv
        rw [← hb] at hv
        rcases Word.act_cases b u with h1 | h1
        · rw [h1, List.suffix_cons_iff] at hv
          rcases hv with hv | hv
          · exfalso
            apply hne
            rw [h] at hv
            have e1 : u = l := Subtype.ext (List.cons.inj hv).2.symm
            have e2 : v = m := by
              rw [← hb]
              apply Subtype.ext
              rw [h1, h, hv]
            rw [e1, e2]
            rfl
          · exact hv
        · rw [h1]
          exact hv.trans (List.suffix_cons _ _)
    have := (hinv _ _ hr (List.suffix_refl _)).length_le
    rw [h] at this
    simp at this
  rintro l m ⟨a, rfl⟩
  rcases Word.act_cases a l with h | h
  · exact key a l _ h
  · rw [Sym2.eq_swap]
    exact key a _ l h

end Gftool.Lemmas
