import Verif.Spec.Stack
import Verif.Model.Stack
import Mathlib.Data.List.DropRight
import Mathlib.Tactic

/-!
# Broadcasting calculus
-/

namespace Gftool.Lemmas

open Model Spec

variable {α β γ : Type}

@[simp] lemma bdim_self (n : ℕ) : bdim n n = some n := by simp [bdim]
@[simp] lemma bdim_one_left (n : ℕ) : bdim 1 n = some n := by unfold bdim; split_ifs <;> simp_all
@[simp] lemma bdim_one_right (n : ℕ) : bdim n 1 = some n := by unfold bdim; split_ifs <;> simp_all

lemma bdim_comm (n m : ℕ) : bdim n m = bdim m n := by
  unfold bdim
  split_ifs <;> simp_all

lemma bdim_some {n m k : ℕ} (h : bdim n m = some k) : (n = k ∨ n = 1) ∧ (m = k ∨ m = 1) := by
  unfold bdim at h
  split_ifs at h <;> simp_all

@[simp] lemma bcast_nil_left (a : List ℕ) : bcast [] a = some a := by cases a <;> rfl
@[simp] lemma bcast_nil_right (a : List ℕ) : bcast a [] = some a := by cases a <;> rfl

lemma bcast_cons (n m : ℕ) (a b : List ℕ) :
    bcast (n :: a) (m :: b) = (bdim n m).bind fun k => (bcast a b).map (k :: ·) := by
  rw [bcast]
  cases bdim n m <;> cases bcast a b <;> rfl

lemma bcast_comm : ∀ a b : List ℕ, bcast a b = bcast b a
  | [], b => by simp
  | a :: l, [] => by simp
  | a :: l, b :: m => by rw [bcast_cons, bcast_cons, bdim_comm, bcast_comm l m]

@[simp] lemma bcast_self : ∀ a : List ℕ, bcast a a = some a
  | [] => rfl
  | n :: a => by simp [bcast_cons, bcast_self a]

/-- Lifted broadcasting of possibly failed shapes. -/
def bc (a b : Option (List ℕ)) : Option (List ℕ) := a.bind fun x => b.bind fun y => bcast x y

lemma bc_some (a b : List ℕ) : bc (some a) (some b) = bcast a b := rfl
@[simp] lemma bc_none_left (a : Option (List ℕ)) : bc none a = none := rfl
@[simp] lemma bc_none_right (a : Option (List ℕ)) : bc a none = none := by cases a <;> rfl
@[simp] lemma bc_nil_left (a : Option (List ℕ)) : bc (some []) a = a := by cases a <;> simp [bc]
@[simp] lemma bc_nil_right (a : Option (List ℕ)) : bc a (some []) = a := by cases a <;> simp [bc]
@[simp] lemma bc_self (a : Option (List ℕ)) : bc a a = a := by cases a <;> simp [bc]

lemma bc_comm (a b : Option (List ℕ)) : bc a b = bc b a := by
  cases a <;> cases b <;> simp [bc, bcast_comm]

lemma bdim_assoc (a b c : ℕ) : ((bdim a b).bind fun x => bdim x c) = (bdim b c).bind fun x => bdim a x := by
  unfold bdim
  split_ifs <;> simp_all [bdim] <;> split_ifs <;> simp_all <;> omega

private lemma cons_bind_left (o1 : Option ℕ) (o2 : Option (List ℕ)) (c : ℕ) (n : List ℕ) :
    ((o1.bind fun k => o2.map (k :: ·)).bind fun x => bcast x (c :: n))
      = (o1.bind fun x => bdim x c).bind fun k => (o2.bind fun x => bcast x n).map (k :: ·) := by
  cases o1 <;> cases o2 <;> simp [bcast_cons]

private lemma cons_bind_right (o1 : Option ℕ) (o2 : Option (List ℕ)) (c : ℕ) (n : List ℕ) :
    ((o1.bind fun k => o2.map (k :: ·)).bind fun x => bcast (c :: n) x)
      = (o1.bind fun x => bdim c x).bind fun k => (o2.bind fun x => bcast n x).map (k :: ·) := by
  cases o1 <;> cases o2 <;> simp [bcast_cons]

lemma bcast_assoc : ∀ a b c : List ℕ, ((bcast a b).bind fun x => bcast x c) = (bcast b c).bind fun x => bcast a x
  | [], b, c => by simp
  | a :: l, [], c => by simp
  | a :: l, b :: m, [] => by
    simp only [bcast_nil_right, Option.bind_some]
    cases bcast (a :: l) (b :: m) <;> simp
  | a :: l, b :: m, c :: n => by
    rw [bcast_cons, bcast_cons, cons_bind_left, cons_bind_right, bdim_assoc, bcast_assoc l m n]

lemma bc_assoc (a b c : Option (List ℕ)) : bc (bc a b) c = bc a (bc b c) := by
  cases a <;> cases b <;> cases c <;> simp [bc, bcast_assoc]

lemma bcastAll_nil : bcastAll [] = some [] := rfl
lemma bcastAll_cons (a : List ℕ) (l : List (List ℕ)) : bcastAll (a :: l) = bc (some a) (bcastAll l) := by
  rw [bcastAll]
  cases bcastAll l <;> rfl

/-- Broadcasting with a shape split into last and leading axes. -/
lemma bc_cons (n : ℕ) (a : Option (List ℕ)) (d : List ℕ) {m : ℕ} (h : bdim n (d.headD 1) = some m) :
    bc (a.map (n :: ·)) (some d) = (bc a (some d.tail)).map (m :: ·) := by
  cases a with
  | none => rfl
  | some a =>
    cases d with
    | nil =>
      simp only [List.headD_nil, bdim_one_right, Option.some.injEq] at h
      subst h
      simp
    | cons k d =>
      simp only [List.headD_cons] at h
      simp [bc_some, bcast_cons, h]

lemma bc_cons_fail (n : ℕ) (a : Option (List ℕ)) (d : List ℕ) (h : bdim n (d.headD 1) = none) :
    bc (a.map (n :: ·)) (some d) = none := by
  cases a with
  | none => rfl
  | some a =>
    cases d with
    | nil => simp at h
    | cons k d =>
      simp only [List.headD_cons] at h
      simp [bc_some, bcast_cons, h]

@[simp] lemma proj_nil (i : List ℕ) : proj [] i = [] := rfl

lemma proj_cons (n : ℕ) (d : List ℕ) (i : List ℕ) :
    proj (n :: d) i = (if n = 1 then 0 else i.headD 0) :: proj d i.tail := rfl

lemma proj_inRange : ∀ {d i : List ℕ}, InRange i d → proj d i = i
  | [], [], _ => rfl
  | n :: d, k :: i, h => by
    rw [InRange, List.forall₂_cons] at h
    rw [proj_cons, List.headD_cons, List.tail_cons, proj_inRange h.2]
    split_ifs with h1
    · have := h.1
      congr 1
      omega
    · rfl

lemma proj_proj_left : ∀ {a b s : List ℕ}, bcast a b = some s → ∀ i, proj a (proj s i) = proj a i
  | [], b, s, _, i => rfl
  | n :: a, [], s, h, i => by
    rw [bcast_nil_right, Option.some.injEq] at h
    subst h
    rw [proj_cons, proj_cons, List.headD_cons, List.tail_cons]
    rw [proj_proj_left (a := a) (b := []) (by simp)]
    split_ifs <;> rfl
  | n :: a, m :: b, s, h, i => by
    rw [bcast_cons] at h
    cases hk : bdim n m with
    | none => simp [hk] at h
    | some k =>
      cases hc : bcast a b with
      | none => simp [hk, hc] at h
      | some c =>
        simp only [hk, hc, Option.map_some, Option.bind_some, Option.some.injEq] at h
        subst h
        rw [proj_cons, proj_cons, proj_cons, List.headD_cons, List.tail_cons, proj_proj_left hc]
        congr 1
        rcases (bdim_some hk).1 with h | h
        · subst h
          split_ifs <;> rfl
        · simp [h]

lemma proj_proj_right {a b s : List ℕ} (h : bcast a b = some s) (i : List ℕ) : proj b (proj s i) = proj b i :=
  proj_proj_left (by rw [bcast_comm, h]) i

lemma proj_self (a i : List ℕ) : proj a (proj a i) = proj a i := proj_proj_left (b := []) (by simp) i

/-- `r` is an array of shape `s` whose broadcast elements are given by `F`. -/
def Rep (r : Except Err (Nd α)) (s : Option (List ℕ)) (F : List ℕ → α) : Prop :=
  match s with
  | none => r = .error .valueError
  | some t => ∃ a, r = .ok a ∧ a.dims = t ∧ ∀ i, a.get (proj t i) = F i

lemma Rep.stacked {r : Except Err (Nd α)} {s : Option (List ℕ)} {F : List ℕ → α} (h : Rep r s F) : Stacked r s F := by
  cases s with
  | none => exact h
  | some t =>
    obtain ⟨a, h1, h2, h3⟩ := h
    exact ⟨a, h1, h2, fun i hi => by rw [← h3, proj_inRange hi]⟩

lemma Rep.stackedOk {r : Except Err (Nd α)} {s : Option (List ℕ)} {F : List ℕ → α} (h : Rep r s F)
    {G : List ℕ → Except Err α} (hG : ∀ t, s = some t → ∀ i, InRange i t → G i = .ok (F i)) : StackedOk r s G := by
  cases s with
  | none => exact h
  | some t =>
    obtain ⟨a, h1, h2, h3⟩ := h
    exact ⟨a, h1, h2, fun i hi => by rw [hG t rfl i hi, ← h3, proj_inRange hi]⟩

lemma Rep.of (a : Nd α) : Rep (.ok a) (some a.dims) a.at := ⟨a, rfl, rfl, fun _ => rfl⟩

lemma Rep.congr {r : Except Err (Nd α)} {s s' : Option (List ℕ)} {F F' : List ℕ → α} (h : Rep r s F) (hs : s = s')
    (hF : ∀ i, F i = F' i) : Rep r s' F' := by
  rw [← funext hF, ← hs]
  exact h

lemma Rep.map {r : Except Err (Nd α)} {s : Option (List ℕ)} {F : List ℕ → α} (h : Rep r s F) (f : α → β) :
    Rep (r >>= fun a => .ok (a.map f)) s fun i => f (F i) := by
  cases s with
  | none =>
    rw [show r = _ from h]
    rfl
  | some t =>
    obtain ⟨a, rfl, h2, h3⟩ := h
    exact ⟨_, rfl, h2, fun i => congrArg f (h3 i)⟩

lemma Rep.map2 {ra : Except Err (Nd α)} {rb : Except Err (Nd β)} {sa sb : Option (List ℕ)} {Fa : List ℕ → α}
    {Fb : List ℕ → β} (ha : Rep ra sa Fa) (hb : Rep rb sb Fb) (f : α → β → γ) :
    Rep (ra >>= fun a => rb >>= fun b => Nd.map2 f a b) (bc sa sb) fun i => f (Fa i) (Fb i) := by
  cases sa with
  | none =>
    rw [show ra = _ from ha]
    rfl
  | some ta =>
    obtain ⟨a, rfl, rfl, h3⟩ := ha
    cases sb with
    | none =>
      rw [show rb = _ from hb]
      rfl
    | some tb =>
      obtain ⟨b, rfl, rfl, h4⟩ := hb
      rw [bc_some]
      change Rep (Nd.map2 f a b) _ _
      unfold Nd.map2
      cases hs : bcast a.dims b.dims with
      | none => rfl
      | some s =>
        refine ⟨_, rfl, rfl, fun i => ?_⟩
        simp only [Nd.at]
        rw [proj_proj_left hs, proj_proj_right hs, h3, h4]

lemma Rep.newaxis {r : Except Err (Nd α)} {s : Option (List ℕ)} {F : List ℕ → α} (h : Rep r s F) :
    Rep (r >>= fun a => .ok a.newaxis) (s.map (1 :: ·)) fun i => F i.tail := by
  cases s with
  | none =>
    rw [show r = _ from h]
    rfl
  | some t =>
    obtain ⟨a, rfl, h2, h3⟩ := h
    exact ⟨_, rfl, congrArg (1 :: ·) h2, fun i => h3 i.tail⟩

lemma Rep.sum [AddCommMonoid α] {r : Except Err (Nd α)} {n : ℕ} {s : Option (List ℕ)} {F : List ℕ → α}
    (h : Rep r (s.map (n :: ·)) F) :
    Rep (r >>= fun a => .ok a.sum) s fun i => ∑ k ∈ Finset.range n, F (k :: i) := by
  cases s with
  | none =>
    rw [show r = _ from h]
    rfl
  | some t =>
    obtain ⟨a, rfl, h2, h3⟩ := h
    simp only at h2
    refine ⟨_, rfl, ?_, fun i => ?_⟩
    · simp only [Nd.sum, h2]
    · have : a.sum = (⟨t, fun i => ∑ k ∈ Finset.range n, a.get (k :: i)⟩ : Nd α) := by simp only [Nd.sum, h2]
      rw [this]
      simp only
      refine Finset.sum_congr rfl fun k hk => ?_
      rw [← h3, proj_cons, List.headD_cons, List.tail_cons]
      split_ifs with h1
      · have := Finset.mem_range.1 hk
        rw [show k = 0 by omega]
      · rfl

lemma Nd.atleast1d_dims (a : Nd α) : a.atleast1d.dims = a.dims.headD 1 :: a.dims.tail := by
  unfold Nd.atleast1d
  split <;> simp_all

lemma Nd.atleast1d_at (a : Nd α) (i : List ℕ) : a.atleast1d.at i = a.at i := by
  unfold Nd.at Nd.atleast1d
  split
  · next h => rw [h]; rfl
  · next h => rfl

lemma bc_left_comm (a b c : Option (List ℕ)) : bc a (bc b c) = bc b (bc a c) := by
  rw [← bc_assoc, bc_comm a b, bc_assoc]

@[simp] lemma bc_absorb (a b : Option (List ℕ)) : bc a (bc a b) = bc a b := by rw [← bc_assoc, bc_self]

lemma bc_eq_none_left {a b : Option (List ℕ)} (h : a = none) : bc a b = none := by simp [h]

lemma bc_map_cons {n m k : ℕ} (h : bdim n m = some k) (a b : Option (List ℕ)) :
    bc (a.map (n :: ·)) (b.map (m :: ·)) = (bc a b).map (k :: ·) := by
  cases a <;> cases b <;> simp [bc, bcast_cons, h]

lemma bc_map_cons_fail {n m : ℕ} (h : bdim n m = none) (a b : Option (List ℕ)) :
    bc (a.map (n :: ·)) (b.map (m :: ·)) = none := by
  cases a <;> cases b <;> simp [bc, bcast_cons, h]

lemma bcastAll_one (a : List ℕ) : bcastAll [a] = some a := by rw [bcastAll_cons, bcastAll_nil, bc_nil_right]

/-- The elements of the broadcast array come from elements of the arguments. -/
lemma proj_mem_left : ∀ {a b s : List ℕ}, bcast a b = some s → ∀ {i}, InRange i s → InRange (proj a i) a
  | [], _, _, _, _, _ => List.Forall₂.nil
  | n :: a, [], s, h, i, hi => by
    rw [bcast_nil_right, Option.some.injEq] at h
    subst h
    rwa [proj_inRange hi]
  | n :: a, m :: b, s, h, i, hi => by
    rw [bcast_cons] at h
    cases hk : bdim n m with
    | none => simp [hk] at h
    | some k =>
      cases hc : bcast a b with
      | none => simp [hk, hc] at h
      | some c =>
        simp only [hk, hc, Option.map_some, Option.bind_some, Option.some.injEq] at h
        subst h
        cases hi with
        | cons h1 h2 =>
          rw [proj_cons]
          refine List.Forall₂.cons ?_ (proj_mem_left hc h2)
          rcases (bdim_some hk).1 with h | h
          · subst h
            split_ifs
            · omega
            · exact h1
          · simp [h]

lemma Rep.bind {r : Except Err (Nd α)} {k : Nd α → Except Err (Nd β)} {s s' : Option (List ℕ)} {F : List ℕ → α}
    {F' : List ℕ → β} (h : Rep r s F) (hs : s = none → s' = none) (hk : ∀ a, Rep (.ok a) s F → Rep (k a) s' F') :
    Rep (r >>= k) s' F' := by
  cases s with
  | none =>
    rw [show r = _ from h, hs rfl]
    rfl
  | some t =>
    obtain ⟨a, rfl, h2, h3⟩ := h
    exact hk a ⟨a, rfl, h2, h3⟩

lemma Rep.bindC {r : Except Err (Nd α)} {k : Nd α → Except Err (Nd β)} {s s' : Option (List ℕ)} {n : ℕ} {F : List ℕ → α}
    {F' : List ℕ → β} (h : Rep r (s.map (n :: ·)) F) (hs : bc s s' = s')
    (hk : ∀ a, Rep (.ok a) (s.map (n :: ·)) F → Rep (k a) s' F') : Rep (r >>= k) s' F' :=
  h.bind (fun h => by
    rw [Option.map_eq_none_iff] at h
    rw [← hs, h, bc_none_left]) hk

lemma Rep.bindA {r : Except Err (Nd α)} {k : Nd α → Except Err (Nd β)} {s s' : Option (List ℕ)} {F : List ℕ → α}
    {F' : List ℕ → β} (h : Rep r s F) (hs : bc s s' = s')
    (hk : ∀ a, Rep (.ok a) s F → Rep (k a) s' F') : Rep (r >>= k) s' F' :=
  h.bind (fun h => by rw [← hs, h, bc_none_left]) hk

lemma Rep.map2' {a : Nd α} {b : Nd β} {sa sb : Option (List ℕ)} {Fa : List ℕ → α} {Fb : List ℕ → β}
    (ha : Rep (.ok a) sa Fa) (hb : Rep (.ok b) sb Fb) (f : α → β → γ) :
    Rep (Nd.map2 f a b) (bc sa sb) fun i => f (Fa i) (Fb i) := Rep.map2 ha hb f

lemma Rep.map' {a : Nd α} {s : Option (List ℕ)} {F : List ℕ → α} (h : Rep (.ok a) s F) (f : α → β) :
    Rep (.ok (a.map f)) s fun i => f (F i) := Rep.map h f

lemma Rep.newaxis' {a : Nd α} {s : Option (List ℕ)} {F : List ℕ → α} (h : Rep (.ok a) s F) :
    Rep (.ok a.newaxis) (s.map (1 :: ·)) fun i => F i.tail := Rep.newaxis h

lemma Rep.sum' [AddCommMonoid α] {a : Nd α} {n : ℕ} {s : Option (List ℕ)} {F : List ℕ → α}
    (h : Rep (.ok a) (s.map (n :: ·)) F) :
    Rep (.ok a.sum) s fun i => ∑ k ∈ Finset.range n, F (k :: i) := Rep.sum h

lemma Rep.atleast1d (a : Nd α) : Rep (.ok a.atleast1d) ((some a.dims.tail).map (a.dims.headD 1 :: ·)) a.at :=
  (Rep.of a.atleast1d).congr (by rw [Nd.atleast1d_dims]; rfl) (Nd.atleast1d_at a)

lemma Rep.ofCons {a : Nd α} {n : ℕ} {s : List ℕ} (h : a.dims = n :: s) :
    Rep (.ok a) ((some s).map (n :: ·)) a.at :=
  (Rep.of a).congr (by rw [h]; rfl) fun _ => rfl

open scoped Classical in
lemma Rep.where' {c : Nd Prop} {a b : Nd α} {sc sa sb : Option (List ℕ)} {Fc : List ℕ → Prop} {Fa Fb : List ℕ → α}
    (hc : Rep (.ok c) sc Fc) (ha : Rep (.ok a) sa Fa) (hb : Rep (.ok b) sb Fb) :
    Rep (Nd.select3 c a b) (bc sc (bc sa sb)) fun i => if Fc i then Fa i else Fb i := by
  unfold Nd.select3
  refine Rep.bind (Rep.map2' ha hb Prod.mk) (fun h => by rw [h, bc_none_right]) fun p hp => ?_
  exact Rep.map2' hc hp _

lemma bcast_tail {a b : List ℕ} {N : ℕ} (h : bdim (a.headD 1) (b.headD 1) = some N) :
    (bcast a b = none → bcast a.tail b.tail = none) ∧
      ∀ s, bcast a b = some s → bcast a.tail b.tail = some s.tail ∧ s.headD 1 = N := by
  cases a with
  | nil =>
    simp only [List.headD_nil, bdim_one_left, Option.some.injEq] at h
    refine ⟨fun h' => by simp at h', fun s hs => ?_⟩
    simp only [bcast_nil_left, Option.some.injEq] at hs
    subst hs
    exact ⟨by simp, h⟩
  | cons n a =>
    cases b with
    | nil =>
      simp only [List.headD_nil, bdim_one_right, Option.some.injEq] at h
      refine ⟨fun h' => by simp at h', fun s hs => ?_⟩
      simp only [bcast_nil_right, Option.some.injEq] at hs
      subst hs
      exact ⟨by simp, h⟩
    | cons m b =>
      simp only [List.headD_cons] at h
      rw [bcast_cons, h]
      simp only [Option.bind_some, List.tail_cons, Option.map_eq_none_iff, Option.map_eq_some_iff, forall_exists_index,
        and_imp]
      refine ⟨id, ?_⟩
      rintro s t ht rfl
      exact ⟨ht, rfl⟩

lemma Rep.broadcast {a : Nd α} {s : List ℕ} (h : ∀ i, proj a.dims (proj s i) = proj a.dims i) :
    Rep (.ok (a.broadcastTo s).atleast1d) ((some s.tail).map (s.headD 1 :: ·)) a.at :=
  (Rep.atleast1d (a.broadcastTo s)).congr rfl fun i => congrArg a.get (h i)

lemma Rep.newaxis2' {a : Nd α} {n : ℕ} {s : Option (List ℕ)} {F : List ℕ → α} (h : Rep (.ok a) (s.map (n :: ·)) F) :
    Rep a.newaxis2 ((s.map (1 :: ·)).map (n :: ·)) fun i => F (i.headD 0 :: i.tail.tail) := by
  cases s with
  | none => cases h
  | some t =>
    obtain ⟨a, h1, h2, h3⟩ := h
    cases h1
    simp only at h2
    refine ⟨⟨n :: 1 :: t, fun i => a.get (i.headD 0 :: i.tail.tail)⟩, by simp only [Nd.newaxis2, h2], rfl, fun i => ?_⟩
    exact h3 (i.headD 0 :: i.tail.tail)

lemma Rep.slice' {a : Nd α} {n : ℕ} {s : Option (List ℕ)} {F : List ℕ → α} (h : Rep (.ok a) (s.map (n :: ·)) F) (hn : n ≠ 1)
    (m : ℕ) (f : ℕ → ℕ) :
    Rep (a.slice m f) (s.map (m :: ·)) fun i => F (f (if m = 1 then 0 else i.headD 0) :: i.tail) := by
  cases s with
  | none => cases h
  | some t =>
    obtain ⟨a, h1, h2, h3⟩ := h
    cases h1
    simp only at h2
    refine ⟨⟨m :: t, fun i => a.get (f (i.headD 0) :: i.tail)⟩, by simp only [Nd.slice, h2], rfl, fun i => ?_⟩
    simp only
    rw [← h3, proj_cons, proj_cons, if_neg hn]
    rfl

lemma Rep.select' {a : Nd α} {n : ℕ} {s : Option (List ℕ)} {F : List ℕ → α} (h : Rep (.ok a) (s.map (n :: ·)) F)
    {k : ℕ} (hk : k < n) : Rep (a.select k) s fun i => F (k :: i) := by
  cases s with
  | none => cases h
  | some t =>
    obtain ⟨a, h1, h2, h3⟩ := h
    cases h1
    simp only at h2
    refine ⟨⟨t, fun i => a.get (k :: i)⟩, by simp only [Nd.select, h2, if_pos hk], rfl, fun i => ?_⟩
    simp only
    rw [← h3, proj_cons, show (if n = 1 then 0 else (k :: i).headD 0) = k by
      split_ifs with h
      · omega
      · rfl]
    rfl

lemma Rep.matvec' [AddCommMonoid α] [Mul α] {a b : Nd α} {m n : ℕ} {s1 s2 : Option (List ℕ)} {F1 F2 : List ℕ → α}
    (h1 : Rep (.ok a) ((s1.map (n :: ·)).map (m :: ·)) F1) (h2 : Rep (.ok b) (s2.map (m :: ·)) F2) :
    Rep (Nd.matvec a b) ((bc s1 s2).map (n :: ·)) fun i => ∑ k ∈ Finset.range m, F1 (k :: i) * F2 (k :: i.tail) := by
  cases s1 with
  | none => cases h1
  | some t1 =>
    cases s2 with
    | none => cases h2
    | some t2 =>
      obtain ⟨a, h11, h12, h13⟩ := h1
      obtain ⟨b, h21, h22, h23⟩ := h2
      cases h11
      cases h21
      simp only at h12 h22
      rw [bc_some]
      cases hs : bcast t1 t2 with
      | none =>
        change Nd.matvec a b = _
        simp only [Nd.matvec, h12, h22, hs, if_true]
      | some t =>
        refine ⟨⟨n :: t, fun i => ∑ k ∈ Finset.range m,
          a.get (k :: i.headD 0 :: proj t1 i.tail) * b.get (k :: proj t2 i.tail)⟩,
          by simp only [Nd.matvec, h12, h22, hs, if_true], rfl, fun i => ?_⟩
        simp only
        refine Finset.sum_congr rfl fun k hk => ?_
        have hk' : (if m = 1 then 0 else k) = k := by
          split_ifs with h
          · have := Finset.mem_range.1 hk
            omega
          · rfl
        have e1 := h13 (k :: i)
        have e2 := h23 (k :: i.tail)
        simp only [proj_cons, List.headD_cons, List.tail_cons, hk'] at e1 e2
        rw [← e1, ← e2, proj_cons, List.tail_cons, List.headD_cons, proj_proj_left hs, proj_proj_right hs]

/-- Representation which holds for the elements of the array is enough for stacks. -/
lemma Rep.stackedOk' {r : Except Err (Nd α)} {s : Option (List ℕ)} {F : List ℕ → α} (h : Rep r s F)
    {G : List ℕ → Except Err α} (hG : ∀ i, G i = .ok (F i)) : StackedOk r s G :=
  h.stackedOk fun _ _ i _ => hG i

lemma proj_length : ∀ d i : List ℕ, (proj d i).length = d.length
  | [], _ => rfl
  | n :: d, i => by rw [proj_cons, List.length_cons, List.length_cons, proj_length d]

lemma bcast_append_ones : ∀ (d : List ℕ) (e : List ℕ), (∀ x ∈ e, x = 1) → bcast (d ++ e) d = some (d ++ e)
  | [], e, _ => by simp
  | n :: d, e, h => by
    rw [List.cons_append, bcast_cons, bdim_self, bcast_append_ones d e h]
    rfl

/-- Leading axes of length one do not matter. -/
lemma bcast_strip (d : List ℕ) : bcast d (d.rdropWhile (· = 1)) = some d := by
  have h := List.rdropWhile_append_rtakeWhile (p := fun x : ℕ => decide (x = 1)) (l := d)
  have := bcast_append_ones (d.rdropWhile (· = 1)) (d.rtakeWhile (· = 1)) fun x hx => by
    simpa using List.mem_rtakeWhile_imp hx
  rwa [h] at this

end Gftool.Lemmas
