import Verif.Spec.Memory

/-!
# Lemmas about arrays in memory
-/

namespace Gftool.Lemmas

open Gftool Model Spec MM

variable {E α β ι κ : Type}

@[simp] lemma mm_pure (a : α) (m : Mem E) : (pure a : MM E α) m = (.ok a, m) := rfl

lemma mm_bind (x : MM E α) (f : α → MM E β) (m : Mem E) :
    (x >>= f) m = match x m with
      | (.ok a, m') => f a m'
      | (.error e, m') => (.error e, m') := rfl

lemma mm_bind_ok {x : MM E α} {f : α → MM E β} {m m' : Mem E} {a : α} (h : x m = (.ok a, m')) :
    (x >>= f) m = f a m' := by rw [mm_bind, h]

lemma mm_bind_error {x : MM E α} {f : α → MM E β} {m m' : Mem E} {e : Err} (h : x m = (.error e, m')) :
    (x >>= f) m = (.error e, m') := by rw [mm_bind, h]

@[simp] lemma bind_read (a : Arr ι) (f : (ι → E) → MM E β) (m : Mem E) :
    (read a >>= f) m = f (contents m a) m := rfl

/-- The memory after an allocation. -/
def Mem.push [Encodable ι] [Inhabited E] (m : Mem E) (v : ι → E) : Mem E := (new v m).2

/-- The array created by an allocation. -/
def freshArr (ι : Type) [Encodable ι] (m : Mem E) : Arr ι := ⟨m.next, Encodable.encode⟩

@[simp] lemma bind_new [Encodable ι] [Inhabited E] (v : ι → E) (f : Arr ι → MM E β) (m : Mem E) :
    (new v >>= f) m = f (freshArr ι m) (Mem.push m v) := rfl

lemma new_apply [Encodable ι] [Inhabited E] (v : ι → E) (m : Mem E) :
    new v m = (.ok (freshArr ι m), Mem.push m v) := rfl

/-- The memory after an assignment. -/
noncomputable def Mem.write (m : Mem E) (a : Arr ι) (mask : ι → Prop) (v : ι → E) : Mem E := (assign a mask v m).2

@[simp] lemma bind_assign (a : Arr ι) (mask : ι → Prop) (v : ι → E) (f : Unit → MM E β) (m : Mem E) :
    (assign a mask v >>= f) m = f () (Mem.write m a mask v) := rfl

lemma assign_apply (a : Arr ι) (mask : ι → Prop) (v : ι → E) (m : Mem E) :
    assign a mask v m = (.ok (), Mem.write m a mask v) := rfl

@[simp] lemma push_next [Encodable ι] [Inhabited E] (m : Mem E) (v : ι → E) : (Mem.push m v).next = m.next + 1 := rfl

@[simp] lemma write_next (m : Mem E) (a : Arr ι) (mask : ι → Prop) (v : ι → E) :
    (Mem.write m a mask v).next = m.next := rfl

@[simp] lemma freshArr_addr [Encodable ι] (m : Mem E) : (freshArr ι m).addr = m.next := rfl

/-- The positions of a new array are different. -/
lemma freshArr_pos [Encodable ι] (m : Mem E) : Function.Injective (freshArr ι m).pos := Encodable.encode_injective

@[simp] lemma contents_push_fresh [Encodable ι] [Inhabited E] (m : Mem E) (v : ι → E) :
    contents (Mem.push m v) (freshArr ι m) = v := by
  funext i
  simp [contents, Mem.push, new, freshArr]

lemma contents_push [Encodable ι] [Inhabited E] (m : Mem E) (v : ι → E) (a : Arr κ) (h : a.addr ≠ m.next) :
    contents (Mem.push m v) a = contents m a := by
  funext i
  simp [contents, Mem.push, new, h]

lemma contents_write (m : Mem E) (a : Arr ι) (ha : Function.Injective a.pos) (mask : ι → Prop) [DecidablePred mask]
    (v : ι → E) :
    contents (Mem.write m a mask v) a = fun i => if mask i then v i else contents m a i := by
  funext i
  unfold contents Mem.write assign
  simp only
  by_cases h : mask i
  · have hx : a.addr = a.addr ∧ ∃ j, mask j ∧ a.pos j = a.pos i := ⟨rfl, i, h, rfl⟩
    rw [dif_pos hx, if_pos h]
    congr 1
    exact ha hx.2.choose_spec.2
  · rw [dif_neg, if_neg h]
    rintro ⟨-, j, hj, hji⟩
    rw [ha hji] at hj
    exact h hj

lemma contents_write_ne (m : Mem E) (a : Arr ι) (mask : ι → Prop) (v : ι → E) (b : Arr κ) (h : b.addr ≠ a.addr) :
    contents (Mem.write m a mask v) b = contents m b := by
  funext i
  unfold contents Mem.write assign
  simp only
  rw [dif_neg]
  exact fun hx => h hx.1

lemma push_buf [Encodable ι] [Inhabited E] (m : Mem E) (v : ι → E) {b : ℕ} (h : b ≠ m.next) :
    (Mem.push m v).buf b = m.buf b := by
  funext p
  simp [Mem.push, new, h]

lemma write_buf (m : Mem E) (a : Arr ι) (mask : ι → Prop) (v : ι → E) {b : ℕ} (h : b ≠ a.addr) :
    (Mem.write m a mask v).buf b = m.buf b := by
  funext p
  unfold Mem.write assign
  simp only
  rw [dif_neg]
  exact fun hx => h hx.1

@[simp] lemma raise_apply (e : Err) (m : Mem E) : (raise e : MM E α) m = (.error e, m) := rfl

lemma mm_ite (c : Prop) [Decidable c] (x y : MM E α) (m : Mem E) :
    (if c then x else y) m = if c then x m else y m := by
  split_ifs <;> rfl

@[simp] lemma bind_assignIm (a : Arr ι) (mask : ι → Prop) (v : ι → ℝ) (f : Unit → MM ℂ β) (m : Mem ℂ) :
    (assignIm a mask v >>= f) m = f () (Mem.write m a mask fun i => ⟨(contents m a i).re, v i⟩) := rfl

@[simp] lemma bind_assignRe (a : Arr ι) (mask : ι → Prop) (v : ι → ℝ) (f : Unit → MM ℂ β) (m : Mem ℂ) :
    (assignRe a mask v >>= f) m = f () (Mem.write m a mask fun i => ⟨v i, (contents m a i).im⟩) := rfl

/-- What a pure call that returns does. -/
lemma PureCall.ok {call : MM E (Arr κ)} {m : Mem E} {v : κ → E} (h : PureCall call m (.ok v)) :
    ∃ a m', call m = (.ok a, m') ∧ Untouched m m' ∧ m.next ≤ a.addr ∧ a.addr < m'.next ∧ a.pos.Injective ∧
      contents m' a = v := by
  unfold PureCall at h
  rcases hc : call m with ⟨r, m'⟩
  rw [hc] at h
  cases r with
  | ok a => exact ⟨a, m', rfl, h.1, h.2⟩
  | error e => exact h.2.elim

/-- What a pure call that raises does. -/
lemma PureCall.error {call : MM E (Arr κ)} {m : Mem E} {e : Err} (h : PureCall call m (.error e)) :
    ∃ m', call m = (.error e, m') ∧ Untouched m m' := by
  unfold PureCall at h
  rcases hc : call m with ⟨r, m'⟩
  rw [hc] at h
  cases r with
  | ok a => exact h.2.elim
  | error e' => exact ⟨m', by rw [h.2], h.1⟩

lemma PureCall.of_ok {call : MM E (Arr κ)} {m m' : Mem E} {a : Arr κ} {v : κ → E} (hc : call m = (.ok a, m'))
    (h : Untouched m m') (ha : m.next ≤ a.addr) (ha' : a.addr < m'.next) (hp : a.pos.Injective)
    (hv : contents m' a = v) : PureCall call m (.ok v) := by
  unfold PureCall
  rw [hc]
  exact ⟨h, ha, ha', hp, hv⟩

lemma PureCall.of_error {call : MM E (Arr κ)} {m m' : Mem E} {e : Err} (hc : call m = (.error e, m'))
    (h : Untouched m m') : PureCall call m (.error e) := by
  unfold PureCall
  rw [hc]
  exact ⟨h, rfl⟩

lemma Untouched.refl (m : Mem E) : Untouched m m := ⟨le_rfl, fun _ _ => rfl⟩

lemma Untouched.trans {m m' m'' : Mem E} (h : Untouched m m') (h' : Untouched m' m'') : Untouched m m'' :=
  ⟨h.1.trans h'.1, fun a ha => (h'.2 a (ha.trans_le h.1)).trans (h.2 a ha)⟩

lemma Untouched.push [Encodable ι] [Inhabited E] {m m' : Mem E} (h : Untouched m m') (v : ι → E) :
    Untouched m (Mem.push m' v) :=
  ⟨h.1.trans (Nat.le_succ _), fun a ha => (push_buf m' v (by have := h.1; omega)).trans (h.2 a ha)⟩

lemma Untouched.write {m m' : Mem E} (h : Untouched m m') {a : Arr ι} (ha : m.next ≤ a.addr) (mask : ι → Prop)
    (v : ι → E) : Untouched m (Mem.write m' a mask v) :=
  ⟨h.1, fun b hb => (write_buf m' a mask v (by omega)).trans (h.2 b hb)⟩

lemma Untouched.contents {m m' : Mem E} (h : Untouched m m') {a : Arr ι} (ha : Allocated m a) :
    contents m' a = contents m a := by
  funext i
  unfold Spec.contents
  rw [h.2 _ ha]

end Gftool.Lemmas
