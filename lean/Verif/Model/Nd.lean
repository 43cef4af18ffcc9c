import Verif.Model.Basic
import Mathlib.Algebra.BigOperators.Group.Finset.Basic

/-!
# numpy arrays with any number of axes

The operations of numpy used by the array handling of gftool.  Axes are listed **from the last one**: an array
of shape `(2, 3, 5)` has `dims = [5, 3, 2]`, its element `a[i, j, k]` is `a.get [k, j, i]`.  In this order broadcasting
aligns lists at their heads, the code's `...` is a tail, and its last axis is the head.
Only the values of `get` at indices below `dims` are meaningful.  Memory layout (`np.ascontiguousarray`,
`np.asfortranarray`) and `dtype` are not modelled.
-/

namespace Gftool.Model

/-- numpy's rule for one axis. -/
def bdim (n m : ℕ) : Option ℕ := if n = m then some n else if n = 1 then some m else if m = 1 then some n else none

/-- numpy's broadcasting of two shapes; missing axes are prepended. -/
def bcast : List ℕ → List ℕ → Option (List ℕ)
  | [], b => some b
  | a, [] => some a
  | n :: a, m :: b =>
    match bdim n m, bcast a b with
    | some k, some c => some (k :: c)
    | _, _ => none

/-- Broadcasting of several shapes. -/
def bcastAll : List (List ℕ) → Option (List ℕ)
  | [] => some []
  | a :: l => (bcastAll l).bind (bcast a)

/-- Index of the element of an array with the given `dims` which is repeated at index `i` of the broadcast array:
`0` along axes of length one, superfluous leading axes are dropped. -/
def proj : List ℕ → List ℕ → List ℕ
  | [], _ => []
  | n :: d, i => (if n = 1 then 0 else i.headD 0) :: proj d i.tail

/-- A numpy array. -/
structure Nd (α : Type) where
  dims : List ℕ
  get : List ℕ → α

variable {α β γ : Type}

/-- Element of the array broadcast to a larger shape. -/
def Nd.at (a : Nd α) (i : List ℕ) : α := a.get (proj a.dims i)

/-- 0-d array. -/
def Nd.scalar (x : α) : Nd α := ⟨[], fun _ => x⟩

/-- 1-d array. -/
def Nd.vec (n : ℕ) (f : ℕ → α) : Nd α := ⟨[n], fun i => f (i.headD 0)⟩

/-- Elementwise function of one array (a ufunc). -/
def Nd.map (f : α → β) (a : Nd α) : Nd β := ⟨a.dims, fun i => f (a.get i)⟩

/-- Elementwise function of two arrays (a binary ufunc); `ValueError` if they cannot be broadcast. -/
def Nd.map2 (f : α → β → γ) (a : Nd α) (b : Nd β) : Except Err (Nd γ) :=
  match bcast a.dims b.dims with
  | some s => .ok ⟨s, fun i => f (a.at i) (b.at i)⟩
  | none => .error .valueError

/-- In-place operation `a op= b`: `ValueError` if the broadcast shape is not the one of `a`. -/
def Nd.imap2 (f : α → β → α) (a : Nd α) (b : Nd β) : Except Err (Nd α) :=
  match bcast a.dims b.dims with
  | some s => if s = a.dims then .ok ⟨s, fun i => f (a.at i) (b.at i)⟩ else .error .valueError
  | none => .error .valueError

/-- `a[..., np.newaxis]`. -/
def Nd.newaxis (a : Nd α) : Nd α := ⟨1 :: a.dims, fun i => a.get i.tail⟩

/-- `a[..., np.newaxis, :]`; `IndexError` for 0-d arrays. -/
def Nd.newaxis2 (a : Nd α) : Except Err (Nd α) :=
  match a.dims with
  | [] => .error .indexError
  | n :: s => .ok ⟨n :: 1 :: s, fun i => a.get (i.headD 0 :: i.tail.tail)⟩

/-- `np.atleast_1d`. -/
def Nd.atleast1d (a : Nd α) : Nd α :=
  match a.dims with
  | [] => ⟨[1], fun _ => a.get []⟩
  | _ :: _ => a

/-- `_gu_sum`, _util.py:35-42, and `np.sum(…, axis=-1)`: sum over the last axis (`np.ascontiguousarray` makes 0-d arrays 1-d). -/
def Nd.sum [AddCommMonoid α] (a : Nd α) : Nd α :=
  match a.dims with
  | [] => a
  | n :: s => ⟨s, fun i => ∑ k ∈ Finset.range n, a.get (k :: i)⟩

/-- `a[..., sl]` with a slice of the last axis which has the `m` elements `f 0, f 1, …`; `IndexError` for 0-d arrays. -/
def Nd.slice (m : ℕ) (f : ℕ → ℕ) (a : Nd α) : Except Err (Nd α) :=
  match a.dims with
  | [] => .error .indexError
  | _ :: s => .ok ⟨m :: s, fun i => a.get (f (i.headD 0) :: i.tail)⟩

/-- `a[..., k]`; `IndexError` if out of range. -/
def Nd.select (k : ℕ) (a : Nd α) : Except Err (Nd α) :=
  match a.dims with
  | [] => .error .indexError
  | n :: s => if k < n then .ok ⟨s, fun i => a.get (k :: i)⟩ else .error .indexError

/-- `_gu_matvec`, _util.py:45-61: `(x1 @ x2[..., np.newaxis])[..., 0]` for `x1` with at least two axes and `x2` with at least one.
`ValueError` if the inner dimensions differ or the leading axes cannot be broadcast. -/
def Nd.matvec [AddCommMonoid α] [Mul α] (x1 x2 : Nd α) : Except Err (Nd α) :=
  match x1.dims, x2.dims with
  | m :: n :: s1, m' :: s2 =>
    if m = m' then
      match bcast s1 s2 with
      | some s => .ok ⟨n :: s, fun i => ∑ k ∈ Finset.range m,
          x1.get (k :: i.headD 0 :: proj s1 i.tail) * x2.get (k :: proj s2 i.tail)⟩
      | none => .error .valueError
    else .error .valueError
  | _, _ => .error .valueError

end Gftool.Model
