import Verif.Model.Nd

/-!
# Stacks of inputs

What it means that a function with the documented signature `(...), (..., N) -> (...)` treats the leading axes as a stack:
it fails if the leading axes cannot be broadcast; otherwise the result has the broadcast shape, and every element is the one
obtained from the corresponding elements of the arguments alone.
-/

namespace Gftool.Spec

open Model

/-- Multi-index `i` lies in an array with the given `dims`. -/
def InRange (i dims : List ℕ) : Prop := List.Forall₂ (· < ·) i dims

/-- `r` is computed element by element, on the (broadcast) leading axes `s`. -/
def Stacked {α : Type} (r : Except Err (Nd α)) (s : Option (List ℕ)) (F : List ℕ → α) : Prop :=
  match s with
  | none => r = .error .valueError
  | some t => ∃ a, r = .ok a ∧ a.dims = t ∧ ∀ i, InRange i t → a.get i = F i

/-- The same if the elements are given by a function which may fail, but does not. -/
def StackedOk {α : Type} (r : Except Err (Nd α)) (s : Option (List ℕ)) (F : List ℕ → Except Err α) : Prop :=
  match s with
  | none => r = .error .valueError
  | some t => ∃ a, r = .ok a ∧ a.dims = t ∧ ∀ i, InRange i t → F i = .ok (a.get i)

/-- The same for functions with a new last axis of length `m`: every row of the result is what a function of one data set, which may
fail but does not, returns. -/
def StackedRows {β : Type} {m : ℕ} (r : Except Err (Nd β)) (s : Option (List ℕ)) (F : List ℕ → Except Err (Fin m → β)) : Prop :=
  match s with
  | none => r = .error .valueError
  | some t => ∃ b, r = .ok b ∧ b.dims = m :: t ∧ ∀ i, InRange i t → F i = .ok fun k => b.get (k :: i)

/-- The same for functions of a data set and a frequency which may fail for some data sets: the frequencies `z i k` are the last axis
(of length `n`), allowed ones satisfy `P`.  Either every element is what the function `f i` of the data set `i` returns for that frequency,
or the exception is the one which `f i` raises for one of the data sets, whatever the frequency. -/
def StackedTry {α β : Type} (r : Except Err (Nd β)) (n : ℕ) (s : Option (List ℕ)) (f : List ℕ → α → Except Err β) (P : α → Prop)
    (z : List ℕ → ℕ → α) : Prop :=
  match s with
  | none => r = .error .valueError
  | some t => (∃ b, r = .ok b ∧ b.dims = n :: t ∧ ∀ i, InRange i t → ∀ k < n, f i (z i k) = .ok (b.get (k :: i))) ∨
      ∃ i e, InRange i t ∧ (∀ w, P w → f i w = .error e) ∧ r = .error e

/-- `F` applies `f` to the last axis (of length `n`) of arrays with any leading axes. -/
def RowWise {α β : Type} {n m : ℕ} (F : Nd α → Except Err (Nd β)) (f : (Fin n → α) → Except Err (Fin m → β)) : Prop :=
  ∀ a s, a.dims = n :: s → StackedRows (F a) (some s) fun i => f fun k => a.at (k :: i)

end Gftool.Spec
