import Verif.Model.Memory

/-!
# Specification of functions on arrays in memory
-/

namespace Gftool.Spec

open Gftool Model

variable {E ι κ : Type}

/-- The elements of an array. -/
def contents (m : Mem E) (a : Arr ι) : ι → E := fun i => m.buf a.addr (a.pos i)

/-- An array of the caller. -/
def Allocated (m : Mem E) (a : Arr ι) : Prop := a.addr < m.next

/-- No buffer that exists in `m` is changed. -/
def Untouched (m m' : Mem E) : Prop := m.next ≤ m'.next ∧ ∀ a < m.next, m'.buf a = m.buf a

/-- A call in memory `m` is pure with result `r`: it leaves everything that existed before unchanged, raises exactly the
error of `r`, or returns a newly allocated array with the elements `r`, each of which has its own place. -/
def PureCall (call : MM E (Arr κ)) (m : Mem E) (r : Except Err (κ → E)) : Prop :=
  Untouched m (call m).2 ∧
    match (call m).1, r with
    | .ok a, .ok v => m.next ≤ a.addr ∧ a.addr < (call m).2.next ∧ a.pos.Injective ∧ contents (call m).2 a = v
    | .error e, .error e' => e = e'
    | _, _ => False

end Gftool.Spec
