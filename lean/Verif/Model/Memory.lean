import Verif.Model.Basic
import Mathlib.Logic.Encodable.Basic
import Mathlib.Data.Complex.Basic

/-!
# Memory of numpy arrays

The other modules model arrays as functions of their indices. Here arrays are references to buffers in memory, as in
numpy: slices and `np.asarray` share the buffer, arithmetic operations, boolean indexing, `np.where`, `np.zeros_like`
allocate a new one, assignments to slices and masked elements, `*=`, `+=` change the buffer they are applied to.

`E` is the type of the elements (`ℝ` or `ℂ`), arrays have an index type `ι` (`Fin n`, or `Fin n × Fin m`).
-/

namespace Gftool.Model

/-- The memory: contents of the buffers, `next` is the address of the next allocation. -/
structure Mem (E : Type) where
  next : ℕ
  buf : ℕ → ℕ → E

/-- `np.ndarray`: the buffer and the position of each element in it (offset and strides). -/
structure Arr (ι : Type) where
  addr : ℕ
  pos : ι → ℕ

/-- A piece of code: returns or raises, and changes the memory. -/
def MM (E α : Type) : Type := Mem E → Except Err α × Mem E

namespace MM

variable {E α β ι κ : Type}

instance : Monad (MM E) where
  pure a := fun m => (.ok a, m)
  bind x f := fun m =>
    match x m with
    | (.ok a, m') => f a m'
    | (.error e, m') => (.error e, m')

/-- `raise`. -/
def raise (e : Err) : MM E α := fun m => (.error e, m)

/-- A pure computation which may raise, e.g. a call of a numpy routine that does not change its arguments. -/
def lift (r : Except Err α) : MM E α := fun m => (r, m)

/-- Read an array. -/
def read (a : Arr ι) : MM E (ι → E) := fun m => (.ok fun i => m.buf a.addr (a.pos i), m)

/-- Create an array with the given elements. -/
def new [Encodable ι] [Inhabited E] (v : ι → E) : MM E (Arr ι) := fun m =>
  (.ok ⟨m.next, Encodable.encode⟩,
    ⟨m.next + 1, fun a p => if a = m.next then ((Encodable.decode p).map v).getD default else m.buf a p⟩)

open scoped Classical in
/-- `a[mask] = v[mask]`, also with slices: write the elements selected by `mask`. -/
noncomputable def assign (a : Arr ι) (mask : ι → Prop) (v : ι → E) : MM E Unit := fun m =>
  (.ok (), ⟨m.next, fun b p =>
    if h : b = a.addr ∧ ∃ i, mask i ∧ a.pos i = p then v h.2.choose else m.buf b p⟩)

/-- `a.imag[mask] = v[mask]`. -/
noncomputable def assignIm (a : Arr ι) (mask : ι → Prop) (v : ι → ℝ) : MM ℂ Unit := do
  let x ← read a
  assign a mask fun i => ⟨(x i).re, v i⟩

/-- `a.real[mask] = v[mask]`. -/
noncomputable def assignRe (a : Arr ι) (mask : ι → Prop) (v : ι → ℝ) : MM ℂ Unit := do
  let x ← read a
  assign a mask fun i => ⟨v i, (x i).im⟩

/-- A loop `for ii in range(n)`. -/
def forRange : ℕ → (ℕ → MM E Unit) → MM E Unit
  | 0, _ => pure ()
  | n + 1, body => do
    forRange n body
    body n

end MM

end Gftool.Model
