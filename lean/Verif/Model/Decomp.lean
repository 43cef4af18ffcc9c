import Verif.Model.Matrix

/-!
# Model of the decomposition objects

The interface of the classes `Decomposition` and `UDecomposition` of `gftool/matrix.py` and the deprecated functions.
-/

namespace Gftool.Model

/-- An attribute of a `Decomposition`, as returned by `__getitem__`. -/
inductive DecItem (m n : Type*)
  | rv (a : Matrix m n ℂ)
  | eig (a : n → ℂ)
  | rvInv (a : Matrix n m ℂ)

/-- Index of a Python tuple of length `len`: negative values count from the end. -/
def tupleIndex (len : ℕ) (key : ℤ) : Except Err ℕ :=
  if 0 ≤ key ∧ key < len then .ok key.toNat
  else if -len ≤ key ∧ key < 0 then .ok (key + len).toNat
  else .error .indexError

/-- `Decomposition.__getitem__`, matrix.py:182, for integers. -/
def Decomposition.getItem {m n : Type*} (dec : Decomposition m n) (key : ℤ) : Except Err (DecItem m n) :=
  let l := [DecItem.rv dec.rv, DecItem.eig dec.eig, DecItem.rvInv dec.rvInv]
  match tupleIndex l.length key with
  | .ok i => match l[i]? with
    | some x => .ok x
    | none => .error .indexError
  | .error e => .error e

/-- `Decomposition.__len__`, matrix.py:185. -/
def Decomposition.len {m n : Type*} (_ : Decomposition m n) : ℕ := 3

/-- Python's iteration over an object without `__iter__`: the keys 0, 1, … until `IndexError`, at most `fuel` steps. -/
def iterItems {α : Type*} (get : ℤ → Except Err α) : ℕ → ℕ → List α
  | 0, _ => []
  | fuel + 1, i => match get i with
    | .ok x => x :: iterItems get fuel (i + 1)
    | .error _ => []

/-- `UDecomposition.u`, matrix.py:250. -/
def Decomposition.u {m n : Type*} (dec : Decomposition m n) : Matrix m n ℂ := dec.rv

/-- `UDecomposition.uh`, matrix.py:255. -/
def Decomposition.uh {m n : Type*} (dec : Decomposition m n) : Matrix n m ℂ := dec.rvInv

/-- `np.sort` of a one-dimensional array of real numbers. -/
noncomputable def npSort (l : List ℝ) : List ℝ := l.mergeSort fun a b => decide (a ≤ b)

/-- `UDecomposition.s`, matrix.py:260, for the eigenvalues of a single matrix: `np.sort(abs(eig))[::-1]`. -/
noncomputable def udecS (eig : List ℂ) : List ℝ := (npSort (eig.map fun x => ‖x‖)).reverse

/-- `UDecomposition.s`, matrix.py:260, for a stack of matrices, `eig` is a two-dimensional array. `np.sort` sorts along
the last axis, the slice `[::-1]` reverses the first axis. -/
noncomputable def udecSStack (eig : List (List ℂ)) : List (List ℝ) :=
  (eig.map fun e => npSort (e.map fun x => ‖x‖)).reverse

/-- `decompose_gf`, matrix.py:476-480, without the `DeprecationWarning`. -/
noncomputable def decomposeGf (ext : EigExt) {n : Type} [Fintype n] [DecidableEq n] (gInv : Matrix n n ℂ) :
    Except Err (Decomposition n n) :=
  decomposeMat ext gInv

/-- `decompose_hamiltonian`, matrix.py:509-511, without the `DeprecationWarning`. -/
noncomputable def decomposeHamiltonian (ext : EigExt) {n : ℕ} (hamilton : Matrix (Fin n) (Fin n) ℂ) :
    Except Err (Decomposition (Fin n) (Fin n)) :=
  decomposeHer ext hamilton false

/-- `Decomposition.from_hamiltonian`, matrix.py:121-123; the argument is a decomposition or a matrix. -/
noncomputable def fromHamiltonian (ext : EigExt) {n : ℕ} :
    Decomposition (Fin n) (Fin n) ⊕ Matrix (Fin n) (Fin n) ℂ → Except Err (Decomposition (Fin n) (Fin n))
  | .inl dec => .ok dec
  | .inr mat => decomposeHamiltonian ext mat

/-- `Decomposition.from_gf`, matrix.py:144-146; the argument is a decomposition or a matrix. -/
noncomputable def fromGf (ext : EigExt) {n : Type} [Fintype n] [DecidableEq n] :
    Decomposition n n ⊕ Matrix n n ℂ → Except Err (Decomposition n n)
  | .inl dec => .ok dec
  | .inr mat => decomposeGf ext mat

end Gftool.Model
