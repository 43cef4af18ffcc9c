import Verif.Model.Basic
import Mathlib.LinearAlgebra.UnitaryGroup
import Mathlib.LinearAlgebra.Matrix.ConjTranspose
import Mathlib.Analysis.SpecialFunctions.Pow.Complex
import Mathlib.Analysis.SpecialFunctions.Pow.Real

/-!
# Model of `gftool/matrix.py` and of `gftool/basis/__init__.py`
-/

namespace Gftool.Model

open Matrix

/-- `ZeroPole`, basis/__init__.py:41-43, for `n` zeros and `m` poles. -/
structure ZeroPole (n m : ℕ) where
  zeros : Fin n → ℂ
  poles : Fin m → ℂ
  amplitude : ℂ

/-- `ZeroPole.eval`, basis/__init__.py:59-60 (`np.prod` over the last axis). -/
noncomputable def ZeroPole.eval {n m : ℕ} (f : ZeroPole n m) (z : ℂ) : ℂ :=
  f.amplitude * (∏ i, (z - f.zeros i)) / ∏ i, (z - f.poles i)

/-- `ZeroPole.reciprocal`, basis/__init__.py:76-79. -/
noncomputable def ZeroPole.reciprocal {n m : ℕ} (f : ZeroPole n m) (z : ℂ) : ℂ :=
  let numer := ∏ i, (z - f.poles i)
  let denom := ∏ i, (z - f.zeros i)
  1 / f.amplitude * numer / denom

/-- `RatPol`, basis/__init__.py:88-99: polynomials as coefficient lists (lowest first). -/
structure RatPol where
  numer : List ℂ
  denom : List ℂ

/-- Evaluation of a `numpy` polynomial (Horner scheme). -/
def polyval (c : List ℂ) (z : ℂ) : ℂ := c.foldr (fun a acc => a + z * acc) 0

/-- Multiplication of the coefficient list `c` by the linear factor `(z - r)`. -/
def mulLinear (r : ℂ) (c : List ℂ) : List ℂ :=
  List.zipWith (· - ·) (0 :: c) ((c.map (r * ·)) ++ [0])

/-- `numpy.polynomial.Polynomial.fromroots`, used in basis/__init__.py:83-84: the monic
polynomial with the given roots. (numpy multiplies the factors in a tree; exact arithmetic
does not see the order.) -/
def fromroots (roots : List ℂ) : List ℂ := roots.foldr mulLinear [1]

/-- `ZeroPole.to_ratpol`, basis/__init__.py:83-85. -/
noncomputable def ZeroPole.toRatpol {n m : ℕ} (f : ZeroPole n m) : RatPol :=
  ⟨(fromroots (List.ofFn f.zeros)).map (· * f.amplitude), fromroots (List.ofFn f.poles)⟩

/-- `RatPol.eval`, basis/__init__.py:103. -/
noncomputable def RatPol.eval (f : RatPol) (z : ℂ) : ℂ := polyval f.numer z / polyval f.denom z

/-- `Decomposition`, matrix.py:56-100. `rv` may have fewer rows (and `rv_inv` fewer columns)
than eigenvalues, as siam.py:87 slices both. -/
structure Decomposition (m n : Type*) where
  rv : Matrix m n ℂ
  eig : n → ℂ
  rvInv : Matrix n m ℂ

/-- How `Decomposition.reconstruct` interprets the argument `kind`. -/
inductive Kind
  | diag
  | full
  | einsum (subscripts : List Char)
  deriving DecidableEq

/-- The dispatch of `Decomposition.reconstruct`, matrix.py:173-178. Python strings are lists
of characters; `'diag'.startswith(kind)` is `kind <+: "diag"`. -/
def kindOf (kind : List Char) : Kind :=
  let kind := kind.map Char.toLower
  if kind.isPrefixOf ['d', 'i', 'a', 'g'] then .diag
  else if kind.isPrefixOf ['f', 'u', 'l', 'l'] then .full
  else .einsum kind

variable {m n : Type*} [Fintype n]

/-- `Decomposition.reconstruct(eig, kind='diag')`, matrix.py:172,175:
`((transpose(rv_inv)*rv) @ eig[..., newaxis])[..., 0]`. -/
def Decomposition.reconstructDiag (dec : Decomposition m n) (eig : Option (n → ℂ)) : m → ℂ :=
  let eig := eig.getD dec.eig
  (Matrix.of fun i j => dec.rvInvᵀ i j * dec.rv i j) *ᵥ eig

/-- `Decomposition.reconstruct(eig, kind='full')`, matrix.py:172,177:
`rv * eig[..., newaxis, :] @ rv_inv`. -/
def Decomposition.reconstructFull (dec : Decomposition m n) (eig : Option (n → ℂ)) :
    Matrix m m ℂ :=
  let eig := eig.getD dec.eig
  (Matrix.of fun i j => dec.rv i j * eig j) * dec.rvInv

/-- `construct_gf`, matrix.py:536: `rv.dot(np.diagflat(diag_inv)).dot(rv_inv)`. -/
def constructGf [DecidableEq n] (rv : Matrix m n ℂ) (diagInv : n → ℂ) (rvInv : Matrix n m ℂ) :
    Matrix m m ℂ :=
  rv * Matrix.diagonal diagInv * rvInv

/-- Tolerance of `np.allclose(x, 0)` (default `atol`). -/
noncomputable def allcloseAtol : ℝ := 1 / 10 ^ 8

/-- The Hermitian matrix LAPACK's `eigh` sees: it reads the lower triangle only (default
`UPLO='L'`), and only the real part of the diagonal. -/
noncomputable def lowerHer {n : ℕ} (a : Matrix (Fin n) (Fin n) ℂ) : Matrix (Fin n) (Fin n) ℂ :=
  Matrix.of fun i j => if j < i then a i j else if i < j then star (a j i) else ((a i i).re : ℂ)

/-- External eigenvalue routines with their contracts.

* `eigh`: `numpy.linalg.eigh`, real eigenvalues and a unitary matrix of eigenvectors of the
  Hermitian matrix given by the lower triangle.
* `eig`: `numpy.linalg.eig` returns eigenvalues and right eigenvectors; the contract states
  `mat v = v diag(eig)`. Whether `v` is regular depends on the matrix. Rows and columns may be
  indexed by any finite type (`beb.py` selects a subset of the indices). -/
structure EigExt where
  eigh : ∀ {n : ℕ}, Matrix (Fin n) (Fin n) ℂ → (Fin n → ℝ) × Matrix (Fin n) (Fin n) ℂ
  eigh_unitary : ∀ {n : ℕ} (a : Matrix (Fin n) (Fin n) ℂ),
    (eigh a).2 ∈ Matrix.unitaryGroup (Fin n) ℂ
  eigh_eig : ∀ {n : ℕ} (a : Matrix (Fin n) (Fin n) ℂ),
    lowerHer a * (eigh a).2 = (eigh a).2 * Matrix.diagonal fun i => ((eigh a).1 i : ℂ)
  eig : ∀ {n : Type} [Fintype n] [DecidableEq n], Matrix n n ℂ → (n → ℂ) × Matrix n n ℂ
  eig_eig : ∀ {n : Type} [Fintype n] [DecidableEq n] (a : Matrix n n ℂ),
    a * (eig a).2 = (eig a).2 * Matrix.diagonal (eig a).1

open scoped Classical in
/-- `numpy.linalg.inv`: the inverse, or `LinAlgError` for a singular matrix. -/
noncomputable def npInv {n : Type} [Fintype n] [DecidableEq n] (a : Matrix n n ℂ) :
    Except Err (Matrix n n ℂ) :=
  if a.det = 0 then .error .linAlgError else .ok a⁻¹

/-- `decompose_mat`, matrix.py:307-308. -/
noncomputable def decomposeMat (ext : EigExt) {n : Type} [Fintype n] [DecidableEq n]
    (mat : Matrix n n ℂ) : Except Err (Decomposition n n) :=
  let (eig, vec) := ext.eig mat
  match npInv vec with
  | .ok inv => .ok ⟨vec, eig, inv⟩
  | .error e => .error e

/-- The scaling `rv *= np.sum(rv**2, axis=-2, keepdims=True)**-0.5`, matrix.py:385. -/
noncomputable def symScale {n : ℕ} (rv : Matrix (Fin n) (Fin n) ℂ) : Matrix (Fin n) (Fin n) ℂ :=
  Matrix.of fun i j => rv i j * (∑ k, rv k j ^ 2) ^ (-(1 / 2) : ℂ)

open scoped Classical in
/-- `decompose_sym`, matrix.py:380-389. If `v·v = 0` for an eigenvector `v`, the scaling is not finite and the result of the code
consists of `nan`; here this is reported as the error of a singular matrix. -/
noncomputable def decomposeSym (ext : EigExt) {n : ℕ} (mat : Matrix (Fin n) (Fin n) ℂ)
    (check : Bool) : Except Err (Decomposition (Fin n) (Fin n)) :=
  if check = true ∧ ¬ ∀ i j, ‖mat i j - mat j i‖ ≤ allcloseAtol then .error .valueError
  else
    let (h, rv) := ext.eig mat
    let rv := symScale rv
    match npInv rv with
    | .ok inv => .ok ⟨rv, h, inv⟩
    | .error e => .error e

open scoped Classical in
/-- `decompose_her`, matrix.py:444-448. -/
noncomputable def decomposeHer (ext : EigExt) {n : ℕ} (mat : Matrix (Fin n) (Fin n) ℂ)
    (check : Bool) : Except Err (Decomposition (Fin n) (Fin n)) :=
  if check = true ∧ ¬ ∀ i j, ‖mat i j - star (mat j i)‖ ≤ allcloseAtol then .error .valueError
  else
    let (eig, vec) := ext.eigh mat
    .ok ⟨vec, fun i => (eig i : ℂ), vecᴴ⟩

open scoped Classical in
/-- `gf_2x2_z`, matrix.py:565-573. `none` stands for the non-finite result (division by
zero) if the square root vanishes. `hilbert_trafo=None` is the function `x ↦ 1/x`.
`scimath.sqrt` is the principal square root. -/
noncomputable def gf2x2z (z eps0 eps1 hopping : ℂ) (hilbert : Option (ℂ → ℂ)) :
    Option (Fin 2 → ℂ) :=
  let mean_eps := (eps0 + eps1) / 2
  let sqrt_ := (0.25 * (eps0 - eps1) ^ 2 + hopping * star hopping) ^ ((1 / 2 : ℂ))
  let h := hilbert.getD fun x => 1 / x
  let gf_p := h (z - mean_eps - sqrt_)
  let gf_m := h (z - mean_eps + sqrt_)
  if sqrt_ = 0 then none
  else some ![0.5 / sqrt_ * ((eps0 - mean_eps + sqrt_) * gf_p - (eps0 - mean_eps - sqrt_) * gf_m),
      0.5 / sqrt_ * ((eps1 - mean_eps + sqrt_) * gf_p - (eps1 - mean_eps - sqrt_) * gf_m)]

end Gftool.Model
