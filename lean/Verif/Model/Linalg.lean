import Verif.Model.Basic
import Mathlib.Analysis.RCLike.Basic
import Mathlib.LinearAlgebra.UnitaryGroup
import Mathlib.LinearAlgebra.Matrix.ConjTranspose

/-!
# Model of `gftool/linalg.py`

The external routines (`numpy.linalg.qr`, `numpy.linalg.lstsq`) enter as functions together
with their contract; `Verif/Lemmas/Linalg.lean` proves that the contract can be met.
-/

namespace Gftool.Model

open Matrix

variable {𝕜 : Type*} [RCLike 𝕜]

/-- Squared Euclidean norm `∑ |v_i|²`. -/
def sqNorm {n : ℕ} (v : Fin n → 𝕜) : ℝ := ∑ i, ‖v i‖ ^ 2

/-- External linear algebra routines, in exact arithmetic.

* `qr`: `numpy.linalg.qr(mat, mode="complete")`, `mat = q r` with unitary `q` and upper
  triangular `r`.
* `lstsq`: `numpy.linalg.lstsq(a, b)[0]`, a minimizer of `|a x - b|²` which among all
  minimizers has the smallest norm. -/
structure LinalgExt (𝕜 : Type*) [RCLike 𝕜] where
  qr : ∀ {n l : ℕ}, Matrix (Fin n) (Fin l) 𝕜 →
    Matrix (Fin n) (Fin n) 𝕜 × Matrix (Fin n) (Fin l) 𝕜
  qr_mul : ∀ {n l : ℕ} (A : Matrix (Fin n) (Fin l) 𝕜), (qr A).1 * (qr A).2 = A
  qr_unitary : ∀ {n l : ℕ} (A : Matrix (Fin n) (Fin l) 𝕜),
    (qr A).1 ∈ Matrix.unitaryGroup (Fin n) 𝕜
  qr_upper : ∀ {n l : ℕ} (A : Matrix (Fin n) (Fin l) 𝕜) (i : Fin n) (j : Fin l),
    (j : ℕ) < i → (qr A).2 i j = 0
  lstsq : ∀ {m n : ℕ}, Matrix (Fin m) (Fin n) 𝕜 → (Fin m → 𝕜) → (Fin n → 𝕜)
  lstsq_min : ∀ {m n : ℕ} (A : Matrix (Fin m) (Fin n) 𝕜) (b : Fin m → 𝕜) (x : Fin n → 𝕜),
    sqNorm (A *ᵥ lstsq A b - b) ≤ sqNorm (A *ᵥ x - b)
  lstsq_norm : ∀ {m n : ℕ} (A : Matrix (Fin m) (Fin n) 𝕜) (b : Fin m → 𝕜) (x : Fin n → 𝕜),
    sqNorm (A *ᵥ x - b) = sqNorm (A *ᵥ lstsq A b - b) → sqNorm (lstsq A b) ≤ sqNorm x

/-- `orth_compl`, linalg.py:43-49, for a single matrix. -/
def orthCompl (ext : LinalgExt 𝕜) {n m : ℕ} (mat : Matrix (Fin n) (Fin m) 𝕜) :
    Except Err (Matrix (Fin (n - m)) (Fin n) 𝕜) :=
  if n ≤ m then .error .valueError
  else
    let q := (ext.qr mat).1
    let q2 : Matrix (Fin n) (Fin (n - m)) 𝕜 := Matrix.of fun i j => q i ⟨m + j, by omega⟩
    .ok (q2ᵀ.map star)

/-- `np.concatenate((y, z), axis=-1)` in linalg.py:109. -/
def concatVec {n l : ℕ} (y : Fin l → 𝕜) (z : Fin (n - l) → 𝕜) (i : Fin n) : 𝕜 :=
  if h : (i : ℕ) < l then y ⟨i, h⟩ else z ⟨i - l, by omega⟩

/-- The truncation `r_ct[..., :constrains, :]`, linalg.py:99, for `l ≤ n`. -/
def topRows {n l : ℕ} (h : l ≤ n) (r : Matrix (Fin n) (Fin l) 𝕜) : Matrix (Fin l) (Fin l) 𝕜 :=
  Matrix.of fun i j => r ⟨i, by omega⟩ j

open scoped Classical in
/-- `lstsq_ec`, linalg.py:87-109. `a` is `(m, n)`, `c` is `(l, n)`, `d` has `l'` elements.

* line 87: no unknowns, the empty vector.
* line 89-96: no constraint rows; `ValueError` if `d` is not empty.
* line 97-101: `scipy.linalg.solve_triangular` raises `ValueError` if the truncated
  `r_ct` is not square or does not fit to `d`, i.e. if `l' ≠ l` or `n < l`.
* line 101: solution of `r_ctᴴ y = d`; `LinAlgError` for a zero on the diagonal of `r_ct`.
* line 102-105: fall back `y = lstsq(r_ctᴴ, d)`. According to the numpy documentation the
  second return value `err` is an *empty* array if the matrix has not more rows than columns;
  here it is square, hence `np.allclose(err, 0)` is true and line 105 is never executed.
* line 106-109: least squares for the remaining unknowns and transformation back.

`rcond` only concerns floating point rank decisions and is not modelled. -/
noncomputable def lstsqEc (ext : LinalgExt 𝕜) {m n l l' : ℕ} (a : Matrix (Fin m) (Fin n) 𝕜)
    (b : Fin m → 𝕜) (c : Matrix (Fin l) (Fin n) 𝕜) (d : Fin l' → 𝕜) : Except Err (Fin n → 𝕜) :=
  if n = 0 then .ok 0
  else if l = 0 then
    if l ≠ l' then .error .valueError else .ok (ext.lstsq a b)
  else if h : l' = l ∧ l ≤ n then
    let d' : Fin l → 𝕜 := fun i => d (Fin.cast h.1.symm i)
    let q := (ext.qr cᴴ).1
    let r := topRows h.2 (ext.qr cᴴ).2
    let y : Fin l → 𝕜 := if r.det = 0 then ext.lstsq rᴴ d' else (rᴴ)⁻¹ *ᵥ d'
    let aq := a * q
    let aqTop : Matrix (Fin m) (Fin l) 𝕜 := Matrix.of fun i j => aq i ⟨j, by omega⟩
    let aqBot : Matrix (Fin m) (Fin (n - l)) 𝕜 := Matrix.of fun i j => aq i ⟨l + j, by omega⟩
    let z := ext.lstsq aqBot (b - aqTop *ᵥ y)
    .ok (q *ᵥ concatVec y z)
  else .error .valueError

end Gftool.Model
