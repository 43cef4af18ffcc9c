import Verif.Model.Linalg
import Verif.Model.Matrix
import Verif.Model.Pole
import Mathlib.LinearAlgebra.Matrix.Rank
import Mathlib.Data.List.Sort

/-!
# Model of `gftool/polepade.py`

`vandermond` is the default `numpy.polynomial.polynomial.polyvander`, `polyvander(z, deg)[i, j] =
z[i]**j` for `j = 0, …, deg`. All arithmetic is exact.
-/

namespace Gftool.Model

open Matrix

/-! ## `number_poles` -/

/-- State of the `while` loop of `number_poles`: `max_n_poles` and `n_poles`. -/
structure NumPolesState where
  maxN : ℤ
  n : ℤ

/-- Body of the `while` loop of `number_poles`, polepade.py:221-254. `nullDim` is the value of
`null_dim` (line 232) as a function of `n_poles`; nothing is assumed about it. `Sum.inl` is the
state for the next iteration, `Sum.inr` leaves the function. The warning of line 242 has no
effect on the result. `//` is the floor division, as is `/` on `ℤ` for a positive divisor. -/
def numPolesStep (nullDim : ℤ → ℕ) (degree absMax : ℤ) (s : NumPolesState) :
    NumPolesState ⊕ Except Err ℤ :=
  if nullDim s.n = 1 then .inr (.ok s.n)
  else if nullDim s.n = 0 then
    if s.n = absMax then .inr (.error .runtimeError)
    else if s.n = s.maxN then .inr (.ok s.n)
    else .inl ⟨s.maxN, min (2 * s.n) s.maxN⟩
  else .inl ⟨s.n - 1, s.n - ((nullDim s.n : ℤ) - degree) / 2⟩

/-- The `while` loop of `number_poles`, polepade.py:220-254; `none` if it is still running after
`fuel` iterations. -/
def numPolesLoop (nullDim : ℤ → ℕ) (degree absMax : ℤ) :
    ℕ → NumPolesState → Option (Except Err ℤ)
  | 0, _ => none
  | fuel + 1, s =>
    match numPolesStep nullDim degree absMax s with
    | .inr r => some r
    | .inl s' => numPolesLoop nullDim degree absMax fuel s'

/-- `number_poles`, polepade.py:204-254, for `size = z.size` data points: the limits (line 205),
the start value (line 206-218), the assertion (line 219) and the loop. -/
def numberPoles (nullDim : ℤ → ℕ) (size degree : ℤ) (n0 : Option ℤ) (fuel : ℕ) :
    Option (Except Err ℤ) :=
  let absMax := (size - degree) / 2
  match (match n0 with
    | none => Except.ok (min absMax 50)
    | some n0 => if absMax < n0 then .error .valueError else .ok n0 : Except Err ℤ) with
  | .error e => some (.error e)
  | .ok n =>
    if 2 * n + degree < size then numPolesLoop nullDim degree absMax fuel ⟨absMax, n⟩
    else some (.error .assertionError)

/-- Number of columns of the slice `a[..., :stop]` of an array with `len` columns. -/
def sliceLen (len stop : ℤ) : ℕ :=
  if 0 ≤ stop then (min stop len).toNat else (max (len + stop) 0).toNat

/-- The first `k` columns of a Vandermonde matrix. -/
def vanderC {N : ℕ} (z : Fin N → ℂ) (k : ℕ) : Matrix (Fin N) (Fin k) ℂ :=
  Matrix.of fun i j => z i ^ (j : ℕ)

/-- `np.concatenate((a, b), axis=-1)` of matrices. -/
def hcat {N k l : ℕ} (a : Matrix (Fin N) (Fin k) ℂ) (b : Matrix (Fin N) (Fin l) ℂ) :
    Matrix (Fin N) (Fin (k + l)) ℂ :=
  Matrix.of fun i => Fin.append (a i) (b i)

/-- The row `scaling`, polepade.py:225-227 (also 296-299 and 349-351): the reciprocal norm of the
rows of `a`, times the weight. -/
noncomputable def rowScaling {N k : ℕ} (a : Matrix (Fin N) (Fin k) ℂ)
    (weight : Option (Fin N → ℝ)) (i : Fin N) : ℂ :=
  let s : ℂ := 1 / ((Real.sqrt (sqNorm (a i)) : ℝ) : ℂ)
  match weight with
  | none => s
  | some w => s * (w i : ℂ)

/-- `np.linalg.qr(a)[0]`, `mode='reduced'`: the first `min(N, k)` columns of the complete
unitary factor. -/
def qrReduced (ext : LinalgExt ℂ) {N k : ℕ} (a : Matrix (Fin N) (Fin k) ℂ) :
    Matrix (Fin N) (Fin (min N k)) ℂ :=
  Matrix.of fun i j => (ext.qr a).1 i ⟨j, by omega⟩

/-- `null_dim`, polepade.py:221-232, for `n_poles = n`. A matrix with `c` columns has
`min(N, c)` singular values of which `rank` do not vanish; simplified: the tolerance of line 232
is taken to decide whether a singular value vanishes. (All theorems about the loop hold for
an arbitrary `null_dim`.) -/
noncomputable def polesNullDim (ext : LinalgExt ℂ) {N : ℕ} (z f : Fin N → ℂ) (degree : ℤ)
    (weight : Option (Fin N → ℝ)) (n : ℤ) : ℕ :=
  let nZeros := n + degree
  let len := max n nZeros + 2
  let numer := vanderC z (sliceLen len (nZeros + 1))
  let denom := vanderC z (sliceLen len (n + 1))
  let scaling := rowScaling (hcat denom numer) weight
  let q1 := qrReduced ext (Matrix.of fun i j => scaling i * f i * denom i j)
  let q2 := qrReduced ext (Matrix.of fun i j => scaling i * numer i j)
  let mat := hcat q1 q2
  min N (min N (sliceLen len (n + 1)) + min N (sliceLen len (nZeros + 1))) - mat.rank

/-! ## `poles`, `zeros` -/

/-- Lexicographic order of complex numbers as used by `numpy`'s sorting. -/
def lexLE (a b : ℂ) : Prop := a.re < b.re ∨ (a.re = b.re ∧ a.im ≤ b.im)

open scoped Classical in
/-- `np.median` of a complex array: the middle element of the sorted array, or the mean of the
two middle elements. -/
noncomputable def npMedian {N : ℕ} (f : Fin N → ℂ) : ℂ :=
  let l := (List.ofFn f).mergeSort (fun a b => decide (lexLE a b))
  if N % 2 = 1 then l.getD (N / 2) 0 else (l.getD (N / 2 - 1) 0 + l.getD (N / 2) 0) / 2

/-- External routines of `polepade`, in exact arithmetic.

* `svdVh A` is `numpy.linalg.svd(A)[2]`: it is unitary and diagonalises `Aᴴ A` with the squares
  of the singular values, which are sorted in descending order.
* `eigGen A B` is `scipy.linalg.eig(A, B, right=False)`: the eigenvalues of the pencil
  `A v = λ B v` with their algebraic multiplicity (for regular `B`, then there are as many
  eigenvalues as rows). -/
structure PolepadeExt extends LinalgExt ℂ where
  svdVh : ∀ {r c : ℕ}, Matrix (Fin r) (Fin c) ℂ → Matrix (Fin c) (Fin c) ℂ
  svd_unitary : ∀ {r c : ℕ} (A : Matrix (Fin r) (Fin c) ℂ),
    svdVh A ∈ Matrix.unitaryGroup (Fin c) ℂ
  svd_diag : ∀ {r c : ℕ} (A : Matrix (Fin r) (Fin c) ℂ), ∃ s : Fin c → ℝ, Antitone s ∧
    (∀ i, 0 ≤ s i) ∧ Aᴴ * A = (svdVh A)ᴴ * diagonal (fun i => ((s i) ^ 2 : ℂ)) * svdVh A
  eigGen : ∀ {m : ℕ}, Matrix (Fin m) (Fin m) ℂ → Matrix (Fin m) (Fin m) ℂ → (Fin m → ℂ)
  eig_char : ∀ {m : ℕ} (A B : Matrix (Fin m) (Fin m) ℂ), B.det ≠ 0 →
    ∀ x : ℂ, (x • B - A).det = B.det * ∏ i, (x - eigGen A B i)

/-- The last two steps common to `poles` (polepade.py:303-306) and `zeros` (354-357): the
pencil from the right singular vectors and its eigenvalues. `perp` is the orthogonal
complement, `q` the orthonormalised basis. -/
noncomputable def pencilEig (ext : PolepadeExt) {N r m : ℕ} (z : Fin N → ℂ)
    (perp : Matrix (Fin r) (Fin N) ℂ) (q : Matrix (Fin N) (Fin m) ℂ) : Fin m → ℂ :=
  let qtildeZ := perp * (Matrix.of fun i j => z i * q i j)
  let qtilde := perp * q
  let vh := ext.svdVh (hcat qtildeZ qtilde)
  ext.eigGen (Matrix.of fun i j => vh (Fin.castAdd m i) (Fin.castAdd m j))
    (Matrix.of fun i j => vh (Fin.castAdd m i) (Fin.natAdd m j))

/-- `poles`, polepade.py:290-306, for `n` zeros (line 291: `n = m - 1` by default) and `m` poles.
`orth_compl` raises `ValueError` unless there are more than `n + 1` points; if there are fewer
points than poles, the slices `vh[:m, :m]` do not fit and `eig` raises `ValueError`.
Simplified: `n` and `m` are natural numbers. For a zero median the data are not finite after line
292, on which `svd` (line 305) raises `LinAlgError`. -/
noncomputable def polepadePoles (ext : PolepadeExt) {N : ℕ} (z f : Fin N → ℂ) (n m : ℕ)
    (weight : Option (Fin N → ℝ)) : Except Err (Fin m → ℂ) :=
  let f' := fun i => f i / npMedian f
  let numer := -vanderC z (n + 1)
  let denom := vanderC z m
  let scaling := rowScaling (hcat denom numer) weight
  match orthCompl ext.toLinalgExt (Matrix.of fun i j => scaling i * numer i j) with
  | .error e => .error e
  | .ok perp =>
    if npMedian f = 0 then .error .linAlgError
    else if h : m ≤ N then
      let q := qrReduced ext.toLinalgExt (Matrix.of fun i j => scaling i * f' i * denom i j)
      .ok (pencilEig ext z perp (q.submatrix id (Fin.cast (by omega))))
    else .error .valueError

/-- `zeros`, polepade.py:344-357, for `n` zeros. Line 348: `polyvander` raises `ValueError` for
the negative degree `n - 1` if `n = 0`. For a zero median `svd` (line 356) raises `LinAlgError`. -/
noncomputable def polepadeZeros (ext : PolepadeExt) {N m : ℕ} (z f : Fin N → ℂ)
    (poles : Fin m → ℂ) (n : ℕ) (weight : Option (Fin N → ℝ)) : Except Err (Fin n → ℂ) :=
  let f' := fun i => f i / npMedian f
  let denom := fun i => ∏ k, (z i - poles k)
  if n = 0 then .error .valueError
  else
    let numer := vanderC z n
    let scaling := rowScaling numer weight
    match orthCompl ext.toLinalgExt
        (Matrix.of fun i (_ : Fin 1) => scaling i * (f' i * denom i)) with
    | .error e => .error e
    | .ok perp =>
      if npMedian f = 0 then .error .linAlgError
      else if h : n ≤ N then
        let q := qrReduced ext.toLinalgExt (Matrix.of fun i j => scaling i * numer i j)
        .ok (pencilEig ext z perp (q.submatrix id (Fin.cast (by omega))))
      else .error .valueError

/-! ## `asymptotic`, `residues_ols`, `continuation` -/

/-- The `ratios` of `asymptotic`, polepade.py:382. -/
noncomputable def asymRatios {N n m : ℕ} (z f : Fin N → ℂ) (zeros : Fin n → ℂ)
    (poles : Fin m → ℂ) (i : Fin N) : ℂ :=
  f i * (ZeroPole.mk zeros poles 1).reciprocal (z i)

/-- `asymptotic`, polepade.py:382-389: the estimate and its error. Line 384-385 without
weights, line 387-388 with weights; `np.average` raises `ZeroDivisionError` if the weights sum
up to zero. -/
noncomputable def asymptotic {N n m : ℕ} (z f : Fin N → ℂ) (zeros : Fin n → ℂ)
    (poles : Fin m → ℂ) (weight : Option (Fin N → ℝ)) : Except Err (ℂ × ℝ) :=
  let ratios := asymRatios z f zeros poles
  match weight with
  | none =>
    let asym := (∑ i, ratios i) / N
    .ok (asym, Real.sqrt ((∑ i, ‖ratios i - asym‖ ^ 2) / ((N : ℝ) - 1)))
  | some w =>
    if ∑ i, w i = 0 then .error .zeroDivision
    else
      let asym := (∑ i, (w i : ℂ) * ratios i) / ((∑ i, w i : ℝ) : ℂ)
      .ok (asym, (∑ i, w i * ‖ratios i - asym‖ ^ 2) / ∑ i, w i)

/-- Weight of the data points, one if `weight is None`. -/
def weightFn {N : ℕ} (weight : Option (Fin N → ℝ)) : Fin N → ℂ :=
  match weight with
  | none => fun _ => 1
  | some w => fun i => (w i : ℂ)

/-- `residues_ols`, polepade.py:416-431, the residues (first return value). -/
noncomputable def residuesOls (ext : LinalgExt ℂ) {N m l : ℕ} (z f : Fin N → ℂ)
    (poles : Fin m → ℂ) (weight : Option (Fin N → ℝ)) (moments : Fin l → ℂ) :
    Except Err (Fin m → ℂ) :=
  let w := weightFn weight
  let polematrix : Matrix (Fin N) (Fin m) ℂ := Matrix.of fun i j => 1 / (z i - poles j) * w i
  let f' := fun i => f i * w i
  if l = 0 then .ok (ext.lstsq polematrix f')
  else if m < l then .error .valueError
  else
    let constrain : Matrix (Fin l) (Fin m) ℂ := Matrix.of fun i j => poles j ^ (i : ℕ)
    lstsqEc ext polematrix f' constrain moments

/-- `PadeApprox`, polepade.py:99-123. -/
structure PadeApprox (n m : ℕ) where
  zeros : Fin n → ℂ
  poles : Fin m → ℂ
  residues : Fin m → ℂ
  amplitude : ℂ

/-- `PadeApprox.eval_polefct`, polepade.py:125-130. -/
noncomputable def PadeApprox.evalPolefct {n m : ℕ} (a : PadeApprox n m) (z : ℂ) : Except Err ℂ :=
  if m < n then .error .assertionError
  else .ok ((if n = m then a.amplitude else 0) + poleGfZ z a.poles a.residues)

/-- `PadeApprox.eval_zeropole`, polepade.py:132-134. -/
noncomputable def PadeApprox.evalZeropole {n m : ℕ} (a : PadeApprox n m) (z : ℂ) : ℂ :=
  (ZeroPole.mk a.zeros a.poles a.amplitude).eval z

/-- `PadeApprox.moments`, polepade.py:136-138. -/
noncomputable def PadeApprox.moments {n m : ℕ} (a : PadeApprox n m) (order : ℤ) : ℂ :=
  poleMoments a.poles a.residues order

open scoped Classical in
/-- Whether to rotate, polepade.py:501-502. `np.allclose(z.real, 0)` has the absolute tolerance
`1e-8`. -/
noncomputable def rotateFlag {N : ℕ} (z : Fin N → ℂ) (rotate : Option Bool) : Bool :=
  match rotate with
  | none => decide (∀ i, |(z i).re| ≤ 1e-8)
  | some r => r

/-- `continuation`, polepade.py:498-520. `fuel` bounds the iterations of `number_poles`, `none`
means that it is still running.

* Line 503-506: `z / 1j`; taking `z.real` of real numbers does not change the values.
* Line 507-510: number of poles, poles and zeros. Simplified: a negative number of poles or
  of zeros is reported as the `ValueError` of `polyvander` in `zeros`.
* Line 511-520: back rotation, amplitude, residues. -/
noncomputable def continuation (ext : PolepadeExt) {N l : ℕ} (z f : Fin N → ℂ) (degree : ℤ)
    (weight : Option (Fin N → ℝ)) (moments : Fin l → ℂ) (rotate : Option Bool)
    (realAsymp : Bool) (fuel : ℕ) : Option (Except Err (Σ n m : ℕ, PadeApprox n m)) :=
  if 0 < degree then some (.error .valueError)
  else
    let rot := rotateFlag z rotate
    let zr : Fin N → ℂ := fun i => if rot then z i / Complex.I else z i
    match numberPoles (polesNullDim ext.toLinalgExt zr f degree weight) N degree none fuel with
    | none => none
    | some (.error e) => some (.error e)
    | some (.ok m) =>
      if m < 0 ∨ m + degree < 0 then some (.error .valueError)
      else
        let n' := (m + degree).toNat
        let m' := m.toNat
        match polepadePoles ext zr f n' m' weight with
        | .error e => some (.error e)
        | .ok pls =>
          match polepadeZeros ext zr f pls n' weight with
          | .error e => some (.error e)
          | .ok zrs =>
            let pls' : Fin m' → ℂ := fun k => if rot then Complex.I * pls k else pls k
            let zrs' : Fin n' → ℂ := fun k => if rot then Complex.I * zrs k else zrs k
            match asymptotic z f zrs' pls' weight with
            | .error e => some (.error e)
            | .ok (asymp, _) =>
              let asymp' : ℂ := if realAsymp then (asymp.re : ℂ) else asymp
              let f' := fun i => if degree = 0 then f i - asymp' else f i
              match residuesOls ext.toLinalgExt z f' pls' weight moments with
              | .error e => some (.error e)
              | .ok res => some (.ok ⟨n', m', ⟨zrs', pls', res, asymp'⟩⟩)

end Gftool.Model
