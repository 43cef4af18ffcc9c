import Verif.Model.Linalg
import Verif.Model.Matrix

/-!
# Model of `gftool/linearprediction.py`

For a single series (no leading axes) of complex numbers.
-/

namespace Gftool.Model

open Matrix

open scoped Classical in
/-- `companion`, linearprediction.py:153-169, for `a = [a0, *rest]`. -/
noncomputable def companion {n : ℕ} (a0 : ℂ) (rest : Fin n → ℂ) :
    Except Err (Matrix (Fin n) (Fin n) ℂ) :=
  if n + 1 < 2 then .error .valueError
  else if a0 = 0 then .error .valueError
  else .ok (Matrix.of fun i j =>
    if (i : ℕ) = 0 then - rest j / (1.0 * a0) else if (i : ℕ) = j + 1 then 1 else 0)

/-- Elementwise product of one-dimensional arrays with the broadcasting rules of numpy. -/
def bcastMul (a b : List ℂ) : Except Err (List ℂ) :=
  if a.length = b.length then .ok (List.zipWith (· * ·) a b)
  else if a.length = 1 then .ok (b.map (a.headD 0 * ·))
  else if b.length = 1 then .ok (a.map (· * b.headD 0))
  else .error .valueError

/-- One iteration of the loop of `predict`, linearprediction.py:342-343. `xt` is the part of
`xtended` filled so far, `ii = len(xt)`; `total` is the length of the whole array, which matters as
a negative start `ii - order` of the slice counts from its end. -/
def predictStep (total : ℕ) (pcoeff xt : List ℂ) : Except Err ℂ :=
  let ii := xt.length
  let order := pcoeff.length
  let lo := if order ≤ ii then ii - order else total - (order - ii)
  match bcastMul pcoeff.reverse (xt.drop lo) with
  | .error e => .error e
  | .ok l => .ok (- l.sum)

/-- The loop of `predict`, linearprediction.py:342-343: `num` more steps. -/
def predictLoop (total : ℕ) (pcoeff : List ℂ) : ℕ → List ℂ → Except Err (List ℂ)
  | 0, xt => .ok xt
  | num + 1, xt =>
    match predictStep total pcoeff xt with
    | .error e => .error e
    | .ok y => predictLoop total pcoeff num (xt ++ [y])

/-- `predict` with `stable=False`, linearprediction.py:332-344. -/
def predict (x pcoeff : List ℂ) (num : ℤ) : Except Err (List ℂ) :=
  if num < 0 then .error .valueError
  else predictLoop (x.length + num.toNat) pcoeff num.toNat x

open scoped Classical in
/-- `_predict_stable`, linearprediction.py:357-375. The matrix-vector product fails (`ValueError`)
if `x` has fewer than `order` elements. -/
noncomputable def predictStable (ext : EigExt) {p : ℕ} (x : List ℂ) (pcoeff : Fin p → ℂ) (num : ℕ) :
    Except Err (List ℂ) :=
  match companion 1 pcoeff with
  | .error e => .error e
  | .ok mat =>
    match decomposeMat ext mat with
    | .error e => .error e
    | .ok dec =>
      if hp : p = 0 then .error .valueError
      else if x.length < p then .error .valueError
      else
        let state : Fin p → ℂ := fun i => x.getD (x.length - 1 - i) 0
        let right := dec.rvInv *ᵥ state
        let left : Fin p → ℂ := fun j => dec.rv ⟨0, by omega⟩ j
        let residues := fun j => if 1 < ‖dec.eig j‖ then 0 else left j * right j
        .ok (x ++ (List.range num).map fun k => ∑ j, residues j * dec.eig j ^ (k + 1))

/-- `predict`, linearprediction.py:332-344, with the keyword `stable`. -/
noncomputable def predictKw (ext : EigExt) {p : ℕ} (x : List ℂ) (pcoeff : Fin p → ℂ) (num : ℤ)
    (stable : Bool) : Except Err (List ℂ) :=
  if num < 0 then .error .valueError
  else if stable then predictStable ext x pcoeff num.toNat
  else predict x (List.ofFn pcoeff) num

/-- Matrix `Xmat = toeplitz(x[order-1:-1], x[order-1::-1])`, linearprediction.py:227: entry `i, j`
is `x[order-1+i-j]`. -/
def covarMat (x : ℕ → ℂ) (N order : ℕ) : Matrix (Fin (N - order)) (Fin order) ℂ :=
  Matrix.of fun i j => if (j : ℕ) ≤ i then x (order - 1 + (i - j)) else x (order - 1 - (j - i))

/-- `pcoeff_covar`, linearprediction.py:210-235, for a series with `N` elements: coefficients and
error. For `order = 0` the shapes do not fit. -/
noncomputable def pcoeffCovar (ext : LinalgExt ℂ) (x : ℕ → ℂ) (N order : ℕ) :
    Except Err ((Fin order → ℂ) × ℝ) :=
  if N ≤ order then .error .valueError
  else if order = 0 then .error .linAlgError
  else
    let xmat := covarMat x N order
    let xvec : Fin (N - order) → ℂ := fun i => x (order + i)
    let coeff := ext.lstsq xmat (-xvec)
    .ok (coeff, Real.sqrt (sqNorm (xvec + xmat *ᵥ coeff)))

/-- Variables of the loop in `pcoeff_burg`: the errors `eforw`, `eback` (both of length `n`), the
coefficients of the current order, its reflection coefficient and `rho`. -/
structure BurgState where
  n : ℕ
  f : ℕ → ℂ
  b : ℕ → ℂ
  a : ℕ → ℂ
  rho : ℝ

/-- `denom`, linearprediction.py:286. -/
noncomputable def burgDenom (s : BurgState) : ℝ :=
  ∑ i ∈ Finset.range s.n, ‖s.f i‖ ^ 2 + ∑ i ∈ Finset.range s.n, ‖s.b i‖ ^ 2

/-- `kk`, linearprediction.py:280-288. -/
noncomputable def burgRefl (s : BurgState) : ℂ :=
  (-2 * ∑ i ∈ Finset.range s.n, s.f i * star (s.b i)) / burgDenom s

/-- Iteration `k` of the loop, linearprediction.py:279-295. -/
noncomputable def burgStep (k : ℕ) (s : BurgState) : BurgState :=
  let kk := burgRefl s
  { n := s.n - 1
    f := fun i => s.f (i + 1) + kk * s.b (i + 1)
    b := fun i => s.b i + star kk * s.f i
    a := fun j => if j = k - 1 then kk else if j < k - 1 then s.a j + kk * star (s.a (k - 2 - j)) else 0
    rho := (1 - ‖kk‖ ^ 2) * s.rho }

/-- State before the loop, linearprediction.py:273-278. -/
noncomputable def burgInit (x : ℕ → ℂ) (N : ℕ) : BurgState :=
  { n := N - 1, f := fun i => x (i + 1), b := x, a := fun _ => 0
    rho := (∑ i ∈ Finset.range N, ‖x i‖ ^ 2) / N }

/-- State after `k` iterations. -/
noncomputable def burgState (x : ℕ → ℂ) (N : ℕ) : ℕ → BurgState
  | 0 => burgInit x N
  | k + 1 => burgStep (k + 1) (burgState x N k)

open scoped Classical in
/-- `pcoeff_burg`, linearprediction.py:273-298, for a series of `N` elements. `none`: the result is
not finite, because one of the denominators vanishes (in particular if no data are left). For
`order = 0` the access `a[..., -1, :]` fails. -/
noncomputable def pcoeffBurg (x : ℕ → ℂ) (N order : ℕ) :
    Except Err (Option ((Fin order → ℂ) × ℝ)) :=
  if order = 0 then .error .indexError
  else if ∀ k < order, burgDenom (burgState x N k) ≠ 0 then
    .ok (some (fun j => (burgState x N order).a j, (burgState x N order).rho))
  else .ok none

end Gftool.Model
