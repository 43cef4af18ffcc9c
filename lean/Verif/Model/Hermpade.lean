import Verif.Model.Linalg
import Verif.Model.Matrix
import Mathlib.Analysis.SpecialFunctions.Pow.Complex

/-!
# Model of `gftool/hermpade.py`

A series is a sequence `an : ℕ → ℂ` of which the first `L` coefficients are passed to the code.
Polynomials are coefficient lists, lowest order first (as `numpy.polynomial.Polynomial`).
-/

namespace Gftool.Model

open Matrix

/-- `scipy.linalg.toeplitz(c, r)`: entry `i, j`; the first element of `r` is ignored. -/
def toeplitz (c r : ℕ → ℂ) (i j : ℕ) : ℂ := if j ≤ i then c (i - j) else r (j - i)

/-- External `scipy.linalg.solve_toeplitz((c, r), b)` (Levinson recursion). It raises `LinAlgError`
for a singular principal minor; if it returns, it returns a solution. -/
structure ToeplitzExt where
  solve : ∀ {n : ℕ}, (ℕ → ℂ) → (ℕ → ℂ) → (Fin n → ℂ) → Except Err (Fin n → ℂ)
  sound : ∀ {n : ℕ} (c r : ℕ → ℂ) (b x : Fin n → ℂ), solve c r b = .ok x →
    (Matrix.of fun i j : Fin n => toeplitz c r i j) *ᵥ x = b

/-- `_nullvec`, hermpade.py:295-296: last column of `q` in the full QR decomposition of
`mat.conj().T`. -/
def nullvec (ext : LinalgExt ℂ) {n : ℕ} (mat : Matrix (Fin n) (Fin (n + 1)) ℂ) : Fin (n + 1) → ℂ :=
  fun i => (ext.qr matᴴ).1 i (Fin.last n)

/-- `_nullvec_lst`, hermpade.py:326-334, for non-negative `fix`: component `fix` is set to one and
the others are a least-squares solution (`rcond` is not modelled). -/
noncomputable def nullvecLst (ext : LinalgExt ℂ) {l n : ℕ} (mat : Matrix (Fin l) (Fin (n + 1)) ℂ)
    (fix : ℕ) : Except Err (Fin (n + 1) → ℂ) :=
  if h : fix < n + 1 then
    let f : Fin (n + 1) := ⟨fix, h⟩
    let vec := ext.lstsq (mat.submatrix id f.succAbove) (fun i => - mat i f)
    .ok (f.insertNth (α := fun _ => ℂ) 1 vec)
  else .error .valueError

/-- `top`, hermpade.py:404: `an[num_deg+1::-1][:den_deg+1]` followed by `den_deg - num_deg - 1`
zeros (if positive): `an` read backwards from index `num_deg + 1`, then zeros. -/
def padeTop (an : ℕ → ℂ) (numDeg j : ℕ) : ℂ := if j ≤ numDeg + 1 then an (numDeg + 1 - j) else 0

/-- `matmul_toeplitz((an[:num_deg+1], zeros), qcoeff)`, hermpade.py:411. -/
def padeNumer (an : ℕ → ℂ) (numDeg : ℕ) {n : ℕ} (q : Fin n → ℂ) : List ℂ :=
  List.ofFn fun i : Fin (numDeg + 1) => ∑ j : Fin n, toeplitz an (fun _ => 0) i j * q j

/-- `pade`, hermpade.py:394-412, for the first `L` coefficients of `an`. -/
noncomputable def hermPade (ext : LinalgExt ℂ) (text : ToeplitzExt) (L : ℕ) (an : ℕ → ℂ)
    (numDeg denDeg : ℕ) (fast : Bool) : Except Err RatPol :=
  if L < numDeg + denDeg + 1 then .error .valueError
  else if denDeg = 0 then
    .ok ⟨List.ofFn fun i : Fin (numDeg + denDeg + 1) => an i, [1]⟩
  else
    let col := fun k => an (numDeg + 1 + k)
    let top := padeTop an numDeg
    let qcoeff : Except Err (Fin (denDeg + 1) → ℂ) :=
      if fast then
        match text.solve (n := denDeg) col top (fun i => - top (denDeg - i)) with
        | .error e => .error e
        | .ok v => .ok (Fin.snoc (α := fun _ => ℂ) v 1)
      else
        .ok (nullvec ext (Matrix.of fun (i : Fin denDeg) (j : Fin (denDeg + 1)) =>
          toeplitz col top i j))
    match qcoeff with
    | .error e => .error e
    | .ok q => .ok ⟨padeNumer an numDeg q, List.ofFn q⟩

/-- `pade_lstsq`, hermpade.py:448-466. The component that is fixed to one is always `0`: the
argument `fix_q` and its default from the singular value decomposition are not used. For
`den_deg = 0` all coefficients are returned. -/
noncomputable def padeLstsq (ext : LinalgExt ℂ) (L : ℕ) (an : ℕ → ℂ) (numDeg denDeg : ℕ) :
    Except Err RatPol :=
  if L < numDeg + denDeg + 1 then .error .valueError
  else if denDeg = 0 then .ok ⟨List.ofFn fun i : Fin L => an i, [1]⟩
  else
    let amat : Matrix (Fin (L - (numDeg + 1))) (Fin (denDeg + 1)) ℂ := Matrix.of fun i j =>
      toeplitz (fun k => an (numDeg + 1 + k)) (padeTop an numDeg) i j
    match nullvecLst ext amat 0 with
    | .error e => .error e
    | .ok q => .ok ⟨padeNumer an numDeg q, List.ofFn q⟩

open scoped Classical in
/-- `np.argmax(coeff != 0)`: first index with a non-zero entry, `0` if there is none, `ValueError`
for an empty array. -/
noncomputable def argmaxNonzero (l : List ℂ) : Except Err ℕ :=
  if l = [] then .error .valueError else .ok ((l.findIdx? fun x => decide (x ≠ 0)).getD 0)

/-- `coeff[:-n]` if `n` else `coeff`, hermpade.py:273-274 and 276-277. -/
def dropTrailing (l : List ℂ) (n : ℕ) : List ℂ := if n ≠ 0 then l.take (l.length - n) else l

/-- `_strip_ceoffs`, hermpade.py:268-278. -/
noncomputable def stripCoeffs (p q : List ℂ) : Except Err RatPol := do
  let leading ← argmaxNonzero q
  let p := p.drop leading
  let q := q.drop leading
  let tq ← argmaxNonzero q.reverse
  let q := dropTrailing q tq
  let tp ← argmaxNonzero p.reverse
  let p := dropTrailing p tp
  .ok ⟨p, q⟩

/-- External `np.linalg.svd(amat, compute_uv=False)`: singular values in descending order. Only the
shape is assumed here. -/
structure SvdVals where
  vals : ∀ {n : ℕ}, Matrix (Fin n) (Fin (n + 1)) ℂ → List ℝ
  length : ∀ {n : ℕ} (m : Matrix (Fin n) (Fin (n + 1)) ℂ), (vals m).length = n

/-- `amat` in `pader`, hermpade.py:548-549. -/
def paderMat (an : ℕ → ℂ) (numDeg denDeg : ℕ) : Matrix (Fin denDeg) (Fin (denDeg + 1)) ℂ :=
  Matrix.of fun i j => toeplitz an (fun _ => 0) (numDeg + 1 + i) j

open scoped Classical in
/-- `rho`, hermpade.py:552. -/
noncomputable def paderRho (svd : SvdVals) (an : ℕ → ℂ) (rcond : ℝ) (numDeg denDeg : ℕ) : ℕ :=
  let s := svd.vals (paderMat an numDeg denDeg)
  s.countP fun x => decide (rcond * s.headD 0 < x)

open scoped Classical in
/-- The loop of `pader`, hermpade.py:542-565, returning `pcoeff` and `qcoeff`. A reduction to a
negative `num_deg` is not modelled (`notImplemented`). -/
noncomputable def paderLoop (ext : LinalgExt ℂ) (svd : SvdVals) (an : ℕ → ℂ) (rcond : ℝ)
    (numDeg denDeg : ℕ) : Except Err (List ℂ × List ℂ) :=
  if denDeg = 0 then .ok ((List.ofFn fun i : Fin (numDeg + denDeg + 1) => an i).take denDeg, [1])
  else
    let rho := paderRho svd an rcond numDeg denDeg
    if _h : rho < denDeg then
      if numDeg < denDeg - rho then .error .notImplemented
      else paderLoop ext svd an rcond (numDeg - (denDeg - rho)) rho
    else
      let q := nullvec ext (paderMat an numDeg denDeg)
      .ok (padeNumer an numDeg q, List.ofFn q)
termination_by denDeg
decreasing_by assumption

open scoped Classical in
/-- `pader`, hermpade.py:529-567. -/
noncomputable def pader (ext : LinalgExt ℂ) (svd : SvdVals) (L : ℕ) (an : ℕ → ℂ)
    (numDeg denDeg : ℕ) (rcond : ℝ) : Except Err RatPol :=
  if L < numDeg + denDeg + 1 then .error .valueError
  else
    let tol := rcond * Real.sqrt (∑ i ∈ Finset.range (numDeg + denDeg + 1), ‖an i‖ ^ 2)
    if ∀ i < numDeg, ‖an i‖ ≤ tol then .ok ⟨[0], [1]⟩
    else
      match paderLoop ext svd an rcond numDeg denDeg with
      | .error e => .error e
      | .ok (p, q) => stripCoeffs p q

/-! ### Quadratic Hermite-Padé -/

/-- Entries of `full_amat = toeplitz(an, r=zeros)`, hermpade.py:630. -/
def fullAmat (an : ℕ → ℂ) (i j : ℕ) : ℂ := toeplitz an (fun _ => 0) i j

/-- Entries of `amat2 = full_amat@full_amat[:, :r_deg+1]`, hermpade.py:631, for `L` coefficients. -/
def amat2 (an : ℕ → ℂ) (L i j : ℕ) : ℂ :=
  ∑ k ∈ Finset.range L, fullAmat an i k * fullAmat an k j

/-- Row `i` of `np.concatenate((amat, amat2), axis=-1)`, hermpade.py:633, 636: `amat` has
`q_deg + 1` columns. -/
def herm2Row (an : ℕ → ℂ) (L qDeg i j : ℕ) : ℂ :=
  if j < qDeg + 1 then fullAmat an i j else amat2 an L i (j - (qDeg + 1))

/-- Polynomials `p`, `q`, `r`. -/
structure Herm2 where
  p : List ℂ
  q : List ℂ
  r : List ℂ

/-- `pcoeff` and splitting of `qrcoeff`, hermpade.py:634-638. -/
def herm2Result (an : ℕ → ℂ) (L pDeg qDeg rDeg : ℕ) (qr : Fin (qDeg + rDeg + 1 + 1) → ℂ) : Herm2 :=
  ⟨List.ofFn fun i : Fin (pDeg + 1) => - ∑ j : Fin (qDeg + rDeg + 1 + 1), herm2Row an L qDeg i j * qr j,
    List.ofFn fun i : Fin (qDeg + 1) => qr ⟨i, by omega⟩,
    List.ofFn fun i : Fin (rDeg + 1) => qr ⟨qDeg + 1 + i, by omega⟩⟩

/-- `hermite2`, hermpade.py:623-638. -/
noncomputable def hermite2 (ext : LinalgExt ℂ) (L : ℕ) (an : ℕ → ℂ) (pDeg qDeg rDeg : ℕ) :
    Except Err Herm2 :=
  let lmax := rDeg + qDeg + pDeg + 2
  if L < lmax then .error .valueError
  else
    let lower : Matrix (Fin (qDeg + rDeg + 1)) (Fin (qDeg + rDeg + 1 + 1)) ℂ :=
      Matrix.of fun i j => herm2Row an lmax qDeg (pDeg + 1 + i) j
    .ok (herm2Result an lmax pDeg qDeg rDeg (nullvec ext lower))

open scoped Classical in
/-- `hermite2_lstsq`, hermpade.py:691-711; `fix` is `fix_qr` or the index chosen by the heuristic
of lines 703-707. -/
noncomputable def hermite2Lstsq (ext : LinalgExt ℂ) (L : ℕ) (an : ℕ → ℂ) (pDeg qDeg rDeg fix : ℕ) :
    Except Err Herm2 :=
  if L < rDeg + qDeg + pDeg + 2 then .error .valueError
  else if ∀ i < L, an i = 0 then
    .ok ⟨List.replicate (pDeg + 1) 0, List.replicate (qDeg + 1) 0, 1 :: List.replicate rDeg 0⟩
  else
    let lower : Matrix (Fin (L - (pDeg + 1))) (Fin (qDeg + rDeg + 1 + 1)) ℂ :=
      Matrix.of fun i j => herm2Row an L qDeg (pDeg + 1 + i) j
    match nullvecLst ext lower fix with
    | .error e => .error e
    | .ok qr => .ok (herm2Result an L pDeg qDeg rDeg qr)

open scoped Classical in
/-- `_Hermite2Base.eval_branches`, hermpade.py:722-732, at one point. `np.emath.sqrt` is the
principal square root. `none`: the quotients are not finite. With a scalar instead of an array
(`scalar`), `np.divide(…, out=p_branch)` raises `TypeError`, as `p_branch` is no array then.
The second `np.divide` uses the result of the first one. -/
noncomputable def evalBranches (h : Herm2) (scalar : Bool) (z : ℂ) : Except Err (Option (ℂ × ℂ)) :=
  if scalar then .error .typeError
  else
    let pz := polyval h.p z
    let qz := polyval h.q z
    let rz := polyval h.r z
    if rz = 0 then .ok none
    else
      let disc := (qz ^ 2 - 4 * pz * rz) ^ (1 / 2 : ℂ)
      let pBranch := 0.5 * (-qz + disc) / rz
      let mBranch := 0.5 * (-qz - disc) / rz
      let pBranch' := if ‖pBranch‖ < ‖mBranch‖ then pz / (rz * mBranch) else pBranch
      let mBranch' := if ‖mBranch‖ < ‖pBranch'‖ then pz / (rz * pBranch') else mBranch
      .ok (some (pBranch', mBranch'))

open scoped Classical in
/-- `Hermite2.eval`, hermpade.py:823-827, with the approximant `pade`. If its value is not finite,
the comparison is false. -/
noncomputable def hermite2Eval (h : Herm2) (pade : RatPol) (scalar : Bool) (z : ℂ) :
    Except Err (Option ℂ) :=
  match evalBranches h scalar z with
  | .error e => .error e
  | .ok none => .ok none
  | .ok (some (p, m)) =>
    if polyval pade.denom z = 0 then .ok (some m)
    else .ok (some (if ‖p - pade.eval z‖ < ‖m - pade.eval z‖ then p else m))

/-- Degrees of the Padé approximant in `Hermite2.from_taylor`, hermpade.py:833-836:
`(num_deg, den_deg)`. -/
def herm2PadeDeg (degP degQ degR : ℕ) : ℤ × ℤ :=
  let degDiff : ℤ := (max degQ (Nat.sqrt (degP * degR)) : ℕ) - degR
  let length : ℤ := degR + degQ + degP
  let denDeg := (length - degDiff) / 2
  (denDeg + degDiff, denDeg)

/-- `Hermite2.from_taylor`, hermpade.py:830-837; negative degrees would be wrong indices. -/
noncomputable def hermite2FromTaylor (ext : LinalgExt ℂ) (text : ToeplitzExt) (L : ℕ) (an : ℕ → ℂ)
    (degP degQ degR : ℕ) : Except Err (Herm2 × RatPol) :=
  match hermite2 ext L an degP degQ degR with
  | .error e => .error e
  | .ok h =>
    let d := herm2PadeDeg degP degQ degR
    if d.1 < 0 ∨ d.2 < 0 then .error .indexError
    else
      match hermPade ext text L an d.1.toNat d.2.toNat false with
      | .error e => .error e
      | .ok r => .ok (h, r)

open scoped Classical in
/-- `_Hermite2Ret.eval`, hermpade.py:866-879: selection among the branches. `np.select` takes the
first condition that holds, and `0` if there is none. -/
noncomputable def retSelect (p m : ℂ) : ℂ :=
  if p.im ≤ 0 ∧ ¬ m.im ≤ 0 then p
  else if ¬ p.im ≤ 0 ∧ m.im ≤ 0 then m
  else if p.im ≤ 0 ∧ m.im ≤ 0 ∧ p.im ≥ m.im then p
  else if p.im ≤ 0 ∧ m.im ≤ 0 ∧ m.im ≥ p.im then m
  else if ¬ p.im ≤ 0 ∧ ¬ m.im ≤ 0 ∧ p.im ≤ m.im then p
  else if ¬ p.im ≤ 0 ∧ ¬ m.im ≤ 0 ∧ m.im ≤ p.im then m
  else 0

end Gftool.Model
