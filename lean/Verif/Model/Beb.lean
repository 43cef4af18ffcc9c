import Verif.Model.Cpa
import Verif.Model.Matrix

/-!
# Model of `gftool/beb.py`
-/

namespace Gftool.Model

open Matrix

/-- `rcond` argument of `SpecDec.truncate`, beb.py:129-130: machine epsilon times the size. -/
noncomputable def bebRcond (n : ℕ) (rcond : Option ℝ) : ℝ := rcond.getD ((2 : ℝ) ^ (-52 : ℤ) * n)

/-- The modes kept by `SpecDec.truncate`, beb.py:131-132 (`np.max` of the absolute values; for
`n = 0` it raises, see `gfLocZ`). -/
def Significant {n : ℕ} (eig : Fin n → ℝ) (rcond : Option ℝ) (i : Fin n) : Prop :=
  (⨆ j, |eig j|) * bebRcond n rcond < |eig i|

/-- Truncated spectral decomposition, beb.py:96-134: the kept columns of `rv`, eigenvalues and
rows of `rv_inv`, as functions on an arbitrary index type of modes. -/
structure SpecDec (n : ℕ) (σ : Type) where
  u : Matrix (Fin n) σ ℂ
  eig : σ → ℝ
  uh : Matrix σ (Fin n) ℂ

/-- `SpecDec(*decompose_her(hopping)).truncate(rcond)`, beb.py:191-193, 373-375, where
`eig, vec` come from the Hermitian eigensolver. -/
def truncate {n : ℕ} (rv : Matrix (Fin n) (Fin n) ℂ) (eig : Fin n → ℝ)
    (rvInv : Matrix (Fin n) (Fin n) ℂ) (rcond : Option ℝ) :
    SpecDec n {i // Significant eig rcond i} :=
  ⟨Matrix.of fun i j => rv i j.1, fun j => eig j.1, Matrix.of fun j i => rvInv j.1 i⟩

/-- `SpecDec.is_trunacted`, beb.py:139-140: the number of columns differs from `n`. -/
def IsTruncated (n : ℕ) (σ : Type) [Fintype σ] : Prop := ¬ Fintype.card σ = n

variable {n : ℕ} {σ : Type} [Fintype σ] [DecidableEq σ]

/-- `np.emath.sqrt(eig)`, beb.py:149: complex square root. -/
noncomputable def SpecDec.sqrtEig (d : SpecDec n σ) (i : σ) : ℂ := (d.eig i : ℂ) ^ (1 / 2 : ℂ)

/-- `us` of `SpecDec.partition`, beb.py:150. -/
noncomputable def SpecDec.us (d : SpecDec n σ) : Matrix (Fin n) σ ℂ :=
  Matrix.of fun i j => d.u i j * d.sqrtEig j

/-- `suh` of `SpecDec.partition`, beb.py:150. -/
noncomputable def SpecDec.suh (d : SpecDec n σ) : Matrix σ (Fin n) ℂ :=
  Matrix.of fun j i => d.sqrtEig j * d.uh j i

/-- `z_m_self`, beb.py:200 and 249. -/
def zMSelf (z : ℂ) (selfBeb : Matrix (Fin n) (Fin n) ℂ) : Matrix (Fin n) (Fin n) ℂ :=
  z • (1 : Matrix (Fin n) (Fin n) ℂ) - selfBeb

open scoped Classical in
/-- Second half of `gf_loc_z`, beb.py:197-214 with `diag=False`, for the decomposed hopping. -/
noncomputable def gfLocDec (ext : EigExt) (d : SpecDec n σ) (z : ℂ)
    (selfBeb : Matrix (Fin n) (Fin n) ℂ) (hilbert : ℂ → ℂ) :
    Except Err (Matrix (Fin n) (Fin n) ℂ) :=
  match npInv (zMSelf z selfBeb) with
  | .error e => .error e
  | .ok inv =>
    match decomposeMat ext (d.suh * inv * d.us) with
    | .error e => .error e
    | .ok dec =>
      let diagInv := fun i => 1 / dec.eig i
      if ¬ IsTruncated n σ then
        let svhInv : Matrix (Fin n) σ ℂ := Matrix.of fun i j => d.uhᴴ i j / d.sqrtEig j
        let usInv : Matrix σ (Fin n) ℂ := Matrix.of fun j i => d.uᴴ j i / d.sqrtEig j
        let dec' : Decomposition (Fin n) σ := ⟨svhInv * dec.rv, dec.eig, dec.rvInv * usInv⟩
        .ok (dec'.reconstructFull (some fun i => hilbert (diagInv i)))
      else
        let dec' : Decomposition (Fin n) σ :=
          ⟨inv * d.us * dec.rv, dec.eig, dec.rvInv * d.suh * inv⟩
        .ok (inv + dec'.reconstructFull
          (some fun i => (diagInv i * hilbert (diagInv i) - 1) * diagInv i))

open scoped Classical in
/-- The same with `diag=True`: `kind='diag'` and the diagonal of the inverse. -/
noncomputable def gfLocDecDiag (ext : EigExt) (d : SpecDec n σ) (z : ℂ)
    (selfBeb : Matrix (Fin n) (Fin n) ℂ) (hilbert : ℂ → ℂ) : Except Err (Fin n → ℂ) :=
  match npInv (zMSelf z selfBeb) with
  | .error e => .error e
  | .ok inv =>
    match decomposeMat ext (d.suh * inv * d.us) with
    | .error e => .error e
    | .ok dec =>
      let diagInv := fun i => 1 / dec.eig i
      if ¬ IsTruncated n σ then
        let svhInv : Matrix (Fin n) σ ℂ := Matrix.of fun i j => d.uhᴴ i j / d.sqrtEig j
        let usInv : Matrix σ (Fin n) ℂ := Matrix.of fun j i => d.uᴴ j i / d.sqrtEig j
        let dec' : Decomposition (Fin n) σ := ⟨svhInv * dec.rv, dec.eig, dec.rvInv * usInv⟩
        .ok (dec'.reconstructDiag (some fun i => hilbert (diagInv i)))
      else
        let dec' : Decomposition (Fin n) σ :=
          ⟨inv * d.us * dec.rv, dec.eig, dec.rvInv * d.suh * inv⟩
        .ok (fun i => inv i i + dec'.reconstructDiag
          (some fun i => (diagInv i * hilbert (diagInv i) - 1) * diagInv i) i)

open scoped Classical in
/-- `gf_loc_z`, beb.py:191-214 with `diag=False`. -/
noncomputable def gfLocZ (ext : EigExt) (z : ℂ) (selfBeb hopping : Matrix (Fin n) (Fin n) ℂ)
    (hilbert : ℂ → ℂ) (rcond : Option ℝ) : Except Err (Matrix (Fin n) (Fin n) ℂ) :=
  match decomposeHer ext hopping true with
  | .error e => .error e
  | .ok dec =>
    if n = 0 then .error .valueError
    else gfLocDec ext (truncate dec.rv (fun i => (dec.eig i).re) dec.rvInv rcond) z selfBeb hilbert

open scoped Classical in
/-- `gf_loc_inv` in `self_root_eq`, beb.py:248-261. -/
noncomputable def gfLocInv (ext : EigExt) (d : SpecDec n σ) (z : ℂ)
    (selfBeb : Matrix (Fin n) (Fin n) ℂ) (hilbert : ℂ → ℂ) :
    Except Err (Matrix (Fin n) (Fin n) ℂ) :=
  match npInv (zMSelf z selfBeb) with
  | .error e => .error e
  | .ok inv =>
    match decomposeMat ext (d.suh * inv * d.us) with
    | .error e => .error e
    | .ok dec =>
      let dec' : Decomposition (Fin n) σ := ⟨d.us * dec.rv, dec.eig, dec.rvInv * d.suh⟩
      let diagInv := fun i => 1 / dec.eig i
      if ¬ IsTruncated n σ then
        .ok (dec'.reconstructFull (some fun i => 1 / hilbert (diagInv i)))
      else
        .ok (zMSelf z selfBeb
          + dec'.reconstructFull (some fun i => 1 / hilbert (diagInv i) - diagInv i))

/-- `self_root_eq`, beb.py:248-265, for one frequency. -/
noncomputable def bebSelfRootEq (ext : EigExt) (d : SpecDec n σ)
    (selfBeb : Matrix (Fin n) (Fin n) ℂ) (z : ℂ) (eOnsite : Fin n → ℂ) (conc : Fin n → ℝ)
    (hilbert : ℂ → ℂ) : Except Err (Matrix (Fin n) (Fin n) ℂ) :=
  match gfLocInv ext d z selfBeb hilbert with
  | .error e => .error e
  | .ok inv =>
    let gfIiAvgInv := fun i => (inv i i + selfBeb i i - eOnsite i) / (conc i : ℂ)
    .ok (inv - Matrix.diagonal gfIiAvgInv)

open scoped Classical in
/-- Evaluation for all frequencies: `numpy.linalg` works on the stack of matrices and raises if
one of them fails. -/
noncomputable def forAll {κ α : Type*} (f : κ → Except Err α) : Except Err (κ → α) :=
  if h : ∀ k, ∃ a, f k = .ok a then .ok fun k => (h k).choose else .error .linAlgError

/-- The diagonal of each matrix of a stack with negative imaginary part or zero. -/
noncomputable def bebClip {κ : Type*} (s : κ → Matrix (Fin n) (Fin n) ℂ) :
    κ → Matrix (Fin n) (Fin n) ℂ := fun k =>
  Matrix.of fun i j => if i = j then clip (s k i i) else s k i j

open scoped Classical in
/-- `restrict_self_root_eq`, beb.py:270-285, for an arbitrary root equation: only the diagonal
is restricted. Returns the value and the array `self_beb_z` after the call. -/
noncomputable def bebRestrict {κ : Type*}
    (rootEq : (κ → Matrix (Fin n) (Fin n) ℂ) → Except Err (κ → Matrix (Fin n) (Fin n) ℂ))
    (s : κ → Matrix (Fin n) (Fin n) ℂ) :
    Except Err ((κ → Matrix (Fin n) (Fin n) ℂ) × (κ → Matrix (Fin n) (Fin n) ℂ)) :=
  if ∀ k i, ¬ 0 < (s k i i).im then (rootEq s).map fun r => (r, s)
  else (rootEq (bebClip s)).map fun root =>
    (fun k => Matrix.of fun i j =>
      if i = j ∧ 0 < (s k i i).im then enlarge (root k i i) (s k i i).im else root k i j, bebClip s)

/-- External `scipy.optimize.root` for a function that may raise and may change its argument. -/
abbrev ExceptSolver (α : Type*) := (α → Except Err (α × α)) → α → Except Err (SolverResult α)

open scoped Classical in
/-- The starting guess of `solve_root`, beb.py:379-390. -/
noncomputable def bebStart {κ : Type*} (z : κ → ℂ)
    (rootEq : (κ → Matrix (Fin n) (Fin n) ℂ) → Except Err (κ → Matrix (Fin n) (Fin n) ℂ))
    (x0 : Option (κ → Matrix (Fin n) (Fin n) ℂ)) : Except Err (κ → Matrix (Fin n) (Fin n) ℂ) :=
  match x0 with
  | some x0 => .ok x0
  | none =>
    match rootEq 0 with
    | .error e => .error e
    | .ok s =>
      if ∀ k, 0 ≤ (z k).im then
        let s' := fun k => Matrix.of fun i j =>
          if i = j then (if (s k i i).im < 0 then s k i i else star (s k i i)) else s k i j
        if ∀ k i, (s' k i i).im ≤ 0 then .ok s' else .error .assertionError
      else .ok s

/-- `solve_root`, beb.py:373-413, after the decomposition of the hopping (`d`). -/
noncomputable def bebSolveRoot {κ : Type*} (ext : EigExt)
    (solver : ExceptSolver (κ → Matrix (Fin n) (Fin n) ℂ)) (d : SpecDec n σ) (z : κ → ℂ)
    (eOnsite : κ → Fin n → ℂ) (conc : κ → Fin n → ℝ) (hilbert : ℂ → ℂ)
    (x0 : Option (κ → Matrix (Fin n) (Fin n) ℂ)) (restricted : Bool) :
    Except Err (κ → Matrix (Fin n) (Fin n) ℂ) :=
  let rootEq := fun s : κ → Matrix (Fin n) (Fin n) ℂ =>
    forAll fun k => bebSelfRootEq ext d (s k) (z k) (eOnsite k) (conc k) hilbert
  match bebStart z rootEq x0 with
  | .error e => .error e
  | .ok start =>
    match solver (if restricted then bebRestrict rootEq else
        fun s => (rootEq s).map fun r => (r, s)) start with
    | .error e => .error e
    | .ok sol => if sol.success then .ok sol.x else .error .runtimeError

end Gftool.Model
