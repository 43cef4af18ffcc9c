import Verif.Model.Memory
import Verif.Model.PadeMod

/-!
# `masked_coefficients` in memory

The matrix of `masked_coefficients` is filled element by element in two nested loops. `Model.PadeMod` describes only the
last valid row and the diagonal of it. Elements are `Option ℂ`, `none` is `np.inf`.
-/

namespace Gftool.Model

open MM

variable {N : ℕ}

/-- The element `x[a, b]` of a matrix. -/
def elem2 (x : Fin N × Fin N → Option ℂ) (a b : ℕ) : Option ℂ := if h : a < N ∧ b < N then x (⟨a, h.1⟩, ⟨b, h.2⟩) else none

/-- The element `x[a]` of a finite vector. -/
def elem1 (x : Fin N → Option ℂ) (a : ℕ) : ℂ := if h : a < N then (x ⟨a, h⟩).getD 0 else 0

/-- `mat[a, b] = v`. -/
noncomputable def setElem (mat : Arr (Fin N × Fin N)) (a b : ℕ) (v : Option ℂ) : MM (Option ℂ) Unit :=
  assign mat (fun p => (p.1 : ℕ) = a ∧ (p.2 : ℕ) = b) fun _ => v

/-- The variables `last_it`, `last_coeff` and `mask` of `masked_coefficients`. -/
structure MaskVars where
  lastIt : ℕ
  last : ℂ
  mask : ℕ → Bool

/-- The body of the inner loop, pade.py:335-342. The test in line 337 and line 339 are those of `maskedEntry`. -/
noncomputable def maskInner (mat : Arr (Fin N × Fin N)) (z : Arr (Fin N)) (s : MaskVars) (ii jj : ℕ) :
    MM (Option ℂ) Unit :=
  if s.mask jj then do
    let x ← read mat
    let zs ← read z
    setElem mat ii jj (maskedEntry s.last (elem1 zs s.lastIt) (elem1 zs jj) (elem2 x s.lastIt jj))
  else pure ()

/-- The body of the outer loop, pade.py:331-346. -/
noncomputable def maskBody (mat : Arr (Fin N × Fin N)) (z : Arr (Fin N)) (s : MaskVars) (ii : ℕ) :
    MM (Option ℂ) MaskVars := do
  let x ← read mat
  if signiDiff s.last (elem2 x s.lastIt ii) && comparableMag s.last (elem2 x s.lastIt ii) then
    let zs ← read z
    setElem mat ii ii (some ((s.last / (elem2 x s.lastIt ii).getD 0 - 1) / (elem1 zs ii - elem1 zs s.lastIt)))
    forRange (N - (ii + 1)) fun k => maskInner mat z s ii (ii + 1 + k)
    let x ← read mat
    return ⟨ii, (elem2 x ii ii).getD 0, s.mask⟩
  else return { s with mask := Function.update s.mask ii false }

/-- The iterations `ii = 1, …, n` of the outer loop. -/
noncomputable def maskLoop (mat : Arr (Fin N × Fin N)) (z : Arr (Fin N)) (s : MaskVars) : ℕ → MM (Option ℂ) MaskVars
  | 0 => pure s
  | n + 1 => do
    let s ← maskLoop mat z s n
    maskBody mat z s (n + 1)

open scoped Classical in
/-- `masked_coefficients`, pade.py:310-348, for one Green's function. `np.vectorize` copies the diagonal, which is a view of the
matrix, to the array it returns. -/
noncomputable def maskedCoefficientsArr (z fctZ : Arr (Fin N)) : MM (Option ℂ) (Arr (Fin N)) := do
  let mat ← new fun _ : Fin N × Fin N => some (0 : ℂ)
  if N = 0 then raise .indexError
  else
    let f ← read fctZ
    assign mat (fun p => (p.1 : ℕ) = 0) fun p => f p.2
    let f ← read fctZ
    if ¬ ‖elem1 f 0‖ > maskCutoff then raise .assertionError
    else
      let x ← read mat
      let _ ← maskLoop mat z ⟨0, (elem2 x 0 0).getD 0, fun _ => true⟩ (N - 1)
      let d ← read (⟨mat.addr, fun i => mat.pos (i, i)⟩ : Arr (Fin N))
      new d

end Gftool.Model
