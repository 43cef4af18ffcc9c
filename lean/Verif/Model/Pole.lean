import Verif.Model.Basic
import Verif.Model.Statistics
import Verif.Model.Linalg
import Mathlib.Data.Complex.BigOperators
import Mathlib.LinearAlgebra.Vandermonde
import Mathlib.Analysis.SpecialFunctions.Trigonometric.Basic

/-!
# Model of `gftool/basis/pole.py`

Poles and weights are functions on a finite index type (the last axis of the arrays, already
broadcast against each other); one frequency/time at a time.
-/

namespace Gftool.Model

open Complex (I)

variable {ι : Type*} [Fintype ι]

/-- `_chebyshev_points`, basis/pole.py:30-32: `sin(0.5*π/num * arange(-num+1, num+1, 2))`;
`np.arange(-num+1, num+1, 2)` has the `num` elements `-num + 1 + 2*k`. -/
noncomputable def chebyshevPoints (num : ℕ) (k : Fin num) : ℝ :=
  Real.sin (0.5 * Real.pi / num * (-(num : ℝ) + 1 + 2 * (k : ℕ)))

/-- `gf_z`, basis/pole.py:308-310. -/
noncomputable def poleGfZ (z : ℂ) (poles weights : ι → ℂ) : ℂ :=
  ∑ i, weights i / (z - poles i)

/-- `gf_d1_z`, basis/pole.py:338-340. -/
noncomputable def poleGfD1Z (z : ℂ) (poles weights : ι → ℂ) : ℂ :=
  -∑ i, weights i * (z - poles i) ^ (-2 : ℤ)

/-- `np.sign` of a float. -/
noncomputable def npSign (x : ℝ) : ℝ := if x < 0 then -1 else if 0 < x then 1 else 0

/-- `_single_pole_gf_tau` for a real pole, basis/pole.py:343-348 (the `assert` is checked in
`poleGfTau`; there `fermi_fct` takes the real branch). -/
noncomputable def singlePoleGfTau (tau pole beta : ℝ) : ℝ :=
  let exponent := (if 0 ≤ pole then -tau else -tau + beta) * pole;
  -Real.exp exponent * fermiFct (-npSign pole * pole) beta

/-- `_single_pole_gf_tau` for a complex pole, basis/pole.py:343-348 (there `fermi_fct` takes
the complex branch). -/
noncomputable def singlePoleGfTauC (tau : ℝ) (pole : ℂ) (beta : ℝ) : ℂ :=
  let exponent := (if 0 ≤ pole.re then (-tau : ℂ) else -tau + beta) * pole;
  -Complex.exp exponent * fermiFctC (-(npSign pole.re : ℂ) * pole) beta

open scoped Classical in
/-- `gf_tau` for real poles and weights, basis/pole.py:374-378; assertion of line 374. -/
noncomputable def poleGfTau (tau : ℝ) (poles weights : ι → ℝ) (beta : ℝ) : Except Err ℝ :=
  if 0 ≤ tau ∧ tau ≤ beta then .ok (∑ i, weights i * singlePoleGfTau tau (poles i) beta)
  else .error .assertionError

open scoped Classical in
/-- `gf_tau` for complex poles and weights, basis/pole.py:374-378. -/
noncomputable def poleGfTauC (tau : ℝ) (poles weights : ι → ℂ) (beta : ℝ) : Except Err ℂ :=
  if 0 ≤ tau ∧ tau ≤ beta then .ok (∑ i, weights i * singlePoleGfTauC tau (poles i) beta)
  else .error .assertionError

/-- `_single_pole_gf_ret_t`, basis/pole.py:381-383. -/
noncomputable def singlePoleGfRetT (tt : ℝ) (pole : ℂ) : ℂ :=
  if 0 ≤ tt then -I * Complex.exp (-I * pole * tt) else 0

/-- `gf_ret_t`, basis/pole.py:406-408. -/
noncomputable def poleGfRetT (tt : ℝ) (poles weights : ι → ℂ) : ℂ :=
  ∑ i, weights i * singlePoleGfRetT tt (poles i)

/-- `_single_pole_gf_gr_t`, basis/pole.py:411 (real pole). -/
noncomputable def singlePoleGfGrT (tt pole beta : ℝ) : ℂ :=
  -I * Complex.exp (-I * pole * tt) * (1 - fermiFct pole beta)

/-- `_single_pole_gf_le_t`, basis/pole.py:416 (real pole). -/
noncomputable def singlePoleGfLeT (tt pole beta : ℝ) : ℂ :=
  I * Complex.exp (-I * pole * tt) * fermiFct pole beta

/-- `moments`, basis/pole.py:441-443, for one order (a numpy integer power with exponent
`order - 1`; integer `order`, negative exponents allowed by numpy for floats). -/
noncomputable def poleMoments {𝕜 : Type*} [Field 𝕜] (poles weights : ι → 𝕜) (order : ℤ) : 𝕜 :=
  ∑ i, weights i * poles i ^ (order - 1)

/-- `PoleGf.occ`, basis/pole.py:226 (real poles). -/
noncomputable def poleOcc (poles weights : ι → ℝ) (beta : ℝ) : ℝ :=
  ∑ i, weights i * fermiFct (poles i) beta

variable {𝕜 : Type*} [RCLike 𝕜]

/-- `PoleFct`, basis/pole.py:35-46: poles (real, as generated by the fitting routines) and
residues. -/
structure PoleFct (𝕜 : Type*) (n : ℕ) where
  poles : Fin n → ℝ
  residues : Fin n → 𝕜

/-- `max(poles)` of the Chebyshev points as evaluated in basis/pole.py:493 (`n ≠ 0` there). -/
noncomputable def chebMax (n : ℕ) : ℝ := ⨆ k : Fin n, chebyshevPoints n k

/-- The `width` argument handling of `gf_from_moments`, basis/pole.py:488-493, and of
`gf_from_z`, basis/pole.py:556-561: `n` poles, `l` moments. -/
noncomputable def autoWidth (n : ℕ) {l : ℕ} (moments : Fin l → 𝕜) (width : Option ℝ) : ℝ :=
  match width with
  | some w => w
  | none =>
    if h : 1 < l then
      let m1 := ‖moments ⟨1, h⟩‖
      if 0.1 ≤ m1 then m1 / chebMax n else 1
    else 1

/-- `np.polynomial.polynomial.polyvander(poles, deg)` with both axes swapped: rows are the
powers `0 … l-1`, columns the poles (used at basis/pole.py:496, 580, 653). -/
noncomputable def vanderT (𝕜 : Type*) [RCLike 𝕜] {n : ℕ} (l : ℕ) (poles : Fin n → ℝ) :
    Matrix (Fin l) (Fin n) 𝕜 :=
  Matrix.of fun i j => (poles j : 𝕜) ^ (i : ℕ)

/-- `gf_from_moments`, basis/pole.py:483-498. For `n = 0` lines 485-486 return empty arrays,
which are the unique functions on `Fin 0`, so the general branch covers it. -/
noncomputable def gfFromMoments {n : ℕ} (moments : Fin n → 𝕜) (width : Option ℝ) :
    Except Err (PoleFct 𝕜 n) :=
  let w := autoWidth n moments width
  let poles := fun k => w * chebyshevPoints n k
  match vecsolve (vanderT 𝕜 n poles) moments with
  | .ok resid => .ok ⟨poles, resid⟩
  | .error e => .error e

/-- Fit matrix of `gf_from_z`, basis/pole.py:565-566 and 570-571: the single-pole functions
`1/(z_i - p_j)`, real parts stacked on imaginary parts, optionally weighted row-wise. -/
noncomputable def fitMatZ {k n : ℕ} (z : Fin k → ℂ) (poles : Fin n → ℝ) (weight : Fin k → ℝ) :
    Matrix (Fin (k + k)) (Fin n) ℝ :=
  Matrix.of fun i j =>
    Fin.append (fun i => weight i * (1 / (z i - poles j)).re)
      (fun i => weight i * (1 / (z i - poles j)).im) i

/-- Fit data of `gf_from_z`, basis/pole.py:567 and 572. -/
noncomputable def fitVecZ {k : ℕ} (gf : Fin k → ℂ) (weight : Fin k → ℝ) : Fin (k + k) → ℝ :=
  Fin.append (fun i => weight i * (gf i).re) (fun i => weight i * (gf i).im)

/-- `gf_from_z`, basis/pole.py:554-588, for one data set and real moments.
`weight=None` is the constant weight `1`. Python's `0.5*np.pi/num` raises
`ZeroDivisionError` for `num = 0` in `_chebyshev_points`. Points `z` equal to a pole, for which the matrix is not
finite, are not modelled (Lean's `1 / 0 = 0`). -/
noncomputable def gfFromZ (ext : LinalgExt ℝ) {k l : ℕ} (z gf : Fin k → ℂ) (n : ℕ)
    (moments : Fin l → ℝ) (width : Option ℝ) (weight : Option (Fin k → ℝ)) :
    Except Err (PoleFct ℝ n) :=
  if n = 0 then .error .zeroDivision
  else
    let w := autoWidth n moments width
    let poles := fun k => w * chebyshevPoints n k
    let wt := weight.getD fun _ => 1
    if 0 < l then
      if n < l then .error .valueError
      else
        match lstsqEc ext (fitMatZ z poles wt) (fitVecZ gf wt) (vanderT ℝ l poles) moments with
        | .ok resid => .ok ⟨poles, resid⟩
        | .error e => .error e
    else .ok ⟨poles, ext.lstsq (fitMatZ z poles wt) (fitVecZ gf wt)⟩

/-- `np.linspace(0, beta, num=k)`, basis/pole.py:639. -/
noncomputable def linspace0 (beta : ℝ) (k : ℕ) (i : Fin k) : ℝ :=
  if k = 1 then 0 else i * (beta / ((k : ℝ) - 1))

/-- Fit matrix of `gf_from_tau`, basis/pole.py:640 and 644. -/
noncomputable def fitMatTau {k n : ℕ} (beta : ℝ) (poles : Fin n → ℝ) (weight : Fin k → ℝ) :
    Matrix (Fin k) (Fin n) ℝ :=
  Matrix.of fun i j => weight i * singlePoleGfTau (linspace0 beta k i) (poles j) beta

/-- Constraint matrix with occupation, basis/pole.py:654-657. `np.broadcast_arrays` expands
the single row `fermi_fct(poles)` to the `l` rows of the Vandermonde matrix. -/
noncomputable def occMat {n : ℕ} (l : ℕ) (poles : Fin n → ℝ) (beta : ℝ) :
    Matrix (Fin (l + l)) (Fin n) ℝ :=
  Matrix.of fun i j =>
    Fin.append (fun i : Fin l => vanderT ℝ l poles i j) (fun _ => fermiFct (poles j) beta) i

/-- Constraint right-hand side with occupation, basis/pole.py:658: the occupation is repeated
as often as there are moments. -/
def occVec {l : ℕ} (moments : Fin l → ℝ) (occ : ℝ) : Fin (l + l) → ℝ :=
  Fin.append moments (fun _ => occ)

open scoped Classical in
/-- `gf_from_tau`, basis/pole.py:638-666, for one data set. `occ=False` is the number `0`
(`False == 0` and both are falsy); `int(occ)` truncates towards zero.
`polyvander` raises `ValueError` for the degree `-1`. -/
noncomputable def gfFromTau (ext : LinalgExt ℝ) {k l : ℕ} (gf : Fin k → ℝ) (n : ℕ) (beta : ℝ)
    (moments : Fin l → ℝ) (occ : ℝ) (width : ℝ) (weight : Option (Fin k → ℝ)) :
    Except Err (PoleFct ℝ n) :=
  if n = 0 then .error .zeroDivision
  else
    let poles := fun k => width * chebyshevPoints n k
    let wt := weight.getD fun _ => 1
    if ¬ ∀ i, 0 ≤ linspace0 beta k i ∧ linspace0 beta k i ≤ beta then .error .assertionError
    else if 0 < l ∨ occ ≠ 0 then
      if (n : ℤ) < l + truncInt occ then .error .valueError
      else if l = 0 then .error .valueError
      else
        let res := if occ ≠ 0 then
            lstsqEc ext (fitMatTau beta poles wt) (fun i => wt i * gf i)
              (occMat l poles beta) (occVec moments occ)
          else
            lstsqEc ext (fitMatTau beta poles wt) (fun i => wt i * gf i)
              (vanderT ℝ l poles) moments
        match res with
        | .ok resid => .ok ⟨poles, resid⟩
        | .error e => .error e
    else .ok ⟨poles, ext.lstsq (fitMatTau beta poles wt) fun i => wt i * gf i⟩

end Gftool.Model
