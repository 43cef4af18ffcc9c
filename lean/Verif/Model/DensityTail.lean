import Verif.Model.Matrix
import Verif.Model.Pole

/-!
# Model of the deprecated density function and its error estimates

`gftool/__init__.py`: `density`, `density_error`, `density_error2` and `check_convergence`. One data set with
the `N` lowest fermionic Matsubara frequencies is modelled; array broadcasting over leading axes is not.
-/

namespace Gftool.Model

/-- Imaginary part of the `n`-th frequency, `iw.imag`. -/
noncomputable def matsubaraIm (beta : ℝ) (n : ℕ) : ℝ := (matsubaraFrequencies n beta).im

/-- `delta_g_re` for `matrix=False, total=False`, __init__.py:448,459,467. -/
noncomputable def densityDelta {N : ℕ} (gf : Fin N → ℂ) (potential beta : ℝ) (n : Fin N) : ℝ :=
  (gf n).re - (1 / (potential + matsubaraFrequencies (n : ℕ) beta) : ℂ).re

/-- `density` with `matrix=False, total=False, return_err=False`, __init__.py:446-477. -/
noncomputable def density {N : ℕ} (gf : Fin N → ℂ) (potential beta : ℝ) : ℝ :=
  2 * (∑ n, densityDelta gf potential beta n) / beta + fermiFct (-potential) beta

/-- `density` with `matrix=False, total=True`: the Green's function is already summed, the potentials of all
sites enter the tail, __init__.py:448-469. -/
noncomputable def densityTotal {N M : ℕ} (gf : Fin N → ℂ) (potential : Fin M → ℝ) (beta : ℝ) : ℝ :=
  2 * (∑ n : Fin N, ((gf n).re - ∑ i, (1 / (potential i + matsubaraFrequencies (n : ℕ) beta) : ℂ).re)) / beta
    + ∑ i, fermiFct (-potential i) beta

/-- `density` with `matrix=True, total=False`, __init__.py:448-469. `complexDtype` tells whether the data type
of `potential` (and thus of the eigenvectors) is complex: then the in-place addition `density += analytic` to the
real array raises `TypeError`. -/
noncomputable def densityMatrix (ext : EigExt) {N M : ℕ} (complexDtype : Bool) (gf : Fin M → Fin N → ℂ)
    (potential : Matrix (Fin M) (Fin M) ℂ) (beta : ℝ) : Except Err (Fin M → ℝ) :=
  match decomposeHer ext potential true with
  | .error e => .error e
  | .ok dec =>
    let tail (n : Fin N) := dec.reconstructDiag (some fun j => 1 / (matsubaraFrequencies (n : ℕ) beta + dec.eig j))
    let analytic := dec.reconstructDiag (some fun j => (fermiFct (-(dec.eig j).re) beta : ℂ))
    let dens (i : Fin M) := 2 * (∑ n, ((gf i n).re - (tail n i).re)) / beta
    if complexDtype then .error .typeError
    else .ok fun i => dens i + (analytic i).re

/-- Frequencies used for the error estimates, `slice(iw_n.size//10, None, None)`, __init__.py:510 and 548;
there are `N + 1` frequencies. -/
def densityPart (N : ℕ) : Finset (Fin (N + 1)) := Finset.univ.filter fun n => (N + 1) / 10 ≤ (n : ℕ)

lemma densityPart_nonempty (N : ℕ) : (densityPart N).Nonempty :=
  ⟨Fin.last N, by simp only [densityPart, Finset.mem_filter, Finset.mem_univ, true_and, Fin.val_last]; omega⟩

/-- `density_error`, __init__.py:510-518, for `N + 1` frequencies. -/
noncomputable def densityError {N : ℕ} (delta : Fin (N + 1) → ℝ) (beta : ℝ) (noisy : Bool) : ℝ :=
  let wn (n : Fin (N + 1)) := matsubaraIm beta n
  let denominator := 1 / Real.pi / wn (Fin.last N)
  let factor := if noisy then (∑ n ∈ densityPart N, delta n * wn n ^ 2) / (densityPart N).card
    else (densityPart N).sup' (densityPart_nonempty N) fun n => |delta n| * wn n ^ 2
  factor * denominator

/-- `density_error2`, __init__.py:547-552 (note `1./2.*np.pi` is `π/2`). -/
noncomputable def densityError2 {N : ℕ} (delta : Fin (N + 1) → ℝ) (beta : ℝ) : ℝ :=
  let wn (n : Fin (N + 1)) := matsubaraIm beta n
  let denominator := 1 / 2 * Real.pi / wn (Fin.last N) ^ 2
  let factor := (densityPart N).sup' (densityPart_nonempty N) fun n => |delta n| * wn n ^ 3
  factor * denominator

/-- `density` with a number as `return_err`: whether the warning is issued, __init__.py:470-476. -/
noncomputable def densityWarns {N : ℕ} (gf : Fin (N + 1) → ℂ) (potential beta tol : ℝ) : Prop :=
  densityError (densityDelta gf potential beta) beta true > tol

/-- `check_convergence` for `matrix=False, total=False`, __init__.py:578-590. -/
noncomputable def checkConvergence {N : ℕ} (gf : Fin N → ℂ) (potential beta : ℝ) (order : ℕ) (n : Fin N) : ℝ :=
  matsubaraIm beta n ^ order * densityDelta gf potential beta n

/-- `check_convergence` for `matrix=True`, __init__.py:578-583: `np.add.outer(dec.eig, iw)` has the shape `(M, N)`,
its last axis is multiplied with a `(M, M)` matrix by `reconstruct`, which raises `ValueError` unless `N = M`
(matrix.py:175). If `N = M` the roles of eigenvalues and frequencies are exchanged: row `i` of the result is the
product of the matrix with `1/(eig_i + iω)`. -/
noncomputable def checkConvergenceMatrix (ext : EigExt) {N M : ℕ} (gf : Fin M → Fin N → ℂ)
    (potential : Matrix (Fin M) (Fin M) ℂ) (beta : ℝ) (order : ℕ) : Except Err (Fin M → Fin N → ℝ) :=
  match decomposeHer ext potential true with
  | .error e => .error e
  | .ok dec =>
    if h : N = M then
      let tail (i : Fin M) (n : Fin N) : ℂ :=
        dec.reconstructDiag (some fun j => 1 / (dec.eig i + matsubaraFrequencies (j : ℕ) beta)) (h ▸ n)
      .ok fun i n => matsubaraIm beta n ^ order * ((gf i n).re - (tail i n).re)
    else .error .valueError

end Gftool.Model
