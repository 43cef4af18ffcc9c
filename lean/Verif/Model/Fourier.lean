import Verif.Model.Pole
import Mathlib.Analysis.SpecialFunctions.Exp

/-!
# Model of `gftool/fourier.py`: imaginary time and Matsubara frequencies

One data set at a time (the functions are vectorised over the leading axes). The imaginary-time
functions have `T + 1` points, `T` is the number of intervals. Imaginary-time data are real (as
required by the documentation; `numpy.fft.ihfft` discards imaginary parts).
-/

namespace Gftool.Model

open Complex (I)

/-- `numpy.fft.ihfft`, for real input of length `n`: `conj(rfft(a))/n`; `n//2 + 1` values.
`ValueError` for empty input. -/
noncomputable def ihfft {n : ℕ} (a : Fin n → ℝ) : Except Err (Fin (n / 2 + 1) → ℂ) :=
  if n = 0 then .error .valueError
  else .ok fun m => 1 / (n : ℂ) * ∑ k : Fin n,
    (a k : ℂ) * Complex.exp (2 * Real.pi * I * ((k : ℕ) * (m : ℕ)) / n)

/-- `numpy.fft.hfft`, default length `2*(m-1)`: the input is continued Hermitian, the first and last
element are taken once, all others twice. `ValueError` for length zero. -/
noncomputable def hfft {m : ℕ} (a : Fin m → ℂ) : Except Err (Fin (2 * (m - 1)) → ℝ) :=
  if 2 * (m - 1) < 1 then .error .valueError
  else .ok fun j => ∑ k : Fin m, (if (k : ℕ) = 0 ∨ (k : ℕ) = m - 1 then 1 else 2)
    * (a k * Complex.exp (-(2 * Real.pi * I * ((j : ℕ) * (k : ℕ)) / ((2 * (m - 1) : ℕ) : ℂ)))).re

/-- `gf_iwall`, fourier.py:193-194: fermionic and bosonic frequencies, the latter are zero. -/
def iwAll {N : ℕ} (g : Fin N → ℂ) (k : Fin (2 * N + 1)) : ℂ :=
  if h : (k : ℕ) % 2 = 1 then g ⟨(k : ℕ) / 2, by omega⟩ else 0

/-- `iw2tau_dft`, fourier.py:193-196. (The index is always in range: the result of `hfft` has
`4*N` elements, `N = 0` is an error.) -/
noncomputable def iw2tauDft {N : ℕ} (g : Fin N → ℂ) (beta : ℝ) :
    Except Err (Fin (2 * N + 1) → ℝ) :=
  match hfft fun k => 1 / (beta : ℂ) * iwAll g k with
  | .error e => .error e
  | .ok r => .ok fun j => if h : (j : ℕ) < 2 * (2 * N + 1 - 1) then r ⟨j, h⟩ else 0

/-- `gf_iw_extended`, fourier.py:279-282: element `N + j` of the extension is the last one times
`.5*(cos(π (j+1)/N) + 1)`. -/
noncomputable def softExtend {N : ℕ} (g : Fin N → ℂ) (k : Fin (2 * N)) : ℂ :=
  if h : (k : ℕ) < N then g ⟨k, h⟩
  else (0.5 * (Real.cos (Real.pi * ((k : ℕ) - N + 1 : ℕ) / N) + 1) : ℝ)
    * g ⟨N - 1, by have := k.2; omega⟩

/-- `iw2tau_dft_soft`, fourier.py:279-283. -/
noncomputable def iw2tauDftSoft {N : ℕ} (g : Fin N → ℂ) (beta : ℝ) :
    Except Err (Fin (2 * N + 1) → ℝ) :=
  match iw2tauDft (softExtend g) beta with
  | .error e => .error e
  | .ok r => .ok fun j => r ⟨2 * j, by have := j.2; omega⟩

open scoped Classical in
/-- `PoleGf.eval_tau` (`gf_tau`, basis/pole.py:374-378) on `np.linspace(0, beta, num=k)`. -/
noncomputable def evalTauGrid {n : ℕ} (p : PoleFct ℝ n) (beta : ℝ) (k : ℕ) :
    Except Err (Fin k → ℝ) :=
  if ∀ i, 0 ≤ linspace0 beta k i ∧ linspace0 beta k i ≤ beta then
    .ok fun i => ∑ j, p.residues j * singlePoleGfTau (linspace0 beta k i) (p.poles j) beta
  else .error .assertionError

/-- `PoleFct.eval_z` (`gf_z`, basis/pole.py:308-310) for real poles and residues. -/
noncomputable def PoleFct.evalZ {n : ℕ} (p : PoleFct ℝ n) (z : ℂ) : ℂ :=
  poleGfZ z (fun j => (p.poles j : ℂ)) (fun j => (p.residues j : ℂ))

/-- `pole_gf` in `iw2tau`, fourier.py:383-388: for `n_fit = 0` from the moments, otherwise fitted
with the weight `ω^(n_mom + n_fit)`. The number of poles is `n_mom + n_fit`. No `width` is passed, so it has the default `1`
(basis/pole.py:75,103). -/
noncomputable def iw2tauPoles (ext : LinalgExt ℝ) {N l : ℕ} (g : Fin N → ℂ) (beta : ℝ)
    (moments : Fin l → ℝ) (nfit : ℕ) : Except Err (PoleFct ℝ (l + nfit)) :=
  match nfit with
  | 0 => gfFromMoments moments (some 1)
  | nfit + 1 => gfFromZ ext (fun i : Fin N => matsubaraFrequencies (i : ℕ) beta) g (l + (nfit + 1))
      moments (some 1)
      (some fun i => (matsubaraFrequencies (i : ℕ) beta).im ^ (l + (nfit + 1)))

/-- `iw2tau`, fourier.py:380-393, with the transformation `fourier` as parameter. -/
noncomputable def iw2tau (ext : LinalgExt ℝ) {N l : ℕ} (g : Fin N → ℂ) (beta : ℝ)
    (moments : Fin l → ℝ)
    (fourier : (Fin N → ℂ) → ℝ → Except Err (Fin (2 * N + 1) → ℝ)) (nfit : ℕ) :
    Except Err (Fin (2 * N + 1) → ℝ) :=
  match iw2tauPoles ext g beta moments nfit with
  | .error e => .error e
  | .ok p =>
    match fourier (fun i => g i - p.evalZ (matsubaraFrequencies (i : ℕ) beta)) beta with
    | .error e => .error e
    | .ok gt =>
      match evalTauGrid p beta (2 * N + 1) with
      | .error e => .error e
      | .ok pt => .ok fun j => gt j + pt j

/-- `scipy`/`numpy` `trapezoid(y, dx=dx)` for `T + 1` points. -/
noncomputable def trapezoidDx {T : ℕ} (y : Fin (T + 1) → ℝ) (dx : ℝ) : ℝ :=
  ∑ k : Fin T, dx * (y k.succ + y k.castSucc) / 2

/-- `tau2iv_dft`, fourier.py:464-469. For a single point `beta/0` raises `ZeroDivisionError`. -/
noncomputable def tau2ivDft {T : ℕ} (g : Fin (T + 1) → ℝ) (beta : ℝ) :
    Except Err (Fin (T / 2 + 1) → ℂ) :=
  if T = 0 then .error .zeroDivision
  else
    let mean := trapezoidDx g (beta / T)
    match ihfft fun k : Fin T => g k.castSucc - mean with
    | .error e => .error e
    | .ok r => .ok fun n => if (n : ℕ) = 0 then (mean : ℂ) else beta * r n

/-- `weight1`, e.g. fourier.py:834. -/
noncomputable def filonW1 (x : ℂ) : ℂ := (Complex.exp x - 1) / x

/-- `weight2`, e.g. fourier.py:835. -/
noncomputable def filonW2 (x : ℂ) : ℂ := (Complex.exp x - 1 + 1 - filonW1 x) / x

/-- `tau2iv_ft_lin`, fourier.py:559-569. -/
noncomputable def tau2ivFtLin {T : ℕ} (g : Fin (T + 1) → ℝ) (beta : ℝ) :
    Except Err (Fin (T / 2 + 1) → ℂ) :=
  match ihfft fun k : Fin T => g k.castSucc with
  | .error e => .error e
  | .ok r =>
    match ihfft fun k : Fin T => g k.succ - g k.castSucc with
    | .error e => .error e
    | .ok dr => .ok fun n =>
      let x : ℂ := 2 * I * Real.pi / T * (n : ℕ)
      let w1 := if (n : ℕ) = 0 then 1 else filonW1 x
      let w2 := if (n : ℕ) = 0 then 0.5 else filonW2 x
      beta * (w1 * r n + w2 * dr n)

/-- `tau2iv`, fourier.py:652-659, with the transformation `fourier` as parameter. -/
noncomputable def tau2iv {T : ℕ} (g : Fin (T + 1) → ℝ) (beta : ℝ)
    (fourier : (Fin (T + 1) → ℝ) → ℝ → Except Err (Fin (T / 2 + 1) → ℂ)) :
    Except Err (Fin (T / 2 + 1) → ℂ) :=
  let g1 := g (Fin.last T) - g 0
  match fourier (fun k => g k - g1 / beta * linspace0 beta (T + 1) k) beta with
  | .error e => .error e
  | .ok r => .ok fun n =>
    if (n : ℕ) = 0 then r n + 0.5 * g1 * beta
    else r n + g1 / matsubaraFrequenciesB (n : ℕ) beta

/-- `gf_tau_full_range`, fourier.py:733 and 827: `2*T + 1` points on `[-β, β]`. -/
def fullRange {T : ℕ} (g : Fin (T + 1) → ℝ) (k : Fin (2 * T + 1)) : ℝ :=
  if h : (k : ℕ) < T then -g ⟨k, by omega⟩ else g ⟨k - T, by omega⟩

/-- `tau2iw_dft`, fourier.py:733-735. -/
noncomputable def tau2iwDft {T : ℕ} (g : Fin (T + 1) → ℝ) (beta : ℝ) :
    Except Err (Fin ((T + 1) / 2) → ℂ) :=
  match ihfft fun k : Fin (2 * T) => fullRange g k.castSucc with
  | .error e => .error e
  | .ok r => .ok fun n => -beta * r ⟨2 * n + 1, by have := n.2; omega⟩

/-- `tau2iw_ft_lin`, fourier.py:827-837. -/
noncomputable def tau2iwFtLin {T : ℕ} (g : Fin (T + 1) → ℝ) (beta : ℝ) :
    Except Err (Fin ((T + 1) / 2) → ℂ) :=
  match ihfft fun k : Fin (2 * T) => fullRange g k.castSucc with
  | .error e => .error e
  | .ok r =>
    match ihfft fun k : Fin (2 * T) => fullRange g k.succ - fullRange g k.castSucc with
    | .error e => .error e
    | .ok dr => .ok fun n =>
      let x : ℂ := 2 * I * Real.pi * (2 * (n : ℕ) + 1 : ℕ) / ((2 * T : ℕ) : ℂ);
      -beta * (filonW1 x * r ⟨2 * n + 1, by have := n.2; omega⟩
        + filonW2 x * dr ⟨2 * n + 1, by have := n.2; omega⟩)

/-- `m1`, fourier.py:974 and 1647: the jump. -/
def tauJump {T : ℕ} (g : Fin (T + 1) → ℝ) : ℝ := (-g (Fin.last T)) - g 0

/-- `tau2iw` for given moments, fourier.py:973-991; `n` is the number of poles. The warning for
moments different from the jump is not modelled. -/
noncomputable def tau2iwMoments (ext : LinalgExt ℝ) {T l : ℕ} (g : Fin (T + 1) → ℝ) (beta : ℝ)
    (n : ℕ) (moments : Fin l → ℝ)
    (fourier : (Fin (T + 1) → ℝ) → ℝ → Except Err (Fin ((T + 1) / 2) → ℂ)) :
    Except Err (Fin ((T + 1) / 2) → ℂ) :=
  match gfFromTau ext g n beta moments 0 1 none with
  | .error e => .error e
  | .ok p =>
    match evalTauGrid p beta (T + 1) with
    | .error e => .error e
    | .ok pt =>
      match fourier (fun k => g k - pt k) beta with
      | .error e => .error e
      | .ok r => .ok fun i => r i + p.evalZ (matsubaraFrequencies (i : ℕ) beta)

/-- `tau2iw`, fourier.py:973-991: default for the moments is the jump, for the number of poles the
number of moments. Given moments have to be non-empty (`moments[..., 0]`). -/
noncomputable def tau2iw (ext : LinalgExt ℝ) {T : ℕ} (g : Fin (T + 1) → ℝ) (beta : ℝ)
    (npole : Option ℕ) (moments : Option (Σ l, Fin l → ℝ))
    (fourier : (Fin (T + 1) → ℝ) → ℝ → Except Err (Fin ((T + 1) / 2) → ℂ)) :
    Except Err (Fin ((T + 1) / 2) → ℂ) :=
  match moments with
  | none => tau2iwMoments ext g beta (npole.getD 1) (fun _ : Fin 1 => tauJump g) fourier
  | some ⟨l, m⟩ => if l = 0 then .error .indexError
    else tau2iwMoments ext g beta (npole.getD l) m fourier

/-- `izp2tau`, fourier.py:1105 with `_z2polegf` 994-1006. The optimal pole spread found by
`scipy.optimize.minimize_scalar` is the parameter `width`. `ValueError`s of the fit are passed on;
the evaluation asserts `0 <= tau <= beta`. -/
noncomputable def izp2tau (ext : LinalgExt ℝ) {k l : ℕ} (izp gf : Fin k → ℂ) (tau beta : ℝ)
    (moments : Fin l → ℝ) (width : ℝ) : Except Err ℝ :=
  match gfFromZ ext izp gf k moments (some width) none with
  | .error e => .error e
  | .ok p => poleGfTau tau p.poles p.residues beta

/-- `tau2izp` for given moments, fourier.py:1773-1774 with `_tau2polegf` 1645-1667. The optimal pole
spread found by `scipy.optimize.minimize_scalar` is the parameter `width`. -/
noncomputable def tau2izpMoments (ext : LinalgExt ℝ) {T k l : ℕ} (g : Fin (T + 1) → ℝ) (beta : ℝ)
    (izp : Fin k → ℂ) (moments : Fin l → ℝ) (occ : ℝ) (weight : Option (Fin (T + 1) → ℝ))
    (width : ℝ) : Except Err (Fin k → ℂ) :=
  match gfFromTau ext g k beta moments occ width weight with
  | .error e => .error e
  | .ok p => .ok fun i => p.evalZ (izp i)

/-- `tau2izp`, fourier.py:1773-1774: the default for the moments is the jump. Given moments have to
be non-empty (`moments[..., 0]`). -/
noncomputable def tau2izp (ext : LinalgExt ℝ) {T k : ℕ} (g : Fin (T + 1) → ℝ) (beta : ℝ)
    (izp : Fin k → ℂ) (moments : Option (Σ l, Fin l → ℝ)) (occ : ℝ)
    (weight : Option (Fin (T + 1) → ℝ)) (width : ℝ) : Except Err (Fin k → ℂ) :=
  match moments with
  | none => tau2izpMoments ext g beta izp (fun _ : Fin 1 => tauJump g) occ weight width
  | some ⟨l, m⟩ => if l = 0 then .error .indexError
    else tau2izpMoments ext g beta izp m occ weight width

end Gftool.Model
