import Verif.Model.Fourier
import Verif.Model.Hermpade
import Verif.Model.LinearPrediction

/-!
# Model of `gftool/fourier.py`: Laplace transform from real time to frequencies

One data set and one frequency at a time. The `n` time points and the data are the first `n`
elements of the sequences `tt` and `g`. `phase k` is `exp(i z tt_k)`.
-/

namespace Gftool.Model

open Complex (I)

/-- `_phase`, fourier.py:108-113. -/
noncomputable def phase (z : ℂ) (t : ℝ) : ℂ := Complex.exp (I * z * t)

/-- `tt2z_trapz`, fourier.py:1149-1154. `IndexError` (`phase[..., 0]` or `tt[1]`) for less than two
points. -/
noncomputable def tt2zTrapz (n : ℕ) (tt : ℕ → ℝ) (g : ℕ → ℂ) (z : ℂ) : Except Err ℂ :=
  if n < 2 then .error .indexError
  else
    let boundary := phase z (tt 0) * g 0 * ((tt 1 - tt 0 : ℝ) : ℂ)
      + phase z (tt (n - 1)) * g (n - 1) * ((tt (n - 1) - tt (n - 2) : ℝ) : ℂ)
    let trapz := ∑ k ∈ Finset.range (n - 2),
      phase z (tt (k + 1)) * (g (k + 1) * ((tt (k + 2) - tt k : ℝ) : ℂ))
    .ok (0.5 * (boundary + trapz))

/-- `_trapz_weight`, fourier.py:1177-1182, for at least one point. -/
noncomputable def trapzWeight (n : ℕ) (dt : ℝ) (g : ℕ → ℂ) (endpoint : Bool) (k : ℕ) : ℂ :=
  dt * g k * (if k = 0 then 0.5 else 1) * (if endpoint ∧ k = n - 1 then 0.5 else 1)

/-- `_simps_weight`, fourier.py:1210-1225, for at least one point (two if `endpoint`). The slices are
`1::2`, `2::2` without endpoint; `1:-1:2`, `2:-1:2` with endpoint and odd `n`; `1:-2:2`, `2:-2:2` and
the last two points with endpoint and even `n`. -/
noncomputable def simpsWeight (n : ℕ) (dt : ℝ) (g : ℕ → ℂ) (endpoint : Bool) (k : ℕ) : ℂ :=
  let c := (dt : ℂ) / 3 * g k
  if ¬ endpoint then
    c * (if 1 ≤ k ∧ k % 2 = 1 then 4 else 1) * (if 2 ≤ k ∧ k % 2 = 0 then 2 else 1)
  else if n % 2 = 1 then
    c * (if 1 ≤ k ∧ k + 1 < n ∧ k % 2 = 1 then 4 else 1)
      * (if 2 ≤ k ∧ k + 1 < n ∧ k % 2 = 0 then 2 else 1)
  else
    c * (if 1 ≤ k ∧ k + 2 < n ∧ k % 2 = 1 then 4 else 1)
      * (if 2 ≤ k ∧ k + 2 < n ∧ k % 2 = 0 then 2 else 1)
      * (if k + 2 = n then 5 / 2 else 1) * (if k + 1 = n then 3 / 2 else 1)

/-- `tt2z_simps`, fourier.py:1260-1263. -/
noncomputable def tt2zSimps (n : ℕ) (tt : ℕ → ℝ) (g : ℕ → ℂ) (z : ℂ) : Except Err ℂ :=
  if n < 2 then .error .indexError
  else .ok (∑ k ∈ Finset.range n, phase z (tt k) * simpsWeight n (tt 1 - tt 0) g false k)

/-- `np.allclose(tt[1:] - tt[:-1], delta_tt)` with the default tolerances. -/
def equidistant (n : ℕ) (tt : ℕ → ℝ) : Prop :=
  ∀ k < n - 1, |tt (k + 1) - tt k - (tt 1 - tt 0)| ≤ 1e-8 + 1e-5 * |tt 1 - tt 0|

open scoped Classical in
/-- `tt2z_lin`, fourier.py:1320-1336. `np.expm1(x) = exp(x) - 1`. For `tt[1] = tt[0]` and non-zero `z`
the code divides by zero (non-finite result). -/
noncomputable def tt2zLin (n : ℕ) (tt : ℕ → ℝ) (g : ℕ → ℂ) (z : ℂ) : Except Err ℂ :=
  if n < 2 then .error .indexError
  else if ¬ equidistant n tt then .error .valueError
  else if z = 0 then
    .ok (∑ k ∈ Finset.range (n - 1), ((tt (k + 1) - tt k : ℝ) : ℂ) * (g (k + 1) + g k) / 2)
  else
    let dt := tt 1 - tt 0
    let izdt := I * z * dt
    let gDft := ∑ k ∈ Finset.range (n - 1), phase z (tt k) * g k
    let dgDft := ∑ k ∈ Finset.range (n - 1), phase z (tt k) * (g (k + 1) - g k)
    let weight1 := (Complex.exp izdt - 1) / izdt
    let weight2 := (Complex.exp izdt - weight1) / izdt
    .ok (dt * (weight1 * gDft + weight2 * dgDft))

/-- The argument `quad`. -/
inductive Quad
  | trapz
  | simps
  | other
  deriving DecidableEq

/-- `weight(delta_tt, gf_t, endpoint=False)`, e.g. fourier.py:1393-1396. -/
noncomputable def quadWeight (quad : Quad) (n : ℕ) (dt : ℝ) (g : ℕ → ℂ) (k : ℕ) : ℂ :=
  match quad with
  | .trapz => trapzWeight n dt g false k
  | _ => simpsWeight n dt g false k

open scoped Classical in
/-- `tt2z_pade`, fourier.py:1385-1403; `pade` gets the number of coefficients, the coefficients and
the degrees of numerator and denominator. Negative degrees are not modelled. -/
noncomputable def tt2zPade (pade : ℕ → (ℕ → ℂ) → ℕ → ℕ → Except Err RatPol)
    (n : ℕ) (tt : ℕ → ℝ) (g : ℕ → ℂ) (z : ℂ) (degree : ℤ) (quad : Quad) : Except Err ℂ :=
  let degree := degree + 1;
  if n < 2 then .error .indexError
  else if ¬ equidistant n tt then .error .valueError
  else if quad = .other then .error .valueError
  else if tt 0 ≠ 0 then .error .assertionError
  else
    let coeffs := quadWeight quad n (tt 1 - tt 0) g
    let deg := ((n : ℤ) - degree - 1) / 2
    if deg < 0 ∨ deg + degree < 0 then .error .notImplemented
    else
      match pade n coeffs (deg + degree).toNat deg.toNat with
      | .error e => .error e
      | .ok r => .ok (r.eval (phase z (tt 1 - tt 0)))

open scoped Classical in
/-- `tt2z_lpz`, fourier.py:1470-1490. -/
noncomputable def tt2zLpz (ext : LinalgExt ℂ) (n : ℕ) (tt : ℕ → ℝ) (g : ℕ → ℂ) (z : ℂ)
    (order : Option ℕ) (quad : Quad) : Except Err ℂ :=
  if n < 2 then .error .indexError
  else if ¬ equidistant n tt then .error .valueError
  else
    let order := order.getD (n / 2)
    if quad = .other then .error .valueError
    else
      let coeffs := quadWeight quad n (tt 1 - tt 0) g
      match pcoeffCovar ext coeffs n order with
      | .error e => .error e
      | .ok (a, _) =>
        let aa : ℕ → ℂ := fun j => if j = 0 then 1 else if h : j - 1 < order then a ⟨j - 1, h⟩ else 0
        let convo : ℕ → ℂ := fun l => ∑ j ∈ Finset.range (l + 1), aa j * coeffs (l - j)
        let numer := ∑ l ∈ Finset.range order, phase z (tt l) * convo l
        let denom := ∑ l ∈ Finset.range (order + 1), phase z (tt l) * aa l
        .ok (numer / denom)

open scoped Classical in
/-- `tt2z`, fourier.py:1631-1642, for `m` frequencies; the NaN returned for empty input is `none`. -/
noncomputable def tt2z {m : ℕ} (n : ℕ) (tt : ℕ → ℝ) (g : ℕ → ℂ) (z : Fin m → ℂ)
    (laplace : ℕ → (ℕ → ℝ) → (ℕ → ℂ) → ℂ → Except Err ℂ) : Except Err (Fin m → Option ℂ) :=
  let retarded := (∀ k < n, 0 ≤ tt k) ∧ ∀ i, 0 ≤ (z i).im
  let advanced := (∀ k < n, tt k ≤ 0) ∧ ∀ i, (z i).im ≤ 0
  if ¬ (retarded ∨ advanced) then .error .valueError
  else if m = 0 ∨ n = 0 then .ok fun _ => none
  else
    match List.mapM (fun i => laplace n tt g (z i)) (List.finRange m) with
    | .error e => .error e
    | .ok r => .ok fun i => r[i]?

end Gftool.Model
