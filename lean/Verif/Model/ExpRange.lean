import Verif.Spec.ExpRange
import Verif.Model.Pole
import Verif.Model.Lattice
import Verif.Model.LaplaceHerm
import Verif.Model.Toplevel

/-!
# Models with the exponential functions of the libraries as parameter

The same functions as in the other models, but the exponential functions (`np.exp`, `np.expm1`, `numexpr`) are a parameter `L` to be
able to express which arguments they get. `Verif/Props/ExpRange.lean` shows that the models coincide for the exact functions.
`scipy.special.expit` has no restriction of its range and is not a parameter.
-/

namespace Gftool.Model

open Complex (I)
open Gftool.Spec (ExpLib)

variable {ι : Type*} [Fintype ι] (L : ExpLib)

/-- `bose_fct` for float input, statistics.py:49-58. -/
noncomputable def boseFctL (eps beta : ℝ) : ℝ :=
  let betaeps := beta * eps
  if betaeps < 700 then 1 / L.rexpm1 betaeps
  else -L.rexp (-betaeps) / L.rexpm1 (-betaeps)

/-- `fermi_fct` for complex input, statistics.py:96,101-107. -/
noncomputable def fermiFctCL (eps : ℂ) (beta : ℝ) : ℂ :=
  let z := eps * beta
  if 0 < z.re then
    let exp_m := L.exp (-z)
    exp_m / (1 + exp_m)
  else 1 / (L.exp z + 1)

/-- `_single_pole_gf_tau` for a real pole, basis/pole.py:343-348. -/
noncomputable def singlePoleGfTauL (tau pole beta : ℝ) : ℝ :=
  let exponent := (if 0 ≤ pole then -tau else -tau + beta) * pole;
  -L.rexp exponent * fermiFct (-npSign pole * pole) beta

/-- `_single_pole_gf_tau` for a complex pole, basis/pole.py:343-348. -/
noncomputable def singlePoleGfTauCL (tau : ℝ) (pole : ℂ) (beta : ℝ) : ℂ :=
  let exponent := (if 0 ≤ pole.re then (-tau : ℂ) else -tau + beta) * pole;
  -L.exp exponent * fermiFctCL L (-(npSign pole.re : ℂ) * pole) beta

open scoped Classical in
/-- `gf_tau` for real poles and weights, basis/pole.py:374-378. -/
noncomputable def poleGfTauL (tau : ℝ) (poles weights : ι → ℝ) (beta : ℝ) : Except Err ℝ :=
  if 0 ≤ tau ∧ tau ≤ beta then .ok (∑ i, weights i * singlePoleGfTauL L tau (poles i) beta)
  else .error .assertionError

open scoped Classical in
/-- `gf_tau` for complex poles and weights, basis/pole.py:374-378. -/
noncomputable def poleGfTauCL (tau : ℝ) (poles weights : ι → ℂ) (beta : ℝ) : Except Err ℂ :=
  if 0 ≤ tau ∧ tau ≤ beta then .ok (∑ i, weights i * singlePoleGfTauCL L tau (poles i) beta)
  else .error .assertionError

open scoped Classical in
/-- `pole_gf_tau_b`, __init__.py:337-345, for float poles and `beta`. -/
noncomputable def poleGfTauBL {n : ℕ} (tau : ℝ) (poles weights : Fin n → ℝ) (beta : ℝ) :
    Except Err (Option ℝ) :=
  if ¬ (0 ≤ tau ∧ tau ≤ beta) then .error .assertionError
  else if ∃ i, poles i < 0 then .error .valueError
  else if ∃ i, -beta * poles i = 0 then .ok none
  else .ok (some (∑ i, weights i * boseFctL L (poles i) (-beta) * L.rexp (-tau * poles i)))

/-- `_single_pole_gf_ret_t`, basis/pole.py:381-383; the argument `where` of `np.exp` excludes negative times. -/
noncomputable def singlePoleGfRetTL (tt : ℝ) (pole : ℂ) : ℂ :=
  if 0 ≤ tt then -I * L.exp (-I * pole * tt) else 0

/-- `gf_ret_t`, basis/pole.py:406-408. -/
noncomputable def poleGfRetTL (tt : ℝ) (poles weights : ι → ℂ) : ℂ :=
  ∑ i, weights i * singlePoleGfRetTL L tt (poles i)

/-- `_single_pole_gf_gr_t`, basis/pole.py:411 (real pole). -/
noncomputable def singlePoleGfGrTL (tt pole beta : ℝ) : ℂ :=
  -I * L.exp (-I * pole * tt) * (1 - fermiFct pole beta)

/-- `_single_pole_gf_le_t`, basis/pole.py:416 (real pole). -/
noncomputable def singlePoleGfLeTL (tt pole beta : ℝ) : ℂ :=
  I * L.exp (-I * pole * tt) * fermiFct pole beta

open scoped Classical in
/-- `gf_ret_t`, lattice/bethe.py:409-420. -/
noncomputable def betheGfRetTL (jv1 : ℝ → ℝ) (tt D center : ℝ) : ℂ :=
  let tt := D * tt
  let gf : ℂ :=
    if 0 ≤ tt then
      if |tt| < retSmall then -I * (1 - 1 / 8 * tt ^ 2 + 1 / 192 * (tt ^ 2) ^ 2)
      else -2 * I * jv1 tt / tt
    else 0
  if center ≠ 0 then gf * L.exp (-I * center * tt) else gf

open scoped Classical in
/-- `gf_ret_t`, lattice/box.py:148-159. -/
noncomputable def boxGfRetTL (tt D center : ℝ) : ℂ :=
  let tt := D * tt
  let gf : ℂ :=
    if 0 ≤ tt then
      if |tt| < retSmall then -I * (1 - 1 / 6 * tt ^ 2 + 1 / 120 * (tt ^ 2) ^ 2)
      else -I * Real.sin tt / tt
    else 0
  if center ≠ 0 then gf * L.exp (-I * center * tt) else gf

/-! ## Fourier transforms -/

/-- `weight1`, e.g. fourier.py:834. -/
noncomputable def filonW1L (x : ℂ) : ℂ := L.expm1 x / x

/-- `weight2`, e.g. fourier.py:835. -/
noncomputable def filonW2L (x : ℂ) : ℂ := (L.expm1 x + 1 - filonW1L L x) / x

/-- `tau2iv_ft_lin`, fourier.py:559-569. -/
noncomputable def tau2ivFtLinL {T : ℕ} (g : Fin (T + 1) → ℝ) (beta : ℝ) :
    Except Err (Fin (T / 2 + 1) → ℂ) :=
  match ihfft fun k : Fin T => g k.castSucc with
  | .error e => .error e
  | .ok r =>
    match ihfft fun k : Fin T => g k.succ - g k.castSucc with
    | .error e => .error e
    | .ok dr => .ok fun n =>
      let x : ℂ := 2 * I * Real.pi / T * (n : ℕ)
      let w1 := if (n : ℕ) = 0 then 1 else filonW1L L x
      let w2 := if (n : ℕ) = 0 then 0.5 else filonW2L L x
      beta * (w1 * r n + w2 * dr n)

/-- `tau2iw_ft_lin`, fourier.py:827-837. -/
noncomputable def tau2iwFtLinL {T : ℕ} (g : Fin (T + 1) → ℝ) (beta : ℝ) :
    Except Err (Fin ((T + 1) / 2) → ℂ) :=
  match ihfft fun k : Fin (2 * T) => fullRange g k.castSucc with
  | .error e => .error e
  | .ok r =>
    match ihfft fun k : Fin (2 * T) => fullRange g k.succ - fullRange g k.castSucc with
    | .error e => .error e
    | .ok dr => .ok fun n =>
      let x : ℂ := 2 * I * Real.pi * (2 * (n : ℕ) + 1 : ℕ) / ((2 * T : ℕ) : ℂ);
      -beta * (filonW1L L x * r ⟨2 * n + 1, by have := n.2; omega⟩
        + filonW2L L x * dr ⟨2 * n + 1, by have := n.2; omega⟩)

/-! ## Laplace transforms -/

/-- `_phase`, fourier.py:108-113. -/
noncomputable def phaseL (z : ℂ) (t : ℝ) : ℂ := L.exp (I * z * t)

/-- `tt2z_trapz`, fourier.py:1149-1154. -/
noncomputable def tt2zTrapzL (n : ℕ) (tt : ℕ → ℝ) (g : ℕ → ℂ) (z : ℂ) : Except Err ℂ :=
  if n < 2 then .error .indexError
  else
    let boundary := phaseL L z (tt 0) * g 0 * ((tt 1 - tt 0 : ℝ) : ℂ)
      + phaseL L z (tt (n - 1)) * g (n - 1) * ((tt (n - 1) - tt (n - 2) : ℝ) : ℂ)
    let trapz := ∑ k ∈ Finset.range (n - 2),
      phaseL L z (tt (k + 1)) * (g (k + 1) * ((tt (k + 2) - tt k : ℝ) : ℂ))
    .ok (0.5 * (boundary + trapz))

/-- `tt2z_simps`, fourier.py:1260-1263. -/
noncomputable def tt2zSimpsL (n : ℕ) (tt : ℕ → ℝ) (g : ℕ → ℂ) (z : ℂ) : Except Err ℂ :=
  if n < 2 then .error .indexError
  else .ok (∑ k ∈ Finset.range n, phaseL L z (tt k) * simpsWeight n (tt 1 - tt 0) g false k)

open scoped Classical in
/-- `tt2z_lin`, fourier.py:1320-1336. -/
noncomputable def tt2zLinL (n : ℕ) (tt : ℕ → ℝ) (g : ℕ → ℂ) (z : ℂ) : Except Err ℂ :=
  if n < 2 then .error .indexError
  else if ¬ equidistant n tt then .error .valueError
  else if z = 0 then
    .ok (∑ k ∈ Finset.range (n - 1), ((tt (k + 1) - tt k : ℝ) : ℂ) * (g (k + 1) + g k) / 2)
  else
    let dt := tt 1 - tt 0
    let izdt := I * z * dt
    let gDft := ∑ k ∈ Finset.range (n - 1), phaseL L z (tt k) * g k
    let dgDft := ∑ k ∈ Finset.range (n - 1), phaseL L z (tt k) * (g (k + 1) - g k)
    let weight1 := L.expm1 izdt / izdt
    let weight2 := (L.exp izdt - weight1) / izdt
    .ok (dt * (weight1 * gDft + weight2 * dgDft))

open scoped Classical in
/-- `tt2z_pade`, fourier.py:1385-1403. -/
noncomputable def tt2zPadeL (pade : ℕ → (ℕ → ℂ) → ℕ → ℕ → Except Err RatPol)
    (n : ℕ) (tt : ℕ → ℝ) (g : ℕ → ℂ) (z : ℂ) (degree : ℤ) (quad : Quad) : Except Err ℂ :=
  let degree := degree + 1;
  if n < 2 then .error .indexError
  else if ¬ equidistant n tt then .error .valueError
  else if quad = .other then .error .valueError
  else if tt 0 ≠ 0 then .error .assertionError
  else
    let coeffs := quadWeight quad n (tt 1 - tt 0) g
    let deg := ((n : ℤ) - degree - 1) / 2
    if deg < 0 ∨ deg + degree < 0 then .error .notImplemented
    else
      match pade n coeffs (deg + degree).toNat deg.toNat with
      | .error e => .error e
      | .ok r => .ok (r.eval (phaseL L z (tt 1 - tt 0)))

open scoped Classical in
/-- `tt2z_herm2`, fourier.py:1449-1467. -/
noncomputable def tt2zHerm2L (herm2 : ℕ → (ℕ → ℂ) → ℕ → ℕ → ℕ → Except Err (Herm2 × RatPol))
    (n : ℕ) (tt : ℕ → ℝ) (g : ℕ → ℂ) (z : ℂ) (quad : Quad) : Except Err (Option ℂ) :=
  if n < 2 then .error .indexError
  else if ¬ equidistant n tt then .error .valueError
  else if quad = .other then .error .valueError
  else if tt 0 ≠ 0 then .error .assertionError
  else if ¬ 0 < z.im then .error .assertionError
  else
    let coeffs := quadWeight quad n (tt 1 - tt 0) g
    let deg := (n - 2) / 3
    match herm2 n coeffs deg deg deg with
    | .error e => .error e
    | .ok (h, pade) => hermite2Eval h pade false (phaseL L z (tt 1 - tt 0))

open scoped Classical in
/-- `tt2z_lpz`, fourier.py:1470-1490. -/
noncomputable def tt2zLpzL (ext : LinalgExt ℂ) (n : ℕ) (tt : ℕ → ℝ) (g : ℕ → ℂ) (z : ℂ)
    (order : Option ℕ) (quad : Quad) : Except Err ℂ :=
  if n < 2 then .error .indexError
  else if ¬ equidistant n tt then .error .valueError
  else
    let order := order.getD (n / 2)
    if quad = .other then .error .valueError
    else
      let coeffs := quadWeight quad n (tt 1 - tt 0) g
      match pcoeffCovar ext coeffs n order with
      | .error e => .error e
      | .ok (a, _) =>
        let aa : ℕ → ℂ := fun j => if j = 0 then 1 else if h : j - 1 < order then a ⟨j - 1, h⟩ else 0
        let convo : ℕ → ℂ := fun l => ∑ j ∈ Finset.range (l + 1), aa j * coeffs (l - j)
        let numer := ∑ l ∈ Finset.range order, phaseL L z (tt l) * convo l
        let denom := ∑ l ∈ Finset.range (order + 1), phaseL L z (tt l) * aa l
        .ok (numer / denom)

end Gftool.Model
