import Verif.Model.Laplace

/-!
# Model of `tt2z_herm2` of `gftool/fourier.py`
-/

namespace Gftool.Model

open scoped Classical in
/-- `tt2z_herm2`, fourier.py:1449-1467; `herm2` (the argument of the same name) gets the number of coefficients, the
coefficients and the degrees of `p`, `q`, `r`. `none` in the result is a non-finite value. The frequencies are an
array, so the branches are arrays, too. -/
noncomputable def tt2zHerm2 (herm2 : ℕ → (ℕ → ℂ) → ℕ → ℕ → ℕ → Except Err (Herm2 × RatPol))
    (n : ℕ) (tt : ℕ → ℝ) (g : ℕ → ℂ) (z : ℂ) (quad : Quad) : Except Err (Option ℂ) :=
  if n < 2 then .error .indexError
  else if ¬ equidistant n tt then .error .valueError
  else if quad = .other then .error .valueError
  else if tt 0 ≠ 0 then .error .assertionError
  else if ¬ 0 < z.im then .error .assertionError
  else
    let coeffs := quadWeight quad n (tt 1 - tt 0) g
    let deg := (n - 2) / 3
    match herm2 n coeffs deg deg deg with
    | .error e => .error e
    | .ok (h, pade) => hermite2Eval h pade false (phase z (tt 1 - tt 0))

end Gftool.Model
