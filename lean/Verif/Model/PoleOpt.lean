import Verif.Model.Fourier

/-!
# Pole fits with optimized pole spread

`izp2tau` and `tau2izp` choose the spread of the poles by minimizing the error of the fit.
-/

namespace Gftool.Model

/-- `scipy.optimize.minimize_scalar(error_)`, with the default method (Brent), as used in fourier.py:1004 and 1664. The
returned number is `opt.x`. Contract: the function is evaluated at the ends 0 and 1 of the default bracket first, exceptions
of the function are not caught. Otherwise the method raises (subclasses of) `RuntimeError` if no bracket is found, or it
returns a point at which the function is not larger than at the ends 0 and 1. It is *not* assumed that the point is a
minimum. Functions which return NaN are not modelled. -/
structure MinimizeExt where
  minimize : (ℝ → Except Err ℝ) → Except Err ℝ
  first : ∀ f e, f 0 = .error e → minimize f = .error e
  second : ∀ f y e, f 0 = .ok y → f 1 = .error e → minimize f = .error e
  raises : ∀ f e, minimize f = .error e → e = .runtimeError ∨ ∃ w, f w = .error e
  descent : ∀ f x, minimize f = .ok x → ∃ y, f x = .ok y ∧ (∀ y0, f 0 = .ok y0 → y ≤ y0) ∧ ∀ y1, f 1 = .ok y1 → y ≤ y1

/-- `moments[..., 0:1]`. -/
def firstMoments {l : ℕ} (moments : Fin l → ℝ) : Fin (min 1 l) → ℝ := fun i => moments ⟨i, by omega⟩

open scoped Classical in
/-- `error_` in `_z2polegf`, fourier.py:997-1002. -/
noncomputable def zFitError (ext : LinalgExt ℝ) {k l : ℕ} (izp gf : Fin k → ℂ) (n : ℕ) (moments : Fin l → ℝ) (width : ℝ) :
    Except Err ℝ := do
  let p ← if width ≠ 0 then gfFromZ ext izp gf n moments (some width) none
    else gfFromZ ext izp gf n (firstMoments moments) (some width) none
  pure (Real.sqrt (∑ i, ‖gf i - p.evalZ (izp i)‖ ^ 2))

/-- `_z2polegf`, fourier.py:994-1006. -/
noncomputable def z2polegf (ext : LinalgExt ℝ) (opt : MinimizeExt) {k l : ℕ} (izp gf : Fin k → ℂ) (n : ℕ)
    (moments : Fin l → ℝ) : Except Err (PoleFct ℝ n) := do
  let width ← opt.minimize (zFitError ext izp gf n moments)
  gfFromZ ext izp gf n moments (some width) none

/-- `izp2tau`, fourier.py:1105-1106. -/
noncomputable def izp2tauOpt (ext : LinalgExt ℝ) (opt : MinimizeExt) {k l : ℕ} (izp gf : Fin k → ℂ) (tau beta : ℝ)
    (moments : Fin l → ℝ) : Except Err ℝ := do
  let p ← z2polegf ext opt izp gf k moments
  poleGfTau tau p.poles p.residues beta

open scoped Classical in
/-- `error_` in `_tau2polegf`, fourier.py:1656-1662. -/
noncomputable def tauFitError (ext : LinalgExt ℝ) {T l : ℕ} (g : Fin (T + 1) → ℝ) (n : ℕ) (beta : ℝ) (moments : Fin l → ℝ)
    (occ : ℝ) (weight : Option (Fin (T + 1) → ℝ)) (width : ℝ) : Except Err ℝ := do
  let p ← if width ≠ 0 then gfFromTau ext g n beta moments occ width weight
    else gfFromTau ext g n beta (fun _ : Fin 1 => tauJump g) occ width weight
  let fit ← evalTauGrid p beta (T + 1)
  pure (Real.sqrt (∑ i, (g i - fit i) ^ 2))

/-- `_tau2polegf`, fourier.py:1645-1667: given moments have to be non-empty (`moments[..., 0]`), the default is the jump.
The warning about moments that differ from the jump is not modelled. -/
noncomputable def tau2polegf (ext : LinalgExt ℝ) (opt : MinimizeExt) {T : ℕ} (g : Fin (T + 1) → ℝ) (n : ℕ) (beta : ℝ)
    (moments : Option (Σ l, Fin l → ℝ)) (occ : ℝ) (weight : Option (Fin (T + 1) → ℝ)) : Except Err (PoleFct ℝ n) :=
  match moments with
  | none => do
    let width ← opt.minimize (tauFitError ext g n beta (fun _ : Fin 1 => tauJump g) occ weight)
    gfFromTau ext g n beta (fun _ : Fin 1 => tauJump g) occ width weight
  | some ⟨l, m⟩ => if l = 0 then .error .indexError else do
    let width ← opt.minimize (tauFitError ext g n beta m occ weight)
    gfFromTau ext g n beta m occ width weight

/-- `tau2izp`, fourier.py:1773-1774. -/
noncomputable def tau2izpOpt (ext : LinalgExt ℝ) (opt : MinimizeExt) {T k : ℕ} (g : Fin (T + 1) → ℝ) (beta : ℝ)
    (izp : Fin k → ℂ) (moments : Option (Σ l, Fin l → ℝ)) (occ : ℝ) (weight : Option (Fin (T + 1) → ℝ)) :
    Except Err (Fin k → ℂ) := do
  let p ← tau2polegf ext opt g k beta moments occ weight
  pure fun i => p.evalZ (izp i)

end Gftool.Model
