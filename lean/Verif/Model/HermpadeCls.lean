import Verif.Model.Hermpade

/-!
# Constructors and evaluation of the quadratic Hermite-Padé classes

`Hermite2.from_taylor_lstsq` and `_Hermite2Ret` of `gftool/hermpade.py`.
-/

namespace Gftool.Model

/-- `Hermite2.from_taylor_lstsq`, hermpade.py:843-849; `fix` is `fix_qr` or the index chosen by the heuristic; negative
degrees would be wrong indices. -/
noncomputable def hermite2FromTaylorLstsq (ext : LinalgExt ℂ) (L : ℕ) (an : ℕ → ℂ) (degP degQ degR fix : ℕ) :
    Except Err (Herm2 × RatPol) :=
  match hermite2Lstsq ext L an degP degQ degR fix with
  | .error e => .error e
  | .ok h =>
    let d := herm2PadeDeg degP degQ degR
    if d.1 < 0 ∨ d.2 < 0 then .error .indexError
    else
      match padeLstsq ext L an d.1.toNat d.2.toNat with
      | .error e => .error e
      | .ok r => .ok (h, r)

/-- `_Hermite2Ret.from_taylor`, hermpade.py:884-885. Mind the order of the arguments. -/
noncomputable def retFromTaylor (ext : LinalgExt ℂ) (L : ℕ) (an : ℕ → ℂ) (degR degQ degP : ℕ) : Except Err Herm2 :=
  hermite2 ext L an degP degQ degR

/-- `_Hermite2Ret.from_taylor_lstsq`, hermpade.py:891-893. -/
noncomputable def retFromTaylorLstsq (ext : LinalgExt ℂ) (L : ℕ) (an : ℕ → ℂ) (degP degQ degR fix : ℕ) :
    Except Err Herm2 :=
  hermite2Lstsq ext L an degP degQ degR fix

/-- `_Hermite2Ret.eval`, hermpade.py:860-879. -/
noncomputable def hermite2RetEval (h : Herm2) (scalar : Bool) (z : ℂ) : Except Err (Option ℂ) :=
  match evalBranches h scalar z with
  | .error e => .error e
  | .ok none => .ok none
  | .ok (some (p, m)) => .ok (some (retSelect p m))

end Gftool.Model
