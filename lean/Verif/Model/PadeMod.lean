import Verif.Model.Pade

/-!
# Model of `masked_coefficients`, `Mod_Averager` and `avg_no_neg_imag` of `gftool/pade.py`

As in `Verif.Model.Pade`: one function, exact arithmetic. `none` in the matrix of
`masked_coefficients` stands for the `np.inf` the code writes for huge quotients.
-/

namespace Gftool.Model

/-- `cutoff`, pade.py:314. -/
noncomputable def maskCutoff : ℝ := 1e-4

open scoped Classical in
/-- `signi_diff`, pade.py:322-324. -/
noncomputable def signiDiff (last : ℂ) : Option ℂ → Bool
  | some e => decide (‖last - e‖ > maskCutoff)
  | none => true

open scoped Classical in
/-- `comparable_mag`, pade.py:326-328. -/
noncomputable def comparableMag (last : ℂ) : Option ℂ → Bool
  | some e => decide (‖last‖ / maskCutoff > ‖e‖ ∧ ‖e‖ > ‖last‖ * maskCutoff)
  | none => false

open scoped Classical in
/-- The new entry `mat_pi[jj]`, pade.py:337-342. -/
noncomputable def maskedEntry (last zLast zj : ℂ) : Option ℂ → Option ℂ
  | some e =>
    if comparableMag last (some e) then some ((last / e - 1) / (zj - zLast))
    else if ‖last‖ < ‖e‖ * maskCutoff then some (-1 / (zj - zLast))
    else none
  | none => some (-1 / (zj - zLast))

/-- Variables of the loop of `masked_coefficients`: `last_it`, `last_coeff`, the row `mat[last_it]`,
the diagonal of `mat` and `mask`. -/
structure MaskState where
  lastIt : ℕ
  last : ℂ
  row : ℕ → Option ℂ
  diag : ℕ → ℂ
  mask : ℕ → Bool

/-- The state before the loop of `masked_coefficients`, pade.py:310-320. -/
noncomputable def maskInit (f : ℕ → ℂ) : MaskState :=
  ⟨0, f 0, fun j => some (f j), fun i => if i = 0 then f 0 else 0, fun _ => true⟩

/-- One iteration `ii` of the loop of `masked_coefficients`, pade.py:330-346. The test `mask[jj]`,
pade.py:335, is always passed as only `mask[:ii+1]` was assigned. The element in the regular case
is never `np.inf`, as `comparable_mag` is false for it. -/
noncomputable def maskStep (z : ℕ → ℂ) (s : MaskState) (ii : ℕ) : MaskState :=
  if signiDiff s.last (s.row ii) && comparableMag s.last (s.row ii) then
    let new := (s.last / (s.row ii).getD 0 - 1) / (z ii - z s.lastIt)
    { lastIt := ii
      last := new
      row := fun jj =>
        if jj < ii then some 0
        else if jj = ii then some new
        else maskedEntry s.last (z s.lastIt) (z jj) (s.row jj)
      diag := Function.update s.diag ii new
      mask := s.mask }
  else { s with mask := Function.update s.mask ii false }

/-- The state after the iterations `ii = 1, …, n`. -/
noncomputable def maskRun (z f : ℕ → ℂ) : ℕ → MaskState
  | 0 => maskInit f
  | n + 1 => maskStep z (maskRun z f n) (n + 1)

open scoped Classical in
/-- `masked_coefficients`, pade.py:303-348, for `N ≥ 1` points. Coinciding points, for which the
code can divide by zero, are not modelled (`none`). -/
noncomputable def maskedCoefficients (N : ℕ) (z f : ℕ → ℂ) : Except Err (Option (ℕ → ℂ)) :=
  if ¬ ‖f 0‖ > maskCutoff then .error .assertionError
  else if Set.InjOn z (Set.Iio N) then .ok (some (maskRun z f (N - 1)).diag)
  else .ok none

/-! ### Averages of modified approximants -/

/-- The argument `mod_fct` of `Mod_Averager` at one point: either given all approximants at once
(`vectorized=True`) or one after the other (`vectorized=False`). -/
inductive ModFct (α : Type) where
  | vectorized (fct : ℂ → List ℂ → List α)
  | single (fct : ℂ → ℂ → α)

/-- The array `mod_pade`, pade.py:615-619. -/
def ModFct.apply {α : Type} (m : ModFct α) (z : ℂ) (pades : List ℂ) : List α :=
  match m with
  | .vectorized fct => fct z pades
  | .single fct => pades.map (fct z)

/-- `Mod_Averager` for one function (1d `valid_pades`), pade.py:551-627, evaluated at one point `z`,
with a `mod_fct` that returns complex numbers. -/
noncomputable def modAverager (kind : KindSelector) (mod : ModFct ℂ) (valid : List Bool) (z : ℂ)
    (pades : List ℂ) : Except Err AvgResult :=
  if ¬ valid.any id then .error .runtimeError
  else .ok (avgStat (mod.apply z (((kind.islice pades).zip valid).filterMap fun p =>
    if p.2 then some p.1 else none)))

/-- `Mod_Averager` with a `mod_fct` that returns real numbers, pade.py:620-625: the deviation is
real, too. -/
noncomputable def modAveragerReal (kind : KindSelector) (mod : ModFct ℝ) (valid : List Bool) (z : ℂ)
    (pades : List ℂ) : Except Err (Option ℝ × Option ℝ) :=
  if ¬ valid.any id then .error .runtimeError
  else
    let l := mod.apply z (((kind.islice pades).zip valid).filterMap fun p =>
      if p.2 then some p.1 else none)
    .ok (if l = [] then none else some (l.sum / l.length), stdR l)

/-- `avg_no_neg_imag`, pade.py:758-760. -/
noncomputable def avgNoNegImag (kind : KindSelector) (zOut : ℂ) (N : ℕ) (zin f : ℕ → ℂ)
    (validZ : List ℂ) (threshold : ℝ) : Except Err AvgResult :=
  averaged kind zOut N zin f validZ (some [filterNegImag threshold])

end Gftool.Model
