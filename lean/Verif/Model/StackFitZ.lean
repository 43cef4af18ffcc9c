import Verif.Model.StackFit

/-!
# `gf_from_z` and `density_iw(…, n_fit)` on arrays with leading axes

See `Verif/Model/Stack.lean`.
-/

namespace Gftool.Model

open Complex

/-- `np.concatenate([a.real, a.imag], axis=-1)`, basis/pole.py:567; `ValueError` for 0-d arrays. -/
noncomputable def Nd.reim (a : Nd ℂ) : Except Err (Nd ℝ) :=
  match a.dims with
  | [] => .error .valueError
  | n :: s => .ok ⟨(n + n) :: s, fun i =>
      if i.headD 0 < n then (a.at i).re else (a.at ((i.headD 0 - n) :: i.tail)).im⟩

/-- `np.concatenate([a.real, a.imag], axis=-2)`, basis/pole.py:566; `AxisError`, which is a `ValueError`, for less than two
axes. -/
noncomputable def Nd.reim2 (a : Nd ℂ) : Except Err (Nd ℝ) :=
  match a.dims with
  | m :: n :: s => .ok ⟨m :: (n + n) :: s, fun i =>
      if i.tail.headD 0 < n then (a.at i).re else (a.at (i.headD 0 :: (i.tail.headD 0 - n) :: i.tail.tail)).im⟩
  | _ => .error .valueError

/-- `np.concatenate([weight, weight], axis=-1)`, basis/pole.py:570. -/
noncomputable def Nd.twice (a : Nd ℝ) : Except Err (Nd ℝ) :=
  match a.dims with
  | [] => .error .valueError
  | n :: s => .ok ⟨(n + n) :: s, fun i => if i.headD 0 < n then a.at i else a.at ((i.headD 0 - n) :: i.tail)⟩

/-- `np.vectorize(lstsq, signature="(m,n),(m)->(n)")`, basis/pole.py:585-587: one fit for every element of the broadcast leading
axes. -/
noncomputable def lstsqNd (ext : LinalgExt ℝ) (mat b : Nd ℝ) : Except Err (Nd ℝ) :=
  match mat.dims, b.dims with
  | n :: m :: as, m' :: bs =>
    if m' ≠ m then .error .valueError else
      match bcast as bs with
      | none => .error .valueError
      | some s => .ok ⟨n :: s, fun i => if h : i.headD 0 < n then
          ext.lstsq (Matrix.of fun (k : Fin m) (j : Fin n) => mat.at (j :: k :: i.tail))
            (fun k : Fin m => b.at (k :: i.tail)) ⟨_, h⟩
          else 0⟩
  | _, _ => .error .valueError

open scoped Classical in
/-- `np.vectorize(lstsq_ec, signature="(m,n),(m),(l,n),(l)->(n)")` with the constraint matrix
`np.swapaxes(polyvander(poles, deg=l-1), -1, -2)`, basis/pole.py:581-583.  `lstsq_ec` can raise `ValueError` only. -/
noncomputable def lstsqEcNd (ext : LinalgExt ℝ) (mat b poles moments : Nd ℝ) : Except Err (Nd ℝ) :=
  match mat.dims, b.dims, poles.dims, moments.dims with
  | n :: m :: as, m' :: bs, n' :: ps, l :: ms =>
    if m' ≠ m ∨ n' ≠ n then .error .valueError else
      match bcastAll [as, bs, ps, ms] with
      | none => .error .valueError
      | some s =>
        let fit := fun i : List ℕ =>
          lstsqEc ext (Matrix.of fun (k : Fin m) (j : Fin n) => mat.at (j :: k :: i)) (fun k : Fin m => b.at (k :: i))
            (vanderT ℝ l fun j : Fin n => poles.at (j :: i)) (fun k : Fin l => moments.at (k :: i))
        if ∃ i, List.Forall₂ (· < ·) i s ∧ ∃ e, fit i = .error e then .error .valueError
        else .ok ⟨n :: s, fun i => match fit i.tail with
          | .ok r => if h : i.headD 0 < n then r ⟨_, h⟩ else 0
          | .error _ => 0⟩
  | _, _, _, _ => .error .valueError

/-- `width * _chebyshev_points(n_pole)` with the choice of the width, basis/pole.py:555-562, for a float `width` or
`None`. -/
noncomputable def fitPolesNd (n : ℕ) (moments : Nd ℝ) (width : Option ℝ) : Except Err (Nd ℝ) := do
  let width ← match width with
    | some w => .ok (Nd.scalar w)
    | none => match moments.dims with
      | [] => .error .indexError
      | l :: _ => if l ≤ 1 then .ok (Nd.scalar 1) else do
        let m1 ← moments.slice 1 fun _ => 1
        .ok (m1.map fun m => if 0.1 ≤ |m| then |m| / chebMax n else 1)
  Nd.map2 (· * ·) width (chebNd n)

/-- `gf_from_z`, basis/pole.py:554-588, for real `moments` and a float `width` or `None`: poles and residues.  The matrix of the fit
is multiplied **in place** by `weight[..., np.newaxis]`. -/
noncomputable def gfFromZNd (ext : LinalgExt ℝ) (z gf : Nd ℂ) (n : ℕ) (moments : Nd ℝ) (width : Option ℝ)
    (weight : Option (Nd ℝ)) : Except Err (Nd ℝ × Nd ℝ) :=
  if n = 0 then .error .zeroDivision
  else do
    let poles ← fitPolesNd n moments width
    let p2 ← poles.newaxis2
    let mat ← poleGfZNd z.newaxis (p2.newaxis.map fun x : ℝ => (x : ℂ)) (Nd.scalar 1)
    let mat ← mat.reim2
    let gf ← gf.reim
    let (mat, gf) ← match weight with
      | none => .ok (mat, gf)
      | some w => do
        let w ← w.twice
        let mat ← Nd.imap2 (· * ·) mat w.newaxis
        let gf ← Nd.map2 (· * ·) gf w
        .ok (mat, gf)
    match moments.dims with
    | [] => .error .indexError
    | 0 :: _ => do
      let resid ← lstsqNd ext mat gf
      .ok (poles, resid)
    | (l + 1) :: _ =>
      if n < l + 1 then .error .valueError
      else do
        let resid ← lstsqEcNd ext mat gf poles moments
        .ok (poles, resid)

/-- The end of `density_iw`, density.py:98-99, given poles and residues of `mom_gf`; `beta` is a float. -/
noncomputable def densityIwEndNd (iws gfIw : Nd ℂ) (beta : ℝ) (weights poles resid : Nd ℝ) : Except Err (Nd ℝ) := do
  let mom ← poleGfZNd iws (poles.map fun x : ℝ => (x : ℂ)) (resid.map fun x : ℝ => (x : ℂ))
  let delta ← Nd.map2 (fun g m : ℂ => g.re - m.re) gfIw mom
  let wd ← Nd.map2 (· * ·) weights delta
  let occ ← Nd.map2 (fun r p => r * fermiFct p beta) resid poles
  let occ0 ← occ.sum.select 0
  Nd.map2 (fun a b => 2 / beta * a + b) wd.sum occ0

/-- `density_iw` with `n_fit≠0`, density.py:90-95 and 98-99. -/
noncomputable def densityIwFitNd (ext : LinalgExt ℝ) (iws gfIw : Nd ℂ) (beta : ℝ) (weights moments : Nd ℝ) (nFit : ℕ) :
    Except Err (Nd ℝ) := do
  let moments ← moments.newaxis2
  let nMom := moments.dims.headD 0
  let weight := iws.map fun z => z.im ^ (nMom + nFit)
  let gf2 ← gfIw.newaxis2
  let pr ← gfFromZNd ext iws gf2 (nFit + nMom) moments none (some weight)
  densityIwEndNd iws gfIw beta weights pr.1 pr.2

end Gftool.Model
