import Verif.Model.Stack
import Verif.Model.LinearPrediction
import Verif.Model.Density
import Mathlib.Data.List.DropRight

/-!
# Functions of gftool on arrays with leading axes: Laplace transforms, fits, linear prediction

See `Verif/Model/Stack.lean`.
-/

namespace Gftool.Model

open Complex

/-- `tt2z_trapz`, fourier.py:1149-1154, for `n` times `tt` (1-d array). -/
noncomputable def tt2zTrapzNd (n : ℕ) (tt : ℕ → ℝ) (gfT z : Nd ℂ) : Except Err (Nd ℂ) := do
  let ph ← Nd.map2 phase z.newaxis ⟨[n, 1], fun i => tt (i.headD 0)⟩
  let p0 ← ph.select 0
  let g0 ← gfT.slice (min 1 n) fun _ => 0
  let b0 ← Nd.map2 (fun p g => p * g * ((tt 1 - tt 0 : ℝ) : ℂ)) p0 g0
  if n < 2 then .error .indexError else do
    let p1 ← ph.select (n - 1)
    let g1 ← gfT.slice 1 fun _ => n - 1
    let b1 ← Nd.map2 (fun p g => p * g * ((tt (n - 1) - tt (n - 2) : ℝ) : ℂ)) p1 g1
    let boundary ← Nd.map2 (· + ·) b0 b1
    let pc ← ph.slice (n - 2) (· + 1)
    let gc ← gfT.slice (n - 2) (· + 1)
    let gd ← Nd.map2 (· * ·) gc (Nd.vec (n - 2) fun k => ((tt (k + 2) - tt k : ℝ) : ℂ))
    let trapz ← Nd.matvec pc gd
    let r ← Nd.map2 (· + ·) boundary trapz
    return r.map (0.5 * ·)

open scoped Classical in
/-- The assignment `a[..., mask] = v[..., np.newaxis]`: the mask has to match the last axes of `a` (`IndexError`), and the value
has to be broadcastable to the selected part of `a`, whose axes are the others of `a` followed by the selected points
(`ValueError`; leading axes of length one of the value are dropped by numpy). -/
noncomputable def Nd.setMask {α : Type} (a : Nd α) (mask : Nd Prop) (v : Nd α) : Except Err (Nd α) :=
  let l := mask.dims.length
  if a.dims.take l ≠ mask.dims then .error .indexError
  else if bcast (a.dims.drop l) (v.dims.rdropWhile (· = 1)) ≠ some (a.dims.drop l) then .error .valueError
  else .ok ⟨a.dims, fun i => if mask.get (i.take l) then v.at (i.drop l) else a.get i⟩

open scoped Classical in
/-- `tt2z_lin`, fourier.py:1320-1336, for `n` times `tt` (1-d array). -/
noncomputable def tt2zLinNd (n : ℕ) (tt : ℕ → ℝ) (gfT z : Nd ℂ) : Except Err (Nd ℂ) :=
  if n < 2 then .error .indexError
  else if ¬ equidistant n tt then .error .valueError
  else do
    let dt := tt 1 - tt 0
    let zero := z.map (· = 0)
    let anyZero := ∃ i, List.Forall₂ (· < ·) i zero.dims ∧ zero.get i
    let z := if anyZero then z.map fun z => if z = 0 then 1 else z else z
    let ph ← Nd.map2 phase z.newaxis ⟨[n - 1, 1], fun i => tt (i.headD 0)⟩
    let gl ← gfT.slice (n - 1) id
    let gDft ← Nd.matvec ph gl
    let gr ← gfT.slice (n - 1) (· + 1)
    let dg ← Nd.map2 (· - ·) gr gl
    let dgDft ← Nd.matvec ph dg
    let weight1 := z.map fun z => (Complex.exp (I * z * dt) - 1) / (I * z * dt)
    let weight2 := z.map fun z => (Complex.exp (I * z * dt) - (Complex.exp (I * z * dt) - 1) / (I * z * dt)) / (I * z * dt)
    let a ← Nd.map2 (· * ·) weight1 gDft
    let b ← Nd.map2 (· * ·) weight2 dgDft
    let r ← Nd.map2 (fun a b : ℂ => dt * (a + b)) a b
    if anyZero then do
      let s ← Nd.map2 (· + ·) gr gl
      let q ← Nd.map2 (fun s d => d * s / 2) s (Nd.vec (n - 1) fun k => ((tt (k + 1) - tt k : ℝ) : ℂ))
      r.setMask zero q.sum
    else .ok r

/-- `_chebyshev_points`, basis/pole.py:30-32, as an array. -/
noncomputable def chebNd (n : ℕ) : Nd ℝ := Nd.vec n fun k => if h : k < n then chebyshevPoints n ⟨k, h⟩ else 0

open scoped Classical in
/-- `_vecsolve(np.swapaxes(polyvander(poles, deg=n-1), -1, -2), moments)`, basis/pole.py:496-497, for arrays broadcast to the
shape `n :: s`: `numpy.linalg.solve` treats the leading axes as a stack, and raises `LinAlgError` if any of the matrices
is singular. -/
noncomputable def vanderSolveNd (n : ℕ) (s : List ℕ) (poles moments : Nd ℝ) : Except Err (Nd ℝ) :=
  if ∃ i, List.Forall₂ (· < ·) i s ∧ (vanderT ℝ n fun k : Fin n => poles.at (k :: i)).det = 0 then .error .linAlgError
  else .ok ⟨n :: s, fun i => if h : i.headD 0 < n then
    ((vanderT ℝ n fun k : Fin n => poles.at (k :: i.tail))⁻¹.mulVec fun k => moments.at (k :: i.tail)) ⟨i.headD 0, h⟩
    else 0⟩

/-- `gf_from_moments`, basis/pole.py:483-498, for real `moments`: poles and residues.  (`poles.shape[-1]` is the length of the
last axis of the broadcast arrays, as the matrix is square.) -/
noncomputable def gfFromMomentsNd (moments : Nd ℝ) (width : Option (Nd ℝ)) : Except Err (Nd ℝ × Nd ℝ) :=
  match moments.dims with
  | [] => .error .indexError
  | 0 :: _ => .ok (⟨[0], fun _ => 0⟩, moments)
  | (m + 1) :: _ => do
    let n := m + 1
    let width ← match width with
      | some w => .ok w
      | none => if n ≤ 1 then .ok (Nd.scalar 1) else do
        let m1 ← moments.slice 1 fun _ => 1
        .ok (m1.map fun m => if 0.1 ≤ |m| then |m| / chebMax n else 1)
    let poles ← Nd.map2 (· * ·) width (chebNd n)
    match bcast poles.dims moments.dims with
    | some (n' :: s) => do
      let resid ← vanderSolveNd n' s poles moments
      .ok (poles, resid)
    | _ => .error .valueError

/-- `density_iw` with `n_fit=0`, density.py:90 and 96-99; `beta` is a float. -/
noncomputable def densityIwNd (iws gfIw : Nd ℂ) (beta : ℝ) (weights moments : Nd ℝ) : Except Err (Nd ℝ) := do
  let moments ← moments.newaxis2
  let (poles, resid) ← gfFromMomentsNd moments none
  let mom ← poleGfZNd iws (poles.map fun x : ℝ => (x : ℂ)) (resid.map fun x : ℝ => (x : ℂ))
  let delta ← Nd.map2 (fun g m : ℂ => g.re - m.re) gfIw mom
  let wd ← Nd.map2 (· * ·) weights delta
  let occ ← Nd.map2 (fun r p => r * fermiFct p beta) resid poles
  let occ0 ← occ.sum.select 0
  Nd.map2 (fun a b => 2 / beta * a + b) wd.sum occ0

open scoped Classical in
/-- `gf_from_tau` with `occ=False`, basis/pole.py:638-666, for a float `width`: `np.vectorize` applies the least-squares solver to
the broadcast leading axes of its arguments.  The matrix of single-pole functions has the shape `(N_tau, n_pole)`; it is
multiplied **in place** by `weight[..., np.newaxis]`. -/
noncomputable def gfFromTauNd (ext : LinalgExt ℝ) (gfTau : Nd ℝ) (n : ℕ) (beta : ℝ) (moments : Nd ℝ) (width : ℝ)
    (weight : Option (Nd ℝ)) : Except Err (Nd ℝ) :=
  match gfTau.dims, moments.dims with
  | nt :: _, l :: ms =>
    if n = 0 then .error .zeroDivision
    else if ¬ ∀ i, 0 ≤ linspace0 beta nt i ∧ linspace0 beta nt i ≤ beta then .error .assertionError
    else do
      let poles := fun k => width * chebyshevPoints n k
      let mat : Nd ℝ := ⟨[n, nt], fun i => if h : i.tail.headD 0 < nt ∧ i.headD 0 < n then
        singlePoleGfTau (linspace0 beta nt ⟨_, h.1⟩) (poles ⟨_, h.2⟩) beta else 0⟩
      let (mat, gf) ← match weight with
        | none => .ok (mat, gfTau)
        | some w => do
          let mat ← Nd.imap2 (· * ·) mat w.newaxis
          let gf ← Nd.map2 (· * ·) gfTau w
          .ok (mat, gf)
      let A : Matrix (Fin nt) (Fin n) ℝ := Matrix.of fun i j => mat.get [j, i]
      if 0 < l then
        if n < l then .error .valueError
        else match gf.dims with
          | nt' :: gs => if nt' ≠ nt then .error .valueError else
            match bcast gs ms with
            | none => .error .valueError
            | some s =>
              if ∃ i, List.Forall₂ (· < ·) i s ∧ ∃ e, lstsqEc ext A (fun k : Fin nt => gf.at (k :: i)) (vanderT ℝ l poles)
                (fun k : Fin l => moments.at (k :: i)) = .error e then .error .linAlgError
              else .ok ⟨n :: s, fun i => match lstsqEc ext A (fun k : Fin nt => gf.at (k :: i.tail)) (vanderT ℝ l poles)
                (fun k : Fin l => moments.at (k :: i.tail)) with
                | .ok r => if h : i.headD 0 < n then r ⟨_, h⟩ else 0
                | .error _ => 0⟩
          | [] => .error .valueError
      else match gf.dims with
        | nt' :: gs => if nt' ≠ nt then .error .valueError else
          .ok ⟨n :: gs, fun i => if h : i.headD 0 < n then ext.lstsq A (fun k : Fin nt => gf.at (k :: i.tail)) ⟨_, h⟩ else 0⟩
        | [] => .error .valueError
  | _, _ => .error .indexError

/-- The assignment `a[..., k] = v`. -/
def Nd.setLast {α : Type} (a : Nd α) (k : ℕ) (v : Nd α) : Except Err (Nd α) :=
  if bcast a.dims.tail (v.dims.rdropWhile (· = 1)) = some a.dims.tail then
    .ok ⟨a.dims, fun i => if i.headD 0 = k then v.at i.tail else a.get i⟩
  else .error .valueError

/-- The loop of `predict`, linearprediction.py:342-343; `ii` is the next index, `order` the number of coefficients.  (A negative start
`ii-order` of the slice counts from the end.) -/
def predictLoopNd (pcoeff : Nd ℂ) (order total : ℕ) : ℕ → ℕ → Nd ℂ → Except Err (Nd ℂ)
  | 0, _, xt => .ok xt
  | num + 1, ii, xt => do
    let rev ← pcoeff.slice order fun k => order - 1 - k
    let lo := if order ≤ ii then ii - order else total - (order - ii)
    let sl ← xt.slice (ii - lo) fun k => lo + k
    let q ← Nd.map2 (· * ·) rev sl
    let xt ← xt.setLast ii (q.sum.map (- ·))
    predictLoopNd pcoeff order total num (ii + 1) xt

/-- `predict` with `stable=False`, linearprediction.py:332-344.  The placeholder `np.nan` of the elements not yet predicted is 0 here: they
are only read for `order > N`. -/
def predictNd (x pcoeff : Nd ℂ) (num : ℤ) : Except Err (Nd ℂ) :=
  if num < 0 then .error .valueError
  else match x.dims, pcoeff.dims with
    | N :: xs, order :: _ => predictLoopNd pcoeff order (N + num.toNat) num.toNat N
        ⟨(N + num.toNat) :: xs, fun i => if i.headD 0 < N then x.get i else 0⟩
    | _, _ => .error .indexError

open scoped Classical in
/-- The assignment `a[bad] = 0` with a boolean mask: it has to match the *first* axes of `a`, i.e. the end of `dims`
(`IndexError`). -/
noncomputable def Nd.maskZero (a : Nd ℂ) (bad : Nd Prop) : Except Err (Nd ℂ) :=
  if bad.dims <:+ a.dims then
    .ok ⟨a.dims, fun i => if bad.get (i.drop (a.dims.length - bad.dims.length)) then 0 else a.get i⟩
  else .error .indexError

open scoped Classical in
/-- `_predict_stable`, linearprediction.py:357-375, given the decomposition (for every element of the stack `ps` of coefficients)
of the companion matrices: `rv0` is its `rv[..., 0, :]`. -/
noncomputable def predictStableDecNd (x : Nd ℂ) (p : ℕ) (ps : List ℕ) (rv0 eig : List ℕ → Fin p → ℂ)
    (rvInv : List ℕ → Matrix (Fin p) (Fin p) ℂ) (num : ℕ) : Except Err (Nd ℂ) :=
  match x.dims with
  | [] => .error .indexError
  | N :: xs => do
    let vec := fun f : List ℕ → Fin p → ℂ => (⟨p :: ps, fun i => if h : i.headD 0 < p then f i.tail ⟨_, h⟩ else 0⟩ : Nd ℂ)
    let inv : Nd ℂ := ⟨p :: p :: ps, fun i => if h : i.headD 0 < p ∧ i.tail.headD 0 < p then
      rvInv i.tail.tail ⟨_, h.2⟩ ⟨_, h.1⟩ else 0⟩
    let state ← x.slice (min p N) fun k => N - 1 - k
    let right ← Nd.matvec inv state
    let residues ← Nd.map2 (· * ·) (vec rv0) right
    let residues ← residues.maskZero ((vec eig).map fun e => 1 < ‖e‖)
    let rec loop : ℕ → ℕ → Nd ℂ → Nd ℂ → Except Err (Nd ℂ)
      | 0, _, _, xt => .ok xt
      | num + 1, ii, residues, xt => do
        let residues ← Nd.imap2 (· * ·) residues (vec eig)
        let xt ← xt.setLast ii residues.sum
        loop num (ii + 1) residues xt
    loop num N residues ⟨(N + num) :: xs, fun i => if i.headD 0 < N then x.get i else 0⟩

/-- Companion matrix and its decomposition, linearprediction.py:358-359, for one element of the stack. -/
noncomputable def lpDecomp (ext : EigExt) {p : ℕ} (pcoeff : Fin p → ℂ) : Except Err (Decomposition (Fin p) (Fin p)) :=
  match companion 1 pcoeff with
  | .error e => .error e
  | .ok mat => decomposeMat ext mat

open scoped Classical in
/-- `_predict_stable`, linearprediction.py:357-375: `companion` and `decompose_mat` treat leading axes as stacks, an error of any
element is raised. Without coefficients `companion` raises (linearprediction.py:155-157), or, for stacks, the product with
the (non-empty) data does. -/
noncomputable def predictStableNd (ext : EigExt) (x pcoeff : Nd ℂ) (num : ℕ) : Except Err (Nd ℂ) :=
  match pcoeff.dims with
  | [] => .error .indexError
  | 0 :: _ => .error .valueError
  | (q + 1) :: ps =>
    let dec := fun i : List ℕ => lpDecomp ext fun k : Fin (q + 1) => pcoeff.at (k :: i)
    if ∃ i, List.Forall₂ (· < ·) i ps ∧ ∃ e, dec i = .error e then .error .linAlgError
    else
      let rv0 := fun i => match dec i with | .ok d => fun j => d.rv 0 j | .error _ => 0
      let eig := fun i => match dec i with | .ok d => d.eig | .error _ => 0
      let rvInv := fun i => match dec i with | .ok d => d.rvInv | .error _ => 0
      predictStableDecNd x (q + 1) ps rv0 eig rvInv num

end Gftool.Model
