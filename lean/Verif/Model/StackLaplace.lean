import Verif.Model.StackFit
import Verif.Model.LaplaceHerm

/-!
# Functions of gftool on arrays with leading axes: Laplace transforms by Simpson's rule, Padé and linear prediction

See `Verif/Model/Stack.lean`.  `np.vectorize` with a signature calls a function for every element of the (broadcast) leading axes,
in C order; the first exception ends the loop.
-/

namespace Gftool.Model

open Complex

variable {α β γ : Type}

/-- All multi-indices of an array of the given `dims`, in C order (the last axis, i.e. the head, is the fastest). -/
def allIdx : List ℕ → List (List ℕ)
  | [] => [[]]
  | n :: s => (allIdx s).flatMap fun i => (List.range n).map (· :: i)

/-- Exception of a call. -/
def errOf : Except Err γ → Option Err
  | .error e => some e
  | .ok _ => none

/-- The first exception in a loop over the leading axes `s`. -/
def firstErr (F : List ℕ → Except Err γ) (s : List ℕ) : Option Err :=
  (allIdx s).findSome? fun i => errOf (F i)

/-- `np.vectorize(f, signature="(n),(l)->(n)", otypes=[complex])(y, c)`.  The function gets the lengths and elements of its arguments.
`ValueError` if an argument has no last axis, or if the leading axes cannot be broadcast. -/
def Nd.vectorize2 [Inhabited γ] (f : ℕ → (ℕ → α) → ℕ → (ℕ → β) → Except Err (ℕ → γ)) (y : Nd α) (c : Nd β) : Except Err (Nd γ) :=
  match y.dims, c.dims with
  | n :: ys, l :: cs =>
    match bcast ys cs with
    | none => .error .valueError
    | some s =>
      let F := fun i : List ℕ => f n (fun k => y.at (k :: i)) l (fun k => c.at (k :: i))
      match firstErr F s with
      | some e => .error e
      | none => .ok ⟨n :: s, fun i => match F i.tail with
        | .ok r => r (i.headD 0)
        | .error _ => default⟩
  | _, _ => .error .valueError

open scoped Classical in
/-- The assignment `a[..., sl] *= c` with a slice of the last axis; `IndexError` for 0-d arrays. -/
noncomputable def Nd.scaleLast (sel : ℕ → Prop) (c : ℂ) (a : Nd ℂ) : Except Err (Nd ℂ) :=
  match a.dims with
  | [] => .error .indexError
  | _ :: _ => .ok ⟨a.dims, fun i => if sel (i.headD 0) then a.get i * c else a.get i⟩

/-- `_trapz_weight`, fourier.py:1177-1182, with `endpoint=False`; `coeffs[..., 0]` needs at least one point. -/
noncomputable def trapzWeightNd (dt : ℝ) (gfT : Nd ℂ) : Except Err (Nd ℂ) :=
  let coeffs := gfT.map fun g => (dt : ℂ) * g
  if coeffs.dims.headD 0 = 0 then .error .indexError else coeffs.scaleLast (· = 0) 0.5

/-- `_simps_weight`, fourier.py:1210-1215, with `endpoint=False`. -/
noncomputable def simpsWeightNd (dt : ℝ) (gfT : Nd ℂ) : Except Err (Nd ℂ) := do
  let coeffs := gfT.map fun g => (dt : ℂ) / 3 * g
  let coeffs ← coeffs.scaleLast (fun k => 1 ≤ k ∧ k % 2 = 1) 4
  coeffs.scaleLast (fun k => 2 ≤ k ∧ k % 2 = 0) 2

/-- `weight(delta_tt, gf_t, endpoint=False)`, e.g. fourier.py:1393-1396. -/
noncomputable def quadWeightNd (quad : Quad) (dt : ℝ) (gfT : Nd ℂ) : Except Err (Nd ℂ) :=
  match quad with
  | .trapz => trapzWeightNd dt gfT
  | _ => simpsWeightNd dt gfT

/-- `tt2z_simps`, fourier.py:1260-1263, for `n` times `tt` (1-d array). -/
noncomputable def tt2zSimpsNd (n : ℕ) (tt : ℕ → ℝ) (gfT z : Nd ℂ) : Except Err (Nd ℂ) :=
  if n < 2 then .error .indexError
  else do
    let coeffs ← simpsWeightNd (tt 1 - tt 0) gfT
    let ph ← Nd.map2 phase z.newaxis ⟨[n, 1], fun i => tt (i.headD 0)⟩
    Nd.matvec ph coeffs

/-- `pade_val` of `tt2z_pade`, fourier.py:1400-1401. -/
noncomputable def padeVal (pade : ℕ → (ℕ → ℂ) → ℕ → ℕ → Except Err RatPol) (deg degree : ℤ) (_nz : ℕ) (y : ℕ → ℂ) (l : ℕ)
    (coeffs : ℕ → ℂ) : Except Err (ℕ → ℂ) :=
  if deg < 0 ∨ deg + degree < 0 then .error .notImplemented
  else match pade l coeffs (deg + degree).toNat deg.toNat with
    | .error e => .error e
    | .ok r => .ok fun k => r.eval (y k)

open scoped Classical in
/-- `tt2z_pade`, fourier.py:1385-1403. -/
noncomputable def tt2zPadeNd (pade : ℕ → (ℕ → ℂ) → ℕ → ℕ → Except Err RatPol) (n : ℕ) (tt : ℕ → ℝ) (gfT z : Nd ℂ) (degree : ℤ)
    (quad : Quad) : Except Err (Nd ℂ) :=
  let degree := degree + 1;
  if n < 2 then .error .indexError
  else if ¬ equidistant n tt then .error .valueError
  else if quad = .other then .error .valueError
  else if tt 0 ≠ 0 then .error .assertionError
  else match gfT.dims with
    | [] => .error .indexError
    | l :: _ =>
      if n ≠ l then .error .assertionError
      else do
        let coeffs ← quadWeightNd quad (tt 1 - tt 0) gfT
        let deg := ((l : ℤ) - degree - 1) / 2
        let y := z.map fun z => phase z (tt 1 - tt 0)
        Nd.vectorize2 (padeVal pade deg degree) y coeffs

/-- `pade_val` of `tt2z_herm2`, fourier.py:1463-1465; `none` is a non-finite value. -/
noncomputable def hermVal (herm2 : ℕ → (ℕ → ℂ) → ℕ → ℕ → ℕ → Except Err (Herm2 × RatPol)) (deg : ℕ) (_nz : ℕ) (y : ℕ → ℂ) (l : ℕ)
    (coeffs : ℕ → ℂ) : Except Err (ℕ → Option ℂ) :=
  match herm2 l coeffs deg deg deg with
  | .error e => .error e
  | .ok (h, pade) => .ok fun k => match hermite2Eval h pade false (y k) with
    | .ok v => v
    | .error _ => none

open scoped Classical in
/-- `tt2z_herm2`, fourier.py:1449-1467. -/
noncomputable def tt2zHerm2Nd (herm2 : ℕ → (ℕ → ℂ) → ℕ → ℕ → ℕ → Except Err (Herm2 × RatPol)) (n : ℕ) (tt : ℕ → ℝ) (gfT z : Nd ℂ)
    (quad : Quad) : Except Err (Nd (Option ℂ)) :=
  if n < 2 then .error .indexError
  else if ¬ equidistant n tt then .error .valueError
  else if quad = .other then .error .valueError
  else if tt 0 ≠ 0 then .error .assertionError
  else if ¬ (z.map fun z => 0 < z.im).all then .error .assertionError
  else do
    let coeffs ← quadWeightNd quad (tt 1 - tt 0) gfT
    let deg := (coeffs.dims.headD 0 - 2) / 3
    let y := z.map fun z => phase z (tt 1 - tt 0)
    Nd.vectorize2 (hermVal herm2 deg) y coeffs

/-- `pcoeff_covar`, linearprediction.py:210-235: `np.vectorize` with the new axis `l` of the coefficients.  Without `otypes`, `np.vectorize`
raises `ValueError` if there is no element in the stack. -/
noncomputable def pcoeffCovarNd (ext : LinalgExt ℂ) (x : Nd ℂ) (order : ℕ) : Except Err (Nd ℂ × Nd ℝ) :=
  match x.dims with
  | [] => .error .indexError
  | N :: xs =>
    if N ≤ order then .error .valueError
    else if allIdx xs = [] then .error .valueError
    else
      let F := fun i : List ℕ => pcoeffCovar ext (fun k => x.at (k :: i)) N order
      match firstErr F xs with
      | some e => .error e
      | none => .ok (⟨order :: xs, fun i => match F i.tail with
          | .ok (a, _) => if h : i.headD 0 < order then a ⟨_, h⟩ else 0
          | .error _ => 0⟩, ⟨xs, fun i => match F i with
          | .ok (_, e) => e
          | .error _ => 0⟩)

/-- `np.r_["-1", np.ones_like(coeffs[..., 0:1]), a]`: concatenation along the last axis; `ValueError` if the other axes differ. -/
def Nd.prependOne (coeffs a : Nd ℂ) : Except Err (Nd ℂ) :=
  match coeffs.dims, a.dims with
  | _ :: cs, p :: as => if cs = as then
      .ok ⟨(p + 1) :: as, fun i => if i.headD 0 = 0 then 1 else a.get ((i.headD 0 - 1) :: i.tail)⟩ else .error .valueError
  | _, _ => .error .indexError

open scoped Classical in
/-- `np.moveaxis(np.array([f(0), …, f(n-1)]), 0, -1)`: `np.array` of arrays with different shapes raises `ValueError`; an
exception in one of the evaluations is raised. -/
noncomputable def Nd.stackAll (n : ℕ) (f : ℕ → Except Err (Nd ℂ)) : Except Err (Nd ℂ) :=
  match (List.range n).findSome? fun k => errOf (f k) with
  | some e => .error e
  | none => match f 0 with
    | .error e => .error e
    | .ok a0 => if ∀ k < n, ∀ a, f k = .ok a → a.dims = a0.dims then
        .ok ⟨n :: a0.dims, fun i => match f (i.headD 0) with
          | .ok a => a.get i.tail
          | .error _ => 0⟩
      else .error .valueError

open scoped Classical in
/-- `tt2z_lpz`, fourier.py:1472-1490. -/
noncomputable def tt2zLpzNd (ext : LinalgExt ℂ) (n : ℕ) (tt : ℕ → ℝ) (gfT z : Nd ℂ) (order : Option ℕ) (quad : Quad) :
    Except Err (Nd ℂ) :=
  if n < 2 then .error .indexError
  else if ¬ equidistant n tt then .error .valueError
  else
    let order := order.getD (n / 2)
    if quad = .other then .error .valueError
    else do
      let coeffs ← quadWeightNd quad (tt 1 - tt 0) gfT
      let pc ← pcoeffCovarNd ext coeffs order
      let aa ← Nd.prependOne coeffs pc.1
      let convo ← Nd.stackAll order fun l => do
        let a ← aa.slice (l + 1) id
        let c ← coeffs.slice (l + 1) fun k => l - k
        let q ← Nd.map2 (· * ·) a c
        return q.sum
      let ph ← Nd.map2 phase z.newaxis ⟨[min (order + 1) n, 1], fun i => tt (i.headD 0)⟩
      let phn ← ph.slice order id
      let numer ← Nd.matvec phn convo
      let denom ← Nd.matvec ph aa
      Nd.map2 (· / ·) numer denom

/-- Number of elements. -/
def Nd.size (a : Nd α) : ℕ := a.dims.prod

open scoped Classical in
/-- `tt2z`, fourier.py:1631-1642; `none` is NaN.  `np.broadcast_shapes` raises `ValueError`. -/
noncomputable def tt2zNd (n : ℕ) (tt : ℕ → ℝ) (gfT z : Nd ℂ) (laplace : ℕ → (ℕ → ℝ) → Nd ℂ → Nd ℂ → Except Err (Nd (Option ℂ))) :
    Except Err (Nd (Option ℂ)) :=
  let retarded := (∀ k < n, 0 ≤ tt k) ∧ (z.map fun z => 0 ≤ z.im).all
  let advanced := (∀ k < n, tt k ≤ 0) ∧ (z.map fun z => z.im ≤ 0).all
  if ¬ (retarded ∨ advanced) then .error .valueError
  else if z.size = 0 ∨ gfT.size = 0 then
    match bcast z.dims (1 :: gfT.dims.tail) with
    | some s => .ok ⟨s, fun _ => none⟩
    | none => .error .valueError
  else laplace n tt gfT z

end Gftool.Model
