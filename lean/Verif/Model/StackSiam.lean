import Verif.Model.StackLaplace
import Verif.Model.Siam

/-!
# Functions of gftool on arrays with leading axes: `gftool/siam.py` in time, Burg's method, companion matrices

See `Verif/Model/Stack.lean`.
-/

namespace Gftool.Model

open Matrix

variable {α : Type}

/-- The assignment `a[..., sl] = v` of a part of the last two axes of `a`, whose other axes are `s`.  The part has the axes `sub`;
`pos col row` is the index in this part of the element `a[..., row, col]`, if it is contained.  `ValueError` if the value cannot be
broadcast (leading axes of length one of the value are dropped by numpy). -/
def Nd.assign (a v : Nd α) (s sub : List ℕ) (pos : ℕ → ℕ → Option (List ℕ)) : Except Err (Nd α) :=
  if bcast (sub ++ s) (v.dims.rdropWhile (· = 1)) ≠ some (sub ++ s) then .error .valueError
  else .ok ⟨a.dims, fun i => match pos (i.headD 0) (i.tail.headD 0) with
    | some j => v.at (j ++ i.tail.tail)
    | none => a.get i⟩

/-- `hamiltonian_matrix`, siam.py:177-184, for complex `hopping`. -/
noncomputable def hamiltonianNd (eOnsite eBath : Nd ℝ) (hopping : Nd ℂ) : Except Err (Nd ℂ) :=
  match bcastAll [eOnsite.newaxis.dims, eBath.dims, hopping.dims] with
  | none => .error .valueError
  | some shape => do
    let n := shape.headD 1
    let s := shape.tail
    let ham : Nd ℂ := ⟨(n + 1) :: (n + 1) :: s, fun _ => 0⟩
    let ham ← ham.assign (eOnsite.map fun e : ℝ => (e : ℂ)) s [] fun c r => if c = 0 ∧ r = 0 then some [] else none
    let ham ← ham.assign hopping s [n] fun c r => if r = 0 ∧ 1 ≤ c then some [c - 1] else none
    let ham ← ham.assign (hopping.map star) s [n] fun c r => if c = 0 ∧ 1 ≤ r then some [r - 1] else none
    ham.assign (eBath.map fun e : ℝ => (e : ℂ)) s [n] fun c r => if c = r ∧ 1 ≤ c then some [c - 1] else none

/-- The common part of `gf0_loc_ret_t`, `gf0_loc_gr_t` and `gf0_loc_le_t`, siam.py:84-89, 114-119, 144-149; `f` is the function of
time and eigenvalue.  `decompose_her` treats leading axes as a stack (`np.linalg.eigh`).
`rv_inv[..., :, :1]` and `rv[..., :1, :]` are the first column and row. -/
noncomputable def siamLocalNd (ext : EigExt) (tt eOnsite eBath : Nd ℝ) (hopping : Nd ℂ) (f : ℝ → ℂ → ℂ) : Except Err (Nd ℂ) := do
  let ham ← hamiltonianNd eOnsite eBath hopping
  match ham.dims with
  | 0 :: _ => .error .indexError
  | (N + 1) :: _ :: s =>
    let D := fun i : List ℕ => decomposeHer ext (Matrix.of fun r c : Fin (N + 1) => ham.get (c :: r :: i)) true
    match firstErr D s with
    | some e => .error e
    | none =>
      let eig : Nd ℂ := ⟨(N + 1) :: s, fun i => match D i.tail with
        | .ok dec => dec.eig (Fin.ofNat (N + 1) (i.headD 0))
        | .error _ => 0⟩
      let rvRv : Nd ℂ := ⟨(N + 1) :: 1 :: s, fun i => match D i.tail.tail with
        | .ok dec => dec.rvInv (Fin.ofNat (N + 1) (i.headD 0)) 0 * dec.rv 0 (Fin.ofNat (N + 1) (i.headD 0))
        | .error _ => 0⟩
      let eigExp ← Nd.map2 f tt.newaxis eig
      let diag ← Nd.matvec rvRv eigExp
      diag.select 0
  | _ => .error .indexError

/-- `gf0_loc_ret_t`, siam.py:84-89. -/
noncomputable def siamRetTNd (ext : EigExt) (tt eOnsite eBath : Nd ℝ) (hopping : Nd ℂ) : Except Err (Nd ℂ) :=
  siamLocalNd ext tt eOnsite eBath hopping fun t p => singlePoleGfRetT t p

/-- `gf0_loc_gr_t`, siam.py:114-119 (the eigenvalues are real floats). -/
noncomputable def siamGrTNd (ext : EigExt) (tt eOnsite eBath : Nd ℝ) (hopping : Nd ℂ) (beta : ℝ) : Except Err (Nd ℂ) :=
  siamLocalNd ext tt eOnsite eBath hopping fun t p => singlePoleGfGrT t p.re beta

/-- `gf0_loc_le_t`, siam.py:144-149 (the eigenvalues are real floats). -/
noncomputable def siamLeTNd (ext : EigExt) (tt eOnsite eBath : Nd ℝ) (hopping : Nd ℂ) (beta : ℝ) : Except Err (Nd ℂ) :=
  siamLocalNd ext tt eOnsite eBath hopping fun t p => singlePoleGfLeT t p.re beta

/-- Variables of the loop in `pcoeff_burg`; `a` is the current row of the code's array `a`, `fin` tells which elements of the
stack are finite so far. -/
structure BurgNd where
  f : Nd ℂ
  b : Nd ℂ
  a : Nd ℂ
  rho : Nd ℝ
  fin : Nd Prop

/-- State before the loop, linearprediction.py:273-278, for `x` with `dims = N :: xs`. -/
noncomputable def burgInitNd (x : Nd ℂ) (N order : ℕ) (xs : List ℕ) : Except Err BurgNd := do
  let f ← x.slice (N - 1) (· + 1)
  let b ← x.slice (N - 1) id
  return { f := f, b := b, a := ⟨order :: xs, fun _ => 0⟩, rho := (x.map fun x => ‖x‖ ^ 2).sum.map (· / (N : ℝ)), fin := ⟨xs, fun _ => True⟩ }

/-- Iteration `k` of the loop, linearprediction.py:279-295. -/
noncomputable def burgStepNd (k : ℕ) (s : BurgNd) : Except Err BurgNd := do
  let p ← Nd.map2 (fun x y : ℂ => x * star y) s.f s.b
  let numer := p.sum.map (-2 * ·)
  let denom ← Nd.map2 (fun x y : ℝ => x + y) (s.f.map fun x => ‖x‖ ^ 2).sum (s.b.map fun x => ‖x‖ ^ 2).sum
  let kk ← Nd.map2 (fun (x : ℂ) (y : ℝ) => x / (y : ℂ)) numer denom
  let rho ← Nd.map2 (fun (x : ℂ) (r : ℝ) => (1 - ‖x‖ ^ 2) * r) kk s.rho
  let fin ← Nd.map2 (fun (d : ℝ) (q : Prop) => q ∧ d ≠ 0) denom s.fin
  let kn := kk.newaxis
  let al ← s.a.slice (k - 1) id
  let ar ← s.a.slice (k - 1) fun j => k - 2 - j
  let c ← Nd.map2 (fun x y : ℂ => x * star y) kn ar
  let u ← Nd.map2 (fun x y : ℂ => x + y) al c
  let n := s.f.dims.headD 0
  let fr ← s.f.slice (n - 1) (· + 1)
  let br ← s.b.slice (n - 1) (· + 1)
  let kb ← Nd.map2 (fun x y : ℂ => x * y) kn br
  let f ← Nd.map2 (fun x y : ℂ => x + y) fr kb
  let bl ← s.b.slice (n - 1) id
  let fl ← s.f.slice (n - 1) id
  let kf ← Nd.map2 (fun x y : ℂ => star x * y) kn fl
  let b ← Nd.map2 (fun x y : ℂ => x + y) bl kf
  return { f := f, b := b, rho := rho, fin := fin
           a := ⟨s.a.dims, fun i => if i.headD 0 = k - 1 then kk.get i.tail else if i.headD 0 < k - 1 then u.get i else 0⟩ }

/-- The loop. -/
noncomputable def burgLoopNd (x : Nd ℂ) (N order : ℕ) (xs : List ℕ) : ℕ → Except Err BurgNd
  | 0 => burgInitNd x N order xs
  | k + 1 => do
    let s ← burgLoopNd x N order xs k
    burgStepNd (k + 1) s

/-- `pcoeff_burg`, linearprediction.py:273-298: coefficients, variance, and which elements of the stack are finite.  For
`order = 0` the access `a[..., -1, :]` fails. -/
noncomputable def pcoeffBurgNd (x : Nd ℂ) (order : ℕ) : Except Err (Nd ℂ × Nd ℝ × Nd Prop) :=
  match x.dims with
  | [] => .error .indexError
  | N :: xs =>
    if order = 0 then .error .indexError
    else do
      let s ← burgLoopNd x N order xs order
      return (s.a, s.rho, s.fin)

open scoped Classical in
/-- `companion`, linearprediction.py:153-169.  For a last axis of length one the array `c` has no row `0`. -/
noncomputable def companionNd (a : Nd ℂ) : Except Err (Nd ℂ) :=
  let a := a.atleast1d
  if a.size < 2 then .error .valueError
  else match a.dims with
    | n :: s => if n = 0 then .error .indexError
        else if ∃ i, List.Forall₂ (· < ·) i s ∧ a.get (0 :: i) = 0 then .error .valueError
        else if n = 1 then .error .indexError
        else .ok ⟨(n - 1) :: (n - 1) :: s, fun i => if i.tail.headD 0 = 0 then - a.get ((i.headD 0 + 1) :: i.tail.tail)
            / (1.0 * a.get (0 :: i.tail.tail)) else if i.tail.headD 0 = i.headD 0 + 1 then 1 else 0⟩
    | [] => .error .indexError

end Gftool.Model
