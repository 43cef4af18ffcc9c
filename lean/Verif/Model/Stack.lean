import Verif.Model.Nd
import Verif.Model.Pole
import Verif.Model.Siam
import Verif.Model.Cpa
import Verif.Model.Matrix
import Verif.Model.Laplace
import Mathlib.Analysis.SpecialFunctions.Pow.Complex

/-!
# Functions of gftool on arrays with leading axes

The other model files state every function for one element of the stack (one frequency, one set of poles).  Here the
array handling itself is modelled, operation by operation: which axes are added, what is broadcast against what, and
which axis is summed.  Elementwise functions (`np.exp`, `fermi_fct`, the callable `hilbert_trafo`) are ufuncs.
-/

namespace Gftool.Model

open Complex

open scoped Classical in
/-- `np.where(c, a, b)` with broadcasting of the three arguments. -/
noncomputable def Nd.select3 {α : Type} (c : Nd Prop) (a b : Nd α) : Except Err (Nd α) := do
  let p ← Nd.map2 Prod.mk a b
  Nd.map2 (fun c p => if c then p.1 else p.2) c p

/-- `np.all`. -/
def Nd.all (a : Nd Prop) : Prop := ∀ i, List.Forall₂ (· < ·) i a.dims → a.get i

/-- One of the outputs of `np.broadcast_arrays`. -/
def Nd.broadcastTo {α : Type} (a : Nd α) (s : List ℕ) : Nd α := ⟨s, a.at⟩

/-- `gf_z`, basis/pole.py:308-310. -/
noncomputable def poleGfZNd (z poles weights : Nd ℂ) : Except Err (Nd ℂ) := do
  let d ← Nd.map2 (· - ·) z.newaxis poles.atleast1d
  let q ← Nd.map2 (· / ·) weights d
  return q.sum

/-- `gf_d1_z`, basis/pole.py:338-340. -/
noncomputable def poleGfD1ZNd (z poles weights : Nd ℂ) : Except Err (Nd ℂ) := do
  let d ← Nd.map2 (· - ·) z.newaxis poles.atleast1d
  let q ← Nd.map2 (· * ·) weights (d.map (· ^ (-2 : ℤ)))
  return q.sum.map (- ·)

/-- `gf_ret_t`, basis/pole.py:406-408, with `_single_pole_gf_ret_t`, basis/pole.py:381-383: the exponential is evaluated
for the broadcast `pole*tt`, then `np.where` with the condition `tt >= 0`. -/
noncomputable def poleGfRetTNd (tt : Nd ℝ) (poles weights : Nd ℂ) : Except Err (Nd ℂ) := do
  let tt := tt.newaxis
  let e ← Nd.map2 (fun p (t : ℝ) => -I * Complex.exp (-I * p * t)) poles.atleast1d tt
  let g ← Nd.select3 (tt.map (0 ≤ ·)) e (Nd.scalar 0)
  let q ← Nd.map2 (· * ·) weights g
  return q.sum

open scoped Classical in
/-- `gf_tau`, basis/pole.py:374-378, with `_single_pole_gf_tau`, basis/pole.py:343-348, for real poles and weights.  (The
`assert` of line 344 repeats the one of line 374.) -/
noncomputable def poleGfTauNd (tau poles weights beta : Nd ℝ) : Except Err (Nd ℝ) := do
  let c ← Nd.map2 (fun t b => 0 ≤ t ∧ t ≤ b) tau beta
  if ¬ c.all then .error .assertionError else do
    let poles := poles.atleast1d
    let ntau := tau.newaxis.map (- ·)
    let beta := beta.newaxis
    let nb ← Nd.map2 (· + ·) ntau beta
    let w ← Nd.select3 (poles.map (0 ≤ ·)) ntau nb
    let exponent ← Nd.map2 (· * ·) w poles
    let f ← Nd.map2 fermiFct (poles.map fun p => -npSign p * p) beta
    let g ← Nd.map2 (fun e f => -Real.exp e * f) exponent f
    let q ← Nd.map2 (· * ·) weights g
    return q.sum

/-- `moments`, basis/pole.py:441-443. -/
noncomputable def poleMomentsNd (poles weights : Nd ℝ) (order : Nd ℤ) : Except Err (Nd ℝ) :=
  match bcast poles.dims weights.dims with
  | none => .error .valueError
  | some s => do
    let poles := (poles.broadcastTo s).atleast1d
    let weights := (weights.broadcastTo s).atleast1d
    let p2 ← poles.newaxis2
    let pw ← Nd.map2 (fun p (o : ℤ) => p ^ (o - 1)) p2 order.newaxis
    let w2 ← weights.newaxis2
    let q ← Nd.map2 (· * ·) w2 pw
    return q.sum

/-- `hybrid_z`, siam.py:206. -/
noncomputable def hybridZNd (z : Nd ℂ) (eBath : Nd ℝ) (hoppingSqr : Nd ℂ) : Except Err (Nd ℂ) := do
  let d ← Nd.map2 (fun (z : ℂ) (e : ℝ) => z - e) z.newaxis eBath
  let q ← Nd.map2 (· / ·) hoppingSqr d
  return q.sum

/-- `gf0_loc_z`, siam.py:61. -/
noncomputable def siamGf0LocZNd (z : Nd ℂ) (eOnsite eBath : Nd ℝ) (hoppingSqr : Nd ℂ) : Except Err (Nd ℂ) := do
  let d ← Nd.map2 (fun (z : ℂ) (e : ℝ) => z - e) z eOnsite
  let h ← hybridZNd z eBath hoppingSqr
  let q ← Nd.map2 (· - ·) d h
  return q.map (1 / ·)

/-- `gf_cmpt_z`, cpa.py:79-80. -/
noncomputable def gfCmptZNd (z selfCpa eOnsite : Nd ℂ) (hilbert : ℂ → ℂ) : Except Err (Nd ℂ) := do
  let d ← Nd.map2 (· - ·) z selfCpa
  let gfCoher := (d.map hilbert).newaxis
  let ediff ← Nd.map2 (· - ·) eOnsite selfCpa.newaxis
  let p ← Nd.map2 (· * ·) ediff gfCoher
  Nd.map2 (· / ·) gfCoher (p.map (1 - ·))

/-- `self_root_eq`, cpa.py:111-114. -/
noncomputable def selfRootEqNd (selfCpa z eOnsite : Nd ℂ) (conc : Nd ℝ) (hilbert : ℂ → ℂ) : Except Err (Nd ℂ) := do
  let d ← Nd.map2 (· - ·) z selfCpa
  let gfCoher := d.map hilbert
  let ediff ← Nd.map2 (· - ·) eOnsite selfCpa.newaxis
  let ce ← Nd.map2 (fun (c : ℝ) e => (c : ℂ) * e) conc ediff
  let p ← Nd.map2 (· * ·) ediff gfCoher.newaxis
  let q ← Nd.map2 (· / ·) ce (p.map (1 - ·))
  let T := q.sum
  let tg ← Nd.map2 (· * ·) T gfCoher
  Nd.map2 (· / ·) T (tg.map (1 + ·))

/-- `self_fxdpnt_eq`, cpa.py:145-146. -/
noncomputable def selfFxdpntEqNd (selfCpa z eOnsite : Nd ℂ) (conc : Nd ℝ) (hilbert : ℂ → ℂ) : Except Err (Nd ℂ) := do
  let r ← selfRootEqNd selfCpa z eOnsite conc hilbert
  Nd.map2 (· + ·) selfCpa r

/-- `np.stack([a, b], axis=-1)` of two arrays; `ValueError` if the shapes differ. -/
def Nd.stack2 {α : Type} (a b : Nd α) : Except Err (Nd α) :=
  if a.dims = b.dims then .ok ⟨2 :: a.dims, fun i => if i.headD 0 = 0 then a.get i.tail else b.get i.tail⟩
  else .error .valueError

/-- `np.mean([a, b], axis=0)`: `np.array` of a list of arrays with different shapes raises `ValueError` (numpy ≥ 1.24). -/
noncomputable def Nd.mean2 (a b : Nd ℂ) : Except Err (Nd ℂ) :=
  if a.dims = b.dims then .ok ⟨a.dims, fun i => (a.get i + b.get i) / 2⟩ else .error .valueError

/-- `gf_2x2_z`, matrix.py:565-573. -/
noncomputable def gf2x2zNd (z eps0 eps1 hopping : Nd ℂ) (hilbert : Option (ℂ → ℂ)) : Except Err (Nd ℂ) := do
  let mean ← Nd.mean2 eps0 eps1
  let de ← Nd.map2 (· - ·) eps0 eps1
  let hh := hopping.map fun h => h * star h
  let sq ← Nd.map2 (fun d h => (0.25 * d ^ 2 + h) ^ (1 / 2 : ℂ)) de hh
  let h := hilbert.getD fun x => 1 / x
  let zm ← Nd.map2 (· - ·) z mean
  let gfp ← Nd.map2 (fun a s => h (a - s)) zm sq
  let gfm ← Nd.map2 (fun a s => h (a + s)) zm sq
  let comp := fun eps : Nd ℂ => (do
    let em ← Nd.map2 (· - ·) eps mean
    let a ← Nd.map2 (· + ·) em sq
    let ap ← Nd.map2 (· * ·) a gfp
    let b ← Nd.map2 (· - ·) em sq
    let bm ← Nd.map2 (· * ·) b gfm
    let d ← Nd.map2 (· - ·) ap bm
    Nd.map2 (fun s d => 0.5 / s * d) sq d : Except Err (Nd ℂ))
  let gf0 ← comp eps0
  let gf1 ← comp eps1
  Nd.stack2 gf0 gf1

end Gftool.Model
