import Verif.Model.Memory
import Verif.Model.Statistics
import Verif.Model.Lattice
import Verif.Model.Square
import Verif.Model.Rectangular
import Verif.Model.Triangular
import Verif.Model.Cpa
import Verif.Model.Laplace
import Verif.Model.Pade
import Verif.Model.Beb
import Verif.Model.Siam
import Verif.Model.Hermpade

/-!
# Functions that write to arrays

All statements of these functions that allocate, share or change arrays are modelled; `junk` stands for the elements
of an array created by `np.empty_like`.
-/

namespace Gftool.Model

open MM
open Complex (I)

variable {ι : Type} [Encodable ι]

/-- `bose_fct`, statistics.py:49-58. -/
noncomputable def boseFctArr (junk : ι → ℝ) (eps : Arr ι) (beta : ℝ) : MM ℝ (Arr ι) := do
  let e ← read eps
  let betaeps ← new fun i => beta * e i
  let res ← new junk
  let b ← read betaeps
  let small := fun i => b i < 700
  let b ← read betaeps
  assign res small fun i => 1 / expm1 (b i)
  let b ← read betaeps
  assign res (fun i => ¬ small i) fun i => -Real.exp (-b i) / expm1 (-b i)
  return res

/-- `fermi_fct` for complex arguments, statistics.py:96-107. -/
noncomputable def fermiFctArr (junk : ι → ℂ) (eps : Arr ι) (beta : ℝ) : MM ℂ (Arr ι) := do
  let e ← read eps
  let z ← new fun i => e i * beta
  let x ← read z
  let pos := fun i => 0 < (x i).re
  let res ← new junk
  let x ← read z
  assign res (fun i => ¬ pos i) fun i => 1 / (Complex.exp (x i) + 1)
  let x ← read z
  let expM ← new fun i => Complex.exp (-x i)
  let y ← read expM
  assign res pos fun i => y i / (1 + y i)
  return res

/-- `bethe.dos` for real energies, lattice/bethe.py:250-254. -/
noncomputable def betheDosArr (eps : Arr ι) (D : ℝ) : MM ℝ (Arr ι) := do
  let e ← read eps
  let epsRel ← new fun i => e i / D
  let dos ← new fun _ => 0
  let r ← read epsRel
  let nonzero := fun i => |r i| < 1
  let r ← read epsRel
  assign dos nonzero fun i => 2 / (Real.pi * D) * √(1 - r i ^ 2)
  return dos

/-- `onedim.dos` for real energies, lattice/onedim.py:142-146. -/
noncomputable def onedimDosArr (eps : Arr ι) (D : ℝ) : MM ℝ (Arr ι) := do
  let e ← read eps
  let epsRel ← new fun i => e i / D
  let dos ← new fun _ => 0
  let r ← read epsRel
  let nonzero := fun i => |r i| ≤ 1
  let r ← read epsRel
  assign dos nonzero fun i => 1 / (Real.pi * D) / √(1 - r i ^ 2)
  return dos

/-- `bethez.dos` for real energies, lattice/bethez.py:104-112. -/
noncomputable def bethezDosArr (eps : Arr ι) (D Z : ℝ) : MM ℝ (Arr ι) := do
  if ¬ Z > 1 then raise .assertionError
  else
    let e ← read eps
    let epsRel ← new fun i => e i / D
    let dos ← new fun _ => 0
    let r ← read epsRel
    let nonzero := fun i => |r i| ≤ 1
    let r ← read epsRel
    let eps2 ← new fun i => r i ^ 2
    let factor := 2 * Z * (Z - 1) / (D * Real.pi)
    let x ← read eps2
    assign dos nonzero fun i => factor * √(1 - x i) / (Z ^ 2 - 4 * (Z - 1) * x i)
    return dos

/-- `rectangular.dos`, lattice/rectangular.py:165-175; `eps` is changed in line 168. -/
noncomputable def rectangularDosArr (ellipk : ℂ → ℂ) (eps : Arr ι) (halfBandwidth scale : ℝ) : MM ℝ (Arr ι) := do
  let e ← read eps
  let eps ← new fun i => e i / halfBandwidth
  let dos ← new fun _ => 0
  let e ← read eps
  assign eps (fun i => |e i| = 1) fun _ => 1 - 2 ^ (-52 : ℤ)
  let e ← read eps
  let nonzero := fun i => |e i| ≤ 1
  let eps ← new e
  let e ← read eps
  let kmod ← new fun i => 4 * scale / (scale + 1) ^ 2 / (1 - e i ^ 2)
  let k ← read kmod
  let factor := 1.0 / Real.pi ^ 2 * (1 + scale) / √scale / halfBandwidth
  assign dos nonzero fun i => factor * √(k i) * (starRingEnd ℂ (ellipk (k i))).re
  let d ← read dos
  new fun i => |d i|

/-- `triangular.dos`, lattice/triangular.py:178-192. -/
noncomputable def triangularDosArr (ellipkm1 : ℝ → ℝ) (eps : Arr ι) (halfBandwidth : ℝ) : MM ℝ (Arr ι) := do
  let D := halfBandwidth * 4 / 9
  let e ← read eps
  let eps ← new fun i => 1.0 / D * e i
  let dos ← new fun _ => 0
  let e ← read eps
  let region1 := fun i => -1.5 ≤ e i ∧ e i ≤ -1
  let rr ← new fun i => √(2 * e i + 3)
  let r ← read rr
  let denom ← new fun i => (r i + 1) ^ 3 * (3 - r i)
  let numer ← new fun i => (r i - 1) ^ 3 * (3 + r i)
  let d ← read denom
  let n ← read numer
  assign dos region1 fun i => 2 / √(d i) * ellipkm1 (-n i / d i)
  let e ← read eps
  let region2 := fun i => -1 ≤ e i ∧ e i ≤ 3
  let rr ← new fun i => √(2 * e i + 3)
  let r ← read rr
  let numer ← new fun i => (r i - 1) ^ 3 * (3 + r i)
  let n ← read numer
  assign dos region2 fun i => 0.5 / √(r i) * ellipkm1 (1 / 16 * n i / r i)
  let d ← read dos
  new fun i => 2 / Real.pi ^ 2 / D * d i

open scoped Classical in
/-- `bethe.gf_ret_t` for real times, lattice/bethe.py:409-420. -/
noncomputable def betheGfRetTArr (jv1 : ℝ → ℝ) (tt : Arr ι) (D center : ℝ) : MM ℂ (Arr ι) := do
  let t ← read tt
  let tt ← new fun i => ((D * (t i).re : ℝ) : ℂ)
  let gf ← new fun _ => 0
  let t ← read tt
  let retard := fun i => 0 ≤ (t i).re
  let small := fun i => retard i ∧ |(t i).re| < retSmall
  let tt2 ← new fun i => t i ^ 2
  let t2 ← read tt2
  assign gf small fun i => -I * (1 - 1 / 8 * t2 i + 1 / 192 * t2 i ^ 2)
  let big := fun i => retard i ∧ ¬ small i
  let t ← read tt
  assign gf big fun i => -2 * I * jv1 (t i).re / t i
  if center ≠ 0 then
    let g ← read gf
    let t ← read tt
    new fun i => g i * Complex.exp (-I * center * t i)
  else return gf

open scoped Classical in
/-- `box.gf_ret_t` for real times, lattice/box.py:148-159. -/
noncomputable def boxGfRetTArr (tt : Arr ι) (D center : ℝ) : MM ℂ (Arr ι) := do
  let t ← read tt
  let tt ← new fun i => ((D * (t i).re : ℝ) : ℂ)
  let gf ← new fun _ => 0
  let t ← read tt
  let retard := fun i => 0 ≤ (t i).re
  let small := fun i => retard i ∧ |(t i).re| < retSmall
  let tt2 ← new fun i => t i ^ 2
  let t2 ← read tt2
  assign gf small fun i => -I * (1 - 1 / 6 * t2 i + 1 / 120 * t2 i ^ 2)
  let big := fun i => retard i ∧ ¬ small i
  let t ← read tt
  assign gf big fun i => -I * Real.sin (t i).re / t i
  if center ≠ 0 then
    let g ← read gf
    let t ← read tt
    new fun i => g i * Complex.exp (-I * center * t i)
  else return gf

/-! ## Quadrature weights -/

/-- `a[mask] *= c`. -/
noncomputable def imul (a : Arr ι) (mask : ι → Prop) (c : ℂ) : MM ℂ Unit := do
  let x ← read a
  assign a mask fun i => x i * c

/-- `_trapz_weight`, fourier.py:1177-1182. -/
noncomputable def trapzWeightArr {n : ℕ} (dt : ℝ) (g : Arr (Fin n)) (endpoint : Bool) : MM ℂ (Arr (Fin n)) := do
  let x ← read g
  let coeffs ← new fun k => dt * x k
  if n = 0 then raise .indexError
  else
    imul coeffs (fun k => (k : ℕ) = 0) 0.5
    if endpoint then
      imul coeffs (fun k => (k : ℕ) = n - 1) 0.5
      return coeffs
    else return coeffs

/-- `_simps_weight`, fourier.py:1210-1225. -/
noncomputable def simpsWeightArr {n : ℕ} (dt : ℝ) (g : Arr (Fin n)) (endpoint : Bool) : MM ℂ (Arr (Fin n)) := do
  let x ← read g
  let coeffs ← new fun k => (dt : ℂ) / 3 * x k
  if ¬ endpoint then
    imul coeffs (fun k => 1 ≤ (k : ℕ) ∧ ((k : ℕ) - 1) % 2 = 0) 4
    imul coeffs (fun k => 2 ≤ (k : ℕ) ∧ ((k : ℕ) - 2) % 2 = 0) 2
    return coeffs
  else if n % 2 = 1 then
    imul coeffs (fun k => 1 ≤ (k : ℕ) ∧ (k : ℕ) < n - 1 ∧ ((k : ℕ) - 1) % 2 = 0) 4
    imul coeffs (fun k => 2 ≤ (k : ℕ) ∧ (k : ℕ) < n - 1 ∧ ((k : ℕ) - 2) % 2 = 0) 2
    return coeffs
  else
    imul coeffs (fun k => 1 ≤ (k : ℕ) ∧ (k : ℕ) < n - 2 ∧ ((k : ℕ) - 1) % 2 = 0) 4
    imul coeffs (fun k => 2 ≤ (k : ℕ) ∧ (k : ℕ) < n - 2 ∧ ((k : ℕ) - 2) % 2 = 0) 2
    if n = 0 then raise .indexError
    else
      imul coeffs (fun k => (k : ℕ) = n - 2) (5 / 2)
      imul coeffs (fun k => (k : ℕ) = n - 1) (3 / 2)
      return coeffs

/-! ## Padé coefficients -/

/-- `coefficients`, pade.py:291-300, for `N` points and `M` values. Whether the result is converted (and copied) in
line 300 depends on the type of `fct_z`. -/
noncomputable def coefficientsArr {N M : ℕ} (copy : Bool) (z : Arr (Fin N)) (fctZ : Arr (Fin M)) :
    MM ℂ (Arr (Fin M)) := do
  if h : N = M then
    let f ← read fctZ
    let res ← new f
    forRange (N - 1) fun ii => do
      let r ← read res
      let x ← read z
      let x := fun j : Fin M => x (Fin.cast h.symm j)
      let tmp ← new fun j : Fin M =>
        if hi : ii < M then (r ⟨ii, hi⟩ / r j - 1) / (x j - x ⟨ii, hi⟩) else 0
      let t ← read tmp
      assign res (fun j => ii + 1 ≤ (j : ℕ)) t
    if copy then
      let r ← read res
      new r
    else return res
  else raise .valueError

/-! ## Restricted root equations -/

open scoped Classical in
/-- `restrict_self_root_eq`, cpa.py:151-162, for an arbitrary root equation: line 157 changes the argument. -/
noncomputable def restrictSelfRootEqArr (rootEq : Arr ι → MM ℂ (Arr ι)) (s : Arr ι) : MM ℂ (Arr ι) := do
  let x ← read s
  let unphysical := fun i => 0 < (x i).im
  if ∀ i, ¬ unphysical i then rootEq s
  else
    let x ← read s
    let distance ← new fun i => ((x i).im : ℂ)
    assignIm s unphysical fun _ => 0
    let root ← rootEq s
    let d ← read distance
    let r ← read root
    assign root unphysical fun i => r i * (1 + d i)
    let r ← read root
    let d ← read distance
    assignRe root unphysical fun i => (r i).re + 1e-3 * (d i).re * (if 0 ≤ (r i).re then 1 else -1)
    let r ← read root
    let d ← read distance
    assignIm root unphysical fun i => (r i).im + 1e-3 * (d i).re * (if 0 ≤ (r i).im then 1 else -1)
    return root

open scoped Classical in
/-- `restrict_self_root_eq`, beb.py:270-285, for an arbitrary root equation: line 277 changes the argument. -/
noncomputable def bebRestrictArr {κ : Type} [Encodable κ] {n : ℕ}
    (rootEq : Arr (κ × Fin n × Fin n) → MM ℂ (Arr (κ × Fin n × Fin n))) (s : Arr (κ × Fin n × Fin n)) :
    MM ℂ (Arr (κ × Fin n × Fin n)) := do
  let diagIdx := fun i : κ × Fin n × Fin n => i.2.1 = i.2.2
  let x ← read s
  let selfDiag ← new fun i : κ × Fin n => x (i.1, i.2, i.2)
  let d ← read selfDiag
  let unphysical := fun i => 0 < (d i).im
  if ∀ i, ¬ unphysical i then rootEq s
  else
    let d ← read selfDiag
    let distance ← new fun i => ((d i).im : ℂ)
    assignIm selfDiag unphysical fun _ => 0
    let d ← read selfDiag
    assignIm s diagIdx fun i => (d (i.1, i.2.1)).im
    let root ← rootEq s
    let r ← read root
    let rootDiag ← new fun i : κ × Fin n => r (i.1, i.2, i.2)
    let r ← read rootDiag
    let d ← read distance
    assign rootDiag unphysical fun i => r i * (1 + d i)
    let r ← read rootDiag
    let d ← read distance
    assignRe rootDiag unphysical fun i => (r i).re + 1e-3 * (d i).re * (if 0 ≤ (r i).re then 1 else -1)
    let r ← read rootDiag
    let d ← read distance
    assignIm rootDiag unphysical fun i => (r i).im + 1e-3 * (d i).re * (if 0 ≤ (r i).im then 1 else -1)
    let r ← read rootDiag
    assign root diagIdx fun i => r (i.1, i.2.1)
    return root

/-! ## Branches of quadratic Hermite-Padé approximants -/

/-- `_Hermite2Base.eval_branches`, hermpade.py:723-732, for arrays. The conditions and divisors of the lines 730 and 731
are evaluated before the elements are written. -/
noncomputable def evalBranchesArr (h : Herm2) (z : Arr ι) : MM ℂ (Arr ι × Arr ι) := do
  let x ← read z
  let pz ← new fun i => polyval h.p (x i)
  let qz ← new fun i => polyval h.q (x i)
  let rz ← new fun i => polyval h.r (x i)
  let p ← read pz
  let q ← read qz
  let r ← read rz
  let discriminant ← new fun i => (q i ^ 2 - 4 * p i * r i) ^ (1 / 2 : ℂ)
  let d ← read discriminant
  let pBranch ← new fun i => 0.5 * (-q i + d i) / r i
  let mBranch ← new fun i => 0.5 * (-q i - d i) / r i
  let bp ← read pBranch
  let bm ← read mBranch
  assign pBranch (fun i => ‖bp i‖ < ‖bm i‖) fun i => p i / (r i * bm i)
  let bp ← read pBranch
  let bm ← read mBranch
  assign mBranch (fun i => ‖bm i‖ < ‖bp i‖) fun i => p i / (r i * bp i)
  return (pBranch, mBranch)

/-! ## Fourier transforms with user-supplied transformation -/

/-- `tau2iv`, fourier.py:651-659: lines 657 and 658 change the array returned by `fourier`. -/
noncomputable def tau2ivArr {T : ℕ} (g : Arr (Fin (T + 1))) (beta : ℝ)
    (fourier : Arr (Fin (T + 1)) → MM ℂ (Arr (Fin (T / 2 + 1)))) : MM ℂ (Arr (Fin (T / 2 + 1))) := do
  let x ← read g
  let g1 ← new fun _ : Unit => x (Fin.last T) - x 0
  let tau ← new fun k : Fin (T + 1) => (linspace0 beta (T + 1) k : ℂ)
  let j ← read g1
  let t ← read tau
  let gfTau ← new fun k => x k - j () / beta * t k
  let gfIv ← fourier gfTau
  let r ← read gfIv
  let j ← read g1
  assign gfIv (fun n => 1 ≤ (n : ℕ)) fun n => r n + j () / matsubaraFrequenciesB (n : ℕ) beta
  let r ← read gfIv
  let j ← read g1
  assign gfIv (fun n => (n : ℕ) = 0) fun n => r n + 0.5 * j () * beta
  return gfIv

/-- `iw2tau`, fourier.py:380-393: line 392 changes the array returned by `fourier`. -/
noncomputable def iw2tauArr (ext : LinalgExt ℝ) {N l : ℕ} (g : Arr (Fin N)) (beta : ℝ) (moments : Fin l → ℝ)
    (fourier : Arr (Fin N) → MM ℂ (Arr (Fin (2 * N + 1)))) (nfit : ℕ) : MM ℂ (Arr (Fin (2 * N + 1))) := do
  let x ← read g
  let p ← lift (iw2tauPoles ext x beta moments nfit)
  let x ← read g
  let gfIw ← new fun i : Fin N => x i - p.evalZ (matsubaraFrequencies (i : ℕ) beta)
  let gfTau ← fourier gfIw
  let pt ← lift (evalTauGrid p beta (2 * N + 1))
  let r ← read gfTau
  assign gfTau (fun _ => True) fun j => r j + pt j
  return gfTau

/-! ## Matrices -/

/-- `hamiltonian_matrix`, siam.py:177-184, for one set of parameters; `cast` is the conversion to the type of
`hopping`. -/
noncomputable def siamHamiltonianArr {n : ℕ} (cast : ℂ → ℂ) (eOnsite : ℝ) (eBath hopping : Arr (Fin n)) :
    MM ℂ (Arr (Fin (n + 1) × Fin (n + 1))) := do
  let ham ← new fun _ : Fin (n + 1) × Fin (n + 1) => (0 : ℂ)
  assign ham (fun p => p.1 = 0 ∧ p.2 = 0) fun _ => cast eOnsite
  let h ← read hopping
  assign ham (fun p => p.1 = 0 ∧ p.2 ≠ 0) fun p => Fin.cases 0 (fun k => cast (h k)) p.2
  let h ← read hopping
  assign ham (fun p => p.1 ≠ 0 ∧ p.2 = 0) fun p => Fin.cases 0 (fun k => cast (star (h k))) p.1
  let e ← read eBath
  assign ham (fun p => p.1 ≠ 0 ∧ p.2 = p.1) fun p => Fin.cases 0 (fun k => cast ((e k).re : ℝ)) p.1
  return ham

open scoped Classical in
/-- `companion`, linearprediction.py:155-169, for one polynomial with the coefficients `a0, rest`. -/
noncomputable def companionArr {n : ℕ} (a : Arr (Fin (n + 1))) : MM ℂ (Arr (Fin n × Fin n)) := do
  if n + 1 < 2 then raise .valueError
  else
    let x ← read a
    if x 0 = 0 then raise .valueError
    else
      let x ← read a
      let firstRow ← new fun j : Fin n => -x j.succ / (1.0 * x 0)
      let c ← new fun _ : Fin n × Fin n => (0 : ℂ)
      let f ← read firstRow
      assign c (fun p => (p.1 : ℕ) = 0) fun p => f p.2
      assign c (fun p => ∃ k, k < n - 1 ∧ (p.1 : ℕ) = k + 1 ∧ (p.2 : ℕ) = k) fun _ => 1
      return c

end Gftool.Model
