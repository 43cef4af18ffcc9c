import Verif.Model.InPlace
import Verif.Model.Sc
import Verif.Model.Bcc
import Verif.Model.Fcc
import Verif.Model.Fourier
import Verif.Model.LinearPrediction

/-!
# More functions that write to arrays

As in `Model.InPlace`. Arrays which contain infinities or NaN have elements of type `WithTop ℝ` (`⊤` is `np.inf`) or
`Option ℂ` (`none` is `np.nan`).
-/

namespace Gftool.Model

open MM
open Complex (I)
open ComplexConjugate

variable {ι : Type} [Encodable ι]

/-! ## Densities of states and Green's functions -/

/-- `square.dos`, lattice/square.py:147-152. -/
noncomputable def squareDosArr (ellipkm1 : ℝ → ℝ) (eps : Arr ι) (D : ℝ) : MM ℝ (Arr ι) := do
  let e ← read eps
  let epsRel ← new fun i => e i / D
  let dos ← new fun _ => 0
  let r ← read epsRel
  let nonzero := fun i => |r i| ≤ 1
  let r ← read epsRel
  let elliptic ← new fun i => ellipkm1 (r i ^ 2)
  let x ← read elliptic
  assign dos nonzero fun i => 2 / Real.pi ^ 2 / D * x i
  return dos

/-- `sc.dos`, lattice/sc.py:185-203; `tol` as in `scDos`. -/
noncomputable def scDosArr (ellipk : ℂ → ℂ) (tol : ℝ) (eps : Arr ι) (halfBandwidth : ℝ) : MM ℝ (Arr ι) := do
  let dInv := 3 / halfBandwidth
  let e ← read eps
  let eps ← new fun i => |dInv * e i|
  let dos ← new fun _ => 0
  let e ← read eps
  let smallEps := fun i => e i < tol
  let e ← read eps
  assign dos smallEps fun i => scDosExpansion ellipk (e i) 3.0
  let e ← read eps
  let finite := fun i => ¬ smallEps i ∧ e i < 3
  let e ← read eps
  assign dos finite fun i => scDosFinite ellipk (e i)
  let d ← read dos
  new fun i => dInv * d i

/-- `bcc.dos`, lattice/bcc.py:148-158, for finite energies. -/
noncomputable def bccDosArr (ellipk : ℂ → ℂ) (eps : Arr ι) (halfBandwidth : ℝ) : MM (WithTop ℝ) (Arr ι) := do
  let e ← read eps
  let epsRel ← new fun i => (((e i).untopD 0 / halfBandwidth : ℝ) : WithTop ℝ)
  let dos ← new fun _ => ((0 : ℝ) : WithTop ℝ)
  let r ← read epsRel
  let singular := fun i => (r i).untopD 0 = 0
  let finite := fun i => |(r i).untopD 0| ≤ 1 ∧ ¬ singular i
  let e ← read eps
  assign dos finite fun i => (bccDosFinite ellipk ((e i).untopD 0) halfBandwidth : ℝ)
  assign dos singular fun _ => ⊤
  return dos

/-- `fcc.dos`, lattice/fcc.py:176-182, for finite energies. -/
noncomputable def fccDosArr (ellipk : ℂ → ℂ) (eps : Arr ι) (halfBandwidth : ℝ) : MM (WithTop ℝ) (Arr ι) := do
  let e ← read eps
  let singular := fun i => (e i).untopD 0 = -0.5 * halfBandwidth
  let e ← read eps
  let finite := fun i => -0.5 * halfBandwidth < (e i).untopD 0 ∧ (e i).untopD 0 < 1.5 * halfBandwidth ∧ ¬ singular i
  let dos ← new fun _ => ((0 : ℝ) : WithTop ℝ)
  let e ← read eps
  assign dos finite fun i => ((1 / Real.pi * (fccGfZ ellipk ((e i).untopD 0 : ℝ) halfBandwidth).im : ℝ) : WithTop ℝ)
  assign dos singular fun _ => ⊤
  let d ← read dos
  new fun i => (d i).map fun x => |x|

open scoped Classical in
/-- `fcc.gf_z`, lattice/fcc.py:78-91: line 89 changes the elliptic integrals in place. -/
noncomputable def fccGfZArr (ellipk : ℂ → ℂ) (z : Arr ι) (halfBandwidth : ℝ) : MM ℂ (Arr ι) := do
  let d : ℂ := halfBandwidth / 2
  let x ← read z
  let z ← new fun i => 1 / d * x i
  let x ← read z
  let retarded := fun i => 0 < (x i).im
  let z ← new fun i => if retarded i then conj (x i) else x i
  let x ← read z
  let mp ← new fun i => fccMp (x i)
  let mm ← new fun i => fccMm (x i)
  let p ← read mp
  let kii ← new fun i => ellipk (p i)
  let k ← read kii
  assign kii (fun i => (p i).im < 0) fun i => k i + 2 * I * ellipk (1 - p i)
  let x ← read z
  let y ← read mm
  let k ← read kii
  let gf ← new fun i => 4 / (Real.pi ^ 2 * d * (x i + 1)) * ellipk (y i) * k i
  let g ← read gf
  new fun i => if retarded i then conj (g i) else g i

open scoped Classical in
/-- `triangular.gf_z`, lattice/triangular.py:73-90: line 80 replaces singular frequencies in place, line 87 changes the
elliptic integrals in place, line 89 writes the infinities. `none` is the value `0 - 1j*np.inf`. -/
noncomputable def triangularGfZArr (ellipk : ℂ → ℂ) (z : Arr ι) (halfBandwidth : ℝ) : MM (Option ℂ) (Arr ι) := do
  let D : ℂ := halfBandwidth * 4 / 9
  let x ← read z
  let z ← new fun i => (x i).map fun x => 1.0 / D * x
  let x ← read z
  let advanced := fun i => ((x i).getD 0).im < 0
  let z ← new fun i => if advanced i then (x i).map conj else x i
  let x ← read z
  let singular := fun i => D * (x i).getD 0 = -1
  assign z singular fun _ => some 0
  let x ← read z
  let gg ← new fun i => (x i).map fun x => (triangularGK x).1
  let kk ← new fun i => (x i).map fun x => (triangularGK x).2
  let k ← read kk
  let mm ← new fun i => (k i).map fun k => k ^ 2
  let m ← read mm
  let K ← new fun i => (m i).map ellipk
  let q ← read K
  let m ← read mm
  let k ← read kk
  assign K (fun i => 0 < ((k i).getD 0).im) fun i =>
    (q i).map fun q => q + 2 * I * ellipk (1 - (m i).getD 0)
  let g ← read gg
  let q ← read K
  let gf ← new fun i => (g i).bind fun g => (q i).map fun q => 1 / Real.pi / D * g * q
  assign gf singular fun _ => none
  let g ← read gf
  new fun i => if advanced i then (g i).map conj else g i

/-! ## Fourier transforms -/

/-- `iw2tau_dft`, fourier.py:193-196. The result is a slice of the array created by `hfft`. -/
noncomputable def iw2tauDftArr {N : ℕ} (g : Arr (Fin N)) (beta : ℝ) : MM ℂ (Arr (Fin (2 * N + 1))) := do
  let gfIwall ← new fun _ : Fin (2 * N + 1) => (0 : ℂ)
  let x ← read g
  assign gfIwall (fun k => 1 ≤ (k : ℕ) ∧ (k : ℕ) < 2 * N ∧ ((k : ℕ) - 1) % 2 = 0) fun k =>
    if h : ((k : ℕ) - 1) / 2 < N then x ⟨((k : ℕ) - 1) / 2, h⟩ else 0
  let y ← read gfIwall
  let r ← lift (hfft fun k => 1 / (beta : ℂ) * y k)
  let gfTau ← new fun j : Fin (2 * (2 * N + 1 - 1)) => (r j : ℂ)
  return ⟨gfTau.addr, fun j => if h : (j : ℕ) < 2 * (2 * N + 1 - 1) then gfTau.pos ⟨j, h⟩ else 0⟩

/-- `tau2iv_dft`, fourier.py:464-469. Line 466 changes the new array. -/
noncomputable def tau2ivDftArr {T : ℕ} (g : Arr (Fin (T + 1))) (beta : ℝ) : MM ℂ (Arr (Fin (T / 2 + 1))) := do
  if T = 0 then raise .zeroDivision
  else
    let x ← read g
    let mean := trapezoidDx (fun k => (x k).re) (beta / T)
    let r ← lift (ihfft fun k : Fin T => (x k.castSucc).re - mean)
    let gfIv ← new fun n => beta * r n
    assign gfIv (fun n => (n : ℕ) = 0) fun _ => mean
    return gfIv

/-- `tau2iv_ft_lin`, fourier.py:560-571. The lines 564 and 568 change new arrays. -/
noncomputable def tau2ivFtLinArr {T : ℕ} (g : Arr (Fin (T + 1))) (beta : ℝ) : MM ℂ (Arr (Fin (T / 2 + 1))) := do
  let x ← read g
  let r ← lift (ihfft fun k : Fin T => (x k.castSucc).re)
  let gfDft ← new r
  let x ← read g
  let dr ← lift (ihfft fun k : Fin T => (x k.succ).re - (x k.castSucc).re)
  let dGfDft ← new dr
  let dTauIvs ← new fun n : Fin (T / 2 + 1) => 2 * I * Real.pi / T * (n : ℕ)
  assign dTauIvs (fun n => (n : ℕ) = 0) fun _ => 1
  let d ← read dTauIvs
  let expm1 ← new fun n => Complex.exp (d n) - 1
  let e ← read expm1
  let d ← read dTauIvs
  let weight1 ← new fun n => e n / d n
  let w1 ← read weight1
  let weight2 ← new fun n => (e n + 1 - w1 n) / d n
  assign weight1 (fun n => (n : ℕ) = 0) fun _ => 1
  assign weight2 (fun n => (n : ℕ) = 0) fun _ => 0.5
  let w1 ← read weight1
  let r ← read gfDft
  let w2 ← read weight2
  let dr ← read dGfDft
  let gfIv ← new fun n => w1 n * r n + w2 n * dr n
  let y ← read gfIv
  new fun n => beta * y n

/-- `tau2iw`, fourier.py:973-991, for given moments: line 990 changes the array returned by `fourier`. -/
noncomputable def tau2iwArr (ext : LinalgExt ℝ) {T l : ℕ} (g : Arr (Fin (T + 1))) (beta : ℝ) (n : ℕ)
    (moments : Fin l → ℝ) (fourier : Arr (Fin (T + 1)) → MM ℂ (Arr (Fin ((T + 1) / 2)))) :
    MM ℂ (Arr (Fin ((T + 1) / 2))) := do
  let x ← read g
  let p ← lift (gfFromTau ext (fun k => (x k).re) n beta moments 0 1 none)
  let pt ← lift (evalTauGrid p beta (T + 1))
  let x ← read g
  let gfTau ← new fun k : Fin (T + 1) => x k - pt k
  let gfIw ← fourier gfTau
  let r ← read gfIw
  assign gfIw (fun _ => True) fun i => r i + p.evalZ (matsubaraFrequencies (i : ℕ) beta)
  return gfIw

/-! ## Linear prediction -/

/-- Sum of elements which may be NaN. -/
def nanSum (l : List (Option ℂ)) : Option ℂ := l.foldr (Option.map₂ (· + ·)) (some 0)

/-- Elementwise product with broadcasting of elements which may be NaN, cf. `bcastMul`. -/
def nanBcastMul (a b : List (Option ℂ)) : Except Err (List (Option ℂ)) :=
  if a.length = b.length then .ok (List.zipWith (Option.map₂ (· * ·)) a b)
  else if a.length = 1 then .ok (b.map (Option.map₂ (· * ·) (a.headD none)))
  else if b.length = 1 then .ok (a.map (Option.map₂ (· * ·) · (b.headD none)))
  else .error .valueError

/-- `predict` with `stable=False`, linearprediction.py:332-344: the array with NaN placeholders is read and written in
the loop. -/
noncomputable def predictArr {n p : ℕ} (x : Arr (Fin n)) (pcoeff : Arr (Fin p)) (num : ℤ) :
    MM (Option ℂ) (Arr (Fin (n + num.toNat))) := do
  if num < 0 then raise .valueError
  else
    let xs ← read x
    let xtended ← new fun j : Fin (n + num.toNat) => if h : (j : ℕ) < n then xs ⟨j, h⟩ else none
    forRange num.toNat fun k => do
      let ii := n + k
      let ps ← read pcoeff
      let xt ← read xtended
      let lo := if p ≤ ii then ii - p else n + num.toNat - (p - ii)
      let prod ← lift (nanBcastMul (List.ofFn ps).reverse (((List.ofFn xt).take ii).drop lo))
      assign xtended (fun j => (j : ℕ) = ii) fun _ => (nanSum prod).map fun y => -y
    return xtended

open scoped Classical in
/-- `_predict_stable`, linearprediction.py:357-375: the residues are changed in place, in line 368 and in every iteration.
The decomposition has to be finite. -/
noncomputable def predictStableArr (ext : EigExt) {n p : ℕ} (x : Arr (Fin n)) (pcoeff : Arr (Fin p)) (num : ℕ) :
    MM (Option ℂ) (Arr (Fin (n + num))) := do
  let ps ← read pcoeff
  let mat ← lift (companion 1 fun j => (ps j).getD 0)
  let dec ← lift (decomposeMat ext mat)
  if hp : p = 0 then raise .valueError
  else if hn : n < p then raise .valueError
  else
    let xs ← read x
    let right := dec.rvInv.mulVec fun i : Fin p => (xs ⟨n - 1 - i, by have := i.2; omega⟩).getD 0
    let left : Fin p → ℂ := fun j => dec.rv ⟨0, by omega⟩ j
    let residues ← new fun j : Fin p => some (left j * right j)
    assign residues (fun j => 1 < ‖dec.eig j‖) fun _ => some 0
    let xs ← read x
    let xtended ← new fun j : Fin (n + num) => if h : (j : ℕ) < n then xs ⟨j, h⟩ else none
    forRange num fun k => do
      let r ← read residues
      assign residues (fun _ => True) fun j => (r j).map fun r => r * dec.eig j
      let r ← read residues
      assign xtended (fun j => (j : ℕ) = n + k) fun _ => nanSum (List.ofFn r)
    return xtended

/-- A loop `for ii in range(n)` with local variables. -/
def forRangeWith {E σ : Type} : ℕ → σ → (ℕ → σ → MM E σ) → MM E σ
  | 0, s, _ => pure s
  | n + 1, s, body => do
    let s ← forRangeWith n s body
    body n s

open scoped Classical in
/-- Division of elements which may be NaN. Only `0/0` occurs as division by zero in `pcoeff_burg`. -/
noncomputable def nanDiv (a b : Option ℂ) : Option ℂ := if b = some 0 then none else Option.map₂ (· / ·) a b

/-- `abs(x)**2`. -/
noncomputable def nanAbs2 (x : Option ℂ) : Option ℂ := x.map fun x => ((‖x‖ ^ 2 : ℝ) : ℂ)

/-- `kk`, linearprediction.py:280-288, of errors that may be NaN. -/
noncomputable def nanBurgRefl (f b : List (Option ℂ)) : Option ℂ :=
  let numer := (nanSum (List.zipWith (Option.map₂ fun f b => f * star b) f b)).map fun s => -2 * s
  let denom := Option.map₂ (· + ·) (nanSum (f.map nanAbs2)) (nanSum (b.map nanAbs2))
  nanDiv numer denom

/-- `pcoeff_burg`, linearprediction.py:273-298: the arrays `rho` and `a` are created with NaN placeholders and filled in
the loop. The errors `eforw`, `eback` are never written, so they are modelled as values. Returned are a copy of the last
row of `a` and a view of the last element of `rho`. -/
noncomputable def pcoeffBurgArr {N : ℕ} (x : Arr (Fin N)) (order : ℕ) :
    MM (Option ℂ) (Arr (Fin order) × Arr Unit) := do
  let xs ← read x
  let rho ← new fun _ : Fin (order + 1) => (none : Option ℂ)
  assign rho (fun k => (k : ℕ) = 0) fun _ => nanDiv (nanSum ((List.ofFn xs).map nanAbs2)) (some N)
  let xs ← read x
  let a ← new fun _ : Fin order × Fin order => (none : Option ℂ)
  let _ ← forRangeWith order ((List.ofFn xs).drop 1, (List.ofFn xs).dropLast) fun k (f, b) => do
    let kk := nanBurgRefl f b
    assign a (fun p => (p.1 : ℕ) = k ∧ (p.2 : ℕ) = k) fun _ => kk
    let r ← read rho
    assign rho (fun j => (j : ℕ) = k + 1) fun _ =>
      if h : k < order + 1 then Option.map₂ (fun kk r => (1 - ((‖kk‖ ^ 2 : ℝ) : ℂ)) * r) kk (r ⟨k, h⟩) else none
    if 0 < k then
      let y ← read a
      assign a (fun p => (p.1 : ℕ) = k ∧ (p.2 : ℕ) < k) fun p =>
        if h : k - 1 < order then
          Option.map₂ (· + ·) (y (⟨k - 1, h⟩, p.2))
            (Option.map₂ (fun kk c => kk * star c) kk (y (⟨k - 1, h⟩, ⟨k - 1 - p.2, by omega⟩)))
        else none
    else pure ()
    let shift := fun f b => Option.map₂ (· + ·) f (Option.map₂ (· * ·) kk b)
    let shiftStar := fun b f => Option.map₂ (· + ·) b (Option.map₂ (fun kk f => star kk * f) kk f)
    return (List.zipWith shift (f.drop 1) (b.drop 1), List.zipWith shiftStar b.dropLast f.dropLast)
  if h : order = 0 then raise .indexError
  else
    let y ← read a
    let last ← new fun j : Fin order => y (⟨order - 1, by omega⟩, j)
    return (last, ⟨rho.addr, fun _ => rho.pos (Fin.last order)⟩)

end Gftool.Model
