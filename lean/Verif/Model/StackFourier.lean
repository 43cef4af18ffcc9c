import Verif.Model.StackFitZ
import Verif.Model.Fourier

/-!
# Fourier transformations of arrays with leading axes

See `Verif/Model/Stack.lean`.  `numpy.fft` transforms the last axis.
-/

namespace Gftool.Model

open Complex (I)

/-- Element `k` of a vector. -/
noncomputable def vecGet {α : Type} [Zero α] {n : ℕ} (f : Fin n → α) (k : ℕ) : α := if h : k < n then f ⟨k, h⟩ else 0

/-- `numpy.fft.hfft` of the last axis. -/
noncomputable def hfftNd (a : Nd ℂ) : Except Err (Nd ℝ) :=
  match a.dims with
  | [] => .error .indexError
  | m :: s => if 2 * (m - 1) < 1 then .error .valueError
    else .ok ⟨2 * (m - 1) :: s, fun i => match hfft fun k : Fin m => a.at (k :: i.tail) with
      | .ok r => vecGet r (i.headD 0)
      | .error _ => 0⟩

/-- `numpy.fft.ihfft` of the last axis. -/
noncomputable def ihfftNd (a : Nd ℝ) : Except Err (Nd ℂ) :=
  match a.dims with
  | [] => .error .indexError
  | n :: s => if n = 0 then .error .valueError
    else .ok ⟨(n / 2 + 1) :: s, fun i => match ihfft fun k : Fin n => a.at (k :: i.tail) with
      | .ok r => vecGet r (i.headD 0)
      | .error _ => 0⟩

/-- `np.concatenate((a, b), axis=-1)`: all other axes have to agree (`ValueError`). -/
def Nd.concat {α : Type} (a b : Nd α) : Except Err (Nd α) :=
  match a.dims, b.dims with
  | n :: s, m :: s' => if s = s' then .ok ⟨(n + m) :: s, fun i =>
      if i.headD 0 < n then a.at i else b.at ((i.headD 0 - n) :: i.tail)⟩ else .error .valueError
  | _, _ => .error .valueError

/-- `iw2tau_dft`, fourier.py:193-196.  (For `N = 0` the transformation fails.) -/
noncomputable def iw2tauDftNd (gf : Nd ℂ) (beta : ℝ) : Except Err (Nd ℝ) :=
  match gf.dims with
  | [] => .error .indexError
  | N :: s => do
    let all : Nd ℂ := ⟨(2 * N + 1) :: s, fun i =>
      if i.headD 0 % 2 = 1 then gf.at (i.headD 0 / 2 :: i.tail) else 0⟩
    let r ← hfftNd (all.map (1 / (beta : ℂ) * ·))
    r.slice (2 * N + 1) id

/-- `iw2tau_dft_soft`, fourier.py:279-283. -/
noncomputable def iw2tauDftSoftNd (gf : Nd ℂ) (beta : ℝ) : Except Err (Nd ℝ) :=
  match gf.dims with
  | [] => .error .indexError
  | N :: _ => do
    let tail : Nd ℂ := Nd.vec N fun j => ((0.5 * (Real.cos (Real.pi * (j + 1 : ℕ) / N) + 1) : ℝ) : ℂ)
    let last ← gf.slice (min 1 N) fun _ => N - 1
    let t ← Nd.map2 (· * ·) tail last
    let ext ← gf.concat t
    let r ← iw2tauDftNd ext beta
    r.slice (2 * N + 1) (2 * ·)

/-- `tau2iv_dft`, fourier.py:464-469.  For a single point `beta/0` raises `ZeroDivisionError`. -/
noncomputable def tau2ivDftNd (gf : Nd ℝ) (beta : ℝ) : Except Err (Nd ℂ) :=
  match gf.dims with
  | [] => .error .indexError
  | n :: _ => if n = 1 then .error .zeroDivision else do
    let gl ← gf.slice (n - 1) id
    let gr ← gf.slice (n - 1) (· + 1)
    let tr ← Nd.map2 (fun a b : ℝ => beta / ((n : ℝ) - 1) * (a + b) / 2) gr gl
    let mean := tr.sum
    let d ← Nd.map2 (· - ·) gl mean.newaxis
    let r ← ihfftNd d
    (r.map ((beta : ℂ) * ·)).setLast 0 (mean.map fun x : ℝ => (x : ℂ))

/-- `tau2iv_ft_lin`, fourier.py:559-569. -/
noncomputable def tau2ivFtLinNd (gf : Nd ℝ) (beta : ℝ) : Except Err (Nd ℂ) :=
  match gf.dims with
  | [] => .error .indexError
  | n :: _ => do
    let gl ← gf.slice (n - 1) id
    let dft ← ihfftNd gl
    let gr ← gf.slice (n - 1) (· + 1)
    let d ← Nd.map2 (· - ·) gr gl
    let ddft ← ihfftNd d
    let x := fun k : ℕ => 2 * I * Real.pi / ((n : ℂ) - 1) * k
    let w1 : Nd ℂ := Nd.vec (dft.dims.headD 0) fun k => if k = 0 then 1 else filonW1 (x k)
    let w2 : Nd ℂ := Nd.vec (dft.dims.headD 0) fun k => if k = 0 then 0.5 else filonW2 (x k)
    let a ← Nd.map2 (· * ·) w1 dft
    let b ← Nd.map2 (· * ·) w2 ddft
    let r ← Nd.map2 (· + ·) a b
    .ok (r.map ((beta : ℂ) * ·))

/-- The assignment `a[..., 1:] += b`. -/
def Nd.addFrom1 (a b : Nd ℂ) : Except Err (Nd ℂ) := do
  let sl ← a.slice (a.dims.headD 0 - 1) (· + 1)
  let r ← Nd.imap2 (· + ·) sl b
  .ok ⟨a.dims, fun i => if i.headD 0 = 0 then a.get i else r.get ((i.headD 0 - 1) :: i.tail)⟩

/-- The assignment `a[..., 0] += b`; `ValueError` unless `b` can be broadcast to the selected part. -/
def Nd.addAt0 (a b : Nd ℂ) : Except Err (Nd ℂ) := do
  let sl ← a.select 0
  let r ← Nd.imap2 (· + ·) sl b
  .ok ⟨a.dims, fun i => if i.headD 0 = 0 then r.get i.tail else a.get i⟩

/-- `np.linspace(0, beta, num=n)`. -/
noncomputable def linspaceNd (beta : ℝ) (n : ℕ) : Nd ℝ := Nd.vec n (vecGet (linspace0 beta n))

/-- `tau2iv`, fourier.py:652-659, with the transformation `fourier` as parameter. -/
noncomputable def tau2ivNd (gf : Nd ℝ) (beta : ℝ) (fourier : Nd ℝ → ℝ → Except Err (Nd ℂ)) : Except Err (Nd ℂ) :=
  match gf.dims with
  | [] => .error .indexError
  | n :: _ => do
    let last ← gf.select (n - 1)
    let first ← gf.select 0
    let g1 ← Nd.map2 (· - ·) last first
    let lin ← Nd.map2 (· * ·) (g1.newaxis.map (· / beta)) (linspaceNd beta n)
    let g ← Nd.map2 (· - ·) gf lin
    let r ← fourier g beta
    let q ← Nd.map2 (fun (g : ℝ) (v : ℂ) => (g : ℂ) / v) g1.newaxis
      (Nd.vec (r.dims.headD 0 - 1) fun k => matsubaraFrequenciesB ((k + 1 : ℕ) : ℤ) beta)
    let r ← r.addFrom1 q
    r.addAt0 (g1.map fun g : ℝ => 0.5 * (g : ℂ) * beta)

/-- `gf_tau_full_range`, fourier.py:733 and 827. -/
noncomputable def fullRangeNd (gf : Nd ℝ) : Except Err (Nd ℝ) := do
  let gl ← gf.slice (gf.dims.headD 0 - 1) id
  (gl.map (- ·)).concat gf

/-- `tau2iw_dft`, fourier.py:733-735. -/
noncomputable def tau2iwDftNd (gf : Nd ℝ) (beta : ℝ) : Except Err (Nd ℂ) := do
  let full ← fullRangeNd gf
  let fl ← full.slice (full.dims.headD 0 - 1) id
  let dft ← ihfftNd fl
  let r ← dft.slice (dft.dims.headD 0 / 2) (2 * · + 1)
  .ok (r.map (-(beta : ℂ) * ·))

/-- `tau2iw_ft_lin`, fourier.py:827-837. -/
noncomputable def tau2iwFtLinNd (gf : Nd ℝ) (beta : ℝ) : Except Err (Nd ℂ) := do
  let full ← fullRangeNd gf
  let n := full.dims.headD 0 - 1
  let fl ← full.slice n id
  let dft ← ihfftNd fl
  let fr ← full.slice n (· + 1)
  let d ← Nd.map2 (· - ·) fr fl
  let ddft ← ihfftNd d
  let m := dft.dims.headD 0 / 2
  let x := fun k : ℕ => 2 * I * Real.pi * (2 * k + 1 : ℕ) / (n : ℂ)
  let o ← dft.slice m (2 * · + 1)
  let a ← Nd.map2 (· * ·) (Nd.vec m fun k => filonW1 (x k)) o
  let o' ← ddft.slice m (2 * · + 1)
  let b ← Nd.map2 (· * ·) (Nd.vec m fun k => filonW2 (x k)) o'
  let r ← Nd.map2 (· + ·) a b
  .ok (r.map (-(beta : ℂ) * ·))

/-- The end of `iw2tau`, fourier.py:389-393, given poles and residues of `pole_gf`. -/
noncomputable def iw2tauEndNd (gf iws : Nd ℂ) (beta : ℝ) (fourier : Nd ℂ → ℝ → Except Err (Nd ℝ)) (poles resid : Nd ℝ) :
    Except Err (Nd ℝ) := do
  let pz ← poleGfZNd iws (poles.map fun x : ℝ => (x : ℂ)) (resid.map fun x : ℝ => (x : ℂ))
  let g ← Nd.map2 (· - ·) gf pz
  let gt ← fourier g beta
  let pt ← poleGfTauNd (linspaceNd beta (gt.dims.headD 0)) poles resid (Nd.scalar beta)
  Nd.imap2 (· + ·) gt pt

/-- `matsubara_frequencies(range(n), beta)`. -/
noncomputable def matsubaraNd (n : ℕ) (beta : ℝ) : Nd ℂ := Nd.vec n fun k => matsubaraFrequencies (k : ℤ) beta

/-- `iw2tau`, fourier.py:380-393, with the transformation `fourier` as parameter. -/
noncomputable def iw2tauNd (ext : LinalgExt ℝ) (gf : Nd ℂ) (beta : ℝ) (moments : Nd ℝ)
    (fourier : Nd ℂ → ℝ → Except Err (Nd ℝ)) (nfit : ℕ) : Except Err (Nd ℝ) :=
  match gf.dims with
  | [] => .error .indexError
  | N :: _ => do
    let iws := matsubaraNd N beta
    let pr ← if nfit ≠ 0 then do
        let nMom := moments.dims.headD 0
        let g2 ← gf.newaxis2
        let m2 ← moments.newaxis2
        gfFromZNd ext iws g2 (nMom + nfit) m2 (some 1) (some (iws.map fun z => z.im ^ (nMom + nfit)))
      else do
        let m2 ← moments.newaxis2
        gfFromMomentsNd m2 (some (Nd.scalar 1))
    iw2tauEndNd gf iws beta fourier pr.1 pr.2

/-- The end of `tau2iw`, fourier.py:987-991, given poles and residues of `pole_gf`. -/
noncomputable def tau2iwEndNd (gf : Nd ℝ) (beta : ℝ) (fourier : Nd ℝ → ℝ → Except Err (Nd ℂ)) (poles resid : Nd ℝ) :
    Except Err (Nd ℂ) := do
  let pt ← poleGfTauNd (linspaceNd beta (gf.dims.headD 0)) poles resid (Nd.scalar beta)
  let g ← Nd.map2 (· - ·) gf pt
  let gi ← fourier g beta
  let pz ← poleGfZNd (matsubaraNd (gi.dims.headD 0) beta) (poles.map fun x : ℝ => (x : ℂ)) (resid.map fun x : ℝ => (x : ℂ))
  Nd.imap2 (· + ·) gi pz

/-- The moments used by `tau2iw`, fourier.py:974-981: by default the jump.  `np.allclose` requires that the first moment can be broadcast
against the jump (the warning is not modelled). -/
noncomputable def tau2iwMomNd (gf : Nd ℝ) (moments : Option (Nd ℝ)) : Except Err (Nd ℝ) := do
  let last ← gf.select (gf.dims.headD 0 - 1)
  let first ← gf.select 0
  let m1 ← Nd.map2 (fun a b => -a - b) last first
  match moments with
  | none => .ok m1.newaxis
  | some m => do
    let m0 ← m.select 0
    let _ ← Nd.map2 (fun a b => |a - b|) m1 m0
    .ok m

/-- `tau2iw`, fourier.py:973-991, with the transformation `fourier` as parameter. -/
noncomputable def tau2iwNd (ext : LinalgExt ℝ) (gf : Nd ℝ) (beta : ℝ) (npole : Option ℕ) (moments : Option (Nd ℝ))
    (fourier : Nd ℝ → ℝ → Except Err (Nd ℂ)) : Except Err (Nd ℂ) := do
  let m ← tau2iwMomNd gf moments
  let n := npole.getD (m.dims.headD 0)
  let g2 ← gf.newaxis2
  let m2 ← m.newaxis2
  let resid ← gfFromTauNd ext g2 n beta m2 1 none
  tau2iwEndNd gf beta fourier ((chebNd n).map (1 * ·)) resid

end Gftool.Model
