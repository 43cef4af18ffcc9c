import Verif.Spec.Lattice
import Mathlib.Analysis.Complex.Basic
import Mathlib.LinearAlgebra.Matrix.SchurComplement
import Mathlib.LinearAlgebra.Matrix.Hermitian
import Mathlib.MeasureTheory.Integral.Bochner.ContinuousLinearMap
import Mathlib.MeasureTheory.Integral.IntegrableOn
import Mathlib.Topology.Order.Compact
import Mathlib.Tactic

/-!
# Low-rank updates of matrices, used for BEB
-/

namespace Gftool.Lemmas

open Matrix MeasureTheory Gftool.Spec

variable {ν σ : Type*} [Fintype ν] [DecidableEq ν] [Fintype σ] [DecidableEq σ]

/-- The matrices of the low-rank update: `M W = 1` and `S' W S = P diag(lam) P⁻¹`. -/
structure LowRank (M W : Matrix ν ν ℂ) (S : Matrix ν σ ℂ) (S' : Matrix σ ν ℂ)
    (P Pi : Matrix σ σ ℂ) (lam : σ → ℂ) : Prop where
  inv : M * W = 1
  reg : Pi * P = 1
  eig : S' * W * S = P * diagonal lam * Pi

variable {M W : Matrix ν ν ℂ} {S : Matrix ν σ ℂ} {S' : Matrix σ ν ℂ} {P Pi : Matrix σ σ ℂ}
  {lam : σ → ℂ}

/-- `S P diag(f) P⁻¹ S'`. -/
def mid (S : Matrix ν σ ℂ) (S' : Matrix σ ν ℂ) (P Pi : Matrix σ σ ℂ) (f : σ → ℂ) : Matrix ν ν ℂ :=
  S * P * diagonal f * (Pi * S')

omit [Fintype ν] [DecidableEq ν] in
lemma mid_add (f g : σ → ℂ) : mid S S' P Pi (fun i => f i + g i) = mid S S' P Pi f + mid S S' P Pi g := by
  unfold mid
  rw [← diagonal_add, Matrix.mul_add, Matrix.add_mul]

lemma LowRank.mid_const (h : LowRank M W S S' P Pi lam) (c : ℂ) :
    mid S S' P Pi (fun _ => c) = c • (S * S') := by
  have h1 : P * Pi = 1 := mul_eq_one_comm.1 h.reg
  have h2 : (diagonal fun _ : σ => c) = c • 1 := by
    rw [← Matrix.diagonal_one, ← Matrix.diagonal_smul]; congr 1; funext i; simp
  unfold mid
  rw [h2, Matrix.mul_smul, Matrix.mul_one, Matrix.smul_mul]
  rw [Matrix.mul_assoc S P, ← Matrix.mul_assoc P Pi, h1, Matrix.one_mul]

lemma LowRank.mid_mul (h : LowRank M W S S' P Pi lam) (f g : σ → ℂ) :
    mid S S' P Pi f * W * mid S S' P Pi g = mid S S' P Pi (fun i => f i * lam i * g i) := by
  unfold mid
  have h1 : S * P * diagonal f * (Pi * S') * W * (S * P * diagonal g * (Pi * S'))
      = S * P * diagonal f * (Pi * (S' * W * S) * P) * diagonal g * (Pi * S') := by
    simp only [Matrix.mul_assoc]
  have h2 : Pi * (S' * W * S) * P = diagonal lam := by
    rw [h.eig]
    have : Pi * (P * diagonal lam * Pi) * P = (Pi * P) * diagonal lam * (Pi * P) := by
      simp only [Matrix.mul_assoc]
    rw [this, h.reg, Matrix.one_mul, Matrix.mul_one]
  rw [h1, h2, Matrix.mul_assoc (S * P), diagonal_mul_diagonal, Matrix.mul_assoc (S * P),
    diagonal_mul_diagonal]

/-- Woodbury formula in the eigenbasis. -/
lemma LowRank.update_inv (h : LowRank M W S S' P Pi lam) (x y : σ → ℂ)
    (hxy : ∀ i, x i + y i + x i * lam i * y i = 0) :
    (W + W * mid S S' P Pi x * W) * (M + mid S S' P Pi y) = 1 := by
  have hWM : W * M = 1 := mul_eq_one_comm.1 h.inv
  have h1 : (W + W * mid S S' P Pi x * W) * (M + mid S S' P Pi y)
      = W * M + W * mid S S' P Pi y + W * mid S S' P Pi x * (W * M)
        + W * (mid S S' P Pi x * W * mid S S' P Pi y) := by
    simp only [Matrix.mul_add, Matrix.add_mul, Matrix.mul_assoc]
    abel
  rw [h1, hWM, h.mid_mul, Matrix.mul_one]
  have h2 : W * mid S S' P Pi y + W * mid S S' P Pi x
      + W * mid S S' P Pi (fun i => x i * lam i * y i) = 0 := by
    rw [← Matrix.mul_add, ← Matrix.mul_add, ← mid_add, ← mid_add]
    have h3 : (fun i => y i + x i + x i * lam i * y i) = fun _ => (0 : ℂ) := by
      funext i; rw [← hxy i]; ring
    rw [h3, h.mid_const, zero_smul, Matrix.mul_zero]
  rw [add_assoc, add_assoc, ← add_assoc (W * _) (W * _), h2, add_zero]

lemma LowRank.det_update (h : LowRank M W S S' P Pi lam) (eps : ℂ) :
    (M - eps • (S * S')).det = M.det * ∏ i, (1 - eps * lam i) := by
  have h0 : M - eps • (S * S') = M * (1 + (-eps) • (W * S) * S') := by
    rw [Matrix.mul_add, Matrix.mul_one, Matrix.smul_mul, Matrix.mul_smul, Matrix.mul_assoc,
      ← Matrix.mul_assoc M W, h.inv, Matrix.one_mul, neg_smul, sub_eq_add_neg]
  rw [h0, det_mul, det_one_add_mul_comm]
  congr 1
  have h1 : P * Pi = 1 := mul_eq_one_comm.1 h.reg
  have h2 : 1 + S' * (-eps) • (W * S) = P * diagonal (fun i => 1 - eps * lam i) * Pi := by
    have h3 : (diagonal fun i => 1 - eps * lam i) = 1 + (-eps) • diagonal lam := by
      rw [← diagonal_smul, ← diagonal_one, diagonal_add]
      congr 1; funext i; simp [sub_eq_add_neg]
    rw [h3, Matrix.mul_add, Matrix.add_mul, Matrix.mul_one, h1, Matrix.mul_smul, ← Matrix.mul_assoc,
      h.eig, Matrix.mul_smul, Matrix.smul_mul]
  rw [h2, det_mul, det_mul, det_diagonal, mul_comm P.det, mul_assoc, ← det_mul, h1, det_one, mul_one]

/-- Integrability of a resolvent over a compact band. -/
lemma integrable_resolvent {dos : Measure ℝ} {band : Set ℝ} {hilbert : ℂ → ℂ}
    (hd : IsHilbert dos band hilbert) {x : ℂ} (hx : ∀ eps ∈ band, x ≠ (eps : ℂ)) :
    Integrable (fun eps : ℝ => 1 / (x - eps)) dos := by
  have := hd.prob
  have hc : ContinuousOn (fun eps : ℝ => 1 / (x - eps)) band := by
    refine ContinuousOn.div continuousOn_const (by fun_prop) fun eps he => ?_
    exact sub_ne_zero.2 (hx eps he)
  have h1 : IntegrableOn (fun eps : ℝ => 1 / (x - eps)) band dos := hc.integrableOn_compact hd.compact
  have h2 : dos.restrict band = dos :=
    Measure.restrict_eq_self_of_ae_mem (mem_ae_iff.2 (by simpa using hd.support))
  rwa [IntegrableOn, h2] at h1

/-- A Hilbert transform does not vanish off the real axis. -/
lemma hilbert_ne_zero {dos : Measure ℝ} {band : Set ℝ} {hilbert : ℂ → ℂ}
    (hd : IsHilbert dos band hilbert) {x : ℂ} (hx : x.im ≠ 0) : hilbert x ≠ 0 := by
  have := hd.prob
  have hne : ∀ eps : ℝ, x ≠ (eps : ℂ) := by
    rintro eps rfl
    simp at hx
  intro h0
  rw [hd.eq x fun eps _ => hne eps] at h0
  have hint := integrable_resolvent hd (x := x) fun eps _ => hne eps
  have h1 : ∫ eps : ℝ, (1 / (x - eps)).im ∂dos = 0 := by
    have := integral_im hint
    simp only [RCLike.im_to_complex] at this
    rw [this, h0, Complex.zero_im]
  have h2 : ∀ eps : ℝ, (1 / (x - eps)).im = -x.im / Complex.normSq (x - eps) := by
    intro eps
    rw [one_div, Complex.inv_im]
    simp
  have hpos : ∀ eps : ℝ, 0 < Complex.normSq (x - eps) :=
    fun eps => Complex.normSq_pos.2 (sub_ne_zero.2 (hne eps))
  simp only [h2] at h1
  have h3 : ∫ eps : ℝ, 1 / Complex.normSq (x - eps) ∂dos = 0 := by
    have h4 : (fun eps : ℝ => -x.im / Complex.normSq (x - eps))
        = fun eps : ℝ => -x.im * (1 / Complex.normSq (x - eps)) := by
      funext eps; ring
    rw [h4, integral_const_mul] at h1
    exact (mul_eq_zero.1 h1).resolve_left (neg_ne_zero.2 hx)
  have hi : Integrable (fun eps : ℝ => 1 / Complex.normSq (x - eps)) dos := by
    have h5 := hint.im.const_mul (-1 / x.im)
    refine h5.congr (Filter.Eventually.of_forall fun eps => ?_)
    simp only [RCLike.im_to_complex, h2]
    have := (hpos eps).ne'
    field_simp
  have h6 := (integral_eq_zero_iff_of_nonneg (fun eps => by
    have := (hpos eps).le
    simp only [Pi.zero_apply]
    positivity) hi).1 h3
  have h7 : ∀ᵐ eps : ℝ ∂dos, False := h6.mono fun eps he => by
    have := hpos eps
    simp only [Pi.zero_apply] at he
    have h8 : 0 < 1 / Complex.normSq (x - eps) := by positivity
    linarith
  have h9 := Filter.eventually_false_iff_eq_bot.1 h7
  have h10 := (ae_neBot.2 (IsProbabilityMeasure.ne_zero dos)).ne
  exact h10 h9

/-- The lattice average of the low-rank update. -/
lemma LowRank.integral (h : LowRank M W S S' P Pi lam) {dos : Measure ℝ} {band : Set ℝ}
    {hilbert : ℂ → ℂ} (hd : IsHilbert dos band hilbert) (hlam : ∀ i, lam i ≠ 0)
    (hdet : ∀ eps ∈ band, (M - (eps : ℂ) • (S * S')).det ≠ 0) (a b : ν) :
    (W + W * mid S S' P Pi (fun i => (1 / lam i * hilbert (1 / lam i) - 1) * (1 / lam i)) * W) a b
      = ∫ eps : ℝ, ((M - (eps : ℂ) • (S * S'))⁻¹) a b ∂dos := by
  have := hd.prob
  have hne : ∀ eps ∈ band, ∀ i, 1 - (eps : ℂ) * lam i ≠ 0 := by
    intro eps he i hi
    apply hdet eps he
    rw [h.det_update]
    rw [Finset.prod_eq_zero (Finset.mem_univ i) hi, mul_zero]
  have hx : ∀ i, ∀ eps ∈ band, 1 / lam i ≠ (eps : ℂ) := by
    intro i eps he hi
    apply hne eps he i
    rw [← hi, one_div, inv_mul_cancel₀ (hlam i), sub_self]
  have hae : ∀ᵐ eps ∂dos, eps ∈ band := mem_ae_iff.2 (by simpa using hd.support)
  have hentry : ∀ (f : σ → ℂ), (W + W * mid S S' P Pi f * W) a b
      = W a b + ∑ i, (W * (S * P)) a i * f i * (Pi * S' * W) i b := by
    intro f
    have : W * mid S S' P Pi f * W = (W * (S * P)) * diagonal f * (Pi * S' * W) := by
      unfold mid; simp only [Matrix.mul_assoc]
    rw [this, Matrix.add_apply, Matrix.mul_apply]
    simp only [Matrix.mul_diagonal]
  have hinv : ∀ eps ∈ band, ((M - ((eps : ℝ) : ℂ) • (S * S'))⁻¹) a b
      = W a b + ∑ i, (W * (S * P)) a i * ((1 / lam i) * ((1 / lam i) * (1 / (1 / lam i - eps)) - 1))
        * (Pi * S' * W) i b := by
    intro eps he
    rw [← hentry]
    have h2 : M - (eps : ℂ) • (S * S') = M + mid S S' P Pi (fun _ => -(eps : ℂ)) := by
      rw [h.mid_const, neg_smul, sub_eq_add_neg]
    rw [h2]
    refine Matrix.ext_iff.mpr (Matrix.inv_eq_left_inv (h.update_inv _ _ ?_)) a b
    intro i
    have h3 := hlam i
    have h4 := hne eps he i
    have h4' : 1 - lam i * (eps : ℂ) ≠ 0 := by rwa [mul_comm]
    have h5 : 1 / lam i - (eps : ℂ) ≠ 0 := sub_ne_zero.2 (hx i eps he)
    have h6 : 1 / (1 / lam i - (eps : ℂ)) = lam i / (1 - eps * lam i) := by
      rw [eq_div_iff h4]; field_simp
    rw [h6]
    field_simp
    ring
  rw [integral_congr_ae (hae.mono fun eps he => hinv eps he), hentry]
  have hint : ∀ i, Integrable (fun eps : ℝ => (W * (S * P)) a i
      * ((1 / lam i) * ((1 / lam i) * (1 / (1 / lam i - eps)) - 1)) * (Pi * S' * W) i b) dos := by
    intro i
    refine Integrable.mul_const (Integrable.const_mul (Integrable.const_mul ?_ _) _) _
    exact ((integrable_resolvent hd (hx i)).const_mul _).sub (integrable_const _)
  rw [integral_add (integrable_const _) (integrable_finsetSum _ fun i _ => hint i),
    integral_finsetSum _ fun i _ => hint i]
  simp only [integral_const, probReal_univ, one_smul]
  congr 1
  refine Finset.sum_congr rfl fun i _ => ?_
  rw [integral_mul_const, integral_const_mul, integral_const_mul,
    integral_sub ((integrable_resolvent hd (hx i)).const_mul _) (integrable_const _),
    integral_const_mul, ← hd.eq _ (hx i)]
  simp only [integral_const, probReal_univ, one_smul]
  ring

/-! ### Retarded matrices -/

/-- The anti-Hermitian part of `M` is positive: `z - Σ` for `Im z > 0` and a physical `Σ`. -/
def Retarded (M : Matrix ν ν ℂ) : Prop := ∀ v : ν → ℂ, v ≠ 0 → 0 < (star v ⬝ᵥ M *ᵥ v).im

omit [DecidableEq ν] in
lemma hermitian_im {T : Matrix ν ν ℂ} (hT : T.IsHermitian) (v : ν → ℂ) :
    (star v ⬝ᵥ T *ᵥ v).im = 0 := by
  have h : star (star v ⬝ᵥ T *ᵥ v) = star v ⬝ᵥ T *ᵥ v := by
    rw [← Matrix.star_dotProduct_star, star_star, Matrix.star_mulVec, hT.eq, dotProduct_comm, dotProduct_comm v,
      ← Matrix.dotProduct_mulVec]
  exact Complex.conj_eq_iff_im.1 h

lemma Retarded.det_ne_zero {M T : Matrix ν ν ℂ} (hM : Retarded M) (hT : T.IsHermitian) (eps : ℝ) :
    (M - (eps : ℂ) • T).det ≠ 0 := by
  intro h
  obtain ⟨v, hv, h0⟩ := Matrix.exists_mulVec_eq_zero_iff.2 h
  have h1 := hM v hv
  have h2 : star v ⬝ᵥ (M - (eps : ℂ) • T) *ᵥ v = 0 := by rw [h0, dotProduct_zero]
  rw [Matrix.sub_mulVec, dotProduct_sub, Matrix.smul_mulVec, dotProduct_smul, sub_eq_zero] at h2
  rw [h2] at h1
  simp [hermitian_im hT v] at h1

/-- A compression of the inverse of a retarded matrix is regular. -/
lemma Retarded.compress {M W : Matrix ν ν ℂ} (hM : Retarded M) (hMW : M * W = 1)
    (u : Matrix ν σ ℂ) (hu : uᴴ * u = 1) (v : σ → ℂ) (h : (uᴴ * W * u) *ᵥ v = 0) : v = 0 := by
  by_contra hv
  set y := W *ᵥ (u *ᵥ v) with hy
  have hMy : M *ᵥ y = u *ᵥ v := by rw [hy, mulVec_mulVec, hMW, one_mulVec]
  have hy0 : y ≠ 0 := by
    intro h0
    rw [h0, mulVec_zero] at hMy
    apply hv
    have := congrArg (uᴴ *ᵥ ·) hMy
    simp only [mulVec_mulVec, hu, one_mulVec, mulVec_zero] at this
    exact this.symm
  have h1 := hM y hy0
  have h2 : star y ⬝ᵥ M *ᵥ y = 0 := by
    rw [hMy]
    have h3 : star (u *ᵥ v) ⬝ᵥ y = 0 := by
      rw [Matrix.star_mulVec, ← Matrix.dotProduct_mulVec, hy, mulVec_mulVec, mulVec_mulVec, h, dotProduct_zero]
    have h4 := congrArg star h3
    rw [← Matrix.star_dotProduct_star, star_star, star_zero] at h4
    exact h4
  rw [h2] at h1
  simp at h1

end Gftool.Lemmas
