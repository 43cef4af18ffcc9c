import Verif.Lemmas.Beb
import Mathlib.Topology.Instances.Matrix
import Mathlib.Analysis.SpecificLimits.Basic

/-!
# The local Green's function of a lattice as a function of a matrix

For a retarded matrix `M` and a Hermitian matrix `T` the local Green's function is the average
`G(M) = ∫ (M - ε T)⁻¹ dos(ε)`.  We study the hybridisation `Δ(M) = M - G(M)⁻¹`: its anti-Hermitian
part is negative and bounded, and two hybridisations are as close as the matrices are, in the sense
of the quadratic forms of the anti-Hermitian parts (a matrix version of the Schwarz-Pick lemma).
-/

open MeasureTheory Matrix Filter Topology
open Gftool.Spec

namespace Gftool.Lemmas

variable {ν : Type*} [Fintype ν] [DecidableEq ν]

/-! ### Sesquilinear forms -/

/-- The sesquilinear form of a matrix. -/
def sf (A : Matrix ν ν ℂ) (u v : ν → ℂ) : ℂ := star u ⬝ᵥ A *ᵥ v

/-- The quadratic form of the anti-Hermitian part of a matrix. -/
def qf (A : Matrix ν ν ℂ) (u : ν → ℂ) : ℝ := (sf A u u).im

/-- The squared Euclidean norm. -/
noncomputable def nsq (u : ν → ℂ) : ℝ := ∑ i, ‖u i‖ ^ 2

omit [DecidableEq ν] in
lemma sf_eq_sum (A : Matrix ν ν ℂ) (u v : ν → ℂ) :
    sf A u v = ∑ a, ∑ b, star (u a) * A a b * v b := by
  unfold sf
  simp only [dotProduct, mulVec, Finset.mul_sum, Pi.star_apply]
  exact Finset.sum_congr rfl fun a _ => Finset.sum_congr rfl fun b _ => by ring

omit [DecidableEq ν] in
lemma sf_sandwich (B A C : Matrix ν ν ℂ) (u v : ν → ℂ) :
    sf (B * A * C) u v = sf A (Bᴴ *ᵥ u) (C *ᵥ v) := by
  unfold sf
  rw [star_mulVec, conjTranspose_conjTranspose, ← mulVec_mulVec, ← mulVec_mulVec,
    dotProduct_mulVec (star u) B]

omit [DecidableEq ν] in
lemma sf_add (A B : Matrix ν ν ℂ) (u v : ν → ℂ) : sf (A + B) u v = sf A u v + sf B u v := by
  unfold sf; rw [add_mulVec, dotProduct_add]

omit [DecidableEq ν] in
lemma sf_sub (A B : Matrix ν ν ℂ) (u v : ν → ℂ) : sf (A - B) u v = sf A u v - sf B u v := by
  unfold sf; rw [sub_mulVec, dotProduct_sub]

omit [DecidableEq ν] in
lemma sf_neg (A : Matrix ν ν ℂ) (u v : ν → ℂ) : sf (-A) u v = -sf A u v := by
  unfold sf; rw [neg_mulVec, dotProduct_neg]

omit [DecidableEq ν] in
lemma qf_add (A B : Matrix ν ν ℂ) (u : ν → ℂ) : qf (A + B) u = qf A u + qf B u := by
  unfold qf; rw [sf_add, Complex.add_im]

omit [DecidableEq ν] in
lemma qf_sub (A B : Matrix ν ν ℂ) (u : ν → ℂ) : qf (A - B) u = qf A u - qf B u := by
  unfold qf; rw [sf_sub, Complex.sub_im]

omit [DecidableEq ν] in
lemma qf_hermitian {T : Matrix ν ν ℂ} (hT : T.IsHermitian) (u : ν → ℂ) : qf T u = 0 :=
  hermitian_im hT u

lemma sf_single (A : Matrix ν ν ℂ) (i j : ν) :
    sf A (Pi.single i 1) (Pi.single j 1) = A i j := by
  rw [sf_eq_sum, Finset.sum_eq_single i, Finset.sum_eq_single j]
  · simp
  · intro b _ hb; simp [hb]
  · simp
  · intro a _ ha; simp [ha]
  · simp

omit [DecidableEq ν] in
lemma nsq_nonneg (u : ν → ℂ) : 0 ≤ nsq u := Finset.sum_nonneg fun i _ => by positivity

lemma nsq_single (i : ν) : nsq (Pi.single i (1 : ℂ)) = 1 := by
  unfold nsq
  rw [Finset.sum_eq_single i]
  · simp
  · intro b _ hb; simp [hb]
  · simp

omit [DecidableEq ν] in
lemma nsq_pos {u : ν → ℂ} (h : u ≠ 0) : 0 < nsq u := by
  obtain ⟨i, hi⟩ := Function.ne_iff.1 h
  have h1 : 0 < ‖u i‖ ^ 2 := by
    have : 0 < ‖u i‖ := norm_pos_iff.2 hi
    positivity
  exact lt_of_lt_of_le h1 (Finset.single_le_sum (f := fun i => ‖u i‖ ^ 2)
    (fun j _ => by positivity) (Finset.mem_univ i))

omit [DecidableEq ν] in
/-- Young's inequality for the inner product. -/
lemma dot_young (u v : ν → ℂ) {t : ℝ} (ht : 0 < t) :
    ‖star u ⬝ᵥ v‖ ≤ (t * nsq u + nsq v / t) / 2 := by
  have h : ∀ i, ‖star (u i) * v i‖ ≤ (t * ‖u i‖ ^ 2 + ‖v i‖ ^ 2 / t) / 2 := by
    intro i
    rw [norm_mul, norm_star]
    have h1 : 0 ≤ (t * ‖u i‖ - ‖v i‖) ^ 2 / t := by positivity
    have h2 : (t * ‖u i‖ - ‖v i‖) ^ 2 / t
        = t * ‖u i‖ ^ 2 + ‖v i‖ ^ 2 / t - 2 * (‖u i‖ * ‖v i‖) := by field_simp; ring
    linarith
  calc ‖star u ⬝ᵥ v‖ ≤ ∑ i, ‖star (u i) * v i‖ := by
        simp only [dotProduct, Pi.star_apply]; exact norm_sum_le _ _
    _ ≤ ∑ i, (t * ‖u i‖ ^ 2 + ‖v i‖ ^ 2 / t) / 2 := Finset.sum_le_sum fun i _ => h i
    _ = _ := by
        unfold nsq
        rw [← Finset.sum_div, Finset.sum_add_distrib, Finset.mul_sum, Finset.sum_div]

omit [DecidableEq ν] in
/-- A crude bound of a sesquilinear form. -/
lemma sf_bound (A : Matrix ν ν ℂ) (u v : ν → ℂ) :
    ‖sf A u v‖ ≤ (∑ a, ∑ b, ‖A a b‖) * ((nsq u + nsq v) / 2) := by
  have hle : ∀ (w : ν → ℂ) a, ‖w a‖ ^ 2 ≤ nsq w := fun w a =>
    Finset.single_le_sum (f := fun i => ‖w i‖ ^ 2) (fun j _ => by positivity) (Finset.mem_univ a)
  rw [sf_eq_sum, Finset.sum_mul]
  refine (norm_sum_le _ _).trans (Finset.sum_le_sum fun a _ => ?_)
  rw [Finset.sum_mul]
  refine (norm_sum_le _ _).trans (Finset.sum_le_sum fun b _ => ?_)
  rw [norm_mul, norm_mul, norm_star]
  have h1 : ‖u a‖ * ‖v b‖ ≤ (nsq u + nsq v) / 2 := by
    have := hle u a
    have := hle v b
    nlinarith [sq_nonneg (‖u a‖ - ‖v b‖)]
  calc ‖u a‖ * ‖A a b‖ * ‖v b‖ = ‖A a b‖ * (‖u a‖ * ‖v b‖) := by ring
    _ ≤ _ := mul_le_mul_of_nonneg_left h1 (norm_nonneg _)

omit [DecidableEq ν] in
lemma nsq_mulVec_le (T : Matrix ν ν ℂ) : ∃ C : ℝ, 0 ≤ C ∧ ∀ u, nsq (T *ᵥ u) ≤ C * nsq u := by
  refine ⟨∑ a, ∑ b, ‖(Tᴴ * T) a b‖, Finset.sum_nonneg fun a _ => Finset.sum_nonneg fun b _ =>
    norm_nonneg _, fun u => ?_⟩
  have h1 : sf (Tᴴ * T) u u = (nsq (T *ᵥ u) : ℂ) := by
    unfold sf
    rw [← mulVec_mulVec, dotProduct_mulVec, ← star_mulVec]
    unfold nsq
    simp only [dotProduct, Pi.star_apply]
    push_cast
    refine Finset.sum_congr rfl fun i _ => ?_
    rw [mul_comm]
    exact Complex.mul_conj' _
  have h2 := sf_bound (Tᴴ * T) u u
  rw [h1, Complex.norm_real, Real.norm_of_nonneg (nsq_nonneg _)] at h2
  linarith

/-! ### Averages of matrices -/

section Avg

variable {dos : Measure ℝ} {band : Set ℝ} {hilbert : ℂ → ℂ}

lemma band_ae (hd : IsHilbert dos band hilbert) : ∀ᵐ eps ∂dos, eps ∈ band :=
  mem_ae_iff.2 (by simpa using hd.support)

lemma band_integrable {E : Type*} [NormedAddCommGroup E] (hd : IsHilbert dos band hilbert)
    {f : ℝ → E} (hf : Continuous f) : Integrable f dos := by
  have := hd.prob
  have h := hf.continuousOn.integrableOn_compact (μ := dos) hd.compact
  rwa [IntegrableOn, Measure.restrict_eq_self_of_ae_mem (band_ae hd)] at h

/-- The average of a matrix. -/
noncomputable def avg (dos : Measure ℝ) (F : ℝ → Matrix ν ν ℂ) : Matrix ν ν ℂ :=
  Matrix.of fun a b => ∫ eps, F eps a b ∂dos

omit [Fintype ν] [DecidableEq ν] in
lemma entry_integrable (hd : IsHilbert dos band hilbert) {F : ℝ → Matrix ν ν ℂ}
    (hF : Continuous F) (a b : ν) : Integrable (fun eps => F eps a b) dos :=
  band_integrable hd (hF.matrix_elem a b)

omit [Fintype ν] [DecidableEq ν] in
lemma avg_add (hd : IsHilbert dos band hilbert) {F H : ℝ → Matrix ν ν ℂ} (hF : Continuous F)
    (hH : Continuous H) : avg dos (fun e => F e + H e) = avg dos F + avg dos H := by
  ext a b
  exact integral_add (entry_integrable hd hF a b) (entry_integrable hd hH a b)

omit [Fintype ν] [DecidableEq ν] in
lemma avg_sub (hd : IsHilbert dos band hilbert) {F H : ℝ → Matrix ν ν ℂ} (hF : Continuous F)
    (hH : Continuous H) : avg dos (fun e => F e - H e) = avg dos F - avg dos H := by
  ext a b
  exact integral_sub (entry_integrable hd hF a b) (entry_integrable hd hH a b)

omit [Fintype ν] [DecidableEq ν] in
lemma avg_const (hd : IsHilbert dos band hilbert) (A : Matrix ν ν ℂ) :
    avg dos (fun _ => A) = A := by
  have := hd.prob
  ext a b
  simp [avg]

omit [DecidableEq ν] in
lemma avg_mul_left (hd : IsHilbert dos band hilbert) {F : ℝ → Matrix ν ν ℂ} (hF : Continuous F)
    (B : Matrix ν ν ℂ) : avg dos (fun e => B * F e) = B * avg dos F := by
  ext a b
  simp only [avg, of_apply, mul_apply]
  rw [integral_finsetSum _ fun i _ => (entry_integrable hd hF i b).const_mul _]
  exact Finset.sum_congr rfl fun i _ => integral_const_mul _ _

omit [DecidableEq ν] in
lemma avg_mul_right (hd : IsHilbert dos band hilbert) {F : ℝ → Matrix ν ν ℂ} (hF : Continuous F)
    (B : Matrix ν ν ℂ) : avg dos (fun e => F e * B) = avg dos F * B := by
  ext a b
  simp only [avg, of_apply, mul_apply]
  rw [integral_finsetSum _ fun i _ => (entry_integrable hd hF a i).mul_const _]
  exact Finset.sum_congr rfl fun i _ => integral_mul_const _ _

omit [Fintype ν] [DecidableEq ν] in
lemma avg_conjTranspose (F : ℝ → Matrix ν ν ℂ) :
    avg dos (fun e => (F e)ᴴ) = (avg dos F)ᴴ := by
  ext a b
  simp only [avg, of_apply, conjTranspose_apply]
  exact integral_conj

omit [DecidableEq ν] in
lemma sf_continuous {F : ℝ → Matrix ν ν ℂ} (hF : Continuous F) (u v : ν → ℂ) :
    Continuous fun e => sf (F e) u v := by
  unfold sf
  exact Continuous.dotProduct continuous_const (hF.matrix_mulVec continuous_const)

omit [DecidableEq ν] in
lemma sf_avg (hd : IsHilbert dos band hilbert) {F : ℝ → Matrix ν ν ℂ} (hF : Continuous F)
    (u v : ν → ℂ) : sf (avg dos F) u v = ∫ e, sf (F e) u v ∂dos := by
  simp only [sf_eq_sum]
  have hi : ∀ a b, Integrable (fun e => star (u a) * F e a b * v b) dos := fun a b =>
    ((entry_integrable hd hF a b).const_mul _).mul_const _
  rw [integral_finsetSum _ fun a _ => integrable_finsetSum _ fun b _ => hi a b]
  refine Finset.sum_congr rfl fun a _ => ?_
  rw [integral_finsetSum _ fun b _ => hi a b]
  refine Finset.sum_congr rfl fun b _ => ?_
  rw [integral_mul_const, integral_const_mul]
  rfl

omit [DecidableEq ν] in
lemma qf_avg (hd : IsHilbert dos band hilbert) {F : ℝ → Matrix ν ν ℂ} (hF : Continuous F)
    (u : ν → ℂ) : qf (avg dos F) u = ∫ e, qf (F e) u ∂dos := by
  unfold qf
  rw [sf_avg hd hF]
  exact (integral_im (band_integrable hd (sf_continuous hF u u))).symm

omit [DecidableEq ν] in
lemma qf_continuous {F : ℝ → Matrix ν ν ℂ} (hF : Continuous F) (u : ν → ℂ) :
    Continuous fun e => qf (F e) u := Complex.continuous_im.comp (sf_continuous hF u u)

/-! ### The resolvent and the hybridisation -/

/-- The resolvent `(M - ε T)⁻¹`. -/
noncomputable def res (T M : Matrix ν ν ℂ) (eps : ℝ) : Matrix ν ν ℂ := (M - (eps : ℂ) • T)⁻¹

/-- The local Green's function. -/
noncomputable def locGf (dos : Measure ℝ) (T M : Matrix ν ν ℂ) : Matrix ν ν ℂ := avg dos (res T M)

/-- The hybridisation: the local Green's function is `(M - Δ)⁻¹`. -/
noncomputable def hyb (dos : Measure ℝ) (T M : Matrix ν ν ℂ) : Matrix ν ν ℂ := M - (locGf dos T M)⁻¹

variable {T M : Matrix ν ν ℂ}

lemma res_continuous (hM : Retarded M) (hT : T.IsHermitian) : Continuous (res T M) := by
  have h0 : Continuous fun eps : ℝ => M - (eps : ℂ) • T :=
    continuous_const.sub (Complex.continuous_ofReal.smul continuous_const)
  have h1 : res T M = fun eps : ℝ => ((M - (eps : ℂ) • T).det)⁻¹ • (M - (eps : ℂ) • T).adjugate := by
    funext eps
    rw [res, Matrix.inv_def, Ring.inverse_eq_inv']
  rw [h1]
  exact (h0.matrix_det.inv₀ fun eps => hM.det_ne_zero hT eps).smul h0.matrix_adjugate

lemma res_mul (hM : Retarded M) (hT : T.IsHermitian) (eps : ℝ) :
    res T M eps * (M - (eps : ℂ) • T) = 1 :=
  Matrix.nonsing_inv_mul _ (isUnit_iff_ne_zero.2 (hM.det_ne_zero hT eps))

lemma mul_res (hM : Retarded M) (hT : T.IsHermitian) (eps : ℝ) :
    (M - (eps : ℂ) • T) * res T M eps = 1 :=
  Matrix.mul_nonsing_inv _ (isUnit_iff_ne_zero.2 (hM.det_ne_zero hT eps))

omit [Fintype ν] [DecidableEq ν] in
lemma smul_isHermitian (hT : T.IsHermitian) (eps : ℝ) : ((eps : ℂ) • T).IsHermitian := by
  rw [Matrix.IsHermitian, conjTranspose_smul, hT.eq]
  simp

/-- The anti-Hermitian part of the resolvent is negative. -/
lemma qf_res (hM : Retarded M) (hT : T.IsHermitian) (eps : ℝ) (u : ν → ℂ) :
    qf (res T M eps) u = -qf M (res T M eps *ᵥ u) := by
  set w := res T M eps *ᵥ u with hw
  have hu : u = (M - (eps : ℂ) • T) *ᵥ w := by
    rw [hw, mulVec_mulVec, mul_res hM hT, one_mulVec]
  have h2 : sf (res T M eps) u u = star (sf (M - (eps : ℂ) • T) w w) := by
    unfold sf
    rw [← hw, ← hu, ← star_dotProduct_star, star_star, dotProduct_comm]
  have h3 : qf (res T M eps) u = -qf (M - (eps : ℂ) • T) w := by
    unfold qf; rw [h2]; exact Complex.conj_im _
  rw [h3, qf_sub, qf_hermitian (smul_isHermitian hT eps), sub_zero]

/-- The anti-Hermitian part of the local Green's function is negative. -/
lemma locGf_neg (hd : IsHilbert dos band hilbert) (hM : Retarded M) (hT : T.IsHermitian)
    {v : ν → ℂ} (hv : v ≠ 0) : qf (locGf dos T M) v < 0 := by
  have := hd.prob
  have hpos : ∀ e, 0 < -qf (res T M e) v := by
    intro e
    rw [qf_res hM hT, neg_neg]
    refine hM _ fun h2 => hv ?_
    have := congrArg ((M - (e : ℂ) • T) *ᵥ ·) h2
    simp only [mulVec_mulVec, mul_res hM hT, one_mulVec, mulVec_zero] at this
    exact this
  have hi : Integrable (fun e => -qf (res T M e) v) dos :=
    band_integrable hd (qf_continuous (res_continuous hM hT) v).neg
  have h2 : 0 < ∫ e, -qf (res T M e) v ∂dos := by
    rw [integral_pos_iff_support_of_nonneg (fun e => (hpos e).le) hi]
    have : Function.support (fun e => -qf (res T M e) v) = Set.univ :=
      Set.eq_univ_of_forall fun e => (hpos e).ne'
    rw [this, measure_univ]
    exact one_pos
  rw [integral_neg, ← qf_avg hd (res_continuous hM hT)] at h2
  have h3 : qf (avg dos (res T M)) v = qf (locGf dos T M) v := rfl
  linarith

lemma locGf_det (hd : IsHilbert dos band hilbert) (hM : Retarded M) (hT : T.IsHermitian) :
    (locGf dos T M).det ≠ 0 := by
  intro h
  obtain ⟨v, hv, h0⟩ := Matrix.exists_mulVec_eq_zero_iff.2 h
  have h1 : qf (locGf dos T M) v = 0 := by
    unfold qf sf; rw [h0, dotProduct_zero]; rfl
  exact (locGf_neg hd hM hT hv).ne h1

lemma locGf_mul_inv (hd : IsHilbert dos band hilbert) (hM : Retarded M) (hT : T.IsHermitian) :
    locGf dos T M * (locGf dos T M)⁻¹ = 1 :=
  Matrix.mul_nonsing_inv _ (isUnit_iff_ne_zero.2 (locGf_det hd hM hT))

lemma locGf_inv_mul (hd : IsHilbert dos band hilbert) (hM : Retarded M) (hT : T.IsHermitian) :
    (locGf dos T M)⁻¹ * locGf dos T M = 1 :=
  Matrix.nonsing_inv_mul _ (isUnit_iff_ne_zero.2 (locGf_det hd hM hT))

/-- The left factor `G⁻¹ R`, which averages to one. -/
noncomputable def lf (dos : Measure ℝ) (T M : Matrix ν ν ℂ) (eps : ℝ) : Matrix ν ν ℂ :=
  (locGf dos T M)⁻¹ * res T M eps

/-- The right factor `R G⁻¹`, which averages to one. -/
noncomputable def rf (dos : Measure ℝ) (T M : Matrix ν ν ℂ) (eps : ℝ) : Matrix ν ν ℂ :=
  res T M eps * (locGf dos T M)⁻¹

lemma lf_continuous (hM : Retarded M) (hT : T.IsHermitian) : Continuous (lf dos T M) :=
  continuous_const.matrix_mul (res_continuous hM hT)

lemma rf_continuous (hM : Retarded M) (hT : T.IsHermitian) : Continuous (rf dos T M) :=
  (res_continuous hM hT).matrix_mul continuous_const

lemma avg_lf (hd : IsHilbert dos band hilbert) (hM : Retarded M) (hT : T.IsHermitian) :
    avg dos (lf dos T M) = 1 := by
  unfold lf
  rw [avg_mul_left hd (res_continuous hM hT)]
  exact locGf_inv_mul hd hM hT

lemma avg_rf (hd : IsHilbert dos band hilbert) (hM : Retarded M) (hT : T.IsHermitian) :
    avg dos (rf dos T M) = 1 := by
  unfold rf
  rw [avg_mul_right hd (res_continuous hM hT)]
  exact locGf_mul_inv hd hM hT

/-- The difference of two hybridisations. -/
lemma hyb_sub (hd : IsHilbert dos band hilbert) (hT : T.IsHermitian) {M₁ M₂ : Matrix ν ν ℂ}
    (h₁ : Retarded M₁) (h₂ : Retarded M₂) :
    hyb dos T M₁ - hyb dos T M₂
      = -avg dos (fun e => (lf dos T M₁ e - 1) * (M₁ - M₂) * (rf dos T M₂ e - 1)) := by
  set g₁ := (locGf dos T M₁)⁻¹ with hg₁
  set g₂ := (locGf dos T M₂)⁻¹ with hg₂
  have hR₁ := res_continuous h₁ hT
  have hR₂ := res_continuous h₂ hT
  have h1 : (fun e => (lf dos T M₁ e - 1) * (M₁ - M₂) * (rf dos T M₂ e - 1))
      = fun e => (g₁ * res T M₂ e * g₂ - g₁ * res T M₁ e * g₂)
        - (lf dos T M₁ e * (M₁ - M₂) + (M₁ - M₂) * rf dos T M₂ e) + (M₁ - M₂) := by
    funext e
    have h2 : res T M₁ e * (M₁ - M₂) * res T M₂ e = res T M₂ e - res T M₁ e := by
      have : M₁ - M₂ = (M₁ - (e : ℂ) • T) - (M₂ - (e : ℂ) • T) := by abel
      rw [this, Matrix.mul_sub, Matrix.sub_mul, res_mul h₁ hT, Matrix.one_mul, Matrix.mul_assoc,
        mul_res h₂ hT, Matrix.mul_one]
    have h3 : lf dos T M₁ e * (M₁ - M₂) * rf dos T M₂ e
        = g₁ * res T M₂ e * g₂ - g₁ * res T M₁ e * g₂ := by
      have : lf dos T M₁ e * (M₁ - M₂) * rf dos T M₂ e
          = g₁ * (res T M₁ e * (M₁ - M₂) * res T M₂ e) * g₂ := by
        unfold lf rf; simp only [Matrix.mul_assoc, ← hg₁, ← hg₂]
      rw [this, h2, Matrix.mul_sub, Matrix.sub_mul]
    rw [← h3]
    noncomm_ring
  have hA : Continuous fun e => g₁ * res T M₂ e * g₂ :=
    (continuous_const.matrix_mul hR₂).matrix_mul continuous_const
  have hB : Continuous fun e => g₁ * res T M₁ e * g₂ :=
    (continuous_const.matrix_mul hR₁).matrix_mul continuous_const
  have hC : Continuous fun e => lf dos T M₁ e * (M₁ - M₂) :=
    (lf_continuous h₁ hT).matrix_mul continuous_const
  have hD : Continuous fun e => (M₁ - M₂) * rf dos T M₂ e :=
    continuous_const.matrix_mul (rf_continuous h₂ hT)
  have hAB : Continuous fun e => g₁ * res T M₂ e * g₂ - g₁ * res T M₁ e * g₂ := hA.sub hB
  have hCD : Continuous fun e => lf dos T M₁ e * (M₁ - M₂) + (M₁ - M₂) * rf dos T M₂ e :=
    hC.add hD
  have hABCD : Continuous fun e => (g₁ * res T M₂ e * g₂ - g₁ * res T M₁ e * g₂)
      - (lf dos T M₁ e * (M₁ - M₂) + (M₁ - M₂) * rf dos T M₂ e) := hAB.sub hCD
  rw [h1, avg_add hd hABCD continuous_const, avg_sub hd hAB hCD, avg_sub hd hA hB, avg_add hd hC hD, avg_const hd,
    avg_mul_right hd (lf_continuous h₁ hT), avg_mul_left hd (rf_continuous h₂ hT),
    avg_lf hd h₁ hT, avg_rf hd h₂ hT, avg_mul_right hd (continuous_const.matrix_mul hR₂),
    avg_mul_right hd (continuous_const.matrix_mul hR₁), avg_mul_left hd hR₁, avg_mul_left hd hR₂]
  have h4 : g₁ * avg dos (res T M₁) = 1 := locGf_inv_mul hd h₁ hT
  have h5 : avg dos (res T M₂) * g₂ = 1 := locGf_mul_inv hd h₂ hT
  rw [h4, Matrix.mul_assoc, h5, Matrix.mul_one, Matrix.one_mul, Matrix.one_mul, Matrix.mul_one]
  unfold hyb
  rw [← hg₁, ← hg₂]
  abel

/-- The anti-Hermitian part of the hybridisation, from the left factors. -/
lemma qf_hyb_left (hd : IsHilbert dos band hilbert) (hM : Retarded M) (hT : T.IsHermitian)
    (u : ν → ℂ) : ∫ e, qf M ((lf dos T M e - 1)ᴴ *ᵥ u) ∂dos = -qf (hyb dos T M) u := by
  set g := (locGf dos T M)⁻¹ with hg
  have hR := res_continuous hM hT
  have hX := lf_continuous (dos := dos) hM hT
  have h1 : ∀ e, qf M ((lf dos T M e - 1)ᴴ *ᵥ u)
      = qf (g * (res T M e)ᴴ * gᴴ - (lf dos T M e * M + M * (lf dos T M e)ᴴ) + M) u := by
    intro e
    have h2 : qf M ((lf dos T M e - 1)ᴴ *ᵥ u)
        = qf ((lf dos T M e - 1) * M * (lf dos T M e - 1)ᴴ) u := by
      unfold qf; rw [sf_sandwich]
    have h3 : res T M e * M * (res T M e)ᴴ
        = (res T M e)ᴴ + res T M e * ((e : ℂ) • T) * (res T M e)ᴴ := by
      have h0 : res T M e * M = 1 + res T M e * ((e : ℂ) • T) := by
        rw [← res_mul hM hT e]; noncomm_ring
      rw [h0, Matrix.add_mul, Matrix.one_mul]
    have h4 : lf dos T M e * M * (lf dos T M e)ᴴ
        = g * (res T M e)ᴴ * gᴴ + lf dos T M e * ((e : ℂ) • T) * (lf dos T M e)ᴴ := by
      have h5 : lf dos T M e * M * (lf dos T M e)ᴴ
          = g * (res T M e * M * (res T M e)ᴴ) * gᴴ := by
        unfold lf; simp only [conjTranspose_mul, Matrix.mul_assoc, ← hg]
      rw [h5, h3, Matrix.mul_add, Matrix.add_mul]
      unfold lf
      simp only [conjTranspose_mul, Matrix.mul_assoc, ← hg]
    have h6 : (lf dos T M e - 1) * M * (lf dos T M e - 1)ᴴ
        = (g * (res T M e)ᴴ * gᴴ - (lf dos T M e * M + M * (lf dos T M e)ᴴ) + M)
          + lf dos T M e * ((e : ℂ) • T) * (lf dos T M e)ᴴ := by
      have : (lf dos T M e - 1) * M * (lf dos T M e - 1)ᴴ
          = lf dos T M e * M * (lf dos T M e)ᴴ
            - (lf dos T M e * M + M * (lf dos T M e)ᴴ) + M := by
        rw [conjTranspose_sub, conjTranspose_one]; noncomm_ring
      rw [this, h4]
      abel
    have h7 : (lf dos T M e * ((e : ℂ) • T) * (lf dos T M e)ᴴ).IsHermitian :=
      Matrix.isHermitian_mul_mul_conjTranspose _ (smul_isHermitian hT e)
    rw [h2, h6, qf_add, qf_hermitian h7, add_zero]
  have hA : Continuous fun e => g * (res T M e)ᴴ * gᴴ :=
    (continuous_const.matrix_mul hR.matrix_conjTranspose).matrix_mul continuous_const
  have hB : Continuous fun e => lf dos T M e * M := hX.matrix_mul continuous_const
  have hC : Continuous fun e => M * (lf dos T M e)ᴴ :=
    continuous_const.matrix_mul hX.matrix_conjTranspose
  have hBC : Continuous fun e => lf dos T M e * M + M * (lf dos T M e)ᴴ := hB.add hC
  have hABC : Continuous fun e => g * (res T M e)ᴴ * gᴴ - (lf dos T M e * M + M * (lf dos T M e)ᴴ) := hA.sub hBC
  have hall : Continuous fun e => g * (res T M e)ᴴ * gᴴ - (lf dos T M e * M + M * (lf dos T M e)ᴴ) + M :=
    hABC.add continuous_const
  simp only [h1]
  rw [← qf_avg hd hall, avg_add hd hABC continuous_const, avg_sub hd hA hBC, avg_add hd hB hC,
    avg_const hd, avg_mul_right hd hX, avg_mul_left hd hX.matrix_conjTranspose,
    avg_mul_right hd (continuous_const.matrix_mul hR.matrix_conjTranspose),
    avg_mul_left hd hR.matrix_conjTranspose, avg_conjTranspose, avg_conjTranspose, avg_lf hd hM hT,
    conjTranspose_one, Matrix.one_mul, Matrix.mul_one, Matrix.mul_assoc, ← conjTranspose_mul]
  have h8 : g * avg dos (res T M) = 1 := locGf_inv_mul hd hM hT
  rw [h8, conjTranspose_one, Matrix.mul_one]
  unfold hyb
  rw [← hg, qf_add, qf_sub, qf_sub, qf_add]
  ring

/-- The anti-Hermitian part of the hybridisation, from the right factors. -/
lemma qf_hyb_right (hd : IsHilbert dos band hilbert) (hM : Retarded M) (hT : T.IsHermitian)
    (u : ν → ℂ) : ∫ e, qf M ((rf dos T M e - 1) *ᵥ u) ∂dos = -qf (hyb dos T M) u := by
  set g := (locGf dos T M)⁻¹ with hg
  have hR := res_continuous hM hT
  have hX := rf_continuous (dos := dos) hM hT
  have h1 : ∀ e, qf M ((rf dos T M e - 1) *ᵥ u)
      = qf (gᴴ * (res T M e)ᴴ * g - ((rf dos T M e)ᴴ * M + M * rf dos T M e) + M) u := by
    intro e
    have h2 : qf M ((rf dos T M e - 1) *ᵥ u)
        = qf ((rf dos T M e - 1)ᴴ * M * (rf dos T M e - 1)) u := by
      unfold qf; rw [sf_sandwich, conjTranspose_conjTranspose]
    have h3 : (res T M e)ᴴ * M * res T M e
        = (res T M e)ᴴ + (res T M e)ᴴ * ((e : ℂ) • T) * res T M e := by
      have h0 : M * res T M e = 1 + ((e : ℂ) • T) * res T M e := by
        rw [← mul_res hM hT e]; noncomm_ring
      rw [Matrix.mul_assoc, h0, Matrix.mul_add, Matrix.mul_one, Matrix.mul_assoc]
    have h4 : (rf dos T M e)ᴴ * M * rf dos T M e
        = gᴴ * (res T M e)ᴴ * g + (rf dos T M e)ᴴ * ((e : ℂ) • T) * rf dos T M e := by
      have h5 : (rf dos T M e)ᴴ * M * rf dos T M e
          = gᴴ * ((res T M e)ᴴ * M * res T M e) * g := by
        unfold rf; simp only [conjTranspose_mul, Matrix.mul_assoc, ← hg]
      rw [h5, h3, Matrix.mul_add, Matrix.add_mul]
      unfold rf
      simp only [conjTranspose_mul, Matrix.mul_assoc, ← hg]
    have h6 : (rf dos T M e - 1)ᴴ * M * (rf dos T M e - 1)
        = (gᴴ * (res T M e)ᴴ * g - ((rf dos T M e)ᴴ * M + M * rf dos T M e) + M)
          + (rf dos T M e)ᴴ * ((e : ℂ) • T) * rf dos T M e := by
      have : (rf dos T M e - 1)ᴴ * M * (rf dos T M e - 1)
          = (rf dos T M e)ᴴ * M * rf dos T M e
            - ((rf dos T M e)ᴴ * M + M * rf dos T M e) + M := by
        rw [conjTranspose_sub, conjTranspose_one]; noncomm_ring
      rw [this, h4]
      abel
    have h7 : ((rf dos T M e)ᴴ * ((e : ℂ) • T) * rf dos T M e).IsHermitian :=
      Matrix.isHermitian_conjTranspose_mul_mul _ (smul_isHermitian hT e)
    rw [h2, h6, qf_add, qf_hermitian h7, add_zero]
  have hA : Continuous fun e => gᴴ * (res T M e)ᴴ * g :=
    (continuous_const.matrix_mul hR.matrix_conjTranspose).matrix_mul continuous_const
  have hB : Continuous fun e => (rf dos T M e)ᴴ * M :=
    hX.matrix_conjTranspose.matrix_mul continuous_const
  have hC : Continuous fun e => M * rf dos T M e := continuous_const.matrix_mul hX
  have hBC : Continuous fun e => (rf dos T M e)ᴴ * M + M * rf dos T M e := hB.add hC
  have hABC : Continuous fun e => gᴴ * (res T M e)ᴴ * g - ((rf dos T M e)ᴴ * M + M * rf dos T M e) := hA.sub hBC
  have hall : Continuous fun e => gᴴ * (res T M e)ᴴ * g - ((rf dos T M e)ᴴ * M + M * rf dos T M e) + M :=
    hABC.add continuous_const
  simp only [h1]
  rw [← qf_avg hd hall, avg_add hd hABC continuous_const, avg_sub hd hA hBC, avg_add hd hB hC,
    avg_const hd, avg_mul_right hd hX.matrix_conjTranspose, avg_mul_left hd hX,
    avg_mul_right hd (continuous_const.matrix_mul hR.matrix_conjTranspose),
    avg_mul_left hd hR.matrix_conjTranspose, avg_conjTranspose, avg_conjTranspose, avg_rf hd hM hT,
    conjTranspose_one, Matrix.one_mul, Matrix.mul_one, ← conjTranspose_mul]
  have h8 : avg dos (res T M) * g = 1 := locGf_mul_inv hd hM hT
  rw [h8, conjTranspose_one, Matrix.one_mul]
  unfold hyb
  rw [← hg, qf_add, qf_sub, qf_sub, qf_add]
  ring

/-- Matrix Schwarz-Pick lemma: `hyb` does not increase the distance. -/
lemma hyb_pick (hd : IsHilbert dos band hilbert) (hT : T.IsHermitian) {M₁ M₂ : Matrix ν ν ℂ}
    (h₁ : Retarded M₁) (h₂ : Retarded M₂) {ρ : ℝ}
    (hρ : ∀ u v, ‖sf (M₁ - M₂) u v‖ ≤ ρ * ((qf M₁ u + qf M₂ v) / 2)) (u v : ν → ℂ) :
    ‖sf (hyb dos T M₁ - hyb dos T M₂) u v‖
      ≤ ρ * ((-qf (hyb dos T M₁) u + -qf (hyb dos T M₂) v) / 2) := by
  have hX := lf_continuous (dos := dos) h₁ hT
  have hY := rf_continuous (dos := dos) h₂ hT
  have hF : Continuous fun e => (lf dos T M₁ e - 1) * (M₁ - M₂) * (rf dos T M₂ e - 1) :=
    ((hX.sub continuous_const).matrix_mul continuous_const).matrix_mul (hY.sub continuous_const)
  have hq : ∀ {A : Matrix ν ν ℂ} {w : ℝ → ν → ℂ}, Continuous w → Continuous fun e => qf A (w e) := by
    intro A w hw
    unfold qf sf
    exact Complex.continuous_im.comp
      (Continuous.dotProduct hw.star (continuous_const.matrix_mulVec hw))
  have hi₁ : Integrable (fun e => qf M₁ ((lf dos T M₁ e - 1)ᴴ *ᵥ u)) dos :=
    band_integrable hd (hq ((hX.sub continuous_const).matrix_conjTranspose.matrix_mulVec
      continuous_const))
  have hi₂ : Integrable (fun e => qf M₂ ((rf dos T M₂ e - 1) *ᵥ v)) dos :=
    band_integrable hd (hq ((hY.sub continuous_const).matrix_mulVec continuous_const))
  rw [hyb_sub hd hT h₁ h₂, sf_neg, norm_neg, sf_avg hd hF, ← qf_hyb_left hd h₁ hT,
    ← qf_hyb_right hd h₂ hT, ← integral_add hi₁ hi₂, ← integral_div, ← integral_const_mul]
  refine (norm_integral_le_integral_norm _).trans (integral_mono ?_ ?_ fun e => ?_)
  · exact (band_integrable hd (sf_continuous hF u v)).norm
  · exact ((hi₁.add hi₂).div_const _).const_mul _
  · rw [sf_sandwich]
    exact hρ _ _

/-- The anti-Hermitian part of the hybridisation is not positive. -/
lemma hyb_nonpos (hd : IsHilbert dos band hilbert) (hM : Retarded M) (hT : T.IsHermitian)
    (u : ν → ℂ) : 0 ≤ -qf (hyb dos T M) u := by
  rw [← qf_hyb_left hd hM hT]
  refine integral_nonneg fun e => ?_
  by_cases h : (lf dos T M e - 1)ᴴ *ᵥ u = 0
  · rw [h]; simp [qf, sf]
  · exact (hM _ h).le

/-- The deviation of the hybridisation from its limit `∫ ε T` is controlled by its anti-Hermitian
part. -/
lemma hyb_dev (hd : IsHilbert dos band hilbert) (hM : Retarded M) (hT : T.IsHermitian)
    {p B : ℝ} (hp : 0 < p) (hpM : ∀ u, p * nsq u ≤ qf M u) (hB : ∀ eps ∈ band, |eps| ≤ B)
    (u v : ν → ℂ) :
    ‖sf (hyb dos T M - avg dos fun e : ℝ => (e : ℂ) • T) u v‖
      ≤ (-qf (hyb dos T M) u + B ^ 2 / p * nsq (T *ᵥ v)) / 2 := by
  have := hd.prob
  set g := (locGf dos T M)⁻¹ with hg
  have hX := lf_continuous (dos := dos) hM hT
  have heT : Continuous fun e : ℝ => (e : ℂ) • T :=
    Complex.continuous_ofReal.smul continuous_const
  have hF : Continuous fun e : ℝ => (lf dos T M e - 1) * ((e : ℂ) • T) :=
    (hX.sub continuous_const).matrix_mul heT
  have h1 : avg dos (fun e : ℝ => (lf dos T M e - 1) * ((e : ℂ) • T))
      = hyb dos T M - avg dos fun e : ℝ => (e : ℂ) • T := by
    have h2 : (fun e : ℝ => (lf dos T M e - 1) * ((e : ℂ) • T))
        = fun e : ℝ => (lf dos T M e * M - g) - (e : ℂ) • T := by
      funext e
      have h3 : lf dos T M e * (M - (e : ℂ) • T) = g := by
        unfold lf; rw [Matrix.mul_assoc, res_mul hM hT, Matrix.mul_one]
      rw [← h3, Matrix.mul_sub, Matrix.sub_mul, Matrix.one_mul, sub_sub_cancel]
    have hA : Continuous fun e => lf dos T M e * M := hX.matrix_mul continuous_const
    have hA' : Continuous fun e => lf dos T M e * M - g := hA.sub continuous_const
    rw [h2, avg_sub hd hA' heT, avg_sub hd hA continuous_const,
      avg_mul_right hd hX, avg_lf hd hM hT, Matrix.one_mul, avg_const hd]
    rfl
  have hq : Continuous fun e => qf M ((lf dos T M e - 1)ᴴ *ᵥ u) := by
    have hw : Continuous fun e => (lf dos T M e - 1)ᴴ *ᵥ u :=
      (hX.sub continuous_const).matrix_conjTranspose.matrix_mulVec continuous_const
    unfold qf sf
    exact Complex.continuous_im.comp
      (Continuous.dotProduct hw.star (continuous_const.matrix_mulVec hw))
  have h5 : ‖∫ e : ℝ, sf ((lf dos T M e - 1) * ((e : ℂ) • T)) u v ∂dos‖
      ≤ ∫ e, (qf M ((lf dos T M e - 1)ᴴ *ᵥ u) + B ^ 2 / p * nsq (T *ᵥ v)) / 2 ∂dos := by
    refine (norm_integral_le_integral_norm _).trans ?_
    refine integral_mono_ae (band_integrable hd (sf_continuous hF u v)).norm
      (((band_integrable hd hq).add (integrable_const _)).div_const _)
      ((band_ae hd).mono fun e he => ?_)
    set a := (lf dos T M e - 1)ᴴ *ᵥ u with ha
    have h6 : sf ((lf dos T M e - 1) * ((e : ℂ) • T)) u v = star a ⬝ᵥ ((e : ℂ) • (T *ᵥ v)) := by
      unfold sf
      rw [← mulVec_mulVec, dotProduct_mulVec, ha, star_mulVec, conjTranspose_conjTranspose,
        smul_mulVec]
    have h7 : nsq ((e : ℂ) • (T *ᵥ v)) = e ^ 2 * nsq (T *ᵥ v) := by
      unfold nsq
      rw [Finset.mul_sum]
      refine Finset.sum_congr rfl fun i _ => ?_
      simp [mul_pow]
    have h8 := dot_young a ((e : ℂ) • (T *ᵥ v)) hp
    rw [← h6, h7] at h8
    have h10 : e ^ 2 * nsq (T *ᵥ v) / p ≤ B ^ 2 / p * nsq (T *ᵥ v) := by
      rw [div_mul_eq_mul_div]
      have : e ^ 2 ≤ B ^ 2 := sq_le_sq' (by linarith [(abs_le.1 (hB e he)).1])
        ((abs_le.1 (hB e he)).2)
      gcongr
      exact nsq_nonneg _
    have h11 := hpM a
    simp only
    linarith
  rw [integral_div, integral_add (band_integrable hd hq) (integrable_const _),
    qf_hyb_left hd hM hT] at h5
  simp only [integral_const, probReal_univ, one_smul] at h5
  rw [← h1, sf_avg hd hF]
  exact h5

/-- The anti-Hermitian part of the hybridisation is bounded. -/
lemma hyb_bound (hd : IsHilbert dos band hilbert) (hM : Retarded M) (hT : T.IsHermitian)
    {p B : ℝ} (hp : 0 < p) (hpM : ∀ u, p * nsq u ≤ qf M u) (hB : ∀ eps ∈ band, |eps| ≤ B)
    (u : ν → ℂ) : -qf (hyb dos T M) u ≤ B ^ 2 / p * nsq (T *ᵥ u) := by
  have h1 := hyb_dev hd hM hT hp hpM hB u u
  have heT : Continuous fun e : ℝ => (e : ℂ) • T :=
    Complex.continuous_ofReal.smul continuous_const
  have h2 : -qf (hyb dos T M) u ≤ ‖sf (hyb dos T M - avg dos fun e : ℝ => (e : ℂ) • T) u u‖ := by
    have h3 : qf (hyb dos T M - avg dos fun e : ℝ => (e : ℂ) • T) u = qf (hyb dos T M) u := by
      rw [qf_sub, qf_avg hd heT]
      simp only [qf_hermitian (smul_isHermitian hT _), integral_zero, sub_zero]
    rw [← h3]
    exact (neg_le_abs _).trans (Complex.abs_im_le_norm _)
  linarith

end Avg

end Gftool.Lemmas
