import Verif.Lemmas.RealSpace
import Verif.Lemmas.Bz
import Mathlib.MeasureTheory.Function.L2Space
import Mathlib.Analysis.InnerProductSpace.Orthonormal

/-!
# Bloch functions
-/

namespace Gftool.Lemmas

open Gftool.Spec MeasureTheory
open scoped ComplexConjugate

/-- Orthonormal functions of the momentum, bounded by one. -/
structure Bloch {K A : Type*} [MeasurableSpace K] [DecidableEq A] (μ : Measure K) (e : A → K → ℂ) : Prop where
  meas : ∀ a, Measurable (e a)
  bound : ∀ a k, ‖e a k‖ ≤ 1
  orth : ∀ a b, ∫ k, e a k * conj (e b k) ∂μ = if a = b then 1 else 0

section

variable {K A : Type*} [MeasurableSpace K] [DecidableEq A] {μ : Measure K} [IsProbabilityMeasure μ] {e : A → K → ℂ}

lemma memLp_of_bound {x : K → ℂ} (hx : Measurable x) {C : ℝ} (hC : ∀ k, ‖x k‖ ≤ C) : MemLp x 2 μ :=
  MemLp.of_bound hx.aestronglyMeasurable C (Filter.Eventually.of_forall hC)

lemma Bloch.bessel (he : Bloch μ e) {x : K → ℂ} (hx : Measurable x) {C : ℝ} (hC : ∀ k, ‖x k‖ ≤ C) :
    Summable fun a => ‖∫ k, e a k * x k ∂μ‖ ^ 2 := by
  have hm : ∀ a, MemLp (fun k => conj (e a k)) 2 μ := fun a =>
    memLp_of_bound (Complex.continuous_conj.measurable.comp (he.meas a)) fun k => by
      rw [RCLike.norm_conj]; exact he.bound a k
  have hinner : ∀ {f g : K → ℂ} (hf : MemLp f 2 μ) (hg : MemLp g 2 μ),
      inner ℂ (hf.toLp f) (hg.toLp g) = ∫ k, conj (f k) * g k ∂μ := by
    intro f g hf hg
    rw [L2.inner_def]
    apply integral_congr_ae
    filter_upwards [hf.coeFn_toLp, hg.coeFn_toLp] with k h1 h2
    rw [h1, h2, RCLike.inner_apply, mul_comm]
  have ho : Orthonormal ℂ fun a => (hm a).toLp _ := by
    rw [orthonormal_iff_ite]
    intro a b
    rw [hinner]
    simp only [RingHomCompTriple.comp_apply, RingHom.id_apply]
    exact he.orth a b
  have := ho.inner_products_summable ((memLp_of_bound hx hC).toLp x)
  refine this.congr fun a => ?_
  rw [hinner]
  simp only [RingHomCompTriple.comp_apply, RingHom.id_apply]

end

lemma summable_fin_prod {ι A : Type*} [Finite ι] {F : ι → A → ℝ} (h0 : ∀ i a, 0 ≤ F i a) (h : ∀ i, Summable (F i)) :
    Summable fun p : ι × A => F p.1 p.2 := by
  rw [summable_prod_of_nonneg fun p => h0 p.1 p.2]
  exact ⟨h, Summable.of_finite⟩

lemma summable_pos_fin {ι A V : Type*} [Finite ι] {F : ι → A → ℝ} (h0 : ∀ i a, 0 ≤ F i a) (h : ∀ i, Summable (F i))
    {pos : V → A} {b : V → ι} (hinj : ∀ v w, pos v = pos w → b v = b w → v = w) : Summable fun v => F (b v) (pos v) := by
  have hi : Function.Injective fun v => (b v, pos v) := fun v w h => by
    simp only [Prod.mk.injEq] at h
    exact hinj v w h.2 h.1
  exact (summable_fin_prod h0 h).comp_injective hi

section

variable {K A : Type*} [MeasurableSpace K] [DecidableEq A] {μ : Measure K} [IsProbabilityMeasure μ] {e : A → K → ℂ}

lemma bloch_summable (he : Bloch μ e) {V ι : Type*} [Finite ι] {pos : V → A}
    {b : V → ι} (hinj : ∀ v w, pos v = pos w → b v = b w → v = w) {x : ι → K → ℂ}
    (hx : ∀ i, Measurable (x i)) {C : ℝ} (hC : ∀ i k, ‖x i k‖ ≤ C) :
    Summable fun v => ‖∫ k, e (pos v) k * x (b v) k ∂μ‖ ^ 2 := by
  obtain ⟨F, hF⟩ : ∃ F : ι → A → ℝ, ∀ i a, F i a = ‖∫ k, e a k * x i k ∂μ‖ ^ 2 := ⟨_, fun _ _ => rfl⟩
  have h := summable_pos_fin (F := F) (fun i a => by rw [hF]; exact sq_nonneg _)
    (fun i => (he.bessel (hx i) (hC i)).congr fun a => (hF i a).symm) hinj
  exact h.congr fun v => hF _ _

lemma bloch_eq (he : Bloch μ e) {V ι : Type*} [DecidableEq V] [DecidableEq ι] {H : Hopping V} {pos : V → A}
    {b : V → ι} (hinj : ∀ v w, pos v = pos w → b v = b w → v = w) {z : ℂ} {r : V} {x : ι → K → ℂ}
    (hx : ∀ i, Measurable (x i)) {C : ℝ} (hC : ∀ i k, ‖x i k‖ ≤ C)
    (heq : ∀ v k, z * (e (pos v) k * x (b v) k) - ∑ w ∈ H.nb v, (H.amp v w : ℂ) * (e (pos w) k * x (b w) k)
      = if b v = b r then e (pos v) k * conj (e (pos r) k) else 0) (v : V) :
    z * (∫ k, e (pos v) k * x (b v) k ∂μ) - H.ham (fun v => ∫ k, e (pos v) k * x (b v) k ∂μ) v = if v = r then 1 else 0 := by
  have hi : ∀ a i, Integrable (fun k => e a k * x i k) μ := fun a i =>
    Integrable.of_bound ((he.meas a).mul (hx i)).aestronglyMeasurable (1 * C) (Filter.Eventually.of_forall fun k => by
      rw [norm_mul]
      exact mul_le_mul (he.bound a k) (hC i k) (norm_nonneg _) zero_le_one)
  have h : (∫ k, (z * (e (pos v) k * x (b v) k) - ∑ w ∈ H.nb v, (H.amp v w : ℂ) * (e (pos w) k * x (b w) k)) ∂μ)
      = ∫ k, (if b v = b r then e (pos v) k * conj (e (pos r) k) else 0) ∂μ := by
    congr 1
    funext k
    exact heq v k
  rw [integral_sub ((hi _ _).const_mul _) (integrable_finset_sum _ fun w _ => (hi _ _).const_mul _),
    integral_const_mul, integral_finset_sum _ fun w _ => (hi _ _).const_mul _] at h
  simp only [integral_const_mul] at h
  rw [Hopping.ham, h]
  by_cases hb : b v = b r
  · simp only [if_pos hb]
    rw [he.orth]
    by_cases hp : pos v = pos r
    · rw [if_pos hp, if_pos (hinj _ _ hp hb)]
    · rw [if_neg hp, if_neg fun h => hp (by rw [h])]
  · simp only [if_neg hb]
    rw [integral_zero, if_neg fun h => hb (by rw [h])]

/-- A solution for every momentum gives a solution in real space. -/
lemma bloch_resolvent (he : Bloch μ e) {V ι : Type*} [DecidableEq V] [Finite ι] [DecidableEq ι] {H : Hopping V} {pos : V → A}
    {b : V → ι} (hinj : ∀ v w, pos v = pos w → b v = b w → v = w) {z : ℂ} {r : V} {x : ι → K → ℂ}
    (hx : ∀ i, Measurable (x i)) {C : ℝ} (hC : ∀ i k, ‖x i k‖ ≤ C)
    (heq : ∀ v k, z * (e (pos v) k * x (b v) k) - ∑ w ∈ H.nb v, (H.amp v w : ℂ) * (e (pos w) k * x (b w) k)
      = if b v = b r then e (pos v) k * conj (e (pos r) k) else 0) :
    IsResolvent H r z fun v => ∫ k, e (pos v) k * x (b v) k ∂μ :=
  ⟨bloch_summable he hinj hx hC, bloch_eq he hinj hx hC heq⟩

/-- One band. -/
lemma bloch_localGreen (he : Bloch μ e) {V : Type*} [DecidableEq V] {H : Hopping V} (hH : HopOk H) {pos : V → A}
    (hinj : Function.Injective pos) {disp : K → ℝ} (hm : Measurable disp) (hu : ∀ a k, e a k * conj (e a k) = 1)
    (hd : ∀ v k, ∑ w ∈ H.nb v, (H.amp v w : ℂ) * e (pos w) k = disp k * e (pos v) k)
    {z : ℂ} {c : ℝ} (hc : 0 < c) (hz : ∀ k, c ≤ ‖z - disp k‖) (r : V) : LocalGreen H r z (bzGreen μ disp z) := by
  have hne : ∀ k, z - disp k ≠ 0 := fun k h => by
    have := hz k
    rw [h, norm_zero] at this
    linarith
  have hres : ∀ r : V, IsResolvent H r z fun v => ∫ k, e (pos v) k * (conj (e (pos r) k) / (z - disp k)) ∂μ := by
    intro r
    refine bloch_resolvent he (ι := Unit) (b := fun _ => ()) (x := fun _ k => conj (e (pos r) k) / (z - disp k))
      (fun v w h _ => hinj h) (fun _ => ?_) (C := 1 / c) (fun _ k => ?_) fun v k => ?_
    · exact (Complex.continuous_conj.measurable.comp (he.meas _)).div
        (measurable_const.sub (Complex.measurable_ofReal.comp hm))
    · rw [norm_div, RCLike.norm_conj]
      exact div_le_div₀ zero_le_one (he.bound _ k) hc (hz k)
    · rw [if_pos rfl]
      have : ∑ w ∈ H.nb v, (H.amp v w : ℂ) * (e (pos w) k * (conj (e (pos r) k) / (z - disp k)))
          = (∑ w ∈ H.nb v, (H.amp v w : ℂ) * e (pos w) k) * (conj (e (pos r) k) / (z - disp k)) := by
        rw [Finset.sum_mul]
        exact Finset.sum_congr rfl fun w _ => by ring
      rw [this, hd]
      have := hne k
      field_simp
  have := localGreen_of hH (fun r => ⟨_, hres r⟩) (hres r)
  have e1 : (∫ k, e (pos r) k * (conj (e (pos r) k) / (z - disp k)) ∂μ) = bzGreen μ disp z := by
    unfold bzGreen
    congr 1
    funext k
    rw [← mul_div_assoc, hu]
  rw [e1] at this
  exact this

end

/-- Plane waves in one dimension. -/
noncomputable def wave1 (n : ℤ) (k : ℝ) : ℂ := Complex.exp (n * k * Complex.I)

/-- Plane waves in two dimensions. -/
noncomputable def wave2 (n : ℤ × ℤ) (k : ℝ × ℝ) : ℂ := wave1 n.1 k.1 * wave1 n.2 k.2

/-- Plane waves in three dimensions. -/
noncomputable def wave3 (n : ℤ × ℤ × ℤ) (k : ℝ × ℝ × ℝ) : ℂ := wave1 n.1 k.1 * wave2 n.2 k.2

lemma wave1_add (n m : ℤ) (k : ℝ) : wave1 (n + m) k = wave1 n k * wave1 m k := by
  unfold wave1
  rw [← Complex.exp_add]
  push_cast
  ring_nf

lemma wave1_conj (n : ℤ) (k : ℝ) : conj (wave1 n k) = wave1 (-n) k := by
  unfold wave1
  rw [← Complex.exp_conj]
  simp

lemma wave1_zero (k : ℝ) : wave1 0 k = 1 := by simp [wave1]

lemma wave1_norm (n : ℤ) (k : ℝ) : ‖wave1 n k‖ = 1 := by
  unfold wave1
  rw [← Complex.ofReal_intCast, ← Complex.ofReal_mul, Complex.norm_exp_ofReal_mul_I]

lemma wave1_meas (n : ℤ) : Measurable (wave1 n) := by
  unfold wave1
  fun_prop

lemma wave1_int (n : ℤ) : ∫ k, wave1 n k ∂bz = if n = 0 then 1 else 0 := by
  unfold bz
  rw [integral_smul_measure, ← intervalIntegral.integral_of_le Real.two_pi_pos.le]
  split_ifs with h
  · subst h
    simp only [wave1_zero]
    rw [intervalIntegral.integral_const, ENNReal.toReal_ofReal (by positivity)]
    simp
    field_simp
  · unfold wave1
    have hn : (n : ℂ) * Complex.I ≠ 0 := mul_ne_zero (by exact_mod_cast h) Complex.I_ne_zero
    have := integral_exp_mul_complex (a := 0) (b := 2 * Real.pi) hn
    have e : (fun k : ℝ => Complex.exp (n * k * Complex.I)) = fun k : ℝ => Complex.exp (n * Complex.I * k) := by
      funext k
      ring_nf
    rw [e, this]
    have h2 : Complex.exp (n * Complex.I * ((2 * Real.pi : ℝ) : ℂ)) = 1 := by
      rw [Complex.exp_eq_one_iff]
      exact ⟨n, by push_cast; ring⟩
    rw [h2]
    simp

lemma wave1_bloch : Bloch bz wave1 where
  meas := wave1_meas
  bound n k := (wave1_norm n k).le
  orth a b := by
    simp only [wave1_conj, ← wave1_add, wave1_int]
    simp only [← sub_eq_add_neg, sub_eq_zero]

lemma Bloch.prod {K L A B : Type*} [MeasurableSpace K] [MeasurableSpace L] [DecidableEq A] [DecidableEq B] {μ : Measure K}
    {ν : Measure L} [SFinite μ] [SFinite ν] {e : A → K → ℂ} {f : B → L → ℂ} (he : Bloch μ e) (hf : Bloch ν f) :
    Bloch (μ.prod ν) fun (a : A × B) (k : K × L) => e a.1 k.1 * f a.2 k.2 where
  meas a := ((he.meas a.1).comp measurable_fst).mul ((hf.meas a.2).comp measurable_snd)
  bound a k := by
    rw [norm_mul]
    exact mul_le_one₀ (he.bound _ _) (norm_nonneg _) (hf.bound _ _)
  orth a b := by
    have : ∀ k : K × L, e a.1 k.1 * f a.2 k.2 * conj (e b.1 k.1 * f b.2 k.2)
        = (e a.1 k.1 * conj (e b.1 k.1)) * (f a.2 k.2 * conj (f b.2 k.2)) := fun k => by
      rw [map_mul]
      ring
    simp only [this]
    rw [integral_prod_mul (fun k => e a.1 k * conj (e b.1 k)) (fun k => f a.2 k * conj (f b.2 k)), he.orth, hf.orth]
    by_cases h1 : a.1 = b.1 <;> by_cases h2 : a.2 = b.2 <;> simp [h1, h2, Prod.ext_iff]

lemma wave2_bloch : Bloch bz2 wave2 := wave1_bloch.prod wave1_bloch

lemma wave3_bloch : Bloch bz3 wave3 := wave1_bloch.prod wave2_bloch

lemma wave2_norm (n : ℤ × ℤ) (k : ℝ × ℝ) : ‖wave2 n k‖ = 1 := by
  rw [wave2, norm_mul, wave1_norm, wave1_norm, one_mul]

lemma wave3_norm (n : ℤ × ℤ × ℤ) (k : ℝ × ℝ × ℝ) : ‖wave3 n k‖ = 1 := by
  rw [wave3, norm_mul, wave1_norm, wave2_norm, one_mul]

lemma mul_conj_one {w : ℂ} (h : ‖w‖ = 1) : w * conj w = 1 := by
  rw [Complex.mul_conj, Complex.normSq_eq_norm_sq, h]
  norm_num

lemma wave2_add (n m : ℤ × ℤ) (k : ℝ × ℝ) : wave2 (n + m) k = wave2 n k * wave2 m k := by
  simp only [wave2, Prod.fst_add, Prod.snd_add, wave1_add]
  ring

lemma wave3_add (n m : ℤ × ℤ × ℤ) (k : ℝ × ℝ × ℝ) : wave3 (n + m) k = wave3 n k * wave3 m k := by
  simp only [wave3, Prod.fst_add, Prod.snd_add, wave1_add, wave2_add]
  ring

/-- A point off the band has a positive distance to the band. -/
lemma offBand_dist {z : ℂ} {a b : ℝ} (h : ∀ e : ℝ, a ≤ e → e ≤ b → z ≠ e) :
    ∃ c : ℝ, 0 < c ∧ ∀ e : ℝ, a ≤ e → e ≤ b → c ≤ ‖z - e‖ := by
  by_cases hab : a ≤ b
  · obtain ⟨e0, he0, hmin⟩ := (isCompact_Icc (a := a) (b := b)).exists_isMinOn ⟨a, le_rfl, hab⟩
      (f := fun e : ℝ => ‖z - e‖) (by fun_prop)
    refine ⟨‖z - e0‖, norm_pos_iff.2 (sub_ne_zero.2 (h e0 he0.1 he0.2)), fun e h1 h2 => hmin ⟨h1, h2⟩⟩
  · exact ⟨1, one_pos, fun e h1 h2 => absurd (h1.trans h2) hab⟩

end Gftool.Lemmas
