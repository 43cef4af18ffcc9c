import Verif.Lemmas.BebFixpoint
import Mathlib.Analysis.Complex.LocallyUniformLimit
import Mathlib.Analysis.Calculus.ParametricIntegral

/-!
# The fixed point of the BEB equations is an analytic function of the frequency
-/

open MeasureTheory Matrix Filter Topology
open Gftool.Spec

namespace Gftool.Lemmas

variable {ν : Type*} [Fintype ν] [DecidableEq ν]

lemma continuousAt_matrix_inv {A : Matrix ν ν ℂ} (hA : A.det ≠ 0) :
    ContinuousAt (fun B : Matrix ν ν ℂ => B⁻¹) A := by
  have h1 : (fun B : Matrix ν ν ℂ => B⁻¹) = fun B => (B.det)⁻¹ • B.adjugate := by
    funext B
    rw [Matrix.inv_def, Ring.inverse_eq_inv']
  rw [h1]
  exact ((continuous_id.matrix_det).continuousAt.inv₀ hA).smul
    (continuous_id.matrix_adjugate).continuousAt

/-- Derivative of the elements of an inverse matrix. -/
lemma hasDerivAt_inv_entry {A : ℂ → Matrix ν ν ℂ} {A' : Matrix ν ν ℂ} {z₀ : ℂ}
    (hA : ∀ c d, HasDerivAt (fun z => A z c d) (A' c d) z₀) (hdet : (A z₀).det ≠ 0) (a b : ν) :
    HasDerivAt (fun z => (A z)⁻¹ a b) (-((A z₀)⁻¹ * A' * (A z₀)⁻¹) a b) z₀ := by
  have hcA : ContinuousAt A z₀ := by
    refine continuousAt_pi.2 fun c => continuousAt_pi.2 fun d => (hA c d).continuousAt
  have hcI : ContinuousAt (fun z => (A z)⁻¹) z₀ :=
    ContinuousAt.comp (f := A) (continuousAt_matrix_inv hdet) hcA
  have hcI' : ∀ c d, Tendsto (fun z => (A z)⁻¹ c d) (𝓝[≠] z₀) (𝓝 ((A z₀)⁻¹ c d)) := by
    intro c d
    have h1 : ContinuousAt (fun z => (A z)⁻¹ c d) z₀ :=
      continuousAt_pi.1 (continuousAt_pi.1 hcI c) d
    exact h1.tendsto.mono_left nhdsWithin_le_nhds
  have hne : ∀ᶠ z in 𝓝[≠] z₀, (A z).det ≠ 0 := by
    have h1 : ContinuousAt (fun z => (A z).det) z₀ :=
      ContinuousAt.comp (f := A) (continuous_id.matrix_det).continuousAt hcA
    exact (h1.eventually_ne hdet).filter_mono nhdsWithin_le_nhds
  rw [hasDerivAt_iff_tendsto_slope]
  have hlim : Tendsto (fun z => -∑ d, (∑ c, (A z)⁻¹ a c * slope (fun z => A z c d) z₀ z)
      * (A z₀)⁻¹ d b) (𝓝[≠] z₀) (𝓝 (-((A z₀)⁻¹ * A' * (A z₀)⁻¹) a b)) := by
    refine Tendsto.neg ?_
    rw [Matrix.mul_apply]
    refine tendsto_finsetSum _ fun d _ => Tendsto.mul_const _ ?_
    rw [Matrix.mul_apply]
    refine tendsto_finsetSum _ fun c _ => (hcI' a c).mul ?_
    exact hasDerivAt_iff_tendsto_slope.1 (hA c d)
  refine hlim.congr' ?_
  filter_upwards [hne] with z hz
  have h1 : (A z)⁻¹ - (A z₀)⁻¹ = -((A z)⁻¹ * (A z - A z₀) * (A z₀)⁻¹) := by
    rw [Matrix.mul_sub, Matrix.nonsing_inv_mul _ (isUnit_iff_ne_zero.2 hz), Matrix.sub_mul,
      Matrix.one_mul, Matrix.mul_assoc, Matrix.mul_nonsing_inv _ (isUnit_iff_ne_zero.2 hdet),
      Matrix.mul_one]
    abel
  have h2 : (A z)⁻¹ a b - (A z₀)⁻¹ a b
      = -∑ d, (∑ c, (A z)⁻¹ a c * (A z c d - A z₀ c d)) * (A z₀)⁻¹ d b := by
    have h3 := Matrix.ext_iff.mpr h1 a b
    rw [Matrix.sub_apply, Matrix.neg_apply, Matrix.mul_apply] at h3
    rw [h3]
    simp only [Matrix.mul_apply, Matrix.sub_apply]
  simp only [slope_def_field]
  rw [h2, neg_div, Finset.sum_div]
  congr 1
  refine Finset.sum_congr rfl fun d _ => ?_
  rw [Finset.sum_mul, Finset.sum_mul, Finset.sum_div]
  exact Finset.sum_congr rfl fun c _ => by ring

variable {dos : Measure ℝ} {band : Set ℝ} {hilbert : ℂ → ℂ} {T : Matrix ν ν ℂ}

/-- Elements of the resolvent are bounded. -/
lemma res_entry_bound (hT : T.IsHermitian) {M : Matrix ν ν ℂ} {p : ℝ} (hp : 0 < p)
    (hM : ∀ u, p * nsq u ≤ qf M u) (eps : ℝ) (a b : ν) : ‖res T M eps a b‖ ≤ 1 / p := by
  have hR := retarded_of_ge hp hM
  set u : ν → ℂ := Pi.single b 1 with hu
  have h1 := qf_res hR hT eps u
  have h2 := hM (res T M eps *ᵥ u)
  have h3 : ‖sf (res T M eps) u u‖ ≤ (1 / p * nsq u + nsq (res T M eps *ᵥ u) / (1 / p)) / 2 :=
    dot_young u _ (by positivity)
  have h4 : -qf (res T M eps) u ≤ ‖sf (res T M eps) u u‖ :=
    (neg_le_abs _).trans (Complex.abs_im_le_norm _)
  rw [hu, nsq_single, ← hu] at h3
  have h5 : ‖res T M eps a b‖ ^ 2 ≤ nsq (res T M eps *ᵥ u) := by
    have h6 : (res T M eps *ᵥ u) a = res T M eps a b := by
      rw [hu, mulVec_single_one]; rfl
    rw [← h6]
    exact Finset.single_le_sum (f := fun i => ‖(res T M eps *ᵥ u) i‖ ^ 2)
      (fun j _ => by positivity) (Finset.mem_univ a)
  have h7 : p * nsq (res T M eps *ᵥ u) ≤ 1 / p := by
    have : nsq (res T M eps *ᵥ u) / (1 / p) = p * nsq (res T M eps *ᵥ u) := by
      rw [div_div_eq_mul_div, div_one, mul_comm]
    rw [this] at h3
    linarith
  have h8 : ‖res T M eps a b‖ ^ 2 ≤ (1 / p) ^ 2 := by
    have h9 : nsq (res T M eps *ᵥ u) ≤ 1 / p / p := by
      rw [le_div_iff₀ hp]; linarith
    have h10 : (1 / p) ^ 2 = 1 / p / p := by rw [sq]; field_simp
    rw [h10]
    exact h5.trans h9
  exact le_of_sq_le_sq h8 (by positivity)

/-- The upper half-plane. -/
def uhp : Set ℂ := {z | 0 < z.im}

lemma uhp_open : IsOpen uhp := isOpen_lt continuous_const Complex.continuous_im

/-- The local Green's function of an analytic, retarded matrix is analytic. -/
lemma locGf_analytic (hd : IsHilbert dos band hilbert) (hT : T.IsHermitian)
    {M : ℂ → Matrix ν ν ℂ} (hM : ∀ z ∈ uhp, ∀ u, z.im * nsq u ≤ qf (M z) u)
    (hdiff : ∀ c d, DifferentiableOn ℂ (fun z => M z c d) uhp) (a b : ν) :
    DifferentiableOn ℂ (fun z => locGf dos T (M z) a b) uhp := by
  have := hd.prob
  intro z₀ hz₀
  have hz₀' : 0 < z₀.im := hz₀
  set M' : ℂ → Matrix ν ν ℂ := fun z => Matrix.of fun c d => deriv (fun z => M z c d) z with hM'
  have hder : ∀ z ∈ uhp, ∀ c d, HasDerivAt (fun z => M z c d) (M' z c d) z := fun z hz c d =>
    ((hdiff c d z hz).differentiableAt (uhp_open.mem_nhds hz)).hasDerivAt
  have hcd : ∀ c d, ContinuousAt (fun z => M' z c d) z₀ := fun c d =>
    (((hdiff c d).deriv uhp_open).continuousOn).continuousAt (uhp_open.mem_nhds hz₀)
  set B : ℝ := ∑ c, ∑ d, ‖M' z₀ c d‖ + 1 with hB
  set p := z₀.im / 2 with hp
  have hp0 : 0 < p := by rw [hp]; linarith
  have hev : ∀ᶠ z in 𝓝 z₀, ∑ c, ∑ d, ‖M' z c d‖ < B ∧ p < z.im := by
    have h1 : ContinuousAt (fun z => ∑ c, ∑ d, ‖M' z c d‖) z₀ :=
      tendsto_finsetSum _ fun c _ => tendsto_finsetSum _ fun d _ => (hcd c d).norm
    exact (h1.eventually_lt continuousAt_const (by simp [hB])).and
      (continuousAt_const.eventually_lt Complex.continuous_im.continuousAt (by rw [hp]; linarith))
  have hMp : ∀ z : ℂ, p < z.im → ∀ u, p * nsq u ≤ qf (M z) u := fun z hz u =>
    (mul_le_mul_of_nonneg_right hz.le (nsq_nonneg u)).trans (hM z (hp0.trans hz) u)
  have hret : ∀ z : ℂ, p < z.im → Retarded (M z) := fun z hz => retarded_of_ge hp0 (hMp z hz)
  have hz₀p : p < z₀.im := by rw [hp]; linarith
  have hcont : ∀ z : ℂ, p < z.im → Continuous (res T (M z)) := fun z hz =>
    res_continuous (hret z hz) hT
  have key := hasDerivAt_integral_of_dominated_loc_of_deriv_le (μ := dos)
    (F := fun (z : ℂ) (x : ℝ) => res T (M z) x a b)
    (F' := fun (z : ℂ) (x : ℝ) => -(res T (M z) x * M' z * res T (M z) x) a b) (x₀ := z₀)
    (s := {z | ∑ c, ∑ d, ‖M' z c d‖ < B ∧ p < z.im}) (bound := fun _ => 1 / p * B * (1 / p)) hev
    (hev.mono fun z hz => ((hcont z hz.2).matrix_elem a b).aestronglyMeasurable)
    (entry_integrable hd (hcont z₀ hz₀p) a b)
    ((((hcont z₀ hz₀p).matrix_mul continuous_const).matrix_mul
      (hcont z₀ hz₀p)).matrix_elem a b).neg.aestronglyMeasurable
    (Eventually.of_forall fun x z hz => by
      rw [norm_neg, Matrix.mul_apply]
      have hR := res_entry_bound hT hp0 (hMp z hz.2) x
      calc ‖∑ d, (res T (M z) x * M' z) a d * res T (M z) x d b‖
          ≤ ∑ d, ‖(res T (M z) x * M' z) a d * res T (M z) x d b‖ := norm_sum_le _ _
        _ ≤ ∑ d, (∑ c, 1 / p * ‖M' z c d‖) * (1 / p) := by
            refine Finset.sum_le_sum fun d _ => ?_
            rw [norm_mul, Matrix.mul_apply]
            refine mul_le_mul ((norm_sum_le _ _).trans (Finset.sum_le_sum fun c _ => ?_)) (hR d b)
              (norm_nonneg _) (Finset.sum_nonneg fun c _ => by positivity)
            rw [norm_mul]
            exact mul_le_mul_of_nonneg_right (hR a c) (norm_nonneg _)
        _ = 1 / p * (∑ c, ∑ d, ‖M' z c d‖) * (1 / p) := by
            rw [← Finset.sum_mul, Finset.sum_comm, Finset.mul_sum]
            congr 1
            exact Finset.sum_congr rfl fun c _ => by rw [Finset.mul_sum]
        _ ≤ 1 / p * B * (1 / p) := by
            have := hz.1.le
            gcongr)
    (integrable_const _)
    (Eventually.of_forall fun x z hz => by
      have hz' : z ∈ uhp := hp0.trans hz.2
      have h1 : ∀ c d, HasDerivAt (fun z => (M z - (x : ℂ) • T) c d) (M' z c d) z := fun c d => by
        simp only [Matrix.sub_apply]
        exact (hder z hz' c d).sub_const _
      exact hasDerivAt_inv_entry h1 ((hret z hz.2).det_ne_zero hT x) a b)
  exact key.2.differentiableAt.differentiableWithinAt

/-- The hybridisation of an analytic, retarded matrix is analytic. -/
lemma hyb_analytic (hd : IsHilbert dos band hilbert) (hT : T.IsHermitian)
    {M : ℂ → Matrix ν ν ℂ} (hM : ∀ z ∈ uhp, ∀ u, z.im * nsq u ≤ qf (M z) u)
    (hdiff : ∀ c d, DifferentiableOn ℂ (fun z => M z c d) uhp) (a b : ν) :
    DifferentiableOn ℂ (fun z => hyb dos T (M z) a b) uhp := by
  intro z hz
  have hz' : 0 < z.im := hz
  have h1 : ∀ c d, HasDerivAt (fun z => locGf dos T (M z) c d)
      ((Matrix.of fun c d => deriv (fun z => locGf dos T (M z) c d) z) c d) z := fun c d =>
    ((locGf_analytic hd hT hM hdiff c d z hz).differentiableAt (uhp_open.mem_nhds hz)).hasDerivAt
  have h2 := hasDerivAt_inv_entry h1 (locGf_det hd (retarded_of_ge hz' (hM z hz)) hT) a b
  unfold hyb
  simp only [Matrix.sub_apply]
  exact (hdiff a b z hz).sub h2.differentiableAt.differentiableWithinAt

/-- The hybridisation tends to `∫ ε T` for a large damping, with an explicit rate. -/
lemma hyb_norm_rate (hd : IsHilbert dos band hilbert) (hT : T.IsHermitian) :
    ∃ D : ℝ, 0 ≤ D ∧ ∀ p : ℝ, 0 < p → ∀ M : Matrix ν ν ℂ, (∀ u, p * nsq u ≤ qf M u) → ∀ a b,
      ‖hyb dos T M a b - (∫ eps, (eps : ℂ) ∂dos) * T a b‖ ≤ D / p := by
  obtain ⟨B, hB⟩ := hd.compact.isBounded.exists_norm_le
  obtain ⟨Ct, hCt, hCt'⟩ := nsq_mulVec_le T
  refine ⟨B ^ 2 * Ct, by positivity, fun p hp M hM a b => ?_⟩
  have hB' : ∀ eps ∈ band, |eps| ≤ B := fun e he => by rw [← Real.norm_eq_abs]; exact hB e he
  have hR := retarded_of_ge hp hM
  have h1 := hyb_dev hd hR hT hp hM hB' (Pi.single a 1) (Pi.single b 1)
  have h2 := hyb_bound hd hR hT hp hM hB' (Pi.single a 1)
  have h3 := hCt' (Pi.single a 1)
  have h4 := hCt' (Pi.single b 1)
  rw [nsq_single, mul_one] at h3 h4
  rw [sf_single, Matrix.sub_apply] at h1
  have h5 : avg dos (fun e : ℝ => (e : ℂ) • T) a b = (∫ eps, (eps : ℂ) ∂dos) * T a b := by
    simp only [avg, of_apply, Matrix.smul_apply, smul_eq_mul]
    exact integral_mul_const _ _
  rw [h5] at h1
  refine h1.trans ?_
  have h6 : B ^ 2 / p * nsq (T *ᵥ Pi.single a 1) ≤ B ^ 2 * Ct / p := by
    rw [mul_div_right_comm]; exact mul_le_mul_of_nonneg_left h3 (by positivity)
  have h7 : B ^ 2 / p * nsq (T *ᵥ Pi.single b 1) ≤ B ^ 2 * Ct / p := by
    rw [mul_div_right_comm]; exact mul_le_mul_of_nonneg_left h4 (by positivity)
  linarith

/-- The hybridisation is bounded. -/
lemma hyb_norm_bound (hd : IsHilbert dos band hilbert) (hT : T.IsHermitian) {p : ℝ} (hp : 0 < p) :
    ∃ D : ℝ, 0 ≤ D ∧ ∀ M : Matrix ν ν ℂ, (∀ u, p * nsq u ≤ qf M u) → ∀ a b,
      ‖hyb dos T M a b‖ ≤ D := by
  obtain ⟨D, hD, hD'⟩ := hyb_norm_rate (dos := dos) hd hT
  refine ⟨D / p + ∑ a, ∑ b, ‖(∫ eps, (eps : ℂ) ∂dos) * T a b‖, by positivity, fun M hM a b => ?_⟩
  have h1 := hD' p hp M hM a b
  have h2 : ‖(∫ eps, (eps : ℂ) ∂dos) * T a b‖
      ≤ ∑ a, ∑ b, ‖(∫ eps, (eps : ℂ) ∂dos) * T a b‖ :=
    (Finset.single_le_sum (f := fun b => ‖(∫ eps, (eps : ℂ) ∂dos) * T a b‖)
      (fun _ _ => norm_nonneg _) (Finset.mem_univ b)).trans
      (Finset.single_le_sum (f := fun a => ∑ b, ‖(∫ eps, (eps : ℂ) ∂dos) * T a b‖)
        (fun _ _ => Finset.sum_nonneg fun _ _ => norm_nonneg _) (Finset.mem_univ a))
  have h3 := norm_sub_norm_le (hyb dos T M a b) ((∫ eps, (eps : ℂ) ∂dos) * T a b)
  linarith

/-- The iteration of the fixed-point map. -/
noncomputable def bebIter (dos : Measure ℝ) (T : Matrix ν ν ℂ) (w : ν → ℂ) (c : ν → ℝ) :
    ℕ → Matrix ν ν ℂ
  | 0 => medium w c 0
  | n + 1 => medium w c (hyb dos T (bebIter dos T w c n))

section

variable {c : ν → ℝ} (hc0 : ∀ i, 0 < c i) (hc1 : ∑ i, c i = 1)
  (hd : IsHilbert dos band hilbert) (hT : T.IsHermitian)

include hc0 hc1 hd hT

lemma bebIter_ge {w : ν → ℂ} {p : ℝ} (hp : 0 < p) (hw : ∀ i, p ≤ (w i).im) (n : ℕ) (u : ν → ℂ) :
    p * nsq u ≤ qf (bebIter dos T w c n) u := by
  induction n generalizing u with
  | zero =>
    unfold bebIter
    rw [qf_medium hc0 hc1]
    have := damping_le hc0 hc1 hp hw u
    simpa [qf, sf] using this
  | succ n ih => exact medium_ge hc0 hc1 hd hT hp hw (retarded_of_ge hp ih) u

/-- The iteration converges with a rate that depends only on the damping and a bound of the
energies. -/
lemma bebIter_converges {p : ℝ} (hp : 0 < p) (W : ℝ) : ∃ κ A : ℝ, 0 ≤ κ ∧ κ < 1 ∧
    ∀ w : ν → ℂ, (∀ i, p ≤ (w i).im) → ∑ i, ‖w i‖ ≤ W → ∀ M : Matrix ν ν ℂ, Retarded M →
      medium w c (hyb dos T M) = M → ∀ n i j, ‖bebIter dos T w c n i j - M i j‖ ≤ A * κ ^ n := by
  obtain ⟨C, hC, hC'⟩ := spread_bound (dos := dos) hc0 hc1 hd hT hp
  obtain ⟨D, hD, hD'⟩ := hyb_norm_bound (dos := dos) hd hT hp
  set ci := ∑ i, 1 / c i with hci
  have hci1 : ∀ i, 1 / c i ≤ ci := fun i =>
    Finset.single_le_sum (f := fun i => 1 / c i) (fun j _ => by have := hc0 j; positivity)
      (Finset.mem_univ i)
  have hci0 : 0 ≤ ci := Finset.sum_nonneg fun j _ => by have := hc0 j; positivity
  set m : ℝ := (Fintype.card ν : ℝ) with hm
  set S := m * m * (D * ci + D) / p with hS
  have hS0 : 0 ≤ S := by positivity
  set Y := ci * W + C with hY
  set κ := C / (C + p) with hκ
  have hκ0 : 0 ≤ κ := by positivity
  refine ⟨κ, S * Y, hκ0, by rw [hκ, div_lt_one (by positivity)]; linarith,
    fun w hw hW M hM hfix n i j => ?_⟩
  have gM : ∀ u, p * nsq u ≤ qf M u := fun u => by
    rw [← hfix]; exact medium_ge hc0 hc1 hd hT hp hw hM u
  have hge := bebIter_ge hc0 hc1 hd hT hp hw
  have key : ∀ A : Matrix ν ν ℂ, (∀ u, p * nsq u ≤ qf A u) → ∀ u,
      ∑ i, c i * -qf (hyb dos T A) (kv c i u) ≤ κ * qf (medium w c (hyb dos T A)) u := by
    intro A hA u
    rw [qf_medium hc0 hc1, hκ, div_mul_eq_mul_div, le_div_iff₀ (by positivity)]
    have h3 := hC' A hA u
    have h4 := damping_le hc0 hc1 hp hw u
    nlinarith [mul_le_mul_of_nonneg_left h4 hC, mul_le_mul_of_nonneg_left h3 hp.le]
  have hstart : ∑ a, ∑ b, ‖(bebIter dos T w c 0 - M) a b‖ ≤ S * p := by
    have h1 : bebIter dos T w c 0 - M = sprd c (hyb dos T M) := by
      conv_lhs => rw [← hfix]
      unfold bebIter
      rw [medium_eq, medium_eq]
      have : sprd c (0 : Matrix ν ν ℂ) = 0 := by
        ext a b; unfold sprd; by_cases hab : a = b <;> simp [hab]
      rw [this]
      abel
    have h2 : ∀ a b, ‖(bebIter dos T w c 0 - M) a b‖ ≤ D * ci + D := by
      intro a b
      rw [h1]
      unfold sprd
      rw [Matrix.sub_apply]
      refine (norm_sub_le _ _).trans (add_le_add ?_ (hD' M gM a b))
      by_cases hab : a = b
      · subst hab
        rw [diagonal_apply_eq, norm_div, Complex.norm_real, Real.norm_of_nonneg (hc0 a).le,
          div_eq_mul_one_div]
        exact mul_le_mul (hD' M gM a a) (hci1 a) (by have := hc0 a; positivity) hD
      · rw [diagonal_apply_ne _ hab, norm_zero]; positivity
    calc ∑ a, ∑ b, ‖(bebIter dos T w c 0 - M) a b‖ ≤ ∑ _a : ν, ∑ _b : ν, (D * ci + D) :=
          Finset.sum_le_sum fun a _ => Finset.sum_le_sum fun b _ => h2 a b
      _ = S * p := by
          simp only [Finset.sum_const, Finset.card_univ, nsmul_eq_mul]
          rw [hS, div_mul_cancel₀ _ hp.ne', hm]; ring
  have hrel : ∀ n : ℕ, ∀ u v, ‖sf (bebIter dos T w c n - M) u v‖
      ≤ κ ^ n * S * ((qf (bebIter dos T w c n) u + qf M v) / 2) := by
    intro n
    induction n with
    | zero =>
      intro u v
      rw [pow_zero, one_mul]
      refine (dist_start hp (hge 0) gM u v).trans (mul_le_mul_of_nonneg_right ?_ ?_)
      · rwa [div_le_iff₀ hp]
      · have h1 := hge 0 u
        have h2 := gM v
        have := mul_nonneg hp.le (nsq_nonneg u)
        have := mul_nonneg hp.le (nsq_nonneg v)
        linarith
    | succ n ih =>
      intro u v
      have h1 := medium_pick (w := w) hc0 hc1 hd hT (retarded_of_ge hp (hge n)) hM ih u v
      rw [hfix] at h1
      have k1 := key _ (hge n) u
      have k2 := key M gM v
      rw [hfix] at k2
      have h2 : bebIter dos T w c (n + 1) = medium w c (hyb dos T (bebIter dos T w c n)) := rfl
      rw [h2]
      refine h1.trans ?_
      rw [pow_succ]
      calc _ ≤ κ ^ n * S * ((κ * qf (medium w c (hyb dos T (bebIter dos T w c n))) u
            + κ * qf M v) / 2) := by gcongr
        _ = _ := by ring
  have hub : ∀ A : Matrix ν ν ℂ, (∀ u, p * nsq u ≤ qf A u) → ∀ i,
      qf (medium w c (hyb dos T A)) (Pi.single i 1) ≤ Y ∧
      qf (medium w c 0) (Pi.single i 1) ≤ Y := by
    intro A hA i
    have hbase : ∑ j, (w j).im / c j * ‖(Pi.single i 1 : ν → ℂ) j‖ ^ 2 ≤ ci * W := by
      rw [Finset.sum_eq_single i]
      · simp only [Pi.single_eq_same, norm_one, one_pow, mul_one]
        rw [div_eq_mul_one_div, mul_comm]
        refine mul_le_mul (hci1 i) ?_ (hp.le.trans (hw i)) hci0
        refine ((le_abs_self _).trans (Complex.abs_im_le_norm _)).trans (le_trans ?_ hW)
        exact Finset.single_le_sum (f := fun i => ‖w i‖) (fun _ _ => norm_nonneg _)
          (Finset.mem_univ i)
      · intro b _ hb; simp [hb]
      · simp
    rw [qf_medium hc0 hc1, qf_medium hc0 hc1]
    have h1 := hC' A hA (Pi.single i 1)
    rw [nsq_single, mul_one] at h1
    have h2 : ∑ j, c j * -qf (0 : Matrix ν ν ℂ) (kv c j (Pi.single i 1)) = 0 := by simp [qf, sf]
    rw [h2]
    constructor <;> linarith
  have hY1 : qf (bebIter dos T w c n) (Pi.single i 1) ≤ Y := by
    cases n with
    | zero => exact (hub M gM i).2
    | succ n => exact (hub _ (hge n) i).1
  have hY2 : qf M (Pi.single j 1) ≤ Y := by
    have := (hub M gM j).1
    rwa [hfix] at this
  have h1 := hrel n (Pi.single i 1) (Pi.single j 1)
  rw [sf_single, Matrix.sub_apply] at h1
  refine h1.trans ?_
  calc _ ≤ κ ^ n * S * ((Y + Y) / 2) := by gcongr
    _ = _ := by ring

/-- The fixed point is an analytic function of the frequency. -/
theorem fix_analytic {w : ℂ → ν → ℂ} (hw : ∀ z ∈ uhp, ∀ i, z.im ≤ (w z i).im)
    (hwd : ∀ i, DifferentiableOn ℂ (fun z => w z i) uhp) {M : ℂ → Matrix ν ν ℂ}
    (hM : ∀ z ∈ uhp, Retarded (M z)) (hfix : ∀ z ∈ uhp, medium (w z) c (hyb dos T (M z)) = M z)
    (a b : ν) : DifferentiableOn ℂ (fun z => M z a b) uhp := by
  have hmed : ∀ {D : ℂ → Matrix ν ν ℂ}, (∀ a b, DifferentiableOn ℂ (fun z => D z a b) uhp) →
      ∀ a b, DifferentiableOn ℂ (fun z => medium (w z) c (D z) a b) uhp := by
    intro D hD a b
    unfold medium
    simp only [Matrix.add_apply]
    refine (hD a b).add ?_
    by_cases hab : a = b
    · subst hab
      simp only [diagonal_apply_eq]
      exact ((hwd a).sub (hD a a)).div_const _
    · simp only [diagonal_apply_ne _ hab]
      exact differentiableOn_const _
  have hit : ∀ n a b, DifferentiableOn ℂ (fun z => bebIter dos T (w z) c n a b) uhp := by
    intro n
    induction n with
    | zero =>
      unfold bebIter
      exact hmed (D := fun _ => 0) fun a b => differentiableOn_const _
    | succ n ih =>
      exact hmed (D := fun z => hyb dos T (bebIter dos T (w z) c n)) (hyb_analytic hd hT
        (fun z hz u => bebIter_ge hc0 hc1 hd hT hz (hw z hz) n u) ih)
  refine TendstoLocallyUniformlyOn.differentiableOn
    (F := fun n z => bebIter dos T (w z) c n a b) (φ := atTop) ?_
    (Eventually.of_forall fun n => hit n a b) uhp_open
  rw [Metric.tendstoLocallyUniformlyOn_iff]
  intro ε hε z₀ hz₀
  have hz₀' : 0 < z₀.im := hz₀
  set p := z₀.im / 2 with hp
  have hp0 : 0 < p := by rw [hp]; linarith
  set W := ∑ i, ‖w z₀ i‖ + 1 with hW
  obtain ⟨κ, A, hκ0, hκ1, hconv⟩ := bebIter_converges (dos := dos) hc0 hc1 hd hT hp0 W
  have hev : ∀ᶠ z in 𝓝 z₀, ∑ i, ‖w z i‖ < W ∧ p < z.im := by
    have h1 : ContinuousAt (fun z => ∑ i, ‖w z i‖) z₀ :=
      tendsto_finsetSum _ fun i _ =>
        (((hwd i z₀ hz₀).differentiableAt (uhp_open.mem_nhds hz₀)).continuousAt).norm
    exact (h1.eventually_lt continuousAt_const (by simp [hW])).and
      (continuousAt_const.eventually_lt Complex.continuous_im.continuousAt (by rw [hp]; linarith))
  refine ⟨{z | ∑ i, ‖w z i‖ < W ∧ p < z.im}, mem_nhdsWithin_of_mem_nhds hev, ?_⟩
  have hlim : Tendsto (fun n : ℕ => A * κ ^ n) atTop (𝓝 0) := by
    have := (tendsto_pow_atTop_nhds_zero_of_lt_one hκ0 hκ1).const_mul A
    simpa using this
  filter_upwards [hlim.eventually_lt_const hε] with n hn z hz
  have hzu : z ∈ uhp := hp0.trans hz.2
  rw [dist_comm, dist_eq_norm]
  exact lt_of_le_of_lt (hconv (w z) (fun i => hz.2.le.trans (hw z hzu i)) hz.1.le (M z) (hM z hzu)
    (hfix z hzu) n a b) hn

end

end Gftool.Lemmas
