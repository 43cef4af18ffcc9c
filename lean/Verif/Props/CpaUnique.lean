import Verif.Spec.Cpa
import Verif.Lemmas.Nevanlinna
import Verif.Props.Cpa
import Verif.Props.Lattice

/-!
# Property C66: the CPA self-energy exists, is unique and is found by iteration
-/

namespace Gftool.Props

open Gftool Model Spec Lemmas MeasureTheory

variable {ι κ : Type*} [Fintype ι]

/-- Distribution of the components. -/
noncomputable def cmptMeasure [MeasurableSpace ι] (c : ι → ℝ) : Measure ι :=
  ∑ i, ENNReal.ofReal (c i) • Measure.dirac i

lemma cmpt_prob [MeasurableSpace ι] {c : ι → ℝ} (h0 : ∀ i, 0 ≤ c i) (h1 : ∑ i, c i = 1) :
    IsProbabilityMeasure (cmptMeasure c) := by
  refine ⟨?_⟩
  simp only [cmptMeasure, Measure.coe_finsetSum, Finset.sum_apply, Measure.smul_apply, measure_univ, smul_eq_mul, mul_one]
  rw [← ENNReal.ofReal_sum_of_nonneg fun i _ => h0 i, h1, ENNReal.ofReal_one]

lemma cmpt_integral [MeasurableSpace ι] [MeasurableSingletonClass ι] {c : ι → ℝ} (h0 : ∀ i, 0 ≤ c i) (f : ι → ℂ) :
    ∫ i, f i ∂(cmptMeasure c) = ∑ i, (c i : ℂ) * f i := by
  have hint : ∀ i ∈ Finset.univ, Integrable f (ENNReal.ofReal (c i) • Measure.dirac i) := fun i _ =>
    (Integrable.smul_measure (integrable_dirac (by simp)) ENNReal.ofReal_ne_top)
  rw [cmptMeasure, integral_finset_sum_measure hint]
  refine Finset.sum_congr rfl fun i _ => ?_
  rw [integral_smul_measure, integral_dirac, ENNReal.toReal_ofReal (h0 i), Complex.real_smul]

/-- The self-energies that are less advanced than `z`. -/
private lemma cpa_struct {z : ℂ} {e : ι → ℂ} {c : ι → ℝ} {hilbert : ℂ → ℂ} {r : ℝ}
    (h : DisorderProblem z e c hilbert r) :
    ∃ H A : ℂ → ℂ, (∀ ξ : ℂ, 0 < ξ.im → 0 ≤ (H ξ).im) ∧ (∀ ξ : ℂ, 0 < ξ.im → 0 ≤ (A ξ).im) ∧
      (∀ ξ ξ' : ℂ, 0 < ξ.im → 0 < ξ'.im →
        ‖H ξ - H ξ'‖ ^ 2 ≤ ‖ξ - ξ'‖ ^ 2 * ((H ξ).im / ξ.im * ((H ξ').im / ξ'.im))) ∧
      (∀ ξ ξ' : ℂ, 0 < ξ.im → 0 < ξ'.im →
        ‖A ξ - A ξ'‖ ^ 2 ≤ ‖ξ - ξ'‖ ^ 2 * ((A ξ).im / ξ.im * ((A ξ').im / ξ'.im))) ∧
      (∀ ξ : ℂ, 0 < ξ.im → ‖A ξ‖ ≤ r + r ^ 2 / ξ.im) ∧
      ∀ s : ℂ, s.im < z.im → hilbert (z - s) ≠ 0 ∧ (hilbert (z - s)).im < 0 ∧
        (∀ i, 1 - (e i - s) * hilbert (z - s) ≠ 0) ∧ avgGf z s e c hilbert ≠ 0 ∧
        selfFxdpntEq s z e c hilbert = -A (z + H (z - s)) := by
  obtain ⟨hz, ⟨dos, hp, hd⟩, h0, h1, hl, hr⟩ := h
  letI : MeasurableSpace ι := ⊤
  haveI := cmpt_prob h0 h1
  have he : Measurable e := measurable_from_top
  have hre : Measurable fun x : ℝ => (x : ℂ) := Complex.measurable_ofReal
  have hrl : ∀ x : ℝ, ((x : ℂ)).im ≤ 0 := fun x => by simp
  refine ⟨stjRest dos fun x : ℝ => (x : ℂ), stjRest (cmptMeasure c) e, fun ξ hξ => stjRest_im_nonneg hre hrl hξ,
    fun ξ hξ => stjRest_im_nonneg he hl hξ, fun ξ ξ' hξ hξ' => stjRest_pick hre hrl hξ hξ',
    fun ξ ξ' hξ hξ' => stjRest_pick he hl hξ hξ', fun ξ hξ => stjRest_bound he hl hr hξ, fun s hs => ?_⟩
  have hξ : 0 < (z - s).im := by rw [Complex.sub_im]; linarith
  have hg : hilbert (z - s) = stj dos (fun x : ℝ => (x : ℂ)) (z - s) := hd _ hξ
  have hne : hilbert (z - s) ≠ 0 := hg ▸ stj_ne_zero hre hrl hξ
  have him : (hilbert (z - s)).im < 0 := hg ▸ stj_im_neg hre hrl hξ
  set w := z + stjRest dos (fun x : ℝ => (x : ℂ)) (z - s) with hw
  have hwg : w = (hilbert (z - s))⁻¹ + s := by
    rw [hw, stjRest, ← hg]
    ring
  have hwim : 0 < w.im := by
    rw [hw, Complex.add_im]
    have := stjRest_im_nonneg (μ := dos) hre hrl hξ
    linarith
  have hden : ∀ i, 1 - (e i - s) * hilbert (z - s) = hilbert (z - s) * (w - e i) := by
    intro i
    rw [hwg]
    field_simp
    ring
  have hdn : ∀ i, 1 - (e i - s) * hilbert (z - s) ≠ 0 := fun i => by
    rw [hden]
    exact mul_ne_zero hne (stj_ne hl hwim i)
  have havg : avgGf z s e c hilbert = stj (cmptMeasure c) e w := by
    rw [stj, cmpt_integral h0, avgGf]
    refine Finset.sum_congr rfl fun i _ => ?_
    simp only [gfCmptZ]
    rw [hden]
    have := stj_ne hl hwim i
    field_simp
  have havn : avgGf z s e c hilbert ≠ 0 := havg ▸ stj_ne_zero he hl hwim
  refine ⟨hne, him, hdn, havn, ?_⟩
  have := self_fxdpnt_dyson z s e c hilbert h1 hne hdn havn
  rw [← hwg, havg] at this
  rw [stjRest]
  linear_combination this

/-- The bound of the self-energy. -/
noncomputable def cpaBound (z : ℂ) (r : ℝ) : ℝ := r + r ^ 2 / z.im

/-- The contraction factor of the fixed-point iteration. -/
noncomputable def cpaRate (z : ℂ) (r : ℝ) : ℝ := cpaBound z r / (z.im + cpaBound z r)

private lemma r_nonneg {z : ℂ} {e : ι → ℂ} {c : ι → ℝ} {hilbert : ℂ → ℂ} {r : ℝ}
    (h : DisorderProblem z e c hilbert r) : 0 ≤ r := by
  by_contra hc
  have hempty : IsEmpty ι := ⟨fun i => hc ((norm_nonneg _).trans (h.bound i))⟩
  have := h.norm
  simp at this

private lemma bound_nonneg {z : ℂ} {e : ι → ℂ} {c : ι → ℝ} {hilbert : ℂ → ℂ} {r : ℝ}
    (h : DisorderProblem z e c hilbert r) : 0 ≤ cpaBound z r := by
  have := r_nonneg h
  have := h.upper
  unfold cpaBound
  positivity

lemma cpa_rate_lt {z : ℂ} {e : ι → ℂ} {c : ι → ℝ} {hilbert : ℂ → ℂ} {r : ℝ}
    (h : DisorderProblem z e c hilbert r) : 0 ≤ cpaRate z r ∧ cpaRate z r < 1 := by
  have h0 := bound_nonneg h
  have hz := h.upper
  refine ⟨by unfold cpaRate; positivity, ?_⟩
  unfold cpaRate
  rw [div_lt_one (by positivity)]
  linarith

/-- C66: no division by zero occurs in the CPA equations at any self-energy less advanced than `z`; the iterated self-energy
is physical and bounded, and coherent and averaged Green's functions are those of the Dyson equation. -/
theorem cpa_well_defined {z : ℂ} {e : ι → ℂ} {c : ι → ℝ} {hilbert : ℂ → ℂ} {r : ℝ}
    (h : DisorderProblem z e c hilbert r) {s : ℂ} (hs : s.im < z.im) :
    (hilbert (z - s)).im < 0 ∧ (∀ i, 1 - (e i - s) * hilbert (z - s) ≠ 0) ∧
    1 + cpaT s z e c hilbert * hilbert (z - s) ≠ 0 ∧ (selfFxdpntEq s z e c hilbert).im ≤ 0 ∧
    ‖selfFxdpntEq s z e c hilbert‖ ≤ cpaBound z r := by
  have h1 := r_nonneg h
  have hz := h.upper
  have hnorm := h.norm
  obtain ⟨H, A, hH, hA, -, -, hb, hall⟩ := cpa_struct h
  obtain ⟨hne, him, hdn, havn, heq⟩ := hall s hs
  have hξ : 0 < (z - s).im := by rw [Complex.sub_im]; linarith
  have hw : z.im ≤ (z + H (z - s)).im := by
    rw [Complex.add_im]
    linarith [hH _ hξ]
  refine ⟨him, hdn, ?_, ?_, ?_⟩
  · intro hc
    apply havn
    rw [avg_eq z s e c hilbert hnorm hdn, hc, mul_zero]
  · rw [heq, Complex.neg_im]
    linarith [hA _ (hz.trans_le hw)]
  · rw [heq, norm_neg]
    refine (hb _ (hz.trans_le hw)).trans ?_
    unfold cpaBound
    gcongr

/-- The key inequality. -/
private lemma cpa_key {z : ℂ} {e : ι → ℂ} {c : ι → ℝ} {hilbert : ℂ → ℂ} {r : ℝ}
    (h : DisorderProblem z e c hilbert r) {s s' : ℂ} (hs : s.im < z.im) (hs' : s'.im < z.im) :
    ‖selfFxdpntEq s z e c hilbert - selfFxdpntEq s' z e c hilbert‖ ^ 2 ≤ ‖s - s'‖ ^ 2
      * ((-(selfFxdpntEq s z e c hilbert).im) / (z.im - s.im)
        * ((-(selfFxdpntEq s' z e c hilbert).im) / (z.im - s'.im))) := by
  have hz := h.upper
  obtain ⟨H, A, hH, hA, hHp, hAp, hb, hall⟩ := cpa_struct h
  obtain ⟨-, -, -, -, heq⟩ := hall s hs
  obtain ⟨-, -, -, -, heq'⟩ := hall s' hs'
  have hξ : 0 < (z - s).im := by rw [Complex.sub_im]; linarith
  have hξ' : 0 < (z - s').im := by rw [Complex.sub_im]; linarith
  have hHs := hH _ hξ
  have hHs' := hH _ hξ'
  have hw : (z + H (z - s)).im = z.im + (H (z - s)).im := Complex.add_im _ _
  have hw' : (z + H (z - s')).im = z.im + (H (z - s')).im := Complex.add_im _ _
  have hwp : 0 < (z + H (z - s)).im := by rw [hw]; linarith
  have hwp' : 0 < (z + H (z - s')).im := by rw [hw']; linarith
  have h1 := hHp _ _ hξ hξ'
  have h2 := hAp _ _ hwp hwp'
  have hAs := hA _ hwp
  have hAs' := hA _ hwp'
  rw [heq, heq', show -A (z + H (z - s)) - -A (z + H (z - s')) = -(A (z + H (z - s)) - A (z + H (z - s'))) by ring, norm_neg,
    Complex.neg_im, Complex.neg_im, neg_neg, neg_neg, ← Complex.sub_im z s, ← Complex.sub_im z s']
  have e1 : z + H (z - s) - (z + H (z - s')) = H (z - s) - H (z - s') := by ring
  have e2 : ‖z - s - (z - s')‖ = ‖s - s'‖ := by
    rw [show z - s - (z - s') = -(s - s') by ring, norm_neg]
  rw [e1] at h2
  rw [e2] at h1
  have q1 : (H (z - s)).im / (z + H (z - s)).im ≤ 1 := by
    rw [div_le_one hwp, hw]; linarith
  have q2 : (H (z - s')).im / (z + H (z - s')).im ≤ 1 := by
    rw [div_le_one hwp', hw']; linarith
  have q10 : 0 ≤ (H (z - s)).im / (z + H (z - s)).im := div_nonneg hHs hwp.le
  have q20 : 0 ≤ (H (z - s')).im / (z + H (z - s')).im := div_nonneg hHs' hwp'.le
  generalize (z + H (z - s)).im = W at *
  generalize (z + H (z - s')).im = W' at *
  generalize (H (z - s)).im = B at *
  generalize (H (z - s')).im = B' at *
  generalize (A (z + H (z - s))).im = C at *
  generalize (A (z + H (z - s'))).im = C' at *
  generalize (z - s).im = X at *
  generalize (z - s').im = X' at *
  have f0 : 0 ≤ C / W * (C' / W') := mul_nonneg (div_nonneg hAs hwp.le) (div_nonneg hAs' hwp'.le)
  calc _ ≤ ‖H (z - s) - H (z - s')‖ ^ 2 * (C / W * (C' / W')) := h2
    _ ≤ ‖s - s'‖ ^ 2 * (B / X * (B' / X')) * (C / W * (C' / W')) := mul_le_mul_of_nonneg_right h1 f0
    _ = ‖s - s'‖ ^ 2 * (C / X * (C' / X')) * ((B / W) * (B' / W')) := by ring
    _ ≤ ‖s - s'‖ ^ 2 * (C / X * (C' / X')) * 1 := by
        refine mul_le_mul_of_nonneg_left (mul_le_one₀ q1 q20 q2) ?_
        exact mul_nonneg (sq_nonneg _) (mul_nonneg (div_nonneg hAs hξ.le) (div_nonneg hAs' hξ'.le))
    _ = _ := mul_one _

private lemma rate_le {z : ℂ} {e : ι → ℂ} {c : ι → ℝ} {hilbert : ℂ → ℂ} {r : ℝ}
    (h : DisorderProblem z e c hilbert r) {t : ℂ} (ht : t.im ≤ 0) (hb : ‖t‖ ≤ cpaBound z r) :
    -t.im ≤ cpaRate z r * (z.im - t.im) ∧ z.im - t.im ≤ z.im + cpaBound z r := by
  have hz := h.upper
  have h0 := bound_nonneg h
  have h1 : -t.im ≤ cpaBound z r := (neg_le_abs _).trans ((Complex.abs_im_le_norm _).trans hb)
  refine ⟨?_, by linarith⟩
  unfold cpaRate
  rw [div_mul_eq_mul_div, le_div_iff₀ (by positivity)]
  nlinarith

/-- C66: the fixed-point map of the CPA strictly contracts hyperbolic distances in the half-plane of self-energies less
advanced than `z`. -/
theorem cpa_contraction {z : ℂ} {e : ι → ℂ} {c : ι → ℝ} {hilbert : ℂ → ℂ} {r : ℝ}
    (h : DisorderProblem z e c hilbert r) {s s' : ℂ} (hs : s.im < z.im) (hs' : s'.im < z.im) :
    ‖selfFxdpntEq s z e c hilbert - selfFxdpntEq s' z e c hilbert‖ ^ 2
        / ((z.im - (selfFxdpntEq s z e c hilbert).im) * (z.im - (selfFxdpntEq s' z e c hilbert).im))
      ≤ cpaRate z r ^ 2 * (‖s - s'‖ ^ 2 / ((z.im - s.im) * (z.im - s'.im))) := by
  have hz := h.upper
  obtain ⟨-, -, -, i1, b1⟩ := cpa_well_defined h hs
  obtain ⟨-, -, -, i2, b2⟩ := cpa_well_defined h hs'
  have hk := cpa_key h hs hs'
  have r1 := (rate_le h i1 b1).1
  have r2 := (rate_le h i2 b2).1
  have hq := (cpa_rate_lt h).1
  generalize selfFxdpntEq s z e c hilbert = t at *
  generalize selfFxdpntEq s' z e c hilbert = t' at *
  have p1 : 0 < z.im - s.im := by linarith
  have p2 : 0 < z.im - s'.im := by linarith
  have p3 : 0 < z.im - t.im := by linarith
  have p4 : 0 < z.im - t'.im := by linarith
  rw [div_le_iff₀ (mul_pos p3 p4)]
  refine hk.trans ?_
  have h1 : (-t.im) * (-t'.im) ≤ (cpaRate z r * (z.im - t.im)) * (cpaRate z r * (z.im - t'.im)) :=
    mul_le_mul r1 r2 (by linarith) (by positivity)
  rw [show ‖s - s'‖ ^ 2 * (-t.im / (z.im - s.im) * (-t'.im / (z.im - s'.im)))
      = (‖s - s'‖ ^ 2 / ((z.im - s.im) * (z.im - s'.im))) * ((-t.im) * (-t'.im)) by
    field_simp, show cpaRate z r ^ 2 * (‖s - s'‖ ^ 2 / ((z.im - s.im) * (z.im - s'.im)))
        * ((z.im - t.im) * (z.im - t'.im))
      = (‖s - s'‖ ^ 2 / ((z.im - s.im) * (z.im - s'.im)))
        * ((cpaRate z r * (z.im - t.im)) * (cpaRate z r * (z.im - t'.im))) by ring]
  exact mul_le_mul_of_nonneg_left h1 (by positivity)

/-- The iterates stay in the domain. -/
private lemma iter_im {z : ℂ} {e : ι → ℂ} {c : ι → ℝ} {hilbert : ℂ → ℂ} {r : ℝ}
    (h : DisorderProblem z e c hilbert r) {s : ℂ} (hs : s.im < z.im) (n : ℕ) :
    ((fun s => selfFxdpntEq s z e c hilbert)^[n] s).im < z.im := by
  induction n with
  | zero => exact hs
  | succ n ih =>
    rw [Function.iterate_succ_apply']
    exact (cpa_well_defined h ih).2.2.2.1.trans_lt h.upper

private lemma iter_dist {z : ℂ} {e : ι → ℂ} {c : ι → ℝ} {hilbert : ℂ → ℂ} {r : ℝ}
    (h : DisorderProblem z e c hilbert r) {s s' : ℂ} (hs : s.im < z.im) (hs' : s'.im < z.im) (n : ℕ) :
    ‖(fun s => selfFxdpntEq s z e c hilbert)^[n] s - (fun s => selfFxdpntEq s z e c hilbert)^[n] s'‖ ^ 2
        / ((z.im - ((fun s => selfFxdpntEq s z e c hilbert)^[n] s).im)
          * (z.im - ((fun s => selfFxdpntEq s z e c hilbert)^[n] s').im))
      ≤ (cpaRate z r ^ n) ^ 2 * (‖s - s'‖ ^ 2 / ((z.im - s.im) * (z.im - s'.im))) := by
  induction n with
  | zero => simp
  | succ n ih =>
    rw [Function.iterate_succ_apply', Function.iterate_succ_apply']
    refine (cpa_contraction h (iter_im h hs n) (iter_im h hs' n)).trans ?_
    calc _ ≤ cpaRate z r ^ 2 * ((cpaRate z r ^ n) ^ 2 * (‖s - s'‖ ^ 2 / ((z.im - s.im) * (z.im - s'.im)))) :=
          mul_le_mul_of_nonneg_left ih (sq_nonneg _)
      _ = _ := by ring

/-- C66: the CPA equation has exactly one solution among all self-energies less advanced than `z`. It is physical and bounded,
and for it the averaged Green's function of the components is the coherent Green's function. -/
theorem cpa_exists_unique {z : ℂ} {e : ι → ℂ} {c : ι → ℝ} {hilbert : ℂ → ℂ} {r : ℝ}
    (h : DisorderProblem z e c hilbert r) :
    ∃ s : ℂ, (s.im ≤ 0 ∧ ‖s‖ ≤ cpaBound z r ∧ selfRootEq s z e c hilbert = 0 ∧
      avgGf z s e c hilbert = hilbert (z - s)) ∧
      ∀ s' : ℂ, s'.im < z.im → selfRootEq s' z e c hilbert = 0 → s' = s := by
  have hz := h.upper
  have hR := bound_nonneg h
  obtain ⟨hq0, hq1⟩ := cpa_rate_lt h
  set T := fun s => selfFxdpntEq s z e c hilbert with hT
  set x : ℕ → ℂ := fun n => T^[n] (T 0) with hx
  have h00 : (0 : ℂ).im < z.im := by simpa using hz
  have hT0 : (T 0).im < z.im := (cpa_well_defined h h00).2.2.2.1.trans_lt hz
  have hsucc : ∀ n, x n = T (T^[n] 0) := fun n => by
    simp only [hx]
    rw [← Function.iterate_succ_apply, Function.iterate_succ_apply']
  have him : ∀ n, (x n).im ≤ 0 := fun n => by
    rw [hsucc]
    exact (cpa_well_defined h (iter_im h h00 n)).2.2.2.1
  have hbd : ∀ n, ‖x n‖ ≤ cpaBound z r := fun n => by
    rw [hsucc]
    exact (cpa_well_defined h (iter_im h h00 n)).2.2.2.2
  have hstep : ∀ n, T (x n) = x (n + 1) := fun n => by
    simp only [hx]
    rw [Function.iterate_succ_apply']
  -- Cauchy sequence
  obtain ⟨C, hC0, hC⟩ : ∃ C : ℝ, 0 ≤ C ∧ ∀ n, ‖x n - x (n + 1)‖ ≤ C * cpaRate z r ^ n := by
    refine ⟨(z.im + cpaBound z r) * √(‖T 0 - T (T 0)‖ ^ 2 / ((z.im - (T 0).im) * (z.im - (T (T 0)).im))), by positivity,
      fun n => ?_⟩
    have hTT : (T (T 0)).im < z.im := (cpa_well_defined h hT0).2.2.2.1.trans_lt hz
    have hd := iter_dist h hT0 hTT n
    rw [← hT, ← Function.iterate_succ_apply] at hd
    change ‖x n - x (n + 1)‖ ^ 2 / ((z.im - (x n).im) * (z.im - (x (n + 1)).im)) ≤ _ at hd
    have a1 := (rate_le h (him n) (hbd n)).2
    have a2 := (rate_le h (him (n + 1)) (hbd (n + 1))).2
    have b1 : 0 < z.im - (x n).im := by linarith [him n]
    have b2 : 0 < z.im - (x (n + 1)).im := by linarith [him (n + 1)]
    rw [div_le_iff₀ (mul_pos b1 b2)] at hd
    refine abs_le_of_sq_le_sq' ?_ (by positivity) |>.2
    rw [mul_pow, mul_pow, Real.sq_sqrt (div_nonneg (sq_nonneg _) (mul_nonneg (by linarith) (by linarith)))]
    refine hd.trans ?_
    have b3 : (z.im - (x n).im) * (z.im - (x (n + 1)).im) ≤ (z.im + cpaBound z r) ^ 2 := by
      rw [sq]
      exact mul_le_mul a1 a2 b2.le (by positivity)
    have b4 : 0 ≤ (cpaRate z r ^ n) ^ 2 * (‖T 0 - T (T 0)‖ ^ 2 / ((z.im - (T 0).im) * (z.im - (T (T 0)).im))) :=
      mul_nonneg (sq_nonneg _) (div_nonneg (sq_nonneg _) (mul_nonneg (by linarith) (by linarith)))
    calc _ ≤ _ := mul_le_mul_of_nonneg_left b3 b4
      _ = _ := by ring
  have hcs : CauchySeq x := cauchySeq_of_le_geometric (cpaRate z r) C hq1 fun n => by
    rw [dist_eq_norm]
    exact hC n
  obtain ⟨s, hlim⟩ := cauchySeq_tendsto_of_complete hcs
  have hsim : s.im ≤ 0 :=
    le_of_tendsto ((Complex.continuous_im.tendsto s).comp hlim) (Filter.Eventually.of_forall him)
  have hsb : ‖s‖ ≤ cpaBound z r := le_of_tendsto hlim.norm (Filter.Eventually.of_forall hbd)
  have hsz : s.im < z.im := hsim.trans_lt hz
  -- fixed point
  have hfix : T s = s := by
    have hlim2 : Filter.Tendsto (fun n => x (n + 1)) Filter.atTop (nhds s) := hlim.comp (Filter.tendsto_add_atTop_nat 1)
    refine tendsto_nhds_unique ?_ hlim2
    rw [tendsto_iff_norm_sub_tendsto_zero]
    refine squeeze_zero (g := fun n => ‖x n - s‖ * (cpaBound z r / z.im)) (fun n => norm_nonneg _) (fun n => ?_) ?_
    · rw [← hstep]
      have hk := cpa_key h ((him n).trans_lt hz) hsz
      refine abs_le_of_sq_le_sq' (hk.trans ?_) (by positivity) |>.2
      rw [mul_pow]
      refine mul_le_mul_of_nonneg_left ?_ (sq_nonneg _)
      rw [sq (cpaBound z r / z.im)]
      obtain ⟨-, -, -, i1, j1⟩ := cpa_well_defined h ((him n).trans_lt hz)
      obtain ⟨-, -, -, i2, j2⟩ := cpa_well_defined h hsz
      have k1 := (rate_le h i1 j1).2
      have k2 := (rate_le h i2 j2).2
      have l1 := him n
      refine mul_le_mul ?_ ?_ (div_nonneg (by linarith) (by linarith)) (by positivity)
      · exact div_le_div₀ hR (by linarith) hz (by linarith)
      · exact div_le_div₀ hR (by linarith) hz (by linarith)
    · have := (tendsto_iff_norm_sub_tendsto_zero.1 hlim).mul_const (cpaBound z r / z.im)
      rwa [zero_mul] at this
  have hroot : selfRootEq s z e c hilbert = 0 := (self_root_eq_iff_fxdpnt z s e c hilbert).2 hfix
  refine ⟨s, ⟨hsim, hsb, hroot, ?_⟩, fun s' hs' hr' => ?_⟩
  · obtain ⟨H, A, -, -, -, -, -, hall⟩ := cpa_struct h
    obtain ⟨hne, -, hdn, havn, -⟩ := hall s hsz
    exact (self_root_eq_iff_avg z s e c hilbert h.norm hne hdn havn).1 hroot
  · have hfix' : selfFxdpntEq s' z e c hilbert = s' := (self_root_eq_iff_fxdpnt z s' e c hilbert).1 hr'
    have hc := cpa_contraction h hs' hsz
    rw [show selfFxdpntEq s z e c hilbert = s from hfix, hfix'] at hc
    have p : 0 < (z.im - s'.im) * (z.im - s.im) := mul_pos (by linarith) (by linarith)
    have hq2 : cpaRate z r ^ 2 < 1 := by nlinarith
    have h0 : ‖s' - s‖ ^ 2 / ((z.im - s'.im) * (z.im - s.im)) ≤ 0 := by
      have : 0 ≤ ‖s' - s‖ ^ 2 / ((z.im - s'.im) * (z.im - s.im)) := by positivity
      nlinarith
    rw [div_le_iff₀ p, zero_mul] at h0
    have : ‖s' - s‖ = 0 := by
      have := norm_nonneg (s' - s)
      nlinarith
    exact sub_eq_zero.1 (norm_eq_zero.1 this)

/-- C66: the fixed-point iteration converges geometrically to the solution of the CPA equation, from every starting point less
advanced than `z`. -/
theorem cpa_iteration_converges {z : ℂ} {e : ι → ℂ} {c : ι → ℝ} {hilbert : ℂ → ℂ} {r : ℝ}
    (h : DisorderProblem z e c hilbert r) {s : ℂ} (hs : s.im < z.im) (hroot : selfRootEq s z e c hilbert = 0)
    {s0 : ℂ} (hs0 : s0.im < z.im) :
    (∀ n, ‖(fun s => selfFxdpntEq s z e c hilbert)^[n + 1] s0 - s‖
      ≤ cpaRate z r ^ (n + 1) * (‖s0 - s‖ * √((z.im + cpaBound z r) / (z.im - s0.im)))) ∧
    Filter.Tendsto (fun n => (fun s => selfFxdpntEq s z e c hilbert)^[n] s0) Filter.atTop (nhds s) := by
  have hz := h.upper
  have hR := bound_nonneg h
  obtain ⟨hq0, hq1⟩ := cpa_rate_lt h
  have hfix : selfFxdpntEq s z e c hilbert = s := (self_root_eq_iff_fxdpnt z s e c hilbert).1 hroot
  have hfixn : ∀ n, (fun s => selfFxdpntEq s z e c hilbert)^[n] s = s := fun n => Function.iterate_fixed hfix n
  have hmain : ∀ n, ‖(fun s => selfFxdpntEq s z e c hilbert)^[n + 1] s0 - s‖
      ≤ cpaRate z r ^ (n + 1) * (‖s0 - s‖ * √((z.im + cpaBound z r) / (z.im - s0.im))) := by
    intro n
    have hd := iter_dist h hs0 hs (n + 1)
    rw [hfixn] at hd
    have hi := iter_im h hs0 n
    obtain ⟨-, -, -, i1, b1⟩ := cpa_well_defined h hi
    have k1 := (rate_le h i1 b1).2
    rw [Function.iterate_succ_apply'] at hd ⊢
    have p1 : 0 < z.im - s0.im := by linarith
    have p2 : 0 < z.im - s.im := by linarith
    generalize selfFxdpntEq ((fun s => selfFxdpntEq s z e c hilbert)^[n] s0) z e c hilbert = t at *
    have p3 : 0 < z.im - t.im := by linarith
    rw [div_le_iff₀ (mul_pos p3 p2)] at hd
    refine abs_le_of_sq_le_sq' (hd.trans ?_) (by positivity) |>.2
    rw [mul_pow, mul_pow, Real.sq_sqrt (by positivity), mul_assoc]
    refine mul_le_mul_of_nonneg_left ?_ (sq_nonneg _)
    rw [show ‖s0 - s‖ ^ 2 / ((z.im - s0.im) * (z.im - s.im)) * ((z.im - t.im) * (z.im - s.im))
      = ‖s0 - s‖ ^ 2 * ((z.im - t.im) / (z.im - s0.im)) by field_simp]
    gcongr
  refine ⟨hmain, ?_⟩
  rw [← Filter.tendsto_add_atTop_iff_nat 1, tendsto_iff_norm_sub_tendsto_zero]
  refine squeeze_zero (fun n => norm_nonneg _) hmain ?_
  have := ((tendsto_pow_atTop_nhds_zero_of_lt_one hq0 hq1).comp (Filter.tendsto_add_atTop_nat 1)).mul_const
    (‖s0 - s‖ * √((z.im + cpaBound z r) / (z.im - s0.im)))
  rwa [zero_mul] at this

/-- A posteriori bound: a physical self-energy with small residual is close to the solution. -/
private lemma cpa_posteriori {z : ℂ} {e : ι → ℂ} {c : ι → ℝ} {hilbert : ℂ → ℂ} {r : ℝ}
    (h : DisorderProblem z e c hilbert r) {s : ℂ} (hs : s.im < z.im) (hroot : selfRootEq s z e c hilbert = 0)
    {t : ℂ} (ht : t.im ≤ 0) {tol : ℝ} (htol : tol ≤ z.im) (hres : ‖selfRootEq t z e c hilbert‖ ≤ tol) :
    ‖t - s‖ ≤ tol / (1 - √(cpaRate z r)) := by
  have hz := h.upper
  obtain ⟨hq0, hq1⟩ := cpa_rate_lt h
  have hfix : selfFxdpntEq s z e c hilbert = s := (self_root_eq_iff_fxdpnt z s e c hilbert).1 hroot
  have htz : t.im < z.im := ht.trans_lt hz
  have hk := cpa_key h htz hs
  obtain ⟨-, -, -, i2, b2⟩ := cpa_well_defined h hs
  obtain ⟨-, -, -, i1, b1⟩ := cpa_well_defined h htz
  rw [hfix] at hk i2 b2
  have hr2 := (rate_le h i2 b2).1
  have hdiff : selfFxdpntEq t z e c hilbert - t = selfRootEq t z e c hilbert := by
    rw [selfFxdpntEq]; ring
  set u := selfFxdpntEq t z e c hilbert with hu
  have him : -u.im ≤ -t.im + tol := by
    have h1 : -(selfRootEq t z e c hilbert).im ≤ tol := (neg_le_abs _).trans ((Complex.abs_im_le_norm _).trans hres)
    rw [← hdiff, Complex.sub_im] at h1
    linarith
  have f1 : -u.im / (z.im - t.im) ≤ 1 := by
    rw [div_le_one (by linarith)]
    linarith
  have f2 : -s.im / (z.im - s.im) ≤ cpaRate z r := by
    rw [div_le_iff₀ (by linarith)]
    exact hr2
  have f3 : 0 ≤ -s.im / (z.im - s.im) := div_nonneg (by linarith) (by linarith)
  have h1 : ‖u - s‖ ≤ √(cpaRate z r) * ‖t - s‖ := by
    refine abs_le_of_sq_le_sq' (hk.trans ?_) (by positivity) |>.2
    rw [mul_pow, Real.sq_sqrt hq0, mul_comm]
    refine mul_le_mul_of_nonneg_right ?_ (sq_nonneg _)
    calc _ ≤ 1 * cpaRate z r := mul_le_mul f1 f2 f3 zero_le_one
      _ = _ := one_mul _
  have h2 : ‖t - s‖ ≤ tol + √(cpaRate z r) * ‖t - s‖ := by
    calc ‖t - s‖ = ‖-(selfRootEq t z e c hilbert) + (u - s)‖ := by rw [← hdiff]; congr 1; ring
      _ ≤ ‖-(selfRootEq t z e c hilbert)‖ + ‖u - s‖ := norm_add_le _ _
      _ ≤ _ := by rw [norm_neg]; linarith
  have h3 : √(cpaRate z r) < 1 := by
    rw [Real.sqrt_lt' one_pos]; simpa using hq1
  rw [le_div_iff₀ (by linarith)]
  linarith

/-- C66: whatever the starting point, `solve_root` returns the solution of the CPA equation; for a solver with tolerance `tol`
the error is proportional to `tol`. -/
theorem solve_root_unique (solver : Solver (κ → ℂ)) {tol : ℝ} (hsol : HonestSolver solver tol) (htol : 0 ≤ tol)
    (z : κ → ℂ) (e : κ → ι → ℂ) (c : κ → ι → ℝ) (hilbert : ℂ → ℂ) (r : ℝ)
    (h : ∀ k, DisorderProblem (z k) (e k) (c k) hilbert r) (x0 : Option (κ → ℂ)) {s : κ → ℂ}
    (hs : solveRoot solver z e c hilbert x0 true = .ok s) (k : κ) (hk : tol ≤ (z k).im) {t : ℂ} (ht : t.im ≤ 0)
    (hroot : selfRootEq t (z k) (e k) (c k) hilbert = 0) :
    ‖s k - t‖ ≤ (1000 + 1 / (1 - √(cpaRate (z k) r))) * tol := by
  obtain ⟨h1, h2⟩ := solve_root_restricted solver hsol htol z e c hilbert x0 hs k
  have h3 := cpa_posteriori (h k) (ht.trans_lt (h k).upper) hroot (clip_physical (s k)).1 hk h2
  have h4 : ‖s k - clip (s k)‖ ≤ 1000 * tol := by
    unfold clip
    split_ifs with hpos
    · have : s k - ⟨(s k).re, 0⟩ = ((s k).im : ℂ) * Complex.I := by
        apply Complex.ext <;> simp
      rw [this, norm_mul, Complex.norm_I, mul_one, Complex.norm_real, Real.norm_eq_abs, abs_of_pos hpos]
      exact h1
    · rw [sub_self, norm_zero]
      positivity
  calc ‖s k - t‖ = ‖(s k - clip (s k)) + (clip (s k) - t)‖ := by congr 1; ring
    _ ≤ 1000 * tol + tol / (1 - √(cpaRate (z k) r)) := (norm_add_le _ _).trans (add_le_add h4 h3)
    _ = _ := by ring

/-- C66: in exact arithmetic the result of `solve_root` does not depend on the starting point or on the solver. -/
theorem solve_root_independent (solver solver' : Solver (κ → ℂ)) (hsol : HonestSolver solver 0)
    (hsol' : HonestSolver solver' 0) (z : κ → ℂ) (e : κ → ι → ℂ) (c : κ → ι → ℝ) (hilbert : ℂ → ℂ) (r : κ → ℝ)
    (h : ∀ k, DisorderProblem (z k) (e k) (c k) hilbert (r k)) (x0 x0' : Option (κ → ℂ)) {s s' : κ → ℂ}
    (hs : solveRoot solver z e c hilbert x0 true = .ok s) (hs' : solveRoot solver' z e c hilbert x0' true = .ok s') :
    s = s' := by
  funext k
  obtain ⟨t, -, ht⟩ := cpa_exists_unique (h k)
  obtain ⟨h1, h2, -⟩ := solve_root_cpa_condition solver hsol z e c hilbert x0 true hs k
  obtain ⟨h1', h2', -⟩ := solve_root_cpa_condition solver' hsol' z e c hilbert x0' true hs' k
  rw [ht _ ((h2 rfl).trans_lt (h k).upper) h1, ht _ ((h2' rfl).trans_lt (h k).upper) h1']

/-- Lattices with a compact band satisfy the contract of the Hilbert transform. -/
theorem _root_.Gftool.Spec.IsHilbert.isLatticeHilbert {dos : Measure ℝ} {band : Set ℝ} {hilbert : ℂ → ℂ}
    (h : IsHilbert dos band hilbert) : IsLatticeHilbert hilbert :=
  ⟨dos, h.prob, fun ξ hξ => h.eq ξ fun eps _ hc => by
    rw [hc] at hξ
    simp at hξ⟩

/-- Binary alloy on a Bethe lattice, one component with a life-time. -/
example : DisorderProblem (1 + Complex.I / 10) ![-1, 1 - Complex.I] ![1 / 4, 3 / 4] (fun z => betheHilbert z 2) 2 where
  upper := by simp
  lattice := (bethe_isHilbert two_pos).isLatticeHilbert
  nonneg i := by fin_cases i <;> norm_num
  norm := by norm_num [Fin.sum_univ_two]
  retarded i := by fin_cases i <;> simp
  bound i := by
    fin_cases i
    · simp
    · exact (norm_sub_le _ _).trans (by norm_num)

end Gftool.Props
