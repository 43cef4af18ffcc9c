import Verif.Spec.Filling
import Verif.Lemmas.Causal
import Verif.Lemmas.Matsubara
import Mathlib.Tactic

/-!
# Filling of bands and remainders of Matsubara sums
-/

namespace Gftool.Lemmas

open Gftool Model Spec MeasureTheory Filter Topology

lemma fermi_continuous' (β : ℝ) : Continuous (fermi β) := by
  unfold fermi
  refine continuous_const.div (by fun_prop) fun x => by positivity

lemma fermi_strictAnti {β : ℝ} (hb : 0 < β) : StrictAnti (fermi β) := by
  intro x y hxy
  unfold fermi
  have : Real.exp (β * x) < Real.exp (β * y) := Real.exp_lt_exp.2 (by nlinarith)
  exact one_div_lt_one_div_of_lt (by positivity) (by linarith)

lemma fermi_mem (β x : ℝ) : 0 < fermi β x ∧ fermi β x < 1 := by
  unfold fermi
  have := Real.exp_pos (β * x)
  exact ⟨by positivity, (div_lt_one (by positivity)).2 (by linarith)⟩

lemma fermi_neg' (β x : ℝ) : fermi β (-x) = 1 - fermi β x := by
  unfold fermi
  rw [mul_neg, Real.exp_neg]
  have := Real.exp_pos (β * x)
  field_simp
  ring

lemma fermi_tendsto_top {β : ℝ} (hb : 0 < β) : Tendsto (fermi β) atTop (𝓝 0) := by
  have h1 : Tendsto (fun x => Real.exp (β * x)) atTop atTop :=
    Real.tendsto_exp_atTop.comp (tendsto_id.const_mul_atTop hb)
  have h2 := (tendsto_atTop_add_const_right _ (1 : ℝ) h1).inv_tendsto_atTop
  refine h2.congr fun x => ?_
  simp [fermi]

lemma fermi_tendsto_bot {β : ℝ} (hb : 0 < β) : Tendsto (fermi β) atBot (𝓝 1) := by
  have h := (fermi_tendsto_top hb).comp tendsto_neg_atBot_atTop
  have h2 := h.const_sub (1 : ℝ)
  rw [sub_zero] at h2
  refine h2.congr fun x => ?_
  simp only [Function.comp, fermi_neg']
  ring

section
variable {dos : ℝ → ℝ} {gf : ℂ → ℂ} {a b w : ℝ} (h : HilbertPair dos gf a b w)
include h

lemma filling_int (β μ : ℝ) : Integrable fun e => dos e * fermi β (e - μ) :=
  hp_int_real h ((fermi_continuous' β).comp (by fun_prop)).continuousOn

/-- The band exists. -/
lemma hp_le (hw : 0 < w) : a ≤ b := by
  by_contra hc
  have h0 : dos = 0 := funext fun e => h.outside e (by rw [Set.Icc_eq_empty hc]; simp)
  have := h.norm
  rw [h0] at this
  simp at this
  exact hw.ne this

/-- Strict monotonicity of averages. -/
lemma hp_lt (hw : 0 < w) {f g : ℝ → ℝ} (hf : ContinuousOn f (Set.Icc a b)) (hg : ContinuousOn g (Set.Icc a b))
    (hfg : ∀ e ∈ Set.Icc a b, f e < g e) : ∫ e, dos e * f e < ∫ e, dos e * g e := by
  obtain ⟨x, hx, hmin⟩ := isCompact_Icc.exists_isMinOn (Set.nonempty_Icc.2 (hp_le h hw)) (hg.sub hf)
  have hpos : 0 < g x - f x := sub_pos.2 (hfg x hx)
  have h1 : ∫ e, dos e * (f e + (g x - f x)) ≤ ∫ e, dos e * g e :=
    hp_mono h (hf.add continuousOn_const) hg fun e he => by
      have := isMinOn_iff.1 hmin e he
      simp only [Pi.sub_apply] at this
      linarith
  have h2 : ∫ e, dos e * (f e + (g x - f x)) = (∫ e, dos e * f e) + w * (g x - f x) := by
    simp only [mul_add]
    rw [integral_add (hp_int_real h hf) (hp_int_real h continuousOn_const), hp_const h]
  have : 0 < w * (g x - f x) := mul_pos hw hpos
  linarith

lemma hp_abs {f g : ℝ → ℝ} (hf : ContinuousOn f (Set.Icc a b)) (hg : ContinuousOn g (Set.Icc a b))
    (hfg : ∀ e ∈ Set.Icc a b, |f e| ≤ g e) : |∫ e, dos e * f e| ≤ ∫ e, dos e * g e := by
  rw [abs_le]
  constructor
  · have := hp_mono h hg.neg hf fun e he => (abs_le.1 (hfg e he)).1
    simp only [mul_neg, Pi.neg_apply] at this
    rw [integral_neg] at this
    exact this
  · exact hp_mono h hf hg fun e he => (abs_le.1 (hfg e he)).2

lemma hp_re {z : ℂ} (hz : ∀ e ∈ Set.Icc a b, z ≠ (e : ℂ)) :
    (gf z).re = ∫ e, dos e * (1 / (z - e)).re := by
  rw [h.hilbert z hz]
  have := (hp_int h hz)
  rw [show (∫ e, (dos e : ℂ) / (z - e)).re = ∫ e, ((dos e : ℂ) / (z - e)).re from (integral_re this).symm]
  refine integral_congr_ae (Eventually.of_forall fun e => ?_)
  simp only
  rw [div_eq_mul_one_div, Complex.re_ofReal_mul]

end

/-! ## Remainder of the Matsubara sum -/

/-- The Fermi function as it is approximated by a sum over frequencies. -/
noncomputable def quadFermi {k : ℕ} (iws : Fin k → ℂ) (weights : Fin k → ℝ) (β x : ℝ) : ℝ :=
  1 / 2 + 2 / β * ∑ i, weights i * (1 / (iws i - x)).re

lemma matsubara_re (β x : ℝ) (n : ℕ) : (1 / (matsubaraFrequencies n β - x) : ℂ).re
    = -x / ((Real.pi / β * (2 * n + 1)) ^ 2 + x ^ 2) := by
  have h1 : (matsubaraFrequencies n β - x : ℂ) = ⟨-x, Real.pi / β * (2 * n + 1)⟩ := by
    apply Complex.ext <;> simp [matsubaraFrequencies]
  rw [h1, one_div, Complex.inv_re, Complex.normSq_mk]
  ring_nf

/-- Geometric expansion of one term. -/
lemma geom_term {o x : ℝ} (ho : 0 < o) (j : ℕ) : x / (o ^ 2 + x ^ 2)
    = (∑ i ∈ Finset.range j, (-1) ^ i * x ^ (2 * i + 1) / o ^ (2 * i + 2))
      + (-1) ^ j * x ^ (2 * j + 1) / (o ^ (2 * j) * (o ^ 2 + x ^ 2)) := by
  induction j with
  | zero => simp
  | succ j ih =>
    rw [Finset.sum_range_succ, ih, add_assoc]
    congr 1
    have : 0 < o ^ 2 + x ^ 2 := by positivity
    field_simp
    ring

lemma odd_sum_bound {N : ℕ} (hN : 0 < N) (j : ℕ) :
    Summable (fun n : ℕ => 1 / (2 * ((n + N : ℕ) : ℝ) + 1) ^ (2 * j + 2)) ∧
    ∑' n : ℕ, 1 / (2 * ((n + N : ℕ) : ℝ) + 1) ^ (2 * j + 2) ≤ (1 / (2 * N)) ^ (2 * j) / (4 * N) := by
  have hN' : (0 : ℝ) < N := by exact_mod_cast hN
  -- telescoping majorant
  have htel : HasSum (fun n : ℕ => (1 / (2 * (N : ℝ))) ^ (2 * j) / 4 * (1 / ((n + N : ℕ) : ℝ) - 1 / ((n + 1 + N : ℕ) : ℝ)))
      ((1 / (2 * (N : ℝ))) ^ (2 * j) / 4 * (1 / N)) := by
    refine HasSum.mul_left _ ?_
    have hanti : ∀ n : ℕ, 0 ≤ 1 / ((n + N : ℕ) : ℝ) - 1 / ((n + 1 + N : ℕ) : ℝ) := fun n => by
      rw [sub_nonneg]
      refine one_div_le_one_div_of_le ?_ ?_
      · push_cast; positivity
      · push_cast; linarith
    rw [hasSum_iff_tendsto_nat_of_nonneg hanti]
    have e : ∀ K : ℕ, ∑ n ∈ Finset.range K, (1 / ((n + N : ℕ) : ℝ) - 1 / ((n + 1 + N : ℕ) : ℝ))
        = 1 / N - 1 / ((K + N : ℕ) : ℝ) := fun K => by
      rw [Finset.sum_range_sub' (fun n : ℕ => 1 / ((n + N : ℕ) : ℝ))]
      simp
    simp only [e]
    have h0 : Tendsto (fun K : ℕ => 1 / ((K + N : ℕ) : ℝ)) atTop (𝓝 0) :=
      (tendsto_add_atTop_iff_nat (f := fun n : ℕ => 1 / (n : ℝ)) N).2 tendsto_one_div_atTop_nhds_zero_nat
    simpa using h0.const_sub (1 / (N : ℝ))
  have hle : ∀ n : ℕ, 1 / (2 * ((n + N : ℕ) : ℝ) + 1) ^ (2 * j + 2)
      ≤ (1 / (2 * (N : ℝ))) ^ (2 * j) / 4 * (1 / ((n + N : ℕ) : ℝ) - 1 / ((n + 1 + N : ℕ) : ℝ)) := fun n => by
    have hm : (0 : ℝ) < ((n + N : ℕ) : ℝ) := by push_cast; positivity
    have hNm : (N : ℝ) ≤ ((n + N : ℕ) : ℝ) := by push_cast; linarith [(n.cast_nonneg : (0 : ℝ) ≤ n)]
    have hsucc : ((n + 1 + N : ℕ) : ℝ) = ((n + N : ℕ) : ℝ) + 1 := by push_cast; ring
    rw [hsucc]
    generalize ((n + N : ℕ) : ℝ) = m at hm hNm
    have h1 : 1 / (2 * m + 1) ^ (2 * j + 2) = (1 / (2 * m + 1)) ^ (2 * j) * (1 / (2 * m + 1) ^ 2) := by
      rw [pow_add, one_div_pow]
      field_simp
    have h2 : (1 / (2 * m + 1)) ^ (2 * j) ≤ (1 / (2 * (N : ℝ))) ^ (2 * j) :=
      pow_le_pow_left₀ (by positivity) (one_div_le_one_div_of_le (by positivity) (by linarith)) _
    have h3 : 1 / (2 * m + 1) ^ 2 ≤ 1 / 4 * (1 / m - 1 / (m + 1)) := by
      have : 1 / 4 * (1 / m - 1 / (m + 1)) = 1 / (4 * (m * (m + 1))) := by field_simp; ring
      rw [this]
      exact one_div_le_one_div_of_le (by positivity) (by nlinarith)
    have hp : (0 : ℝ) ≤ (1 / (2 * (N : ℝ))) ^ (2 * j) := by positivity
    calc 1 / (2 * m + 1) ^ (2 * j + 2) = (1 / (2 * m + 1)) ^ (2 * j) * (1 / (2 * m + 1) ^ 2) := h1
      _ ≤ (1 / (2 * (N : ℝ))) ^ (2 * j) * (1 / 4 * (1 / m - 1 / (m + 1))) :=
        mul_le_mul h2 h3 (by positivity) hp
      _ = _ := by ring
  have hs : Summable (fun n : ℕ => 1 / (2 * ((n + N : ℕ) : ℝ) + 1) ^ (2 * j + 2)) :=
    Summable.of_nonneg_of_le (fun n => by positivity) hle htel.summable
  refine ⟨hs, (hs.tsum_le_tsum hle htel.summable).trans ?_⟩
  rw [htel.tsum_eq]
  apply le_of_eq
  ring

/-- The error of the sum over the first `N` Matsubara frequencies is an odd polynomial, up to a remainder of higher
order in `1/N`. -/
lemma matsubara_remainder {β : ℝ} (hb : 0 < β) {N : ℕ} (hN : 0 < N) (j : ℕ) : ∃ c : ℕ → ℝ, ∀ x : ℝ,
    |fermi β x - quadFermi (fun i : Fin N => matsubaraFrequencies (i : ℕ) β) (fun _ => 1) β x
      - ∑ i ∈ Finset.range j, c i * x ^ (2 * i + 1)| ≤ (β / (2 * Real.pi * N)) ^ (2 * j) * (β / (2 * Real.pi ^ 2 * N)) * |x| ^ (2 * j + 1) := by
  have hpi := Real.pi_pos
  have hN' : (0 : ℝ) < N := by exact_mod_cast hN
  set o : ℕ → ℝ := fun n => Real.pi / β * (2 * ((n + N : ℕ) : ℝ) + 1) with ho
  have hopos : ∀ n, 0 < o n := fun n => by rw [ho]; positivity
  have hsum : ∀ i : ℕ, Summable fun n => 1 / o n ^ (2 * i + 2) := fun i => by
    refine ((odd_sum_bound hN i).1.mul_left ((β / Real.pi) ^ (2 * i + 2))).congr fun n => ?_
    rw [ho]
    simp only
    rw [mul_pow, div_pow, div_pow]
    field_simp
  refine ⟨fun i => -(2 / β * ((-1) ^ i * ∑' n, 1 / o n ^ (2 * i + 2))), fun x => ?_⟩
  -- the remainder as a series
  have hs := hasSum_matsubara hb x
  have hr : HasSum (fun n : ℕ => 2 / β * (1 / (matsubaraFrequencies (((n + N : ℕ) : ℕ) : ℕ) β - x) : ℂ).re)
      (fermi β x - quadFermi (fun i : Fin N => matsubaraFrequencies (i : ℕ) β) (fun _ => 1) β x) := by
    have h1 := (hasSum_nat_add_iff' (f := fun n : ℕ => 2 / β * (1 / (matsubaraFrequencies (n : ℕ) β - x) : ℂ).re) N).2 hs
    have e : fermi β x - quadFermi (fun i : Fin N => matsubaraFrequencies (i : ℕ) β) (fun _ => 1) β x
        = fermi β x - 1 / 2 - ∑ i ∈ Finset.range N, 2 / β * (1 / (matsubaraFrequencies (i : ℕ) β - x) : ℂ).re := by
      rw [← Fin.sum_univ_eq_sum_range fun n : ℕ => 2 / β * (1 / (matsubaraFrequencies (n : ℕ) β - x) : ℂ).re]
      unfold quadFermi
      rw [Finset.mul_sum]
      simp only [one_mul]
      ring
    rw [e]
    exact h1
  have hterm : ∀ n : ℕ, 2 / β * (1 / (matsubaraFrequencies (((n + N : ℕ) : ℕ) : ℕ) β - x) : ℂ).re
      = -(2 / β) * (x / (o n ^ 2 + x ^ 2)) := fun n => by
    rw [matsubara_re, ho]
    ring
  simp only [hterm] at hr
  have hpoly : HasSum (fun n : ℕ => -(2 / β) * ∑ i ∈ Finset.range j, (-1) ^ i * x ^ (2 * i + 1) / o n ^ (2 * i + 2))
      (∑ i ∈ Finset.range j, -(2 / β * ((-1) ^ i * ∑' n, 1 / o n ^ (2 * i + 2))) * x ^ (2 * i + 1)) := by
    have h1 : HasSum (fun n : ℕ => ∑ i ∈ Finset.range j, -(2 / β * ((-1) ^ i * (1 / o n ^ (2 * i + 2)))) * x ^ (2 * i + 1))
        (∑ i ∈ Finset.range j, -(2 / β * ((-1) ^ i * ∑' n, 1 / o n ^ (2 * i + 2))) * x ^ (2 * i + 1)) :=
      hasSum_sum fun i _ => ((((hsum i).hasSum.mul_left _).mul_left _).neg.mul_right _)
    refine h1.congr_fun ?_
    intro n
    rw [Finset.mul_sum]
    exact Finset.sum_congr rfl fun i _ => by ring
  have hd := hr.sub hpoly
  have hd' : HasSum (fun n : ℕ => -(2 / β) * ((-1) ^ j * x ^ (2 * j + 1) / (o n ^ (2 * j) * (o n ^ 2 + x ^ 2))))
      (fermi β x - quadFermi (fun i : Fin N => matsubaraFrequencies (i : ℕ) β) (fun _ => 1) β x
        - ∑ i ∈ Finset.range j, -(2 / β * ((-1) ^ i * ∑' n, 1 / o n ^ (2 * i + 2))) * x ^ (2 * i + 1)) := by
    refine hd.congr_fun ?_
    intro n
    rw [geom_term (hopos n) j]
    ring
  have hbd : ∀ n : ℕ, ‖-(2 / β) * ((-1) ^ j * x ^ (2 * j + 1) / (o n ^ (2 * j) * (o n ^ 2 + x ^ 2)))‖
      ≤ 2 / β * |x| ^ (2 * j + 1) * (1 / o n ^ (2 * j + 2)) := fun n => by
    rw [norm_mul, norm_neg, Real.norm_of_nonneg (by positivity), norm_div, norm_mul, norm_pow, norm_neg, norm_one, one_pow, one_mul,
      norm_pow, Real.norm_eq_abs, Real.norm_of_nonneg (by positivity), mul_assoc]
    refine mul_le_mul_of_nonneg_left ?_ (by positivity)
    rw [mul_one_div]
    refine div_le_div_of_nonneg_left (by positivity) (pow_pos (hopos n) _) ?_
    rw [pow_add]
    exact mul_le_mul_of_nonneg_left (by nlinarith [sq_nonneg x]) (pow_pos (hopos n) _).le
  have hfin := tsum_of_norm_bounded ((hsum j).hasSum.mul_left (2 / β * |x| ^ (2 * j + 1))) hbd
  rw [hd'.tsum_eq, Real.norm_eq_abs] at hfin
  refine hfin.trans ?_
  have ht : ∑' n, 1 / o n ^ (2 * j + 2) = (β / Real.pi) ^ (2 * j + 2) * ∑' n : ℕ, 1 / (2 * ((n + N : ℕ) : ℝ) + 1) ^ (2 * j + 2) := by
    rw [← tsum_mul_left]
    refine tsum_congr fun n => ?_
    rw [ho]
    simp only
    rw [mul_pow, div_pow, div_pow]
    field_simp
  rw [ht]
  have h5 := (odd_sum_bound hN j).2
  have h6 : 2 / β * |x| ^ (2 * j + 1) * ((β / Real.pi) ^ (2 * j + 2) * ∑' n : ℕ, 1 / (2 * ((n + N : ℕ) : ℝ) + 1) ^ (2 * j + 2))
      ≤ 2 / β * |x| ^ (2 * j + 1) * ((β / Real.pi) ^ (2 * j + 2) * ((1 / (2 * N)) ^ (2 * j) / (4 * N))) := by
    refine mul_le_mul_of_nonneg_left (mul_le_mul_of_nonneg_left h5 (by positivity)) (by positivity)
  refine h6.trans (le_of_eq ?_)
  have e1 : (β / Real.pi) ^ (2 * j + 2) * (1 / (2 * (N : ℝ))) ^ (2 * j) = (β / (2 * Real.pi * N)) ^ (2 * j) * (β / Real.pi) ^ 2 := by
    rw [pow_add, mul_right_comm, ← mul_pow]
    congr 2
    field_simp
  calc 2 / β * |x| ^ (2 * j + 1) * ((β / Real.pi) ^ (2 * j + 2) * ((1 / (2 * (N : ℝ))) ^ (2 * j) / (4 * N)))
      = 2 / β * |x| ^ (2 * j + 1) / (4 * N) * ((β / Real.pi) ^ (2 * j + 2) * (1 / (2 * (N : ℝ))) ^ (2 * j)) := by ring
    _ = _ := by
      rw [e1]
      field_simp
      ring

end Gftool.Lemmas
