import Verif.Props.CpaAnalytic

/-!
# Property C72: high frequencies, symmetries and limiting cases of the CPA self-energy
-/

namespace Gftool.Props

open Gftool Model Spec Lemmas MeasureTheory Filter

open scoped Topology

variable {ι κ : Type*} [Fintype ι]

/-- The effective medium: `w = 1/G + s`. The CPA condition is `∑ c/(w - e) = 1/(w - s)`, and `w` is at least as far from the
real axis as `z`. -/
lemma cpa_medium {z : ℂ} {e : ι → ℂ} {c : ι → ℝ} {hilbert : ℂ → ℂ} {r : ℝ}
    (h : DisorderProblem z e c hilbert r) {s : ℂ} (hs : s.im ≤ 0) (hroot : selfRootEq s z e c hilbert = 0) :
    ∃ w : ℂ, z.im ≤ w.im ∧ w = (hilbert (z - s))⁻¹ + s ∧ hilbert (z - s) ≠ 0 ∧
      ∑ i, (c i : ℂ) / (w - e i) = 1 / (w - s) := by
  have hz := h.upper
  have hsz : s.im < z.im := hs.trans_lt hz
  obtain ⟨s', ⟨-, -, -, havg⟩, hu⟩ := cpa_exists_unique h
  obtain rfl := hu s hsz hroot
  obtain ⟨him, hd, -⟩ := cpa_well_defined h hsz
  have hne : hilbert (z - s) ≠ 0 := fun h0 => by
    rw [h0] at him
    simp at him
  obtain ⟨dos, hp, hh⟩ := h.lattice
  have hξ : 0 < (z - s).im := by rw [Complex.sub_im]; linarith
  have hre : Measurable fun x : ℝ => (x : ℂ) := Complex.measurable_ofReal
  have hrl : ∀ x : ℝ, ((x : ℂ)).im ≤ 0 := fun x => by simp
  have hrest := stjRest_im_nonneg (μ := dos) hre hrl hξ
  have hg : hilbert (z - s) = stj dos (fun x : ℝ => (x : ℂ)) (z - s) := hh _ hξ
  rw [stjRest, ← hg] at hrest
  have hwim : z.im ≤ ((hilbert (z - s))⁻¹ + s).im := by
    rw [Complex.sub_im, Complex.sub_im, one_div] at hrest
    rw [Complex.add_im]
    linarith
  refine ⟨(hilbert (z - s))⁻¹ + s, hwim, rfl, hne, ?_⟩
  rw [add_sub_cancel_right, one_div, inv_inv]
  refine Eq.trans ?_ havg
  unfold avgGf gfCmptZ
  refine Finset.sum_congr rfl fun i _ => ?_
  have h1 := hd i
  have h2 : (hilbert (z - s))⁻¹ + s - e i ≠ 0 := by
    intro h0
    have := congrArg Complex.im h0
    rw [Complex.sub_im, Complex.zero_im] at this
    linarith [h.retarded i]
  simp only
  have h3 : 1 - (e i - s) * hilbert (z - s) = hilbert (z - s) * ((hilbert (z - s))⁻¹ + s - e i) := by
    field_simp
    ring
  rw [h3]
  field_simp

/-- The difference between self-energy and average energy. -/
lemma cpa_diff {e : ι → ℂ} {c : ι → ℝ} (hc : ∑ i, c i = 1) {w s : ℂ} (hw : ∀ i, w - e i ≠ 0)
    (hws : w - s ≠ 0) (hwm : w - ∑ i, (c i : ℂ) * e i ≠ 0) (heq : ∑ i, (c i : ℂ) / (w - e i) = 1 / (w - s)) :
    s - ∑ i, (c i : ℂ) * e i
      = (w - s) / (w - ∑ i, (c i : ℂ) * e i) * ∑ i, (c i : ℂ) * (e i - ∑ i, (c i : ℂ) * e i) ^ 2 / (w - e i) := by
  set m := ∑ i, (c i : ℂ) * e i with hm
  have hc' : ∑ i, (c i : ℂ) = 1 := by exact_mod_cast hc
  have h1 : ∑ i, (c i : ℂ) * (e i - m) ^ 2 / (w - e i)
      = ∑ i, ((w - m) ^ 2 * ((c i : ℂ) / (w - e i)) - (w - m) * c i - ((c i : ℂ) * e i - m * c i)) := by
    refine Finset.sum_congr rfl fun i _ => ?_
    have := hw i
    field_simp
    ring
  rw [h1, Finset.sum_sub_distrib, Finset.sum_sub_distrib, ← Finset.mul_sum, ← Finset.mul_sum, Finset.sum_sub_distrib,
    ← Finset.mul_sum, heq, hc', ← hm]
  field_simp
  ring

/-- C72: at high frequencies the CPA self-energy is the average on-site energy, with an explicit bound of the deviation by
the spread of the energies. -/
theorem cpa_self_tail_bound {z : ℂ} {e : ι → ℂ} {c : ι → ℝ} {hilbert : ℂ → ℂ} {r : ℝ}
    (h : DisorderProblem z e c hilbert r) {s : ℂ} (hs : s.im ≤ 0) (hroot : selfRootEq s z e c hilbert = 0) {d : ℝ}
    (hd : ∀ i, ‖e i - ∑ i, (c i : ℂ) * e i‖ ≤ d) (hdz : 2 * d ^ 2 ≤ z.im ^ 2) :
    ‖s - ∑ i, (c i : ℂ) * e i‖ ≤ 2 * d ^ 2 / z.im := by
  have hz := h.upper
  obtain ⟨w, hw, -, -, heq⟩ := cpa_medium h hs hroot
  set m := ∑ i, (c i : ℂ) * e i with hm
  have hmim : m.im ≤ 0 := by
    rw [hm, Complex.im_sum]
    refine Finset.sum_nonpos fun i _ => ?_
    rw [Complex.im_ofReal_mul]
    exact mul_nonpos_of_nonneg_of_nonpos (h.nonneg i) (h.retarded i)
  have hlow : ∀ x : ℂ, x.im ≤ 0 → z.im ≤ ‖w - x‖ := by
    intro x hx
    refine le_trans ?_ ((le_abs_self _).trans (Complex.abs_im_le_norm _))
    rw [Complex.sub_im]
    linarith
  have hne : ∀ x : ℂ, x.im ≤ 0 → w - x ≠ 0 := fun x hx => norm_pos_iff.1 (hz.trans_le (hlow x hx))
  have hdiff := cpa_diff h.norm (fun i => hne _ (h.retarded i)) (hne s hs) (hne m hmim) heq
  rw [← hm] at hdiff
  set V := ∑ i, (c i : ℂ) * (e i - m) ^ 2 / (w - e i) with hV
  have hVb : ‖V‖ ≤ d ^ 2 / z.im := by
    calc ‖V‖ ≤ ∑ i, ‖(c i : ℂ) * (e i - m) ^ 2 / (w - e i)‖ := norm_sum_le _ _
      _ ≤ ∑ i, c i * (d ^ 2 / z.im) := by
          refine Finset.sum_le_sum fun i _ => ?_
          rw [mul_div_assoc, norm_mul, Complex.norm_real, Real.norm_eq_abs, abs_of_nonneg (h.nonneg i), norm_div, norm_pow]
          refine mul_le_mul_of_nonneg_left ?_ (h.nonneg i)
          exact div_le_div₀ (sq_nonneg _) (pow_le_pow_left₀ (norm_nonneg _) (hd i) 2) hz (hlow _ (h.retarded i))
      _ = d ^ 2 / z.im := by rw [← Finset.sum_mul, h.norm, one_mul]
  have hratio : ‖(w - s) / (w - m)‖ ≤ 1 + ‖s - m‖ / z.im := by
    have : (w - s) / (w - m) = 1 - (s - m) / (w - m) := by
      have := hne m hmim
      field_simp
      ring
    rw [this]
    refine (norm_sub_le _ _).trans ?_
    rw [norm_one, norm_div]
    have := hlow m hmim
    gcongr
  have hn : ‖s - m‖ ≤ (1 + ‖s - m‖ / z.im) * (d ^ 2 / z.im) := by
    conv_lhs => rw [hdiff]
    rw [norm_mul]
    exact mul_le_mul hratio hVb (norm_nonneg _) (by positivity)
  have h2 : d ^ 2 / z.im ≤ z.im / 2 := by
    rw [div_le_iff₀ hz]
    nlinarith
  have h3 : ‖s - m‖ / z.im * (d ^ 2 / z.im) ≤ ‖s - m‖ / 2 := by
    calc ‖s - m‖ / z.im * (d ^ 2 / z.im) ≤ ‖s - m‖ / z.im * (z.im / 2) :=
          mul_le_mul_of_nonneg_left h2 (by positivity)
      _ = _ := by field_simp
  have h4 : 2 * d ^ 2 / z.im = 2 * (d ^ 2 / z.im) := by ring
  rw [h4]
  nlinarith

/-- Directions to infinity in the upper half-plane away from the real axis, e.g. along the imaginary axis. -/
def ToInfinity {α : Type*} (l : Filter α) (ζ : α → ℂ) : Prop :=
  Tendsto (fun a => (ζ a).im) l atTop ∧ ∃ C : ℝ, ∀ᶠ a in l, ‖ζ a‖ ≤ C * (ζ a).im

/-- The imaginary axis is such a direction. -/
theorem toInfinity_imag : ToInfinity atTop fun y : ℝ => Complex.I * y := by
  refine ⟨?_, 1, ?_⟩
  · simp only [Complex.mul_im, Complex.I_re, Complex.I_im, Complex.ofReal_re, Complex.ofReal_im, mul_zero, zero_mul, one_mul,
      zero_add]
    exact tendsto_id
  filter_upwards [eventually_ge_atTop 0] with y hy
  simp [abs_of_nonneg hy]

/-- The Hilbert transform decays like `1/ξ`. -/
lemma lattice_hilbert_tail {hilbert : ℂ → ℂ} (h : IsLatticeHilbert hilbert) {α : Type*} {l : Filter α}
    [l.IsCountablyGenerated] {ξ : α → ℂ} (hξ : ToInfinity l ξ) : Tendsto (fun a => ξ a * hilbert (ξ a)) l (𝓝 1) := by
  obtain ⟨dos, hp, hd⟩ := h
  obtain ⟨him, C, hC⟩ := hξ
  have hpos : ∀ᶠ a in l, 0 < (ξ a).im := him.eventually_gt_atTop 0
  have hlow : ∀ a (x : ℝ), 0 < (ξ a).im → (ξ a).im ≤ ‖ξ a - x‖ := by
    intro a x _
    refine (le_abs_self _).trans ?_
    have := Complex.abs_im_le_norm (ξ a - x)
    rwa [Complex.sub_im, Complex.ofReal_im, sub_zero] at this
  have hlim : Tendsto (fun a => ∫ x : ℝ, ξ a / (ξ a - x) ∂dos) l (𝓝 (∫ _x : ℝ, (1 : ℂ) ∂dos)) := by
    refine tendsto_integral_filter_of_dominated_convergence (fun _ => C)
      (Eventually.of_forall fun a => Measurable.aestronglyMeasurable (by fun_prop)) ?_ (integrable_const _) ?_
    · filter_upwards [hpos, hC] with a ha hCa
      refine Eventually.of_forall fun x => ?_
      rw [norm_div, div_le_iff₀ (ha.trans_le (hlow a x ha))]
      refine hCa.trans (mul_le_mul_of_nonneg_left (hlow a x ha) ?_)
      by_contra hneg
      have := norm_nonneg (ξ a)
      nlinarith
    · refine Eventually.of_forall fun x => ?_
      have h1 : ∀ᶠ a in l, 1 + (x : ℂ) / (ξ a - x) = ξ a / (ξ a - x) := by
        filter_upwards [hpos] with a ha
        have : ξ a - x ≠ 0 := norm_pos_iff.1 (ha.trans_le (hlow a x ha))
        field_simp
        ring
      refine Tendsto.congr' h1 ?_
      have h2 : Tendsto (fun a => (x : ℂ) / (ξ a - x)) l (𝓝 0) := by
        refine squeeze_zero_norm' (a := fun a => |x| / (ξ a).im) ?_ (tendsto_const_nhds.div_atTop him)
        filter_upwards [hpos] with a ha
        rw [norm_div, Complex.norm_real, Real.norm_eq_abs]
        exact div_le_div_of_nonneg_left (abs_nonneg _) ha (hlow a x ha)
      simpa using tendsto_const_nhds.add h2
  rw [integral_const, probReal_univ, one_smul] at hlim
  refine hlim.congr' ?_
  filter_upwards [hpos] with a ha
  rw [hd _ ha, ← integral_const_mul]
  exact integral_congr_ae (Eventually.of_forall fun x => by simp only; rw [mul_one_div])

/-- C72: the leading terms of the CPA self-energy at high frequencies are average and variance of the on-site energies,
`S(z) = ⟨e⟩ + (⟨e²⟩ - ⟨e⟩²)/z + o(1/z)`, and the CPA Green's function decays like `1/z`. -/
theorem cpa_self_moments {e : ι → ℂ} {c : ι → ℝ} {hilbert S : ℂ → ℂ} (h : RetardedAlloy (fun _ => e) c hilbert)
    (hS : IsCpaSelf (fun _ => e) c hilbert S) {α : Type*} {l : Filter α} [l.IsCountablyGenerated] {ζ : α → ℂ}
    (hζ : ToInfinity l ζ) :
    Tendsto (fun a => S (ζ a)) l (𝓝 (∑ i, (c i : ℂ) * e i)) ∧
    Tendsto (fun a => ζ a * (S (ζ a) - ∑ i, (c i : ℂ) * e i)) l
      (𝓝 (∑ i, (c i : ℂ) * (e i - ∑ i, (c i : ℂ) * e i) ^ 2)) ∧
    Tendsto (fun a => ζ a * hilbert (ζ a - S (ζ a))) l (𝓝 1) := by
  obtain ⟨him, C, hC⟩ := hζ
  set m := ∑ i, (c i : ℂ) * e i with hm
  have hpos : ∀ᶠ a in l, 0 < (ζ a).im := him.eventually_gt_atTop 0
  set d := ∑ i, ‖e i - m‖ with hd
  have hd0 : 0 ≤ d := Finset.sum_nonneg fun i _ => norm_nonneg _
  have hdb : ∀ i, ‖e i - m‖ ≤ d := fun i =>
    Finset.single_le_sum (f := fun i => ‖e i - m‖) (fun i _ => norm_nonneg _) (Finset.mem_univ i)
  have hbound : ∀ᶠ a in l, ‖S (ζ a) - m‖ ≤ 2 * d ^ 2 / (ζ a).im := by
    filter_upwards [hpos, him.eventually_ge_atTop (2 * d)] with a ha h2
    refine cpa_self_tail_bound (h.problem ha) (hS _ ha).1 (hS _ ha).2 hdb ?_
    nlinarith
  have hdiff0 : Tendsto (fun a => S (ζ a) - m) l (𝓝 0) :=
    squeeze_zero_norm' hbound (tendsto_const_nhds.div_atTop him)
  have hlim1 : Tendsto (fun a => S (ζ a)) l (𝓝 m) := by
    have := hdiff0.add_const m
    simpa using this
  have hζinv : Tendsto (fun a => (ζ a)⁻¹) l (𝓝 0) := by
    refine squeeze_zero_norm' (a := fun a => 1 / (ζ a).im) ?_ (tendsto_const_nhds.div_atTop him)
    filter_upwards [hpos] with a ha
    rw [norm_inv, ← one_div]
    exact one_div_le_one_div_of_le ha ((le_abs_self _).trans (Complex.abs_im_le_norm _))
  have hζne : ∀ᶠ a in l, ζ a ≠ 0 := by
    filter_upwards [hpos] with a ha h0
    rw [h0] at ha
    simp at ha
  -- the argument of the Hilbert transform
  have hSb : ∀ᶠ a in l, ‖S (ζ a)‖ ≤ ‖m‖ + 1 := by
    filter_upwards [hlim1.norm.eventually_lt_const (show ‖m‖ < ‖m‖ + 1 by linarith)] with a ha
    exact ha.le
  have hξinf : ToInfinity l fun a => ζ a - S (ζ a) := by
    refine ⟨?_, C + (‖m‖ + 1), ?_⟩
    · refine tendsto_atTop_mono' l ?_ him
      filter_upwards [hpos] with a ha
      rw [Complex.sub_im]
      linarith [(hS _ ha).1]
    · filter_upwards [hpos, hC, hSb, him.eventually_ge_atTop 1] with a ha hCa hSa h1
      have hCnn : 0 ≤ C := by
        by_contra hneg
        have := norm_nonneg (ζ a)
        nlinarith
      have h2 : (ζ a).im ≤ (ζ a - S (ζ a)).im := by
        rw [Complex.sub_im]
        linarith [(hS _ ha).1]
      refine (norm_sub_le _ _).trans ?_
      have hm0 := norm_nonneg m
      calc ‖ζ a‖ + ‖S (ζ a)‖ ≤ C * (ζ a).im + (‖m‖ + 1) * 1 := by linarith
        _ ≤ C * (ζ a).im + (‖m‖ + 1) * (ζ a).im := by
            have := mul_le_mul_of_nonneg_left h1 (show 0 ≤ ‖m‖ + 1 by linarith)
            linarith
        _ = (C + (‖m‖ + 1)) * (ζ a).im := by ring
        _ ≤ _ := mul_le_mul_of_nonneg_left h2 (by linarith)
  have htail := lattice_hilbert_tail h.lattice hξinf
  have hratio : Tendsto (fun a => (ζ a - S (ζ a)) * (ζ a)⁻¹) l (𝓝 1) := by
    have h1 : Tendsto (fun a => 1 - S (ζ a) * (ζ a)⁻¹) l (𝓝 1) := by
      have := tendsto_const_nhds (x := (1 : ℂ)) |>.sub (hlim1.mul hζinv)
      simpa using this
    refine h1.congr' ?_
    filter_upwards [hζne] with a ha
    field_simp
  have hgf : Tendsto (fun a => ζ a * hilbert (ζ a - S (ζ a))) l (𝓝 1) := by
    have h1 := htail.div hratio one_ne_zero
    rw [div_one] at h1
    refine h1.congr' ?_
    filter_upwards [hζne, hpos] with a ha hp
    have h2 : ζ a - S (ζ a) ≠ 0 := by
      intro h0
      have := congrArg Complex.im h0
      rw [Complex.sub_im, Complex.zero_im] at this
      linarith [(hS _ hp).1]
    simp only [Pi.div_apply]
    field_simp
  refine ⟨hlim1, ?_, hgf⟩
  -- the effective medium
  set w : α → ℂ := fun a => (hilbert (ζ a - S (ζ a)))⁻¹ + S (ζ a) with hw
  have hmed : ∀ᶠ a in l, (ζ a).im ≤ (w a).im ∧ hilbert (ζ a - S (ζ a)) ≠ 0 ∧
      ∑ i, (c i : ℂ) / (w a - e i) = 1 / (w a - S (ζ a)) := by
    filter_upwards [hpos] with a ha
    obtain ⟨w', h1, h2, h3, h4⟩ := cpa_medium (h.problem ha) (hS _ ha).1 (hS _ ha).2
    rw [h2] at h1 h4
    exact ⟨h1, h3, h4⟩
  have hmim : m.im ≤ 0 := by
    rw [hm, Complex.im_sum]
    refine Finset.sum_nonpos fun i _ => ?_
    rw [Complex.im_ofReal_mul]
    exact mul_nonpos_of_nonneg_of_nonpos (h.nonneg i) (h.retarded Complex.I (by simp) i)
  have hwz : Tendsto (fun a => w a * (ζ a)⁻¹) l (𝓝 1) := by
    have h1 : Tendsto (fun a => (ζ a * hilbert (ζ a - S (ζ a)))⁻¹ + S (ζ a) * (ζ a)⁻¹) l (𝓝 1) := by
      have := (hgf.inv₀ one_ne_zero).add (hlim1.mul hζinv)
      simpa using this
    refine h1.congr fun a => ?_
    simp only [hw, mul_inv]
    ring
  have hwlow : ∀ a (x : ℂ), x.im ≤ 0 → (ζ a).im ≤ (w a).im → (ζ a).im ≤ ‖w a - x‖ := by
    intro a x hx h1
    refine le_trans ?_ ((le_abs_self _).trans (Complex.abs_im_le_norm _))
    rw [Complex.sub_im]
    linarith
  have hwx : ∀ x : ℂ, x.im ≤ 0 → Tendsto (fun a => ζ a / (w a - x)) l (𝓝 1) := by
    intro x hx
    have h1 : Tendsto (fun a => w a * (ζ a)⁻¹ - x * (ζ a)⁻¹) l (𝓝 1) := by
      have := hwz.sub (hζinv.const_mul x)
      simpa using this
    have h2 := h1.inv₀ one_ne_zero
    rw [inv_one] at h2
    refine h2.congr' ?_
    filter_upwards [hζne, hpos, hmed] with a ha hp hm1
    have h3 : w a - x ≠ 0 := norm_pos_iff.1 (hp.trans_le (hwlow a x hx hm1.1))
    rw [← sub_mul, mul_inv, inv_inv, div_eq_mul_inv, mul_comm]
  have hws : Tendsto (fun a => (w a - S (ζ a)) / (w a - m)) l (𝓝 1) := by
    have h1 : Tendsto (fun a => 1 - (S (ζ a) - m) * (ζ a / (w a - m)) * (ζ a)⁻¹) l (𝓝 1) := by
      have := tendsto_const_nhds (x := (1 : ℂ)) |>.sub ((hdiff0.mul (hwx m hmim)).mul hζinv)
      simpa using this
    refine h1.congr' ?_
    filter_upwards [hζne, hpos, hmed] with a ha hp hm1
    have h3 : w a - m ≠ 0 := norm_pos_iff.1 (hp.trans_le (hwlow a m hmim hm1.1))
    field_simp
    ring
  have hV : Tendsto (fun a => ∑ i, (c i : ℂ) * (e i - m) ^ 2 * (ζ a / (w a - e i))) l
      (𝓝 (∑ i, (c i : ℂ) * (e i - m) ^ 2)) := by
    have := tendsto_finsetSum Finset.univ fun i (_ : i ∈ Finset.univ) =>
      (hwx (e i) (h.retarded Complex.I (by simp) i)).const_mul ((c i : ℂ) * (e i - m) ^ 2)
    simpa using this
  have hprod := hws.mul hV
  rw [one_mul] at hprod
  refine hprod.congr' ?_
  filter_upwards [hpos, hmed] with a hp hm1
  have hne : ∀ x : ℂ, x.im ≤ 0 → w a - x ≠ 0 := fun x hx => norm_pos_iff.1 (hp.trans_le (hwlow a x hx hm1.1))
  have hdiff := cpa_diff h.norm (fun i => hne _ (h.retarded _ hp i)) (hne _ (hS _ hp).1) (hne m hmim) hm1.2.2
  rw [← hm] at hdiff
  have hsum : ∑ i, (c i : ℂ) * (e i - m) ^ 2 * (ζ a / (w a - e i))
      = ζ a * ∑ i, (c i : ℂ) * (e i - m) ^ 2 / (w a - e i) := by
    rw [Finset.mul_sum]
    refine Finset.sum_congr rfl fun i _ => ?_
    ring
  rw [hsum, hdiff, mul_left_comm]

/-- C72: only the distribution of the energies matters: components with the same energy may be merged or split, and
components with vanishing concentration be dropped. -/
theorem cpa_self_distribution [Fintype κ] {e : ℂ → ι → ℂ} {c : ι → ℝ} {e' : ℂ → κ → ℂ} {c' : κ → ℝ} {hilbert : ℂ → ℂ}
    (hdist : ∀ z (f : ℂ → ℂ), ∑ i, (c i : ℂ) * f (e z i) = ∑ k, (c' k : ℂ) * f (e' z k)) (S : ℂ → ℂ) :
    IsCpaSelf e c hilbert S ↔ IsCpaSelf e' c' hilbert S := by
  have hT : ∀ z s, cpaT s z (e z) c hilbert = cpaT s z (e' z) c' hilbert := by
    intro z s
    have := hdist z fun x => (x - s) / (1 - (x - s) * hilbert (z - s))
    simp only [← mul_div_assoc] at this
    exact this
  unfold IsCpaSelf selfRootEq
  simp only [hT]

/-- C72: shifting frequencies and on-site energies shifts the self-energy. -/
theorem cpa_self_shift {e : ℂ → ι → ℂ} {c : ι → ℝ} {hilbert S : ℂ → ℂ} (hS : IsCpaSelf e c hilbert S) (δ : ℝ) :
    IsCpaSelf (fun z i => e (z - δ) i + δ) c hilbert fun z => S (z - δ) + δ := by
  intro z hz
  have hz' : 0 < (z - δ).im := by simpa using hz
  obtain ⟨h1, h2⟩ := hS (z - δ) hz'
  refine ⟨by rw [Complex.add_im, Complex.ofReal_im, add_zero]; exact h1, ?_⟩
  unfold selfRootEq cpaT at h2 ⊢
  simp only at h2 ⊢
  rw [show z - (S (z - δ) + δ) = z - δ - S (z - δ) by ring]
  simpa only [add_sub_add_right_eq_sub] using h2

/-- C72: particle-hole transformation. For a lattice with symmetric density of states, i.e. `G(-z*) = -G(z)*`, reversing
all energies gives `-S(-z*)*`. -/
theorem cpa_self_particle_hole {e : ℂ → ι → ℂ} {c : ι → ℝ} {hilbert S : ℂ → ℂ} (hS : IsCpaSelf e c hilbert S)
    (hh : ∀ z : ℂ, 0 < z.im → hilbert (-star z) = -star (hilbert z)) :
    IsCpaSelf (fun z i => -star (e (-star z) i)) c hilbert fun z => -star (S (-star z)) := by
  intro z hz
  have hz' : 0 < (-star z).im := by simpa using hz
  obtain ⟨h1, h2⟩ := hS (-star z) hz'
  refine ⟨by simpa using h1, ?_⟩
  set s := S (-star z) with hs
  have hxi : 0 < (-star z - s).im := by
    rw [Complex.sub_im]
    linarith
  have hg : hilbert (z - -star s) = -star (hilbert (-star z - s)) := by
    rw [← hh _ hxi]
    congr 1
    simp
    ring
  have hT : cpaT (-star s) z (fun i => -star (e (-star z) i)) c hilbert
      = -star (cpaT s (-star z) (e (-star z)) c hilbert) := by
    unfold cpaT
    simp only
    rw [hg, star_sum, ← Finset.sum_neg_distrib]
    refine Finset.sum_congr rfl fun i _ => ?_
    simp only [star_div₀, star_mul', star_sub, star_one, RCLike.star_def, Complex.conj_ofReal]
    rw [show (1 - (-(starRingEnd ℂ) (e (-(starRingEnd ℂ) z) i) - -(starRingEnd ℂ) s) * -(starRingEnd ℂ) (hilbert (-(starRingEnd ℂ) z - s)))
      = (1 - ((starRingEnd ℂ) (e (-(starRingEnd ℂ) z) i) - (starRingEnd ℂ) s) * (starRingEnd ℂ) (hilbert (-(starRingEnd ℂ) z - s))) by ring]
    ring
  unfold selfRootEq at h2 ⊢
  simp only at h2 ⊢
  rw [hT, hg, show 1 + -star (cpaT s (-star z) (e (-star z)) c hilbert) * -star (hilbert (-star z - s))
    = star (1 + cpaT s (-star z) (e (-star z)) c hilbert * hilbert (-star z - s)) by
      simp only [star_add, star_mul', star_one]; ring, neg_div, ← star_div₀, h2]
  simp

/-- C72: without disorder the self-energy is the on-site energy. -/
theorem cpa_self_pure {e : ℂ → ι → ℂ} {c : ι → ℝ} {hilbert S : ℂ → ℂ} (h : RetardedAlloy e c hilbert)
    (hS : IsCpaSelf e c hilbert S) {e0 : ℂ → ℂ} (he : ∀ z i, c i ≠ 0 → e z i = e0 z) {z : ℂ} (hz : 0 < z.im) :
    S z = e0 z := by
  obtain ⟨s, -, hu⟩ := cpa_exists_unique (h.problem hz)
  have h0 : (e0 z).im ≤ 0 := by
    obtain ⟨i, -, hi⟩ : ∃ i ∈ Finset.univ, c i ≠ 0 :=
      Finset.exists_ne_zero_of_sum_ne_zero (by rw [h.norm]; exact one_ne_zero)
    rw [← he z i hi]
    exact h.retarded z hz i
  rw [hu (S z) ((hS z hz).1.trans_lt hz) (hS z hz).2]
  refine (hu (e0 z) (h0.trans_lt hz) ?_).symm
  have hT : cpaT (e0 z) z (e z) c hilbert = 0 := by
    unfold cpaT
    refine Finset.sum_eq_zero fun i _ => ?_
    by_cases hc : c i = 0
    · simp [hc]
    · rw [he z i hc]
      simp
  unfold selfRootEq
  simp only
  rw [hT, zero_div]

/-- C72: disorder damps: the imaginary part of the self-energy does not exceed that of the on-site energies, and lies strictly
below if two components with different on-site energies are present. -/
theorem cpa_self_damped {e : ℂ → ι → ℂ} {c : ι → ℝ} {hilbert S : ℂ → ℂ} (h : RetardedAlloy e c hilbert)
    (hS : IsCpaSelf e c hilbert S) {z : ℂ} (hz : 0 < z.im) {m : ℝ} (hm : ∀ i, c i ≠ 0 → (e z i).im ≤ m) :
    (S z).im ≤ m ∧ ((∃ i j, c i ≠ 0 ∧ c j ≠ 0 ∧ e z i ≠ e z j) → (S z).im < m) := by
  obtain ⟨hG, hden, hT, -⟩ := cpa_well_defined (h.problem hz) ((hS z hz).1.trans_lt hz)
  have hroot := (hS z hz).2
  unfold selfRootEq at hroot
  simp only at hroot
  have hsum := (div_eq_zero_iff.1 hroot).resolve_right hT
  unfold cpaT at hsum
  simp only at hsum
  generalize hGd : hilbert (z - S z) = G at *
  have him : ∀ i, ((c i : ℂ) * (e z i - S z) / (1 - (e z i - S z) * G)).im
      = c i * ((e z i - S z).im + Complex.normSq (e z i - S z) * G.im) / Complex.normSq (1 - (e z i - S z) * G) := by
    intro i
    generalize e z i - S z = d
    have : (c i : ℂ) * d / (1 - d * G) = c i * (d * (starRingEnd ℂ) (1 - d * G)) * ((Complex.normSq (1 - d * G))⁻¹ : ℝ) := by
      rw [div_eq_mul_inv, Complex.inv_def, Complex.ofReal_inv]
      ring
    rw [this, Complex.im_mul_ofReal, Complex.im_ofReal_mul, div_eq_mul_inv]
    congr 2
    simp [Complex.normSq_apply]
    ring
  -- a self-energy not below all on-site energies equals all of them
  have key : (∀ i, c i ≠ 0 → (e z i).im ≤ (S z).im) → ∀ i, c i ≠ 0 → e z i = S z := by
    intro hle i hi
    have h1 := congrArg Complex.im hsum
    rw [Complex.im_sum, Complex.zero_im] at h1
    have hterm : ∀ i, ((c i : ℂ) * (e z i - S z) / (1 - (e z i - S z) * G)).im ≤ 0 := by
      intro i
      rw [him]
      by_cases hi : c i = 0
      · simp [hi]
      · refine div_nonpos_of_nonpos_of_nonneg (mul_nonpos_of_nonneg_of_nonpos (h.nonneg i) ?_) (Complex.normSq_nonneg _)
        have := mul_nonpos_of_nonneg_of_nonpos (Complex.normSq_nonneg (e z i - S z)) hG.le
        have := hle i hi
        rw [Complex.sub_im]
        linarith
    have h2 := (Finset.sum_eq_zero_iff_of_nonpos fun i _ => hterm i).1 h1 i (Finset.mem_univ i)
    rw [him] at h2
    have h3 := (mul_eq_zero.1 ((div_eq_zero_iff.1 h2).resolve_right (fun h0 => hden i (Complex.normSq_eq_zero.1 h0)))).resolve_left hi
    have h4 := mul_nonpos_of_nonneg_of_nonpos (Complex.normSq_nonneg (e z i - S z)) hG.le
    have h5 := hle i hi
    have h6 : (e z i - S z).im ≤ 0 := by rw [Complex.sub_im]; linarith
    have h7 : Complex.normSq (e z i - S z) * G.im = 0 := by linarith
    exact sub_eq_zero.1 (Complex.normSq_eq_zero.1 ((mul_eq_zero.1 h7).resolve_right hG.ne))
  obtain ⟨k, -, hk⟩ : ∃ i ∈ Finset.univ, c i ≠ 0 :=
    Finset.exists_ne_zero_of_sum_ne_zero (by rw [h.norm]; exact one_ne_zero)
  constructor
  · by_contra hlt
    push Not at hlt
    have := key (fun i hi => (hm i hi).trans hlt.le) k hk
    have := hm k hk
    rw [‹e z k = S z›] at this
    linarith
  · rintro ⟨i, j, hi, hj, hij⟩
    by_contra hge
    push Not at hge
    have := key fun i hi => (hm i hi).trans hge
    exact hij ((this i hi).trans (this j hj).symm)

/-- A binary alloy on a Bethe lattice is damped at every frequency. -/
example {S : ℂ → ℂ} (hS : IsCpaSelf (fun _ => ![-1, 1]) ![1 / 4, 3 / 4] (fun z => betheHilbert z 2) S) {z : ℂ} (hz : 0 < z.im) :
    (S z).im < 0 := by
  have h : RetardedAlloy (fun _ => ![-1, 1]) ![1 / 4, 3 / 4] (fun z => betheHilbert z 2) := {
    lattice := (bethe_isHilbert two_pos).isLatticeHilbert
    nonneg := fun i => by fin_cases i <;> norm_num
    norm := by norm_num [Fin.sum_univ_two]
    retarded := fun z _ i => by fin_cases i <;> simp }
  exact (cpa_self_damped h hS hz (m := 0) fun i _ => h.retarded z hz i).2 ⟨0, 1, by norm_num, by norm_num, by norm_num⟩

/-- Binary alloy on a Bethe lattice. -/
example : RetardedAlloy (fun _ => ![-1, 1]) ![1 / 4, 3 / 4] (fun z => betheHilbert z 2) ∧
    ∑ i, ((![1 / 4, 3 / 4] : Fin 2 → ℝ) i : ℂ) * (![-1, 1] : Fin 2 → ℂ) i = 1 / 2 where
  left := {
    lattice := (bethe_isHilbert two_pos).isLatticeHilbert
    nonneg := fun i => by fin_cases i <;> norm_num
    norm := by norm_num [Fin.sum_univ_two]
    retarded := fun z _ i => by fin_cases i <;> simp }
  right := by
    norm_num [Fin.sum_univ_two]

end Gftool.Props
