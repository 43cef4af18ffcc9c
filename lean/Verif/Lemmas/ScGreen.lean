import Verif.Lemmas.ScForm
import Verif.Props.Bcc

/-!
# Green's function of the simple cubic lattice off the band
-/

namespace Gftool.Lemmas

open Gftool Spec MeasureTheory ComplexConjugate

lemma scDisp_mem {D : ℝ} (hD : 0 ≤ D) (k : ℝ × ℝ × ℝ) : scDisp D k ∈ Set.Icc (-D) D :=
  abs_le.1 (scDisp_abs hD k)

/-- The Green's function as function of the rescaled energy. -/
noncomputable def scForm (z : ℂ) : ℂ := scR (Complex.sqrt (scEta (1 / z ^ 2))) / z

lemma scForm_of {z ξ : ℂ} (h : ξ ^ 2 = scEta (1 / z ^ 2)) : scForm z = scR ξ / z := by
  unfold scForm
  rw [scR_congr (scReg_of_eta h) ((sqrt_sq' _).trans h.symm)]

lemma scForm_neg (z : ℂ) : scForm (-z) = -scForm z := by
  unfold scForm
  rw [neg_sq, div_neg]

/-- The auxiliary variable determines the energy. -/
lemma scV_of_roots {u s a t : ℝ} (h : ScRoots u s a) (ht : t ^ 2 * (1 + a) = 1 - s) (hE : 1 - 9 * t ^ 4 ≠ 0) :
    scV t = 9 * u := by
  have h1 := h.eta (η := ((t ^ 2 : ℝ) : ℂ)) (by exact_mod_cast ht)
  have h1' : a * (1 - 9 * (t ^ 2) ^ 2) = 1 - 18 * t ^ 2 + 9 * (t ^ 2) ^ 2 := by exact_mod_cast h1
  have h2 : a ^ 2 = 1 - 9 * u := by exact_mod_cast h.a_sq
  have e : 9 * u = 1 - a ^ 2 := by linarith
  unfold scV
  rw [scnE_eq, e, div_eq_iff (pow_ne_zero 2 hE)]
  linear_combination (a * (1 - 9 * (t ^ 2) ^ 2) + (1 - 18 * t ^ 2 + 9 * (t ^ 2) ^ 2)) * h1'

lemma sc_green_large : ∃ X : ℝ, 1 ≤ X ∧ ∀ x : ℝ, X < x → bzGreen bz3 (scDisp 1) x = 3 * scForm (3 * x) := by
  obtain ⟨r, hr0, hr16, hr⟩ := joyce
  refine ⟨max 1 (1 / r), le_max_left _ _, fun x hx => ?_⟩
  obtain ⟨hx1, hxr⟩ := max_lt_iff.1 hx
  have hx0 : 0 < x := by linarith
  have hxc : (x : ℂ) ≠ 0 := by exact_mod_cast hx0.ne'
  set u : ℝ := 1 / (3 * x) ^ 2 with hu
  have hu0 : 0 < u := by positivity
  have h9u : 9 * u = 1 / x ^ 2 := by rw [hu]; field_simp; norm_num
  have h9u1 : 9 * u < 1 := by rw [h9u, div_lt_one (by positivity)]; nlinarith
  have hsa := scRoots_sqrt (u : ℂ)
  have es : Complex.sqrt (1 - (u : ℂ)) = ((√(1 - u) : ℝ) : ℂ) := by
    rw [show (1 : ℂ) - (u : ℂ) = ((1 - u : ℝ) : ℂ) by push_cast; ring, sqrt_ofReal (by linarith)]
  have ea : Complex.sqrt (1 - 9 * (u : ℂ)) = ((√(1 - 9 * u) : ℝ) : ℂ) := by
    rw [show (1 : ℂ) - 9 * (u : ℂ) = ((1 - 9 * u : ℝ) : ℂ) by push_cast; ring, sqrt_ofReal (by linarith)]
  rw [es, ea] at hsa
  have hη := scEta_mul (u : ℂ)
  rw [es, ea] at hη
  set s := √(1 - u) with hs
  set a := √(1 - 9 * u) with ha
  have hs0 : 0 ≤ s := Real.sqrt_nonneg _
  have ha0 : 0 ≤ a := Real.sqrt_nonneg _
  have hs2 : s ^ 2 = 1 - u := Real.sq_sqrt (by linarith)
  have hs1 : s < 1 := by nlinarith
  set η := (1 - s) / (1 + a) with hηd
  have hη0 : 0 < η := div_pos (by linarith) (by linarith)
  have hηu : η ≤ u := by
    rw [hηd, div_le_iff₀ (by linarith)]
    nlinarith
  set t := √η with ht
  have ht2 : t ^ 2 = η := Real.sq_sqrt hη0.le
  have ht0 : 0 < t := Real.sqrt_pos.2 hη0
  have htx : t ≤ 1 / (3 * x) := by
    rw [ht]
    apply Real.sqrt_le_iff.2
    refine ⟨by positivity, hηu.trans (le_of_eq ?_)⟩
    rw [hu, one_div_pow]
  have htr : t < r := by
    have h2 : 1 / (3 * x) ≤ 1 / x := by
      apply one_div_le_one_div_of_le hx0
      linarith
    have h3 : 1 / x < r := by
      rw [div_lt_iff₀ hr0] at hxr
      rw [div_lt_iff₀ hx0]
      linarith
    linarith
  have htm : t ^ 2 * (1 + a) = 1 - s := by
    rw [ht2, hηd]
    exact div_mul_cancel₀ _ (by linarith)
  have hgood := scGood_of ht0 (by linarith)
  have hV := scV_of_roots hsa htm hgood.hE
  have hj := hr t ⟨ht0, htr⟩
  rw [hV, h9u, ← one_div_pow] at hj
  have hser := bzGreen_series (μ := bz3) (measurable_scDisp 1) (scDisp_abs zero_le_one) hx1
  have hc : bandMoment bz3 (scDisp 1) = fun n => (((1 / 3) ^ n * scM n : ℚ) : ℝ) := by
    funext n
    rw [Props.sc_bandMoment]
    simp
  have hcc : (fun n => (((1 / 3) ^ (2 * n) * scM (2 * n) : ℚ) : ℝ)) = scCoeff := by
    funext n
    rw [scCoeff, pow_mul]
    norm_num
  rw [hser, hc, dser_even (fun n hn => by simp [Props.scM_odd hn]), hcc]
  have hξ : ((t : ℂ)) ^ 2 = scEta (1 / (3 * (x : ℂ)) ^ 2) := by
    have e1 : (1 : ℂ) / (3 * (x : ℂ)) ^ 2 = (u : ℂ) := by rw [hu]; push_cast; ring
    rw [e1]
    have e2 : ((t : ℂ)) ^ 2 * (1 + (a : ℂ)) = 1 - (s : ℂ) := by exact_mod_cast htm
    have e3 : (1 : ℂ) + (a : ℂ) ≠ 0 := by exact_mod_cast (by linarith : (0:ℝ) < 1 + a).ne'
    exact mul_right_cancel₀ e3 (e2.trans hη.symm)
  rw [scForm_of hξ]
  have hB : horner scnB t ≠ 0 := by rw [scnB_eq]; exact mul_ne_zero (pow_ne_zero 3 hgood.h1) hgood.h4
  have hE : horner scnE t ≠ 0 := by rw [scnE_eq]; exact hgood.hE
  have hm : (1 : ℂ) - scH (t : ℂ) = ((scMu t : ℝ) : ℂ) := by
    have := one_sub_scMu hgood
    have e : scMu t = 1 - (1 + t) ^ 3 * (1 - 3 * t) / ((1 - t) ^ 3 * (1 + 3 * t)) := by linarith
    rw [e, scH]
    push_cast
    ring
  unfold scR
  rw [hm, ← hj]
  have eB : (1 - (t : ℂ)) ^ 3 * (1 + 3 * (t : ℂ)) = ((horner scnB t : ℝ) : ℂ) := by rw [scnB_eq]; push_cast; ring
  have eE : (1 - 9 * (t : ℂ) ^ 4) = ((horner scnE t : ℝ) : ℂ) := by rw [scnE_eq]; push_cast; ring
  rw [eB, eE]
  have hBc : ((horner scnB t : ℝ) : ℂ) ≠ 0 := by exact_mod_cast hB
  have hEc : ((horner scnE t : ℝ) : ℂ) ≠ 0 := by exact_mod_cast hE
  push_cast
  field_simp

lemma sc_offBand {z : ℂ} (hz : ∀ e ∈ Set.Icc (-1 : ℝ) 1, z ≠ (e : ℂ)) :
    1 - 1 / (3 * z) ^ 2 ∈ Complex.slitPlane ∧ 1 - 9 * (1 / (3 * z) ^ 2) ∈ Complex.slitPlane := by
  constructor
  · refine Props.offBand_slit fun e he h => hz (e / 3) ⟨by linarith [he.1], by linarith [he.2]⟩ ?_
    push_cast
    linear_combination h / 3
  · have := Props.offBand_slit hz
    rwa [show 9 * (1 / (3 * z) ^ 2) = 1 / z ^ 2 by rw [mul_pow]; field_simp; norm_num]

/-- The Green's function for unit half-bandwidth. -/
lemma sc_green_one {z : ℂ} (hz : ∀ e ∈ Set.Icc (-1 : ℝ) 1, z ≠ (e : ℂ)) :
    bzGreen bz3 (scDisp 1) z = 3 * scForm (3 * z) := by
  obtain ⟨X, _, hX⟩ := sc_green_large
  refine eq_offBand (f := bzGreen bz3 (scDisp 1)) (g := fun z => 3 * scForm (3 * z))
    (X := X) (differentiableOn_bzGreen (measurable_scDisp 1) (scDisp_mem zero_le_one)) ?_ hX hz
  intro z hz
  have hz0 : z ≠ 0 := by simpa using hz 0 (by norm_num)
  have h3z : 3 * z ≠ 0 := mul_ne_zero (by norm_num) hz0
  obtain ⟨h1, h9⟩ := sc_offBand hz
  apply DifferentiableAt.differentiableWithinAt
  have hw : DifferentiableAt ℂ (fun z : ℂ => 1 / (3 * z) ^ 2) z :=
    (differentiableAt_const _).div (by fun_prop) (pow_ne_zero _ h3z)
  have hg : DifferentiableAt ℂ (fun z : ℂ => scR (Complex.sqrt (scEta (1 / (3 * z) ^ 2)))) z :=
    DifferentiableAt.comp (f := fun z : ℂ => 1 / (3 * z) ^ 2) (g := fun u => scR (Complex.sqrt (scEta u))) z
      (differentiableAt_scGen (one_div_ne_zero (pow_ne_zero 2 h3z)) h1 h9) hw
  exact (hg.div (by fun_prop) h3z).const_mul 3

lemma sc_scale {D : ℝ} (hD : 0 < D) (z : ℂ) :
    bzGreen bz3 (scDisp D) z = 1 / D * bzGreen bz3 (scDisp 1) (z / D) := by
  have hDc : (D : ℂ) ≠ 0 := by exact_mod_cast hD.ne'
  unfold bzGreen
  rw [← integral_const_mul]
  congr 1
  funext k
  unfold scDisp
  push_cast
  rw [one_div_mul_one_div, mul_sub, mul_div_cancel₀ _ hDc]
  congr 2
  ring

/-- The Green's function off the band. -/
lemma sc_green {D : ℝ} (hD : 0 < D) {z : ℂ} (hz : OffBand z D) :
    bzGreen bz3 (scDisp D) z = 3 / D * scForm (3 / D * z) := by
  have hDc : (D : ℂ) ≠ 0 := by exact_mod_cast hD.ne'
  rw [sc_scale hD, sc_green_one]
  · rw [show 3 * (z / (D : ℂ)) = 3 / D * z by ring]
    ring
  · intro e he h
    refine hz (e * D) ?_ ?_
    · rw [abs_mul, abs_of_pos hD]
      have := abs_le.2 he
      nlinarith
    · rw [div_eq_iff hDc] at h
      rw [h]
      push_cast
      ring

lemma sc_green_neg {D : ℝ} (hD : 0 < D) {z : ℂ} (hz : OffBand z D) :
    bzGreen bz3 (scDisp D) (-z) = -bzGreen bz3 (scDisp D) z := by
  rw [sc_green hD hz, sc_green hD, mul_neg, scForm_neg, mul_neg]
  intro e he h
  refine hz (-e) (by rwa [abs_neg]) ?_
  push_cast
  rw [← h, neg_neg]

end Gftool.Lemmas
