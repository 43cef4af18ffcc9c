import Verif.Props.LinalgUnique
import Verif.Props.PoleFit
import Verif.Spec.Units
import Verif.Model.Fourier
import Verif.Model.PadeFreq
import Verif.Model.Toplevel
import Verif.Model.Density
import Verif.Model.DensityTail

/-!
# Property C78: the unit of energy
-/

namespace Gftool.Props

open Gftool Model Spec Lemmas Matrix

/-! ## Distribution functions and frequencies -/

/-- C78: the distribution functions only depend on the product of energy and inverse temperature. -/
theorem statistics_units {c : ℝ} (hc : 0 < c) (eps beta : ℝ) (w : ℂ) (f : ℝ) :
    fermiFct (c * eps) (beta / c) = fermiFct eps beta ∧ fermiFctC (c * w) (beta / c) = fermiFctC w beta ∧
    fermiFctD1 (c * eps) (beta / c) = fermiFctD1 eps beta / c ∧ fermiFctInv f (beta / c) = c * fermiFctInv f beta ∧
    boseFct (c * eps) (beta / c) = boseFct eps beta := by
  have hcc : (c : ℂ) ≠ 0 := by exact_mod_cast hc.ne'
  have h1 : c * eps * (beta / c) = eps * beta := by field_simp
  have h2 : beta / c * (c * eps) = beta * eps := by field_simp
  have h3 : (c : ℂ) * w * ((beta / c : ℝ) : ℂ) = w * beta := by push_cast; field_simp
  have hf : fermiFct (c * eps) (beta / c) = fermiFct eps beta := by simp only [fermiFct, h1]
  refine ⟨hf, by simp only [fermiFctC, h3], ?_, ?_, by simp only [boseFct, h2]⟩
  · simp only [fermiFctD1, hf]
    ring
  · unfold fermiFctInv
    field_simp

/-- C78: Matsubara and Padé frequencies scale with the temperature, the residues of the Padé frequencies are numbers. -/
theorem frequencies_units {c : ℝ} (hc : 0 < c) (beta : ℝ) (n : ℤ) (geig : GEig) (num : ℕ) :
    matsubaraFrequencies n (beta / c) = c * matsubaraFrequencies n beta ∧
    matsubaraFrequenciesB n (beta / c) = c * matsubaraFrequenciesB n beta ∧
    padeFrequencies geig num (beta / c) = (padeFrequencies geig num beta).map fun r => (fun i => (c : ℂ) * r.1 i, r.2) := by
  have hcc : (c : ℂ) ≠ 0 := by exact_mod_cast hc.ne'
  refine ⟨?_, ?_, ?_⟩
  · unfold matsubaraFrequencies
    push_cast
    field_simp
  · unfold matsubaraFrequenciesB
    push_cast
    field_simp
  · unfold padeFrequencies
    cases padeFrequencies0 geig num with
    | error e => rfl
    | ok r =>
      simp only [Except.map]
      congr 2
      funext i
      push_cast
      field_simp

/-! ## Pole functions -/

section
variable {ι : Type*} [Fintype ι]

/-- C78: a pole function with scaled poles is the same function in the other unit. -/
theorem pole_gf_z_units {c : ℝ} (hc : 0 < c) (z : ℂ) (poles weights : ι → ℂ) :
    poleGfZ (c * z) (fun i => c * poles i) weights = poleGfZ z poles weights / c ∧
    poleGfD1Z (c * z) (fun i => c * poles i) weights = poleGfD1Z z poles weights / c ^ 2 := by
  have hcc : (c : ℂ) ≠ 0 := by exact_mod_cast hc.ne'
  constructor
  · unfold poleGfZ
    rw [Finset.sum_div]
    refine Finset.sum_congr rfl fun i _ => ?_
    rw [← mul_sub, div_div, mul_comm]
  · unfold poleGfD1Z
    rw [neg_div, Finset.sum_div]
    congr 1
    refine Finset.sum_congr rfl fun i _ => ?_
    rw [← mul_sub, mul_zpow, zpow_neg, zpow_ofNat]
    field_simp

private lemma npSign_mul {c : ℝ} (hc : 0 < c) (x : ℝ) : npSign (c * x) = npSign x := by
  unfold npSign
  simp only [mul_neg_iff, mul_pos_iff, hc, hc.not_gt, true_and, false_and, or_false]

lemma singlePoleGfTau_units {c : ℝ} (hc : 0 < c) (tau pole beta : ℝ) :
    singlePoleGfTau (tau / c) (c * pole) (beta / c) = singlePoleGfTau tau pole beta := by
  unfold singlePoleGfTau
  simp only [npSign_mul hc]
  have h1 : (0 ≤ c * pole) ↔ 0 ≤ pole := mul_nonneg_iff_of_pos_left hc
  rw [show -npSign pole * (c * pole) = c * (-npSign pole * pole) by ring, (statistics_units hc _ beta 0 0).1]
  simp only [h1]
  congr 3
  split_ifs
  · field_simp
  · field_simp

lemma singlePoleGfTauC_units {c : ℝ} (hc : 0 < c) (tau : ℝ) (pole : ℂ) (beta : ℝ) :
    singlePoleGfTauC (tau / c) (c * pole) (beta / c) = singlePoleGfTauC tau pole beta := by
  have hcc : (c : ℂ) ≠ 0 := by exact_mod_cast hc.ne'
  unfold singlePoleGfTauC
  have hre : ((c : ℂ) * pole).re = c * pole.re := by simp
  simp only [hre, npSign_mul hc]
  have h1 : (0 ≤ c * pole.re) ↔ 0 ≤ pole.re := mul_nonneg_iff_of_pos_left hc
  rw [show -(npSign pole.re : ℂ) * (c * pole) = c * (-(npSign pole.re : ℂ) * pole) by ring,
    (statistics_units hc 0 beta _ 0).2.1]
  simp only [h1]
  congr 3
  push_cast
  split_ifs
  · field_simp
  · field_simp

private lemma tau_range {c : ℝ} (hc : 0 < c) (tau beta : ℝ) :
    (0 ≤ tau / c ∧ tau / c ≤ beta / c) ↔ 0 ≤ tau ∧ tau ≤ beta := by
  rw [le_div_iff₀ hc, zero_mul, div_le_div_iff_of_pos_right hc]

/-- C78: functions of imaginary time do not depend on the unit. -/
theorem pole_gf_tau_units {c : ℝ} (hc : 0 < c) (tau beta : ℝ) (poles weights : ι → ℝ) (polesC weightsC : ι → ℂ) :
    poleGfTau (tau / c) (fun i => c * poles i) weights (beta / c) = poleGfTau tau poles weights beta ∧
    poleGfTauC (tau / c) (fun i => c * polesC i) weightsC (beta / c) = poleGfTauC tau polesC weightsC beta := by
  unfold poleGfTau poleGfTauC
  simp only [tau_range hc, singlePoleGfTau_units hc, singlePoleGfTauC_units hc, and_self]

/-- C78: functions of real time do not depend on the unit. -/
theorem pole_gf_t_units {c : ℝ} (hc : 0 < c) (tt beta : ℝ) (poles weights : ι → ℂ) (pole : ℝ) :
    poleGfRetT (tt / c) (fun i => c * poles i) weights = poleGfRetT tt poles weights ∧
    singlePoleGfGrT (tt / c) (c * pole) (beta / c) = singlePoleGfGrT tt pole beta ∧
    singlePoleGfLeT (tt / c) (c * pole) (beta / c) = singlePoleGfLeT tt pole beta := by
  have hcc : (c : ℂ) ≠ 0 := by exact_mod_cast hc.ne'
  have e : ∀ p : ℂ, -Complex.I * (c * p) * ((tt / c : ℝ) : ℂ) = -Complex.I * p * tt := fun p => by
    push_cast
    field_simp
  refine ⟨?_, ?_, ?_⟩
  · unfold poleGfRetT singlePoleGfRetT
    simp only [e, le_div_iff₀ hc, zero_mul]
  · unfold singlePoleGfGrT
    rw [(statistics_units hc _ beta 0 0).1]
    push_cast
    rw [← Complex.ofReal_div, e]
  · unfold singlePoleGfLeT
    rw [(statistics_units hc _ beta 0 0).1]
    push_cast
    rw [← Complex.ofReal_div, e]

/-- C78: the moments of a pole function and its occupation. -/
theorem pole_moments_units {c : ℝ} (hc : 0 < c) (poles weights : ι → ℝ) (order : ℤ) (beta : ℝ) :
    poleMoments (fun i => c * poles i) weights order = c ^ (order - 1) * poleMoments poles weights order ∧
    poleOcc (fun i => c * poles i) weights (beta / c) = poleOcc poles weights beta := by
  constructor
  · unfold poleMoments
    rw [Finset.mul_sum]
    refine Finset.sum_congr rfl fun i _ => ?_
    rw [mul_zpow]
    ring
  · unfold poleOcc
    simp only [fun i => (statistics_units hc (poles i) beta 0 0).1]

/-- C78: bosonic functions of imaginary time do not depend on the unit. -/
theorem pole_gf_tau_b_units {c : ℝ} (hc : 0 < c) {n : ℕ} (tau beta : ℝ) (poles weights : Fin n → ℝ) :
    poleGfTauB (tau / c) (fun i => c * poles i) weights (beta / c) = poleGfTauB tau poles weights beta := by
  unfold poleGfTauB
  have h1 : ∀ i, boseFct (c * poles i) (-(beta / c)) = boseFct (poles i) (-beta) := fun i => by
    rw [← neg_div, (statistics_units hc _ (-beta) 0 0).2.2.2.2]
  have h2 : ∀ i, -(tau / c) * (c * poles i) = -tau * poles i := fun i => by field_simp
  have h3 : ∀ i, -(beta / c) * (c * poles i) = -beta * poles i := fun i => by field_simp
  simp only [tau_range hc, mul_neg_iff, hc, hc.not_gt, true_and, false_and, or_false, h1, h2, h3]

end

/-- C78, non-vacuity: energies in meV and in eV. -/
example : fermiFct (1000 * 0.1) (40 / 1000) = fermiFct 0.1 40 :=
  (statistics_units (c := 1000) (by norm_num) 0.1 40 0 0).1

end Gftool.Props
