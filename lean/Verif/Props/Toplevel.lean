import Verif.Model.Toplevel
import Verif.Spec.Statistics
import Verif.Props.Statistics
import Mathlib.Analysis.SpecialFunctions.Integrals.Basic
import Mathlib.MeasureTheory.Integral.IntervalIntegral.FundThmCalculus
import Mathlib.Tactic

/-!
# Model Green's functions (C47, C48, C49)
-/

namespace Gftool.Props

open Gftool Model Spec
open Complex (I)

/-! ## Hubbard dimer (C47) -/

/-- C47: every `kind` other than `"+"` and `"-"` raises a `ValueError`, and only those. -/
theorem hubbard_dimer_value_error_iff (z : ℂ) (t U : ℝ) (kind : String) :
    hubbardDimerGfZ z t U kind = .error .valueError ↔ kind ≠ "+" ∧ kind ≠ "-" := by
  unfold hubbardDimerGfZ
  by_cases h : kind = "+" ∨ kind = "-"
  · rw [if_neg (not_not.2 h)]
    simp only
    constructor
    · intro h'
      split_ifs at h' <;> cases h'
    · rintro ⟨h1, h2⟩
      rcases h with h | h
      · exact absurd h h1
      · exact absurd h h2
  · rw [if_pos h]
    simp only [true_iff]
    push Not at h
    exact h

lemma dimerW (t U : ℝ) : (0.25 * U * U + 4 * t * t) ^ (0.5 : ℝ) = √(U ^ 2 / 4 + 4 * t ^ 2) := by
  rw [Real.sqrt_eq_rpow]
  congr 1
  · ring
  · norm_num

lemma dimerW_ne {t U : ℝ} (h : t ≠ 0 ∨ U ≠ 0) : 0 < √(U ^ 2 / 4 + 4 * t ^ 2) := by
  apply Real.sqrt_pos.2
  rcases h with h | h
  · positivity
  · positivity

lemma dimer_eq (z : ℂ) {t U : ℝ} (h : t ≠ 0 ∨ U ≠ 0) (kind : String)
    (hk : kind = "+" ∨ kind = "-") :
    hubbardDimerGfZ z t U kind = .ok
      (((0.5 + (if kind = "+" then 1 else -1) * t / √(U ^ 2 / 4 + 4 * t ^ 2) : ℝ) : ℂ)
        / (z - ((0.5 * U - √(U ^ 2 / 4 + 4 * t ^ 2) + (if kind = "+" then 1 else -1) * t : ℝ) : ℂ))
      + ((0.5 - (if kind = "+" then 1 else -1) * t / √(U ^ 2 / 4 + 4 * t ^ 2) : ℝ) : ℂ)
        / (z - ((U + (if kind = "+" then 1 else -1) * t
          - (0.5 * U - √(U ^ 2 / 4 + 4 * t ^ 2)) : ℝ) : ℂ))) := by
  unfold hubbardDimerGfZ
  rw [if_neg (not_not.2 hk)]
  simp only [dimerW]
  rw [if_neg (dimerW_ne h).ne']

/-- C47: the Green's function of the dimer has two real poles with non-negative weights that sum to
one, unless hopping and interaction both vanish. -/
theorem hubbard_dimer_two_poles {t U : ℝ} (h : t ≠ 0 ∨ U ≠ 0) (kind : String)
    (hk : kind = "+" ∨ kind = "-") :
    ∃ w₁ w₂ e₁ e₂ : ℝ, 0 ≤ w₁ ∧ 0 ≤ w₂ ∧ w₁ + w₂ = 1 ∧
      ∀ z, hubbardDimerGfZ z t U kind = .ok (w₁ / (z - e₁) + w₂ / (z - e₂)) := by
  have hW := dimerW_ne h
  set W := √(U ^ 2 / 4 + 4 * t ^ 2) with hWdef
  have hWsq : W ^ 2 = U ^ 2 / 4 + 4 * t ^ 2 := Real.sq_sqrt (by positivity)
  have hle : |t / W| ≤ 1 / 2 := by
    rw [abs_div, abs_of_pos hW, div_le_iff₀ hW]
    apply abs_le_of_sq_le_sq
    · nlinarith [sq_nonneg U]
    · positivity
  obtain ⟨h1, h2⟩ := abs_le.1 hle
  refine ⟨_, _, _, _, ?_, ?_, ?_, fun z => dimer_eq z h kind hk⟩
  · rw [mul_div_assoc]
    rcases hk with rfl | rfl
    · norm_num; linarith
    · rw [if_neg (by decide)]; norm_num; linarith
  · rw [mul_div_assoc]
    rcases hk with rfl | rfl
    · norm_num; linarith
    · rw [if_neg (by decide)]; norm_num; linarith
  · ring

/-- C47: particle-hole symmetry `G₊(U - z) = -G₋(z)`. -/
theorem hubbard_dimer_particle_hole (z : ℂ) (t U : ℝ) (g : ℂ)
    (hg : hubbardDimerGfZ z t U "-" = .ok g) : hubbardDimerGfZ (U - z) t U "+" = .ok (-g) := by
  have h : t ≠ 0 ∨ U ≠ 0 := by
    by_contra hcon
    push Not at hcon
    obtain ⟨rfl, rfl⟩ := hcon
    simp [hubbardDimerGfZ] at hg
    norm_num at hg
    cases hg
  rw [dimer_eq z h "-" (.inr rfl)] at hg
  rw [dimer_eq _ h "+" (.inl rfl), ← Except.ok.inj hg]
  congr 1
  simp only [if_true, show ("-" : String) ≠ "+" by decide, if_false]
  generalize √(U ^ 2 / 4 + 4 * t ^ 2) = W
  have e1 : ((U : ℂ) - z - ((0.5 * U - W + 1 * t : ℝ) : ℂ)) = -(z - ((U + -1 * t - (0.5 * U - W) : ℝ) : ℂ)) := by
    push_cast; ring
  have e2 : ((U : ℂ) - z - ((U + 1 * t - (0.5 * U - W) : ℝ) : ℂ)) = -(z - ((0.5 * U - W + -1 * t : ℝ) : ℂ)) := by
    push_cast; ring
  rw [e1, e2, div_neg, div_neg]
  push_cast
  ring

/-- C47: without interaction there is one pole, at the energy `∓ t` of the orbital. -/
theorem hubbard_dimer_noninteracting (z : ℂ) {t : ℝ} (ht : t ≠ 0) :
    hubbardDimerGfZ z t 0 "+" = .ok (1 / (z + t)) ∧ hubbardDimerGfZ z t 0 "-" = .ok (1 / (z - t)) := by
  have hs : √((0 : ℝ) ^ 2 / 4 + 4 * t ^ 2) = 2 * |t| := by
    rw [show (0 : ℝ) ^ 2 / 4 + 4 * t ^ 2 = (2 * |t|) ^ 2 by rw [mul_pow, sq_abs]; ring]
    exact Real.sqrt_sq (by positivity)
  rw [dimer_eq _ (.inl ht) "+" (.inl rfl), dimer_eq _ (.inl ht) "-" (.inr rfl), hs]
  simp only [if_true, show ("-" : String) ≠ "+" by decide, if_false]
  rcases lt_or_gt_of_ne ht with h | h
  · rw [abs_of_neg h]
    have e : t / (2 * -t) = -1 / 2 := by field_simp
    have e' : -1 * t / (2 * -t) = 1 / 2 := by field_simp
    rw [one_mul, e, e']
    norm_num
    constructor <;> ring
  · rw [abs_of_pos h]
    have e : t / (2 * t) = 1 / 2 := by field_simp
    have e' : -1 * t / (2 * t) = -1 / 2 := by field_simp
    rw [one_mul, e, e']
    norm_num
    constructor <;> ring

/-- For vanishing hopping and interaction the code divides by zero, although the Green's function is
`1 / z`. -/
theorem hubbard_dimer_zero_fails (z : ℂ) : hubbardDimerGfZ z 0 0 "+" = .error .zeroDivision := by
  simp [hubbardDimerGfZ]
  norm_num

/-! ## Hubbard I (C48) -/

/-- C48: the Hubbard-I self-energy reproduces the atomic Green's function. -/
theorem hubbard_I_atomic (z U occ : ℂ) (hz : z ≠ 0) (hzU : z ≠ U) (hden : z - U + U * occ ≠ 0) :
    1 / (z - hubbardISelfZ z U occ) = (1 - occ) / z + occ / (z - U) := by
  unfold hubbardISelfZ
  have h2 : z - U ≠ 0 := sub_ne_zero.2 hzU
  have e : z - U * occ * z / (z - U + U * occ) = z * (z - U) / (z - U + U * occ) := by
    field_simp
    ring
  simp only
  rw [e, one_div_div]
  field_simp
  ring

example : (I : ℂ) ≠ 0 ∧ (I : ℂ) ≠ 2 ∧ I - 2 + 2 * (1 / 2) ≠ 0 := by
  refine ⟨Complex.I_ne_zero, fun h => ?_, fun h => ?_⟩
  · have := congrArg Complex.im h; simp at this
  · have := congrArg Complex.im h; simp at this

/-- C48: the three excluded frequencies are real for real parameters. -/
theorem hubbard_I_atomic_offaxis (z : ℂ) (hz : z.im ≠ 0) (U occ : ℝ) :
    1 / (z - hubbardISelfZ z U occ) = (1 - occ) / z + occ / (z - U) := by
  apply hubbard_I_atomic
  · rintro rfl; simp at hz
  · rintro rfl; simp at hz
  · intro h
    have := congrArg Complex.im h
    simp at this
    exact hz this

/-! ## Bosonic pole Green's function (C49) -/

/-- C49: for positive poles `pole_gf_tau_b` is `-∑ w (1 + n_B(p)) exp(-p τ)`. -/
theorem pole_gf_tau_b_eq {n : ℕ} {tau beta : ℝ} (poles weights : Fin n → ℝ) (hb : 0 < beta)
    (htau : 0 ≤ tau ∧ tau ≤ beta) (hp : ∀ i, 0 < poles i) :
    poleGfTauB tau poles weights beta
      = .ok (some (-∑ i, weights i * (1 + Spec.bose beta (poles i)) * Real.exp (-poles i * tau))) := by
  unfold poleGfTauB
  rw [if_neg (not_not.2 htau), if_neg (by push Not; exact fun i => (hp i).le),
    if_neg (by push Not; exact fun i => mul_ne_zero (neg_ne_zero.2 hb.ne') (hp i).ne'),
    ← Finset.sum_neg_distrib]
  congr 2
  refine Finset.sum_congr rfl fun i _ => ?_
  have hpb : beta * poles i ≠ 0 := (mul_pos hb (hp i)).ne'
  have e : boseFct (poles i) (-beta) = -(1 + Spec.bose beta (poles i)) := by
    have h1 := bose_fct_neg hpb
    rw [bose_fct_eq hpb] at h1
    have h2 : boseFct (poles i) (-beta) = boseFct (-poles i) beta := by
      unfold boseFct
      simp
    rw [h2, h1]
    ring
  rw [e, show -tau * poles i = -poles i * tau by ring]
  ring

/-- C49: times outside `[0, β]` violate the assertion, negative poles raise a `ValueError`. -/
theorem pole_gf_tau_b_error_iff {n : ℕ} (tau beta : ℝ) (poles weights : Fin n → ℝ) (e : Err) :
    poleGfTauB tau poles weights beta = .error e ↔
      (e = .assertionError ∧ ¬ (0 ≤ tau ∧ tau ≤ beta)) ∨
      (e = .valueError ∧ (0 ≤ tau ∧ tau ≤ beta) ∧ ∃ i, poles i < 0) := by
  unfold poleGfTauB
  by_cases h1 : 0 ≤ tau ∧ tau ≤ beta
  · rw [if_neg (not_not.2 h1)]
    by_cases h2 : ∃ i, poles i < 0
    · rw [if_pos h2]
      simp [h1, h2, eq_comm]
    · rw [if_neg h2]
      simp only [h2, h1, and_false, or_false]
      split_ifs <;> simp
  · rw [if_pos h1]
    simp [h1, eq_comm]

/-- The documented `ValueError` for a pole at zero is not raised: the result is not finite. -/
theorem pole_gf_tau_b_zero_pole_accepted :
    poleGfTauB (1 / 2) (![0] : Fin 1 → ℝ) ![1] 1 = .ok none := by
  unfold poleGfTauB
  rw [if_neg (by norm_num), if_neg (by simp), if_pos ⟨0, by simp⟩]

/-- C49: the Fourier transform at the bosonic Matsubara frequencies is the pole Green's function
`∑ w / (iν_k - p)`; for `k = 0` the integral is `-∑ w / p`. -/
theorem pole_gf_tau_b_fourier {n : ℕ} {beta : ℝ} (poles weights : Fin n → ℝ) (hb : 0 < beta)
    (hp : ∀ i, 0 < poles i) (k : ℤ) (G : ℝ → ℝ)
    (hG : ∀ tau, 0 ≤ tau ∧ tau ≤ beta → poleGfTauB tau poles weights beta = .ok (some (G tau))) :
    ∫ tau in (0 : ℝ)..beta, (G tau : ℂ) * Complex.exp (2 * Real.pi * I * k / beta * tau)
      = ∑ i, weights i / (2 * Real.pi * I * k / beta - poles i) := by
  have hbc : (beta : ℂ) ≠ 0 := by exact_mod_cast hb.ne'
  set s : ℂ := 2 * Real.pi * I * k / beta with hs
  have hre : s.re = 0 := by
    rw [hs, show (2 * Real.pi * I * k / beta : ℂ) = ((2 * Real.pi * k / beta : ℝ) : ℂ) * I by
      push_cast; ring]
    simp
  have hsp : ∀ i, s - poles i ≠ 0 := by
    intro i h0
    have := congrArg Complex.re h0
    simp [hre] at this
    exact (hp i).ne' this
  have hexp : Complex.exp (s * beta) = 1 := by
    rw [Complex.exp_eq_one_iff]
    exact ⟨k, by rw [hs]; field_simp⟩
  have hGe : ∀ tau ∈ Set.uIcc 0 beta, (G tau : ℂ) * Complex.exp (s * tau)
      = ∑ i, (-(weights i * (1 + Spec.bose beta (poles i))) : ℂ) * Complex.exp ((s - poles i) * tau) := by
    intro tau htau
    rw [Set.uIcc_of_le hb.le] at htau
    have h1 := hG tau htau
    rw [pole_gf_tau_b_eq poles weights hb htau hp] at h1
    rw [← Option.some.inj (Except.ok.inj h1)]
    push_cast
    rw [neg_mul, Finset.sum_mul, ← Finset.sum_neg_distrib]
    refine Finset.sum_congr rfl fun i _ => ?_
    rw [sub_mul, Complex.exp_sub, neg_mul, Complex.exp_neg]
    field_simp
  rw [intervalIntegral.integral_congr hGe, intervalIntegral.integral_finsetSum]
  · refine Finset.sum_congr rfl fun i _ => ?_
    rw [intervalIntegral.integral_const_mul, integral_exp_mul_complex (hsp i)]
    rw [sub_mul, Complex.exp_sub, hexp]
    simp only [Complex.ofReal_zero, mul_zero, Complex.exp_zero]
    have hx : 1 < Real.exp (beta * poles i) := Real.one_lt_exp_iff.2 (mul_pos hb (hp i))
    have h0 : (Complex.exp (poles i * beta) - 1 : ℂ) ≠ 0 := by
      intro h
      have : Complex.exp (poles i * beta) = ((Real.exp (beta * poles i) : ℝ) : ℂ) := by
        push_cast; rw [mul_comm (beta : ℂ)]
      rw [this] at h
      have h2 : Real.exp (beta * poles i) - 1 = 0 := by exact_mod_cast h
      linarith
    have hb' : (1 + Spec.bose beta (poles i) : ℂ)
        = Complex.exp (poles i * beta) / (Complex.exp (poles i * beta) - 1) := by
      unfold Spec.bose
      push_cast
      rw [mul_comm (beta : ℂ)]
      field_simp
      ring
    rw [hb']
    have := hsp i
    have he := Complex.exp_ne_zero (poles i * beta)
    generalize Complex.exp (poles i * beta) = E at *
    field_simp
    ring
  · intro i _
    apply Continuous.intervalIntegrable
    fun_prop

end Gftool.Props
