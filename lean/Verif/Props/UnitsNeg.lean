import Verif.Props.UnitsFourier
import Verif.Model.Laplace
import Mathlib.Analysis.Real.Pi.Bounds
import Mathlib.Analysis.Complex.ExponentialBounds

/-!
# Property C78: where the unit of energy matters
-/

namespace Gftool.Props

open Gftool Model Spec Lemmas Matrix

private lemma cheb_two : chebyshevPoints 2 0 = -(√2 / 2) ∧ chebyshevPoints 2 1 = √2 / 2 := by
  have h := Real.sin_pi_div_four
  constructor
  · rw [← h, ← Real.sin_neg]
    unfold chebyshevPoints
    congr 1
    norm_num
    ring
  · rw [← h]
    unfold chebyshevPoints
    congr 1
    norm_num
    ring

private lemma two_pole_z {a μ ω : ℝ} (ha : 0 < a) (p : PoleFct ℝ 2) (h0 : p.poles 0 = -a) (h1 : p.poles 1 = a)
    (hm : ∀ m : Fin 2, poleMoments p.poles p.residues ((m : ℕ) + 1 : ℤ) = ![1, μ] m) :
    p.evalZ (Complex.I * ω) = -((μ / (ω ^ 2 + a ^ 2) : ℝ) : ℂ) - Complex.I * ((ω / (ω ^ 2 + a ^ 2) : ℝ) : ℂ) ∧
    p.residues 0 + p.residues 1 = 1 ∧ a * (p.residues 1 - p.residues 0) = μ := by
  have e0 := hm 0
  have e1 := hm 1
  simp only [poleMoments, Fin.sum_univ_two, Fin.val_zero, Nat.cast_zero, zero_add, sub_self, zpow_zero, mul_one,
    cons_val_zero] at e0
  simp only [poleMoments, Fin.sum_univ_two, h0, h1, Fin.val_one, Nat.cast_one, add_sub_cancel_right, zpow_one,
    cons_val_one, cons_val_fin_one] at e1
  refine ⟨?_, e0, by linarith⟩
  have hd : (ω ^ 2 + a ^ 2 : ℝ) ≠ 0 := by positivity
  have hdc : ((ω : ℂ) ^ 2 + (a : ℂ) ^ 2) ≠ 0 := by exact_mod_cast hd
  have d1 : Complex.I * ω - ((-a : ℝ) : ℂ) ≠ 0 := fun h => ha.ne' (by simpa using congrArg Complex.re h)
  have d2 : Complex.I * ω - (a : ℂ) ≠ 0 := fun h => ha.ne' (by simpa using congrArg Complex.re h)
  have e0c : (p.residues 0 : ℂ) + p.residues 1 = 1 := by exact_mod_cast e0
  have e1c : (p.residues 0 : ℂ) * -a + p.residues 1 * a = μ := by exact_mod_cast e1
  have hprod : (Complex.I * ω - ((-a : ℝ) : ℂ)) * (Complex.I * ω - a) = -((ω : ℂ) ^ 2 + (a : ℂ) ^ 2) := by
    push_cast
    linear_combination (ω : ℂ) ^ 2 * Complex.I_sq
  unfold PoleFct.evalZ poleGfZ
  simp only
  rw [Fin.sum_univ_two, h0, h1, div_add_div _ _ d1 d2, hprod]
  push_cast
  field_simp
  linear_combination -(Complex.I * ω) * e0c - e1c

private lemma dft_im (h : Fin 2 → ℝ) (b : ℝ) : ∃ r, tau2iwDft (T := 1) h b = .ok r ∧ (r 0).im = 0 := by
  unfold tau2iwDft ihfft
  rw [if_neg (by norm_num)]
  refine ⟨_, rfl, ?_⟩
  have e : Complex.exp (2 * Real.pi * Complex.I * (1 * 1) / 2) = -1 := by
    rw [← Complex.exp_pi_mul_I]
    congr 1
    ring
  have hs : ∑ k : Fin 2, ((fullRange (T := 1) h k.castSucc : ℝ) : ℂ)
      * Complex.exp (2 * Real.pi * Complex.I * ((k : ℕ) * (1 : ℕ)) / ((2 * 1 : ℕ) : ℂ))
      = ((fullRange (T := 1) h 0 - fullRange (T := 1) h 1 : ℝ) : ℂ) := by
    rw [Fin.sum_univ_two]
    simp only [Fin.val_zero, Fin.val_one, Nat.cast_zero, Nat.cast_one, mul_zero, zero_div, Complex.exp_zero,
      mul_one]
    push_cast
    rw [mul_one] at e
    rw [mul_one] at e
    rw [e]
    ring
  have hs2 : (-(b : ℂ)) * (1 / ((2 * 1 : ℕ) : ℂ) * ((fullRange (T := 1) h 0 - fullRange (T := 1) h 1 : ℝ) : ℂ))
      = ((-b * (1 / 2 * (fullRange (T := 1) h 0 - fullRange (T := 1) h 1)) : ℝ) : ℂ) := by
    push_cast
    ring
  refine (congrArg Complex.im ((congrArg (fun x : ℂ => -(b : ℂ) * (1 / ((2 * 1 : ℕ) : ℂ) * x)) hs).trans hs2)).trans ?_
  exact Complex.ofReal_im _

/-- C78, violated: `tau2iw` with two given moments always fits with poles at `±1/√2` in whatever unit is used: the result for
the same physical system (half-filled, data at two times) depends on the unit. -/
theorem tau2iw_two_moments_depends_on_unit (ext : LinalgExt ℝ) (g : Fin 2 → ℝ) {beta : ℝ} (hb : 0 < beta) :
    ∃ r r', tau2iw (T := 1) ext g beta none (some ⟨2, ![1, 0]⟩) tau2iwDft = .ok r ∧
      tau2iw (T := 1) ext g (beta / 2) none (some ⟨2, scaleMoments 2 ![1, 0]⟩) tau2iwDft = .ok r' ∧
      r' 0 ≠ r 0 / 2 := by
  have hm : scaleMoments 2 (![1, 0] : Fin 2 → ℝ) = ![1, 0] := by
    funext k
    fin_cases k <;> simp [scaleMoments]
  have key : ∀ b : ℝ, 0 < b → ∃ r, tau2iw (T := 1) ext g b none (some ⟨2, ![1, 0]⟩) tau2iwDft = .ok r ∧
      (r 0).im = -(Real.pi / b) / ((Real.pi / b) ^ 2 + 1 / 2) := by
    intro b hb
    obtain ⟨p, hp, hpol, hmom, -⟩ := gf_from_tau_moments ext g hb.le ![1, 0] (width := 1) none
      (n := 2) (by norm_num) (le_refl 2) one_ne_zero
    have h0 : p.poles 0 = -(√2 / 2) := by rw [hpol, cheb_two.1, one_mul]
    have h1 : p.poles 1 = √2 / 2 := by rw [hpol, cheb_two.2, one_mul]
    have ha : (√2 / 2) ^ 2 = (1 / 2 : ℝ) := by
      rw [div_pow, Real.sq_sqrt (by norm_num)]
      norm_num
    have hz := (two_pole_z (ω := Real.pi / b) (by positivity) p h0 h1 hmom).1
    have hlin : ∀ i : Fin 2, 0 ≤ linspace0 b 2 i ∧ linspace0 b 2 i ≤ b := fun i => linspace_mem hb.le i
    obtain ⟨r, hr, hi⟩ := dft_im (fun k => g k
      - ∑ j, p.residues j * singlePoleGfTau (linspace0 b 2 k) (p.poles j) b) b
    refine ⟨fun i => r i + p.evalZ (matsubaraFrequencies (i : ℕ) b), ?_, ?_⟩
    · unfold tau2iw tau2iwMoments
      simp only [OfNat.ofNat_ne_zero, if_false, Option.getD_none, hp]
      unfold evalTauGrid
      rw [if_pos hlin]
      simp only [hr]
    · have hw : matsubaraFrequencies ((0 : Fin ((1 + 1) / 2)) : ℕ) b = Complex.I * ((Real.pi / b : ℝ) : ℂ) := by
        unfold matsubaraFrequencies
        push_cast
        simp
        ring
      simp only
      rw [hw, hz, ha, Complex.add_im, hi]
      simp only [Complex.sub_im, Complex.neg_im, Complex.ofReal_im, Complex.I_mul_im, Complex.ofReal_re]
      ring
  obtain ⟨r, hr, hi⟩ := key beta hb
  obtain ⟨r', hr', hi'⟩ := key (beta / 2) (by positivity)
  refine ⟨r, r', hr, by rw [hm]; exact hr', fun h => ?_⟩
  have h2 := congrArg Complex.im h
  rw [hi', show (r 0 / 2 : ℂ).im = (r 0).im / 2 by
    rw [show (2 : ℂ) = ((2 : ℝ) : ℂ) by norm_num, Complex.div_ofReal_im], hi] at h2
  have hpi := Real.pi_pos
  have h3 : (Real.pi / (beta / 2)) = 2 * (Real.pi / beta) := by field_simp
  rw [h3] at h2
  have h4 : 0 < Real.pi / beta := by positivity
  set x := Real.pi / beta
  field_simp at h2
  nlinarith [sq_nonneg x]

private lemma moments_poles {n : ℕ} {m : Fin n → ℝ} {p : PoleFct ℝ n} (hp : gfFromMoments m none = .ok p) :
    p.poles = fun k => autoWidth n m none * chebyshevPoints n k := by
  simp only [gfFromMoments] at hp
  split at hp
  · rw [← Except.ok.inj hp]
  · cases hp

private lemma density_two {a μ ω beta : ℝ} (ha : 0 < a) (ext : LinalgExt ℝ) (g : ℂ) (m : Fin 2 → ℝ) (hm : m = ![1, μ])
    (hpol : ∀ p : PoleFct ℝ 2, gfFromMoments m none = .ok p → p.poles 0 = -a ∧ p.poles 1 = a) :
    densityIw ext (k := 1) (fun _ => Complex.I * (ω : ℂ)) (fun _ => g) beta (fun _ => 1) m 0
      = .ok (2 / beta * (g.re + μ / (ω ^ 2 + a ^ 2))
        + ((1 - μ / a) / 2 * fermiFct (-a) beta + (1 + μ / a) / 2 * fermiFct a beta)) := by
  obtain ⟨p, hp, -, -, hmom⟩ := gf_from_moments_correct m none (.inl (by simp))
  obtain ⟨h0, h1⟩ := hpol p hp
  have hmom' : ∀ k : Fin 2, poleMoments p.poles p.residues ((k : ℕ) + 1 : ℤ) = ![1, μ] k := fun k => by
    rw [← hm]
    exact hmom k
  obtain ⟨hz, e0, e1⟩ := two_pole_z (ω := ω) ha p h0 h1 hmom'
  have r0 : p.residues 0 = (1 - μ / a) / 2 := by
    field_simp
    linear_combination a * e0 - e1
  have r1 : p.residues 1 = (1 + μ / a) / 2 := by
    field_simp
    linear_combination a * e0 + e1
  unfold densityIw
  simp only [ne_eq, not_true_eq_false, if_false, hp]
  unfold PoleFct.evalZ at hz
  rw [hz]
  congr 2
  · simp only [Finset.univ_unique, Finset.sum_const, Finset.card_singleton, one_smul, one_mul, Complex.sub_re,
      Complex.neg_re, Complex.ofReal_re, Complex.I_mul_re, Complex.ofReal_im]
    ring
  · unfold poleOcc
    rw [Fin.sum_univ_two, h0, h1, r0, r1]

/-- C78, violated: `density_iw` with two moments chooses other poles if the first moment is below `0.1`: for the same physical
system and data at one frequency the densities differ for units which differ by the factor `4`. -/
theorem density_iw_depends_on_unit (ext : LinalgExt ℝ) (g : ℂ) :
    ∃ n n', densityIw ext (k := 1) (fun _ => matsubaraFrequencies 0 (5 * Real.pi)) (fun _ => g) (5 * Real.pi) (fun _ => 1)
        ![1, 1 / 5] 0 = .ok n ∧
      densityIw ext (k := 1) (fun _ => ((1 / 4 : ℝ) : ℂ) * matsubaraFrequencies 0 (5 * Real.pi))
        (fun _ => g / ((1 / 4 : ℝ) : ℂ)) (5 * Real.pi / (1 / 4)) (fun _ => 1) (scaleMoments (1 / 4) ![1, 1 / 5]) 0 = .ok n' ∧
      n < n' := by
  have hpi := Real.pi_pos
  have hω : matsubaraFrequencies 0 (5 * Real.pi) = Complex.I * ((1 / 5 : ℝ) : ℂ) := by
    have : (Real.pi : ℂ) ≠ 0 := by exact_mod_cast hpi.ne'
    unfold matsubaraFrequencies
    push_cast
    field_simp
    norm_num
  have hω' : ((1 / 4 : ℝ) : ℂ) * matsubaraFrequencies 0 (5 * Real.pi) = Complex.I * ((1 / 20 : ℝ) : ℂ) := by
    rw [hω]
    push_cast
    ring
  have hm : scaleMoments (1 / 4) ![1, 1 / 5] = (![1, 1 / 20] : Fin 2 → ℝ) := by
    funext k
    fin_cases k <;> norm_num [scaleMoments]
  have n5 : ‖((![1, 1 / 5] : Fin 2 → ℝ) 1)‖ = 1 / 5 := by norm_num
  have n20 : ‖((![1, 1 / 20] : Fin 2 → ℝ) 1)‖ = 1 / 20 := by norm_num
  refine ⟨_, _, by
    rw [hω]
    exact density_two (a := 1 / 5) (μ := 1 / 5) (by norm_num) ext g _ rfl fun p hp => by
      have h1 := (gf_from_moments_auto_width (by norm_num) _ (by rw [show (⟨1, _⟩ : Fin 2) = 1 from rfl, n5]; norm_num) hp).1
      rw [show (⟨1, _⟩ : Fin 2) = 1 from rfl, n5] at h1
      have h1' : p.poles 1 = 1 / 5 := h1
      refine ⟨?_, h1'⟩
      have h2 := moments_poles hp
      rw [h2] at h1' ⊢
      simp only [cheb_two.1, cheb_two.2] at h1' ⊢
      linarith, by
    rw [hω', hm]
    exact density_two (a := √2 / 2) (μ := 1 / 20) (by positivity) ext _ _ rfl fun p hp => by
      have hw : autoWidth 2 (![1, 1 / 20] : Fin 2 → ℝ) none = 1 := by
        unfold autoWidth
        simp only
        rw [dif_pos (by norm_num), if_neg]
        rw [show (⟨1, _⟩ : Fin 2) = 1 from rfl, n20]
        norm_num
      rw [moments_poles hp, hw]
      simp only [cheb_two.1, cheb_two.2, one_mul, and_self], ?_⟩
  have hg : (g / ((1 / 4 : ℝ) : ℂ)).re = 4 * g.re := by
    rw [Complex.div_ofReal_re]
    ring
  rw [hg, fermi_fct_neg (√2 / 2)]
  have hf : fermiFct (1 / 5) (5 * Real.pi) < 105 / 1000 := by
    rw [fermi_fct_eq]
    unfold Spec.fermi
    have h := Real.quadratic_le_exp_of_nonneg (x := 5 * Real.pi * (1 / 5)) (by positivity)
    have h3 := Real.pi_gt_d2
    rw [div_lt_iff₀ (by positivity)]
    nlinarith
  obtain ⟨f0, -⟩ := fermi_fct_mem_Ioo (√2 / 2) (5 * Real.pi / (1 / 4))
  set f := fermiFct (√2 / 2) (5 * Real.pi / (1 / 4))
  set f' := fermiFct (1 / 5) (5 * Real.pi)
  have h2 : √2 ^ 2 = 2 := Real.sq_sqrt (by norm_num)
  have hs : 0 < √2 := by positivity
  have hs2 : √2 < 3 / 2 := by nlinarith
  have e1 : (1 / 20 : ℝ) / (√2 / 2) = √2 / 20 := by
    field_simp
    nlinarith
  rw [e1, div_pow (√2), h2]
  have hi : Real.pi⁻¹ < 1 / 3 := by
    rw [inv_lt_comm₀ hpi (by norm_num)]
    linarith [Real.pi_gt_three]
  have hi0 : 0 < Real.pi⁻¹ := by positivity
  have l : 2 / (5 * Real.pi) * (g.re + 1 / 5 / ((1 / 5) ^ 2 + (1 / 5) ^ 2)) = 2 / 5 * Real.pi⁻¹ * g.re + Real.pi⁻¹ := by
    field_simp
    norm_num
    ring
  have r : 2 / (5 * Real.pi / (1 / 4)) * (4 * g.re + 1 / 20 / ((1 / 20) ^ 2 + 2 / 2 ^ 2))
      = 2 / 5 * Real.pi⁻¹ * g.re + 1 / 10 * Real.pi⁻¹ * (1 / 20 / ((1 / 20) ^ 2 + 2 / 2 ^ 2)) := by
    field_simp
    norm_num
    ring
  rw [l, r]
  have p1 : 0 < 1 / 10 * Real.pi⁻¹ * (1 / 20 / ((1 / 20) ^ 2 + 2 / 2 ^ 2)) := by positivity
  have p2 : 0 < √2 * f := by positivity
  norm_num
  nlinarith

private lemma pole_half {a b : ℝ} (ha : 0 < a) (hb : 0 < b) :
    (-(1 / 2) ≤ singlePoleGfTau (b / 2) a b ∧ singlePoleGfTau (b / 2) a b ≤ 0) ∧
      singlePoleGfTau (b / 2) (-a) b = singlePoleGfTau (b / 2) a b := by
  have e : singlePoleGfTau (b / 2) a b = -Real.exp (-(b / 2) * a) * fermiFct (-a) b := by
    unfold singlePoleGfTau npSign
    simp only [ha.le, ha, ha.not_gt, if_true, if_false]
    congr 2
    ring
  refine ⟨?_, ?_⟩
  · rw [e, fermi_fct_eq]
    unfold Spec.fermi
    have h : Real.exp (b * -a) = Real.exp (-(b / 2) * a) ^ 2 := by
      rw [← Real.exp_nat_mul]
      congr 1
      push_cast
      ring
    rw [h]
    have hp := Real.exp_pos (-(b / 2) * a)
    set y := Real.exp (-(b / 2) * a)
    have hq : 0 < y ^ 2 + 1 := by positivity
    constructor
    · rw [mul_one_div, le_div_iff₀ hq]
      nlinarith [sq_nonneg (y - 1)]
    · have : 0 < y * (1 / (y ^ 2 + 1)) := by positivity
      linarith
  · rw [e]
    unfold singlePoleGfTau npSign
    have h1 : ¬ (0 ≤ -a) := by linarith
    have h2 : ¬ (0 < -a) := by linarith
    have h3 : -a < 0 := by linarith
    simp only [h1, h2, h3, if_false, if_true]
    congr 2
    · congr 1
      ring
    · ring

/-- C78, violated: `iw2tau` with two moments fits with poles at `±1/√2` (in whatever unit is used): the result for the same physical system (half-filled, data at one frequency) depends on the unit. -/
theorem iw2tau_two_moments_depends_on_unit (ext : LinalgExt ℝ) (g : ℂ) :
    ∃ r r', iw2tau (N := 1) ext (fun _ => g) 1 ![1, 0] iw2tauDft 0 = .ok r ∧
      iw2tau (N := 1) ext (fun _ => g / ((1 / 100 : ℝ) : ℂ)) (1 / (1 / 100)) (scaleMoments (1 / 100) ![1, 0]) iw2tauDft 0 = .ok r' ∧
      r' 1 < r 1 := by
  have hm : scaleMoments (1 / 100) (![1, 0] : Fin 2 → ℝ) = ![1, 0] := by
    funext k
    fin_cases k <;> simp [scaleMoments]
  have key : ∀ (g : ℂ) (b : ℝ), 0 < b → ∃ r, iw2tau (N := 1) ext (fun _ => g) b ![1, 0] iw2tauDft 0 = .ok r ∧
      r 1 = 2 / b * g.im + 2 * Real.pi / (Real.pi ^ 2 + b ^ 2 / 2) + singlePoleGfTau (b / 2) (√2 / 2) b := by
    intro g b hb
    obtain ⟨p, hp, -, -, hmom⟩ := gf_from_moments_correct (n := 2) (![1, 0] : Fin 2 → ℝ) (some 1) (.inl (by simp))
    have hpol : p.poles = fun k => 1 * chebyshevPoints 2 k := by
      simp only [gfFromMoments, autoWidth] at hp
      split at hp
      · rw [← Except.ok.inj hp]
      · cases hp
    have h0 : p.poles 0 = -(√2 / 2) := by
      simp only [hpol, cheb_two.1, one_mul]
    have h1 : p.poles 1 = √2 / 2 := by
      simp only [hpol, cheb_two.2, one_mul]
    have ha : (√2 / 2) ^ 2 = (1 / 2 : ℝ) := by
      rw [div_pow, Real.sq_sqrt (by norm_num)]
      norm_num
    obtain ⟨hz, e0, e1⟩ := two_pole_z (ω := Real.pi / b) (by positivity) p h0 h1 hmom
    have er : p.residues 1 = p.residues 0 := by
      have : p.residues 1 - p.residues 0 = 0 := (mul_eq_zero.1 e1).resolve_left (by positivity)
      linarith
    have hwm : ∀ i : Fin 1, matsubaraFrequencies ((i : ℕ) : ℤ) b = Complex.I * ((Real.pi / b : ℝ) : ℂ) := by
      intro i
      rw [Subsingleton.elim i 0]
      unfold matsubaraFrequencies
      push_cast
      simp
      ring
    have hlin : ∀ i : Fin 3, 0 ≤ linspace0 b 3 i ∧ linspace0 b 3 i ≤ b := fun i => linspace_mem hb.le i
    obtain ⟨d, hd, hd'⟩ := iw2tau_dft_correct (N := 1) one_ne_zero
      (fun i : Fin 1 => g - p.evalZ (matsubaraFrequencies (i : ℕ) b)) hb.ne'
    refine ⟨fun j => d j + ∑ i, p.residues i * singlePoleGfTau (linspace0 b 3 j) (p.poles i) b, ?_, ?_⟩
    · unfold iw2tau iw2tauPoles
      simp only [hp, hd]
      unfold evalTauGrid
      rw [if_pos hlin]
    · have hl : linspace0 b 3 1 = b / 2 := by
        unfold linspace0
        norm_num
      have hs : ∑ i : Fin 2, p.residues i * singlePoleGfTau (linspace0 b 3 1) (p.poles i) b
          = singlePoleGfTau (b / 2) (√2 / 2) b := by
        rw [Fin.sum_univ_two, h0, h1, hl, (pole_half (by positivity) hb).2, er, ← add_mul]
        rw [er] at e0
        rw [e0, one_mul]
      have hd1 : d 1 = 2 / b * (g.im + (Real.pi / b) / ((Real.pi / b) ^ 2 + 1 / 2)) := by
        have h := hd' 1
        have hbc : (b : ℂ) ≠ 0 := by exact_mod_cast hb.ne'
        have ht : Complex.I * ((Real.pi / b : ℝ) : ℂ) * ((tauPt b (2 * 1) ((1 : Fin 3) : ℕ) : ℝ) : ℂ)
            = Real.pi / 2 * Complex.I := by
          unfold tauPt
          push_cast
          simp only [Fin.val_one, Nat.cast_one]
          field_simp
        have hsum : ∑ l : Fin 1, ((fun i : Fin 1 => g - p.evalZ (matsubaraFrequencies (i : ℕ) b)) l
              * Complex.exp (-(matsubaraFrequencies (l : ℕ) b * tauPt b (2 * 1) ((1 : Fin 3) : ℕ)))
            + star ((fun i : Fin 1 => g - p.evalZ (matsubaraFrequencies (i : ℕ) b)) l)
              * Complex.exp (matsubaraFrequencies (l : ℕ) b * tauPt b (2 * 1) ((1 : Fin 3) : ℕ)))
            = ((2 * (g.im + (Real.pi / b) / ((Real.pi / b) ^ 2 + 1 / 2)) : ℝ) : ℂ) := by
          simp only [hwm, Finset.univ_unique, Finset.sum_const, Finset.card_singleton, one_smul, ht, hz, ha,
            Complex.exp_neg, Complex.exp_pi_div_two_mul_I, Complex.inv_I]
          generalize (Real.pi / b) / ((Real.pi / b) ^ 2 + 1 / 2) = q
          apply Complex.ext <;> simp <;> ring
        rw [hsum] at h
        have h' : d 1 = 1 / b * (2 * (g.im + (Real.pi / b) / ((Real.pi / b) ^ 2 + 1 / 2))) := by exact_mod_cast h
        rw [h']
        ring
      have e3 : 2 / b * ((Real.pi / b) / ((Real.pi / b) ^ 2 + 1 / 2)) = 2 * Real.pi / (Real.pi ^ 2 + b ^ 2 / 2) := by
        field_simp
      refine (congrArg₂ (· + ·) hd1 hs).trans ?_
      rw [← e3]
      ring
  obtain ⟨r, hr, hi⟩ := key g 1 one_pos
  obtain ⟨r', hr', hi'⟩ := key (g / ((1 / 100 : ℝ) : ℂ)) (1 / (1 / 100)) (by norm_num)
  refine ⟨r, r', hr, by rw [hm]; exact hr', ?_⟩
  rw [hi, hi', Complex.div_ofReal_im]
  have ha : 0 < √2 / 2 := by positivity
  have b1 := (pole_half ha one_pos).1.1
  have b2 := (pole_half ha (b := 1 / (1 / 100)) (by norm_num)).1.2
  have h3 := Real.pi_gt_three
  have h4 := Real.pi_lt_d2
  have q1 : 55 / 100 < 2 * Real.pi / (Real.pi ^ 2 + 1 ^ 2 / 2) := by
    rw [lt_div_iff₀ (by positivity)]
    nlinarith
  have q2 : 2 * Real.pi / (Real.pi ^ 2 + (1 / (1 / 100)) ^ 2 / 2) < 1 / 100 := by
    rw [div_lt_iff₀ (by positivity)]
    nlinarith
  have : 2 / (1 / (1 / 100)) * (g.im / (1 / 100)) = 2 / 1 * g.im := by ring
  rw [this]
  linarith

end Gftool.Props
