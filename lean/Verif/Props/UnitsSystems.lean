import Verif.Props.Units
import Verif.Props.Siam
import Verif.Props.BebUnique
import Verif.Props.Laplace
import Verif.Props.SeriesSym
import Verif.Model.Lattice

/-!
# Property C78: the unit of energy in lattices, model systems, disorder and Laplace transforms
-/

namespace Gftool.Props

open Gftool Model Spec Lemmas Matrix MeasureTheory

/-! ## Lattices with elementary Green's functions -/

private lemma rel_c {c : ℝ} (hc : 0 < c) (z : ℂ) (D : ℝ) : (c * z) / ((c * D : ℝ) : ℂ) = z / D := by
  have hcc : (c : ℂ) ≠ 0 := by exact_mod_cast hc.ne'
  push_cast
  exact mul_div_mul_left _ _ hcc

private lemma rel_inv {c : ℝ} (hc : 0 < c) (z : ℂ) (D : ℝ) : ((c * D : ℝ) : ℂ) / (c * z) = D / z := by
  have hcc : (c : ℂ) ≠ 0 := by exact_mod_cast hc.ne'
  push_cast
  exact mul_div_mul_left _ _ hcc

private lemma rel_r {c : ℝ} (hc : 0 < c) (x D : ℝ) : (c * x) / (c * D) = x / D := mul_div_mul_left _ _ hc.ne'

/-- C78: Bethe lattice, Green's function, its derivatives and its inverse. -/
theorem bethe_gf_units {c : ℝ} (hc : 0 < c) (z g : ℂ) (D : ℝ) :
    betheGfZ (c * z) (c * D) = betheGfZ z D / c ∧ betheGfD1Z (c * z) (c * D) = betheGfD1Z z D / c ^ 2 ∧
    betheGfD2Z (c * z) (c * D) = betheGfD2Z z D / c ^ 3 ∧ betheGfZInv (g / c) (c * D) = c * betheGfZInv g D := by
  have hcc : (c : ℂ) ≠ 0 := by exact_mod_cast hc.ne'
  refine ⟨?_, ?_, ?_, ?_⟩
  · unfold betheGfZ
    simp only [rel_c hc]
    push_cast
    rw [← div_div]
    ring
  · unfold betheGfD1Z
    simp only [rel_inv hc]
    push_cast
    rw [mul_pow, ← div_div]
    ring
  · unfold betheGfD2Z
    simp only [rel_c hc]
    push_cast
    rw [mul_pow, ← div_div]
    ring
  · unfold betheGfZInv
    push_cast
    rcases eq_or_ne g 0 with rfl | hg
    · simp
    · field_simp

/-- C78: Bethe lattice, density of states, its moments and the retarded function of time. -/
theorem bethe_dos_units {c : ℝ} (hc : 0 < c) (jv1 : ℝ → ℝ) (x D t : ℝ) (m : ℤ) :
    betheDos (c * x) (c * D) = betheDos x D / c ∧ betheDosMp (c * x) (c * D) = betheDosMp x D / c ∧
    betheDosMoment m (c * D) = (betheDosMoment m D).map (c ^ m * ·) ∧
    betheGfRetT jv1 (t / c) (c * D) 0 = betheGfRetT jv1 t D 0 := by
  refine ⟨?_, ?_, ?_, ?_⟩
  · unfold betheDos
    simp only [rel_r hc]
    split_ifs
    · field_simp
    · rw [zero_div]
  · unfold betheDosMp
    simp only [rel_r hc, abs_mul, abs_of_pos hc, gt_iff_lt, mul_lt_mul_iff_right₀ hc]
    split_ifs
    · rw [zero_div]
    · field_simp
  · unfold betheDosMoment momentFromTable
    split_ifs
    · simp only [Except.map, mul_zero]
    · cases betheMomentTable.lookup m with
      | none => rfl
      | some a =>
        simp only [Except.map, mul_zpow]
        congr 1
        ring
  · unfold betheGfRetT
    have : c * D * (t / c) = D * t := by field_simp
    simp only [this]

/-- C78: Bethe lattice with finite coordination number. -/
theorem bethez_units {c : ℝ} (hc : 0 < c) (z : ℂ) (x D Z : ℝ) :
    bethezGfZ (c * z) (c * D) Z = (bethezGfZ z D Z).map (· / (c : ℂ)) ∧
    bethezDos (c * x) (c * D) Z = (bethezDos x D Z).map (· / c) := by
  constructor
  · unfold bethezGfZ
    simp only [rel_inv hc]
    by_cases h : ¬ Z > 1
    · rw [if_pos h, if_pos h]
      rfl
    · rw [if_neg h, if_neg h]
      simp only [Except.map]
      congr 1
      push_cast
      rw [← div_div]
      ring
  · unfold bethezDos
    simp only [rel_r hc]
    by_cases h : ¬ Z > 1
    · rw [if_pos h, if_pos h]
      rfl
    · rw [if_neg h, if_neg h]
      simp only [Except.map]
      congr 1
      split_ifs
      · field_simp
      · rw [zero_div]

/-- C78: box-shaped density of states. -/
theorem box_units {c : ℝ} (hc : 0 < c) (z : ℂ) (x D t : ℝ) (m : ℤ) :
    boxGfZ (c * z) (c * D) = boxGfZ z D / c ∧ boxDos (c * x) (c * D) = boxDos x D / c ∧
    boxDosMoment m (c * D) = c ^ m * boxDosMoment m D ∧ boxGfRetT (t / c) (c * D) 0 = boxGfRetT t D 0 := by
  refine ⟨?_, ?_, ?_, ?_⟩
  · unfold boxGfZ
    simp only [rel_c hc]
    push_cast
    rw [← div_div]
    ring
  · unfold boxDos
    simp only [abs_mul, abs_of_pos hc, mul_lt_mul_iff_right₀ hc]
    split_ifs
    · rw [div_div, mul_comm c]
    · rw [zero_div]
  · unfold boxDosMoment
    split_ifs
    · rw [mul_zero]
    · rw [mul_zpow, mul_div_assoc]
  · unfold boxGfRetT
    have : c * D * (t / c) = D * t := by field_simp
    simp only [this]

/-- C78: one-dimensional lattice. -/
theorem onedim_units {c : ℝ} (hc : 0 < c) (z : ℂ) (x D : ℝ) (m : ℤ) :
    onedimGfZ (c * z) (c * D) = onedimGfZ z D / c ∧ onedimDos (c * x) (c * D) = onedimDos x D / c ∧
    onedimDosMoment m (c * D) = (onedimDosMoment m D).map (c ^ m * ·) ∧
    onedimDosMp (c * x) (c * D) = (onedimDosMp x D).map (· / c) := by
  refine ⟨?_, ?_, ?_, ?_⟩
  · unfold onedimGfZ
    simp only [rel_inv hc]
    push_cast
    rw [← div_div]
    ring
  · unfold onedimDos
    simp only [rel_r hc]
    split_ifs
    · rw [div_div, div_div, div_div]
      congr 1
      ring
    · rw [zero_div]
  · unfold onedimDosMoment momentFromTable
    split_ifs
    · simp only [Except.map, mul_zero]
    · cases onedimMomentTable.lookup m with
      | none => rfl
      | some a =>
        simp only [Except.map, mul_zpow]
        congr 1
        ring
  · unfold onedimDosMp
    simp only [rel_r hc, abs_mul, abs_of_pos hc, gt_iff_lt, mul_lt_mul_iff_right₀ hc]
    have h : Real.pi * (c * D) * √(-((x / D) ^ 2 - 1)) = c * (Real.pi * D * √(-((x / D) ^ 2 - 1))) := by ring
    simp only [h, mul_eq_zero, hc.ne', false_or]
    split_ifs
    · simp only [Except.map, zero_div]
    · rfl
    · simp only [Except.map, div_div, mul_comm]

/-! ## Model systems -/

/-- C78: Hubbard dimer, Hubbard-I approximation, surface Green's function. -/
theorem toplevel_units {c : ℝ} (hc : 0 < c) (z : ℂ) (t U eps : ℝ) (kind : String) (u occ : ℂ) :
    hubbardDimerGfZ (c * z) (c * t) (c * U) kind = (hubbardDimerGfZ z t U kind).map (· / (c : ℂ)) ∧
    hubbardISelfZ (c * z) (c * u) occ = c * hubbardISelfZ z u occ ∧
    surfaceGfZeps (c * z) (c * eps) (c * t) = surfaceGfZeps z eps t / c := by
  have hcc : (c : ℂ) ≠ 0 := by exact_mod_cast hc.ne'
  refine ⟨?_, ?_, ?_⟩
  · unfold hubbardDimerGfZ
    by_cases h : ¬ (kind = "+" ∨ kind = "-")
    · rw [if_pos h, if_pos h]
      rfl
    · rw [if_neg h, if_neg h]
      have hW : (0.25 * (c * U) * (c * U) + 4 * (c * t) * (c * t)) ^ (0.5 : ℝ)
          = c * (0.25 * U * U + 4 * t * t) ^ (0.5 : ℝ) := by
        rw [show 0.25 * (c * U) * (c * U) + 4 * (c * t) * (c * t) = c ^ 2 * (0.25 * U * U + 4 * t * t) by ring,
          Real.mul_rpow (by positivity) (by nlinarith [sq_nonneg U, sq_nonneg t]), ← Real.rpow_natCast, ← Real.rpow_mul hc.le]
        norm_num
      simp only [hW, mul_eq_zero, hc.ne', false_or]
      generalize (0.25 * U * U + 4 * t * t) ^ (0.5 : ℝ) = W
      generalize (if kind = "+" then (1 : ℝ) else -1) = s
      by_cases h0 : W = 0
      · rw [if_pos h0, if_pos h0]
        rfl
      · rw [if_neg h0, if_neg h0]
        simp only [Except.map]
        have e0 : s * (c * t) / (c * W) = s * t / W := by field_simp
        have e1 : (c : ℂ) * z - ((0.5 * (c * U) - c * W + s * (c * t) : ℝ) : ℂ)
            = c * (z - ((0.5 * U - W + s * t : ℝ) : ℂ)) := by push_cast; ring
        have e2 : (c : ℂ) * z - ((c * U + s * (c * t) - (0.5 * (c * U) - c * W) : ℝ) : ℂ)
            = c * (z - ((U + s * t - (0.5 * U - W) : ℝ) : ℂ)) := by push_cast; ring
        rw [e0, e1, e2, add_div, div_div, div_div, mul_comm (c : ℂ), mul_comm (c : ℂ)]
  · unfold hubbardISelfZ
    have : (c : ℂ) * z - c * u + c * u * occ = c * (z - u + u * occ) := by ring
    simp only [this]
    rw [show (c : ℂ) * u * occ * (c * z) = c * (c * (u * occ * z)) by ring, mul_div_mul_left _ _ hcc, mul_div_assoc]
  · unfold surfaceGfZeps
    rw [← (bethe_gf_units hc (z - eps) 0 (2 * t)).1]
    congr 1
    · push_cast
      ring
    · ring

/-- C78: impurity model, functions of a frequency (the squared hopping amplitudes are squared energies). -/
theorem siam_z_units {c : ℝ} (hc : 0 < c) {n : ℕ} (z : ℂ) (e0 : ℝ) (eb : Fin n → ℝ) (v : Fin n → ℂ) :
    hybridZ (c * z) (fun k => c * eb k) (fun k => c ^ 2 * v k) = c * hybridZ z eb v ∧
    siamGf0LocZ (c * z) (c * e0) (fun k => c * eb k) (fun k => c ^ 2 * v k) = siamGf0LocZ z e0 eb v / c := by
  have hcc : (c : ℂ) ≠ 0 := by exact_mod_cast hc.ne'
  have h : hybridZ (c * z) (fun k => c * eb k) (fun k => c ^ 2 * v k) = c * hybridZ z eb v := by
    unfold hybridZ
    rw [Finset.mul_sum]
    refine Finset.sum_congr rfl fun k _ => ?_
    push_cast
    rw [← mul_sub, pow_two, mul_assoc, mul_div_mul_left _ _ hcc, mul_div_assoc]
  refine ⟨h, ?_⟩
  unfold siamGf0LocZ
  rw [h]
  push_cast
  rw [← mul_sub, ← mul_sub, div_div, mul_comm]

private lemma siam_ham_units (c : ℝ) {n : ℕ} (e0 : ℝ) (eb : Fin n → ℝ) (V : Fin n → ℂ) :
    siamHamiltonian id (c * e0) (fun k => c * eb k) (fun k => c * V k) = (c : ℂ) • siamHamiltonian id e0 eb V := by
  ext i j
  rw [Matrix.smul_apply]
  unfold siamHamiltonian
  simp only [of_apply, smul_eq_mul]
  refine Fin.cases ?_ (fun i => ?_) i <;> refine Fin.cases ?_ (fun j => ?_) j
  · simp
  · simp
  · simp
  · simp only [Fin.cases_succ, id_eq]
    split_ifs
    · push_cast
      rfl
    · rw [mul_zero]

/-- C78: impurity model, functions of time. -/
theorem siam_t_units {c : ℝ} (hc : 0 < c) (ext : EigExt) {n : ℕ} (t e0 : ℝ) (eb : Fin n → ℝ) (V : Fin n → ℂ) (beta : ℝ) :
    siamRetT ext (t / c) (c * e0) (fun k => c * eb k) (fun k => c * V k) = siamRetT ext t e0 eb V ∧
    siamGrT ext (t / c) (c * e0) (fun k => c * eb k) (fun k => c * V k) (beta / c) = siamGrT ext t e0 eb V beta ∧
    siamLeT ext (t / c) (c * e0) (fun k => c * eb k) (fun k => c * V k) (beta / c) = siamLeT ext t e0 eb V beta := by
  have hcc : (c : ℂ) ≠ 0 := by exact_mod_cast hc.ne'
  have h1 : ∀ A : Matrix (Fin (n + 1)) (Fin (n + 1)) ℂ,
      (-Complex.I * ((t / c : ℝ) : ℂ)) • (c : ℂ) • A = (-Complex.I * (t : ℂ)) • A := by
    intro A
    rw [smul_smul]
    congr 1
    push_cast
    field_simp
  have h2 : ∀ A : Matrix (Fin (n + 1)) (Fin (n + 1)) ℂ, ((beta / c : ℝ) : ℂ) • (c : ℂ) • A = (beta : ℂ) • A := by
    intro A
    rw [smul_smul]
    congr 1
    push_cast
    field_simp
  refine ⟨?_, ?_, ?_⟩
  · rcases le_or_gt 0 t with ht | ht
    · rw [siam_ret_eq ext _ _ _ _ (div_nonneg ht hc.le), siam_ret_eq ext _ _ _ _ ht, siam_ham_units, h1]
    · rw [siam_ret_neg ext _ _ _ _ (div_neg_of_neg_of_pos ht hc), siam_ret_neg ext _ _ _ _ ht]
  · rw [siam_gr_eq, siam_gr_eq, siam_ham_units, h1, h2]
  · rw [siam_le_eq, siam_le_eq, siam_ham_units, h1, h2]

/-! ## Density from Matsubara frequencies with given tail -/

/-- C78: `density`, `density_error`, `density_error2` are numbers, `check_convergence` of order two an energy. -/
theorem density_tail_units {c : ℝ} (hc : 0 < c) {N : ℕ} (gf : Fin (N + 1) → ℂ) (potential beta : ℝ) (noisy : Bool)
    (order : ℕ) (n : Fin (N + 1)) :
    density (fun i => gf i / c) (c * potential) (beta / c) = density gf potential beta ∧
    densityError (densityDelta (fun i => gf i / c) (c * potential) (beta / c)) (beta / c) noisy
      = densityError (densityDelta gf potential beta) beta noisy ∧
    densityError2 (densityDelta (fun i => gf i / c) (c * potential) (beta / c)) (beta / c)
      = densityError2 (densityDelta gf potential beta) beta ∧
    checkConvergence (fun i => gf i / c) (c * potential) (beta / c) order n
      = c ^ order / c * checkConvergence gf potential beta order n := by
  have hcc : (c : ℂ) ≠ 0 := by exact_mod_cast hc.ne'
  have hw : ∀ k : ℤ, matsubaraFrequencies k (beta / c) = c * matsubaraFrequencies k beta :=
    fun k => (frequencies_units hc beta k (fun _ _ _ => (0, 0)) 0).1
  have hi : ∀ k : ℕ, matsubaraIm (beta / c) k = c * matsubaraIm beta k := by
    intro k
    unfold matsubaraIm
    rw [hw, Complex.im_ofReal_mul]
  have hd : densityDelta (fun i => gf i / c) (c * potential) (beta / c) = fun i => densityDelta gf potential beta i / c := by
    funext i
    unfold densityDelta
    rw [hw]
    push_cast
    rw [← mul_add, mul_comm (c : ℂ), ← div_div, Complex.div_ofReal_re, Complex.div_ofReal_re, sub_div]
  refine ⟨?_, ?_, ?_, ?_⟩
  · unfold density
    rw [hd, ← mul_neg, (statistics_units hc _ beta 0 0).1]
    congr 1
    rw [← Finset.sum_div]
    field_simp
  · have e1 : ∀ k : Fin (N + 1), |densityDelta gf potential beta k / c| * (c * matsubaraIm beta k) ^ 2
        = c * (|densityDelta gf potential beta k| * matsubaraIm beta k ^ 2) := by
      intro k
      rw [abs_div, abs_of_pos hc]
      field_simp
    have e2 : ∀ k : Fin (N + 1), densityDelta gf potential beta k / c * (c * matsubaraIm beta k) ^ 2
        = c * (densityDelta gf potential beta k * matsubaraIm beta k ^ 2) := by
      intro k
      field_simp
    unfold densityError
    simp only [hd, hi, e1, e2]
    cases noisy
    · simp only [Bool.false_eq_true, if_false]
      rw [← Finset.mul₀_sup' hc.le]
      field_simp
    · simp only [if_true]
      rw [← Finset.mul_sum]
      field_simp
  · have e1 : ∀ k : Fin (N + 1), |densityDelta gf potential beta k / c| * (c * matsubaraIm beta k) ^ 3
        = c ^ 2 * (|densityDelta gf potential beta k| * matsubaraIm beta k ^ 3) := by
      intro k
      rw [abs_div, abs_of_pos hc]
      field_simp
    unfold densityError2
    simp only [hd, hi, e1]
    rw [← Finset.mul₀_sup' (by positivity)]
    field_simp
  · unfold checkConvergence
    rw [hd, hi]
    simp only
    rw [mul_pow]
    ring

end Gftool.Props
