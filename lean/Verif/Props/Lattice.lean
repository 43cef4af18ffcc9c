import Verif.Props.Bethe
import Mathlib.Analysis.SpecialFunctions.Integrability.Basic

/-!
# Densities of states and Green's functions of the elementary lattices (C52, C53, C57)
-/

namespace Gftool.Props

open Gftool Model Spec Lemmas
open Complex (I)
open MeasureTheory Filter Topology

/-! ## Bethe lattice -/

lemma betheDos_zero {D : ℝ} (hD : 0 < D) (e : ℝ) (he : D ≤ |e|) : betheDos e D = 0 := by
  unfold betheDos
  simp only
  rw [if_neg]
  rw [abs_div, abs_of_pos hD, not_lt, one_le_div hD]
  exact he

lemma abs_cos_lt {φ : ℝ} (hφ : φ ∈ Set.Ioo 0 Real.pi) : |Real.cos φ| < 1 := by
  have hs := Real.sin_pos_of_pos_of_lt_pi hφ.1 hφ.2
  rw [← sq_lt_one_iff_abs_lt_one]
  nlinarith [Real.sin_sq_add_cos_sq φ]

lemma sqrt_one_sub_cos {φ : ℝ} (hφ : φ ∈ Set.Ioo 0 Real.pi) : √(1 - Real.cos φ ^ 2) = Real.sin φ := by
  have hs := Real.sin_pos_of_pos_of_lt_pi hφ.1 hφ.2
  rw [← Real.sin_sq, Real.sqrt_sq hs.le]

lemma betheDos_angle {D : ℝ} (hD : 0 < D) :
    ∀ φ ∈ Set.Ioo 0 Real.pi, D * Real.sin φ * betheDos (D * Real.cos φ) D = 2 / Real.pi * Real.sin φ ^ 2 := by
  intro φ hφ
  unfold betheDos
  simp only
  rw [show D * Real.cos φ / D = Real.cos φ by field_simp, if_pos (abs_cos_lt hφ), sqrt_one_sub_cos hφ]
  field_simp

lemma integrable_of_integral_one {f : ℝ → ℝ} (h : ∫ e, f e = 1) : Integrable f := by
  by_contra hc
  rw [integral_undef hc] at h
  norm_num at h

/-- C52: the Bethe DOS is a density on `[-D, D]`. -/
theorem bethe_dos {D : ℝ} (hD : 0 < D) : IsDos (fun e => betheDos e D) D := by
  have hnorm : ∫ e, betheDos e D = 1 := by
    have := dos_integral hD (betheDos_zero hD) (betheDos_angle hD) (fun _ => (1 : ℝ))
    simp only [smul_eq_mul, mul_one] at this
    rw [this, intervalIntegral.integral_const_mul, integral_sin_sq]
    simp
  refine ⟨?_, ?_, ?_, fun e he => betheDos_zero hD e he.le, integrable_of_integral_one hnorm, hnorm⟩
  · unfold betheDos
    refine Measurable.ite (measurableSet_lt (by fun_prop) (by fun_prop)) (by fun_prop) (by fun_prop)
  · intro e
    unfold betheDos
    simp only
    split_ifs
    · positivity
    · exact le_rfl
  · intro e
    simp [betheDos, neg_div]

/-- C52: the Bethe Green's function is the Hilbert transform of the Bethe DOS. -/
theorem bethe_gf_hilbert {z : ℂ} {D : ℝ} (hD : 0 < D) (hz : OffBand z D) :
    ∫ e, (betheDos e D : ℂ) / (z - e) = betheGfZ z D := by
  have hDc : (D : ℂ) ≠ 0 := by exact_mod_cast hD.ne'
  have hin := hz.inner hD
  obtain ⟨hi, hint⟩ := hin.integral
  have e1 : ∫ e, (betheDos e D : ℂ) / (z - e) = ∫ e, betheDos e D • (1 / (z - e : ℂ)) := by
    congr 1; funext e; rw [Complex.real_smul]; ring
  rw [e1, dos_integral hD (betheDos_zero hD) (betheDos_angle hD), bethe_gf_eq]
  set x := z / D with hx
  have hs := hin.hs
  have hs0 := hin.s_ne
  have hx0 := hin.hx
  generalize Complex.sqrt (1 - (D / z : ℂ) ^ 2) = s at *
  have hoff : ∀ φ : ℝ, x - Complex.cos φ ≠ 0 := by
    intro φ h0
    refine hz (D * Real.cos φ) ?_ ?_
    · rw [abs_mul, abs_of_pos hD]
      have := Real.abs_cos_le_one φ
      nlinarith
    · have : x = Complex.cos φ := sub_eq_zero.1 h0
      rw [hx] at this
      push_cast
      field_simp at this
      rw [this]
  have e2 : ∀ φ : ℝ, (2 / Real.pi * Real.sin φ ^ 2) • (1 / (z - (D * Real.cos φ : ℝ)) : ℂ)
      = 2 / (Real.pi * D) * ((x + Complex.cos φ) + (1 - x ^ 2) * (1 / (x - Complex.cos φ))) := by
    intro φ
    have h1 := hoff φ
    have h2 : z - (D * Real.cos φ : ℝ) = D * (x - Complex.cos φ) := by
      rw [hx]; push_cast; field_simp
    rw [h2, Complex.real_smul]
    have h3 := Complex.sin_sq_add_cos_sq (φ : ℂ)
    push_cast
    have hpi : (Real.pi : ℂ) ≠ 0 := by exact_mod_cast Real.pi_ne_zero
    generalize Complex.cos φ = c at *
    field_simp
    linear_combination h3
  simp_rw [e2]
  rw [intervalIntegral.integral_const_mul, intervalIntegral.integral_add, intervalIntegral.integral_const_mul,
    hint, intervalIntegral.integral_add]
  · have e3 : ∫ φ in (0 : ℝ)..Real.pi, Complex.cos φ = 0 := by
      have : ∀ φ : ℝ, Complex.cos φ = ((Real.cos φ : ℝ) : ℂ) := fun φ => by push_cast; rfl
      simp_rw [this]
      rw [intervalIntegral.integral_ofReal]
      simp
    rw [e3]
    simp only [intervalIntegral.integral_const, sub_zero, Complex.real_smul, add_zero]
    have hpi : (Real.pi : ℂ) ≠ 0 := by exact_mod_cast Real.pi_ne_zero
    clear_value x
    field_simp at hs ⊢
    linear_combination hs
  · exact intervalIntegrable_const
  · exact (Complex.continuous_cos.comp Complex.continuous_ofReal).intervalIntegrable _ _
  · exact ((continuous_const.add (Complex.continuous_cos.comp Complex.continuous_ofReal))).intervalIntegrable _ _
  · exact hi.const_mul _

/-- C52: the Bethe lattice satisfies the specification of a lattice, used e.g. for CPA. -/
theorem bethe_isHilbert {D : ℝ} (hD : 0 < D) :
    IsHilbert (volume.withDensity fun e => ENNReal.ofReal (betheDos e D)) (Set.Icc (-D) D)
      (fun z => betheHilbert z D) :=
  isHilbert_of_dos (bethe_dos hD) fun _ hz => bethe_gf_hilbert hD hz

example : IsDos (fun e => betheDos e 2) 2 ∧ ∫ e, (betheDos e 2 : ℂ) / (I - e) = betheGfZ I 2 :=
  ⟨bethe_dos (by norm_num), bethe_gf_hilbert (by norm_num) (offBand_of_im (by simp) _)⟩

/-! ## One dimension -/

lemma onedimDos_zero {D : ℝ} (hD : 0 < D) (e : ℝ) (he : D ≤ |e|) : onedimDos e D = 0 := by
  unfold onedimDos
  simp only
  have h1 : 1 ≤ |e / D| := by
    rwa [abs_div, abs_of_pos hD, one_le_div hD]
  split_ifs with h
  · have : |e / D| = 1 := le_antisymm h h1
    have h2 : (e / D) ^ 2 = 1 := by rw [← sq_abs, this]; norm_num
    rw [h2]
    simp
  · rfl

lemma onedimDos_angle {D : ℝ} (hD : 0 < D) :
    ∀ φ ∈ Set.Ioo 0 Real.pi, D * Real.sin φ * onedimDos (D * Real.cos φ) D = 1 / Real.pi := by
  intro φ hφ
  have hs := Real.sin_pos_of_pos_of_lt_pi hφ.1 hφ.2
  unfold onedimDos
  simp only
  rw [show D * Real.cos φ / D = Real.cos φ by field_simp, if_pos (abs_cos_lt hφ).le, sqrt_one_sub_cos hφ]
  field_simp

/-- C52: the one-dimensional DOS is a density on `[-D, D]`. -/
theorem onedim_dos {D : ℝ} (hD : 0 < D) : IsDos (fun e => onedimDos e D) D := by
  have hnorm : ∫ e, onedimDos e D = 1 := by
    have := dos_integral hD (onedimDos_zero hD) (onedimDos_angle hD) (fun _ => (1 : ℝ))
    simp only [smul_eq_mul, mul_one] at this
    rw [this]
    simp
  refine ⟨?_, ?_, ?_, fun e he => onedimDos_zero hD e he.le, integrable_of_integral_one hnorm, hnorm⟩
  · unfold onedimDos
    refine Measurable.ite (measurableSet_le (by fun_prop) (by fun_prop)) (by fun_prop) (by fun_prop)
  · intro e
    unfold onedimDos
    simp only
    split_ifs
    · positivity
    · exact le_rfl
  · intro e
    simp [onedimDos, neg_div]

/-- C52: the one-dimensional Green's function is the Hilbert transform of the DOS. -/
theorem onedim_gf_hilbert {z : ℂ} {D : ℝ} (hD : 0 < D) (hz : OffBand z D) :
    ∫ e, (onedimDos e D : ℂ) / (z - e) = onedimGfZ z D := by
  have hDc : (D : ℂ) ≠ 0 := by exact_mod_cast hD.ne'
  have hz0 := hz.ne_zero hD
  have hin := hz.inner hD
  obtain ⟨hi, hint⟩ := hin.integral
  have e1 : ∫ e, (onedimDos e D : ℂ) / (z - e) = ∫ e, onedimDos e D • (1 / (z - e : ℂ)) := by
    congr 1; funext e; rw [Complex.real_smul]; ring
  rw [e1, dos_integral hD (onedimDos_zero hD) (onedimDos_angle hD)]
  have e2 : ∀ φ : ℝ, (1 / Real.pi) • (1 / (z - (D * Real.cos φ : ℝ)) : ℂ)
      = 1 / (Real.pi * D) * (1 / (z / D - Complex.cos φ)) := by
    intro φ
    have h2 : z - (D * Real.cos φ : ℝ) = D * (z / D - Complex.cos φ) := by
      push_cast; field_simp
    rw [h2, Complex.real_smul]
    push_cast
    rw [one_div_mul_one_div, one_div_mul_one_div]
    ring
  simp_rw [e2]
  rw [intervalIntegral.integral_const_mul, hint]
  unfold onedimGfZ
  simp only
  have hpi : (Real.pi : ℂ) ≠ 0 := by exact_mod_cast Real.pi_ne_zero
  have hs0 := hin.s_ne
  generalize Complex.sqrt (1 - (D / z : ℂ) ^ 2) = s at *
  field_simp

/-- C52: the one-dimensional lattice satisfies the specification of a lattice. -/
theorem onedim_isHilbert {D : ℝ} (hD : 0 < D) :
    IsHilbert (volume.withDensity fun e => ENNReal.ofReal (onedimDos e D)) (Set.Icc (-D) D)
      (fun z => onedimGfZ z D) :=
  isHilbert_of_dos (onedim_dos hD) fun _ hz => onedim_gf_hilbert hD hz

/-! ## Box -/

lemma box_integral {E : Type*} [NormedAddCommGroup E] [NormedSpace ℝ E] {D : ℝ} (hD : 0 < D) (f : ℝ → E) :
    ∫ e, boxDos e D • f e = (0.5 / D) • ∫ e in (-D)..D, f e := by
  rw [← setIntegral_eq_integral_of_forall_compl_eq_zero (s := Set.Ioo (-D) D),
    intervalIntegral.integral_of_le (by linarith), integral_Ioc_eq_integral_Ioo, ← integral_smul]
  · refine setIntegral_congr_fun measurableSet_Ioo fun e he => ?_
    simp only [boxDos]
    rw [if_pos (abs_lt.2 he)]
  · intro e he
    rw [boxDos, if_neg, zero_smul]
    exact fun hc => he (abs_lt.1 hc)

/-- C52: the box DOS is a density on `[-D, D]`. -/
theorem box_dos {D : ℝ} (hD : 0 < D) : IsDos (fun e => boxDos e D) D := by
  have hnorm : ∫ e, boxDos e D = 1 := by
    have := box_integral hD (fun _ => (1 : ℝ))
    simp only [smul_eq_mul, mul_one] at this
    rw [this]
    simp
    field_simp
    norm_num
  refine ⟨?_, ?_, ?_, ?_, integrable_of_integral_one hnorm, hnorm⟩
  · unfold boxDos
    exact Measurable.ite (measurableSet_lt (by fun_prop) (by fun_prop)) (by fun_prop) (by fun_prop)
  · intro e
    unfold boxDos
    split_ifs
    · positivity
    · exact le_rfl
  · intro e
    simp [boxDos]
  · intro e he
    rw [boxDos, if_neg (not_lt.2 he.le)]

/-- C52: the box Green's function is the Hilbert transform of the box DOS. -/
theorem box_gf_hilbert {z : ℂ} {D : ℝ} (hD : 0 < D) (hz : OffBand z D) :
    ∫ e, (boxDos e D : ℂ) / (z - e) = boxGfZ z D := by
  have hDc : (D : ℂ) ≠ 0 := by exact_mod_cast hD.ne'
  have e1 : ∫ e, (boxDos e D : ℂ) / (z - e) = ∫ e, boxDos e D • (1 / (z - e : ℂ)) := by
    congr 1; funext e; rw [Complex.real_smul]; ring
  have hne : ∀ e : ℝ, |e| ≤ D → z - e ≠ 0 := fun e he => sub_ne_zero.2 (hz e he)
  have hm : z + D ≠ 0 := by
    have := hne (-D) (by rw [abs_neg, abs_of_pos hD])
    simpa using this
  have hp : z - D ≠ 0 := hne D (by rw [abs_of_pos hD])
  -- the argument of the logarithm never meets the cut
  have hslit : ∀ e : ℝ, e ∈ Set.Icc (-D) D → (z - e) / (z + D) ∈ Complex.slitPlane := by
    intro e he
    by_contra hc
    rw [Complex.mem_slitPlane_iff, not_or, not_lt, not_not] at hc
    obtain ⟨h1, h2⟩ := hc
    set r := ((z - e) / (z + D)).re with hr
    have hq : (z - e) / (z + D) = (r : ℂ) := by
      apply Complex.ext
      · simp [hr]
      · simpa using h2
    have h3 : z - e = r * (z + D) := by rw [← hq]; field_simp
    have h4 : (1 - r : ℂ) ≠ 0 := by
      have : (1 - r : ℝ) ≠ 0 := by linarith
      exact_mod_cast this
    have h5 : z = ((e + r * D) / (1 - r) : ℝ) := by
      push_cast
      field_simp
      linear_combination h3
    refine hz _ ?_ h5
    have h6 : 0 < 1 - r := by linarith
    rw [abs_div, abs_of_pos h6, div_le_iff₀ h6, abs_le]
    constructor <;> nlinarith [he.1, he.2]
  have hder : ∀ e ∈ Set.uIcc (-D) D, HasDerivAt (fun e : ℝ => -Complex.log ((z - e) / (z + D)))
      (1 / (z - e)) e := by
    intro e he
    rw [Set.uIcc_of_le (by linarith)] at he
    have h1 : HasDerivAt (fun y : ℂ => (z - y) / (z + D)) (-1 / (z + D)) (e : ℂ) :=
      ((hasDerivAt_id (e : ℂ)).const_sub z).div_const _
    have h2 := (h1.clog (hslit e he)).neg.comp_ofReal
    refine h2.congr_deriv ?_
    have := hne e (abs_le.2 he)
    field_simp
  have hcont : ContinuousOn (fun e : ℝ => 1 / (z - e : ℂ)) (Set.uIcc (-D) D) := by
    apply ContinuousOn.div (by fun_prop) (by fun_prop)
    intro e he
    rw [Set.uIcc_of_le (by linarith)] at he
    exact hne e (abs_le.2 he)
  rw [e1, box_integral hD, intervalIntegral.integral_eq_sub_of_hasDerivAt hder
    hcont.intervalIntegrable]
  have h0 : (z - ((-D : ℝ) : ℂ)) / (z + D) = 1 := by
    push_cast
    rw [sub_neg_eq_add, div_self hm]
  rw [h0, Complex.log_one]
  unfold boxGfZ
  simp only
  have h7 : (z / D + 1) / (z / D - 1) = ((z - D) / (z + D))⁻¹ := by
    rw [inv_div]
    field_simp
  have harg : ((z - D) / (z + D)).arg ≠ Real.pi := by
    have := hslit D ⟨by linarith, le_rfl⟩
    exact (Complex.mem_slitPlane_iff_arg.1 this).1
  rw [h7, Complex.log_inv _ harg, Complex.real_smul]
  push_cast
  ring

/-- C52: the box satisfies the specification of a lattice. -/
theorem box_isHilbert {D : ℝ} (hD : 0 < D) :
    IsHilbert (volume.withDensity fun e => ENNReal.ofReal (boxDos e D)) (Set.Icc (-D) D)
      (fun z => boxGfZ z D) :=
  isHilbert_of_dos (box_dos hD) fun _ hz => box_gf_hilbert hD hz

example : ∫ e, (boxDos e 3 : ℂ) / (I - e) = boxGfZ I 3 ∧ ∫ e, (onedimDos e 3 : ℂ) / (I - e) = onedimGfZ I 3 :=
  ⟨box_gf_hilbert (by norm_num) (offBand_of_im (by simp) _),
    onedim_gf_hilbert (by norm_num) (offBand_of_im (by simp) _)⟩

end Gftool.Props
