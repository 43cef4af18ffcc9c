import Verif.Props.Lattice

/-!
# Bethe lattice with finite coordination (C53)
-/

namespace Gftool.Props

open Gftool Model Spec Lemmas
open Complex (I)
open MeasureTheory Filter Topology

/-- C53: exactly the coordinations `Z ≤ 1` are rejected. -/
theorem bethez_error_iff (z : ℂ) (e D Z : ℝ) :
    (bethezGfZ z D Z = .error .assertionError ↔ Z ≤ 1) ∧ (bethezDos e D Z = .error .assertionError ↔ Z ≤ 1) := by
  unfold bethezGfZ bethezDos
  by_cases h : Z > 1
  · rw [if_neg (not_not.2 h), if_neg (not_not.2 h)]
    constructor <;> constructor
    · intro h'; cases h'
    · intro h'; exact absurd h' (not_le.2 h)
    · intro h'; cases h'
    · intro h'; exact absurd h' (not_le.2 h)
  · rw [if_pos h, if_pos h]
    simp [not_lt.1 h]

/-- C53: for coordination two the lattice is one-dimensional: same Green's function and same DOS. -/
theorem bethez_two (z : ℂ) {e D : ℝ} (hD : 0 < D) :
    bethezGfZ z D 2 = .ok (onedimGfZ z D) ∧ (bethezDos e D 2 = .ok (onedimDos e D)) := by
  constructor
  · unfold bethezGfZ onedimGfZ
    rw [if_neg (by norm_num)]
    simp only
    congr 1
    push_cast
    norm_num
    rw [mul_comm (2 : ℂ) (Complex.sqrt _), ← div_div, div_right_comm]
    congr 1
    ring
  · unfold bethezDos onedimDos
    rw [if_neg (by norm_num)]
    simp only
    congr 1
    by_cases h : |e / D| ≤ 1
    · rw [if_pos h, if_pos h]
      have h1 : 0 ≤ 1 - (e / D) ^ 2 := by
        have := (sq_le_one_iff_abs_le_one (e / D)).2 h
        linarith
      have h2 : (2 : ℝ) ^ 2 - 4 * (2 - 1) * (e / D) ^ 2 = 4 * √(1 - (e / D) ^ 2) ^ 2 := by
        rw [Real.sq_sqrt h1]; ring
      rw [h2]
      generalize √(1 - (e / D) ^ 2) = r
      rcases eq_or_ne r 0 with rfl | hr
      · simp
      · have := Real.pi_ne_zero
        field_simp
        norm_num
    · rw [if_neg h, if_neg h]

/-- The denominator of the Green's function does not vanish for coordination at least two, or off the
real axis. -/
lemma bethez_den_ne {z : ℂ} {D Z : ℝ} (hD : 0 < D) (hZ : 1 < Z) (hz : OffBand z D) (h : 2 ≤ Z ∨ z.im ≠ 0) :
    (Z - 2 : ℂ) + Z * Complex.sqrt (1 - (D / z : ℂ) ^ 2) ≠ 0 := by
  have hs := sqrt_sq' (1 - (D / z : ℂ) ^ 2)
  have hre := sqrt_re_pos (hz.slit hD)
  have hz0 := hz.ne_zero hD
  generalize Complex.sqrt (1 - (D / z : ℂ) ^ 2) = s at *
  intro h0
  rcases h with h | h
  · have := congrArg Complex.re h0
    simp at this
    nlinarith
  · -- s is real, so that z is real
    have hs' : s = ((2 - Z) / Z : ℝ) := by
      have : (Z : ℂ) ≠ 0 := by
        have : Z ≠ 0 := by linarith
        exact_mod_cast this
      push_cast
      field_simp
      linear_combination h0
    rw [hs'] at hs hre
    rw [Complex.ofReal_re] at hre
    have hlt : (2 - Z) / Z < 1 := by
      rw [div_lt_one (by linarith)]
      linarith
    have h1 : (z / D) ^ 2 = ((1 / (1 - ((2 - Z) / Z) ^ 2) : ℝ) : ℂ) := by
      have hDc : (D : ℂ) ≠ 0 := by exact_mod_cast hD.ne'
      have h2 : (1 - (((2 - Z) / Z) ^ 2 : ℝ) : ℂ) ≠ 0 := by
        have : 1 - ((2 - Z) / Z) ^ 2 ≠ 0 := by nlinarith
        exact_mod_cast this
      rw [← Complex.ofReal_pow] at hs
      push_cast at h2 hs ⊢
      rw [eq_div_iff h2, hs]
      field_simp
      ring
    set r : ℝ := 1 / (1 - ((2 - Z) / Z) ^ 2) with hr
    have hr0 : 0 < r := by
      rw [hr]
      apply one_div_pos.2
      nlinarith
    have him := congrArg Complex.im h1
    have hre' := congrArg Complex.re h1
    simp only [pow_two, Complex.mul_im, Complex.mul_re, Complex.div_ofReal_re, Complex.div_ofReal_im,
      Complex.ofReal_im, Complex.ofReal_re] at him hre'
    have hzi : z.im / D ≠ 0 := div_ne_zero h hD.ne'
    have : z.re / D = 0 := by
      have : z.re / D * (z.im / D) = 0 := by linarith
      exact (mul_eq_zero.1 this).resolve_right hzi
    rw [this] at hre'
    nlinarith [mul_self_nonneg (z.im / D)]

/-- C53: the cavity equations of the tree with coordination `Z`. With the hopping `t = D / (2 √(Z-1))`,
the Green's function `g` of a branch solves `g = 1/(z - (Z-1) t² g)`, it is the Bethe Green's function, and
the central site couples to `Z` branches. -/
theorem bethez_cavity {z : ℂ} {D Z t : ℝ} (hD : 0 < D) (hZ : 1 < Z) (ht : t = D / (2 * √(Z - 1)))
    (hz : OffBand z D) (h : 2 ≤ Z ∨ z.im ≠ 0) :
    ∃ g : ℂ, g * (z - (Z - 1) * (t : ℂ) ^ 2 * g) = 1 ∧ (0 < z.im → g.im < 0) ∧ ‖g‖ < 2 / D ∧
      z - Z * (t : ℂ) ^ 2 * g ≠ 0 ∧ bethezGfZ z D Z = .ok (1 / (z - Z * (t : ℂ) ^ 2 * g)) := by
  have hDc : (D : ℂ) ≠ 0 := by exact_mod_cast hD.ne'
  have hz0 := hz.ne_zero hD
  have hZ1 : (Z - 1 : ℂ) ≠ 0 := by
    have : Z - 1 ≠ 0 := by linarith
    exact_mod_cast this
  have ht2 : (t : ℂ) ^ 2 = (D : ℂ) ^ 2 / (4 * (Z - 1)) := by
    have : t ^ 2 = D ^ 2 / (4 * (Z - 1)) := by
      rw [ht, div_pow, mul_pow, Real.sq_sqrt (by linarith)]
      norm_num
    exact_mod_cast this
  have hq := bethe_quadratic hD.ne' hz0
  have hden := bethez_den_ne hD hZ hz h
  have hden2 : z - Z * (t : ℂ) ^ 2 * betheGfZ z D
      = z / (2 * (Z - 1)) * ((Z - 2) + Z * Complex.sqrt (1 - (D / z : ℂ) ^ 2)) := by
    rw [ht2, bethe_gf_eq]
    generalize Complex.sqrt (1 - (D / z : ℂ) ^ 2) = s at *
    field_simp
    ring
  refine ⟨betheGfZ z D, ?_, bethe_im_neg hD, bethe_norm_lt hD hz, ?_, ?_⟩
  · rw [ht2]
    field_simp at hq ⊢
    linear_combination -hq
  · rw [hden2]
    exact mul_ne_zero (div_ne_zero hz0 (by simp [hZ1])) hden
  · unfold bethezGfZ
    rw [if_neg (not_not.2 hZ), hden2]
    simp only
    congr 1
    generalize (Z - 2 : ℂ) + Z * Complex.sqrt (1 - (D / z : ℂ) ^ 2) = d at *
    field_simp

/-- C53: the Green's function tends to the one of the Bethe lattice for infinite coordination. -/
theorem bethez_infinite {z : ℂ} {D : ℝ} (hD : 0 < D) (hz : OffBand z D) :
    ∃ G : ℝ → ℂ, (∀ Z, 1 < Z → bethezGfZ z D Z = .ok (G Z)) ∧ Tendsto G atTop (𝓝 (betheGfZ z D)) := by
  have hDc : (D : ℂ) ≠ 0 := by exact_mod_cast hD.ne'
  have hz0 := hz.ne_zero hD
  refine ⟨fun Z => 2 * (Z - 1) / D * (D / z) / ((Z - 2) + Z * Complex.sqrt (1 - (D / z : ℂ) ^ 2)), ?_, ?_⟩
  · intro Z hZ
    unfold bethezGfZ
    rw [if_neg (not_not.2 hZ)]
  · have hs := sqrt_sq' (1 - (D / z : ℂ) ^ 2)
    have hre := sqrt_re_pos (hz.slit hD)
    rw [bethe_gf_eq]
    generalize Complex.sqrt (1 - (D / z : ℂ) ^ 2) = s at *
    have h1 : 1 + s ≠ 0 := by
      intro h0
      have := congrArg Complex.re h0
      simp at this
      linarith
    have hinv : Tendsto (fun Z : ℝ => ((Z⁻¹ : ℝ) : ℂ)) atTop (𝓝 0) := by
      have := (Complex.continuous_ofReal.tendsto 0).comp tendsto_inv_atTop_zero
      simpa [Function.comp_def] using this
    have hl : Tendsto (fun Z : ℝ => 2 * (1 - ((Z⁻¹ : ℝ) : ℂ)) / D * (D / z) / ((1 - 2 * ((Z⁻¹ : ℝ) : ℂ)) + s)) atTop
        (𝓝 (2 * (1 - 0) / D * (D / z) / ((1 - 2 * 0) + s))) := by
      apply Tendsto.div
      · exact (((hinv.const_sub 1).const_mul 2).div_const _).mul_const _
      · exact ((hinv.const_mul 2).const_sub 1).add_const s
      · simpa using h1
    have e : 2 / D * (z / D * (1 - s)) = 2 * (1 - 0) / D * (D / z) / ((1 - 2 * 0) + s) := by
      norm_num
      field_simp at hs ⊢
      linear_combination -hs
    rw [e]
    refine hl.congr' ?_
    filter_upwards [eventually_gt_atTop 0] with Z hZ
    have hZc : (Z : ℂ) ≠ 0 := by exact_mod_cast hZ.ne'
    push_cast
    rw [show (1 - 2 * (Z : ℂ)⁻¹ + s) = ((Z - 2) + Z * s) / Z by field_simp]
    rw [div_div_eq_mul_div]
    congr 1
    field_simp

/-! ### Density of states -/

/-- Value of the DOS for admissible coordinations. -/
lemma bethezDos_ok {Z : ℝ} (hZ : 1 < Z) (e D : ℝ) : ∃ d, bethezDos e D Z = .ok d := by
  unfold bethezDos
  rw [if_neg (not_not.2 hZ)]
  exact ⟨_, rfl⟩

/-- The DOS as a real function (`0` for rejected coordinations). -/
noncomputable def bethezDosR (D Z e : ℝ) : ℝ :=
  if |e / D| ≤ 1 then 2 * Z * (Z - 1) / (D * Real.pi) * √(1 - (e / D) ^ 2) / (Z ^ 2 - 4 * (Z - 1) * (e / D) ^ 2) else 0

lemma bethezDos_eq {Z : ℝ} (hZ : 1 < Z) (e D : ℝ) : bethezDos e D Z = .ok (bethezDosR D Z e) := by
  unfold bethezDos
  rw [if_neg (not_not.2 hZ)]
  rfl

lemma bethezDosR_zero {D : ℝ} (hD : 0 < D) (Z e : ℝ) (he : D ≤ |e|) : bethezDosR D Z e = 0 := by
  unfold bethezDosR
  have h1 : 1 ≤ |e / D| := by
    rwa [abs_div, abs_of_pos hD, one_le_div hD]
  split_ifs with h
  · have : |e / D| = 1 := le_antisymm h h1
    have h2 : (e / D) ^ 2 = 1 := by rw [← sq_abs, this]; norm_num
    rw [h2]
    simp
  · rfl

lemma bethez_par {Z : ℝ} (hZ : 1 < Z) : (Z / (2 * √(Z - 1))) ^ 2 = Z ^ 2 / (4 * (Z - 1)) := by
  rw [div_pow, mul_pow, Real.sq_sqrt (by linarith)]
  norm_num

lemma bethezDosR_angle {D Z : ℝ} (hD : 0 < D) (hZ : 1 < Z) :
    ∀ φ ∈ Set.Ioo 0 Real.pi, D * Real.sin φ * bethezDosR D Z (D * Real.cos φ)
      = Z / (2 * Real.pi) * (Real.sin φ ^ 2 / ((Z / (2 * √(Z - 1))) ^ 2 - Real.cos φ ^ 2)) := by
  intro φ hφ
  unfold bethezDosR
  have hZ1 : Z - 1 ≠ 0 := by linarith
  have hpi := Real.pi_ne_zero
  rw [show D * Real.cos φ / D = Real.cos φ by field_simp, if_pos (abs_cos_lt hφ).le, sqrt_one_sub_cos hφ,
    bethez_par hZ]
  have e : Z ^ 2 / (4 * (Z - 1)) - Real.cos φ ^ 2 = (Z ^ 2 - 4 * (Z - 1) * Real.cos φ ^ 2) / (4 * (Z - 1)) := by
    field_simp
  rw [e]
  rcases eq_or_ne (Z ^ 2 - 4 * (Z - 1) * Real.cos φ ^ 2) 0 with h0 | h0
  · rw [h0]; simp
  · field_simp
    norm_num

/-- The integral `∫ 1/(a² - cos²)` over half a period, and its odd companion. -/
lemma integral_inv_sq {a : ℝ} (ha : 1 < a) :
    IntervalIntegrable (fun φ : ℝ => 1 / (a ^ 2 - Real.cos φ ^ 2)) volume 0 Real.pi ∧
    ∫ φ in (0 : ℝ)..Real.pi, 1 / (a ^ 2 - Real.cos φ ^ 2) = Real.pi / (a * √(a ^ 2 - 1)) := by
  have hoff : OffBand (a : ℂ) 1 := by
    intro e he h
    have : a = e := by exact_mod_cast h
    rw [← this, abs_of_pos (by linarith)] at he
    linarith
  have hoff' : OffBand ((-a : ℝ) : ℂ) 1 := by
    intro e he h
    have : -a = e := by exact_mod_cast h
    rw [← this, abs_neg, abs_of_pos (by linarith)] at he
    linarith
  obtain ⟨i1, h1⟩ := (hoff.inner one_pos).integral
  obtain ⟨i2, h2⟩ := (hoff'.inner one_pos).integral
  have ha0 : (a : ℂ) ≠ 0 := by
    have : a ≠ 0 := by linarith
    exact_mod_cast this
  have hne : ∀ φ : ℝ, a - Real.cos φ ≠ 0 ∧ a + Real.cos φ ≠ 0 := by
    intro φ
    have := abs_le.1 (Real.abs_cos_le_one φ)
    constructor <;> linarith
  have hsq : Complex.sqrt (1 - (((1 : ℝ) : ℂ) / a) ^ 2) = ((√(a ^ 2 - 1) / a : ℝ) : ℂ) := by
    have h3 : (1 - (((1 : ℝ) : ℂ) / a) ^ 2) = (((√(a ^ 2 - 1) / a) ^ 2 : ℝ) : ℂ) := by
      have : a ≠ 0 := by linarith
      rw [div_pow (√(a ^ 2 - 1)), Real.sq_sqrt (by nlinarith)]
      push_cast
      field_simp
    rw [h3]
    unfold Complex.sqrt
    have h4 : 0 ≤ √(a ^ 2 - 1) / a := by
      have : 0 < a := by linarith
      positivity
    rw [show (2⁻¹ : ℂ) = ((2⁻¹ : ℝ) : ℂ) by push_cast; rfl, ← Complex.ofReal_cpow (by positivity),
      show (2⁻¹ : ℝ) = 1 / 2 by norm_num, ← Real.sqrt_eq_rpow, Real.sqrt_sq h4]
  have hsq' : Complex.sqrt (1 - (((1 : ℝ) : ℂ) / ((-a : ℝ) : ℂ)) ^ 2) = ((√(a ^ 2 - 1) / a : ℝ) : ℂ) := by
    rw [← hsq]
    congr 2
    push_cast
    rw [div_neg, neg_sq]
  rw [hsq] at h1
  rw [hsq'] at h2
  have hcont : Continuous fun φ : ℝ => 1 / (a ^ 2 - Real.cos φ ^ 2) := by
    apply Continuous.div (by fun_prop) (by fun_prop)
    intro φ
    rw [sq_sub_sq]
    exact mul_ne_zero (hne φ).2 (hne φ).1
  refine ⟨hcont.intervalIntegrable _ _, ?_⟩
  have key : (((∫ φ in (0 : ℝ)..Real.pi, 1 / (a ^ 2 - Real.cos φ ^ 2)) : ℝ) : ℂ)
      = ((Real.pi / (a * √(a ^ 2 - 1)) : ℝ) : ℂ) := by
    rw [← intervalIntegral.integral_ofReal]
    have e : ∀ φ : ℝ, ((1 / (a ^ 2 - Real.cos φ ^ 2) : ℝ) : ℂ)
        = 1 / (2 * a) * (1 / ((a : ℂ) / (1 : ℝ) - Complex.cos φ) - 1 / (((-a : ℝ) : ℂ) / (1 : ℝ) - Complex.cos φ)) := by
      intro φ
      obtain ⟨n1, n2⟩ := hne φ
      have n1' : (a : ℂ) - Complex.cos φ ≠ 0 := by exact_mod_cast n1
      have n2' : (a : ℂ) + Complex.cos φ ≠ 0 := by exact_mod_cast n2
      have n3 : -(a : ℂ) - Complex.cos φ ≠ 0 := by
        rw [show -(a : ℂ) - Complex.cos φ = -(a + Complex.cos φ) by ring]
        exact neg_ne_zero.2 n2'
      have n4 : (a : ℂ) ^ 2 - Complex.cos φ ^ 2 ≠ 0 := by
        rw [sq_sub_sq]; exact mul_ne_zero n2' n1'
      push_cast
      rw [div_one, div_one]
      generalize Complex.cos φ = c at *
      field_simp
      ring
    simp_rw [e]
    rw [intervalIntegral.integral_const_mul, intervalIntegral.integral_sub i1 i2, h1, h2]
    have hr : ((√(a ^ 2 - 1) : ℝ) : ℂ) ≠ 0 := by
      have : √(a ^ 2 - 1) ≠ 0 := (Real.sqrt_pos.2 (by nlinarith)).ne'
      exact_mod_cast this
    push_cast
    generalize ((√(a ^ 2 - 1) : ℝ) : ℂ) = r at *
    field_simp
    ring
  exact_mod_cast key

/-- Odd functions of the cosine integrate to zero over half a period. -/
lemma integral_odd_cos (f : ℝ → ℂ) (hf : ∀ c, f (-c) = -f c) :
    ∫ φ in (0 : ℝ)..Real.pi, f (Real.cos φ) = 0 := by
  have h := intervalIntegral.integral_comp_sub_left (fun φ => f (Real.cos φ)) Real.pi (a := 0) (b := Real.pi)
  simp only [Real.cos_pi_sub, hf, sub_self, sub_zero] at h
  rw [intervalIntegral.integral_neg] at h
  have h2 : 2 * ∫ φ in (0 : ℝ)..Real.pi, f (Real.cos φ) = 0 := by linear_combination -h
  simpa using h2

lemma bethez_a {Z : ℝ} (hZ : 1 < Z) (hZ2 : Z ≠ 2) : 1 < Z / (2 * √(Z - 1)) := by
  have h1 : 0 < √(Z - 1) := Real.sqrt_pos.2 (by linarith)
  rw [lt_div_iff₀ (by positivity), one_mul]
  have h2 := Real.sq_sqrt (show 0 ≤ Z - 1 by linarith)
  have h3 : √(Z - 1) ≠ 1 := by
    intro h
    rw [h] at h2
    apply hZ2
    linarith
  have := sq_pos_of_ne_zero (sub_ne_zero.2 h3)
  nlinarith

lemma bethez_q {Z : ℝ} (hZ : 1 < Z) :
    √((Z / (2 * √(Z - 1))) ^ 2 - 1) = |Z - 2| / (2 * √(Z - 1)) := by
  have h1 : 0 < √(Z - 1) := Real.sqrt_pos.2 (by linarith)
  have h2 := Real.sq_sqrt (show 0 ≤ Z - 1 by linarith)
  have : (Z / (2 * √(Z - 1))) ^ 2 - 1 = (|Z - 2| / (2 * √(Z - 1))) ^ 2 := by
    rw [div_pow, div_pow, sq_abs, mul_pow, h2]
    have : Z - 1 ≠ 0 := by linarith
    field_simp
    ring
  rw [this, Real.sqrt_sq (by positivity)]

/-- Total weight of the DOS. -/
lemma bethezDosR_norm {D Z : ℝ} (hD : 0 < D) (hZ : 1 < Z) :
    ∫ e, bethezDosR D Z e = Z / 2 * (1 - |Z - 2| / Z) := by
  rcases eq_or_ne Z 2 with rfl | hZ2
  · have h := (onedim_dos hD).norm
    have e : ∀ e, bethezDosR D 2 e = onedimDos e D := fun e => by
      have := (bethez_two 0 (e := e) hD).2
      rw [bethezDos_eq (by norm_num)] at this
      exact Except.ok.inj this
    simp_rw [e]
    rw [h]
    norm_num
  · have := dos_integral hD (bethezDosR_zero hD Z) (bethezDosR_angle hD hZ) (fun _ => (1 : ℝ))
    simp only [smul_eq_mul, mul_one] at this
    rw [this, intervalIntegral.integral_const_mul]
    have ha := bethez_a hZ hZ2
    have hq := bethez_q hZ
    obtain ⟨hi, hint⟩ := integral_inv_sq ha
    rw [hq] at hint
    have hr : 0 < √(Z - 1) := Real.sqrt_pos.2 (by linarith)
    have hr2 := Real.sq_sqrt (show 0 ≤ Z - 1 by linarith)
    set a := Z / (2 * √(Z - 1)) with hadef
    have e : ∀ φ : ℝ, Real.sin φ ^ 2 / (a ^ 2 - Real.cos φ ^ 2)
        = 1 - (a ^ 2 - 1) * (1 / (a ^ 2 - Real.cos φ ^ 2)) := by
      intro φ
      have h1 : a ^ 2 - Real.cos φ ^ 2 ≠ 0 := by nlinarith [Real.cos_sq_le_one φ]
      have := Real.sin_sq_add_cos_sq φ
      field_simp
      linear_combination this
    simp_rw [e]
    rw [intervalIntegral.integral_sub (by simp) (hi.const_mul _), intervalIntegral.integral_const_mul, hint]
    have habs : a ^ 2 - 1 = (|Z - 2| / (2 * √(Z - 1))) ^ 2 := by
      rw [← hq, Real.sq_sqrt (by nlinarith)]
    rw [habs]
    have h2 : |Z - 2| ≠ 0 := abs_ne_zero.2 (sub_ne_zero.2 hZ2)
    have h3 : Z ≠ 0 := by linarith
    have hpi := Real.pi_ne_zero
    simp only [intervalIntegral.integral_const, sub_zero, smul_eq_mul, mul_one]
    rw [hadef]
    generalize |Z - 2| = y at *
    generalize √(Z - 1) = r at *
    field_simp

/-- C53: for coordination `Z ≥ 2`, `dos` is a density on `[-D, D]`. -/
theorem bethez_dos {D Z : ℝ} (hD : 0 < D) (hZ : 2 ≤ Z) :
    ∃ d : ℝ → ℝ, (∀ e, bethezDos e D Z = .ok (d e)) ∧ IsDos d D := by
  have hZ1 : 1 < Z := by linarith
  have hnorm : ∫ e, bethezDosR D Z e = 1 := by
    rw [bethezDosR_norm hD hZ1, abs_of_nonneg (by linarith)]
    field_simp
    ring
  refine ⟨bethezDosR D Z, fun e => bethezDos_eq hZ1 e D, ?_, ?_, ?_,
    fun e he => bethezDosR_zero hD Z e he.le, integrable_of_integral_one hnorm, hnorm⟩
  · unfold bethezDosR
    refine Measurable.ite (measurableSet_le (by fun_prop) (by fun_prop)) (by fun_prop) (by fun_prop)
  · intro e
    unfold bethezDosR
    split_ifs with h
    · have h1 := (sq_le_one_iff_abs_le_one (e / D)).2 h
      have h2 : 0 ≤ Z ^ 2 - 4 * (Z - 1) * (e / D) ^ 2 := by nlinarith [sq_nonneg (Z - 2)]
      have h3 : 0 ≤ Z - 1 := by linarith
      positivity
    · exact le_rfl
  · intro e
    simp [bethezDosR, neg_div]

/-- For `1 < Z < 2`, accepted by the code although no lattice, the DOS carries only the weight `Z - 1`:
the rest of the spectral weight sits in poles outside the band. -/
theorem bethez_dos_low_weight {D Z : ℝ} (hD : 0 < D) (h1 : 1 < Z) (h2 : Z ≤ 2) :
    ∃ d : ℝ → ℝ, (∀ e, bethezDos e D Z = .ok (d e)) ∧ ∫ e, d e = Z - 1 := by
  refine ⟨bethezDosR D Z, fun e => bethezDos_eq h1 e D, ?_⟩
  rw [bethezDosR_norm hD h1, abs_of_nonpos (by linarith)]
  have : Z ≠ 0 := by linarith
  field_simp
  ring

/-! ### Hilbert transform -/

/-- The Hilbert transform of a density is continuous off the band. -/
lemma hilbert_continuousAt {dos : ℝ → ℝ} {D : ℝ} (hD : 0 < D) (hd : IsDos dos D) {z : ℂ} (hz : OffBand z D) :
    ContinuousAt (fun z : ℂ => ∫ e, (dos e : ℂ) / (z - e)) z := by
  obtain ⟨δ, hδ, hmin⟩ : ∃ δ > 0, ∀ e : ℝ, |e| ≤ D → δ ≤ ‖z - e‖ := by
    obtain ⟨e0, he0, hm⟩ := (isCompact_Icc (a := -D) (b := D)).exists_isMinOn ⟨0, by constructor <;> linarith⟩
      (f := fun e : ℝ => ‖z - e‖) (by fun_prop)
    refine ⟨‖z - e0‖, norm_pos_iff.2 (sub_ne_zero.2 (hz e0 (abs_le.2 he0))), fun e he => hm (abs_le.1 he)⟩
  apply continuousAt_of_dominated (bound := fun e => dos e * (2 / δ))
  · exact Eventually.of_forall fun z' => Measurable.aestronglyMeasurable (by
      have := hd.measurable
      fun_prop)
  · filter_upwards [Metric.ball_mem_nhds z (half_pos hδ)] with z' hz'
    refine Eventually.of_forall fun e => ?_
    rw [norm_div, Complex.norm_real, Real.norm_of_nonneg (hd.nonneg e)]
    by_cases he : |e| ≤ D
    · have h1 := hmin e he
      have h2 : δ / 2 ≤ ‖z' - e‖ := by
        have h3 : ‖z - e‖ ≤ ‖z - z'‖ + ‖z' - e‖ := by
          have := norm_add_le (z - z') (z' - e)
          simpa using this
        have h4 : ‖z - z'‖ < δ / 2 := by
          rw [← dist_eq_norm, dist_comm]; exact hz'
        linarith
      rw [div_eq_mul_inv]
      apply mul_le_mul_of_nonneg_left _ (hd.nonneg e)
      rw [show 2 / δ = (δ / 2)⁻¹ by rw [inv_div]]
      exact inv_anti₀ (by positivity) h2
    · rw [hd.outside e (not_le.1 he)]
      simp
  · exact hd.integrable.mul_const _
  · refine Eventually.of_forall fun e => ?_
    by_cases he : |e| ≤ D
    · exact ContinuousAt.div continuousAt_const (by fun_prop) (sub_ne_zero.2 (hz e he))
    · rw [hd.outside e (not_le.1 he)]
      simp only [Complex.ofReal_zero, zero_div]
      exact continuousAt_const

/-- It suffices to know the Hilbert transform off the real axis. -/
lemma hilbert_extend {dos : ℝ → ℝ} {D : ℝ} (hD : 0 < D) (hd : IsDos dos D) {gf : ℂ → ℂ}
    (h : ∀ z : ℂ, z.im ≠ 0 → ∫ e, (dos e : ℂ) / (z - e) = gf z) {z : ℂ} (hz : OffBand z D)
    (hc : ContinuousAt gf z) : ∫ e, (dos e : ℂ) / (z - e) = gf z := by
  by_cases him : z.im = 0
  · have hseq : Tendsto (fun n : ℕ => z + (1 / ((n : ℂ) + 1)) * I) atTop (𝓝 z) := by
      have := (tendsto_one_div_add_atTop_nhds_zero_nat (𝕜 := ℂ)).mul_const I |>.const_add z
      simpa using this
    have h1 := (hilbert_continuousAt hD hd hz).tendsto.comp hseq
    have h2 := hc.tendsto.comp hseq
    refine tendsto_nhds_unique h1 (h2.congr fun n => ?_)
    simp only [Function.comp]
    rw [h]
    have e : (z + (1 / ((n : ℂ) + 1)) * I).im = 1 / ((n : ℝ) + 1) := by
      rw [Complex.add_im, him, zero_add, show (1 / ((n : ℂ) + 1)) = ((1 / ((n : ℝ) + 1) : ℝ) : ℂ) by push_cast; rfl,
        Complex.im_ofReal_mul, Complex.I_im, mul_one]
    rw [e]
    positivity
  · exact h z him

lemma bethez_hilbert_im {z : ℂ} {D Z : ℝ} (hD : 0 < D) (hZ : 2 < Z) (hz : z.im ≠ 0) :
    ∫ e, (bethezDosR D Z e : ℂ) / (z - e)
      = 2 * (Z - 1) / D * (D / z) / ((Z - 2) + Z * Complex.sqrt (1 - (D / z : ℂ) ^ 2)) := by
  have hDc : (D : ℂ) ≠ 0 := by exact_mod_cast hD.ne'
  have hZ1 : 1 < Z := by linarith
  have hoffz := offBand_of_im hz D
  have hden := bethez_den_ne hD hZ1 hoffz (.inr hz)
  have hz0 := hoffz.ne_zero hD
  have hin := hoffz.inner hD
  obtain ⟨hi, hint⟩ := hin.integral
  have ha := bethez_a hZ1 hZ.ne'
  have hq := bethez_q hZ1
  rw [abs_of_pos (by linarith)] at hq
  obtain ⟨hi2, hint2⟩ := integral_inv_sq ha
  rw [hq] at hint2
  have e1 : ∫ e, (bethezDosR D Z e : ℂ) / (z - e) = ∫ e, bethezDosR D Z e • (1 / (z - e : ℂ)) := by
    congr 1; funext e; rw [Complex.real_smul]; ring
  rw [e1, dos_integral hD (bethezDosR_zero hD Z) (bethezDosR_angle hD hZ1)]
  have hr : 0 < √(Z - 1) := Real.sqrt_pos.2 (by linarith)
  have hr2 := Real.sq_sqrt (show 0 ≤ Z - 1 by linarith)
  set a := Z / (2 * √(Z - 1)) with hadef
  set x := z / D with hx
  have hs := hin.hs
  have hs0 := hin.s_ne
  have hx0 := hin.hx
  have hxim : x.im ≠ 0 := by
    rw [hx, Complex.div_ofReal_im]
    exact div_ne_zero hz hD.ne'
  have hxr : ∀ c : ℝ, x - c ≠ 0 := by
    intro c h0
    have := congrArg Complex.im h0
    simp at this
    exact hxim this
  have hxa : x ^ 2 - (a : ℂ) ^ 2 ≠ 0 := by
    rw [sq_sub_sq]
    refine mul_ne_zero ?_ (hxr a)
    have := hxr (-a)
    simpa using this
  have hac : ∀ φ : ℝ, (a : ℂ) ^ 2 - Complex.cos φ ^ 2 ≠ 0 := by
    intro φ
    have : a ^ 2 - Real.cos φ ^ 2 ≠ 0 := by nlinarith [Real.cos_sq_le_one φ]
    exact_mod_cast this
  have hpi : (Real.pi : ℂ) ≠ 0 := by exact_mod_cast Real.pi_ne_zero
  -- partial fractions
  have e2 : ∀ φ : ℝ, (Z / (2 * Real.pi) * (Real.sin φ ^ 2 / (a ^ 2 - Real.cos φ ^ 2)))
        • (1 / (z - (D * Real.cos φ : ℝ)) : ℂ)
      = Z / (2 * Real.pi * D * (x ^ 2 - a ^ 2)) * ((x ^ 2 - 1) * (1 / (x - Complex.cos φ))
        + (1 - (a : ℂ) ^ 2) * x * ((1 / (a ^ 2 - Real.cos φ ^ 2) : ℝ) : ℂ)
        + (1 - (a : ℂ) ^ 2) * (Complex.cos φ * ((1 / (a ^ 2 - Real.cos φ ^ 2) : ℝ) : ℂ))) := by
    intro φ
    have h1 : x - Complex.cos φ ≠ 0 := by
      have := hxr (Real.cos φ)
      simpa using this
    have h2 : z - (D * Real.cos φ : ℝ) = D * (x - Complex.cos φ) := by
      rw [hx]; push_cast; field_simp
    rw [h2, Complex.real_smul]
    have h3 := Complex.sin_sq (φ : ℂ)
    have h4 := hac φ
    push_cast
    rw [h3]
    clear_value x a
    generalize Complex.cos φ = c at *
    field_simp
    ring
  simp_rw [e2]
  have hi2c : IntervalIntegrable (fun φ : ℝ => ((1 / (a ^ 2 - Real.cos φ ^ 2) : ℝ) : ℂ)) volume 0 Real.pi := by
    have := hi2.1.ofReal (𝕜 := ℂ)
    exact ⟨this, hi2.2.ofReal (𝕜 := ℂ)⟩
  have hodd : ∫ φ in (0 : ℝ)..Real.pi, Complex.cos φ * ((1 / (a ^ 2 - Real.cos φ ^ 2) : ℝ) : ℂ) = 0 := by
    have := integral_odd_cos (fun c => (c : ℂ) * ((1 / (a ^ 2 - c ^ 2) : ℝ) : ℂ)) (by
      intro c; push_cast; rw [neg_sq]; ring)
    simpa using this
  have hi3 : IntervalIntegrable (fun φ : ℝ => Complex.cos φ * ((1 / (a ^ 2 - Real.cos φ ^ 2) : ℝ) : ℂ))
      volume 0 Real.pi := by
    apply hi2c.continuousOn_mul
    exact (Complex.continuous_cos.comp Complex.continuous_ofReal).continuousOn
  rw [intervalIntegral.integral_const_mul, intervalIntegral.integral_add ((hi.const_mul _).add (hi2c.const_mul _))
    (hi3.const_mul _), intervalIntegral.integral_add (hi.const_mul _) (hi2c.const_mul _),
    intervalIntegral.integral_const_mul, intervalIntegral.integral_const_mul, intervalIntegral.integral_const_mul,
    hodd, hint, intervalIntegral.integral_ofReal, hint2]
  have hrc : ((√(Z - 1) : ℝ) : ℂ) ≠ 0 := by exact_mod_cast hr.ne'
  have hr2c : ((√(Z - 1) : ℝ) : ℂ) ^ 2 = Z - 1 := by exact_mod_cast hr2
  have hZc : (Z : ℂ) ≠ 0 := by
    have : Z ≠ 0 := by linarith
    exact_mod_cast this
  have hZ2c : (Z - 2 : ℂ) ≠ 0 := by
    have : Z - 2 ≠ 0 := by linarith
    exact_mod_cast this
  have hac2 : (a : ℂ) = Z / (2 * ((√(Z - 1) : ℝ) : ℂ)) := by
    rw [hadef]; push_cast; rfl
  have hzx : (D / z : ℂ) = 1 / x := by rw [hx, one_div_div]
  generalize Complex.sqrt (1 - (D / z : ℂ) ^ 2) = s at *
  rw [hzx]
  push_cast
  rw [hac2] at hxa ⊢
  clear_value x a
  generalize ((√(Z - 1) : ℝ) : ℂ) = r at *
  have hZr : (Z : ℂ) = r ^ 2 + 1 := by rw [hr2c]; ring
  generalize (Z : ℂ) = Zc at *
  subst hZr
  have hxa' : 4 * r ^ 2 * x ^ 2 - (r ^ 2 + 1) ^ 2 ≠ 0 := by
    intro h0
    apply hxa
    field_simp
    linear_combination h0
  have hE : x ^ 2 - ((r ^ 2 + 1) / (2 * r)) ^ 2 = (4 * r ^ 2 * x ^ 2 - (r ^ 2 + 1) ^ 2) / (4 * r ^ 2) := by
    field_simp
    ring
  rw [hE]
  rw [show (r ^ 2 + 1 - 2 : ℂ) = r ^ 2 - 1 by ring] at *
  field_simp at hs ⊢
  have n1 : x ^ 2 * r ^ 2 * 4 - (r ^ 2 + 1) ^ 2 ≠ 0 := by
    rwa [show x ^ 2 * r ^ 2 * 4 = 4 * r ^ 2 * x ^ 2 by ring]
  have n2 : r ^ 2 - 1 + s * (r ^ 2 + 1) ≠ 0 := by
    rwa [mul_comm s]
  rw [div_eq_div_iff n1 n2]
  linear_combination (-16 * Real.pi * r ^ 2 * (r ^ 2 - 1) ^ 2 * (r ^ 2 + 1)) * hs

/-- C53: for coordination `Z ≥ 2`, `gf_z` is the Hilbert transform of `dos`, at all points off the band. -/
theorem bethez_gf_hilbert {D Z : ℝ} (hD : 0 < D) (hZ : 2 ≤ Z) :
    ∃ (d : ℝ → ℝ) (G : ℂ → ℂ), (∀ e, bethezDos e D Z = .ok (d e)) ∧ (∀ z, bethezGfZ z D Z = .ok (G z)) ∧
      ∀ z, OffBand z D → ∫ e, (d e : ℂ) / (z - e) = G z := by
  have hZ1 : 1 < Z := by linarith
  obtain ⟨d, hd, hdos⟩ := bethez_dos hD hZ
  have hdR : d = bethezDosR D Z := by
    funext e
    have := hd e
    rw [bethezDos_eq hZ1] at this
    exact (Except.ok.inj this).symm
  refine ⟨d, fun z => 2 * (Z - 1) / D * (D / z) / ((Z - 2) + Z * Complex.sqrt (1 - (D / z : ℂ) ^ 2)), hd, ?_, ?_⟩
  · intro z
    unfold bethezGfZ
    rw [if_neg (not_not.2 hZ1)]
  · intro z hz
    rcases hZ.eq_or_lt with rfl | hZ2
    · have h1 := (bethez_two z (e := 0) hD).1
      have h2 : d = fun e => onedimDos e D := by
        funext e
        have h3 := hd e
        rw [(bethez_two z (e := e) hD).2] at h3
        exact (Except.ok.inj h3).symm
      rw [h2, onedim_gf_hilbert hD hz]
      unfold bethezGfZ at h1
      rw [if_neg (by norm_num)] at h1
      exact (Except.ok.inj h1).symm
    · apply hilbert_extend hD hdos (gf := fun z => 2 * (Z - 1) / D * (D / z)
        / ((Z - 2) + Z * Complex.sqrt (1 - (D / z : ℂ) ^ 2))) _ hz
      · have hz0 := hz.ne_zero hD
        have hc := (hasDerivAt_sqrt_band hD hz).continuousAt
        apply ContinuousAt.div
        · exact continuousAt_const.mul (continuousAt_const.div continuousAt_id hz0)
        · exact continuousAt_const.add (continuousAt_const.mul hc)
        · exact bethez_den_ne hD hZ1 hz (.inl hZ)
      · intro z hz
        rw [hdR]
        exact bethez_hilbert_im hD hZ2 hz

/-- C53: the lattice satisfies the specification of a lattice. -/
theorem bethez_isHilbert {D Z : ℝ} (hD : 0 < D) (hZ : 2 ≤ Z) :
    ∃ (d : ℝ → ℝ) (G : ℂ → ℂ), (∀ e, bethezDos e D Z = .ok (d e)) ∧ (∀ z, bethezGfZ z D Z = .ok (G z)) ∧
      IsHilbert (volume.withDensity fun e => ENNReal.ofReal (d e)) (Set.Icc (-D) D) G := by
  obtain ⟨d, G, hd, hG, h⟩ := bethez_gf_hilbert hD hZ
  obtain ⟨d', hd', hdos⟩ := bethez_dos hD hZ
  have : d' = d := by
    funext e
    have h1 := hd' e
    rw [hd e] at h1
    exact (Except.ok.inj h1).symm
  rw [this] at hdos
  exact ⟨d, G, hd, hG, isHilbert_of_dos hdos h⟩

example : ∃ G, bethezGfZ I 1 3 = .ok G ∧ bethezGfZ I 1 1 = .error .assertionError :=
  ⟨_, (bethez_infinite one_pos (offBand_of_im (by simp) _)).choose_spec.1 3 (by norm_num),
    (bethez_error_iff I 0 1 1).1.2 le_rfl⟩

end Gftool.Props
