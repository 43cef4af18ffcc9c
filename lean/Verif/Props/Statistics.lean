import Verif.Model.Statistics
import Verif.Spec.Statistics
import Mathlib.Analysis.SpecialFunctions.ExpDeriv
import Mathlib.Analysis.SpecialFunctions.Complex.Log
import Mathlib.Analysis.Complex.ExponentialBounds
import Mathlib.Tactic

/-!
# Properties C01-C05: distribution functions and Matsubara frequencies
-/

namespace Gftool.Props

open Gftool Model Complex

/-! ## C01 -/

/-- C01: the real branch (`expit`) is the Fermi function. -/
theorem fermi_fct_eq (eps beta : ℝ) : fermiFct eps beta = Spec.fermi beta eps := by
  simp [fermiFct, expit, Spec.fermi, mul_comm, add_comm]

/-- C01: both complex branches are the Fermi function, away from its poles. -/
theorem fermi_fct_complex_eq (eps : ℂ) (beta : ℝ) (h : Complex.exp (beta * eps) ≠ -1) :
    fermiFctC eps beta = Spec.fermiC beta eps := by
  unfold fermiFctC Spec.fermiC
  simp only
  split
  · rw [mul_comm eps, Complex.exp_neg]
    have h1 : Complex.exp (beta * eps) ≠ 0 := Complex.exp_ne_zero _
    have h2 : Complex.exp (beta * eps) + 1 ≠ 0 := fun h' => h (eq_neg_of_add_eq_zero_left h')
    have h3 : (1 : ℂ) + (Complex.exp (beta * eps))⁻¹ ≠ 0 := by
      intro h'
      apply h2
      field_simp at h'
      simpa using h'
    field_simp
  · rw [mul_comm eps]

example : Complex.exp ((1 : ℝ) * (2 : ℂ)) ≠ -1 := by
  intro h
  have : (Complex.exp ((1 : ℝ) * (2 : ℂ))).re = -1 := by rw [h]; simp
  have h2 : Complex.exp ((1 : ℝ) * (2 : ℂ)) = ((Real.exp 2 : ℝ) : ℂ) := by push_cast; simp
  rw [h2, Complex.ofReal_re] at this
  linarith [Real.exp_pos 2]

/-- C01: on real energies the complex code path returns the real result. -/
theorem fermi_fct_complex_real (eps beta : ℝ) :
    fermiFctC eps beta = (fermiFct eps beta : ℂ) := by
  rw [fermi_fct_complex_eq, fermi_fct_eq]
  · simp [Spec.fermiC, Spec.fermi]
  · intro h
    have h2 : Complex.exp ((beta : ℂ) * eps) = ((Real.exp (beta * eps) : ℝ) : ℂ) := by
      push_cast; rfl
    rw [h2] at h
    have := congrArg Complex.re h
    simp only [Complex.ofReal_re, Complex.neg_re, Complex.one_re] at this
    linarith [Real.exp_pos (beta * eps)]

/-- C01: values lie strictly between 0 and 1. -/
theorem fermi_fct_mem_Ioo (eps beta : ℝ) : fermiFct eps beta ∈ Set.Ioo (0 : ℝ) 1 := by
  rw [fermi_fct_eq, Spec.fermi]
  have := Real.exp_pos (beta * eps)
  constructor
  · positivity
  · rw [div_lt_one (by positivity)]; linarith

/-- C01: strictly decreasing in energy for `beta > 0`. -/
theorem fermi_fct_strictAnti {beta : ℝ} (hb : 0 < beta) :
    StrictAnti fun eps => fermiFct eps beta := by
  intro a b hab
  simp only [fermi_fct_eq, Spec.fermi]
  have h1 : Real.exp (beta * a) < Real.exp (beta * b) :=
    Real.exp_lt_exp.2 (mul_lt_mul_of_pos_left hab hb)
  have := Real.exp_pos (beta * a)
  exact one_div_lt_one_div_of_lt (by positivity) (by linarith)

/-- C01: particle-hole relation. -/
theorem fermi_fct_neg (eps beta : ℝ) : fermiFct (-eps) beta = 1 - fermiFct eps beta := by
  simp only [fermi_fct_eq, Spec.fermi, mul_neg, Real.exp_neg]
  have := Real.exp_pos (beta * eps)
  field_simp
  ring

/-- C01: half filling at zero energy, the branch point. -/
theorem fermi_fct_zero (beta : ℝ) : fermiFct 0 beta = 1 / 2 := by
  simp [fermi_fct_eq, Spec.fermi]; norm_num

/-! ## C02 -/

/-- C02: `fermi_fct_inv (fermi_fct eps) = eps`. -/
theorem fermi_fct_inv_fermi_fct (eps : ℝ) {beta : ℝ} (hb : beta ≠ 0) :
    fermiFctInv (fermiFct eps beta) beta = eps := by
  rw [fermi_fct_eq]
  unfold fermiFctInv logit Spec.fermi
  have h0 := Real.exp_pos (beta * eps)
  have : (1 / (Real.exp (beta * eps) + 1)) / (1 - 1 / (Real.exp (beta * eps) + 1))
      = Real.exp (-(beta * eps)) := by
    rw [Real.exp_neg]; field_simp; simp
  rw [this, Real.log_exp]
  field_simp

/-- C02: `fermi_fct (fermi_fct_inv f) = f` for fillings strictly between 0 and 1. -/
theorem fermi_fct_fermi_fct_inv {f beta : ℝ} (hb : beta ≠ 0) (hf : f ∈ Set.Ioo (0 : ℝ) 1) :
    fermiFct (fermiFctInv f beta) beta = f := by
  obtain ⟨h0, h1⟩ := hf
  have h2 : 0 < 1 - f := by linarith
  rw [fermi_fct_eq]
  unfold fermiFctInv logit Spec.fermi
  have : beta * (-Real.log (f / (1 - f)) / beta) = -Real.log (f / (1 - f)) := by field_simp
  rw [this, Real.exp_neg, Real.exp_log (by positivity)]
  field_simp
  ring

example : (1 / 3 : ℝ) ∈ Set.Ioo (0 : ℝ) 1 := by constructor <;> norm_num

/-- C02: together, at fixed `beta ≠ 0`, `fermi_fct` is a bijection `ℝ → (0, 1)`. -/
theorem fermi_fct_bijOn {beta : ℝ} (hb : beta ≠ 0) :
    Set.BijOn (fun eps => fermiFct eps beta) Set.univ (Set.Ioo 0 1) := by
  refine ⟨fun x _ => fermi_fct_mem_Ioo x beta, ?_, ?_⟩
  · intro x _ y _ hxy
    rw [← fermi_fct_inv_fermi_fct x hb, ← fermi_fct_inv_fermi_fct y hb]
    simp only at hxy
    rw [hxy]
  · intro f hf
    exact ⟨fermiFctInv f beta, trivial, fermi_fct_fermi_fct_inv hb hf⟩

/-! ## C03 -/

/-- C03: `fermi_fct_d1` is the derivative of `fermi_fct`. -/
theorem fermi_fct_d1_hasDerivAt (eps beta : ℝ) :
    HasDerivAt (fun e => fermiFct e beta) (fermiFctD1 eps beta) eps := by
  have hfun : (fun e => fermiFct e beta) = fun e => (Real.exp (beta * e) + 1)⁻¹ := by
    funext e; rw [fermi_fct_eq, Spec.fermi, one_div]
  rw [hfun]
  have h0 := Real.exp_pos (beta * eps)
  have h1 : HasDerivAt (fun e : ℝ => Real.exp (beta * e) + 1)
      (Real.exp (beta * eps) * beta) eps := by
    have := ((hasDerivAt_id eps).const_mul beta).exp.add_const 1
    simpa using this
  have h2 := h1.inv (by positivity)
  refine h2.congr_deriv ?_
  simp only [fermiFctD1, fermi_fct_eq, Spec.fermi]
  field_simp
  ring

/-- C03: even in energy. -/
theorem fermi_fct_d1_even (eps beta : ℝ) : fermiFctD1 (-eps) beta = fermiFctD1 eps beta := by
  simp only [fermiFctD1, fermi_fct_neg]; ring

/-- C03: range `[-beta/4, 0)` for `beta > 0`; the bound is attained at zero energy. -/
theorem fermi_fct_d1_mem {beta : ℝ} (hb : 0 < beta) (eps : ℝ) :
    fermiFctD1 eps beta ∈ Set.Ico (-beta / 4) 0 ∧ fermiFctD1 0 beta = -beta / 4 := by
  obtain ⟨h0, h1⟩ := fermi_fct_mem_Ioo eps beta
  refine ⟨⟨?_, ?_⟩, ?_⟩
  · simp only [fermiFctD1]
    nlinarith [sq_nonneg (fermiFct eps beta - 1 / 2)]
  · simp only [fermiFctD1]
    have : 0 < beta * fermiFct eps beta * (1 - fermiFct eps beta) := by
      have : 0 < 1 - fermiFct eps beta := by linarith
      positivity
    linarith
  · simp only [fermiFctD1, fermi_fct_zero]; ring

/-! ## C04 -/

/-- C04: both branches are the Bose function. -/
theorem bose_fct_eq {eps beta : ℝ} (h : beta * eps ≠ 0) :
    boseFct eps beta = Spec.bose beta eps := by
  unfold boseFct Spec.bose expm1
  simp only
  split
  · rfl
  · rw [Real.exp_neg]
    have h0 := Real.exp_pos (beta * eps)
    have h1 : Real.exp (beta * eps) - 1 ≠ 0 := by
      intro h'
      exact h (Real.exp_eq_one_iff _ |>.1 (by linarith))
    have h2 : (Real.exp (beta * eps))⁻¹ - 1 ≠ 0 := by
      intro h'
      apply h1
      field_simp at h'
      linarith
    have h3 : 1 - Real.exp (beta * eps) ≠ 0 := by intro h'; apply h1; linarith
    field_simp
    ring

example : (2 : ℝ) * 400 ≠ 0 ∧ ¬ ((2 : ℝ) * 400 < 700) ∧ (2 : ℝ) * 3 ≠ 0 := by norm_num

/-- C04: positive for `beta*eps > 0`. -/
theorem bose_fct_pos {eps beta : ℝ} (h : 0 < beta * eps) : 0 < boseFct eps beta := by
  rw [bose_fct_eq h.ne', Spec.bose]
  have := Real.one_lt_exp_iff.2 h
  exact one_div_pos.2 (by linarith)

/-- C04: strictly decreasing for positive energies across the branch switch. -/
theorem bose_fct_strictAntiOn {beta : ℝ} (hb : 0 < beta) :
    StrictAntiOn (fun eps => boseFct eps beta) (Set.Ioi 0) := by
  intro a ha b hb' hab
  have ha' : 0 < beta * a := mul_pos hb ha
  have hb'' : 0 < beta * b := mul_pos hb hb'
  simp only [bose_fct_eq ha'.ne', bose_fct_eq hb''.ne', Spec.bose]
  have h1 : Real.exp (beta * a) < Real.exp (beta * b) :=
    Real.exp_lt_exp.2 (mul_lt_mul_of_pos_left hab hb)
  have := Real.one_lt_exp_iff.2 ha'
  exact one_div_lt_one_div_of_lt (by linarith) (by linarith)

/-- C04: strictly decreasing in the product `beta*eps`, for any temperatures and signs. -/
theorem bose_fct_strictAnti_prod {eps eps' beta beta' : ℝ} (h : 0 < beta * eps)
    (hlt : beta * eps < beta' * eps') : boseFct eps' beta' < boseFct eps beta := by
  rw [bose_fct_eq h.ne', bose_fct_eq (h.trans hlt).ne', Spec.bose, Spec.bose]
  have h1 := Real.exp_lt_exp.2 hlt
  have := Real.one_lt_exp_iff.2 h
  exact one_div_lt_one_div_of_lt (by linarith) (by linarith)

example : (0 : ℝ) < -1 * -2 ∧ (-1 : ℝ) * -2 < 3 * 300 := by norm_num

/-- C04: reflection `n(-eps) = -1 - n(eps)`. -/
theorem bose_fct_neg {eps beta : ℝ} (h : beta * eps ≠ 0) :
    boseFct (-eps) beta = -1 - boseFct eps beta := by
  rw [bose_fct_eq h, bose_fct_eq (by simpa using h)]
  simp only [Spec.bose, mul_neg, Real.exp_neg]
  have h0 := Real.exp_pos (beta * eps)
  have h1 : Real.exp (beta * eps) - 1 ≠ 0 := by
    intro h'
    exact h (Real.exp_eq_one_iff _ |>.1 (by linarith))
  have h2 : (Real.exp (beta * eps))⁻¹ - 1 ≠ 0 := by
    intro h'
    apply h1
    field_simp at h'
    linarith
  have h3 : 1 - Real.exp (beta * eps) ≠ 0 := by intro h'; apply h1; linarith
  field_simp
  ring

/-- C04, disagreement: for integer-typed input the result array inherits the integer dtype,
so the value is truncated: `bose_fct(1, beta=1)` evaluates to `0` instead of `0.58…`. -/
theorem bose_fct_int_wrong : boseFctInt 1 1 = 0 ∧ Spec.bose 1 1 ≠ 0 := by
  have he : (2 : ℝ) < Real.exp 1 := lt_trans (by norm_num) Real.exp_one_gt_d9
  have hne : (1 : ℝ) * 1 ≠ 0 := by norm_num
  constructor
  · unfold boseFctInt
    have : boseFct ((1 : ℤ) : ℝ) ((1 : ℤ) : ℝ) = 1 / (Real.exp 1 - 1) := by
      rw [Int.cast_one, bose_fct_eq hne, Spec.bose, mul_one]
    rw [this, truncInt, if_pos (by apply le_of_lt; apply one_div_pos.2; linarith)]
    rw [Int.floor_eq_iff]
    constructor
    · simp only [Int.cast_zero]; apply le_of_lt; apply one_div_pos.2; linarith
    · rw [div_lt_iff₀ (by linarith)]; simp; linarith
  · rw [Spec.bose, mul_one]
    exact (one_div_pos.2 (by linarith)).ne'

/-! ## C05 -/

/-- C05: fermionic frequencies: exactly the solutions of `exp(beta z) = -1`. -/
theorem matsubara_iff {beta : ℝ} (hb : beta ≠ 0) (z : ℂ) :
    Complex.exp (beta * z) = -1 ↔ ∃ n : ℤ, z = matsubaraFrequencies n beta := by
  have hbc : (beta : ℂ) ≠ 0 := by exact_mod_cast hb
  rw [← Complex.exp_pi_mul_I, Complex.exp_eq_exp_iff_exists_int]
  constructor
  · rintro ⟨n, hn⟩
    refine ⟨n, ?_⟩
    unfold matsubaraFrequencies
    field_simp
    rw [mul_comm, hn]; ring
  · rintro ⟨n, rfl⟩
    refine ⟨n, ?_⟩
    unfold matsubaraFrequencies
    field_simp
    ring

/-- C05: bosonic frequencies: exactly the solutions of `exp(beta z) = 1`. -/
theorem matsubara_b_iff {beta : ℝ} (hb : beta ≠ 0) (z : ℂ) :
    Complex.exp (beta * z) = 1 ↔ ∃ n : ℤ, z = matsubaraFrequenciesB n beta := by
  have hbc : (beta : ℂ) ≠ 0 := by exact_mod_cast hb
  rw [Complex.exp_eq_one_iff]
  constructor
  · rintro ⟨n, hn⟩
    refine ⟨n, ?_⟩
    unfold matsubaraFrequenciesB
    field_simp
    rw [mul_comm, hn]; ring
  · rintro ⟨n, hn⟩
    refine ⟨n, ?_⟩
    rw [hn]
    unfold matsubaraFrequenciesB
    field_simp

/-- C05: purely imaginary, equally spaced, and distinct for distinct indices. -/
theorem matsubara_structure {beta : ℝ} (hb : 0 < beta) :
    (∀ n, (matsubaraFrequencies n beta).re = 0) ∧
    (∀ n, (matsubaraFrequencies n beta).im = Real.pi / beta * (2 * n + 1)) ∧
    (∀ n, matsubaraFrequencies (n + 1) beta - matsubaraFrequencies n beta
      = I * (2 * Real.pi / beta)) ∧
    (∀ n, (matsubaraFrequenciesB n beta).re = 0) ∧
    (∀ n, (matsubaraFrequenciesB n beta).im = 2 * Real.pi / beta * n) ∧
    (∀ n, matsubaraFrequenciesB (n + 1) beta - matsubaraFrequenciesB n beta
      = I * (2 * Real.pi / beta)) ∧
    StrictMono (fun n => (matsubaraFrequencies n beta).im) ∧
    StrictMono (fun n => (matsubaraFrequenciesB n beta).im) := by
  have e1 : ∀ n, matsubaraFrequencies n beta
      = ((Real.pi / beta * (2 * n + 1) : ℝ) : ℂ) * I := by
    intro n; unfold matsubaraFrequencies; push_cast; ring
  have e2 : ∀ n, matsubaraFrequenciesB n beta
      = ((2 * Real.pi / beta * n : ℝ) : ℂ) * I := by
    intro n; unfold matsubaraFrequenciesB; push_cast; ring
  have i1 : ∀ n, (matsubaraFrequencies n beta).im = Real.pi / beta * (2 * n + 1) := by
    intro n; rw [e1]; simp
  have i2 : ∀ n, (matsubaraFrequenciesB n beta).im = 2 * Real.pi / beta * n := by
    intro n; rw [e2]; simp
  have hp : 0 < Real.pi / beta := div_pos Real.pi_pos hb
  refine ⟨?_, i1, ?_, ?_, i2, ?_, ?_, ?_⟩
  · intro n; rw [e1]; simp
  · intro n; unfold matsubaraFrequencies; push_cast; ring
  · intro n; rw [e2]; simp
  · intro n; unfold matsubaraFrequenciesB; push_cast; ring
  · intro a b hab
    simp only [i1]
    have : (a : ℝ) < b := by exact_mod_cast hab
    nlinarith
  · intro a b hab
    simp only [i2]
    have : (a : ℝ) < b := by exact_mod_cast hab
    have h2 : 0 < 2 * Real.pi / beta := by positivity
    nlinarith

/-- C05: the fermionic frequencies are precisely the excluded points of C01. -/
theorem fermi_pole_iff_matsubara {beta : ℝ} (hb : beta ≠ 0) (z : ℂ) :
    Complex.exp (beta * z) + 1 = 0 ↔ ∃ n : ℤ, z = matsubaraFrequencies n beta := by
  rw [← matsubara_iff hb]
  exact ⟨fun h => eq_neg_of_add_eq_zero_left h, fun h => by rw [h]; ring⟩

end Gftool.Props
