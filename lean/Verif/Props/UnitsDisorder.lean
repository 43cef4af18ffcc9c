import Verif.Props.UnitsSystems

/-!
# Property C78: the unit of energy in disorder problems, Laplace transforms and the chemical potential
-/

namespace Gftool.Props

open Gftool Model Spec Lemmas Matrix MeasureTheory

/-! ## Laplace transform -/

private lemma phase_units {c : ℝ} (hc : 0 < c) (z : ℂ) (t : ℝ) : phase (c * z) (t / c) = phase z t := by
  have hcc : (c : ℂ) ≠ 0 := by exact_mod_cast hc.ne'
  unfold phase
  congr 1
  push_cast
  field_simp

private lemma quadWeight_units (c : ℝ) (quad : Quad) (n : ℕ) (dt : ℝ) (g : ℕ → ℂ) (k : ℕ) :
    quadWeight quad n (dt / c) g k = quadWeight quad n dt (fun k => (c : ℂ)⁻¹ * g k) k := by
  have h1 : simpsWeight n (dt / c) g false k = simpsWeight n dt (fun k => (c : ℂ)⁻¹ * g k) false k := by
    unfold simpsWeight
    simp only [Bool.false_eq_true, not_false_eq_true, if_true]
    push_cast
    ring
  cases quad
  · unfold quadWeight trapzWeight
    push_cast
    ring
  · exact h1
  · exact h1

/-- C78: the quadratures. -/
theorem tt2z_quad_units {c : ℝ} (hc : 0 < c) (n : ℕ) (tt : ℕ → ℝ) (g : ℕ → ℂ) (z : ℂ) :
    tt2zTrapz n (fun k => tt k / c) g (c * z) = (tt2zTrapz n tt g z).map (· / (c : ℂ)) ∧
    tt2zSimps n (fun k => tt k / c) g (c * z) = (tt2zSimps n tt g z).map (· / (c : ℂ)) := by
  by_cases hn : n < 2
  · unfold tt2zTrapz tt2zSimps
    simp only [if_pos hn]
    exact ⟨rfl, rfl⟩
  constructor
  · unfold tt2zTrapz
    simp only [if_neg hn, phase_units hc, Except.map]
    congr 1
    simp only [← sub_div]
    push_cast
    rw [mul_div_assoc, add_div, add_div, Finset.sum_div]
    congr 2
    · ring
    · refine Finset.sum_congr rfl fun k _ => ?_
      ring
  · unfold tt2zSimps
    simp only [if_neg hn, phase_units hc, Except.map]
    congr 1
    rw [Finset.sum_div]
    refine Finset.sum_congr rfl fun k _ => ?_
    rw [← sub_div, show simpsWeight n ((tt 1 - tt 0) / c) g false k = _ from quadWeight_units c .simps n _ g k]
    unfold quadWeight simpsWeight
    simp only [Bool.false_eq_true, not_false_eq_true, if_true]
    ring

/-- C78: `tt2z_lin`, if the check for equidistant points has the same outcome in both units. It need not, see
`tt2z_grid_check_depends_on_unit`. -/
theorem tt2z_lin_units_partial {c : ℝ} (hc : 0 < c) (n : ℕ) (tt : ℕ → ℝ) (g : ℕ → ℂ) (z : ℂ)
    (hE : equidistant n (fun k => tt k / c) ↔ equidistant n tt) :
    tt2zLin n (fun k => tt k / c) g (c * z) = (tt2zLin n tt g z).map (· / (c : ℂ)) := by
  have hcc : (c : ℂ) ≠ 0 := by exact_mod_cast hc.ne'
  unfold tt2zLin
  by_cases hn : n < 2
  · simp only [if_pos hn]
    rfl
  by_cases he : ¬ equidistant n tt
  · simp only [if_neg hn]
    rw [if_pos fun h => he (hE.1 h), if_pos he]
    rfl
  simp only [if_neg hn]
  rw [if_neg fun h => he fun h' => h (hE.2 h'), if_neg he]
  by_cases hz : z = 0
  · rw [if_pos (by rw [hz, mul_zero]), if_pos hz]
    simp only [Except.map]
    congr 1
    rw [Finset.sum_div]
    refine Finset.sum_congr rfl fun k _ => ?_
    push_cast
    field_simp
  · rw [if_neg (mul_ne_zero hcc hz), if_neg hz]
    have hi : Complex.I * (c * z) * ((tt 1 / c - tt 0 / c : ℝ) : ℂ) = Complex.I * z * ((tt 1 - tt 0 : ℝ) : ℂ) := by
      push_cast
      field_simp
    simp only [hi, phase_units hc, Except.map]
    congr 1
    push_cast
    ring

/-- C78: equidistant grids are accepted in every unit. -/
theorem equidistant_units (n : ℕ) (t0 dt c : ℝ) : equidistant n fun k => (t0 + k * dt) / c := by
  intro k _
  have : (t0 + ((k + 1 : ℕ) : ℝ) * dt) / c - (t0 + k * dt) / c
      - ((t0 + ((1 : ℕ) : ℝ) * dt) / c - (t0 + ((0 : ℕ) : ℝ) * dt) / c) = 0 := by
    push_cast
    ring
  rw [this, abs_zero]
  positivity

/-- C78, violated: whether times are accepted as equidistant depends on the unit of time: the times `0, 1e-8, 3e-8` are,
`0, 1, 3` are not. -/
theorem tt2z_grid_check_depends_on_unit (g : ℕ → ℂ) (z : ℂ) : ∃ tt : ℕ → ℝ, ∃ c > 0,
    (∃ r, tt2zLin 3 tt g z = .ok r) ∧ tt2zLin 3 (fun k => tt k / c) g (c * z) = .error .valueError := by
  refine ⟨fun k => if k = 0 then 0 else if k = 1 then 1e-8 else 3e-8, 1e-8, by norm_num, ?_, ?_⟩
  · unfold tt2zLin
    rw [if_neg (by norm_num), if_neg]
    · split_ifs
      · exact ⟨_, rfl⟩
      · exact ⟨_, rfl⟩
    · rw [not_not]
      intro k hk
      have hk' : k < 2 := hk
      interval_cases k
      · norm_num
      · norm_num [abs_le]
  · unfold tt2zLin
    rw [if_neg (by norm_num), if_pos]
    intro h
    have := h 1 (by norm_num)
    norm_num [abs_le] at this

/-- C78: `tt2z_lpz` on equidistant times starting at zero. -/
theorem tt2z_lpz_time_units (ext : LinalgExt ℂ) {c : ℝ} (hc : 0 < c) (n : ℕ) (dt : ℝ) (g : ℕ → ℂ) (z : ℂ)
    (order : Option ℕ) (quad : Quad) :
    tt2zLpz ext n (fun k => k * dt / c) g (c * z) order quad
      = (tt2zLpz ext n (fun k => k * dt) g z order quad).map (· / (c : ℂ)) := by
  have hcc : (c : ℂ) ≠ 0 := by exact_mod_cast hc.ne'
  have h := tt2z_lpz_units ext n dt g z order quad (inv_ne_zero hcc) 0
  simp only [Complex.ofReal_zero, mul_zero, zero_mul, neg_zero, Complex.exp_zero, one_mul, add_zero] at h
  have e : (fun x : ℂ => x / (c : ℂ)) = fun x => (c : ℂ)⁻¹ * x := funext fun x => div_eq_inv_mul _ _
  rw [e, ← h]
  have hE : equidistant n fun k => k * dt / c := by simpa using equidistant_units n 0 dt c
  have hE' : equidistant n fun k => (k : ℝ) * dt := by simpa using equidistant_units n 0 dt 1
  have hq : quadWeight quad n (((1 : ℕ) : ℝ) * dt / c - ((0 : ℕ) : ℝ) * dt / c) g
      = quadWeight quad n (((1 : ℕ) : ℝ) * dt - ((0 : ℕ) : ℝ) * dt) fun k => (c : ℂ)⁻¹ * g k := by
    funext k
    rw [← sub_div]
    exact quadWeight_units c quad n _ g k
  unfold tt2zLpz
  by_cases hn : n < 2
  · simp only [if_pos hn]
  · simp only [if_neg hn]
    rw [if_neg (not_not.2 hE), if_neg (not_not.2 hE')]
    simp only [hq, phase_units hc]

/-- C78: `tt2z_pade` on equidistant times starting at zero is `tt2z_pade` of the function divided by `c` in the original
unit, for every approximation of power series. (Padé approximants are homogeneous, see `tt2z_pade_units`.) -/
theorem tt2z_pade_time_units (pade : ℕ → (ℕ → ℂ) → ℕ → ℕ → Except Err RatPol) {c : ℝ} (hc : 0 < c) (n : ℕ) (dt : ℝ)
    (g : ℕ → ℂ) (z : ℂ) (degree : ℤ) (quad : Quad) :
    tt2zPade pade n (fun k => k * dt / c) g (c * z) degree quad
      = tt2zPade pade n (fun k => k * dt) (fun k => (c : ℂ)⁻¹ * g k) z degree quad := by
  have hE : equidistant n fun k => k * dt / c := by simpa using equidistant_units n 0 dt c
  have hE' : equidistant n fun k => (k : ℝ) * dt := by simpa using equidistant_units n 0 dt 1
  have hq : quadWeight quad n (((1 : ℕ) : ℝ) * dt / c - ((0 : ℕ) : ℝ) * dt / c) g
      = quadWeight quad n (((1 : ℕ) : ℝ) * dt - ((0 : ℕ) : ℝ) * dt) fun k => (c : ℂ)⁻¹ * g k := by
    funext k
    rw [← sub_div]
    exact quadWeight_units c quad n _ g k
  have h0 : ((0 : ℕ) : ℝ) * dt / c = 0 := by simp
  have h0' : ((0 : ℕ) : ℝ) * dt = 0 := by simp
  have hp : phase (c * z) (((1 : ℕ) : ℝ) * dt / c - ((0 : ℕ) : ℝ) * dt / c)
      = phase z (((1 : ℕ) : ℝ) * dt - ((0 : ℕ) : ℝ) * dt) := by
    rw [← sub_div]
    exact phase_units hc z _
  unfold tt2zPade
  by_cases hn : n < 2
  · simp only [if_pos hn]
  · simp only [if_neg hn]
    rw [if_neg (not_not.2 hE), if_neg (not_not.2 hE')]
    simp only [hq, hp]
    rw [h0, h0']

/-! ## Chemical potential -/

/-- C78: the bracket of `chemical_potential` scales if the initial step is given in the new unit. -/
theorem chemical_potential_bracket_units {c : ℝ} (hc : 0 < c) (occ : ℝ → ℝ) (mu0 step0 : ℝ) :
    chemBracket (fun mu => occ (mu / c)) (c * mu0) (c * step0)
      = (chemBracket occ mu0 step0).map fun r => r.map fun p => (c * p.1, c * p.2) := by
  have key : ∀ (s0 : ℝ) (fuel : ℕ) (mu1 step : ℝ),
      bracketLoop (fun mu => occ (mu / c)) (c * mu0) s0 fuel (c * mu1) (c * step)
        = (bracketLoop occ mu0 s0 fuel mu1 step).map fun p => (c * p.1, c * p.2) := by
    intro s0 fuel
    have e : ∀ step, (c * mu0 + c * step) / c = mu0 + step := fun step => by field_simp
    induction fuel with
    | zero =>
      intro mu1 step
      unfold bracketLoop
      simp only [e]
      split_ifs
      · rfl
      · rfl
    | succ fuel ih =>
      intro mu1 step
      unfold bracketLoop
      simp only [e]
      split_ifs
      · rw [← mul_add, mul_assoc, ih]
      · rfl
  unfold chemBracket
  have e0 : c * mu0 / c = mu0 := by field_simp
  simp only [e0]
  by_cases h : occ mu0 = 0
  · rw [if_pos h, if_pos h]
    rfl
  · rw [if_neg h, if_neg h, show -(c * step0) * occ mu0 = c * (-step0 * occ mu0) by ring, key]
    cases bracketLoop occ mu0 (npSign (occ mu0)) 100 mu0 (-step0 * occ mu0) with
    | error e => rfl
    | ok p =>
      simp only [Except.map, Option.map, ← mul_add]
      rw [mul_min_of_nonneg _ _ hc.le, mul_max_of_nonneg _ _ hc.le]

/-! ## Disorder -/

section
variable {ι : Type*} [Fintype ι]

/-- C78: the equations of the coherent potential approximation, for the same lattice in the other unit. -/
theorem cpa_units {c : ℝ} (hc : 0 < c) (s z : ℂ) (e : ι → ℂ) (conc : ι → ℝ) (hilbert : ℂ → ℂ) (i : ι) :
    gfCmptZ (c * z) (c * s) (fun i => c * e i) (scaleHilbert c hilbert) i = gfCmptZ z s e hilbert i / c ∧
    selfRootEq (c * s) (c * z) (fun i => c * e i) conc (scaleHilbert c hilbert) = c * selfRootEq s z e conc hilbert ∧
    selfFxdpntEq (c * s) (c * z) (fun i => c * e i) conc (scaleHilbert c hilbert) = c * selfFxdpntEq s z e conc hilbert := by
  have hcc : (c : ℂ) ≠ 0 := by exact_mod_cast hc.ne'
  have hg : scaleHilbert c hilbert (c * z - c * s) = hilbert (z - s) / c := by
    unfold scaleHilbert
    rw [← mul_sub, mul_div_cancel_left₀ _ hcc]
  have hp : ∀ i, (c * e i - c * s) * (hilbert (z - s) / c) = (e i - s) * hilbert (z - s) := by
    intro i
    field_simp
  have hT : cpaT (c * s) (c * z) (fun i => c * e i) conc (scaleHilbert c hilbert) = c * cpaT s z e conc hilbert := by
    unfold cpaT
    simp only [hg, hp]
    rw [Finset.mul_sum]
    refine Finset.sum_congr rfl fun i _ => ?_
    rw [← mul_sub]
    ring
  have hr : selfRootEq (c * s) (c * z) (fun i => c * e i) conc (scaleHilbert c hilbert) = c * selfRootEq s z e conc hilbert := by
    unfold selfRootEq
    simp only [hT, hg]
    rw [show (c : ℂ) * cpaT s z e conc hilbert * (hilbert (z - s) / c) = cpaT s z e conc hilbert * hilbert (z - s) by field_simp,
      mul_div_assoc]
  refine ⟨?_, hr, ?_⟩
  · unfold gfCmptZ
    simp only [hg, hp]
    rw [div_right_comm]
  · unfold selfFxdpntEq
    rw [hr, mul_add]

/-- C78: the roots of the CPA equation in the other unit. -/
theorem cpa_root_units {c : ℝ} (hc : 0 < c) (s z : ℂ) (e : ι → ℂ) (conc : ι → ℝ) (hilbert : ℂ → ℂ) :
    selfRootEq (c * s) (c * z) (fun i => c * e i) conc (scaleHilbert c hilbert) = 0 ↔ selfRootEq s z e conc hilbert = 0 := by
  have hcc : (c : ℂ) ≠ 0 := by exact_mod_cast hc.ne'
  by_cases hι : Nonempty ι
  · obtain ⟨i⟩ := hι
    rw [(cpa_units hc s z e conc hilbert i).2.1, mul_eq_zero, or_iff_right hcc]
  · have := not_nonempty_iff.1 hι
    simp [selfRootEq, cpaT]

end

section
variable {n : ℕ}

/-- C78: the self-energy of Blackman, Esterling and Berk scales with the other energies, where either the hopping
matrix or the density of states carries the unit. -/
theorem beb_self_units {c : ℝ} (hc : 0 < c) {dos : Measure ℝ} {T : Matrix (Fin n) (Fin n) ℂ} {z : ℂ} {e : Fin n → ℂ}
    {conc : Fin n → ℝ} {s : Matrix (Fin n) (Fin n) ℂ} (h : IsBebSelf dos T z e conc s) :
    IsBebSelf dos ((c : ℂ) • T) (c * z) (fun i => c * e i) conc ((c : ℂ) • s) ∧
    IsBebSelf (dos.map (c * ·)) T (c * z) (fun i => c * e i) conc ((c : ℂ) • s) := by
  have hcc : (c : ℂ) ≠ 0 := by exact_mod_cast hc.ne'
  obtain ⟨hp, g, hg, hsc⟩ := h
  have hp' : PhysicalSelf ((c : ℂ) • s) := by
    intro v
    rw [smul_mulVec, dotProduct_smul, smul_eq_mul, Complex.im_ofReal_mul]
    exact mul_nonpos_of_nonneg_of_nonpos hc.le (hp v)
  have hinv : ∀ (A : Matrix (Fin n) (Fin n) ℂ) a b, ((c : ℂ) • A)⁻¹ a b = A⁻¹ a b / c := by
    intro A a b
    by_cases hA : IsUnit A.det
    · rw [show ((c : ℂ) • A) = (Units.mk0 (c : ℂ) hcc) • A from rfl, Matrix.inv_smul' _ _ hA, Matrix.smul_apply]
      rw [Units.smul_def, Units.val_inv_eq_inv_val, Units.val_mk0, smul_eq_mul, div_eq_inv_mul]
    · have hA' : ¬ IsUnit ((c : ℂ) • A).det := by
        rw [isUnit_iff_ne_zero, not_not] at hA ⊢
        rw [det_smul, hA, mul_zero]
      rw [nonsing_inv_apply_not_isUnit _ hA, nonsing_inv_apply_not_isUnit _ hA', Matrix.zero_apply, zero_div]
  have hsc' : ∀ a, g a / c = (conc a : ℂ) * (1 / (1 / (g a / c) + ((c : ℂ) • s) a a - c * e a)) := by
    intro a
    rw [Matrix.smul_apply, smul_eq_mul, one_div_div, show (c : ℂ) / g a + c * s a a - c * e a
      = c * (1 / g a + s a a - e a) by ring]
    conv_lhs => rw [hsc a]
    generalize 1 / g a + s a a - e a = y
    ring
  have hval : ∀ a b, (if a = b then g a else 0) / (c : ℂ) = if a = b then g a / c else 0 := by
    intro a b
    split_ifs
    · rfl
    · rw [zero_div]
  refine ⟨⟨hp', fun a => g a / c, fun a b => ?_, hsc'⟩, ⟨hp', fun a => g a / c, fun a b => ?_, hsc'⟩⟩
  · have h1 : ∀ eps : ℝ, (((c * z) • (1 : Matrix (Fin n) (Fin n) ℂ) - (c : ℂ) • s - (eps : ℂ) • (c : ℂ) • T)⁻¹) a b
        = ((z • (1 : Matrix (Fin n) (Fin n) ℂ) - s - (eps : ℂ) • T)⁻¹) a b / c := by
      intro eps
      rw [← hinv, smul_sub, smul_sub, ← smul_smul, smul_comm (c : ℂ) (eps : ℂ)]
    simp only [h1]
    rw [integral_div, hg, hval]
  · have h1 : ∀ eps : ℝ, (((c * z) • (1 : Matrix (Fin n) (Fin n) ℂ) - (c : ℂ) • s - ((c * eps : ℝ) : ℂ) • T)⁻¹) a b
        = ((z • (1 : Matrix (Fin n) (Fin n) ℂ) - s - (eps : ℂ) • T)⁻¹) a b / c := by
      intro eps
      rw [← hinv, smul_sub, smul_sub, ← smul_smul, Complex.ofReal_mul, ← smul_smul]
    rw [(measurableEmbedding_mulLeft₀ hc.ne').integral_map]
    simp only [h1]
    rw [integral_div, hg, hval]

end

/-- C78, non-vacuity: an alloy on the Bethe lattice, half-bandwidth `1` and `2`. -/
example (s z : ℂ) : selfRootEq (2 * s) (2 * z) ![2, -2] ![1 / 2, 1 / 2] (fun x => betheHilbert x 2)
    = 2 * selfRootEq s z ![1, -1] ![1 / 2, 1 / 2] fun x => betheHilbert x 1 := by
  have h := (cpa_units (c := 2) two_pos s z (![1, -1] : Fin 2 → ℂ) ![1 / 2, 1 / 2] (fun x => betheHilbert x 1) 0).2.1
  have h1 : scaleHilbert 2 (fun x => betheHilbert x 1) = fun x => betheHilbert x 2 := by
    funext x
    unfold scaleHilbert betheHilbert
    have := (bethe_gf_units (c := 2) two_pos (x / 2) 0 1).1
    push_cast at this ⊢
    rw [← this, mul_one, mul_div_cancel₀ x (by norm_num)]
  have h2 : (fun i => ((2 : ℝ) : ℂ) * (![1, -1] : Fin 2 → ℂ) i) = ![2, -2] := by
    funext i
    fin_cases i <;> simp
  rw [h1, h2] at h
  simpa using h

end Gftool.Props
