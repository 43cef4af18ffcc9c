import Verif.Props.Lattice
import Verif.Lemmas.Moments

/-!
# Moments of the densities of states (C54) and multi-precision DOS (C57), elementary lattices
-/

namespace Gftool.Props

open Gftool Model Spec Lemmas
open MeasureTheory

/-! ## Look-up in tables -/

lemma lookup_mem {t : List (ℤ × ℚ)} {m : ℤ} {c : ℚ} (h : t.lookup m = some c) : (m, c) ∈ t := by
  obtain ⟨l₁, l₂, rfl, _⟩ := List.lookup_eq_some_iff.1 h
  simp

lemma lookup_none_iff {t : List (ℤ × ℚ)} {m : ℤ} : t.lookup m = none ↔ ∀ p ∈ t, p.1 ≠ m := by
  rw [List.lookup_eq_none_iff]
  exact forall₂_congr fun p _ => ⟨fun h h' => by simp [h'] at h, fun h => by simpa using fun h' => h h'.symm⟩

/-- Values of the look-up of moments which vanish for odd orders. -/
lemma momentFromTable_ok {t : List (ℤ × ℚ)} {m : ℕ} {D v : ℝ} {M : ℕ → ℚ} {tol : ℚ}
    (hodd : ∀ m : ℕ, m % 2 ≠ 0 → M m = 0)
    (htab : ∀ p ∈ t, |p.2 - M p.1.toNat| ≤ tol * M p.1.toNat)
    (h : momentFromTable t m D = .ok v) : ∃ c : ℚ, v = c * D ^ m ∧ |c - M m| ≤ tol * M m := by
  unfold momentFromTable at h
  by_cases hm : (m : ℤ) % 2 ≠ 0
  · rw [if_pos hm] at h
    refine ⟨0, ?_, ?_⟩
    · rw [← Except.ok.inj h]; simp
    · rw [hodd m (by omega)]
      simp
  · rw [if_neg hm] at h
    rcases hl : t.lookup (m : ℤ) with _ | c
    · rw [hl] at h; cases h
    · rw [hl] at h
      refine ⟨c, ?_, ?_⟩
      · rw [← Except.ok.inj h]
        norm_cast
      · have := htab _ (lookup_mem hl)
        simpa using this

lemma momentFromTable_error_iff {t : List (ℤ × ℚ)} {m : ℤ} {D : ℝ} {e : Err} :
    momentFromTable t m D = .error e ↔ e = .notImplemented ∧ m % 2 = 0 ∧ ∀ p ∈ t, p.1 ≠ m := by
  unfold momentFromTable
  by_cases hm : m % 2 ≠ 0
  · rw [if_pos hm]
    constructor
    · intro h; cases h
    · intro h; exact absurd h.2.1 hm
  · rw [if_neg hm]
    rw [← lookup_none_iff]
    rcases hl : t.lookup m with _ | c
    · simp only [and_true]
      constructor
      · intro h; cases h; exact ⟨rfl, not_not.1 hm⟩
      · rintro ⟨rfl, _⟩; rfl
    · constructor
      · intro h; cases h
      · rintro ⟨_, _, h⟩; cases h

/-! ## Bethe lattice -/

/-- All moments of the Bethe DOS. -/
lemma bethe_moment {D : ℝ} (hD : 0 < D) (m : ℕ) :
    ∫ e, e ^ m * betheDos e D = ((2 * (arcsineMoment m - arcsineMoment (m + 2)) : ℚ) : ℝ) * D ^ m := by
  have h := dos_integral hD (betheDos_zero hD) (betheDos_angle hD) (fun e => e ^ m)
  simp only [smul_eq_mul] at h
  have e1 : ∀ e : ℝ, e ^ m * betheDos e D = betheDos e D * e ^ m := fun e => mul_comm _ _
  simp_rw [e1]
  rw [h]
  have e2 : ∀ φ : ℝ, 2 / Real.pi * Real.sin φ ^ 2 * (D * Real.cos φ) ^ m
      = 2 / Real.pi * D ^ m * (Real.cos φ ^ m - Real.cos φ ^ (m + 2)) := by
    intro φ
    rw [Real.sin_sq, mul_pow, pow_add]
    ring
  simp_rw [e2]
  rw [intervalIntegral.integral_const_mul, intervalIntegral.integral_sub
    (Continuous.intervalIntegrable (by fun_prop) _ _) (Continuous.intervalIntegrable (by fun_prop) _ _),
    integral_cos_pow_eq Real.sin_pi, integral_cos_pow_eq Real.sin_pi]
  push_cast
  have := Real.pi_ne_zero
  field_simp

/-- The even moments of the Bethe DOS are the Catalan numbers. -/
theorem bethe_moment_catalan {D : ℝ} (hD : 0 < D) (k : ℕ) :
    ∫ e, e ^ (2 * k) * betheDos e D = catalan k * (D / 2) ^ (2 * k) := by
  rw [bethe_moment hD, arcsineMoment_step, arcsineMoment_two_mul, catalan_eq_centralBinom_div,
    Nat.cast_div (Nat.succ_dvd_centralBinom k) (by positivity)]
  push_cast
  have h1 : (k : ℝ) + 1 ≠ 0 := by positivity
  have h2 : 2 * (k : ℝ) + 2 ≠ 0 := by positivity
  rw [div_pow, pow_mul 2]
  norm_num
  field_simp
  ring

/-- C54: every moment returned for the Bethe lattice is the exact moment of its DOS. -/
theorem bethe_dos_moment {m : ℕ} {D v : ℝ} (hD : 0 < D) (h : betheDosMoment m D = .ok v) :
    v = ∫ e, e ^ m * betheDos e D := by
  obtain ⟨c, rfl, hc⟩ := momentFromTable_ok (M := fun m => 2 * (arcsineMoment m - arcsineMoment (m + 2)))
    (tol := 0) (by
      intro m hm
      rw [arcsineMoment_odd hm, arcsineMoment_odd (m := m + 2) (by omega)]
      norm_num) (by decide +kernel) h
  simp only [zero_mul] at hc
  rw [bethe_moment hD, sub_eq_zero.1 (abs_nonpos_iff.1 hc)]

/-- C54: the orders rejected for the Bethe lattice. -/
theorem bethe_dos_moment_error_iff (m : ℤ) (D : ℝ) (e : Err) :
    betheDosMoment m D = .error e ↔ e = .notImplemented ∧ m % 2 = 0 ∧ ¬ (2 ≤ m ∧ m ≤ 20) := by
  unfold betheDosMoment
  rw [momentFromTable_error_iff]
  refine and_congr_right fun _ => and_congr_right fun h2 => ?_
  simp [betheMomentTable]
  omega

/-- C54: the zeroth moment of the Bethe DOS, its norm, is rejected. -/
theorem bethe_dos_moment_zero_fails (D : ℝ) : betheDosMoment 0 D = .error .notImplemented :=
  (bethe_dos_moment_error_iff 0 D _).2 ⟨rfl, rfl, by norm_num⟩

example : ∃ v, betheDosMoment (6 : ℕ) 2 = .ok v := by
  rcases h : betheDosMoment (6 : ℕ) 2 with e | v
  · have := (bethe_dos_moment_error_iff _ _ _).1 h
    norm_num at this
  · exact ⟨v, rfl⟩

/-! ## One dimension -/

/-- All moments of the one-dimensional DOS. -/
lemma onedim_moment {D : ℝ} (hD : 0 < D) (m : ℕ) :
    ∫ e, e ^ m * onedimDos e D = (arcsineMoment m : ℝ) * D ^ m := by
  have h := dos_integral hD (onedimDos_zero hD) (onedimDos_angle hD) (fun e => e ^ m)
  simp only [smul_eq_mul] at h
  have e1 : ∀ e : ℝ, e ^ m * onedimDos e D = onedimDos e D * e ^ m := fun e => mul_comm _ _
  simp_rw [e1]
  rw [h, intervalIntegral.integral_const_mul]
  simp_rw [mul_pow]
  rw [intervalIntegral.integral_const_mul, integral_cos_pow_eq Real.sin_pi]
  have := Real.pi_ne_zero
  field_simp

/-- C54: every moment returned for the one-dimensional lattice is the moment of its DOS, up to the relative
error `3·10⁻¹⁵` of the tabulated decimals. -/
theorem onedim_dos_moment {m : ℕ} {D v : ℝ} (hD : 0 < D) (h : onedimDosMoment m D = .ok v) :
    |v - ∫ e, e ^ m * onedimDos e D| ≤ 3e-15 * ∫ e, e ^ m * onedimDos e D := by
  obtain ⟨c, rfl, hc⟩ := momentFromTable_ok (M := arcsineMoment) (tol := 3e-15) (fun m => arcsineMoment_odd)
    (by decide +kernel) h
  rw [onedim_moment hD, ← sub_mul, abs_mul, abs_of_pos (pow_pos hD m), ← mul_assoc]
  apply mul_le_mul_of_nonneg_right _ (by positivity)
  have : ((|c - arcsineMoment m| : ℚ) : ℝ) ≤ ((3e-15 * arcsineMoment m : ℚ) : ℝ) := by exact_mod_cast hc
  push_cast at this
  exact this

/-- C54: up to order 16 the moments of the one-dimensional lattice are exact. -/
theorem onedim_dos_moment_exact {m : ℕ} {D v : ℝ} (hD : 0 < D) (hm : m ≤ 16)
    (h : onedimDosMoment m D = .ok v) : v = ∫ e, e ^ m * onedimDos e D := by
  rw [onedim_moment hD]
  unfold onedimDosMoment momentFromTable at h
  by_cases h2 : (m : ℤ) % 2 ≠ 0
  · rw [if_pos h2] at h
    rw [← Except.ok.inj h, arcsineMoment_odd (by omega)]
    simp
  · rw [if_neg h2] at h
    rcases hl : onedimMomentTable.lookup (m : ℤ) with _ | c
    · rw [hl] at h; cases h
    · rw [hl] at h
      rw [← Except.ok.inj h]
      have htab : ∀ p ∈ onedimMomentTable, p.1.toNat ≤ 16 → p.2 = arcsineMoment p.1.toNat := by decide +kernel
      have := htab _ (lookup_mem hl) (by simpa using hm)
      simp only [Int.toNat_natCast] at this
      rw [this]
      norm_cast

/-- C54: the orders rejected for the one-dimensional lattice. -/
theorem onedim_dos_moment_error_iff (m : ℤ) (D : ℝ) (e : Err) :
    onedimDosMoment m D = .error e ↔ e = .notImplemented ∧ m % 2 = 0 ∧ ¬ (0 ≤ m ∧ m ≤ 20) := by
  unfold onedimDosMoment
  rw [momentFromTable_error_iff]
  refine and_congr_right fun _ => and_congr_right fun h2 => ?_
  simp [onedimMomentTable]
  omega

/-! ## Box -/

/-- C54: the moments of the box DOS, of all orders. -/
theorem box_dos_moment (m : ℕ) {D : ℝ} (hD : 0 < D) : boxDosMoment m D = ∫ e, e ^ m * boxDos e D := by
  have h := box_integral hD (fun e => e ^ m)
  simp only [smul_eq_mul] at h
  have e1 : ∀ e : ℝ, e ^ m * boxDos e D = boxDos e D * e ^ m := fun e => mul_comm _ _
  simp_rw [e1]
  rw [h, integral_pow]
  unfold boxDosMoment
  by_cases hm : (m : ℤ) % 2 ≠ 0
  · rw [if_pos hm]
    have : Even (m + 1) := by
      rw [Nat.even_iff]; omega
    rw [this.neg_pow]
    simp
  · rw [if_neg hm]
    have : Odd (m + 1) := by
      rw [Nat.odd_iff]; omega
    rw [this.neg_pow]
    have h1 : (m : ℝ) + 1 ≠ 0 := by positivity
    push_cast
    rw [zpow_natCast, pow_succ]
    norm_num
    field_simp
    ring

example : boxDosMoment (4 : ℕ) 2 = 16 / 5 := by norm_num [boxDosMoment]

/-- C54 is violated for negative orders: the moments of the box DOS do not exist, all the other lattices reject (even) negative orders … -/
theorem box_dos_moment_neg_not_integrable (m : ℤ) (hm : m < 0) {D : ℝ} (hD : 0 < D) :
    ¬ Integrable fun e : ℝ => e ^ m * boxDos e D := by
  intro h
  have h1 : IntegrableOn (fun x : ℝ => x ^ (m : ℝ)) (Set.Ioo 0 D) := by
    have h2 := (h.integrableOn (s := Set.Ioo 0 D)).const_mul (D / 0.5)
    refine IntegrableOn.congr_fun h2 (fun x hx => ?_) measurableSet_Ioo
    have : |x| < D := by rw [abs_of_pos hx.1]; exact hx.2
    simp only [boxDos, if_pos this, Real.rpow_intCast]
    field_simp
  rw [intervalIntegral.integrableOn_Ioo_rpow_iff hD] at h1
  have : (m : ℝ) ≤ -1 := by exact_mod_cast Int.le_sub_one_of_lt hm
  linarith

/-- … while `box.dos_moment` returns a negative number for even ones (`-1/D**2` for `m = -2`), although the integrand is
non-negative. -/
theorem box_dos_moment_neg_wrong (m : ℤ) (hm : m < 0) (he : m % 2 = 0) {D : ℝ} (hD : 0 < D) :
    boxDosMoment m D < 0 ∧ ∀ e : ℝ, 0 ≤ e ^ m * boxDos e D := by
  refine ⟨?_, fun e => ?_⟩
  · unfold boxDosMoment
    rw [if_neg (by simp [he])]
    have h1 : (m : ℝ) + 1 < 0 := by
      have : m + 1 < 0 := by omega
      exact_mod_cast this
    exact div_neg_of_pos_of_neg (zpow_pos hD _) h1
  · have h1 : 0 ≤ e ^ m := (Int.even_iff.2 he).zpow_nonneg e
    have h2 : 0 ≤ boxDos e D := by
      unfold boxDos
      split_ifs <;> positivity
    positivity

example : boxDosMoment (-2) 2 = -(1 / 4) := by norm_num [boxDosMoment]

/-! ## Multi-precision DOS -/

/-- C57: the multi-precision DOS of the Bethe lattice is the DOS. -/
theorem bethe_dos_mp (e : ℝ) {D : ℝ} (hD : 0 < D) : betheDosMp e D = betheDos e D := by
  unfold betheDosMp betheDos
  simp only
  have h : |e / D| = |e| / D := by rw [abs_div, abs_of_pos hD]
  rcases lt_trichotomy |e| D with h1 | h1 | h1
  · rw [if_neg (not_lt.2 h1.le), if_pos (by rwa [h, div_lt_one hD]), neg_sub]
  · rw [if_neg (by simp [h1]), if_neg (by rw [h, h1, div_self hD.ne']; exact lt_irrefl _)]
    have : (e / D) ^ 2 = 1 := by rw [← sq_abs, h, h1, div_self hD.ne']; norm_num
    rw [this]
    simp
  · rw [if_pos h1, if_neg (by rw [h, not_lt, one_le_div hD]; exact h1.le)]

/-- C57: inside and outside of the band the multi-precision DOS of the one-dimensional lattice is the DOS. -/
theorem onedim_dos_mp {e D : ℝ} (hD : 0 < D) (he : |e| ≠ D) : onedimDosMp e D = .ok (onedimDos e D) := by
  unfold onedimDosMp onedimDos
  simp only
  have h : |e / D| = |e| / D := by rw [abs_div, abs_of_pos hD]
  by_cases h1 : |e| ≤ D
  · have h2 : |e / D| < 1 := by rw [h, div_lt_one hD]; exact lt_of_le_of_ne h1 he
    have h3 : 0 < 1 - (e / D) ^ 2 := by
      have := (sq_lt_one_iff_abs_lt_one (e / D)).2 h2
      linarith
    have h4 : Real.pi * D * √(1 - (e / D) ^ 2) ≠ 0 := by
      have := Real.sqrt_pos.2 h3
      have := Real.pi_pos
      positivity
    rw [if_neg (not_lt.2 h1), neg_sub, if_neg h4, if_pos h2.le, div_div]
  · rw [if_pos (not_le.1 h1), if_neg (by rwa [h, div_le_one hD])]

/-- C57: at the band edges, where the DOS is infinite, `dos_mp` divides by zero. -/
theorem onedim_dos_mp_edge_fails {e D : ℝ} (hD : 0 < D) (he : |e| = D) :
    onedimDosMp e D = .error .zeroDivision := by
  unfold onedimDosMp
  have : (e / D) ^ 2 = 1 := by rw [← sq_abs, abs_div, abs_of_pos hD, he, div_self hD.ne']; norm_num
  rw [if_neg (by simp [he]), this]
  simp

end Gftool.Props
