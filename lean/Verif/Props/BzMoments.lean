import Verif.Model.MomentTables
import Verif.Lemmas.BzMoments
import Verif.Props.Moments

/-!
# Moments of the densities of states (C54): lattices with tabulated moments

`dos_moment(m)` is compared with the average of the `m`-th power of the dispersion over the Brillouin zone.
The tables contain decimal numbers, the values are correct up to the relative error `momentTol`.
-/

namespace Gftool.Props

open Gftool Model Spec Lemmas MeasureTheory

/-- Relative accuracy of the tabulated moments. -/
def momentTol : ℚ := 5 / 10 ^ 15

lemma moment_close {c M : ℚ} {D : ℝ} {m : ℕ} (h : |c - M| ≤ momentTol * M) :
    |(c : ℝ) * D ^ m - M * D ^ m| ≤ (momentTol : ℝ) * |(M : ℝ) * D ^ m| := by
  rw [← sub_mul, abs_mul, abs_mul, ← mul_assoc]
  refine mul_le_mul_of_nonneg_right ?_ (abs_nonneg _)
  have h1 : |(c : ℝ) - M| ≤ (momentTol : ℝ) * M := by exact_mod_cast h
  have h2 : (0 : ℝ) ≤ momentTol := by unfold momentTol; norm_num
  exact h1.trans (mul_le_mul_of_nonneg_left (le_abs_self _) h2)

/-- Values of the look-up of moments without symmetry. -/
lemma momentFromTableAll_ok {t : List (ℤ × ℚ)} {m : ℕ} {D v : ℝ} {M : ℕ → ℚ} {tol : ℚ}
    (htab : ∀ p ∈ t, |p.2 - M p.1.toNat| ≤ tol * M p.1.toNat)
    (h : momentFromTableAll t m D = .ok v) : ∃ c : ℚ, v = c * D ^ m ∧ |c - M m| ≤ tol * M m := by
  unfold momentFromTableAll at h
  rcases hl : t.lookup (m : ℤ) with _ | c
  · rw [hl] at h; cases h
  · rw [hl] at h
    refine ⟨c, ?_, ?_⟩
    · rw [← Except.ok.inj h]
      norm_cast
    · have := htab _ (lookup_mem hl)
      simpa using this

lemma momentFromTableAll_error_iff {t : List (ℤ × ℚ)} {m : ℤ} {D : ℝ} {e : Err} :
    momentFromTableAll t m D = .error e ↔ e = .notImplemented ∧ ∀ p ∈ t, p.1 ≠ m := by
  unfold momentFromTableAll
  rw [← lookup_none_iff]
  rcases hl : t.lookup m with _ | c
  · simp only [and_true]
    constructor
    · intro h; cases h; rfl
    · rintro rfl; rfl
  · constructor
    · intro h; cases h
    · rintro ⟨_, h⟩; cases h

/-! ## Square lattice -/

lemma square_bandMoment (D : ℝ) (m : ℕ) : bandMoment bz2 (squareDisp D) m = (squareM m : ℝ) * D ^ m := by
  unfold bandMoment squareDisp
  rw [← (squareM_eq m).2, ← integral_mul_const]
  congr 1
  funext k
  rw [← mul_pow]
  ring

/-- C54: moments of the square lattice. -/
theorem square_dos_moment {m : ℕ} {D v : ℝ} (h : squareDosMoment m D = .ok v) :
    |v - bandMoment bz2 (squareDisp D) m| ≤ (momentTol : ℝ) * |bandMoment bz2 (squareDisp D) m| := by
  obtain ⟨c, rfl, hc⟩ := momentFromTable_ok (M := squareM) (tol := momentTol)
    (by intro m hm; simp [squareM, arcsineMoment_odd hm]) (by decide +kernel) h
  rw [square_bandMoment]
  exact moment_close hc

/-- C54: the orders rejected for the square lattice. -/
theorem square_dos_moment_error_iff (m : ℤ) (D : ℝ) (e : Err) :
    squareDosMoment m D = .error e ↔ e = .notImplemented ∧ m % 2 = 0 ∧ ¬ (2 ≤ m ∧ m ≤ 20) := by
  unfold squareDosMoment
  rw [momentFromTable_error_iff]
  refine and_congr_right fun _ => and_congr_right fun h2 => ?_
  simp [squareMomentTable]
  omega

/-- C54: the norm of the DOS, the zeroth moment, is rejected. -/
theorem square_dos_moment_zero_fails (D : ℝ) : squareDosMoment 0 D = .error .notImplemented :=
  (square_dos_moment_error_iff 0 D _).2 ⟨rfl, rfl, by norm_num⟩

/-! ## Triangular lattice -/

lemma triangular_bandMoment (D : ℝ) (m : ℕ) :
    bandMoment bz2 (triangularDisp D) m = (((4 / 9) ^ m * triM m : ℚ) : ℝ) * D ^ m := by
  unfold bandMoment triangularDisp
  simp_rw [mul_pow (4 * D / 9)]
  rw [integral_const_mul, (triM_eq m).2]
  push_cast
  rw [div_pow, div_pow, mul_pow]
  ring

/-- C54: moments of the triangular lattice. -/
theorem triangular_dos_moment {m : ℕ} {D v : ℝ} (h : triangularDosMoment m D = .ok v) :
    |v - bandMoment bz2 (triangularDisp D) m| ≤ (momentTol : ℝ) * |bandMoment bz2 (triangularDisp D) m| := by
  obtain ⟨c, rfl, hc⟩ := momentFromTableAll_ok (M := fun m => (4 / 9) ^ m * triM m) (tol := momentTol)
    (by decide +kernel) h
  rw [triangular_bandMoment]
  exact moment_close hc

/-- C54: the orders rejected for the triangular lattice. -/
theorem triangular_dos_moment_error_iff (m : ℤ) (D : ℝ) (e : Err) :
    triangularDosMoment m D = .error e ↔ e = .notImplemented ∧ ¬ (1 ≤ m ∧ m ≤ 20) := by
  unfold triangularDosMoment
  rw [momentFromTableAll_error_iff]
  refine and_congr_right fun _ => ?_
  simp [triangularMomentTable]
  omega

/-- C54: the norm of the DOS is rejected. -/
theorem triangular_dos_moment_zero_fails (D : ℝ) : triangularDosMoment 0 D = .error .notImplemented :=
  (triangular_dos_moment_error_iff 0 D _).2 ⟨rfl, by norm_num⟩

/-! ## Simple cubic lattice -/

lemma sc_bandMoment (D : ℝ) (m : ℕ) :
    bandMoment bz3 (scDisp D) m = (((1 / 3) ^ m * scM m : ℚ) : ℝ) * D ^ m := by
  unfold bandMoment scDisp
  simp_rw [mul_pow (D / 3)]
  rw [integral_const_mul, scM_eq]
  push_cast
  rw [div_pow, div_pow, one_pow]
  ring

lemma scM_odd {m : ℕ} (hm : m % 2 ≠ 0) : scM m = 0 := by
  unfold scM
  refine Finset.sum_eq_zero fun i hi => Finset.sum_eq_zero fun j hj => ?_
  rw [Finset.mem_range] at hi hj
  by_cases h1 : i % 2 = 0
  · by_cases h2 : j % 2 = 0
    · rw [arcsineMoment_odd (m := m - i - j) (by omega)]
      ring
    · rw [arcsineMoment_odd (m := j) h2]
      ring
  · rw [arcsineMoment_odd (m := i) h1]
    ring

/-- C54: moments of the simple cubic lattice. -/
theorem sc_dos_moment {m : ℕ} {D v : ℝ} (h : scDosMoment m D = .ok v) :
    |v - bandMoment bz3 (scDisp D) m| ≤ (momentTol : ℝ) * |bandMoment bz3 (scDisp D) m| := by
  obtain ⟨c, rfl, hc⟩ := momentFromTable_ok (M := fun m => (1 / 3) ^ m * scM m) (tol := momentTol)
    (by intro m hm; simp [scM_odd hm]) (by decide +kernel) h
  rw [sc_bandMoment]
  exact moment_close hc

/-- C54: the orders rejected for the simple cubic lattice. -/
theorem sc_dos_moment_error_iff (m : ℤ) (D : ℝ) (e : Err) :
    scDosMoment m D = .error e ↔ e = .notImplemented ∧ m % 2 = 0 ∧ ¬ (2 ≤ m ∧ m ≤ 20) := by
  unfold scDosMoment
  rw [momentFromTable_error_iff]
  refine and_congr_right fun _ => and_congr_right fun h2 => ?_
  simp [scMomentTable]
  omega

/-- C54: the norm of the DOS is rejected. -/
theorem sc_dos_moment_zero_fails (D : ℝ) : scDosMoment 0 D = .error .notImplemented :=
  (sc_dos_moment_error_iff 0 D _).2 ⟨rfl, rfl, by norm_num⟩

/-! ## Body-centred cubic lattice -/

lemma bcc_bandMoment (D : ℝ) (m : ℕ) : bandMoment bz3 (bccDisp D) m = (bccM m : ℝ) * D ^ m := by
  unfold bandMoment bccDisp
  simp_rw [mul_pow D]
  rw [integral_const_mul, bccM_eq, mul_comm]

/-- C54: moments of the body-centred cubic lattice. -/
theorem bcc_dos_moment {m : ℕ} {D v : ℝ} (h : bccDosMoment m D = .ok v) :
    |v - bandMoment bz3 (bccDisp D) m| ≤ (momentTol : ℝ) * |bandMoment bz3 (bccDisp D) m| := by
  obtain ⟨c, rfl, hc⟩ := momentFromTable_ok (M := bccM) (tol := momentTol)
    (by intro m hm; simp [bccM, arcsineMoment_odd hm]) (by decide +kernel) h
  rw [bcc_bandMoment]
  exact moment_close hc

/-- C54: the orders rejected for the body-centred cubic lattice. -/
theorem bcc_dos_moment_error_iff (m : ℤ) (D : ℝ) (e : Err) :
    bccDosMoment m D = .error e ↔ e = .notImplemented ∧ m % 2 = 0 ∧ ¬ (2 ≤ m ∧ m ≤ 20) := by
  unfold bccDosMoment
  rw [momentFromTable_error_iff]
  refine and_congr_right fun _ => and_congr_right fun h2 => ?_
  simp [bccMomentTable]
  omega

/-- C54: the norm of the DOS is rejected. -/
theorem bcc_dos_moment_zero_fails (D : ℝ) : bccDosMoment 0 D = .error .notImplemented :=
  (bcc_dos_moment_error_iff 0 D _).2 ⟨rfl, rfl, by norm_num⟩

/-! ## Face-centred cubic lattice -/

lemma fcc_bandMoment (D : ℝ) (m : ℕ) :
    bandMoment bz3 (fccDisp D) m = (((1 / 2) ^ m * fccM m : ℚ) : ℝ) * D ^ m := by
  unfold bandMoment fccDisp
  simp_rw [mul_pow (D / 2)]
  rw [integral_const_mul, fccM_eq]
  push_cast
  rw [div_pow, div_pow, one_pow]
  ring

/-- C54: moments of the face-centred cubic lattice. -/
theorem fcc_dos_moment {m : ℕ} {D v : ℝ} (h : fccDosMoment m D = .ok v) :
    |v - bandMoment bz3 (fccDisp D) m| ≤ (momentTol : ℝ) * |bandMoment bz3 (fccDisp D) m| := by
  obtain ⟨c, rfl, hc⟩ := momentFromTableAll_ok (M := fun m => (1 / 2) ^ m * fccM m) (tol := momentTol)
    (by decide +kernel) h
  rw [fcc_bandMoment]
  exact moment_close hc

/-- C54: the orders rejected for the face-centred cubic lattice. -/
theorem fcc_dos_moment_error_iff (m : ℤ) (D : ℝ) (e : Err) :
    fccDosMoment m D = .error e ↔ e = .notImplemented ∧ ¬ (0 ≤ m ∧ m ≤ 20) := by
  unfold fccDosMoment
  rw [momentFromTableAll_error_iff]
  refine and_congr_right fun _ => ?_
  simp [fccMomentTable]
  omega

/-! ## Honeycomb lattice -/

/-- Moments of the honeycomb bands for `D = 1`. -/
def honeyM (m : ℕ) : ℚ :=
  if m % 2 = 0 then (1 / 3) ^ m * ∑ i ∈ Finset.range (m / 2 + 1), (m / 2).choose i * 2 ^ i * 3 ^ (m / 2 - i) * triM i
  else 0

lemma honey_arg_nonneg (k : ℝ × ℝ) :
    0 ≤ 3 + 2 * (Real.cos (2 * k.1) + 2 * Real.cos k.1 * Real.cos k.2) := by
  rw [Real.cos_two_mul]
  have h2 := abs_le.1 (Real.abs_cos_le_one k.2)
  nlinarith [sq_nonneg (2 * Real.cos k.1 + Real.cos k.2), Real.sin_sq_add_cos_sq k.2, sq_nonneg (Real.sin k.2)]

lemma honey_sum (D : ℝ) (m : ℕ) :
    Integrable (fun k : ℝ × ℝ => (honeycombBand D k ^ m + (-honeycombBand D k) ^ m) / 2) bz2 ∧
    honeycombMoment D m = (honeyM m : ℝ) * D ^ m := by
  unfold honeycombMoment honeyM
  split_ifs with hm
  · obtain ⟨j, rfl⟩ : ∃ j, m = 2 * j := ⟨m / 2, by omega⟩
    have e : (fun k : ℝ × ℝ => (honeycombBand D k ^ (2 * j) + (-honeycombBand D k) ^ (2 * j)) / 2)
        = fun k : ℝ × ℝ => ∑ i ∈ Finset.range (j + 1), ((D / 3) ^ (2 * j) * j.choose i * 2 ^ i * 3 ^ (j - i))
          * (Real.cos (2 * k.1) + 2 * Real.cos k.1 * Real.cos k.2) ^ i := by
      funext k
      rw [pow_mul (-_), neg_sq, ← pow_mul, add_self_div_two]
      unfold honeycombBand
      rw [mul_pow, pow_mul √_, Real.sq_sqrt (honey_arg_nonneg k), add_comm, add_pow, Finset.mul_sum]
      refine Finset.sum_congr rfl fun i _ => ?_
      rw [mul_pow]
      ring
    have hint : ∀ i ∈ Finset.range (j + 1), Integrable (fun k : ℝ × ℝ =>
        ((D / 3) ^ (2 * j) * j.choose i * 2 ^ i * 3 ^ (j - i))
          * (Real.cos (2 * k.1) + 2 * Real.cos k.1 * Real.cos k.2) ^ i) bz2 :=
      fun i _ => (triM_eq i).1.const_mul _
    rw [e]
    refine ⟨integrable_finsetSum _ hint, ?_⟩
    rw [integral_finsetSum _ hint]
    simp_rw [integral_const_mul, (triM_eq _).2]
    push_cast
    rw [show 2 * j / 2 = j by omega, Finset.mul_sum, Finset.sum_mul]
    refine Finset.sum_congr rfl fun i _ => ?_
    rw [div_pow, div_pow, one_pow]
    ring
  · have ho : Odd m := Nat.odd_iff.2 (by omega)
    simp_rw [ho.neg_pow]
    simp

/-- C54: moments of the honeycomb lattice. -/
theorem honeycomb_dos_moment {m : ℕ} {D v : ℝ} (h : honeycombDosMoment m D = .ok v) :
    |v - honeycombMoment D m| ≤ (momentTol : ℝ) * |honeycombMoment D m| := by
  obtain ⟨c, rfl, hc⟩ := momentFromTable_ok (M := honeyM) (tol := momentTol)
    (by intro m hm; simp [honeyM, hm]) (by decide +kernel) h
  rw [(honey_sum D m).2]
  exact moment_close hc

/-- C54: the orders rejected for the honeycomb lattice. -/
theorem honeycomb_dos_moment_error_iff (m : ℤ) (D : ℝ) (e : Err) :
    honeycombDosMoment m D = .error e ↔ e = .notImplemented ∧ m % 2 = 0 ∧ ¬ (2 ≤ m ∧ m ≤ 20) := by
  unfold honeycombDosMoment
  rw [momentFromTable_error_iff]
  refine and_congr_right fun _ => and_congr_right fun h2 => ?_
  simp [honeycombMomentTable]
  omega

/-- C54: the norm of the DOS is rejected. -/
theorem honeycomb_dos_moment_zero_fails (D : ℝ) : honeycombDosMoment 0 D = .error .notImplemented :=
  (honeycomb_dos_moment_error_iff 0 D _).2 ⟨rfl, rfl, by norm_num⟩

/-! ## Kagome lattice -/

/-- Moments of the kagome bands for `D = 1`. -/
def kagomeM (m : ℕ) : ℚ :=
  (-2 / 3) ^ m / 3 + 2 / 3 * ∑ i ∈ Finset.range (m + 1), m.choose i * (1 / 3) ^ (m - i) * honeyM i

lemma kagome_moment (D : ℝ) (m : ℕ) : kagomeMoment D m = (kagomeM m : ℝ) * D ^ m := by
  unfold kagomeMoment
  have e : (fun k : ℝ × ℝ =>
        ((-(2 * D / 3)) ^ m + (D / 3 + honeycombBand D k) ^ m + (D / 3 - honeycombBand D k) ^ m) / 3)
      = fun k : ℝ × ℝ => (-(2 * D / 3)) ^ m / 3 + ∑ i ∈ Finset.range (m + 1),
        (2 / 3 * (m.choose i * (D / 3) ^ (m - i))) * ((honeycombBand D k ^ i + (-honeycombBand D k) ^ i) / 2) := by
    funext k
    rw [sub_eq_add_neg (D / 3), add_comm (D / 3), add_comm (D / 3), add_pow, add_pow, add_assoc, add_div,
      ← Finset.sum_add_distrib, Finset.sum_div]
    congr 1
    refine Finset.sum_congr rfl fun i _ => ?_
    ring
  have hint : ∀ i ∈ Finset.range (m + 1), Integrable (fun k : ℝ × ℝ =>
      (2 / 3 * (m.choose i * (D / 3) ^ (m - i))) * ((honeycombBand D k ^ i + (-honeycombBand D k) ^ i) / 2)) bz2 :=
    fun i _ => (honey_sum D i).1.const_mul _
  rw [e, integral_add (integrable_const _) (integrable_finsetSum _ hint), integral_finsetSum _ hint]
  simp_rw [integral_const_mul]
  have h2 : ∀ i, ∫ k, (honeycombBand D k ^ i + (-honeycombBand D k) ^ i) / 2 ∂bz2 = (honeyM i : ℝ) * D ^ i :=
    fun i => (honey_sum D i).2
  simp_rw [h2]
  unfold kagomeM
  push_cast
  rw [integral_const, probReal_univ, one_smul, add_mul, Finset.mul_sum, Finset.sum_mul]
  congr 1
  · rw [show -(2 * D / 3) = -2 / 3 * D by ring, mul_pow]
    ring
  · refine Finset.sum_congr rfl fun i hi => ?_
    have hi' : m = (m - i) + i := by rw [Finset.mem_range] at hi; omega
    have h3 : D ^ m = D ^ (m - i) * D ^ i := by rw [← pow_add, ← hi']
    rw [h3, div_pow, div_pow, one_pow]
    ring

/-- C54: moments of the kagome lattice. -/
theorem kagome_dos_moment {m : ℕ} {D v : ℝ} (h : kagomeDosMoment m D = .ok v) :
    |v - kagomeMoment D m| ≤ (momentTol : ℝ) * |kagomeMoment D m| := by
  obtain ⟨c, rfl, hc⟩ := momentFromTableAll_ok (M := kagomeM) (tol := momentTol) (by decide +kernel) h
  rw [kagome_moment]
  exact moment_close hc

/-- C54: the orders rejected for the kagome lattice. -/
theorem kagome_dos_moment_error_iff (m : ℤ) (D : ℝ) (e : Err) :
    kagomeDosMoment m D = .error e ↔ e = .notImplemented ∧ ¬ (0 ≤ m ∧ m ≤ 20) := by
  unfold kagomeDosMoment
  rw [momentFromTableAll_error_iff]
  refine and_congr_right fun _ => ?_
  simp [kagomeMomentTable]
  omega

/-! ## Lieb lattice -/

/-- Moments of the Lieb bands for `D = 1`. -/
def liebM (m : ℕ) : ℚ :=
  if m % 2 = 0 then 0 ^ m / 3
    + 2 / 3 * (1 / 2) ^ (m / 2) * ∑ i ∈ Finset.range (m / 2 + 1), (m / 2).choose i * squareM i
  else 0

lemma lieb_moment (D : ℝ) (m : ℕ) : liebMoment D m = (liebM m : ℝ) * D ^ m := by
  unfold liebMoment liebM
  split_ifs with hm
  · obtain ⟨j, rfl⟩ : ∃ j, m = 2 * j := ⟨m / 2, by omega⟩
    have e : (fun k : ℝ × ℝ => (0 ^ (2 * j) + liebBand D k ^ (2 * j) + (-liebBand D k) ^ (2 * j)) / 3)
        = fun k : ℝ × ℝ => 0 ^ (2 * j) / 3 + ∑ i ∈ Finset.range (j + 1),
          (2 / 3 * (1 / 2) ^ j * D ^ (2 * j) * j.choose i) * ((Real.cos k.1 + Real.cos k.2) / 2) ^ i := by
      funext k
      have h0 : 0 ≤ 1 + (Real.cos k.1 + Real.cos k.2) / 2 := by
        linarith [Real.neg_one_le_cos k.1, Real.neg_one_le_cos k.2]
      rw [pow_mul (-_), neg_sq, ← pow_mul]
      unfold liebBand
      rw [mul_pow, pow_mul √(1 + _), Real.sq_sqrt h0, div_pow, pow_mul √2, Real.sq_sqrt (by norm_num), add_assoc,
        add_div]
      congr 1
      rw [add_comm 1, add_pow, ← add_mul, Finset.mul_sum, Finset.sum_div]
      refine Finset.sum_congr rfl fun i _ => ?_
      rw [one_pow, div_pow 1 2 j, one_pow]
      ring
    have hint : ∀ i ∈ Finset.range (j + 1), Integrable (fun k : ℝ × ℝ =>
        (2 / 3 * (1 / 2) ^ j * D ^ (2 * j) * j.choose i) * ((Real.cos k.1 + Real.cos k.2) / 2) ^ i) bz2 :=
      fun i _ => (squareM_eq i).1.const_mul _
    rw [e, integral_add (integrable_const _) (integrable_finsetSum _ hint), integral_finsetSum _ hint]
    simp_rw [integral_const_mul, (squareM_eq _).2]
    push_cast
    rw [integral_const, probReal_univ, one_smul, show 2 * j / 2 = j by omega, add_mul]
    congr 1
    · rcases Nat.eq_zero_or_pos j with rfl | hj
      · simp
      · rw [zero_pow (by omega)]
        simp
    · rw [Finset.mul_sum, Finset.sum_mul]
      refine Finset.sum_congr rfl fun i _ => ?_
      ring
  · have ho : Odd m := Nat.odd_iff.2 (by omega)
    simp_rw [ho.neg_pow]
    rw [zero_pow ho.pos.ne']
    simp

/-- C54: moments of the Lieb lattice. -/
theorem lieb_dos_moment {m : ℕ} {D v : ℝ} (h : liebDosMoment m D = .ok v) :
    |v - liebMoment D m| ≤ (momentTol : ℝ) * |liebMoment D m| := by
  obtain ⟨c, rfl, hc⟩ := momentFromTable_ok (M := liebM) (tol := momentTol)
    (by intro m hm; simp [liebM, hm]) (by decide +kernel) h
  rw [lieb_moment]
  exact moment_close hc

/-- C54: the orders rejected for the Lieb lattice. -/
theorem lieb_dos_moment_error_iff (m : ℤ) (D : ℝ) (e : Err) :
    liebDosMoment m D = .error e ↔ e = .notImplemented ∧ m % 2 = 0 ∧ ¬ (0 ≤ m ∧ m ≤ 20) := by
  unfold liebDosMoment
  rw [momentFromTable_error_iff]
  refine and_congr_right fun _ => and_congr_right fun h2 => ?_
  simp [liebMomentTable]
  omega

example : ∃ v, liebDosMoment (14 : ℕ) 2 = .ok v := by
  rcases h : liebDosMoment (14 : ℕ) 2 with e | v
  · have := (lieb_dos_moment_error_iff _ _ _).1 h
    norm_num at this
  · exact ⟨v, rfl⟩

example : ∃ v, kagomeDosMoment (15 : ℕ) 2 = .ok v := by
  rcases h : kagomeDosMoment (15 : ℕ) 2 with e | v
  · have := (kagome_dos_moment_error_iff _ _ _).1 h
    norm_num at this
  · exact ⟨v, rfl⟩

end Gftool.Props
