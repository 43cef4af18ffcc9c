import Verif.Lemmas.ScMoments
import Mathlib.Analysis.SpecialFunctions.Integrals.Basic

/-!
# Moments of the face-centred cubic dispersion
-/

namespace Gftool.Lemmas

open Gftool Spec MeasureTheory

local instance : Fact (0 < 2 * Real.pi) := ⟨Real.two_pi_pos⟩

/-! ## Domb numbers -/

/-- Summands of the Domb numbers. -/
def dombTerm (n k : ℕ) : ℚ :=
  (n.choose k : ℚ) ^ 2 * ((Nat.centralBinom k : ℚ) * (Nat.centralBinom (n - k) : ℚ))

/-- Domb numbers. -/
def domb (n : ℕ) : ℚ := ∑ k ∈ Finset.range (n + 1), dombTerm n k

lemma dombTerm_zero {n k : ℕ} (h : n < k) : dombTerm n k = 0 := by
  unfold dombTerm
  rw [Nat.choose_eq_zero_of_lt h]
  simp

lemma domb_eq {n m : ℕ} (h : n ≤ m) : domb n = ∑ k ∈ Finset.range (m + 1), dombTerm n k := by
  unfold domb
  refine Finset.sum_subset (Finset.range_subset_range.2 (by omega)) fun k _ hk => dombTerm_zero ?_
  rw [Finset.mem_range] at hk
  omega

lemma odd_ne (n k : ℕ) : 2 * (n : ℚ) - 2 * k + 1 ≠ 0 := by
  intro h
  have : 2 * (n : ℤ) - 2 * k + 1 = 0 := by exact_mod_cast h
  omega

lemma dombTerm_pred (n k : ℕ) :
    dombTerm n k = dombTerm (n + 1) k * (((n : ℚ) + 1 - k) ^ 3 / (2 * ((n : ℚ) + 1) ^ 2 * (2 * n - 2 * k + 1))) := by
  rcases Nat.lt_or_ge n k with h | h
  · rw [dombTerm_zero h]
    rcases Nat.lt_or_ge (n + 1) k with h' | h'
    · rw [dombTerm_zero h']
      simp
    · obtain rfl : k = n + 1 := by omega
      push_cast
      ring
  · obtain ⟨m, rfl⟩ : ∃ m, n = k + m := ⟨n - k, by omega⟩
    have h1 : ((k + m : ℕ) : ℚ) + 1 ≠ 0 := by positivity
    have hm : (m : ℚ) + 1 ≠ 0 := by positivity
    have h2 : 2 * (m : ℚ) + 1 ≠ 0 := by positivity
    have e := choose_pred (k + m) k
    have c := central_next m
    unfold dombTerm
    rw [show k + m - k = m by omega, show k + m + 1 - k = m + 1 by omega]
    have e' : ((k + m).choose k : ℚ) = ((k + m + 1).choose k : ℚ) * ((m : ℚ) + 1) / (((k + m : ℕ) : ℚ) + 1) := by
      rw [eq_div_iff h1, e]
      push_cast
      ring
    have c' : (Nat.centralBinom (m + 1) : ℚ) = 2 * (2 * m + 1) * (Nat.centralBinom m : ℚ) / ((m : ℚ) + 1) := by
      rw [eq_div_iff hm, c]
    rw [e', c']
    have e3 : ((k + m : ℕ) : ℚ) + 1 - k = m + 1 := by push_cast; ring
    have e4 : 2 * ((k + m : ℕ) : ℚ) - 2 * k + 1 = 2 * m + 1 := by push_cast; ring
    rw [e3, e4]
    generalize ((k + m : ℕ) : ℚ) + 1 = N at *
    field_simp

lemma dombTerm_next (n k : ℕ) :
    dombTerm n (k + 1) = dombTerm n k * (((n : ℚ) - k) ^ 3 * (2 * k + 1) / (((k : ℚ) + 1) ^ 3 * (2 * n - 2 * k - 1))) := by
  have hk : (k : ℚ) + 1 ≠ 0 := by positivity
  rcases Nat.lt_or_ge n (k + 1) with h | h
  · rw [dombTerm_zero h]
    rcases Nat.lt_or_ge n k with h' | h'
    · rw [dombTerm_zero h']
      simp
    · obtain rfl : n = k := by omega
      simp
  · obtain ⟨m, rfl⟩ : ∃ m, n = k + 1 + m := ⟨n - (k + 1), by omega⟩
    have hm : (m : ℚ) + 1 ≠ 0 := by positivity
    have h2 : 2 * (m : ℚ) + 1 ≠ 0 := by positivity
    have e := choose_next (k + 1 + m) k
    have c := central_next m
    have c2 := central_next k
    unfold dombTerm
    rw [show k + 1 + m - (k + 1) = m by omega, show k + 1 + m - k = m + 1 by omega]
    have e' : ((k + 1 + m).choose (k + 1) : ℚ) = ((k + 1 + m).choose k : ℚ) * ((m : ℚ) + 1) / ((k : ℚ) + 1) := by
      rw [eq_div_iff hk, e]
      push_cast
      ring
    have c' : (Nat.centralBinom (m + 1) : ℚ) = 2 * (2 * m + 1) * (Nat.centralBinom m : ℚ) / ((m : ℚ) + 1) := by
      rw [eq_div_iff hm, c]
    have c2' : (Nat.centralBinom (k + 1) : ℚ) = 2 * (2 * k + 1) * (Nat.centralBinom k : ℚ) / ((k : ℚ) + 1) := by
      rw [eq_div_iff hk, c2]
    rw [e', c', c2']
    have e3 : ((k + 1 + m : ℕ) : ℚ) - k = m + 1 := by push_cast; ring
    have e4 : 2 * ((k + 1 + m : ℕ) : ℚ) - 2 * k - 1 = 2 * m + 1 := by push_cast; ring
    rw [e3, e4]
    field_simp

/-- Telescoping part of the recursion. -/
def dombCert (n k : ℕ) : ℚ :=
  (k : ℚ) ^ 3 * (-(12 * n + 14) + (26 * n + 37) * k / ((n : ℚ) + 2) - (18 * n + 30) * k ^ 2 / ((n : ℚ) + 2) ^ 2
    + 4 * k ^ 3 / ((n : ℚ) + 2) ^ 2) / (2 * n - 2 * k + 3) * dombTerm (n + 2) k

lemma dombTerm_rec (n k : ℕ) :
    ((n : ℚ) + 2) ^ 3 * dombTerm (n + 2) k - 2 * (2 * n + 3) * (5 * (n : ℚ) ^ 2 + 15 * n + 12) * dombTerm (n + 1) k
      + 64 * ((n : ℚ) + 1) ^ 3 * dombTerm n k = dombCert n (k + 1) - dombCert n k := by
  have h1 : (n : ℚ) + 1 ≠ 0 := by positivity
  have h2 : (n : ℚ) + 2 ≠ 0 := by positivity
  have hk : (k : ℚ) + 1 ≠ 0 := by positivity
  have o1 := odd_ne n k
  have o2 := odd_ne (n + 1) k
  unfold dombCert
  rw [dombTerm_pred n k, dombTerm_pred (n + 1) k, dombTerm_next (n + 2) k]
  push_cast at o2 ⊢
  have e : (n : ℚ) + 1 + 1 = n + 2 := by ring
  have e2 : 2 * ((n : ℚ) + 1) - 2 * k + 1 = 2 * n - 2 * k + 3 := by ring
  have e3 : 2 * ((n : ℚ) + 2) - 2 * k - 1 = 2 * n - 2 * k + 3 := by ring
  have e4 : 2 * (n : ℚ) - 2 * (k + 1) + 3 = 2 * n - 2 * k + 1 := by ring
  rw [e2] at o2
  rw [e, e2, e3, e4]
  generalize dombTerm (n + 1 + 1) k = T
  generalize ha : 2 * (n : ℚ) - 2 * k + 1 = a at *
  generalize hb : 2 * (n : ℚ) - 2 * k + 3 = b at *
  field_simp
  subst ha hb
  ring

lemma domb_rec (n : ℕ) :
    ((n : ℚ) + 2) ^ 3 * domb (n + 2) = 2 * (2 * n + 3) * (5 * (n : ℚ) ^ 2 + 15 * n + 12) * domb (n + 1)
      - 64 * ((n : ℚ) + 1) ^ 3 * domb n := by
  have h : ∑ k ∈ Finset.range (n + 2 + 1), (dombCert n (k + 1) - dombCert n k) = 0 := by
    rw [Finset.sum_range_sub, dombCert, dombCert, dombTerm_zero (by omega)]
    simp
  simp_rw [← dombTerm_rec] at h
  rw [Finset.sum_add_distrib, Finset.sum_sub_distrib, ← Finset.mul_sum, ← Finset.mul_sum, ← Finset.mul_sum,
    ← domb_eq (by omega), ← domb_eq (by omega), ← domb_eq (by omega)] at h
  linarith

lemma domb_zero : domb 0 = 1 := by simp [domb, dombTerm]
lemma domb_one : domb 1 = 4 := by
  norm_num [domb, dombTerm, Finset.sum_range_succ, Nat.centralBinom]

/-! ## Moments -/

/-- Sums and differences of the momenta are distributed uniformly. -/
lemma map_pair_bz2 :
    bz2.map (fun k => (Real.cos (k.1 + k.2), Real.cos (k.1 - k.2))) = bz2.map (fun k => (Real.cos k.1, Real.cos k.2)) := by
  set μ : Measure (AddCircle (2 * Real.pi)) := ENNReal.ofReal (1 / (2 * Real.pi)) • volume with hμ
  have hpos : ENNReal.ofReal (1 / (2 * Real.pi)) ≠ 0 := by
    have := Real.pi_pos
    rw [ne_eq, ENNReal.ofReal_eq_zero, not_le]
    positivity
  have : μ.IsAddHaarMeasure := Measure.IsAddHaarMeasure.smul _ hpos ENNReal.ofReal_ne_top
  have : IsFiniteMeasure μ := by
    rw [hμ, ← bz_map_mk.map_eq]
    infer_instance
  have hp : MeasurePreserving (Prod.map (fun x : ℝ => (x : AddCircle (2 * Real.pi)))
      (fun x : ℝ => (x : AddCircle (2 * Real.pi)))) bz2 (μ.prod μ) := bz_map_mk.prod bz_map_mk
  let F : AddCircle (2 * Real.pi) × AddCircle (2 * Real.pi) →+ AddCircle (2 * Real.pi) × AddCircle (2 * Real.pi) :=
    { toFun := fun p => (p.1 + p.2, p.1 - p.2)
      map_zero' := by simp
      map_add' := by
        rintro ⟨a, b⟩ ⟨c, d⟩
        ext <;> simp <;> abel }
  have hF : MeasurePreserving F (μ.prod μ) (μ.prod μ) := by
    refine AddMonoidHom.measurePreserving (f := F) ?_ ?_ rfl
    · change Continuous fun p : AddCircle (2 * Real.pi) × AddCircle (2 * Real.pi) => (p.1 + p.2, p.1 - p.2)
      fun_prop
    · rintro ⟨a, b⟩
      induction a using QuotientAddGroup.induction_on with | H a => ?_
      induction b using QuotientAddGroup.induction_on with | H b => ?_
      refine ⟨(((a + b) / 2 : ℝ), ((a - b) / 2 : ℝ)), ?_⟩
      change ((((a + b) / 2 : ℝ) : AddCircle (2 * Real.pi)) + (((a - b) / 2 : ℝ) : AddCircle (2 * Real.pi)),
        (((a + b) / 2 : ℝ) : AddCircle (2 * Real.pi)) - (((a - b) / 2 : ℝ) : AddCircle (2 * Real.pi)))
          = ((a : AddCircle (2 * Real.pi)), (b : AddCircle (2 * Real.pi)))
      rw [← AddCircle.coe_add, ← AddCircle.coe_sub]
      congr 2 <;> ring
  have hmS : Measurable fun p : AddCircle (2 * Real.pi) × AddCircle (2 * Real.pi) => (cosC p.1, cosC p.2) := by
    have := continuous_cosC
    exact Continuous.measurable (by fun_prop)
  have e1 : (fun k : ℝ × ℝ => (Real.cos k.1, Real.cos k.2))
      = (fun p : AddCircle (2 * Real.pi) × AddCircle (2 * Real.pi) => (cosC p.1, cosC p.2))
        ∘ Prod.map (fun x : ℝ => (x : AddCircle (2 * Real.pi))) (fun x : ℝ => (x : AddCircle (2 * Real.pi))) := by
    funext k
    simp
  have e2 : (fun k : ℝ × ℝ => (Real.cos (k.1 + k.2), Real.cos (k.1 - k.2)))
      = (fun p : AddCircle (2 * Real.pi) × AddCircle (2 * Real.pi) => (cosC p.1, cosC p.2)) ∘ F
        ∘ Prod.map (fun x : ℝ => (x : AddCircle (2 * Real.pi))) (fun x : ℝ => (x : AddCircle (2 * Real.pi))) := by
    funext k
    change _ = (cosC ((k.1 : AddCircle (2 * Real.pi)) + k.2), cosC ((k.1 : AddCircle (2 * Real.pi)) - k.2))
    rw [← AddCircle.coe_add, ← AddCircle.coe_sub, cosC_coe, cosC_coe]
  rw [e1, e2, ← Function.comp_assoc,
    ← Measure.map_map (hmS.comp hF.measurable) hp.measurable, hp.map_eq, ← Measure.map_map hmS hF.measurable, hF.map_eq,
    ← Measure.map_map hmS hp.measurable, hp.map_eq]

/-- Orthogonality of plane waves. -/
lemma integral_exp_bz (m : ℤ) : ∫ x, Complex.exp (m * x * Complex.I) ∂bz = if m = 0 then 1 else 0 := by
  unfold bz
  rw [integral_smul_measure, ← intervalIntegral.integral_of_le (by positivity)]
  have hpi := Real.pi_pos
  rw [ENNReal.toReal_ofReal (by positivity)]
  split_ifs with h
  · subst h
    simp only [Int.cast_zero, zero_mul, Complex.exp_zero, intervalIntegral.integral_const, sub_zero]
    rw [smul_smul]
    field_simp
    simp
  · have hm : (m : ℂ) * Complex.I ≠ 0 := mul_ne_zero (by exact_mod_cast h) Complex.I_ne_zero
    have e : ∀ x : ℝ, Complex.exp (m * x * Complex.I) = Complex.exp (m * Complex.I * x) := fun x => by
      congr 1; ring
    simp_rw [e]
    rw [integral_exp_mul_complex hm]
    have e2 : (m : ℂ) * Complex.I * ((2 * Real.pi : ℝ) : ℂ) = m * (2 * Real.pi * Complex.I) := by push_cast; ring
    rw [e2, Complex.exp_int_mul_two_pi_mul_I]
    simp

lemma integral_cos_shift (a b : ℝ) (n : ℕ) :
    ∫ x, (a ^ 2 + b ^ 2 + 2 * a * b * Real.cos x) ^ n ∂bz
      = ∑ j ∈ Finset.range (n + 1), (n.choose j : ℝ) ^ 2 * (a ^ (2 * j) * b ^ (2 * (n - j))) := by
  rw [← Complex.ofReal_inj, ← integral_complex_ofReal]
  have e : ∀ x : ℝ, (((a ^ 2 + b ^ 2 + 2 * a * b * Real.cos x) ^ n : ℝ) : ℂ)
      = ∑ j ∈ Finset.range (n + 1), ∑ k ∈ Finset.range (n + 1),
        ((n.choose j : ℂ) * n.choose k * (a ^ (j + k) * b ^ ((n - j) + (n - k))))
          * Complex.exp (((j : ℤ) - (k : ℤ) : ℤ) * x * Complex.I) := by
    intro x
    have h1 : (((a ^ 2 + b ^ 2 + 2 * a * b * Real.cos x) ^ n : ℝ) : ℂ)
        = (a * Complex.exp (x * Complex.I) + b) ^ n * (a * Complex.exp (-x * Complex.I) + b) ^ n := by
      have h2 : Complex.exp (x * Complex.I) * Complex.exp (-x * Complex.I) = 1 := by
        rw [← Complex.exp_add]; simp
      rw [← mul_pow]
      push_cast
      congr 1
      rw [Complex.cos]
      linear_combination -(a : ℂ) ^ 2 * h2
    rw [h1, add_pow, add_pow, Finset.sum_mul_sum]
    refine Finset.sum_congr rfl fun j _ => Finset.sum_congr rfl fun k _ => ?_
    have h3 : Complex.exp (((j : ℤ) - (k : ℤ) : ℤ) * x * Complex.I)
        = Complex.exp (x * Complex.I) ^ j * Complex.exp (-x * Complex.I) ^ k := by
      rw [← Complex.exp_nat_mul, ← Complex.exp_nat_mul, ← Complex.exp_add]
      congr 1
      push_cast
      ring
    rw [h3, mul_pow, mul_pow, pow_add, pow_add]
    ring
  simp_rw [e]
  have hint : ∀ (c : ℂ) (m : ℤ), Integrable (fun x : ℝ => c * Complex.exp (m * x * Complex.I)) bz := fun c m =>
    Integrable.of_bound (by fun_prop) ‖c‖ (Filter.Eventually.of_forall fun x => by
      rw [norm_mul]
      have : (m : ℂ) * x * Complex.I = ((m * x : ℝ) : ℂ) * Complex.I := by push_cast; ring
      rw [this, Complex.norm_exp_ofReal_mul_I, mul_one])
  rw [integral_finsetSum _ fun j _ => integrable_finsetSum _ fun k _ => hint _ _]
  push_cast
  refine Finset.sum_congr rfl fun j hj => ?_
  rw [integral_finsetSum _ fun k _ => by exact_mod_cast hint _ _]
  rw [Finset.sum_eq_single j]
  · rw [integral_const_mul]
    have := integral_exp_bz ((j : ℤ) - j)
    push_cast at this
    rw [this]
    simp only [sub_self, if_true, mul_one]
    rw [← two_mul, ← two_mul]
    ring
  · intro k _ hk
    rw [integral_const_mul]
    have := integral_exp_bz ((j : ℤ) - k)
    push_cast at this
    rw [this, if_neg (by omega), mul_zero]
  · intro h; exact absurd hj h

/-- Moments of `(1 + cos a cos b + cos a cos c + cos b cos c)/4`. -/
noncomputable def fccCoeff (n : ℕ) : ℝ := ((domb n / 16 ^ n : ℚ) : ℝ)

lemma fcc_map_half :
    bz3.map (fun k : ℝ × ℝ × ℝ => (Real.cos (k.1 / 2), Real.cos (k.2.1 / 2), Real.cos (k.2.2 / 2)))
      = bz3.map (fun k : ℝ × ℝ × ℝ => (Real.cos k.1, Real.cos (k.2.1 + k.2.2), Real.cos (k.2.1 - k.2.2))) := by
  have hcos := Real.continuous_cos.measurable
  have hh : MeasurePreserving (fun k => Real.cos (k / 2)) bz (bz.map Real.cos) :=
    ⟨by fun_prop, map_cos_half⟩
  have hc : MeasurePreserving Real.cos bz (bz.map Real.cos) := ⟨hcos, rfl⟩
  have : IsProbabilityMeasure (bz.map Real.cos) := Measure.isProbabilityMeasure_map hcos.aemeasurable
  have hp : MeasurePreserving (fun k : ℝ × ℝ => (Real.cos (k.1 + k.2), Real.cos (k.1 - k.2))) bz2
      ((bz.map Real.cos).prod (bz.map Real.cos)) := by
    refine ⟨by fun_prop, ?_⟩
    rw [map_pair_bz2]
    exact (hc.prod hc).map_eq
  have : IsProbabilityMeasure bz2 := by unfold bz2; infer_instance
  have e1 := (hh.prod (hh.prod hh)).map_eq
  have e2 := (hc.prod hp).map_eq
  unfold bz3
  exact e1.trans e2.symm

/-- The moments of the shifted dispersion are Domb numbers. -/
lemma fccCoeff_eq_moment (n : ℕ) : ∫ k, ((1 + fccDisp 2 k) / 4) ^ n ∂bz3 = fccCoeff n := by
  have hcos := Real.continuous_cos.measurable
  have hf : StronglyMeasurable fun x : ℝ × ℝ × ℝ => ((1 + (x.1 * x.2.1 + x.1 * x.2.2 + x.2.1 * x.2.2)) / 4) ^ n := by
    apply Measurable.stronglyMeasurable; fun_prop
  have h0 : ∀ k, ((1 + fccDisp 2 k) / 4) ^ n = (fun x : ℝ × ℝ × ℝ =>
      ((1 + (x.1 * x.2.1 + x.1 * x.2.2 + x.2.1 * x.2.2)) / 4) ^ n) (Real.cos (k.1 / 2), Real.cos (k.2.1 / 2), Real.cos (k.2.2 / 2)) := by
    intro k
    simp only [fccDisp]
    congr 2
    ring
  simp_rw [h0]
  rw [← integral_map (φ := fun k : ℝ × ℝ × ℝ => (Real.cos (k.1 / 2), Real.cos (k.2.1 / 2), Real.cos (k.2.2 / 2)))
    (Measurable.aemeasurable (by fun_prop)) hf.aestronglyMeasurable, fcc_map_half,
    integral_map (Measurable.aemeasurable (by fun_prop)) hf.aestronglyMeasurable]
  have h1 : ∀ k : ℝ × ℝ × ℝ, ((1 + (Real.cos k.1 * Real.cos (k.2.1 + k.2.2) + Real.cos k.1 * Real.cos (k.2.1 - k.2.2)
      + Real.cos (k.2.1 + k.2.2) * Real.cos (k.2.1 - k.2.2))) / 4) ^ n
      = (1 / 4) ^ n * (Real.cos k.2.1 ^ 2 + Real.cos k.2.2 ^ 2 + 2 * Real.cos k.2.1 * Real.cos k.2.2 * Real.cos k.1) ^ n := by
    intro k
    rw [← mul_pow, Real.cos_add, Real.cos_sub]
    congr 1
    have s1 := Real.sin_sq_add_cos_sq k.2.1
    have s2 := Real.sin_sq_add_cos_sq k.2.2
    have s1' : Real.sin k.2.1 ^ 2 = 1 - Real.cos k.2.1 ^ 2 := by linarith
    linear_combination -(1/4) * Real.sin k.2.2 ^ 2 * s1 - (1 - Real.cos k.2.1 ^ 2) / 4 * s2
  simp_rw [h1]
  rw [integral_const_mul]
  have hb : ∀ k : ℝ × ℝ × ℝ, ‖(Real.cos k.2.1 ^ 2 + Real.cos k.2.2 ^ 2 + 2 * Real.cos k.2.1 * Real.cos k.2.2 * Real.cos k.1) ^ n‖ ≤ 4 ^ n := by
    intro k
    rw [norm_pow]
    gcongr
    rw [Real.norm_eq_abs, abs_le]
    have a1 := abs_le.1 (Real.abs_cos_le_one k.1)
    have a2 := abs_le.1 (Real.abs_cos_le_one k.2.1)
    have a3 := abs_le.1 (Real.abs_cos_le_one k.2.2)
    have b3 : |Real.cos k.2.1 * Real.cos k.2.2 * Real.cos k.1| ≤ 1 := by
      rw [abs_mul, abs_mul]
      exact mul_le_one₀ (mul_le_one₀ (Real.abs_cos_le_one _) (abs_nonneg _) (Real.abs_cos_le_one _)) (abs_nonneg _) (Real.abs_cos_le_one _)
    have b4 := abs_le.1 b3
    constructor <;> nlinarith
  have : IsProbabilityMeasure bz2 := by unfold bz2; infer_instance
  have hint : Integrable (fun k : ℝ × ℝ × ℝ => (Real.cos k.2.1 ^ 2 + Real.cos k.2.2 ^ 2
      + 2 * Real.cos k.2.1 * Real.cos k.2.2 * Real.cos k.1) ^ n) (bz.prod bz2) :=
    Integrable.of_bound (by fun_prop) (4 ^ n) (Filter.Eventually.of_forall hb)
  have e3 : bz3 = bz.prod bz2 := rfl
  rw [e3, integral_prod_symm _ hint]
  simp only
  simp_rw [integral_cos_shift]
  have h2 := (mean2 (Finset.range (n + 1)) (fun j => ((n.choose j : ℚ)) ^ 2) (fun j => 2 * j) (fun j => 2 * (n - j))).2
  push_cast at h2
  rw [h2, fccCoeff, domb]
  push_cast
  rw [Finset.sum_div, Finset.mul_sum]
  refine Finset.sum_congr rfl fun j hj => ?_
  rw [Finset.mem_range] at hj
  rw [arcsineMoment_two_mul, arcsineMoment_two_mul, dombTerm]
  obtain ⟨l, rfl⟩ : ∃ l, n = j + l := ⟨n - j, by omega⟩
  rw [show j + l - j = l by omega]
  push_cast
  rw [show (16 : ℝ) = 4 * 4 by norm_num, mul_pow, pow_add, pow_add, one_div]
  rw [inv_pow, inv_pow]
  have h4 : ∀ i : ℕ, (4 : ℝ) ^ i ≠ 0 := fun i => by positivity
  have h4j := h4 j
  have h4l := h4 l
  have e2 : ∀ i : ℕ, (2 : ℝ) ^ (2 * i) = 4 ^ i := fun i => by rw [pow_mul]; norm_num
  try rw [e2, e2]
  generalize (4 : ℝ) ^ j = a at *
  generalize (4 : ℝ) ^ l = b at *
  field_simp

lemma fccCoeff_zero : fccCoeff 0 = 1 := by simp [fccCoeff, domb_zero]

lemma fccCoeff_one : fccCoeff 1 = 1 / 4 := by
  rw [fccCoeff, domb_one]
  norm_num

/-- Recursion of the moments. -/
lemma fccCoeff_rec (n : ℕ) :
    8 * ((n : ℝ) + 2) ^ 3 * fccCoeff (n + 2) = (2 * n + 3) * (5 * (n : ℝ) ^ 2 + 15 * n + 12) * fccCoeff (n + 1)
      - 2 * ((n : ℝ) + 1) ^ 3 * fccCoeff n := by
  unfold fccCoeff
  have key : 8 * ((n : ℚ) + 2) ^ 3 * (domb (n + 2) / 16 ^ (n + 2))
      = (2 * n + 3) * (5 * (n : ℚ) ^ 2 + 15 * n + 12) * (domb (n + 1) / 16 ^ (n + 1))
        - 2 * ((n : ℚ) + 1) ^ 3 * (domb n / 16 ^ n) := by
    have h := domb_rec n
    rw [pow_succ (16 : ℚ) (n + 1), pow_succ (16 : ℚ) n]
    have h16 : (16 : ℚ) ^ n ≠ 0 := by positivity
    generalize (16 : ℚ) ^ n = P at *
    field_simp
    linear_combination 8 * h
  exact_mod_cast key

lemma fccDisp_range {D : ℝ} (hD : 0 ≤ D) (k : ℝ × ℝ × ℝ) : -(D / 2) ≤ fccDisp D k ∧ fccDisp D k ≤ 3 * D / 2 := by
  unfold fccDisp
  have h1 := abs_le.1 (Real.abs_cos_le_one (k.1 / 2))
  have h2 := abs_le.1 (Real.abs_cos_le_one (k.2.1 / 2))
  have h3 := abs_le.1 (Real.abs_cos_le_one (k.2.2 / 2))
  generalize Real.cos (k.1 / 2) = a at *
  generalize Real.cos (k.2.1 / 2) = b at *
  generalize Real.cos (k.2.2 / 2) = c at *
  have u1 : a * b + a * c + b * c ≤ 3 := by nlinarith
  have u2 : -1 ≤ a * b + a * c + b * c := by
    rcases le_total 0 (b + c) with h | h
    · nlinarith [mul_nonneg h (by linarith [h1.1] : 0 ≤ a + 1), mul_nonneg (by linarith [h2.2] : 0 ≤ 1 - b) (by linarith [h3.2] : 0 ≤ 1 - c)]
    · nlinarith [mul_nonneg (neg_nonneg.2 h) (by linarith [h1.2] : 0 ≤ 1 - a), mul_nonneg (by linarith [h2.1] : 0 ≤ 1 + b) (by linarith [h3.1] : 0 ≤ 1 + c)]
  constructor <;> nlinarith

lemma measurable_fccDisp (D : ℝ) : Measurable (fccDisp D) := by
  unfold fccDisp
  have := Real.continuous_cos.measurable
  fun_prop

/-- The dispersion shifted and scaled to `[0, 1]`. -/
noncomputable def fccX (k : ℝ × ℝ × ℝ) : ℝ := (1 + fccDisp 2 k) / 4

lemma fccX_abs (k : ℝ × ℝ × ℝ) : |fccX k| ≤ 1 := by
  have := fccDisp_range (D := 2) (by norm_num) k
  unfold fccX
  rw [abs_le]
  constructor <;> linarith [this.1, this.2]

lemma measurable_fccX : Measurable fccX := by
  have := measurable_fccDisp 2
  unfold fccX
  fun_prop

lemma bandMoment_fccX : bandMoment bz3 fccX = fccCoeff := by
  funext n
  exact fccCoeff_eq_moment n

lemma fccCoeff_bound (n : ℕ) : |fccCoeff n| ≤ 1 := by
  rw [← fccCoeff_eq_moment]
  have h := norm_integral_le_of_norm_le_const (μ := bz3) (f := fun k => (fccX k) ^ n) (C := 1)
    (Filter.Eventually.of_forall fun k => by
      rw [Real.norm_eq_abs]
      exact bounded_pow (fccX_abs k) _)
  simpa [fccX] using h

end Gftool.Lemmas
