import Verif.Spec.Bands
import Verif.Lemmas.Moments
import Verif.Lemmas.Bz

/-!
# Averages of polynomials of cosines
-/

namespace Gftool.Lemmas

open Gftool Spec MeasureTheory

lemma bounded_pow {c : ℝ} (hc : |c| ≤ 1) (i : ℕ) : |c ^ i| ≤ 1 := by
  rw [abs_pow]
  exact pow_le_one₀ (abs_nonneg c) hc

lemma integrable_cos_pow (i : ℕ) : Integrable (fun k => Real.cos k ^ i) bz :=
  Integrable.of_bound (by fun_prop) 1 (Filter.Eventually.of_forall fun k => by
    rw [Real.norm_eq_abs]; exact bounded_pow (Real.abs_cos_le_one k) i)

lemma integral_cos_pow_bz (i : ℕ) : ∫ k, Real.cos k ^ i ∂bz = (arcsineMoment i : ℝ) := by
  rw [integral_cos_bz (f := fun x => x ^ i) (by apply Measurable.stronglyMeasurable; fun_prop),
    integral_cos_pow_eq Real.sin_pi, smul_eq_mul]
  have := Real.pi_ne_zero
  field_simp

lemma mean2 {ι : Type*} (s : Finset ι) (c : ι → ℚ) (i j : ι → ℕ) :
    Integrable (fun k : ℝ × ℝ => ∑ x ∈ s, (c x : ℝ) * (Real.cos k.1 ^ i x * Real.cos k.2 ^ j x)) bz2 ∧
    ∫ k, ∑ x ∈ s, (c x : ℝ) * (Real.cos k.1 ^ i x * Real.cos k.2 ^ j x) ∂bz2
      = ((∑ x ∈ s, c x * (arcsineMoment (i x) * arcsineMoment (j x)) : ℚ) : ℝ) := by
  have hint : ∀ x, Integrable (fun k : ℝ × ℝ => (c x : ℝ) * (Real.cos k.1 ^ i x * Real.cos k.2 ^ j x)) bz2 :=
    fun x => ((integrable_cos_pow (i x)).mul_prod (integrable_cos_pow (j x))).const_mul _
  refine ⟨integrable_finsetSum s fun x _ => hint x, ?_⟩
  rw [integral_finsetSum s fun x _ => hint x]
  push_cast
  refine Finset.sum_congr rfl fun x _ => ?_
  rw [integral_const_mul, bz2, integral_prod_mul (fun k => Real.cos k ^ i x) (fun k => Real.cos k ^ j x),
    integral_cos_pow_bz, integral_cos_pow_bz]

lemma mean3 {ι : Type*} (s : Finset ι) (c : ι → ℚ) (i j l : ι → ℕ) :
    Integrable (fun k : ℝ × ℝ × ℝ =>
      ∑ x ∈ s, (c x : ℝ) * (Real.cos k.1 ^ i x * (Real.cos k.2.1 ^ j x * Real.cos k.2.2 ^ l x))) bz3 ∧
    ∫ k, ∑ x ∈ s, (c x : ℝ) * (Real.cos k.1 ^ i x * (Real.cos k.2.1 ^ j x * Real.cos k.2.2 ^ l x)) ∂bz3
      = ((∑ x ∈ s, c x * (arcsineMoment (i x) * (arcsineMoment (j x) * arcsineMoment (l x))) : ℚ) : ℝ) := by
  have hint : ∀ x, Integrable (fun k : ℝ × ℝ × ℝ =>
      (c x : ℝ) * (Real.cos k.1 ^ i x * (Real.cos k.2.1 ^ j x * Real.cos k.2.2 ^ l x))) bz3 :=
    fun x => ((integrable_cos_pow (i x)).mul_prod
      ((integrable_cos_pow (j x)).mul_prod (integrable_cos_pow (l x)))).const_mul _
  refine ⟨integrable_finsetSum s fun x _ => hint x, ?_⟩
  rw [integral_finsetSum s fun x _ => hint x]
  push_cast
  refine Finset.sum_congr rfl fun x _ => ?_
  rw [integral_const_mul, bz3, integral_prod_mul (fun k => Real.cos k ^ i x)
    (fun k : ℝ × ℝ => Real.cos k.1 ^ j x * Real.cos k.2 ^ l x),
    integral_prod_mul (fun k => Real.cos k ^ j x) (fun k => Real.cos k ^ l x),
    integral_cos_pow_bz, integral_cos_pow_bz, integral_cos_pow_bz]

/-! ## Square -/

/-- Moments of `(cos a + cos b)/2`. -/
def squareM (m : ℕ) : ℚ := arcsineMoment m ^ 2

lemma squareM_eq (m : ℕ) :
    Integrable (fun k : ℝ × ℝ => ((Real.cos k.1 + Real.cos k.2) / 2) ^ m) bz2 ∧
    ∫ k : ℝ × ℝ, ((Real.cos k.1 + Real.cos k.2) / 2) ^ m ∂bz2 = (squareM m : ℝ) := by
  have hcos := Real.continuous_cos.measurable
  have hf : StronglyMeasurable fun x : ℝ => x ^ m := by
    apply Measurable.stronglyMeasurable; fun_prop
  have hm1 : AEMeasurable (fun k : ℝ × ℝ => (Real.cos k.1 + Real.cos k.2) / 2) bz2 :=
    Measurable.aemeasurable (by fun_prop)
  have hm2 : AEMeasurable (fun k : ℝ × ℝ => Real.cos k.1 * Real.cos k.2) bz2 :=
    Measurable.aemeasurable (by fun_prop)
  constructor
  · refine Integrable.of_bound (Measurable.aestronglyMeasurable (by fun_prop)) 1
      (Filter.Eventually.of_forall fun k => ?_)
    rw [Real.norm_eq_abs]
    apply bounded_pow
    have h1 := abs_le.1 (Real.abs_cos_le_one k.1)
    have h2 := abs_le.1 (Real.abs_cos_le_one k.2)
    rw [abs_le]
    constructor <;> linarith [h1.1, h1.2, h2.1, h2.2]
  · rw [← integral_map (f := fun x : ℝ => x ^ m) hm1 hf.aestronglyMeasurable, map_sum_bz2,
      integral_map hm2 hf.aestronglyMeasurable]
    have h := (mean2 (Finset.univ : Finset Unit) (fun _ => 1) (fun _ => m) (fun _ => m)).2
    simp only [Finset.univ_unique, Finset.sum_singleton, Rat.cast_one, one_mul] at h
    simp_rw [mul_pow]
    rw [h, squareM, sq]

/-! ## Triangular -/

/-- Moments of `cos 2a + 2 cos a cos b`. -/
def triM (m : ℕ) : ℚ :=
  ∑ i ∈ Finset.range (m + 1), ∑ j ∈ Finset.range (m - i + 1),
    (m.choose i * (m - i).choose j * 2 ^ (i + j) * (-1) ^ (m - i - j))
      * (arcsineMoment (i + 2 * j) * arcsineMoment i)

lemma triM_eq (m : ℕ) :
    Integrable (fun k : ℝ × ℝ => (Real.cos (2 * k.1) + 2 * Real.cos k.1 * Real.cos k.2) ^ m) bz2 ∧
    ∫ k : ℝ × ℝ, (Real.cos (2 * k.1) + 2 * Real.cos k.1 * Real.cos k.2) ^ m ∂bz2 = (triM m : ℝ) := by
  have h := mean2 ((Finset.range (m + 1)).sigma fun i => Finset.range (m - i + 1))
    (fun x => (m.choose x.1 * (m - x.1).choose x.2 * 2 ^ (x.1 + x.2) * (-1) ^ (m - x.1 - x.2) : ℚ))
    (fun x => x.1 + 2 * x.2) (fun x => x.1)
  have e : (fun k : ℝ × ℝ => (Real.cos (2 * k.1) + 2 * Real.cos k.1 * Real.cos k.2) ^ m)
      = fun k : ℝ × ℝ => ∑ x ∈ (Finset.range (m + 1)).sigma fun i => Finset.range (m - i + 1),
        ((m.choose x.1 * (m - x.1).choose x.2 * 2 ^ (x.1 + x.2) * (-1) ^ (m - x.1 - x.2) : ℚ) : ℝ)
          * (Real.cos k.1 ^ (x.1 + 2 * x.2) * Real.cos k.2 ^ x.1) := by
    funext k
    rw [Real.cos_two_mul, add_comm, add_pow, Finset.sum_sigma]
    refine Finset.sum_congr rfl fun i _ => ?_
    rw [sub_eq_add_neg, add_pow, Finset.mul_sum, Finset.sum_mul]
    refine Finset.sum_congr rfl fun j _ => ?_
    push_cast
    rw [mul_pow, mul_pow, mul_pow, ← pow_mul, pow_add, pow_add]
    ring
  rw [e]
  refine ⟨h.1, h.2.trans ?_⟩
  rw [triM, Finset.sum_sigma]

/-! ## Cubic lattices -/

/-- Moments of `cos a + cos b + cos c`. -/
def scM (m : ℕ) : ℚ :=
  ∑ i ∈ Finset.range (m + 1), ∑ j ∈ Finset.range (m - i + 1),
    (m.choose i * (m - i).choose j) * (arcsineMoment i * (arcsineMoment j * arcsineMoment (m - i - j)))

lemma scM_eq (m : ℕ) : ∫ k : ℝ × ℝ × ℝ, (Real.cos k.1 + Real.cos k.2.1 + Real.cos k.2.2) ^ m ∂bz3 = (scM m : ℝ) := by
  have h := mean3 ((Finset.range (m + 1)).sigma fun i => Finset.range (m - i + 1))
    (fun x => (m.choose x.1 * (m - x.1).choose x.2 : ℚ)) (fun x => x.1) (fun x => x.2) (fun x => m - x.1 - x.2)
  have e : (fun k : ℝ × ℝ × ℝ => (Real.cos k.1 + Real.cos k.2.1 + Real.cos k.2.2) ^ m)
      = fun k : ℝ × ℝ × ℝ => ∑ x ∈ (Finset.range (m + 1)).sigma fun i => Finset.range (m - i + 1),
        ((m.choose x.1 * (m - x.1).choose x.2 : ℚ) : ℝ)
          * (Real.cos k.1 ^ x.1 * (Real.cos k.2.1 ^ x.2 * Real.cos k.2.2 ^ (m - x.1 - x.2))) := by
    funext k
    rw [add_assoc, add_pow, Finset.sum_sigma]
    refine Finset.sum_congr rfl fun i _ => ?_
    rw [add_pow, Finset.mul_sum, Finset.sum_mul]
    refine Finset.sum_congr rfl fun j _ => ?_
    push_cast
    ring
  rw [e, h.2, scM, Finset.sum_sigma]

/-- Moments of `cos a cos b cos c`. -/
def bccM (m : ℕ) : ℚ := arcsineMoment m ^ 3

lemma bccM_eq (m : ℕ) : ∫ k : ℝ × ℝ × ℝ, (Real.cos k.1 * Real.cos k.2.1 * Real.cos k.2.2) ^ m ∂bz3 = (bccM m : ℝ) := by
  have h := (mean3 (Finset.univ : Finset Unit) (fun _ => 1) (fun _ => m) (fun _ => m) (fun _ => m)).2
  simp only [Finset.univ_unique, Finset.sum_singleton, Rat.cast_one, one_mul] at h
  simp_rw [mul_pow, mul_assoc]
  rw [h, bccM]
  congr 1
  ring

/-- Moments of `cos a cos b + cos a cos c + cos b cos c`. -/
def fccM (m : ℕ) : ℚ :=
  ∑ i ∈ Finset.range (m + 1), ∑ j ∈ Finset.range (i + 1),
    (m.choose i * i.choose j) * (arcsineMoment i * (arcsineMoment (j + (m - i)) * arcsineMoment (i - j + (m - i))))

/-- The cosine of half the momentum has the same distribution. -/
lemma map_cos_half : bz.map (fun k => Real.cos (k / 2)) = bz.map Real.cos := by
  have hcos := Real.continuous_cos.measurable
  rw [map_cos_bz]
  have h1 : (fun k : ℝ => Real.cos (k / 2)) = Real.cos ∘ fun k => (1 / 2 : ℝ) * k := by
    funext k; simp only [Function.comp]; congr 1; ring
  rw [h1, ← Measure.map_map hcos (by fun_prop)]
  congr 1
  unfold bz bzHalf
  rw [Measure.map_smul]
  ext s hs
  rw [Measure.smul_apply, Measure.smul_apply, Measure.map_apply (by fun_prop) hs, Measure.restrict_apply hs,
    Measure.restrict_apply (by exact (by fun_prop : Measurable fun k : ℝ => (1 / 2 : ℝ) * k) hs)]
  have h2 : (fun k : ℝ => (1 / 2 : ℝ) * k) ⁻¹' s ∩ Set.Ioc 0 (2 * Real.pi)
      = (fun k : ℝ => (1 / 2 : ℝ) * k) ⁻¹' (s ∩ Set.Ioc 0 Real.pi) := by
    ext k
    simp only [Set.mem_inter_iff, Set.mem_preimage, Set.mem_Ioc]
    refine and_congr_right fun _ => ?_
    constructor <;> rintro ⟨h1, h2⟩ <;> constructor <;> linarith
  rw [h2, Real.volume_preimage_mul_left (by norm_num), smul_eq_mul, smul_eq_mul, ← mul_assoc,
    ← ENNReal.ofReal_mul (by have := Real.pi_pos; positivity)]
  congr 2
  have := Real.pi_pos
  rw [show |(1 / 2 : ℝ)⁻¹| = 2 by norm_num]
  field_simp

lemma fccM_eq (m : ℕ) : ∫ k : ℝ × ℝ × ℝ, (Real.cos (k.1 / 2) * Real.cos (k.2.1 / 2)
    + Real.cos (k.1 / 2) * Real.cos (k.2.2 / 2) + Real.cos (k.2.1 / 2) * Real.cos (k.2.2 / 2)) ^ m ∂bz3 = (fccM m : ℝ) := by
  have hcos := Real.continuous_cos.measurable
  have hh : MeasurePreserving (fun k => Real.cos (k / 2)) bz (bz.map Real.cos) :=
    ⟨by fun_prop, map_cos_half⟩
  have hc : MeasurePreserving Real.cos bz (bz.map Real.cos) := ⟨hcos, rfl⟩
  have : IsProbabilityMeasure (bz.map Real.cos) := Measure.isProbabilityMeasure_map hcos.aemeasurable
  have h3 : bz3.map (fun k : ℝ × ℝ × ℝ => (Real.cos (k.1 / 2), Real.cos (k.2.1 / 2), Real.cos (k.2.2 / 2)))
      = bz3.map (fun k : ℝ × ℝ × ℝ => (Real.cos k.1, Real.cos k.2.1, Real.cos k.2.2)) := by
    have e1 := (hh.prod (hh.prod hh)).map_eq
    have e2 := (hc.prod (hc.prod hc)).map_eq
    unfold bz3
    exact e1.trans e2.symm
  have hf : StronglyMeasurable fun x : ℝ × ℝ × ℝ => (x.1 * x.2.1 + x.1 * x.2.2 + x.2.1 * x.2.2) ^ m := by
    apply Measurable.stronglyMeasurable; fun_prop
  rw [← integral_map (f := fun x : ℝ × ℝ × ℝ => (x.1 * x.2.1 + x.1 * x.2.2 + x.2.1 * x.2.2) ^ m)
    (φ := fun k : ℝ × ℝ × ℝ => (Real.cos (k.1 / 2), Real.cos (k.2.1 / 2), Real.cos (k.2.2 / 2)))
    (Measurable.aemeasurable (by fun_prop)) hf.aestronglyMeasurable, h3,
    integral_map (Measurable.aemeasurable (by fun_prop)) hf.aestronglyMeasurable]
  have h := mean3 ((Finset.range (m + 1)).sigma fun i => Finset.range (i + 1))
    (fun x => (m.choose x.1 * x.1.choose x.2 : ℚ)) (fun x => x.1) (fun x => x.2 + (m - x.1))
    (fun x => x.1 - x.2 + (m - x.1))
  have e : (fun k : ℝ × ℝ × ℝ => (Real.cos k.1 * Real.cos k.2.1 + Real.cos k.1 * Real.cos k.2.2
        + Real.cos k.2.1 * Real.cos k.2.2) ^ m)
      = fun k : ℝ × ℝ × ℝ => ∑ x ∈ (Finset.range (m + 1)).sigma fun i => Finset.range (i + 1),
        ((m.choose x.1 * x.1.choose x.2 : ℚ) : ℝ)
          * (Real.cos k.1 ^ x.1 * (Real.cos k.2.1 ^ (x.2 + (m - x.1)) * Real.cos k.2.2 ^ (x.1 - x.2 + (m - x.1)))) := by
    funext k
    rw [← mul_add, add_pow, Finset.sum_sigma]
    refine Finset.sum_congr rfl fun i _ => ?_
    rw [mul_pow, add_pow, Finset.mul_sum, Finset.sum_mul, Finset.sum_mul]
    refine Finset.sum_congr rfl fun j _ => ?_
    push_cast
    rw [mul_pow, pow_add, pow_add]
    ring
  rw [e, h.2, fccM, Finset.sum_sigma]

end Gftool.Lemmas
