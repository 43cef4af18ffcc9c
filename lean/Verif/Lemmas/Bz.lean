import Verif.Spec.Dispersion
import Verif.Lemmas.HilbertPair
import Mathlib.MeasureTheory.Integral.IntervalIntegral.Periodic
import Mathlib.MeasureTheory.Integral.Prod
import Mathlib.MeasureTheory.Measure.Haar.Unique
import Mathlib.Analysis.SpecialFunctions.Trigonometric.Angle

/-!
# Averages over the Brillouin zone
-/

namespace Gftool.Lemmas

open Gftool Spec MeasureTheory

open scoped ENNReal

local instance : Fact (0 < 2 * Real.pi) := ⟨Real.two_pi_pos⟩

instance : IsProbabilityMeasure bz := by
  constructor
  unfold bz
  rw [Measure.smul_apply, Measure.restrict_apply MeasurableSet.univ, Set.univ_inter, Real.volume_Ioc, sub_zero,
    smul_eq_mul, ← ENNReal.ofReal_mul (by positivity), one_div_mul_cancel Real.two_pi_pos.ne', ENNReal.ofReal_one]

instance : IsProbabilityMeasure bz2 := by unfold bz2; infer_instance

instance : IsProbabilityMeasure bz3 := by unfold bz3; infer_instance

/-- Uniform distribution on `(0, π]`. -/
noncomputable def bzHalf : Measure ℝ := ENNReal.ofReal (1 / Real.pi) • volume.restrict (Set.Ioc 0 Real.pi)

instance : IsProbabilityMeasure bzHalf := by
  constructor
  unfold bzHalf
  rw [Measure.smul_apply, Measure.restrict_apply MeasurableSet.univ, Set.univ_inter, Real.volume_Ioc, sub_zero,
    smul_eq_mul, ← ENNReal.ofReal_mul (by positivity), one_div_mul_cancel Real.pi_pos.ne', ENNReal.ofReal_one]

/-- The law of the cosine is determined by half a period. -/
lemma map_cos_bz : bz.map Real.cos = bzHalf.map Real.cos := by
  have hm : Measurable Real.cos := Real.continuous_cos.measurable
  have hrefl : (volume.restrict (Set.Ioc Real.pi (2 * Real.pi))).map Real.cos
      = (volume.restrict (Set.Ioc 0 Real.pi)).map Real.cos := by
    have hmp : MeasurePreserving (fun x : ℝ => 2 * Real.pi - x) volume volume :=
      Measure.measurePreserving_sub_left volume (2 * Real.pi)
    have h1 : (volume.restrict (Set.Ico 0 Real.pi)).map (fun x : ℝ => 2 * Real.pi - x)
        = volume.restrict (Set.Ioc Real.pi (2 * Real.pi)) := by
      have := (hmp.restrict_preimage (s := Set.Ioc Real.pi (2 * Real.pi)) measurableSet_Ioc).map_eq
      rw [← this]
      congr 2
      ext x
      simp only [Set.mem_preimage, Set.mem_Ico, Set.mem_Ioc]
      constructor <;> rintro ⟨h1, h2⟩ <;> constructor <;> linarith
    rw [← h1, Measure.map_map hm (by fun_prop), Measure.restrict_congr_set Ico_ae_eq_Ioc]
    congr 1
    funext x
    simp [Real.cos_two_pi_sub]
  have hsplit : volume.restrict (Set.Ioc 0 (2 * Real.pi))
      = volume.restrict (Set.Ioc 0 Real.pi) + volume.restrict (Set.Ioc Real.pi (2 * Real.pi)) := by
    rw [← Measure.restrict_union (Set.Ioc_disjoint_Ioc_of_le le_rfl) measurableSet_Ioc,
      Set.Ioc_union_Ioc_eq_Ioc Real.pi_pos.le (by linarith [Real.pi_pos])]
  unfold bz bzHalf
  rw [Measure.map_smul, Measure.map_smul, hsplit, Measure.map_add _ _ hm, hrefl, ← two_smul ℝ≥0∞, smul_smul]
  congr 1
  rw [show (2 : ℝ≥0∞) = ENNReal.ofReal 2 by simp, ← ENNReal.ofReal_mul (by positivity)]
  congr 1
  have := Real.pi_pos
  field_simp

/-- Averages of functions of the cosine. -/
lemma integral_cos_bz {E : Type*} [NormedAddCommGroup E] [NormedSpace ℝ E] (f : ℝ → E)
    (hf : StronglyMeasurable f) :
    ∫ k, f (Real.cos k) ∂bz = (1 / Real.pi : ℝ) • ∫ φ in (0 : ℝ)..Real.pi, f (Real.cos φ) := by
  have hm : AEMeasurable Real.cos bz := Real.continuous_cos.measurable.aemeasurable
  have hm' : AEMeasurable Real.cos bzHalf := Real.continuous_cos.measurable.aemeasurable
  rw [← integral_map hm hf.aestronglyMeasurable, map_cos_bz, integral_map hm' hf.aestronglyMeasurable]
  unfold bzHalf
  rw [integral_smul_measure, ENNReal.toReal_ofReal (by positivity), intervalIntegral.integral_of_le Real.pi_pos.le]

lemma lintegral_cos_bz {f : ℝ → ℝ≥0∞} (hf : Measurable f) :
    ∫⁻ k, f (Real.cos k) ∂bz = ENNReal.ofReal (1 / Real.pi) * ∫⁻ φ in Set.Ioc 0 Real.pi, f (Real.cos φ) := by
  rw [← lintegral_map hf Real.continuous_cos.measurable, map_cos_bz, lintegral_map hf Real.continuous_cos.measurable]
  unfold bzHalf
  rw [lintegral_smul_measure, smul_eq_mul]

/-- The momentum on the torus. -/
lemma bz_map_mk : MeasurePreserving (fun x : ℝ => (x : AddCircle (2 * Real.pi))) bz
    (ENNReal.ofReal (1 / (2 * Real.pi)) • volume) := by
  have h := AddCircle.measurePreserving_mk (2 * Real.pi) 0
  rw [zero_add] at h
  exact h.smul_measure _

/-- `cos` on the torus. -/
noncomputable def cosC : AddCircle (2 * Real.pi) → ℝ := Real.cos_periodic.lift

@[simp] lemma cosC_coe (x : ℝ) : cosC (x : AddCircle (2 * Real.pi)) = Real.cos x := rfl

lemma continuous_cosC : Continuous cosC := by
  apply continuous_coinduced_dom.2
  exact Real.continuous_cos

/-- Sums of cosines are products of cosines. -/
lemma map_sum_bz2 :
    bz2.map (fun k => (Real.cos k.1 + Real.cos k.2) / 2) = bz2.map (fun k => Real.cos k.1 * Real.cos k.2) := by
  set μ : Measure (AddCircle (2 * Real.pi)) := ENNReal.ofReal (1 / (2 * Real.pi)) • volume with hμ
  have hpos : ENNReal.ofReal (1 / (2 * Real.pi)) ≠ 0 := by
    have := Real.pi_pos
    rw [ne_eq, ENNReal.ofReal_eq_zero, not_le]
    positivity
  have : μ.IsAddHaarMeasure := Measure.IsAddHaarMeasure.smul _ hpos ENNReal.ofReal_ne_top
  have : IsFiniteMeasure μ := by
    rw [hμ, ← bz_map_mk.map_eq]
    infer_instance
  have hp : MeasurePreserving (Prod.map (fun x : ℝ => (x : AddCircle (2 * Real.pi)))
      (fun x : ℝ => (x : AddCircle (2 * Real.pi)))) bz2 (μ.prod μ) := bz_map_mk.prod bz_map_mk
  let F : AddCircle (2 * Real.pi) × AddCircle (2 * Real.pi) →+ AddCircle (2 * Real.pi) × AddCircle (2 * Real.pi) :=
    { toFun := fun p => (p.1 + p.2, p.1 - p.2)
      map_zero' := by simp
      map_add' := by
        rintro ⟨a, b⟩ ⟨c, d⟩
        ext <;> simp <;> abel }
  have hF : MeasurePreserving F (μ.prod μ) (μ.prod μ) := by
    refine AddMonoidHom.measurePreserving (f := F) ?_ ?_ rfl
    · change Continuous fun p : AddCircle (2 * Real.pi) × AddCircle (2 * Real.pi) => (p.1 + p.2, p.1 - p.2)
      fun_prop
    · rintro ⟨a, b⟩
      induction a using QuotientAddGroup.induction_on with | H a => ?_
      induction b using QuotientAddGroup.induction_on with | H b => ?_
      refine ⟨(((a + b) / 2 : ℝ), ((a - b) / 2 : ℝ)), ?_⟩
      change ((((a + b) / 2 : ℝ) : AddCircle (2 * Real.pi)) + (((a - b) / 2 : ℝ) : AddCircle (2 * Real.pi)),
        (((a + b) / 2 : ℝ) : AddCircle (2 * Real.pi)) - (((a - b) / 2 : ℝ) : AddCircle (2 * Real.pi)))
          = ((a : AddCircle (2 * Real.pi)), (b : AddCircle (2 * Real.pi)))
      rw [← AddCircle.coe_add, ← AddCircle.coe_sub]
      congr 2 <;> ring
  have hmS : Measurable fun p : AddCircle (2 * Real.pi) × AddCircle (2 * Real.pi) => (cosC p.1 + cosC p.2) / 2 := by
    have := continuous_cosC
    exact Continuous.measurable (by fun_prop)
  have e1 : (fun k : ℝ × ℝ => (Real.cos k.1 + Real.cos k.2) / 2)
      = (fun p : AddCircle (2 * Real.pi) × AddCircle (2 * Real.pi) => (cosC p.1 + cosC p.2) / 2)
        ∘ Prod.map (fun x : ℝ => (x : AddCircle (2 * Real.pi))) (fun x : ℝ => (x : AddCircle (2 * Real.pi))) := by
    funext k
    simp
  have e2 : (fun k : ℝ × ℝ => Real.cos k.1 * Real.cos k.2)
      = (fun p : AddCircle (2 * Real.pi) × AddCircle (2 * Real.pi) => (cosC p.1 + cosC p.2) / 2) ∘ F
        ∘ Prod.map (fun x : ℝ => (x : AddCircle (2 * Real.pi))) (fun x : ℝ => (x : AddCircle (2 * Real.pi))) := by
    funext k
    change _ = (cosC ((k.1 : AddCircle (2 * Real.pi)) + k.2) + cosC ((k.1 : AddCircle (2 * Real.pi)) - k.2)) / 2
    rw [← AddCircle.coe_add, ← AddCircle.coe_sub, cosC_coe, cosC_coe, Real.cos_add, Real.cos_sub]
    ring
  rw [e1, e2, ← Measure.map_map hmS hp.measurable, hp.map_eq, ← Function.comp_assoc,
    ← Measure.map_map (hmS.comp hF.measurable) hp.measurable, hp.map_eq, ← Measure.map_map hmS hF.measurable, hF.map_eq]

end Gftool.Lemmas
