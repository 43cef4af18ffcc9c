import Verif.Lemmas.Quartic
import Verif.Lemmas.Dispersion

/-!
# Densities of states of two-dimensional lattices
-/

namespace Gftool.Lemmas

open Gftool Spec MeasureTheory

open scoped ENNReal

/-- If one momentum only enters by a cosine, the density of states is an average of arcsine laws. -/
lemma isDosOf_two {c g : ℝ → ℝ} (hc : Measurable c) (hg : Measurable g) (hc0 : ∀ᵐ p ∂bz, c p ≠ 0) {dos : ℝ → ℝ}
    (hm : Measurable dos) (hn : ∀ e, 0 ≤ dos e)
    (h : ∀ᵐ e, ∫⁻ p, ENNReal.ofReal (arcsineDensity (c p) (e - g p)) ∂bz = ENNReal.ofReal (dos e)) :
    IsDosOf bz2 (fun k => g k.1 + c k.1 * Real.cos k.2) dos where
  measurable := hm
  nonneg := hn
  density := by
    have hcos := Real.continuous_cos.measurable
    have hmd : Measurable fun k : ℝ × ℝ => g k.1 + c k.1 * Real.cos k.2 := by fun_prop
    ext s hs
    set G : ℝ → ℝ≥0∞ := s.indicator 1 with hG
    have hGm : Measurable G := measurable_one.indicator hs
    rw [← lintegral_indicator_one hs, lintegral_map hGm hmd, withDensity_apply _ hs, bz2,
      lintegral_prod (fun k : ℝ × ℝ => G (g k.1 + c k.1 * Real.cos k.2)) (hGm.comp hmd).aemeasurable]
    have h1 : ∫⁻ p, ∫⁻ q, G (g p + c p * Real.cos q) ∂bz ∂bz
        = ∫⁻ p, ∫⁻ e, G e * ENNReal.ofReal (arcsineDensity (c p) (e - g p)) ∂volume ∂bz := by
      refine lintegral_congr_ae (hc0.mono fun p hp => ?_)
      simp only
      rw [lintegral_const_cos (G := fun x => G (g p + x)) hp (by fun_prop),
        ← lintegral_add_left_eq_self (μ := volume)
          (fun e => G e * ENNReal.ofReal (arcsineDensity (c p) (e - g p))) (g p)]
      refine lintegral_congr fun e => ?_
      rw [add_sub_cancel_left]
    have hmu : Measurable fun x : ℝ × ℝ => G x.2 * ENNReal.ofReal (arcsineDensity (c x.1) (x.2 - g x.1)) := by
      have h2 : Measurable fun x : ℝ × ℝ => arcsineDensity (c x.1) (x.2 - g x.1) :=
        measurable_arcsineDensity.comp (by fun_prop : Measurable fun x : ℝ × ℝ => (c x.1, x.2 - g x.1))
      exact (hGm.comp measurable_snd).mul h2.ennreal_ofReal
    rw [h1, lintegral_lintegral_swap hmu.aemeasurable, ← lintegral_indicator hs]
    refine lintegral_congr_ae (h.mono fun e he => ?_)
    simp only
    have h3 : Measurable fun x : ℝ => ENNReal.ofReal (arcsineDensity (c x) (e - g x)) := by
      have h2 : Measurable fun x : ℝ => arcsineDensity (c x) (e - g x) :=
        measurable_arcsineDensity.comp (by fun_prop : Measurable fun x : ℝ => (c x, e - g x))
      exact h2.ennreal_ofReal
    rw [lintegral_const_mul _ h3, he, hG]
    by_cases hes : e ∈ s <;> simp [hes]

/-- The integral over the overlap of two intervals. -/
lemma lintegral_overlap {l₁ u₁ l₂ u₂ : ℝ} (hl : l₁ ≠ l₂) (hu : u₁ ≠ u₂) (hlu : max l₁ l₂ < min u₁ u₂) :
    ∫⁻ t in Set.Ioo l₁ u₁ ∩ Set.Ioo l₂ u₂, ENNReal.ofReal (1 / √(((u₁ - t) * (t - l₁)) * ((u₂ - t) * (t - l₂))))
      = ENNReal.ofReal (2 / √(max ((u₁ - l₁) * (u₂ - l₂)) ((u₁ - l₂) * (u₂ - l₁)))
        * ellipKR (min ((u₁ - l₁) * (u₂ - l₂)) ((u₁ - l₂) * (u₂ - l₁))
          / max ((u₁ - l₁) * (u₂ - l₂)) ((u₁ - l₂) * (u₂ - l₁)))) := by
  have hdiff : (u₁ - l₁) * (u₂ - l₂) - (u₁ - l₂) * (u₂ - l₁) = (u₁ - u₂) * (l₁ - l₂) := by ring
  rcases lt_or_gt_of_ne hl with h1 | h1 <;> rcases lt_or_gt_of_ne hu with h2 | h2
  · rw [max_eq_right h1.le, min_eq_left h2.le] at hlu
    rw [Set.Ioo_inter_Ioo, sup_eq_right.2 h1.le, inf_eq_left.2 h2.le]
    have hlt : (u₁ - l₂) * (u₂ - l₁) < (u₁ - l₁) * (u₂ - l₂) := by nlinarith
    rw [max_eq_left hlt.le, min_eq_right hlt.le]
    have := lintegral_quartic_mid h2 hlu h1
    rw [mul_comm (u₂ - l₂) (u₁ - l₁)] at this
    refine Eq.trans (lintegral_congr fun t => ?_) this
    congr 3
    ring
  · rw [max_eq_right h1.le, min_eq_right h2.le] at hlu
    rw [Set.Ioo_inter_Ioo, sup_eq_right.2 h1.le, inf_eq_right.2 h2.le]
    have hlt : (u₁ - l₁) * (u₂ - l₂) < (u₁ - l₂) * (u₂ - l₁) := by nlinarith
    rw [max_eq_right hlt.le, min_eq_left hlt.le, mul_comm (u₁ - l₁) (u₂ - l₂), ← lintegral_quartic_mid h2 hlu h1]
    refine lintegral_congr fun t => ?_
    congr 3
    ring
  · rw [max_eq_left h1.le, min_eq_left h2.le] at hlu
    rw [Set.Ioo_inter_Ioo, sup_eq_left.2 h1.le, inf_eq_left.2 h2.le]
    have hlt : (u₁ - l₁) * (u₂ - l₂) < (u₁ - l₂) * (u₂ - l₁) := by nlinarith
    rw [max_eq_right hlt.le, min_eq_left hlt.le, mul_comm (u₁ - l₂) (u₂ - l₁), ← lintegral_quartic_mid h2 hlu h1]
    refine lintegral_congr fun t => ?_
    congr 3
    ring
  · rw [max_eq_left h1.le, min_eq_right h2.le] at hlu
    rw [Set.Ioo_inter_Ioo, sup_eq_left.2 h1.le, inf_eq_right.2 h2.le]
    have hlt : (u₁ - l₂) * (u₂ - l₁) < (u₁ - l₁) * (u₂ - l₂) := by nlinarith
    rw [max_eq_left hlt.le, min_eq_right hlt.le, mul_comm (u₁ - l₂) (u₂ - l₁), ← lintegral_quartic_mid h2 hlu h1]
    refine lintegral_congr fun t => ?_
    congr 3
    ring

end Gftool.Lemmas
