import Verif.Lemmas.Quartic

/-!
# Law of the squared cosine
-/

namespace Gftool.Lemmas

open Gftool Spec MeasureTheory

open scoped ENNReal

lemma image_cos_sq : (fun θ => Real.cos θ ^ 2) '' Set.Ioo 0 (Real.pi / 2) = Set.Ioo (0 : ℝ) 1 := by
  rw [← image_sin_sq]
  ext u
  constructor
  · rintro ⟨θ, hθ, rfl⟩
    exact ⟨Real.pi / 2 - θ, ⟨by linarith [hθ.2], by linarith [hθ.1]⟩, by simp [Real.sin_pi_div_two_sub]⟩
  · rintro ⟨θ, hθ, rfl⟩
    exact ⟨Real.pi / 2 - θ, ⟨by linarith [hθ.2], by linarith [hθ.1]⟩, by simp [Real.cos_pi_div_two_sub]⟩

/-- For uniform momenta `cos² k` has the density `1/(π √(u (1-u)))`. -/
lemma lintegral_cos_sq {h : ℝ → ℝ≥0∞} (hh : Measurable h) :
    ∫⁻ k, h (Real.cos k ^ 2) ∂bz
      = ∫⁻ u in Set.Ioo (0 : ℝ) 1, ENNReal.ofReal (1 / (Real.pi * √((1 - u) * (u - 0)))) * h u := by
  have hpi := Real.pi_pos
  rw [lintegral_even_cos (f := fun x => h (x ^ 2)) (by fun_prop) (fun x => by simp)]
  have hsub := lintegral_image_eq_lintegral_abs_deriv_mul (f := fun θ => Real.cos θ ^ 2) measurableSet_Ioo
    (f' := fun θ => -(2 * Real.cos θ * Real.sin θ)) (s := Set.Ioo 0 (Real.pi / 2))
    (fun θ _ => by
      have h1 : HasDerivAt (fun θ => Real.cos θ ^ 2) _ θ := (Real.hasDerivAt_cos θ).pow 2
      refine (h1.congr_deriv ?_).hasDerivWithinAt
      norm_num)
    (by
      intro a ha b hb hab
      have h1 := Real.cos_pos_of_mem_Ioo ⟨by linarith [ha.1], ha.2⟩
      have h2 := Real.cos_pos_of_mem_Ioo ⟨by linarith [hb.1], hb.2⟩
      have h3 : Real.cos a = Real.cos b := by
        simp only at hab
        rwa [sq_eq_sq₀ h1.le h2.le] at hab
      exact Real.injOn_cos ⟨ha.1.le, by linarith [ha.2]⟩ ⟨hb.1.le, by linarith [hb.2]⟩ h3)
    (fun u => ENNReal.ofReal (1 / (Real.pi * √((1 - u) * (u - 0)))) * h u)
  rw [image_cos_sq] at hsub
  rw [hsub, ← lintegral_const_mul' _ _ ENNReal.ofReal_ne_top]
  refine setLIntegral_congr_fun measurableSet_Ioo fun θ hθ => ?_
  have h1 := Real.sin_pos_of_pos_of_lt_pi hθ.1 (by linarith [hθ.2])
  have h2 := Real.cos_pos_of_mem_Ioo ⟨by linarith [hθ.1], hθ.2⟩
  have h3 : √((1 - Real.cos θ ^ 2) * (Real.cos θ ^ 2 - 0)) = Real.sin θ * Real.cos θ := by
    rw [show (1 - Real.cos θ ^ 2) * (Real.cos θ ^ 2 - 0) = (Real.sin θ * Real.cos θ) ^ 2 by
      rw [← Real.sin_sq_add_cos_sq θ]; ring, Real.sqrt_sq (by positivity)]
  rw [h3, abs_neg, abs_of_pos (by positivity), ← mul_assoc, ← ENNReal.ofReal_mul (by positivity)]
  congr 2
  field_simp

end Gftool.Lemmas
