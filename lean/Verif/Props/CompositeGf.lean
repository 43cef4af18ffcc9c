import Verif.Props.CompositeDos
import Verif.Props.RealSpaceDoc

/-!
# Green's functions of lattices with several bands (C62) and the documented hopping of the Lieb lattice (C64)
-/

namespace Gftool.Props

open Gftool Model Spec Lemmas MeasureTheory

/-- Lattice with two dispersive bands. -/
private lemma two_bands {b1 b2 : ℝ × ℝ → ℝ} {N : ℕ} (hN : N ≠ 0) {dos : ℝ → ℝ} {gf : ℂ → ℂ} {a b w : ℝ}
    (h : IsDosOfBands bz2 ![b1, b2] N dos) (hh : HilbertPair dos gf a b w) (m1 : Measurable b1) (m2 : Measurable b2)
    (h1 : ∀ k, b1 k ∈ Set.Icc a b) (h2 : ∀ k, b2 k ∈ Set.Icc a b) {z : ℂ} (hz : ∀ e ∈ Set.Icc a b, z ≠ (e : ℂ)) :
    gf z = (bzGreen bz2 b1 z + bzGreen bz2 b2 z) / N := by
  obtain ⟨c, hc, hcz⟩ := offBand_dist (z := z) (a := a) (b := b) fun e h1 h2 => hz e ⟨h1, h2⟩
  have hi : ∀ {f : ℝ × ℝ → ℝ}, Measurable f → (∀ k, f k ∈ Set.Icc a b) → Integrable (fun k => 1 / (z - (f k : ℂ))) bz2 :=
    fun {f} hm hf => Integrable.of_bound (Measurable.aestronglyMeasurable (by fun_prop)) (1 / c)
      (Filter.Eventually.of_forall fun k => by
        rw [norm_div, norm_one]
        exact one_div_le_one_div_of_le hc (hcz _ (hf k).1 (hf k).2))
  have e := h.integral_complex (by
    intro i
    fin_cases i
    · exact m1
    · exact m2) (f := fun e => 1 / (z - (e : ℂ))) (by fun_prop) (by
    intro i
    fin_cases i
    · exact hi m1 h1
    · exact hi m2 h2)
  rw [Fin.sum_univ_two] at e
  simp only [Matrix.cons_val_zero, Matrix.cons_val_one] at e
  have hN' : (N : ℂ) ≠ 0 := Nat.cast_ne_zero.2 hN
  rw [hh.hilbert z hz]
  unfold bzGreen
  rw [← e, mul_div_cancel_left₀ _ hN']
  congr 1
  funext x
  ring

/-- C62: `honeycomb.gf_z` is the average over both bands, with the boundary value of the elliptic integral from above. -/
theorem honeycomb_gf_z_bands {D : ℝ} (hD : 0 < D) {z : ℂ} (hz : OffBand z D) :
    honeycombGfZ (fun z D => (triangularGfZ ellipKUp z D).getD 0) z D
      = (bzGreen bz2 (honeycombBand D) z + bzGreen bz2 (fun k => -honeycombBand D k) z) / 2 := by
  have hm := measurable_honeycombBand D
  have h := two_bands (by norm_num) (honeycomb_dos hD) (honeycomb_hilbert_triangular hD) hm hm.neg
    (fun k => abs_le.1 (honeycombBand_le hD k)) (fun k => abs_le.1 ((abs_neg _).trans_le (honeycombBand_le hD k)))
    (z := z) (fun e he => hz e (abs_le.2 he))
  simpa using h

/-- C62: `kagome.gf_z` is the average over the two dispersive bands and the flat band, with the boundary value of the
elliptic integral from above. -/
theorem kagome_gf_z_bands {D : ℝ} (hD : 0 < D) {z : ℂ} (hz : ∀ e ∈ Set.Icc (-(2 / 3 * D)) (4 / 3 * D), z ≠ (e : ℂ)) :
    kagomeGfZ (fun z D => (triangularGfZ ellipKUp z D).getD 0) z D
      = (1 / (z + 2 / 3 * D) + bzGreen bz2 (fun k => D / 3 + honeycombBand D k) z
        + bzGreen bz2 (fun k => D / 3 - honeycombBand D k) z) / 3 := by
  have hm := measurable_honeycombBand D
  have hle := fun k => abs_le.1 (honeycombBand_le hD k)
  have h := two_bands (by norm_num) (kagome_dos hD) (kagome_hilbert_triangular hD) (by fun_prop) (by fun_prop)
    (fun k => ⟨by linarith [(hle k).1], by linarith [(hle k).2]⟩)
    (fun k => ⟨by linarith [(hle k).2], by linarith [(hle k).1]⟩) hz
  rw [sub_eq_iff_eq_add] at h
  rw [h]
  push_cast
  ring

/-- C62: `lieb.gf_z` is the average over the two dispersive bands and the flat band. -/
theorem lieb_gf_z_bands {ellipk : ℂ → ℂ} (hk : EllipkContract ellipk) {D : ℝ} (hD : 0 < D) {z : ℂ} (hz : OffBand z D) :
    liebGfZ (squareGfZ ellipk) z D
      = (1 / z + bzGreen bz2 (liebBand D) z + bzGreen bz2 (fun k => -liebBand D k) z) / 3 := by
  have hm := measurable_liebBand D
  have h := two_bands (by norm_num) (lieb_dos hD) (lieb_hilbert_square hD) hm hm.neg
    (fun k => abs_le.1 (liebBand_le hD k)) (fun k => abs_le.1 ((abs_neg _).trans_le (liebBand_le hD k)))
    (z := z) (fun e he => hz e (abs_le.2 he))
  obtain ⟨g, hg, e1⟩ := lieb_real_space hk hD hz (0, 0)
  obtain ⟨g', hg', e2⟩ := lieb_real_space EllipkContract.exact hD hz (0, 0)
  have e3 : g = g' := funext fun i => LocalGreen.unique (hg i) (hg' i)
  rw [e1, e3, ← e2]
  rw [sub_eq_iff_eq_add] at h
  refine h.trans ?_
  push_cast
  ring

lemma liebBand_ne_zero {D : ℝ} (hD : 0 < D) : ¬ liebBand D =ᵐ[bz2] 0 := by
  intro h
  have h1 : liebMoment D 2 = 0 := by
    unfold liebMoment
    rw [integral_eq_zero_of_ae]
    filter_upwards [h] with k hk
    rw [hk]
    simp
  rw [lieb_moment] at h1
  have h2 : liebM 2 = 1 / 3 := by decide +kernel
  rw [h2] at h1
  have : (0 : ℝ) < ((1 / 3 : ℚ) : ℝ) * D ^ 2 := by
    push_cast
    positivity
  linarith

/-- C64: the documentation of `lieb` states the hopping `D * 2**1.5`, with this hopping the Green's function is a different
one. -/
theorem lieb_hopping_wrong {ellipk : ℂ → ℂ} (hk : EllipkContract ellipk) {D : ℝ} (hD : 0 < D) (v : ℤ × ℤ) {g : Fin 3 → ℂ}
    (hg : ∀ i, LocalGreen (crystalHopping liebBonds (D * 2 ^ (1.5 : ℝ))) (v, i) Complex.I (g i)) :
    liebGfZ (squareGfZ ellipk) Complex.I D ≠ (g 0 + g 1 + g 2) / 3 := by
  intro h
  have h8 : 0 < 8 * D := by positivity
  obtain ⟨g', hg', e'⟩ := lieb_real_space hk h8 (offBand_I _) v
  have ht : 8 * D * 2 ^ (-1.5 : ℝ) = D * 2 ^ (1.5 : ℝ) := by
    have h3 : (8 : ℝ) = 2 ^ (3 : ℝ) := by norm_num
    have : (8 : ℝ) * 2 ^ (-1.5 : ℝ) = 2 ^ (1.5 : ℝ) := by
      rw [h3, ← Real.rpow_add two_pos]
      norm_num
    rw [← this]
    ring
  rw [ht] at hg'
  rw [show g = g' from funext fun i => LocalGreen.unique (hg i) (hg' i), ← e', lieb_gf_z_bands hk hD (offBand_I _),
    lieb_gf_z_bands hk h8 (offBand_I _)] at h
  have hm := measurable_liebBand D
  have hm8 := measurable_liebBand (8 * D)
  have h2 : (bzGreen bz2 (liebBand D) Complex.I).im + (bzGreen bz2 (fun k => -liebBand D k) Complex.I).im
      = (bzGreen bz2 (liebBand (8 * D)) Complex.I).im + (bzGreen bz2 (fun k => -liebBand (8 * D) k) Complex.I).im := by
    have := congrArg Complex.im (mul_right_cancel₀ (inv_ne_zero (by norm_num : (3 : ℂ) ≠ 0)) h)
    simp only [Complex.add_im] at this
    linarith
  have hn : Measurable fun k => -liebBand D k := hm.neg
  have hn8 : Measurable fun k => -liebBand (8 * D) k := hm8.neg
  rw [green_I_im hm, green_I_im hn, green_I_im hm8, green_I_im hn8] at h2
  simp only [neg_sq] at h2
  refine lorentz_scale_ne hm (liebBand_ne_zero hD) (by norm_num : (1 : ℝ) < 8) ?_
  have e : ∀ k, liebBand (8 * D) k = 8 * liebBand D k := fun k => by unfold liebBand; ring
  simp only [e] at h2
  linarith

example : EllipkContract ellipK ∧ OffBand (Complex.I : ℂ) 1 := ⟨EllipkContract.exact, offBand_I 1⟩

end Gftool.Props
