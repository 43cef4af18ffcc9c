import Verif.Lemmas.EllipK
import Mathlib.Analysis.Complex.CauchyIntegral
import Mathlib.Analysis.Convex.PathConnected
import Mathlib.Analysis.SpecialFunctions.Complex.LogBounds

/-!
# Identity theorem for Green's functions
-/

namespace Gftool.Lemmas

open Gftool Spec MeasureTheory

open scoped ENNReal Topology

lemma isPreconnected_slitPlane : IsPreconnected Complex.slitPlane :=
  (StarConvex.isPathConnected Complex.starConvex_one_slitPlane (by simp)).isConnected.isPreconnected

/-- The plane cut along the real axis below `D`. -/
def cutPlane (D : ℝ) : Set ℂ := {z | z - D ∈ Complex.slitPlane}

lemma isOpen_cutPlane (D : ℝ) : IsOpen (cutPlane D) :=
  Complex.isOpen_slitPlane.preimage (continuous_id.sub continuous_const)

lemma isPreconnected_cutPlane (D : ℝ) : IsPreconnected (cutPlane D) := by
  have : cutPlane D = (fun z : ℂ => z + D) '' Complex.slitPlane := by
    ext z
    constructor
    · intro h
      exact ⟨z - D, h, by simp⟩
    · rintro ⟨w, hw, rfl⟩
      simpa [cutPlane] using hw
  rw [this]
  exact isPreconnected_slitPlane.image _ (by fun_prop)

/-- Two functions analytic off the band agree, if they agree above the band. -/
lemma eq_of_eq_real {f g : ℂ → ℂ} {D : ℝ} (hf : DifferentiableOn ℂ f (cutPlane D)) (hg : DifferentiableOn ℂ g (cutPlane D))
    (h : ∀ x : ℝ, D < x → f x = g x) {z : ℂ} (hz : z ∈ cutPlane D) : f z = g z := by
  have hmem : ((D + 1 : ℝ) : ℂ) ∈ cutPlane D := by
    simp [cutPlane]
  refine (hf.analyticOnNhd (isOpen_cutPlane D)).eqOn_of_preconnected_of_frequently_eq (hg.analyticOnNhd (isOpen_cutPlane D))
    (isPreconnected_cutPlane D) hmem ?_ hz
  have ht : Filter.Tendsto (fun x : ℝ => (x : ℂ)) (𝓝[>] (D + 1)) (𝓝[≠] ((D + 1 : ℝ) : ℂ)) := by
    refine tendsto_nhdsWithin_of_tendsto_nhds_of_eventually_within _ ?_ ?_
    · exact (Complex.continuous_ofReal.tendsto _).mono_left nhdsWithin_le_nhds
    · filter_upwards [self_mem_nhdsWithin] with x hx
      simp only [Set.mem_compl_iff, Set.mem_singleton_iff, Complex.ofReal_inj]
      exact (ne_of_gt hx)
  refine ht.frequently (Filter.Eventually.frequently ?_)
  filter_upwards [self_mem_nhdsWithin] with x hx
  refine h x ?_
  have : D + 1 < x := hx
  linarith

lemma isOpen_offBand (a b : ℝ) : IsOpen {z : ℂ | ∀ e ∈ Set.Icc a b, z ≠ (e : ℂ)} := by
  have : {z : ℂ | ∀ e ∈ Set.Icc a b, z ≠ (e : ℂ)} = ((fun x : ℝ => (x : ℂ)) '' Set.Icc a b)ᶜ := by
    ext z
    simp only [Set.mem_ofPred_eq, Set.mem_compl_iff, Set.mem_image, not_exists, not_and]
    exact forall₂_congr fun e _ => ⟨fun h h' => h h'.symm, fun h h' => h h'.symm⟩
  rw [this]
  exact ((isCompact_Icc.image Complex.continuous_ofReal).isClosed).isOpen_compl

/-- The local Green's function is analytic off the band. -/
lemma differentiableOn_bzGreen {κ : Type*} [MeasurableSpace κ] {μ : Measure κ} [IsFiniteMeasure μ] {disp : κ → ℝ}
    (hm : Measurable disp) {a b : ℝ} (hab : ∀ k, disp k ∈ Set.Icc a b) :
    DifferentiableOn ℂ (bzGreen μ disp) {z | ∀ e ∈ Set.Icc a b, z ≠ (e : ℂ)} := by
  refine differentiableOn_integral hm hab (isOpen_offBand a b) (f := fun z e => 1 / (z - e))
    (f' := fun z e => -1 / (z - e) ^ 2) (fun z => by fun_prop) (fun z => by fun_prop) ?_ ?_ ?_
  · intro z hz e he
    apply ContinuousAt.continuousWithinAt
    exact ContinuousAt.div continuousAt_const (by fun_prop) (sub_ne_zero.2 (hz e he))
  · rintro ⟨z, e⟩ ⟨hz, he⟩
    apply ContinuousAt.continuousWithinAt
    simp only [Function.uncurry_def]
    exact ContinuousAt.div continuousAt_const (by fun_prop) (pow_ne_zero _ (sub_ne_zero.2 (hz e he)))
  · intro z hz e he
    have := (hasDerivAt_const z (1 : ℂ)).div ((hasDerivAt_id z).sub_const (e : ℂ)) (sub_ne_zero.2 (hz e he))
    refine this.congr_deriv ?_
    simp

lemma cutPlane_offBand {a b : ℝ} : cutPlane b ⊆ {z : ℂ | ∀ e ∈ Set.Icc a b, z ≠ (e : ℂ)} := by
  rintro z hz e he rfl
  simp only [cutPlane, Set.mem_ofPred_eq, ← Complex.ofReal_sub, Complex.ofReal_mem_slitPlane] at hz
  linarith [he.2]

/-- A point off the band either lies in the cut plane or on the real axis below the band. -/
lemma offBand_cases {a b : ℝ} {z : ℂ} (hz : ∀ e ∈ Set.Icc a b, z ≠ (e : ℂ)) :
    z ∈ cutPlane b ∨ ∃ x : ℝ, x < a ∧ z = x := by
  by_cases h : z ∈ cutPlane b
  · exact Or.inl h
  · right
    simp only [cutPlane, Set.mem_ofPred_eq, Complex.mem_slitPlane_iff, not_or, not_lt, not_not, Complex.sub_re,
      Complex.ofReal_re, Complex.sub_im, Complex.ofReal_im, sub_zero] at h
    have hz' : z = z.re := by apply Complex.ext <;> simp [h.2]
    refine ⟨z.re, ?_, hz'⟩
    by_contra hcon
    exact hz z.re ⟨not_lt.1 hcon, by linarith [h.1]⟩ hz'

end Gftool.Lemmas
