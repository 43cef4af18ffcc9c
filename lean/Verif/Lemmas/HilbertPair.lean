import Verif.Lemmas.Lattice
import Mathlib.MeasureTheory.Group.Integral
import Mathlib.MeasureTheory.Measure.Haar.Unique
import Mathlib.MeasureTheory.Integral.IntegrableOn
import Mathlib.MeasureTheory.Measure.Haar.NormedSpace
import Mathlib.MeasureTheory.Measure.Lebesgue.Integral

/-!
# Densities of states and their Hilbert transforms under substitutions
-/

namespace Gftool.Lemmas

open Gftool Spec MeasureTheory

variable {dos : ℝ → ℝ} {gf : ℂ → ℂ} {a b w : ℝ}

lemma _root_.Gftool.Spec.HilbertPair.integrable_mul (h : HilbertPair dos gf a b w) {g : ℝ → ℂ}
    (hg : ContinuousOn g (Set.Icc a b)) : Integrable fun e => (dos e : ℂ) * g e := by
  have h1 : IntegrableOn (fun e => (dos e : ℂ)) (Set.Icc a b) := h.integrable.ofReal.integrableOn
  have h2 := h1.mul_continuousOn hg isCompact_Icc
  rwa [integrableOn_iff_integrable_of_support_subset] at h2
  intro e he
  by_contra hc
  exact he (by simp [h.outside e hc])

lemma continuousOn_resolvent {z : ℂ} {s : Set ℝ} (hz : ∀ e ∈ s, z ≠ (e : ℂ)) :
    ContinuousOn (fun e : ℝ => (z - e)⁻¹) s := by
  apply ContinuousOn.inv₀ (by fun_prop)
  intro e he
  exact sub_ne_zero.2 (hz e he)

/-- Multiplication by a constant. -/
lemma _root_.Gftool.Spec.HilbertPair.smul (h : HilbertPair dos gf a b w) {k : ℝ} (hk : 0 ≤ k) :
    HilbertPair (fun e => k * dos e) (fun z => k * gf z) a b (k * w) where
  measurable := h.measurable.const_mul k
  nonneg e := mul_nonneg hk (h.nonneg e)
  outside e he := by rw [h.outside e he, mul_zero]
  integrable := h.integrable.const_mul k
  norm := by rw [integral_const_mul, h.norm]
  hilbert z hz := by
    rw [h.hilbert z hz, ← integral_const_mul]
    congr 1
    funext e
    push_cast
    ring

/-- Affine change of the energy. -/
lemma _root_.Gftool.Spec.HilbertPair.affine (h : HilbertPair dos gf a b w) {s : ℝ} (hs : 0 < s) (c : ℝ) :
    HilbertPair (fun e => s * dos (s * e - c)) (fun z => s * gf (s * z - c)) ((a + c) / s) ((b + c) / s) w where
  measurable := by
    have := h.measurable
    fun_prop
  nonneg e := mul_nonneg hs.le (h.nonneg _)
  outside e he := by
    rw [h.outside, mul_zero]
    intro hc
    apply he
    rw [Set.mem_Icc] at hc ⊢
    rw [div_le_iff₀ hs, le_div_iff₀ hs]
    constructor <;> nlinarith [hc.1, hc.2]
  integrable := ((h.integrable.comp_sub_right c).comp_mul_left' hs.ne').const_mul s
  norm := by
    rw [integral_const_mul, Measure.integral_comp_mul_left (fun x => dos (x - c)) s, integral_sub_right_eq_self, h.norm,
      abs_of_pos (inv_pos.2 hs), smul_eq_mul]
    field_simp
  hilbert z hz := by
    have hsc : (s : ℂ) ≠ 0 := by exact_mod_cast hs.ne'
    have hz' : ∀ e ∈ Set.Icc a b, (s * z - c : ℂ) ≠ e := by
      intro e he hc
      apply hz ((e + c) / s)
      · rw [Set.mem_Icc] at he ⊢
        constructor
        · gcongr; exact he.1
        · gcongr; exact he.2
      · push_cast
        rw [eq_div_iff hsc]
        linear_combination hc
    have e1 : (fun e : ℝ => ((s * dos (s * e - c) : ℝ) : ℂ) / (z - e))
        = fun e => (fun x : ℝ => (s : ℂ) ^ 2 * ((dos (x - c) : ℂ) / ((s * z - c) - ((x - c : ℝ) : ℂ)))) (s * e) := by
      funext e
      have : (s * z - c : ℂ) - ((s * e - c : ℝ) : ℂ) = s * (z - e) := by push_cast; ring
      simp only
      rw [this]
      push_cast
      rw [mul_comm (s : ℂ) (z - e), ← div_div]
      field_simp
    rw [h.hilbert _ hz', e1,
      Measure.integral_comp_mul_left (fun x : ℝ => (s : ℂ) ^ 2 * ((dos (x - c) : ℂ) / ((s * z - c) - ((x - c : ℝ) : ℂ)))),
      integral_const_mul,
      integral_sub_right_eq_self (fun x : ℝ => (dos x : ℂ) / ((s * z - c) - (x : ℂ))) c, abs_of_pos (inv_pos.2 hs),
      Complex.real_smul]
    push_cast
    field_simp

/-- Even functions. -/
lemma integral_even {E : Type*} [NormedAddCommGroup E] [NormedSpace ℝ E] {g : ℝ → E} (hg : ∀ x, g (-x) = g x)
    (hi : IntegrableOn g (Set.Ioi 0)) : Integrable g ∧ ∫ x, g x = (2 : ℝ) • ∫ x in Set.Ioi 0, g x := by
  have hi2 : IntegrableOn g (Set.Iic 0) := by
    have h0 := (integrableOn_Iic_iff_integrableOn_Iio (f := g) (μ := volume) (b := 0))
    rw [h0]
    have := (Measure.measurePreserving_neg (volume : Measure ℝ)).integrableOn_comp_preimage
      (MeasurableEquiv.neg ℝ).measurableEmbedding (f := g) (s := Set.Ioi 0)
    have h2 := this.2 hi
    have h3 : g ∘ Neg.neg = g := by funext x; exact hg x
    rw [h3] at h2
    simpa using h2
  have hint : Integrable g := by
    rw [← integrableOn_univ, ← Set.Iic_union_Ioi (a := (0 : ℝ))]
    exact hi2.union hi
  refine ⟨hint, ?_⟩
  rw [← setIntegral_univ, ← Set.Iic_union_Ioi (a := (0 : ℝ)), setIntegral_union (Set.Iic_disjoint_Ioi le_rfl) measurableSet_Ioi hi2 hi]
  have : ∫ x in Set.Iic 0, g x = ∫ x in Set.Ioi 0, g x := by
    have := integral_comp_neg_Iic (0 : ℝ) g
    rw [neg_zero] at this
    rw [← this]
    simp_rw [hg]
  rw [this, two_smul]

/-- Substitution `x = α u² - b` for functions supported on `x ≥ -b`. -/
lemma integral_quad {E : Type*} [NormedAddCommGroup E] [NormedSpace ℝ E] {α b : ℝ} (hα : 0 < α) {f : ℝ → E}
    (hf : Integrable f) (h0 : ∀ x < -b, f x = 0) :
    Integrable (fun u : ℝ => (α * |u|) • f (α * u ^ 2 - b)) ∧
    ∫ u : ℝ, (α * |u|) • f (α * u ^ 2 - b) = ∫ x, f x := by
  have himg : (fun u : ℝ => α * u ^ 2 - b) '' Set.Ioi 0 = Set.Ioi (-b) := by
    ext x
    constructor
    · rintro ⟨u, hu, rfl⟩
      have : 0 < α * u ^ 2 := mul_pos hα (pow_pos hu 2)
      simp only [Set.mem_Ioi]
      linarith
    · intro hx
      have hx' : 0 < (x + b) / α := div_pos (by have := Set.mem_Ioi.1 hx; linarith) hα
      refine ⟨√((x + b) / α), Real.sqrt_pos.2 hx', ?_⟩
      simp only
      rw [Real.sq_sqrt hx'.le]
      field_simp
      ring
  have hder : ∀ u ∈ Set.Ioi (0 : ℝ), HasDerivWithinAt (fun u : ℝ => α * u ^ 2 - b) (α * (2 * u)) (Set.Ioi 0) u := by
    intro u _
    have h1 : HasDerivAt (fun u : ℝ => u ^ 2) (2 * u) u := by simpa using hasDerivAt_pow 2 u
    exact ((h1.const_mul α).sub_const b).hasDerivWithinAt
  have hinj : Set.InjOn (fun u : ℝ => α * u ^ 2 - b) (Set.Ioi 0) := by
    intro u hu v hv huv
    have h1 : u ^ 2 = v ^ 2 := by
      have : α * u ^ 2 = α * v ^ 2 := by simpa using huv
      exact mul_left_cancel₀ hα.ne' this
    exact (pow_left_inj₀ (le_of_lt hu) (le_of_lt hv) (by norm_num)).1 h1
  have hI := integrableOn_image_iff_integrableOn_abs_deriv_smul measurableSet_Ioi hder hinj f
  have hE := integral_image_eq_integral_abs_deriv_smul measurableSet_Ioi hder hinj f
  rw [himg] at hI hE
  have hcongr : ∀ u ∈ Set.Ioi (0 : ℝ), |α * (2 * u)| • f (α * u ^ 2 - b)
      = (2 : ℝ) • ((α * |u|) • f (α * u ^ 2 - b)) := by
    intro u hu
    have hu' : 0 < u := hu
    rw [abs_of_pos (by positivity), abs_of_pos hu', smul_smul]
    congr 1
    ring
  have hon : IntegrableOn (fun u : ℝ => (α * |u|) • f (α * u ^ 2 - b)) (Set.Ioi 0) := by
    have h1 := hI.1 hf.integrableOn
    have h2 := (integrableOn_congr_fun hcongr measurableSet_Ioi).1 h1
    have h3 := h2.smul (1 / 2 : ℝ)
    refine IntegrableOn.congr_fun h3 (fun u _ => ?_) measurableSet_Ioi
    simp only [Pi.smul_apply]
    rw [smul_smul]
    norm_num
  obtain ⟨g1, g2⟩ := integral_even (g := fun u : ℝ => (α * |u|) • f (α * u ^ 2 - b)) (fun x => by simp) hon
  refine ⟨g1, ?_⟩
  rw [g2, ← integral_smul, ← setIntegral_congr_fun measurableSet_Ioi hcongr, ← hE, ← integral_Ici_eq_integral_Ioi]
  refine setIntegral_eq_integral_of_forall_compl_eq_zero fun x hx => h0 x ?_
  simpa using hx

lemma integral_odd {E : Type*} [NormedAddCommGroup E] [NormedSpace ℝ E] {g : ℝ → E} (hg : ∀ x, g (-x) = -g x) :
    ∫ x, g x = 0 := by
  have h := integral_neg_eq_self g volume
  simp_rw [hg] at h
  rw [integral_neg] at h
  have h2 : (2 : ℝ) • ∫ x, g x = 0 := by
    rw [two_smul]
    nth_rw 1 [← h]
    simp
  exact (smul_eq_zero.1 h2).resolve_left (by norm_num)

/-- Two bands `±u` with `α u² - b` the energy of the original band. -/
lemma _root_.Gftool.Spec.HilbertPair.quad {c : ℝ} (h : HilbertPair dos gf (-b) c w) {α : ℝ} (hα : 0 < α)
    (hbc : -b ≤ c) :
    HilbertPair (fun u => α * |u| * dos (α * u ^ 2 - b)) (fun z => α * z * gf (α * z ^ 2 - b))
      (-√((c + b) / α)) (√((c + b) / α)) w := by
  have hR : 0 ≤ (c + b) / α := div_nonneg (by linarith) hα.le
  have h0 : ∀ x < -b, dos x = 0 := fun x hx => h.outside x fun hc => absurd hc.1 (not_le.2 hx)
  have hq := integral_quad hα h.integrable h0
  have hout : ∀ e, e ∉ Set.Icc (-√((c + b) / α)) (√((c + b) / α)) → α * |e| * dos (α * e ^ 2 - b) = 0 := by
    intro e he
    rw [h.outside, mul_zero]
    intro hc
    apply he
    rw [Set.mem_Icc, ← abs_le]
    apply Real.abs_le_sqrt
    rw [le_div_iff₀ hα]
    linarith [hc.2]
  have hmeas : Measurable fun u => α * |u| * dos (α * u ^ 2 - b) := by
    have := h.measurable
    have h2 : Measurable fun u : ℝ => |u| := continuous_abs.measurable
    fun_prop
  have P : HilbertPair (fun u => α * |u| * dos (α * u ^ 2 - b))
      (fun z => ∫ e, ((α * |e| * dos (α * e ^ 2 - b) : ℝ) : ℂ) / (z - e))
      (-√((c + b) / α)) (√((c + b) / α)) w :=
    { measurable := hmeas
      nonneg := fun e => mul_nonneg (by positivity) (h.nonneg _)
      outside := hout
      integrable := hq.1
      norm := by
        rw [← h.norm, ← hq.2]
        rfl
      hilbert := fun z _ => rfl }
  refine { P with hilbert := fun z hz => ?_ }
  have hz' : ∀ e ∈ Set.Icc (-b) c, (α * z ^ 2 - b : ℂ) ≠ e := by
    intro e he hc
    have hαc : (α : ℂ) ≠ 0 := by exact_mod_cast hα.ne'
    have hnn : 0 ≤ (e + b) / α := div_nonneg (by linarith [he.1]) hα.le
    have h1 : z ^ 2 = ((√((e + b) / α) : ℝ) : ℂ) ^ 2 := by
      rw [← Complex.ofReal_pow, Real.sq_sqrt hnn]
      push_cast
      rw [eq_div_iff hαc]
      linear_combination hc
    have hle : √((e + b) / α) ≤ √((c + b) / α) := Real.sqrt_le_sqrt (by gcongr; exact he.2)
    have hpos := Real.sqrt_nonneg ((e + b) / α)
    rcases sq_eq_sq_iff_eq_or_eq_neg.1 h1 with h2 | h2
    · exact hz _ ⟨by linarith, hle⟩ h2
    · refine hz (-√((e + b) / α)) ⟨by linarith, by linarith⟩ ?_
      rw [h2]
      push_cast
      rfl
  have hcz := continuousOn_resolvent hz
  have hzneg : ∀ e ∈ Set.Icc (-√((c + b) / α)) (√((c + b) / α)), z + e ≠ 0 := by
    intro e he h1
    refine hz (-e) ⟨by linarith [he.2], by linarith [he.1]⟩ ?_
    push_cast
    linear_combination h1
  have hc2 : ContinuousOn (fun e : ℝ => (z + e)⁻¹) (Set.Icc (-√((c + b) / α)) (√((c + b) / α))) :=
    ContinuousOn.inv₀ (by fun_prop) hzneg
  have i1 := P.integrable_mul (g := fun e : ℝ => z * ((z - e)⁻¹ * (z + e)⁻¹)) (by fun_prop)
  have i2 := P.integrable_mul (g := fun e : ℝ => e * ((z - e)⁻¹ * (z + e)⁻¹)) (by fun_prop)
  have hsplit : (fun e : ℝ => ((α * |e| * dos (α * e ^ 2 - b) : ℝ) : ℂ) / (z - e))
      = fun e : ℝ => ((α * |e| * dos (α * e ^ 2 - b) : ℝ) : ℂ) * (z * ((z - e)⁻¹ * (z + e)⁻¹))
        + ((α * |e| * dos (α * e ^ 2 - b) : ℝ) : ℂ) * (e * ((z - e)⁻¹ * (z + e)⁻¹)) := by
    funext e
    by_cases he : e ∈ Set.Icc (-√((c + b) / α)) (√((c + b) / α))
    · have h1 := hzneg e he
      rw [← mul_add, ← add_mul, mul_comm (z - e : ℂ)⁻¹, ← mul_assoc (z + e), mul_inv_cancel₀ h1, one_mul,
        div_eq_mul_inv]
    · rw [hout e he]
      simp
  have hodd : ∫ e : ℝ, ((α * |e| * dos (α * e ^ 2 - b) : ℝ) : ℂ) * (e * ((z - e)⁻¹ * (z + e)⁻¹)) = 0 := by
    apply integral_odd
    intro e
    rw [abs_neg, neg_sq]
    push_cast
    rw [sub_neg_eq_add, ← sub_eq_add_neg]
    ring
  rw [hsplit, integral_add i1 i2, hodd, add_zero, h.hilbert _ hz', ← integral_const_mul]
  have hcr := continuousOn_resolvent hz'
  have i3 := (h.integrable_mul hcr).const_mul (α * z)
  rw [← (integral_quad hα (f := fun e : ℝ => α * z * ((dos e : ℂ) / (α * z ^ 2 - b - e))) (b := b)
    (by simpa [div_eq_mul_inv] using i3) (fun x hx => by simp [h0 x hx])).2]
  congr 1
  funext e
  have e1 : (α * z ^ 2 - b - ((α * e ^ 2 - b : ℝ) : ℂ)) = α * ((z - e) * (z + e)) := by push_cast; ring
  have hαc : (α : ℂ) ≠ 0 := by exact_mod_cast hα.ne'
  rw [e1, Complex.real_smul, ← mul_inv]
  push_cast
  generalize (z - e) * (z + e) = q
  field_simp

end Gftool.Lemmas
