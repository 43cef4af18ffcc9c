import Verif.Lemmas.FccForm
import Verif.Props.Bcc

/-!
# Green's function of the face-centred cubic lattice off the band
-/

namespace Gftool.Lemmas

open Gftool Spec MeasureTheory ComplexConjugate

/-- Square roots of the Green's function; the imaginary parts have the same sign. -/
structure FccRoots (v s a : ℂ) : Prop where
  s_sq : s ^ 2 = 1 - v
  a_sq : a ^ 2 = 1 - 4 * v
  s_re : 0 ≤ s.re
  a_re : 0 ≤ a.re
  im : 0 ≤ s.im * a.im

/-- The Green's function in terms of the uniformising variable. -/
noncomputable def fccR (v q : ℂ) : ℂ := v * q * (2 / Real.pi * ellipK (fccBe q)) ^ 2

lemma FccRoots.mul {v s a : ℂ} (h : FccRoots v s a) : (2 * s - a) * (2 * s + a) = 3 := by
  linear_combination 4 * h.s_sq - h.a_sq

lemma FccRoots.ne {v s a : ℂ} (h : FccRoots v s a) : 2 * s - a ≠ 0 := fun h0 => by
  have := h.mul
  rw [h0, zero_mul] at this
  norm_num at this

lemma FccRoots.eq_conj {v s a : ℂ} (h : FccRoots v s a) :
    (Complex.normSq (2 * s + a) : ℂ) * (2 * s - a) = 3 * conj (2 * s + a) := by
  rw [← Complex.mul_conj]
  linear_combination conj (2 * s + a) * h.mul

lemma FccRoots.pos {v s a : ℂ} (h : FccRoots v s a) : 0 < Complex.normSq (2 * s + a) := by
  apply Complex.normSq_pos.2
  intro h0
  have := h.mul
  rw [h0, mul_zero] at this
  norm_num at this

lemma FccRoots.re {v s a : ℂ} (h : FccRoots v s a) :
    Complex.normSq (2 * s + a) * (2 * s - a).re = 3 * (2 * s.re + a.re) := by
  have := congrArg Complex.re h.eq_conj
  rw [Complex.re_ofReal_mul] at this
  rw [this]
  simp

lemma FccRoots.q_im {v s a : ℂ} (h : FccRoots v s a) :
    Complex.normSq (2 * s + a) * (2 * s - a).im = -(3 * (2 * s.im + a.im)) := by
  have := congrArg Complex.im h.eq_conj
  rw [Complex.im_ofReal_mul] at this
  rw [this]
  simp
  ring

lemma FccRoots.q_re {v s a : ℂ} (h : FccRoots v s a) : 0 ≤ (2 * s - a).re := by
  have h1 := h.re
  have h2 := h.pos
  have h3 : 0 ≤ Complex.normSq (2 * s + a) * (2 * s - a).re := by rw [h1]; linarith [h.s_re, h.a_re]
  exact nonneg_of_mul_nonneg_right h3 h2

lemma FccRoots.normSq_le {v s a : ℂ} (h : FccRoots v s a) : Complex.normSq (2 * s - a) ≤ 3 := by
  have h1 : Complex.normSq (2 * s - a) * Complex.normSq (2 * s + a) = 9 := by
    rw [← map_mul, h.mul]
    norm_num [Complex.normSq_apply]
  have h2 : 3 ≤ Complex.normSq (2 * s + a) := by
    have e : (4 : ℂ) * s ^ 2 - a ^ 2 = 3 := by linear_combination h.mul
    have e1 : (3 : ℝ) ≤ 4 * Complex.normSq s + Complex.normSq a := by
      have := norm_sub_le (4 * s ^ 2) (a ^ 2)
      rw [e] at this
      simp only [norm_mul, norm_pow, Complex.norm_ofNat] at this
      rwa [← Complex.normSq_eq_norm_sq, ← Complex.normSq_eq_norm_sq] at this
    have e2 : Complex.normSq (2 * s + a) = 4 * Complex.normSq s + Complex.normSq a + 4 * (s.re * a.re + s.im * a.im) := by
      simp [Complex.normSq_apply]
      ring
    rw [e2]
    have := mul_nonneg h.s_re h.a_re
    linarith [h.im]
  have h3 := Complex.normSq_nonneg (2 * s - a)
  nlinarith

lemma FccRoots.toQ {v s a : ℂ} (h : FccRoots v s a) (hs : s.im ≤ 0) (ha : a.im ≤ 0) : FccQ (2 * s - a) := by
  refine ⟨h.ne, h.q_re, ?_, h.normSq_le⟩
  have h3 : 0 ≤ Complex.normSq (2 * s + a) * (2 * s - a).im := by rw [h.q_im]; linarith
  exact nonneg_of_mul_nonneg_right h3 h.pos

lemma FccRoots.param {v s a : ℂ} (h : FccRoots v s a) : ∃ q : ℂ, q ≠ 0 ∧ 2 * s - a = q ∧ s = (q + 3 / q) / 4 ∧
    a = (3 / q - q) / 2 ∧ v = (q ^ 2 - 1) * (9 - q ^ 2) / (16 * q ^ 2) := by
  obtain ⟨q, hq⟩ : ∃ q, q = 2 * s - a := ⟨_, rfl⟩
  have hq0 : q ≠ 0 := hq ▸ h.ne
  have h3 : 3 / q = 2 * s + a := by
    rw [div_eq_iff hq0, hq, mul_comm, h.mul]
  have hs : s = (q + 3 / q) / 4 := by rw [h3, hq]; ring
  refine ⟨q, hq0, hq.symm, hs, by rw [h3, hq]; ring, ?_⟩
  have e : v = 1 - s ^ 2 := by linear_combination h.s_sq
  rw [e, hs]
  field_simp
  ring

/-- The parameters of the elliptic integrals. -/
lemma FccRoots.al {v s a : ℂ} (h : FccRoots v s a) :
    fccAl (2 * s - a) = (1 + 4 * (v * s) - (1 - 2 * v) * a) / 2 := by
  obtain ⟨q, hq, e1, e2, e3, e4⟩ := h.param
  rw [e1, e2, e3, e4]
  unfold fccAl
  field_simp
  ring

@[inherit_doc FccRoots.al]
lemma FccRoots.be {v s a : ℂ} (h : FccRoots v s a) :
    fccBe (2 * s - a) = (1 - 4 * (v * s) - (1 - 2 * v) * a) / 2 := by
  obtain ⟨q, hq, e1, e2, e3, e4⟩ := h.param
  rw [e1, e2, e3, e4]
  unfold fccBe
  field_simp
  ring

lemma FccRoots.differentiableAt {v s a : ℂ} (h : FccRoots v s a) : DifferentiableAt ℂ (fun q => ellipK (fccBe q)) (2 * s - a) :=
  differentiableAt_ellipK_fccBe h.ne h.q_re h.normSq_le

/-! ### Off the band -/

/-- The Green's function as function of the rescaled energy. -/
noncomputable def fccForm (z : ℂ) : ℂ :=
  fccR (1 / (z + 1)) (2 * Complex.sqrt (1 - 1 / (z + 1)) - Complex.sqrt (1 - 4 * (1 / (z + 1))))

lemma fcc_slit {z : ℂ} (hz : ∀ e ∈ Set.Icc (-1 : ℝ) 3, z ≠ (e : ℂ)) {c : ℝ} (hc0 : 0 ≤ c) (hc4 : c ≤ 4) :
    1 - c * (1 / (z + 1)) ∈ Complex.slitPlane := by
  have hw : z + 1 ≠ 0 := fun h => hz (-1) (by norm_num) (by push_cast; linear_combination h)
  by_contra h
  rw [Complex.mem_slitPlane_iff, not_or, not_lt, not_not] at h
  obtain ⟨p, hp⟩ : ∃ p : ℝ, p = (1 - c * (1 / (z + 1))).re := ⟨_, rfl⟩
  have e : (1 : ℂ) - c * (1 / (z + 1)) = (p : ℂ) := Complex.ext (by rw [Complex.ofReal_re, hp]) (by rw [Complex.ofReal_im, h.2])
  have hp0 : p ≤ 0 := hp ▸ h.1
  have h1 : (z + 1) * ((1 - p : ℝ) : ℂ) = (c : ℂ) := by
    push_cast
    rw [← e]
    field_simp
    ring
  have h2 : z = ((c / (1 - p) - 1 : ℝ) : ℂ) := by
    have : ((1 - p : ℝ) : ℂ) ≠ 0 := by exact_mod_cast (by linarith : (0:ℝ) < 1 - p).ne'
    rw [Complex.ofReal_sub, Complex.ofReal_div, ← h1]
    rw [mul_div_cancel_right₀ _ this]
    push_cast
    ring
  refine hz _ ⟨?_, ?_⟩ h2
  · have : 0 ≤ c / (1 - p) := div_nonneg hc0 (by linarith)
    linarith
  · have : c / (1 - p) ≤ 4 := by rw [div_le_iff₀ (by linarith)]; linarith
    linarith

lemma fcc_im_roots {v s a : ℂ} (hs : s ^ 2 = 1 - v) (ha : a ^ 2 = 1 - 4 * v) (hsr : 0 < s.re) (har : 0 < a.re) :
    0 ≤ s.im * a.im := by
  have h1 := congrArg Complex.im hs
  have h2 := congrArg Complex.im ha
  rw [pow_two, Complex.mul_im, Complex.sub_im, Complex.one_im] at h1 h2
  rw [show (4 : ℂ) = ((4 : ℝ) : ℂ) by norm_num, Complex.im_ofReal_mul] at h2
  have h3 : a.im = 4 * (s.re * s.im) / a.re := by
    rw [eq_div_iff har.ne']
    linarith
  rw [h3, show s.im * (4 * (s.re * s.im) / a.re) = 4 * s.re * s.im ^ 2 / a.re by ring]
  positivity

lemma fccRoots_off {z : ℂ} (hz : ∀ e ∈ Set.Icc (-1 : ℝ) 3, z ≠ (e : ℂ)) :
    FccRoots (1 / (z + 1)) (Complex.sqrt (1 - 1 / (z + 1))) (Complex.sqrt (1 - 4 * (1 / (z + 1)))) := by
  have h1 := fcc_slit hz (c := 1) (by norm_num) (by norm_num)
  have h4 := fcc_slit hz (c := 4) (by norm_num) (by norm_num)
  rw [Complex.ofReal_one, one_mul] at h1
  rw [show ((4 : ℝ) : ℂ) = 4 by norm_num] at h4
  exact ⟨sqrt_sq' _, sqrt_sq' _, (sqrt_re_pos h1).le, (sqrt_re_pos h4).le,
    fcc_im_roots (sqrt_sq' _) (sqrt_sq' _) (sqrt_re_pos h1) (sqrt_re_pos h4)⟩

lemma re_pos_of_slit {x w : ℂ} (hx : x ∈ Complex.slitPlane) (h : w ^ 2 = x) (hw : 0 ≤ w.re) : 0 < w.re := by
  refine lt_of_le_of_ne hw fun h0 => ?_
  rw [← h, Complex.mem_slitPlane_iff, pow_two, Complex.mul_re, Complex.mul_im, ← h0] at hx
  rcases hx with hx | hx
  · nlinarith [mul_self_nonneg w.im]
  · simp at hx

/-- Off the band the roots are unique. -/
lemma fccForm_of {z s a : ℂ} (hz : ∀ e ∈ Set.Icc (-1 : ℝ) 3, z ≠ (e : ℂ)) (h : FccRoots (1 / (z + 1)) s a) :
    fccForm z = fccR (1 / (z + 1)) (2 * s - a) := by
  have h1 := fcc_slit hz (c := 1) (by norm_num) (by norm_num)
  have h4 := fcc_slit hz (c := 4) (by norm_num) (by norm_num)
  rw [Complex.ofReal_one, one_mul] at h1
  rw [show ((4 : ℝ) : ℂ) = 4 by norm_num] at h4
  unfold fccForm
  rw [sqrt_unique h.s_sq (re_pos_of_slit h1 h.s_sq h.s_re), sqrt_unique h.a_sq (re_pos_of_slit h4 h.a_sq h.a_re)]

lemma differentiableAt_fccForm {z : ℂ} (hz : ∀ e ∈ Set.Icc (-1 : ℝ) 3, z ≠ (e : ℂ)) : DifferentiableAt ℂ fccForm z := by
  have hw : z + 1 ≠ 0 := fun h => hz (-1) (by norm_num) (by push_cast; linear_combination h)
  have h1 := fcc_slit hz (c := 1) (by norm_num) (by norm_num)
  have h4 := fcc_slit hz (c := 4) (by norm_num) (by norm_num)
  rw [Complex.ofReal_one, one_mul] at h1
  rw [show ((4 : ℝ) : ℂ) = 4 by norm_num] at h4
  have hv : DifferentiableAt ℂ (fun z : ℂ => 1 / (z + 1)) z := (differentiableAt_const _).div (by fun_prop) hw
  have hs : DifferentiableAt ℂ (fun z : ℂ => Complex.sqrt (1 - 1 / (z + 1))) z :=
    DifferentiableAt.comp (f := fun z : ℂ => 1 - 1 / (z + 1)) (g := Complex.sqrt) z (hasDerivAt_sqrt h1).differentiableAt
      ((differentiableAt_const _).sub hv)
  have ha : DifferentiableAt ℂ (fun z : ℂ => Complex.sqrt (1 - 4 * (1 / (z + 1)))) z :=
    DifferentiableAt.comp (f := fun z : ℂ => 1 - 4 * (1 / (z + 1))) (g := Complex.sqrt) z (hasDerivAt_sqrt h4).differentiableAt
      ((differentiableAt_const _).sub (hv.const_mul 4))
  have hq := (hs.const_mul 2).sub ha
  have hk := DifferentiableAt.comp (f := fun z : ℂ => 2 * Complex.sqrt (1 - 1 / (z + 1)) - Complex.sqrt (1 - 4 * (1 / (z + 1))))
    (g := fun q => ellipK (fccBe q)) z (fccRoots_off hz).differentiableAt hq
  exact (hv.mul hq).mul ((hk.const_mul _).pow 2)

lemma fccDisp_mem (k : ℝ × ℝ × ℝ) : fccDisp 2 k ∈ Set.Icc (-1 : ℝ) 3 := by
  have := fccDisp_range (D := 2) (by norm_num) k
  constructor <;> linarith [this.1, this.2]

lemma fcc_green_large : ∃ X : ℝ, ∀ x : ℝ, X < x → bzGreen bz3 (fccDisp 2) x = fccForm x := by
  obtain ⟨r, hr0, hr16, hr⟩ := fcc_joyceB
  refine ⟨max 3 (3 / r), fun x hx => ?_⟩
  obtain ⟨hx3, hxr⟩ := max_lt_iff.1 hx
  have hw : 0 < x + 1 := by linarith
  set v : ℝ := 1 / (x + 1) with hv
  have hv0 : 0 < v := by positivity
  have hv4 : 4 * v < 1 := by rw [hv, mul_one_div, div_lt_one hw]; linarith
  have h3v : 3 * v < r := by
    rw [div_lt_iff₀ hr0] at hxr
    rw [hv, mul_one_div, div_lt_iff₀ hw]
    nlinarith
  set s := √(1 - v) with hs
  set a := √(1 - 4 * v) with ha
  have hs0 : 0 ≤ s := Real.sqrt_nonneg _
  have ha0 : 0 ≤ a := Real.sqrt_nonneg _
  have hs2 : s ^ 2 = 1 - v := Real.sq_sqrt (by linarith)
  have ha2 : a ^ 2 = 1 - 4 * v := Real.sq_sqrt (by linarith)
  have hvc : (1 : ℂ) / ((x : ℂ) + 1) = (v : ℂ) := by rw [hv]; push_cast; rfl
  have hroots : FccRoots (1 / ((x : ℂ) + 1)) (s : ℂ) (a : ℂ) := by
    rw [hvc]
    exact ⟨by exact_mod_cast hs2, by exact_mod_cast ha2, by simpa using hs0, by simpa using ha0, by simp⟩
  have hoff : ∀ e ∈ Set.Icc (-1 : ℝ) 3, (x : ℂ) ≠ (e : ℂ) := fun e he h => by
    have : x = e := by exact_mod_cast h
    linarith [he.2]
  obtain ⟨t, ht⟩ : ∃ t : ℝ, t = 2 * s - a - 1 := ⟨_, rfl⟩
  have ha1 : a < 1 := by nlinarith
  have ht0 : 0 < t := by nlinarith
  have htr : t < r := by
    have h1 : s ≤ 1 - v / 2 := by nlinarith
    have h2 : 1 - 4 * v ≤ a := by nlinarith
    linarith
  have hq : (2 : ℂ) * (s : ℂ) - (a : ℂ) = ((1 + t : ℝ) : ℂ) := by rw [ht]; push_cast; ring
  have hV : fccV t = 4 * v := by
    obtain ⟨q, hq0, e1, -, -, e4⟩ := hroots.param
    rw [hq] at e1
    rw [fccV_eq (by linarith)]
    rw [hvc, ← e1] at e4
    have e5 : v = ((1 + t) ^ 2 - 1) * (9 - (1 + t) ^ 2) / (16 * (1 + t) ^ 2) := by exact_mod_cast e4
    rw [e5]
    have : (1 + t) ≠ 0 := by linarith
    field_simp
    norm_num
  have hMB : ((fccMB t : ℝ) : ℂ) = fccBe ((1 + t : ℝ) : ℂ) := by
    rw [fccMB_eq (by linarith)]
    unfold fccBe
    push_cast
    ring
  have hj := hr t ⟨ht0, htr⟩
  rw [hV, hMB] at hj
  rw [fccForm_of hoff hroots, hq, fccR, ← hj, hvc]
  have hser := bzGreen_series (μ := bz3) measurable_fccX fccX_abs (x := (x + 1) / 4) (by linarith)
  rw [bandMoment_fccX] at hser
  have e4v : 1 / ((x + 1) / 4) = 4 * v := by rw [hv]; field_simp
  rw [e4v] at hser
  have hg : bzGreen bz3 (fccDisp 2) x = 1 / 4 * bzGreen bz3 fccX (((x + 1) / 4 : ℝ) : ℂ) := by
    unfold bzGreen
    rw [← integral_const_mul]
    congr 1
    funext k
    unfold fccX
    push_cast
    rw [one_div_mul_one_div]
    congr 1
    ring
  rw [hg, hser]
  have hrat : rat [1] 1 t = 1 / (1 + t) := by
    unfold rat
    simp [horner]
  rw [hrat]
  have h1t : ((1 + t : ℝ) : ℂ) ≠ 0 := by exact_mod_cast (by linarith : 1 + t ≠ 0)
  push_cast at h1t ⊢
  field_simp

/-- The Green's function for half-bandwidth two. -/
lemma fcc_green_two {z : ℂ} (hz : ∀ e ∈ Set.Icc (-1 : ℝ) 3, z ≠ (e : ℂ)) : bzGreen bz3 (fccDisp 2) z = fccForm z := by
  obtain ⟨X, hX⟩ := fcc_green_large
  exact eq_offBand (f := bzGreen bz3 (fccDisp 2)) (g := fccForm) (X := X)
    (differentiableOn_bzGreen (measurable_fccDisp 2) fccDisp_mem)
    (fun z hz => (differentiableAt_fccForm hz).differentiableWithinAt) hX hz

lemma fcc_scale {D : ℝ} (hD : 0 < D) (z : ℂ) :
    bzGreen bz3 (fccDisp D) z = 2 / D * bzGreen bz3 (fccDisp 2) (2 / D * z) := by
  have hDc : (D : ℂ) ≠ 0 := by exact_mod_cast hD.ne'
  unfold bzGreen
  rw [← integral_const_mul]
  congr 1
  funext k
  have e : z - (fccDisp D k : ℂ) = D / 2 * (2 / D * z - (fccDisp 2 k : ℂ)) := by
    unfold fccDisp
    push_cast
    field_simp
  rw [e, one_div, mul_inv, inv_div, one_div]

/-- Energies off the band `[-D/2, 3D/2]`. -/
lemma fcc_offBand {D : ℝ} (hD : 0 < D) {z : ℂ} (hz : ∀ e ∈ Set.Icc (-(D / 2)) (3 * D / 2), z ≠ (e : ℂ)) :
    ∀ e ∈ Set.Icc (-1 : ℝ) 3, 2 / D * z ≠ (e : ℂ) := by
  have hDc : (D : ℂ) ≠ 0 := by exact_mod_cast hD.ne'
  intro e he h
  refine hz (e * (D / 2)) ⟨by nlinarith [he.1], by nlinarith [he.2]⟩ ?_
  push_cast
  rw [← h]
  field_simp

/-- The Green's function off the band. -/
lemma fcc_green {D : ℝ} (hD : 0 < D) {z : ℂ} (hz : ∀ e ∈ Set.Icc (-(D / 2)) (3 * D / 2), z ≠ (e : ℂ)) :
    bzGreen bz3 (fccDisp D) z = 2 / D * fccForm (2 / D * z) := by
  rw [fcc_scale hD, fcc_green_two (fcc_offBand hD hz)]

end Gftool.Lemmas
