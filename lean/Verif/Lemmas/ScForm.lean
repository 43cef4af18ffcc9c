import Verif.Lemmas.ScSystem
import Verif.Lemmas.EllipConn
import Verif.Lemmas.UpperRoot
import Verif.Props.Bethe

/-!
# The closed form of the simple cubic Green's function
-/

namespace Gftool.Lemmas

open Gftool Spec MeasureTheory ComplexConjugate

/-! ## Imaginary modulus transformation -/

lemma sqrt_quot {x y : ℂ} (hx : x ∈ Complex.slitPlane) (hy : y ∈ Complex.slitPlane) {c : ℝ} (hc : 0 ≤ c) (h : x.im = c * y.im) :
    Complex.sqrt (x / y) = Complex.sqrt x / Complex.sqrt y := by
  have h1 := sqrt_sq' x
  have h2 := sqrt_sq' y
  have r1 := sqrt_re_pos hx
  have r2 := sqrt_re_pos hy
  refine sqrt_unique (by rw [div_pow, h1, h2]) ?_
  set a := Complex.sqrt x
  set b := Complex.sqrt y
  have hb : b ≠ 0 := fun h0 => by rw [h0] at r2; simp at r2
  have i1 : x.im = 2 * (a.re * a.im) := by rw [← h1, sq, Complex.mul_im]; ring
  have i2 : y.im = 2 * (b.re * b.im) := by rw [← h2, sq, Complex.mul_im]; ring
  have hn : 0 < Complex.normSq b := Complex.normSq_pos.2 hb
  rw [Complex.div_re, ← add_div]
  apply div_pos _ hn
  have hab : 0 ≤ a.im * b.im := by
    have e : a.re * a.im = c * (b.re * b.im) := by rw [i1, i2] at h; linarith
    have e2 : a.re * (a.im * b.im) = c * b.re * b.im ^ 2 := by linear_combination b.im * e
    have : 0 ≤ a.re * (a.im * b.im) := by rw [e2]; positivity
    exact nonneg_of_mul_nonneg_right this r1
  have := mul_pos r1 r2
  linarith

/-- `K(m/(m - 1)) = √(1 - m) K(m)`. -/
lemma ellipK_imag {m : ℂ} (hm : m ∈ ellipDom) : ellipK (m / (m - 1)) = Complex.sqrt (1 - m) * ellipK m := by
  have h1 : (1 : ℂ) - m ∈ Complex.slitPlane := hm
  have hne : (1 : ℂ) - m ≠ 0 := Complex.slitPlane_ne_zero h1
  have hne' : m - 1 ≠ 0 := fun h => hne (by linear_combination -h)
  have hs := sqrt_ne_zero h1
  have e : ellipK m = ∫ θ in (0 : ℝ)..Real.pi / 2, (fun x : ℝ => 1 / Complex.sqrt (1 - m * (x : ℂ))) (Real.sin θ ^ 2) := by
    unfold ellipK
    congr 1
    funext θ
    simp only
    push_cast
    rfl
  rw [e.trans (integral_reflect fun x : ℝ => 1 / Complex.sqrt (1 - m * (x : ℂ)))]
  unfold ellipK
  rw [← intervalIntegral.integral_const_mul]
  congr 1
  funext θ
  set c : ℝ := 1 - Real.sin θ ^ 2 with hc
  have hc0 : 0 ≤ c := by rw [hc, ← Real.cos_sq']; positivity
  have hc1 : c ≤ 1 := by rw [hc]; nlinarith [sq_nonneg (Real.sin θ)]
  have hx := slit_seg h1 ⟨hc0, hc1⟩
  have eq : 1 - m / (m - 1) * (Real.sin θ : ℂ) ^ 2 = (1 - m * (c : ℂ)) / (1 - m) := by
    rw [eq_div_iff hne, hc]
    push_cast
    field_simp
    ring
  rw [eq, sqrt_quot hx h1 hc0 (by simp [Complex.mul_im]; ring)]
  have := sqrt_ne_zero hx
  field_simp

/-! ## The region of the auxiliary variable -/

/-- `1 - k²` for the auxiliary variable `ξ`. -/
noncomputable def scH (ξ : ℂ) : ℂ := (1 + ξ) ^ 3 * (1 - 3 * ξ) / ((1 - ξ) ^ 3 * (1 + 3 * ξ))

/-- Admissible auxiliary variables. -/
structure ScReg (ξ : ℂ) : Prop where
  norm : 3 * ‖ξ‖ ^ 2 ≤ 1
  edge : ξ.re = 0 → 3 * ‖ξ‖ ^ 2 < 1
  real : ξ.im = 0 → ‖ξ‖ < 1 / 3

lemma ScReg.one_sub {ξ : ℂ} (h : ScReg ξ) : 1 - ξ ≠ 0 := fun h0 => by
  have : ξ = 1 := by linear_combination -h0
  have h1 := h.norm
  rw [this] at h1
  norm_num at h1

lemma ScReg.one_add {ξ : ℂ} (h : ScReg ξ) : 1 + ξ ≠ 0 := fun h0 => by
  have : ξ = -1 := by linear_combination h0
  have h1 := h.norm
  rw [this] at h1
  norm_num at h1

lemma ScReg.one_add3 {ξ : ℂ} (h : ScReg ξ) : 1 + 3 * ξ ≠ 0 := fun h0 => by
  have : ξ = ((-1 / 3 : ℝ) : ℂ) := by push_cast; linear_combination h0 / 3
  have h1 := h.real (by rw [this]; exact Complex.ofReal_im _)
  rw [this, Complex.norm_real] at h1
  norm_num at h1

lemma ScReg.one_sub3 {ξ : ℂ} (h : ScReg ξ) : 1 - 3 * ξ ≠ 0 := fun h0 => by
  have : ξ = ((1 / 3 : ℝ) : ℂ) := by push_cast; linear_combination -h0 / 3
  have h1 := h.real (by rw [this]; exact Complex.ofReal_im _)
  rw [this, Complex.norm_real] at h1
  norm_num at h1

lemma ScReg.neg {ξ : ℂ} (h : ScReg ξ) : ScReg (-ξ) :=
  ⟨by rw [norm_neg]; exact h.norm, fun h0 => by rw [norm_neg]; exact h.edge (by simpa using h0),
    fun h0 => by rw [norm_neg]; exact h.real (by simpa using h0)⟩

lemma ScReg.conj {ξ : ℂ} (h : ScReg ξ) : ScReg (conj ξ) :=
  ⟨by rw [Complex.norm_conj]; exact h.norm, fun h0 => by rw [Complex.norm_conj]; exact h.edge (by simpa using h0),
    fun h0 => by rw [Complex.norm_conj]; exact h.real (by simpa using h0)⟩

lemma slitPlane_smul {x : ℂ} {r : ℝ} (hr : 0 < r) (hx : x ∈ Complex.slitPlane) : (r : ℂ) * x ∈ Complex.slitPlane := by
  rw [Complex.mem_slitPlane_iff] at hx ⊢
  rw [Complex.re_ofReal_mul, Complex.im_ofReal_mul]
  rcases hx with h | h
  · left; positivity
  · right; exact mul_ne_zero hr.ne' h

lemma ScReg.slit {ξ : ℂ} (h : ScReg ξ) : scH ξ ∈ Complex.slitPlane := by
  have hd : (1 - ξ) ^ 3 * (1 + 3 * ξ) ≠ 0 := mul_ne_zero (pow_ne_zero 3 h.one_sub) h.one_add3
  set x := ξ.re with hx
  set y := ξ.im with hy
  have hn : ‖ξ‖ ^ 2 = x ^ 2 + y ^ 2 := by rw [← Complex.normSq_eq_norm_sq, Complex.normSq_apply]; ring
  set ρ : ℝ := x ^ 2 + y ^ 2 with hρ
  have h1 : 3 * ρ ≤ 1 := hn ▸ h.norm
  have hρ0 : 0 ≤ ρ := by positivity
  set a : ℝ := 1 - ρ with ha
  set b : ℝ := 2 * y with hb
  set c : ℝ := 1 - 9 * ρ with hc
  have ha0 : 0 < a := by rw [ha]; linarith
  have hab : b ^ 2 < 3 * a ^ 2 := by
    rw [ha, hb]
    rcases eq_or_lt_of_le (sq_nonneg x) with hx0 | hx0
    · have h2 := h.edge (by rw [← hx]; exact pow_eq_zero_iff (two_ne_zero) |>.1 hx0.symm)
      rw [hn] at h2
      have : y ^ 2 = ρ := by rw [hρ, ← hx0]; ring
      nlinarith
    · have : y ^ 2 < ρ := by rw [hρ]; linarith
      nlinarith
  have eξ : ξ = (x : ℂ) + (y : ℂ) * Complex.I := (Complex.re_add_im ξ).symm
  have eA : (1 + ξ) * conj (1 - ξ) = (a : ℂ) + (b : ℂ) * Complex.I := by
    apply Complex.ext
    · simp [← hx, ← hy]; rw [ha, hρ]; ring
    · simp [hb, ← hx, ← hy]; ring
  have eB : (1 - 3 * ξ) * conj (1 + 3 * ξ) = (c : ℂ) - 3 * (b : ℂ) * Complex.I := by
    apply Complex.ext
    · simp [← hx, ← hy]; rw [hc, hρ]; ring
    · simp [hb, ← hx, ← hy]; ring
  have eX : scH ξ = ((1 / Complex.normSq ((1 - ξ) ^ 3 * (1 + 3 * ξ)) : ℝ) : ℂ)
      * (((a : ℂ) + (b : ℂ) * Complex.I) ^ 3 * ((c : ℂ) - 3 * (b : ℂ) * Complex.I)) := by
    rw [← eA, ← eB]
    push_cast
    rw [Complex.normSq_eq_conj_mul_self, scH]
    have hd' : conj ((1 - ξ) ^ 3 * (1 + 3 * ξ)) ≠ 0 := (map_ne_zero _).2 hd
    have e : conj ((1 - ξ) ^ 3 * (1 + 3 * ξ)) = conj (1 - ξ) ^ 3 * conj (1 + 3 * ξ) := by rw [map_mul, map_pow]
    rw [div_eq_iff hd, one_div, inv_mul_eq_div, div_mul_eq_mul_div, eq_div_iff (mul_ne_zero hd' hd), e]
    ring
  rw [eX]
  refine slitPlane_smul (by have := Complex.normSq_pos.2 hd; positivity) ?_
  have eX2 : ((a : ℂ) + (b : ℂ) * Complex.I) ^ 3 * ((c : ℂ) - 3 * (b : ℂ) * Complex.I)
      = ((c * (a ^ 3 - 3 * a * b ^ 2) + 3 * b * (3 * a ^ 2 * b - b ^ 3) : ℝ) : ℂ)
        + ((b * (c * (3 * a ^ 2 - b ^ 2) - 3 * a ^ 3 + 9 * a * b ^ 2) : ℝ) : ℂ) * Complex.I := by
    push_cast
    have hI : Complex.I ^ 2 = -1 := Complex.I_sq
    have hI3 : Complex.I ^ 3 = -Complex.I := by rw [pow_succ, hI]; ring
    have hI4 : Complex.I ^ 4 = 1 := Complex.I_pow_four
    ring_nf
    rw [hI, hI3, hI4]
    ring
  rw [eX2, Complex.mem_slitPlane_iff]
  simp only [Complex.add_re, Complex.ofReal_re, Complex.re_ofReal_mul, Complex.I_re, mul_zero, add_zero, Complex.add_im,
    Complex.ofReal_im, Complex.im_ofReal_mul, Complex.I_im, mul_one, zero_add]
  by_cases hy0 : y = 0
  · left
    have h3 := h.real hy0
    have hb0 : b = 0 := by rw [hb, hy0, mul_zero]
    have : 0 < c := by
      rw [hc, ← hn]
      nlinarith [norm_nonneg ξ]
    rw [hb0]
    have : 0 < c * a ^ 3 := by positivity
    linarith
  · have hb0 : b ≠ 0 := mul_ne_zero two_ne_zero hy0
    by_contra hcon
    rw [not_or, not_lt, not_not] at hcon
    obtain ⟨hre, him⟩ := hcon
    have him' := (mul_eq_zero.1 him).resolve_left hb0
    have hp : 0 < 3 * a ^ 2 - b ^ 2 := by linarith
    have hb2 : 0 < b ^ 2 := by positivity
    have e1 : c * (3 * a ^ 2 - b ^ 2) = 3 * a * (a ^ 2 - 3 * b ^ 2) := by linear_combination him'
    have e2 : (c * (a ^ 3 - 3 * a * b ^ 2) + 3 * b * (3 * a ^ 2 * b - b ^ 3)) * (3 * a ^ 2 - b ^ 2)
        = 3 * a ^ 2 * (a ^ 2 - 3 * b ^ 2) ^ 2 + 3 * b ^ 2 * (3 * a ^ 2 - b ^ 2) ^ 2 := by
      linear_combination (a ^ 3 - 3 * a * b ^ 2) * e1
    have e3 : 0 < 3 * a ^ 2 * (a ^ 2 - 3 * b ^ 2) ^ 2 + 3 * b ^ 2 * (3 * a ^ 2 - b ^ 2) ^ 2 := by positivity
    rw [← e2] at e3
    have := (pos_iff_pos_of_mul_pos e3).2 hp
    linarith

/-- Roots entering the closed form, with `u` the inverse square of the energy. -/
structure ScRoots (u s a : ℂ) : Prop where
  s_sq : s ^ 2 = 1 - u
  a_sq : a ^ 2 = 1 - 9 * u
  s_re : 0 ≤ s.re
  a_re : 0 ≤ a.re

lemma one_add_ne {a : ℂ} (h : 0 ≤ a.re) : 1 + a ≠ 0 := fun h0 => by
  have := congrArg Complex.re h0
  simp at this
  linarith

lemma norm_one_sub_le {a : ℂ} (h : 0 ≤ a.re) : ‖1 - a‖ ≤ ‖1 + a‖ := by
  rw [← abs_norm, ← abs_norm (1 + a), ← sq_le_sq, ← Complex.normSq_eq_norm_sq, ← Complex.normSq_eq_norm_sq,
    Complex.normSq_apply, Complex.normSq_apply]
  simp
  nlinarith

lemma ScRoots.eta {u s a η : ℂ} (h : ScRoots u s a) (hη : η * (1 + a) = 1 - s) :
    a * (1 - 9 * η ^ 2) = 1 - 18 * η + 9 * η ^ 2 := by
  have h1 := one_add_ne h.a_re
  have h2 := h.s_sq
  have h3 := h.a_sq
  have e : s = 1 - η * (1 + a) := by linear_combination hη
  rw [e] at h2
  apply mul_left_cancel₀ h1
  linear_combination h3 - 9 * h2

lemma ScRoots.reg {u s a ξ : ℂ} (h : ScRoots u s a) (hξ : ξ ^ 2 * (1 + a) = 1 - s) : ScReg ξ := by
  have h1 := one_add_ne h.a_re
  have h1' := one_add_ne h.s_re
  have hη := h.eta hξ
  have hn : 3 * ‖ξ‖ ^ 2 ≤ 1 := by
    have e1 : ‖ξ‖ ^ 2 * ‖1 + a‖ = ‖1 - s‖ := by rw [← norm_pow, ← norm_mul, hξ]
    have e2 : 9 * (‖1 - s‖ * ‖1 + s‖) = ‖1 - a‖ * ‖1 + a‖ := by
      rw [← norm_mul, ← norm_mul]
      have : (1 - a) * (1 + a) = ((9 : ℝ) : ℂ) * ((1 - s) * (1 + s)) := by
        push_cast
        linear_combination -h.a_sq + 9 * h.s_sq
      rw [this, norm_mul ((9 : ℝ) : ℂ), Complex.norm_real]
      norm_num
    have p1 : 0 < ‖1 + a‖ := norm_pos_iff.2 h1
    have p2 : 0 < ‖1 + s‖ := norm_pos_iff.2 h1'
    have l1 := norm_one_sub_le h.a_re
    have l2 := norm_one_sub_le h.s_re
    have e3 : (3 * ‖ξ‖ ^ 2) ^ 2 * (‖1 + a‖ ^ 2 * ‖1 + s‖) = ‖1 - s‖ * (‖1 - a‖ * ‖1 + a‖) := by
      rw [← e2, ← e1]
      ring
    have e4 : (3 * ‖ξ‖ ^ 2) ^ 2 * (‖1 + a‖ ^ 2 * ‖1 + s‖) ≤ 1 * (‖1 + a‖ ^ 2 * ‖1 + s‖) := by
      rw [e3]
      calc ‖1 - s‖ * (‖1 - a‖ * ‖1 + a‖) ≤ ‖1 + s‖ * (‖1 + a‖ * ‖1 + a‖) := by gcongr
        _ = 1 * (‖1 + a‖ ^ 2 * ‖1 + s‖) := by ring
    have e5 := le_of_mul_le_mul_right e4 (by positivity)
    nlinarith [sq_nonneg ‖ξ‖]
  refine ⟨hn, fun hre => ?_, fun him => ?_⟩
  · refine lt_of_le_of_ne hn fun heq => ?_
    have e : ξ ^ 2 = -1 / 3 := by
      have : ξ = (ξ.im : ℂ) * Complex.I := by
        conv_lhs => rw [← Complex.re_add_im ξ, hre]
        simp
      have h2 : ξ.im ^ 2 = 1 / 3 := by
        rw [← Complex.normSq_eq_norm_sq, Complex.normSq_apply, hre] at heq
        linarith
      rw [this, mul_pow, Complex.I_sq, ← Complex.ofReal_pow, h2]
      push_cast
      norm_num
    rw [e] at hη
    norm_num at hη
  · have e : ξ = (ξ.re : ℂ) := by
      conv_lhs => rw [← Complex.re_add_im ξ, him]
      simp
    set t := ξ.re with ht
    rw [e] at hη hn ⊢
    rw [Complex.norm_real, Real.norm_eq_abs] at hn ⊢
    rw [sq_abs] at hn
    have hη' : a * ((1 - 9 * (t ^ 2) ^ 2 : ℝ) : ℂ) = ((1 - 18 * t ^ 2 + 9 * (t ^ 2) ^ 2 : ℝ) : ℂ) := by
      push_cast
      exact hη
    have hr := congrArg Complex.re hη'
    rw [Complex.re_mul_ofReal, Complex.ofReal_re] at hr
    have ha := h.a_re
    have ht0 := sq_nonneg t
    have hlt : t ^ 2 < 1 / 9 := by
      by_contra hcon
      rw [not_lt] at hcon
      have : 0 ≤ a.re * (1 - 9 * (t ^ 2) ^ 2) := mul_nonneg ha (by nlinarith)
      nlinarith
    rw [← Real.sqrt_sq_eq_abs, Real.sqrt_lt' (by norm_num)]
    linarith

/-! ## The closed form -/

/-- The generating function in terms of the auxiliary variable. -/
noncomputable def scR (ξ : ℂ) : ℂ :=
  (1 - 9 * ξ ^ 4) * (2 / Real.pi * ellipK (1 - scH ξ)) ^ 2 / ((1 - ξ) ^ 3 * (1 + 3 * ξ))

lemma scR_neg {ξ : ℂ} (h : ScReg ξ) : scR (-ξ) = scR ξ := by
  have h1 := h.one_sub
  have h2 := h.one_add
  have h3 := h.one_sub3
  have h4 := h.one_add3
  have hs := h.slit
  have hne : scH ξ ≠ 0 := Complex.slitPlane_ne_zero hs
  have hneg : scH (-ξ) = 1 / scH ξ := by
    unfold scH
    rw [one_div_div]
    congr 1 <;> ring
  have em : 1 - scH (-ξ) = (1 - scH ξ) / (1 - scH ξ - 1) := by
    rw [hneg, sub_sub_cancel_left]
    field_simp
    ring
  have hk := ellipK_imag (m := 1 - scH ξ) (by change 1 - (1 - scH ξ) ∈ Complex.slitPlane; rwa [sub_sub_cancel])
  rw [← em, sub_sub_cancel] at hk
  unfold scR
  rw [hk]
  have hsq := sqrt_sq' (scH ξ)
  have e : (2 / (Real.pi : ℂ) * (Complex.sqrt (scH ξ) * ellipK (1 - scH ξ))) ^ 2
      = scH ξ * (2 / Real.pi * ellipK (1 - scH ξ)) ^ 2 := by
    rw [mul_left_comm, mul_pow, hsq]
  rw [e]
  generalize (2 / (Real.pi : ℂ) * ellipK (1 - scH ξ)) ^ 2 = X
  unfold scH
  have e1 : (1 - -ξ) = 1 + ξ := by ring
  have e2 : (1 + 3 * -ξ) = 1 - 3 * ξ := by ring
  have e3 : (-ξ) ^ 4 = ξ ^ 4 := by ring
  rw [e1, e2, e3]
  generalize 1 - ξ = a1 at *
  generalize 1 + ξ = a2 at *
  generalize 1 - 3 * ξ = a3 at *
  generalize 1 + 3 * ξ = a4 at *
  field_simp

lemma scR_congr {ξ ξ' : ℂ} (h : ScReg ξ) (e : ξ' ^ 2 = ξ ^ 2) : scR ξ' = scR ξ := by
  rcases sq_eq_sq_iff_eq_or_eq_neg.1 e with h1 | h1
  · rw [h1]
  · rw [h1, scR_neg h]

lemma differentiableAt_scR {ξ : ℂ} (h : ScReg ξ) : DifferentiableAt ℂ scR ξ := by
  have hd : (1 - ξ) ^ 3 * (1 + 3 * ξ) ≠ 0 := mul_ne_zero (pow_ne_zero 3 h.one_sub) h.one_add3
  have hH : DifferentiableAt ℂ scH ξ := by
    unfold scH
    exact DifferentiableAt.div (by fun_prop) (by fun_prop) hd
  have hK : DifferentiableAt ℂ (fun ξ => ellipK (1 - scH ξ)) ξ :=
    DifferentiableAt.comp (f := fun ξ => 1 - scH ξ) ξ
      (differentiableOn_ellipK.differentiableAt (isOpen_ellipDom.mem_nhds (by
        change 1 - (1 - scH ξ) ∈ Complex.slitPlane
        rw [sub_sub_cancel]
        exact h.slit))) (hH.const_sub 1)
  unfold scR
  exact DifferentiableAt.div ((DifferentiableAt.mul (by fun_prop) ((hK.const_mul _).pow 2))) (by fun_prop) hd

/-- Square of the auxiliary variable. -/
noncomputable def scEta (u : ℂ) : ℂ := (1 - Complex.sqrt (1 - u)) / (1 + Complex.sqrt (1 - 9 * u))

lemma scRoots_sqrt (u : ℂ) : ScRoots u (Complex.sqrt (1 - u)) (Complex.sqrt (1 - 9 * u)) :=
  ⟨sqrt_sq' _, sqrt_sq' _, Props.sqrt_re_nonneg _, Props.sqrt_re_nonneg _⟩

lemma scEta_mul (u : ℂ) : scEta u * (1 + Complex.sqrt (1 - 9 * u)) = 1 - Complex.sqrt (1 - u) := by
  unfold scEta
  exact div_mul_cancel₀ _ (one_add_ne (Props.sqrt_re_nonneg _))

lemma scReg_of_eta {u ξ : ℂ} (h : ξ ^ 2 = scEta u) : ScReg ξ :=
  (scRoots_sqrt u).reg (by rw [h, scEta_mul])

lemma scEta_ne {u : ℂ} (hu : u ≠ 0) : scEta u ≠ 0 := by
  intro h
  have h1 := scEta_mul u
  rw [h, zero_mul] at h1
  have h2 := sqrt_sq' (1 - u)
  have h3 : Complex.sqrt (1 - u) = 1 := by linear_combination h1
  rw [h3] at h2
  exact hu (by linear_combination h2)

lemma differentiableAt_scEta {u : ℂ} (h1 : 1 - u ∈ Complex.slitPlane) (h9 : 1 - 9 * u ∈ Complex.slitPlane) :
    DifferentiableAt ℂ scEta u := by
  have d1 : DifferentiableAt ℂ (fun u : ℂ => Complex.sqrt (1 - u)) u :=
    DifferentiableAt.comp (f := fun u : ℂ => 1 - u) u (hasDerivAt_sqrt h1).differentiableAt (by fun_prop)
  have d9 : DifferentiableAt ℂ (fun u : ℂ => Complex.sqrt (1 - 9 * u)) u :=
    DifferentiableAt.comp (f := fun u : ℂ => 1 - 9 * u) u (hasDerivAt_sqrt h9).differentiableAt (by fun_prop)
  unfold scEta
  exact (d1.const_sub 1).div (d9.const_add 1) (one_add_ne (Props.sqrt_re_nonneg _))

/-- The generating function is analytic off the cut. -/
lemma differentiableAt_scGen {u : ℂ} (hu : u ≠ 0) (h1 : 1 - u ∈ Complex.slitPlane) (h9 : 1 - 9 * u ∈ Complex.slitPlane) :
    DifferentiableAt ℂ (fun u => scR (Complex.sqrt (scEta u))) u := by
  have hd := differentiableAt_scEta h1 h9
  by_cases hη : scEta u ∈ Complex.slitPlane
  · have hs : DifferentiableAt ℂ (fun u => Complex.sqrt (scEta u)) u :=
      DifferentiableAt.comp (f := scEta) u (hasDerivAt_sqrt hη).differentiableAt hd
    exact DifferentiableAt.comp (f := fun u => Complex.sqrt (scEta u)) u
      (differentiableAt_scR (scReg_of_eta (sqrt_sq' _))) hs
  · have hη' : -scEta u ∈ Complex.slitPlane := by
      rw [Complex.mem_slitPlane_iff, not_or, not_lt, not_not] at hη
      rw [Complex.mem_slitPlane_iff]
      left
      rw [Complex.neg_re]
      have : (scEta u).re ≠ 0 := fun h => scEta_ne hu (Complex.ext h hη.2)
      have := lt_of_le_of_ne hη.1 this
      linarith
    have hs : DifferentiableAt ℂ (fun u => Complex.I * Complex.sqrt (-scEta u)) u :=
      (DifferentiableAt.comp (f := fun u => -scEta u) u (hasDerivAt_sqrt hη').differentiableAt hd.neg).const_mul _
    have hsq : ∀ u, (Complex.I * Complex.sqrt (-scEta u)) ^ 2 = scEta u := fun u => by
      rw [mul_pow, Complex.I_sq, sqrt_sq']
      ring
    have e : (fun u => scR (Complex.sqrt (scEta u))) = fun u => scR (Complex.I * Complex.sqrt (-scEta u)) := by
      funext u
      exact scR_congr (scReg_of_eta (hsq u)) (by rw [hsq, sqrt_sq'])
    rw [e]
    exact DifferentiableAt.comp (f := fun u => Complex.I * Complex.sqrt (-scEta u)) u
      (differentiableAt_scR (scReg_of_eta (hsq u))) hs

end Gftool.Lemmas
