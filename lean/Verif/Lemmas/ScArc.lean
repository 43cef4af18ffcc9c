import Verif.Lemmas.EllipRho
import Verif.Lemmas.ScGreen

/-!
# The simple cubic Green's function inside of the central part of the band

For energies `e < 1` (half-bandwidth 3) the variable `ξ` runs on the circle `|ξ|² = 1/3`. The squares of the elliptic
integrals fulfil a linear system with real coefficients along this arc.
-/

namespace Gftool.Lemmas

open Gftool Spec MeasureTheory

/-! ## The quadratic forms as functions of `ξ` -/

/-- The denominator of the closed form. -/
noncomputable def arcB (ξ : ℂ) : ℂ := (1 - ξ) ^ 3 * (1 + 3 * ξ)

/-- The parameter of the elliptic integral. -/
noncomputable def arcMu (ξ : ℂ) : ℂ := 16 * ξ ^ 3 / arcB ξ

/-- Points for which the closed form is regular. -/
structure ArcReg (ξ : ℂ) : Prop where
  zero : ξ ≠ 0
  m1 : 1 - ξ ≠ 0
  p1 : 1 + ξ ≠ 0
  m3 : 1 - 3 * ξ ≠ 0
  p3 : 1 + 3 * ξ ≠ 0
  dom : arcMu ξ ∈ ellipDom

lemma ArcReg.b {ξ : ℂ} (h : ArcReg ξ) : arcB ξ ≠ 0 := mul_ne_zero (pow_ne_zero 3 h.m1) h.p3

lemma one_sub_arcMu {ξ : ℂ} (h : arcB ξ ≠ 0) : 1 - arcMu ξ = (1 + ξ) ^ 3 * (1 - 3 * ξ) / arcB ξ := by
  unfold arcMu
  rw [eq_div_iff h, sub_mul, div_mul_cancel₀ _ h, arcB]
  ring

lemma hasDerivAt_arcB (ξ : ℂ) : HasDerivAt arcB (-12 * ξ * (1 - ξ) ^ 2) ξ := by
  have d1 : HasDerivAt (fun ξ : ℂ => 1 - ξ) (-1) ξ := by simpa using (hasDerivAt_id ξ).const_sub 1
  have d2 : HasDerivAt (fun ξ : ℂ => 1 + 3 * ξ) 3 ξ := by simpa using ((hasDerivAt_id ξ).const_mul 3).const_add 1
  refine ((d1.pow 3).mul d2).congr_deriv ?_
  simp only [Pi.pow_apply]
  push_cast
  ring

lemma hasDerivAt_arcMu {ξ : ℂ} (h : ArcReg ξ) :
    HasDerivAt arcMu (48 * ξ ^ 2 * (1 + ξ) ^ 2 / ((1 - ξ) ^ 4 * (1 + 3 * ξ) ^ 2)) ξ := by
  have d1 : HasDerivAt (fun ξ : ℂ => 16 * ξ ^ 3) (48 * ξ ^ 2) ξ := by
    refine ((hasDerivAt_pow 3 ξ).const_mul 16).congr_deriv ?_
    norm_num
    ring
  refine (d1.div (hasDerivAt_arcB ξ) h.b).congr_deriv ?_
  have h1 := h.m1
  have h2 := h.p3
  unfold arcB
  field_simp
  ring

/-- The combinations of the quadratic forms that depend on `ξ²` only. -/
noncomputable def arcK0 (ξ : ℂ) : ℂ := kW (arcMu ξ) / arcB ξ

@[inherit_doc arcK0]
noncomputable def arcK1 (ξ : ℂ) : ℂ := kS (arcMu ξ) - arcMu ξ * kW (arcMu ξ) / 4

@[inherit_doc arcK0]
noncomputable def arcK2 (ξ : ℂ) : ℂ :=
  arcB ξ * (kQ (arcMu ξ) - arcMu ξ * kS (arcMu ξ) / 2 + arcMu ξ ^ 2 * kW (arcMu ξ) / 16)

/-- The common denominator of the system. -/
noncomputable def arcD (ξ : ℂ) : ℂ := ξ * ((1 - ξ ^ 2) * (1 - 9 * ξ ^ 2))

lemma hasDerivAt_arcK {ξ : ℂ} (h : ArcReg ξ) :
    HasDerivAt arcK0 ((6 * arcK1 ξ + 12 * ξ ^ 2 * (1 - 3 * ξ ^ 2) * arcK0 ξ) / arcD ξ) ξ ∧
    HasDerivAt arcK1 (3 * (arcK2 ξ - 16 * ξ ^ 6 * arcK0 ξ) / arcD ξ) ξ ∧
    HasDerivAt arcK2 (-(12 * ξ ^ 2 * (1 - 3 * ξ ^ 2) * arcK2 ξ + 96 * ξ ^ 6 * arcK1 ξ) / arcD ξ) ξ := by
  have h0 := h.zero
  have h1 := h.m1
  have h2 := h.p1
  have h3 := h.m3
  have h4 := h.p3
  have h3' : 1 - ξ * 3 ≠ 0 := by rwa [mul_comm ξ 3]
  have h4' : 1 + ξ * 3 ≠ 0 := by rwa [mul_comm ξ 3]
  have hb := h.b
  have dμ := hasDerivAt_arcMu h
  have dB := hasDerivAt_arcB ξ
  have hμ : arcMu ξ * (1 - arcMu ξ) = 16 * ξ ^ 3 * (1 + ξ) ^ 3 * (1 - 3 * ξ) / ((1 - ξ) ^ 6 * (1 + 3 * ξ) ^ 2) := by
    rw [one_sub_arcMu hb, arcMu, arcB]
    field_simp
  have hμ0 : arcMu ξ * (1 - arcMu ξ) ≠ 0 := by
    rw [hμ]
    exact div_ne_zero (mul_ne_zero (mul_ne_zero (mul_ne_zero (by norm_num) (pow_ne_zero 3 h0)) (pow_ne_zero 3 h2)) h3)
      (mul_ne_zero (pow_ne_zero 6 h1) (pow_ne_zero 2 h4))
  have hα : 48 * ξ ^ 2 * (1 + ξ) ^ 2 / ((1 - ξ) ^ 4 * (1 + 3 * ξ) ^ 2)
      = arcMu ξ * (1 - arcMu ξ) * (3 * (1 - ξ) ^ 2 / (ξ * (1 + ξ) * (1 - 3 * ξ))) := by
    rw [hμ]
    field_simp
    ring
  have hd : arcD ξ = ξ * (1 - ξ) * (1 + ξ) * (1 - 3 * ξ) * (1 + 3 * ξ) := by unfold arcD; ring
  have eμ : arcMu ξ = 16 * ξ ^ 3 / ((1 - ξ) ^ 3 * (1 + 3 * ξ)) := rfl
  have eB : arcB ξ = (1 - ξ) ^ 3 * (1 + 3 * ξ) := rfl
  have dW : HasDerivAt (fun ξ => kW (arcMu ξ)) (6 * (1 - ξ) ^ 2 / (ξ * (1 + ξ) * (1 - 3 * ξ)) * kS (arcMu ξ)) ξ := by
    refine ((hasDerivAt_kW h.dom hμ0).comp ξ dμ).congr_deriv ?_
    rw [hα]
    generalize arcMu ξ * (1 - arcMu ξ) = t at *
    field_simp
    ring
  have dS : HasDerivAt (fun ξ => kS (arcMu ξ)) (12 * ξ ^ 2 * (1 + ξ) ^ 2 / ((1 - ξ) ^ 4 * (1 + 3 * ξ) ^ 2) * kW (arcMu ξ)
      + 3 * (1 - ξ) ^ 2 / (ξ * (1 + ξ) * (1 - 3 * ξ)) * kQ (arcMu ξ)) ξ := by
    refine ((hasDerivAt_kS h.dom hμ0).comp ξ dμ).congr_deriv ?_
    have e : (48 * ξ ^ 2 * (1 + ξ) ^ 2 / ((1 - ξ) ^ 4 * (1 + 3 * ξ) ^ 2)) * (kQ (arcMu ξ) / (arcMu ξ * (1 - arcMu ξ)))
        = 3 * (1 - ξ) ^ 2 / (ξ * (1 + ξ) * (1 - 3 * ξ)) * kQ (arcMu ξ) := by
      rw [hα]
      generalize arcMu ξ * (1 - arcMu ξ) = t at *
      field_simp
    linear_combination e
  have dQ : HasDerivAt (fun ξ => kQ (arcMu ξ)) (24 * ξ ^ 2 * (1 + ξ) ^ 2 / ((1 - ξ) ^ 4 * (1 + 3 * ξ) ^ 2) * kS (arcMu ξ)) ξ := by
    refine ((hasDerivAt_kQ h.dom).comp ξ dμ).congr_deriv ?_
    ring
  refine ⟨?_, ?_, ?_⟩
  · refine (dW.div dB hb).congr_deriv ?_
    rw [hd]
    unfold arcK0 arcK1
    generalize kW (arcMu ξ) = W
    generalize kS (arcMu ξ) = S
    rw [eμ, eB]
    field_simp
    ring
  · refine (dS.sub ((dμ.mul dW).div_const 4)).congr_deriv ?_
    rw [hd]
    unfold arcK0 arcK2
    generalize kW (arcMu ξ) = W
    generalize kS (arcMu ξ) = S
    generalize kQ (arcMu ξ) = Q
    rw [eμ, eB]
    field_simp
    ring
  · refine (dB.mul ((dQ.sub ((dμ.mul dS).div_const 2)).add (((dμ.pow 2).mul dW).div_const 16))).congr_deriv ?_
    rw [hd]
    unfold arcK1 arcK2
    simp only [Pi.add_apply, Pi.sub_apply, Pi.mul_apply, Pi.pow_apply]
    generalize kW (arcMu ξ) = W
    generalize kS (arcMu ξ) = S
    generalize kQ (arcMu ξ) = Q
    rw [eμ, eB]
    push_cast
    field_simp
    ring

/-! ## The arc -/

/-- The phase of the arc. -/
noncomputable def arcE (θ : ℝ) : ℂ := Complex.exp (θ * Complex.I)

/-- The arc `|ξ|² = 1/3`. -/
noncomputable def arcXi (θ : ℝ) : ℂ := -Complex.I * Complex.exp (θ / 2 * Complex.I) / (√3 : ℝ)

/-- The distance `|3 + exp(iθ)|`. -/
noncomputable def arcR (θ : ℝ) : ℝ := √(10 + 6 * Real.cos θ)

lemma sqrt3_sq : ((√3 : ℝ) : ℂ) ^ 2 = 3 := by exact_mod_cast Real.sq_sqrt (show (0 : ℝ) ≤ 3 by norm_num)

lemma sqrt3_ne : ((√3 : ℝ) : ℂ) ≠ 0 := by exact_mod_cast (Real.sqrt_pos.2 (show (0 : ℝ) < 3 by norm_num)).ne'

lemma arcXi_sq (θ : ℝ) : arcXi θ ^ 2 = -arcE θ / 3 := by
  rw [arcXi, div_pow, sqrt3_sq, mul_pow, neg_sq, Complex.I_sq, ← Complex.exp_nat_mul, arcE]
  congr 1
  rw [show ((2 : ℕ) : ℂ) * (θ / 2 * Complex.I) = θ * Complex.I by push_cast; ring]
  ring

lemma norm_arcXi (θ : ℝ) : 3 * ‖arcXi θ‖ ^ 2 = 1 := by
  have h : ‖arcXi θ ^ 2‖ = 1 / 3 := by
    rw [arcXi_sq, norm_div, norm_neg, arcE, Complex.norm_exp_ofReal_mul_I]
    norm_num
  rw [norm_pow] at h
  linarith

lemma arcXi_eq (θ : ℝ) : arcXi θ = ⟨Real.sin (θ / 2) / √3, -(Real.cos (θ / 2) / √3)⟩ := by
  have e : ((θ : ℂ) / 2) = ((θ / 2 : ℝ) : ℂ) := by push_cast; rfl
  rw [arcXi, e, Complex.exp_mul_I, ← Complex.ofReal_cos, ← Complex.ofReal_sin]
  generalize Real.cos (θ / 2) = C
  generalize Real.sin (θ / 2) = S
  apply Complex.ext
  · rw [Complex.div_ofReal_re]
    simp
  · rw [Complex.div_ofReal_im]
    simp
    ring

lemma arcE_eq (θ : ℝ) : arcE θ = (Real.cos θ : ℝ) + (Real.sin θ : ℝ) * Complex.I := by
  rw [arcE, Complex.exp_mul_I, Complex.ofReal_cos, Complex.ofReal_sin]

lemma arcE_ne (θ : ℝ) : arcE θ ≠ 0 := Complex.exp_ne_zero _

lemma arcR_sq (θ : ℝ) : arcR θ ^ 2 = 10 + 6 * Real.cos θ := Real.sq_sqrt (by linarith [Real.neg_one_le_cos θ])

lemma arcR_pos (θ : ℝ) : 0 < arcR θ := Real.sqrt_pos.2 (by linarith [Real.neg_one_le_cos θ])

lemma arcXi_zero : arcXi 0 = -Complex.I / (√3 : ℝ) := by simp [arcXi]

lemma arcB_zero : arcB (arcXi 0) = 16 / (3 * (√3 : ℝ)) * rootσ := by
  have h1 : 1 - arcXi 0 = 2 / (√3 : ℝ) * rootσ := by
    have := sqrt3_ne
    rw [arcXi_zero]
    field_simp
    apply Complex.ext <;> simp [rootσ]
    ring
  have h2 : 1 + 3 * arcXi 0 = 2 * (1 - rootσ ^ 2) := by
    have h := two_rho
    have := sqrt3_ne
    rw [arcXi_zero]
    field_simp
    linear_combination (√3 : ℝ) * h + Complex.I * sqrt3_sq
  have := sqrt3_ne
  have h3 := rho_mul
  have e : ((√3 : ℝ) : ℂ) ^ 3 = 3 * (√3 : ℝ) := by rw [pow_succ, sqrt3_sq]
  rw [arcB, h1, h2, mul_pow, div_pow, e, show (2 : ℂ) ^ 3 / (3 * (√3 : ℝ)) * rootσ ^ 3 * (2 * (1 - rootσ ^ 2))
    = 16 / (3 * (√3 : ℝ)) * rootσ * (rootσ ^ 2 * (1 - rootσ ^ 2)) by ring, h3, mul_one]

lemma arcMu_zero : arcMu (arcXi 0) = rootσ ^ 2 := by
  have h := sqrt3_ne
  have e : ((√3 : ℝ) : ℂ) ^ 3 = 3 * (√3 : ℝ) := by rw [pow_succ, sqrt3_sq]
  have hσ := rootσ_ne
  rw [arcMu, arcB_zero, arcXi_zero, div_pow, e, neg_pow, pow_succ Complex.I, Complex.I_sq, ← rootσ_cube]
  field_simp

lemma scReg_arcXi {θ : ℝ} (h0 : 0 < θ) (h1 : θ < Real.pi) : ScReg (arcXi θ) := by
  have hs : 0 < Real.sin (θ / 2) := Real.sin_pos_of_pos_of_lt_pi (by linarith) (by linarith)
  have hc : 0 < Real.cos (θ / 2) := Real.cos_pos_of_mem_Ioo ⟨by linarith, by linarith⟩
  have h3 : 0 < √3 := Real.sqrt_pos.2 (by norm_num)
  refine ⟨(norm_arcXi θ).le, fun h => ?_, fun h => ?_⟩
  · rw [arcXi_eq] at h
    exact absurd h (div_pos hs h3).ne'
  · rw [arcXi_eq] at h
    have : 0 < Real.cos (θ / 2) / √3 := div_pos hc h3
    simp only at h
    linarith

lemma arcReg {θ : ℝ} (h0 : 0 ≤ θ) (h1 : θ < Real.pi) : ArcReg (arcXi θ) := by
  have hn := norm_arcXi θ
  have key : ∀ c : ℝ, c ^ 2 ≠ 3 → ((c : ℝ) : ℂ) ≠ 0 → 1 - (c : ℂ) * arcXi θ ≠ 0 := by
    intro c hc _ h
    have e : (c : ℂ) * arcXi θ = 1 := by linear_combination -h
    have e2 := congrArg (fun z : ℂ => ‖z‖ ^ 2) e
    simp only [norm_mul, Complex.norm_real, norm_one, mul_pow, Real.norm_eq_abs, sq_abs] at e2
    apply hc
    nlinarith
  have hz : arcXi θ ≠ 0 := fun h => by rw [h] at hn; norm_num at hn
  have m1 : 1 - arcXi θ ≠ 0 := by simpa using key 1 (by norm_num) (by norm_num)
  have p1 : 1 + arcXi θ ≠ 0 := by simpa using key (-1) (by norm_num) (by norm_num)
  have m3 : 1 - 3 * arcXi θ ≠ 0 := by simpa using key 3 (by norm_num) (by norm_num)
  have p3 : 1 + 3 * arcXi θ ≠ 0 := by simpa using key (-3) (by norm_num) (by norm_num)
  refine ⟨hz, m1, p1, m3, p3, ?_⟩
  rcases h0.eq_or_lt with h | h
  · rw [← h, arcMu_zero]
    exact rho_mem
  · have hb : arcB (arcXi θ) ≠ 0 := mul_ne_zero (pow_ne_zero 3 m1) p3
    rw [ellipDom, Set.mem_ofPred_eq, one_sub_arcMu hb]
    exact (scReg_arcXi h h1).slit

lemma hasDerivAt_arcXi (θ : ℝ) : HasDerivAt arcXi (Complex.I / 2 * arcXi θ) θ := by
  have h1 : HasDerivAt (fun θ : ℝ => ((θ : ℂ) / 2 * Complex.I)) (1 / 2 * Complex.I) θ :=
    ((Complex.ofRealCLM.hasDerivAt (x := θ)).div_const 2).mul_const Complex.I
  have h2 := ((h1.cexp).const_mul (-Complex.I)).div_const ((√3 : ℝ) : ℂ)
  refine h2.congr_deriv ?_
  unfold arcXi
  ring

lemma hasDerivAt_arcE (θ : ℝ) : HasDerivAt arcE (Complex.I * arcE θ) θ := by
  have h1 : HasDerivAt (fun θ : ℝ => ((θ : ℂ) * Complex.I)) (1 * Complex.I) θ :=
    (Complex.ofRealCLM.hasDerivAt (x := θ)).mul_const Complex.I
  refine h1.cexp.congr_deriv ?_
  unfold arcE
  ring

lemma hasDerivAt_arcR (θ : ℝ) : HasDerivAt arcR (-3 * Real.sin θ / arcR θ) θ := by
  have h1 : HasDerivAt (fun θ => 10 + 6 * Real.cos θ) (6 * -Real.sin θ) θ := ((Real.hasDerivAt_cos θ).const_mul 6).const_add 10
  have h2 := h1.sqrt (by linarith [Real.neg_one_le_cos θ])
  refine h2.congr_deriv ?_
  unfold arcR
  ring

/-- The functions of the arc. -/
noncomputable def arcH0 (θ : ℝ) : ℂ := arcE θ * arcK0 (arcXi θ)

@[inherit_doc arcH0]
noncomputable def arcH1 (θ : ℝ) : ℂ := arcK1 (arcXi θ)

@[inherit_doc arcH0]
noncomputable def arcH2 (θ : ℝ) : ℂ := arcK2 (arcXi θ) / arcE θ

lemma arcR_ne (θ : ℝ) : ((arcR θ : ℝ) : ℂ) ≠ 0 := by exact_mod_cast (arcR_pos θ).ne'

lemma arc_cs (θ : ℝ) : ((Real.cos θ : ℝ) : ℂ) ^ 2 + ((Real.sin θ : ℝ) : ℂ) ^ 2 = 1 := by
  exact_mod_cast Real.cos_sq_add_sin_sq θ

lemma arcR_sqC (θ : ℝ) : ((arcR θ : ℝ) : ℂ) ^ 2 = 10 + 6 * ((Real.cos θ : ℝ) : ℂ) := by exact_mod_cast arcR_sq θ

lemma arcE_mul_R (θ : ℝ) : (3 + arcE θ) * (1 + 3 * arcE θ) = arcE θ * ((arcR θ : ℝ) : ℂ) ^ 2 := by
  rw [arcR_sqC, arcE_eq]
  linear_combination -3 * arc_cs θ + 3 * ((Real.sin θ : ℝ) : ℂ) ^ 2 * Complex.I_sq

lemma hasDerivAt_arcH {θ : ℝ} (h0 : 0 ≤ θ) (h1 : θ < Real.pi) :
    HasDerivAt arcH0 ((9 * Complex.I * arcH1 θ + (4 * Complex.I + 6 * (Real.sin θ : ℝ)) * arcH0 θ) / (arcR θ : ℝ) ^ 2) θ ∧
    HasDerivAt arcH1 (9 * Complex.I / 2 * (arcH2 θ + 16 / 27 * arcE θ * arcH0 θ) / (arcR θ : ℝ) ^ 2) θ ∧
    HasDerivAt arcH2 (((-4 * Complex.I - 6 * (Real.sin θ : ℝ)) * arcH2 θ + 16 * Complex.I / 3 * arcE θ * arcH1 θ)
      / (arcR θ : ℝ) ^ 2) θ := by
  have hr := arcReg h0 h1
  obtain ⟨d0, d1, d2⟩ := hasDerivAt_arcK hr
  have dξ := hasDerivAt_arcXi θ
  have dE := hasDerivAt_arcE θ
  have hE := arcE_ne θ
  have hR := arcR_ne θ
  have hz := hr.zero
  have hx := arcXi_sq θ
  have hx6 : arcXi θ ^ 6 = -arcE θ ^ 3 / 27 := by
    rw [show arcXi θ ^ 6 = (arcXi θ ^ 2) ^ 3 by ring, hx]
    ring
  have hD : arcD (arcXi θ) = arcXi θ * (arcE θ * (arcR θ : ℝ) ^ 2 / 3) := by
    rw [arcD, hx, ← arcE_mul_R]
    ring
  have hN : ∀ N : ℂ, N / arcD (arcXi θ) * (Complex.I / 2 * arcXi θ) = 3 * Complex.I / 2 * N / (arcE θ * (arcR θ : ℝ) ^ 2) := by
    intro N
    rw [hD]
    field_simp
  have k0 : HasDerivAt (fun θ => arcK0 (arcXi θ)) _ θ := d0.comp θ dξ
  have k1 : HasDerivAt (fun θ => arcK1 (arcXi θ)) _ θ := d1.comp θ dξ
  have k2 : HasDerivAt (fun θ => arcK2 (arcXi θ)) _ θ := d2.comp θ dξ
  rw [hN] at k0 k1 k2
  have hR2 := arcR_sqC θ
  have hEe := arcE_eq θ
  rw [hx] at k0 k2
  rw [hx6] at k1 k2
  have hRE : ((arcR θ : ℝ) : ℂ) ^ 2 = 4 + 6 * arcE θ + (6 - 6 * arcE θ + 6 * ((Real.cos θ : ℝ) : ℂ)) := by rw [hR2]; ring
  refine ⟨?_, ?_, ?_⟩
  · refine (dE.mul k0).congr_deriv ?_
    unfold arcH0 arcH1
    generalize arcK0 (arcXi θ) = a
    generalize arcK1 (arcXi θ) = b
    rw [eq_div_iff (pow_ne_zero 2 hR), add_mul]
    have e1 : arcE θ * (3 * Complex.I / 2 * (6 * b + 12 * (-arcE θ / 3) * (1 - 3 * (-arcE θ / 3)) * a)
        / (arcE θ * ((arcR θ : ℝ) : ℂ) ^ 2)) * ((arcR θ : ℝ) : ℂ) ^ 2
        = 3 * Complex.I / 2 * (6 * b + 12 * (-arcE θ / 3) * (1 - 3 * (-arcE θ / 3)) * a) := by
      field_simp
    rw [e1, hR2]
    linear_combination (-6 * Complex.I * arcE θ * a) * hEe - 6 * arcE θ * a * ((Real.sin θ : ℝ) : ℂ) * Complex.I_sq
  · refine k1.congr_deriv ?_
    unfold arcH0 arcH2
    generalize arcK0 (arcXi θ) = a
    generalize arcK2 (arcXi θ) = b
    field_simp
    ring
  · refine (k2.div dE hE).congr_deriv ?_
    unfold arcH2 arcH1
    generalize arcK1 (arcXi θ) = a
    generalize arcK2 (arcXi θ) = b
    rw [eq_div_iff (pow_ne_zero 2 hR)]
    have e1 : (3 * Complex.I / 2 * -(12 * (-arcE θ / 3) * (1 - 3 * (-arcE θ / 3)) * b + 96 * (-arcE θ ^ 3 / 27) * a)
        / (arcE θ * ((arcR θ : ℝ) : ℂ) ^ 2) * arcE θ - b * (Complex.I * arcE θ)) / arcE θ ^ 2 * ((arcR θ : ℝ) : ℂ) ^ 2
        = (3 * Complex.I / 2 * (4 * (1 + arcE θ) * b + 32 / 9 * arcE θ ^ 2 * a) - b * Complex.I * ((arcR θ : ℝ) : ℂ) ^ 2)
          / arcE θ := by
      field_simp
      ring
    rw [e1, hR2, div_eq_iff hE]
    have e2 : b / arcE θ * arcE θ = b := div_mul_cancel₀ _ hE
    linear_combination (6 * Complex.I * b) * hEe + 6 * b * ((Real.sin θ : ℝ) : ℂ) * Complex.I_sq
      + (4 * Complex.I + 6 * ((Real.sin θ : ℝ) : ℂ)) * e2

/-! ## The system with real coefficients -/

/-- The Green's function on the arc (times `(π/2)²`) and the further components of the system. -/
noncomputable def arcY (θ : ℝ) : ℂ := -(2 * Complex.I / 3) * (arcR θ : ℝ) * arcH0 θ

@[inherit_doc arcY]
noncomputable def arcZ1 (θ : ℝ) : ℂ := 2 * arcH1 θ + (8 / 9 - 2 * Complex.I / 3 * (Real.sin θ : ℝ)) * arcH0 θ

@[inherit_doc arcY]
noncomputable def arcZ2 (θ : ℝ) : ℂ :=
  (Complex.I * (9 * arcH2 θ + 4 * arcZ1 θ) - 8 / 3 * (Real.sin θ : ℝ) * arcH0 θ) / (arcR θ : ℝ)

lemma hasDerivAt_arcSystem {θ : ℝ} (h0 : 0 ≤ θ) (h1 : θ < Real.pi) :
    HasDerivAt arcY ((3 / arcR θ : ℝ) * arcZ1 θ) θ ∧
    HasDerivAt arcZ1 ((1 / arcR θ : ℝ) * arcZ2 θ + (3 * Real.sin θ / arcR θ ^ 2 : ℝ) * arcZ1 θ
      + (Real.cos θ / arcR θ - (8 * Real.cos θ - 3 * Real.sin θ ^ 2) / arcR θ ^ 3 : ℝ) * arcY θ) θ ∧
    HasDerivAt arcZ2 ((-3 * Real.sin θ / arcR θ ^ 2 : ℝ) * arcZ2 θ + (-(16 + 24 * Real.cos θ) / arcR θ ^ 3 : ℝ) * arcZ1 θ
      + ((24 * Real.cos θ - 16) * Real.sin θ / arcR θ ^ 4 : ℝ) * arcY θ) θ := by
  obtain ⟨d0, d1, d2⟩ := hasDerivAt_arcH h0 h1
  have dR := (hasDerivAt_arcR θ).ofReal_comp
  have dS := (Real.hasDerivAt_sin θ).ofReal_comp
  have hR := arcR_ne θ
  have hR2 := arcR_sqC θ
  have hcs := arc_cs θ
  have hE := arcE_eq θ
  have hI := Complex.I_sq
  have z1 : HasDerivAt arcZ1 ((1 / arcR θ : ℝ) * arcZ2 θ + (3 * Real.sin θ / arcR θ ^ 2 : ℝ) * arcZ1 θ
      + (Real.cos θ / arcR θ - (8 * Real.cos θ - 3 * Real.sin θ ^ 2) / arcR θ ^ 3 : ℝ) * arcY θ) θ := by
    refine ((d1.const_mul 2).add (((dS.const_mul (2 * Complex.I / 3)).const_sub (8 / 9)).mul d0)).congr_deriv ?_
    unfold arcZ2 arcZ1 arcY
    rw [hE]
    push_cast
    rw [Complex.ofReal_cos, Complex.ofReal_sin] at *
    generalize ((arcR θ : ℝ) : ℂ) = r at *
    generalize Complex.cos (θ : ℂ) = c at *
    generalize Complex.sin (θ : ℂ) = s at *
    generalize arcH0 θ = a at *
    generalize arcH1 θ = b at *
    generalize arcH2 θ = d at *
    field_simp
    linear_combination ((3888) * a * s + (-4374) * b * s) * hI
  refine ⟨?_, z1, ?_⟩
  · refine ((dR.const_mul (-(2 * Complex.I / 3))).mul d0).congr_deriv ?_
    unfold arcZ1
    push_cast
    rw [Complex.ofReal_sin] at *
    generalize ((arcR θ : ℝ) : ℂ) = r at *
    generalize Complex.sin (θ : ℂ) = s at *
    generalize arcH0 θ = a at *
    generalize arcH1 θ = b at *
    field_simp
    linear_combination ((-72) * a + (-162) * b) * hI
  · have h := ((((d2.const_mul 9).add (z1.const_mul 4)).const_mul Complex.I).sub ((dS.const_mul (8 / 3)).mul d0)).div dR hR
    refine h.congr_deriv ?_
    simp only [Pi.add_apply, Pi.sub_apply, Pi.mul_apply]
    unfold arcZ2 arcZ1 arcY
    rw [hE]
    push_cast
    rw [Complex.ofReal_cos, Complex.ofReal_sin] at *
    generalize ((arcR θ : ℝ) : ℂ) = r at *
    generalize Complex.cos (θ : ℂ) = c at *
    generalize Complex.sin (θ : ℂ) = s at *
    generalize arcH0 θ = a at *
    generalize arcH1 θ = b at *
    generalize arcH2 θ = d at *
    field_simp
    linear_combination ((-288) * Complex.I * a * s + (1296) * Complex.I * b * s + (384) * a + (576) * a * c + (-72) * a * c * r ^ 2 + (-864) * a * s ^ 2 + (864) * b + (1296) * b * c) * hI

/-! ## Energy and initial values -/

/-- The energy that belongs to the point of the arc. -/
noncomputable def arcEn (θ : ℝ) : ℝ := 3 * Real.sin θ / arcR θ

lemma arcEta {θ : ℝ} (h0 : 0 < θ) (h1 : θ ≤ Real.pi / 2) : arcXi θ ^ 2 = scEta (1 / (arcEn θ : ℂ) ^ 2) := by
  have hs : 0 < Real.sin θ := Real.sin_pos_of_pos_of_lt_pi h0 (by linarith [Real.pi_pos])
  have hc : 0 ≤ Real.cos θ := Real.cos_nonneg_of_mem_Icc ⟨by linarith, h1⟩
  have hr := arcR_pos θ
  have hr2 := arcR_sq θ
  have hcs := Real.sin_sq_add_cos_sq θ
  have e1 : (1 : ℂ) - 1 / (arcEn θ : ℂ) ^ 2 = -((((3 * Real.cos θ + 1) / (3 * Real.sin θ)) ^ 2 : ℝ) : ℂ) := by
    have : 1 - 1 / arcEn θ ^ 2 = -((3 * Real.cos θ + 1) / (3 * Real.sin θ)) ^ 2 := by
      rw [arcEn, div_pow, one_div_div, mul_pow, hr2]
      field_simp
      nlinarith
    exact_mod_cast this
  have e2 : (1 : ℂ) - 9 * (1 / (arcEn θ : ℂ) ^ 2) = -((((3 + Real.cos θ) / Real.sin θ) ^ 2 : ℝ) : ℂ) := by
    have : 1 - 9 * (1 / arcEn θ ^ 2) = -((3 + Real.cos θ) / Real.sin θ) ^ 2 := by
      rw [arcEn, div_pow, one_div_div, mul_pow, hr2]
      field_simp
      nlinarith
    exact_mod_cast this
  have s1 : 0 ≤ (3 * Real.cos θ + 1) / (3 * Real.sin θ) := by positivity
  have s2 : 0 ≤ (3 + Real.cos θ) / Real.sin θ := by positivity
  rw [scEta, e1, e2, sqrt_neg_ofReal (sq_nonneg _), sqrt_neg_ofReal (sq_nonneg _), Real.sqrt_sq s1, Real.sqrt_sq s2,
    arcXi_sq, arcE_eq]
  have hne : (1 : ℂ) + Complex.I * (((3 + Real.cos θ) / Real.sin θ : ℝ) : ℂ) ≠ 0 := fun h => by
    have := congrArg Complex.re h
    rw [Complex.add_re, Complex.I_mul_re, Complex.ofReal_im, Complex.one_re] at this
    norm_num at this
  rw [eq_div_iff hne]
  have hsn : ((Real.sin θ : ℝ) : ℂ) ≠ 0 := by exact_mod_cast hs.ne'
  have hcsC := arc_cs θ
  push_cast at *
  generalize Complex.cos (θ : ℂ) = c at *
  generalize Complex.sin (θ : ℂ) = s at *
  field_simp
  linear_combination (-Complex.I) * hcsC - s * (3 + c) * Complex.I_sq

lemma arc_scForm {θ : ℝ} (h0 : 0 < θ) (h1 : θ ≤ Real.pi / 2) : scForm (arcEn θ : ℂ) = (2 / Real.pi) ^ 2 * arcY θ := by
  have hs : 0 < Real.sin θ := Real.sin_pos_of_pos_of_lt_pi h0 (by linarith [Real.pi_pos])
  have hreg := arcReg h0.le (by linarith [Real.pi_pos] : θ < Real.pi)
  have hb := hreg.b
  have hμ : 1 - scH (arcXi θ) = arcMu (arcXi θ) := by
    have : scH (arcXi θ) = 1 - arcMu (arcXi θ) := by rw [one_sub_arcMu hb]; rfl
    rw [this]
    ring
  rw [scForm_of (arcEta h0 h1), scR, hμ, arcY, arcH0, arcK0, kW, arcB, arcEn]
  have hsn : ((Real.sin θ : ℝ) : ℂ) ≠ 0 := by exact_mod_cast hs.ne'
  have hR := arcR_ne θ
  have h4 : 1 - 9 * arcXi θ ^ 4 = -2 * Complex.I * arcE θ * (Real.sin θ : ℝ) := by
    rw [show arcXi θ ^ 4 = (arcXi θ ^ 2) ^ 2 by ring, arcXi_sq, arcE_eq]
    linear_combination -(arc_cs θ) + (Real.sin θ : ℝ) ^ 2 * Complex.I_sq
  rw [h4]
  have hb' : (1 - arcXi θ) ^ 3 * (1 + 3 * arcXi θ) ≠ 0 := hb
  push_cast
  rw [Complex.ofReal_sin] at *
  generalize (1 - arcXi θ) ^ 3 * (1 + 3 * arcXi θ) = B at *
  generalize ellipK (arcMu (arcXi θ)) = K
  field_simp

lemma arcE_zero : arcE 0 = 1 := by simp [arcE]

lemma arcR_zero : arcR 0 = 4 := by
  rw [arcR, Real.cos_zero, show (10 + 6 * 1 : ℝ) = 4 ^ 2 by norm_num, Real.sqrt_sq (by norm_num)]

lemma arcH0_zero : arcH0 0 = (3 * √3 / 16 * rhoA : ℝ) := by
  have h := sqrt3_ne
  have hσ := rootσ_ne
  rw [arcH0, arcE_zero, arcK0, arcMu_zero, arcB_zero, kW, rho_sq]
  push_cast
  field_simp

lemma arcH1_zero : arcH1 0 = (rhoH : ℝ) := by
  rw [arcH1, arcK1, arcMu_zero, kS, kW, rho_mul, one_mul, rho_ab]

lemma arcH2_zero : arcH2 0 = (16 / (3 * √3) * rhoH ^ 2 / rhoA : ℝ) := by
  have h := sqrt3_ne
  have hσ := rootσ_ne
  have hA : (rhoA : ℂ) ≠ 0 := by exact_mod_cast rhoA_pos.ne'
  have hab := rho_ab
  have hsq := rho_sq
  rw [arcH2, arcE_zero, arcK2, arcMu_zero, arcB_zero, kS, kW, kQ, rho_mul, one_mul, one_mul, div_one]
  push_cast
  rw [← hab]
  generalize ellipK (rootσ ^ 2) = a at *
  generalize ellipK' (rootσ ^ 2) = b at *
  have e : (rhoA : ℂ) = a ^ 2 / rootσ := by rw [hsq]; field_simp
  have ha : a ≠ 0 := fun h => by
    rw [h] at e
    exact hA (by rw [e]; simp)
  rw [e]
  field_simp
  ring

end Gftool.Lemmas
