import Verif.Lemmas.Landen

/-!
# The elliptic integral at `exp(iπ/3)`
-/

namespace Gftool.Lemmas

open Gftool Spec MeasureTheory

open scoped Topology

lemma rho_mul : rootσ ^ 2 * (1 - rootσ ^ 2) = 1 := by linear_combination -rootσ_rel

lemma conj_rho : (starRingEnd ℂ) (rootσ ^ 2) = 1 - rootσ ^ 2 := by
  rw [rootσ_sq]
  apply Complex.ext <;> simp
  norm_num

lemma rho_mem : rootσ ^ 2 ∈ ellipDom := mem_ellipDom_of_im im_rho.ne'

lemma rho_mem' : 1 - rootσ ^ 2 ∈ ellipDom := by
  apply mem_ellipDom_of_im
  have := im_rho
  rw [Complex.sub_im, Complex.one_im]
  linarith

lemma two_rho : 2 * rootσ ^ 2 - 1 = Complex.I * (√3 : ℝ) := by
  rw [rootσ_sq]
  apply Complex.ext <;> simp
  ring

/-- `|K(ρ)|²`. -/
noncomputable def rhoA : ℝ := Complex.normSq (ellipK (rootσ ^ 2))

lemma ellipK_rho' : ellipK (1 - rootσ ^ 2) = ellipK (rootσ ^ 2) / rootσ := by
  rw [ellipK_eq_radInt, radInt_reflect, pow_one]

lemma ellipK'_rho' :
    ellipK' (1 - rootσ ^ 2) = (ellipK (rootσ ^ 2) / 2 - (1 - rootσ ^ 2) * ellipK' (rootσ ^ 2)) / Complex.I := by
  rw [ellipK', radInt_reflect, rootσ_cube]
  congr 1
  have hc := continuous_radInt (rad_K_mem rho_mem) (g := fun _ : ℝ => (1 : ℂ)) continuous_const 1
  have hd := continuous_radInt (rad_K_mem rho_mem) (continuous_wt1 0 (-1)) 3
  rw [ellipK_eq_radInt]
  unfold radInt
  rw [← intervalIntegral.integral_const_mul, ← intervalIntegral.integral_div,
    ← intervalIntegral.integral_sub ((hc.intervalIntegrable _ _).div_const _) ((hd.intervalIntegrable _ _).const_mul _)]
  congr 1
  funext θ
  have hmem := rad_K_mem rho_mem (Real.sin θ ^ 2) ⟨sq_nonneg _, Real.sin_sq_le_one θ⟩
  have h5 := sqrt_ne_zero hmem
  have h7 := sqrt_sq' (rad 1 0 0 (-1) (rootσ ^ 2) (Real.sin θ ^ 2))
  have h8 := rad_K (rootσ ^ 2) (Real.sin θ ^ 2)
  rw [h8] at h7
  simp only [wt1]
  rw [h8] at h5 ⊢
  generalize Complex.sqrt (1 - rootσ ^ 2 * ((Real.sin θ ^ 2 : ℝ) : ℂ)) = w at *
  push_cast at *
  generalize ((Complex.sin θ) ^ 2 : ℂ) = s at *
  field_simp
  linear_combination -h7

/-- The square of the integral has the phase `π/6`. -/
lemma rho_sq : ellipK (rootσ ^ 2) ^ 2 = rootσ * rhoA := by
  have h1 : (starRingEnd ℂ) (ellipK (rootσ ^ 2)) = ellipK (rootσ ^ 2) / rootσ := by
    rw [← ellipK_conj rho_mem, conj_rho, ellipK_rho']
  have h2 : (rhoA : ℂ) = ellipK (rootσ ^ 2) * (starRingEnd ℂ) (ellipK (rootσ ^ 2)) := by
    rw [rhoA, Complex.mul_conj]
  rw [h2, h1]
  have := rootσ_ne
  field_simp

/-- Legendre's relation at `ρ`. -/
lemma rho_legendre : ellipK (rootσ ^ 2) ^ 2 / 2 + Complex.I * (√3 : ℝ) * (ellipK (rootσ ^ 2) * ellipK' (rootσ ^ 2))
    = Complex.I * (Real.pi / 4 : ℝ) := by
  have h := legendre (m := rootσ ^ 2) (by rw [rootσ_sq]; norm_num) (by rw [rootσ_sq]; norm_num)
  rw [legL, ellipK_rho', ellipK'_rho', sub_sub_cancel, mul_comm (1 - rootσ ^ 2), rho_mul, one_mul, one_mul] at h
  rw [← h, ← two_rho]
  have hI := Complex.I_ne_zero
  have hs := rootσ_ne
  have h3 := rootσ_cube
  rw [← h3]
  field_simp
  ring

lemma rhoA_pos : 0 < rhoA := by
  rw [rhoA, Complex.normSq_pos]
  intro h
  have h2 := rho_legendre
  rw [h] at h2
  have h3 := congrArg Complex.im h2
  simp at h3
  linarith [Real.pi_pos]

/-- The value of the real combination of integral and derivative. -/
noncomputable def rhoH : ℝ := (Real.pi - rhoA) / (4 * √3)

lemma rho_ab : ellipK (rootσ ^ 2) * ellipK' (rootσ ^ 2) - rootσ ^ 2 * ellipK (rootσ ^ 2) ^ 2 / 4 = (rhoH : ℝ) := by
  have h := rho_legendre
  have h3 := Real.sq_sqrt (show (0 : ℝ) ≤ 3 by norm_num)
  have h3p : 0 < √3 := Real.sqrt_pos.2 (by norm_num)
  have h3n : ((√3 : ℝ) : ℂ) ≠ 0 := by exact_mod_cast h3p.ne'
  have hI := Complex.I_ne_zero
  have hab : ellipK (rootσ ^ 2) * ellipK' (rootσ ^ 2)
      = ((Real.pi / 4 : ℝ) + Complex.I * ellipK (rootσ ^ 2) ^ 2 / 2) / (√3 : ℝ) := by
    rw [eq_div_iff h3n]
    apply mul_left_cancel₀ hI
    linear_combination h - ellipK (rootσ ^ 2) ^ 2 / 2 * Complex.I_sq
  have hIσ : Complex.I * rootσ = Complex.I * (√3 : ℝ) / 2 - 1 / 2 := by
    apply Complex.ext <;> simp [rootσ]
  rw [hab, rho_sq, rhoH, show rootσ ^ 2 * (rootσ * (rhoA : ℂ)) = rootσ ^ 3 * rhoA by ring, rootσ_cube]
  push_cast
  field_simp
  linear_combination 4 * (rhoA : ℂ) * hIσ

lemma ellipJ_ofReal {m : ℝ} (hm : 1 < m) : ellipJ m = ellipK ((1 / m : ℝ) : ℂ) / (√m : ℝ) := by
  unfold ellipJ ellipK
  rw [← intervalIntegral.integral_div]
  congr 1
  funext θ
  have hs := Real.sin_sq_le_one θ
  have hs0 := sq_nonneg (Real.sin θ)
  have hm0 : 0 < m := by linarith
  have h1 : 0 ≤ 1 - 1 / m * Real.sin θ ^ 2 := by
    have : 1 / m * Real.sin θ ^ 2 ≤ 1 * 1 := mul_le_mul (by rw [div_le_one hm0]; exact hm.le) hs hs0 (by norm_num)
    linarith
  have e1 : (m : ℂ) - ((Real.sin θ ^ 2 : ℝ) : ℂ) = ((m * (1 - 1 / m * Real.sin θ ^ 2) : ℝ) : ℂ) := by
    rw [← Complex.ofReal_sub]
    congr 1
    field_simp
  have e2 : (1 : ℂ) - ((1 / m : ℝ) : ℂ) * ((Real.sin θ ^ 2 : ℝ) : ℂ) = ((1 - 1 / m * Real.sin θ ^ 2 : ℝ) : ℂ) := by push_cast; rfl
  rw [Complex.ofReal_pow] at e2
  rw [e1, e2, sqrt_ofReal (mul_nonneg hm0.le h1), sqrt_ofReal h1, Real.sqrt_mul hm0.le]
  push_cast
  rw [div_div, mul_comm]

/-- The modulus used in the code. -/
noncomputable def scKm2 : ℝ := (2 - √3) / 4

lemma sqrt3_bounds : (1.7 : ℝ) < √3 ∧ √3 < 1.75 := by
  constructor
  · rw [Real.lt_sqrt (by norm_num)]; norm_num
  · rw [Real.sqrt_lt' (by norm_num)]; norm_num

private lemma landen_im {k : ℂ} (hk : ‖k‖ < 1) (hi : 0 < k.im) : 0 < (landenM k).im := by
  have hk0 : k ≠ 0 := fun h => by rw [h] at hi; simp at hi
  have h1 := one_add_ne_ball hk
  have hn : Complex.normSq k < 1 := by
    rw [Complex.normSq_eq_norm_sq]
    exact pow_lt_one₀ (norm_nonneg _) hk (by norm_num)
  have hn' : 0 < Complex.normSq (1 + k) := Complex.normSq_pos.2 h1
  have e : landenM k = 4 * k * ((starRingEnd ℂ) (1 + k)) ^ 2 / ((Complex.normSq (1 + k) ^ 2 : ℝ) : ℂ) := by
    rw [landenM]
    push_cast
    rw [Complex.normSq_eq_conj_mul_self]
    have h2 : (starRingEnd ℂ) (1 + k) ≠ 0 := (map_ne_zero _).2 h1
    rw [div_eq_div_iff (pow_ne_zero 2 h1) (pow_ne_zero 2 (mul_ne_zero h2 h1))]
    ring
  rw [e, Complex.div_ofReal_im]
  apply div_pos _ (by positivity)
  rw [Complex.normSq_apply] at hn
  simp [pow_two]
  nlinarith

/-- **Product of the complementary integrals in terms of the integral at `ρ`.** -/
lemma km2_product : ellipKR scKm2 * ellipKR (1 - scKm2) = √3 * rhoA := by
  have h3 := Real.sq_sqrt (show (0 : ℝ) ≤ 3 by norm_num)
  have ⟨hl, hu⟩ := sqrt3_bounds
  set M : ℝ := 4 * (2 - √3) with hM
  have hM1 : 1 < M := by rw [hM]; linarith
  have hσ1 : (1 : ℂ) + rootσ ≠ 0 := fun h => by
    have := congrArg Complex.im h
    simp [rootσ] at this
  have hσM : landenM rootσ = (M : ℂ) := by
    rw [landenM, div_eq_iff (pow_ne_zero 2 hσ1), hM]
    apply Complex.ext
    · simp [rootσ, pow_two]
      nlinarith
    · simp [rootσ, pow_two]
      nlinarith
  have hn : ‖rootσ‖ = 1 := by
    have h : Complex.normSq rootσ = 1 := by
      rw [Complex.normSq_apply]
      simp [rootσ]
      nlinarith
    rw [Complex.normSq_eq_norm_sq] at h
    nlinarith [norm_nonneg rootσ]
  -- the limit along the ray
  have tk : Filter.Tendsto (fun x : ℝ => (x : ℂ) * rootσ) (𝓝[<] 1) (𝓝 rootσ) := by
    have : Continuous fun x : ℝ => (x : ℂ) * rootσ := by fun_prop
    exact (this.tendsto' 1 rootσ (by simp)).mono_left nhdsWithin_le_nhds
  have hk : ∀ x ∈ Set.Ioo (0 : ℝ) 1, ‖(x : ℂ) * rootσ‖ < 1 := fun x hx => by
    rw [norm_mul, hn, mul_one, Complex.norm_real, Real.norm_eq_abs, abs_of_pos hx.1]
    exact hx.2
  have cW : ContinuousAt kW (rootσ ^ 2) := (ellipK_deriv rho_mem).continuousAt.pow 2
  have t1 : Filter.Tendsto (fun x : ℝ => (1 + (x : ℂ) * rootσ) ^ 2 * kW (((x : ℂ) * rootσ) ^ 2)) (𝓝[<] 1)
      (𝓝 ((1 + rootσ) ^ 2 * kW (rootσ ^ 2))) :=
    ((tendsto_const_nhds.add tk).pow 2).mul (cW.tendsto.comp (tk.pow 2))
  have tM : Filter.Tendsto (fun x : ℝ => landenM ((x : ℂ) * rootσ)) (𝓝[<] 1) (𝓝 (M : ℂ)) := by
    rw [← hσM]
    exact (hasDerivAt_landenM hσ1).continuousAt.tendsto.comp tk
  have dJ : (M : ℂ) ∈ ellipJDom := by
    rw [ellipJDom, Set.mem_ofPred_eq, ← Complex.ofReal_one, ← Complex.ofReal_sub, Complex.ofReal_mem_slitPlane]
    linarith
  have dK : 1 - (M : ℂ) ∈ ellipDom := one_sub_mem_ellipDom (Complex.ofReal_mem_slitPlane.2 (by linarith))
  have t2 : Filter.Tendsto (fun x : ℝ => (ellipJ (landenM ((x : ℂ) * rootσ))
      + Complex.I * ellipK (1 - landenM ((x : ℂ) * rootσ))) ^ 2) (𝓝[<] 1)
      (𝓝 ((ellipJ M + Complex.I * ellipK (1 - M)) ^ 2)) :=
    (((hasDerivAt_ellipJ dJ).continuousAt.tendsto.comp tM).add (tendsto_const_nhds.mul
      ((ellipK_deriv dK).continuousAt.tendsto.comp (tendsto_const_nhds.sub tM)))).pow 2
  have heq : (1 + rootσ) ^ 2 * kW (rootσ ^ 2) = (ellipJ M + Complex.I * ellipK (1 - M)) ^ 2 := by
    refine tendsto_nhds_unique (t1.congr' ?_) t2
    filter_upwards [Ioo_mem_nhdsLT (show (0 : ℝ) < 1 by norm_num)] with x hx
    rw [landen (hk x hx), kW, ellipK_conn (landen_im (hk x hx) (by simpa [rootσ] using hx.1))]
  -- the values
  have hkm : scKm2 = 1 - 1 / M := by
    rw [scKm2, hM]
    have : 2 - √3 ≠ 0 := by linarith
    field_simp
    nlinarith
  have hMi : 1 / M = 1 - scKm2 := by rw [hkm]; ring
  have hk0 : 0 < scKm2 := by rw [scKm2]; linarith
  have hk1 : scKm2 < 1 := by rw [scKm2]; linarith
  have eJ : ellipJ M = (ellipKR (1 - scKm2) : ℂ) / (√M : ℝ) := by
    rw [ellipJ_ofReal hM1, hMi, ellipK_ofReal (by linarith)]
  have eK : ellipK (1 - M) = (ellipKR scKm2 : ℂ) / (√M : ℝ) := by
    have hd : (scKm2 : ℂ) ∈ ellipDom := by
      rw [ellipDom, Set.mem_ofPred_eq, ← Complex.ofReal_one, ← Complex.ofReal_sub, Complex.ofReal_mem_slitPlane]
      linarith
    have h := ellipK_imag hd
    have e1 : (scKm2 : ℂ) / (scKm2 - 1) = 1 - M := by
      have : (scKm2 - 1 : ℝ) = -(1 / M) := by rw [hkm]; ring
      have e2 : ((scKm2 : ℂ) - 1) = ((-(1 / M) : ℝ) : ℂ) := by rw [← this]; push_cast; rfl
      rw [e2, hkm]
      have hM0 : (M : ℂ) ≠ 0 := by exact_mod_cast (by linarith : M ≠ 0)
      push_cast
      field_simp
      ring
    rw [e1] at h
    rw [h, ellipK_ofReal hk1, show (1 : ℂ) - scKm2 = ((1 / M : ℝ) : ℂ) by rw [hMi]; push_cast; rfl,
      sqrt_ofReal (by positivity), Real.sqrt_div zero_le_one, Real.sqrt_one]
    push_cast
    ring
  rw [eJ, eK, kW, rho_sq] at heq
  have hMs : ((√M : ℝ) : ℂ) ≠ 0 := by exact_mod_cast (Real.sqrt_pos.2 (by linarith)).ne'
  have hMq : ((√M : ℝ) : ℂ) ^ 2 = (M : ℂ) := by exact_mod_cast Real.sq_sqrt (by linarith : (0 : ℝ) ≤ M)
  have h4 : ((1 : ℂ) + rootσ) ^ 2 * M = 4 * rootσ := by
    rw [← hσM, landenM]
    field_simp
  have heq2 : 4 * rootσ ^ 2 * (rhoA : ℂ) = ((ellipKR (1 - scKm2) : ℂ) + Complex.I * (ellipKR scKm2 : ℂ)) ^ 2 := by
    have h5 : ((ellipKR (1 - scKm2) : ℂ) / (√M : ℝ) + Complex.I * ((ellipKR scKm2 : ℂ) / (√M : ℝ))) ^ 2 * M
        = ((ellipKR (1 - scKm2) : ℂ) + Complex.I * (ellipKR scKm2 : ℂ)) ^ 2 := by
      rw [← hMq]
      field_simp
    rw [← h5, ← heq]
    linear_combination -(rootσ * (rhoA : ℂ)) * h4
  have h6 := congrArg Complex.im heq2
  rw [rootσ_sq] at h6
  simp [pow_two] at h6
  linarith

end Gftool.Lemmas
