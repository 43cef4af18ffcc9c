import Verif.Lemmas.EllipConn

/-!
# The elliptic modulus of the triangular lattice
-/

namespace Gftool.Lemmas

open Gftool Spec

open scoped Topology

/-- Prefactor as function of `r = √(2z+3)`. -/
noncomputable def triG (r : ℂ) : ℂ := 4 / (Complex.sqrt (r - 1) ^ 3 * Complex.sqrt (r + 3))

/-- Modulus as function of `r = √(2z+3)`. -/
noncomputable def triK (r : ℂ) : ℂ := Complex.sqrt r * triG r

lemma triK_sq (r : ℂ) : triK r ^ 2 = 16 * r / ((r - 1) ^ 3 * (r + 3)) := by
  unfold triK triG
  rw [mul_pow, sqrt_sq', div_pow, mul_pow, sqrt_sq', ← pow_mul, mul_comm 3 2, pow_mul, sqrt_sq']
  ring

/-- For fixed imaginary part the argument decreases with the real part. -/
lemma arg_anti {x y : ℂ} (him : x.im = y.im) (h0 : 0 < x.im) (hre : x.re ≤ y.re) : y.arg ≤ x.arg := by
  have hx : x ≠ 0 := fun h => by simp [h] at h0
  have hy : y ≠ 0 := fun h => by rw [him, h] at h0; simp at h0
  rw [Complex.arg_of_im_nonneg_of_ne_zero (him ▸ h0.le) hy, Complex.arg_of_im_nonneg_of_ne_zero h0.le hx]
  apply Real.arccos_le_arccos
  have nx := norm_pos_iff.2 hx
  have ny := norm_pos_iff.2 hy
  rw [div_le_div_iff₀ nx ny]
  have sx : ‖x‖ ^ 2 = x.re ^ 2 + x.im ^ 2 := by rw [← Complex.normSq_eq_norm_sq, Complex.normSq_apply]; ring
  have sy : ‖y‖ ^ 2 = y.re ^ 2 + x.im ^ 2 := by rw [← Complex.normSq_eq_norm_sq, Complex.normSq_apply, him]; ring
  rcases le_or_gt 0 x.re with h | h
  · have hb : 0 ≤ y.re := h.trans hre
    apply le_of_sq_le_sq _ (by positivity)
    rw [mul_pow, mul_pow, sx, sy]
    have : x.re ^ 2 ≤ y.re ^ 2 := pow_le_pow_left₀ h hre 2
    nlinarith [sq_nonneg x.im]
  · rcases le_or_gt 0 y.re with h' | h'
    · exact (mul_nonpos_of_nonpos_of_nonneg h.le ny.le).trans (mul_nonneg h' nx.le)
    · have key : (-y.re) * ‖x‖ ≤ (-x.re) * ‖y‖ := by
        apply le_of_sq_le_sq _ (mul_nonneg (by linarith) ny.le)
        rw [mul_pow, mul_pow, sx, sy]
        have : (-y.re) ^ 2 ≤ (-x.re) ^ 2 := pow_le_pow_left₀ (by linarith) (by linarith) 2
        nlinarith [sq_nonneg x.im]
      linarith

lemma sqrt_eq_exp {x : ℂ} (hx : x ≠ 0) : Complex.sqrt x = Complex.exp (Complex.log x / 2) := by
  unfold Complex.sqrt
  rw [Complex.cpow_def_of_ne_zero hx]
  congr 1

/-- The modulus never lies in the closed first quadrant. -/
lemma triK_quadrant {r : ℂ} (hi : 0 < r.im) (hk : 0 ≤ (triK r).im) : (triK r).re < 0 := by
  have hpi := Real.pi_pos
  have i1 : (r - 1).im = r.im := by simp
  have i3 : (r + 3).im = r.im := by simp
  have h0 : r ≠ 0 := fun h => by simp [h] at hi
  have h1 : r - 1 ≠ 0 := fun h => by rw [h] at i1; simp at i1; linarith
  have h3 : r + 3 ≠ 0 := fun h => by rw [h] at i3; simp at i3; linarith
  have a1 : r.arg ≤ (r - 1).arg := arg_anti i1 (by rwa [i1]) (by simp)
  have a3 : (r + 3).arg ≤ r.arg := arg_anti i3.symm hi (by simp)
  have b1 : (r - 1).arg < Real.pi := lt_of_le_of_ne (Complex.arg_le_pi _) fun h => by
    rw [Complex.arg_eq_pi_iff] at h
    linarith [h.2]
  have b3 : 0 < (r + 3).arg := by
    have := Complex.arg_nonneg_iff.2 (by rw [i3]; exact hi.le : 0 ≤ (r + 3).im)
    refine lt_of_le_of_ne this fun h => ?_
    have := Complex.arg_eq_zero_iff.1 h.symm
    linarith [this.2]
  set L := Complex.log r / 2 - 3 * (Complex.log (r - 1) / 2) - Complex.log (r + 3) / 2 with hL
  have hform : triK r = 4 * Complex.exp L := by
    unfold triK triG
    rw [sqrt_eq_exp h0, sqrt_eq_exp h1, sqrt_eq_exp h3, hL, Complex.exp_sub, Complex.exp_sub]
    rw [show (3 : ℂ) * (Complex.log (r - 1) / 2) = ((3 : ℕ) : ℂ) * (Complex.log (r - 1) / 2) by push_cast; rfl,
      Complex.exp_nat_mul]
    have e1 := Complex.exp_ne_zero (Complex.log (r - 1) / 2)
    have e3 := Complex.exp_ne_zero (Complex.log (r + 3) / 2)
    field_simp
  have hLi : L.im = r.arg / 2 - 3 * ((r - 1).arg / 2) - (r + 3).arg / 2 := by
    rw [hL]
    simp [Complex.log_im]
  have hre : (triK r).re = 4 * (Real.exp L.re * Real.cos L.im) := by
    rw [hform, Complex.mul_re, Complex.exp_re]
    simp
  have him : (triK r).im = 4 * (Real.exp L.re * Real.sin L.im) := by
    rw [hform, Complex.mul_im, Complex.exp_im]
    simp
  rw [him] at hk
  rw [hre]
  have hE := Real.exp_pos L.re
  have hs : 0 ≤ Real.sin L.im := by
    by_contra hc
    push Not at hc
    nlinarith [mul_neg_of_pos_of_neg hE hc]
  have hl1 : -(3 * Real.pi / 2) < L.im := by rw [hLi]; linarith
  have hl2 : L.im < 0 := by rw [hLi]; linarith
  have hc : Real.cos L.im < 0 := by
    have hle : L.im ≤ -Real.pi := by
      by_contra hc
      push Not at hc
      have := Real.sin_neg_of_neg_of_neg_pi_lt hl2 hc
      linarith
    have := Real.cos_pos_of_mem_Ioo (x := L.im + Real.pi) ⟨by linarith, by linarith⟩
    rw [Real.cos_add_pi] at this
    linarith
  nlinarith [mul_neg_of_pos_of_neg hE hc]

/-- Where the modulus is real, the parameter is at least two. -/
lemma triK_real {r : ℂ} (h0 : 0 ≤ r.re) (hi : 0 < r.im) (hk : (triK r).im = 0) : 2 ≤ (triK r).re ^ 2 := by
  have i1 : (r - 1).im = r.im := by simp
  have i3 : (r + 3).im = r.im := by simp
  have h1 : r - 1 ≠ 0 := fun h => by rw [h] at i1; simp at i1; linarith
  have h3 : r + 3 ≠ 0 := fun h => by rw [h] at i3; simp at i3; linarith
  have hneg := triK_quadrant hi hk.ge
  set m : ℝ := (triK r).re ^ 2 with hm
  have hm0 : 0 < m := by rw [hm]; nlinarith
  have hsq := triK_sq r
  have hkr : triK r = ((triK r).re : ℂ) := by apply Complex.ext <;> simp [hk]
  rw [hkr, ← Complex.ofReal_pow, ← hm, eq_div_iff (mul_ne_zero (pow_ne_zero 3 h1) h3)] at hsq
  by_contra hlt
  push Not at hlt
  obtain ⟨p, q⟩ := r
  simp only at h0 hi
  have e1 := congrArg Complex.re hsq
  have e2 := congrArg Complex.im hsq
  have hexp : ((⟨p, q⟩ : ℂ) - 1) ^ 3 * (⟨p, q⟩ + 3) = ⟨p ^ 4 - 6 * p ^ 2 * q ^ 2 + q ^ 4 - 6 * (p ^ 2 - q ^ 2) + 8 * p - 3,
      4 * p ^ 3 * q - 4 * p * q ^ 3 - 12 * p * q + 8 * q⟩ := by
    have : (⟨p, q⟩ : ℂ) = p + q * Complex.I := by apply Complex.ext <;> simp
    rw [this]
    apply Complex.ext
    · simp [pow_succ]
      ring
    · simp [pow_succ]
      ring
  rw [hexp] at e1 e2
  simp at e1 e2
  have hq2 : 0 < q ^ 2 := by positivity
  -- imaginary part
  have e3 : m * (4 * p ^ 3 - 4 * p * q ^ 2 - 12 * p + 8) = 16 := by
    have : q * (m * (4 * p ^ 3 - 4 * p * q ^ 2 - 12 * p + 8)) = q * 16 := by linarith
    exact mul_left_cancel₀ hi.ne' this
  rcases eq_or_lt_of_le h0 with hp | hp
  · rw [← hp] at e3
    nlinarith
  · -- `w = c/(4p)` with `c = 16/m - 8`
    set w := p ^ 2 - 3 - q ^ 2 with hw
    have e4 : m * (4 * p * w + 8) = 16 := by rw [← e3, hw]; ring
    have hw0 : 0 < w := by
      by_contra hc
      push Not at hc
      have : m * (4 * p * w) ≤ 0 := mul_nonpos_of_nonneg_of_nonpos hm0.le (mul_nonpos_of_nonneg_of_nonpos (by positivity) hc)
      nlinarith
    have e5 : w ^ 2 = 4 * (p ^ 4 - 3 * p ^ 2 + 3) := by
      have hq : q ^ 2 = p ^ 2 - 3 - w := by rw [hw]; ring
      have hq4 : q ^ 4 = (p ^ 2 - 3 - w) ^ 2 := by rw [← hq]; ring
      rw [hq4, hq] at e1
      have : m * (-4 * p ^ 4 + 12 * p ^ 2 + w ^ 2 - 12) = 0 := by linear_combination e1 - p * e4
      rcases mul_eq_zero.1 this with h | h
      · exact absurd h hm0.ne'
      · linarith
    have e6 : w < p ^ 2 - 3 := by rw [hw]; linarith
    nlinarith [sq_nonneg (p ^ 2 - 1)]

/-- Parameters with non-real modulus lie in the domain of the elliptic integral. -/
lemma sq_mem_ellipDom {k : ℂ} (hk : k.im ≠ 0) : k ^ 2 ∈ ellipDom := by
  rw [ellipDom, Set.mem_ofPred_eq, Complex.mem_slitPlane_iff]
  rw [pow_two, Complex.sub_re, Complex.sub_im, Complex.mul_re, Complex.mul_im]
  simp only [Complex.one_re, Complex.one_im, zero_sub, neg_ne_zero]
  by_cases hr : k.re = 0
  · left
    rw [hr]
    nlinarith [sq_nonneg k.im]
  · right
    have : k.re * k.im + k.im * k.re = 2 * (k.re * k.im) := by ring
    rw [this]
    exact mul_ne_zero two_ne_zero (mul_ne_zero hr hk)

lemma im_sq (k : ℂ) : (k ^ 2).im = 2 * (k.re * k.im) := by
  rw [pow_two, Complex.mul_im]
  ring

/-- The elliptic integral continued across the cut. -/
noncomputable def triKK (k : ℂ) : ℂ :=
  if k.im < 0 then ellipK (k ^ 2)
  else if k.im = 0 then ellipJ (k ^ 2) + Complex.I * ellipK (1 - k ^ 2)
  else ellipK (k ^ 2) + 2 * Complex.I * ellipK (1 - k ^ 2)

lemma triKK_eq {k : ℂ} (hk : k.re < 0) : triKK k = ellipJ (k ^ 2) + Complex.I * ellipK (1 - k ^ 2) := by
  unfold triKK
  split_ifs with h1 h2
  · exact ellipK_conn (by rw [im_sq]; nlinarith)
  · rfl
  · have h3 : 0 < k.im := lt_of_le_of_ne (not_lt.1 h1) (Ne.symm h2)
    rw [ellipK_conn' (by rw [im_sq]; nlinarith)]
    ring

/-- The continued elliptic integral is holomorphic where the modulus of the triangular lattice lies. -/
lemma differentiableAt_triKK {k : ℂ} (h1 : 0 ≤ k.im → k.re < 0) (h2 : k.im = 0 → 1 < k.re ^ 2) :
    DifferentiableAt ℂ triKK k := by
  have dsq : DifferentiableAt ℂ (fun k : ℂ => k ^ 2) k := by fun_prop
  rcases lt_or_ge k.im 0 with hk | hk
  · have hev : triKK =ᶠ[𝓝 k] fun k => ellipK (k ^ 2) := by
      filter_upwards [(isOpen_lt Complex.continuous_im continuous_const).mem_nhds hk] with x hx
      exact if_pos hx
    refine DifferentiableAt.congr_of_eventuallyEq ?_ hev
    exact DifferentiableAt.comp (g := ellipK) k (hasDerivAt_ellipK (sq_mem_ellipDom hk.ne)).differentiableAt dsq
  · have hre := h1 hk
    have hev : triKK =ᶠ[𝓝 k] fun k => ellipJ (k ^ 2) + Complex.I * ellipK (1 - k ^ 2) := by
      filter_upwards [(isOpen_lt Complex.continuous_re continuous_const).mem_nhds hre] with x hx
      exact triKK_eq hx
    refine DifferentiableAt.congr_of_eventuallyEq ?_ hev
    have hJ : k ^ 2 ∈ ellipJDom := by
      rcases eq_or_lt_of_le hk with h | h
      · rw [ellipJDom, Set.mem_ofPred_eq, Complex.mem_slitPlane_iff]
        left
        have := h2 h.symm
        rw [pow_two, Complex.sub_re, Complex.mul_re, ← h, Complex.one_re]
        nlinarith
      · exact mem_ellipJDom_of_im (by rw [im_sq]; nlinarith)
    have hK : 1 - k ^ 2 ∈ ellipDom := by
      apply one_sub_mem_ellipDom
      have := slit_seg_J hJ (s := 0) ⟨le_rfl, zero_le_one⟩
      simpa using this
    have d1 : DifferentiableAt ℂ (fun k : ℂ => ellipJ (k ^ 2)) k :=
      DifferentiableAt.comp (g := ellipJ) k (hasDerivAt_ellipJ hJ).differentiableAt dsq
    have d2 : DifferentiableAt ℂ (fun k : ℂ => ellipK (1 - k ^ 2)) k :=
      DifferentiableAt.comp (g := ellipK) k (hasDerivAt_ellipK hK).differentiableAt (dsq.const_sub 1)
    exact d1.add (d2.const_mul _)

end Gftool.Lemmas
