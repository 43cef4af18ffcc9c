import Verif.Lemmas.EllipConn
import Verif.Lemmas.GreenSeries
import Verif.Lemmas.BzMoments

/-!
# Clausen's formula for the square of the complete elliptic integral
-/

namespace Gftool.Lemmas

open Gftool Spec MeasureTheory Filter Topology

/-- Derivative of the complete elliptic integral. -/
noncomputable def ellipK' : ℂ → ℂ := radInt 1 0 0 (-1) (wt1 0 (-1)) 3

/-- Second derivative of the complete elliptic integral. -/
noncomputable def ellipK'' : ℂ → ℂ := radInt 1 0 0 (-1) (wt2 0 (-1)) 5

lemma ellipK_deriv {m : ℂ} (hm : m ∈ ellipDom) : HasDerivAt ellipK (ellipK' m) m := hasDerivAt_ellipK hm

lemma ellipK'_deriv {m : ℂ} (hm : m ∈ ellipDom) : HasDerivAt ellipK' (ellipK'' m) m :=
  hasDerivAt_radInt isOpen_ellipDom (fun m hm => rad_K_mem hm) (continuous_wt1 0 (-1)) 3 hm

lemma ellipK_second {m : ℂ} (hm : m ∈ ellipDom) :
    m * (1 - m) * ellipK'' m + (1 - 2 * m) * ellipK' m - ellipK m / 4 = 0 := ellipK_ode hm

/-- The quadratic forms of the elliptic integral and its derivative. -/
noncomputable def kW (m : ℂ) : ℂ := ellipK m ^ 2

@[inherit_doc kW]
noncomputable def kS (m : ℂ) : ℂ := m * (1 - m) * (ellipK m * ellipK' m)

@[inherit_doc kW]
noncomputable def kQ (m : ℂ) : ℂ := (m * (1 - m) * ellipK' m) ^ 2

lemma hasDerivAt_kW {m : ℂ} (hm : m ∈ ellipDom) (h0 : m * (1 - m) ≠ 0) :
    HasDerivAt kW (2 * (kS m / (m * (1 - m)))) m := by
  refine ((ellipK_deriv hm).pow 2).congr_deriv ?_
  unfold kS
  rw [mul_div_cancel_left₀ _ h0]
  norm_num
  ring

private lemma hasDerivAt_p (m : ℂ) : HasDerivAt (fun m : ℂ => m * (1 - m)) (1 - 2 * m) m := by
  refine ((hasDerivAt_id m).mul ((hasDerivAt_const m (1 : ℂ)).sub (hasDerivAt_id m))).congr_deriv ?_
  simp only [id, Pi.sub_apply]
  ring

lemma hasDerivAt_pK {m : ℂ} (hm : m ∈ ellipDom) :
    HasDerivAt (fun m => m * (1 - m) * ellipK' m) (ellipK m / 4) m := by
  refine ((hasDerivAt_p m).mul (ellipK'_deriv hm)).congr_deriv ?_
  have := ellipK_second hm
  linear_combination this

lemma hasDerivAt_kS {m : ℂ} (hm : m ∈ ellipDom) (h0 : m * (1 - m) ≠ 0) :
    HasDerivAt kS (kW m / 4 + kQ m / (m * (1 - m))) m := by
  have h := (ellipK_deriv hm).mul (hasDerivAt_pK hm)
  have e : kS = fun m => ellipK m * (m * (1 - m) * ellipK' m) := by
    funext m
    unfold kS
    ring
  rw [e]
  refine h.congr_deriv ?_
  unfold kW kQ
  field_simp
  ring

lemma hasDerivAt_kQ {m : ℂ} (hm : m ∈ ellipDom) : HasDerivAt kQ (kS m / 2) m := by
  refine ((hasDerivAt_pK hm).pow 2).congr_deriv ?_
  unfold kS
  norm_num
  ring

lemma ellipK_zero : ellipK 0 = Real.pi / 2 := by
  unfold ellipK
  simp

lemma kW_zero : kW 0 = (Real.pi / 2) ^ 2 := by rw [kW, ellipK_zero]
lemma kS_zero : kS 0 = 0 := by simp [kS]
lemma kQ_zero : kQ 0 = 0 := by simp [kQ]

/-- Uniqueness of the regular solution of the system fulfilled by the square of the elliptic integral,
along a curve `μ` of parameters. -/
lemma eq_kW_of_system {w s q : ℝ → ℂ} {μ μ' : ℝ → ℂ} {R A B : ℝ} (hR : 0 < R) (hA : 0 ≤ A) (hB : 0 ≤ B)
    (hw : ContinuousOn w (Set.Icc 0 R)) (hs : ContinuousOn s (Set.Icc 0 R)) (hq : ContinuousOn q (Set.Icc 0 R))
    (hw0 : w 0 = 1) (hs0 : s 0 = 0) (hq0 : q 0 = 0)
    (hμc : ContinuousOn μ (Set.Icc 0 R)) (hμ0 : μ 0 = 0) (hμdom : ∀ x ∈ Set.Icc 0 R, μ x ∈ ellipDom)
    (hμne : ∀ x ∈ Set.Ioo 0 R, μ x * (1 - μ x) ≠ 0)
    (hμ : ∀ x ∈ Set.Ioo 0 R, HasDerivAt μ (μ' x) x)
    (hα : ∀ x ∈ Set.Ioo 0 R, ‖μ' x / (μ x * (1 - μ x))‖ ≤ A / x) (hβ : ∀ x ∈ Set.Ioo 0 R, ‖μ' x‖ ≤ B)
    (hw' : ∀ x ∈ Set.Ioo 0 R, HasDerivAt w (2 * (μ' x / (μ x * (1 - μ x))) * s x) x)
    (hs' : ∀ x ∈ Set.Ioo 0 R, HasDerivAt s (μ' x * w x / 4 + μ' x / (μ x * (1 - μ x)) * q x) x)
    (hq' : ∀ x ∈ Set.Ioo 0 R, HasDerivAt q (μ' x * s x / 2) x) :
    ∃ r, 0 < r ∧ r ≤ R ∧ ∀ x ∈ Set.Ioo 0 r, w x = (2 / Real.pi * ellipK (μ x)) ^ 2 := by
  have hpi : (Real.pi : ℂ) ≠ 0 := by exact_mod_cast Real.pi_ne_zero
  set c : ℂ := (2 / Real.pi) ^ 2 with hc
  have contK : ∀ x ∈ Set.Icc 0 R, ContinuousAt ellipK (μ x) := fun x hx => (ellipK_deriv (hμdom x hx)).continuousAt
  have contK' : ∀ x ∈ Set.Icc 0 R, ContinuousAt ellipK' (μ x) := fun x hx => (ellipK'_deriv (hμdom x hx)).continuousAt
  have cK : ContinuousOn (fun x => ellipK (μ x)) (Set.Icc 0 R) :=
    fun x hx => ContinuousAt.comp_continuousWithinAt (contK x hx) (hμc x hx)
  have cK' : ContinuousOn (fun x => ellipK' (μ x)) (Set.Icc 0 R) :=
    fun x hx => ContinuousAt.comp_continuousWithinAt (contK' x hx) (hμc x hx)
  have cW : ContinuousOn (fun x => kW (μ x)) (Set.Icc 0 R) := cK.pow 2
  have cS : ContinuousOn (fun x => kS (μ x)) (Set.Icc 0 R) :=
    (hμc.mul (continuousOn_const.sub hμc)).mul (cK.mul cK')
  have cQ : ContinuousOn (fun x => kQ (μ x)) (Set.Icc 0 R) :=
    ((hμc.mul (continuousOn_const.sub hμc)).mul cK').pow 2
  obtain ⟨r, hr0, hrR, hr⟩ := system_zero (w := fun x => w x - c * kW (μ x)) (s := fun x => s x - c * kS (μ x))
    (q := fun x => q x - c * kQ (μ x)) (α := fun x => μ' x / (μ x * (1 - μ x))) (β := μ') hR hA hB
    (hw.sub (continuousOn_const.mul cW)) (hs.sub (continuousOn_const.mul cS)) (hq.sub (continuousOn_const.mul cQ))
    (by rw [hw0, hμ0, kW_zero, hc]; field_simp; norm_num) (by rw [hs0, hμ0, kS_zero]; simp) (by rw [hq0, hμ0, kQ_zero]; simp)
    hα hβ
    (fun x hx => by
      have h := (hasDerivAt_kW (hμdom x ⟨hx.1.le, hx.2.le⟩) (hμne x hx)).scomp_of_eq x (hμ x hx) rfl
      refine ((hw' x hx).sub (HasDerivAt.const_mul c h)).congr_deriv ?_
      simp only [smul_eq_mul]
      have := hμne x hx
      field_simp
      )
    (fun x hx => by
      have h := (hasDerivAt_kS (hμdom x ⟨hx.1.le, hx.2.le⟩) (hμne x hx)).scomp_of_eq x (hμ x hx) rfl
      refine ((hs' x hx).sub (HasDerivAt.const_mul c h)).congr_deriv ?_
      simp only [smul_eq_mul]
      ring)
    (fun x hx => by
      have h := (hasDerivAt_kQ (hμdom x ⟨hx.1.le, hx.2.le⟩)).scomp_of_eq x (hμ x hx) rfl
      refine ((hq' x hx).sub (HasDerivAt.const_mul c h)).congr_deriv ?_
      simp only [smul_eq_mul]
      ring)
  refine ⟨r, hr0, hrR, fun x hx => ?_⟩
  have := sub_eq_zero.1 (hr x hx)
  rw [this, hc, kW]
  ring

/-! ## The series -/

/-- Coefficients `(binom(2n, n)/4^n)³`. -/
noncomputable def clausenCoeff (n : ℕ) : ℝ := (bccM (2 * n) : ℝ)

lemma arcsineMoment_nonneg (m : ℕ) : 0 ≤ arcsineMoment m := by
  unfold arcsineMoment
  split_ifs
  · positivity
  · exact le_rfl

lemma arcsineMoment_le_one (m : ℕ) : arcsineMoment m ≤ 1 := by
  induction m using Nat.twoStepInduction with
  | zero => simp [arcsineMoment_zero]
  | one => simp [arcsineMoment_one]
  | more m ih _ =>
    rw [arcsineMoment_step]
    have h1 : ((m : ℚ) + 1) / (m + 2) ≤ 1 := by rw [div_le_one (by positivity)]; linarith
    exact mul_le_one₀ h1 (arcsineMoment_nonneg m) ih

lemma clausenCoeff_bound (n : ℕ) : |clausenCoeff n| ≤ 1 := by
  unfold clausenCoeff bccM
  rw [abs_of_nonneg (by exact_mod_cast pow_nonneg (arcsineMoment_nonneg _) 3)]
  exact_mod_cast pow_le_one₀ (arcsineMoment_nonneg _) (arcsineMoment_le_one _)

lemma clausenCoeff_step (n : ℕ) :
    clausenCoeff (n + 1) * ((n : ℝ) + 1) ^ 3 = clausenCoeff n * ((n : ℝ) + 1 / 2) ^ 3 := by
  unfold clausenCoeff bccM
  rw [show 2 * (n + 1) = 2 * n + 2 by ring, arcsineMoment_step]
  push_cast
  have : (n : ℝ) + 1 ≠ 0 := by positivity
  have h2 : 2 * (n : ℝ) + 2 ≠ 0 := by positivity
  field_simp

/-- The differential equation of the series. -/
lemma clausen_ode {x : ℝ} (hx : |x| < 1) :
    (1 - x) * dser clausenCoeff 3 x = x * (3 / 2 * dser clausenCoeff 2 x + 3 / 4 * dser clausenCoeff 1 x
      + 1 / 8 * dser clausenCoeff 0 x) := by
  have hs := fun j => summable_dser clausenCoeff_bound j hx
  have h := dser_shift clausenCoeff_bound 2 hx
  simp only [Nat.reduceAdd, clausenCoeff_step] at h
  have h2 : ∑' n : ℕ, clausenCoeff n * ((n : ℝ) + 1 / 2) ^ 3 * x ^ n
      = dser clausenCoeff 3 x + 3 / 2 * dser clausenCoeff 2 x + 3 / 4 * dser clausenCoeff 1 x
        + 1 / 8 * dser clausenCoeff 0 x := by
    unfold dser
    rw [← tsum_mul_left, ← tsum_mul_left, ← tsum_mul_left, ← (hs 3).tsum_add ((hs 2).mul_left _),
      ← ((hs 3).add ((hs 2).mul_left _)).tsum_add ((hs 1).mul_left _),
      ← (((hs 3).add ((hs 2).mul_left _)).add ((hs 1).mul_left _)).tsum_add ((hs 0).mul_left _)]
    congr 1
    funext n
    ring
  rw [h2] at h
  linarith

/-- Clausen's formula. -/
lemma clausen : ∃ r : ℝ, 0 < r ∧ ∀ m ∈ Set.Ioo 0 r,
    ((dser clausenCoeff 0 (4 * (m * (1 - m))) : ℝ) : ℂ) = (2 / Real.pi * ellipK m) ^ 2 := by
  set p : ℝ → ℝ := fun m => m * (1 - m) with hp
  have hx : ∀ m ∈ Set.Icc (0 : ℝ) (1 / 16), |4 * p m| < 1 := by
    intro m hm
    rw [abs_lt, hp]
    constructor <;> nlinarith [hm.1, hm.2]
  have hp0 : ∀ m ∈ Set.Ioo (0 : ℝ) (1 / 16), 0 < p m := by
    intro m hm
    rw [hp]
    have : 0 < 1 - m := by linarith [hm.2]
    exact mul_pos hm.1 this
  have hpd : ∀ m : ℝ, HasDerivAt p (1 - 2 * m) m := fun m => by
    refine ((hasDerivAt_id m).mul ((hasDerivAt_const m (1 : ℝ)).sub (hasDerivAt_id m))).congr_deriv ?_
    simp only [id, Pi.sub_apply]
    ring
  set F : ℕ → ℝ → ℝ := fun j m => dser clausenCoeff j (4 * p m) with hF
  have hFd : ∀ j, ∀ m ∈ Set.Ioo (0 : ℝ) (1 / 16), HasDerivAt (F j) (F (j + 1) m * ((1 - 2 * m) / p m)) m := by
    intro j m hm
    have h4 : 4 * p m ≠ 0 := by have := hp0 m hm; positivity
    have h := (hasDerivAt_dser clausenCoeff_bound j h4 (hx m ⟨hm.1.le, hm.2.le⟩)).comp m ((hpd m).const_mul 4)
    refine h.congr_deriv ?_
    have := (hp0 m hm).ne'
    simp only [hF]
    field_simp
  have hFc : ∀ j, ContinuousOn (F j) (Set.Icc 0 (1 / 16)) := fun j m hm => by
    have h := continuousAt_dser clausenCoeff_bound j (hx m hm)
    have h2 : ContinuousAt (fun m => 4 * p m) m := ((hpd m).const_mul 4).continuousAt
    exact (ContinuousAt.comp (f := fun m => 4 * p m) h h2).continuousWithinAt
  have hpc : Continuous p := continuous_iff_continuousAt.2 fun m => (hpd m).continuousAt
  have hp00 : p 0 = 0 := by simp [hp]
  -- the solution of the system
  set S : ℝ → ℝ := fun m => (1 - 2 * m) * F 1 m / 2 with hS
  set Q : ℝ → ℝ := fun m => -p m * F 1 m + (1 - 4 * p m) * F 2 m / 2 - p m * F 0 m / 4 with hQ
  have hSd : ∀ m ∈ Set.Ioo (0 : ℝ) (1 / 16), HasDerivAt S (F 0 m / 4 + Q m / p m) m := by
    intro m hm
    have h1 : HasDerivAt (fun m : ℝ => 1 - 2 * m) (-2) m := by
      simpa using ((hasDerivAt_id m).const_mul 2).const_sub 1
    have h := (h1.mul (hFd 1 m hm)).div_const 2
    refine h.congr_deriv ?_
    have hne := (hp0 m hm).ne'
    have hsq : (1 - 2 * m) ^ 2 = 1 - 4 * p m := by simp only [hp]; ring
    have hQm : Q m = -p m * F 1 m + (1 - 2 * m) ^ 2 * F 2 m / 2 - p m * F 0 m / 4 := by rw [hsq]
    rw [hQm]
    clear_value p F
    field_simp
    ring
  have hQd : ∀ m ∈ Set.Ioo (0 : ℝ) (1 / 16), HasDerivAt Q (S m / 2) m := by
    intro m hm
    have d0 := hFd 0 m hm
    have d1 := hFd 1 m hm
    have d2 := hFd 2 m hm
    have dp := hpd m
    have h := ((dp.neg.mul d1).add ((((dp.const_mul 4).const_sub 1).mul d2).div_const 2)).sub ((dp.mul d0).div_const 4)
    refine h.congr_deriv ?_
    have hne := (hp0 m hm).ne'
    have hode := clausen_ode (hx m ⟨hm.1.le, hm.2.le⟩)
    have h3 : (1 - 4 * p m) * F 3 m = 4 * p m * (3 / 2 * F 2 m + 3 / 4 * F 1 m + 1 / 8 * F 0 m) := hode
    have h3' : (1 - 4 * p m) * (F 3 m * ((1 - 2 * m) / p m))
        = (1 - 2 * m) * (4 * (3 / 2 * F 2 m + 3 / 4 * F 1 m + 1 / 8 * F 0 m)) := by
      rw [← mul_assoc, h3]
      field_simp
    simp only [hS, Nat.reduceAdd]
    have e1 : -p m * (F 2 m * ((1 - 2 * m) / p m)) = -(1 - 2 * m) * F 2 m := by field_simp
    have e0 : p m * (F 1 m * ((1 - 2 * m) / p m)) = (1 - 2 * m) * F 1 m := by field_simp
    have e1' : (-p m) * (F 2 m * ((1 - 2 * m) / p m)) = -(1 - 2 * m) * F 2 m := by field_simp
    simp only [Pi.neg_apply]
    linear_combination h3' / 2 + e1 - e0 / 4
  have hSc : ContinuousOn S (Set.Icc 0 (1 / 16)) := by
    rw [hS]
    exact (ContinuousOn.mul (by fun_prop) (hFc 1)).div_const 2
  have hQc : ContinuousOn Q (Set.Icc 0 (1 / 16)) := by
    rw [hQ]
    have hpn := hpc.continuousOn (s := Set.Icc (0 : ℝ) (1 / 16))
    exact ((hpn.neg.mul (hFc 1)).add (((continuousOn_const.sub (continuousOn_const.mul hpn)).mul (hFc 2)).div_const 2)).sub
      ((hpn.mul (hFc 0)).div_const 4)
  have hF0 : F 0 0 = 1 := by
    simp only [hF, hp00, mul_zero, dser_zero]
    simp [clausenCoeff, bccM, arcsineMoment_zero]
  have hFj : ∀ j, F (j + 1) 0 = 0 := fun j => by simp only [hF, hp00, mul_zero, dser_succ_zero]
  have hcont : Continuous fun x : ℝ => (x : ℂ) := Complex.continuous_ofReal
  obtain ⟨r, hr0, hrR, hr⟩ := eq_kW_of_system (w := fun m => (F 0 m : ℂ)) (s := fun m => (S m : ℂ)) (q := fun m => (Q m : ℂ))
    (μ := fun m => (m : ℂ)) (μ' := fun _ => 1) (R := 1 / 16) (A := 2) (B := 1) (by norm_num) (by norm_num) (by norm_num)
    (hcont.comp_continuousOn (hFc 0)) (hcont.comp_continuousOn hSc) (hcont.comp_continuousOn hQc)
    (by rw [hF0]; simp) (by simp [hS, hFj 0]) (by simp [hQ, hFj 0, hFj 1, hp00])
    hcont.continuousOn (by simp)
    (fun x hx => by
      simp only [ellipDom, Set.mem_ofPred_eq]
      rw [← Complex.ofReal_one, ← Complex.ofReal_sub, Complex.ofReal_mem_slitPlane]
      linarith [hx.2])
    (fun x hx => by
      have := (hp0 x hx).ne'
      rw [hp] at this
      exact_mod_cast this)
    (fun x hx => Complex.ofRealCLM.hasDerivAt)
    (fun x hx => by
      have h0 := hp0 x hx
      have e : (1 : ℂ) / ((x : ℂ) * (1 - x)) = ((1 / p x : ℝ) : ℂ) := by simp only [hp]; push_cast; rfl
      rw [e, Complex.norm_real, Real.norm_eq_abs, abs_of_pos (by positivity), div_le_div_iff₀ h0 hx.1]
      simp only [hp]
      nlinarith [hx.1, hx.2])
    (fun x hx => by simp)
    (fun x hx => by
      refine (hFd 0 x hx).ofReal_comp.congr_deriv ?_
      have h0 := (hp0 x hx).ne'
      have e : (1 : ℂ) / ((x : ℂ) * (1 - x)) = ((1 / p x : ℝ) : ℂ) := by simp only [hp]; push_cast; rfl
      rw [e]
      simp only [hS]
      push_cast
      ring)
    (fun x hx => by
      refine (hSd x hx).ofReal_comp.congr_deriv ?_
      have e : (1 : ℂ) / ((x : ℂ) * (1 - x)) = ((1 / p x : ℝ) : ℂ) := by simp only [hp]; push_cast; rfl
      rw [e]
      push_cast
      ring)
    (fun x hx => by
      refine (hQd x hx).ofReal_comp.congr_deriv ?_
      push_cast
      ring)
  exact ⟨r, hr0, hr⟩

end Gftool.Lemmas
