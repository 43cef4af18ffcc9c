import Verif.Model.Float
import Verif.Lemmas.FloatRel
import Verif.Spec.Statistics
import Mathlib.Analysis.Complex.ExponentialBounds
import Mathlib.Analysis.Real.Pi.Bounds

/-!
# C84: Rounding errors
-/

namespace Gftool.Props

open Gftool Model Spec Lemmas

variable (A : FloatArith)

/-! ## Fermi function -/

lemma float_neg {p : ℕ} {kmin : ℤ} {x : ℝ} (h : IsFloat p kmin x) : IsFloat p kmin (-x) := by
  obtain ⟨m, k, hk', hm, e⟩ := h
  exact ⟨-m, k, hk', by rwa [abs_neg], by rw [e]; push_cast; ring⟩

/-- Change of the argument. -/
lemma expit_perturb {x y d : ℝ} (h : |y - x| ≤ d) :
    |expit y - expit x| ≤ (Real.exp d - 1) * (expit x * (1 - expit x)) := by
  have hd : 0 ≤ d := (abs_nonneg _).trans h
  obtain ⟨h1, h2⟩ := abs_le.1 h
  set a := Real.exp (-x) with ha
  set b := Real.exp (-y) with hb
  have ha0 : 0 < a := Real.exp_pos _
  have hb0 : 0 < b := Real.exp_pos _
  have hab : a ≤ Real.exp d * b := by
    rw [ha, hb, ← Real.exp_add]
    exact Real.exp_le_exp.2 (by linarith)
  have hba : b ≤ Real.exp d * a := by
    rw [ha, hb, ← Real.exp_add]
    exact Real.exp_le_exp.2 (by linarith)
  have hE : 1 ≤ Real.exp d := Real.one_le_exp hd
  have e1 : expit x * (1 - expit x) = a / (1 + a) ^ 2 := by
    unfold expit
    rw [← ha]
    field_simp
    ring
  have e2 : expit y - expit x = (a - b) / ((1 + b) * (1 + a)) := by
    unfold expit
    rw [← ha, ← hb]
    field_simp
    ring
  rw [e1, e2, abs_div, abs_of_pos (by positivity : 0 < (1 + b) * (1 + a)), mul_div_assoc',
    div_le_div_iff₀ (by positivity) (by positivity)]
  have key : |a - b| * (1 + a) ≤ (Real.exp d - 1) * a * (1 + b) := by
    rcases le_total b a with hle | hle
    · rw [abs_of_nonneg (by linarith)]
      nlinarith
    · rw [abs_of_nonpos (by linarith)]
      nlinarith
  calc |a - b| * (1 + a) ^ 2 = |a - b| * (1 + a) * (1 + a) := by ring
    _ ≤ (Real.exp d - 1) * a * (1 + b) * (1 + a) := mul_le_mul_of_nonneg_right key (by linarith)
    _ = _ := by ring

lemma expit_pos (x : ℝ) : 0 < expit x := by unfold expit; positivity

lemma expit_lt_one (x : ℝ) : expit x < 1 := by
  unfold expit
  rw [div_lt_one (by positivity)]
  linarith [Real.exp_pos (-x)]

lemma fermi_expit (beta eps : ℝ) : fermi beta eps = expit (-(eps * beta)) := by
  unfold fermi expit
  rw [neg_neg, mul_comm, add_comm]

/-- Decay of the derivative. -/
lemma expit_decay (x : ℝ) : expit x * (1 - expit x) ≤ Real.exp (-|x|) := by
  set a := Real.exp (-x) with ha
  have ha0 : 0 < a := Real.exp_pos _
  have e1 : expit x * (1 - expit x) = a / (1 + a) ^ 2 := by
    unfold expit
    rw [← ha]
    field_simp
    ring
  rw [e1, div_le_iff₀ (by positivity)]
  rcases le_total 0 x with h | h
  · rw [abs_of_nonneg h, ← ha]
    nlinarith [mul_pos ha0 ha0, mul_pos (mul_pos ha0 ha0) ha0]
  · rw [abs_of_nonpos h, neg_neg]
    have : Real.exp x * a = 1 := by rw [ha, ← Real.exp_add]; simp
    nlinarith

/-- C84: `fermi_fct` of real energies has small relative errors at all energies, not only near the chemical potential: besides
the error of `expit`, only rounding of the argument enters. -/
theorem fermi_fct_rounding {κ : ℝ} (hκ : 0 ≤ κ) {expitFl : ℝ → ℝ} (he : Accurate A κ expit expitFl Set.univ) (eps beta : ℝ) :
    |fermiFctFl A expitFl eps beta - fermi beta eps|
      ≤ ((1 + κ * A.u) * Real.exp (A.u * |eps * beta| + A.eta) - 1) * fermi beta eps + A.eta := by
  have hu := u_pos A
  set z := A.rnd (eps * beta) with hz
  set d := A.u * |eps * beta| + A.eta with hd
  have h1 : |-z - -(eps * beta)| ≤ d := by
    rw [show -z - -(eps * beta) = -(z - eps * beta) by ring, abs_neg]
    exact rnd_err' A _
  have h3 := he (-z) (Set.mem_univ _)
  rw [fermi_expit]
  have hp := expit_pos (-(eps * beta))
  have hE : 1 ≤ Real.exp d := Real.one_le_exp ((abs_nonneg _).trans h1)
  have h2 : |expit (-z) - expit (-(eps * beta))| ≤ (Real.exp d - 1) * expit (-(eps * beta)) := by
    refine (expit_perturb h1).trans (mul_le_mul_of_nonneg_left ?_ (by linarith))
    nlinarith
  unfold fermiFctFl
  simp only [← hz]
  rw [abs_of_pos (expit_pos (-z))] at h3
  set F := expit (-(eps * beta)) with hF
  have h4 : expit (-z) ≤ Real.exp d * F := by
    have := (abs_le.1 h2).2
    linarith
  calc |expitFl (-z) - F| ≤ |expitFl (-z) - expit (-z)| + |expit (-z) - F| := abs_sub_le _ _ _
    _ ≤ (κ * A.u * expit (-z) + A.eta) + (Real.exp d - 1) * F := add_le_add h3 h2
    _ ≤ (κ * A.u * (Real.exp d * F) + A.eta) + (Real.exp d - 1) * F := by
        gcongr
    _ = _ := by ring

/-- C84: The absolute error of `fermi_fct` is a few units roundoff, uniformly in energy and temperature. -/
theorem fermi_fct_rounding_abs {κ : ℝ} (hκ : 0 ≤ κ) {expitFl : ℝ → ℝ} (he : Accurate A κ expit expitFl Set.univ)
    (hp : 1 ≤ A.p) (hη : A.eta ≤ A.u) (eps beta : ℝ) :
    |fermiFctFl A expitFl eps beta - fermi beta eps| ≤ (κ + 7) * A.u := by
  have hu := u_pos A
  have hη0 := eta_pos A
  have hu2 : A.u ≤ 1 / 2 := by
    unfold FloatArith.u
    calc (1 / 2 : ℝ) ^ A.p ≤ (1 / 2) ^ 1 := pow_le_pow_of_le_one (by norm_num) (by norm_num) hp
      _ = _ := by norm_num
  set z := A.rnd (eps * beta) with hz
  set d := A.u * |eps * beta| + A.eta with hd
  have h1 : |-z - -(eps * beta)| ≤ d := by
    rw [show -z - -(eps * beta) = -(z - eps * beta) by ring, abs_neg]
    exact rnd_err' A _
  have h2 := expit_perturb h1
  have h3 := he (-z) (Set.mem_univ _)
  rw [fermi_expit]
  unfold fermiFctFl
  simp only [← hz]
  rw [abs_of_pos (expit_pos (-z))] at h3
  set X := |eps * beta| with hX
  have hX0 : 0 ≤ X := abs_nonneg _
  have h4 := expit_decay (-(eps * beta))
  rw [abs_neg, ← hX] at h4
  have hd0 : 0 ≤ d := (abs_nonneg _).trans h1
  have h5 : Real.exp d - 1 ≤ d * Real.exp d := by
    have h6 : 1 - d ≤ Real.exp (-d) := by linarith [Real.add_one_le_exp (-d)]
    have h7 : Real.exp (-d) * Real.exp d = 1 := by rw [← Real.exp_add]; simp
    nlinarith [Real.exp_pos d]
  have h8 : Real.exp d ≤ 2 * Real.exp (X / 2) := by
    have h9 : d ≤ X / 2 + 1 / 2 := by rw [hd]; nlinarith
    have h10 : Real.exp (1 / 2 : ℝ) ≤ 2 := by
      have h11 : Real.exp (1 / 2 : ℝ) * Real.exp (1 / 2) = Real.exp 1 := by rw [← Real.exp_add]; norm_num
      nlinarith [Real.exp_one_lt_d9, Real.exp_pos (1 / 2 : ℝ)]
    calc Real.exp d ≤ Real.exp (X / 2 + 1 / 2) := Real.exp_le_exp.2 h9
      _ = Real.exp (1 / 2) * Real.exp (X / 2) := by rw [Real.exp_add, mul_comm]
      _ ≤ _ := mul_le_mul_of_nonneg_right h10 (Real.exp_pos _).le
  have h12 : Real.exp (X / 2) * Real.exp (-X) * (1 + X / 2) ≤ 1 := by
    have h13 : Real.exp (X / 2) * Real.exp (-X) * Real.exp (X / 2) = 1 := by
      rw [← Real.exp_add, ← Real.exp_add, show X / 2 + -X + X / 2 = 0 by ring, Real.exp_zero]
    rw [← h13]
    exact mul_le_mul_of_nonneg_left (by linarith [Real.add_one_le_exp (X / 2)]) (by positivity)
  have hn : 0 ≤ expit (-(eps * beta)) * (1 - expit (-(eps * beta))) :=
    mul_nonneg (expit_pos _).le (by linarith [expit_lt_one (-(eps * beta))])
  have h14 : (Real.exp d - 1) * (expit (-(eps * beta)) * (1 - expit (-(eps * beta)))) ≤ 6 * A.u := by
    calc _ ≤ d * (2 * Real.exp (X / 2)) * Real.exp (-X) := by
          refine mul_le_mul (h5.trans (mul_le_mul_of_nonneg_left h8 hd0)) h4 hn (by positivity)
      _ = 2 * (d * (Real.exp (X / 2) * Real.exp (-X))) := by ring
      _ ≤ 2 * (A.u * (X + 1) * (Real.exp (X / 2) * Real.exp (-X))) := by
          gcongr
          rw [hd]
          linarith
      _ ≤ 2 * (A.u * (2 * (1 + X / 2)) * (Real.exp (X / 2) * Real.exp (-X))) := by
          gcongr
          linarith
      _ = 4 * A.u * (Real.exp (X / 2) * Real.exp (-X) * (1 + X / 2)) := by ring
      _ ≤ 4 * A.u * 1 := by gcongr
      _ ≤ 6 * A.u := by linarith
  calc |expitFl (-z) - expit (-(eps * beta))|
      ≤ |expitFl (-z) - expit (-z)| + |expit (-z) - expit (-(eps * beta))| := abs_sub_le _ _ _
    _ ≤ (κ * A.u * 1 + A.u) + 6 * A.u := by
        refine add_le_add (h3.trans (add_le_add ?_ hη)) (h2.trans h14)
        exact mul_le_mul_of_nonneg_left (expit_lt_one _).le (by positivity)
    _ = _ := by ring

/-- C84: The absolute error of `fermi_fct_d1`, in units of its scale `beta`, is a few units roundoff. -/
theorem fermi_fct_d1_rounding {κ : ℝ} (hκ : 0 ≤ κ) {expitFl : ℝ → ℝ} (he : Accurate A κ expit expitFl Set.univ)
    (h01 : ∀ x, 0 ≤ expitFl x ∧ expitFl x ≤ 1) (hp : 1 ≤ A.p) (hk : A.kmin ≤ 0) (hη : A.eta ≤ A.u) (eps : ℝ) {beta : ℝ}
    (hβ : 0 < beta) (hβf : IsFloat A.p A.kmin (-beta)) (hβη : A.eta ≤ A.u * beta) :
    |fermiFctD1Fl A expitFl eps beta - fermiFctD1 eps beta| ≤ beta * ((2 * κ + 20) * A.u) := by
  have hu := u_pos A
  have hδ := fermi_fct_rounding_abs A hκ he hp hη eps beta
  have hf : fermiFct eps beta = fermi beta eps := by rw [fermi_expit]; rfl
  have hf0 : 0 < fermi beta eps := by rw [fermi_expit]; exact expit_pos _
  have hf1 : fermi beta eps < 1 := by rw [fermi_expit]; exact expit_lt_one _
  obtain ⟨hF0, hF1⟩ : 0 ≤ fermiFctFl A expitFl eps beta ∧ fermiFctFl A expitFl eps beta ≤ 1 := h01 _
  unfold fermiFctD1Fl fermiFctD1
  simp only [hf]
  set f := fermi beta eps
  set F := fermiFctFl A expitFl eps beta
  have ha := rnd_err' A (-beta * F)
  have hb := rnd_err' A (1 - F)
  set δ := (κ + 7) * A.u with hδd
  have ha1 : |A.rnd (-beta * F) - -beta * f| ≤ beta * (2 * A.u + δ) := by
    have e : |-beta * F| ≤ beta := by
      rw [abs_mul, abs_neg, abs_of_pos hβ, abs_of_nonneg hF0]
      nlinarith
    have e2 : |-beta * F - -beta * f| ≤ beta * δ := by
      rw [← mul_sub, abs_mul, abs_neg, abs_of_pos hβ]
      exact mul_le_mul_of_nonneg_left hδ hβ.le
    have := abs_sub_le (A.rnd (-beta * F)) (-beta * F) (-beta * f)
    nlinarith
  have hb1 : |A.rnd (1 - F) - (1 - f)| ≤ 2 * A.u + δ := by
    have e : |1 - F| ≤ 1 := abs_le.2 ⟨by linarith, by linarith⟩
    have e2 : |1 - F - (1 - f)| ≤ δ := by
      rw [show 1 - F - (1 - f) = -(F - f) by ring, abs_neg]
      exact hδ
    have := abs_sub_le (A.rnd (1 - F)) (1 - F) (1 - f)
    nlinarith
  have hb2 : |A.rnd (1 - F)| ≤ 1 := by
    have := rnd_mono A (show 1 - F ≤ 1 by linarith)
    rw [rnd_one A hk] at this
    rwa [abs_of_nonneg (rnd_nonneg A (by linarith))]
  have ha2 : |A.rnd (-beta * F)| ≤ beta := by
    rw [abs_of_nonpos (rnd_nonpos A (by nlinarith))]
    have := rnd_mono A (show -beta ≤ -beta * F by nlinarith)
    rw [rnd_float A hβf] at this
    linarith
  set a := A.rnd (-beta * F)
  set b := A.rnd (1 - F)
  have hprod : |a * b - -beta * f * (1 - f)| ≤ beta * (2 * (2 * A.u + δ)) := by
    have e : a * b - -beta * f * (1 - f) = a * (b - (1 - f)) + (a - -beta * f) * (1 - f) := by ring
    rw [e]
    refine (abs_add_le _ _).trans ?_
    rw [abs_mul, abs_mul, abs_of_pos (by linarith : 0 < 1 - f)]
    have h2 : |a| * |b - (1 - f)| ≤ beta * (2 * A.u + δ) := mul_le_mul ha2 hb1 (abs_nonneg _) hβ.le
    have h3 : |a - -beta * f| * (1 - f) ≤ beta * (2 * A.u + δ) := by
      refine (mul_le_of_le_one_right (abs_nonneg _) (by linarith)).trans ha1
    linarith
  have hr := rnd_err' A (a * b)
  have hab : |a * b| ≤ beta := by
    rw [abs_mul]
    calc |a| * |b| ≤ beta * 1 := mul_le_mul ha2 hb2 (abs_nonneg _) hβ.le
      _ = beta := mul_one _
  have := abs_sub_le (A.rnd (a * b)) (a * b) (-beta * f * (1 - f))
  have h9 : A.u * |a * b| ≤ A.u * beta := mul_le_mul_of_nonneg_left hab hu.le
  have h10 : beta * ((2 * κ + 20) * A.u) = beta * (2 * (2 * A.u + δ)) + 2 * (A.u * beta) := by rw [hδd]; ring
  rw [h10]
  linarith

/-- C84: At energies above the chemical potential the derivative has small relative errors, given the relative error `ρ` of the
Fermi function and no underflow. -/
theorem fermi_fct_d1_rounding_rel {expitFl : ℝ → ℝ} {ρ eps beta : ℝ} (hρ0 : 0 ≤ ρ) (hβ : 0 < beta) (heps : 0 ≤ eps)
    (hk : A.kmin ≤ 0) (hfl : IsFloat A.p A.kmin (fermiFctFl A expitFl eps beta))
    (hρ : |fermiFctFl A expitFl eps beta - fermi beta eps| ≤ ρ * fermi beta eps)
    (h1 : A.eta ≤ A.u * |-beta * fermiFctFl A expitFl eps beta|)
    (h2 : A.eta ≤ A.u * |A.rnd (-beta * fermiFctFl A expitFl eps beta) * A.rnd (1 - fermiFctFl A expitFl eps beta)|) :
    |fermiFctD1Fl A expitFl eps beta - fermiFctD1 eps beta|
      ≤ (((1 + ρ) * (1 + A.u)) ^ 2 * (1 + A.u) - 1) * |fermiFctD1 eps beta| := by
  have hu := u_pos A
  have hf : fermiFct eps beta = fermi beta eps := by rw [fermi_expit]; rfl
  have hf0 : 0 < fermi beta eps := by rw [fermi_expit]; exact expit_pos _
  have hf2 : fermi beta eps ≤ 1 / 2 := by
    unfold fermi
    have : 1 ≤ Real.exp (beta * eps) := Real.one_le_exp (by positivity)
    rw [div_le_div_iff₀ (by positivity) (by norm_num)]
    linarith
  unfold fermiFctD1Fl fermiFctD1
  simp only [hf]
  set f := fermi beta eps
  set F := fermiFctFl A expitFl eps beta
  have ha0 : |-beta * F - -beta * f| ≤ ρ * |-beta * f| := by
    rw [← mul_sub, abs_mul, abs_mul, mul_left_comm, abs_of_pos hf0]
    exact mul_le_mul_of_nonneg_left hρ (abs_nonneg _)
  have ha := rel_rnd A ha0 h1
  have hb0 : |1 - F - (1 - f)| ≤ ρ * |1 - f| := by
    rw [show 1 - F - (1 - f) = -(F - f) by ring, abs_neg, abs_of_pos (by linarith : 0 < 1 - f)]
    exact hρ.trans (mul_le_mul_of_nonneg_left (by linarith) hρ0)
  have hneg : IsFloat A.p A.kmin (-F) := by
    obtain ⟨m, k, hk', hm, e⟩ := hfl
    exact ⟨-m, k, hk', by rwa [abs_neg], by rw [e]; push_cast; ring⟩
  have hone : IsFloat A.p A.kmin 1 := by
    have := float_int (p := A.p) (kmin := A.kmin) hk (n := 1) (by rw [abs_one]; exact one_le_pow₀ (by norm_num))
    simpa using this
  have hb1 := rnd_add_err A hone hneg
  rw [← sub_eq_add_neg] at hb1
  have hb := rel_trans hu.le hb0 hb1
  have hab := rel_mul (by nlinarith) ha hb
  have := rel_rnd A hab h2
  refine this.trans_eq ?_
  congr 1
  ring

/-- C84 (negation of the full claim): At energies far below the chemical potential the derivative is rounded to zero, a relative
error of one: `1 - fermi` cancels. (The derivative at the opposite energy, with the same exact value, is accurate.) -/
theorem fermi_fct_d1_rounding_lost (hp : 1 ≤ A.p) (hk : A.kmin ≤ 0) {eps beta : ℝ} (hβ : 0 < beta)
    (h : Real.exp (A.rnd (eps * beta)) < A.u / 2) :
    fermiFctD1Fl A (fun x => A.rnd (expit x)) eps beta = 0 ∧ fermiFctD1 eps beta < 0 := by
  have hf : fermiFct eps beta = fermi beta eps := by rw [fermi_expit]; rfl
  have hf0 : 0 < fermi beta eps := by rw [fermi_expit]; exact expit_pos _
  have hf1 : fermi beta eps < 1 := by rw [fermi_expit]; exact expit_lt_one _
  constructor
  · have h1 : fermiFctFl A (fun x => A.rnd (expit x)) eps beta = 1 := by
      unfold fermiFctFl
      refine rnd_eq_one A hp hk ?_ ?_
      · unfold expit
        rw [neg_neg]
        set E := Real.exp (A.rnd (eps * beta))
        have hE : 0 < E := Real.exp_pos _
        rw [lt_div_iff₀ (by linarith)]
        nlinarith [u_pos A]
      · linarith [expit_lt_one (-A.rnd (eps * beta)), u_pos A]
    unfold fermiFctD1Fl
    simp only [h1, sub_self]
    rw [rnd_zero, mul_zero, rnd_zero]
  · unfold fermiFctD1
    simp only [hf]
    have : 0 < beta * fermi beta eps * (1 - fermi beta eps) := mul_pos (mul_pos hβ hf0) (by linarith)
    linarith

/-- C84: `fermi_fct_inv` has small relative errors, up to underflow. -/
theorem fermi_fct_inv_rounding {κ : ℝ} {logitFl : ℝ → ℝ} {s : Set ℝ} (he : Accurate A κ logit logitFl s) {f : ℝ} (hf : f ∈ s)
    (beta : ℝ) :
    |fermiFctInvFl A logitFl f beta - fermiFctInv f beta|
      ≤ ((1 + κ * A.u) * (1 + A.u) - 1) * |fermiFctInv f beta| + (1 + A.u) * (A.eta / |beta|) + A.eta := by
  have hu := u_pos A
  have h1 := he f hf
  unfold fermiFctInvFl fermiFctInv
  set L := logitFl f
  set l := logit f
  have h2 : |-L / beta - -l / beta| ≤ κ * A.u * |-l / beta| + A.eta / |beta| := by
    rw [← sub_div, abs_div, show -L - -l = -(L - l) by ring, abs_neg, abs_div, abs_neg, ← mul_div_assoc, ← add_div]
    exact div_le_div_of_nonneg_right h1 (abs_nonneg _)
  have h3 := rnd_err' A (-L / beta)
  have h4 : |-L / beta| ≤ |-l / beta| + (κ * A.u * |-l / beta| + A.eta / |beta|) := by
    have := abs_sub_abs_le_abs_sub (-L / beta) (-l / beta)
    linarith
  set x := -L / beta
  set y := -l / beta
  calc |A.rnd x - y| ≤ |A.rnd x - x| + |x - y| := abs_sub_le _ _ _
    _ ≤ (A.u * (|y| + (κ * A.u * |y| + A.eta / |beta|)) + A.eta) + (κ * A.u * |y| + A.eta / |beta|) := by
        refine add_le_add (h3.trans ?_) h2
        gcongr
    _ = _ := by ring

/-! ## Bose function -/

/-- Change of the argument. -/
lemma expm1_perturb {x y : ℝ} {u : ℝ} (hu : u < 1) (hx : x ≠ 0) (h : |y - x| ≤ u * |x|) :
    |1 / (Real.exp y - 1) - 1 / (Real.exp x - 1)|
      ≤ u / (1 - u) * (1 + (1 + u) * |x|) * Real.exp (u * |x|) * |1 / (Real.exp x - 1)| := by
  have hx0 : 0 < |x| := abs_pos.2 hx
  have hu0 : 0 ≤ u := by
    by_contra hc
    rw [not_le] at hc
    have := abs_nonneg (y - x)
    nlinarith
  have hy : (1 - u) * |x| ≤ |y| := by
    have h1 := abs_sub_abs_le_abs_sub x y
    rw [abs_sub_comm] at h1
    linarith
  have hy' : |y| ≤ (1 + u) * |x| := by
    have h1 := abs_sub_abs_le_abs_sub y x
    linarith
  have hy0 : 0 < |y| := lt_of_lt_of_le (mul_pos (by linarith) hx0) hy
  have hyne : y ≠ 0 := abs_pos.1 hy0
  have hex : Real.exp x - 1 ≠ 0 := by
    rw [Ne, sub_eq_zero, Real.exp_eq_one_iff]
    exact hx
  have hey : Real.exp y - 1 ≠ 0 := by
    rw [Ne, sub_eq_zero, Real.exp_eq_one_iff]
    exact hyne
  have e : 1 / (Real.exp y - 1) - 1 / (Real.exp x - 1)
      = (Real.exp x - Real.exp y) / (Real.exp y - 1) * (1 / (Real.exp x - 1)) := by
    field_simp
    ring
  rw [e, abs_mul]
  refine mul_le_mul_of_nonneg_right ?_ (abs_nonneg _)
  -- distance of the exponentials
  have hdist : |Real.exp x - Real.exp y| ≤ |y - x| * Real.exp (|y - x|) * Real.exp y := by
    have key : Real.exp x = Real.exp (x - y) * Real.exp y := by rw [← Real.exp_add]; ring_nf
    have h2 : |Real.exp (x - y) - 1| ≤ |y - x| * Real.exp |y - x| := by
      set t := x - y with ht
      have ht' : |y - x| = |t| := by rw [ht, abs_sub_comm]
      rw [ht']
      rcases le_total 0 t with h0 | h0
      · rw [abs_of_nonneg h0, abs_of_nonneg (by linarith [Real.one_le_exp h0])]
        have h6 : 1 - t ≤ Real.exp (-t) := by linarith [Real.add_one_le_exp (-t)]
        have h7 : Real.exp (-t) * Real.exp t = 1 := by rw [← Real.exp_add]; simp
        nlinarith [Real.exp_pos t]
      · rw [abs_of_nonpos h0, abs_of_nonpos (by linarith [Real.exp_le_one_iff.2 h0])]
        have h6 := Real.add_one_le_exp t
        have h7 : 1 ≤ Real.exp (-t) := Real.one_le_exp (by linarith)
        nlinarith
    rw [key, ← sub_one_mul, abs_mul, abs_of_pos (Real.exp_pos y)]
    exact mul_le_mul_of_nonneg_right h2 (Real.exp_pos y).le
  -- lower bound of the denominator
  have hden : |y| * Real.exp y ≤ (1 + |y|) * |Real.exp y - 1| := by
    rcases lt_or_gt_of_ne hyne with h0 | h0
    · have h1 : Real.exp y < 1 := Real.exp_lt_one_iff.2 h0
      rw [abs_of_neg h0, abs_of_neg (by linarith)]
      have h6 := Real.add_one_le_exp (-y)
      have h7 : Real.exp (-y) * Real.exp y = 1 := by rw [← Real.exp_add]; simp
      nlinarith [Real.exp_pos y]
    · have h1 : 1 < Real.exp y := Real.one_lt_exp_iff.2 h0
      rw [abs_of_pos h0, abs_of_pos (by linarith)]
      nlinarith [Real.add_one_le_exp y]
  have hd0 : 0 < |Real.exp y - 1| := abs_pos.2 hey
  rw [abs_div, div_le_iff₀ hd0]
  have hE := Real.exp_pos y
  have s1 : |y - x| ≤ u / (1 - u) * |y| := by
    have : u * |x| ≤ u / (1 - u) * |y| := by
      rw [div_mul_eq_mul_div, le_div_iff₀ (by linarith)]
      nlinarith
    exact h.trans this
  have s2 : Real.exp |y - x| ≤ Real.exp (u * |x|) := Real.exp_le_exp.2 h
  have hq : 0 ≤ u / (1 - u) := div_nonneg hu0 (by linarith)
  calc |Real.exp x - Real.exp y| ≤ |y - x| * Real.exp (|y - x|) * Real.exp y := hdist
    _ ≤ (u / (1 - u) * |y|) * Real.exp (u * |x|) * Real.exp y := by gcongr
    _ = u / (1 - u) * Real.exp (u * |x|) * (|y| * Real.exp y) := by ring
    _ ≤ u / (1 - u) * Real.exp (u * |x|) * ((1 + |y|) * |Real.exp y - 1|) := by gcongr
    _ ≤ u / (1 - u) * Real.exp (u * |x|) * ((1 + (1 + u) * |x|) * |Real.exp y - 1|) := by gcongr
    _ = _ := by ring

/-- C84: `bose_fct` has small relative errors, for energies of either sign and arbitrarily close to its pole, up to underflow
of the result. `ρ` is the effect of rounding the argument. The hypothesis on `expm1` is relative, the purpose of this function. -/
theorem bose_fct_rounding {κ : ℝ} (hκ : 0 ≤ κ) (hκu : κ * A.u ≤ 1 / 2) (hp : 1 ≤ A.p) {expFl expm1Fl : ℝ → ℝ}
    (he : Accurate A κ Real.exp expFl Set.univ) (hm : ∀ x, IsFloat A.p A.kmin x → |expm1Fl x - expm1 x| ≤ κ * A.u * |expm1 x|) {eps beta : ℝ}
    (h0 : beta * eps ≠ 0) (hη : A.eta ≤ A.u * |beta * eps|) :
    |boseFctFl A expFl expm1Fl eps beta - bose beta eps|
      ≤ ((1 + A.u / (1 - A.u) * (1 + (1 + A.u) * |beta * eps|) * Real.exp (A.u * |beta * eps|))
          * ((1 + κ * A.u) * (1 + κ * A.u / (1 - κ * A.u))) * (1 + A.u) - 1) * |bose beta eps| + 8 * A.eta := by
  have hu := u_pos A
  have hη0 := eta_pos A
  have hu2 : A.u ≤ 1 / 2 := by
    unfold FloatArith.u
    calc (1 / 2 : ℝ) ^ A.p ≤ (1 / 2) ^ 1 := pow_le_pow_of_le_one (by norm_num) (by norm_num) hp
      _ = _ := by norm_num
  have hb := rnd_rel A hη
  set x := beta * eps with hx
  set y := A.rnd x with hy
  have hρ := expm1_perturb (by linarith) h0 hb
  set ρ := A.u / (1 - A.u) * (1 + (1 + A.u) * |x|) * Real.exp (A.u * |x|) with hρd
  have hρ0 : 0 ≤ ρ := by
    have : 0 < 1 - A.u := by linarith
    positivity
  have hyne : y ≠ 0 := by
    intro hc
    rw [hc, zero_sub, abs_neg] at hb
    have := abs_pos.2 h0
    nlinarith
  have hbose : bose beta eps = 1 / (Real.exp x - 1) := rfl
  have hey : ∀ t : ℝ, t ≠ 0 → expm1 t ≠ 0 := fun t ht => by
    unfold expm1
    rw [Ne, sub_eq_zero, Real.exp_eq_one_iff]
    exact ht
  have hk0 : 0 ≤ κ * A.u := by positivity
  have hk1 : 0 ≤ κ * A.u / (1 - κ * A.u) := div_nonneg hk0 (by linarith)
  rw [hbose]
  unfold boseFctFl
  simp only [← hx, ← hy]
  split_ifs with h7
  · have h1 := rel_inv (by linarith) (hey y hyne) (hm y (A.float x))
    have h2 := rel_trans hk1 hρ (show |1 / expm1Fl y - 1 / (Real.exp y - 1)| ≤ _ from h1)
    have h3 := rel_rnd' A h2
    refine h3.trans ?_
    have : (1 + ((1 + ρ) * (1 + κ * A.u / (1 - κ * A.u)) - 1)) * (1 + A.u) - 1
        ≤ (1 + ρ) * ((1 + κ * A.u) * (1 + κ * A.u / (1 - κ * A.u))) * (1 + A.u) - 1 := by
      have hP : 0 ≤ (1 + ρ) * (1 + κ * A.u / (1 - κ * A.u)) * (1 + A.u) := by positivity
      nlinarith
    have h4 := mul_le_mul_of_nonneg_right this (abs_nonneg (1 / (Real.exp x - 1)))
    linarith
  · rw [not_lt] at h7
    have hny : -y ≠ 0 := neg_ne_zero.2 hyne
    have h1 := rel_inv (by linarith) (hey (-y) hny) (hm (-y) (float_neg (A.float x)))
    have hN := he (-y) (Set.mem_univ _)
    set N := expFl (-y)
    set n := Real.exp (-y) with hn
    set M := expm1Fl (-y)
    have hn0 : 0 < n := Real.exp_pos _
    have hn2 : n ≤ 1 / 2 := by
      have h6 := Real.add_one_le_exp y
      have h8 : n * Real.exp y = 1 := by rw [hn, ← Real.exp_add]; simp
      nlinarith
    have hm1 : expm1 (-y) = n - 1 := rfl
    rw [hm1] at h1
    -- the exact quotient
    have hq : -n / (n - 1) = 1 / (Real.exp y - 1) := by
      have h8 : n * Real.exp y = 1 := by rw [hn, ← Real.exp_add]; simp
      have h9 : Real.exp y - 1 ≠ 0 := hey y hyne
      rw [div_eq_div_iff (by linarith) h9]
      linarith
    have hinv : |1 / (n - 1)| ≤ 2 := by
      rw [abs_div, abs_one, abs_of_neg (by linarith), div_le_iff₀ (by linarith)]
      linarith
    have hinvM : |1 / M| ≤ 4 := by
      have h8 := abs_sub_abs_le_abs_sub (1 / M) (1 / (n - 1))
      have h9 : κ * A.u / (1 - κ * A.u) ≤ 1 := by
        rw [div_le_one (by linarith)]
        linarith
      nlinarith [abs_nonneg (1 / (n - 1))]
    -- split the numerator
    rw [abs_of_pos hn0] at hN
    obtain ⟨N', hN', hNN⟩ : ∃ N', |N' - n| ≤ κ * A.u * |n| ∧ |N - N'| ≤ A.eta := by
      have hc : 0 ≤ κ * A.u * n := by positivity
      rw [abs_of_pos hn0]
      obtain ⟨l1, l2⟩ := abs_le.1 hN
      refine ⟨max (n - κ * A.u * n) (min N (n + κ * A.u * n)), abs_le.2 ⟨?_, ?_⟩, abs_le.2 ⟨?_, ?_⟩⟩
      · linarith [le_max_left (n - κ * A.u * n) (min N (n + κ * A.u * n))]
      · have : max (n - κ * A.u * n) (min N (n + κ * A.u * n)) ≤ n + κ * A.u * n :=
          max_le (by linarith) (min_le_right _ _)
        linarith
      · have : max (n - κ * A.u * n) (min N (n + κ * A.u * n)) ≤ N + A.eta :=
          max_le (by linarith) ((min_le_left _ _).trans (by linarith))
        linarith
      · have : N - A.eta ≤ max (n - κ * A.u * n) (min N (n + κ * A.u * n)) :=
          le_max_of_le_right (le_min (by linarith) (by linarith))
        linarith
    have h2 := rel_mul hk1 (show |-N' - -n| ≤ κ * A.u * |-n| by
      rw [show -N' - -n = -(N' - n) by ring, abs_neg, abs_neg]; exact hN') h1
    rw [mul_one_div, mul_one_div, hq] at h2
    have h3 := rel_trans (by nlinarith) hρ h2
    have h4 := rel_rnd' A h3
    have hNM : |-N / M - -N' / M| ≤ 4 * A.eta := by
      rw [← sub_div, show -N - -N' = -(N - N') by ring, ← mul_one_div, abs_mul, abs_neg]
      calc |N - N'| * |1 / M| ≤ A.eta * 4 := mul_le_mul hNN hinvM (abs_nonneg _) hη0.le
        _ = _ := by ring
    have h5 := rnd_err' A (-N / M)
    set B := |1 / (Real.exp x - 1)|
    set R := (1 + ρ) * (1 + ((1 + κ * A.u) * (1 + κ * A.u / (1 - κ * A.u)) - 1)) - 1 with hR
    have h6 : |-N / M - 1 / (Real.exp x - 1)| ≤ R * B + 4 * A.eta := by
      have := abs_sub_le (-N / M) (-N' / M) (1 / (Real.exp x - 1))
      linarith
    have h8 : |-N / M| ≤ B + (R * B + 4 * A.eta) := by
      have := abs_sub_abs_le_abs_sub (-N / M) (1 / (Real.exp x - 1))
      linarith
    have h9 := abs_sub_le (A.rnd (-N / M)) (-N / M) (1 / (Real.exp x - 1))
    have h10 : A.u * |-N / M| ≤ A.u * (B + (R * B + 4 * A.eta)) := mul_le_mul_of_nonneg_left h8 hu.le
    have h11 : ((1 + ρ) * ((1 + κ * A.u) * (1 + κ * A.u / (1 - κ * A.u))) * (1 + A.u) - 1) * B
        = R * B + A.u * (B + R * B) := by rw [hR]; ring
    have h12 : A.u * A.eta ≤ 1 / 2 * A.eta := mul_le_mul_of_nonneg_right hu2 hη0.le
    have h13 : A.u * (B + (R * B + 4 * A.eta)) = A.u * (B + R * B) + 4 * (A.u * A.eta) := by ring
    rw [h11]
    rw [h13] at h10
    linarith

/-! ## Matsubara frequencies -/

/-- C84: Matsubara frequencies have relative errors of four roundings, also for indices beyond the integers exactly
representable as floats. -/
theorem matsubara_frequencies_rounding (hp : 1 ≤ A.p) (n : ℤ) {beta : ℝ} (hβ : 0 < beta) (hη : A.eta ≤ A.u / 2)
    (hβη : A.eta ≤ A.u / 2 * (1 / beta)) :
    |matsubaraFl A n beta - (matsubaraFrequencies n beta).im|
      ≤ ((1 + A.u) ^ 4 - 1) * |(matsubaraFrequencies n beta).im| := by
  have hu := u_pos A
  have hu2 : A.u ≤ 1 / 2 := by
    unfold FloatArith.u
    calc (1 / 2 : ℝ) ^ A.p ≤ (1 / 2) ^ 1 := pow_le_pow_of_le_one (by norm_num) (by norm_num) hp
      _ = _ := by norm_num
  have hpi := Real.pi_gt_three
  have hex : (matsubaraFrequencies n beta).im = Real.pi / beta * ((2 * n + 1 : ℤ) : ℝ) := by
    unfold matsubaraFrequencies
    have : (Complex.I * (Real.pi : ℂ) / (beta : ℂ) * (2 * (n : ℂ) + 1))
        = ((Real.pi / beta * ((2 * n + 1 : ℤ) : ℝ) : ℝ) : ℂ) * Complex.I := by
      push_cast
      ring
    rw [this, Complex.im_ofReal_mul, Complex.I_im, mul_one]
  rw [hex]
  unfold matsubaraFl
  have h1 := rnd_rel A (x := Real.pi) (by rw [abs_of_pos Real.pi_pos]; nlinarith)
  have hπ : 1 ≤ A.rnd Real.pi := by
    rw [abs_of_pos Real.pi_pos] at h1
    nlinarith [(abs_le.1 h1).1]
  have hib : 0 < 1 / beta := by positivity
  have h2 : |A.rnd Real.pi / beta - Real.pi / beta| ≤ A.u * |Real.pi / beta| := by
    rw [← sub_div, abs_div, abs_div, ← mul_div_assoc]
    exact div_le_div_of_nonneg_right h1 (abs_nonneg _)
  have hge : 1 / beta ≤ A.rnd Real.pi / beta := div_le_div_of_nonneg_right hπ hβ.le
  have h3 := rel_rnd A h2 (by
    rw [abs_of_pos (lt_of_lt_of_le hib hge)]
    nlinarith)
  have hN : 1 ≤ |((2 * n + 1 : ℤ) : ℝ)| := by
    have : (1 : ℤ) ≤ |2 * n + 1| := Int.one_le_abs (by omega)
    exact_mod_cast this
  have h4 := rnd_rel A (x := ((2 * n + 1 : ℤ) : ℝ)) (by nlinarith)
  have h5 := rel_mul hu.le h3 h4
  have h6 := rel_rnd A h5 (by
    have g1 := rnd_rel A (x := A.rnd Real.pi / beta) (by
      rw [abs_of_pos (lt_of_lt_of_le hib hge)]
      nlinarith)
    rw [abs_of_pos (lt_of_lt_of_le hib hge)] at g1
    have hπ2 : 5 / 4 ≤ A.rnd Real.pi := by
      rw [abs_of_pos Real.pi_pos] at h1
      nlinarith [(abs_le.1 h1).1]
    have g2 : (1 / 2) * (1 / beta) ≤ |A.rnd (A.rnd Real.pi / beta)| := by
      refine le_trans ?_ (le_abs_self _)
      have := (abs_le.1 g1).1
      nlinarith
    have g3 : 1 ≤ |A.rnd ((2 * n + 1 : ℤ) : ℝ)| := by
      by_cases hk : A.kmin ≤ 0
      · rcases le_abs.1 hN with hh | hh
        · have := rnd_mono A hh
          rw [rnd_one A hk] at this
          exact this.trans (le_abs_self _)
        · have := rnd_mono A (show ((2 * n + 1 : ℤ) : ℝ) ≤ -1 by linarith)
          have e : A.rnd (-1 : ℝ) = -1 := by
            have := rnd_float A (float_int (p := A.p) hk (n := -1) (by rw [abs_neg, abs_one]; exact one_le_pow₀ (by norm_num)))
            simpa using this
          rw [e] at this
          refine le_trans ?_ (neg_le_abs _)
          linarith
      · exfalso
        rw [not_le] at hk
        have : (1 : ℝ) ≤ 2 ^ A.kmin := one_le_zpow₀ (by norm_num) hk.le
        unfold FloatArith.eta at hη
        linarith
    rw [abs_mul]
    have : (1 / 2) * (1 / beta) * 1 ≤ |A.rnd (A.rnd Real.pi / beta)| * |A.rnd ((2 * n + 1 : ℤ) : ℝ)| :=
      mul_le_mul g2 g3 (by norm_num) (abs_nonneg _)
    nlinarith)
  refine h6.trans_eq ?_
  congr 1
  ring

/-- C84: The same for bosonic Matsubara frequencies; the one at zero is exact. -/
theorem matsubara_frequencies_b_rounding (hp : 1 ≤ A.p) (n : ℤ) {beta : ℝ} (hβ : 0 < beta) (hη : A.eta ≤ A.u / 2)
    (hβη : A.eta ≤ A.u / 2 * (1 / beta)) :
    |matsubaraBFl A n beta - (matsubaraFrequenciesB n beta).im|
      ≤ ((1 + A.u) ^ 4 - 1) * |(matsubaraFrequenciesB n beta).im| := by
  have hu := u_pos A
  have hu2 : A.u ≤ 1 / 2 := by
    unfold FloatArith.u
    calc (1 / 2 : ℝ) ^ A.p ≤ (1 / 2) ^ 1 := pow_le_pow_of_le_one (by norm_num) (by norm_num) hp
      _ = _ := by norm_num
  have hpi := Real.pi_gt_three
  have hex : (matsubaraFrequenciesB n beta).im = 2 * Real.pi / beta * (n : ℝ) := by
    unfold matsubaraFrequenciesB
    have : (2 * Complex.I * (Real.pi : ℂ) / (beta : ℂ) * (n : ℂ))
        = ((2 * Real.pi / beta * (n : ℝ) : ℝ) : ℂ) * Complex.I := by
      push_cast
      ring
    rw [this, Complex.im_ofReal_mul, Complex.I_im, mul_one]
  rw [hex]
  unfold matsubaraBFl
  rcases eq_or_ne n 0 with rfl | hn
  · simp [rnd_zero]
  have h1 := rnd_rel A (x := Real.pi) (by rw [abs_of_pos Real.pi_pos]; nlinarith)
  have hπ : 1 ≤ A.rnd Real.pi := by
    rw [abs_of_pos Real.pi_pos] at h1
    nlinarith [(abs_le.1 h1).1]
  have hib : 0 < 1 / beta := by positivity
  have h2 : |2 * A.rnd Real.pi / beta - 2 * Real.pi / beta| ≤ A.u * |2 * Real.pi / beta| := by
    rw [← sub_div, abs_div, abs_div, ← mul_div_assoc, ← mul_sub, abs_mul, abs_mul, abs_of_pos (by norm_num : (0 : ℝ) < 2)]
    exact div_le_div_of_nonneg_right (by linarith) (abs_nonneg _)
  have hge : 1 / beta ≤ 2 * A.rnd Real.pi / beta := div_le_div_of_nonneg_right (by linarith) hβ.le
  have h3 := rel_rnd A h2 (by
    rw [abs_of_pos (lt_of_lt_of_le hib hge)]
    nlinarith)
  have hN : 1 ≤ |(n : ℝ)| := by
    have : (1 : ℤ) ≤ |n| := Int.one_le_abs hn
    exact_mod_cast this
  have h4 := rnd_rel A (x := (n : ℝ)) (by nlinarith)
  have h5 := rel_mul hu.le h3 h4
  have h6 := rel_rnd A h5 (by
    have g1 := rnd_rel A (x := 2 * A.rnd Real.pi / beta) (by
      rw [abs_of_pos (lt_of_lt_of_le hib hge)]
      nlinarith)
    rw [abs_of_pos (lt_of_lt_of_le hib hge)] at g1
    have hπ2 : 5 / 4 ≤ A.rnd Real.pi := by
      rw [abs_of_pos Real.pi_pos] at h1
      nlinarith [(abs_le.1 h1).1]
    have g2 : (1 / 2) * (1 / beta) ≤ |A.rnd (2 * A.rnd Real.pi / beta)| := by
      refine le_trans ?_ (le_abs_self _)
      have := (abs_le.1 g1).1
      nlinarith
    have g3 : 1 ≤ |A.rnd (n : ℝ)| := by
      by_cases hk : A.kmin ≤ 0
      · rcases le_abs.1 hN with hh | hh
        · have := rnd_mono A hh
          rw [rnd_one A hk] at this
          exact this.trans (le_abs_self _)
        · have := rnd_mono A (show (n : ℝ) ≤ -1 by linarith)
          have e : A.rnd (-1 : ℝ) = -1 := by
            have := rnd_float A (float_int (p := A.p) hk (n := -1) (by rw [abs_neg, abs_one]; exact one_le_pow₀ (by norm_num)))
            simpa using this
          rw [e] at this
          refine le_trans ?_ (neg_le_abs _)
          linarith
      · exfalso
        rw [not_le] at hk
        have : (1 : ℝ) ≤ 2 ^ A.kmin := one_le_zpow₀ (by norm_num) hk.le
        unfold FloatArith.eta at hη
        linarith
    rw [abs_mul]
    have : (1 / 2) * (1 / beta) * 1 ≤ |A.rnd (2 * A.rnd Real.pi / beta)| * |A.rnd (n : ℝ)| :=
      mul_le_mul g2 g3 (by norm_num) (abs_nonneg _)
    nlinarith)
  refine h6.trans_eq ?_
  congr 1
  ring

/-- C84: Rounding keeps the order of Matsubara frequencies. -/
theorem matsubara_frequencies_mono {beta : ℝ} (hβ : 0 < beta) :
    Monotone (fun n : ℤ => matsubaraFl A n beta) ∧ Monotone (fun n : ℤ => matsubaraBFl A n beta) := by
  have hπ : 0 ≤ A.rnd Real.pi := rnd_nonneg A Real.pi_pos.le
  constructor
  · intro n m hnm
    refine rnd_mono A (mul_le_mul_of_nonneg_left (rnd_mono A ?_) (rnd_nonneg A (by positivity)))
    exact_mod_cast (by linarith : 2 * n + 1 ≤ 2 * m + 1)
  · intro n m hnm
    refine rnd_mono A (mul_le_mul_of_nonneg_left (rnd_mono A ?_) (rnd_nonneg A (by positivity)))
    exact_mod_cast hnm

/-! ## Bethe lattice -/

/-- Exact value at imaginary frequencies. -/
lemma bethe_imag {omega D : ℝ} (hω : 0 < omega) (hD : 0 < D) :
    (betheGfZ (omega * Complex.I) D).im = 2 / D * (omega / D * (1 - √(1 + 1 / (omega / D) ^ 2))) := by
  have hr : 0 < omega / D := by positivity
  set t := omega / D with ht
  have h1 : ((omega : ℂ) * Complex.I / D) = (t : ℂ) * Complex.I := by
    rw [ht]
    push_cast
    ring
  have h2 : (1 : ℂ) - ((t : ℂ) * Complex.I) ^ (-2 : ℤ) = ((1 + 1 / t ^ 2 : ℝ) : ℂ) := by
    rw [zpow_neg, show ((2 : ℤ)) = ((2 : ℕ) : ℤ) by rfl, zpow_natCast, mul_pow, Complex.I_sq]
    push_cast
    rw [mul_neg_one, inv_neg, sub_neg_eq_add, one_div]
  have csq : ∀ r : ℝ, 0 ≤ r → Complex.sqrt (r : ℂ) = ((√r : ℝ) : ℂ) := fun r hr => by
    rw [Complex.sqrt_of_nonneg (by exact_mod_cast hr)]
    simp
  have h3 := csq (1 + 1 / t ^ 2) (by positivity)
  unfold betheGfZ
  simp only [h1]
  rw [h2, h3]
  have : (2 : ℂ) / D * ((t : ℂ) * Complex.I) * (1 - ((√(1 + 1 / t ^ 2) : ℝ) : ℂ))
      = ((2 / D * (t * (1 - √(1 + 1 / t ^ 2))) : ℝ) : ℂ) * Complex.I := by
    push_cast
    ring
  rw [this, Complex.im_ofReal_mul, Complex.I_im, mul_one]

/-- C84 (negation of the full claim): At frequencies above `2^(p/2 + 1)` half bandwidths (`p = 64` digits of the extended
precision) the Green's function of the Bethe lattice is exactly zero, although it decays only like `1/z`. -/
theorem bethe_gf_rounding_lost (B : FloatArith) (hp : 1 ≤ B.p) (hk : B.kmin ≤ 0) (hη : B.eta ≤ B.u / 4) {κ : ℝ}
    (hκ : κ * B.u ≤ 1) {div : ℝ → ℝ → ℝ} {powm2 sqrt : ℝ → ℝ}
    (hpow : ∀ t, 0 < t → powm2 t ≤ 0 ∧ |powm2 t - -(1 / t ^ 2)| ≤ κ * B.u * (1 / t ^ 2) + B.eta) (hsqrt : sqrt 1 = 1)
    {omega D : ℝ} (hω : 0 < omega) (hD : 0 < D) (ht : 0 < div omega D) (hlarge : 4 / B.u < div omega D ^ 2) :
    betheGfFl A B div powm2 sqrt omega D = 0 ∧ (betheGfZ (omega * Complex.I) D).im < 0 := by
  have hu := u_pos B
  constructor
  · set t := div omega D with htd
    obtain ⟨h1, h2⟩ := hpow t ht
    have h3 : 1 / t ^ 2 < B.u / 4 := by
      rw [div_lt_div_iff₀ (by positivity) (by norm_num), one_mul]
      rw [div_lt_iff₀ hu] at hlarge
      linarith
    have h4 : -powm2 t < B.u := by
      have h5 := (abs_le.1 h2).1
      have h6 : κ * B.u * (1 / t ^ 2) ≤ 1 * (1 / t ^ 2) := mul_le_mul_of_nonneg_right hκ (by positivity)
      linarith
    have h5 : B.rnd (1 - powm2 t) = 1 := rnd_eq_one B hp hk (by linarith) (by linarith)
    unfold betheGfFl
    simp only [← htd]
    rw [h5, hsqrt, sub_self, rnd_zero, mul_zero, rnd_zero, rnd_zero]
  · rw [bethe_imag hω hD]
    have hr : 0 < omega / D := by positivity
    have : 1 < √(1 + 1 / (omega / D) ^ 2) := by
      rw [Real.lt_sqrt (by norm_num)]
      have : 0 < 1 / (omega / D) ^ 2 := by positivity
      linarith
    have h2 : 0 < 2 / D := by positivity
    have h3 : 0 < omega / D * (√(1 + 1 / (omega / D) ^ 2) - 1) := mul_pos hr (by linarith)
    nlinarith

/-- Sensitivity to the frequency. -/
lemma bethe_sens {t τ δ : ℝ} (hτ : 0 < τ) (hδ : δ < 1) (h : |t - τ| ≤ δ * τ) :
    |t * (1 - √(1 + 1 / t ^ 2)) - τ * (1 - √(1 + 1 / τ ^ 2))| ≤ δ / (1 - δ) * |τ * (1 - √(1 + 1 / τ ^ 2))| := by
  obtain ⟨h1, h2⟩ := abs_le.1 h
  have ht : 0 < t := by nlinarith
  have key : ∀ s : ℝ, 0 < s → s * (1 - √(1 + 1 / s ^ 2)) = -(1 / (√(s ^ 2 + 1) + s)) := fun s hs => by
    have e : s * √(1 + 1 / s ^ 2) = √(s ^ 2 + 1) := by
      rw [show s ^ 2 + 1 = s ^ 2 * (1 + 1 / s ^ 2) by field_simp, Real.sqrt_mul (by positivity), Real.sqrt_sq hs.le]
    rw [mul_sub, mul_one, e]
    have hq := Real.sq_sqrt (show 0 ≤ s ^ 2 + 1 by positivity)
    have hpos : 0 < √(s ^ 2 + 1) + s := by positivity
    rw [eq_neg_iff_add_eq_zero, ← sub_eq_zero]
    field_simp
    nlinarith
  rw [key t ht, key τ hτ, show -(1 / (√(t ^ 2 + 1) + t)) - -(1 / (√(τ ^ 2 + 1) + τ))
    = -(1 / (√(t ^ 2 + 1) + t) - 1 / (√(τ ^ 2 + 1) + τ)) by ring, abs_neg, abs_neg]
  refine rel_inv hδ (by positivity) ?_
  rw [abs_of_pos (by positivity : 0 < √(τ ^ 2 + 1) + τ)]
  have hs : |√(t ^ 2 + 1) - √(τ ^ 2 + 1)| ≤ δ * √(τ ^ 2 + 1) := by
    have hδ0 : 0 ≤ δ := by
      by_contra hc
      rw [not_le] at hc
      have := abs_nonneg (t - τ)
      nlinarith
    have u1 : √(t ^ 2 + 1) ≤ (1 + δ) * √(τ ^ 2 + 1) := by
      refine Real.sqrt_le_iff.2 ⟨by positivity, ?_⟩
      rw [mul_pow, Real.sq_sqrt (by positivity)]
      have : t ≤ (1 + δ) * τ := by linarith
      have h3 : t ^ 2 ≤ ((1 + δ) * τ) ^ 2 := pow_le_pow_left₀ ht.le this 2
      nlinarith
    have u2 : (1 - δ) * √(τ ^ 2 + 1) ≤ √(t ^ 2 + 1) := by
      refine Real.le_sqrt_of_sq_le ?_
      rw [mul_pow, Real.sq_sqrt (by positivity)]
      have : (1 - δ) * τ ≤ t := by linarith
      have h3 : ((1 - δ) * τ) ^ 2 ≤ t ^ 2 := pow_le_pow_left₀ (by nlinarith) this 2
      nlinarith
    exact abs_le.2 ⟨by linarith, by linarith⟩
  have := abs_add_le (√(t ^ 2 + 1) - √(τ ^ 2 + 1)) (t - τ)
  rw [show √(t ^ 2 + 1) + t - (√(τ ^ 2 + 1) + τ) = √(t ^ 2 + 1) - √(τ ^ 2 + 1) + (t - τ) by ring]
  linarith

/-- Cancellation: error of `1 - sqrt(1 + 1/t²)` for a relative error `a` of the square root. -/
lemma bethe_cancel {t s a : ℝ} (ht : 0 < t) (ha : 0 ≤ a) (h : |s - √(1 + 1 / t ^ 2)| ≤ a * |√(1 + 1 / t ^ 2)|) :
    |(1 - s) - (1 - √(1 + 1 / t ^ 2))| ≤ a * (2 + 4 * t ^ 2) * |1 - √(1 + 1 / t ^ 2)| := by
  set r := √(1 + 1 / t ^ 2) with hr
  have hr2 : r ^ 2 = 1 + 1 / t ^ 2 := Real.sq_sqrt (by positivity)
  have ht2 : 0 < 1 / t ^ 2 := by positivity
  have hr1 : 1 < r := by
    rw [hr, Real.lt_sqrt (by norm_num)]
    linarith
  rw [show (1 - s) - (1 - r) = -(s - r) by ring, abs_neg, abs_of_neg (by linarith : 1 - r < 0)]
  rw [abs_of_pos (by linarith : 0 < r)] at h
  refine h.trans ?_
  rw [mul_assoc]
  refine mul_le_mul_of_nonneg_left ?_ ha
  -- `r ≤ (2 + 4t²)(r - 1)`, as `(r - 1)(r + 1) = 1/t²`
  have e : t ^ 2 * ((r - 1) * (r + 1)) = 1 := by
    have : (r - 1) * (r + 1) = 1 / t ^ 2 := by nlinarith
    rw [this]
    field_simp
  have hk : r * (r + 1) * t ^ 2 ≤ 2 + 4 * t ^ 2 := by
    have h1 : r ≤ r ^ 2 := by nlinarith
    have h2 : r ^ 2 * t ^ 2 = t ^ 2 + 1 := by
      rw [hr2]
      field_simp
    nlinarith [sq_nonneg t]
  have hpos : 0 < r - 1 := by linarith
  calc r = r * (t ^ 2 * ((r - 1) * (r + 1))) := by rw [e, mul_one]
    _ = r * (r + 1) * t ^ 2 * (r - 1) := by ring
    _ ≤ (2 + 4 * t ^ 2) * (r - 1) := mul_le_mul_of_nonneg_right hk hpos.le
    _ = _ := by ring

/-- Error of a square root. -/
lemma sqrt_rel {x y a : ℝ} (hx : 0 ≤ x) (ha : a ≤ 1) (h : |y - x| ≤ a * |x|) : |√y - √x| ≤ a * |√x| := by
  rw [abs_of_nonneg hx] at h
  obtain ⟨h1, h2⟩ := abs_le.1 h
  rcases hx.eq_or_lt with rfl | hx0
  · have : y = 0 := by
      have := h1
      have := h2
      linarith
    simp [this]
  have ha0 : 0 ≤ a := by
    by_contra hc
    rw [not_le] at hc
    nlinarith [abs_nonneg (y - x)]
  rw [abs_of_nonneg (Real.sqrt_nonneg x)]
  have hs := Real.sq_sqrt hx
  have hsx := Real.sqrt_nonneg x
  have u1 : √y ≤ (1 + a) * √x := by
    refine Real.sqrt_le_iff.2 ⟨by positivity, ?_⟩
    rw [mul_pow, hs]
    nlinarith
  have u2 : (1 - a) * √x ≤ √y := by
    refine Real.le_sqrt_of_sq_le ?_
    rw [mul_pow, hs]
    nlinarith
  exact abs_le.2 ⟨by linarith, by linarith⟩

/-- Extended precision part. -/
lemma bethe_root (B : FloatArith) (hk : B.kmin ≤ 0) {κ : ℝ} (hκ : 0 ≤ κ) (hκu : (1 + κ * B.u) * (1 + B.u) ≤ 2)
    {q t : ℝ} {sqrt : ℝ → ℝ} (ht : 0 < t) (hpow : |q - -(1 / t ^ 2)| ≤ κ * B.u * (1 / t ^ 2)) (hq : q ≤ 0)
    (hB : ∀ x, 1 ≤ x → IsFloat B.p B.kmin (sqrt x) ∧ |sqrt x - √x| ≤ κ * B.u * |√x|) (hη : B.eta ≤ B.u) :
    |B.rnd (1 - sqrt (B.rnd (1 - q))) - (1 - √(1 + 1 / t ^ 2))|
      ≤ ((1 + ((1 + κ * B.u) ^ 2 * (1 + B.u) - 1) * (2 + 4 * t ^ 2)) * (1 + B.u) - 1) * |1 - √(1 + 1 / t ^ 2)| := by
  have hu := u_pos B
  have hk0 : 0 ≤ κ * B.u := by positivity
  have ht2 : 0 < 1 / t ^ 2 := by positivity
  have hA : 0 < 1 + 1 / t ^ 2 := by positivity
  set a := B.rnd (1 - q) with had
  have e1 : |(1 - q) - (1 + 1 / t ^ 2)| ≤ κ * B.u * |1 + 1 / t ^ 2| := by
    rw [show (1 - q) - (1 + 1 / t ^ 2) = -(q - -(1 / t ^ 2)) by ring, abs_neg, abs_of_pos hA]
    exact hpow.trans (mul_le_mul_of_nonneg_left (by linarith) hk0)
  have e2 := rel_rnd B e1 (by
    have : 1 ≤ |1 - q| := le_abs.2 (Or.inl (by linarith))
    exact hη.trans (le_mul_of_one_le_right hu.le this))
  have ha1 : 1 ≤ a := by
    have := rnd_mono B (show 1 ≤ 1 - q by linarith)
    rwa [rnd_one B hk] at this
  have e3 := sqrt_rel hA.le (by linarith) e2
  obtain ⟨hsf, hs⟩ := hB a ha1
  have e4 := rel_trans hk0 e3 hs
  have hα0 : 0 ≤ (1 + κ * B.u) ^ 2 * (1 + B.u) - 1 := by
    have : 1 ≤ (1 + κ * B.u) ^ 2 * (1 + B.u) :=
      one_le_mul_of_one_le_of_one_le (one_le_pow₀ (by linarith)) (by linarith)
    linarith
  have e4' : |sqrt a - √(1 + 1 / t ^ 2)| ≤ ((1 + κ * B.u) ^ 2 * (1 + B.u) - 1) * |√(1 + 1 / t ^ 2)| := by
    refine e4.trans_eq ?_
    congr 1
    ring
  have e5 := bethe_cancel ht hα0 e4'
  have hone : IsFloat B.p B.kmin 1 := by
    have := float_int (p := B.p) (kmin := B.kmin) hk (n := 1) (by rw [abs_one]; exact one_le_pow₀ (by norm_num))
    simpa using this
  have hneg : IsFloat B.p B.kmin (-sqrt a) := by
    obtain ⟨m, k, hk', hm, e⟩ := hsf
    exact ⟨-m, k, hk', by rwa [abs_neg], by rw [e]; push_cast; ring⟩
  have e6 := rnd_add_err B hone hneg
  rw [← sub_eq_add_neg] at e6
  exact rel_trans hu.le e5 e6

/-- C84 (partial: the relative error grows with the square of the frequency): Error of the Bethe Green's function at imaginary
frequencies. `δ` is the error of the double division; `a` collects the errors of power, sum and root in extended precision,
which cancellation amplifies by `2 + 4t²`, with `t` the frequency in units of the half bandwidth. -/
theorem bethe_gf_rounding_partial (B : FloatArith) (hk : B.kmin ≤ 0) {κ δ : ℝ} (hκ : 0 ≤ κ) (hκu : (1 + κ * B.u) * (1 + B.u) ≤ 2)
    {div : ℝ → ℝ → ℝ} {powm2 sqrt : ℝ → ℝ} {omega D : ℝ} (hω : 0 < omega) (hD : 0 < D) (hδ : δ < 1)
    (hdiv : |div omega D - omega / D| ≤ δ * (omega / D))
    (hpow : |powm2 (div omega D) - -(1 / div omega D ^ 2)| ≤ κ * B.u * (1 / div omega D ^ 2))
    (hB : ∀ x, 1 ≤ x → IsFloat B.p B.kmin (sqrt x) ∧ |sqrt x - √x| ≤ κ * B.u * |√x|) (hη : B.eta ≤ B.u)
    (n1 : A.eta ≤ A.u * |2 / D|) (n2 : B.eta ≤ B.u * |A.rnd (2 / D) * div omega D|)
    (n3 : B.eta ≤ B.u * |B.rnd (A.rnd (2 / D) * div omega D) * B.rnd (1 - sqrt (B.rnd (1 - powm2 (div omega D))))|)
    (hpw : powm2 (div omega D) ≤ 0) :
    |betheGfFl A B div powm2 sqrt omega D - (betheGfZ (omega * Complex.I) D).im|
      ≤ ((1 + δ / (1 - δ)) * (1 + A.u) ^ 2 * (1 + B.u) ^ 3
          * (1 + ((1 + κ * B.u) ^ 2 * (1 + B.u) - 1) * (2 + 4 * div omega D ^ 2)) - 1)
        * |(betheGfZ (omega * Complex.I) D).im| + A.eta := by
  have huA := u_pos A
  have hu := u_pos B
  have hτ : 0 < omega / D := by positivity
  rw [bethe_imag hω hD]
  set τ := omega / D with hτd
  set t := div omega D with htd
  have ht : 0 < t := by
    have := (abs_le.1 hdiv).1
    nlinarith
  have e7 := bethe_root B hk hκ hκu ht hpow hpw hB hη
  have hα0 : 0 ≤ (1 + κ * B.u) ^ 2 * (1 + B.u) - 1 := by
    have h0 : 0 ≤ κ * B.u := by positivity
    have : 1 ≤ (1 + κ * B.u) ^ 2 * (1 + B.u) :=
      one_le_mul_of_one_le_of_one_le (one_le_pow₀ (by linarith)) (by linarith)
    linarith
  set α := (1 + κ * B.u) ^ 2 * (1 + B.u) - 1 with hα
  -- products
  have g1 := rnd_rel A n1
  have g2 : |A.rnd (2 / D) * t - 2 / D * t| ≤ A.u * |2 / D * t| := by
    rw [← sub_mul, abs_mul, abs_mul, ← mul_assoc]
    exact mul_le_mul_of_nonneg_right g1 (abs_nonneg _)
  have g3 := rel_rnd B g2 n2
  have hc : 0 ≤ (1 + α * (2 + 4 * t ^ 2)) * (1 + B.u) - 1 := by
    have h0 : 0 ≤ α * (2 + 4 * t ^ 2) := by positivity
    have : 1 ≤ (1 + α * (2 + 4 * t ^ 2)) * (1 + B.u) := one_le_mul_of_one_le_of_one_le (by linarith) (by linarith)
    linarith
  have g4 := rel_mul hc g3 e7
  have g5 := rel_rnd B g4 n3
  -- exact function at the rounded frequency
  have g6 := bethe_sens hτ hδ hdiv
  have g7 : |2 / D * t * (1 - √(1 + 1 / t ^ 2)) - 2 / D * (τ * (1 - √(1 + 1 / τ ^ 2)))|
      ≤ δ / (1 - δ) * |2 / D * (τ * (1 - √(1 + 1 / τ ^ 2)))| := by
    rw [mul_assoc, ← mul_sub, abs_mul, abs_mul, mul_left_comm]
    exact mul_le_mul_of_nonneg_left g6 (abs_nonneg _)
  have hc2 : 0 ≤ (1 + ((1 + ((1 + A.u) * (1 + B.u) - 1)) * (1 + ((1 + α * (2 + 4 * t ^ 2)) * (1 + B.u) - 1)) - 1)) * (1 + B.u) - 1 := by
    have h1 : 1 ≤ (1 + A.u) * (1 + B.u) := one_le_mul_of_one_le_of_one_le (by linarith) (by linarith)
    have h2 : 1 ≤ (1 + α * (2 + 4 * t ^ 2)) * (1 + B.u) := by linarith
    have h3 : 1 ≤ ((1 + A.u) * (1 + B.u)) * ((1 + α * (2 + 4 * t ^ 2)) * (1 + B.u)) := one_le_mul_of_one_le_of_one_le h1 h2
    have h4 : 1 ≤ ((1 + A.u) * (1 + B.u)) * ((1 + α * (2 + 4 * t ^ 2)) * (1 + B.u)) * (1 + B.u) :=
      one_le_mul_of_one_le_of_one_le h3 (by linarith)
    calc (0 : ℝ) ≤ ((1 + A.u) * (1 + B.u)) * ((1 + α * (2 + 4 * t ^ 2)) * (1 + B.u)) * (1 + B.u) - 1 := by linarith
      _ = _ := by ring
  have g8 := rel_trans hc2 g7 g5
  have g9 := rel_rnd' A g8
  unfold betheGfFl
  simp only [← htd]
  refine g9.trans_eq ?_
  congr 2
  ring

/-! ## Sums over poles -/

/-- Real and imaginary part are floating point numbers. -/
def IsFloatC (p : ℕ) (kmin : ℤ) (z : ℂ) : Prop := IsFloat p kmin z.re ∧ IsFloat p kmin z.im

/-- Componentwise errors bound the norm. -/
lemma norm_le_of_comp {u : ℝ} (hu : 0 ≤ u) {e s : ℂ} (h1 : |e.re| ≤ u * |s.re|) (h2 : |e.im| ≤ u * |s.im|) : ‖e‖ ≤ u * ‖s‖ := by
  have h3 : ‖e‖ ^ 2 ≤ (u * ‖s‖) ^ 2 := by
    rw [mul_pow, Complex.sq_norm, Complex.sq_norm, Complex.normSq_apply, Complex.normSq_apply]
    have a1 := mul_self_le_mul_self (abs_nonneg _) h1
    have a2 := mul_self_le_mul_self (abs_nonneg _) h2
    have b1 := abs_mul_abs_self e.re
    have b2 := abs_mul_abs_self e.im
    have b3 := abs_mul_abs_self s.re
    have b4 := abs_mul_abs_self s.im
    nlinarith
  exact (pow_le_pow_iff_left₀ (norm_nonneg _) (by positivity) (by norm_num)).1 h3

section sum

variable {ι : Type*}

lemma sumTree_float (f : ι → ℂ) : ∀ t : SumTree ι, (∀ i ∈ t.leaves, IsFloatC A.p A.kmin (f i)) → IsFloatC A.p A.kmin (t.sum A f)
  | .leaf i, h => h i (by simp [SumTree.leaves])
  | .node _ _, _ => ⟨A.float _, A.float _⟩

/-- C84: The error of a sum is bounded by the sum of norms, times the number of additions a summand passes; no underflow. -/
lemma sum_rounding (f : ι → ℂ) : ∀ t : SumTree ι, (∀ i ∈ t.leaves, IsFloatC A.p A.kmin (f i)) →
    ‖t.sum A f - (t.leaves.map f).sum‖ ≤ ((1 + A.u) ^ t.depth - 1) * (t.leaves.map fun i => ‖f i‖).sum
  | .leaf i, _ => by simp [SumTree.leaves, SumTree.sum, SumTree.depth]
  | .node l r, h => by
    have hu := u_pos A
    have hl : ∀ i ∈ l.leaves, IsFloatC A.p A.kmin (f i) := fun i hi => h i (by simp [SumTree.leaves, hi])
    have hr : ∀ i ∈ r.leaves, IsFloatC A.p A.kmin (f i) := fun i hi => h i (by simp [SumTree.leaves, hi])
    have il := sum_rounding f l hl
    have ir := sum_rounding f r hr
    obtain ⟨fl1, fl2⟩ := sumTree_float A f l hl
    obtain ⟨fr1, fr2⟩ := sumTree_float A f r hr
    have hstep : ‖(SumTree.node l r).sum A f - (l.sum A f + r.sum A f)‖ ≤ A.u * ‖l.sum A f + r.sum A f‖ := by
      refine norm_le_of_comp hu.le ?_ ?_
      · simpa [SumTree.sum] using rnd_add_err A fl1 fr1
      · simpa [SumTree.sum] using rnd_add_err A fl2 fr2
    have hn : ∀ q : List ι, ‖(q.map f).sum‖ ≤ (q.map fun i => ‖f i‖).sum := fun q => by
      induction q with
      | nil => simp
      | cons a q ih =>
        simp only [List.map_cons, List.sum_cons]
        exact (norm_add_le _ _).trans (by linarith)
    have hL := hn l.leaves
    have hR := hn r.leaves
    have hS0 : ∀ q : List ι, 0 ≤ (q.map fun i => ‖f i‖).sum := fun q => (norm_nonneg _).trans (hn q)
    simp only [SumTree.leaves, SumTree.depth, List.map_append, List.sum_append]
    set sl := l.sum A f
    set sr := r.sum A f
    set L := (l.leaves.map f).sum
    set R := (r.leaves.map f).sum
    have pL := hS0 l.leaves
    have pR := hS0 r.leaves
    set nL := (l.leaves.map fun i => ‖f i‖).sum
    set nR := (r.leaves.map fun i => ‖f i‖).sum
    set d := max l.depth r.depth with hd
    have m1 : (1 + A.u) ^ l.depth ≤ (1 + A.u) ^ d := pow_le_pow_right₀ (by linarith) (le_max_left _ _)
    have m2 : (1 + A.u) ^ r.depth ≤ (1 + A.u) ^ d := pow_le_pow_right₀ (by linarith) (le_max_right _ _)
    have il' : ‖sl - L‖ ≤ ((1 + A.u) ^ d - 1) * nL := il.trans (mul_le_mul_of_nonneg_right (by linarith) pL)
    have ir' : ‖sr - R‖ ≤ ((1 + A.u) ^ d - 1) * nR := ir.trans (mul_le_mul_of_nonneg_right (by linarith) pR)
    have t1 : ‖sl + sr - (L + R)‖ ≤ ((1 + A.u) ^ d - 1) * (nL + nR) := by
      rw [show sl + sr - (L + R) = (sl - L) + (sr - R) by ring]
      refine (norm_add_le _ _).trans ?_
      rw [mul_add]
      exact add_le_add il' ir'
    have t2 : ‖sl + sr‖ ≤ (1 + A.u) ^ d * (nL + nR) := by
      calc ‖sl + sr‖ = ‖(sl + sr - (L + R)) + (L + R)‖ := by rw [sub_add_cancel]
        _ ≤ ‖sl + sr - (L + R)‖ + ‖L + R‖ := norm_add_le _ _
        _ ≤ ((1 + A.u) ^ d - 1) * (nL + nR) + (nL + nR) :=
            add_le_add t1 ((norm_add_le _ _).trans (add_le_add hL hR))
        _ = _ := by ring
    calc ‖(SumTree.node l r).sum A f - (L + R)‖
        = ‖((SumTree.node l r).sum A f - (sl + sr)) + (sl + sr - (L + R))‖ := by rw [sub_add_sub_cancel]
      _ ≤ ‖(SumTree.node l r).sum A f - (sl + sr)‖ + ‖sl + sr - (L + R)‖ := norm_add_le _ _
      _ ≤ A.u * ((1 + A.u) ^ d * (nL + nR)) + ((1 + A.u) ^ d - 1) * (nL + nR) :=
          add_le_add (hstep.trans (mul_le_mul_of_nonneg_left t2 hu.le)) t1
      _ = _ := by ring

variable [Fintype ι]

/-- C84: Rounding errors of `pole.gf_z`, for every order in which the terms are added. `κ` roundings are the error of
complex divisions. -/
theorem pole_gf_rounding {κ : ℝ} (hκ : 0 ≤ κ) (hp : 1 ≤ A.p) {div : ℝ → ℂ → ℂ} {z : ℂ} (hz : 0 < z.im) {poles weights : ι → ℝ}
    (hfl : ∀ i, IsFloat A.p A.kmin z.re ∧ IsFloat A.p A.kmin (poles i))
    (hdiv : ∀ i, IsFloatC A.p A.kmin (div (weights i) ⟨A.rnd (z.re - poles i), z.im⟩) ∧
      ‖div (weights i) ⟨A.rnd (z.re - poles i), z.im⟩ - weights i / (⟨A.rnd (z.re - poles i), z.im⟩ : ℂ)‖
        ≤ κ * A.u * ‖(weights i : ℂ) / (⟨A.rnd (z.re - poles i), z.im⟩ : ℂ)‖)
    {t : SumTree ι} (ht : t.leaves.Perm Finset.univ.toList) :
    ‖poleGfFl A div z poles weights t - poleGfZ z (fun i => (poles i : ℂ)) (fun i => (weights i : ℂ))‖
      ≤ ((1 + A.u) ^ t.depth * (1 + κ * A.u) * (1 + A.u / (1 - A.u)) - 1) * ∑ i, |weights i| / ‖z - poles i‖ := by
  have hu := u_pos A
  have hu2 : A.u ≤ 1 / 2 := by
    unfold FloatArith.u
    calc (1 / 2 : ℝ) ^ A.p ≤ (1 / 2) ^ 1 := pow_le_pow_of_le_one (by norm_num) (by norm_num) hp
      _ = _ := by norm_num
  set ζ : ι → ℂ := fun i => ⟨A.rnd (z.re - poles i), z.im⟩ with hζ
  set f : ι → ℂ := fun i => div (weights i) (ζ i) with hf
  set g : ι → ℂ := fun i => (weights i : ℂ) / (z - poles i) with hg
  have hgn : ∀ i, ‖g i‖ = |weights i| / ‖z - poles i‖ := fun i => by
    rw [hg]
    simp only
    rw [norm_div, Complex.norm_real, Real.norm_eq_abs]
  have hzp : ∀ i, z - (poles i : ℂ) ≠ 0 := fun i hc => by
    have := congrArg Complex.im hc
    simp at this
    exact hz.ne' this
  have hζ0 : ∀ i, ζ i ≠ 0 := fun i hc => by
    have := congrArg Complex.im hc
    simp [hζ] at this
    exact hz.ne' this
  -- one term
  have hdist : ∀ i, ‖ζ i - (z - poles i)‖ ≤ A.u * ‖z - (poles i : ℂ)‖ := fun i => by
    refine norm_le_of_comp hu.le ?_ ?_
    · have hneg : IsFloat A.p A.kmin (-poles i) := by
        obtain ⟨m, k, hk', hm, e⟩ := (hfl i).2
        exact ⟨-m, k, hk', by rwa [abs_neg], by rw [e]; push_cast; ring⟩
      have := rnd_add_err A (hfl i).1 hneg
      rw [← sub_eq_add_neg] at this
      simpa [hζ] using this
    · simp only [hζ, Complex.sub_im, Complex.ofReal_im, sub_zero, sub_self, abs_zero]
      positivity
  have hq0 : 0 ≤ A.u / (1 - A.u) := div_nonneg hu.le (by linarith)
  have hinv : ∀ i, ‖(weights i : ℂ) / ζ i - g i‖ ≤ A.u / (1 - A.u) * ‖g i‖ := fun i => by
    have e : (weights i : ℂ) / ζ i - g i = g i * (((z - poles i) - ζ i) / ζ i) := by
      rw [hg]
      field_simp [hzp i, hζ0 i]
    rw [e, norm_mul, mul_comm]
    refine mul_le_mul_of_nonneg_right ?_ (norm_nonneg _)
    have h1 := hdist i
    have h2 : (1 - A.u) * ‖z - (poles i : ℂ)‖ ≤ ‖ζ i‖ := by
      have := norm_sub_norm_le (z - (poles i : ℂ)) (ζ i)
      rw [norm_sub_rev (z - (poles i : ℂ)) (ζ i)] at this
      linarith
    have h3 : 0 < ‖ζ i‖ := norm_pos_iff.2 (hζ0 i)
    rw [norm_div, norm_sub_rev (z - (poles i : ℂ)) (ζ i), div_le_div_iff₀ h3 (by linarith)]
    nlinarith [norm_nonneg (z - (poles i : ℂ))]
  have hκ0 : 0 ≤ κ * A.u := by positivity
  set c := (1 + κ * A.u) * (1 + A.u / (1 - A.u)) - 1 with hc
  have hterm : ∀ i, ‖f i - g i‖ ≤ c * ‖g i‖ := fun i => by
    have h1 := (hdiv i).2
    have h2 := hinv i
    have h3 : ‖(weights i : ℂ) / ζ i‖ ≤ (1 + A.u / (1 - A.u)) * ‖g i‖ := by
      have := norm_sub_norm_le ((weights i : ℂ) / ζ i) (g i)
      linarith
    calc ‖f i - g i‖ = ‖(f i - (weights i : ℂ) / ζ i) + ((weights i : ℂ) / ζ i - g i)‖ := by rw [sub_add_sub_cancel]
      _ ≤ ‖f i - (weights i : ℂ) / ζ i‖ + ‖(weights i : ℂ) / ζ i - g i‖ := norm_add_le _ _
      _ ≤ κ * A.u * ((1 + A.u / (1 - A.u)) * ‖g i‖) + A.u / (1 - A.u) * ‖g i‖ :=
          add_le_add (h1.trans (mul_le_mul_of_nonneg_left h3 hκ0)) h2
      _ = _ := by rw [hc]; ring
  -- the sum
  have hsum := sum_rounding A f t (fun i _ => (hdiv i).1)
  have perm : ∀ {M : Type} [AddCommMonoid M] (k : ι → M), (t.leaves.map k).sum = ∑ i, k i := fun k => by
    rw [(ht.map k).sum_eq, Finset.sum_map_toList]
  rw [perm, perm] at hsum
  have hfn : ∑ i, ‖f i‖ ≤ (1 + c) * ∑ i, ‖g i‖ := by
    rw [Finset.mul_sum]
    refine Finset.sum_le_sum fun i _ => ?_
    have := norm_sub_norm_le (f i) (g i)
    linarith [hterm i]
  have hfg : ‖∑ i, f i - ∑ i, g i‖ ≤ c * ∑ i, ‖g i‖ := by
    rw [← Finset.sum_sub_distrib, Finset.mul_sum]
    exact (norm_sum_le _ _).trans (Finset.sum_le_sum fun i _ => hterm i)
  have hpow : 0 ≤ (1 + A.u) ^ t.depth - 1 := by
    have := one_le_pow₀ (show 1 ≤ 1 + A.u by linarith) (n := t.depth)
    linarith
  have e1 : poleGfFl A div z poles weights t = t.sum A f := rfl
  have e2 : poleGfZ z (fun i => (poles i : ℂ)) (fun i => (weights i : ℂ)) = ∑ i, g i := rfl
  have e3 : ∑ i, |weights i| / ‖z - (poles i : ℂ)‖ = ∑ i, ‖g i‖ := Finset.sum_congr rfl fun i _ => (hgn i).symm
  rw [e1, e2, e3]
  calc ‖t.sum A f - ∑ i, g i‖ = ‖(t.sum A f - ∑ i, f i) + (∑ i, f i - ∑ i, g i)‖ := by rw [sub_add_sub_cancel]
    _ ≤ ‖t.sum A f - ∑ i, f i‖ + ‖∑ i, f i - ∑ i, g i‖ := norm_add_le _ _
    _ ≤ ((1 + A.u) ^ t.depth - 1) * ((1 + c) * ∑ i, ‖g i‖) + c * ∑ i, ‖g i‖ :=
        add_le_add (hsum.trans (mul_le_mul_of_nonneg_left hfn hpow)) hfg
    _ = _ := by rw [hc]; ring

omit [Fintype ι] in
/-- C84: Rounding keeps sums of poles causal: the imaginary part never gets the wrong sign, if it does not for the single
division. -/
theorem pole_gf_rounding_causal {div : ℝ → ℂ → ℂ} {z : ℂ} (hz : 0 < z.im) {poles weights : ι → ℝ} (hw : ∀ i, 0 ≤ weights i)
    (hdiv : ∀ w ζ, 0 ≤ w → 0 < ζ.im → (div w ζ).im ≤ 0) (t : SumTree ι) : (poleGfFl A div z poles weights t).im ≤ 0 := by
  unfold poleGfFl
  induction t with
  | leaf i => exact hdiv _ _ (hw i) hz
  | node l r hl hr => exact rnd_nonpos A (add_nonpos hl hr)

end sum

/-! ## Examples: doubles and extended precision -/

/-- Underflow is far below the unit roundoff. -/
private lemma eta_small {k : ℤ} (h : A.kmin - 1 + A.p ≤ k) : A.eta ≤ A.u * (2 : ℝ) ^ k := by
  have : A.eta = A.u * (2 : ℝ) ^ (A.kmin - 1 + A.p) := by
    rw [u_eq, ← zpow_add₀ (by norm_num), FloatArith.eta, show -(A.p : ℤ) + (A.kmin - 1 + A.p) = A.kmin - 1 by ring,
      zpow_sub_one₀ (by norm_num), div_eq_mul_inv]
  rw [this]
  exact mul_le_mul_of_nonneg_left (zpow_le_zpow_right₀ (by norm_num) h) (u_pos A).le

/-- Doubles. -/
private lemma double : ∃ A : FloatArith, A.p = 53 ∧ A.kmin = -1074 ∧ A.u = (1 / 2) ^ 53 ∧ A.eta ≤ A.u * (1 / 1024) := by
  obtain ⟨A, h1, h2⟩ := exists_arith 53 (-1074)
  refine ⟨A, h1, h2, by rw [FloatArith.u, h1], ?_⟩
  have := eta_small A (k := -10) (by omega)
  rwa [show (2 : ℝ) ^ (-10 : ℤ) = 1 / 1024 by norm_num] at this

/-- Correctly rounded functions are accurate. -/
private lemma accurate_rnd (g : ℝ → ℝ) : Accurate A 1 g (fun x => A.rnd (g x)) Set.univ := fun x _ => by
  rw [one_mul]
  exact rnd_err' A (g x)

-- the hypotheses of the theorems on the Fermi function hold for doubles
example : ∃ A : FloatArith, A.p = 53 ∧ ∀ eps beta,
    |fermiFctFl A (fun x => A.rnd (expit x)) eps beta - fermi beta eps| ≤ 8 * A.u := by
  obtain ⟨A, h1, h2, h3, h4⟩ := double
  refine ⟨A, h1, fun eps beta => ?_⟩
  have := fermi_fct_rounding_abs A zero_le_one (accurate_rnd A expit) (by omega) (by linarith [u_pos A]) eps beta
  linarith

-- for doubles the derivative is lost at the energy -40 for unit temperature
example : ∃ A : FloatArith, A.p = 53 ∧ fermiFctD1Fl A (fun x => A.rnd (expit x)) (-40) 1 = 0 ∧ fermiFctD1 (-40) 1 < 0 := by
  obtain ⟨A, h1, h2, h3, h4⟩ := double
  refine ⟨A, h1, fermi_fct_d1_rounding_lost A (by omega) (by omega) one_pos ?_⟩
  have e : A.rnd (-40 * 1) = -40 := by
    have := rnd_float A (float_int (p := A.p) (kmin := A.kmin) (by omega) (n := -40) (by rw [h1]; norm_num))
    rw [mul_one]
    simpa using this
  rw [e, h3, Real.exp_neg]
  have h5 : (2.7 : ℝ) ^ 40 ≤ Real.exp 40 := by
    have : Real.exp 40 = Real.exp 1 ^ 40 := by rw [← Real.exp_nat_mul]; norm_num
    rw [this]
    exact pow_le_pow_left₀ (by norm_num) (by linarith [Real.exp_one_gt_d9]) 40
  have h6 : (2 : ℝ) ^ 54 < (2.7 : ℝ) ^ 40 := by norm_num
  rw [show ((1 / 2 : ℝ) ^ 53 / 2) = (2 ^ 54)⁻¹ by norm_num]
  exact inv_strictAnti₀ (by positivity) (h6.trans_le h5)

-- its absolute error is small nevertheless
example : ∃ A : FloatArith, A.p = 53 ∧ ∀ eps,
    |fermiFctD1Fl A (fun x => A.rnd (expit x)) eps 4 - fermiFctD1 eps 4| ≤ 88 * A.u := by
  obtain ⟨A, h1, h2, h3, h4⟩ := double
  have hu := u_pos A
  have f4 : IsFloat A.p A.kmin (-4 : ℝ) := by
    have := float_int (p := A.p) (kmin := A.kmin) (by omega) (n := -4) (by rw [h1]; norm_num)
    simpa using this
  refine ⟨A, h1, fun eps => ?_⟩
  have := fermi_fct_d1_rounding A zero_le_one (accurate_rnd A expit) (fun x => ⟨rnd_nonneg A (expit_pos x).le, ?_⟩) (by omega)
    (by omega) (by linarith) eps (by norm_num) f4 (by linarith)
  · linarith
  · have := rnd_mono A (expit_lt_one x).le
    rwa [rnd_one A (by omega)] at this

-- Bose function of doubles: energies of both signs near its pole
example : ∃ A : FloatArith, A.p = 53 ∧ ∀ eps, 1 / 1024 ≤ |eps| → |eps| ≤ 1 →
    |boseFctFl A (fun x => A.rnd (Real.exp x)) expm1 eps 1 - bose 1 eps| ≤ 64 * A.u * |bose 1 eps| + 8 * A.eta := by
  obtain ⟨A, h1, h2, h3, h4⟩ := double
  have hu := u_pos A
  refine ⟨A, h1, fun eps he he1 => ?_⟩
  have hne : 1 * eps ≠ 0 := by
    rw [one_mul]
    exact abs_pos.1 (by linarith)
  have hus : A.u ≤ 1 / 1024 := by rw [h3]; norm_num
  have := bose_fct_rounding A zero_le_one (by linarith) (by omega) (accurate_rnd A Real.exp)
    (fun x _ => by rw [sub_self, abs_zero]; positivity : ∀ x, IsFloat A.p A.kmin x → |expm1 x - expm1 x| ≤ 1 * A.u * |expm1 x|) hne
    (by rw [one_mul]; nlinarith)
  refine this.trans (add_le_add (mul_le_mul_of_nonneg_right ?_ (abs_nonneg _)) le_rfl)
  rw [one_mul, one_mul]
  have q1 : A.u / (1 - A.u) ≤ 2 * A.u := by
    rw [div_le_iff₀ (by linarith)]
    nlinarith
  have q2 : Real.exp (A.u * |eps|) ≤ 3 := by
    refine (Real.exp_le_exp.2 (show A.u * |eps| ≤ 1 by nlinarith)).trans (by linarith [Real.exp_one_lt_d9])
  have q3 : 1 + (1 + A.u) * |eps| ≤ 3 := by nlinarith
  have q0 : 0 ≤ A.u / (1 - A.u) := div_nonneg hu.le (by linarith)
  have q4 : A.u / (1 - A.u) * (1 + (1 + A.u) * |eps|) * Real.exp (A.u * |eps|) ≤ 18 * A.u := by
    calc _ ≤ 2 * A.u * 3 * 3 := by gcongr
      _ = _ := by ring
  calc _ ≤ (1 + 18 * A.u) * ((1 + A.u) * (1 + 2 * A.u)) * (1 + A.u) - 1 := by gcongr
    _ ≤ 64 * A.u := by nlinarith [mul_pos hu hu, mul_pos (mul_pos hu hu) hu]

-- Matsubara frequencies of doubles, temperature 1/100
example : ∃ A : FloatArith, A.p = 53 ∧ ∀ n,
    |matsubaraFl A n 100 - (matsubaraFrequencies n 100).im| ≤ ((1 + A.u) ^ 4 - 1) * |(matsubaraFrequencies n 100).im| := by
  obtain ⟨A, h1, h2, h3, h4⟩ := double
  have := u_pos A
  exact ⟨A, h1, fun n => matsubara_frequencies_rounding A (by omega) n (by norm_num) (by linarith) (by linarith)⟩

-- bosonic frequencies
example : ∃ A : FloatArith, A.p = 53 ∧ ∀ n,
    |matsubaraBFl A n 100 - (matsubaraFrequenciesB n 100).im| ≤ ((1 + A.u) ^ 4 - 1) * |(matsubaraFrequenciesB n 100).im| := by
  obtain ⟨A, h1, h2, h3, h4⟩ := double
  have := u_pos A
  exact ⟨A, h1, fun n => matsubara_frequencies_b_rounding A (by omega) n (by norm_num) (by linarith) (by linarith)⟩

-- the Bethe Green's function is lost at `10^10` half bandwidths in extended precision
example : ∃ A B : FloatArith, A.p = 53 ∧ B.p = 64 ∧ ∀ D, 0 < D →
    betheGfFl A B (fun _ _ => 10 ^ 10) (fun t => B.rnd (-(1 / t ^ 2))) (fun x => B.rnd √x) (10 ^ 10 * D) D = 0
      ∧ (betheGfZ ((10 ^ 10 * D : ℝ) * Complex.I) D).im < 0 := by
  obtain ⟨A, hA, -⟩ := exists_arith 53 (-1074)
  obtain ⟨B, hB, hBk⟩ := exists_arith 64 (-16445)
  have hη : B.eta ≤ B.u / 4 := by
    have := eta_small B (k := -2) (by omega)
    rwa [show (2 : ℝ) ^ (-2 : ℤ) = 1 / 4 by norm_num, mul_one_div] at this
  refine ⟨A, B, hA, hB, fun D hD => ?_⟩
  refine bethe_gf_rounding_lost A B (by omega) (by omega) hη (κ := 1) (by linarith [u_le_one B]) (fun t ht => ⟨?_, ?_⟩) ?_
    (by positivity) hD (by norm_num) ?_
  · exact rnd_nonpos B (neg_nonpos.2 (by positivity))
  · have := rnd_err' B (-(1 / t ^ 2))
    rwa [abs_neg, abs_of_pos (by positivity : 0 < 1 / t ^ 2), ← one_mul B.u] at this
  · simp only [Real.sqrt_one]
    exact rnd_one B (by omega)
  · rw [FloatArith.u, hB]
    norm_num

-- the Bethe Green's function at the frequency of the half bandwidth
example : ∃ A B : FloatArith, A.p = 53 ∧ B.p = 64 ∧
    |betheGfFl A B (fun w D => A.rnd (w / D)) (fun t => B.rnd (-(1 / t ^ 2))) (fun x => B.rnd √x) 1 1
        - (betheGfZ ((1 : ℝ) * Complex.I) (1 : ℝ)).im|
      ≤ ((1 + 0 / (1 - 0)) * (1 + A.u) ^ 2 * (1 + B.u) ^ 3
          * (1 + ((1 + 1 * B.u) ^ 2 * (1 + B.u) - 1) * (2 + 4 * A.rnd (1 / 1) ^ 2)) - 1)
        * |(betheGfZ ((1 : ℝ) * Complex.I) (1 : ℝ)).im| + A.eta := by
  obtain ⟨A, hA, hAk⟩ := exists_arith 53 (-1074)
  obtain ⟨B, hB, hBk⟩ := exists_arith 64 (-16445)
  have hu := u_pos B
  have huA := u_pos A
  have hη : B.eta ≤ B.u / 4 := by
    have := eta_small B (k := -2) (by omega)
    rwa [show (2 : ℝ) ^ (-2 : ℤ) = 1 / 4 by norm_num, mul_one_div] at this
  have hηA : A.eta ≤ A.u / 4 := by
    have := eta_small A (k := -2) (by omega)
    rwa [show (2 : ℝ) ^ (-2 : ℤ) = 1 / 4 by norm_num, mul_one_div] at this
  have hus : B.u ≤ 1 / 1024 := by
    rw [FloatArith.u, hB]
    norm_num
  have a1 : A.rnd (1 / 1) = 1 := by
    rw [div_one]
    exact rnd_one A (by omega)
  have a2 : A.rnd (2 / 1) = 2 := by
    rw [div_one]
    have := rnd_float A (float_int (p := A.p) (kmin := A.kmin) (by omega) (n := 2) (by rw [hA]; norm_num))
    simpa using this
  have b1 : B.rnd 2 = 2 := by
    have := rnd_float B (float_int (p := B.p) (kmin := B.kmin) (by omega) (n := 2) (by rw [hB]; norm_num))
    simpa using this
  have bm : B.rnd (-1) = -1 := by
    have := rnd_float B (float_int (p := B.p) (kmin := B.kmin) (by omega) (n := -1) (by rw [hB]; norm_num))
    simpa using this
  have bq : B.rnd (-(1 / 4)) = -(1 / 4) := by
    refine rnd_float B ⟨-1, -2, by omega, by rw [hB]; norm_num, by norm_num⟩
  have s2 : 1.3 ≤ √2 := Real.le_sqrt_of_sq_le (by norm_num)
  have hs : ∀ x : ℝ, 1 ≤ x → IsFloat B.p B.kmin (B.rnd √x) ∧ |B.rnd √x - √x| ≤ 1 * B.u * |√x| := fun x hx => by
    refine ⟨B.float _, ?_⟩
    rw [one_mul]
    refine rnd_rel B ?_
    have : 1 ≤ √x := Real.one_le_sqrt.2 hx
    rw [abs_of_pos (by linarith)]
    nlinarith
  refine ⟨A, B, hA, hB, ?_⟩
  refine bethe_gf_rounding_partial A B (by omega) zero_le_one (by nlinarith) one_pos one_pos one_pos ?_ ?_ hs (by linarith)
    ?_ ?_ ?_ ?_
  · simp only [a1]
    norm_num
  · simp only [a1]
    norm_num [bm]
    exact hu.le
  · norm_num
    linarith
  · simp only [a1, a2]
    norm_num
    linarith
  · simp only [a1, a2]
    norm_num [bm, b1]
    have h1 := (hs 2 (by norm_num)).2
    rw [abs_of_pos (by linarith : 0 < √2), one_mul] at h1
    have s3 : √2 ≤ 2 := Real.sqrt_le_iff.2 ⟨by norm_num, by norm_num⟩
    have h2 : 1.25 ≤ B.rnd √2 := by nlinarith [(abs_le.1 h1).1]
    have h3 := rnd_mono B (show 1 - B.rnd √2 ≤ -(1 / 4) by linarith)
    rw [bq] at h3
    have h4 : 1 / 4 ≤ |B.rnd (1 - B.rnd √2)| := by
      rw [abs_of_nonpos (by linarith)]
      linarith
    nlinarith
  · simp only [a1]
    norm_num [bm]

-- two poles
example (hp : 1 ≤ A.p) (hk : A.kmin ≤ -2) :
    ‖poleGfFl A (fun w ζ => w / ζ) Complex.I ![-1, 1] ![1 / 2, 1 / 2] (.node (.leaf 0) (.leaf 1))
      - poleGfZ Complex.I (fun i => ((![-1, 1] : Fin 2 → ℝ) i : ℂ)) (fun i => ((![1 / 2, 1 / 2] : Fin 2 → ℝ) i : ℂ))‖
      ≤ ((1 + A.u) ^ 1 * (1 + 0 * A.u) * (1 + A.u / (1 - A.u)) - 1)
        * ∑ i, |(![1 / 2, 1 / 2] : Fin 2 → ℝ) i| / ‖Complex.I - ((![-1, 1] : Fin 2 → ℝ) i : ℂ)‖ := by
  have fi : ∀ n : ℤ, |n| ≤ 1 → IsFloat A.p A.kmin n := fun n hn =>
    float_int (by omega) (hn.trans (one_le_pow₀ (by norm_num)))
  have f0 : IsFloat A.p A.kmin 0 := by simpa using fi 0 (by norm_num)
  have f1 : IsFloat A.p A.kmin 1 := by simpa using fi 1 (by norm_num)
  have fm : IsFloat A.p A.kmin (-1) := by simpa using fi (-1) (by norm_num)
  have r1 : A.rnd 1 = 1 := rnd_float A f1
  have rm : A.rnd (-1) = -1 := rnd_float A fm
  have q : ∀ n : ℤ, |n| ≤ 1 → IsFloat A.p A.kmin (n / 4) := fun n hn =>
    ⟨n, -2, hk, hn.trans (one_le_pow₀ (by norm_num)), by norm_num; ring⟩
  refine pole_gf_rounding A le_rfl hp (by simp) ?_ ?_ ?_
  · intro i
    fin_cases i
    · exact ⟨by simpa using f0, by simpa using fm⟩
    · exact ⟨by simpa using f0, by simpa using f1⟩
  · intro i
    refine ⟨?_, by simp⟩
    fin_cases i
    · have e : ((1 / 2 : ℝ) : ℂ) / (⟨1, 1⟩ : ℂ) = ⟨(1 : ℤ) / 4, (-1 : ℤ) / 4⟩ := by
        rw [div_eq_iff (by intro h; simpa using congrArg Complex.re h)]
        apply Complex.ext <;> simp <;> norm_num
      have h := show IsFloatC A.p A.kmin (⟨(1 : ℤ) / 4, (-1 : ℤ) / 4⟩ : ℂ) from
        ⟨by simpa using q 1 (by norm_num), by simpa using q (-1) (by norm_num)⟩
      rw [← e] at h
      simpa [r1] using h
    · have e : ((1 / 2 : ℝ) : ℂ) / (⟨-1, 1⟩ : ℂ) = ⟨(-1 : ℤ) / 4, (-1 : ℤ) / 4⟩ := by
        rw [div_eq_iff (by intro h; simpa using congrArg Complex.re h)]
        apply Complex.ext <;> simp <;> norm_num
      have h := show IsFloatC A.p A.kmin (⟨(-1 : ℤ) / 4, (-1 : ℤ) / 4⟩ : ℂ) from
        ⟨by simpa using q (-1) (by norm_num), by simpa using q (-1) (by norm_num)⟩
      rw [← e] at h
      simpa [rm] using h
  · refine List.perm_of_nodup_nodup_toFinset_eq (by simp [SumTree.leaves]) (Finset.nodup_toList _) ?_
    rw [Finset.toList_toFinset]
    rfl

end Gftool.Props
