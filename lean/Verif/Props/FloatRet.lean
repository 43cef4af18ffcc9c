import Verif.Props.Rounding
import Verif.Lemmas.FloatRet

/-!
# Property C84: rounding errors of the retarded time Green's function of poles
-/

namespace Gftool.Props

open Gftool Model Lemmas Spec

variable {A : FloatArith} {ι : Type*} [Fintype ι]

/-- C84: `pole_gf_ret_t` for real poles, for every order in which the terms are added: every term contributes an error of the
phase `|p*t|`, plus a constant, plus the number of additions it passes, units roundoff. It vanishes exactly for negative times. -/
theorem pole_gf_ret_t_rounding {κ : ℝ} (hκu : κ * A.u ≤ 1) {cis : ℝ → ℂ}
    (hcis : ∀ y : ℝ, ‖cis y - Complex.exp (-Complex.I * y)‖ ≤ κ * A.u) (tt : ℝ) (poles weights : ι → ℝ) {t : SumTree ι}
    (ht : t.leaves.Perm Finset.univ.toList) :
    (0 ≤ tt → ‖poleGfRetTFl A cis tt poles weights t - poleGfRetT tt (fun i => (poles i : ℂ)) (fun i => (weights i : ℂ))‖ ≤
      ∑ i, ((1 + A.u) ^ t.depth * (1 + ((|poles i * tt| + κ + 4) * A.u + A.eta)) - 1) * |weights i| +
        (1 + A.u) ^ t.depth * (Fintype.card ι * (2 * A.eta))) ∧
    (tt < 0 → poleGfRetTFl A cis tt poles weights t = 0) := by
  have hu0 := u_pos A
  constructor
  swap
  · intro h
    unfold poleGfRetTFl singlePoleGfRetTFl
    simp only [if_neg (not_le.2 h), Complex.zero_re, Complex.zero_im, mul_zero, rnd_zero]
    clear ht
    induction t with
    | leaf i => rfl
    | node l r hl hr =>
      simp only [SumTree.sum, hl, hr, Complex.zero_re, Complex.zero_im, add_zero, rnd_zero]
      rfl
  intro h
  set H : ι → ℂ := fun i => singlePoleGfRetTFl A cis tt (poles i) with hH
  set G : ι → ℂ := fun i => -Complex.I * Complex.exp (-Complex.I * poles i * tt) with hG
  set f : ι → ℂ := fun i => ⟨A.rnd (weights i * (H i).re), A.rnd (weights i * (H i).im)⟩ with hf
  have hG1 : ∀ i, ‖G i‖ = 1 := by
    intro i
    rw [hG]
    simp only
    rw [norm_mul, norm_neg, Complex.norm_I, one_mul,
      show -Complex.I * poles i * tt = ((-(poles i * tt) : ℝ) : ℂ) * Complex.I by push_cast; ring, Complex.norm_exp_ofReal_mul_I]
  have hHG : ∀ i, ‖H i - G i‖ ≤ (|poles i * tt| + κ) * A.u + A.eta := by
    intro i
    rw [hH, hG]
    unfold singlePoleGfRetTFl
    simp only [if_pos h]
    rw [← mul_sub, norm_mul, norm_neg, Complex.norm_I, one_mul]
    have h1 := hcis (A.rnd (poles i * tt))
    have h2 := cis_sub (A.rnd (poles i * tt)) (poles i * tt)
    have h3 := rnd_err' A (poles i * tt)
    rw [show -Complex.I * ((poles i * tt : ℝ) : ℂ) = -Complex.I * poles i * tt by push_cast; ring] at h2
    have h4 := norm_sub_le_norm_sub_add_norm_sub (cis (A.rnd (poles i * tt)))
      (Complex.exp (-Complex.I * (A.rnd (poles i * tt) : ℝ))) (Complex.exp (-Complex.I * poles i * tt))
    linarith
  have hH2 : ∀ i, ‖H i‖ ≤ 2 := by
    intro i
    rw [hH]
    unfold singlePoleGfRetTFl
    simp only [if_pos h]
    rw [norm_mul, norm_neg, Complex.norm_I, one_mul]
    have h1 := hcis (A.rnd (poles i * tt))
    have h2 := norm_sub_norm_le (cis (A.rnd (poles i * tt))) (Complex.exp (-Complex.I * (A.rnd (poles i * tt) : ℝ)))
    have h3 : ‖Complex.exp (-Complex.I * (A.rnd (poles i * tt) : ℝ))‖ = 1 := by
      rw [show -Complex.I * ((A.rnd (poles i * tt) : ℝ) : ℂ) = ((-(A.rnd (poles i * tt)) : ℝ) : ℂ) * Complex.I by
        push_cast; ring, Complex.norm_exp_ofReal_mul_I]
    linarith
  set ε : ι → ℝ := fun i => (|poles i * tt| + κ + 4) * A.u + A.eta with hε
  have hfg : ∀ i, ‖f i - weights i * G i‖ ≤ ε i * |weights i| + 2 * A.eta := by
    intro i
    have h1 := rnd_comp_err A (weights i * H i)
    rw [Complex.re_ofReal_mul, Complex.im_ofReal_mul] at h1
    have h2 : ‖(weights i : ℂ) * H i‖ ≤ |weights i| * 2 := by
      rw [norm_mul, Complex.norm_real, Real.norm_eq_abs]
      exact mul_le_mul_of_nonneg_left (hH2 i) (abs_nonneg _)
    have h3 : ‖(weights i : ℂ) * H i - weights i * G i‖ ≤ |weights i| * ((|poles i * tt| + κ) * A.u + A.eta) := by
      rw [← mul_sub, norm_mul, Complex.norm_real, Real.norm_eq_abs]
      exact mul_le_mul_of_nonneg_left (hHG i) (abs_nonneg _)
    have h4 := norm_sub_le_norm_sub_add_norm_sub (f i) (weights i * H i) (weights i * G i)
    have h5 : ‖f i - weights i * H i‖ ≤ 2 * A.u * ‖(weights i : ℂ) * H i‖ + 2 * A.eta := h1
    have h6 := mul_le_mul_of_nonneg_left h2 (show 0 ≤ 2 * A.u by linarith)
    rw [hε]
    simp only
    nlinarith
  have hfn : ∀ i, ‖f i‖ ≤ (1 + ε i) * |weights i| + 2 * A.eta := by
    intro i
    have h2 := norm_sub_norm_le (f i) (weights i * G i)
    have h3 : ‖(weights i : ℂ) * G i‖ = |weights i| := by
      rw [norm_mul, Complex.norm_real, Real.norm_eq_abs, hG1, mul_one]
    have := hfg i
    linarith
  have hs := sum_rounding A f t fun i _ => ⟨A.float _, A.float _⟩
  have e1 : (t.leaves.map f).sum = ∑ i, f i := by
    rw [(ht.map _).sum_eq, Finset.sum_map_toList]
  have e2 : (t.leaves.map fun i => ‖f i‖).sum = ∑ i, ‖f i‖ := by
    rw [(ht.map _).sum_eq, Finset.sum_map_toList]
  rw [e1, e2] at hs
  have hex : poleGfRetT tt (fun i => (poles i : ℂ)) (fun i => (weights i : ℂ)) = ∑ i, weights i * G i := by
    unfold poleGfRetT singlePoleGfRetT
    simp only [if_pos h]
    rfl
  have hfl : poleGfRetTFl A cis tt poles weights t = t.sum A f := rfl
  rw [hex, hfl]
  have h3 : ‖∑ i, f i - ∑ i, (weights i : ℂ) * G i‖ ≤ ∑ i, ε i * |weights i| + Fintype.card ι * (2 * A.eta) := by
    rw [← Finset.sum_sub_distrib]
    refine (norm_sum_le _ _).trans ((Finset.sum_le_sum fun i _ => hfg i).trans (le_of_eq ?_))
    rw [Finset.sum_add_distrib, Finset.sum_const, Finset.card_univ, nsmul_eq_mul]
  have h4 : ∑ i, ‖f i‖ ≤ ∑ i, (1 + ε i) * |weights i| + Fintype.card ι * (2 * A.eta) := by
    refine (Finset.sum_le_sum fun i _ => hfn i).trans (le_of_eq ?_)
    rw [Finset.sum_add_distrib, Finset.sum_const, Finset.card_univ, nsmul_eq_mul]
  have hP : 0 ≤ (1 + A.u) ^ t.depth - 1 := by
    have := one_le_pow₀ (show 1 ≤ 1 + A.u by linarith) (n := t.depth)
    linarith
  have h5 := mul_le_mul_of_nonneg_left h4 hP
  have h6 := norm_sub_le_norm_sub_add_norm_sub (t.sum A f) (∑ i, f i) (∑ i, (weights i : ℂ) * G i)
  refine (h6.trans (add_le_add (hs.trans h5) h3)).trans (le_of_eq ?_)
  have e3 : ∑ i, ((1 + A.u) ^ t.depth * (1 + ε i) - 1) * |weights i| =
      ((1 + A.u) ^ t.depth - 1) * ∑ i, (1 + ε i) * |weights i| + ∑ i, ε i * |weights i| := by
    rw [Finset.mul_sum, ← Finset.sum_add_distrib]
    refine Finset.sum_congr rfl fun i _ => ?_
    ring
  rw [e3]
  ring

-- doubles, exact phase factors, two poles
example : ∃ A : FloatArith, A.p = 53 ∧ A.kmin = -1074 ∧
    ‖poleGfRetTFl A (fun y => Complex.exp (-Complex.I * y)) 2 ![3, 1] ![1, 2] (.node (.leaf 0) (.leaf 1)) -
      poleGfRetT 2 (fun i => ((![3, 1] : Fin 2 → ℝ) i : ℂ)) (fun i => ((![1, 2] : Fin 2 → ℝ) i : ℂ))‖ ≤ 30 * A.u + 10 * A.eta := by
  obtain ⟨A, hp, hk⟩ := exists_arith 53 (-1074)
  have hu : A.u ≤ 1 / 1000 := by
    unfold FloatArith.u
    rw [hp]
    norm_num
  have hu0 := u_pos A
  have he : A.eta ≤ 1 / 1000 := by
    unfold FloatArith.eta
    rw [hk]
    have : (2 : ℝ) ^ (-1074 : ℤ) ≤ 2 ^ (-10 : ℤ) := zpow_le_zpow_right₀ (by norm_num) (by norm_num)
    rw [show (2 : ℝ) ^ (-10 : ℤ) = 1 / 1024 by norm_num] at this
    generalize (2 : ℝ) ^ (-1074 : ℤ) = y at this ⊢
    linarith
  have he0 := eta_pos A
  refine ⟨A, hp, hk, ?_⟩
  have h := (pole_gf_ret_t_rounding (A := A) (κ := 0) (by linarith) (cis := fun y => Complex.exp (-Complex.I * y))
    (fun y => by simp) 2 ![3, 1] ![1, 2] (t := .node (.leaf 0) (.leaf 1))
    ((List.perm_ext_iff_of_nodup (by simp [SumTree.leaves]) (Finset.nodup_toList _)).2 fun i => by
      fin_cases i <;> simp [SumTree.leaves])).1 (by norm_num)
  refine h.trans ?_
  rw [Fin.sum_univ_two, show (SumTree.node (.leaf (0 : Fin 2)) (.leaf 1)).depth = 1 from rfl, Fintype.card_fin]
  norm_num
  nlinarith

end Gftool.Props
