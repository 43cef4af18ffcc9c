import Verif.Props.Rounding

/-!
# Property C84: rounding errors of moments and occupations of poles
-/

namespace Gftool.Props

open Gftool Model Lemmas Spec

variable {A : FloatArith} {ι : Type*} [Fintype ι]

/-- Sum of products of weights with inaccurate numbers. -/
lemma sum_prod_rounding (w g h ε : ι → ℝ) (hh : ∀ i, |h i - g i| ≤ ε i) {t : SumTree ι}
    (ht : t.leaves.Perm Finset.univ.toList) :
    |(t.sum A fun i => (A.rnd (w i * h i) : ℂ)).re - ∑ i, w i * g i| ≤
      ∑ i, |w i| * ((1 + A.u) ^ (t.depth + 1) * (|g i| + ε i) - |g i|) + (1 + A.u) ^ t.depth * (Fintype.card ι * A.eta) := by
  have hu0 := u_pos A
  set f : ι → ℝ := fun i => A.rnd (w i * h i) with hf
  have hhn : ∀ i, |h i| ≤ |g i| + ε i := fun i => by
    have := abs_sub_abs_le_abs_sub (h i) (g i)
    linarith [hh i]
  set b : ι → ℝ := fun i => ε i + A.u * (|g i| + ε i) with hb
  have hfg : ∀ i, |f i - w i * g i| ≤ |w i| * b i + A.eta := by
    intro i
    have h2 : |f i - w i * h i| ≤ A.u * |w i * h i| + A.eta := rnd_err' A _
    have h3 : |w i * h i - w i * g i| ≤ |w i| * ε i := by
      rw [← mul_sub, abs_mul]
      exact mul_le_mul_of_nonneg_left (hh i) (abs_nonneg _)
    have h5 : A.u * |w i * h i| ≤ |w i| * (A.u * (|g i| + ε i)) := by
      rw [abs_mul]
      have := mul_le_mul_of_nonneg_left (hhn i) (mul_nonneg hu0.le (abs_nonneg (w i)))
      linarith
    have h6 := abs_sub_le (f i) (w i * h i) (w i * g i)
    rw [hb]
    simp only
    linarith
  have hfn : ∀ i, |f i| ≤ |w i| * (|g i| + b i) + A.eta := by
    intro i
    have h2 := abs_sub_abs_le_abs_sub (f i) (w i * g i)
    rw [abs_mul] at h2
    have := hfg i
    linarith
  have hs := sum_rounding A (fun i => (f i : ℂ)) t fun i _ => ⟨A.float _, by
    rw [Complex.ofReal_im]
    exact ⟨0, A.kmin, le_rfl, by simp, by simp⟩⟩
  have e1 : (t.leaves.map fun i => ((f i : ℝ) : ℂ)).sum = ((∑ i, f i : ℝ) : ℂ) := by
    rw [(ht.map _).sum_eq, Finset.sum_map_toList, Complex.ofReal_sum]
  have e2 : (t.leaves.map fun i => ‖((f i : ℝ) : ℂ)‖).sum = ∑ i, |f i| := by
    rw [(ht.map _).sum_eq, Finset.sum_map_toList]
    exact Finset.sum_congr rfl fun i _ => by rw [Complex.norm_real, Real.norm_eq_abs]
  rw [e1, e2] at hs
  set S := t.sum A fun i => ((f i : ℝ) : ℂ) with hS
  have h2 : |S.re - ∑ i, f i| ≤ ‖S - ((∑ i, f i : ℝ) : ℂ)‖ := by
    have := Complex.abs_re_le_norm (S - ((∑ i, f i : ℝ) : ℂ))
    rwa [Complex.sub_re, Complex.ofReal_re] at this
  have h3 : |∑ i, f i - ∑ i, w i * g i| ≤ ∑ i, |w i| * b i + Fintype.card ι * A.eta := by
    rw [← Finset.sum_sub_distrib]
    refine (Finset.abs_sum_le_sum_abs _ _).trans ((Finset.sum_le_sum fun i _ => hfg i).trans (le_of_eq ?_))
    rw [Finset.sum_add_distrib, Finset.sum_const, Finset.card_univ, nsmul_eq_mul]
  have h4 : ∑ i, |f i| ≤ ∑ i, |w i| * (|g i| + b i) + Fintype.card ι * A.eta := by
    refine (Finset.sum_le_sum fun i _ => hfn i).trans (le_of_eq ?_)
    rw [Finset.sum_add_distrib, Finset.sum_const, Finset.card_univ, nsmul_eq_mul]
  have hP : 0 ≤ (1 + A.u) ^ t.depth - 1 := by
    have := one_le_pow₀ (show 1 ≤ 1 + A.u by linarith) (n := t.depth)
    linarith
  have h5 := mul_le_mul_of_nonneg_left h4 hP
  have h6 := abs_sub_le S.re (∑ i, f i) (∑ i, w i * g i)
  refine (h6.trans (add_le_add (h2.trans (hs.trans h5)) h3)).trans (le_of_eq ?_)
  have e3 : ∑ i, |w i| * ((1 + A.u) ^ (t.depth + 1) * (|g i| + ε i) - |g i|) =
      ((1 + A.u) ^ t.depth - 1) * ∑ i, |w i| * (|g i| + b i) + ∑ i, |w i| * b i := by
    rw [Finset.mul_sum, ← Finset.sum_add_distrib]
    refine Finset.sum_congr rfl fun i _ => ?_
    rw [hb]
    ring
  rw [e3]
  ring

/-- C84: `pole.moments` for real poles, for every order in which the terms are added: the error is bounded by the number of
additions a term passes, plus a constant, units roundoff times the moment of the moduli. -/
theorem pole_moments_rounding {κ : ℝ} {pow : ℝ → ℤ → ℝ} (poles weights : ι → ℝ) (order : ℤ)
    (hpow : ∀ i, |pow (poles i) (order - 1) - poles i ^ (order - 1)| ≤ κ * A.u * |poles i ^ (order - 1)|) {t : SumTree ι}
    (ht : t.leaves.Perm Finset.univ.toList) :
    |poleMomentsFl A pow poles weights order t - poleMoments poles weights order| ≤
      ((1 + A.u) ^ (t.depth + 1) * (1 + κ * A.u) - 1) * ∑ i, |weights i| * |poles i| ^ (order - 1) +
        (1 + A.u) ^ t.depth * (Fintype.card ι * A.eta) := by
  refine (sum_prod_rounding weights (fun i => poles i ^ (order - 1)) (fun i => pow (poles i) (order - 1)) _ hpow ht).trans
    (le_of_eq ?_)
  rw [Finset.mul_sum]
  congr 1
  refine Finset.sum_congr rfl fun i _ => ?_
  rw [abs_zpow]
  ring

/-- C84: `PoleGf.occ` for real poles, for every order in which the terms are added: the error is bounded by the number of
additions a term passes, plus a constant, units roundoff times the sum of the moduli of the weights, for all temperatures. -/
theorem pole_occ_rounding (hp : 1 ≤ A.p) (hη : A.eta ≤ A.u) {κ : ℝ} (hκ : 0 ≤ κ) {expitFl : ℝ → ℝ}
    (he : Accurate A κ expit expitFl Set.univ) (poles weights : ι → ℝ) (beta : ℝ) {t : SumTree ι}
    (ht : t.leaves.Perm Finset.univ.toList) :
    |poleOccFl A expitFl poles weights beta t - poleOcc poles weights beta| ≤
      ((1 + A.u) ^ (t.depth + 1) * (1 + (κ + 7) * A.u) - 1) * ∑ i, |weights i| +
        (1 + A.u) ^ t.depth * (Fintype.card ι * A.eta) := by
  have hu0 := u_pos A
  have hf : ∀ i, fermiFct (poles i) beta = fermi beta (poles i) := fun i => by rw [fermi_expit]; rfl
  refine (sum_prod_rounding weights (fun i => fermiFct (poles i) beta) (fun i => fermiFctFl A expitFl (poles i) beta)
    (fun _ => (κ + 7) * A.u) (fun i => by rw [hf]; exact fermi_fct_rounding_abs A hκ he hp hη _ _) ht).trans ?_
  rw [Finset.mul_sum]
  refine add_le_add (Finset.sum_le_sum fun i _ => ?_) le_rfl
  have h0 : 0 < fermiFct (poles i) beta := expit_pos _
  have h1 : fermiFct (poles i) beta < 1 := expit_lt_one _
  have hP := one_le_pow₀ (show 1 ≤ 1 + A.u by linarith) (n := t.depth + 1)
  rw [abs_of_pos h0, mul_comm _ |weights i|]
  refine mul_le_mul_of_nonneg_left ?_ (abs_nonneg _)
  nlinarith

-- doubles, second moment and occupation of two poles
example : ∃ A : FloatArith, A.p = 53 ∧ A.kmin = -1074 ∧
    |poleMomentsFl A (fun x n => x ^ n) ![3, -1] ![1, 2] 3 (.node (.leaf 0) (.leaf 1)) - poleMoments ![3, -1] ![1, 2] 3| ≤
      34 * A.u + 4 * A.eta ∧
    ∀ beta, |poleOccFl A (fun x => A.rnd (expit x)) ![3, -1] ![1, 2] beta (.node (.leaf 0) (.leaf 1)) -
      poleOcc ![3, -1] ![1, 2] beta| ≤ 34 * A.u + 4 * A.eta := by
  obtain ⟨A, hp, hk⟩ := exists_arith 53 (-1074)
  have hu : A.u = (1 / 2) ^ 53 := by
    unfold FloatArith.u
    rw [hp]
  have he : A.eta ≤ A.u / 8 := by
    rw [hu]
    unfold FloatArith.eta
    rw [hk, show (-1074 : ℤ) = -((1074 : ℕ) : ℤ) by norm_num, zpow_neg, zpow_natCast, ← inv_pow]
    have : ((2 : ℝ)⁻¹) ^ 1074 ≤ (2⁻¹) ^ 60 := pow_le_pow_of_le_one (by norm_num) (by norm_num) (by norm_num)
    have h0 : ((2 : ℝ)⁻¹) ^ 60 ≤ (1 / 2) ^ 53 / 8 := by norm_num
    have h1 : (0 : ℝ) ≤ (2⁻¹) ^ 1074 := by positivity
    generalize ((2 : ℝ)⁻¹) ^ 1074 = y at this h1 ⊢
    generalize ((2 : ℝ)⁻¹) ^ 60 = z at this h0
    linarith
  have hu16 : A.u ≤ 1 / 1000 := by
    rw [hu]
    norm_num
  have hu0 := u_pos A
  have he0 := eta_pos A
  have ht : (SumTree.node (.leaf (0 : Fin 2)) (.leaf 1)).leaves.Perm Finset.univ.toList :=
    (List.perm_ext_iff_of_nodup (by simp [SumTree.leaves]) (Finset.nodup_toList _)).2 fun i => by
      fin_cases i <;> simp [SumTree.leaves]
  refine ⟨A, hp, hk, ?_, fun beta => ?_⟩
  · have h := pole_moments_rounding (A := A) (κ := 0) (pow := fun x n => x ^ n) ![3, -1] ![1, 2] 3 (fun i => by simp) ht
    refine h.trans ?_
    rw [Fin.sum_univ_two, show (SumTree.node (.leaf (0 : Fin 2)) (.leaf 1)).depth = 1 from rfl, Fintype.card_fin]
    have e : (3 : ℝ) ^ (2 : ℤ) = 9 := by norm_num
    norm_num [e]
    nlinarith
  · have h := pole_occ_rounding (A := A) (κ := 1) (by omega) (by linarith) zero_le_one (expitFl := fun x => A.rnd (expit x))
      (fun x _ => by rw [one_mul]; exact rnd_err' A _) ![3, -1] ![1, 2] beta ht
    refine h.trans ?_
    rw [Fin.sum_univ_two, show (SumTree.node (.leaf (0 : Fin 2)) (.leaf 1)).depth = 1 from rfl, Fintype.card_fin]
    norm_num
    nlinarith

end Gftool.Props
