import Verif.Props.Rounding
import Verif.Lemmas.FloatTau

/-!
# Property C84: rounding errors of the imaginary time Green's function of poles
-/

namespace Gftool.Props

open Gftool Model Lemmas Spec

variable {A : FloatArith}

/-- C84: the imaginary time Green's function of a pole has an absolute error of some units roundoff, uniformly in imaginary
time, temperature and position of the pole. -/
theorem single_pole_gf_tau_rounding (hp : 1 ≤ A.p) (hu : A.u ≤ 1 / 16) (hη : A.eta ≤ A.u) {κ κ' : ℝ} (hκ : 0 ≤ κ)
    (hκ' : 0 ≤ κ') (hκu : (κ + 7) * A.u ≤ 1) (hκu' : (κ' + 15) * A.u ≤ 1) {expFl expitFl : ℝ → ℝ}
    (hexp : Accurate A κ' Real.exp expFl (Set.Iic 0)) (hexpit : Accurate A κ expit expitFl Set.univ) {tau beta : ℝ}
    (hτ : IsFloat A.p A.kmin tau) (hβ : IsFloat A.p A.kmin beta) (h0 : 0 ≤ tau) (h1 : tau ≤ beta) (pole : ℝ) :
    |singlePoleGfTauFl A expFl expitFl tau pole beta - singlePoleGfTau tau pole beta| ≤ (2 * κ' + κ + 42) * A.u := by
  have hu0 := u_pos A
  -- distance in imaginary time
  set s := if 0 ≤ pole then -tau else -tau + beta with hs
  set s' := if 0 ≤ pole then -tau else A.rnd (-tau + beta) with hs'
  have hss : |s' - s| ≤ A.u * |s| := by
    rw [hs, hs']
    split_ifs
    · rw [sub_self, abs_zero]
      positivity
    · exact rnd_add_err A (float_neg hτ) hβ
  have hneg : s * pole ≤ 0 := by
    rw [hs]
    split_ifs with hc
    · nlinarith
    · rw [not_le] at hc
      nlinarith
  have hneg' : s' * pole ≤ 0 := by
    rw [hs']
    split_ifs with hc
    · nlinarith
    · rw [not_le] at hc
      have := rnd_nonneg A (show 0 ≤ -tau + beta by linarith)
      nlinarith
  set X := -(s * pole) with hX
  have hX0 : 0 ≤ X := by linarith
  have hXa : |s * pole| = X := by rw [hX, abs_of_nonpos hneg]
  have hd : |s' * pole - s * pole| ≤ A.u * X := by
    rw [← sub_mul, abs_mul, ← hXa, abs_mul, ← mul_assoc]
    exact mul_le_mul_of_nonneg_right hss (abs_nonneg _)
  set e := A.rnd (s' * pole) with he
  have he0 : e ≤ 0 := rnd_nonpos A hneg'
  have heX : |e - -X| ≤ 3 * A.u * X + A.u := by
    have h2 := rnd_err' A (s' * pole)
    have h3 := abs_sub_abs_le_abs_sub (s' * pole) (s * pole)
    rw [hXa] at h3
    have h4 := abs_sub_le e (s' * pole) (s * pole)
    rw [show -X = s * pole by rw [hX, neg_neg]]
    have h5 : |s' * pole| ≤ 2 * X := by nlinarith
    have h6 := mul_le_mul_of_nonneg_left h5 hu0.le
    linarith
  have hE := exp_perturb hu0 hu hX0 heX
  have hE' := hexp e he0
  have hexp1 : Real.exp e ≤ 1 := Real.exp_le_one_iff.2 he0
  have hEE : |-expFl e - -Real.exp (-X)| ≤ (κ' + 15) * A.u := by
    rw [abs_of_pos (Real.exp_pos e)] at hE'
    have h2 := mul_le_mul_of_nonneg_left hexp1 (mul_nonneg hκ' hu0.le)
    have h3 := abs_sub_le (expFl e) (Real.exp e) (Real.exp (-X))
    rw [show -expFl e - -Real.exp (-X) = -(expFl e - Real.exp (-X)) by ring, abs_neg]
    linarith
  have hF := fermi_fct_rounding_abs A hκ hexpit hp hη (-npSign pole * pole) beta
  have hf : fermiFct (-npSign pole * pole) beta = fermi beta (-npSign pole * pole) := by rw [fermi_expit]; rfl
  have hf0 : 0 < fermi beta (-npSign pole * pole) := by rw [fermi_expit]; exact expit_pos _
  have hf1 : fermi beta (-npSign pole * pole) < 1 := by rw [fermi_expit]; exact expit_lt_one _
  have hfl : singlePoleGfTauFl A expFl expitFl tau pole beta =
      A.rnd (-expFl e * fermiFctFl A expitFl (-npSign pole * pole) beta) := rfl
  have hex : singlePoleGfTau tau pole beta = -Real.exp (-X) * fermi beta (-npSign pole * pole) := by
    unfold singlePoleGfTau
    simp only
    rw [← hs, hf, hX, neg_neg]
  rw [hfl, hex]
  refine (prod_err ?_ ?_ hEE hF hκu' hκu hu0 hη _ (rnd_err' A _)).trans (le_of_eq ?_)
  · rw [abs_neg, abs_of_pos (Real.exp_pos _), Real.exp_le_one_iff]
    linarith
  · rw [abs_of_pos hf0]
    exact hf1.le
  · ring

variable {ι : Type*} [Fintype ι]

/-- C84: `pole_gf_tau`, for every order in which the terms are added: the error is bounded by the number of additions a term
passes, plus a constant, units roundoff times the sum of the moduli of the weights, uniformly in imaginary time, temperature and
positions of the poles. Times outside of the interval raise the same error. -/
theorem pole_gf_tau_rounding (hp : 1 ≤ A.p) (hu : A.u ≤ 1 / 16) (hη : A.eta ≤ A.u) {κ κ' : ℝ} (hκ : 0 ≤ κ)
    (hκ' : 0 ≤ κ') (hκu : (κ + 7) * A.u ≤ 1) (hκu' : (κ' + 15) * A.u ≤ 1) (hδ : (2 * κ' + κ + 42) * A.u ≤ 1)
    {expFl expitFl : ℝ → ℝ} (hexp : Accurate A κ' Real.exp expFl (Set.Iic 0)) (hexpit : Accurate A κ expit expitFl Set.univ)
    {tau beta : ℝ} (hτ : IsFloat A.p A.kmin tau) (hβ : IsFloat A.p A.kmin beta) (poles weights : ι → ℝ) {t : SumTree ι}
    (ht : t.leaves.Perm Finset.univ.toList) :
    (0 ≤ tau ∧ tau ≤ beta → ∃ R G, poleGfTauFl A expFl expitFl tau poles weights beta t = .ok R ∧
      poleGfTau tau poles weights beta = .ok G ∧
      |R - G| ≤ ((1 + A.u) ^ t.depth * (1 + (2 * κ' + κ + 44) * A.u) - 1) * ∑ i, |weights i| +
        (1 + A.u) ^ t.depth * (Fintype.card ι * A.eta)) ∧
    (¬ (0 ≤ tau ∧ tau ≤ beta) → poleGfTauFl A expFl expitFl tau poles weights beta t = .error .assertionError ∧
      poleGfTau tau poles weights beta = .error .assertionError) := by
  classical
  have hu0 := u_pos A
  constructor
  swap
  · intro h
    exact ⟨if_neg h, if_neg h⟩
  intro h
  refine ⟨_, _, if_pos h, if_pos h, ?_⟩
  set H : ι → ℝ := fun i => singlePoleGfTauFl A expFl expitFl tau (poles i) beta with hH
  set G : ι → ℝ := fun i => singlePoleGfTau tau (poles i) beta with hG
  set δ := (2 * κ' + κ + 42) * A.u with hδd
  have hHG : ∀ i, |H i - G i| ≤ δ := fun i =>
    single_pole_gf_tau_rounding hp hu hη hκ hκ' hκu hκu' hexp hexpit hτ hβ h.1 h.2 (poles i)
  have hG1 : ∀ i, |G i| ≤ 1 := by
    intro i
    have hf : 0 < fermiFct (-npSign (poles i) * poles i) beta ∧ fermiFct (-npSign (poles i) * poles i) beta < 1 :=
      ⟨expit_pos _, expit_lt_one _⟩
    rw [hG]
    unfold singlePoleGfTau
    simp only
    rw [abs_mul, abs_neg, abs_of_pos (Real.exp_pos _), abs_of_pos hf.1]
    refine mul_le_one₀ (Real.exp_le_one_iff.2 ?_) hf.1.le hf.2.le
    split_ifs with hc
    · nlinarith [h.1]
    · rw [not_le] at hc
      nlinarith [h.2]
  set f : ι → ℝ := fun i => A.rnd (weights i * H i) with hf
  have hfg : ∀ i, |f i - weights i * G i| ≤ |weights i| * (δ + 2 * A.u) + A.eta := by
    intro i
    have h2 := rnd_err' A (weights i * H i)
    have h3 : |weights i * H i - weights i * G i| ≤ |weights i| * δ := by
      rw [← mul_sub, abs_mul]
      exact mul_le_mul_of_nonneg_left (hHG i) (abs_nonneg _)
    have h4 : |H i| ≤ 2 := by
      have := abs_sub_abs_le_abs_sub (H i) (G i)
      linarith [hHG i, hG1 i]
    have h5 : A.u * |weights i * H i| ≤ |weights i| * (2 * A.u) := by
      rw [abs_mul]
      nlinarith [mul_le_mul_of_nonneg_left h4 (mul_nonneg hu0.le (abs_nonneg (weights i)))]
    have h6 := abs_sub_le (f i) (weights i * H i) (weights i * G i)
    have h7 : |f i - weights i * H i| ≤ A.u * |weights i * H i| + A.eta := h2
    linarith
  have hfn : ∀ i, |f i| ≤ |weights i| * (1 + δ + 2 * A.u) + A.eta := by
    intro i
    have h2 := abs_sub_abs_le_abs_sub (f i) (weights i * G i)
    have h3 : |weights i * G i| ≤ |weights i| := by
      rw [abs_mul]
      exact mul_le_of_le_one_right (abs_nonneg _) (hG1 i)
    have := hfg i
    nlinarith
  have hs := sum_rounding A (fun i => (f i : ℂ)) t fun i _ => ⟨A.float _, by
    rw [Complex.ofReal_im]
    exact ⟨0, A.kmin, le_rfl, by simp, by simp⟩⟩
  have e1 : (t.leaves.map fun i => ((f i : ℝ) : ℂ)).sum = ((∑ i, f i : ℝ) : ℂ) := by
    rw [(ht.map _).sum_eq, Finset.sum_map_toList, Complex.ofReal_sum]
  have e2 : (t.leaves.map fun i => ‖((f i : ℝ) : ℂ)‖).sum = ∑ i, |f i| := by
    rw [(ht.map _).sum_eq, Finset.sum_map_toList]
    exact Finset.sum_congr rfl fun i _ => by rw [Complex.norm_real, Real.norm_eq_abs]
  rw [e1, e2] at hs
  set S := t.sum A fun i => ((f i : ℝ) : ℂ) with hS
  have h2 : |S.re - ∑ i, f i| ≤ ‖S - ((∑ i, f i : ℝ) : ℂ)‖ := by
    have := Complex.abs_re_le_norm (S - ((∑ i, f i : ℝ) : ℂ))
    rwa [Complex.sub_re, Complex.ofReal_re] at this
  set W := ∑ i, |weights i| with hW
  set n : ℝ := Fintype.card ι * A.eta with hn
  have h3 : |∑ i, f i - ∑ i, weights i * G i| ≤ W * (δ + 2 * A.u) + n := by
    rw [← Finset.sum_sub_distrib]
    refine (Finset.abs_sum_le_sum_abs _ _).trans ((Finset.sum_le_sum fun i _ => hfg i).trans (le_of_eq ?_))
    rw [Finset.sum_add_distrib, ← Finset.sum_mul, Finset.sum_const, Finset.card_univ, nsmul_eq_mul]
  have h4 : ∑ i, |f i| ≤ W * (1 + δ + 2 * A.u) + n := by
    refine (Finset.sum_le_sum fun i _ => hfn i).trans (le_of_eq ?_)
    rw [Finset.sum_add_distrib, ← Finset.sum_mul, Finset.sum_const, Finset.card_univ, nsmul_eq_mul]
  have hP : 0 ≤ (1 + A.u) ^ t.depth - 1 := by
    have := one_le_pow₀ (show 1 ≤ 1 + A.u by linarith) (n := t.depth)
    linarith
  have h5 := mul_le_mul_of_nonneg_left h4 hP
  have h6 := abs_sub_le S.re (∑ i, f i) (∑ i, weights i * G i)
  refine (h6.trans (add_le_add (h2.trans (hs.trans h5)) h3)).trans (le_of_eq ?_)
  rw [hδd]
  ring

-- doubles, exactly rounded exponentials, two poles
example : ∃ A : FloatArith, A.p = 53 ∧ A.kmin = -1074 ∧ ∃ R G,
    poleGfTauFl A (fun x => A.rnd (Real.exp x)) (fun x => A.rnd (expit x)) 1 ![1, -3] ![1 / 2, 1 / 2] 2
      (.node (.leaf 0) (.leaf 1)) = .ok R ∧ poleGfTau 1 ![1, -3] ![1 / 2, 1 / 2] 2 = .ok G ∧ |R - G| ≤ 53 * A.u := by
  obtain ⟨A, hp, hk⟩ := exists_arith 53 (-1074)
  have hu : A.u = (1 / 2) ^ 53 := by
    unfold FloatArith.u
    rw [hp]
  have he : A.eta ≤ A.u / 8 := by
    rw [hu]
    unfold FloatArith.eta
    rw [hk, show (-1074 : ℤ) = -((1074 : ℕ) : ℤ) by norm_num, zpow_neg, zpow_natCast, ← inv_pow]
    have : ((2 : ℝ)⁻¹) ^ 1074 ≤ (2⁻¹) ^ 60 := pow_le_pow_of_le_one (by norm_num) (by norm_num) (by norm_num)
    have h0 : ((2 : ℝ)⁻¹) ^ 60 ≤ (1 / 2) ^ 53 / 8 := by norm_num
    have h1 : (0 : ℝ) ≤ (2⁻¹) ^ 1074 := by positivity
    generalize ((2 : ℝ)⁻¹) ^ 1074 = y at this h1 ⊢
    generalize ((2 : ℝ)⁻¹) ^ 60 = z at this h0
    linarith
  have hu16 : A.u ≤ 1 / 1000 := by
    rw [hu]
    norm_num
  have hu0 := u_pos A
  refine ⟨A, hp, hk, ?_⟩
  have f1 : IsFloat A.p A.kmin 1 := by
    have := float_int (p := A.p) (kmin := A.kmin) (by rw [hk]; norm_num) (n := 1) (by rw [hp]; norm_num)
    simpa using this
  have f2 : IsFloat A.p A.kmin 2 := by
    have := float_int (p := A.p) (kmin := A.kmin) (by rw [hk]; norm_num) (n := 2) (by rw [hp]; norm_num)
    simpa using this
  have hr : ∀ (g : ℝ → ℝ) S, Accurate A 1 g (fun x => A.rnd (g x)) S := fun g S x _ => by
    rw [one_mul]
    exact rnd_err' A _
  obtain ⟨R, G, h1, h2, h3⟩ := (pole_gf_tau_rounding (A := A) (κ := 1) (κ' := 1) (by omega) (by linarith) (by linarith)
    zero_le_one zero_le_one (by linarith) (by linarith) (by linarith) (hr Real.exp _) (hr expit _) f1 f2 ![1, -3]
    ![1 / 2, 1 / 2] (t := .node (.leaf 0) (.leaf 1))
    ((List.perm_ext_iff_of_nodup (by simp [SumTree.leaves]) (Finset.nodup_toList _)).2 fun i => by
      fin_cases i <;> simp [SumTree.leaves])).1 (by norm_num)
  refine ⟨R, G, h1, h2, h3.trans ?_⟩
  have hW : ∑ i : Fin 2, |(![1 / 2, 1 / 2] : Fin 2 → ℝ) i| = 1 := by
    rw [Fin.sum_univ_two]
    norm_num [abs_of_pos]
  rw [hW, show (SumTree.node (.leaf (0 : Fin 2)) (.leaf 1)).depth = 1 from rfl, Fintype.card_fin]
  push_cast
  nlinarith

end Gftool.Props
