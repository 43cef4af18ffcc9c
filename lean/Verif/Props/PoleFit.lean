import Verif.Model.Pole
import Verif.Props.Pole
import Verif.Props.Linalg
import Mathlib.Tactic

/-!
# Properties C12 and C13: pole functions from moments and from fits
-/

namespace Gftool.Props

open Gftool Model Lemmas Matrix

variable {𝕜 : Type*} [RCLike 𝕜]

/-! ## Chebyshev points -/

/-- Argument of the sine in `chebyshevPoints`. -/
private noncomputable def chebArg (n : ℕ) (k : Fin n) : ℝ :=
  0.5 * Real.pi / n * (-(n : ℝ) + 1 + 2 * (k : ℕ))

private lemma chebArg_mem (n : ℕ) (k : Fin n) :
    chebArg n k ∈ Set.Ioo (-(Real.pi / 2)) (Real.pi / 2) := by
  have hn : (0 : ℝ) < n := by exact_mod_cast (Nat.lt_of_le_of_lt (Nat.zero_le _) k.2)
  have hk : ((k : ℕ) : ℝ) + 1 ≤ n := by exact_mod_cast k.2
  have hk0 : (0 : ℝ) ≤ (k : ℕ) := by positivity
  have hpi := Real.pi_pos
  have e : chebArg n k = Real.pi / 2 * ((-(n : ℝ) + 1 + 2 * (k : ℕ)) / n) := by
    unfold chebArg; field_simp; ring
  rw [e]
  constructor
  · have : -1 < (-(n : ℝ) + 1 + 2 * (k : ℕ)) / n := by rw [lt_div_iff₀ hn]; linarith
    nlinarith
  · have : (-(n : ℝ) + 1 + 2 * (k : ℕ)) / n < 1 := by rw [div_lt_iff₀ hn]; linarith
    nlinarith

/-- The Chebyshev points are strictly increasing … -/
theorem chebyshev_strictMono (n : ℕ) : StrictMono (chebyshevPoints n) := by
  intro j k hjk
  have hn : (0 : ℝ) < n := by exact_mod_cast (Nat.lt_of_le_of_lt (Nat.zero_le _) k.2)
  have h1 := chebArg_mem n j
  have h2 := chebArg_mem n k
  refine Real.sin_lt_sin_of_lt_of_le_pi_div_two h1.1.le h2.2.le ?_
  have : ((j : ℕ) : ℝ) < (k : ℕ) := by exact_mod_cast hjk
  have hpi := Real.pi_pos
  have hp : 0 < 0.5 * Real.pi / n := by positivity
  exact mul_lt_mul_of_pos_left (by linarith) hp

/-- … and lie strictly between -1 and 1. -/
theorem chebyshev_abs_lt_one (n : ℕ) (k : Fin n) : |chebyshevPoints n k| < 1 := by
  have h := chebArg_mem n k
  have hc : 0 < Real.cos (chebArg n k) := Real.cos_pos_of_mem_Ioo h
  have hs := Real.sin_sq_add_cos_sq (chebArg n k)
  have : (chebyshevPoints n k) ^ 2 < 1 := by
    change (Real.sin (chebArg n k)) ^ 2 < 1
    nlinarith
  rw [← sq_lt_one_iff_abs_lt_one]
  exact this

/-- The largest Chebyshev point is the last one. -/
lemma chebMax_eq {n : ℕ} (hn : 0 < n) :
    chebMax n = chebyshevPoints n ⟨n - 1, by omega⟩ := by
  have : Nonempty (Fin n) := ⟨⟨0, hn⟩⟩
  refine le_antisymm (ciSup_le fun k => ?_) (le_ciSup (Set.finite_range _).bddAbove _)
  refine (chebyshev_strictMono n).monotone ?_
  rw [Fin.le_def]; have := k.2; simp only; omega

lemma chebMax_pos {n : ℕ} (hn : 1 < n) : 0 < chebMax n := by
  rw [chebMax_eq (by omega)]
  have hpi := Real.pi_pos
  have hn' : (1 : ℝ) < n := by exact_mod_cast hn
  have h2 := chebArg_mem n ⟨n - 1, by omega⟩
  refine Real.sin_pos_of_pos_of_lt_pi ?_ (by have := h2.2; unfold chebArg at this; linarith)
  have hc : (((⟨n - 1, by omega⟩ : Fin n) : ℕ) : ℝ) = n - 1 := by
    rw [Nat.cast_sub (by omega)]; simp
  rw [hc]
  have hp : 0 < 0.5 * Real.pi / n := by positivity
  have : 0 < -(n : ℝ) + 1 + 2 * (n - 1) := by linarith
  positivity

/-! ## Vandermonde matrices -/

lemma vander_square_det {n : ℕ} (poles : Fin n → ℝ) :
    (vanderT 𝕜 n poles).det ≠ 0 ↔ Function.Injective poles := by
  have h : vanderT 𝕜 n poles = (Matrix.vandermonde fun j => (poles j : 𝕜))ᵀ := by
    ext i j; simp [vanderT, Matrix.vandermonde_apply]
  rw [h, det_transpose, Matrix.det_vandermonde_ne_zero_iff]
  constructor
  · intro hi a b hab; exact hi (by simp [hab])
  · intro hi a b hab; exact hi (RCLike.ofReal_injective hab)

lemma vander_rank {n l : ℕ} (hl : l ≤ n) (poles : Fin n → ℝ)
    (hinj : Function.Injective poles) : (vanderT 𝕜 l poles).rank = l := by
  have hli : LinearIndependent 𝕜 (vanderT 𝕜 l poles).row := by
    rw [Fintype.linearIndependent_iff]
    intro g hg
    have hsq : (vanderT 𝕜 l fun j : Fin l => poles ⟨j, by omega⟩).det ≠ 0 := by
      rw [vander_square_det]
      intro a b hab
      have := hinj hab
      simp only [Fin.mk.injEq] at this
      exact Fin.ext this
    have h0 : g ᵥ* (vanderT 𝕜 l fun j : Fin l => poles ⟨j, by omega⟩) = 0 := by
      funext j
      have := congrFun hg ⟨j, by omega⟩
      simp only [Finset.sum_apply, Pi.smul_apply, smul_eq_mul, Pi.zero_apply] at this
      exact this
    intro i
    exact congrFun (Matrix.eq_zero_of_vecMul_eq_zero hsq h0) i
  simpa using hli.rank_matrix

/-! ## C12 -/

/-- The pole functions' moments of order `k+1` in terms of the (real) poles. -/
lemma moments_eq {n : ℕ} (poles : Fin n → ℝ) (res : Fin n → 𝕜) (k : ℕ) :
    poleMoments (fun j => (poles j : 𝕜)) res ((k : ℤ) + 1) = ∑ j, res j * (poles j : 𝕜) ^ k := by
  unfold poleMoments
  refine Finset.sum_congr rfl fun j _ => ?_
  rw [add_sub_cancel_right, zpow_natCast]

lemma scaled_injective {n : ℕ} {w : ℝ} (hw : w ≠ 0 ∨ n ≤ 1) :
    Function.Injective fun k => w * chebyshevPoints n k := by
  rcases hw with hw | hn
  · intro a b hab
    exact (chebyshev_strictMono n).injective (mul_left_cancel₀ hw hab)
  · intro a b _
    exact Fin.ext (by have := a.2; have := b.2; omega)

/-- The automatic width is never zero. -/
theorem auto_width_pos {n l : ℕ} (hn : 1 < n ∨ l ≤ 1) (moments : Fin l → 𝕜) :
    0 < autoWidth n moments none := by
  unfold autoWidth
  simp only
  split_ifs with h1 h2
  · have : 0 < ‖moments ⟨1, h1⟩‖ := lt_of_lt_of_le (by norm_num) h2
    rcases hn with hn | hn
    · exact div_pos this (chebMax_pos hn)
    · omega
  · norm_num
  · norm_num

/-- C12: the pole function has `n` pairwise different poles inside `[-|width|, |width|]` and
exactly the given moments, for every non-zero width (any width for a single moment). -/
theorem gf_from_moments_correct {n : ℕ} (moments : Fin n → 𝕜) (width : Option ℝ)
    (hw : width ≠ some 0 ∨ n ≤ 1) :
    ∃ g, gfFromMoments moments width = .ok g ∧ Function.Injective g.poles ∧
      (∀ k, |g.poles k| ≤ |autoWidth n moments width|) ∧
      ∀ k : Fin n, poleMoments (fun j => (g.poles j : 𝕜)) g.residues ((k : ℕ) + 1 : ℤ)
        = moments k := by
  have hw' : autoWidth n moments width ≠ 0 ∨ n ≤ 1 := by
    rcases hw with hw | hw
    · cases width with
      | none =>
        by_cases hn : n ≤ 1
        · exact Or.inr hn
        · exact Or.inl (auto_width_pos (Or.inl (by omega)) moments).ne'
      | some w => exact Or.inl fun h => hw (by simpa [autoWidth] using h)
    · exact Or.inr hw
  have hinj := scaled_injective hw'
  set poles := fun k => autoWidth n moments width * chebyshevPoints n k with hp
  have hdet : (vanderT 𝕜 n poles).det ≠ 0 := (vander_square_det _).2 hinj
  refine ⟨⟨poles, (vanderT 𝕜 n poles)⁻¹ *ᵥ moments⟩, ?_, hinj, ?_, ?_⟩
  · simp only [gfFromMoments, vecsolve, if_neg hdet, ← hp]
  · intro k
    simp only [hp, abs_mul]
    exact mul_le_of_le_one_right (abs_nonneg _) (chebyshev_abs_lt_one n k).le
  · intro k
    rw [moments_eq]
    have h := congrFun (show vanderT 𝕜 n poles *ᵥ ((vanderT 𝕜 n poles)⁻¹ *ᵥ moments) = moments by
      rw [mulVec_mulVec, Matrix.mul_nonsing_inv _ (isUnit_iff_ne_zero.2 hdet), one_mulVec]) k
    simp only [mulVec, dotProduct, vanderT, of_apply] at h
    rw [← h]
    exact Finset.sum_congr rfl fun j _ => mul_comm _ _

example : (none : Option ℝ) ≠ some 0 ∨ 3 ≤ 1 := by simp

/-- C12, error branch: width zero with two or more moments is singular and raises. -/
theorem gf_from_moments_zero_width {n : ℕ} (hn : 1 < n) (moments : Fin n → 𝕜) :
    gfFromMoments moments (some 0) = .error .linAlgError := by
  have hdet : (vanderT 𝕜 n fun k => (0 : ℝ) * chebyshevPoints n k).det = 0 := by
    by_contra h
    have := (vander_square_det _).1 h
    have h2 := @this ⟨0, by omega⟩ ⟨1, hn⟩ (by simp)
    simp at h2
  have hv : vecsolve (vanderT 𝕜 n fun k => (0 : ℝ) * chebyshevPoints n k) moments
      = .error .linAlgError := by simp only [vecsolve, if_pos hdet]
  have haw : autoWidth n moments (some 0) = 0 := rfl
  simp only [gfFromMoments, haw, hv]

/-- C12: with the automatic width the largest pole equals the absolute second moment, unless
that is small. -/
theorem gf_from_moments_auto_width {n : ℕ} (hn : 1 < n) (moments : Fin n → 𝕜)
    (hm : 0.1 ≤ ‖moments ⟨1, hn⟩‖) {g : PoleFct 𝕜 n} (hg : gfFromMoments moments none = .ok g) :
    g.poles ⟨n - 1, by omega⟩ = ‖moments ⟨1, hn⟩‖
      ∧ ∀ k, |g.poles k| ≤ ‖moments ⟨1, hn⟩‖ := by
  have hpoles : g.poles = fun k => ‖moments ⟨1, hn⟩‖ / chebMax n * chebyshevPoints n k := by
    simp only [gfFromMoments] at hg
    split at hg
    · rw [← Except.ok.inj hg]
      simp only [autoWidth, dif_pos hn, if_pos hm]
    · exact absurd hg (by simp)
  have hmax := chebMax_pos hn
  rw [hpoles]
  constructor
  · simp only
    rw [← chebMax_eq (by omega)]
    field_simp
  · intro k
    have hsym : |chebyshevPoints n k| ≤ chebMax n := by
      rw [abs_le]
      constructor
      · have hrev : chebyshevPoints n k = -chebyshevPoints n k.rev := by
          simp only [chebyshevPoints]
          rw [← Real.sin_neg]
          congr 1
          have : ((k.rev : ℕ) : ℝ) = n - 1 - (k : ℕ) := by
            rw [Fin.val_rev, Nat.cast_sub (by omega)]; push_cast; ring
          rw [this]
          ring
        rw [hrev, neg_le_neg_iff]
        exact le_ciSup (Set.finite_range (chebyshevPoints n)).bddAbove _
      · exact le_ciSup (Set.finite_range (chebyshevPoints n)).bddAbove _
    rw [abs_mul, abs_div, abs_of_pos hmax, abs_of_nonneg (norm_nonneg _), div_mul_eq_mul_div,
      div_le_iff₀ hmax]
    exact mul_le_mul_of_nonneg_left hsym (norm_nonneg _)

/-- C12: no moments give the zero function. -/
theorem gf_from_moments_empty (moments : Fin 0 → ℂ) (width : Option ℝ) (z : ℂ) :
    ∃ g, gfFromMoments moments width = .ok g ∧
      poleGfZ z (fun j => (g.poles j : ℂ)) g.residues = 0 := by
  obtain ⟨g, hg, _⟩ := gf_from_moments_correct moments width (Or.inr (by norm_num))
  exact ⟨g, hg, by simp [poleGfZ]⟩

/-- C12: the residues are determined by the moments: they are the only ones which together with the
poles have the given moments. -/
theorem gf_from_moments_unique {n : ℕ} (moments : Fin n → 𝕜) (width : Option ℝ)
    (hw : width ≠ some 0 ∨ n ≤ 1) {g : PoleFct 𝕜 n} (hg : gfFromMoments moments width = .ok g)
    (res : Fin n → 𝕜) (hres : ∀ k : Fin n,
      poleMoments (fun j => (g.poles j : 𝕜)) res ((k : ℕ) + 1 : ℤ) = moments k) :
    res = g.residues := by
  obtain ⟨g', hg', hinj, -, hmom⟩ := gf_from_moments_correct moments width hw
  obtain rfl : g = g' := Except.ok.inj (hg.symm.trans hg')
  have hdet : (vanderT 𝕜 n g.poles).det ≠ 0 := (vander_square_det _).2 hinj
  refine sub_eq_zero.1 (Matrix.eq_zero_of_mulVec_eq_zero hdet ?_)
  funext k
  have h := (hres k).trans (hmom k).symm
  rw [moments_eq, moments_eq] at h
  simp only [mulVec, dotProduct, vanderT, of_apply, Pi.sub_apply, Pi.zero_apply, mul_sub,
    Finset.sum_sub_distrib]
  rw [sub_eq_zero]
  simpa only [mul_comm] using h

/-- C12: vanishing moments give the zero function. -/
theorem gf_from_moments_zero {n : ℕ} (moments : Fin n → ℂ) (hm : ∀ k, moments k = 0)
    (width : Option ℝ) (hw : width ≠ some 0 ∨ n ≤ 1) (z : ℂ) :
    ∃ g, gfFromMoments moments width = .ok g ∧ g.residues = 0 ∧
      poleGfZ z (fun j => (g.poles j : ℂ)) g.residues = 0 := by
  obtain ⟨g, hg, -⟩ := gf_from_moments_correct moments width hw
  have h0 : g.residues = 0 :=
    (gf_from_moments_unique moments width hw hg 0 fun k => by simp [poleMoments, hm k]).symm
  exact ⟨g, hg, h0, by simp [poleGfZ, h0]⟩

example : ∀ k, (0 : Fin 3 → ℂ) k = 0 := fun _ => rfl

/-! ## C13 -/

/-- Constraint `V r = m` as a statement on the moments of the pole function. -/
lemma vander_mulVec {n l : ℕ} (poles : Fin n → ℝ) (r : Fin n → ℝ) (k : Fin l) :
    (vanderT ℝ l poles *ᵥ r) k = poleMoments poles r ((k : ℕ) + 1 : ℤ) := by
  have := moments_eq (𝕜 := ℝ) poles r k
  simp only [RCLike.ofReal_real_eq_id, id] at this
  rw [this]
  simp only [mulVec, dotProduct, vanderT, of_apply, RCLike.ofReal_real_eq_id, id]
  exact Finset.sum_congr rfl fun j _ => mul_comm _ _

/-- Weighted squared deviation of a pole function from the data `gf` at frequencies `z`. -/
noncomputable def fitErrorZ {k n : ℕ} (z gf : Fin k → ℂ) (weight : Fin k → ℝ)
    (poles r : Fin n → ℝ) : ℝ :=
  ∑ i, weight i ^ 2 * Complex.normSq
    (poleGfZ (z i) (fun j => (poles j : ℂ)) (fun j => (r j : ℂ)) - gf i)

lemma fitErrorZ_eq {k n : ℕ} (z gf : Fin k → ℂ) (weight : Fin k → ℝ)
    (poles r : Fin n → ℝ) :
    fitErrorZ z gf weight poles r = sqNorm (fitMatZ z poles weight *ᵥ r - fitVecZ gf weight) := by
  unfold fitErrorZ sqNorm
  rw [Fin.sum_univ_add, ← Finset.sum_add_distrib]
  refine Finset.sum_congr rfl fun i _ => ?_
  have hre : (poleGfZ (z i) (fun j => (poles j : ℂ)) (fun j => (r j : ℂ))).re
      = ∑ j, (1 / (z i - poles j)).re * r j := by
    unfold poleGfZ
    rw [Complex.re_sum]
    refine Finset.sum_congr rfl fun j _ => ?_
    rw [div_eq_mul_one_div, Complex.re_ofReal_mul, mul_comm]
  have him : (poleGfZ (z i) (fun j => (poles j : ℂ)) (fun j => (r j : ℂ))).im
      = ∑ j, (1 / (z i - poles j)).im * r j := by
    unfold poleGfZ
    rw [Complex.im_sum]
    refine Finset.sum_congr rfl fun j _ => ?_
    rw [div_eq_mul_one_div, Complex.im_ofReal_mul, mul_comm]
  have h1 : (fitMatZ z poles weight *ᵥ r - fitVecZ gf weight) (Fin.castAdd k i)
      = weight i * ((poleGfZ (z i) (fun j => (poles j : ℂ)) (fun j => (r j : ℂ))).re
          - (gf i).re) := by
    simp only [Pi.sub_apply, mulVec, dotProduct, fitMatZ, fitVecZ, of_apply, Fin.append_left]
    rw [hre, mul_sub, Finset.mul_sum]
    congr 1
    exact Finset.sum_congr rfl fun j _ => by ring
  have h2 : (fitMatZ z poles weight *ᵥ r - fitVecZ gf weight) (Fin.natAdd k i)
      = weight i * ((poleGfZ (z i) (fun j => (poles j : ℂ)) (fun j => (r j : ℂ))).im
          - (gf i).im) := by
    simp only [Pi.sub_apply, mulVec, dotProduct, fitMatZ, fitVecZ, of_apply, Fin.append_right]
    rw [him, mul_sub, Finset.mul_sum]
    congr 1
    exact Finset.sum_congr rfl fun j _ => by ring
  rw [h1, h2, Complex.normSq_apply, Complex.sub_re, Complex.sub_im, Real.norm_eq_abs,
    Real.norm_eq_abs, sq_abs, sq_abs]
  ring

/-- C13: `pole_gf_from_z` honours the requested moments exactly, and is the best (weighted)
fit among all residues that do. -/
theorem gf_from_z_correct (ext : LinalgExt ℝ) {k l n : ℕ} (z gf : Fin k → ℂ)
    (moments : Fin l → ℝ) (width : Option ℝ) (weight : Option (Fin k → ℝ)) (hn : n ≠ 0)
    (hln : l ≤ n) (hw : width ≠ some 0) :
    ∃ g, gfFromZ ext z gf n moments width weight = .ok g ∧
      (∀ j, g.poles j = autoWidth n moments width * chebyshevPoints n j) ∧
      (∀ m : Fin l, poleMoments g.poles g.residues ((m : ℕ) + 1 : ℤ) = moments m) ∧
      ∀ r : Fin n → ℝ, (∀ m : Fin l, poleMoments g.poles r ((m : ℕ) + 1 : ℤ) = moments m) →
        fitErrorZ z gf (weight.getD fun _ => 1) g.poles g.residues
          ≤ fitErrorZ z gf (weight.getD fun _ => 1) g.poles r := by
  set w := autoWidth n moments width with hwd
  set poles := fun k => w * chebyshevPoints n k with hp
  have hinj : Function.Injective poles := by
    refine scaled_injective ?_
    cases width with
    | none =>
      by_cases h1 : n ≤ 1
      · exact Or.inr h1
      · exact Or.inl (auto_width_pos (Or.inl (by omega)) moments).ne'
    | some v => exact Or.inl fun h => hw (by rw [hwd] at h; simpa [autoWidth] using h)
  by_cases hl : 0 < l
  · obtain ⟨x, hx, hc, hopt⟩ := lstsq_ec_optimal ext
      (fitMatZ z poles (weight.getD fun _ => 1)) (fitVecZ gf (weight.getD fun _ => 1))
      (vanderT ℝ l poles) moments hn (vander_rank hln poles hinj)
    refine ⟨⟨poles, x⟩, ?_, fun j => rfl, ?_, ?_⟩
    · simp only [gfFromZ, if_neg hn, if_pos hl, if_neg (not_lt.2 hln), ← hwd, ← hp, hx]
    · intro m
      simp only
      rw [← vander_mulVec, hc]
    · intro r hr
      simp only
      rw [fitErrorZ_eq, fitErrorZ_eq]
      refine hopt r ?_
      funext m
      rw [vander_mulVec]
      exact hr m
  · refine ⟨⟨poles, ext.lstsq (fitMatZ z poles (weight.getD fun _ => 1))
      (fitVecZ gf (weight.getD fun _ => 1))⟩, ?_, fun j => rfl, ?_, ?_⟩
    · simp only [gfFromZ, if_neg hn, if_neg hl, ← hwd, ← hp]
    · intro m; exact absurd (Nat.lt_of_le_of_lt (Nat.zero_le _) m.2) hl
    · intro r _
      simp only
      rw [fitErrorZ_eq, fitErrorZ_eq]
      exact ext.lstsq_min _ _ r

/-- C13: `pole_gf_from_z` with more moments than poles raises `ValueError`. -/
theorem gf_from_z_overconstrained (ext : LinalgExt ℝ) {k l n : ℕ} (z gf : Fin k → ℂ)
    (moments : Fin l → ℝ) (width : Option ℝ) (weight : Option (Fin k → ℝ)) (hn : n ≠ 0)
    (hln : n < l) : gfFromZ ext z gf n moments width weight = .error .valueError := by
  have : 0 < l := by omega
  simp [gfFromZ, hn, this, hln]

/-- Weighted squared deviation of a pole function from imaginary time data. -/
noncomputable def fitErrorTau {k n : ℕ} (beta : ℝ) (gf : Fin k → ℝ) (weight : Fin k → ℝ)
    (poles r : Fin n → ℝ) : ℝ :=
  ∑ i, (weight i * (Spec.lehmannTau beta poles r (linspace0 beta k i) - gf i)) ^ 2

lemma fitErrorTau_eq {k n : ℕ} (beta : ℝ) (gf : Fin k → ℝ) (weight : Fin k → ℝ)
    (poles r : Fin n → ℝ)
    (ht : ∀ i : Fin k, 0 ≤ linspace0 beta k i ∧ linspace0 beta k i ≤ beta) :
    fitErrorTau beta gf weight poles r
      = sqNorm (fitMatTau beta poles weight *ᵥ r - fun i => weight i * gf i) := by
  unfold fitErrorTau sqNorm
  refine Finset.sum_congr rfl fun i _ => ?_
  have h1 := pole_gf_tau_eq (linspace0 beta k i) poles r beta
  rw [if_pos (ht i), poleGfTau, if_pos (ht i)] at h1
  rw [← Except.ok.inj h1, Real.norm_eq_abs, sq_abs]
  congr 1
  simp only [Pi.sub_apply, mulVec, dotProduct, fitMatTau, of_apply]
  rw [mul_sub, Finset.mul_sum]
  congr 1
  exact Finset.sum_congr rfl fun j _ => by ring

lemma linspace_mem {k : ℕ} {beta : ℝ} (hb : 0 ≤ beta) (i : Fin k) :
    0 ≤ linspace0 beta k i ∧ linspace0 beta k i ≤ beta := by
  unfold linspace0
  split_ifs with h
  · exact ⟨le_refl _, hb⟩
  · have hi := i.2
    have h1 : ((i : ℕ) : ℝ) ≤ k - 1 := by
      have : (i : ℕ) + 1 ≤ k := hi
      have : ((i : ℕ) : ℝ) + 1 ≤ k := by exact_mod_cast this
      linarith
    have h2 : (0 : ℝ) < k - 1 := by
      have : 2 ≤ k := by omega
      have : (2 : ℝ) ≤ k := by exact_mod_cast this
      linarith
    constructor
    · positivity
    · rw [← mul_div_assoc, div_le_iff₀ h2]
      nlinarith

/-- C13: `pole_gf_from_tau` without requested occupation honours the moments exactly and is
the best (weighted) fit among all residues that do. -/
theorem gf_from_tau_moments (ext : LinalgExt ℝ) {k l n : ℕ} (gf : Fin k → ℝ) {beta : ℝ}
    (hb : 0 ≤ beta) (moments : Fin l → ℝ) {width : ℝ} (weight : Option (Fin k → ℝ)) (hn : n ≠ 0)
    (hln : l ≤ n) (hw : width ≠ 0) :
    ∃ g, gfFromTau ext gf n beta moments 0 width weight = .ok g ∧
      (∀ j, g.poles j = width * chebyshevPoints n j) ∧
      (∀ m : Fin l, poleMoments g.poles g.residues ((m : ℕ) + 1 : ℤ) = moments m) ∧
      ∀ r : Fin n → ℝ, (∀ m : Fin l, poleMoments g.poles r ((m : ℕ) + 1 : ℤ) = moments m) →
        fitErrorTau beta gf (weight.getD fun _ => 1) g.poles g.residues
          ≤ fitErrorTau beta gf (weight.getD fun _ => 1) g.poles r := by
  set poles := fun k => width * chebyshevPoints n k with hp
  have hinj : Function.Injective poles := scaled_injective (Or.inl hw)
  have ht : ∀ i : Fin k, 0 ≤ linspace0 beta k i ∧ linspace0 beta k i ≤ beta :=
    fun i => linspace_mem hb i
  have htr : truncInt 0 = 0 := by simp [truncInt]
  have hnl : ¬ ((n : ℤ) < l + truncInt 0) := by rw [htr]; omega
  by_cases hl : 0 < l
  · obtain ⟨x, hx, hc, hopt⟩ := lstsq_ec_optimal ext
      (fitMatTau beta poles (weight.getD fun _ => 1)) (fun i => (weight.getD fun _ => 1) i * gf i)
      (vanderT ℝ l poles) moments hn (vander_rank hln poles hinj)
    refine ⟨⟨poles, x⟩, ?_, fun j => rfl, ?_, ?_⟩
    · simp only [gfFromTau, if_neg hn, ht, hl, hl.ne', hnl, implies_true, not_true_eq_false, ← hp,
        if_false, true_or, if_true, and_self, ne_eq, hx]
    · intro m
      simp only
      rw [← vander_mulVec, hc]
    · intro r hr
      simp only
      rw [fitErrorTau_eq _ _ _ _ _ ht, fitErrorTau_eq _ _ _ _ _ ht]
      refine hopt r ?_
      funext m
      rw [vander_mulVec]
      exact hr m
  · refine ⟨⟨poles, ext.lstsq (fitMatTau beta poles (weight.getD fun _ => 1))
      (fun i => (weight.getD fun _ => 1) i * gf i)⟩, ?_, fun j => rfl, ?_, ?_⟩
    · simp only [gfFromTau, if_neg hn, ht, hl, implies_true, not_true_eq_false, ← hp,
        if_false, false_or, and_self, ne_eq]
    · intro m; exact absurd (Nat.lt_of_le_of_lt (Nat.zero_le _) m.2) hl
    · intro r _
      simp only
      rw [fitErrorTau_eq _ _ _ _ _ ht, fitErrorTau_eq _ _ _ _ _ ht]
      exact ext.lstsq_min _ _ r

example : (0 : ℝ) ≤ 10 ∧ (3 : ℕ) ≠ 0 ∧ 2 ≤ 3 ∧ (1 : ℝ) ≠ 0 := by norm_num

/-- The constraint with occupation says what it should. -/
lemma occMat_mulVec {n l : ℕ} (poles r : Fin n → ℝ) (beta : ℝ) (moments : Fin l → ℝ)
    (occ : ℝ) (hl : 0 < l) :
    occMat l poles beta *ᵥ r = occVec moments occ ↔
      (∀ m : Fin l, poleMoments poles r ((m : ℕ) + 1 : ℤ) = moments m)
        ∧ poleOcc poles r beta = occ := by
  have e1 : ∀ m : Fin l, (occMat l poles beta *ᵥ r) (Fin.castAdd l m)
      = poleMoments poles r ((m : ℕ) + 1 : ℤ) := by
    intro m
    rw [← vander_mulVec]
    simp [mulVec, dotProduct, occMat]
  have e2 : ∀ m : Fin l, (occMat l poles beta *ᵥ r) (Fin.natAdd l m) = poleOcc poles r beta := by
    intro m
    simp only [mulVec, dotProduct, occMat, of_apply, Fin.append_right, poleOcc]
    exact Finset.sum_congr rfl fun j _ => mul_comm _ _
  constructor
  · intro h
    refine ⟨fun m => ?_, ?_⟩
    · rw [← e1, h]; simp [occVec]
    · rw [← e2 ⟨0, hl⟩, h, occVec, Fin.append_right]
  · rintro ⟨h1, h2⟩
    funext i
    refine Fin.addCases (fun m => ?_) (fun m => ?_) i
    · rw [e1, h1]; simp [occVec]
    · rw [e2, h2, occVec, Fin.append_right]

/-- C13 with requested occupation, partial: if twice the number of moments does not exceed
the number of poles, and the constraints can be met at all, then moments and occupation are
honoured exactly. Missing: the cases `moments = ()` and `n < 2 l`, in which the code raises
although the problem is solvable (`gf_from_tau_occ_no_moments`,
`gf_from_tau_occ_spurious_error`), and optimality, which is false for two or more moments
(`gf_from_tau_occ_not_optimal`). -/
theorem gf_from_tau_occ_partial (ext : LinalgExt ℝ) {k l n : ℕ} (gf : Fin k → ℝ) {beta : ℝ}
    (hb : 0 ≤ beta) (moments : Fin l → ℝ) {occ width : ℝ} (weight : Option (Fin k → ℝ))
    (hl : 0 < l) (hln : 2 * l ≤ n) (hocc : occ ≠ 0) (hint : l + truncInt occ ≤ n)
    (hsol : ∃ r : Fin n → ℝ,
      (∀ m : Fin l, poleMoments (fun j => width * chebyshevPoints n j) r ((m : ℕ) + 1 : ℤ)
        = moments m) ∧ poleOcc (fun j => width * chebyshevPoints n j) r beta = occ) :
    ∃ g, gfFromTau ext gf n beta moments occ width weight = .ok g ∧
      (∀ j, g.poles j = width * chebyshevPoints n j) ∧
      (∀ m : Fin l, poleMoments g.poles g.residues ((m : ℕ) + 1 : ℤ) = moments m) ∧
      poleOcc g.poles g.residues beta = occ := by
  set poles := fun k => width * chebyshevPoints n k with hp
  have hn : n ≠ 0 := by omega
  have ht : ∀ i : Fin k, 0 ≤ linspace0 beta k i ∧ linspace0 beta k i ≤ beta :=
    fun i => linspace_mem hb i
  obtain ⟨r, hr1, hr2⟩ := hsol
  obtain ⟨x, hx, hc⟩ := lstsq_ec_constraint ext
      (fitMatTau beta poles (weight.getD fun _ => 1)) (fun i => (weight.getD fun _ => 1) i * gf i)
      (occMat l poles beta) (occVec moments occ) hn (by omega)
      ⟨r, (occMat_mulVec poles r beta moments occ hl).2 ⟨hr1, hr2⟩⟩
  refine ⟨⟨poles, x⟩, ?_, fun j => rfl, ?_⟩
  · have hnl : ¬ ((n : ℤ) < l + truncInt occ) := by omega
    simp only [gfFromTau, if_neg hn, ht, hl, hl.ne', hnl, implies_true, not_true_eq_false, ← hp,
        if_false, true_or, if_true, and_self, ne_eq, hocc, not_false_eq_true, hx]
  · exact (occMat_mulVec poles x beta moments occ hl).1 hc

/-- C13: one moment and an occupation, the documented standard use, work for any two or more
poles: the solvability condition of `gf_from_tau_occ_partial` is met for every value. -/
theorem gf_from_tau_occ_one_moment (ext : LinalgExt ℝ) {k n : ℕ} (gf : Fin k → ℝ) {beta : ℝ}
    (hb : 0 < beta) (moments : Fin 1 → ℝ) {occ width : ℝ} (weight : Option (Fin k → ℝ))
    (hn : 2 ≤ n) (hocc : occ ≠ 0) (hocc2 : |occ| < 2) (hw : width ≠ 0) :
    ∃ g, gfFromTau ext gf n beta moments occ width weight = .ok g ∧
      poleMoments g.poles g.residues 1 = moments 0 ∧ poleOcc g.poles g.residues beta = occ := by
  have hint : (1 : ℕ) + truncInt occ ≤ (n : ℤ) := by
    have : truncInt occ ≤ 1 := by
      unfold truncInt
      rw [abs_lt] at hocc2
      split_ifs with h
      · have : ⌊occ⌋ < 2 := Int.floor_lt.2 (by push_cast; linarith)
        omega
      · exact (Int.ceil_le.2 (by push_cast; linarith))
    omega
  set p : Fin n → ℝ := fun j => width * chebyshevPoints n j with hp
  have hne : p ⟨0, by omega⟩ ≠ p ⟨1, by omega⟩ := by
    intro h
    have := scaled_injective (Or.inl hw) h
    simp at this
  set f0 := fermiFct (p ⟨0, by omega⟩) beta with hf0
  set f1 := fermiFct (p ⟨1, by omega⟩) beta with hf1
  have hf : f0 ≠ f1 := fun h => hne ((fermi_fct_strictAnti hb).injective h)
  have hsub : f0 - f1 ≠ 0 := sub_ne_zero.2 hf
  let a := (occ - moments 0 * f1) / (f0 - f1)
  let r : Fin n → ℝ := fun j => if (j : ℕ) = 0 then a else if (j : ℕ) = 1 then moments 0 - a else 0
  have hsum : ∀ g : Fin n → ℝ, ∑ j, r j * g j
      = a * g ⟨0, by omega⟩ + (moments 0 - a) * g ⟨1, by omega⟩ := by
    intro g
    obtain ⟨n', rfl⟩ : ∃ n', n = n' + 2 := ⟨n - 2, by omega⟩
    rw [Fin.sum_univ_succ, Fin.sum_univ_succ]
    have : ∑ i : Fin n', r i.succ.succ * g i.succ.succ = 0 :=
      Finset.sum_eq_zero fun i _ => by simp [r]
    rw [this]
    simp [r]
  have hsol : ∃ r : Fin n → ℝ,
      (∀ m : Fin 1, poleMoments p r ((m : ℕ) + 1 : ℤ) = moments m) ∧ poleOcc p r beta = occ := by
    refine ⟨r, ?_, ?_⟩
    · intro m
      fin_cases m
      have := hsum fun _ => 1
      simp only [mul_one] at this
      simp [poleMoments, this]
    · have := hsum fun j => fermiFct (p j) beta
      unfold poleOcc
      rw [this]
      simp only [← hf0, ← hf1, a]
      field_simp
      ring
  obtain ⟨g, h1, h2, h3, h4⟩ := gf_from_tau_occ_partial ext gf hb.le moments weight
    (by norm_num) (by omega) hocc hint hsol
  refine ⟨g, h1, ?_, h4⟩
  have := h3 0
  simpa using this

/-- C13 (violation): fixing only the occupation always raises. -/
theorem gf_from_tau_occ_no_moments (ext : LinalgExt ℝ) {k n : ℕ} (gf : Fin k → ℝ) {beta : ℝ}
    (hb : 0 ≤ beta) (moments : Fin 0 → ℝ) {occ width : ℝ} (weight : Option (Fin k → ℝ))
    (hn : n ≠ 0) (hocc : occ ≠ 0) :
    gfFromTau ext gf n beta moments occ width weight = .error .valueError := by
  have ht : ∀ i : Fin k, 0 ≤ linspace0 beta k i ∧ linspace0 beta k i ≤ beta :=
    fun i => linspace_mem hb i
  simp [gfFromTau, hn, ht, hocc]

/-- C13 (violation): with a requested occupation the code raises whenever there are fewer
poles than *twice* the number of moments, although `l + 1` constraints on `n ≥ l + 1` poles
are not over-constrained. -/
theorem gf_from_tau_occ_spurious_error (ext : LinalgExt ℝ) {k l n : ℕ} (gf : Fin k → ℝ)
    {beta : ℝ} (hb : 0 ≤ beta) (moments : Fin l → ℝ) {occ width : ℝ}
    (weight : Option (Fin k → ℝ)) (hn : n ≠ 0) (hocc : occ ≠ 0) (hln : n < 2 * l) :
    gfFromTau ext gf n beta moments occ width weight = .error .valueError := by
  have ht : ∀ i : Fin k, 0 ≤ linspace0 beta k i ∧ linspace0 beta k i ≤ beta :=
    fun i => linspace_mem hb i
  have hl : 0 < l := by omega
  set poles := fun k => width * chebyshevPoints n k with hp
  have h := (lstsq_ec_error_iff ext (fitMatTau beta poles (weight.getD fun _ => 1))
      (fun i => (weight.getD fun _ => 1) i * gf i) (occMat l poles beta)
      (occVec moments occ) .valueError).2 ⟨rfl, hn, Or.inr (by omega)⟩
  simp only [gfFromTau, if_neg hn, ht, hl, hl.ne', implies_true, not_true_eq_false, ← hp,
        if_false, true_or, if_true, and_self, ne_eq, hocc, not_false_eq_true, h]
  split_ifs <;> rfl

/-- … for example two moments and three poles. -/
example : (3 : ℕ) ≠ 0 ∧ 3 < 2 * 2 ∧ 2 + 1 ≤ 3 := by norm_num

/-- C13: over-constrained requests raise `ValueError`, with or without occupation. -/
theorem gf_from_tau_overconstrained (ext : LinalgExt ℝ) {k l n : ℕ} (gf : Fin k → ℝ) {beta : ℝ}
    (hb : 0 ≤ beta) (moments : Fin l → ℝ) {occ width : ℝ} (weight : Option (Fin k → ℝ))
    (hn : n ≠ 0) (h : n < l + if occ = 0 then 0 else 1) :
    gfFromTau ext gf n beta moments occ width weight = .error .valueError := by
  by_cases hocc : occ = 0
  · subst hocc
    have ht : ∀ i : Fin k, 0 ≤ linspace0 beta k i ∧ linspace0 beta k i ≤ beta :=
      fun i => linspace_mem hb i
    simp only [if_true, add_zero] at h
    have hl : 0 < l := by omega
    have htr : truncInt 0 = 0 := by simp [truncInt]
    have hnl : ((n : ℤ) < l + truncInt 0) := by rw [htr]; omega
    simp [gfFromTau, hn, ht, hl, hnl]
  · rw [if_neg hocc] at h
    by_cases hl : l = 0
    · subst hl; omega
    · exact gf_from_tau_occ_spurious_error ext gf hb moments weight hn hocc (by omega)

end Gftool.Props
