import Verif.Props.Units

/-!
# Property C78: the unit of energy in fitted pole functions
-/

namespace Gftool.Props

open Gftool Model Spec Lemmas Matrix

variable {𝕜 : Type*} [RCLike 𝕜]

/-- The pole function in the new unit: poles are energies, residues numbers. -/
def scalePoleFct {n : ℕ} (c : ℝ) (p : PoleFct 𝕜 n) : PoleFct 𝕜 n := ⟨fun j => c * p.poles j, p.residues⟩

/-- C78: the width chosen for two or more moments scales, as long as the first moment is not below `0.1` in one of the
units. -/
theorem auto_width_units {c : ℝ} (hc : 0 < c) (n : ℕ) {l : ℕ} (hl : 1 < l) (m : Fin l → 𝕜)
    (h1 : 0.1 ≤ ‖m ⟨1, hl⟩‖) (h2 : 0.1 ≤ c * ‖m ⟨1, hl⟩‖) :
    autoWidth n (scaleMoments c m) none = c * autoWidth n m none := by
  have h3 : ‖scaleMoments c m ⟨1, hl⟩‖ = c * ‖m ⟨1, hl⟩‖ := by
    simp only [scaleMoments, pow_one, norm_mul, RCLike.norm_ofReal, abs_of_pos hc]
  unfold autoWidth
  simp only [dif_pos hl, h3, if_pos h1, if_pos h2]
  ring

private lemma vander_scale {c : ℝ} {n l : ℕ} (poles : Fin n → ℝ) :
    vanderT 𝕜 l (fun j => c * poles j) = diagonal (fun i : Fin l => (c : 𝕜) ^ (i : ℕ)) * vanderT 𝕜 l poles := by
  ext i j
  simp only [vanderT, of_apply, diagonal_mul, RCLike.ofReal_mul, mul_pow]

private lemma moments_scale {c : ℝ} {l : ℕ} (m : Fin l → 𝕜) :
    scaleMoments c m = diagonal (fun i : Fin l => (c : 𝕜) ^ (i : ℕ)) *ᵥ m := by
  funext i
  simp only [scaleMoments, mulVec_diagonal]

private lemma diag_unit {c : ℝ} (hc : 0 < c) (l : ℕ) :
    IsUnit (diagonal (fun i : Fin l => (c : 𝕜) ^ (i : ℕ))).det := by
  have hcc : (c : 𝕜) ≠ 0 := by exact_mod_cast hc.ne'
  rw [det_diagonal, isUnit_iff_ne_zero, Finset.prod_ne_zero_iff]
  exact fun i _ => pow_ne_zero _ hcc

private lemma constraint_scale {c : ℝ} (hc : 0 < c) {n l : ℕ} (poles : Fin n → ℝ) (m : Fin l → 𝕜) (x : Fin n → 𝕜) :
    vanderT 𝕜 l (fun j => c * poles j) *ᵥ x = scaleMoments c m ↔ vanderT 𝕜 l poles *ᵥ x = m := by
  rw [vander_scale, moments_scale, ← mulVec_mulVec]
  constructor
  · intro h
    have := congrArg (fun v => (diagonal (fun i : Fin l => (c : 𝕜) ^ (i : ℕ)))⁻¹ *ᵥ v) h
    simpa only [mulVec_mulVec, ← Matrix.mul_assoc, nonsing_inv_mul _ (diag_unit (𝕜 := 𝕜) hc l), one_mulVec,
      Matrix.one_mul] using this
  · rintro rfl
    rfl

private lemma vecsolve_scale {c : ℝ} (hc : 0 < c) {n : ℕ} (poles : Fin n → ℝ) (m : Fin n → 𝕜) :
    vecsolve (vanderT 𝕜 n fun j => c * poles j) (scaleMoments c m) = vecsolve (vanderT 𝕜 n poles) m := by
  have hu := diag_unit (𝕜 := 𝕜) hc n
  have hd : (vanderT 𝕜 n fun j => c * poles j).det = 0 ↔ (vanderT 𝕜 n poles).det = 0 := by
    rw [vander_scale, det_mul]
    exact mul_eq_zero_iff_left (isUnit_iff_ne_zero.1 hu)
  unfold vecsolve
  by_cases h0 : (vanderT 𝕜 n poles).det = 0
  · rw [if_pos h0, if_pos (hd.2 h0)]
  · rw [if_neg h0, if_neg (fun h => h0 (hd.1 h)), vander_scale, moments_scale, Matrix.mul_inv_rev, mulVec_mulVec,
      Matrix.mul_assoc, nonsing_inv_mul _ hu, Matrix.mul_one]

private lemma fromMoments_scale {c : ℝ} (hc : 0 < c) {n : ℕ} (m : Fin n → 𝕜) (w w' : Option ℝ)
    (hw : ∀ k, autoWidth n (scaleMoments c m) w' * chebyshevPoints n k = c * (autoWidth n m w * chebyshevPoints n k)) :
    gfFromMoments (scaleMoments c m) w' = (gfFromMoments m w).map (scalePoleFct c) := by
  unfold gfFromMoments
  simp only [funext hw, vecsolve_scale hc (fun k => autoWidth n m w * chebyshevPoints n k)]
  cases vecsolve (vanderT 𝕜 n fun k => autoWidth n m w * chebyshevPoints n k) m <;> rfl

private lemma cheb_one {n : ℕ} (hn : n ≤ 1) (k : Fin n) : chebyshevPoints n k = 0 := by
  obtain rfl : n = 1 := by have := k.2; omega
  obtain rfl : k = 0 := Subsingleton.elim _ _
  simp [chebyshevPoints]

/-- C78: `pole_gf_from_moments` for a given width, for at most one moment, and for the automatic width (`width=None`) if the first moment
is not below `0.1` in one of the units. -/
theorem gf_from_moments_units {c : ℝ} (hc : 0 < c) {n : ℕ} (m : Fin n → 𝕜) :
    (∀ w : ℝ, gfFromMoments (scaleMoments c m) (some (c * w)) = (gfFromMoments m (some w)).map (scalePoleFct c)) ∧
    ((n ≤ 1 ∨ ∃ h : 1 < n, 0.1 ≤ ‖m ⟨1, h⟩‖ ∧ 0.1 ≤ c * ‖m ⟨1, h⟩‖) →
      gfFromMoments (scaleMoments c m) none = (gfFromMoments m none).map (scalePoleFct c)) := by
  refine ⟨fun w => fromMoments_scale hc m _ _ fun k => ?_, ?_⟩
  · simp only [autoWidth, mul_assoc]
  · rintro (hn | ⟨hn, h1, h2⟩)
    · exact fromMoments_scale hc m _ _ fun k => by rw [cheb_one hn, mul_zero, mul_zero, mul_zero]
    · exact fromMoments_scale hc m _ _ fun k => by rw [auto_width_units hc n hn m h1 h2, mul_assoc]

private lemma sqNorm_real_smul {n : ℕ} (r : ℝ) (v : Fin n → ℝ) : sqNorm (r • v) = r ^ 2 * sqNorm v := by
  unfold sqNorm
  rw [Finset.mul_sum]
  refine Finset.sum_congr rfl fun i _ => ?_
  rw [Pi.smul_apply, smul_eq_mul, norm_mul, mul_pow, Real.norm_eq_abs, sq_abs]

private lemma lstsq_scale {m n : ℕ} {A A' : Matrix (Fin m) (Fin n) ℝ} {b b' : Fin m → ℝ} {r : ℝ}
    (hA : A' = r • A) (hb : b' = r • b) (x : Fin n → ℝ) :
    sqNorm (A' *ᵥ x - b') = r ^ 2 * sqNorm (A *ᵥ x - b) := by
  rw [hA, hb, smul_mulVec, ← smul_sub, sqNorm_real_smul]

private lemma fitMatZ_scale {c s : ℝ} (hc : 0 < c) {k n : ℕ} (z : Fin k → ℂ) (poles : Fin n → ℝ) (wt : Fin k → ℝ) :
    fitMatZ (fun i => c * z i) (fun j => c * poles j) (fun i => s * wt i) = (s / c) • fitMatZ z poles wt := by
  have hcc : (c : ℂ) ≠ 0 := by exact_mod_cast hc.ne'
  have e : ∀ (i : Fin k) j, (1 / ((c : ℂ) * z i - ((c * poles j : ℝ) : ℂ))) = ((c⁻¹ : ℝ) : ℂ) * (1 / (z i - poles j)) := by
    intro i j
    push_cast
    rw [← mul_sub, one_div, one_div, mul_inv]
  ext i j
  unfold fitMatZ
  rw [Matrix.smul_apply]
  simp only [of_apply, e, Complex.re_ofReal_mul, Complex.im_ofReal_mul, smul_eq_mul]
  refine Fin.addCases (fun i => ?_) (fun i => ?_) i
  · simp only [Fin.append_left]
    field_simp
  · simp only [Fin.append_right]
    field_simp

private lemma fitVecZ_scale {c s : ℝ} {k : ℕ} (g : Fin k → ℂ) (wt : Fin k → ℝ) :
    fitVecZ (fun i => g i / c) (fun i => s * wt i) = (s / c) • fitVecZ g wt := by
  funext i
  unfold fitVecZ
  rw [Pi.smul_apply, smul_eq_mul]
  refine Fin.addCases (fun i => ?_) (fun i => ?_) i
  · simp only [Fin.append_left, Complex.div_ofReal_re]
    ring
  · simp only [Fin.append_right, Complex.div_ofReal_im]
    ring

private lemma fromZ_scale (ext : LinalgExt ℝ) {c : ℝ} (hc : 0 < c) {k l : ℕ} (z gf : Fin k → ℂ) (n : ℕ) (m : Fin l → ℝ)
    (w w' : Option ℝ) (wt wt' : Option (Fin k → ℝ)) {s : ℝ} (hs : s ≠ 0)
    (hwt : wt'.getD (fun _ => 1) = fun i => s * wt.getD (fun _ => 1) i)
    (hw : ∀ j, autoWidth n (scaleMoments c m) w' * chebyshevPoints n j = c * (autoWidth n m w * chebyshevPoints n j))
    (hinj : Function.Injective fun j => autoWidth n m w * chebyshevPoints n j) :
    gfFromZ ext (fun i => c * z i) (fun i => gf i / c) n (scaleMoments c m) w' wt'
      = (gfFromZ ext z gf n m w wt).map (scalePoleFct c) := by
  have hsc : s / c ≠ 0 := div_ne_zero hs hc.ne'
  have hinj' : Function.Injective fun j => c * (autoWidth n m w * chebyshevPoints n j) :=
    fun a b hab => hinj (mul_left_cancel₀ hc.ne' hab)
  unfold gfFromZ
  by_cases hn : n = 0
  · rw [if_pos hn, if_pos hn]
    rfl
  · rw [if_neg hn, if_neg hn]
    simp only [funext hw, hwt]
    set poles := fun j => autoWidth n m w * chebyshevPoints n j with hp
    have hres := fun x => lstsq_scale (fitMatZ_scale (s := s) hc z poles (wt.getD fun _ => 1))
      (fitVecZ_scale (c := c) (s := s) gf (wt.getD fun _ => 1)) x
    by_cases hl : 0 < l
    · rw [if_pos hl, if_pos hl]
      by_cases hnl : n < l
      · rw [if_pos hnl, if_pos hnl]
        rfl
      · rw [if_neg hnl, if_neg hnl]
        rw [lstsq_ec_congr ext _ _ (vanderT ℝ l poles) m _ _ (vanderT ℝ l fun j => c * poles j) (scaleMoments c m) hn
          (vander_rank (by omega) _ hinj) (vander_rank (by omega) _ hinj') (sq_pos_of_ne_zero hsc) hres
          (constraint_scale hc poles m)]
        cases lstsqEc ext (fitMatZ z poles (wt.getD fun _ => 1)) (fitVecZ gf (wt.getD fun _ => 1)) (vanderT ℝ l poles) m <;>
          rfl
    · rw [if_neg hl, if_neg hl]
      simp only [Except.map, scalePoleFct]
      congr 2
      exact lstsq_map ext _ _ _ _ id Function.surjective_id (sq_pos_of_ne_zero hsc) hres fun y => rfl

/-- C78: `pole_gf_from_z` for a given width `w ≠ 0`; a common factor of all weights has no influence. -/
theorem gf_from_z_units (ext : LinalgExt ℝ) {c : ℝ} (hc : 0 < c) {k l : ℕ} (z gf : Fin k → ℂ) (n : ℕ) (m : Fin l → ℝ)
    {w : ℝ} (hw : w ≠ 0) (wt : Option (Fin k → ℝ)) {s : ℝ} (hs : s ≠ 0) :
    gfFromZ ext (fun i => c * z i) (fun i => gf i / c) n (scaleMoments c m) (some (c * w))
        (wt.map fun v i => s * v i)
      = (gfFromZ ext z gf n m (some w) wt).map (scalePoleFct c) := by
  cases wt with
  | none =>
    exact fromZ_scale ext hc z gf n m _ _ none none one_ne_zero (by simp) (fun j => by simp only [autoWidth, mul_assoc])
      (scaled_injective (.inl hw))
  | some v =>
    exact fromZ_scale ext hc z gf n m _ _ (some v) (some fun i => s * v i) hs rfl
      (fun j => by simp only [autoWidth, mul_assoc]) (scaled_injective (.inl hw))

/-- C78: `pole_gf_from_z` with the automatic width (`width=None`), if there are at least two moments and the first moment is not below `0.1`
in one of the units. -/
theorem gf_from_z_auto_units (ext : LinalgExt ℝ) {c : ℝ} (hc : 0 < c) {k l : ℕ} (z gf : Fin k → ℂ) (n : ℕ) (m : Fin l → ℝ)
    (wt wt' : Option (Fin k → ℝ)) {s : ℝ} (hs : s ≠ 0) (hwt : wt'.getD (fun _ => 1) = fun i => s * wt.getD (fun _ => 1) i)
    (hl : 1 < l) (hn : 1 < n) (h1 : 0.1 ≤ ‖m ⟨1, hl⟩‖) (h2 : 0.1 ≤ c * ‖m ⟨1, hl⟩‖) :
    gfFromZ ext (fun i => c * z i) (fun i => gf i / c) n (scaleMoments c m) none wt'
      = (gfFromZ ext z gf n m none wt).map (scalePoleFct c) :=
  fromZ_scale ext hc z gf n m none none wt wt' hs hwt
    (fun j => by rw [auto_width_units hc n hl m h1 h2, mul_assoc])
    (scaled_injective (.inl (auto_width_pos (.inl hn) m).ne'))

private lemma linspace0_scale {c beta : ℝ} (k : ℕ) (i : Fin k) : linspace0 (beta / c) k i = linspace0 beta k i / c := by
  unfold linspace0
  split_ifs
  · rw [zero_div]
  · ring

private lemma linspace0_range {c : ℝ} (hc : 0 < c) (beta : ℝ) (k : ℕ) :
    (∀ i : Fin k, 0 ≤ linspace0 (beta / c) k i ∧ linspace0 (beta / c) k i ≤ beta / c)
      ↔ ∀ i : Fin k, 0 ≤ linspace0 beta k i ∧ linspace0 beta k i ≤ beta := by
  refine forall_congr' fun i => ?_
  rw [linspace0_scale, le_div_iff₀ hc, zero_mul, div_le_div_iff_of_pos_right hc]

private lemma fitMatTau_scale {c : ℝ} (hc : 0 < c) {k n : ℕ} (beta : ℝ) (poles : Fin n → ℝ) (wt : Fin k → ℝ) :
    fitMatTau (beta / c) (fun j => c * poles j) wt = fitMatTau beta poles wt := by
  ext i j
  simp only [fitMatTau, of_apply, linspace0_scale, singlePoleGfTau_units hc]

private lemma fromTau_scale (ext : LinalgExt ℝ) {c : ℝ} (hc : 0 < c) {k l : ℕ} (gf : Fin k → ℝ) (n : ℕ) (beta : ℝ)
    (m : Fin l → ℝ) (occ : ℝ) (w w' : ℝ) (wt : Option (Fin k → ℝ)) (hocc : occ = 0 ∨ l = 1)
    (hw : ∀ j : Fin n, w' * chebyshevPoints n j = c * (w * chebyshevPoints n j))
    (hinj : Function.Injective fun j : Fin n => w * chebyshevPoints n j) :
    gfFromTau ext gf n (beta / c) (scaleMoments c m) occ w' wt
      = (gfFromTau ext gf n beta m occ w wt).map (scalePoleFct c) := by
  unfold gfFromTau
  by_cases hn : n = 0
  · rw [if_pos hn, if_pos hn]
    rfl
  rw [if_neg hn, if_neg hn]
  obtain ⟨poles, hp⟩ : ∃ p : Fin n → ℝ, p = fun j => w * chebyshevPoints n j := ⟨_, rfl⟩
  have hw2 : (fun j : Fin n => w' * chebyshevPoints n j) = fun j => c * poles j := by rw [hp]; exact funext hw
  rw [← hp] at hinj
  have hinj' : Function.Injective fun j => c * poles j := fun a b hab => hinj (mul_left_cancel₀ hc.ne' hab)
  simp only [hw2, ← hp, fitMatTau_scale hc beta poles]
  by_cases hr : ∀ i : Fin k, 0 ≤ linspace0 beta k i ∧ linspace0 beta k i ≤ beta
  · rw [if_neg (not_not.2 hr), if_neg (not_not.2 ((linspace0_range hc beta k).2 hr))]
    by_cases h1 : 0 < l ∨ occ ≠ 0
    · rw [if_pos h1, if_pos h1]
      by_cases h2 : (n : ℤ) < l + truncInt occ
      · rw [if_pos h2, if_pos h2]
        rfl
      rw [if_neg h2, if_neg h2]
      by_cases h3 : l = 0
      · rw [if_pos h3, if_pos h3]
        rfl
      rw [if_neg h3, if_neg h3]
      by_cases ho : occ = 0
      · have hln : l ≤ n := by
          rw [ho] at h2
          have : truncInt 0 = 0 := by simp [truncInt]
          rw [this] at h2
          omega
        have key := lstsq_ec_congr ext (fitMatTau beta poles (wt.getD fun _ => 1))
          (fun i => wt.getD (fun _ => 1) i * gf i) (vanderT ℝ l poles) m (fitMatTau beta poles (wt.getD fun _ => 1))
          (fun i => wt.getD (fun _ => 1) i * gf i) (vanderT ℝ l fun j => c * poles j) (scaleMoments c m) hn
          (vander_rank hln _ hinj) (vander_rank hln _ hinj') one_pos (fun x => (one_mul _).symm)
          (constraint_scale hc poles m)
        simp only [ho, ne_eq, not_true_eq_false, if_false, key]
        cases lstsqEc ext (fitMatTau beta poles (wt.getD fun _ => 1)) (fun i => wt.getD (fun _ => 1) i * gf i)
          (vanderT ℝ l poles) m <;> rfl
      · obtain rfl : l = 1 := hocc.resolve_left ho
        have e1 : scaleMoments c m = m := funext fun i => by simp [scaleMoments]
        have e2 : occMat 1 (fun j => c * poles j) (beta / c) = occMat 1 poles beta := by
          ext i j
          simp only [occMat, of_apply, (statistics_units hc _ beta 0 0).1]
          congr 1
          funext i'
          simp [vanderT]
        simp only [ho, ne_eq, not_false_eq_true, if_true, e1, e2]
        cases lstsqEc ext (fitMatTau beta poles (wt.getD fun _ => 1)) (fun i => wt.getD (fun _ => 1) i * gf i)
          (occMat 1 poles beta) (occVec m occ) <;> rfl
    · rw [if_neg h1, if_neg h1]
      rfl
  · rw [if_pos hr, if_pos fun h => hr ((linspace0_range hc beta k).1 h)]
    rfl

/-- C78: `pole_gf_from_tau` for a given width `w ≠ 0`. With a given occupation for one moment only (for more moments the
constraint matrix is singular, see C13). -/
theorem gf_from_tau_units (ext : LinalgExt ℝ) {c : ℝ} (hc : 0 < c) {k l : ℕ} (gf : Fin k → ℝ) (n : ℕ) (beta : ℝ)
    (m : Fin l → ℝ) (occ : ℝ) {w : ℝ} (hw : w ≠ 0) (wt : Option (Fin k → ℝ)) (hocc : occ = 0 ∨ l = 1) :
    gfFromTau ext gf n (beta / c) (scaleMoments c m) occ (c * w) wt
      = (gfFromTau ext gf n beta m occ w wt).map (scalePoleFct c) :=
  fromTau_scale ext hc gf n beta m occ w (c * w) wt hocc (fun _ => mul_assoc _ _ _) (scaled_injective (.inl hw))

/-- C78: a single pole is located at zero, whatever the width. -/
theorem gf_from_tau_single_units (ext : LinalgExt ℝ) {c : ℝ} (hc : 0 < c) {k l n : ℕ} (hn : n ≤ 1) (gf : Fin k → ℝ)
    (beta : ℝ) (m : Fin l → ℝ) (occ w w' : ℝ) (wt : Option (Fin k → ℝ)) (hocc : occ = 0 ∨ l = 1) :
    gfFromTau ext gf n (beta / c) (scaleMoments c m) occ w' wt
      = (gfFromTau ext gf n beta m occ w wt).map (scalePoleFct c) :=
  fromTau_scale ext hc gf n beta m occ w w' wt hocc (fun j => by rw [cheb_one hn, mul_zero, mul_zero, mul_zero])
    (scaled_injective (.inr hn))

/-- C78, non-vacuity: moments `1` and `1/2`, factor two between the units, both above the threshold. -/
example : gfFromMoments (scaleMoments 2 ![1, 1 / 2]) none = (gfFromMoments (![1, 1 / 2] : Fin 2 → ℝ) none).map (scalePoleFct 2) :=
  (gf_from_moments_units two_pos _).2 (.inr ⟨by norm_num, by
    rw [show (![1, 1 / 2] : Fin 2 → ℝ) ⟨1, _⟩ = 1 / 2 from rfl]
    norm_num⟩)

end Gftool.Props
