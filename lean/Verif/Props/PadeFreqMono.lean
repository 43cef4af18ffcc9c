import Verif.Lemmas.PadeInterlace
import Verif.Lemmas.PadeResid
import Verif.Props.PadeFreqLimit

/-!
# Property C67: the Padé frequencies decrease with their number towards the Matsubara frequencies
-/

namespace Gftool.Props

open Gftool Model Lemmas Matrix Complex

private lemma sort_pos_iff {num : ℕ} (E : PadeEig (num + num)) (i : Fin (num + num)) (hi : 0 < (E.eig i).re) :
    ∃ j : Fin num, i = argsortC E.eig (Fin.natAdd num j) := by
  obtain ⟨k, rfl⟩ := (argsortC E.eig).surjective i
  induction k using Fin.addCases with
  | left j =>
    exfalso
    have h4 := E.sort_neg (Fin.natAdd num j.rev)
    rw [rev_natAdd, Fin.rev_rev] at h4
    have := lam_pos E j.rev
    unfold lamOf at this
    linarith
  | right j => exact ⟨j, rfl⟩

private lemma lam_strictAnti {num num' : ℕ} (h : num < num') (E : PadeEig (num + num)) (F : PadeEig (num' + num')) {k : ℕ}
    (hk : k < num) : lamOf F ⟨k, hk.trans h⟩ < lamOf E ⟨k, hk⟩ := by
  classical
  by_contra hcon
  push Not at hcon
  have hcount := padeEig_count (show num + num < num' + num' by omega) E F (lam_pos E ⟨k, hk⟩)
  have h1 : k + 1 ≤ (Finset.univ.filter fun i => 0 < (E.eig i).re ∧ (E.eig i).re ≤ lamOf E ⟨k, hk⟩).card := by
    have : (Finset.univ.image fun j : Fin (k + 1) =>
        argsortC E.eig (Fin.natAdd num (⟨j, by omega⟩ : Fin num))).card = k + 1 := by
      rw [Finset.card_image_of_injective, Finset.card_univ, Fintype.card_fin]
      intro a b hab
      have := (argsortC E.eig).injective hab
      simp only [Fin.ext_iff, Fin.val_natAdd] at this
      exact Fin.ext (by omega)
    rw [← this]
    refine Finset.card_le_card fun i hi => ?_
    obtain ⟨j, -, rfl⟩ := Finset.mem_image.1 hi
    refine Finset.mem_filter.2 ⟨Finset.mem_univ _, lam_pos E _, ?_⟩
    exact E.sort_strictMono.monotone (by rw [Fin.le_def]; simp only [Fin.val_natAdd]; omega)
  have h2 : (Finset.univ.filter fun i => 0 < (F.eig i).re ∧ (F.eig i).re < lamOf E ⟨k, hk⟩).card ≤ k := by
    have : (Finset.univ.image fun j : Fin k =>
        argsortC F.eig (Fin.natAdd num' (⟨j, by omega⟩ : Fin num'))).card ≤ k :=
      Finset.card_image_le.trans (by simp)
    refine (Finset.card_le_card fun i hi => ?_).trans this
    obtain ⟨-, h3, h4⟩ := Finset.mem_filter.1 hi
    obtain ⟨j, rfl⟩ := sort_pos_iff F i h3
    have h5 : (j : ℕ) < k := by
      by_contra h6
      have h7 : lamOf F ⟨k, hk.trans h⟩ ≤ lamOf F j :=
        F.sort_strictMono.monotone (by rw [Fin.le_def]; simp only [Fin.val_natAdd]; omega)
      have h8 : lamOf F j < lamOf E ⟨k, hk⟩ := h4
      linarith
    exact Finset.mem_image.2 ⟨⟨j, h5⟩, Finset.mem_univ _, rfl⟩
  omega

/-- C67: with every increase of their number, every Padé frequency of given index decreases. -/
theorem pade_frequencies_strictAnti {geig : GEig} (h : ExactGEig geig) {beta : ℝ} (hb : 0 < beta) {num num' : ℕ}
    (hlt : num < num') {izp rp izp' rp'} (h1 : padeFrequencies geig num beta = .ok (izp, rp))
    (h2 : padeFrequencies geig num' beta = .ok (izp', rp')) {k : ℕ} (hk : k < num) :
    (izp' ⟨k, hk.trans hlt⟩).im < (izp ⟨k, hk⟩).im := by
  obtain ⟨E, e1, e2, e3⟩ := exists_eig_of_exact h num
  obtain ⟨F, f1, f2, f3⟩ := exists_eig_of_exact h num'
  rw [pade_frequencies_eval h num beta e1 e2 e3] at h1
  rw [pade_frequencies_eval h num' beta f1 f2 f3] at h2
  obtain ⟨rfl, rfl⟩ := Prod.mk.inj (Except.ok.inj h1)
  obtain ⟨rfl, rfl⟩ := Prod.mk.inj (Except.ok.inj h2)
  have him : ∀ x : ℝ, (1 / (beta : ℂ) * (I * (x : ℂ))).im = x / beta := by
    intro x
    rw [one_div, ← Complex.ofReal_inv]
    simp [div_eq_inv_mul]
    left; field_simp
  simp only [him]
  exact div_lt_div_of_pos_right (lam_strictAnti hlt E F hk) hb

/-- C67: every Padé frequency lies above the Matsubara frequency of the same index. -/
theorem pade_frequencies_above {geig : GEig} (h : ExactGEig geig) {beta : ℝ} (hb : 0 < beta) {num : ℕ} {izp rp}
    (h1 : padeFrequencies geig num beta = .ok (izp, rp)) (k : Fin num) :
    (matsubaraFrequencies (k : ℕ) beta).im < (izp k).im := by
  obtain ⟨izp2, rp2, h2, -⟩ := pade_frequencies_correct h (Nat.succ_pos num) hb
  have hstep := pade_frequencies_strictAnti h hb (Nat.lt_succ_self num) h1 h2 k.2
  refine lt_of_le_of_lt ?_ hstep
  refine le_of_forall_pos_lt_add fun ε hε => ?_
  obtain ⟨n0, hn0⟩ := pade_frequencies_tendsto h hb k hε
  obtain ⟨izp3, rp3, h3, hk, h4, -⟩ := hn0 (max n0 (num + 2)) (le_max_left _ _)
  have hlt : num + 1 < max n0 (num + 2) := lt_of_lt_of_le (by omega) (le_max_right _ _)
  have h5 := pade_frequencies_strictAnti h hb hlt h2 h3 (show (k : ℕ) < num + 1 by omega)
  have h6 := (Complex.abs_im_le_norm _).trans_lt h4
  rw [Complex.sub_im, abs_lt] at h6
  linarith [h6.1]

/-- For a single frequency: `2√3/beta` instead of `π/beta`. -/
example {geig : GEig} (h : ExactGEig geig) : ∃ izp rp, padeFrequencies geig 1 1 = .ok (izp, rp) ∧
    Real.pi < (izp 0).im := by
  obtain ⟨izp, rp, h1, -⟩ := pade_frequencies_correct h one_pos one_pos
  refine ⟨izp, rp, h1, ?_⟩
  have := pade_frequencies_above h one_pos h1 0
  simpa [matsubaraFrequencies] using this

private lemma decomp_of_ok {geig : GEig} (h : ExactGEig geig) {beta : ℝ} (hb : 0 < beta) {num : ℕ} (hn : 0 < num) {izp rp}
    (h1 : padeFrequencies geig num beta = .ok (izp, rp)) : IsPadeDecomp num (fun i => beta * (izp i).im) rp := by
  obtain ⟨izp2, rp2, h2, h3, h4, h5, h6⟩ := pade_frequencies_correct h hn hb
  obtain ⟨rfl, rfl⟩ := Prod.mk.inj (Except.ok.inj (h1.symm.trans h2))
  exact decomp_of_correct hb h3 h4 h5 h6

/-- C67: every residue exceeds one, the weight of a Matsubara frequency. -/
theorem pade_frequencies_resid_gt_one {geig : GEig} (h : ExactGEig geig) {beta : ℝ} (hb : 0 < beta) {num : ℕ} {izp rp}
    (h1 : padeFrequencies geig num beta = .ok (izp, rp)) (i : Fin num) : 1 < rp i :=
  (decomp_of_ok h hb i.pos h1).resid_gt_one i.pos i

/-- C67: sum rule of the residues. -/
theorem pade_frequencies_resid_sum {geig : GEig} (h : ExactGEig geig) {beta : ℝ} (hb : 0 < beta) {num : ℕ} {izp rp}
    (h1 : padeFrequencies geig num beta = .ok (izp, rp)) : ∑ i, rp i = num * (2 * num + 1) / 2 := by
  rcases Nat.eq_zero_or_pos num with rfl | hn
  · simp
  · exact (decomp_of_ok h hb hn h1).sum_resid hn

/-- C67: the tail `1/z²` of a Green's function is summed exactly, `∑ 2 rp/(izp)² = -beta²/4`, as for the Matsubara frequencies. -/
theorem pade_frequencies_tail_sum {geig : GEig} (h : ExactGEig geig) {beta : ℝ} (hb : 0 < beta) {num : ℕ} (hn : 0 < num)
    {izp rp} (h1 : padeFrequencies geig num beta = .ok (izp, rp)) :
    ∑ i, 2 * (rp i : ℂ) / izp i ^ 2 = -(beta : ℂ) ^ 2 / 4 := by
  obtain ⟨izp2, rp2, h2, h3, -⟩ := pade_frequencies_correct h hn hb
  have h4 := (decomp_of_ok h hb hn h1).sum_inv_sq hn
  obtain ⟨rfl, rfl⟩ := Prod.mk.inj (Except.ok.inj (h1.symm.trans h2))
  have e : ∀ i, 2 * (rp i : ℂ) / izp i ^ 2 = ((-2 * beta ^ 2 * (rp i / (beta * (izp i).im) ^ 2) : ℝ) : ℂ) := by
    intro i
    have hz : izp i ^ 2 = ((-(izp i).im ^ 2 : ℝ) : ℂ) := by
      have : izp i = ((izp i).im : ℂ) * I := by apply Complex.ext <;> simp [(h3 i).1]
      conv_lhs => rw [this]
      rw [mul_pow, I_sq]; push_cast; ring
    have h5 := (h3 i).2.ne'
    rw [hz, ← ofReal_ofNat, ← ofReal_mul, ← ofReal_div, ofReal_inj]
    field_simp
  rw [Finset.sum_congr rfl fun i _ => e i, ← ofReal_sum, ← Finset.mul_sum, h4]
  push_cast
  ring

/-- The sum rules fix a single Padé frequency: frequency `2√3/beta` and residue `3/2`. -/
example {geig : GEig} (h : ExactGEig geig) {beta : ℝ} (hb : 0 < beta) {izp rp}
    (h1 : padeFrequencies geig 1 beta = .ok (izp, rp)) : rp 0 = 3 / 2 ∧ izp 0 ^ 2 = -12 / (beta : ℂ) ^ 2 := by
  have h2 := pade_frequencies_resid_sum h hb h1
  have h3 := pade_frequencies_tail_sum h hb one_pos h1
  simp only [Finset.univ_unique, Fin.default_eq_zero, Finset.sum_singleton] at h2 h3
  have h4 : rp 0 = 3 / 2 := by rw [h2]; norm_num
  refine ⟨h4, ?_⟩
  have hb' : (beta : ℂ) ≠ 0 := by exact_mod_cast hb.ne'
  have h5 : izp 0 ^ 2 ≠ 0 := by
    intro h0
    rw [h0, div_zero] at h3
    have : (beta : ℂ) ^ 2 = 0 := by linear_combination 4 * h3
    exact hb' (pow_eq_zero_iff two_ne_zero |>.1 this)
  rw [h4] at h3
  push_cast at h3
  rw [div_eq_iff h5] at h3
  rw [eq_div_iff (pow_ne_zero 2 hb')]
  linear_combination 4 * h3

end Gftool.Props
