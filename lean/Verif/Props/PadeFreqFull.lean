import Verif.Lemmas.PadeFreqSort
import Verif.Lemmas.FermiCF
import Verif.Props.Density

/-!
# Property C67: `pade_frequencies` as a whole, and the accuracy of sums over Padé frequencies
-/

namespace Gftool.Props

open Gftool Model Lemmas Matrix Complex

/-- Contract of `scipy.linalg.eig(a, b=b)` for the matrices of `_pade_frequencies`: exact eigenvalues and linearly
independent eigenvectors. -/
def ExactGEig (geig : GEig) : Prop :=
  ∀ num : ℕ, IsUnit (geig (num + num) (padeA (num + num)) (padeB (num + num))).2.det ∧
    (padeA (num + num)).map ((↑) : ℝ → ℂ) * (geig (num + num) (padeA (num + num)) (padeB (num + num))).2
      = (padeB (num + num)).map ((↑) : ℝ → ℂ) * (geig (num + num) (padeA (num + num)) (padeB (num + num))).2
        * diagonal (geig (num + num) (padeA (num + num)) (padeB (num + num))).1

lemma exists_eig_of_exact {geig : GEig} (h : ExactGEig geig) (num : ℕ) : ∃ E : PadeEig (num + num),
    E.eig = (geig (num + num) (padeA (num + num)) (padeB (num + num))).1 ∧
    E.V = (geig (num + num) (padeA (num + num)) (padeB (num + num))).2 ∧ E.W = E.V⁻¹ :=
  ⟨⟨_, _, _, mul_nonsing_inv _ (h num).1, (h num).2⟩, rfl, rfl, rfl⟩

/-- Sorted eigenvalues (positive part) and residues. -/
noncomputable def lamOf {num : ℕ} (E : PadeEig (num + num)) (i : Fin num) : ℝ :=
  (E.eig (argsortC E.eig (Fin.natAdd num i))).re

noncomputable def rpOf {num : ℕ} (E : PadeEig (num + num)) (i : Fin num) : ℝ :=
  (padeResid (E.V ⟨0, by have := i.2; omega⟩ (argsortC E.eig (Fin.natAdd num i)))
    (E.W (argsortC E.eig (Fin.natAdd num i)) ⟨0, by have := i.2; omega⟩) (E.eig (argsortC E.eig (Fin.natAdd num i)))).re

lemma rev_natAdd {num : ℕ} (i : Fin num) : (Fin.natAdd num i).rev = Fin.castAdd num i.rev := by
  ext
  simp [Fin.val_rev]
  omega

private lemma eig_real {N : ℕ} (E : PadeEig N) (k : Fin N) : E.eig k = ((E.eig k).re : ℂ) :=
  Complex.ext rfl (by simp [E.im_eq_zero])

private lemma resid_real {N : ℕ} (E : PadeEig N) (hN : 0 < N) (k : Fin N) :
    (padeResid (E.V ⟨0, hN⟩ k) (E.W k ⟨0, hN⟩) (E.eig k)).im = 0 ∧
      0 < (padeResid (E.V ⟨0, hN⟩ k) (E.W k ⟨0, hN⟩) (E.eig k)).re := by
  obtain ⟨h1, h2⟩ := E.weight_pos hN k
  have h3 : padeResid (E.V ⟨0, hN⟩ k) (E.W k ⟨0, hN⟩) (E.eig k)
      = ((1 / 4 * (E.V ⟨0, hN⟩ k * E.W k ⟨0, hN⟩).re * (E.eig k).re ^ 2 : ℝ) : ℂ) := by
    rw [padeResid, mul_assoc (1 / 4 : ℂ), show E.V ⟨0, hN⟩ k * E.W k ⟨0, hN⟩ = ((E.V ⟨0, hN⟩ k * E.W k ⟨0, hN⟩).re : ℂ) from
      Complex.ext rfl (by simp only [h1, Complex.ofReal_im])]
    nth_rewrite 1 [eig_real E k]
    push_cast
    simp only [Complex.ofReal_re]
  rw [h3, Complex.ofReal_im, Complex.ofReal_re]
  have h4 : (E.eig k).re ≠ 0 := fun h => E.ne_zero k (by rw [eig_real E k, h, Complex.ofReal_zero])
  exact ⟨rfl, by positivity⟩

private lemma npAllclose_self {n : ℕ} {a b : Fin n → ℂ} (h : ∀ i, a i = b i) : npAllclose a b := fun i => by
  rw [h i, sub_self, norm_zero]
  positivity

lemma lam_pos {num : ℕ} (E : PadeEig (num + num)) (i : Fin num) : 0 < lamOf E i := by
  have h1 := E.sort_neg (Fin.natAdd num i)
  have h2 := E.sort_strictMono (show (Fin.natAdd num i).rev < Fin.natAdd num i by
    rw [Fin.lt_def, Fin.val_rev, Fin.val_natAdd]
    have := i.2
    omega)
  simp only at h2
  rw [h1] at h2
  unfold lamOf
  linarith

lemma pade_frequencies_eval {geig : GEig} (h : ExactGEig geig) (num : ℕ) (beta : ℝ) {E : PadeEig (num + num)}
    (h1 : E.eig = (geig (num + num) (padeA (num + num)) (padeB (num + num))).1)
    (h2 : E.V = (geig (num + num) (padeA (num + num)) (padeB (num + num))).2) (h3 : E.W = E.V⁻¹) :
    padeFrequencies geig num beta = .ok (fun i => 1 / (beta : ℂ) * (I * (lamOf E i : ℂ)), rpOf E) := by
  have hE : ∀ i : Fin num, E.eig (argsortC E.eig (Fin.castAdd num i.rev)) = -E.eig (argsortC E.eig (Fin.natAdd num i)) := by
    intro i
    rw [← rev_natAdd]
    refine Complex.ext ?_ ?_
    · rw [E.sort_neg, Complex.neg_re]
    · rw [Complex.neg_im, E.im_eq_zero, E.im_eq_zero, neg_zero]
  have hres : ∀ (hN : 0 < num + num) (i : Fin num),
      padeResid (E.V ⟨0, hN⟩ (argsortC E.eig (Fin.castAdd num i.rev))) (E.W (argsortC E.eig (Fin.castAdd num i.rev)) ⟨0, hN⟩)
        (E.eig (argsortC E.eig (Fin.castAdd num i.rev)))
      = padeResid (E.V ⟨0, hN⟩ (argsortC E.eig (Fin.natAdd num i))) (E.W (argsortC E.eig (Fin.natAdd num i)) ⟨0, hN⟩)
        (E.eig (argsortC E.eig (Fin.natAdd num i))) := by
    intro hN i
    have hp : argsortC E.eig (Fin.castAdd num i.rev) = E.partner (argsortC E.eig (Fin.natAdd num i)) :=
      E.eig_injective (by rw [hE, E.partner_eig])
    have := E.partner_weight hN (argsortC E.eig (Fin.natAdd num i))
    unfold padeResid
    rw [hE, mul_assoc (1 / 4 : ℂ), mul_assoc (1 / 4 : ℂ), hp, this, neg_sq]
    ring
  unfold padeFrequencies padeFrequencies0
  simp only
  rw [← h1, ← h2, ← h3]
  rw [if_neg (not_not.2 (npAllclose_self fun i => by rw [hE]; ring)),
    if_neg (not_not.2 (npAllclose_self fun i => by
      have hN : 0 < num + num := by have := i.2; omega
      simp only [dif_pos hN]
      exact hres hN i)),
    if_neg (not_not.2 fun k => by
      have hN : 0 < num + num := lt_of_le_of_lt (Nat.zero_le _) k.2
      simp only [dif_pos hN]
      exact (resid_real E hN _).1)]
  simp only
  congr 2
  · funext i
    rw [eig_real E, lamOf]
  · funext i
    have hN : 0 < num + num := by have := i.2; omega
    simp only [dif_pos hN, rpOf]

/-- C67: for every number of frequencies and temperature `pade_frequencies` passes its assertions and returns positive, strictly
increasing imaginary frequencies with positive residues, which are the poles and residues (relative to `-1/beta`) of the
continued-fraction approximation of the Fermi function with `2*num` levels. -/
theorem pade_frequencies_correct {geig : GEig} (h : ExactGEig geig) {num : ℕ} (hnum : 0 < num) {beta : ℝ} (hb : 0 < beta) :
    ∃ izp rp, padeFrequencies geig num beta = .ok (izp, rp) ∧ (∀ i, (izp i).re = 0 ∧ 0 < (izp i).im) ∧
      (StrictMono fun i => (izp i).im) ∧ (∀ i, 0 < rp i) ∧
      ∀ eps : ℝ, (Spec.fermiApprox (2 * num) (beta * eps) : ℂ)
        = 1 / 2 + ∑ i, -(rp i : ℂ) / beta * (1 / (eps - izp i) + 1 / (eps + izp i)) := by
  obtain ⟨E, h1, h2, h3⟩ := exists_eig_of_exact h num
  have hN : 0 < num + num := by omega
  have him : ∀ i, (1 / (beta : ℂ) * (I * (lamOf E i : ℂ))).im = lamOf E i / beta := by
    intro i
    rw [one_div, ← Complex.ofReal_inv]
    simp [div_eq_inv_mul]
    left; field_simp
  refine ⟨_, _, pade_frequencies_eval h num beta h1 h2 h3, fun i => ⟨?_, ?_⟩, ?_, fun i => (resid_real E hN _).2, fun eps => ?_⟩
  · rw [one_div, ← Complex.ofReal_inv]
    simp
  · rw [him]
    exact div_pos (lam_pos E i) hb
  · intro i j hij
    simp only [him]
    exact div_lt_div_of_pos_right (E.sort_strictMono (by simpa using hij)) hb
  · rw [two_mul, pade_frequencies_fermi E hN hb]
    congr 1
    have hpos : ∀ k, 0 < (padeFreq (E.eig k) beta).im ↔ 0 < (E.eig k).re := by
      intro k
      have : (padeFreq (E.eig k) beta).im = (E.eig k).re / beta := by
        rw [padeFreq, eig_real E k, one_div, ← Complex.ofReal_inv]
        simp [div_eq_inv_mul]
        left; field_simp
      rw [this]
      exact ⟨fun hk => by
        by_contra hc
        exact absurd hk (not_lt.2 (div_nonpos_of_nonpos_of_nonneg (not_lt.1 hc) hb.le)), fun hk => div_pos hk hb⟩
    rw [Finset.sum_filter]
    simp only [hpos]
    rw [← Equiv.sum_comp (argsortC E.eig), Fin.sum_univ_add]
    have hz : ∀ i : Fin num, ¬ 0 < (E.eig (argsortC E.eig (Fin.castAdd num i))).re := by
      intro i
      have h4 := E.sort_neg (Fin.natAdd num i.rev)
      rw [rev_natAdd, Fin.rev_rev] at h4
      rw [h4]
      have := lam_pos E i.rev
      unfold lamOf at this
      linarith
    have hp : ∀ i : Fin num, 0 < (E.eig (argsortC E.eig (Fin.natAdd num i))).re := fun i => lam_pos E i
    simp only [if_neg (hz _), Finset.sum_const_zero, zero_add, if_pos (hp _)]
    refine Finset.sum_congr rfl fun i _ => ?_
    have e1 : padeFreq (E.eig (argsortC E.eig (Fin.natAdd num i))) beta = 1 / (beta : ℂ) * (I * (lamOf E i : ℂ)) := by
      rw [padeFreq, lamOf, ← eig_real E]
    have e2 : padeResid (E.V ⟨0, hN⟩ (argsortC E.eig (Fin.natAdd num i))) (E.W (argsortC E.eig (Fin.natAdd num i)) ⟨0, hN⟩)
        (E.eig (argsortC E.eig (Fin.natAdd num i))) = (rpOf E i : ℂ) :=
      Complex.ext rfl (by rw [Complex.ofReal_im]; exact (resid_real E hN _).1)
    rw [e1, e2]

/-- C67: the result does not depend on the eigenvalue routine (order and normalisation of its eigenvectors). -/
theorem pade_frequencies_unique {geig geig' : GEig} (h : ExactGEig geig) (h' : ExactGEig geig') (num : ℕ) (beta : ℝ) :
    padeFrequencies geig num beta = padeFrequencies geig' num beta := by
  obtain ⟨E, h1, h2, h3⟩ := exists_eig_of_exact h num
  obtain ⟨E', h1', h2', h3'⟩ := exists_eig_of_exact h' num
  rw [pade_frequencies_eval h num beta h1 h2 h3, pade_frequencies_eval h' num beta h1' h2' h3']
  congr 2
  · funext i
    rw [lamOf, lamOf, E.sort_unique E']
  · funext i
    have hN : 0 < num + num := by have := i.2; omega
    have hw := E.weight_unique E' hN (E.sort_unique E' (Fin.natAdd num i))
    unfold rpOf padeResid
    rw [mul_assoc (1 / 4 : ℂ), hw, E.sort_unique E', ← mul_assoc (1 / 4 : ℂ)]

/-- C67: the contract of the eigenvalue routine can be met. -/
theorem exact_geig_exists : ∃ geig : GEig, ExactGEig geig := by
  classical
  refine ⟨fun N _ _ => if h : ∃ num, N = num + num then
    let E := Classical.choice (h.choose_spec ▸ exists_padeEig h.choose : Nonempty (PadeEig N)); (E.eig, E.V) else (0, 0),
    fun num => ?_⟩
  have h : ∃ n, num + num = n + n := ⟨num, rfl⟩
  simp only [dif_pos h]
  generalize Classical.choice (_ : Nonempty (PadeEig (num + num))) = E
  exact ⟨(Matrix.isUnit_iff_isUnit_det _).1 ⟨⟨E.V, E.W, E.hVW, E.hWV⟩, rfl⟩, E.hAV⟩

/-- C67: explicit error of the approximation of the Fermi function, for all energies. -/
theorem pade_fermi_error (num : ℕ) (hnum : 0 < num) (x : ℝ) :
    |Spec.fermiApprox (2 * num) x - 1 / (Real.exp x + 1)|
      ≤ (4 * num + 1) / 2 * |x / 2| ^ (4 * num + 1) / (∏ i ∈ Finset.range (2 * num + 1), (2 * (i : ℝ) + 1)) ^ 2 := by
  obtain ⟨n, hn⟩ : ∃ n, 2 * num = n + 1 := ⟨2 * num - 1, by omega⟩
  have h := fermiApprox_error x n
  rw [Spec.fermi, one_mul] at h
  rw [show 4 * num + 1 = 2 * n + 3 by omega, hn]
  have e : (4 * (num : ℝ) + 1) = 2 * n + 3 := by
    have : (2 : ℝ) * num = n + 1 := by exact_mod_cast hn
    linarith
  rw [e]
  exact h

/-- C67: the approximation converges to the Fermi function at every energy. -/
theorem pade_fermi_tendsto (x : ℝ) :
    Filter.Tendsto (fun num => Spec.fermiApprox (2 * num) x) Filter.atTop (nhds (1 / (Real.exp x + 1))) := by
  have h0 : Filter.Tendsto (fun n => Spec.fermiApprox (n + 1) x) Filter.atTop (nhds (1 / (Real.exp x + 1))) := by
    rw [tendsto_iff_norm_sub_tendsto_zero]
    refine squeeze_zero (fun n => norm_nonneg _) (fun n => ?_) (fermiApprox_bound_tendsto (x / 2))
    have := fermiApprox_error x n
    rw [Spec.fermi, one_mul] at this
    exact this
  have h1 : Filter.Tendsto (fun n => Spec.fermiApprox n x) Filter.atTop (nhds (1 / (Real.exp x + 1))) :=
    (Filter.tendsto_add_atTop_iff_nat 1).1 h0
  exact h1.comp (Filter.tendsto_id.const_mul_atTop' (by norm_num : 0 < 2))

/-- Specification: the error bound of the Fermi function at `beta * eps = x`. -/
noncomputable def padeErr (num : ℕ) (x : ℝ) : ℝ :=
  (4 * num + 1) / 2 * |x / 2| ^ (4 * num + 1) / (∏ i ∈ Finset.range (2 * num + 1), (2 * (i : ℝ) + 1)) ^ 2

lemma padeErr_tendsto (x : ℝ) : Filter.Tendsto (fun num => padeErr num x) Filter.atTop (nhds 0) := by
  have h := (fermiApprox_bound_tendsto (x / 2)).comp (Filter.tendsto_sub_atTop_nat 1)
  have h1 := h.comp (Filter.tendsto_id.const_mul_atTop' (by norm_num : 0 < 2))
  refine h1.congr' ?_
  filter_upwards [Filter.eventually_gt_atTop 0] with num hnum
  obtain ⟨n, hn⟩ : ∃ n, 2 * num = n + 1 := ⟨2 * num - 1, by omega⟩
  have e : (4 * (num : ℝ) + 1) = 2 * n + 3 := by
    have : (2 : ℝ) * num = n + 1 := by exact_mod_cast hn
    linarith
  simp only [Function.comp, id, padeErr, oddFac]
  rw [show 4 * num + 1 = 2 * n + 3 by omega, e, hn, Nat.add_sub_cancel]

/-- Sum over Padé frequencies for one pole. -/
lemma izp_sum {num : ℕ} {beta : ℝ} {izp : Fin num → ℂ} {rp : Fin num → ℝ} (hre : ∀ i, (izp i).re = 0)
    (h : ∀ eps : ℝ, (Spec.fermiApprox (2 * num) (beta * eps) : ℂ)
        = 1 / 2 + ∑ i, -(rp i : ℂ) / beta * (1 / (eps - izp i) + 1 / (eps + izp i))) (eps : ℝ) :
    2 / beta * ∑ i, rp i * (1 / (izp i - eps)).re = Spec.fermiApprox (2 * num) (beta * eps) - 1 / 2 := by
  have h1 := congrArg Complex.re (h eps)
  rw [Complex.ofReal_re, Complex.add_re, Complex.re_sum] at h1
  rw [h1, Finset.mul_sum]
  have e0 : (1 / 2 : ℂ).re = 1 / 2 := by norm_num
  rw [e0, add_sub_cancel_left]
  refine Finset.sum_congr rfl fun i _ => ?_
  have e1 : (1 / ((eps : ℂ) - izp i) + 1 / (eps + izp i)) = ((-2 * (1 / (izp i - eps)).re : ℝ) : ℂ) := by
    have hz : izp i = ((izp i).im : ℂ) * I := by
      apply Complex.ext <;> simp [hre i]
    have hc : (starRingEnd ℂ) (1 / (izp i - eps)) = -(1 / (eps + izp i)) := by
      rw [map_div₀, map_one, map_sub, Complex.conj_ofReal]
      have : (starRingEnd ℂ) (izp i) = -izp i := by
        rw [hz]
        simp
      rw [this, ← neg_add', one_div, one_div, add_comm, inv_neg]
    have h2 := Complex.add_conj (1 / (izp i - eps))
    rw [hc] at h2
    push_cast at h2 ⊢
    rw [show (1 : ℂ) / (eps - izp i) = -(1 / (izp i - eps)) by rw [← neg_sub, one_div, one_div, inv_neg]]
    linear_combination -h2
  rw [e1]
  rw [show -(rp i : ℂ) / beta * ((-2 * (1 / (izp i - eps)).re : ℝ) : ℂ)
    = ((-rp i / beta * (-2 * (1 / (izp i - eps)).re) : ℝ) : ℂ) by push_cast; ring, Complex.ofReal_re]
  ring

private lemma re_pole_sum {n num : ℕ} {beta : ℝ} {izp : Fin num → ℂ} {rp : Fin num → ℝ} (hre : ∀ i, (izp i).re = 0)
    (h : ∀ eps : ℝ, (Spec.fermiApprox (2 * num) (beta * eps) : ℂ)
        = 1 / 2 + ∑ i, -(rp i : ℂ) / beta * (1 / (eps - izp i) + 1 / (eps + izp i))) (g : PoleFct ℝ n) :
    2 / beta * ∑ i, rp i * rePole g (izp i)
      = ∑ j, g.residues j * (Spec.fermiApprox (2 * num) (beta * g.poles j) - 1 / 2) := by
  have e1 : ∀ i, rePole g (izp i) = ∑ j, g.residues j * (1 / (izp i - g.poles j)).re := by
    intro i
    rw [rePole, Complex.re_sum]
    refine Finset.sum_congr rfl fun j _ => ?_
    rw [div_eq_mul_one_div, Complex.re_ofReal_mul]
  simp only [e1, ← izp_sum hre h, Finset.mul_sum]
  rw [Finset.sum_comm]
  exact Finset.sum_congr rfl fun j _ => Finset.sum_congr rfl fun i _ => by ring

private lemma density_izp_eq (ext : LinalgExt ℝ) {geig : GEig} (h : ExactGEig geig) {num : ℕ} (hnum : 0 < num) {beta : ℝ}
    (hb : 0 < beta) {n l : ℕ} (gf : PoleFct ℝ n) (moments : Fin (l + 1) → ℝ) (hm : moments 0 = ∑ j, gf.residues j) :
    ∃ izp rp d, ∃ g : PoleFct ℝ (l + 1), gfFromMoments moments none = .ok g ∧ padeFrequencies geig num beta = .ok (izp, rp) ∧
      densityIw ext izp (fun i => ∑ j, (gf.residues j : ℂ) / (izp i - gf.poles j)) beta rp moments 0 = .ok d ∧
      |d - ∑ j, gf.residues j * Spec.fermi beta (gf.poles j)|
        ≤ ∑ j, |gf.residues j| * padeErr num (beta * gf.poles j) + ∑ j, |g.residues j| * padeErr num (beta * g.poles j) := by
  obtain ⟨izp, rp, hp, hre, -, -, hf⟩ := pade_frequencies_correct h hnum hb
  obtain ⟨g, hg, hmom, hd⟩ := density_iw_eq ext izp (fun i => ∑ j, (gf.residues j : ℂ) / (izp i - gf.poles j)) beta rp moments
  refine ⟨izp, rp, _, g, hg, hp, hd, ?_⟩
  have hm0 : ∑ j, g.residues j = ∑ j, gf.residues j := by
    have := hmom 0
    simp only [Fin.val_zero, pow_zero, mul_one] at this
    rw [this, hm]
  have e1 : 2 / beta * (∑ i, rp i * ((∑ j, (gf.residues j : ℂ) / (izp i - gf.poles j)).re - rePole g (izp i)))
      = ∑ j, gf.residues j * (Spec.fermiApprox (2 * num) (beta * gf.poles j) - 1 / 2)
        - ∑ j, g.residues j * (Spec.fermiApprox (2 * num) (beta * g.poles j) - 1 / 2) := by
    rw [← re_pole_sum (fun i => (hre i).1) hf gf, ← re_pole_sum (fun i => (hre i).1) hf g, ← mul_sub,
      ← Finset.sum_sub_distrib]
    simp only [← mul_sub]
    rfl
  rw [e1]
  have hfe : ∀ x : ℝ, |Spec.fermiApprox (2 * num) (beta * x) - Spec.fermi beta x| ≤ padeErr num (beta * x) := fun x =>
    pade_fermi_error num hnum (beta * x)
  have e2 : ∑ j, gf.residues j * (Spec.fermiApprox (2 * num) (beta * gf.poles j) - 1 / 2)
        - ∑ j, g.residues j * (Spec.fermiApprox (2 * num) (beta * g.poles j) - 1 / 2)
        + ∑ j, g.residues j * Spec.fermi beta (g.poles j) - ∑ j, gf.residues j * Spec.fermi beta (gf.poles j)
      = ∑ j, gf.residues j * (Spec.fermiApprox (2 * num) (beta * gf.poles j) - Spec.fermi beta (gf.poles j))
        - ∑ j, g.residues j * (Spec.fermiApprox (2 * num) (beta * g.poles j) - Spec.fermi beta (g.poles j)) := by
    simp only [mul_sub, Finset.sum_sub_distrib, ← Finset.sum_mul]
    rw [hm0]
    ring
  rw [e2]
  refine (abs_sub _ _).trans (add_le_add ?_ ?_)
  · refine (Finset.abs_sum_le_sum_abs _ _).trans (Finset.sum_le_sum fun j _ => ?_)
    rw [abs_mul]
    exact mul_le_mul_of_nonneg_left (hfe _) (abs_nonneg _)
  · refine (Finset.abs_sum_le_sum_abs _ _).trans (Finset.sum_le_sum fun j _ => ?_)
    rw [abs_mul]
    exact mul_le_mul_of_nonneg_left (hfe _) (abs_nonneg _)

/-- C67: `density_iw` with Padé frequencies and the default treatment of the `1/z` tail gives the occupation of every pole
Green's function, with an explicit error which decreases faster than exponentially with the number of frequencies. -/
theorem density_izp_error (ext : LinalgExt ℝ) {geig : GEig} (h : ExactGEig geig) {num : ℕ} (hnum : 0 < num) {beta : ℝ}
    (hb : 0 < beta) {n : ℕ} (gf : PoleFct ℝ n) :
    ∃ izp rp d, padeFrequencies geig num beta = .ok (izp, rp) ∧
      densityIw ext izp (fun i => ∑ j, (gf.residues j : ℂ) / (izp i - gf.poles j)) beta rp ![∑ j, gf.residues j] 0 = .ok d ∧
      |d - ∑ j, gf.residues j * Spec.fermi beta (gf.poles j)| ≤ ∑ j, |gf.residues j| * padeErr num (beta * gf.poles j) := by
  obtain ⟨izp, rp, d, g, hg, hp, hd, he⟩ := density_izp_eq ext h hnum hb gf (l := 0) ![∑ j, gf.residues j] rfl
  refine ⟨izp, rp, d, hp, hd, he.trans_eq ?_⟩
  have h0 : g.poles 0 = 0 := by
    unfold gfFromMoments at hg
    simp only at hg
    split at hg
    · have := Except.ok.inj hg
      rw [← this]
      simp [chebyshevPoints]
    · exact absurd hg (by simp)
  rw [Fin.sum_univ_one, h0, mul_zero, add_eq_left]
  simp [padeErr]

/-- C67: … and converges to the occupation, whatever further moments are given. -/
theorem density_izp_tendsto (ext : LinalgExt ℝ) {geig : GEig} (h : ExactGEig geig) {beta : ℝ} (hb : 0 < beta) {n l : ℕ}
    (gf : PoleFct ℝ n) (moments : Fin (l + 1) → ℝ) (hm : moments 0 = ∑ j, gf.residues j) :
    ∃ d : ℕ → ℝ, (∀ num, 0 < num → ∃ izp rp, padeFrequencies geig num beta = .ok (izp, rp) ∧
        densityIw ext izp (fun i => ∑ j, (gf.residues j : ℂ) / (izp i - gf.poles j)) beta rp moments 0 = .ok (d num)) ∧
      Filter.Tendsto d Filter.atTop (nhds (∑ j, gf.residues j * Spec.fermi beta (gf.poles j))) := by
  have hall : ∀ num : ℕ, ∃ d : ℝ, 0 < num → ∃ izp rp, ∃ g : PoleFct ℝ (l + 1), gfFromMoments moments none = .ok g ∧
      padeFrequencies geig num beta = .ok (izp, rp) ∧
      densityIw ext izp (fun i => ∑ j, (gf.residues j : ℂ) / (izp i - gf.poles j)) beta rp moments 0 = .ok d ∧
      |d - ∑ j, gf.residues j * Spec.fermi beta (gf.poles j)|
        ≤ ∑ j, |gf.residues j| * padeErr num (beta * gf.poles j) + ∑ j, |g.residues j| * padeErr num (beta * g.poles j) := by
    intro num
    by_cases hn : 0 < num
    · obtain ⟨izp, rp, d, g, hall⟩ := density_izp_eq ext h hn hb gf moments hm
      exact ⟨d, fun _ => ⟨izp, rp, g, hall⟩⟩
    · exact ⟨0, fun h => absurd h hn⟩
  choose d hd using hall
  refine ⟨d, fun num hn => ?_, ?_⟩
  · obtain ⟨izp, rp, g, -, h1, h2, -⟩ := hd num hn
    exact ⟨izp, rp, h1, h2⟩
  · obtain ⟨-, -, g, hg, -⟩ := hd 1 one_pos
    have hlim : Filter.Tendsto (fun num => ∑ j, |gf.residues j| * padeErr num (beta * gf.poles j)
        + ∑ j, |g.residues j| * padeErr num (beta * g.poles j)) Filter.atTop (nhds 0) := by
      have h1 := tendsto_finsetSum Finset.univ fun j _ => (padeErr_tendsto (beta * gf.poles j)).const_mul |gf.residues j|
      have h2 := tendsto_finsetSum Finset.univ fun j _ => (padeErr_tendsto (beta * g.poles j)).const_mul |g.residues j|
      have := h1.add h2
      simpa using this
    rw [tendsto_iff_norm_sub_tendsto_zero]
    refine squeeze_zero' (Filter.Eventually.of_forall fun num => norm_nonneg _) ?_ hlim
    filter_upwards [Filter.eventually_gt_atTop 0] with num hn
    obtain ⟨-, -, g', hg', -, -, he⟩ := hd num hn
    rw [hg] at hg'
    rw [← Except.ok.inj hg'] at he
    exact he

/-- Non-vacuity: a routine meeting the contract exists; for one frequency at `beta = 1` the occupation of a level at
`eps = 1` is reproduced up to `5/2 * (1/2)^5 / 225 < 4e-4`. -/
example (ext : LinalgExt ℝ) : ∃ geig : GEig, ∃ izp rp d, padeFrequencies geig 1 1 = .ok (izp, rp) ∧
    densityIw ext izp (fun i => 1 / (izp i - 1)) 1 rp ![1] 0 = .ok d ∧ |d - 1 / (Real.exp 1 + 1)| < 4e-4 := by
  obtain ⟨geig, h⟩ := exact_geig_exists
  obtain ⟨izp, rp, d, h1, h2, h3⟩ := density_izp_error ext h one_pos one_pos (beta := 1)
    (⟨fun _ => 1, fun _ => 1⟩ : PoleFct ℝ 1)
  simp only [Fin.sum_univ_one, Complex.ofReal_one] at h2 h3
  refine ⟨geig, izp, rp, d, h1, h2, ?_⟩
  rw [Spec.fermi, mul_one, one_mul] at h3
  refine h3.trans_lt ?_
  rw [padeErr]
  norm_num [Finset.prod_range_succ]

end Gftool.Props
