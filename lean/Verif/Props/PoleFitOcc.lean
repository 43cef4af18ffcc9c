import Verif.Props.PoleFit
import Mathlib.LinearAlgebra.FiniteDimensional.Lemmas

/-!
# Fits with a requested occupation: optimal with one moment, not with several (C13)
-/

namespace Gftool.Props

open Gftool Model Lemmas Matrix

private lemma rank_of_surjective {l n : ℕ} (c : Matrix (Fin l) (Fin n) ℝ) (h : ∀ d, ∃ x, c *ᵥ x = d) : c.rank = l := by
  have : LinearMap.range c.mulVecLin = ⊤ := LinearMap.range_eq_top.2 fun d => by
    obtain ⟨x, hx⟩ := h d
    exact ⟨x, hx⟩
  rw [Matrix.rank, this, finrank_top]
  simp

/-- C13: one moment and an occupation, the documented standard use: for any two or more poles both are honoured exactly,
and the fit is the best one among all residues that honour them. -/
theorem gf_from_tau_occ_one_moment_optimal (ext : LinalgExt ℝ) {k n : ℕ} (gf : Fin k → ℝ) {beta : ℝ}
    (hb : 0 < beta) (moments : Fin 1 → ℝ) {occ width : ℝ} (weight : Option (Fin k → ℝ))
    (hn : 2 ≤ n) (hocc : occ ≠ 0) (hocc2 : |occ| < 2) (hw : width ≠ 0) :
    ∃ g, gfFromTau ext gf n beta moments occ width weight = .ok g ∧
      (∀ j, g.poles j = width * chebyshevPoints n j) ∧
      poleMoments g.poles g.residues 1 = moments 0 ∧ poleOcc g.poles g.residues beta = occ ∧
      ∀ r : Fin n → ℝ, poleMoments g.poles r 1 = moments 0 → poleOcc g.poles r beta = occ →
        fitErrorTau beta gf (weight.getD fun _ => 1) g.poles g.residues
          ≤ fitErrorTau beta gf (weight.getD fun _ => 1) g.poles r := by
  have hint : (1 : ℕ) + truncInt occ ≤ (n : ℤ) := by
    have : truncInt occ ≤ 1 := by
      unfold truncInt
      rw [abs_lt] at hocc2
      split_ifs with h
      · have : ⌊occ⌋ < 2 := Int.floor_lt.2 (by push_cast; linarith)
        omega
      · exact (Int.ceil_le.2 (by push_cast; linarith))
    omega
  have hn0 : n ≠ 0 := by omega
  obtain ⟨p, hp⟩ : ∃ p : Fin n → ℝ, p = fun j => width * chebyshevPoints n j := ⟨_, rfl⟩
  have ht : ∀ i : Fin k, 0 ≤ linspace0 beta k i ∧ linspace0 beta k i ≤ beta := fun i => linspace_mem hb.le i
  have hsurj : ∀ a b : ℝ, ∃ r : Fin n → ℝ, poleMoments p r 1 = a ∧ poleOcc p r beta = b := by
    intro a b
    have hne : p ⟨0, by omega⟩ ≠ p ⟨1, by omega⟩ := by
      rw [hp]
      intro h
      have := scaled_injective (Or.inl hw) h
      simp at this
    have hf : fermiFct (p ⟨0, by omega⟩) beta - fermiFct (p ⟨1, by omega⟩) beta ≠ 0 :=
      sub_ne_zero.2 fun h => hne ((fermi_fct_strictAnti hb).injective h)
    obtain ⟨f0, hf0⟩ : ∃ f0, f0 = fermiFct (p ⟨0, by omega⟩) beta := ⟨_, rfl⟩
    obtain ⟨f1, hf1⟩ : ∃ f1, f1 = fermiFct (p ⟨1, by omega⟩) beta := ⟨_, rfl⟩
    rw [← hf0, ← hf1] at hf
    obtain ⟨x, hx⟩ : ∃ x, x = (b - a * f1) / (f0 - f1) := ⟨_, rfl⟩
    obtain ⟨r, hr⟩ : ∃ r : Fin n → ℝ, r = fun j : Fin n => if (j : ℕ) = 0 then x else if (j : ℕ) = 1 then a - x else 0 := ⟨_, rfl⟩
    have hsum : ∀ g : Fin n → ℝ, ∑ j, r j * g j = x * g ⟨0, by omega⟩ + (a - x) * g ⟨1, by omega⟩ := by
      intro g
      obtain ⟨n', rfl⟩ : ∃ n', n = n' + 2 := ⟨n - 2, by omega⟩
      rw [Fin.sum_univ_succ, Fin.sum_univ_succ]
      have : ∑ i : Fin n', r i.succ.succ * g i.succ.succ = 0 := Finset.sum_eq_zero fun i _ => by simp [hr]
      rw [this]
      simp [hr]
    refine ⟨r, ?_, ?_⟩
    · have := hsum fun _ => 1
      simp only [mul_one] at this
      simp [poleMoments, this]
    · have := hsum fun j => fermiFct (p j) beta
      unfold poleOcc
      rw [this, ← hf0, ← hf1, hx]
      field_simp
      ring
  have hiff : ∀ (r : Fin n → ℝ) (mo : Fin 1 → ℝ) (oc : ℝ), occMat 1 p beta *ᵥ r = occVec mo oc ↔
      poleMoments p r 1 = mo 0 ∧ poleOcc p r beta = oc := by
    intro r mo oc
    rw [occMat_mulVec p r beta mo oc one_pos]
    refine and_congr_left fun _ => ⟨fun h => by simpa using h 0, fun h m => ?_⟩
    fin_cases m
    simpa using h
  have hrank : (occMat 1 p beta).rank = 1 + 1 := by
    refine rank_of_surjective _ fun d => ?_
    obtain ⟨r, h1, h2⟩ := hsurj (d 0) (d 1)
    refine ⟨r, ?_⟩
    rw [show d = occVec (fun _ : Fin 1 => d 0) (d 1) by
      funext i
      fin_cases i <;> rfl]
    exact (hiff _ _ _).2 ⟨h1, h2⟩
  obtain ⟨x, hx, hc, hopt⟩ := lstsq_ec_optimal ext (fitMatTau beta p (weight.getD fun _ => 1))
    (fun i => (weight.getD fun _ => 1) i * gf i) (occMat 1 p beta) (occVec moments occ) hn0 hrank
  refine ⟨⟨p, x⟩, ?_, fun j => by rw [hp], ((hiff _ _ _).1 hc).1, ((hiff _ _ _).1 hc).2, fun r h1 h2 => ?_⟩
  · have hnl : ¬ ((n : ℤ) < (1 : ℕ) + truncInt occ) := by omega
    simp only [gfFromTau, if_neg hn0, ht, hnl, implies_true, not_true_eq_false, ← hp,
        if_false, true_or, if_true, ne_eq, hocc, not_false_eq_true, hx, one_ne_zero, zero_lt_one, and_self]
  · simp only
    rw [fitErrorTau_eq _ _ _ _ _ ht, fitErrorTau_eq _ _ _ _ _ ht]
    exact hopt r ((hiff _ _ _).2 ⟨h1, h2⟩)

example : (2 : ℕ) ≤ 3 ∧ (0.4 : ℝ) ≠ 0 ∧ |(0.4 : ℝ)| < 2 ∧ (1 : ℝ) ≠ 0 := by
  norm_num [abs_of_pos]

/-- With as many constraints as unknowns the result does not depend on the data. -/
private lemma lstsqEc_square (ext : LinalgExt ℝ) {m n : ℕ} (a : Matrix (Fin m) (Fin n) ℝ) (b b' : Fin m → ℝ)
    (c : Matrix (Fin n) (Fin n) ℝ) (d : Fin n → ℝ) : lstsqEc ext a b c d = lstsqEc ext a b' c d := by
  have hs : Subsingleton (Fin (n - n) → ℝ) := by
    rw [Nat.sub_self]
    infer_instance
  unfold lstsqEc
  split_ifs
  all_goals first
    | rfl
    | skip
  all_goals simp only
  all_goals congr 3
  all_goals exact Subsingleton.elim _ _

/-- Exponentials on an equidistant grid determine the residues. -/
private lemma lehmann_injective {n : ℕ} (hn : 2 ≤ n) {beta : ℝ} (hb : 0 < beta) (p : Fin n → ℝ) (hp : Function.Injective p)
    (r : Fin n → ℝ) (h : ∀ i : Fin n, Spec.lehmannTau beta p r (linspace0 beta n i) = 0) : r = 0 := by
  have hn1 : (0 : ℝ) < (n : ℝ) - 1 := by
    have : (2 : ℝ) ≤ n := by exact_mod_cast hn
    linarith
  obtain ⟨v, hv⟩ : ∃ v : Fin n → ℝ, v = fun j => Real.exp (-(p j) * (beta / ((n : ℝ) - 1))) := ⟨_, rfl⟩
  have hvinj : Function.Injective v := by
    intro i j hij
    rw [hv] at hij
    have := Real.exp_injective hij
    exact hp (neg_injective (mul_right_cancel₀ (div_pos hb hn1).ne' this))
  have h1 : (fun j => r j * (1 - Spec.fermi beta (p j))) = 0 := by
    refine Matrix.eq_zero_of_vecMul_eq_zero (Matrix.det_vandermonde_ne_zero_iff.2 hvinj) ?_
    funext i
    have := h i
    unfold Spec.lehmannTau at this
    rw [neg_eq_zero] at this
    rw [Pi.zero_apply, ← this, vecMul, dotProduct]
    refine Finset.sum_congr rfl fun j _ => ?_
    rw [Matrix.vandermonde_apply, hv]
    simp only
    rw [← Real.exp_nat_mul, linspace0, if_neg (by omega), mul_assoc]
    congr 3
    ring
  funext j
  have h2 := congrFun h1 j
  have h3 : Spec.fermi beta (p j) < 1 := by
    have := (fermi_fct_mem_Ioo (p j) beta).2
    rwa [fermi_fct_eq] at this
  rcases mul_eq_zero.1 h2 with h4 | h4
  · exact h4
  · linarith

/-- C13 (violation): with two or more moments the repeated rows for the occupation waste degrees of freedom: for twice as many
poles as moments the residues do not depend on the data at all. So for data which stem from a pole function with exactly
these poles, moments and occupation, the fit does not find it, although its error would be zero. -/
theorem gf_from_tau_occ_not_optimal (ext : LinalgExt ℝ) {l : ℕ} (hl : 2 ≤ l) {beta : ℝ} (hb : 0 < beta) {width : ℝ}
    (hw : width ≠ 0) :
    ∃ (gf : Fin (l + l) → ℝ) (moments : Fin l → ℝ) (occ : ℝ) (r : Fin (l + l) → ℝ) (g : PoleFct ℝ (l + l)),
      gfFromTau ext gf (l + l) beta moments occ width none = .ok g ∧
      (∀ m : Fin l, poleMoments g.poles r ((m : ℕ) + 1 : ℤ) = moments m) ∧ poleOcc g.poles r beta = occ ∧
      fitErrorTau beta gf (fun _ => 1) g.poles r = 0 ∧
      0 < fitErrorTau beta gf (fun _ => 1) g.poles g.residues := by
  obtain ⟨p, hp⟩ : ∃ p : Fin (l + l) → ℝ, p = fun j => width * chebyshevPoints (l + l) j := ⟨_, rfl⟩
  have hpinj : Function.Injective p := by
    rw [hp]
    exact scaled_injective (Or.inl hw)
  -- a change of the residues which changes neither moments nor occupation
  obtain ⟨d, hd0, hdm, hdo⟩ : ∃ d : Fin (l + l) → ℝ, d ≠ 0 ∧ (∀ m : Fin l, poleMoments p d ((m : ℕ) + 1 : ℤ) = 0) ∧
      poleOcc p d beta = 0 := by
    obtain ⟨A, hA⟩ : ∃ A : Matrix (Fin (l + 1)) (Fin (l + l)) ℝ, A = Matrix.of fun (i : Fin (l + 1)) (j : Fin (l + l)) =>
        if (i : ℕ) < l then p j ^ (i : ℕ) else fermiFct (p j) beta := ⟨_, rfl⟩
    have hker := LinearMap.ker_ne_bot_of_finrank_lt (f := A.mulVecLin) (by simp; omega)
    obtain ⟨d, h1, h2⟩ := (Submodule.ne_bot_iff _).1 hker
    have h3 : A *ᵥ d = 0 := by simpa using h1
    refine ⟨d, h2, fun m => ?_, ?_⟩
    · have := congrFun h3 ⟨m, by omega⟩
      simp only [hA, mulVec, dotProduct, of_apply, m.2, if_true, Pi.zero_apply] at this
      have h4 := moments_eq (𝕜 := ℝ) p d m
      simp only [RCLike.ofReal_real_eq_id, id] at h4
      rw [h4, ← this]
      exact Finset.sum_congr rfl fun j _ => mul_comm _ _
    · have := congrFun h3 ⟨l, by omega⟩
      simp only [hA, mulVec, dotProduct, of_apply, lt_irrefl, if_false, Pi.zero_apply] at this
      rw [poleOcc, ← this]
      exact Finset.sum_congr rfl fun j _ => mul_comm _ _
  obtain ⟨r1, hr1⟩ : ∃ r1 : Fin (l + l) → ℝ, r1 = Pi.single ⟨0, by omega⟩ 1 := ⟨_, rfl⟩
  obtain ⟨mo, hmo⟩ : ∃ mo : Fin l → ℝ, ∀ m : Fin l, poleMoments p r1 ((m : ℕ) + 1 : ℤ) = mo m := ⟨_, fun m => rfl⟩
  obtain ⟨oc, hoc⟩ : ∃ oc, poleOcc p r1 beta = oc := ⟨_, rfl⟩
  have hoc' : oc = fermiFct (p ⟨0, by omega⟩) beta := by
    rw [← hoc, hr1, poleOcc]
    simp [Pi.single_apply]
  have hmem := fermi_fct_mem_Ioo (p ⟨0, by omega⟩) beta
  rw [← hoc'] at hmem
  have hocc0 : oc ≠ 0 := hmem.1.ne'
  have htr : truncInt oc = 0 := by
    rw [truncInt, if_pos hmem.1.le, Int.floor_eq_zero_iff]
    exact ⟨hmem.1.le, hmem.2⟩
  have hadd : ∀ (a b : Fin (l + l) → ℝ) (t : ℝ), Spec.lehmannTau beta p (a - b) t
      = Spec.lehmannTau beta p a t - Spec.lehmannTau beta p b t := by
    intro a b t
    unfold Spec.lehmannTau
    simp only [Pi.sub_apply, sub_mul, Finset.sum_sub_distrib]
    ring
  have hmoadd : ∀ m : Fin l, poleMoments p (r1 + d) ((m : ℕ) + 1 : ℤ) = mo m := by
    intro m
    rw [← hmo m, ← add_zero (poleMoments p r1 _), ← hdm m]
    unfold poleMoments
    rw [← Finset.sum_add_distrib]
    exact Finset.sum_congr rfl fun j _ => by rw [Pi.add_apply]; ring
  have hocadd : poleOcc p (r1 + d) beta = oc := by
    rw [← hoc, ← add_zero (poleOcc p r1 beta), ← hdo]
    unfold poleOcc
    rw [← Finset.sum_add_distrib]
    exact Finset.sum_congr rfl fun j _ => by rw [Pi.add_apply]; ring
  have hex : ∀ gf : Fin (l + l) → ℝ, ∃ g, gfFromTau ext gf (l + l) beta mo oc width none = .ok g ∧ g.poles = p := by
    intro gf
    obtain ⟨g, h1, h2, -⟩ := gf_from_tau_occ_partial ext gf hb.le mo (occ := oc) (width := width) none (by omega) (by omega) hocc0
      (by rw [htr]; push_cast; omega) ⟨r1, by rw [← hp]; exact ⟨hmo, hoc⟩⟩
    exact ⟨g, h1, by funext j; rw [h2, hp]⟩
  have hconst : ∀ gf gf' : Fin (l + l) → ℝ, gfFromTau ext gf (l + l) beta mo oc width none
      = gfFromTau ext gf' (l + l) beta mo oc width none := by
    intro gf gf'
    unfold gfFromTau
    simp only [ne_eq, hocc0, not_false_eq_true, if_true, or_true]
    rw [lstsqEc_square ext _ _ (fun i => (none.getD fun _ => 1) i * gf' i)]
  have hzero : ∀ r : Fin (l + l) → ℝ,
      fitErrorTau beta (fun i => Spec.lehmannTau beta p r (linspace0 beta (l + l) i)) (fun _ => 1) p r = 0 := by
    intro r
    simp [fitErrorTau]
  have hpos : ∀ r x : Fin (l + l) → ℝ, x ≠ r →
      0 < fitErrorTau beta (fun i => Spec.lehmannTau beta p r (linspace0 beta (l + l) i)) (fun _ => 1) p x := by
    intro r x hx
    refine lt_of_le_of_ne (Finset.sum_nonneg fun i _ => sq_nonneg _) fun h0 => hx ?_
    rw [← sub_eq_zero]
    refine lehmann_injective (by omega) hb p hpinj _ fun i => ?_
    have h1 := (Finset.sum_eq_zero_iff_of_nonneg fun i _ => sq_nonneg _).1 h0.symm i (Finset.mem_univ _)
    rw [hadd]
    simpa using h1
  obtain ⟨g, hg, hgp⟩ := hex fun i => Spec.lehmannTau beta p r1 (linspace0 beta (l + l) i)
  by_cases hgr : g.residues = r1
  · refine ⟨fun i => Spec.lehmannTau beta p (r1 + d) (linspace0 beta (l + l) i), mo, oc, r1 + d, g, ?_, ?_, ?_, ?_, ?_⟩
    · rw [← hg]
      exact hconst _ _
    · rw [hgp]
      exact hmoadd
    · rw [hgp]
      exact hocadd
    · rw [hgp]
      exact hzero _
    · rw [hgp]
      refine hpos _ _ fun h => hd0 ?_
      rw [hgr] at h
      exact left_eq_add.1 h
  · refine ⟨_, mo, oc, r1, g, hg, ?_, ?_, ?_, ?_⟩
    · rw [hgp]
      exact hmo
    · rw [hgp]
      exact hoc
    · rw [hgp]
      exact hzero _
    · rw [hgp]
      exact hpos _ _ hgr

end Gftool.Props
