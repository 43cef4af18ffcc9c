import Verif.Model.PadeFreq
import Verif.Props.PadeFreq
import Mathlib.Analysis.Matrix.Spectrum

/-! # Sorting, residues and existence of the Padé frequencies -/

namespace Gftool.Lemmas

open Gftool Model Matrix Complex

namespace PadeEig

variable {N : ℕ} (E : PadeEig N)

theorem exists_eig {lam : ℂ} {v : Fin N → ℂ} (hv : v ≠ 0) (h : padeAC N *ᵥ v = lam • (padeBC N *ᵥ v)) :
    ∃ l, E.eig l = lam := by
  set c := E.W *ᵥ v with hc
  have hVc : E.V *ᵥ c = v := by rw [hc, mulVec_mulVec, E.hVW, one_mulVec]
  have h1 : padeBC N *ᵥ (E.V *ᵥ (fun l => c l * (E.eig l - lam))) = 0 := by
    have h2 : (fun l => c l * (E.eig l - lam)) = diagonal E.eig *ᵥ c - lam • c := by
      funext l
      simp [mulVec_diagonal]
      ring
    rw [h2, mulVec_sub, mulVec_sub, mulVec_mulVec, mulVec_mulVec, ← E.hAV, ← mulVec_mulVec, mulVec_smul, mulVec_smul, hVc, h,
      sub_self]
  have hzero := E.BV_inj h1
  by_contra hcon
  push Not at hcon
  apply hv
  rw [← hVc]
  have : c = 0 := by
    funext l
    have := congrFun hzero l
    simp only [Pi.zero_apply, mul_eq_zero] at this
    exact this.resolve_right (sub_ne_zero.2 (hcon l))
  rw [this, mulVec_zero]

theorem im_eq_zero (k : Fin N) : (E.eig k).im = 0 := Props.pade_eig_real (E.col_ne_zero k) (E.col_eig k)

theorem V0_ne_zero (hN : 0 < N) (k : Fin N) : E.V ⟨0, hN⟩ k ≠ 0 := fun h =>
  E.col_ne_zero k (pade_eigvec_first (E.ne_zero k) (E.col_eig k) (by simpa [ext0, hN] using h))

/-- Eigenvectors with first component one. -/
noncomputable def nvec (hN : 0 < N) (k i : Fin N) : ℂ := E.V i k / E.V ⟨0, hN⟩ k

theorem nvec_eig (hN : 0 < N) (k : Fin N) :
    padeAC N *ᵥ (E.nvec hN k) = E.eig k • (padeBC N *ᵥ (E.nvec hN k)) := by
  have : E.nvec hN k = (E.V ⟨0, hN⟩ k)⁻¹ • fun i => E.V i k := by
    funext i
    simp [nvec, div_eq_inv_mul]
  rw [this, mulVec_smul, mulVec_smul, E.col_eig, smul_comm]

theorem nvec_zero (hN : 0 < N) (k : Fin N) : E.nvec hN k ⟨0, hN⟩ = 1 := div_self (E.V0_ne_zero hN k)

/-- Normalised eigenvectors are determined by the eigenvalue. -/
theorem nvec_unique (hN : 0 < N) {lam : ℂ} (hl : lam ≠ 0) {u v : Fin N → ℂ} (hu : padeAC N *ᵥ u = lam • (padeBC N *ᵥ u))
    (hv : padeAC N *ᵥ v = lam • (padeBC N *ᵥ v)) (h0 : u ⟨0, hN⟩ = v ⟨0, hN⟩) : u = v := by
  have := pade_eigvec_first (v := u - v) hl (by rw [mulVec_sub, mulVec_sub, hu, hv, smul_sub]) (by simp [ext0, hN, h0])
  exact sub_eq_zero.1 this

theorem nvec_real (hN : 0 < N) (k i : Fin N) : (E.nvec hN k i).im = 0 := by
  have hconj : ∀ M : Matrix (Fin N) (Fin N) ℝ, ∀ w : Fin N → ℂ, (M.map ((↑) : ℝ → ℂ)) *ᵥ (star w)
      = star ((M.map ((↑) : ℝ → ℂ)) *ᵥ w) := by
    intro M w
    funext i
    simp [mulVec, dotProduct]
  have hlam : star (E.eig k) = E.eig k := Complex.conj_eq_iff_im.2 (E.im_eq_zero k)
  have h1 : padeAC N *ᵥ (star (E.nvec hN k)) = E.eig k • (padeBC N *ᵥ (star (E.nvec hN k))) := by
    rw [hconj, hconj, E.nvec_eig, star_smul, hlam]
  have := nvec_unique hN (E.ne_zero k) h1 (E.nvec_eig hN k) (by simp [nvec_zero])
  exact Complex.conj_eq_iff_im.1 (congrFun this i)

/-- The weight of an eigenvalue. -/
theorem weight_mul (hN : 0 < N) (k : Fin N) :
    E.V ⟨0, hN⟩ k * E.W k ⟨0, hN⟩ * ∑ i : Fin N, (2 * (i : ℂ) + 1) * E.nvec hN k i ^ 2 = 1 := by
  set r : Fin N → ℂ := fun i => (2 * (i : ℂ) + 1) * E.V i k with hr
  have hAt : (padeAC N)ᵀ = padeAC N := by
    ext i j
    simp only [transpose_apply, padeAC, padeA, map_apply, diagonal_apply]
    by_cases h : i = j
    · subst h; rfl
    · rw [if_neg h, if_neg (Ne.symm h)]
  have hBt : (padeBC N)ᵀ = padeBC N := by
    ext i j
    simp only [transpose_apply, padeBC, padeB, map_apply, of_apply]
    congr 1
    simp only [or_comm]
  have hsymm : ∀ M : Matrix (Fin N) (Fin N) ℂ, Mᵀ = M → ∀ x y : Fin N → ℂ, x ⬝ᵥ (M *ᵥ y) = y ⬝ᵥ (M *ᵥ x) := by
    intro M hM x y
    rw [dotProduct_mulVec, dotProduct_comm, ← mulVec_transpose, hM]
  have hrA : ∀ y : Fin N → ℂ, r ⬝ᵥ y = -((padeAC N *ᵥ fun i => E.V i k) ⬝ᵥ y) := by
    intro y
    rw [← neg_dotProduct]
    congr 1
    funext i
    rw [Pi.neg_apply, padeAC_mulVec, hr]
    ring
  have hoff : ∀ l, l ≠ k → r ⬝ᵥ (fun i => E.V i l) = 0 := by
    intro l hl
    have h1 : (fun i => E.V i l) ⬝ᵥ (padeAC N *ᵥ fun i => E.V i k) = (fun i => E.V i k) ⬝ᵥ (padeAC N *ᵥ fun i => E.V i l) :=
      hsymm _ hAt _ _
    have h2 : (fun i => E.V i l) ⬝ᵥ (padeBC N *ᵥ fun i => E.V i k) = (fun i => E.V i k) ⬝ᵥ (padeBC N *ᵥ fun i => E.V i l) :=
      hsymm _ hBt _ _
    rw [E.col_eig, E.col_eig, dotProduct_smul, dotProduct_smul, h2, smul_eq_mul, smul_eq_mul] at h1
    have h3 : (E.eig k - E.eig l) * ((fun i => E.V i k) ⬝ᵥ (padeBC N *ᵥ fun i => E.V i l)) = 0 := by
      linear_combination h1
    have h4 := (mul_eq_zero.1 h3).resolve_left (sub_ne_zero.2 fun h => hl (E.eig_injective h).symm)
    rw [hrA, E.col_eig, smul_dotProduct, dotProduct_comm, h2, h4, smul_zero, neg_zero]
  set s := r ⬝ᵥ (fun i => E.V i k) with hs
  have hrV : r ᵥ* E.V = s • Pi.single k 1 := by
    funext l
    rw [Pi.smul_apply, smul_eq_mul]
    by_cases h : l = k
    · subst h
      rw [Pi.single_eq_same, mul_one]
      rfl
    · rw [Pi.single_eq_of_ne h, mul_zero]
      exact hoff l h
  have hrW : r = s • E.W k := by
    have := congrArg (· ᵥ* E.W) hrV
    simp only [vecMul_vecMul, E.hVW, vecMul_one] at this
    rw [this, smul_vecMul]
    congr 1
    funext i
    simp [vecMul, dotProduct, Pi.single_apply]
  have h0 := congrFun hrW ⟨0, hN⟩
  simp only [hr, Pi.smul_apply, smul_eq_mul, Nat.cast_zero, mul_zero, zero_add, one_mul] at h0
  have hV0 := E.V0_ne_zero hN k
  have hsum : s = E.V ⟨0, hN⟩ k ^ 2 * ∑ i : Fin N, (2 * (i : ℂ) + 1) * E.nvec hN k i ^ 2 := by
    rw [hs, dotProduct, Finset.mul_sum]
    refine Finset.sum_congr rfl fun i _ => ?_
    simp only [hr, nvec]
    field_simp
  rw [hsum] at h0
  have h5 : E.V ⟨0, hN⟩ k * (E.V ⟨0, hN⟩ k * E.W k ⟨0, hN⟩ * ∑ i : Fin N, (2 * (i : ℂ) + 1) * E.nvec hN k i ^ 2)
      = E.V ⟨0, hN⟩ k * 1 := by
    rw [mul_one]
    nth_rewrite 3 [h0]
    ring
  exact mul_left_cancel₀ hV0 h5

theorem weight_pos (hN : 0 < N) (k : Fin N) :
    (E.V ⟨0, hN⟩ k * E.W k ⟨0, hN⟩).im = 0 ∧ 0 < (E.V ⟨0, hN⟩ k * E.W k ⟨0, hN⟩).re := by
  have h := E.weight_mul hN k
  have hre : ∀ i, E.nvec hN k i = ((E.nvec hN k i).re : ℂ) := fun i => Complex.ext rfl (by simp [E.nvec_real hN k i])
  set T : ℝ := ∑ i : Fin N, (2 * (i : ℝ) + 1) * (E.nvec hN k i).re ^ 2 with hT
  have hTpos : 0 < T := by
    refine Finset.sum_pos' (fun i _ => by positivity) ⟨⟨0, hN⟩, Finset.mem_univ _, ?_⟩
    rw [E.nvec_zero]
    simp
  have hsum : ∑ i : Fin N, (2 * (i : ℂ) + 1) * E.nvec hN k i ^ 2 = (T : ℂ) := by
    rw [hT]
    push_cast
    refine Finset.sum_congr rfl fun i _ => ?_
    rw [← hre]
  rw [hsum] at h
  have hTc : (T : ℂ) ≠ 0 := by exact_mod_cast hTpos.ne'
  have h2 : E.V ⟨0, hN⟩ k * E.W k ⟨0, hN⟩ = ((T⁻¹ : ℝ) : ℂ) := by
    rw [Complex.ofReal_inv]
    exact eq_inv_of_mul_eq_one_left h
  rw [h2]
  exact ⟨Complex.ofReal_im _, by simpa using hTpos⟩

/-- Sorted eigenvalues. -/
theorem sort_strictMono : StrictMono fun k => (E.eig (argsortC E.eig k)).re := by
  have hm : Monotone fun k => (E.eig (argsortC E.eig k)).re := by
    intro k l hkl
    have := Tuple.monotone_sort (fun k => toLex ((E.eig k).re, (E.eig k).im)) hkl
    simp only [Function.comp] at this
    rw [Prod.Lex.le_iff] at this
    simp only [ofLex_toLex] at this
    rcases this with h | h
    · exact h.le
    · exact h.1.le
  refine hm.strictMono_of_injective fun k l hkl => ?_
  apply (argsortC E.eig).injective
  apply E.eig_injective
  exact Complex.ext hkl (by rw [E.im_eq_zero, E.im_eq_zero])

theorem sort_range : Set.range (fun k => (E.eig (argsortC E.eig k)).re)
    = {x : ℝ | ∃ v : Fin N → ℂ, v ≠ 0 ∧ padeAC N *ᵥ v = (x : ℂ) • (padeBC N *ᵥ v)} := by
  ext x
  constructor
  · rintro ⟨k, rfl⟩
    refine ⟨fun i => E.V i (argsortC E.eig k), E.col_ne_zero _, ?_⟩
    rw [E.col_eig]
    congr 1
    exact Complex.ext rfl (by simp [E.im_eq_zero])
  · rintro ⟨v, hv, h⟩
    obtain ⟨l, hl⟩ := E.exists_eig hv h
    refine ⟨(argsortC E.eig).symm l, ?_⟩
    simp only [Equiv.apply_symm_apply, hl, Complex.ofReal_re]

theorem sort_neg (k : Fin N) : (E.eig (argsortC E.eig k.rev)).re = -(E.eig (argsortC E.eig k)).re := by
  have h1 := E.sort_strictMono
  have h2 : StrictMono fun k : Fin N => -(E.eig (argsortC E.eig k.rev)).re := fun k l hkl =>
    neg_lt_neg (h1 (Fin.rev_lt_rev.2 hkl))
  have h3 : Set.range (fun k => (E.eig (argsortC E.eig k)).re)
      = Set.range (fun k : Fin N => -(E.eig (argsortC E.eig k.rev)).re) := by
    ext x
    constructor
    · rintro ⟨k, rfl⟩
      refine ⟨((argsortC E.eig).symm (E.partner (argsortC E.eig k))).rev, ?_⟩
      simp [E.partner_eig]
    · rintro ⟨k, rfl⟩
      refine ⟨(argsortC E.eig).symm (E.partner (argsortC E.eig k.rev)), ?_⟩
      simp [E.partner_eig]
  have h4 := (h1.range_inj h2).1 h3
  have : (E.eig (argsortC E.eig k)).re = -(E.eig (argsortC E.eig k.rev)).re := congrFun h4 k
  linarith

/-- All exact eigenvalue routines give the same sorted result. -/
theorem sort_unique (E' : PadeEig N) (k : Fin N) : E.eig (argsortC E.eig k) = E'.eig (argsortC E'.eig k) := by
  have h := (E.sort_strictMono.range_inj E'.sort_strictMono).1 (E.sort_range.trans E'.sort_range.symm)
  exact Complex.ext (congrFun h k) (by rw [E.im_eq_zero, E'.im_eq_zero])

theorem weight_unique (E' : PadeEig N) (hN : 0 < N) {k l : Fin N} (h : E.eig k = E'.eig l) :
    E.V ⟨0, hN⟩ k * E.W k ⟨0, hN⟩ = E'.V ⟨0, hN⟩ l * E'.W l ⟨0, hN⟩ := by
  have hn : E.nvec hN k = E'.nvec hN l := by
    refine nvec_unique hN (E.ne_zero k) (E.nvec_eig hN k) ?_ (by rw [nvec_zero, nvec_zero])
    rw [h]
    exact E'.nvec_eig hN l
  have h1 := E.weight_mul hN k
  have h2 := E'.weight_mul hN l
  rw [hn] at h1
  have hne : ∑ i : Fin N, (2 * (i : ℂ) + 1) * E'.nvec hN l i ^ 2 ≠ 0 := right_ne_zero_of_mul (h2 ▸ one_ne_zero)
  exact mul_right_cancel₀ hne (h1.trans h2.symm)

end PadeEig

/-- `B` is injective for even sizes. -/
theorem padeBC_inj (num : ℕ) {v : Fin (num + num) → ℂ} (h : padeBC (num + num) *ᵥ v = 0) : v = 0 := by
  have hB : ∀ i, i < num + num → (if i = 0 then 0 else ext0 v (i - 1)) + ext0 v (i + 1) = 0 := by
    intro i hi
    have h1 := padeBC_mulVec (ext0 v) (ext0_ge v) ⟨i, hi⟩
    rw [ext0_apply, h] at h1
    simp only [Pi.zero_apply] at h1
    have := mul_eq_zero.1 h1.symm
    exact this.resolve_left (by norm_num)
  have hodd : ∀ m, ext0 v (2 * m + 1) = 0 := by
    intro m
    by_cases hm : 2 * m < num + num
    · induction m with
      | zero =>
        have := hB 0 hm
        simpa using this
      | succ m ih =>
        have := hB (2 * (m + 1)) hm
        rw [if_neg (by omega), show 2 * (m + 1) - 1 = 2 * m + 1 by omega, ih (by omega), zero_add] at this
        exact this
    · exact ext0_ge v _ (by omega)
  have heven : ∀ j m, m + j = num → ext0 v (2 * m) = 0 := by
    intro j
    induction j with
    | zero =>
      intro m hm
      exact ext0_ge v _ (by omega)
    | succ j ih =>
      intro m hm
      have := hB (2 * m + 1) (by omega)
      rw [if_neg (by omega), show 2 * m + 1 - 1 = 2 * m by omega, show 2 * m + 1 + 1 = 2 * (m + 1) by ring, ih (m + 1) (by omega),
        add_zero] at this
      exact this
  rw [← ext0_apply v]
  funext k
  simp only [Pi.zero_apply]
  rcases Nat.even_or_odd' (k : ℕ) with ⟨m, hm | hm⟩
  · rw [hm]
    have := k.2
    exact heven (num - m) m (by omega)
  · rw [hm]
    exact hodd m

/-- The contract of the eigenvalue routine can be met for every size. -/
theorem exists_padeEig (num : ℕ) : Nonempty (PadeEig (num + num)) := by
  set d : Fin (num + num) → ℝ := fun i => (√(2 * (i : ℝ) + 1))⁻¹ with hd
  have hd0 : ∀ i, d i ≠ 0 := fun i => by
    have : 0 < 2 * (i : ℝ) + 1 := by positivity
    simp only [hd]
    positivity
  have hdd : ∀ i, d i * d i * (2 * (i : ℝ) + 1) = 1 := fun i => by
    have : 0 < 2 * (i : ℝ) + 1 := by positivity
    simp only [hd]
    rw [← mul_inv, Real.mul_self_sqrt this.le, inv_mul_cancel₀ this.ne']
  set D : Matrix (Fin (num + num)) (Fin (num + num)) ℂ := diagonal fun i => (d i : ℂ) with hD
  set Di : Matrix (Fin (num + num)) (Fin (num + num)) ℂ := diagonal fun i => ((d i)⁻¹ : ℂ) with hDi
  have hDDi : D * Di = 1 := by
    rw [hD, hDi, diagonal_mul_diagonal, ← diagonal_one]
    congr 1
    funext i
    exact mul_inv_cancel₀ (by exact_mod_cast hd0 i)
  have hDiD : Di * D = 1 := mul_eq_one_comm.1 hDDi
  have hS : (D * padeBC (num + num) * D).IsHermitian := by
    rw [IsHermitian, conjTranspose_mul, conjTranspose_mul]
    have h1 : Dᴴ = D := by
      rw [hD, diagonal_conjTranspose]
      congr 1
      funext i
      simp
    have h2 : (padeBC (num + num))ᴴ = padeBC (num + num) := by
      ext i j
      simp only [conjTranspose_apply, padeBC, padeB, map_apply, of_apply]
      rw [RCLike.star_def, Complex.conj_ofReal]
      congr 1
      simp only [or_comm]
    rw [h1, h2, Matrix.mul_assoc]
  obtain ⟨U, hU⟩ : ∃ U : Matrix (Fin (num + num)) (Fin (num + num)) ℂ, U = hS.eigenvectorUnitary := ⟨_, rfl⟩
  have hUU : U * star U = 1 := by rw [hU]; exact Unitary.coe_mul_star_self _
  have hUU' : star U * U = 1 := by rw [hU]; exact Unitary.coe_star_mul_self _
  obtain ⟨mu, hmu⟩ : ∃ mu : Fin (num + num) → ℝ, mu = hS.eigenvalues := ⟨_, rfl⟩
  have hSU : D * padeBC (num + num) * D * U = U * diagonal (fun i => (mu i : ℂ)) := by
    have h1 := hS.spectral_theorem
    rw [Unitary.conjStarAlgAut_apply] at h1
    have h2 : D * padeBC (num + num) * D = U * diagonal (fun i => (mu i : ℂ)) * star U := by
      rw [hU, hmu]
      exact h1
    rw [h2, Matrix.mul_assoc, hUU', Matrix.mul_one]
  have hmu0 : ∀ k, mu k ≠ 0 := by
    intro k hk
    have h1 : padeBC (num + num) *ᵥ (D *ᵥ fun i => U i k) = 0 := by
      have h2 : (D * padeBC (num + num) * D) *ᵥ (fun i => U i k) = 0 := by
        funext i
        have := Matrix.ext_iff.mpr hSU i k
        rw [mul_diagonal, hk, Complex.ofReal_zero, mul_zero] at this
        exact this
      have h3 := congrArg (Di *ᵥ ·) h2
      simp only [mulVec_mulVec, mulVec_zero] at h3
      rw [← Matrix.mul_assoc, ← Matrix.mul_assoc, hDiD, Matrix.one_mul] at h3
      rw [mulVec_mulVec]
      exact h3
    have h4 := padeBC_inj num h1
    have h5 : (fun i => U i k) = 0 := by
      have := congrArg (Di *ᵥ ·) h4
      simpa [mulVec_mulVec, hDiD] using this
    have h6 := Matrix.ext_iff.mpr hUU' k k
    rw [mul_apply, one_apply_eq] at h6
    have h7 : ∑ j, star U k j * U j k = 0 := Finset.sum_eq_zero fun j _ => by
      have := congrFun h5 j
      simp only [Pi.zero_apply] at this
      rw [this, mul_zero]
    exact zero_ne_one (h7.symm.trans h6)
  refine ⟨⟨fun k => -((mu k)⁻¹ : ℂ), D * U, star U * Di, ?_, ?_⟩⟩
  · rw [Matrix.mul_assoc, ← Matrix.mul_assoc U, hUU, Matrix.one_mul, hDDi]
  · have hA : padeAC (num + num) = -(Di * Di) := by
      rw [hDi, diagonal_mul_diagonal, padeAC, padeA, diagonal_map (by simp)]
      rw [show (-diagonal fun i => ((d i : ℂ))⁻¹ * ((d i : ℂ))⁻¹) = diagonal fun i => -(((d i : ℂ))⁻¹ * ((d i : ℂ))⁻¹) from
        diagonal_neg _]
      congr 1
      funext i
      have h1 := hdd i
      have h2 := hd0 i
      have h3 : (2 * (i : ℝ) + 1) = (d i)⁻¹ * (d i)⁻¹ := by
        field_simp
        linarith
      rw [h3]
      push_cast
      rfl
    have hB : padeBC (num + num) * (D * U) = Di * U * diagonal (fun i => (mu i : ℂ)) := by
      rw [Matrix.mul_assoc Di, ← hSU, ← Matrix.mul_assoc, ← Matrix.mul_assoc, ← Matrix.mul_assoc Di, ← Matrix.mul_assoc Di,
        hDiD, Matrix.one_mul]
    rw [hB, Matrix.mul_assoc (Di * U), diagonal_mul_diagonal, hA]
    have h1 : (fun i => (mu i : ℂ) * -((mu i)⁻¹ : ℂ)) = fun _ => (-1 : ℂ) := by
      funext i
      rw [mul_neg, mul_inv_cancel₀ (by exact_mod_cast hmu0 i)]
    rw [h1]
    have h2 : diagonal (fun _ : Fin (num + num) => (-1 : ℂ)) = -1 := by
      rw [← diagonal_one, ← diagonal_neg]
    rw [h2, Matrix.mul_neg, Matrix.mul_one, Matrix.neg_mul, ← Matrix.mul_assoc, Matrix.mul_assoc Di Di D, hDiD, Matrix.mul_one]

end Gftool.Lemmas
