import Verif.Spec.Fock
import Verif.Props.Toplevel

/-!
# The Green's function of the Hubbard dimer by exact diagonalisation (C47)
-/

namespace Gftool.Props

open Gftool.Model Gftool.Spec

/-! ## The specification describes fermions -/

private lemma occ_forall {P : Occ → Prop} (h : ∀ a b c d, P (a, b, c, d)) : ∀ n, P n := fun (a, b, c, d) => h a b c d

/-- The canonical anticommutation relations `{c_i, c_j} = 0`, `{c_i, c†_j} = δ_ij`. -/
theorem fock_car (i j : Fin 4) (ψ : Fock) :
    ann i (ann j ψ) + ann j (ann i ψ) = 0 ∧
    ann i (cre j ψ) + cre j (ann i ψ) = if i = j then ψ else 0 := by
  constructor <;> funext n <;> revert n <;> refine occ_forall fun a b c d => ?_ <;>
    fin_cases i <;> fin_cases j <;> cases a <;> cases b <;> cases c <;> cases d <;>
    simp [ann, cre, jw]

private lemma braket_eq (φ ψ : Fock) : braket φ ψ = ∑ a, ∑ b, ∑ c, ∑ d,
    (starRingEnd ℂ) (φ (a, b, c, d)) * ψ (a, b, c, d) := by
  unfold braket
  rw [Fintype.sum_prod_type]
  refine Finset.sum_congr rfl fun a _ => ?_
  rw [Fintype.sum_prod_type]
  refine Finset.sum_congr rfl fun b _ => ?_
  rw [Fintype.sum_prod_type]

/-- The creators are the adjoints of the annihilators. -/
theorem fock_adjoint (i : Fin 4) (φ ψ : Fock) : braket φ (ann i ψ) = braket (cre i φ) ψ := by
  rw [braket_eq, braket_eq]
  fin_cases i <;> simp only [Fintype.sum_bool] <;> simp [ann, cre, jw]

/-! ## Hubbard dimer -/

private lemma dimerH_apply (t U : ℝ) (ψ : Fock) :
    dimerH t U ψ (false, false, false, false) = 0 ∧
    dimerH t U ψ (false, false, false, true) = -(t : ℂ) * (ψ (false, false, true, false)) ∧
    dimerH t U ψ (false, false, true, false) = -(t : ℂ) * (ψ (false, false, false, true)) ∧
    dimerH t U ψ (false, false, true, true) = 0 ∧
    dimerH t U ψ (false, true, false, false) = -(t : ℂ) * (ψ (true, false, false, false)) ∧
    dimerH t U ψ (false, true, false, true) = -(t : ℂ) * (ψ (true, false, false, true) + ψ (false, true, true, false)) + (U : ℂ) * ψ (false, true, false, true) ∧
    dimerH t U ψ (false, true, true, false) = -(t : ℂ) * (ψ (true, false, true, false) + ψ (false, true, false, true)) ∧
    dimerH t U ψ (false, true, true, true) = -(t : ℂ) * (ψ (true, false, true, true)) + (U : ℂ) * ψ (false, true, true, true) ∧
    dimerH t U ψ (true, false, false, false) = -(t : ℂ) * (ψ (false, true, false, false)) ∧
    dimerH t U ψ (true, false, false, true) = -(t : ℂ) * (ψ (false, true, false, true) + ψ (true, false, true, false)) ∧
    dimerH t U ψ (true, false, true, false) = -(t : ℂ) * (ψ (false, true, true, false) + ψ (true, false, false, true)) + (U : ℂ) * ψ (true, false, true, false) ∧
    dimerH t U ψ (true, false, true, true) = -(t : ℂ) * (ψ (false, true, true, true)) + (U : ℂ) * ψ (true, false, true, true) ∧
    dimerH t U ψ (true, true, false, false) = 0 ∧
    dimerH t U ψ (true, true, false, true) = -(t : ℂ) * (ψ (true, true, true, false)) + (U : ℂ) * ψ (true, true, false, true) ∧
    dimerH t U ψ (true, true, true, false) = -(t : ℂ) * (ψ (true, true, false, true)) + (U : ℂ) * ψ (true, true, true, false) ∧
    dimerH t U ψ (true, true, true, true) = 2 * (U : ℂ) * ψ (true, true, true, true) := by
  refine ⟨?_, ?_, ?_, ?_, ?_, ?_, ?_, ?_, ?_, ?_, ?_, ?_, ?_, ?_, ?_, ?_⟩ <;>
    simp [dimerH, num, mode, ann, cre, jw, Fin.sum_univ_two] <;> ring

private lemma numTot_apply (ψ : Fock) :
    numTot ψ (false, false, false, false) = 0 * ψ (false, false, false, false) ∧
    numTot ψ (false, false, false, true) = 1 * ψ (false, false, false, true) ∧
    numTot ψ (false, false, true, false) = 1 * ψ (false, false, true, false) ∧
    numTot ψ (false, false, true, true) = 2 * ψ (false, false, true, true) ∧
    numTot ψ (false, true, false, false) = 1 * ψ (false, true, false, false) ∧
    numTot ψ (false, true, false, true) = 2 * ψ (false, true, false, true) ∧
    numTot ψ (false, true, true, false) = 2 * ψ (false, true, true, false) ∧
    numTot ψ (false, true, true, true) = 3 * ψ (false, true, true, true) ∧
    numTot ψ (true, false, false, false) = 1 * ψ (true, false, false, false) ∧
    numTot ψ (true, false, false, true) = 2 * ψ (true, false, false, true) ∧
    numTot ψ (true, false, true, false) = 2 * ψ (true, false, true, false) ∧
    numTot ψ (true, false, true, true) = 3 * ψ (true, false, true, true) ∧
    numTot ψ (true, true, false, false) = 2 * ψ (true, true, false, false) ∧
    numTot ψ (true, true, false, true) = 3 * ψ (true, true, false, true) ∧
    numTot ψ (true, true, true, false) = 3 * ψ (true, true, true, false) ∧
    numTot ψ (true, true, true, true) = 4 * ψ (true, true, true, true) := by
  refine ⟨?_, ?_, ?_, ?_, ?_, ?_, ?_, ?_, ?_, ?_, ?_, ?_, ?_, ?_, ?_, ?_⟩ <;>
    simp [numTot, num, ann, cre, jw, Fin.sum_univ_four] <;> ring

private lemma dimerH_symm (t U : ℝ) (φ ψ : Fock) : braket φ (dimerH t U ψ) = braket (dimerH t U φ) ψ := by
  obtain ⟨a1, a2, a3, a4, a5, a6, a7, a8, a9, a10, a11, a12, a13, a14, a15, a16⟩ := dimerH_apply t U ψ
  obtain ⟨b1, b2, b3, b4, b5, b6, b7, b8, b9, b10, b11, b12, b13, b14, b15, b16⟩ := dimerH_apply t U φ
  rw [braket_eq, braket_eq]
  simp only [Fintype.sum_bool, a1, a2, a3, a4, a5, a6, a7, a8, a9, a10, a11, a12, a13, a14, a15, a16,
    b1, b2, b3, b4, b5, b6, b7, b8, b9, b10, b11, b12, b13, b14, b15, b16]
  simp only [map_add, map_mul, map_neg, map_zero, map_ofNat, Complex.conj_ofReal]
  ring

private lemma dimerH_smul (t U : ℝ) (a : ℂ) (ψ : Fock) : dimerH t U (a • ψ) = a • dimerH t U ψ := by
  obtain ⟨a1, a2, a3, a4, a5, a6, a7, a8, a9, a10, a11, a12, a13, a14, a15, a16⟩ := dimerH_apply t U ψ
  obtain ⟨b1, b2, b3, b4, b5, b6, b7, b8, b9, b10, b11, b12, b13, b14, b15, b16⟩ := dimerH_apply t U (a • ψ)
  funext n
  revert n
  refine occ_forall fun x y z w => ?_
  cases x <;> cases y <;> cases z <;> cases w <;>
    simp only [Pi.smul_apply, smul_eq_mul, a1, a2, a3, a4, a5, a6, a7, a8, a9, a10, a11, a12, a13, a14, a15, a16,
    b1, b2, b3, b4, b5, b6, b7, b8, b9, b10, b11, b12, b13, b14, b15, b16] <;> ring

/-- A state of two electrons has six amplitudes. -/
private lemma number_two {ψ : Fock} (h : numTot ψ = ((2 : ℕ) : ℂ) • ψ) :
    ψ (false, false, false, false) = 0 ∧ ψ (true, false, false, false) = 0 ∧ ψ (false, true, false, false) = 0 ∧
    ψ (false, false, true, false) = 0 ∧ ψ (false, false, false, true) = 0 ∧ ψ (false, true, true, true) = 0 ∧
    ψ (true, false, true, true) = 0 ∧ ψ (true, true, false, true) = 0 ∧ ψ (true, true, true, false) = 0 ∧
    ψ (true, true, true, true) = 0 := by
  have key : ∀ n (k : ℂ), numTot ψ n = k * ψ n → k - 2 ≠ 0 → ψ n = 0 := by
    intro n k h1 h2
    rw [h] at h1
    have h3 : (k - 2) * ψ n = 0 := by
      have : ((2 : ℕ) : ℂ) * ψ n = k * ψ n := h1
      push_cast at this
      linear_combination -this
    exact (mul_eq_zero.1 h3).resolve_left h2
  obtain ⟨b1, b2, b3, b4, b5, b6, b7, b8, b9, b10, b11, b12, b13, b14, b15, b16⟩ := numTot_apply ψ
  refine ⟨key _ _ b1 (by norm_num), key _ _ b9 (by norm_num), key _ _ b5 (by norm_num), key _ _ b3 (by norm_num),
    key _ _ b2 (by norm_num), key _ _ b8 (by norm_num), key _ _ b12 (by norm_num), key _ _ b14 (by norm_num),
    key _ _ b15 (by norm_num), key _ _ b16 (by norm_num)⟩

/-- The singlet with amplitude `d` of the doubly occupied and `c` of the singly occupied sites. -/
noncomputable def dimerState (d c : ℂ) : Fock := fun
  | (true, false, true, false) => d
  | (false, true, false, true) => d
  | (true, false, false, true) => c
  | (false, true, true, false) => c
  | _ => 0

private lemma dimerState_number (d c : ℂ) : numTot (dimerState d c) = ((2 : ℕ) : ℂ) • dimerState d c := by
  obtain ⟨b1, b2, b3, b4, b5, b6, b7, b8, b9, b10, b11, b12, b13, b14, b15, b16⟩ := numTot_apply (dimerState d c)
  funext n
  revert n
  refine occ_forall fun a b c d => ?_
  rw [Pi.smul_apply, smul_eq_mul]
  cases a <;> cases b <;> cases c <;> cases d <;>
    simp only [b1, b2, b3, b4, b5, b6, b7, b8, b9, b10, b11, b12, b13, b14, b15, b16] <;> simp [dimerState]

private lemma dimerState_norm (d c : ℂ) :
    braket (dimerState d c) (dimerState d c) = 2 * ((starRingEnd ℂ) d * d + (starRingEnd ℂ) c * c) := by
  rw [braket_eq]
  simp only [Fintype.sum_bool]
  simp [dimerState]
  ring

private lemma dimerState_energy {t U E : ℝ} {d c : ℂ} (h1 : E * d = U * d - 2 * t * c) (h2 : E * c = -2 * t * d) :
    dimerH t U (dimerState d c) = (E : ℂ) • dimerState d c := by
  obtain ⟨a1, a2, a3, a4, a5, a6, a7, a8, a9, a10, a11, a12, a13, a14, a15, a16⟩ := dimerH_apply t U (dimerState d c)
  have e : ∀ x y z w, dimerState d c (x, y, z, w) = match (x, y, z, w) with
    | (true, false, true, false) => d
    | (false, true, false, true) => d
    | (true, false, false, true) => c
    | (false, true, true, false) => c
    | _ => 0 := fun _ _ _ _ => rfl
  funext n
  revert n
  refine occ_forall fun x y z w => ?_
  rw [Pi.smul_apply, smul_eq_mul]
  cases x <;> cases y <;> cases z <;> cases w <;>
    simp only [a1, a2, a3, a4, a5, a6, a7, a8, a9, a10, a11, a12, a13, a14, a15, a16, e] <;>
    first
    | ring1
    | linear_combination -h1
    | linear_combination -h2

/-- Quadratic form of two variables. -/
private lemma form_nonneg {A B t : ℝ} (hA : 0 ≤ A) (hB : 0 ≤ B) (h : A * B = 4 * t ^ 2) (a b c e : ℝ) :
    0 ≤ A * (a ^ 2 + b ^ 2) + B * (c ^ 2 + e ^ 2) - 2 * t * (a + b) * (c + e) := by
  have h1 : 0 ≤ A * (a - b) ^ 2 + B * (c - e) ^ 2 := by positivity
  have h2 : 0 ≤ A * (a + b) ^ 2 + B * (c + e) ^ 2 - 4 * t * (a + b) * (c + e) := by
    rcases hA.eq_or_lt with rfl | hA'
    · have : t = 0 := by nlinarith
      rw [this]
      nlinarith [mul_nonneg hB (sq_nonneg (c + e))]
    · have : 0 ≤ A * (A * (a + b) ^ 2 + B * (c + e) ^ 2 - 4 * t * (a + b) * (c + e)) := by
        have : A * (A * (a + b) ^ 2 + B * (c + e) ^ 2 - 4 * t * (a + b) * (c + e)) = (A * (a + b) - 2 * t * (c + e)) ^ 2 := by
          linear_combination (c + e) ^ 2 * h
        rw [this]
        positivity
      exact nonneg_of_mul_nonneg_right this hA'
  nlinarith

private lemma dimerW_facts (t U : ℝ) : ∃ W, W = √(U ^ 2 / 4 + 4 * t ^ 2) ∧ 0 ≤ W ∧ W ^ 2 = U ^ 2 / 4 + 4 * t ^ 2 ∧
    0 ≤ W + U / 2 ∧ 0 ≤ W - U / 2 := by
  refine ⟨_, rfl, Real.sqrt_nonneg _, Real.sq_sqrt (by positivity), ?_, ?_⟩
  · have : -(U / 2) ≤ √(U ^ 2 / 4 + 4 * t ^ 2) := Real.le_sqrt_of_sq_le (by nlinarith [sq_nonneg t])
    linarith
  · have : U / 2 ≤ √(U ^ 2 / 4 + 4 * t ^ 2) := Real.le_sqrt_of_sq_le (by nlinarith [sq_nonneg t])
    linarith

/-- The energy of two electrons is at least `U/2 - W`. -/
private lemma dimer_bound (t U : ℝ) {φ : Fock} (h : numTot φ = ((2 : ℕ) : ℂ) • φ) :
    (U / 2 - √(U ^ 2 / 4 + 4 * t ^ 2)) * (braket φ φ).re ≤ (braket φ (dimerH t U φ)).re := by
  obtain ⟨W, hW, -, hsq, hA, hB⟩ := dimerW_facts t U
  rw [← hW]
  obtain ⟨z1, z2, z3, z4, z5, z6, z7, z8, z9, z10⟩ := number_two h
  obtain ⟨a1, a2, a3, a4, a5, a6, a7, a8, a9, a10, a11, a12, a13, a14, a15, a16⟩ := dimerH_apply t U φ
  rw [braket_eq, braket_eq]
  simp only [Fintype.sum_bool, a1, a2, a3, a4, a5, a6, a7, a8, a9, a10, a11, a12, a13, a14, a15, a16]
  simp only [z1, z2, z3, z4, z5, z6, z7, z8, z9, z10, map_zero, zero_mul, mul_zero, add_zero, zero_add]
  generalize φ (true, true, false, false) = p
  generalize φ (false, false, true, true) = q
  generalize φ (true, false, true, false) = d1
  generalize φ (false, true, false, true) = d2
  generalize φ (true, false, false, true) = c1
  generalize φ (false, true, true, false) = c2
  simp only [Complex.add_re, Complex.add_im, Complex.mul_re, Complex.mul_im, Complex.conj_re, Complex.conj_im,
    Complex.neg_re, Complex.neg_im, Complex.ofReal_re, Complex.ofReal_im]
  have hAB : (W + U / 2) * (W - U / 2) = 4 * t ^ 2 := by linear_combination hsq
  have f1 := form_nonneg hA hB hAB d1.re d2.re c1.re c2.re
  have f2 := form_nonneg hA hB hAB d1.im d2.im c1.im c2.im
  have f3 : 0 ≤ (W - U / 2) * (p.re ^ 2 + p.im ^ 2 + q.re ^ 2 + q.im ^ 2) := by positivity
  nlinarith

/-- The relations of the amplitudes in the ground state. -/
private structure DimerGs (t U E : ℝ) (ψ : Fock) (d c : ℂ) : Prop where
  state : ψ = dimerState d c
  eq1 : E * d = U * d - 2 * t * c
  eq2 : E * c = -2 * t * d
  norm : (starRingEnd ℂ) d * d + (starRingEnd ℂ) c * c = 1 / 2

private lemma dimer_gs_exists {t U : ℝ} (h : t ≠ 0 ∨ U ≠ 0) :
    ∃ d c : ℂ, DimerGs t U (U / 2 - √(U ^ 2 / 4 + 4 * t ^ 2)) (dimerState d c) d c ∧
      (starRingEnd ℂ) d * c = t / (2 * √(U ^ 2 / 4 + 4 * t ^ 2)) := by
  have hW0 := dimerW_ne h
  obtain ⟨W, hW, -, hsq, hA, hB⟩ := dimerW_facts t U
  rw [← hW] at hW0 ⊢
  have hAB : (W + U / 2) * (W - U / 2) = 4 * t ^ 2 := by linear_combination hsq
  -- `d² = (W - U/2)/(4W)`, `c² = (W + U/2)/(4W)`, `d c = t/(2W)`
  obtain ⟨d, c, hd, hc, hdc⟩ : ∃ d c : ℝ, d ^ 2 = (W - U / 2) / (4 * W) ∧ c ^ 2 = (W + U / 2) / (4 * W) ∧
      d * c = t / (2 * W) := by
    obtain ⟨s, hs, hst⟩ : ∃ s : ℝ, s ^ 2 = 1 ∧ s * |t| = t := by
      rcases le_total 0 t with h | h
      · exact ⟨1, by norm_num, by rw [abs_of_nonneg h, one_mul]⟩
      · exact ⟨-1, by norm_num, by rw [abs_of_nonpos h]; ring⟩
    refine ⟨s * √((W - U / 2) / (4 * W)), √((W + U / 2) / (4 * W)), ?_, ?_, ?_⟩
    · rw [mul_pow, hs, one_mul, Real.sq_sqrt (by positivity)]
    · rw [Real.sq_sqrt (by positivity)]
    · rw [mul_assoc, ← Real.sqrt_mul (by positivity)]
      have : (W - U / 2) / (4 * W) * ((W + U / 2) / (4 * W)) = (|t| / (2 * W)) ^ 2 := by
        rw [div_pow, sq_abs]
        field_simp
        linear_combination 4 * hAB
      rw [this, Real.sqrt_sq (by positivity), ← mul_div_assoc, hst]
  have hWc : (W : ℂ) ≠ 0 := by exact_mod_cast hW0.ne'
  refine ⟨d, c, ⟨rfl, ?_, ?_, ?_⟩, ?_⟩
  · by_cases hd0 : d = 0
    · have hB0 : W - U / 2 = 0 := by
        rw [hd0] at hd
        have : (W - U / 2) / (4 * W) = 0 := by rw [← hd]; ring
        rcases div_eq_zero_iff.1 this with h | h
        · exact h
        · linarith
      have ht0 : t = 0 := by rw [hB0, mul_zero] at hAB; nlinarith
      rw [hd0, ht0]
      push_cast
      ring
    · have : d * ((U / 2 - W) * d - (U * d - 2 * t * c)) = 0 := by
        have e1 : d * ((U / 2 - W) * d - (U * d - 2 * t * c)) = -(U / 2 + W) * d ^ 2 + 2 * t * (d * c) := by ring
        rw [e1, hd, hdc]
        field_simp
        linear_combination -4 * hAB
      have := (mul_eq_zero.1 this).resolve_left hd0
      exact_mod_cast (sub_eq_zero.1 this)
  · by_cases hc0 : c = 0
    · have hB0 : W + U / 2 = 0 := by
        rw [hc0] at hc
        have : (W + U / 2) / (4 * W) = 0 := by rw [← hc]; ring
        rcases div_eq_zero_iff.1 this with h | h
        · exact h
        · linarith
      have ht0 : t = 0 := by rw [hB0, zero_mul] at hAB; nlinarith
      rw [hc0, ht0]
      push_cast
      ring
    · have : c * ((U / 2 - W) * c - (-2 * t * d)) = 0 := by
        have e1 : c * ((U / 2 - W) * c - (-2 * t * d)) = (U / 2 - W) * c ^ 2 + 2 * t * (d * c) := by ring
        rw [e1, hc, hdc]
        field_simp
        linear_combination -4 * hAB
      have := (mul_eq_zero.1 this).resolve_left hc0
      exact_mod_cast (sub_eq_zero.1 this)
  · rw [Complex.conj_ofReal, Complex.conj_ofReal]
    have : d ^ 2 + c ^ 2 = 1 / 2 := by rw [hd, hc]; field_simp; ring
    have h2 : ((d ^ 2 + c ^ 2 : ℝ) : ℂ) = ((1 / 2 : ℝ) : ℂ) := by rw [this]
    push_cast at h2
    rw [← h2]
    ring
  · rw [Complex.conj_ofReal]
    have h2 : ((d * c : ℝ) : ℂ) = ((t / (2 * W) : ℝ) : ℂ) := by rw [hdc]
    push_cast at h2
    exact h2

private lemma DimerGs.isGroundState {t U : ℝ} {ψ : Fock} {d c : ℂ}
    (h : DimerGs t U (U / 2 - √(U ^ 2 / 4 + 4 * t ^ 2)) ψ d c) :
    IsGroundState (dimerH t U) 2 (U / 2 - √(U ^ 2 / 4 + 4 * t ^ 2)) ψ := by
  obtain ⟨rfl, h1, h2, h3⟩ := h
  refine ⟨?_, dimerState_number d c, dimerState_energy h1 h2, fun φ hφ => dimer_bound t U hφ⟩
  rw [dimerState_norm, h3]
  norm_num

/-- For non-vanishing hopping the ground state is unique up to a phase. -/
private lemma dimer_gs_unique {t U E : ℝ} (ht : t ≠ 0) {ψ : Fock} (h : IsGroundState (dimerH t U) 2 E ψ) :
    E = U / 2 - √(U ^ 2 / 4 + 4 * t ^ 2) ∧ ∃ d c : ℂ, DimerGs t U (U / 2 - √(U ^ 2 / 4 + 4 * t ^ 2)) ψ d c ∧
      (starRingEnd ℂ) d * c = t / (2 * √(U ^ 2 / 4 + 4 * t ^ 2)) := by
  have hW0 := dimerW_ne (t := t) (U := U) (.inl ht)
  obtain ⟨hn, hnum, hen, hmin⟩ := h
  have hle : E ≤ U / 2 - √(U ^ 2 / 4 + 4 * t ^ 2) := by
    obtain ⟨d, c, hg, -⟩ := dimer_gs_exists (t := t) (U := U) (.inl ht)
    obtain ⟨g1, g2, g3, -⟩ := hg.isGroundState
    have := hmin _ g2
    rw [g3] at this
    have e1 : braket (dimerState d c) (((U / 2 - √(U ^ 2 / 4 + 4 * t ^ 2) : ℝ) : ℂ) • dimerState d c) =
        ((U / 2 - √(U ^ 2 / 4 + 4 * t ^ 2) : ℝ) : ℂ) * braket (dimerState d c) (dimerState d c) := by
      unfold braket
      rw [Finset.mul_sum]
      refine Finset.sum_congr rfl fun n _ => ?_
      rw [Pi.smul_apply, smul_eq_mul]
      ring
    rw [e1, g1, mul_one, Complex.ofReal_re, Complex.one_re, mul_one] at this
    exact this
  obtain ⟨W, hW, -, hsq, hA, hB⟩ := dimerW_facts t U
  rw [← hW] at hW0 hle ⊢
  have hAB : (W + U / 2) * (W - U / 2) = 4 * t ^ 2 := by linear_combination hsq
  have ht2 : 0 < 4 * t ^ 2 := by positivity
  have hA' : 0 < W + U / 2 := by
    rcases hA.eq_or_lt with h | h
    · rw [← h, zero_mul] at hAB; linarith
    · exact h
  have hB' : 0 < W - U / 2 := by
    rcases hB.eq_or_lt with h | h
    · rw [← h, mul_zero] at hAB; linarith
    · exact h
  have hE0 : (E : ℂ) ≠ 0 := by
    have : E ≠ 0 := by intro h; linarith
    exact_mod_cast this
  have hEU : (E : ℂ) - U ≠ 0 := by
    have : E - U ≠ 0 := by intro h; linarith
    exact_mod_cast this
  obtain ⟨z1, z2, z3, z4, z5, z6, z7, z8, z9, z10⟩ := number_two hnum
  obtain ⟨a1, a2, a3, a4, a5, a6, a7, a8, a9, a10, a11, a12, a13, a14, a15, a16⟩ := dimerH_apply t U ψ
  rw [hen] at a4 a6 a7 a10 a11 a13
  simp only [Pi.smul_apply, smul_eq_mul] at a4 a6 a7 a10 a11 a13
  have p0 : ψ (true, true, false, false) = 0 := (mul_eq_zero.1 a13).resolve_left hE0
  have q0 : ψ (false, false, true, true) = 0 := (mul_eq_zero.1 a4).resolve_left hE0
  obtain ⟨d, hd⟩ : ∃ d, d = ψ (true, false, true, false) := ⟨_, rfl⟩
  obtain ⟨c, hc⟩ : ∃ c, c = ψ (true, false, false, true) := ⟨_, rfl⟩
  have hd2 : ψ (false, true, false, true) = d := by
    have : ((E : ℂ) - U) * (ψ (false, true, false, true) - ψ (true, false, true, false)) = 0 := by
      linear_combination a6 - a11
    rw [hd]
    exact sub_eq_zero.1 ((mul_eq_zero.1 this).resolve_left hEU)
  have hc2 : ψ (false, true, true, false) = c := by
    have : (E : ℂ) * (ψ (false, true, true, false) - ψ (true, false, false, true)) = 0 := by
      linear_combination a7 - a10
    rw [hc]
    exact sub_eq_zero.1 ((mul_eq_zero.1 this).resolve_left hE0)
  have hψ : ψ = dimerState d c := by
    funext n
    revert n
    refine occ_forall fun x y z w => ?_
    cases x <;> cases y <;> cases z <;> cases w <;> simp [dimerState, *]
  simp only [← hd, ← hc, hd2, hc2] at a10 a11
  have h1 : (E : ℂ) * d = U * d - 2 * t * c := by linear_combination a11
  have h2 : (E : ℂ) * c = -2 * t * d := by linear_combination a10
  have h3 : (starRingEnd ℂ) d * d + (starRingEnd ℂ) c * c = 1 / 2 := by
    rw [hψ, dimerState_norm] at hn
    linear_combination hn / 2
  have hd0 : d ≠ 0 := by
    intro hd0
    rw [hd0, mul_zero] at h2
    rw [hd0, (mul_eq_zero.1 h2).resolve_left hE0] at h3
    norm_num at h3
  have hE : E = U / 2 - W := by
    have : ((E : ℂ) * (E - U) - 4 * t ^ 2) * d = 0 := by linear_combination E * h1 - 2 * t * h2
    have := (mul_eq_zero.1 this).resolve_right hd0
    have h4 : E * (E - U) - 4 * t ^ 2 = 0 := by exact_mod_cast this
    have h5 : (E - U / 2 - W) * (E - U / 2 + W) = 0 := by linear_combination h4 - hsq
    rcases mul_eq_zero.1 h5 with h | h
    · linarith
    · linarith
  refine ⟨hE, d, c, ⟨hψ, by rw [← hE]; exact h1, by rw [← hE]; exact h2, h3⟩, ?_⟩
  have hdc : 2 * (t : ℂ) * ((starRingEnd ℂ) d * c) = (W + U / 2) * ((starRingEnd ℂ) d * d) := by
    rw [hE] at h1
    push_cast at h1
    linear_combination (starRingEnd ℂ) d * h1
  have hcd : 2 * (t : ℂ) * ((starRingEnd ℂ) d * c) = (W - U / 2) * ((starRingEnd ℂ) c * c) := by
    have h4 := congrArg (starRingEnd ℂ) h2
    simp only [map_mul, map_neg, Complex.conj_ofReal, Complex.conj_ofNat] at h4
    rw [hE] at h4
    push_cast at h4
    linear_combination c * h4
  have hABc : ((W : ℂ) + U / 2) * (W - U / 2) = 4 * t ^ 2 := by exact_mod_cast hAB
  have htc : (t : ℂ) ≠ 0 := by exact_mod_cast ht
  have hWc : (W : ℂ) ≠ 0 := by exact_mod_cast hW0.ne'
  rw [eq_div_iff (by simpa using hWc)]
  apply mul_left_cancel₀ (mul_ne_zero two_ne_zero (mul_ne_zero two_ne_zero htc))
  linear_combination 2 * (W - U / 2 : ℂ) * hdc + 2 * (W + U / 2 : ℂ) * hcd + 8 * (t : ℂ) ^ 2 * h3
    + 2 * ((starRingEnd ℂ) d * d + (starRingEnd ℂ) c * c) * hABc

/-! ## The Green's function -/

private lemma braket_add (φ x y : Fock) : braket φ (x + y) = braket φ x + braket φ y := by
  unfold braket
  rw [← Finset.sum_add_distrib]
  exact Finset.sum_congr rfl fun n _ => by rw [Pi.add_apply, mul_add]

private lemma braket_smul (φ x : Fock) (z : ℂ) : braket φ (z • x) = z * braket φ x := by
  unfold braket
  rw [Finset.mul_sum]
  exact Finset.sum_congr rfl fun n _ => by rw [Pi.smul_apply, smul_eq_mul]; ring

private lemma braket_sub (φ x y : Fock) : braket φ (x - y) = braket φ x - braket φ y := by
  unfold braket
  rw [← Finset.sum_sub_distrib]
  exact Finset.sum_congr rfl fun n _ => by rw [Pi.sub_apply, mul_sub]

private lemma braket_smul_left (φ x : Fock) (z : ℂ) : braket (z • φ) x = (starRingEnd ℂ) z * braket φ x := by
  unfold braket
  rw [Finset.mul_sum]
  exact Finset.sum_congr rfl fun n _ => by rw [Pi.smul_apply, smul_eq_mul, map_mul]; ring

private lemma braket_add_left (φ x y : Fock) : braket (x + y) φ = braket x φ + braket y φ := by
  unfold braket
  rw [← Finset.sum_add_distrib]
  exact Finset.sum_congr rfl fun n _ => by rw [Pi.add_apply, map_add, add_mul]

private lemma braket_conj (φ x : Fock) : (starRingEnd ℂ) (braket φ x) = braket x φ := by
  unfold braket
  rw [map_sum]
  exact Finset.sum_congr rfl fun n _ => by rw [map_mul, Complex.conj_conj, mul_comm]

private lemma adjointPM (s : ℝ) (σ : Fin 2) (φ x : Fock) : braket φ (annPM s σ x) = braket (crePM s σ φ) x := by
  unfold annPM crePM
  rw [braket_smul, braket_add, braket_smul, braket_smul_left, braket_add_left, braket_smul_left, fock_adjoint,
    fock_adjoint, Complex.conj_ofReal, map_div₀, map_one, Complex.conj_ofReal]

private lemma adjointPM' (s : ℝ) (σ : Fin 2) (φ x : Fock) : braket φ (crePM s σ x) = braket (annPM s σ φ) x := by
  rw [← braket_conj, ← adjointPM, braket_conj]

private lemma sq_half : (1 / (√2 : ℂ)) * (1 / (√2 : ℂ)) = 1 / 2 := by
  have : ((√2 * √2 : ℝ) : ℂ) = ((2 : ℝ) : ℂ) := by rw [Real.mul_self_sqrt (by norm_num)]
  push_cast at this
  rw [div_mul_div_comm, this, one_mul]

private lemma annPM_energy {s : ℝ} (hs : s ^ 2 = 1) (σ : Fin 2) (t U : ℝ) (d c : ℂ) :
    dimerH t U (annPM s σ (dimerState d c)) = (-(s * t) : ℂ) • annPM s σ (dimerState d c) := by
  have hsc : (s : ℂ) ^ 2 = 1 := by exact_mod_cast hs
  obtain ⟨a1, a2, a3, a4, a5, a6, a7, a8, a9, a10, a11, a12, a13, a14, a15, a16⟩ :=
    dimerH_apply t U (annPM s σ (dimerState d c))
  funext n
  revert n
  refine occ_forall fun x y z w => ?_
  rw [Pi.smul_apply, smul_eq_mul]
  fin_cases σ <;> cases x <;> cases y <;> cases z <;> cases w <;>
    simp only [a1, a2, a3, a4, a5, a6, a7, a8, a9, a10, a11, a12, a13, a14, a15, a16] <;>
    simp [annPM, ann, mode, jw, dimerState] <;>
    first
    | ring1
    | linear_combination (-(t : ℂ) * c * (√2 : ℂ)⁻¹) * hsc
    | linear_combination ((t : ℂ) * c * (√2 : ℂ)⁻¹) * hsc
    | linear_combination ((t : ℂ) * d * (√2 : ℂ)⁻¹) * hsc
    | linear_combination (-(t : ℂ) * d * (√2 : ℂ)⁻¹) * hsc

private lemma crePM_energy {s : ℝ} (hs : s ^ 2 = 1) (σ : Fin 2) (t U : ℝ) (d c : ℂ) :
    dimerH t U (crePM s σ (dimerState d c)) = (U + s * t : ℂ) • crePM s σ (dimerState d c) := by
  have hsc : (s : ℂ) ^ 2 = 1 := by exact_mod_cast hs
  obtain ⟨a1, a2, a3, a4, a5, a6, a7, a8, a9, a10, a11, a12, a13, a14, a15, a16⟩ :=
    dimerH_apply t U (crePM s σ (dimerState d c))
  funext n
  revert n
  refine occ_forall fun x y z w => ?_
  rw [Pi.smul_apply, smul_eq_mul]
  fin_cases σ <;> cases x <;> cases y <;> cases z <;> cases w <;>
    simp only [a1, a2, a3, a4, a5, a6, a7, a8, a9, a10, a11, a12, a13, a14, a15, a16] <;>
    simp [crePM, cre, mode, jw, dimerState] <;>
    first
    | ring1
    | linear_combination (-(t : ℂ) * c * (√2 : ℂ)⁻¹) * hsc
    | linear_combination ((t : ℂ) * c * (√2 : ℂ)⁻¹) * hsc
    | linear_combination ((t : ℂ) * d * (√2 : ℂ)⁻¹) * hsc
    | linear_combination (-(t : ℂ) * d * (√2 : ℂ)⁻¹) * hsc

private lemma annPM_norm {s : ℝ} (hs : s ^ 2 = 1) (σ : Fin 2) (d c : ℂ) :
    braket (annPM s σ (dimerState d c)) (annPM s σ (dimerState d c)) =
      (starRingEnd ℂ) d * d + (starRingEnd ℂ) c * c + s * ((starRingEnd ℂ) d * c + (starRingEnd ℂ) c * d) := by
  have hsc : (s : ℂ) ^ 2 = 1 := by exact_mod_cast hs
  unfold annPM
  rw [braket_smul, braket_smul_left, ← mul_assoc, map_div₀, map_one, Complex.conj_ofReal, sq_half, braket_eq]
  fin_cases σ <;> simp only [Fintype.sum_bool] <;> simp [ann, mode, jw, dimerState] <;>
    linear_combination (1 / 2 * ((starRingEnd ℂ) d * d + (starRingEnd ℂ) c * c)) * hsc

private lemma crePM_norm {s : ℝ} (hs : s ^ 2 = 1) (σ : Fin 2) (d c : ℂ) :
    braket (crePM s σ (dimerState d c)) (crePM s σ (dimerState d c)) =
      (starRingEnd ℂ) d * d + (starRingEnd ℂ) c * c - s * ((starRingEnd ℂ) d * c + (starRingEnd ℂ) c * d) := by
  have hsc : (s : ℂ) ^ 2 = 1 := by exact_mod_cast hs
  unfold crePM
  rw [braket_smul, braket_smul_left, ← mul_assoc, map_div₀, map_one, Complex.conj_ofReal, sq_half, braket_eq]
  fin_cases σ <;> simp only [Fintype.sum_bool] <;> simp [cre, mode, jw, dimerState] <;>
    linear_combination (1 / 2 * ((starRingEnd ℂ) d * d + (starRingEnd ℂ) c * c)) * hsc

private lemma im_ne {z : ℂ} (hz : z.im ≠ 0) (e : ℝ) : z - e ≠ 0 := by
  intro h
  apply hz
  have := congrArg Complex.im h
  simpa using this

private lemma dimer_green {t U : ℝ} (h : t ≠ 0 ∨ U ≠ 0) {ψ : Fock} {d c : ℂ}
    (hg : DimerGs t U (U / 2 - √(U ^ 2 / 4 + 4 * t ^ 2)) ψ d c)
    (hdc : (starRingEnd ℂ) d * c = t / (2 * √(U ^ 2 / 4 + 4 * t ^ 2)))
    (σ : Fin 2) (kind : String) (hk : kind = "+" ∨ kind = "-") {z : ℂ} (hz : z.im ≠ 0) :
    ∃ g, hubbardDimerGfZ z t U kind = .ok g ∧
      IsGreen (dimerH t U) (annPM (if kind = "+" then 1 else -1) σ) (crePM (if kind = "+" then 1 else -1) σ)
        (U / 2 - √(U ^ 2 / 4 + 4 * t ^ 2)) ψ z g := by
  refine ⟨_, dimer_eq z h kind hk, ?_⟩
  have hW0 := dimerW_ne h
  obtain ⟨rfl, -, -, h3⟩ := hg
  generalize √(U ^ 2 / 4 + 4 * t ^ 2) = W at *
  obtain ⟨s, hs, hs2⟩ : ∃ s : ℝ, s = (if kind = "+" then 1 else -1) ∧ s ^ 2 = 1 :=
    ⟨_, rfl, by split_ifs <;> norm_num⟩
  have hsc : (if kind = "+" then (1 : ℂ) else -1) = (s : ℂ) := by rw [hs]; split_ifs <;> norm_num
  rw [hsc, ← hs]
  have hWc : (W : ℂ) ≠ 0 := by exact_mod_cast hW0.ne'
  have hcd : (starRingEnd ℂ) c * d = t / (2 * W) := by
    have := congrArg (starRingEnd ℂ) hdc
    simp only [map_mul, map_div₀, Complex.conj_conj, Complex.conj_ofReal, Complex.conj_ofNat] at this
    rw [mul_comm, this]
  have nA := annPM_norm hs2 σ d c
  have nC := crePM_norm hs2 σ d c
  rw [h3, hdc, hcd] at nA nC
  have eA := annPM_energy hs2 σ t U d c
  have eC := crePM_energy hs2 σ t U d c
  have p1 := im_ne hz (U / 2 - W + s * t)
  have p2 := im_ne hz (U + s * t - (U / 2 - W))
  have i1 : (0.5 * U - W + s * t : ℝ) = U / 2 - W + s * t := by norm_num; ring
  have i2 : (U + s * t - (0.5 * U - W) : ℝ) = U + s * t - (U / 2 - W) := by norm_num; ring
  rw [i1, i2]
  refine ⟨⟨(z - ((U + s * t - (U / 2 - W) : ℝ) : ℂ))⁻¹ • crePM s σ (dimerState d c),
    (z - ((U / 2 - W + s * t : ℝ) : ℂ))⁻¹ • annPM s σ (dimerState d c), ?_, ?_⟩, ?_⟩
  · rw [dimerH_smul, eC]
    funext n
    simp only [Pi.sub_apply, Pi.smul_apply, smul_eq_mul]
    have hI := mul_inv_cancel₀ p2
    generalize (_ : ℂ)⁻¹ = I at hI ⊢
    push_cast at hI ⊢
    linear_combination crePM s σ (dimerState d c) n * hI
  · rw [dimerH_smul, eA]
    funext n
    simp only [Pi.sub_apply, Pi.add_apply, Pi.smul_apply, smul_eq_mul]
    have hI := mul_inv_cancel₀ p1
    generalize (_ : ℂ)⁻¹ = I at hI ⊢
    push_cast at hI ⊢
    linear_combination annPM s σ (dimerState d c) n * hI
  · intro x y hx hy
    rw [adjointPM, adjointPM']
    have gx := congrArg (braket (crePM s σ (dimerState d c))) hx
    have gy := congrArg (braket (annPM s σ (dimerState d c))) hy
    rw [nC, braket_sub, braket_sub, braket_smul, braket_smul, dimerH_symm, eC, braket_smul_left] at gx
    rw [nA, braket_add, braket_sub, braket_smul, braket_smul, dimerH_symm, eA, braket_smul_left] at gy
    simp only [map_add, map_mul, map_neg, Complex.conj_ofReal] at gx gy
    have g1 : braket (annPM s σ (dimerState d c)) y = ((0.5 + s * t / W : ℝ) : ℂ) / (z - ((U / 2 - W + s * t : ℝ) : ℂ)) := by
      rw [eq_div_iff p1]
      push_cast at gy ⊢
      norm_num
      linear_combination gy
    have g2 : braket (crePM s σ (dimerState d c)) x = ((0.5 - s * t / W : ℝ) : ℂ) / (z - ((U + s * t - (U / 2 - W) : ℝ) : ℂ)) := by
      rw [eq_div_iff p2]
      push_cast at gx ⊢
      norm_num
      linear_combination gx
    rw [g1, g2, add_comm]

/-- C47: for non-vanishing hopping, `hubbard_dimer_gf_z` is the Green's function of the operators `c_{±σ}` of the
Hubbard dimer in every ground state with two electrons (half filling). -/
theorem hubbard_dimer_exact {t U E : ℝ} (ht : t ≠ 0) {ψ : Fock} (h : IsGroundState (dimerH t U) 2 E ψ)
    (σ : Fin 2) (kind : String) (hk : kind = "+" ∨ kind = "-") {z : ℂ} (hz : z.im ≠ 0) :
    ∃ g, hubbardDimerGfZ z t U kind = .ok g ∧
      IsGreen (dimerH t U) (annPM (if kind = "+" then 1 else -1) σ) (crePM (if kind = "+" then 1 else -1) σ) E ψ z g := by
  obtain ⟨rfl, d, c, hg, hdc⟩ := dimer_gs_unique ht h
  exact dimer_green (.inl ht) hg hdc σ kind hk hz

/-- C47: unless hopping and interaction both vanish, there is a ground state with two electrons with the Green's
function `hubbard_dimer_gf_z`. (Without hopping the ground state is degenerate.) -/
theorem hubbard_dimer_ground {t U : ℝ} (h : t ≠ 0 ∨ U ≠ 0) :
    ∃ (E : ℝ) (ψ : Fock), IsGroundState (dimerH t U) 2 E ψ ∧
      ∀ (σ : Fin 2) (kind : String), kind = "+" ∨ kind = "-" → ∀ z : ℂ, z.im ≠ 0 →
      ∃ g, hubbardDimerGfZ z t U kind = .ok g ∧
        IsGreen (dimerH t U) (annPM (if kind = "+" then 1 else -1) σ) (crePM (if kind = "+" then 1 else -1) σ) E ψ z g := by
  obtain ⟨d, c, hg, hdc⟩ := dimer_gs_exists h
  exact ⟨_, _, hg.isGroundState, fun σ kind hk z hz => dimer_green h hg hdc σ kind hk hz⟩

/-- The hypotheses of `hubbard_dimer_exact` can be met. -/
example : ∃ (E : ℝ) (ψ : Fock), IsGroundState (dimerH 1 3) 2 E ψ :=
  let ⟨E, ψ, h, _⟩ := hubbard_dimer_ground (t := 1) (U := 3) (.inl one_ne_zero)
  ⟨E, ψ, h⟩

/-! ## The atomic limit (C48) -/

/-- Number of doubly occupied sites. -/
private def dbl : Occ → ℕ := fun (a, b, c, d) => (a && c).toNat + (b && d).toNat

private lemma dimerH_atomic (U : ℝ) (ψ : Fock) (n : Occ) : dimerH 0 U ψ n = U * dbl n * ψ n := by
  obtain ⟨a1, a2, a3, a4, a5, a6, a7, a8, a9, a10, a11, a12, a13, a14, a15, a16⟩ := dimerH_apply 0 U ψ
  revert n
  refine occ_forall fun x y z w => ?_
  cases x <;> cases y <;> cases z <;> cases w <;>
    simp only [a1, a2, a3, a4, a5, a6, a7, a8, a9, a10, a11, a12, a13, a14, a15, a16] <;> simp only [dbl] <;> push_cast <;> simp <;> ring_nf <;> simp

private lemma braket_basis (n : Occ) (φ : Fock) : braket (basisState n) φ = φ n := by
  unfold braket basisState
  rw [Finset.sum_eq_single n]
  · simp
  · intro m _ hm
    simp [Pi.single_apply, hm]
  · simp

/-- The Green's function of a state with definite occupations in the atomic limit. -/
private lemma atomic_green (U : ℝ) (i σ : Fin 2) (n : Occ) {z : ℂ} (hz : z.im ≠ 0) :
    IsGreen (dimerH 0 U) (ann (mode i σ)) (cre (mode i σ)) (U * dbl n) (basisState n) z
      (1 / (z - U * occOf (mode i (1 - σ)) n)) := by
  have hne : ∀ k : ℝ, z + k ≠ 0 := fun k h => hz (by simpa using congrArg Complex.im h)
  refine ⟨⟨fun m => cre (mode i σ) (basisState n) m / (z + ((U * dbl n - U * dbl m : ℝ) : ℂ)),
    fun m => ann (mode i σ) (basisState n) m / (z + ((U * dbl m - U * dbl n : ℝ) : ℂ)), ?_, ?_⟩, ?_⟩
  · funext m
    simp only [Pi.sub_apply, Pi.smul_apply, smul_eq_mul, dimerH_atomic]
    have h := hne (U * dbl n - U * dbl m)
    rw [show ∀ a b : ℂ, z * (a / b) - (U * dbl m * (a / b) - ((U * dbl n : ℝ) : ℂ) * (a / b)) =
      (z + ((U * dbl n - U * dbl m : ℝ) : ℂ)) * (a / b) by intro a b; push_cast; ring, mul_div_cancel₀ _ h]
  · funext m
    simp only [Pi.sub_apply, Pi.add_apply, Pi.smul_apply, smul_eq_mul, dimerH_atomic]
    have h := hne (U * dbl m - U * dbl n)
    rw [show ∀ a b : ℂ, z * (a / b) + (U * dbl m * (a / b) - ((U * dbl n : ℝ) : ℂ) * (a / b)) =
      (z + ((U * dbl m - U * dbl n : ℝ) : ℂ)) * (a / b) by intro a b; push_cast; ring, mul_div_cancel₀ _ h]
  · intro x y hx hy
    have ex : ∀ m, x m = cre (mode i σ) (basisState n) m / (z + ((U * dbl n - U * dbl m : ℝ) : ℂ)) := fun m => by
      rw [eq_div_iff (hne _), ← hx]
      simp only [Pi.sub_apply, Pi.smul_apply, smul_eq_mul, dimerH_atomic]
      push_cast
      ring
    have ey : ∀ m, y m = ann (mode i σ) (basisState n) m / (z + ((U * dbl m - U * dbl n : ℝ) : ℂ)) := fun m => by
      rw [eq_div_iff (hne _), ← hy]
      simp only [Pi.add_apply, Pi.sub_apply, Pi.smul_apply, smul_eq_mul, dimerH_atomic]
      push_cast
      ring
    rw [braket_basis, braket_basis]
    clear hx hy
    revert n
    refine occ_forall fun a b c d => ?_
    intro ex ey
    fin_cases i <;> fin_cases σ <;> cases a <;> cases b <;> cases c <;> cases d <;>
      simp [ann, cre, mode, jw, basisState, Pi.single_apply, ex, ey, dbl, occOf] <;> ring_nf

/-- C48: the Hubbard-I self-energy gives the exact Green's function of the atom: for every mixture `p` of states with
definite occupations (e.g. any thermal state), the averaged Green's function of the electrons with spin `σ` on site `i`
is `1/(z - Σ(z))`, where `occ` is the average occupation of the opposite spin. -/
theorem hubbard_I_exact (U : ℝ) (i σ : Fin 2) (p : Occ → ℝ) (hp : ∑ n, p n = 1) {z : ℂ} (hz : z.im ≠ 0)
    (E : Occ → ℝ) (hE : ∀ n, dimerH 0 U (basisState n) = (E n : ℂ) • basisState n) (g : Occ → ℂ)
    (hg : ∀ n, IsGreen (dimerH 0 U) (ann (mode i σ)) (cre (mode i σ)) (E n) (basisState n) z (g n)) :
    1 / (z - hubbardISelfZ z U ((∑ n, p n * occOf (mode i (1 - σ)) n : ℝ) : ℂ)) = ∑ n, p n * g n := by
  have hg' : ∀ n, g n = 1 / (z - U * occOf (mode i (1 - σ)) n) := by
    intro n
    have hEn : E n = U * dbl n := by
      have := congrFun (hE n) n
      rw [dimerH_atomic, Pi.smul_apply, smul_eq_mul] at this
      have h1 : basisState n n = 1 := by simp [basisState]
      rw [h1, mul_one, mul_one] at this
      exact_mod_cast this.symm
    obtain ⟨⟨x, y, hx, hy⟩, -⟩ := hg n
    rw [(hg n).2 x y hx hy]
    rw [hEn] at hx hy
    exact ((atomic_green U i σ n hz).2 x y hx hy).symm
  have hz0 : z ≠ 0 := by rintro rfl; simp at hz
  have hzU : z - U ≠ 0 := im_ne hz U
  have hocc : ∀ n, (p n : ℂ) * g n = (p n : ℂ) * (1 / z) + ((p n * occOf (mode i (1 - σ)) n : ℝ) : ℂ) * (1 / (z - U) - 1 / z) := by
    intro n
    rw [hg' n]
    have h01 : occOf (mode i (1 - σ)) n = 0 ∨ occOf (mode i (1 - σ)) n = 1 := by
      obtain ⟨a, b, c, d⟩ := n
      unfold occOf
      cases (![a, b, c, d] (mode i (1 - σ))) <;> simp
    rcases h01 with h | h
    · rw [h]
      simp
    · rw [h]
      push_cast
      ring
  rw [hubbard_I_atomic_offaxis z hz, Finset.sum_congr rfl fun n _ => hocc n, Finset.sum_add_distrib, ← Finset.sum_mul,
    ← Finset.sum_mul]
  have hpc : ∑ n, (p n : ℂ) = 1 := by exact_mod_cast hp
  rw [hpc, ← Complex.ofReal_sum]
  ring

/-- The hypotheses of `hubbard_I_exact` can be met. -/
example (U : ℝ) : ∃ (E : Occ → ℝ) (g : Occ → ℂ),
    (∀ n, dimerH 0 U (basisState n) = (E n : ℂ) • basisState n) ∧
    ∀ n, IsGreen (dimerH 0 U) (ann (mode 0 0)) (cre (mode 0 0)) (E n) (basisState n) Complex.I (g n) := by
  refine ⟨fun n => U * dbl n, _, fun n => ?_, fun n => atomic_green U 0 0 n (z := Complex.I) (by simp)⟩
  funext m
  rw [dimerH_atomic, Pi.smul_apply, smul_eq_mul]
  by_cases h : m = n
  · rw [h]
    push_cast
    rfl
  · simp [basisState, h]

end Gftool.Props
