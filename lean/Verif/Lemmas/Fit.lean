import Verif.Model.Linalg
import Mathlib.LinearAlgebra.Lagrange
import Mathlib.LinearAlgebra.Matrix.DotProduct
import Mathlib.RingTheory.Polynomial.Basic
import Mathlib.Analysis.Complex.Basic
import Mathlib.Tactic

/-!
# Lemmas on constrained least squares and uniqueness of pole fits
-/

namespace Gftool.Lemmas

open Gftool Model Matrix

/-- `x` minimizes `|A x - b|²` among all vectors with `C x = d`. -/
def ConstrLsq {m n l : ℕ} (A : Matrix (Fin m) (Fin n) ℝ) (C : Matrix (Fin l) (Fin n) ℝ)
    (b : Fin m → ℝ) (d : Fin l → ℝ) (x : Fin n → ℝ) : Prop :=
  C *ᵥ x = d ∧ ∀ x', C *ᵥ x' = d → sqNorm (A *ᵥ x - b) ≤ sqNorm (A *ᵥ x' - b)

variable {m n l : ℕ} {A : Matrix (Fin m) (Fin n) ℝ} {C : Matrix (Fin l) (Fin n) ℝ}

lemma sqNorm_eq_dot (v : Fin m → ℝ) : sqNorm v = v ⬝ᵥ v := by
  unfold sqNorm dotProduct
  refine Finset.sum_congr rfl fun i _ => ?_
  rw [Real.norm_eq_abs, sq_abs, sq]

lemma sqNorm_add (u v : Fin m → ℝ) : sqNorm (u + v) = sqNorm u + 2 * (u ⬝ᵥ v) + sqNorm v := by
  simp only [sqNorm_eq_dot, add_dotProduct, dotProduct_add, dotProduct_comm v u]
  ring

lemma sqNorm_nonneg' (v : Fin m → ℝ) : 0 ≤ sqNorm v :=
  Finset.sum_nonneg fun _ _ => by positivity

lemma constrLsq_iff {b : Fin m → ℝ} {d : Fin l → ℝ} {x : Fin n → ℝ} :
    ConstrLsq A C b d x ↔ C *ᵥ x = d ∧ ∀ v, C *ᵥ v = 0 → (A *ᵥ x - b) ⬝ᵥ (A *ᵥ v) = 0 := by
  constructor
  · rintro ⟨hx, hmin⟩
    refine ⟨hx, fun v hv => ?_⟩
    set s := (A *ᵥ x - b) ⬝ᵥ (A *ᵥ v) with hs
    set q := sqNorm (A *ᵥ v) with hq
    have hq0 : 0 ≤ q := sqNorm_nonneg' _
    have key : ∀ t : ℝ, 0 ≤ 2 * (t * s) + t ^ 2 * q := by
      intro t
      have h1 := hmin (x + t • v) (by rw [mulVec_add, mulVec_smul, hx, hv, smul_zero, add_zero])
      have h2 : A *ᵥ (x + t • v) - b = (A *ᵥ x - b) + t • (A *ᵥ v) := by
        rw [mulVec_add, mulVec_smul]; abel
      rw [h2, sqNorm_add] at h1
      have h3 : sqNorm (t • (A *ᵥ v)) = t ^ 2 * q := by
        rw [hq, sqNorm_eq_dot, sqNorm_eq_dot, smul_dotProduct, dotProduct_smul, smul_eq_mul,
          smul_eq_mul]
        ring
      rw [h3, dotProduct_smul, smul_eq_mul] at h1
      linarith
    have h := key (-s / (q + 1))
    have hq1 : 0 < q + 1 := by linarith
    have e : 2 * (-s / (q + 1) * s) + (-s / (q + 1)) ^ 2 * q = -(s ^ 2 * (q + 2)) / (q + 1) ^ 2 := by
      field_simp
      ring
    rw [e] at h
    have h5 : s ^ 2 * (q + 2) ≤ 0 := by
      by_contra hc
      push Not at hc
      have : -(s ^ 2 * (q + 2)) / (q + 1) ^ 2 < 0 := div_neg_of_neg_of_pos (by linarith) (by positivity)
      linarith
    have : s ^ 2 ≤ 0 := by nlinarith [sq_nonneg s]
    exact pow_eq_zero_iff (two_ne_zero) |>.1 (le_antisymm this (sq_nonneg s))
  · rintro ⟨hx, horth⟩
    refine ⟨hx, fun x' hx' => ?_⟩
    have h2 : A *ᵥ x' - b = (A *ᵥ x - b) + A *ᵥ (x' - x) := by
      rw [mulVec_sub]; abel
    rw [h2, sqNorm_add, horth _ (by rw [mulVec_sub, hx, hx', sub_self])]
    have := sqNorm_nonneg' (A *ᵥ (x' - x))
    linarith

/-- Uniqueness of constrained least squares. -/
lemma ConstrLsq.unique (hA : ∀ v, C *ᵥ v = 0 → A *ᵥ v = 0 → v = 0) {b : Fin m → ℝ}
    {d : Fin l → ℝ} {x y : Fin n → ℝ} (hx : ConstrLsq A C b d x) (hy : ConstrLsq A C b d y) :
    x = y := by
  rw [constrLsq_iff] at hx hy
  have hv : C *ᵥ (x - y) = 0 := by rw [mulVec_sub, hx.1, hy.1, sub_self]
  refine sub_eq_zero.1 (hA _ hv ?_)
  have h1 := hx.2 _ hv
  have h2 := hy.2 _ hv
  have h3 : (A *ᵥ (x - y)) ⬝ᵥ (A *ᵥ (x - y)) = 0 := by
    have : A *ᵥ (x - y) = (A *ᵥ x - b) - (A *ᵥ y - b) := by rw [mulVec_sub]; abel
    nth_rewrite 1 [this]
    rw [sub_dotProduct, h1, h2, sub_self]
  exact dotProduct_self_eq_zero.1 h3

/-- Constrained least squares are affine in the data. -/
lemma ConstrLsq.affine {b b' : Fin m → ℝ} {d d' : Fin l → ℝ} {x y : Fin n → ℝ}
    (hx : ConstrLsq A C b d x) (hy : ConstrLsq A C b' d' y) (t : ℝ) :
    ConstrLsq A C (b + t • (b' - b)) (d + t • (d' - d)) (x + t • (y - x)) := by
  rw [constrLsq_iff] at hx hy ⊢
  refine ⟨by rw [mulVec_add, mulVec_smul, mulVec_sub, hx.1, hy.1], fun v hv => ?_⟩
  have : A *ᵥ (x + t • (y - x)) - (b + t • (b' - b))
      = (A *ᵥ x - b) + t • ((A *ᵥ y - b') - (A *ᵥ x - b)) := by
    rw [mulVec_add, mulVec_smul, mulVec_sub]
    module
  rw [this, add_dotProduct, smul_dotProduct, sub_dotProduct (A *ᵥ y - b'), hx.2 v hv, hy.2 v hv]
  simp

/-- Exact data are recovered. -/
lemma ConstrLsq.exact (x : Fin n → ℝ) : ConstrLsq A C (A *ᵥ x) (C *ᵥ x) x := by
  refine ⟨rfl, fun x' _ => ?_⟩
  rw [sub_self]
  have : sqNorm (0 : Fin m → ℝ) = 0 := by simp [sqNorm]
  rw [this]
  exact sqNorm_nonneg' _

open Polynomial in
/-- A real pole function with `n` different real poles which vanishes at `n/2` points of the upper
half-plane is zero. -/
lemma pole_unique {k : ℕ} (p v : Fin n → ℝ) (hp : Function.Injective p) (z : Fin k → ℂ)
    (hz : Function.Injective z) (him : ∀ i, 0 < (z i).im) (hn : n ≤ 2 * k)
    (h0 : ∀ i, ∑ j, (v j : ℂ) / (z i - p j) = 0) : v = 0 := by
  set Q : ℂ[X] := ∑ j, C (v j : ℂ) * Lagrange.nodal (Finset.univ.erase j) (fun j => (p j : ℂ))
    with hQ
  have hev : ∀ x : ℂ, (∀ j, x - p j ≠ 0) → Q.eval x
      = (∏ j, (x - p j)) * ∑ j, (v j : ℂ) / (x - p j) := by
    intro x hx
    rw [hQ, eval_finsetSum, Finset.mul_sum]
    refine Finset.sum_congr rfl fun j _ => ?_
    rw [eval_mul, eval_C, Lagrange.eval_nodal, ← Finset.mul_prod_erase _ _ (Finset.mem_univ j)]
    have := hx j
    field_simp
  have hne : ∀ (x : ℂ), x.im ≠ 0 → ∀ j, x - p j ≠ 0 := by
    intro x hx j h
    apply hx
    have := congrArg Complex.im h
    simpa using this
  have hQ0 : Q = 0 := by
    refine Polynomial.eq_zero_of_degree_lt_of_eval_index_eq_zero (s := Finset.univ)
      (v := Sum.elim z fun i => (starRingEnd ℂ) (z i)) ?_ ?_ ?_
    · intro a _ b _ hab
      rcases a with a | a <;> rcases b with b | b <;> simp only [Sum.elim_inl, Sum.elim_inr] at hab
      · rw [hz hab]
      · have := congrArg Complex.im hab
        have h1 := him a
        have h2 := him b
        rw [Complex.conj_im] at this
        linarith
      · have := congrArg Complex.im hab
        have h1 := him a
        have h2 := him b
        rw [Complex.conj_im] at this
        linarith
      · rw [hz (RingHom.injective _ hab)]
    · rw [Finset.card_univ, Fintype.card_sum, Fintype.card_fin, ← two_mul]
      rcases Nat.eq_zero_or_pos n with hn0 | hn0
      · subst hn0
        simp only [hQ, Finset.univ_eq_empty, Finset.sum_empty, degree_zero]
        exact WithBot.bot_lt_coe _
      refine lt_of_lt_of_le ?_ (by exact_mod_cast hn : (n : WithBot ℕ) ≤ ((2 * k : ℕ) : WithBot ℕ))
      rw [← mem_degreeLT]
      refine Submodule.sum_mem _ fun j _ => ?_
      rw [← smul_eq_C_mul]
      refine Submodule.smul_mem _ _ ?_
      rw [mem_degreeLT, Lagrange.degree_nodal, Finset.card_erase_of_mem (Finset.mem_univ j),
        Finset.card_univ, Fintype.card_fin]
      exact_mod_cast (by omega : n - 1 < n)
    · intro i _
      rcases i with i | i
      · simp only [Sum.elim_inl]
        rw [hev _ (hne _ (him i).ne'), h0 i, mul_zero]
      · simp only [Sum.elim_inr]
        rw [hev _ (hne _ (by rw [Complex.conj_im]; exact (neg_lt_zero.2 (him i)).ne))]
        have : ∑ j, (v j : ℂ) / ((starRingEnd ℂ) (z i) - p j)
            = (starRingEnd ℂ) (∑ j, (v j : ℂ) / (z i - p j)) := by
          rw [map_sum]
          refine Finset.sum_congr rfl fun j _ => ?_
          rw [map_div₀, map_sub, Complex.conj_ofReal, Complex.conj_ofReal]
        rw [this, h0 i, map_zero, mul_zero]
  funext j
  have hj : Q.eval (p j : ℂ) = 0 := by rw [hQ0, eval_zero]
  rw [hQ, eval_finsetSum, Finset.sum_eq_single j] at hj
  · rw [eval_mul, eval_C, Lagrange.eval_nodal, mul_eq_zero] at hj
    rcases hj with hj | hj
    · exact_mod_cast hj
    · rw [Finset.prod_eq_zero_iff] at hj
      obtain ⟨i, hi, hi2⟩ := hj
      have : p j = p i := by exact_mod_cast sub_eq_zero.1 hi2
      exact absurd (hp this).symm (Finset.ne_of_mem_erase hi)
  · intro i _ hij
    rw [eval_mul, Lagrange.eval_nodal, Finset.prod_eq_zero
      (Finset.mem_erase.2 ⟨hij.symm, Finset.mem_univ j⟩) (sub_self _), mul_zero]
  · intro h; exact absurd (Finset.mem_univ _) h

end Gftool.Lemmas
