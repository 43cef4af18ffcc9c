import Verif.Lemmas.Polepade
import Mathlib.Analysis.Matrix.Spectrum
import Mathlib.Analysis.Matrix.PosDef
import Mathlib.Analysis.Complex.Polynomial.Basic
import Mathlib.Data.Fin.Tuple.Sort

/-!
# The contract of the external routines of `polepade` can be met
-/

namespace Gftool.Lemmas

open Matrix Polynomial Gftool.Model
open scoped ComplexOrder

lemma exists_svdVh {r c : ℕ} (A : Matrix (Fin r) (Fin c) ℂ) :
    ∃ V : Matrix (Fin c) (Fin c) ℂ, V ∈ Matrix.unitaryGroup (Fin c) ℂ ∧
      ∃ s : Fin c → ℝ, Antitone s ∧ (∀ i, 0 ≤ s i) ∧
        Aᴴ * A = Vᴴ * diagonal (fun i => ((s i) ^ 2 : ℂ)) * V := by
  have hpsd : (Aᴴ * A).PosSemidef := posSemidef_conjTranspose_mul_self A
  have hH := hpsd.isHermitian
  set U : Matrix (Fin c) (Fin c) ℂ := (hH.eigenvectorUnitary : Matrix (Fin c) (Fin c) ℂ) with hU
  set e := hH.eigenvalues with he
  have hUU : U * Uᴴ = 1 := (Matrix.mem_unitaryGroup_iff).1 hH.eigenvectorUnitary.2
  have hUU' : Uᴴ * U = 1 := (Matrix.mem_unitaryGroup_iff').1 hH.eigenvectorUnitary.2
  have hspec : Aᴴ * A = U * diagonal (fun i => (e i : ℂ)) * Uᴴ := by
    have := hH.spectral_theorem
    rw [Unitary.conjStarAlgAut_apply] at this
    exact this
  set σ := Tuple.sort (fun i => -e i) with hσ
  have hmono : Monotone ((fun i => -e i) ∘ σ) := Tuple.monotone_sort _
  refine ⟨Matrix.of fun i j => star (U j (σ i)), ?_, fun i => Real.sqrt (e (σ i)), ?_,
    fun i => Real.sqrt_nonneg _, ?_⟩
  · rw [Matrix.mem_unitaryGroup_iff]
    ext i j
    have := congrFun (congrFun hUU' (σ i)) (σ j)
    simp only [Matrix.mul_apply, Matrix.conjTranspose_apply, Matrix.one_apply,
      σ.injective.eq_iff] at this
    simp only [Matrix.mul_apply, Matrix.star_apply, Matrix.of_apply, star_star, Matrix.one_apply]
    exact this
  · intro i j hij
    apply Real.sqrt_le_sqrt
    have := hmono hij
    simpa using this
  · rw [hspec]
    ext i j
    have hsq : ∀ k, ((Real.sqrt (e (σ k)) : ℝ) : ℂ) ^ 2 = (e (σ k) : ℂ) := by
      intro k
      have h0 : 0 ≤ e (σ k) := hpsd.eigenvalues_nonneg _
      rw [← Complex.ofReal_pow, Real.sq_sqrt h0]
    rw [Matrix.mul_apply, Matrix.mul_apply]
    simp only [Matrix.mul_diagonal, Matrix.conjTranspose_apply, Matrix.of_apply,
      star_star, hsq]
    exact (Equiv.sum_comp σ (fun k => U i k * (e k : ℂ) * star (U j k))).symm

lemma exists_eigGen {m : ℕ} (A B : Matrix (Fin m) (Fin m) ℂ) :
    ∃ v : Fin m → ℂ, B.det ≠ 0 → ∀ x : ℂ, (x • B - A).det = B.det * ∏ i, (x - v i) := by
  by_cases hB : B.det = 0
  · exact ⟨0, fun h => absurd hB h⟩
  have hu : IsUnit B.det := isUnit_iff_ne_zero.2 hB
  set T := B⁻¹ * A with hT
  have hsp : Splits T.charpoly := IsAlgClosed.splits _
  have hcard : T.charpoly.roots.card = m := by
    rw [splits_iff_card_roots.1 hsp, charpoly_natDegree_eq_dim, Fintype.card_fin]
  obtain ⟨l, hl⟩ := Quot.exists_rep T.charpoly.roots
  have hl' : (l : Multiset ℂ) = T.charpoly.roots := hl
  have hlen : l.length = m := by rw [← hcard, ← hl']; rfl
  refine ⟨fun i => l.get (i.cast hlen.symm), fun _ x => ?_⟩
  have h3 : x • B - A = B * (Matrix.scalar (Fin m) x - T) := by
    rw [hT, Matrix.mul_sub, ← Matrix.mul_assoc, Matrix.mul_nonsing_inv _ hu, Matrix.one_mul]
    congr 1
    rw [Matrix.scalar_apply, ← Matrix.smul_one_eq_diagonal, Matrix.mul_smul, Matrix.mul_one]
  rw [h3, det_mul, ← Matrix.eval_charpoly]
  congr 1
  have h4 := hsp.eq_prod_roots
  rw [(charpoly_monic T).leadingCoeff, C_1, one_mul, ← hl'] at h4
  rw [h4, Multiset.map_coe, Multiset.prod_coe, eval_list_prod, List.map_map]
  subst hlen
  simp only [Fin.cast_eq_self]
  rw [← List.prod_ofFn]
  congr 1
  apply List.ext_getElem <;> simp

/-- Exact arithmetic routines which meet the contract. -/
noncomputable def polepadeExt : PolepadeExt where
  toLinalgExt := linalgExt ℂ
  svdVh A := (exists_svdVh A).choose
  svd_unitary A := (exists_svdVh A).choose_spec.1
  svd_diag A := (exists_svdVh A).choose_spec.2
  eigGen A B := (exists_eigGen A B).choose
  eig_char A B := (exists_eigGen A B).choose_spec

end Gftool.Lemmas
