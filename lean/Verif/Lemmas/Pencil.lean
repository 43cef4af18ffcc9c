import Verif.Model.Polepade
import Verif.Lemmas.Linalg
import Mathlib.RingTheory.AdjoinRoot
import Mathlib.LinearAlgebra.Matrix.Charpoly.Minpoly
import Mathlib.LinearAlgebra.Charpoly.ToMatrix
import Mathlib.RingTheory.Polynomial.Basic
import Mathlib.Analysis.Complex.Order
import Mathlib.Tactic

/-!
# Linear algebra of the pole finding algorithm
-/

namespace Gftool.Lemmas

open Matrix Polynomial Gftool.Model
open scoped ComplexOrder

/-- The linear isomorphism between coefficient vectors and polynomials of degree `< k`. -/
noncomputable def vecPoly (k : ℕ) : (Fin k → ℂ) ≃ₗ[ℂ] degreeLT ℂ k := (degreeLTEquiv ℂ k).symm

lemma vanderC_mulVec {N k : ℕ} (z : Fin N → ℂ) (x : Fin k → ℂ) (i : Fin N) :
    (vanderC z k *ᵥ x) i = (vecPoly k x : ℂ[X]).eval (z i) := by
  rw [eval_eq_sum_degreeLTEquiv (vecPoly k x).2]
  simp only [Subtype.coe_eta]
  rw [vecPoly, LinearEquiv.apply_symm_apply]
  simp [mulVec, dotProduct, vanderC, mul_comm]

/-- A pencil whose kernel is given by polynomial division has the characteristic polynomial `Q`. -/
lemma pencil_det {m : ℕ} {Q : ℂ[X]} (hQ : Q.Monic) (hm : Q.natDegree = m)
    (W1 W2 : Matrix (Fin m) (Fin m) ℂ) (φ : (Fin m → ℂ) ≃ₗ[ℂ] degreeLT ℂ m)
    (hker : ∀ a b, W1 *ᵥ a + W2 *ᵥ b = 0 ↔ ∃ c : ℂ, X * (φ a : ℂ[X]) + (φ b : ℂ[X]) = C c * Q) :
    W2.det ≠ 0 ∧ ∀ x : ℂ, (x • W2 - W1).det = W2.det * Q.eval x := by
  have hdegQ : Q.degree = m := by rw [degree_eq_natDegree hQ.ne_zero, hm]
  have hsmall : ∀ (a : Fin m → ℂ) (c : ℂ), (φ a : ℂ[X]) = C c * Q → a = 0 := by
    intro a c h
    have h1 := mem_degreeLT.1 (φ a).2
    have hc : c = 0 := by
      by_contra hc
      rw [h, degree_C_mul hc, hdegQ] at h1
      exact lt_irrefl _ h1
    have h2 : φ a = 0 := by
      apply Subtype.ext; rw [h, hc]; simp
    exact (LinearEquiv.map_eq_zero_iff φ).1 h2
  have hdet : W2.det ≠ 0 := by
    intro h0
    obtain ⟨v, hv, hv0⟩ := Matrix.exists_mulVec_eq_zero_iff.2 h0
    obtain ⟨c, hc⟩ := (hker 0 v).1 (by simp [hv0])
    rw [map_zero] at hc
    exact hv (hsmall v c (by simpa using hc))
  refine ⟨hdet, ?_⟩
  have hu : IsUnit W2.det := isUnit_iff_ne_zero.2 hdet
  set T := W2⁻¹ * W1 with hT
  -- T is conjugate to the multiplication by the root
  let θ0 : (Fin m → ℂ) →ₗ[ℂ] AdjoinRoot Q :=
    ((AdjoinRoot.mkₐ Q).toLinearMap.comp (degreeLT ℂ m).subtype).comp φ.toLinearMap
  have hθ0 : ∀ a, θ0 a = AdjoinRoot.mk Q (φ a : ℂ[X]) := fun a => rfl
  have hinj : Function.Injective θ0 := by
    rw [← LinearMap.ker_eq_bot, LinearMap.ker_eq_bot']
    intro a ha
    rw [hθ0, AdjoinRoot.mk_eq_zero] at ha
    have h1 := mem_degreeLT.1 (φ a).2
    have h2 : (φ a : ℂ[X]) = 0 := eq_zero_of_dvd_of_degree_lt ha (by rw [hdegQ]; exact h1)
    exact hsmall a 0 (by simp [h2])
  have hfin : Module.finrank ℂ (AdjoinRoot Q) = m := by
    rw [(AdjoinRoot.powerBasis hQ.ne_zero).finrank, AdjoinRoot.powerBasis_dim, hm]
  have : Module.Finite ℂ (AdjoinRoot Q) := hQ.finite_adjoinRoot
  let θ : (Fin m → ℂ) ≃ₗ[ℂ] AdjoinRoot Q :=
    LinearEquiv.ofInjectiveOfFinrankEq θ0 hinj (by simp [hfin])
  have hθ : ∀ a, θ a = AdjoinRoot.mk Q (φ a : ℂ[X]) := fun a => rfl
  have hTθ : ∀ a, θ (T *ᵥ a) = AdjoinRoot.root Q * θ a := by
    intro a
    obtain ⟨c, hc⟩ := (hker a (-(T *ᵥ a))).1 (by
      rw [mulVec_neg, hT, mulVec_mulVec, ← Matrix.mul_assoc, Matrix.mul_nonsing_inv _ hu,
        Matrix.one_mul, add_neg_cancel])
    rw [map_neg] at hc
    have h := congrArg (AdjoinRoot.mk Q) hc
    simp only [map_add, map_mul, AdjoinRoot.mk_X, AdjoinRoot.mk_self, mul_zero, Submodule.coe_neg,
      map_neg] at h
    rw [hθ, hθ]
    linear_combination -h
  have hconj : θ.conj (Matrix.toLin' T) = LinearMap.mulLeft ℂ (AdjoinRoot.root Q) := by
    apply LinearMap.ext
    intro y
    obtain ⟨a, rfl⟩ := θ.surjective y
    simp [LinearEquiv.conj_apply, hTθ]
  have hchar : T.charpoly = Q := by
    have h1 : (Matrix.toLin' T).charpoly = T.charpoly := by
      rw [← LinearMap.charpoly_toMatrix (Matrix.toLin' T) (Pi.basisFun ℂ (Fin m))]
      congr 1
      exact LinearMap.toMatrix'_toLin' T
    rw [← h1, ← θ.charpoly_conj, hconj,
      ← LinearMap.charpoly_toMatrix _ (AdjoinRoot.powerBasis hQ.ne_zero).basis]
    have h2 := charpoly_leftMulMatrix (AdjoinRoot.powerBasis hQ.ne_zero)
    rw [AdjoinRoot.minpoly_powerBasis_gen_of_monic hQ] at h2
    refine Eq.trans ?_ h2
    rfl
  intro x
  have h3 : x • W2 - W1 = W2 * (Matrix.scalar (Fin m) x - T) := by
    rw [hT, Matrix.mul_sub, ← Matrix.mul_assoc, Matrix.mul_nonsing_inv _ hu, Matrix.one_mul]
    congr 1
    rw [Matrix.scalar_apply, ← Matrix.smul_one_eq_diagonal, Matrix.mul_smul, Matrix.mul_one]
  rw [h3, det_mul, ← Matrix.eval_charpoly, hchar]

/-- The leading right singular vectors of a matrix span the complement of its kernel. -/
lemma svd_ker (ext : PolepadeExt) {r m k : ℕ} (A : Matrix (Fin r) (Fin (m + k)) ℂ)
    (hrank : A.rank = m) (v : Fin (m + k) → ℂ) :
    A *ᵥ v = 0 ↔ ∀ i : Fin m, (ext.svdVh A *ᵥ v) (Fin.castAdd k i) = 0 := by
  obtain ⟨s, hanti, hpos, hdiag⟩ := ext.svd_diag A
  have hU := ext.svd_unitary A
  set V := ext.svdVh A with hV
  have hVV : V * Vᴴ = 1 := (Matrix.mem_unitaryGroup_iff).1 hU
  have hVV' : Vᴴ * V = 1 := (Matrix.mem_unitaryGroup_iff').1 hU
  have hrk : Fintype.card {i // ((s i : ℂ) ^ 2) ≠ 0} = m := by
    classical
    rw [← Matrix.rank_diagonal]
    have h1 : diagonal (fun i => ((s i) ^ 2 : ℂ)) = V * (Aᴴ * A) * Vᴴ := by
      rw [hdiag]
      simp only [Matrix.mul_assoc, hVV, Matrix.mul_one]
      rw [← Matrix.mul_assoc, hVV, Matrix.one_mul]
    have hu : IsUnit V.det := by
      have : V.det * Vᴴ.det = 1 := by rw [← det_mul, hVV, det_one]
      exact IsUnit.of_mul_eq_one _ this
    have hu' : IsUnit Vᴴ.det := by
      have : Vᴴ.det * V.det = 1 := by rw [← det_mul, hVV', det_one]
      exact IsUnit.of_mul_eq_one _ this
    rw [h1, Matrix.rank_mul_eq_left_of_isUnit_det _ _ hu',
      Matrix.rank_mul_eq_right_of_isUnit_det _ _ hu, Matrix.rank_conjTranspose_mul_self, hrank]
  have hs : ∀ i : Fin (m + k), s i ≠ 0 ↔ (i : ℕ) < m := by
    classical
    have hcard : (Finset.univ.filter fun i : Fin (m + k) => s i ≠ 0).card = m := by
      refine Eq.trans ?_ hrk
      rw [Fintype.card_subtype]; congr 1; ext i; simp
    have hlow : ∀ i j : Fin (m + k), j ≤ i → s i ≠ 0 → s j ≠ 0 := by
      intro i j hji hi
      have h1 := hanti hji
      have h2 := lt_of_le_of_ne (hpos i) (Ne.symm hi)
      exact (lt_of_lt_of_le h2 h1).ne'
    intro i
    constructor
    · intro hi
      by_contra hmi
      have hsub : Finset.Iic i ⊆ Finset.univ.filter fun i : Fin (m + k) => s i ≠ 0 := by
        intro j hj
        simp only [Finset.mem_filter, Finset.mem_univ, true_and]
        exact hlow i j (Finset.mem_Iic.1 hj) hi
      have := Finset.card_le_card hsub
      rw [hcard, Fin.card_Iic] at this
      omega
    · intro hi h0
      have hsub : (Finset.univ.filter fun i : Fin (m + k) => s i ≠ 0) ⊆ Finset.Iio i := by
        intro j hj
        simp only [Finset.mem_filter, Finset.mem_univ, true_and] at hj
        rw [Finset.mem_Iio]
        by_contra hij
        exact hlow j i (not_lt.1 hij) hj h0
      have := Finset.card_le_card hsub
      rw [hcard, Fin.card_Iio] at this
      omega
  rw [← conjTranspose_mul_self_mulVec_eq_zero, hdiag]
  have h2 : (Vᴴ * diagonal (fun i => ((s i) ^ 2 : ℂ)) * V) *ᵥ v = 0 ↔
      diagonal (fun i => ((s i) ^ 2 : ℂ)) *ᵥ (V *ᵥ v) = 0 := by
    rw [← mulVec_mulVec, ← mulVec_mulVec]
    constructor
    · intro h
      have := congrArg (V *ᵥ ·) h
      simpa only [mulVec_mulVec, ← Matrix.mul_assoc, hVV, Matrix.one_mul, mulVec_zero] using this
    · intro h; rw [h, mulVec_zero]
  rw [h2]
  constructor
  · intro h i
    have h3 := congrFun h (Fin.castAdd k i)
    rw [mulVec_diagonal] at h3
    have := (hs (Fin.castAdd k i)).2 (by simp)
    simpa [this] using h3
  · intro h
    funext i
    rw [mulVec_diagonal]
    by_cases hi : (i : ℕ) < m
    · have : i = Fin.castAdd k ⟨i, hi⟩ := by ext; simp
      rw [this, h]; simp
    · have : s i = 0 := by
        by_contra h0; exact hi ((hs i).1 h0)
      simp [this]

lemma hcat_mulVec {N k l : ℕ} (A : Matrix (Fin N) (Fin k) ℂ) (B : Matrix (Fin N) (Fin l) ℂ)
    (a : Fin k → ℂ) (b : Fin l → ℂ) : hcat A B *ᵥ Fin.append a b = A *ᵥ a + B *ᵥ b := by
  funext i
  simp [mulVec, dotProduct, hcat, Fin.sum_univ_add]

lemma append_split {k l : ℕ} (v : Fin (k + l) → ℂ) :
    Fin.append (fun i => v (Fin.castAdd l i)) (fun i => v (Fin.natAdd k i)) = v :=
  Fin.append_castAdd_natAdd

/-- The kernel of the orthogonal complement is the column space. -/
lemma orthCompl_ker (ext : LinalgExt ℂ) {n m : ℕ} {mat : Matrix (Fin n) (Fin m) ℂ}
    {p : Matrix (Fin (n - m)) (Fin n) ℂ} (h : orthCompl ext mat = .ok p)
    (hinj : ∀ x, mat *ᵥ x = 0 → x = 0) (w : Fin n → ℂ) :
    p *ᵥ w = 0 ↔ ∃ x, w = mat *ᵥ x := by
  have hmn : m ≤ n := by
    by_contra hcon
    unfold orthCompl at h
    rw [if_pos (by omega)] at h
    cases h
  -- `p pᴴ = 1` and `p mat = 0`
  have hpp : p * pᴴ = 1 ∧ p * mat = 0 := by
    unfold orthCompl at h
    split_ifs at h with hnm
    have h := Except.ok.inj h
    subst h
    constructor
    · ext i j
      have hU := (Matrix.mem_unitaryGroup_iff').1 (ext.qr_unitary mat)
      have := congrFun (congrFun hU ⟨m + i, by omega⟩) ⟨m + j, by omega⟩
      simp only [Matrix.mul_apply, Matrix.star_apply, Matrix.one_apply, Fin.mk.injEq,
        Nat.add_left_cancel_iff] at this
      simp only [Matrix.mul_apply, Matrix.map_apply, Matrix.transpose_apply, Matrix.of_apply,
        Matrix.conjTranspose_apply, star_star, Matrix.one_apply, Fin.ext_iff]
      exact this
    · ext i j
      have hU := (Matrix.mem_unitaryGroup_iff').1 (ext.qr_unitary mat)
      have h1 : star (ext.qr mat).1 * mat = (ext.qr mat).2 := by
        conv_lhs => rw [← ext.qr_mul mat]
        rw [← Matrix.mul_assoc]
        have hq : (ext.qr ((ext.qr mat).1 * (ext.qr mat).2)).1 = (ext.qr mat).1 := by
          rw [ext.qr_mul]
        simp only [ext.qr_mul, hU, Matrix.one_mul]
      have := congrFun (congrFun h1 ⟨m + i, by omega⟩) j
      rw [ext.qr_upper mat _ j (by simp; omega)] at this
      simpa [Matrix.mul_apply] using this
  constructor
  · intro hw
    have hle : LinearMap.range mat.mulVecLin ≤ LinearMap.ker p.mulVecLin := by
      rintro _ ⟨x, rfl⟩
      simp [hpp.2]
    have hr1 : Module.finrank ℂ (LinearMap.range mat.mulVecLin) = m := by
      rw [LinearMap.finrank_range_of_inj]
      · simp
      · rw [← LinearMap.ker_eq_bot, LinearMap.ker_eq_bot']
        exact hinj
    have hr2 : Module.finrank ℂ (LinearMap.range p.mulVecLin) = n - m := by
      have hs : Function.Surjective p.mulVecLin := by
        intro y
        refine ⟨pᴴ *ᵥ y, ?_⟩
        simp [mulVec_mulVec, hpp.1]
      rw [LinearMap.range_eq_top.2 hs]; simp
    have hr3 := LinearMap.finrank_range_add_finrank_ker p.mulVecLin
    rw [hr2, Module.finrank_fintype_fun_eq_card, Fintype.card_fin] at hr3
    have heq := Submodule.eq_of_le_of_finrank_eq hle (by omega)
    have : w ∈ LinearMap.range mat.mulVecLin := by rw [heq]; simpa using hw
    obtain ⟨x, hx⟩ := this
    exact ⟨x, hx.symm⟩
  · rintro ⟨x, rfl⟩
    rw [mulVec_mulVec, hpp.2, zero_mulVec]

/-- The reduced QR decomposition changes the basis of the column space. -/
lemma qrReduced_equiv (ext : LinalgExt ℂ) {N k : ℕ} (A : Matrix (Fin N) (Fin k) ℂ)
    (hinj : ∀ x, A *ᵥ x = 0 → x = 0) :
    ∃ φ : (Fin (min N k) → ℂ) ≃ₗ[ℂ] (Fin k → ℂ), ∀ u, qrReduced ext A *ᵥ u = A *ᵥ φ u := by
  let R : Matrix (Fin (min N k)) (Fin k) ℂ := Matrix.of fun i j => (ext.qr A).2 ⟨i, by omega⟩ j
  have hQR : A = qrReduced ext A * R := by
    ext i j
    conv_lhs => rw [← ext.qr_mul A]
    have h0 : ∀ l : Fin N, min N k ≤ (l : ℕ) → (ext.qr A).2 l j = 0 := by
      intro l hl
      apply ext.qr_upper
      omega
    simp only [Matrix.mul_apply, qrReduced, Matrix.of_apply, R]
    symm
    apply Finset.sum_bij_ne_zero (fun (l : Fin (min N k)) _ _ => (⟨l, by omega⟩ : Fin N))
    · simp
    · intro a _ _ b _ _ hab; simpa [Fin.ext_iff] using hab
    · intro b _ hb
      have : (b : ℕ) < min N k := by
        by_contra hcon
        exact hb (by rw [h0 b (by omega), mul_zero])
      exact ⟨⟨b, this⟩, by simp, hb, rfl⟩
    · intro a _ _; rfl
  have hRinj : Function.Injective R.mulVecLin := by
    rw [← LinearMap.ker_eq_bot, LinearMap.ker_eq_bot']
    intro x hx
    apply hinj
    rw [hQR, ← mulVec_mulVec]
    have : R *ᵥ x = 0 := hx
    rw [this, mulVec_zero]
  have hle : k ≤ min N k := by
    simpa using LinearMap.finrank_le_finrank_of_injective hRinj
  let ψ : (Fin k → ℂ) ≃ₗ[ℂ] (Fin (min N k) → ℂ) :=
    LinearEquiv.ofInjectiveOfFinrankEq R.mulVecLin hRinj (by simp; omega)
  have hψ : ∀ x, ψ x = R *ᵥ x := fun x => rfl
  refine ⟨ψ.symm, fun u => ?_⟩
  conv_rhs => rw [hQR]
  rw [← mulVec_mulVec, ← hψ, LinearEquiv.apply_symm_apply]

/-- Exactness of the pencil: if the fit vectors lie in the column space of `B` exactly for the
multiples of `Q`, the eigenvalues are the roots of `Q`. -/
lemma pencilEig_exact (ext : PolepadeExt) {N k m : ℕ} (z w : Fin N → ℂ)
    (B : Matrix (Fin N) (Fin k) ℂ) {perp : Matrix (Fin (N - k)) (Fin N) ℂ}
    (hperp : orthCompl ext.toLinalgExt B = .ok perp) (hB : ∀ x, B *ᵥ x = 0 → x = 0)
    (q : Matrix (Fin N) (Fin m) ℂ) (φ : (Fin m → ℂ) ≃ₗ[ℂ] degreeLT ℂ m)
    (hq : ∀ u i, (q *ᵥ u) i = w i * (φ u : ℂ[X]).eval (z i))
    {Q : ℂ[X]} (hQ : Q.Monic) (hm : Q.natDegree = m)
    (hfit : ∀ S : ℂ[X], S ∈ degreeLT ℂ (m + 1) →
      ((∃ x, (fun i => w i * S.eval (z i)) = B *ᵥ x) ↔ ∃ c : ℂ, S = C c * Q)) (x : ℂ) :
    ∏ i, (x - pencilEig ext z perp q i) = Q.eval x := by
  set A := hcat (perp * (Matrix.of fun i j => z i * q i j)) (perp * q) with hA
  have hdegQ : Q.degree = m := by rw [degree_eq_natDegree hQ.ne_zero, hm]
  have hmemX : ∀ a b : Fin m → ℂ, X * (φ a : ℂ[X]) + (φ b : ℂ[X]) ∈ degreeLT ℂ (m + 1) := by
    intro a b
    apply Submodule.add_mem
    · have h1 := mem_degreeLT.1 (φ a).2
      rw [mem_degreeLT, mul_comm, degree_mul_X]
      push_cast
      exact WithBot.add_lt_add_right (by simp) h1
    · exact degreeLT_mono (Nat.le_succ m) (φ b).2
  have hAker : ∀ a b, A *ᵥ Fin.append a b = 0 ↔
      ∃ c : ℂ, X * (φ a : ℂ[X]) + (φ b : ℂ[X]) = C c * Q := by
    intro a b
    rw [hA, hcat_mulVec, ← mulVec_mulVec, ← mulVec_mulVec, ← mulVec_add,
      orthCompl_ker _ hperp hB, ← hfit _ (hmemX a b)]
    have : (Matrix.of fun i j => z i * q i j) *ᵥ a + q *ᵥ b =
        fun i => w i * (X * (φ a : ℂ[X]) + (φ b : ℂ[X])).eval (z i) := by
      funext i
      have h1 : ((Matrix.of fun i j => z i * q i j) *ᵥ a) i = z i * (q *ᵥ a) i := by
        simp [mulVec, dotProduct, Finset.mul_sum, mul_assoc]
      rw [Pi.add_apply, h1, hq, hq]
      simp only [eval_add, eval_mul, eval_X]
      ring
    rw [this]
  have hex : ∀ a : Fin m → ℂ, ∃ b, A *ᵥ Fin.append a b = 0 := by
    intro a
    set D := X * (φ a : ℂ[X]) with hD
    have hdeg : (D %ₘ Q) ∈ degreeLT ℂ m := by
      rw [mem_degreeLT, ← hdegQ]; exact degree_modByMonic_lt _ hQ
    refine ⟨φ.symm (-⟨D %ₘ Q, hdeg⟩), ?_⟩
    rw [hAker, LinearEquiv.apply_symm_apply]
    have hdiv : (D /ₘ Q).natDegree = 0 := by
      rw [natDegree_divByMonic _ hQ, hm]
      have h1 := mem_degreeLT.1 (hmemX a 0)
      rw [map_zero] at h1
      simp only [ZeroMemClass.coe_zero, add_zero] at h1
      have h2 : D.natDegree < m + 1 := by
        rcases eq_or_ne D 0 with h0 | h0
        · rw [h0]; simp
        · exact (natDegree_lt_iff_degree_lt h0).2 h1
      omega
    obtain ⟨c, hc⟩ := natDegree_eq_zero.1 hdiv
    refine ⟨c, ?_⟩
    rw [hc]
    have := modByMonic_add_div D Q
    simp only [Submodule.coe_neg]
    linear_combination -this
  have huniq : ∀ b : Fin m → ℂ, A *ᵥ Fin.append 0 b = 0 → b = 0 := by
    intro b hb
    obtain ⟨c, hc⟩ := (hAker 0 b).1 hb
    rw [map_zero] at hc
    simp only [ZeroMemClass.coe_zero, mul_zero, zero_add] at hc
    have h1 := mem_degreeLT.1 (φ b).2
    have hc0 : c = 0 := by
      by_contra hc0
      rw [hc, degree_C_mul hc0, hdegQ] at h1
      exact lt_irrefl _ h1
    have h2 : φ b = 0 := by
      apply Subtype.ext; rw [hc, hc0]; simp
    exact (LinearEquiv.map_eq_zero_iff φ).1 h2
  have hrank : A.rank = m := by
    have hker : Module.finrank ℂ (LinearMap.ker A.mulVecLin) = m := by
      let π : LinearMap.ker A.mulVecLin →ₗ[ℂ] (Fin m → ℂ) :=
        { toFun := fun v i => v.1 (Fin.castAdd m i)
          map_add' := fun _ _ => rfl
          map_smul' := fun _ _ => rfl }
      have hbij : Function.Bijective π := by
        constructor
        · rw [← LinearMap.ker_eq_bot, LinearMap.ker_eq_bot']
          rintro ⟨v, hv⟩ hv0
          have hv' : A *ᵥ v = 0 := hv
          have h0 : (fun i => v (Fin.castAdd m i)) = 0 := hv0
          rw [← append_split v, h0] at hv'
          have := huniq _ hv'
          apply Subtype.ext
          change v = 0
          rw [← append_split v, h0, this]
          funext i
          refine Fin.addCases (fun j => ?_) (fun j => ?_) i
          · rw [Fin.append_left]; rfl
          · rw [Fin.append_right]; rfl
        · intro a
          obtain ⟨b, hb⟩ := hex a
          refine ⟨⟨Fin.append a b, hb⟩, ?_⟩
          funext i
          change Fin.append a b (Fin.castAdd m i) = a i
          simp
      rw [(LinearEquiv.ofBijective π hbij).finrank_eq]; simp
    have := LinearMap.finrank_range_add_finrank_ker A.mulVecLin
    rw [hker, Module.finrank_fintype_fun_eq_card, Fintype.card_fin] at this
    rw [Matrix.rank]
    omega
  set vh := ext.svdVh A with hvh
  set W1 : Matrix (Fin m) (Fin m) ℂ :=
    Matrix.of fun i j => vh (Fin.castAdd m i) (Fin.castAdd m j) with hW1
  set W2 : Matrix (Fin m) (Fin m) ℂ :=
    Matrix.of fun i j => vh (Fin.castAdd m i) (Fin.natAdd m j) with hW2
  have hW : ∀ a b, W1 *ᵥ a + W2 *ᵥ b = 0 ↔
      ∃ c : ℂ, X * (φ a : ℂ[X]) + (φ b : ℂ[X]) = C c * Q := by
    intro a b
    rw [← hAker, svd_ker ext A hrank]
    have : ∀ i, (vh *ᵥ Fin.append a b) (Fin.castAdd m i) = (W1 *ᵥ a + W2 *ᵥ b) i := by
      intro i
      simp only [mulVec, dotProduct, Fin.sum_univ_add, hW1, hW2, Fin.append_left,
        Fin.append_right, Pi.add_apply, Matrix.of_apply]
    constructor
    · intro h i; rw [this, h]; rfl
    · intro h; funext i; rw [← this, h]; rfl
  obtain ⟨hdet, hchar⟩ := pencil_det hQ hm W1 W2 φ hW
  have h1 := ext.eig_char W1 W2 hdet x
  rw [hchar x] at h1
  have h2 := mul_left_cancel₀ hdet h1
  rw [h2]
  rfl

end Gftool.Lemmas
