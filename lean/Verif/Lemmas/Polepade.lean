import Verif.Lemmas.Pencil
import Verif.Spec.Rational
import Mathlib.LinearAlgebra.Lagrange

/-!
# Exact rational data and the `null_dim` of `number_poles`
-/

namespace Gftool.Lemmas

open Matrix Polynomial Gftool.Model Gftool.Spec

/-! ## The loop -/

/-- A run of the loop with more fuel gives the same result. -/
lemma numPolesLoop_mono {nullDim : ℤ → ℕ} {degree absMax : ℤ} {r : Except Err ℤ} :
    ∀ {fuel : ℕ} {s : NumPolesState}, numPolesLoop nullDim degree absMax fuel s = some r →
      ∀ {fuel' : ℕ}, fuel ≤ fuel' → numPolesLoop nullDim degree absMax fuel' s = some r
  | 0, s, h, _, _ => by simp [numPolesLoop] at h
  | fuel + 1, s, h, 0, hle => by omega
  | fuel + 1, s, h, fuel' + 1, hle => by
    rw [numPolesLoop] at h ⊢
    split at h
    · rename_i r' hs; exact h
    · rename_i s' hs
      exact numPolesLoop_mono h (by omega)

/-- Partial correctness by an invariant. -/
lemma numPolesLoop_inv {nullDim : ℤ → ℕ} {degree absMax : ℤ} (Inv : NumPolesState → Prop)
    (Post : Except Err ℤ → Prop)
    (hstep : ∀ s, Inv s → match numPolesStep nullDim degree absMax s with
      | .inl s' => Inv s'
      | .inr r => Post r) :
    ∀ {fuel : ℕ} {s : NumPolesState} {r : Except Err ℤ}, Inv s →
      numPolesLoop nullDim degree absMax fuel s = some r → Post r
  | 0, s, r, _, h => by simp [numPolesLoop] at h
  | fuel + 1, s, r, hI, h => by
    rw [numPolesLoop] at h
    have := hstep s hI
    split at h
    · rename_i r' hs
      rw [hs] at this
      cases h; exact this
    · rename_i s' hs
      rw [hs] at this
      exact numPolesLoop_inv Inv Post hstep this h

/-- Termination by a measure. -/
lemma numPolesLoop_term {nullDim : ℤ → ℕ} {degree absMax : ℤ} (Inv : NumPolesState → Prop)
    (μ : NumPolesState → ℕ)
    (hstep : ∀ s, Inv s → match numPolesStep nullDim degree absMax s with
      | .inl s' => Inv s' ∧ μ s' < μ s
      | .inr _ => True) :
    ∀ (n : ℕ) (s : NumPolesState), Inv s → μ s < n →
      ∃ r, numPolesLoop nullDim degree absMax n s = some r
  | 0, s, _, h => by omega
  | n + 1, s, hI, h => by
    rw [numPolesLoop]
    have := hstep s hI
    split
    · exact ⟨_, rfl⟩
    · rename_i s' hs
      rw [hs] at this
      exact numPolesLoop_term Inv μ hstep n s' this.1 (by omega)

/-! ## Exact data -/

section Data

variable {N : ℕ} {z f : Fin N → ℂ} {P Q : ℂ[X]}

lemma poly_eq_zero_of_eval (hz : Function.Injective z) {S : ℂ[X]} (hd : S ∈ degreeLT ℂ N)
    (h : ∀ i, S.eval (z i) = 0) : S = 0 := by
  refine Polynomial.eq_zero_of_degree_lt_of_eval_index_eq_zero (v := z) Finset.univ hz.injOn ?_
    (fun i _ => h i)
  simpa using mem_degreeLT.1 hd

lemma mul_mem_degreeLT {S T : ℂ[X]} {a b : ℕ} (hS : S ∈ degreeLT ℂ a) (hT : T.natDegree ≤ b) :
    S * T ∈ degreeLT ℂ (a + b) := by
  rcases eq_or_ne S 0 with h0 | h0
  · rw [h0, zero_mul]; exact Submodule.zero_mem _
  rw [mem_degreeLT] at hS ⊢
  have h1 : S.natDegree < a := (natDegree_lt_iff_degree_lt h0).2 hS
  calc (S * T).degree ≤ ((S * T).natDegree : WithBot ℕ) := degree_le_natDegree
    _ ≤ ((S.natDegree + T.natDegree : ℕ) : WithBot ℕ) := by
        exact_mod_cast natDegree_mul_le
    _ < ((a + b : ℕ) : WithBot ℕ) := by exact_mod_cast (by omega)

/-- The linearised fit problem for exact data: all solutions are multiples of `(Q, P)`. -/
lemma fit_iff (hd : IsRationalData z f P Q) {p k1 k2 : ℕ} (hP : P.natDegree ≤ p)
    (hp : Q.natDegree = p) (h1 : k1 + p ≤ N) (h2 : k2 + p ≤ N) {S r : ℂ[X]}
    (hS : S ∈ degreeLT ℂ k1) (hr : r ∈ degreeLT ℂ k2) :
    (∀ i, f i * S.eval (z i) = r.eval (z i)) ↔ ∃ T, S = T * Q ∧ r = T * P := by
  constructor
  · intro h
    have hz : S * P - r * Q = 0 := by
      apply poly_eq_zero_of_eval hd.inj
      · apply Submodule.sub_mem
        · exact degreeLT_mono h1 (mul_mem_degreeLT hS hP)
        · exact degreeLT_mono h2 (mul_mem_degreeLT hr hp.le)
      · intro i
        have := h i
        rw [hd.val i] at this
        have hq := hd.den_ne i
        field_simp at this
        simp only [eval_sub, eval_mul]
        linear_combination this
    have hdvd : Q ∣ S * P := ⟨r, by linear_combination hz⟩
    obtain ⟨T, hT⟩ := hd.coprime.symm.dvd_of_dvd_mul_right hdvd
    refine ⟨T, by rw [hT, mul_comm], ?_⟩
    have : (r - T * P) * Q = 0 := by rw [hT] at hz; linear_combination -hz
    rcases mul_eq_zero.1 this with h | h
    · linear_combination h
    · exact absurd h hd.monic.ne_zero
  · rintro ⟨T, rfl, rfl⟩ i
    have hq := hd.den_ne i
    rw [hd.val i]
    simp only [eval_mul]
    field_simp

lemma scaled_vander_inj (hz : Function.Injective z) {k : ℕ} (hk : k ≤ N) {s : Fin N → ℂ}
    (hs : ∀ i, s i ≠ 0) (x : Fin k → ℂ)
    (h : (Matrix.of fun i j => s i * vanderC z k i j) *ᵥ x = 0) : x = 0 := by
  have h1 : (vecPoly k x : ℂ[X]) = 0 := by
    apply poly_eq_zero_of_eval hz (degreeLT_mono hk (vecPoly k x).2)
    intro i
    rw [← vanderC_mulVec]
    have := congrFun h i
    have h2 : ((Matrix.of fun i j => s i * vanderC z k i j) *ᵥ x) i
        = s i * (vanderC z k *ᵥ x) i := by
      simp [mulVec, dotProduct, Finset.mul_sum, mul_assoc]
    rw [h2] at this
    exact (mul_eq_zero.1 this).resolve_left (hs i)
  exact (LinearEquiv.map_eq_zero_iff (vecPoly k)).1 (Subtype.ext h1)

lemma smul_vander_mulVec {k : ℕ} (s : Fin N → ℂ) (x : Fin k → ℂ) (i : Fin N) :
    ((Matrix.of fun i j => s i * vanderC z k i j) *ᵥ x) i
      = s i * (vecPoly k x : ℂ[X]).eval (z i) := by
  rw [← vanderC_mulVec]
  simp [mulVec, dotProduct, Finset.mul_sum, mul_assoc]

lemma scaled_fvander_inj (hd : IsRationalData z f P Q) (hP0 : P ≠ 0) {p k : ℕ}
    (hP : P.natDegree ≤ p) (hk : k + p ≤ N) {s : Fin N → ℂ}
    (hs : ∀ i, s i ≠ 0) (x : Fin k → ℂ)
    (h : (Matrix.of fun i j => s i * f i * vanderC z k i j) *ᵥ x = 0) : x = 0 := by
  have h1 : (vecPoly k x : ℂ[X]) * P = 0 := by
    apply poly_eq_zero_of_eval hd.inj (degreeLT_mono hk (mul_mem_degreeLT (vecPoly k x).2 hP))
    intro i
    have := congrFun h i
    rw [smul_vander_mulVec, hd.val i] at this
    have hq := hd.den_ne i
    simp only [Pi.zero_apply, mul_eq_zero, div_eq_zero_iff, hs i, hq, or_false, false_or] at this
    rw [eval_mul]
    rcases this with h | h <;> simp [h]
  have h2 := (mul_eq_zero.1 h1).resolve_right hP0
  exact (LinearEquiv.map_eq_zero_iff (vecPoly k)).1 (Subtype.ext h2)

/-- Rank of the fit matrix of `number_poles` for exact data. -/
lemma rank_fit (ext : LinalgExt ℂ) (hd : IsRationalData z f P Q) (hP0 : P ≠ 0) {p k1 k2 : ℕ}
    (hP : P.natDegree ≤ p) (hp : Q.natDegree = p) (h1 : k1 + p ≤ N) (h2 : k2 + p ≤ N)
    (hk : ∀ T ∈ degreeLT ℂ (k1 - p), T * P ∈ degreeLT ℂ k2) {s : Fin N → ℂ}
    (hs : ∀ i, s i ≠ 0) :
    (hcat (qrReduced ext (Matrix.of fun i j => s i * f i * vanderC z k1 i j))
      (qrReduced ext (Matrix.of fun i j => s i * vanderC z k2 i j))).rank + (k1 - p) = k1 + k2 := by
  obtain ⟨φ1, hφ1⟩ := qrReduced_equiv ext (Matrix.of fun i j => s i * f i * vanderC z k1 i j)
    (scaled_fvander_inj hd hP0 hP h1 hs)
  obtain ⟨φ2, hφ2⟩ := qrReduced_equiv ext (Matrix.of fun i j => s i * vanderC z k2 i j)
    (scaled_vander_inj hd.inj (by omega) hs)
  set M := hcat (qrReduced ext (Matrix.of fun i j => s i * f i * vanderC z k1 i j))
    (qrReduced ext (Matrix.of fun i j => s i * vanderC z k2 i j)) with hM
  have hker : ∀ a b, M *ᵥ Fin.append a b = 0 ↔
      ∃ T, (vecPoly k1 (φ1 a) : ℂ[X]) = T * Q ∧ (-(vecPoly k2 (φ2 b) : ℂ[X])) = T * P := by
    intro a b
    rw [← fit_iff hd hP hp h1 h2 (vecPoly k1 (φ1 a)).2
      (Submodule.neg_mem _ (vecPoly k2 (φ2 b)).2), hM, hcat_mulVec, hφ1, hφ2]
    constructor
    · intro h i
      have := congrFun h i
      rw [Pi.add_apply, smul_vander_mulVec, smul_vander_mulVec, Pi.zero_apply] at this
      have h3 : s i * (f i * (vecPoly k1 (φ1 a) : ℂ[X]).eval (z i)
        + (vecPoly k2 (φ2 b) : ℂ[X]).eval (z i)) = 0 := by linear_combination this
      rw [eval_neg]
      linear_combination (mul_eq_zero.1 h3).resolve_left (hs i)
    · intro h
      funext i
      have := h i
      rw [eval_neg] at this
      rw [Pi.add_apply, smul_vander_mulVec, smul_vander_mulVec, Pi.zero_apply]
      linear_combination s i * this
  have hfin : Module.finrank ℂ (LinearMap.ker M.mulVecLin) = k1 - p := by
    let π : LinearMap.ker M.mulVecLin →ₗ[ℂ] ℂ[X] :=
      { toFun := fun v => (vecPoly k1 (φ1 fun i => v.1 (Fin.castAdd _ i)) : ℂ[X])
        map_add' := fun v w => by
          rw [← Submodule.coe_add, ← map_add, ← map_add]; rfl
        map_smul' := fun c v => by
          rw [RingHom.id_apply, ← Submodule.coe_smul, ← map_smul, ← map_smul]; rfl }
    have hinj : Function.Injective π := by
      rw [← LinearMap.ker_eq_bot, LinearMap.ker_eq_bot']
      rintro ⟨v, hv⟩ hv0
      have hv' : M *ᵥ v = 0 := hv
      have h0 : (vecPoly k1 (φ1 fun i => v (Fin.castAdd _ i)) : ℂ[X]) = 0 := hv0
      have hvs := append_split v
      rw [← hvs, hker] at hv'
      obtain ⟨T, hT1, hT2⟩ := hv'
      rw [h0] at hT1
      have hT0 : T = 0 := (mul_eq_zero.1 hT1.symm).resolve_right hd.monic.ne_zero
      rw [hT0, zero_mul, neg_eq_zero] at hT2
      have ha : (fun i => v (Fin.castAdd _ i)) = 0 :=
        (LinearEquiv.map_eq_zero_iff φ1).1 ((LinearEquiv.map_eq_zero_iff _).1 (Subtype.ext h0))
      have hb : (fun i => v (Fin.natAdd _ i)) = 0 :=
        (LinearEquiv.map_eq_zero_iff φ2).1 ((LinearEquiv.map_eq_zero_iff _).1 (Subtype.ext hT2))
      apply Subtype.ext
      change v = 0
      rw [← hvs, ha, hb]
      funext i
      refine Fin.addCases (fun j => ?_) (fun j => ?_) i
      · rw [Fin.append_left]; rfl
      · rw [Fin.append_right]; rfl
    have hrange : LinearMap.range π = (degreeLT ℂ (k1 - p)).map (LinearMap.mulRight ℂ Q) := by
      ext S
      simp only [LinearMap.mem_range, Submodule.mem_map, LinearMap.mulRight_apply]
      constructor
      · rintro ⟨⟨v, hv⟩, rfl⟩
        have hv' : M *ᵥ v = 0 := hv
        rw [← append_split v, hker] at hv'
        obtain ⟨T, hT1, hT2⟩ := hv'
        refine ⟨T, ?_, hT1.symm⟩
        have hmem := (vecPoly k1 (φ1 fun i => v (Fin.castAdd _ i))).2
        rw [hT1] at hmem
        rcases eq_or_ne T 0 with h0 | h0
        · rw [h0]; exact Submodule.zero_mem _
        rw [mem_degreeLT, ← natDegree_lt_iff_degree_lt (mul_ne_zero h0 hd.monic.ne_zero),
          natDegree_mul h0 hd.monic.ne_zero] at hmem
        rw [mem_degreeLT, ← natDegree_lt_iff_degree_lt h0]
        omega
      · rintro ⟨T, hT, rfl⟩
        have hTQ : T * Q ∈ degreeLT ℂ k1 := by
          rcases eq_or_ne T 0 with h0 | h0
          · rw [h0, zero_mul]; exact Submodule.zero_mem _
          have := (natDegree_lt_iff_degree_lt h0).2 (mem_degreeLT.1 hT)
          rw [mem_degreeLT, ← natDegree_lt_iff_degree_lt (mul_ne_zero h0 hd.monic.ne_zero),
            natDegree_mul h0 hd.monic.ne_zero]
          omega
        have hTP := hk T hT
        set a := φ1.symm ((vecPoly k1).symm ⟨T * Q, hTQ⟩) with ha
        set b := φ2.symm ((vecPoly k2).symm (-⟨T * P, hTP⟩)) with hb
        have hab : M *ᵥ Fin.append a b = 0 := by
          rw [hker]
          refine ⟨T, ?_, ?_⟩
          · rw [ha]; simp
          · rw [hb]; simp
        refine ⟨⟨Fin.append a b, hab⟩, ?_⟩
        change (vecPoly k1 (φ1 fun i => Fin.append a b (Fin.castAdd _ i)) : ℂ[X]) = T * Q
        simp only [Fin.append_left]
        rw [ha]; simp
    have hmul : Function.Injective (LinearMap.mulRight ℂ Q) := fun S T hST =>
      mul_right_cancel₀ hd.monic.ne_zero (by simpa using hST)
    rw [← LinearMap.finrank_range_of_inj hinj, hrange,
      ← (Submodule.equivMapOfInjective _ hmul _).finrank_eq,
      (degreeLTEquiv ℂ (k1 - p)).finrank_eq]
    simp
  have := LinearMap.finrank_range_add_finrank_ker M.mulVecLin
  rw [hfin, Module.finrank_fintype_fun_eq_card, Fintype.card_fin] at this
  rw [Matrix.rank]
  omega

end Data

end Gftool.Lemmas
