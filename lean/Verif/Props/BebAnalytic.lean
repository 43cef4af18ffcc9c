import Verif.Lemmas.BebAnalytic
import Verif.Props.BebUnique

/-!
# C74: the BEB self-energy as a function of frequency
-/

namespace Gftool.Props

open Gftool Model Lemmas Matrix MeasureTheory Spec Filter

open scoped Topology

variable {n : ℕ} {dos : Measure ℝ} {band : Set ℝ} {hilbert : ℂ → ℂ}
  {T : Matrix (Fin n) (Fin n) ℂ} {e : ℂ → Fin n → ℂ} {c : Fin n → ℝ}

/-- The BEB problem at all frequencies of the upper half-plane. -/
def BebAlloy (dos : Measure ℝ) (band : Set ℝ) (hilbert : ℂ → ℂ) (T : Matrix (Fin n) (Fin n) ℂ)
    (e : ℂ → Fin n → ℂ) (c : Fin n → ℝ) : Prop :=
  ∀ z : ℂ, 0 < z.im → BebProblem dos band hilbert T z (e z) c

/-- `S` is the BEB self-energy at all frequencies of the upper half-plane. -/
def IsBebSelfFn (dos : Measure ℝ) (T : Matrix (Fin n) (Fin n) ℂ) (e : ℂ → Fin n → ℂ)
    (c : Fin n → ℝ) (S : ℂ → Matrix (Fin n) (Fin n) ℂ) : Prop :=
  ∀ z : ℂ, 0 < z.im → IsBebSelf dos T z (e z) c (S z)

/-- The local Green's function of the lattice with the self-energy `s`. -/
noncomputable def bebLocGf (dos : Measure ℝ) (T : Matrix (Fin n) (Fin n) ℂ) (z : ℂ)
    (s : Matrix (Fin n) (Fin n) ℂ) (a b : Fin n) : ℂ :=
  ∫ eps : ℝ, ((z • (1 : Matrix (Fin n) (Fin n) ℂ) - s - (eps : ℂ) • T)⁻¹) a b ∂dos

/-- C74: there is exactly one BEB self-energy in the upper half-plane; at every frequency of every
grid where `solve_root` with an exact solver returns a physical matrix, this is its value. -/
theorem beb_self_fn_exists {σ : Type} [Fintype σ] [DecidableEq σ] {d : SpecDec n σ}
    (hd : CompactDec d) (h : BebAlloy dos band hilbert (d.us * d.suh) e c) :
    ∃ S, IsBebSelfFn dos (d.us * d.suh) e c S ∧
      (∀ S', IsBebSelfFn dos (d.us * d.suh) e c S' → ∀ z : ℂ, 0 < z.im → S' z = S z) ∧
      ∀ {κ : Type} (ext : EigExt) (solver : ExceptSolver (κ → Matrix (Fin n) (Fin n) ℂ))
        (_ : HonestExceptSolver solver 0) (z : κ → ℂ) (_ : ∀ k, 0 < (z k).im)
        (x0 : Option (κ → Matrix (Fin n) (Fin n) ℂ)) (s : κ → Matrix (Fin n) (Fin n) ℂ),
        bebSolveRoot ext solver d z (fun k => e (z k)) (fun _ => c) hilbert x0 false = .ok s →
        ∀ k, PhysicalSelf (s k) → s k = S (z k) := by
  have hex : ∀ z : ℂ, ∃ s, 0 < z.im → (IsBebSelf dos (d.us * d.suh) z (e z) c s ∧
      ∀ s', IsBebSelf dos (d.us * d.suh) z (e z) c s' → s' = s) := by
    intro z
    by_cases hz : 0 < z.im
    · obtain ⟨s, h1, h2⟩ := beb_self_exists_unique (h z hz)
      exact ⟨s, fun _ => ⟨h1, h2⟩⟩
    · exact ⟨0, fun h => absurd h hz⟩
  choose S hS using hex
  refine ⟨S, fun z hz => (hS z hz).1, fun S' hS' z hz => (hS z hz).2 _ (hS' z hz), ?_⟩
  intro κ ext solver hsol z hz x0 s hok k hphys
  obtain ⟨t, _, _, ht, -, -, -, h3⟩ := beb_solve_root_accurate ext solver le_rfl hsol hd
    (fun k => h (z k) (hz k)) x0 false hok k (by simpa using hphys)
  have h4 := h3 rfl
  simp only [Bool.false_eq_true, if_false] at h4
  rw [h4]
  exact (hS _ (hz k)).2 t ht

section

variable {S : ℂ → Matrix (Fin n) (Fin n) ℂ}

/-- C74: if the on-site energies are analytic in the upper half-plane (e.g. constants), so are all
elements of the self-energy and of the local Green's function. -/
theorem beb_self_analytic (h : BebAlloy dos band hilbert T e c)
    (he : ∀ i, DifferentiableOn ℂ (fun z => e z i) {z | 0 < z.im})
    (hS : IsBebSelfFn dos T e c S) (a b : Fin n) :
    DifferentiableOn ℂ (fun z => S z a b) {z | 0 < z.im} ∧
    DifferentiableOn ℂ (fun z => bebLocGf dos T z (S z) a b) {z | 0 < z.im} := by
  have hI : (0 : ℝ) < Complex.I.im := by simp
  have h0 := h Complex.I hI
  have hfix := fun z hz => (isBebSelf_iff (h z hz) (S z)).1 (hS z hz)
  have hM : ∀ a b, DifferentiableOn ℂ (fun z => zMSelf z (S z) a b) {z | 0 < z.im} := fun a b =>
    fix_analytic (dos := dos) (w := fun z i => z - e z i) h0.pos h0.norm h0.lattice h0.hermitian
      (fun z hz i => beb_damp (h z hz) i) (fun i => differentiableOn_id.sub (he i))
      (fun z hz => retarded_zMSelf hz (hfix z hz).1) (fun z hz => (hfix z hz).2) a b
  constructor
  · have h1 : ∀ z, S z a b = (if a = b then z else 0) - zMSelf z (S z) a b := by
      intro z
      unfold zMSelf
      rw [Matrix.sub_apply, Matrix.smul_apply, one_apply]
      split_ifs <;> simp
    simp only [h1]
    refine DifferentiableOn.sub ?_ (hM a b)
    split_ifs
    · exact differentiableOn_id
    · exact differentiableOn_const _
  · exact locGf_analytic h0.lattice h0.hermitian
      (fun z hz u => (physicalSelf_iff (S z) z).1 (hfix z hz).1 u) hM a b

/-- C74: at every frequency the local Green's functions of the components are those of impurities
with the on-site energies of the components in baths: `g_aa = c_a / (z - e_a - Δ_aa)`; the
off-diagonal self-energy is `-Δ_ab`.  For a large imaginary part of the frequency `Δ` tends to
`m₁ T`, where `m₁` is the centre of mass of the density of states, at a rate that does not depend on the
on-site energies. -/
theorem beb_self_bath (h : BebAlloy dos band hilbert T e c) (hS : IsBebSelfFn dos T e c S) :
    ∃ (Δ : ℂ → Matrix (Fin n) (Fin n) ℂ) (D : ℝ), 0 ≤ D ∧ ∀ z : ℂ, 0 < z.im →
      (∀ a, z - e z a - Δ z a a ≠ 0 ∧ z.im ≤ (z - e z a - Δ z a a).im ∧
        bebLocGf dos T z (S z) a a = c a / (z - e z a - Δ z a a) ∧
        S z a a = z - (z - e z a - Δ z a a) / c a - Δ z a a) ∧
      (∀ a b, a ≠ b → S z a b = -Δ z a b) ∧
      ∀ a b, ‖Δ z a b - (∫ eps, (eps : ℂ) ∂dos) * T a b‖ ≤ D / z.im := by
  have hI : (0 : ℝ) < Complex.I.im := by simp
  have h0 := h Complex.I hI
  obtain ⟨D, hD, hD'⟩ := hyb_norm_rate (dos := dos) h0.lattice h0.hermitian
  refine ⟨fun z => hyb dos T (zMSelf z (S z)), D, hD, fun z hz => ?_⟩
  obtain ⟨hp, hf⟩ := (isBebSelf_iff (h z hz) (S z)).1 (hS z hz)
  have hdamp := (physicalSelf_iff (S z) z).1 hp
  have hret := retarded_zMSelf hz hp
  have hcne : ∀ i, (c i : ℂ) ≠ 0 := fun i => Complex.ofReal_ne_zero.2 (h0.pos i).ne'
  have hent : ∀ a b, S z a b = (if a = b then z else 0) - zMSelf z (S z) a b := by
    intro a b
    unfold zMSelf
    rw [Matrix.sub_apply, Matrix.smul_apply, one_apply]
    split_ifs <;> simp
  set Δ := hyb dos T (zMSelf z (S z)) with hΔ
  refine ⟨fun a => ?_, fun a b hab => ?_, fun a b => hD' _ hz _ hdamp a b⟩
  · have him : z.im ≤ (z - e z a - Δ a a).im := by
      have h1 := hyb_nonpos h0.lattice hret h0.hermitian (Pi.single a 1)
      unfold qf at h1
      rw [sf_single] at h1
      have h2 := beb_damp (h z hz) a
      rw [Complex.sub_im]
      linarith
    have hne : z - e z a - Δ a a ≠ 0 := fun h1 => by
      rw [h1] at him; simp at him; linarith
    refine ⟨hne, him, ?_, ?_⟩
    · obtain ⟨-, g, hg, hcm⟩ := hS z hz
      have h1 : locGf dos T (zMSelf z (S z)) = diagonal g := by
        ext a b
        rw [locGf_zMSelf, hg, diagonal_apply]
      have hdet := locGf_det h0.lattice hret h0.hermitian
      have hgne : ∀ i, g i ≠ 0 := by
        intro i hi
        rw [h1, det_diagonal] at hdet
        exact hdet (Finset.prod_eq_zero (Finset.mem_univ i) hi)
      have hinv : (locGf dos T (zMSelf z (S z)))⁻¹ = diagonal fun i => 1 / g i := by
        rw [h1]
        refine Matrix.inv_eq_left_inv ?_
        rw [diagonal_mul_diagonal, ← diagonal_one]
        congr 1
        funext i
        exact one_div_mul_cancel (hgne i)
      have h2 : Δ a a = z - S z a a - 1 / g a := by
        rw [hΔ]
        unfold hyb
        rw [hinv, Matrix.sub_apply, diagonal_apply_eq]
        simp [zMSelf]
      have h3 : z - e z a - Δ a a = 1 / g a + S z a a - e z a := by rw [h2]; ring
      have h4 : bebLocGf dos T z (S z) a a = g a := by unfold bebLocGf; rw [hg, if_pos rfl]
      rw [h4, h3]
      have h5 := hcm a
      rwa [mul_one_div] at h5
    · have h1 : zMSelf z (S z) a a = Δ a a + (z - e z a - Δ a a) / c a := by
        conv_lhs => rw [← hf]
        unfold medium
        rw [Matrix.add_apply, diagonal_apply_eq]
      rw [hent, if_pos rfl, h1]
      ring
  · have h1 : zMSelf z (S z) a b = Δ a b := by
      conv_lhs => rw [← hf]
      unfold medium
      rw [Matrix.add_apply, diagonal_apply_ne _ hab, add_zero]
    rw [hent, if_neg hab, h1, zero_sub]

/-- C74: the behaviour at large imaginary parts of the frequency, for constant on-site energies: the
spectral function of the component Green's function `g_aa / c_a` has norm one and the first moment
`e_a + m₁ T_aa`; the off-diagonal self-energy has a finite limit, the diagonal one grows with the
factor `1 - 1/c_a`. -/
theorem beb_self_tail {e : Fin n → ℂ} (h : BebAlloy dos band hilbert T (fun _ => e) c)
    (hS : IsBebSelfFn dos T (fun _ => e) c S) (a b : Fin n) :
    Tendsto (fun z => z * bebLocGf dos T z (S z) a a) (comap Complex.im atTop) (𝓝 (c a)) ∧
    Tendsto (fun z => z * (z * bebLocGf dos T z (S z) a a - c a)) (comap Complex.im atTop)
      (𝓝 (c a * (e a + (∫ eps, (eps : ℂ) ∂dos) * T a a))) ∧
    Tendsto (fun z => S z a a - (1 - 1 / c a) * z) (comap Complex.im atTop)
      (𝓝 ((e a + (∫ eps, (eps : ℂ) ∂dos) * T a a) / c a - (∫ eps, (eps : ℂ) ∂dos) * T a a)) ∧
    (a ≠ b → Tendsto (fun z => S z a b) (comap Complex.im atTop)
      (𝓝 (-((∫ eps, (eps : ℂ) ∂dos) * T a b)))) := by
  obtain ⟨Δ, D, hD, hΔ⟩ := beb_self_bath h hS
  set m := ∫ eps, (eps : ℂ) ∂dos with hm
  have him : Tendsto Complex.im (comap Complex.im atTop) atTop := tendsto_comap
  have hpos : ∀ᶠ z : ℂ in comap Complex.im atTop, 0 < z.im := him.eventually_gt_atTop 0
  have hinv : Tendsto (fun z : ℂ => z.im⁻¹) (comap Complex.im atTop) (𝓝 0) :=
    tendsto_inv_atTop_zero.comp him
  have hlim : ∀ a b, Tendsto (fun z => Δ z a b) (comap Complex.im atTop) (𝓝 (m * T a b)) := by
    intro a b
    rw [tendsto_iff_norm_sub_tendsto_zero]
    refine squeeze_zero' (Eventually.of_forall fun z => norm_nonneg _)
      (hpos.mono fun z hz => (hΔ z hz).2.2 a b) ?_
    have := hinv.const_mul D
    simpa [div_eq_mul_inv] using this
  have hz0 : Tendsto (fun z : ℂ => z⁻¹) (comap Complex.im atTop) (𝓝 0) := by
    rw [tendsto_zero_iff_norm_tendsto_zero]
    refine squeeze_zero' (Eventually.of_forall fun z => norm_nonneg _)
      (hpos.mono fun z hz => ?_) hinv
    rw [norm_inv]
    exact inv_anti₀ hz ((le_abs_self _).trans (Complex.abs_im_le_norm z))
  have hq : Tendsto (fun z : ℂ => c a / (1 - (e a + Δ z a a) * z⁻¹)) (comap Complex.im atTop)
      (𝓝 (c a)) := by
    have h1 : Tendsto (fun z : ℂ => 1 - (e a + Δ z a a) * z⁻¹) (comap Complex.im atTop) (𝓝 1) := by
      have := (((hlim a a).const_add (e a)).mul hz0).const_sub 1
      simpa using this
    have h2 : Tendsto (fun z : ℂ => c a / (1 - (e a + Δ z a a) * z⁻¹)) (comap Complex.im atTop)
        (𝓝 (c a / 1)) := (tendsto_const_nhds (x := (c a : ℂ))).div h1 one_ne_zero
    rwa [div_one] at h2
  have hform : ∀ z : ℂ, 0 < z.im → z ≠ 0 ∧ z * bebLocGf dos T z (S z) a a
      = c a / (1 - (e a + Δ z a a) * z⁻¹) ∧ 1 - (e a + Δ z a a) * z⁻¹ ≠ 0 := by
    intro z hz
    have hzne : z ≠ 0 := fun h0 => by rw [h0] at hz; simp at hz
    obtain ⟨hne, -, hg, -⟩ := (hΔ z hz).1 a
    have h1 : 1 - (e a + Δ z a a) * z⁻¹ = (z - e a - Δ z a a) / z := by
      field_simp
      ring
    refine ⟨hzne, ?_, ?_⟩
    · rw [hg, h1]
      field_simp
    · rw [h1]
      exact div_ne_zero hne hzne
  refine ⟨hq.congr' (hpos.mono fun z hz => (hform z hz).2.1.symm), ?_, ?_, fun hab => ?_⟩
  · have h1 := hq.mul ((hlim a a).const_add (e a))
    refine h1.congr' (hpos.mono fun z hz => ?_)
    obtain ⟨h2, h3, h4⟩ := hform z hz
    simp only
    rw [h3]
    have h5 : (e a + Δ z a a) = (1 - (1 - (e a + Δ z a a) * z⁻¹)) * z := by
      field_simp
      ring
    set q := 1 - (e a + Δ z a a) * z⁻¹ with hq'
    rw [h5]
    field_simp
  · have h1 := (((hlim a a).const_add (e a)).div_const (c a : ℂ)).sub (hlim a a)
    refine h1.congr' (hpos.mono fun z hz => ?_)
    simp only
    rw [((hΔ z hz).1 a).2.2.2]
    have : (c a : ℂ) ≠ 0 := Complex.ofReal_ne_zero.2 ((h z hz).pos a).ne'
    field_simp
    ring
  · exact (hlim a b).neg.congr' (hpos.mono fun z hz => ((hΔ z hz).2.1 a b hab).symm)

end

section

variable {z : ℂ} {e : Fin n → ℂ} {s : Matrix (Fin n) (Fin n) ℂ}

private lemma inv_neg_matrix (A : Matrix (Fin n) (Fin n) ℂ) : (-A)⁻¹ = -A⁻¹ := by
  by_cases hA : IsUnit A.det
  · refine Matrix.inv_eq_right_inv ?_
    rw [Matrix.neg_mul, Matrix.mul_neg, neg_neg, Matrix.mul_nonsing_inv A hA]
  · have hA' : ¬ IsUnit (-A).det := by
      rw [Matrix.det_neg]
      intro h0
      exact hA ((IsUnit.mul_iff.1 h0).2)
    rw [Matrix.nonsing_inv_apply_not_isUnit _ hA, Matrix.nonsing_inv_apply_not_isUnit _ hA',
      neg_zero]

/-- C74: particle-hole symmetry: for a symmetric density of states, reflecting the frequency and the
on-site energies at the imaginary axis and conjugating the hopping reflects the self-energy. -/
theorem beb_self_particle_hole (hsym : dos.map (fun x => -x) = dos)
    (hs : IsBebSelf dos T z e c s) :
    IsBebSelf dos (T.map star) (-star z) (fun i => -star (e i)) c (-s.map star) := by
  obtain ⟨hp, g, hg, hc⟩ := hs
  refine ⟨fun v => ?_, fun a => -star (g a), fun a b => ?_, fun a => ?_⟩
  · have h1 := hp (star v)
    have h2 : star v ⬝ᵥ (-s.map star) *ᵥ v = -star (star (star v) ⬝ᵥ s *ᵥ star v) := by
      rw [neg_mulVec, dotProduct_neg]
      congr 1
      simp only [dotProduct, mulVec, Pi.star_apply, star_sum, star_mul, star_star, Matrix.map_apply,
        Finset.mul_sum]
      refine Finset.sum_congr rfl fun i _ => Finset.sum_congr rfl fun j _ => ?_
      ring
    rw [h2, Complex.neg_im, Complex.star_def, Complex.conj_im, neg_neg]
    exact h1
  · have h1 : ∀ eps : ℝ, (((-star z) • (1 : Matrix (Fin n) (Fin n) ℂ) - -s.map star
        - (eps : ℂ) • T.map star)⁻¹) a b
        = -star (((z • (1 : Matrix (Fin n) (Fin n) ℂ) - s - ((-eps : ℝ) : ℂ) • T)⁻¹) a b) := by
      intro eps
      have h2 : (-star z) • (1 : Matrix (Fin n) (Fin n) ℂ) - -s.map star - (eps : ℂ) • T.map star
          = -((z • (1 : Matrix (Fin n) (Fin n) ℂ) - s - ((-eps : ℝ) : ℂ) • T).map star) := by
        ext i j
        by_cases hij : i = j
        · subst hij
          simp
          ring
        · simp [hij]
          ring
      have h3 : ((z • (1 : Matrix (Fin n) (Fin n) ℂ) - s - ((-eps : ℝ) : ℂ) • T).map star)
          = ((z • (1 : Matrix (Fin n) (Fin n) ℂ) - s - ((-eps : ℝ) : ℂ) • T)ᴴ)ᵀ := rfl
      rw [h2, inv_neg_matrix, Matrix.neg_apply, h3, ← Matrix.transpose_nonsing_inv,
        ← Matrix.conjTranspose_nonsing_inv]
      rfl
    simp only [h1]
    rw [integral_neg]
    have h4 : ∫ eps : ℝ, star (((z • (1 : Matrix (Fin n) (Fin n) ℂ) - s
        - ((-eps : ℝ) : ℂ) • T)⁻¹) a b) ∂dos
        = star (∫ eps : ℝ, (((z • (1 : Matrix (Fin n) (Fin n) ℂ) - s
          - ((-eps : ℝ) : ℂ) • T)⁻¹) a b) ∂dos) := integral_conj
    have h5 : ∫ eps : ℝ, (((z • (1 : Matrix (Fin n) (Fin n) ℂ) - s
        - ((-eps : ℝ) : ℂ) • T)⁻¹) a b) ∂dos
        = ∫ eps : ℝ, (((z • (1 : Matrix (Fin n) (Fin n) ℂ) - s - (eps : ℂ) • T)⁻¹) a b) ∂dos := by
      conv_rhs => rw [← hsym]
      exact ((MeasurableEquiv.neg ℝ).measurableEmbedding.integral_map (μ := dos)
        fun eps : ℝ => ((z • (1 : Matrix (Fin n) (Fin n) ℂ) - s - (eps : ℂ) • T)⁻¹) a b).symm
    rw [h4, h5, hg]
    split_ifs <;> simp
  · have h1 : 1 / (-star (g a)) + (-s.map star) a a - -star (e a)
        = -star (1 / g a + s a a - e a) := by
      simp only [Matrix.neg_apply, Matrix.map_apply, star_sub, star_add, star_div₀, star_one]
      ring
    rw [h1]
    have h2 := congrArg (fun x => -star x) (hc a)
    simp only at h2 ⊢
    rw [h2, star_mul, star_div₀, star_one, Complex.star_def, Complex.conj_ofReal, div_neg]
    ring

/-- C74: the phases of the hopping amplitudes are a gauge: `T_ij → u_i T_ij u_j^*` transforms the
self-energy the same way, and leaves its diagonal unchanged. -/
theorem beb_self_gauge {u : Fin n → ℂ} (hu : ∀ i, ‖u i‖ = 1) (hs : IsBebSelf dos T z e c s) :
    IsBebSelf dos (Matrix.of fun i j => u i * T i j * star (u j)) z e c
      (Matrix.of fun i j => u i * s i j * star (u j)) := by
  have huu : ∀ i, u i * star (u i) = 1 := by
    intro i
    rw [mul_comm, Complex.star_def, Complex.conj_mul', hu i]
    norm_num
  have hconj : ∀ A : Matrix (Fin n) (Fin n) ℂ, (Matrix.of fun i j => u i * A i j * star (u j))
      = diagonal u * A * diagonal (star u) := by
    intro A
    ext i j
    rw [mul_diagonal, diagonal_mul]
    rfl
  have hUU : diagonal u * diagonal (star u) = (1 : Matrix (Fin n) (Fin n) ℂ) := by
    rw [diagonal_mul_diagonal, ← diagonal_one]
    congr 1
    funext i
    exact huu i
  have hUU' : diagonal (star u) * diagonal u = (1 : Matrix (Fin n) (Fin n) ℂ) := by
    rw [diagonal_mul_diagonal, ← diagonal_one]
    congr 1
    funext i
    rw [mul_comm]
    exact huu i
  obtain ⟨hp, g, hg, hc⟩ := hs
  refine ⟨fun v => ?_, g, fun a b => ?_, fun a => ?_⟩
  · have h1 := hp (fun i => star (u i) * v i)
    have h2 : star v ⬝ᵥ (Matrix.of fun i j => u i * s i j * star (u j)) *ᵥ v
        = star (fun i => star (u i) * v i) ⬝ᵥ s *ᵥ fun i => star (u i) * v i := by
      simp only [dotProduct, mulVec, Pi.star_apply, of_apply, star_mul, star_star, Finset.mul_sum]
      refine Finset.sum_congr rfl fun i _ => Finset.sum_congr rfl fun j _ => ?_
      ring
    rwa [h2]
  · have h1 : ∀ eps : ℝ, ((z • (1 : Matrix (Fin n) (Fin n) ℂ)
        - (Matrix.of fun i j => u i * s i j * star (u j))
        - (eps : ℂ) • (Matrix.of fun i j => u i * T i j * star (u j)))⁻¹) a b
        = u a * ((z • (1 : Matrix (Fin n) (Fin n) ℂ) - s - (eps : ℂ) • T)⁻¹) a b * star (u b) := by
      intro eps
      have h2 : z • (1 : Matrix (Fin n) (Fin n) ℂ)
          - (Matrix.of fun i j => u i * s i j * star (u j))
          - (eps : ℂ) • (Matrix.of fun i j => u i * T i j * star (u j))
          = diagonal u * (z • (1 : Matrix (Fin n) (Fin n) ℂ) - s - (eps : ℂ) • T)
            * diagonal (star u) := by
        rw [hconj, hconj, Matrix.mul_sub, Matrix.mul_sub, Matrix.sub_mul, Matrix.sub_mul,
          Matrix.mul_smul, Matrix.smul_mul, Matrix.mul_one, hUU, Matrix.mul_smul, Matrix.smul_mul]
      rw [h2, Matrix.mul_inv_rev, Matrix.mul_inv_rev, Matrix.inv_eq_right_inv hUU,
        Matrix.inv_eq_right_inv hUU', ← Matrix.mul_assoc, mul_diagonal, diagonal_mul]
      rfl
    simp only [h1]
    rw [integral_mul_const, integral_const_mul, hg]
    split_ifs with hab
    · subst hab
      linear_combination g a * huu a
    · simp
  · have h1 : (Matrix.of fun i j => u i * s i j * star (u j)) a a = s a a := by
      rw [of_apply]
      linear_combination s a a * huu a
    rw [h1]
    exact hc a

end

/-- The hypotheses are met: a binary alloy on the Bethe lattice with component-dependent hopping, one
component with an analytic local self-energy. -/
example : ∃ dos band, BebAlloy dos band (fun z => betheHilbert z 2)
    !![1, Complex.I / 2; -Complex.I / 2, 2] (fun z => ![-1, 1 + 1 / z]) ![1 / 4, 3 / 4] ∧
    (∀ i, DifferentiableOn ℂ (fun z : ℂ => (![-1, 1 + 1 / z] : Fin 2 → ℂ) i) {z | 0 < z.im}) := by
  refine ⟨_, _, fun z hz => {
    lattice := bethe_isHilbert two_pos
    hermitian := by
      ext i j
      fin_cases i <;> fin_cases j <;> simp [Matrix.conjTranspose_apply]
    upper := hz
    pos := fun i => by fin_cases i <;> norm_num
    norm := by norm_num [Fin.sum_univ_two]
    retarded := fun i => by
      fin_cases i
      · simp
      · simp only [Fin.mk_one, Matrix.cons_val_one, Matrix.cons_val_fin_one, Complex.add_im,
          Complex.one_im, zero_add, one_div, Complex.inv_im]
        exact div_nonpos_of_nonpos_of_nonneg (by linarith) (Complex.normSq_nonneg z) }, ?_⟩
  intro i
  fin_cases i
  · exact differentiableOn_const _
  · refine (differentiableOn_const _).add ((differentiableOn_const _).div differentiableOn_id ?_)
    intro z hz h0
    have h1 : z = 0 := h0
    rw [h1] at hz
    simp at hz

end Gftool.Props
