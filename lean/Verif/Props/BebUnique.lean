import Verif.Lemmas.BebFixpoint
import Verif.Props.Beb
import Verif.Props.CpaUnique

/-!
# C73: the BEB self-energy exists and is unique; it generalises CPA
-/

namespace Gftool.Props

open Gftool Model Lemmas Matrix MeasureTheory Spec

variable {n : ℕ} {σ : Type} [Fintype σ] [DecidableEq σ]

/-- Specification: the physical matrix `s` solves the self-consistency of Blackman, Esterling and
Berk for the lattice with density of states `dos` and hopping matrix `T`: the lattice average of the
Green's function is diagonal in the components, and its elements are the concentrations times the
Green's functions of the components. -/
structure IsBebSelf (dos : Measure ℝ) (T : Matrix (Fin n) (Fin n) ℂ) (z : ℂ) (e : Fin n → ℂ)
    (c : Fin n → ℝ) (s : Matrix (Fin n) (Fin n) ℂ) : Prop where
  physical : PhysicalSelf s
  average : ∃ g : Fin n → ℂ, (∀ a b,
    ∫ eps : ℝ, ((z • (1 : Matrix (Fin n) (Fin n) ℂ) - s - (eps : ℂ) • T)⁻¹) a b ∂dos
      = if a = b then g a else 0) ∧ ∀ a, g a = (c a : ℂ) * (1 / (1 / g a + s a a - e a))

/-- A disordered lattice with component-dependent hopping, at a frequency of the upper
half-plane. -/
structure BebProblem (dos : Measure ℝ) (band : Set ℝ) (hilbert : ℂ → ℂ)
    (T : Matrix (Fin n) (Fin n) ℂ) (z : ℂ) (e : Fin n → ℂ) (c : Fin n → ℝ) : Prop where
  lattice : IsHilbert dos band hilbert
  hermitian : T.IsHermitian
  upper : 0 < z.im
  pos : ∀ i, 0 < c i
  norm : ∑ i, c i = 1
  retarded : ∀ i, (e i).im ≤ 0

section

variable {dos : Measure ℝ} {band : Set ℝ} {hilbert : ℂ → ℂ} {T : Matrix (Fin n) (Fin n) ℂ} {z : ℂ}
  {e : Fin n → ℂ} {c : Fin n → ℝ}

lemma locGf_zMSelf (s : Matrix (Fin n) (Fin n) ℂ) (a b : Fin n) :
    locGf dos T (zMSelf z s) a b
      = ∫ eps : ℝ, ((z • (1 : Matrix (Fin n) (Fin n) ℂ) - s - (eps : ℂ) • T)⁻¹) a b ∂dos := rfl

private lemma one_form (v : Fin n → ℂ) (z : ℂ) :
    (star v ⬝ᵥ (z • (1 : Matrix (Fin n) (Fin n) ℂ)) *ᵥ v).im = z.im * nsq v := by
  rw [Matrix.smul_mulVec, one_mulVec, dotProduct_smul]
  have h2 : star v ⬝ᵥ v = ((nsq v : ℝ) : ℂ) := by
    unfold nsq
    simp only [dotProduct, Pi.star_apply, Complex.ofReal_sum]
    refine Finset.sum_congr rfl fun i _ => ?_
    rw [Complex.star_def, Complex.conj_mul']
    push_cast
    rfl
  rw [h2, smul_eq_mul, Complex.im_mul_ofReal]

/-- A matrix is physical iff `z - s` is damped at least by `Im z`. -/
lemma physicalSelf_iff (s : Matrix (Fin n) (Fin n) ℂ) (z : ℂ) :
    PhysicalSelf s ↔ ∀ u, z.im * nsq u ≤ qf (zMSelf z s) u := by
  have h : ∀ u, qf (zMSelf z s) u = z.im * nsq u - (star u ⬝ᵥ s *ᵥ u).im := by
    intro u
    unfold zMSelf
    rw [qf_sub]
    congr 1
    exact one_form u z
  unfold PhysicalSelf
  constructor
  · intro hs u; rw [h]; linarith [hs u]
  · intro hs u; have := hs u; rw [h] at this; linarith

/-- The self-consistency is the fixed-point equation. -/
lemma isBebSelf_iff (h : BebProblem dos band hilbert T z e c)
    (s : Matrix (Fin n) (Fin n) ℂ) : IsBebSelf dos T z e c s ↔
      PhysicalSelf s ∧ medium (fun i => z - e i) c (hyb dos T (zMSelf z s)) = zMSelf z s := by
  have hcne : ∀ i, (c i : ℂ) ≠ 0 := fun i => Complex.ofReal_ne_zero.2 (h.pos i).ne'
  have hdiag : ∀ i, zMSelf z s i i = z - s i i := fun i => by simp [zMSelf]
  constructor
  · rintro ⟨hs, g, hg, hcm⟩
    refine ⟨hs, ?_⟩
    have hM := retarded_zMSelf h.upper hs
    have hdet := locGf_det h.lattice hM h.hermitian
    have hG : locGf dos T (zMSelf z s) = diagonal g := by
      ext a b
      rw [locGf_zMSelf, hg, diagonal_apply]
    have hgne : ∀ i, g i ≠ 0 := by
      intro i hi
      rw [hG, det_diagonal] at hdet
      exact hdet (Finset.prod_eq_zero (Finset.mem_univ i) hi)
    have hinv : (locGf dos T (zMSelf z s))⁻¹ = diagonal fun i => 1 / g i := by
      rw [hG]
      refine Matrix.inv_eq_left_inv ?_
      rw [diagonal_mul_diagonal, ← diagonal_one]
      congr 1
      funext i
      exact one_div_mul_cancel (hgne i)
    have hgi : ∀ i, 1 / g i + s i i - e i = c i / g i := by
      intro i
      have h2 := hcm i
      have h3 : 1 / g i + s i i - e i ≠ 0 := by
        intro h0
        rw [h0, div_zero, mul_zero] at h2
        exact hgne i h2
      rw [eq_div_iff (hgne i)]
      rw [mul_one_div, eq_div_iff h3] at h2
      linear_combination h2
    ext i j
    unfold medium hyb
    rw [hinv]
    by_cases hij : i = j
    · subst hij
      simp only [Matrix.add_apply, Matrix.sub_apply, diagonal_apply_eq]
      have h3 : z - e i - (zMSelf z s i i - 1 / g i) = c i / g i := by
        rw [hdiag, ← hgi i]; ring
      rw [h3]
      have := hcne i
      have := hgne i
      field_simp
      ring
    · simp only [Matrix.add_apply, Matrix.sub_apply, diagonal_apply_ne _ hij, sub_zero, add_zero]
  · rintro ⟨hs, hfix⟩
    have hM := retarded_zMSelf h.upper hs
    have hdet := locGf_det h.lattice hM h.hermitian
    set y : Fin n → ℂ := fun i => (z - e i - hyb dos T (zMSelf z s) i i) / (c i : ℂ) with hy
    have hinv : (locGf dos T (zMSelf z s))⁻¹ = diagonal y := by
      have h1 : (locGf dos T (zMSelf z s))⁻¹ = zMSelf z s - hyb dos T (zMSelf z s) := by
        unfold hyb; abel
      rw [h1, sub_eq_iff_eq_add']
      exact hfix.symm
    have hyne : ∀ i, y i ≠ 0 := by
      intro i hi
      have h2 : (locGf dos T (zMSelf z s))⁻¹.det ≠ 0 := by
        rw [Matrix.det_nonsing_inv, Ring.inverse_eq_inv']
        exact inv_ne_zero hdet
      rw [hinv, det_diagonal] at h2
      exact h2 (Finset.prod_eq_zero (Finset.mem_univ i) hi)
    have hG : locGf dos T (zMSelf z s) = diagonal fun i => 1 / y i := by
      have h2 : diagonal y * locGf dos T (zMSelf z s) = 1 := by
        rw [← hinv]; exact locGf_inv_mul h.lattice hM h.hermitian
      have h3 : (diagonal fun i => 1 / y i) * diagonal y = 1 := by
        rw [diagonal_mul_diagonal, ← diagonal_one]
        congr 1
        funext i
        exact one_div_mul_cancel (hyne i)
      calc locGf dos T (zMSelf z s)
          = ((diagonal fun i => 1 / y i) * diagonal y) * locGf dos T (zMSelf z s) := by
            rw [h3, Matrix.one_mul]
        _ = _ := by rw [Matrix.mul_assoc, h2, Matrix.mul_one]
    refine ⟨hs, fun i => 1 / y i, fun a b => ?_, fun a => ?_⟩
    · rw [← locGf_zMSelf, hG, diagonal_apply]
    · have h4 : hyb dos T (zMSelf z s) a a = z - s a a - y a := by
        unfold hyb; rw [hinv, Matrix.sub_apply, diagonal_apply_eq, hdiag]
      have h5 : y a * c a = y a + s a a - e a := by
        have : y a * c a = z - e a - hyb dos T (zMSelf z s) a a := div_mul_cancel₀ _ (hcne a)
        rw [this, h4]; ring
      rw [one_div_one_div, ← h5]
      have := hyne a
      have := hcne a
      field_simp

lemma beb_damp (h : BebProblem dos band hilbert T z e c) (i : Fin n) :
    z.im ≤ (z - e i).im := by
  rw [Complex.sub_im]; linarith [h.retarded i]

private lemma zMSelf_inj {s s' : Matrix (Fin n) (Fin n) ℂ} (h : zMSelf z s = zMSelf z s') :
    s = s' := by
  unfold zMSelf at h
  exact sub_right_injective h

/-- C73: at every frequency of the upper half-plane the self-consistency of Blackman, Esterling
and Berk has exactly one physical solution. -/
theorem beb_self_exists_unique (h : BebProblem dos band hilbert T z e c) :
    ∃ s, IsBebSelf dos T z e c s ∧ ∀ s', IsBebSelf dos T z e c s' → s' = s := by
  obtain ⟨M, hM, hfix⟩ := fix_exists (dos := dos) h.pos h.norm h.lattice h.hermitian h.upper
    (beb_damp h)
  have hs : zMSelf z (z • (1 : Matrix (Fin n) (Fin n) ℂ) - M) = M := by unfold zMSelf; abel
  have h1 : IsBebSelf dos T z e c (z • (1 : Matrix (Fin n) (Fin n) ℂ) - M) := by
    rw [isBebSelf_iff h, physicalSelf_iff _ z, hs]
    exact ⟨hM, hfix⟩
  refine ⟨_, h1, fun s' hs' => ?_⟩
  obtain ⟨hp', hf'⟩ := (isBebSelf_iff h s').1 hs'
  have h2 := fix_unique (dos := dos) h.pos h.norm h.lattice h.hermitian h.upper (beb_damp h)
    (retarded_zMSelf h.upper hp') (retarded_of_ge h.upper hM) hf' hfix
  exact zMSelf_inj (h2.trans hs.symm)

/-- The value of the root equation is the displacement of the fixed-point equation. -/
private lemma root_eq_displacement {ext : EigExt} {d : SpecDec n σ} (hd : CompactDec d)
    (h : BebProblem dos band hilbert (d.us * d.suh) z e c) {s : Matrix (Fin n) (Fin n) ℂ}
    (hs : PhysicalSelf s) :
    (gfLocDec ext d z s hilbert = .ok (locGf dos (d.us * d.suh) (zMSelf z s)) ∧
      bebSelfRootEq ext d s z e c hilbert = .ok (zMSelf z s
        - medium (fun i => z - e i) c (hyb dos (d.us * d.suh) (zMSelf z s)))) ∨
    bebSelfRootEq ext d s z e c hilbert = .error .linAlgError := by
  obtain ⟨hM, hband, hguard⟩ := retarded_guards (ext := ext) hd h.upper hs
  rcases decompose_mat_correct ext (d.suh * (zMSelf z s)⁻¹ * d.us) with ⟨dec', h1, -⟩ | ⟨h1, -⟩
  · left
    obtain ⟨g, ginv, hg, hginv, hmul⟩ := gf_loc_inv_correct hd z s hilbert hM h1 (hguard dec' h1).1
      fun i => hilbert_ne_zero h.lattice ((hguard dec' h1).2 i)
    obtain ⟨g', hg', hlat⟩ := gf_loc_dec_lattice hd z s h.lattice hM
      (fun eps _ => (retarded_zMSelf h.upper hs).det_ne_zero h.hermitian eps) h1 (hguard dec' h1).1
    have hgg : g = g' := Except.ok.inj (hg.symm.trans hg')
    have hloc : g = locGf dos (d.us * d.suh) (zMSelf z s) := by
      rw [hgg]; ext a b; rw [hlat]; rfl
    have hinv : ginv = (locGf dos (d.us * d.suh) (zMSelf z s))⁻¹ := by
      rw [← hloc]; exact (Matrix.inv_eq_right_inv hmul).symm
    refine ⟨by rw [hg, hloc], ?_⟩
    simp only [bebSelfRootEq, hginv]
    congr 1
    unfold medium
    have h2 : hyb dos (d.us * d.suh) (zMSelf z s) = zMSelf z s - ginv := by rw [hinv]; rfl
    rw [h2]
    have h3 : (fun i => (ginv i i + s i i - e i) / (c i : ℂ))
        = fun i => (z - e i - (zMSelf z s - ginv) i i) / (c i : ℂ) := by
      funext i
      congr 1
      simp [zMSelf]
      ring
    rw [h3]
    abel
  · right
    simp only [bebSelfRootEq, gfLocInv, npInv, if_neg hM, h1]

/-- C73: for physical self-energies the roots of the code's `self_root_eq` are the solutions of the
self-consistency, unless an eigendecomposition fails. -/
theorem beb_root_is_self {ext : EigExt} {d : SpecDec n σ} (hd : CompactDec d)
    (h : BebProblem dos band hilbert (d.us * d.suh) z e c) {s : Matrix (Fin n) (Fin n) ℂ}
    (hs : PhysicalSelf s) :
    (bebSelfRootEq ext d s z e c hilbert = .ok 0 → IsBebSelf dos (d.us * d.suh) z e c s) ∧
    (IsBebSelf dos (d.us * d.suh) z e c s → bebSelfRootEq ext d s z e c hilbert = .ok 0 ∨
      bebSelfRootEq ext d s z e c hilbert = .error .linAlgError) := by
  rcases root_eq_displacement (ext := ext) hd h hs with ⟨-, h1⟩ | h1
  · rw [h1, isBebSelf_iff h]
    constructor
    · intro h0
      exact ⟨hs, (sub_eq_zero.1 (Except.ok.inj h0)).symm⟩
    · rintro ⟨-, h0⟩
      left
      rw [h0, sub_self]
  · rw [h1]
    exact ⟨fun h0 => absurd h0 (by simp), fun _ => Or.inr rfl⟩

/-- C73: two physical roots of the code's `self_root_eq` are equal. -/
theorem beb_root_unique {ext : EigExt} {d : SpecDec n σ} (hd : CompactDec d)
    (h : BebProblem dos band hilbert (d.us * d.suh) z e c) {s s' : Matrix (Fin n) (Fin n) ℂ}
    (hs : PhysicalSelf s) (hs' : PhysicalSelf s')
    (h0 : bebSelfRootEq ext d s z e c hilbert = .ok 0)
    (h0' : bebSelfRootEq ext d s' z e c hilbert = .ok 0) : s = s' := by
  obtain ⟨t, -, ht⟩ := beb_self_exists_unique h
  rw [ht s ((beb_root_is_self hd h hs).1 h0), ht s' ((beb_root_is_self hd h hs').1 h0')]

/-- C73: the solution is stable: there are constants of the problem such that every physical
self-energy with a residual below `tol` is, up to `K tol`, the solution. -/
theorem beb_root_stable {d : SpecDec n σ} (hd : CompactDec d)
    (h : BebProblem dos band hilbert (d.us * d.suh) z e c) {s : Matrix (Fin n) (Fin n) ℂ}
    (hs : IsBebSelf dos (d.us * d.suh) z e c s) :
    ∃ δ K : ℝ, 0 < δ ∧ 0 ≤ K ∧ ∀ (ext : EigExt) (s' : Matrix (Fin n) (Fin n) ℂ), PhysicalSelf s' →
      ∀ r, bebSelfRootEq ext d s' z e c hilbert = .ok r → ∀ tol ≤ δ, (∀ i j, ‖r i j‖ ≤ tol) →
      ∀ i j, ‖s' i j - s i j‖ ≤ K * tol := by
  obtain ⟨δ, K, hδ, hK, hst⟩ := fix_stable (dos := dos) h.pos h.norm h.lattice h.hermitian h.upper
    (beb_damp h)
  refine ⟨δ, K, hδ, hK, fun ext s' hs' r hr tol htol hle i j => ?_⟩
  obtain ⟨hp, hf⟩ := (isBebSelf_iff h s).1 hs
  rcases root_eq_displacement (ext := ext) hd h hs' with ⟨-, h1⟩ | h1
  · have h2 := Except.ok.inj (hr.symm.trans h1)
    subst h2
    have h3 := hst _ _ ((physicalSelf_iff s' z).1 hs') (retarded_zMSelf h.upper hp) hf tol htol hle i j
    have h4 : (zMSelf z s' - zMSelf z s) i j = -(s' i j - s i j) := by
      simp [zMSelf]
    rwa [h4, norm_neg] at h3
  · rw [h1] at hr
    exact absurd hr (by simp)

/-- C73: `solve_root` with a solver of tolerance `tol`: at every frequency where the returned
self-energy (with the remaining positive imaginary parts removed) is physical and the tolerance is
small enough, it is the solution up to `K tol`. -/
theorem beb_solve_root_accurate {κ : Type} (ext : EigExt)
    (solver : ExceptSolver (κ → Matrix (Fin n) (Fin n) ℂ)) {tol : ℝ} (htol : 0 ≤ tol)
    (hsol : HonestExceptSolver solver tol) {d : SpecDec n σ} (hd : CompactDec d) {z : κ → ℂ}
    {e : κ → Fin n → ℂ} {c : κ → Fin n → ℝ}
    (h : ∀ k, BebProblem dos band hilbert (d.us * d.suh) (z k) (e k) (c k))
    (x0 : Option (κ → Matrix (Fin n) (Fin n) ℂ)) (restricted : Bool)
    {s : κ → Matrix (Fin n) (Fin n) ℂ}
    (hok : bebSolveRoot ext solver d z e c hilbert x0 restricted = .ok s) (k : κ)
    (hphys : PhysicalSelf ((if restricted then bebClip s else s) k)) :
    ∃ t δ K, IsBebSelf dos (d.us * d.suh) (z k) (e k) (c k) t ∧ 0 < δ ∧ 0 ≤ K ∧
      (tol ≤ δ → ∀ i j, ‖(if restricted then bebClip s else s) k i j - t i j‖ ≤ K * tol) ∧
      (tol = 0 → (if restricted then bebClip s else s) k = t) := by
  obtain ⟨t, ht, -⟩ := beb_self_exists_unique (h k)
  obtain ⟨δ, K, hδ, hK, hst⟩ := beb_root_stable hd (h k) ht
  obtain ⟨-, h2⟩ := beb_solve_root_correct ext solver htol hsol d z e c hilbert x0 restricted hok
  obtain ⟨r, hr, hrle⟩ := h2 k
  have h3 := fun hle => hst ext _ hphys r hr tol hle hrle
  refine ⟨t, δ, K, ht, hδ, hK, h3, fun h0 => ?_⟩
  ext i j
  have h4 := h3 (h0.trans_le hδ.le) i j
  rw [h0, mul_zero] at h4
  exact sub_eq_zero.1 (norm_le_zero_iff.1 h4)

/-! ### Consequences of uniqueness -/

lemma beb_self_eq (h : BebProblem dos band hilbert T z e c) {s s' : Matrix (Fin n) (Fin n) ℂ}
    (hs : IsBebSelf dos T z e c s) (hs' : IsBebSelf dos T z e c s') : s = s' := by
  obtain ⟨t, -, ht⟩ := beb_self_exists_unique h
  rw [ht s hs, ht s' hs']

/-- C73: the Green's functions of the components are causal. -/
theorem beb_self_causal (h : BebProblem dos band hilbert T z e c) {s : Matrix (Fin n) (Fin n) ℂ}
    (hs : IsBebSelf dos T z e c s) (a : Fin n) :
    (∫ eps : ℝ, ((z • (1 : Matrix (Fin n) (Fin n) ℂ) - s - (eps : ℂ) • T)⁻¹) a a ∂dos).im < 0 := by
  have h1 := locGf_neg h.lattice (retarded_zMSelf h.upper hs.physical) h.hermitian
    (v := Pi.single a 1) (by simp)
  unfold qf at h1
  rwa [sf_single] at h1

/-- C73: for a real hopping matrix the self-energy is a symmetric matrix. -/
theorem beb_self_symmetric (h : BebProblem dos band hilbert T z e c) (hT : Tᵀ = T)
    {s : Matrix (Fin n) (Fin n) ℂ} (hs : IsBebSelf dos T z e c s) : sᵀ = s := by
  refine (beb_self_eq h hs ?_).symm
  obtain ⟨hp, g, hg, hc⟩ := hs
  refine ⟨fun v => ?_, g, fun a b => ?_, fun a => ?_⟩
  · have h1 := hp (star v)
    rw [star_star] at h1
    rwa [mulVec_transpose, dotProduct_comm, ← dotProduct_mulVec]
  · have h1 : ∀ eps : ℝ, ((z • (1 : Matrix (Fin n) (Fin n) ℂ) - sᵀ - (eps : ℂ) • T)⁻¹) a b
        = ((z • (1 : Matrix (Fin n) (Fin n) ℂ) - s - (eps : ℂ) • T)⁻¹) b a := by
      intro eps
      have : z • (1 : Matrix (Fin n) (Fin n) ℂ) - sᵀ - (eps : ℂ) • T
          = (z • (1 : Matrix (Fin n) (Fin n) ℂ) - s - (eps : ℂ) • T)ᵀ := by
        rw [transpose_sub, transpose_sub, transpose_smul, transpose_smul, transpose_one, hT]
      rw [this, ← Matrix.transpose_nonsing_inv, transpose_apply]
    simp only [h1]
    rw [hg]
    by_cases hab : a = b
    · rw [if_pos hab, if_pos hab.symm, hab]
    · rw [if_neg hab, if_neg (Ne.symm hab)]
  · rw [transpose_apply]; exact hc a

/-- C73: the order of the components does not matter. -/
theorem beb_self_perm {s : Matrix (Fin n) (Fin n) ℂ} (hs : IsBebSelf dos T z e c s)
    (π : Equiv.Perm (Fin n)) :
    IsBebSelf dos (T.submatrix π π) z (e ∘ π) (c ∘ π) (s.submatrix π π) := by
  obtain ⟨hp, g, hg, hc⟩ := hs
  refine ⟨fun v => ?_, g ∘ π, fun a b => ?_, fun a => ?_⟩
  · have h1 := hp (v ∘ π.symm)
    have h2 : star v ⬝ᵥ s.submatrix π π *ᵥ v = star (v ∘ π.symm) ⬝ᵥ s *ᵥ (v ∘ π.symm) := by
      have h3 : s.submatrix π π *ᵥ v = (s *ᵥ (v ∘ π.symm)) ∘ π :=
        Matrix.submatrix_mulVec_equiv s v π π
      rw [h3]
      simp only [dotProduct, Pi.star_apply, Function.comp]
      exact Fintype.sum_equiv π _ _ fun i => by simp
    rwa [h2]
  · have h1 : ∀ eps : ℝ, ((z • (1 : Matrix (Fin n) (Fin n) ℂ) - s.submatrix π π
        - (eps : ℂ) • T.submatrix π π)⁻¹) a b
        = ((z • (1 : Matrix (Fin n) (Fin n) ℂ) - s - (eps : ℂ) • T)⁻¹) (π a) (π b) := by
      intro eps
      have : z • (1 : Matrix (Fin n) (Fin n) ℂ) - s.submatrix π π - (eps : ℂ) • T.submatrix π π
          = (z • (1 : Matrix (Fin n) (Fin n) ℂ) - s - (eps : ℂ) • T).submatrix π π := by
        ext i j
        simp [Matrix.one_apply]
      rw [this, Matrix.inv_submatrix_equiv]
      rfl
    simp only [h1]
    rw [hg]
    simp only [EmbeddingLike.apply_eq_iff_eq, Function.comp]
  · simp only [Function.comp, submatrix_apply]; exact hc (π a)

/-- C73: a common shift of frequency and on-site energies shifts the self-energy. -/
theorem beb_self_shift {s : Matrix (Fin n) (Fin n) ℂ} (hs : IsBebSelf dos T z e c s) (x : ℝ) :
    IsBebSelf dos T (z + x) (fun i => e i + x) c
      (s + (x : ℂ) • (1 : Matrix (Fin n) (Fin n) ℂ)) := by
  obtain ⟨hp, g, hg, hc⟩ := hs
  refine ⟨fun v => ?_, g, fun a b => ?_, fun a => ?_⟩
  · rw [add_mulVec, dotProduct_add, Complex.add_im, one_form, Complex.ofReal_im, zero_mul, add_zero]
    exact hp v
  · have h1 : (z + (x : ℂ)) • (1 : Matrix (Fin n) (Fin n) ℂ)
        - (s + (x : ℂ) • (1 : Matrix (Fin n) (Fin n) ℂ)) = z • (1 : Matrix (Fin n) (Fin n) ℂ) - s := by
      rw [add_smul]; abel
    simp only [h1]
    exact hg a b
  · rw [Matrix.add_apply, Matrix.smul_apply, one_apply_eq, smul_eq_mul, mul_one]
    have : 1 / g a + (s a a + (x : ℂ)) - (e a + x) = 1 / g a + s a a - e a := by ring
    rw [this]
    exact hc a

/-- C73: without disorder (a single component) the self-energy is the on-site energy. -/
theorem beb_self_pure {T : Matrix (Fin 1) (Fin 1) ℂ} {e : Fin 1 → ℂ} {c : Fin 1 → ℝ}
    (h : BebProblem dos band hilbert T z e c) {s : Matrix (Fin 1) (Fin 1) ℂ}
    (hs : IsBebSelf dos T z e c s) : s = diagonal e := by
  refine beb_self_eq h hs ⟨fun v => ?_, fun a => ∫ eps : ℝ,
    ((z • (1 : Matrix (Fin 1) (Fin 1) ℂ) - diagonal e - (eps : ℂ) • T)⁻¹) a a ∂dos, ?_, ?_⟩
  · have h1 : (star v ⬝ᵥ diagonal e *ᵥ v) = ((‖v 0‖ ^ 2 : ℝ) : ℂ) * e 0 := by
      simp only [dotProduct, Fin.sum_univ_one, mulVec_diagonal, Pi.star_apply]
      have : star (v 0) * v 0 = ((‖v 0‖ ^ 2 : ℝ) : ℂ) := by
        rw [Complex.star_def, Complex.conj_mul']; push_cast; rfl
      rw [← this]; ring
    rw [h1, Complex.im_ofReal_mul]
    exact mul_nonpos_of_nonneg_of_nonpos (by positivity) (h.retarded 0)
  · intro a b
    rw [if_pos (Subsingleton.elim a b), Subsingleton.elim b a]
  · intro a
    have hc : (c a : ℂ) = 1 := by
      have := h.norm
      rw [Fin.sum_univ_one] at this
      rw [Subsingleton.elim a 0, this, Complex.ofReal_one]
    rw [hc, diagonal_apply_eq]
    simp

/-- C73: if all hopping amplitudes agree up to phases, BEB is CPA: with the CPA self-energy `S`, the
diagonal of the local Green's function contains the component Green's functions of CPA times the
concentrations, and the self-energy matrix is known explicitly. -/
theorem beb_self_cpa (h : BebProblem dos band hilbert T z e c) {t : Fin n → ℂ}
    (ht : ∀ i, ‖t i‖ = 1) (hT : ∀ i j, T i j = t i * star (t j)) {S : ℂ} (hS : S.im ≤ 0)
    (hroot : selfRootEq S z e c hilbert = 0) {s : Matrix (Fin n) (Fin n) ℂ}
    (hs : IsBebSelf dos T z e c s) :
    (∀ a b, ∫ eps : ℝ, ((z • (1 : Matrix (Fin n) (Fin n) ℂ) - s - (eps : ℂ) • T)⁻¹) a b ∂dos
      = if a = b then (c a : ℂ) * gfCmptZ z S e hilbert a else 0) ∧
    ∀ a b, s a b = (if a = b then z - (1 / hilbert (z - S) + S - e a) / c a else 0)
      + (1 / hilbert (z - S) - (z - S)) * T a b := by
  have := h.lattice.prob
  have hcne : ∀ i, (c i : ℂ) ≠ 0 := fun i => Complex.ofReal_ne_zero.2 (h.pos i).ne'
  set ξ := z - S with hξ
  set H := hilbert ξ with hH
  set b := 1 / H - ξ with hb
  have hξim : 0 < ξ.im := by rw [hξ, Complex.sub_im]; linarith [h.upper]
  have hξne : ∀ eps : ℝ, ξ - eps ≠ 0 := by
    intro eps h0
    have := congrArg Complex.im h0
    simp at this
    linarith
  have hHint : H = ∫ eps : ℝ, 1 / (ξ - eps) ∂dos :=
    h.lattice.eq _ fun eps _ h0 => hξne eps (sub_eq_zero.2 h0)
  have hprob : DisorderProblem z e c hilbert (∑ i, ‖e i‖) :=
    { upper := h.upper
      lattice := h.lattice.isLatticeHilbert
      nonneg := fun i => (h.pos i).le
      norm := h.norm
      retarded := h.retarded
      bound := fun i => Finset.single_le_sum (f := fun i => ‖e i‖) (fun i _ => norm_nonneg _)
        (Finset.mem_univ i) }
  obtain ⟨hHim, hden, -, -, -⟩ := cpa_well_defined hprob (hS.trans_lt h.upper)
  have hHne : H ≠ 0 := fun h0 => by
    have h1 : (hilbert (z - S)).im < 0 := hHim
    rw [← hξ, ← hH, h0] at h1
    simp at h1
  have havg : avgGf z S e c hilbert = H := by
    obtain ⟨S', ⟨hS'1, -, hS'2, hS'3⟩, huniq⟩ := cpa_exists_unique hprob
    have : S = S' := huniq S (hS.trans_lt h.upper) hroot
    subst this
    exact hS'3
  have hbim : 0 ≤ b.im := by
    have h1 := stjRest_im_nonneg (μ := dos) (e := fun x : ℝ => (x : ℂ)) (by fun_prop)
      (fun x => by simp) hξim
    unfold stjRest stj at h1
    rwa [← hHint] at h1
  -- the medium
  set d : Fin n → ℂ := fun i => (z - e i + b) / c i with hd
  have hdim : ∀ i, 0 < (z - e i + b).im := by
    intro i
    rw [Complex.add_im, Complex.sub_im]
    linarith [h.retarded i, h.upper]
  have hdne : ∀ i, d i ≠ 0 := fun i => div_ne_zero (fun h0 => by
    have := hdim i; rw [h0] at this; simp at this) (hcne i)
  have hzb : ∀ i, z - e i + b = 1 / H + S - e i := fun i => by rw [hb, hξ]; ring
  have hcmpt : ∀ i, 1 / d i = c i * gfCmptZ z S e hilbert i := by
    intro i
    have h1 : 1 - (e i - S) * H ≠ 0 := hden i
    have h2 : gfCmptZ z S e hilbert i = H / (1 - (e i - S) * H) := rfl
    have h3 : z - e i + b = (1 - (e i - S) * H) / H := by rw [hzb]; field_simp; ring
    rw [h2, hd]
    simp only
    rw [h3]
    have := hcne i
    field_simp
  have hsum : ∑ i, 1 / d i = H := by
    rw [← havg]
    exact Finset.sum_congr rfl fun i _ => hcmpt i
  have htt : ∀ i, star (t i) * t i = 1 := by
    intro i
    rw [Complex.star_def, Complex.conj_mul', ht i]
    norm_num
  set M : Matrix (Fin n) (Fin n) ℂ := diagonal d - b • T with hM
  have hMs : zMSelf z (z • (1 : Matrix (Fin n) (Fin n) ℂ) - M) = M := by unfold zMSelf; abel
  -- the resolvent
  set k : ℝ → ℂ := fun eps => 1 / H ^ 2 * (1 / (ξ - eps)) - 1 / H with hk
  have hres : ∀ eps : ℝ, (M - (eps : ℂ) • T)⁻¹
      = Matrix.of fun i j => (if i = j then 1 / d i else 0)
        + k eps * ((t i / d i) * (star (t j) / d j)) := by
    intro eps
    refine Matrix.inv_eq_right_inv ?_
    have h1 : M - (eps : ℂ) • T = diagonal d - (b + eps) • T := by rw [hM, add_smul]; abel
    rw [h1, Matrix.sub_mul]
    ext i j
    rw [Matrix.sub_apply, Matrix.diagonal_mul, Matrix.smul_mul, Matrix.smul_apply, Matrix.mul_apply]
    simp only [of_apply]
    have h2 : ∑ l, T i l * ((if l = j then 1 / d l else 0)
        + k eps * ((t l / d l) * (star (t j) / d j)))
        = t i * (star (t j) / d j) * (1 + k eps * H) := by
      have h3 : ∀ l, T i l * ((if l = j then 1 / d l else 0)
          + k eps * ((t l / d l) * (star (t j) / d j)))
          = (if l = j then t i * (star (t l) / d l) else 0)
            + t i * (star (t j) / d j) * k eps * (1 / d l) := by
        intro l
        rw [hT]
        have h4 : t i * star (t l) * (k eps * ((t l / d l) * (star (t j) / d j)))
            = (star (t l) * t l) * (t i * (star (t j) / d j) * k eps * (1 / d l)) := by ring
        rw [mul_add, h4, htt, one_mul]
        congr 1
        split_ifs
        · ring
        · ring
      simp only [h3]
      rw [Finset.sum_add_distrib, Finset.sum_ite_eq' Finset.univ j, if_pos (Finset.mem_univ j),
        ← Finset.mul_sum, hsum]
      ring
    rw [h2, smul_eq_mul]
    have hx := hξne eps
    have hkk : k eps - (b + eps) * (1 + k eps * H) = 0 := by
      rw [hk, hb]
      field_simp
      ring
    have hdi := hdne i
    have h5 : d i * ((if i = j then 1 / d i else 0) + k eps * ((t i / d i) * (star (t j) / d j)))
        = (if i = j then 1 else 0) + k eps * (t i * (star (t j) / d j)) := by
      rw [mul_add]
      congr 1
      · split_ifs
        · exact mul_one_div_cancel hdi
        · exact mul_zero _
      · field_simp
    rw [h5, Matrix.one_apply]
    linear_combination (t i * (star (t j) / d j)) * hkk
  have hkint : ∫ eps : ℝ, k eps ∂dos = 0 := by
    have hi : Integrable (fun eps : ℝ => 1 / (ξ - (eps : ℂ))) dos :=
      band_integrable h.lattice (by
        refine Continuous.div continuous_const (by fun_prop) hξne)
    rw [hk, integral_sub (hi.const_mul _) (integrable_const _), integral_const_mul, ← hHint]
    simp only [integral_const, probReal_univ, one_smul]
    field_simp
    ring
  have hloc : locGf dos T M = diagonal fun i => 1 / d i := by
    ext i j
    change ∫ eps : ℝ, ((M - (eps : ℂ) • T)⁻¹) i j ∂dos = _
    simp only [hres, of_apply]
    have hki : Integrable k dos := by
      refine band_integrable h.lattice ?_
      refine Continuous.sub (continuous_const.mul (Continuous.div continuous_const (by fun_prop)
        hξne)) continuous_const
    rw [integral_add (integrable_const _) (hki.mul_const _), integral_mul_const, hkint]
    simp only [integral_const, probReal_univ, one_smul, zero_mul, add_zero, diagonal_apply]
  have hinv : (locGf dos T M)⁻¹ = diagonal d := by
    rw [hloc]
    refine Matrix.inv_eq_left_inv ?_
    rw [diagonal_mul_diagonal, ← diagonal_one]
    congr 1
    funext i
    exact mul_one_div_cancel (hdne i)
  have hhyb : hyb dos T M = -(b • T) := by
    unfold hyb; rw [hinv, hM]; abel
  have hTd : ∀ i, T i i = 1 := fun i => by rw [hT, mul_comm]; exact htt i
  have hmed : medium (fun i => z - e i) c (-(b • T)) = M := by
    unfold medium
    have : (fun i => (z - e i - (-(b • T)) i i) / (c i : ℂ)) = d := by
      funext i
      rw [Matrix.neg_apply, Matrix.smul_apply, hTd, smul_eq_mul, mul_one, sub_neg_eq_add]
    rw [this, hM]; abel
  have hdamp : ∀ u, z.im * nsq u ≤ qf M u := by
    intro u
    rw [← hmed, qf_medium h.pos h.norm]
    have h1 := damping_le h.pos h.norm h.upper (beb_damp h) u
    have h2 : ∀ v : Fin n → ℂ, 0 ≤ -qf (-(b • T)) v := by
      intro v
      have h3 : sf (-(b • T)) v v
          = -(((‖∑ i, star (t i) * v i‖ ^ 2 : ℝ) : ℂ) * b) := by
        have h4 : ((‖∑ i, star (t i) * v i‖ ^ 2 : ℝ) : ℂ)
            = star (∑ i, star (t i) * v i) * ∑ i, star (t i) * v i := by
          rw [Complex.star_def, Complex.conj_mul']; push_cast; rfl
        rw [sf_neg, h4, sf_eq_sum, star_sum, Finset.sum_mul_sum, Finset.sum_mul]
        congr 1
        refine Finset.sum_congr rfl fun i _ => ?_
        rw [Finset.sum_mul]
        refine Finset.sum_congr rfl fun j _ => ?_
        rw [Matrix.smul_apply, hT, smul_eq_mul, star_mul, star_star]
        ring
      unfold qf
      rw [h3, Complex.neg_im, neg_neg, Complex.im_ofReal_mul]
      positivity
    have h5 : 0 ≤ ∑ i, c i * -qf (-(b • T)) (kv c i u) :=
      Finset.sum_nonneg fun i _ => mul_nonneg (h.pos i).le (h2 _)
    linarith
  have hsol : IsBebSelf dos T z e c (z • (1 : Matrix (Fin n) (Fin n) ℂ) - M) := by
    rw [isBebSelf_iff h, physicalSelf_iff _ z, hMs, hhyb]
    exact ⟨hdamp, hmed⟩
  have hsM := beb_self_eq h hs hsol
  constructor
  · intro a b'
    rw [← locGf_zMSelf, hsM, hMs, hloc, diagonal_apply]
    split_ifs
    · exact hcmpt a
    · rfl
  · intro a b'
    rw [hsM, hM, ← hzb]
    by_cases hab : a = b'
    · subst hab
      simp [hd]
      ring
    · simp [hab]

end

/-- The hypotheses are met: a binary alloy on the Bethe lattice whose hopping depends on the
components. -/
example : ∃ dos band, BebProblem dos band (fun z => betheHilbert z 2)
    !![1, Complex.I / 2; -Complex.I / 2, 2] (1 + Complex.I / 10) ![-1, 1 - Complex.I]
    ![1 / 4, 3 / 4] :=
  ⟨_, _, {
    lattice := bethe_isHilbert two_pos
    hermitian := by
      ext i j
      fin_cases i <;> fin_cases j <;> simp [Matrix.conjTranspose_apply]
    upper := by simp
    pos := fun i => by fin_cases i <;> norm_num
    norm := by norm_num [Fin.sum_univ_two]
    retarded := fun i => by fin_cases i <;> simp }⟩

end Gftool.Props
