import Verif.Lemmas.Bloch

/-!
# Lattices in real space
-/

namespace Gftool.Lemmas

open Gftool.Spec MeasureTheory
open scoped ComplexConjugate

section

variable {A : Type*} [AddCommGroup A] [DecidableEq A]

lemma bravais_sum (offs : Finset A) (t : A → ℝ) (v : A) (f : A → ℂ) :
    ∑ w ∈ (bravaisHopping offs t).nb v, ((bravaisHopping offs t).amp v w : ℂ) * f w = ∑ o ∈ offs, (t o : ℂ) * f (v + o) := by
  simp only [bravaisHopping]
  rw [Finset.sum_image fun a _ b _ h => add_left_cancel h]
  exact Finset.sum_congr rfl fun o _ => by rw [add_sub_cancel_left]

lemma bravais_ok {offs : Finset A} {t : A → ℝ} (ho : ∀ o ∈ offs, -o ∈ offs) (ht : ∀ o, t (-o) = t o)
    (hb : ∃ C, ∀ o, |t o| ≤ C) : HopOk (bravaisHopping offs t) where
  nb v w h := by
    simp only [bravaisHopping, Finset.mem_image] at h ⊢
    obtain ⟨o, ho', rfl⟩ := h
    exact ⟨-o, ho o ho', by abel⟩
  amp v w := by
    simp only [bravaisHopping]
    rw [← ht, neg_sub]
  bound := by
    obtain ⟨C, hC⟩ := hb
    exact ⟨C, fun v w => hC _⟩
  card := ⟨offs.card, fun v => Finset.card_image_le⟩

lemma sublattice_sum {L : AddSubgroup A} [DecidablePred (· ∈ L)] {offs : Finset A} (hL : ∀ o ∈ offs, o ∈ L) (t : ℝ) (v : L)
    (f : A → ℂ) :
    ∑ w ∈ (sublatticeHopping L offs t).nb v, ((sublatticeHopping L offs t).amp v w : ℂ) * f w
      = ∑ o ∈ offs, (t : ℂ) * f (v + o) := by
  simp only [sublatticeHopping]
  rw [Finset.sum_subtype_of_mem (fun w => (t : ℂ) * f w) (p := (· ∈ L)) (s := offs.image (v.1 + ·)),
    Finset.sum_image fun a _ b _ h => add_left_cancel h]
  intro w hw
  obtain ⟨o, ho, rfl⟩ := Finset.mem_image.1 hw
  exact L.add_mem v.2 (hL o ho)

lemma sublattice_ok (L : AddSubgroup A) [DecidablePred (· ∈ L)] {offs : Finset A} (ho : ∀ o ∈ offs, -o ∈ offs) (t : ℝ) :
    HopOk (sublatticeHopping L offs t) where
  nb v w h := by
    simp only [sublatticeHopping, Finset.mem_subtype, Finset.mem_image] at h ⊢
    obtain ⟨o, ho', h⟩ := h
    exact ⟨-o, ho o ho', by rw [← h]; abel⟩
  amp v w := rfl
  bound := ⟨|t|, fun _ _ => le_rfl⟩
  card := ⟨offs.card, fun v => by
    simp only [sublatticeHopping]
    rw [Finset.card_subtype]
    exact (Finset.card_filter_le _ _).trans Finset.card_image_le⟩

lemma crystal_sum {ι : Type*} [DecidableEq ι] (bonds : ι → Finset (A × ι)) (t : ℝ) (v : A × ι) (f : A × ι → ℂ) :
    ∑ w ∈ (crystalHopping bonds t).nb v, ((crystalHopping bonds t).amp v w : ℂ) * f w
      = ∑ b ∈ bonds v.2, (t : ℂ) * f (v.1 + b.1, b.2) := by
  simp only [crystalHopping]
  rw [Finset.sum_image]
  intro a _ b _ h
  simp only [Prod.mk.injEq, add_right_inj] at h
  exact Prod.ext h.1 h.2

lemma crystal_ok {ι : Type*} [DecidableEq ι] [Fintype ι] {bonds : ι → Finset (A × ι)}
    (hb : ∀ i, ∀ b ∈ bonds i, (-b.1, i) ∈ bonds b.2) (t : ℝ) : HopOk (crystalHopping bonds t) where
  nb v w h := by
    simp only [crystalHopping, Finset.mem_image] at h ⊢
    obtain ⟨b, hb', rfl⟩ := h
    exact ⟨_, hb _ b hb', by simp⟩
  amp v w := rfl
  bound := ⟨|t|, fun _ _ => le_rfl⟩
  card := ⟨∑ i, (bonds i).card, fun v => Finset.card_image_le.trans
    (Finset.single_le_sum (f := fun i => (bonds i).card) (fun _ _ => Nat.zero_le _) (Finset.mem_univ v.2))⟩

variable {K : Type*} [MeasurableSpace K] {μ : Measure K} [IsProbabilityMeasure μ] {e : A → K → ℂ}

/-- Local Green's function of a Bravais lattice. -/
lemma bravais_localGreen (he : Bloch μ e) (hadd : ∀ a b k, e (a + b) k = e a k * e b k)
    (hu : ∀ a k, ‖e a k‖ = 1) {offs : Finset A} {t : A → ℝ} (ho : ∀ o ∈ offs, -o ∈ offs) (ht : ∀ o, t (-o) = t o)
    (hb : ∃ C, ∀ o, |t o| ≤ C) {disp : K → ℝ} (hm : Measurable disp)
    (hd : ∀ k, ∑ o ∈ offs, (t o : ℂ) * e o k = disp k) {z : ℂ} {c : ℝ} (hc : 0 < c) (hz : ∀ k, c ≤ ‖z - disp k‖) (r : A) :
    LocalGreen (bravaisHopping offs t) r z (bzGreen μ disp z) := by
  refine bloch_localGreen he (bravais_ok ho ht hb) (pos := id) Function.injective_id hm (fun a k => mul_conj_one (hu a k))
    (fun v k => ?_) hc hz r
  rw [bravais_sum offs t v fun w => e (id w) k, ← hd, Finset.sum_mul]
  refine Finset.sum_congr rfl fun o _ => ?_
  simp only [id]
  rw [hadd]
  ring

/-- Local Green's function of a sublattice. -/
lemma sublattice_localGreen (he : Bloch μ e) (hadd : ∀ a b k, e (a + b) k = e a k * e b k)
    (hu : ∀ a k, ‖e a k‖ = 1) {L : AddSubgroup A} [DecidablePred (· ∈ L)] {offs : Finset A} (hL : ∀ o ∈ offs, o ∈ L)
    {t : ℝ} (ho : ∀ o ∈ offs, -o ∈ offs) {disp : K → ℝ} (hm : Measurable disp)
    (hd : ∀ k, (t : ℂ) * ∑ o ∈ offs, e o k = disp k) {z : ℂ} {c : ℝ} (hc : 0 < c) (hz : ∀ k, c ≤ ‖z - disp k‖) (r : L) :
    LocalGreen (sublatticeHopping L offs t) r z (bzGreen μ disp z) := by
  refine bloch_localGreen he (sublattice_ok L ho t) (pos := Subtype.val) Subtype.val_injective hm
    (fun a k => mul_conj_one (hu a k)) (fun v k => ?_) hc hz r
  rw [sublattice_sum hL t v fun w => e w k, ← hd, Finset.mul_sum, Finset.sum_mul]
  refine Finset.sum_congr rfl fun o _ => ?_
  rw [hadd]
  ring

/-- Local Green's function of a lattice with several sites in the unit cell. -/
lemma crystal_localGreen (he : Bloch μ e) (hadd : ∀ a b k, e (a + b) k = e a k * e b k)
    (hu : ∀ a k, ‖e a k‖ = 1) {ι : Type*} [DecidableEq ι] [Fintype ι] {bonds : ι → Finset (A × ι)} {t : ℝ}
    (hb : ∀ i, ∀ b ∈ bonds i, (-b.1, i) ∈ bonds b.2) {M : ι → ι → K → ℂ} (hm : ∀ i j, Measurable (M i j)) {C : ℝ}
    (hC : ∀ i j k, ‖M i j k‖ ≤ C) {z : ℂ}
    (hM : ∀ i j k, z * M i j k - ∑ b ∈ bonds i, (t : ℂ) * (e b.1 k * M b.2 j k) = if i = j then 1 else 0)
    (r : A × ι) : LocalGreen (crystalHopping bonds t) r z (∫ k, M r.2 r.2 k ∂μ) := by
  have hres : ∀ r : A × ι, IsResolvent (crystalHopping bonds t) r z
      fun v => ∫ k, e v.1 k * (conj (e r.1 k) * M v.2 r.2 k) ∂μ := by
    intro r
    refine bloch_resolvent he (pos := Prod.fst) (b := Prod.snd) (fun v w h1 h2 => Prod.ext h1 h2)
      (x := fun i k => conj (e r.1 k) * M i r.2 k)
      (fun i => (Complex.continuous_conj.measurable.comp (he.meas _)).mul (hm i _)) (C := C) (fun i k => ?_) fun v k => ?_
    · rw [norm_mul, RCLike.norm_conj, hu, one_mul]
      exact hC _ _ _
    · rw [crystal_sum bonds t v fun w => e w.1 k * (conj (e r.1 k) * M w.2 r.2 k)]
      have h1 : ∑ b ∈ bonds v.2, (t : ℂ) * (e (v.1 + b.1) k * (conj (e r.1 k) * M b.2 r.2 k))
          = e v.1 k * conj (e r.1 k) * ∑ b ∈ bonds v.2, (t : ℂ) * (e b.1 k * M b.2 r.2 k) := by
        rw [Finset.mul_sum]
        refine Finset.sum_congr rfl fun b _ => ?_
        rw [hadd]
        ring
      simp only
      rw [h1]
      have h2 := hM v.2 r.2 k
      split_ifs at h2 ⊢ with h
      · linear_combination e v.1 k * conj (e r.1 k) * h2
      · linear_combination e v.1 k * conj (e r.1 k) * h2
  have := localGreen_of (crystal_ok hb t) (fun r => ⟨_, hres r⟩) (hres r)
  have e1 : (∫ k, e r.1 k * (conj (e r.1 k) * M r.2 r.2 k) ∂μ) = ∫ k, M r.2 r.2 k ∂μ := by
    congr 1
    funext k
    rw [← mul_assoc, mul_conj_one (hu _ _), one_mul]
  rw [e1] at this
  exact this

/-- The same with the inverse written as quotient. -/
lemma crystal_localGreen_div (he : Bloch μ e) (hadd : ∀ a b k, e (a + b) k = e a k * e b k)
    (hu : ∀ a k, ‖e a k‖ = 1) {ι : Type*} [DecidableEq ι] [Fintype ι] {bonds : ι → Finset (A × ι)} {t : ℝ}
    (hb : ∀ i, ∀ b ∈ bonds i, (-b.1, i) ∈ bonds b.2) {N : ι → ι → K → ℂ} {Δ : K → ℂ} (hm : ∀ i j, Measurable (N i j))
    (hmΔ : Measurable Δ) {B c : ℝ} (hB : ∀ i j k, ‖N i j k‖ ≤ B) (hc : 0 < c) (hΔ : ∀ k, c ≤ ‖Δ k‖) {z : ℂ}
    (hN : ∀ i j k, z * N i j k - ∑ b ∈ bonds i, (t : ℂ) * (e b.1 k * N b.2 j k) = if i = j then Δ k else 0)
    (r : A × ι) : LocalGreen (crystalHopping bonds t) r z (∫ k, N r.2 r.2 k / Δ k ∂μ) := by
  refine crystal_localGreen he hadd hu hb (M := fun i j k => N i j k / Δ k) (fun i j => (hm i j).div hmΔ)
    (C := B / c) (fun i j k => ?_) (fun i j k => ?_) r
  · rw [norm_div]
    exact div_le_div₀ ((norm_nonneg _).trans (hB i j k)) (hB i j k) hc (hΔ k)
  · have hne : Δ k ≠ 0 := fun h => by
      have := hΔ k
      rw [h, norm_zero] at this
      linarith
    have h1 : ∑ b ∈ bonds i, (t : ℂ) * (e b.1 k * (N b.2 j k / Δ k))
        = (∑ b ∈ bonds i, (t : ℂ) * (e b.1 k * N b.2 j k)) / Δ k := by
      rw [Finset.sum_div]
      exact Finset.sum_congr rfl fun b _ => by ring
    rw [h1, ← mul_div_assoc, ← sub_div, hN]
    split_ifs
    · exact div_self hne
    · exact zero_div _

/-- Adjugate of `z - h` for a matrix `h` with vanishing diagonal. -/
def adj3 (z : ℂ) (h : Fin 3 → Fin 3 → ℂ) (i j : Fin 3) : ℂ :=
  if i = j then z ^ 2 - h (i + 1) (i + 2) * h (i + 2) (i + 1) else h i j * z + h i (-(i + j)) * h (-(i + j)) j

/-- Determinant of `z - h` for a matrix `h` with vanishing diagonal. -/
def det3 (z : ℂ) (h : Fin 3 → Fin 3 → ℂ) : ℂ :=
  z ^ 3 - z * (h 0 1 * h 1 0 + h 0 2 * h 2 0 + h 1 2 * h 2 1) - h 0 1 * h 1 2 * h 2 0 - h 0 2 * h 2 1 * h 1 0

lemma adj3_mul (z : ℂ) {h : Fin 3 → Fin 3 → ℂ} (h0 : ∀ i, h i i = 0) (i j : Fin 3) :
    z * adj3 z h i j - ∑ l, h i l * adj3 z h l j = if i = j then det3 z h else 0 := by
  have e0 := h0 0
  have e1 := h0 1
  have e2 := h0 2
  rw [Fin.sum_univ_three]
  unfold adj3 det3
  fin_cases i <;> fin_cases j <;> simp [e0, e1, e2, show (1 : Fin 3) + 1 = 2 by decide, show (2 : Fin 3) + 1 = 0 by decide,
    show (2 : Fin 3) + 2 = 1 by decide, show (1 : Fin 3) + 2 = 0 by decide, show (-1 : Fin 3) = 2 by decide,
    show (-2 : Fin 3) = 1 by decide] <;> ring

lemma adj3_bound {z : ℂ} {h : Fin 3 → Fin 3 → ℂ} {B : ℝ} (hB : ∀ i j, ‖h i j‖ ≤ B) (i j : Fin 3) :
    ‖adj3 z h i j‖ ≤ (‖z‖ + B) ^ 2 := by
  have hB0 : 0 ≤ B := (norm_nonneg _).trans (hB 0 0)
  have hp : ∀ i j l m, ‖h i j * h l m‖ ≤ B * B := fun i j l m => by
    rw [norm_mul]
    exact mul_le_mul (hB _ _) (hB _ _) (norm_nonneg _) hB0
  unfold adj3
  have hz := norm_nonneg z
  split_ifs
  · refine (norm_sub_le _ _).trans ?_
    rw [norm_pow]
    nlinarith [hp (i + 1) (i + 2) (i + 2) (i + 1), mul_nonneg hz hB0]
  · refine (norm_add_le _ _).trans ?_
    rw [norm_mul (h i j)]
    nlinarith [hp i (-(i + j)) (-(i + j)) j, mul_le_mul_of_nonneg_right (hB i j) hz, mul_nonneg hz hB0]

lemma measurable_adj3 (z : ℂ) {h : K → Fin 3 → Fin 3 → ℂ} (hm : ∀ i j, Measurable fun k => h k i j) (i j : Fin 3) :
    Measurable fun k => adj3 z (h k) i j := by
  unfold adj3
  by_cases hij : i = j
  · simp only [if_pos hij]
    exact measurable_const.sub ((hm _ _).mul (hm _ _))
  · simp only [if_neg hij]
    exact ((hm _ _).mul measurable_const).add ((hm _ _).mul (hm _ _))

lemma measurable_det3 (z : ℂ) {h : K → Fin 3 → Fin 3 → ℂ} (hm : ∀ i j, Measurable fun k => h k i j) :
    Measurable fun k => det3 z (h k) := by
  unfold det3
  exact ((measurable_const.sub (measurable_const.mul ((((hm _ _).mul (hm _ _)).add ((hm _ _).mul (hm _ _))).add
    ((hm _ _).mul (hm _ _))))).sub (((hm _ _).mul (hm _ _)).mul (hm _ _))).sub (((hm _ _).mul (hm _ _)).mul (hm _ _))

/-- Sum of the local Green's functions in the unit cell. -/
lemma crystal3_trace {h : K → Fin 3 → Fin 3 → ℂ}
    (hm : ∀ i j, Measurable fun k => h k i j) {B c : ℝ} (hB : ∀ i j k, ‖h k i j‖ ≤ B) {z : ℂ}
    (hc : 0 < c) (hΔ : ∀ k, c ≤ ‖det3 z (h k)‖) :
    (∫ k, adj3 z (h k) 0 0 / det3 z (h k) ∂μ) + (∫ k, adj3 z (h k) 1 1 / det3 z (h k) ∂μ)
      + (∫ k, adj3 z (h k) 2 2 / det3 z (h k) ∂μ)
      = ∫ k, (adj3 z (h k) 0 0 + adj3 z (h k) 1 1 + adj3 z (h k) 2 2) / det3 z (h k) ∂μ := by
  have hi : ∀ i, Integrable (fun k => adj3 z (h k) i i / det3 z (h k)) μ := fun i =>
    Integrable.of_bound ((measurable_adj3 z hm i i).div (measurable_det3 z hm)).aestronglyMeasurable ((‖z‖ + B) ^ 2 / c)
      (Filter.Eventually.of_forall fun k => by
        rw [norm_div]
        exact div_le_div₀ (sq_nonneg _) (adj3_bound (hB · · k) i i) hc (hΔ k))
  have h01 : Integrable (fun k => adj3 z (h k) 0 0 / det3 z (h k) + adj3 z (h k) 1 1 / det3 z (h k)) μ := (hi 0).add (hi 1)
  rw [← integral_add (hi 0) (hi 1), ← integral_add h01 (hi 2)]
  congr 1
  funext k
  rw [add_div, add_div]

/-- Three sites in the unit cell. -/
lemma crystal3_localGreen (he : Bloch μ e) (hadd : ∀ a b k, e (a + b) k = e a k * e b k)
    (hu : ∀ a k, ‖e a k‖ = 1) {bonds : Fin 3 → Finset (A × Fin 3)} {t : ℝ}
    (hb : ∀ i, ∀ b ∈ bonds i, (-b.1, i) ∈ bonds b.2) {h : K → Fin 3 → Fin 3 → ℂ}
    (hm : ∀ i j, Measurable fun k => h k i j) {B c : ℝ} (hB : ∀ i j k, ‖h k i j‖ ≤ B) (h0 : ∀ i k, h k i i = 0) {z : ℂ}
    (hc : 0 < c) (hΔ : ∀ k, c ≤ ‖det3 z (h k)‖)
    (hs : ∀ i k (x : Fin 3 → ℂ), ∑ b ∈ bonds i, (t : ℂ) * (e b.1 k * x b.2) = ∑ j, h k i j * x j) (r : A × Fin 3) :
    LocalGreen (crystalHopping bonds t) r z (∫ k, adj3 z (h k) r.2 r.2 / det3 z (h k) ∂μ) := by
  refine crystal_localGreen_div he hadd hu hb (N := fun i j k => adj3 z (h k) i j) (Δ := fun k => det3 z (h k))
    (fun i j => ?_) ?_ (B := (‖z‖ + B) ^ 2) (fun i j k => adj3_bound (hB · · k) i j) hc hΔ (fun i j k => ?_) r
  · exact measurable_adj3 z hm i j
  · exact measurable_det3 z hm
  · rw [hs i k fun l => adj3 z (h k) l j]
    exact adj3_mul z (h0 · k) i j

end

lemma Bloch.comp {K A B : Type*} [MeasurableSpace K] [DecidableEq A] [DecidableEq B] {μ : Measure K} {e : A → K → ℂ}
    (he : Bloch μ e) {φ : B → A} (hφ : Function.Injective φ) : Bloch μ fun b => e (φ b) where
  meas b := he.meas _
  bound b k := he.bound _ k
  orth a b := by
    rw [he.orth]
    simp [hφ.eq_iff]

/-- A symmetry of the lattice does not change the local Green's function. -/
lemma LocalGreen.map {V : Type*} [DecidableEq V] {H : Hopping V} {r : V} {z g : ℂ} (h : LocalGreen H r z g) (σ : V ≃ V)
    (hnb : ∀ v, H.nb (σ v) = (H.nb v).map σ.toEmbedding) (hamp : ∀ v w, H.amp (σ v) (σ w) = H.amp v w) :
    LocalGreen H (σ r) z g := by
  have key : ∀ ψ : V → ℂ, ∀ v, H.ham ψ (σ v) = H.ham (ψ ∘ σ) v := by
    intro ψ v
    unfold Hopping.ham
    rw [hnb, Finset.sum_map]
    exact Finset.sum_congr rfl fun w _ => by
      rw [Equiv.coe_toEmbedding, hamp]
      rfl
  have k1 : ∀ ψ, IsResolvent H (σ r) z ψ → IsResolvent H r z (ψ ∘ σ) := fun ψ hψ =>
    ⟨hψ.summable.comp_injective σ.injective, fun v => by
      have := hψ.eq (σ v)
      rw [key] at this
      simpa using this⟩
  have k2 : ∀ ψ, IsResolvent H r z ψ → IsResolvent H (σ r) z (ψ ∘ σ.symm) := fun ψ hψ =>
    ⟨hψ.summable.comp_injective σ.symm.injective, fun v => by
      obtain ⟨w, rfl⟩ := σ.surjective v
      have e1 : (ψ ∘ σ.symm) ∘ σ = ψ := by
        funext v
        simp
      rw [key, e1]
      have := hψ.eq w
      simpa using this⟩
  obtain ⟨ψ, hψ, hg, hun⟩ := h
  refine ⟨ψ ∘ σ.symm, k2 ψ hψ, by simpa using hg, fun φ hφ => ?_⟩
  rw [← hun _ (k1 φ hφ)]
  funext v
  simp

lemma LocalGreen.unique {V : Type*} [DecidableEq V] {H : Hopping V} {r : V} {z g g' : ℂ} (h : LocalGreen H r z g)
    (h' : LocalGreen H r z g') : g = g' := by
  obtain ⟨ψ, hψ, rfl, -⟩ := h
  obtain ⟨φ, hφ, rfl, hun⟩ := h'
  rw [hun ψ hψ]

end Gftool.Lemmas
