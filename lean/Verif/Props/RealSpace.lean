import Verif.Lemmas.Crystal
import Verif.Props.RealSpaceTree
import Verif.Props.Square
import Verif.Props.Rectangular
import Verif.Props.TriangularGf
import Verif.Props.Sc
import Verif.Props.Bcc
import Verif.Props.Fcc

/-!
# C64: the lattices in real space
-/

namespace Gftool.Props

open Gftool.Spec Gftool.Model Gftool.Lemmas MeasureTheory
open scoped ComplexConjugate

/-! ## Chain -/

/-- C64: `onedim_gf_z` is the local Green's function of electrons which hop with the amplitude `D/2` along an infinite
chain. -/
theorem onedim_real_space {D : ℝ} (hD : 0 < D) {z : ℂ} (hz : OffBand z D) (r : ℤ) :
    LocalGreen (bravaisHopping chainOffs fun _ => D / 2) r z (onedimGfZ z D) := by
  obtain ⟨g, hg, -, hgn, hd, he⟩ := bethez_cavity (Z := 2) (t := D / 2) hD (by norm_num) (by norm_num) hz (.inl le_rfl)
  have h2 : bethezGfZ z D 2 = .ok (onedimGfZ z D) := (bethez_two z (e := 0) hD).1
  rw [h2] at he
  have he' : onedimGfZ z D = 1 / (z - 2 * ((D / 2 : ℝ) : ℂ) ^ 2 * g) := by
    have := Except.ok.inj he
    push_cast at this ⊢
    exact this
  have hd' : z - 2 * ((D / 2 : ℝ) : ℂ) ^ 2 * g ≠ 0 := by
    push_cast at hd ⊢
    exact hd
  have hg' : g * (z - ((D / 2 : ℝ) : ℂ) ^ 2 * g) = 1 := by
    push_cast at hg ⊢
    rw [← hg]
    ring
  have hn : ‖((D / 2 : ℝ) : ℂ) * g‖ < 1 := by
    rw [norm_mul, Complex.norm_real, Real.norm_of_nonneg (by positivity)]
    calc D / 2 * ‖g‖ < D / 2 * (2 / D) := by
          apply mul_lt_mul_of_pos_left hgn; positivity
      _ = 1 := by field_simp
  have hsum : Summable fun n : ℤ => (‖((D / 2 : ℝ) : ℂ) * g‖ ^ 2) ^ n.natAbs := by
    have hgeo := summable_geometric_of_lt_one (sq_nonneg ‖((D / 2 : ℝ) : ℂ) * g‖) (by nlinarith [norm_nonneg (((D / 2 : ℝ) : ℂ) * g)])
    rw [summable_int_iff_summable_nat_and_neg]
    exact ⟨by simpa using hgeo, by simpa using hgeo⟩
  have hres : ∀ r : ℤ, IsResolvent (bravaisHopping chainOffs fun _ => D / 2) r z
      fun v => onedimGfZ z D * (((D / 2 : ℝ) : ℂ) * g) ^ (v - r).natAbs := by
    intro r
    refine ⟨?_, fun v => ?_⟩
    · have h1 := (hsum.comp_injective (sub_left_injective (b := r))).mul_left (‖onedimGfZ z D‖ ^ 2)
      refine h1.congr fun v => ?_
      simp only [Function.comp]
      rw [norm_mul (onedimGfZ z D), norm_pow, mul_pow ‖onedimGfZ z D‖, ← pow_mul, ← pow_mul, mul_comm 2]
    · rw [Hopping.ham, bravais_sum chainOffs _ v fun v => onedimGfZ z D * (((D / 2 : ℝ) : ℂ) * g) ^ (v - r).natAbs,
        chainOffs, Finset.sum_insert (by decide), Finset.sum_singleton, he']
      generalize ((D / 2 : ℝ) : ℂ) = t at *
      have step : ∀ n : ℕ, z * (t * g) ^ (n + 1) - (t * (t * g) ^ (n + 2) + t * (t * g) ^ n) = 0 := by
        intro n
        rw [pow_succ (t * g) (n + 1), pow_succ (t * g) n]
        linear_combination t * (t * g) ^ n * hg'
      by_cases hv : v = r
      · rw [if_pos hv, hv]
        have a1 : (r + 1 - r).natAbs = 1 := by simp
        have a2 : (r + -1 - r).natAbs = 1 := by simp
        rw [a1, a2, sub_self, Int.natAbs_zero]
        field_simp
        ring
      · rw [if_neg hv]
        rcases lt_or_gt_of_ne hv with h | h
        · obtain ⟨n, hn⟩ : ∃ n : ℕ, r - v = n + 1 := ⟨(r - v - 1).toNat, by omega⟩
          have a0 : (v - r).natAbs = n + 1 := by omega
          have a1 : (v + 1 - r).natAbs = n := by omega
          have a2 : (v + -1 - r).natAbs = n + 2 := by omega
          rw [a0, a1, a2]
          linear_combination 1 / (z - 2 * t ^ 2 * g) * step n
        · obtain ⟨n, hn⟩ : ∃ n : ℕ, v - r = n + 1 := ⟨(v - r - 1).toNat, by omega⟩
          have a0 : (v - r).natAbs = n + 1 := by omega
          have a1 : (v + 1 - r).natAbs = n + 2 := by omega
          have a2 : (v + -1 - r).natAbs = n := by omega
          rw [a0, a1, a2]
          linear_combination 1 / (z - 2 * t ^ 2 * g) * step n
  have hok : HopOk (bravaisHopping chainOffs fun _ => D / 2) :=
    bravais_ok (by decide) (fun _ => rfl) ⟨_, fun _ => le_rfl⟩
  have := localGreen_of hok (fun r => ⟨_, hres r⟩) (hres r)
  rwa [sub_self, Int.natAbs_zero, pow_zero, mul_one] at this

/-! ## Square and rectangular lattice -/

lemma wave1_cos (k : ℝ) : wave1 1 k + wave1 (-1) k = 2 * (Real.cos k : ℂ) := by
  unfold wave1
  push_cast
  rw [Complex.cos]
  ring_nf

lemma squareDisp_abs {D : ℝ} (hD : 0 ≤ D) (k : ℝ × ℝ) : |squareDisp D k| ≤ D := by
  unfold squareDisp
  rw [abs_mul, abs_of_nonneg (by positivity : 0 ≤ D / 2)]
  have h := (abs_add_le (Real.cos k.1) (Real.cos k.2)).trans (add_le_add (Real.abs_cos_le_one _) (Real.abs_cos_le_one _))
  nlinarith

lemma offBand_disp {K : Type*} {z : ℂ} {D : ℝ} (hz : OffBand z D) {disp : K → ℝ} (h : ∀ k, |disp k| ≤ D) :
    ∃ c : ℝ, 0 < c ∧ ∀ k, c ≤ ‖z - disp k‖ := by
  obtain ⟨c, hc, hcz⟩ := offBand_dist (z := z) (a := -D) (b := D) fun e h1 h2 => hz e (abs_le.2 ⟨h1, h2⟩)
  exact ⟨c, hc, fun k => hcz _ (abs_le.1 (h k)).1 (abs_le.1 (h k)).2⟩

/-- C64: `rectangular_gf_z` is the local Green's function of electrons which hop between neighbouring points of the square
lattice, with the amplitude `t = D/2/(1+γ)` along the first and `γ t` along the second axis. -/
theorem rectangular_real_space {ellipk : ℂ → ℂ} (hk : EllipkContract ellipk) {D γ : ℝ} (hD : 0 < D) (hγ : 0 < γ) {z : ℂ}
    (hz : OffBand z D) (r : ℤ × ℤ) :
    LocalGreen (bravaisHopping squareOffs (rectangularAmp (D / 2 / (1 + γ)) γ)) r z (rectangularGfZ ellipk z D γ) := by
  rw [((rectangular_contract hk hD hγ).2 z hz).1]
  have habs : ∀ k, |rectangularDisp D γ k| ≤ D := by
    intro k
    unfold rectangularDisp
    rw [abs_mul, abs_of_pos (by positivity : 0 < D / (1 + γ))]
    have h : |Real.cos k.1 + γ * Real.cos k.2| ≤ 1 + γ := by
      refine (abs_add_le _ _).trans (add_le_add (Real.abs_cos_le_one _) ?_)
      rw [abs_mul, abs_of_pos hγ]
      exact mul_le_of_le_one_right hγ.le (Real.abs_cos_le_one _)
    calc D / (1 + γ) * |Real.cos k.1 + γ * Real.cos k.2| ≤ D / (1 + γ) * (1 + γ) :=
          mul_le_mul_of_nonneg_left h (by positivity)
      _ = D := by field_simp
  obtain ⟨c, hc, hcz⟩ := offBand_disp hz habs
  refine bravais_localGreen wave2_bloch wave2_add wave2_norm (by decide) (fun o => by simp [rectangularAmp]) ?_
    (measurable_rectangularDisp D γ) (fun k => ?_) hc hcz r
  · refine ⟨max |D / 2 / (1 + γ)| |γ * (D / 2 / (1 + γ))|, fun o => ?_⟩
    unfold rectangularAmp
    split_ifs
    · exact le_max_left _ _
    · exact le_max_right _ _
  · have h1 := wave1_cos k.1
    have h2 := wave1_cos k.2
    have hne : (1 + γ : ℂ) ≠ 0 := by
      have : 1 + γ ≠ 0 := by positivity
      exact_mod_cast this
    rw [squareOffs, Finset.sum_insert (by decide), Finset.sum_insert (by decide), Finset.sum_insert (by decide),
      Finset.sum_singleton]
    simp only [rectangularAmp, wave2, wave1_zero, rectangularDisp]
    norm_num only [if_true, if_false]
    push_cast at h1 h2 ⊢
    field_simp
    linear_combination (D : ℂ) * h1 + D * γ * h2

/-- C64: `square_gf_z` is the local Green's function of electrons which hop with the amplitude `D/4` between neighbouring
points of the square lattice. -/
theorem square_real_space {ellipk : ℂ → ℂ} (hk : EllipkContract ellipk) {D : ℝ} (hD : 0 < D) {z : ℂ}
    (hz : OffBand z D) (r : ℤ × ℤ) :
    LocalGreen (bravaisHopping squareOffs fun _ => D / 4) r z (squareGfZ ellipk z D) := by
  rw [(square_gf_z_contract hk.off hD hz).1]
  obtain ⟨c, hc, hcz⟩ := offBand_disp hz (squareDisp_abs hD.le)
  refine bravais_localGreen wave2_bloch wave2_add wave2_norm (by decide) (fun o => rfl) ⟨_, fun _ => le_rfl⟩
    (measurable_squareDisp D) (fun k => ?_) hc hcz r
  have h1 := wave1_cos k.1
  have h2 := wave1_cos k.2
  rw [squareOffs, Finset.sum_insert (by decide), Finset.sum_insert (by decide), Finset.sum_insert (by decide),
    Finset.sum_singleton]
  simp only [wave2, wave1_zero, squareDisp]
  push_cast at h1 h2 ⊢
  linear_combination (D : ℂ) / 4 * h1 + D / 4 * h2

/-! ## Triangular lattice -/

lemma wave1_neg_mul (k : ℝ) : wave1 1 k * wave1 (-1) k = 1 := by
  rw [← wave1_add, show (1 : ℤ) + -1 = 0 by norm_num, wave1_zero]

lemma triangular_localGreen {D : ℝ} (hD : 0 < D) {z : ℂ} (hz : ∀ e ∈ Set.Icc (-(2 / 3 * D)) (4 / 3 * D), z ≠ (e : ℂ))
    (r : triangularLattice) :
    LocalGreen (sublatticeHopping triangularLattice triangularOffs (2 * D / 9)) r z (bzGreen bz2 (triangularDisp D) z) := by
  obtain ⟨c, hc, hcz⟩ := offBand_dist (z := z) (a := -(2 / 3 * D)) (b := 4 / 3 * D) fun e h1 h2 => hz e ⟨h1, h2⟩
  refine sublattice_localGreen wave2_bloch wave2_add wave2_norm (by decide) (by decide) (measurable_triangularDisp D)
    (fun k => ?_) hc (fun k => hcz _ (triangularDisp_mem hD k).1 (triangularDisp_mem hD k).2) r
  have h1 := wave1_cos k.1
  have h2 := wave1_cos k.2
  have h3 := wave1_neg_mul k.1
  have d1 : wave1 2 k.1 = wave1 1 k.1 ^ 2 := by rw [pow_two, ← wave1_add]; norm_num
  have d2 : wave1 (-2) k.1 = wave1 (-1) k.1 ^ 2 := by rw [pow_two, ← wave1_add]; norm_num
  rw [triangularOffs]
  iterate 5 rw [Finset.sum_insert (by decide)]
  rw [Finset.sum_singleton]
  simp only [wave2, wave1_zero, triangularDisp, d1, d2, Real.cos_two_mul]
  push_cast at h1 h2 ⊢
  generalize Complex.cos k.1 = x at *
  generalize Complex.cos k.2 = y at *
  generalize wave1 1 k.1 = a at *
  generalize wave1 (-1) k.1 = a' at *
  generalize wave1 1 k.2 = b at *
  generalize wave1 (-1) k.2 = b' at *
  obtain rfl : a' = 2 * x - a := by linear_combination h1
  obtain rfl : b' = 2 * y - b := by linear_combination h2
  linear_combination (-4 : ℂ) * D / 9 * h3

/-- C64 (partial): `triangular_gf_z` is the local Green's function of electrons which hop with the amplitude `2D/9` between
neighbouring points of the triangular lattice. For the excluded frequencies see `triangular_gf_z_partial`. -/
theorem triangular_real_space_partial {ellipk : ℂ → ℂ} (hk : EllipkContract ellipk) {D : ℝ} (hD : 0 < D) {z : ℂ}
    (hz : ∀ e ∈ Set.Icc (-(2 / 3 * D)) (4 / 3 * D), z ≠ (e : ℂ)) (h1 : z ≠ -1) (hcut : ¬ triangularOnCut (triangularArg z D))
    (r : triangularLattice) :
    ∃ g, triangularGfZ ellipk z D = some g ∧
      LocalGreen (sublatticeHopping triangularLattice triangularOffs (2 * D / 9)) r z g :=
  ⟨_, (triangular_gf_z_partial hk hD hz h1 hcut).1, triangular_localGreen hD hz r⟩

/-! ## Cubic lattices -/

/-- C64: `sc_gf_z` is the local Green's function of electrons which hop with the amplitude `D/6` between neighbouring
points of the simple cubic lattice. -/
theorem sc_real_space {ellipk : ℂ → ℂ} (hk : EllipkContract ellipk) {D : ℝ} (hD : 0 < D) {z : ℂ}
    (hz : OffBand z D) (r : ℤ × ℤ × ℤ) :
    LocalGreen (bravaisHopping scOffs fun _ => D / 6) r z (scGfZ ellipk z D) := by
  rw [(sc_gf_z hk hD hz).1]
  obtain ⟨c, hc, hcz⟩ := offBand_disp hz (scDisp_abs hD.le)
  refine bravais_localGreen wave3_bloch wave3_add wave3_norm (by decide) (fun o => rfl) ⟨_, fun _ => le_rfl⟩
    (measurable_scDisp D) (fun k => ?_) hc hcz r
  have h1 := wave1_cos k.1
  have h2 := wave1_cos k.2.1
  have h3 := wave1_cos k.2.2
  rw [scOffs]
  iterate 5 rw [Finset.sum_insert (by decide)]
  rw [Finset.sum_singleton]
  simp only [wave3, wave2, wave1_zero, scDisp]
  push_cast at h1 h2 h3 ⊢
  linear_combination (D : ℂ) / 6 * (h1 + h2 + h3)

/-- C64: `bcc_gf_z` is the local Green's function of electrons which hop with the amplitude `D/8` between neighbouring
points of the body-centred cubic lattice. -/
theorem bcc_real_space {ellipk : ℂ → ℂ} (hk : EllipkContract ellipk) {D : ℝ} (hD : 0 < D) {z : ℂ}
    (hz : OffBand z D) (r : bccLattice) :
    LocalGreen (sublatticeHopping bccLattice bccOffs (D / 8)) r z (bccGfZ ellipk z D) := by
  rw [(bcc_gf_z hk hD hz).1]
  obtain ⟨c, hc, hcz⟩ := offBand_disp hz (bccDisp_abs hD.le)
  refine sublattice_localGreen wave3_bloch wave3_add wave3_norm (by decide) (by decide)
    (measurable_bccDisp D) (fun k => ?_) hc hcz r
  have h1 := wave1_cos k.1
  have h2 := wave1_cos k.2.1
  have h3 := wave1_cos k.2.2
  rw [bccOffs]
  iterate 7 rw [Finset.sum_insert (by decide)]
  rw [Finset.sum_singleton]
  simp only [wave3, wave2, bccDisp]
  push_cast at h1 h2 h3 ⊢
  generalize Complex.cos k.1 = x at *
  generalize Complex.cos k.2.1 = y at *
  generalize Complex.cos k.2.2 = w at *
  obtain rfl : x = (wave1 1 k.1 + wave1 (-1) k.1) / 2 := by linear_combination -h1 / 2
  obtain rfl : y = (wave1 1 k.2.1 + wave1 (-1) k.2.1) / 2 := by linear_combination -h2 / 2
  obtain rfl : w = (wave1 1 k.2.2 + wave1 (-1) k.2.2) / 2 := by linear_combination -h3 / 2
  ring

/-- The fcc dispersion with doubled momenta. -/
noncomputable def fccDisp' (D : ℝ) (k : ℝ × ℝ × ℝ) : ℝ :=
  D / 2 * (Real.cos k.1 * Real.cos k.2.1 + Real.cos k.1 * Real.cos k.2.2 + Real.cos k.2.1 * Real.cos k.2.2)

lemma fcc_green_double {D : ℝ} (z : ℂ) : bzGreen bz3 (fccDisp D) z = bzGreen bz3 (fccDisp' D) z := by
  have hh : MeasurePreserving (fun k => Real.cos (k / 2)) bz (bz.map Real.cos) := ⟨by fun_prop, map_cos_half⟩
  have hc : MeasurePreserving Real.cos bz (bz.map Real.cos) := ⟨Real.continuous_cos.measurable, rfl⟩
  have : IsProbabilityMeasure (bz.map Real.cos) := Measure.isProbabilityMeasure_map Real.continuous_cos.measurable.aemeasurable
  have hmap : bz3.map (fun k : ℝ × ℝ × ℝ => (Real.cos (k.1 / 2), Real.cos (k.2.1 / 2), Real.cos (k.2.2 / 2)))
      = bz3.map (fun k : ℝ × ℝ × ℝ => (Real.cos k.1, Real.cos k.2.1, Real.cos k.2.2)) :=
    (hh.prod (hh.prod hh)).map_eq.trans (hc.prod (hc.prod hc)).map_eq.symm
  have hf : StronglyMeasurable fun x : ℝ × ℝ × ℝ =>
      1 / (z - ((D / 2 * (x.1 * x.2.1 + x.1 * x.2.2 + x.2.1 * x.2.2) : ℝ) : ℂ)) := by
    apply Measurable.stronglyMeasurable; fun_prop
  have e1 := integral_map (μ := bz3) (φ := fun k : ℝ × ℝ × ℝ => (Real.cos (k.1 / 2), Real.cos (k.2.1 / 2), Real.cos (k.2.2 / 2)))
    (Measurable.aemeasurable (by fun_prop)) hf.aestronglyMeasurable
  have e2 := integral_map (μ := bz3) (φ := fun k : ℝ × ℝ × ℝ => (Real.cos k.1, Real.cos k.2.1, Real.cos k.2.2))
    (Measurable.aemeasurable (by fun_prop)) hf.aestronglyMeasurable
  rw [hmap, e2] at e1
  exact e1.symm

lemma fccDisp'_mem {D : ℝ} (hD : 0 ≤ D) (k : ℝ × ℝ × ℝ) : -(D / 2) ≤ fccDisp' D k ∧ fccDisp' D k ≤ 3 * D / 2 := by
  unfold fccDisp'
  have h1 := Real.abs_cos_le_one k.1
  have h2 := Real.abs_cos_le_one k.2.1
  have h3 := Real.abs_cos_le_one k.2.2
  rw [abs_le] at h1 h2 h3
  generalize Real.cos k.1 = x at *
  generalize Real.cos k.2.1 = y at *
  generalize Real.cos k.2.2 = w at *
  have e1 : -1 ≤ x * y + x * w + y * w := by
    nlinarith [mul_nonneg (mul_nonneg (by linarith : 0 ≤ 1 - x) (by linarith : 0 ≤ 1 - y)) (by linarith : 0 ≤ 1 - w),
      mul_nonneg (mul_nonneg (by linarith : 0 ≤ 1 + x) (by linarith : 0 ≤ 1 + y)) (by linarith : 0 ≤ 1 + w)]
  have e2 : x * y + x * w + y * w ≤ 3 := by
    nlinarith [sq_nonneg (x - y), sq_nonneg (x - w), sq_nonneg (y - w), mul_nonneg (by linarith : 0 ≤ 1 - x) (by linarith : 0 ≤ 1 + x),
      mul_nonneg (by linarith : 0 ≤ 1 - y) (by linarith : 0 ≤ 1 + y), mul_nonneg (by linarith : 0 ≤ 1 - w) (by linarith : 0 ≤ 1 + w)]
  constructor <;> nlinarith

/-- C64 (partial): `fcc_gf_z` is the local Green's function of electrons which hop with the amplitude `D/8` between
neighbouring points of the face-centred cubic lattice. For the excluded frequencies see `fcc_gf_z_cut`. -/
theorem fcc_real_space_partial {ellipk : ℂ → ℂ} (hk : EllipkContract ellipk) {D : ℝ} (hD : 0 < D) {z : ℂ}
    (hz : ∀ e ∈ Set.Icc (-(D / 2)) (3 * D / 2), z ≠ (e : ℂ)) (hr : FccRegular z D) (r : fccLattice) :
    LocalGreen (sublatticeHopping fccLattice fccOffs (D / 8)) r z (fccGfZ ellipk z D) := by
  rw [(fcc_gf_z_partial hk hD hz hr).1, fcc_green_double]
  obtain ⟨c, hc, hcz⟩ := offBand_dist (z := z) (a := -(D / 2)) (b := 3 * D / 2) fun e h1 h2 => hz e ⟨h1, h2⟩
  refine sublattice_localGreen wave3_bloch wave3_add wave3_norm (by decide) (by decide)
    (by unfold fccDisp'; fun_prop) (fun k => ?_) hc (fun k => hcz _ (fccDisp'_mem hD.le k).1 (fccDisp'_mem hD.le k).2) r
  have h1 := wave1_cos k.1
  have h2 := wave1_cos k.2.1
  have h3 := wave1_cos k.2.2
  rw [fccOffs]
  iterate 11 rw [Finset.sum_insert (by decide)]
  rw [Finset.sum_singleton]
  simp only [wave3, wave2, wave1_zero, fccDisp']
  push_cast at h1 h2 h3 ⊢
  generalize Complex.cos k.1 = x at *
  generalize Complex.cos k.2.1 = y at *
  generalize Complex.cos k.2.2 = w at *
  obtain rfl : x = (wave1 1 k.1 + wave1 (-1) k.1) / 2 := by linear_combination -h1 / 2
  obtain rfl : y = (wave1 1 k.2.1 + wave1 (-1) k.2.1) / 2 := by linear_combination -h2 / 2
  obtain rfl : w = (wave1 1 k.2.2 + wave1 (-1) k.2.2) / 2 := by linear_combination -h3 / 2
  ring

/-! ## Lattices with several sites in the unit cell -/

/-- Plane waves for the primitive translations `(1, 1)` and `(-1, 1)` of the triangular lattice. -/
noncomputable def waveTri (n : ℤ × ℤ) (k : ℝ × ℝ) : ℂ := wave2 (n.1 - n.2, n.1 + n.2) k

lemma waveTri_bloch : Bloch bz2 waveTri :=
  wave2_bloch.comp (φ := fun n : ℤ × ℤ => (n.1 - n.2, n.1 + n.2)) fun a b h => by
    simp only [Prod.mk.injEq] at h
    exact Prod.ext (by omega) (by omega)

lemma waveTri_add (n m : ℤ × ℤ) (k : ℝ × ℝ) : waveTri (n + m) k = waveTri n k * waveTri m k := by
  unfold waveTri
  rw [← wave2_add]
  congr 1
  exact Prod.ext (by simp; ring) (by simp; ring)

lemma waveTri_norm (n : ℤ × ℤ) (k : ℝ × ℝ) : ‖waveTri n k‖ = 1 := wave2_norm _ _

/-- The sum of the cosines of the three directions of the triangular lattice. -/
noncomputable def triSum (k : ℝ × ℝ) : ℝ := Real.cos (2 * k.1) + 2 * Real.cos k.1 * Real.cos k.2

lemma triSum_mem (k : ℝ × ℝ) : -(3 / 2) ≤ triSum k ∧ triSum k ≤ 3 := by
  have h := triangularDisp_mem (D := 9 / 4) (by norm_num) k
  have e : triangularDisp (9 / 4) k = triSum k := by
    unfold triangularDisp triSum
    ring
  rw [e] at h
  constructor <;> linarith [h.1, h.2]

/-- The plane waves of the two primitive translations, and their relation to the dispersion. -/
lemma waveTri_rel (k : ℝ × ℝ) : ∃ a b a' b' : ℂ, waveTri (1, 0) k = a ∧ waveTri (0, 1) k = b ∧ waveTri (-1, 0) k = a' ∧
    waveTri (0, -1) k = b' ∧ waveTri (1, -1) k = a * b' ∧ waveTri (-1, 1) k = a' * b ∧ waveTri (0, 0) k = 1 ∧
    a * a' = 1 ∧ b * b' = 1 ∧ a + a' + b + b' + a * b' + a' * b = 2 * (triSum k : ℂ) := by
  refine ⟨_, _, _, _, rfl, rfl, rfl, rfl, ?_, ?_, ?_, ?_, ?_, ?_⟩
  · rw [← waveTri_add]; rfl
  · rw [← waveTri_add]; rfl
  · simp [waveTri, wave2, wave1_zero]
  · rw [← waveTri_add]; simp [waveTri, wave2, wave1_zero]
  · rw [← waveTri_add]; simp [waveTri, wave2, wave1_zero]
  · have h1 := wave1_cos k.1
    have h2 := wave1_cos k.2
    have h3 := wave1_neg_mul k.1
    have h4 := wave1_neg_mul k.2
    simp only [waveTri, wave2, triSum, Real.cos_two_mul]
    norm_num only
    push_cast at h1 h2 ⊢
    generalize Complex.cos k.1 = x at *
    generalize Complex.cos k.2 = y at *
    generalize wave1 1 k.1 = a at *
    generalize wave1 (-1) k.1 = a' at *
    generalize wave1 1 k.2 = b at *
    generalize wave1 (-1) k.2 = b' at *
    obtain rfl : x = (a + a') / 2 := by linear_combination -h1 / 2
    obtain rfl : y = (b + b') / 2 := by linear_combination -h2 / 2
    linear_combination (a ^ 2 + a' ^ 2) * h4 - 2 * h3

/-- A lower bound for the denominator of the honeycomb lattice. -/
lemma honeycomb_den {D : ℝ} (hD : 0 < D) {z : ℂ} (hz : OffBand z D) :
    ∃ c : ℝ, 0 < c ∧ ∀ k, c ≤ ‖z ^ 2 - (D / 3 : ℂ) ^ 2 * (3 + 2 * (triSum k : ℂ))‖ := by
  obtain ⟨c, hc, hcz⟩ := offBand_dist (z := z) (a := -D) (b := D) fun e h1 h2 => hz e (abs_le.2 ⟨h1, h2⟩)
  refine ⟨c * c, by positivity, fun k => ?_⟩
  obtain ⟨h1, h2⟩ := triSum_mem k
  have hs0 : 0 ≤ 3 + 2 * triSum k := by linarith
  set w := D / 3 * √(3 + 2 * triSum k) with hw
  have hw0 : 0 ≤ w := by positivity
  have hwD : w ≤ D := by
    have : √(3 + 2 * triSum k) ≤ 3 := by
      rw [Real.sqrt_le_left (by norm_num)]
      linarith
    rw [hw]
    nlinarith
  have e : z ^ 2 - (D / 3 : ℂ) ^ 2 * (3 + 2 * (triSum k : ℂ)) = (z - (w : ℂ)) * (z - ((-w : ℝ) : ℂ)) := by
    have : (w : ℂ) ^ 2 = (D / 3 : ℂ) ^ 2 * (3 + 2 * (triSum k : ℂ)) := by
      have : w ^ 2 = (D / 3) ^ 2 * (3 + 2 * triSum k) := by
        rw [hw, mul_pow, Real.sq_sqrt hs0]
      exact_mod_cast this
    rw [← this]
    push_cast
    ring
  rw [e, norm_mul]
  exact mul_le_mul (hcz _ (by linarith) hwD) (hcz _ (by linarith) (by linarith)) hc.le (norm_nonneg _)

lemma measurable_triSum : Measurable triSum := by
  unfold triSum
  fun_prop

/-- The Green's function of the honeycomb lattice as integral over the momenta. -/
lemma honeycomb_integral {tri : ℂ → ℝ → ℂ} {D : ℝ} (hD : 0 < D) {z : ℂ}
    (htri : tri (2 * (z / (D / 1.5 : ℝ)) ^ 2 - 1.5) (9 / 4)
      = bzGreen bz2 (triangularDisp (9 / 4)) (2 * (z / (D / 1.5 : ℝ)) ^ 2 - 1.5)) :
    honeycombGfZ tri z D = ∫ k, z / (z ^ 2 - (D / 3 : ℂ) ^ 2 * (3 + 2 * (triSum k : ℂ))) ∂bz2 := by
  unfold honeycombGfZ
  simp only
  rw [htri, bzGreen, ← integral_const_mul]
  congr 1
  funext k
  have hDc : (D : ℂ) ≠ 0 := by exact_mod_cast hD.ne'
  have e1 : ((triangularDisp (9 / 4) k : ℝ) : ℂ) = triSum k := by
    unfold triangularDisp triSum
    norm_num
  have e2 : ((D / 1.5 : ℝ) : ℂ) = 2 * D / 3 := by
    push_cast
    norm_num
    ring
  rw [e1, e2]
  have e3 : 2 * (z / (2 * D / 3 : ℂ)) ^ 2 - 1.5 - triSum k
      = 9 / (2 * D ^ 2) * (z ^ 2 - (D / 3 : ℂ) ^ 2 * (3 + 2 * (triSum k : ℂ))) := by
    norm_num
    field_simp
    ring
  have e4 : 2 / (2 * D / 3 : ℂ) * (z / (2 * D / 3)) = 9 / (2 * D ^ 2) * z := by
    field_simp
    ring
  rw [e3, e4, mul_one_div, mul_div_mul_left]
  exact div_ne_zero (by norm_num) (mul_ne_zero two_ne_zero (pow_ne_zero 2 hDc))

/-- The condition on the frequency under which the elliptic integral in `honeycomb.gf_z` is not evaluated on its cut. -/
def HoneycombRegular (z : ℂ) (D : ℝ) : Prop :=
  ¬ triangularOnCut (triangularArg (2 * (z / (D / 1.5 : ℝ)) ^ 2 - 1.5) (9 / 4))

/-- `honeycomb.gf_z` evaluates the triangular lattice off its band. -/
lemma honeycomb_arg {D : ℝ} (hD : 0 < D) {z : ℂ} (hz : OffBand z D) :
    (∀ e ∈ Set.Icc (-(2 / 3 * (9 / 4 : ℝ))) (4 / 3 * (9 / 4)), 2 * (z / (D / 1.5 : ℝ)) ^ 2 - 1.5 ≠ (e : ℂ)) ∧
    2 * (z / (D / 1.5 : ℝ)) ^ 2 - 1.5 ≠ -1 := by
  have key : ∀ e ∈ Set.Icc (-(2 / 3 * (9 / 4 : ℝ))) (4 / 3 * (9 / 4)), 2 * (z / (D / 1.5 : ℝ)) ^ 2 - 1.5 ≠ (e : ℂ) := by
    intro e he h
    have hDc : (D : ℂ) ≠ 0 := by exact_mod_cast hD.ne'
    have e2 : ((D / 1.5 : ℝ) : ℂ) = 2 * D / 3 := by
      push_cast
      norm_num
      ring
    have he1 : 0 ≤ (e + 3 / 2) * 2 / 9 := by
      have := he.1
      linarith
    have h1 : z ^ 2 = ((D * √((e + 3 / 2) * 2 / 9) : ℝ) : ℂ) ^ 2 := by
      rw [← Complex.ofReal_pow, mul_pow, Real.sq_sqrt he1]
      rw [e2] at h
      push_cast
      rw [← h]
      norm_num
      field_simp
      ring
    have hle : D * √((e + 3 / 2) * 2 / 9) ≤ D := by
      have : √((e + 3 / 2) * 2 / 9) ≤ 1 := by
        rw [Real.sqrt_le_left (by norm_num)]
        have := he.2
        linarith
      nlinarith
    have hge : 0 ≤ D * √((e + 3 / 2) * 2 / 9) := by positivity
    rcases sq_eq_sq_iff_eq_or_eq_neg.1 h1 with h2 | h2
    · exact hz _ (by rwa [abs_of_nonneg hge]) h2
    · refine hz (-(D * √((e + 3 / 2) * 2 / 9))) (by rwa [abs_neg, abs_of_nonneg hge]) ?_
      rw [h2]
      push_cast
      ring
  refine ⟨key, fun h => key (-1) (by constructor <;> norm_num) (by rw [h]; norm_num)⟩

lemma honeycomb_localGreen {D : ℝ} (hD : 0 < D) {z : ℂ} (hz : OffBand z D) (r : (ℤ × ℤ) × Fin 2) :
    LocalGreen (crystalHopping honeycombBonds (D / 3)) r z
      (∫ k, z / (z ^ 2 - (D / 3 : ℂ) ^ 2 * (3 + 2 * (triSum k : ℂ))) ∂bz2) := by
  obtain ⟨c, hc, hcz⟩ := honeycomb_den hD hz
  have hm := waveTri_bloch.meas
  have hn : ∀ a b : ℤ × ℤ, ∀ k, ‖(D / 3 : ℂ) * (1 + waveTri a k + waveTri b k)‖ ≤ D := by
    intro a b k
    rw [norm_mul, norm_div, Complex.norm_real, Real.norm_of_nonneg hD.le]
    have h1 := norm_add_le (1 + waveTri a k) (waveTri b k)
    have h2 := norm_add_le 1 (waveTri a k)
    rw [waveTri_norm] at h1 h2
    rw [norm_one] at h2
    norm_num
    nlinarith
  have := crystal_localGreen_div waveTri_bloch waveTri_add waveTri_norm (bonds := honeycombBonds) (t := D / 3) (by decide)
    (N := fun i j k => if i = j then z else if i = 0 then (D / 3 : ℂ) * (1 + waveTri (-1, 0) k + waveTri (0, -1) k)
      else (D / 3 : ℂ) * (1 + waveTri (1, 0) k + waveTri (0, 1) k))
    (Δ := fun k => z ^ 2 - (D / 3 : ℂ) ^ 2 * (3 + 2 * (triSum k : ℂ))) (fun i j => ?_) ?_ (B := max ‖z‖ D) (fun i j k => ?_)
    hc hcz (z := z) (fun i j k => ?_) r
  · simpa using this
  · split_ifs
    · exact measurable_const
    · exact measurable_const.mul ((measurable_const.add (hm _)).add (hm _))
    · exact measurable_const.mul ((measurable_const.add (hm _)).add (hm _))
  · have := measurable_triSum
    fun_prop
  · split_ifs
    · exact le_max_left _ _
    · exact (hn _ _ k).trans (le_max_right _ _)
    · exact (hn _ _ k).trans (le_max_right _ _)
  · obtain ⟨a, b, a', b', h1, h2, h3, h4, -, -, h0, ha, hb, hs⟩ := waveTri_rel k
    have h01 : (0 : Fin 2) ≠ 1 := by decide
    have h10 : (1 : Fin 2) ≠ 0 := by decide
    fin_cases i <;> fin_cases j <;> simp only [Fin.zero_eta, Fin.mk_one, honeycombBonds] <;>
      rw [Finset.sum_insert (by decide), Finset.sum_insert (by decide), Finset.sum_singleton] <;>
      simp only [h1, h2, h3, h4, h0, if_true, h01, h10, if_false] <;> push_cast
    · linear_combination (-(D / 3 : ℂ) ^ 2) * (ha + hb + hs)
    · ring
    · ring
    · linear_combination (-(D / 3 : ℂ) ^ 2) * (ha + hb + hs)

/-- C64 (partial): `honeycomb_gf_z` is the local Green's function of electrons which hop with the amplitude `D/3` between
neighbouring sites of the honeycomb lattice. What is missing: frequencies where the elliptic integral is evaluated on its
cut. -/
theorem honeycomb_real_space_partial {ellipk : ℂ → ℂ} (hk : EllipkContract ellipk) {D : ℝ} (hD : 0 < D) {z : ℂ}
    (hz : OffBand z D) (hr : HoneycombRegular z D) (r : (ℤ × ℤ) × Fin 2) :
    LocalGreen (crystalHopping honeycombBonds (D / 3)) r z
      (honeycombGfZ (fun z D => (triangularGfZ ellipk z D).getD 0) z D) := by
  rw [honeycomb_integral hD (by
    have h := honeycomb_arg hD hz
    rw [(triangular_gf_z_partial hk (by norm_num) h.1 h.2 hr).1]
    rfl)]
  exact honeycomb_localGreen hD hz r

/-- C64: the same for all frequencies off the band, with the boundary value from above on the cut. -/
theorem honeycomb_real_space_up {D : ℝ} (hD : 0 < D) {z : ℂ} (hz : OffBand z D) (r : (ℤ × ℤ) × Fin 2) :
    LocalGreen (crystalHopping honeycombBonds (D / 3)) r z
      (honeycombGfZ (fun z D => (triangularGfZ ellipKUp z D).getD 0) z D) := by
  rw [honeycomb_integral hD (by
    have h := honeycomb_arg hD hz
    rw [triangular_gf_z_up (by norm_num) h.1 h.2]
    rfl)]
  exact honeycomb_localGreen hD hz r

/-- Hopping matrix of the kagome lattice. -/
noncomputable def kagomeMat (t : ℝ) (k : ℝ × ℝ) (i j : Fin 3) : ℂ :=
  if i = j then 0 else (t : ℂ) * (1 + waveTri
    (if i = 0 then (if j = 1 then (-1, 0) else (0, -1)) else if i = 1 then (if j = 0 then (1, 0) else (1, -1))
      else (if j = 0 then (0, 1) else (-1, 1))) k)

lemma kagome_bonds_sum (t : ℝ) (i : Fin 3) (k : ℝ × ℝ) (x : Fin 3 → ℂ) :
    ∑ b ∈ kagomeBonds i, (t : ℂ) * (waveTri b.1 k * x b.2) = ∑ j, kagomeMat t k i j * x j := by
  obtain ⟨-, -, -, -, -, -, -, -, -, -, h0, -⟩ := waveTri_rel k
  rw [Fin.sum_univ_three]
  fin_cases i <;> simp only [Fin.zero_eta, Fin.mk_one, Fin.reduceFinMk, kagomeBonds, kagomeMat] <;>
    rw [Finset.sum_insert (by decide), Finset.sum_insert (by decide), Finset.sum_insert (by decide),
      Finset.sum_singleton] <;> simp [h0] <;> ring

lemma kagome_det (t : ℝ) (z : ℂ) (k : ℝ × ℝ) :
    det3 z (kagomeMat t k) = (z + 2 * t) * ((z - t) ^ 2 - (t : ℂ) ^ 2 * (3 + 2 * (triSum k : ℂ))) := by
  obtain ⟨a, b, a', b', h1, h2, h3, h4, h5, h6, h0, ha, hb, hs⟩ := waveTri_rel k
  unfold det3 kagomeMat
  simp [h1, h2, h3, h4, h5, h6]
  linear_combination (-z * (t : ℂ) ^ 2) * (2 * ha + hb + a * a' * hb + hs)
    - (t : ℂ) ^ 3 * (a * hb + b' * ha + b * ha + a' * hb + 2 * (a * a' * hb + ha) + 2 * hs)

lemma kagome_trace (t : ℝ) (z : ℂ) (k : ℝ × ℝ) :
    adj3 z (kagomeMat t k) 0 0 + adj3 z (kagomeMat t k) 1 1 + adj3 z (kagomeMat t k) 2 2
      = (z - t) ^ 2 - (t : ℂ) ^ 2 * (3 + 2 * (triSum k : ℂ)) + 2 * (z - t) * (z + 2 * t) := by
  obtain ⟨a, b, a', b', h1, h2, h3, h4, h5, h6, h0, ha, hb, hs⟩ := waveTri_rel k
  unfold adj3 kagomeMat
  simp [h1, h2, h3, h4, h5, h6, show (1 : Fin 3) + 1 = 2 by decide, show (2 : Fin 3) + 1 = 0 by decide,
    show (2 : Fin 3) + 2 = 1 by decide, show (1 : Fin 3) + 2 = 0 by decide]
  linear_combination (-(t : ℂ) ^ 2) * (2 * ha + hb + a * a' * hb + hs)

/-- The rotation of the kagome lattice by 120 degree around the centre of a triangle. -/
def kagomeRot : (ℤ × ℤ) × Fin 3 ≃ (ℤ × ℤ) × Fin 3 where
  toFun v := ((-v.1.1 - v.1.2, v.1.1), v.2 + 1)
  invFun v := ((v.1.2, -v.1.1 - v.1.2), v.2 - 1)
  left_inv v := by simp
  right_inv v := Prod.ext (Prod.ext (by simp only; ring) rfl) (by simp)

lemma kagome_rot_nb (t : ℝ) (v : (ℤ × ℤ) × Fin 3) :
    (crystalHopping kagomeBonds t).nb (kagomeRot v) = ((crystalHopping kagomeBonds t).nb v).map kagomeRot.toEmbedding := by
  have key : ∀ i : Fin 3, kagomeBonds (i + 1) = (kagomeBonds i).image fun b => ((-b.1.1 - b.1.2, b.1.1), b.2 + 1) := by
    decide
  rw [Finset.map_eq_image]
  simp only [crystalHopping, kagomeRot, Equiv.coe_toEmbedding, Equiv.coe_fn_mk, key, Finset.image_image]
  congr 1
  funext b
  simp only [Function.comp, Prod.mk_add_mk, Prod.fst_add, Prod.snd_add]
  refine Prod.ext (Prod.ext ?_ ?_) rfl
  · simp only; ring
  · rfl

lemma kagome_localGreen {D : ℝ} (hD : 0 < D) {z : ℂ} (hz : OffBand (z - D / 3) D) (hz' : 3 * z + 2 * D ≠ 0)
    (r : (ℤ × ℤ) × Fin 3) :
    LocalGreen (crystalHopping kagomeBonds (D / 3)) r z (1 / (3 * z + 2 * D) + 2 / 3 *
      ∫ k, (z - D / 3) / ((z - D / 3) ^ 2 - (D / 3 : ℂ) ^ 2 * (3 + 2 * (triSum k : ℂ))) ∂bz2) := by
  obtain ⟨c, hc, hcz⟩ := honeycomb_den hD hz
  have hm := waveTri_bloch.meas
  have hz2 : z + 2 * ((D / 3 : ℝ) : ℂ) ≠ 0 := by
    intro h
    apply hz'
    push_cast at h
    linear_combination 3 * h
  have hdet : ∀ k, ‖z + 2 * ((D / 3 : ℝ) : ℂ)‖ * c ≤ ‖det3 z (kagomeMat (D / 3) k)‖ := by
    intro k
    rw [kagome_det, norm_mul]
    refine mul_le_mul_of_nonneg_left ?_ (norm_nonneg _)
    have := hcz k
    push_cast
    exact this
  have hmat : ∀ i j, Measurable fun k => kagomeMat (D / 3) k i j := by
    intro i j
    unfold kagomeMat
    by_cases h : i = j
    · simp only [if_pos h]
      exact measurable_const
    · simp only [if_neg h]
      exact measurable_const.mul (measurable_const.add (hm _))
  have hB : ∀ i j k, ‖kagomeMat (D / 3) k i j‖ ≤ D := by
    intro i j k
    unfold kagomeMat
    by_cases h : i = j
    · simpa [h] using hD.le
    · simp only [if_neg h]
      rw [norm_mul, Complex.norm_real, Real.norm_of_nonneg (by positivity)]
      generalize (if i = 0 then (if j = 1 then (-1, 0) else (0, -1)) else if i = 1 then (if j = 0 then (1, 0) else (1, -1))
        else (if j = 0 then (0, 1) else (-1, 1)) : ℤ × ℤ) = n
      have h1 := norm_add_le 1 (waveTri n k)
      rw [waveTri_norm, norm_one] at h1
      nlinarith
  have hg := crystal3_localGreen waveTri_bloch waveTri_add waveTri_norm (bonds := kagomeBonds) (t := D / 3) (by decide)
    (h := kagomeMat (D / 3)) hmat hB (fun i k => by simp [kagomeMat]) (mul_pos (norm_pos_iff.2 hz2) hc) hdet
    (kagome_bonds_sum (D / 3))
  have hrot : ∀ v : (ℤ × ℤ) × Fin 3, (∫ k, adj3 z (kagomeMat (D / 3) k) (v.2 + 1) (v.2 + 1) / det3 z (kagomeMat (D / 3) k) ∂bz2)
      = ∫ k, adj3 z (kagomeMat (D / 3) k) v.2 v.2 / det3 z (kagomeMat (D / 3) k) ∂bz2 := by
    intro v
    exact LocalGreen.unique (hg (kagomeRot v)) (LocalGreen.map (hg v) kagomeRot (kagome_rot_nb _) fun _ _ => rfl)
  have h10 := hrot ((0, 0), 0)
  have h21 := hrot ((0, 0), 1)
  simp only [zero_add, show (1 : Fin 3) + 1 = 2 by decide] at h10 h21
  have htr := crystal3_trace (μ := bz2) hmat hB (mul_pos (norm_pos_iff.2 hz2) hc) hdet
  have hint : Integrable (fun k => (z - D / 3) / ((z - D / 3) ^ 2 - (D / 3 : ℂ) ^ 2 * (3 + 2 * (triSum k : ℂ)))) bz2 := by
    have := measurable_triSum
    refine Integrable.of_bound (Measurable.aestronglyMeasurable (by fun_prop)) (‖z - D / 3‖ / c)
      (Filter.Eventually.of_forall fun k => ?_)
    rw [norm_div]
    exact div_le_div_of_nonneg_left (norm_nonneg _) hc (hcz k)
  have hval : (∫ k, (adj3 z (kagomeMat (D / 3) k) 0 0 + adj3 z (kagomeMat (D / 3) k) 1 1 + adj3 z (kagomeMat (D / 3) k) 2 2)
      / det3 z (kagomeMat (D / 3) k) ∂bz2) = 1 / (z + 2 * ((D / 3 : ℝ) : ℂ)) + 2 *
      ∫ k, (z - D / 3) / ((z - D / 3) ^ 2 - (D / 3 : ℂ) ^ 2 * (3 + 2 * (triSum k : ℂ))) ∂bz2 := by
    rw [← integral_const_mul]
    have e0 : (1 / (z + 2 * ((D / 3 : ℝ) : ℂ)) : ℂ) = ∫ _ : ℝ × ℝ, 1 / (z + 2 * ((D / 3 : ℝ) : ℂ)) ∂bz2 := by simp
    rw [e0, ← integral_add (integrable_const _) (hint.const_mul 2)]
    congr 1
    funext k
    have hQ : (z - D / 3) ^ 2 - (D / 3 : ℂ) ^ 2 * (3 + 2 * (triSum k : ℂ)) ≠ 0 := fun h => by
      have := hcz k
      rw [h, norm_zero] at this
      linarith
    rw [kagome_trace, kagome_det]
    push_cast at hz2 ⊢
    generalize (z - D / 3 : ℂ) ^ 2 - (D / 3 : ℂ) ^ 2 * (3 + 2 * (triSum k : ℂ)) = Q at *
    generalize (z + 2 * (D / 3) : ℂ) = w at *
    field_simp
  rw [htr.symm] at hval
  have hall : ∀ i : Fin 3, (∫ k, adj3 z (kagomeMat (D / 3) k) i i / det3 z (kagomeMat (D / 3) k) ∂bz2)
      = ∫ k, adj3 z (kagomeMat (D / 3) k) 0 0 / det3 z (kagomeMat (D / 3) k) ∂bz2 := by
    intro i
    fin_cases i
    · rfl
    · exact h10
    · exact h21.trans h10
  have hr := hg r
  rw [hall] at hr
  rw [h21, h10] at hval
  have e1 : (1 / (3 * z + 2 * D) : ℂ) = 1 / 3 * (1 / (z + 2 * ((D / 3 : ℝ) : ℂ))) := by
    have : (3 * z + 2 * D : ℂ) = 3 * (z + 2 * ((D / 3 : ℝ) : ℂ)) := by
      push_cast
      ring
    rw [this]
    field_simp
  rw [e1]
  have e2 : (1 / 3 * (1 / (z + 2 * ((D / 3 : ℝ) : ℂ))) : ℂ) + 2 / 3 *
      (∫ k, (z - D / 3) / ((z - D / 3) ^ 2 - (D / 3 : ℂ) ^ 2 * (3 + 2 * (triSum k : ℂ))) ∂bz2)
      = ∫ k, adj3 z (kagomeMat (D / 3) k) 0 0 / det3 z (kagomeMat (D / 3) k) ∂bz2 := by
    linear_combination -hval / 3
  rw [e2]
  exact hr

lemma kagome_off {D : ℝ} (hD : 0 < D) {z : ℂ} (hz : ∀ e ∈ Set.Icc (-(2 / 3 * D)) (4 / 3 * D), z ≠ (e : ℂ)) :
    OffBand (z - D / 3) D ∧ 3 * z + 2 * D ≠ 0 := by
  constructor
  · intro e he h
    obtain ⟨h1, h2⟩ := abs_le.1 he
    refine hz (e + D / 3) ⟨by linarith, by linarith⟩ ?_
    push_cast
    rw [← h]
    ring
  · intro h
    refine hz (-(2 / 3 * D)) ⟨le_rfl, by linarith⟩ ?_
    push_cast
    linear_combination h / 3

/-- C64 (partial): `kagome_gf_z` is the local Green's function of electrons which hop with the amplitude `D/3` between
neighbouring sites of the kagome lattice. What is missing: frequencies where the elliptic integral is evaluated on its
cut. -/
theorem kagome_real_space_partial {ellipk : ℂ → ℂ} (hk : EllipkContract ellipk) {D : ℝ} (hD : 0 < D) {z : ℂ}
    (hz : ∀ e ∈ Set.Icc (-(2 / 3 * D)) (4 / 3 * D), z ≠ (e : ℂ)) (hr : HoneycombRegular (z - D / 3) D)
    (r : (ℤ × ℤ) × Fin 3) :
    LocalGreen (crystalHopping kagomeBonds (D / 3)) r z
      (kagomeGfZ (fun z D => (triangularGfZ ellipk z D).getD 0) z D) := by
  obtain ⟨h1, h2⟩ := kagome_off hD hz
  unfold kagomeGfZ
  simp only
  rw [honeycomb_integral hD (by
    have h := honeycomb_arg hD h1
    rw [(triangular_gf_z_partial hk (by norm_num) h.1 h.2 hr).1]
    rfl)]
  exact kagome_localGreen hD h1 h2 r

/-- C64: the same for all frequencies off the band, with the boundary value from above on the cut. -/
theorem kagome_real_space_up {D : ℝ} (hD : 0 < D) {z : ℂ}
    (hz : ∀ e ∈ Set.Icc (-(2 / 3 * D)) (4 / 3 * D), z ≠ (e : ℂ)) (r : (ℤ × ℤ) × Fin 3) :
    LocalGreen (crystalHopping kagomeBonds (D / 3)) r z
      (kagomeGfZ (fun z D => (triangularGfZ ellipKUp z D).getD 0) z D) := by
  obtain ⟨h1, h2⟩ := kagome_off hD hz
  unfold kagomeGfZ
  simp only
  rw [honeycomb_integral hD (by
    have h := honeycomb_arg hD h1
    rw [triangular_gf_z_up (by norm_num) h.1 h.2]
    rfl)]
  exact kagome_localGreen hD h1 h2 r

/-- Hopping matrix of the Lieb lattice. -/
noncomputable def liebMat (t : ℝ) (k : ℝ × ℝ) (i j : Fin 3) : ℂ :=
  if i = 0 then (if j = 0 then 0 else (t : ℂ) * (1 + wave2 (if j = 1 then (-1, 0) else (0, -1)) k))
  else if j = 0 then (t : ℂ) * (1 + wave2 (if i = 1 then (1, 0) else (0, 1)) k) else 0

/-- The plane waves of the two directions of the square lattice. -/
lemma wave2_rel (k : ℝ × ℝ) : ∃ a b a' b' : ℂ, wave2 (1, 0) k = a ∧ wave2 (0, 1) k = b ∧ wave2 (-1, 0) k = a' ∧
    wave2 (0, -1) k = b' ∧ wave2 (0, 0) k = 1 ∧
    a * a' = 1 ∧ b * b' = 1 ∧ a + a' + b + b' = 2 * ((Real.cos k.1 + Real.cos k.2 : ℝ) : ℂ) := by
  have h1 := wave1_cos k.1
  have h2 := wave1_cos k.2
  have h3 := wave1_neg_mul k.1
  have h4 := wave1_neg_mul k.2
  refine ⟨_, _, _, _, rfl, rfl, rfl, rfl, ?_, ?_, ?_, ?_⟩ <;> simp only [wave2, wave1_zero, one_mul, mul_one]
  · exact h3
  · exact h4
  · rw [Complex.ofReal_add]
    linear_combination h1 + h2

lemma lieb_bonds_sum (t : ℝ) (i : Fin 3) (k : ℝ × ℝ) (x : Fin 3 → ℂ) :
    ∑ b ∈ liebBonds i, (t : ℂ) * (wave2 b.1 k * x b.2) = ∑ j, liebMat t k i j * x j := by
  obtain ⟨-, -, -, -, -, -, -, -, h0, -⟩ := wave2_rel k
  rw [Fin.sum_univ_three]
  fin_cases i <;> simp only [Fin.zero_eta, Fin.mk_one, Fin.reduceFinMk, liebBonds, liebMat]
  · rw [Finset.sum_insert (by decide), Finset.sum_insert (by decide), Finset.sum_insert (by decide),
      Finset.sum_singleton]
    simp [h0]
    ring
  · rw [Finset.sum_insert (by decide), Finset.sum_singleton]
    simp [h0]
    ring
  · rw [Finset.sum_insert (by decide), Finset.sum_singleton]
    simp [h0]
    ring

lemma lieb_det (t : ℝ) (z : ℂ) (k : ℝ × ℝ) :
    det3 z (liebMat t k) = z * (z ^ 2 - (t : ℂ) ^ 2 * (4 + 2 * ((Real.cos k.1 + Real.cos k.2 : ℝ) : ℂ))) := by
  obtain ⟨a, b, a', b', h1, h2, h3, h4, h0, ha, hb, hs⟩ := wave2_rel k
  rw [← hs]
  unfold det3 liebMat
  simp [h1, h2, h3, h4]
  linear_combination (-z * (t : ℂ) ^ 2) * (ha + hb)

lemma lieb_trace (t : ℝ) (z : ℂ) (k : ℝ × ℝ) :
    adj3 z (liebMat t k) 0 0 + adj3 z (liebMat t k) 1 1 + adj3 z (liebMat t k) 2 2
      = z ^ 2 - (t : ℂ) ^ 2 * (4 + 2 * ((Real.cos k.1 + Real.cos k.2 : ℝ) : ℂ)) + 2 * z * z := by
  obtain ⟨a, b, a', b', h1, h2, h3, h4, h0, ha, hb, hs⟩ := wave2_rel k
  rw [← hs]
  unfold adj3 liebMat
  simp [h1, h2, h3, h4, show (1 : Fin 3) + 1 = 2 by decide, show (2 : Fin 3) + 1 = 0 by decide,
    show (2 : Fin 3) + 2 = 1 by decide, show (1 : Fin 3) + 2 = 0 by decide]
  linear_combination (-(t : ℂ) ^ 2) * (ha + hb)

/-- C64: `lieb_gf_z` is the average over the unit cell of the local Green's functions of electrons which hop with the
amplitude `D / 2^(3/2)` between neighbouring sites of the Lieb lattice. -/
theorem lieb_real_space {ellipk : ℂ → ℂ} (hk : EllipkContract ellipk) {D : ℝ} (hD : 0 < D) {z : ℂ}
    (hz : OffBand z D) (v : ℤ × ℤ) :
    ∃ g : Fin 3 → ℂ, (∀ i, LocalGreen (crystalHopping liebBonds (D * 2 ^ (-1.5 : ℝ))) (v, i) z (g i)) ∧
      liebGfZ (squareGfZ ellipk) z D = (g 0 + g 1 + g 2) / 3 := by
  obtain ⟨t, ht⟩ : ∃ t : ℝ, t = D * 2 ^ (-1.5 : ℝ) := ⟨_, rfl⟩
  have ht0 : 0 < t := by rw [ht]; positivity
  have ht2 : t ^ 2 * 8 = D ^ 2 := by
    rw [ht, mul_pow, ← Real.rpow_natCast (2 ^ (-1.5 : ℝ)), ← Real.rpow_mul (by norm_num)]
    norm_num
    ring
  have htc : (t : ℂ) ≠ 0 := by exact_mod_cast ht0.ne'
  have hz0 : z ≠ 0 := hz.ne_zero hD
  obtain ⟨c, hc, hcz⟩ := offBand_dist (z := z) (a := -D) (b := D) fun e h1 h2 => hz e (abs_le.2 ⟨h1, h2⟩)
  have hcos : ∀ k : ℝ × ℝ, -2 ≤ Real.cos k.1 + Real.cos k.2 ∧ Real.cos k.1 + Real.cos k.2 ≤ 2 := fun k =>
    ⟨by linarith [Real.neg_one_le_cos k.1, Real.neg_one_le_cos k.2], by linarith [Real.cos_le_one k.1, Real.cos_le_one k.2]⟩
  have hQ : ∀ k : ℝ × ℝ, c * c ≤ ‖z ^ 2 - (t : ℂ) ^ 2 * (4 + 2 * ((Real.cos k.1 + Real.cos k.2 : ℝ) : ℂ))‖ := by
    intro k
    obtain ⟨h1, h2⟩ := hcos k
    set s := Real.cos k.1 + Real.cos k.2
    have hs0 : 0 ≤ 4 + 2 * s := by linarith
    set w := t * √(4 + 2 * s) with hw
    have hw0 : 0 ≤ w := by positivity
    have hw2 : w ^ 2 = t ^ 2 * (4 + 2 * s) := by rw [hw, mul_pow, Real.sq_sqrt hs0]
    have hwD : w ≤ D := by
      refine le_of_sq_le_sq ?_ hD.le
      rw [hw2, ← ht2]
      exact mul_le_mul_of_nonneg_left (by linarith) (sq_nonneg t)
    have e : z ^ 2 - (t : ℂ) ^ 2 * (4 + 2 * (s : ℂ)) = (z - (w : ℂ)) * (z - ((-w : ℝ) : ℂ)) := by
      have : (w : ℂ) ^ 2 = (t : ℂ) ^ 2 * (4 + 2 * (s : ℂ)) := by exact_mod_cast hw2
      rw [← this]
      push_cast
      ring
    rw [e, norm_mul]
    exact mul_le_mul (hcz _ (by linarith) hwD) (hcz _ (by linarith) (by linarith)) hc.le (norm_nonneg _)
  have hm := wave2_bloch.meas
  have hdet : ∀ k, ‖z‖ * (c * c) ≤ ‖det3 z (liebMat t k)‖ := by
    intro k
    rw [lieb_det, norm_mul]
    exact mul_le_mul_of_nonneg_left (hQ k) (norm_nonneg _)
  have hmat : ∀ i j, Measurable fun k => liebMat t k i j := by
    intro i j
    unfold liebMat
    by_cases hi : i = 0 <;> by_cases hj : j = 0 <;> simp only [hi, hj, if_true, if_false]
    · exact measurable_const
    · exact measurable_const.mul (measurable_const.add (hm _))
    · exact measurable_const.mul (measurable_const.add (hm _))
    · exact measurable_const
  have hB : ∀ i j k, ‖liebMat t k i j‖ ≤ 2 * t := by
    intro i j k
    have key : ∀ n : ℤ × ℤ, ‖(t : ℂ) * (1 + wave2 n k)‖ ≤ 2 * t := by
      intro n
      rw [norm_mul, Complex.norm_real, Real.norm_of_nonneg ht0.le]
      have h1 := norm_add_le 1 (wave2 n k)
      rw [wave2_norm, norm_one] at h1
      nlinarith
    unfold liebMat
    by_cases hi : i = 0 <;> by_cases hj : j = 0 <;> simp only [hi, hj, if_true, if_false]
    · simpa using ht0.le
    · exact key _
    · exact key _
    · simpa using ht0.le
  have hdpos := mul_pos (norm_pos_iff.2 hz0) (mul_pos hc hc)
  have hg := crystal3_localGreen wave2_bloch wave2_add wave2_norm (bonds := liebBonds) (t := t) (by decide)
    (h := liebMat t) hmat hB (fun i k => by fin_cases i <;> simp [liebMat]) hdpos hdet (lieb_bonds_sum t)
  rw [← ht]
  refine ⟨fun i => ∫ k, adj3 z (liebMat t k) i i / det3 z (liebMat t k) ∂bz2, fun i => hg (v, i), ?_⟩
  rw [crystal3_trace (μ := bz2) hmat hB hdpos hdet]
  have hoff : OffBand ((z / t) ^ 2 - 4) 4 := by
    intro e he h
    obtain ⟨h1, h2⟩ := abs_le.1 he
    have hs0 : 0 ≤ 4 + e := by linarith
    set w := t * √(4 + e) with hw
    have hw0 : 0 ≤ w := by positivity
    have hw2 : w ^ 2 = t ^ 2 * (4 + e) := by rw [hw, mul_pow, Real.sq_sqrt hs0]
    have hwD : w ≤ D := by
      refine le_of_sq_le_sq ?_ hD.le
      rw [hw2, ← ht2]
      exact mul_le_mul_of_nonneg_left (by linarith) (sq_nonneg t)
    have h3 : z ^ 2 = (w : ℂ) ^ 2 := by
      have : (w : ℂ) ^ 2 = (t : ℂ) ^ 2 * (4 + e) := by exact_mod_cast hw2
      rw [this, ← h]
      field_simp
      ring
    rcases sq_eq_sq_iff_eq_or_eq_neg.1 h3 with h4 | h4
    · exact hz _ (by rwa [abs_of_nonneg hw0]) h4
    · refine hz (-w) (by rwa [abs_neg, abs_of_nonneg hw0]) ?_
      rw [h4]
      push_cast
      rfl
  have hint : Integrable (fun k : ℝ × ℝ => z / (z ^ 2 - (t : ℂ) ^ 2 * (4 + 2 * ((Real.cos k.1 + Real.cos k.2 : ℝ) : ℂ)))) bz2 := by
    refine Integrable.of_bound (Measurable.aestronglyMeasurable (by fun_prop)) (‖z‖ / (c * c))
      (Filter.Eventually.of_forall fun k => ?_)
    rw [norm_div]
    exact div_le_div_of_nonneg_left (norm_nonneg _) (mul_pos hc hc) (hQ k)
  have hval : (∫ k, (adj3 z (liebMat t k) 0 0 + adj3 z (liebMat t k) 1 1 + adj3 z (liebMat t k) 2 2)
      / det3 z (liebMat t k) ∂bz2) = 1 / z + 2 *
      ∫ k : ℝ × ℝ, z / (z ^ 2 - (t : ℂ) ^ 2 * (4 + 2 * ((Real.cos k.1 + Real.cos k.2 : ℝ) : ℂ))) ∂bz2 := by
    rw [← integral_const_mul]
    have e0 : (1 / z : ℂ) = ∫ _ : ℝ × ℝ, 1 / z ∂bz2 := by simp
    rw [e0, ← integral_add (integrable_const _) (hint.const_mul 2)]
    congr 1
    funext k
    have hne : z ^ 2 - (t : ℂ) ^ 2 * (4 + 2 * ((Real.cos k.1 + Real.cos k.2 : ℝ) : ℂ)) ≠ 0 := fun h => by
      have := hQ k
      rw [h, norm_zero] at this
      nlinarith
    rw [lieb_trace, lieb_det]
    generalize z ^ 2 - (t : ℂ) ^ 2 * (4 + 2 * ((Real.cos k.1 + Real.cos k.2 : ℝ) : ℂ)) = Q at *
    field_simp
    try ring
  rw [hval]
  unfold liebGfZ
  simp only
  rw [← ht, (square_gf_z_contract hk.off (by norm_num) hoff).1, bzGreen, ← integral_const_mul, add_div]
  have e5 : ∀ k : ℝ × ℝ, 2 / (3 * (t : ℂ)) * (z / t) * (1 / ((z / t) ^ 2 - 4 - (squareDisp 4 k : ℂ)))
      = 2 / 3 * (z / (z ^ 2 - (t : ℂ) ^ 2 * (4 + 2 * ((Real.cos k.1 + Real.cos k.2 : ℝ) : ℂ)))) := by
    intro k
    have e3 : (z / t) ^ 2 - 4 - (squareDisp 4 k : ℂ)
        = 1 / (t : ℂ) ^ 2 * (z ^ 2 - (t : ℂ) ^ 2 * (4 + 2 * ((Real.cos k.1 + Real.cos k.2 : ℝ) : ℂ))) := by
      unfold squareDisp
      push_cast
      field_simp
      ring
    rw [e3]
    generalize z ^ 2 - (t : ℂ) ^ 2 * (4 + 2 * ((Real.cos k.1 + Real.cos k.2 : ℝ) : ℂ)) = Q at *
    rw [one_div, mul_inv, one_div, inv_inv, div_eq_mul_inv z Q]
    field_simp
  simp only [e5]
  rw [integral_const_mul]
  ring

/-! The hypotheses are met, for example at `z = i`. -/

example : LocalGreen (bravaisHopping squareOffs fun _ => 2 / 4) (1, 3) Complex.I (squareGfZ ellipK Complex.I 2) :=
  square_real_space EllipkContract.exact (by norm_num) (fun e _ h => by simpa using congrArg Complex.im h) _

example : LocalGreen (sublatticeHopping bccLattice bccOffs (2 / 8)) ⟨(1, 3, -1), by decide⟩ Complex.I
    (bccGfZ ellipK Complex.I 2) :=
  bcc_real_space EllipkContract.exact (by norm_num) (fun e _ h => by simpa using congrArg Complex.im h) _

lemma triangular_regular_11 : ¬triangularOnCut (triangularArg 11 (9 / 4)) := by
  have ha : triangularArg 11 (9 / 4) = 11 := by
    unfold triangularArg
    rw [if_neg (by norm_num)]
    push_cast
    norm_num
  have hr : Complex.sqrt (2 * 11 + 3) = 5 := sqrt_unique (by norm_num) (by norm_num)
  rw [ha, triangularOnCut, triangularGK_eq (by norm_num), hr]
  simp only
  rintro ⟨m, hm, h⟩
  rw [triK_sq] at h
  have h2 : ((5 / 32 : ℝ) : ℂ) = m := by
    rw [← h]
    push_cast
    norm_num
  have h3 : 5 / 32 = m := Complex.ofReal_injective h2
  linarith

example : ∃ g, triangularGfZ ellipK 11 (9 / 4) = some g ∧
    LocalGreen (sublatticeHopping triangularLattice triangularOffs (2 * (9 / 4) / 9)) ⟨(1, 3), by decide⟩ 11 g :=
  triangular_real_space_partial .exact (by norm_num) (fun e he h => by
    have : (11 : ℝ) = e := by exact_mod_cast h
    linarith [he.2]) (by norm_num) triangular_regular_11 _

example : LocalGreen (crystalHopping honeycombBonds (1.5 / 3)) ((1, 3), 1) 2.5
    (honeycombGfZ (fun z D => (triangularGfZ ellipK z D).getD 0) 2.5 1.5) := by
  refine honeycomb_real_space_partial .exact (by norm_num) (fun e he h => ?_) ?_ _
  · have : (2.5 : ℝ) = e := by
      apply Complex.ofReal_injective
      rw [← h]
      norm_num
    have := (abs_le.1 he).2
    norm_num at *
    linarith
  · unfold HoneycombRegular
    convert triangular_regular_11 using 3
    norm_num

example : LocalGreen (sublatticeHopping fccLattice fccOffs (2 / 8)) ⟨(1, 3, 0), by decide⟩ (3 * Complex.I)
    (fccGfZ ellipK (3 * Complex.I) 2) :=
  fcc_real_space_partial .exact (by norm_num) (fun e _ h => by simpa using congrArg Complex.im h) (fcc_regular_of_far (by norm_num) (by
    have h := Complex.abs_im_le_norm (3 * Complex.I + ((2 : ℝ) : ℂ) / 2)
    have e : (3 * Complex.I + ((2 : ℝ) : ℂ) / 2).im = 3 := by simp
    rw [e, abs_of_pos (by norm_num)] at h
    linarith)) _

example : LocalGreen (crystalHopping kagomeBonds (2 / 3)) ((1, 3), 1) Complex.I
    (kagomeGfZ (fun z D => (triangularGfZ ellipKUp z D).getD 0) Complex.I 2) :=
  kagome_real_space_up (by norm_num) (fun e _ h => by simpa using congrArg Complex.im h) _

example : ∃ g : Fin 3 → ℂ, (∀ i, LocalGreen (crystalHopping liebBonds (2 * 2 ^ (-1.5 : ℝ))) ((1, 3), i) Complex.I (g i)) ∧
    liebGfZ (squareGfZ ellipK) Complex.I 2 = (g 0 + g 1 + g 2) / 3 :=
  lieb_real_space EllipkContract.exact (by norm_num) (fun e _ h => by simpa using congrArg Complex.im h) _

end Gftool.Props
