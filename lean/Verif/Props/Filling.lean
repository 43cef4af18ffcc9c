import Verif.Lemmas.Filling
import Verif.Props.Causal
import Verif.Props.Density
import Verif.Props.DensityTail
import Verif.Props.PadeFreqFull

/-!
# C80: fillings and chemical potentials of lattice models
-/

namespace Gftool.Props

open Gftool Model Spec Lemmas MeasureTheory Filter Topology

variable {dos : ℝ → ℝ} {gf : ℂ → ℂ} {a b w : ℝ}

/-! ## The filling -/

/-- C80: the filling is a continuous, strictly increasing function of the chemical potential, from empty to full. -/
theorem filling_monotone (h : HilbertPair dos gf a b w) (hw : 0 < w) {β : ℝ} (hb : 0 < β) :
    StrictMono (filling dos β) ∧ Continuous (filling dos β) ∧ Tendsto (filling dos β) atBot (𝓝 0) ∧
      Tendsto (filling dos β) atTop (𝓝 w) ∧
      ∀ μ, w * fermi β (b - μ) ≤ filling dos β μ ∧ filling dos β μ ≤ w * fermi β (a - μ) := by
  have hcont : ∀ μ : ℝ, ContinuousOn (fun e => fermi β (e - μ)) (Set.Icc a b) := fun μ =>
    ((fermi_continuous' β).comp (by fun_prop)).continuousOn
  have hbound : ∀ μ, w * fermi β (b - μ) ≤ filling dos β μ ∧ filling dos β μ ≤ w * fermi β (a - μ) := fun μ => by
    constructor
    · rw [← hp_const h]
      exact hp_mono h continuousOn_const (hcont μ) fun e he => (fermi_strictAnti hb).antitone (by linarith [he.2])
    · rw [← hp_const h]
      exact hp_mono h (hcont μ) continuousOn_const fun e he => (fermi_strictAnti hb).antitone (by linarith [he.1])
  have htop : Tendsto (fun μ : ℝ => -μ) atTop atBot := tendsto_neg_atTop_atBot
  have hbot : Tendsto (fun μ : ℝ => -μ) atBot atTop := tendsto_neg_atBot_atTop
  refine ⟨fun μ ν hμ => hp_lt h hw (hcont μ) (hcont ν) fun e _ => fermi_strictAnti hb (by linarith), ?_, ?_, ?_, hbound⟩
  · refine continuous_of_dominated (bound := dos) ?_ ?_ h.integrable ?_
    · exact fun μ => (filling_int h β μ).aestronglyMeasurable
    · refine fun μ => Eventually.of_forall fun e => ?_
      have hf := fermi_mem β (e - μ)
      rw [norm_mul, Real.norm_of_nonneg (h.nonneg e), Real.norm_of_nonneg hf.1.le]
      exact mul_le_of_le_one_right (h.nonneg e) hf.2.le
    · exact Eventually.of_forall fun e => continuous_const.mul ((fermi_continuous' β).comp (by fun_prop))
  · have h1 : Tendsto (fun μ => w * fermi β (a - μ)) atBot (𝓝 (w * 0)) :=
      ((fermi_tendsto_top hb).comp (tendsto_atTop_add_const_left _ a hbot)).const_mul w
    rw [mul_zero] at h1
    have h2 : Tendsto (fun μ => w * fermi β (b - μ)) atBot (𝓝 (w * 0)) :=
      ((fermi_tendsto_top hb).comp (tendsto_atTop_add_const_left _ b hbot)).const_mul w
    rw [mul_zero] at h2
    exact tendsto_of_tendsto_of_tendsto_of_le_of_le h2 h1 (fun μ => (hbound μ).1) fun μ => (hbound μ).2
  · have h1 : Tendsto (fun μ => w * fermi β (a - μ)) atTop (𝓝 (w * 1)) :=
      ((fermi_tendsto_bot hb).comp (tendsto_atBot_add_const_left _ a htop)).const_mul w
    rw [mul_one] at h1
    have h2 : Tendsto (fun μ => w * fermi β (b - μ)) atTop (𝓝 (w * 1)) :=
      ((fermi_tendsto_bot hb).comp (tendsto_atBot_add_const_left _ b htop)).const_mul w
    rw [mul_one] at h2
    exact tendsto_of_tendsto_of_tendsto_of_le_of_le h2 h1 (fun μ => (hbound μ).1) fun μ => (hbound μ).2

/-- C80: every filling between empty and full belongs to exactly one chemical potential. -/
theorem filling_exists_unique (h : HilbertPair dos gf a b w) (hw : 0 < w) {β : ℝ} (hb : 0 < β) {n : ℝ} (hn : 0 < n)
    (hn1 : n < w) : ∃! μ, filling dos β μ = n := by
  obtain ⟨hm, hc, h0, h1, -⟩ := filling_monotone h hw hb
  obtain ⟨μ₁, hμ₁⟩ := (h0.eventually (gt_mem_nhds hn)).exists
  obtain ⟨μ₂, hμ₂⟩ := (h1.eventually (lt_mem_nhds hn1)).exists
  obtain ⟨μ, hμ⟩ := mem_range_of_exists_le_of_exists_ge hc ⟨μ₁, hμ₁.le⟩ ⟨μ₂, hμ₂.le⟩
  exact ⟨μ, hμ, fun ν hν => hm.injective (hν.trans hμ.symm)⟩

/-- C80: particle-hole symmetry; a symmetric band is half filled at zero. -/
theorem filling_symmetric (h : HilbertPair dos gf a b w) (hs : ∀ e, dos (-e) = dos e) (β μ : ℝ) :
    filling dos β (-μ) = w - filling dos β μ ∧ filling dos β 0 = w / 2 := by
  have h1 : ∀ ν, filling dos β (-ν) = w - filling dos β ν := fun ν => by
    have e1 : filling dos β (-ν) = ∫ e, (dos e - dos e * fermi β (e - ν)) := by
      unfold filling
      rw [← integral_neg_eq_self]
      refine integral_congr_ae (Eventually.of_forall fun e => ?_)
      simp only
      rw [hs, show -e - -ν = -(e - ν) by ring, fermi_neg']
      ring
    rw [e1, integral_sub h.integrable (filling_int h β ν), h.norm]
    rfl
  refine ⟨h1 μ, ?_⟩
  have := h1 0
  rw [neg_zero] at this
  linarith

/-! ## `density_iw` -/

/-- The result of `density_iw` for frequencies on the imaginary axis. -/
lemma density_quad (ext : LinalgExt ℝ) (h : HilbertPair dos gf a b w) {β : ℝ} (hb : 0 < β) (μ : ℝ) {k l : ℕ}
    (iws : Fin k → ℂ) (him : ∀ i, 0 < (iws i).im) (weights : Fin k → ℝ)
    (moments : Fin (l + 1) → ℝ) {J : ℕ} (hJ : 2 * J ≤ l + 1) (hm0 : moments 0 = w)
    (hm : ∀ m : Fin (l + 1), (m : ℕ) < 2 * J → moments m = shiftedMoment dos μ m) (c : ℕ → ℝ) (E : ℝ → ℝ) (hE : Continuous E)
    (hc : ∀ x, |fermi β x - quadFermi iws weights β x - ∑ i ∈ Finset.range J, c i * x ^ (2 * i + 1)| ≤ E x) :
    ∃ g : PoleFct ℝ (l + 1), gfFromMoments moments none = .ok g ∧
    ∃ d, densityIw ext iws (fun i => gf (iws i + μ)) β weights moments 0 = .ok d ∧
      |d - filling dos β μ| ≤ (∫ e, dos e * E (e - μ)) + ∑ j, |g.residues j| * E (g.poles j) := by
  obtain ⟨g, hg, hmom, hd⟩ := density_iw_eq ext iws (fun i => gf (iws i + μ)) β weights moments
  refine ⟨g, hg, _, hd, ?_⟩
  have hres : ∑ j, g.residues j = w := by
    have := hmom 0
    simp only [Fin.val_zero, pow_zero, mul_one] at this
    rw [this, hm0]
  have hoff : ∀ i, ∀ e ∈ Set.Icc a b, iws i + (μ : ℂ) ≠ (e : ℂ) := fun i =>
    off_of_im (by simpa using (him i).ne')
  have hne : ∀ i (x : ℝ), iws i - (x : ℂ) ≠ 0 := fun i x hx => by
    have := congrArg Complex.im hx
    simp at this
    exact (him i).ne' this
  have hcr : ∀ i, Continuous fun x : ℝ => (1 / (iws i - (x : ℂ))).re := fun i => by
    refine Complex.continuous_re.comp (continuous_const.div (by fun_prop) fun x => hne i x)
  have hq : Continuous (quadFermi iws weights β) := by
    unfold quadFermi
    exact continuous_const.add (continuous_const.mul (continuous_finset_sum _ fun i _ => continuous_const.mul (hcr i)))
  have hsh : ∀ {f : ℝ → ℝ}, Continuous f → ContinuousOn (fun e => f (e - μ)) (Set.Icc a b) := fun hf =>
    (hf.comp (by fun_prop)).continuousOn
  -- data
  have hgfre : ∀ i, (gf (iws i + μ)).re = ∫ e, dos e * (1 / (iws i - ((e - μ : ℝ) : ℂ))).re := fun i => by
    rw [hp_re h (hoff i)]
    refine integral_congr_ae (Eventually.of_forall fun e => ?_)
    simp only
    rw [show iws i + (μ : ℂ) - e = iws i - ((e - μ : ℝ) : ℂ) by push_cast; ring]
  have e1 : 2 / β * (∑ i, weights i * (gf (iws i + μ)).re) = (∫ e, dos e * quadFermi iws weights β (e - μ)) - w / 2 := by
    have : ∀ e, dos e * quadFermi iws weights β (e - μ)
        = dos e * (1 / 2) + ∑ i, 2 / β * weights i * (dos e * (1 / (iws i - ((e - μ : ℝ) : ℂ))).re) := fun e => by
      unfold quadFermi
      rw [mul_add, Finset.mul_sum, Finset.mul_sum]
      congr 1
      exact Finset.sum_congr rfl fun i _ => by ring
    simp only [this]
    rw [integral_add (hp_int_real h continuousOn_const), integral_finsetSum, hp_const h, Finset.mul_sum]
    · simp only [integral_const_mul, ← hgfre]
      have : ∑ i, 2 / β * (weights i * (gf (iws i + μ)).re) = ∑ i, 2 / β * weights i * (gf (iws i + μ)).re :=
        Finset.sum_congr rfl fun i _ => by ring
      rw [this]
      ring
    · exact fun i _ => (hp_int_real h (hsh (hcr i))).const_mul _
    · exact integrable_finsetSum _ fun i _ => (hp_int_real h (hsh (hcr i))).const_mul _
  have e2 : 2 / β * (∑ i, weights i * rePole g (iws i)) = (∑ j, g.residues j * quadFermi iws weights β (g.poles j)) - w / 2 := by
    have h1 : ∀ i, rePole g (iws i) = ∑ j, g.residues j * (1 / (iws i - (g.poles j : ℂ))).re := fun i => by
      rw [rePole, Complex.re_sum]
      refine Finset.sum_congr rfl fun j _ => ?_
      rw [div_eq_mul_one_div, Complex.re_ofReal_mul]
    have h2 : ∀ j, g.residues j * quadFermi iws weights β (g.poles j)
        = g.residues j * (1 / 2) + 2 / β * ∑ i, weights i * (g.residues j * (1 / (iws i - (g.poles j : ℂ))).re) := fun j => by
      unfold quadFermi
      rw [mul_add, mul_left_comm, Finset.mul_sum]
      congr 2
      exact Finset.sum_congr rfl fun i _ => by ring
    simp only [h1, h2]
    rw [Finset.sum_add_distrib, ← Finset.sum_mul, hres, ← Finset.mul_sum, Finset.sum_comm]
    simp only [← Finset.mul_sum]
    ring
  -- error
  set R : ℝ → ℝ := fun x => fermi β x - quadFermi iws weights β x - ∑ i ∈ Finset.range J, c i * x ^ (2 * i + 1) with hR
  have hRc : Continuous R := ((fermi_continuous' β).sub hq).sub (by fun_prop)
  have hpolyc : Continuous fun x : ℝ => ∑ i ∈ Finset.range J, c i * x ^ (2 * i + 1) := by fun_prop
  have e3 : ∫ e, dos e * R (e - μ) = filling dos β μ - (∫ e, dos e * quadFermi iws weights β (e - μ))
      - ∑ i ∈ Finset.range J, c i * shiftedMoment dos μ (2 * i + 1) := by
    have : ∀ e, dos e * R (e - μ) = (dos e * fermi β (e - μ) - dos e * quadFermi iws weights β (e - μ))
        - ∑ i ∈ Finset.range J, c i * (dos e * (e - μ) ^ (2 * i + 1)) := fun e => by
      rw [hR]
      simp only
      rw [mul_sub, mul_sub, Finset.mul_sum]
      congr 1
      exact Finset.sum_congr rfl fun i _ => by ring
    simp only [this]
    have hi : ∀ i, Integrable fun e => dos e * (e - μ) ^ (2 * i + 1) := fun i =>
      hp_int_real h (hsh (f := fun x => x ^ (2 * i + 1)) (by fun_prop))
    rw [integral_sub, integral_sub (filling_int h β μ) (hp_int_real h (hsh hq)), integral_finsetSum]
    · simp only [integral_const_mul]
      rfl
    · exact fun i _ => (hi i).const_mul _
    · exact (filling_int h β μ).sub (hp_int_real h (hsh hq))
    · exact integrable_finsetSum _ fun i _ => (hi i).const_mul _
  have e4 : ∑ j, g.residues j * R (g.poles j) = (∑ j, g.residues j * fermi β (g.poles j))
      - (∑ j, g.residues j * quadFermi iws weights β (g.poles j))
      - ∑ i ∈ Finset.range J, c i * shiftedMoment dos μ (2 * i + 1) := by
    have h1 : ∀ i ∈ Finset.range J, c i * shiftedMoment dos μ (2 * i + 1) = ∑ j, g.residues j * (c i * g.poles j ^ (2 * i + 1)) := by
      intro i hi
      have hi' := Finset.mem_range.1 hi
      have h2 := hmom ⟨2 * i + 1, by omega⟩
      rw [hm _ (by simp only; omega)] at h2
      simp only at h2
      rw [← h2, Finset.mul_sum]
      exact Finset.sum_congr rfl fun j _ => by ring
    rw [Finset.sum_congr rfl h1, Finset.sum_comm, ← Finset.sum_sub_distrib, ← Finset.sum_sub_distrib]
    refine Finset.sum_congr rfl fun j _ => ?_
    rw [hR]
    simp only
    rw [mul_sub, mul_sub, Finset.mul_sum]
  have e5 : 2 / β * (∑ i, weights i * ((gf (iws i + μ)).re - rePole g (iws i))) + ∑ j, g.residues j * fermi β (g.poles j)
      - filling dos β μ = (∑ j, g.residues j * R (g.poles j)) - ∫ e, dos e * R (e - μ) := by
    simp only [mul_sub, Finset.sum_sub_distrib]
    rw [e1, e2, e3, e4]
    ring
  rw [e5]
  refine (abs_sub _ _).trans ?_
  rw [add_comm]
  refine add_le_add (hp_abs h (hsh hRc) (hsh hE) fun e _ => hc (e - μ)) ?_
  refine (Finset.abs_sum_le_sum_abs _ _).trans (Finset.sum_le_sum fun j _ => ?_)
  rw [abs_mul]
  exact mul_le_mul_of_nonneg_left (hc _) (abs_nonneg _)

/-- One moment is fitted by a pole at zero. -/
lemma from_one_moment {w : ℝ} {g : PoleFct ℝ 1} (hg : gfFromMoments ![w] none = .ok g) : g.poles 0 = 0 := by
  unfold gfFromMoments at hg
  simp only at hg
  split at hg
  · have := Except.ok.inj hg
    rw [← this]
    simp [chebyshevPoints]
  · exact absurd hg (by simp)

lemma matsubara_re_zero (n : ℕ) (β : ℝ) : (matsubaraFrequencies (n : ℕ) β).re = 0 := by
  simp [matsubaraFrequencies]

/-- Value of `density_iw` with the default treatment of the tail. -/
lemma density_iw_default (ext : LinalgExt ℝ) {k : ℕ} (iws : Fin k → ℂ) (hre : ∀ i, (iws i).re = 0) (β μ : ℝ)
    (weights : Fin k → ℝ) (w : ℝ) : densityIw ext iws (fun i => gf (iws i + μ)) β weights ![w] 0
      = .ok (w / 2 + 2 / β * ∑ i, weights i * (gf (iws i + μ)).re) := by
  obtain ⟨g, hg, hmom, hd⟩ := density_iw_eq ext iws (fun i => gf (iws i + μ)) β weights ![w]
  rw [hd]
  have h0 := from_one_moment hg
  have hres : g.residues 0 = w := by simpa using hmom 0
  have hp : ∀ i, rePole g (iws i) = 0 := fun i => by
    rw [rePole, Fin.sum_univ_one, h0, hres, Complex.ofReal_zero, sub_zero, div_eq_mul_inv, Complex.re_ofReal_mul,
      Complex.inv_re, hre, zero_div, mul_zero]
  simp only [hp, sub_zero, Fin.sum_univ_one, h0, hres]
  congr 1
  have : fermi β 0 = 1 / 2 := by simp [fermi]; norm_num
  rw [this]
  ring

/-- Largest distance of the band from the chemical potential. -/
noncomputable def bandRadius (a b μ : ℝ) : ℝ := max |a - μ| |b - μ|

lemma le_bandRadius {e μ : ℝ} (he : e ∈ Set.Icc a b) : |e - μ| ≤ bandRadius a b μ := by
  unfold bandRadius
  refine abs_le_max_abs_abs ?_ ?_ <;> linarith [he.1, he.2]

/-- C80: `density_iw` of the Green's function of a band at the first `N` Matsubara frequencies: with the `1/z` tail only,
the default, the error is at most of order `1/N`. -/
theorem density_iw_filling (ext : LinalgExt ℝ) (h : HilbertPair dos gf a b w) {β : ℝ} (hb : 0 < β) (μ : ℝ) {N : ℕ}
    (hN : 0 < N) : ∃ d, densityIw ext (fun i : Fin N => matsubaraFrequencies (i : ℕ) β)
        (fun i => gf (matsubaraFrequencies (i : ℕ) β + μ)) β (fun _ => 1) ![w] 0 = .ok d ∧
      |d - filling dos β μ| ≤ w * (bandRadius a b μ * β / (2 * Real.pi ^ 2 * N)) := by
  obtain ⟨c, hc⟩ := matsubara_remainder hb hN 0
  obtain ⟨g, hg, d, hd, he⟩ := density_quad ext h hb μ (fun i : Fin N => matsubaraFrequencies (i : ℕ) β)
    (fun i => matsubaraIm_pos hb i) (fun _ => 1) ![w] (J := 0) (by omega) rfl (fun m hm => by omega) c _ (by fun_prop) hc
  refine ⟨d, hd, he.trans ?_⟩
  rw [Fin.sum_univ_one, from_one_moment hg]
  simp only [mul_zero, pow_zero, one_mul, zero_add, pow_one, abs_zero, add_zero]
  rw [← hp_const h]
  have hpi := Real.pi_pos
  have hN' : (0 : ℝ) < N := by exact_mod_cast hN
  refine hp_mono h (by fun_prop) continuousOn_const fun e he => ?_
  calc β / (2 * Real.pi ^ 2 * N) * |e - μ| ≤ β / (2 * Real.pi ^ 2 * N) * bandRadius a b μ :=
        mul_le_mul_of_nonneg_left (le_bandRadius he) (by positivity)
    _ = _ := by ring

/-- C80: … with more moments it is of higher order: the first `2 J` correct moments give the order `2 J + 1`. -/
theorem density_iw_filling_moments (ext : LinalgExt ℝ) (h : HilbertPair dos gf a b w) {β : ℝ} (hb : 0 < β) (μ : ℝ) {l : ℕ}
    (moments : Fin (l + 1) → ℝ) {J : ℕ} (hJ : 2 * J ≤ l + 1) (hm0 : moments 0 = w)
    (hm : ∀ m : Fin (l + 1), (m : ℕ) < 2 * J → moments m = shiftedMoment dos μ m) :
    ∃ g : PoleFct ℝ (l + 1), gfFromMoments moments none = .ok g ∧ ∀ N : ℕ, 0 < N →
    ∃ d, densityIw ext (fun i : Fin N => matsubaraFrequencies (i : ℕ) β)
        (fun i => gf (matsubaraFrequencies (i : ℕ) β + μ)) β (fun _ => 1) moments 0 = .ok d ∧
      |d - filling dos β μ| ≤ (β / (2 * Real.pi * N)) ^ (2 * J) * (β / (2 * Real.pi ^ 2 * N)) *
        (w * bandRadius a b μ ^ (2 * J + 1) + ∑ j, |g.residues j| * |g.poles j| ^ (2 * J + 1)) := by
  obtain ⟨g, hg, -⟩ := density_iw_eq ext (k := 0) Fin.elim0 Fin.elim0 β Fin.elim0 moments
  refine ⟨g, hg, fun N hN => ?_⟩
  obtain ⟨c, hc⟩ := matsubara_remainder hb hN J
  obtain ⟨g', hg', d, hd, he⟩ := density_quad ext h hb μ (fun i : Fin N => matsubaraFrequencies (i : ℕ) β)
    (fun i => matsubaraIm_pos hb i) (fun _ => 1) moments hJ hm0 hm c _ (by fun_prop) hc
  obtain rfl : g' = g := Except.ok.inj (hg'.symm.trans hg)
  refine ⟨d, hd, he.trans ?_⟩
  have hpi := Real.pi_pos
  have hN' : (0 : ℝ) < N := by exact_mod_cast hN
  rw [mul_add, Finset.mul_sum]
  refine add_le_add ?_ (le_of_eq (Finset.sum_congr rfl fun j _ => by ring))
  rw [show ∀ C : ℝ, C * (w * bandRadius a b μ ^ (2 * J + 1)) = w * (C * bandRadius a b μ ^ (2 * J + 1)) by intro C; ring,
    ← hp_const h]
  refine hp_mono h (by fun_prop) continuousOn_const fun e he => ?_
  refine mul_le_mul_of_nonneg_left ?_ (by positivity)
  exact pow_le_pow_left₀ (abs_nonneg _) (le_bandRadius he) _

/-- C80: … and in any case it converges to the filling if the first moment is correct. -/
theorem density_iw_filling_tendsto (ext : LinalgExt ℝ) (h : HilbertPair dos gf a b w) {β : ℝ} (hb : 0 < β) (μ : ℝ) {l : ℕ}
    (moments : Fin (l + 1) → ℝ) (hm0 : moments 0 = w) :
    ∃ d : ℕ → ℝ, (∀ N, densityIw ext (fun i : Fin N => matsubaraFrequencies (i : ℕ) β)
        (fun i => gf (matsubaraFrequencies (i : ℕ) β + μ)) β (fun _ => 1) moments 0 = .ok (d N)) ∧
      Tendsto d atTop (𝓝 (filling dos β μ)) := by
  have hd : ∀ N : ℕ, ∃ d, densityIw ext (fun i : Fin N => matsubaraFrequencies (i : ℕ) β)
        (fun i => gf (matsubaraFrequencies (i : ℕ) β + μ)) β (fun _ => 1) moments 0 = .ok d := fun N => by
    obtain ⟨g, -, -, h⟩ := density_iw_eq ext (fun i : Fin N => matsubaraFrequencies (i : ℕ) β)
        (fun i => gf (matsubaraFrequencies (i : ℕ) β + μ)) β (fun _ => 1) moments
    exact ⟨_, h⟩
  choose d hd using hd
  refine ⟨d, hd, ?_⟩
  obtain ⟨g, -, hg⟩ := density_iw_filling_moments ext h hb μ moments (J := 0) (by omega) hm0 (fun m hm => by omega)
  rw [tendsto_iff_norm_sub_tendsto_zero]
  have hlim : Tendsto (fun N : ℕ => 1 / (N : ℝ) * (β / (2 * Real.pi ^ 2) * (w * bandRadius a b μ ^ (2 * 0 + 1)
      + ∑ j, |g.residues j| * |g.poles j| ^ (2 * 0 + 1)))) atTop (𝓝 0) := by
    have := tendsto_one_div_atTop_nhds_zero_nat.mul_const (β / (2 * Real.pi ^ 2) * (w * bandRadius a b μ ^ (2 * 0 + 1)
      + ∑ j, |g.residues j| * |g.poles j| ^ (2 * 0 + 1)))
    rwa [zero_mul] at this
  refine squeeze_zero' (Eventually.of_forall fun N => norm_nonneg _) ?_ hlim
  filter_upwards [eventually_gt_atTop 0] with N hN
  obtain ⟨d', hd', he⟩ := hg N hN
  rw [Except.ok.inj ((hd N).symm.trans hd'), Real.norm_eq_abs]
  refine he.trans (le_of_eq ?_)
  have hN' : (N : ℝ) ≠ 0 := by exact_mod_cast hN.ne'
  rw [mul_zero, pow_zero, one_mul]
  field_simp

/-- C80: at Padé frequencies the error decreases faster than exponentially in their number. -/
theorem density_izp_filling (ext : LinalgExt ℝ) {geig : GEig} (hgeig : ExactGEig geig) (h : HilbertPair dos gf a b w) {β : ℝ}
    (hb : 0 < β) (μ : ℝ) {num : ℕ} (hnum : 0 < num) :
    ∃ izp rp d, padeFrequencies geig num β = .ok (izp, rp) ∧
      densityIw ext izp (fun i => gf (izp i + μ)) β rp ![w] 0 = .ok d ∧
      |d - filling dos β μ| ≤ w * padeErr num (β * bandRadius a b μ) := by
  obtain ⟨izp, rp, hp, hre, -, -, hf⟩ := pade_frequencies_correct hgeig hnum hb
  have hq : ∀ x, quadFermi izp rp β x = fermiApprox (2 * num) (β * x) := fun x => by
    unfold quadFermi
    rw [izp_sum (fun i => (hre i).1) hf]
    ring
  obtain ⟨g, hg, d, hd, he⟩ := density_quad ext h hb μ izp (fun i => (hre i).2) rp ![w] (J := 0) (by omega) rfl
    (fun m hm => by omega) (fun _ => 0) (fun x => padeErr num (β * x)) (by unfold padeErr; fun_prop) (fun x => by
      rw [Finset.sum_range_zero, sub_zero, hq, abs_sub_comm]
      exact pade_fermi_error num hnum (β * x))
  refine ⟨izp, rp, d, hp, hd, he.trans ?_⟩
  rw [Fin.sum_univ_one, from_one_moment hg, mul_zero]
  have h0 : padeErr num 0 = 0 := by simp [padeErr]
  rw [h0, mul_zero, add_zero, ← hp_const h]
  refine hp_mono h (by unfold padeErr; fun_prop) continuousOn_const fun e he => ?_
  unfold padeErr
  have h1 : |β * (e - μ) / 2| ≤ |β * bandRadius a b μ / 2| := by
    have hr : 0 ≤ bandRadius a b μ := (abs_nonneg _).trans (le_bandRadius he)
    rw [abs_div, abs_mul, abs_div, abs_mul, abs_of_nonneg hr]
    have := le_bandRadius (μ := μ) he
    gcongr
  gcongr

/-- C80: `gt.density`, which subtracts a single pole at minus the given potential, converges to the filling, too. -/
theorem density_filling_tendsto (h : HilbertPair dos gf a b 1) {β : ℝ} (hb : 0 < β) (μ potential : ℝ) :
    Tendsto (fun N : ℕ => density (fun i : Fin N => gf (matsubaraFrequencies (i : ℕ) β + μ)) potential β) atTop
      (𝓝 (filling dos β μ)) := by
  obtain ⟨d, hd, ht⟩ := density_iw_filling_tendsto (linalgExt ℝ) h hb μ ![1] rfl
  have h1 := (hasSum_matsubara hb (-potential)).tendsto_sum_nat
  have h2 := (ht.sub h1).add_const (fermi β (-potential) - 1 / 2)
  rw [sub_add_cancel] at h2
  refine h2.congr fun N => ?_
  rw [density_eq]
  have e := density_iw_default (linalgExt ℝ) (gf := gf) (fun i : Fin N => matsubaraFrequencies (i : ℕ) β)
    (fun i => matsubara_re_zero i β) β μ (fun _ => 1) 1
  rw [Except.ok.inj ((hd N).symm.trans e), ← Fin.sum_univ_eq_sum_range
    fun n : ℕ => 2 / β * (1 / (matsubaraFrequencies (n : ℕ) β - ((-potential : ℝ) : ℂ)) : ℂ).re, Finset.mul_sum, Finset.mul_sum]
  simp only [one_mul, Complex.sub_re, mul_sub, Finset.sum_sub_distrib]
  push_cast
  simp only [sub_neg_eq_add]
  ring

/-- C80: limits of a finite sum: far outside of the band the result for a fixed number of frequencies returns to half
filling, so more frequencies are needed the farther the chemical potential is from the band. -/
theorem density_iw_far (ext : LinalgExt ℝ) (h : HilbertPair dos gf a b w) {β : ℝ} (hb : 0 < β) {μ : ℝ} (hμ : b < μ) (N : ℕ) :
    ∃ d, densityIw ext (fun i : Fin N => matsubaraFrequencies (i : ℕ) β)
        (fun i => gf (matsubaraFrequencies (i : ℕ) β + μ)) β (fun _ => 1) ![w] 0 = .ok d ∧
      |d - w / 2| ≤ 2 / β * (N * (w / (μ - b))) := by
  refine ⟨_, density_iw_default ext (gf := gf) (fun i : Fin N => matsubaraFrequencies (i : ℕ) β)
    (fun i => matsubara_re_zero i β) β μ (fun _ => 1) w, ?_⟩
  rw [add_sub_cancel_left, abs_mul, abs_of_pos (by positivity : 0 < 2 / β)]
  refine mul_le_mul_of_nonneg_left ?_ (by positivity)
  refine (Finset.abs_sum_le_sum_abs _ _).trans ?_
  have hd : 0 < μ - b := sub_pos.2 hμ
  have : ∀ i : Fin N, |1 * (gf (matsubaraFrequencies (i : ℕ) β + μ)).re| ≤ w / (μ - b) := fun i => by
    have him : (matsubaraFrequencies (i : ℕ) β + (μ : ℂ)).im ≠ 0 := by
      have := matsubaraIm_pos hb i
      simpa [matsubaraIm] using this.ne'
    rw [one_mul, hp_re h (off_of_im him), show w / (μ - b) = w * (1 / (μ - b)) by ring, ← hp_const h]
    refine hp_abs h ?_ continuousOn_const fun e he => ?_
    · refine (Complex.continuous_re.comp (continuous_const.div (by fun_prop) fun e hc => ?_)).continuousOn
      have := congrArg Complex.im hc
      simp only [Complex.sub_im, Complex.ofReal_im, sub_zero, Complex.zero_im] at this
      exact him this
    · refine (Complex.abs_re_le_norm _).trans ?_
      rw [norm_div, norm_one]
      refine one_div_le_one_div_of_le hd ?_
      refine le_trans ?_ (Complex.abs_re_le_norm _)
      rw [Complex.sub_re, Complex.add_re, matsubara_re_zero]
      simp only [Complex.ofReal_re, zero_add]
      refine le_trans ?_ (le_abs_self _)
      linarith [he.2]
  refine (Finset.sum_le_sum fun i _ => this i).trans (le_of_eq ?_)
  simp

/-! ## `chemical_potential` -/

/-- C80: `chemical_potential` for the filling of a band. Every result is the chemical potential of the requested filling up
to the tolerance of the root search, the only exception is `RuntimeError`, and the bracket is found unless the start is
much too close to the requested filling. -/
theorem chemical_potential_filling_partial (h : HilbertPair dos gf a b w) (hw : 0 < w) {β : ℝ} (hb : 0 < β) {n : ℝ}
    (hn : 0 < n) (hn1 : n < w) {rootScalar : (ℝ → ℝ) → ℝ → ℝ → Except Err RootResult} {tol : ℝ} (htol : 0 ≤ tol)
    (hr : HonestRootScalar rootScalar tol) (mu0 step0 : ℝ) :
    ∃ μ, filling dos β μ = n ∧
      ((∃ mu, chemicalPotential rootScalar (fun x => filling dos β x - n) mu0 step0 = .ok mu ∧ |mu - μ| ≤ tol) ∨
        chemicalPotential rootScalar (fun x => filling dos β x - n) mu0 step0 = .error .runtimeError) ∧
      (|μ - mu0| ≤ 2 ^ 100 * step0 * |filling dos β mu0 - n| →
        ∃ r, chemBracket (fun x => filling dos β x - n) mu0 step0 = .ok r) := by
  obtain ⟨hm, hc, -⟩ := filling_monotone h hw hb
  obtain ⟨μ, hμ, huniq⟩ := filling_exists_unique h hw hb hn hn1
  refine ⟨μ, hμ, ?_, fun hd => ?_⟩
  · rcases chemical_potential_correct htol hr (fun x => filling dos β x - n) (hc.sub continuous_const) mu0 step0 with
      ⟨mu, h1, m, h2, h3⟩ | h1
    · have : m = μ := huniq m (sub_eq_zero.1 h3)
      refine Or.inl ⟨mu, h1, ?_⟩
      rw [abs_sub_comm, ← this]
      exact h2
    · exact Or.inr h1
  · refine chem_bracket_found _ (fun x y hxy => sub_le_sub_right (hm.monotone hxy) n) mu0 step0 μ hd ?_
    rw [hμ, sub_self, zero_mul]

/-- C80: `chemical_potential` for the filling calculated by `density_iw` from `N` Matsubara frequencies: the filling at the
result is the requested one, up to the error of the Matsubara sum and the tolerance of the root search. -/
theorem chemical_potential_density_iw (ext : LinalgExt ℝ) (h : HilbertPair dos gf a b w) (hw : 0 < w) {β : ℝ} (hb : 0 < β)
    {N : ℕ} (hN : 0 < N) (n : ℝ) {rootScalar : (ℝ → ℝ) → ℝ → ℝ → Except Err RootResult} {tol : ℝ} (htol : 0 ≤ tol)
    (hr : HonestRootScalar rootScalar tol) (mu0 step0 : ℝ) :
    ∃ d : ℝ → ℝ, (∀ μ : ℝ, densityIw ext (fun i : Fin N => matsubaraFrequencies (i : ℕ) β)
        (fun i => gf (matsubaraFrequencies (i : ℕ) β + μ)) β (fun _ => 1) ![w] 0 = .ok (d μ)) ∧
      ((∃ mu, chemicalPotential rootScalar (fun x => d x - n) mu0 step0 = .ok mu ∧
          ∃ m, |m - mu| ≤ tol ∧ |filling dos β m - n| ≤ w * (bandRadius a b m * β / (2 * Real.pi ^ 2 * N))) ∨
        chemicalPotential rootScalar (fun x => d x - n) mu0 step0 = .error .runtimeError) := by
  have hd := fun μ : ℝ => density_iw_default ext (gf := gf) (fun i : Fin N => matsubaraFrequencies (i : ℕ) β)
    (fun i => matsubara_re_zero i β) β μ (fun _ => 1) w
  refine ⟨_, hd, ?_⟩
  have hcont : Continuous fun μ : ℝ => w / 2 + 2 / β * ∑ i : Fin N, 1 * (gf (matsubaraFrequencies (i : ℕ) β + μ)).re := by
    refine continuous_const.add (continuous_const.mul (continuous_finset_sum _ fun i _ => continuous_const.mul
      (Complex.continuous_re.comp ?_)))
    have hg := (h.isCausalGf hw).analytic.continuousOn
    refine ContinuousOn.comp_continuous (f := fun μ : ℝ => matsubaraFrequencies (i : ℕ) β + (μ : ℂ)) hg (by fun_prop) fun μ => ?_
    have := matsubaraIm_pos hb i
    simp only [offReal, Set.mem_ofPred_eq]
    simpa [matsubaraIm] using this.ne'
  rcases chemical_potential_correct htol hr _ (hcont.sub (continuous_const (y := n))) mu0 step0 with ⟨mu, h1, m, h2, h3⟩ | h1
  · refine Or.inl ⟨mu, h1, m, h2, ?_⟩
    obtain ⟨d', hd', he⟩ := density_iw_filling ext h hb m hN
    rw [abs_sub_comm]
    rw [← Except.ok.inj ((hd m).symm.trans hd')] at he
    have h4 := sub_eq_zero.1 h3
    simp only at h4
    rwa [h4] at he
  · exact Or.inr h1

/-- C80: the documentation claims that no bracket is found only for completely empty or completely filled systems. This
fails: a single level at zero (`β = 1`) with the requested occupation of the chemical potential `-999` and the start
`-1000`. -/
theorem chemical_potential_fails (rootScalar : (ℝ → ℝ) → ℝ → ℝ → Except Err RootResult) :
    (0 < fermi 1 (0 - -999) ∧ fermi 1 (0 - -999) < 1) ∧
      chemicalPotential rootScalar (fun mu => fermi 1 (0 - mu) - fermi 1 (0 - -999)) (-1000) 1 = .error .runtimeError := by
  refine ⟨fermi_mem _ _, ?_⟩
  have hlt : fermi 1 (0 - -1000) - fermi 1 (0 - -999) < 0 := sub_neg.2 (fermi_strictAnti one_pos (by norm_num))
  have hsmall : 2 ^ 100 * (fermi 1 (0 - -999)) < 1 := by
    have h1 : fermi 1 (0 - -999) < Real.exp (-999) := by
      unfold fermi
      rw [Real.exp_neg, one_div]
      refine inv_strictAnti₀ (Real.exp_pos _) ?_
      norm_num
    have h2 : (2 : ℝ) ^ 100 < Real.exp 999 := by
      have h3 : (2 : ℝ) ≤ Real.exp 1 := by
        have := Real.add_one_le_exp (1 : ℝ)
        linarith
      calc (2 : ℝ) ^ 100 < 2 ^ 999 := pow_lt_pow_right₀ (by norm_num) (by norm_num)
        _ ≤ Real.exp 1 ^ 999 := pow_le_pow_left₀ (by norm_num) h3 _
        _ = Real.exp 999 := by rw [← Real.exp_nat_mul]; norm_num
    calc (2 : ℝ) ^ 100 * fermi 1 (0 - -999) < Real.exp 999 * Real.exp (-999) :=
          mul_lt_mul h2 h1.le (fermi_mem _ _).1 (Real.exp_pos _).le
      _ = 1 := by rw [← Real.exp_add]; norm_num
  have hbr : chemBracket (fun mu => fermi 1 (0 - mu) - fermi 1 (0 - -999)) (-1000) 1 = .error .runtimeError := by
    rw [chem_bracket_error_iff]
    refine ⟨rfl, hlt.ne, fun k hk => ?_⟩
    rw [(npSign_values _).1.2 hlt, (npSign_values _).1, sub_neg]
    refine fermi_strictAnti one_pos ?_
    have hk2 : (2 : ℝ) ^ k ≤ 2 ^ 100 := pow_le_pow_right₀ (by norm_num) hk
    have hpos := (fermi_mem 1 (0 - -1000)).1
    have hpos' := (fermi_mem 1 (0 - -999)).1
    have : (2 : ℝ) ^ k * (fermi 1 (0 - -999) - fermi 1 (0 - -1000)) < 1 := by
      have h0 : (0 : ℝ) < 2 ^ k := by positivity
      calc (2 : ℝ) ^ k * (fermi 1 (0 - -999) - fermi 1 (0 - -1000)) ≤ 2 ^ k * fermi 1 (0 - -999) :=
            mul_le_mul_of_nonneg_left (by linarith) h0.le
        _ ≤ 2 ^ 100 * fermi 1 (0 - -999) := mul_le_mul_of_nonneg_right hk2 hpos'.le
        _ < 1 := hsmall
    linarith
  unfold chemicalPotential
  rw [hbr]

/-! ## Examples -/

/-- The half filled Bethe lattice. -/
example {β : ℝ} (hb : 0 < β) {N : ℕ} (hN : 0 < N) :
    ∃ d, densityIw (linalgExt ℝ) (fun i : Fin N => matsubaraFrequencies (i : ℕ) β)
        (fun i => betheGfZ (matsubaraFrequencies (i : ℕ) β + (0 : ℝ)) 1) β (fun _ => 1) ![1] 0 = .ok d ∧
      |d - 1 / 2| ≤ β / (2 * Real.pi ^ 2 * N) := by
  have h := (bethe_dos (D := 1) one_pos).hilbertPair fun _ hz => bethe_gf_hilbert one_pos hz
  obtain ⟨d, hd, he⟩ := density_iw_filling (linalgExt ℝ) h hb 0 hN
  refine ⟨d, hd, ?_⟩
  rw [(filling_symmetric h (fun e => by simp [betheDos]) β 0).2] at he
  simpa [bandRadius] using he

/-- A quarter filled simple cubic lattice. -/
example {β : ℝ} (hb : 0 < β) : ∃ ρ : ℝ → ℝ, HilbertPair ρ (fun z => scGfZ ellipK z 1) (-1) 1 1 ∧
    ∃! μ, filling ρ β μ = 1 / 4 :=
  ⟨_, sc_hilbert EllipkContract.exact one_pos,
    filling_exists_unique (sc_hilbert EllipkContract.exact one_pos) one_pos hb (by norm_num) (by norm_num)⟩

end Gftool.Props
