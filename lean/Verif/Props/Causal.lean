import Verif.Lemmas.Causal
import Verif.Props.CompositeGf
import Verif.Props.Bethez
import Verif.Props.ScCentre
import Verif.Props.Fcc
import Verif.Props.Bcc
import Mathlib.Analysis.Analytic.IsolatedZeros
import Mathlib.Analysis.Complex.CauchyIntegral
import Mathlib.Analysis.Complex.Convex

/-!
# C79: lattice Green's functions are causal, and the DOS is their spectral function
-/

namespace Gftool.Props

open Gftool Model Spec Lemmas MeasureTheory Filter Topology
open scoped ComplexConjugate

/-! ## Continuity of the densities -/

lemma continuousAt_ellipKR {m : ℝ} (hm : m < 1) : ContinuousAt ellipKR m := by
  have h1 : ContinuousAt (fun x : ℝ => (ellipK (x : ℂ)).re) m := by
    have h2 : ContinuousAt ellipK (m : ℂ) := (hasDerivAt_ellipK (by
      rw [ellipDom]
      simp only [Set.mem_ofPred_eq]
      rw [show (1 : ℂ) - m = ((1 - m : ℝ) : ℂ) by push_cast; ring]
      exact Complex.ofReal_mem_slitPlane.2 (by linarith))).continuousAt
    exact Complex.continuous_re.continuousAt.comp (h2.comp Complex.continuous_ofReal.continuousAt)
  refine h1.congr ?_
  filter_upwards [Iio_mem_nhds hm] with x hx
  rw [ellipK_ofReal hx, Complex.ofReal_re]

lemma continuousAt_ellipKm1 {p : ℝ} (hp : 0 < p) : ContinuousAt ellipKm1 p := by
  unfold ellipKm1
  exact ContinuousAt.comp (g := ellipKR) (f := fun p => 1 - p) (continuousAt_ellipKR (by linarith)) (by fun_prop)

lemma betheDos_continuous {D : ℝ} (hD : 0 < D) : Continuous fun e => betheDos e D := by
  have : (fun e => betheDos e D) = fun e => 2 / (Real.pi * D) * √(1 - (e / D) ^ 2) := by
    funext e
    unfold betheDos
    simp only
    split_ifs with h
    · rfl
    · have : 1 - (e / D) ^ 2 ≤ 0 := by
        have := sq_abs (e / D)
        nlinarith [not_lt.1 h]
      rw [Real.sqrt_eq_zero_of_nonpos this, mul_zero]
  rw [this]
  fun_prop

lemma boxDos_continuousAt {D e : ℝ} (he : |e| ≠ D) : ContinuousAt (fun e => boxDos e D) e := by
  have hc : ContinuousAt (fun x : ℝ => |x|) e := continuous_abs.continuousAt
  rcases lt_or_gt_of_ne he with h | h
  · refine (continuousAt_const (y := 0.5 / D)).congr ?_
    filter_upwards [hc.eventually (gt_mem_nhds h)] with x hx
    rw [boxDos, if_pos hx]
  · refine (continuousAt_const (y := (0 : ℝ))).congr ?_
    filter_upwards [hc.eventually (lt_mem_nhds h)] with x hx
    rw [boxDos, if_neg (not_lt.2 hx.le)]

lemma onedimDos_continuousAt {D e : ℝ} (hD : 0 < D) (he : |e| ≠ D) : ContinuousAt (fun e => onedimDos e D) e := by
  have hc : ContinuousAt (fun x : ℝ => |x / D|) e := by fun_prop
  have habs : |e / D| = |e| / D := by rw [abs_div, abs_of_pos hD]
  have he' : |e / D| ≠ 1 := by rw [habs, Ne, div_eq_one_iff_eq hD.ne']; exact he
  rcases lt_or_gt_of_ne he' with h | h
  · have hpos : 0 < 1 - (e / D) ^ 2 := by
      have := sq_abs (e / D)
      nlinarith [abs_nonneg (e / D)]
    have h1 : ContinuousAt (fun x : ℝ => 1 / (Real.pi * D) / √(1 - (x / D) ^ 2)) e :=
      ContinuousAt.div continuousAt_const (by fun_prop) (Real.sqrt_pos.2 hpos).ne'
    refine h1.congr ?_
    filter_upwards [hc.eventually (gt_mem_nhds h)] with x hx
    unfold onedimDos
    simp only
    rw [if_pos hx.le]
  · refine (continuousAt_const (y := (0 : ℝ))).congr ?_
    filter_upwards [hc.eventually (lt_mem_nhds h)] with x hx
    unfold onedimDos
    simp only
    rw [if_neg (not_le.2 hx)]

lemma squareDos_continuousAt {D e : ℝ} (hD : 0 < D) (h0 : e ≠ 0) (he : |e| ≠ D) :
    ContinuousAt (fun e => squareDosK e D) e := by
  have hc : ContinuousAt (fun x : ℝ => |x / D|) e := by fun_prop
  have habs : |e / D| = |e| / D := by rw [abs_div, abs_of_pos hD]
  have he' : |e / D| ≠ 1 := by rw [habs, Ne, div_eq_one_iff_eq hD.ne']; exact he
  rcases lt_or_gt_of_ne he' with h | h
  · have h1 : ContinuousAt (fun x : ℝ => 2 / Real.pi ^ 2 / D * ellipKR (1 - (x / D) ^ 2)) e := by
      refine ContinuousAt.mul continuousAt_const ?_
      refine ContinuousAt.comp (g := ellipKR) (f := fun x => 1 - (x / D) ^ 2) (continuousAt_ellipKR ?_) (by fun_prop)
      have : 0 < (e / D) ^ 2 := by positivity
      linarith
    refine h1.congr ?_
    filter_upwards [hc.eventually (gt_mem_nhds h)] with x hx
    unfold squareDosK squareDos
    simp only
    rw [if_pos hx.le]
  · refine (continuousAt_const (y := (0 : ℝ))).congr ?_
    filter_upwards [hc.eventually (lt_mem_nhds h)] with x hx
    unfold squareDosK squareDos
    simp only
    rw [if_neg (not_le.2 hx)]

lemma bccDos_continuousAt {ellipk : ℂ → ℂ} (hk : EllipkContract ellipk) {D e : ℝ} (hD : 0 < D) (he : e ≠ 0) :
    ContinuousAt (fun e => (bccDos ellipk e D).untopD 0) e := by
  have h1 : ContinuousAt (fun x : ℝ => -(bccH D (|x| : ℝ)).im / Real.pi) e := by
    have h2 := continuousAt_bccH D (z := ((|e| : ℝ) : ℂ)) (by exact_mod_cast abs_ne_zero.2 he)
    have h3 : ContinuousAt (fun x : ℝ => ((|x| : ℝ) : ℂ)) e := by fun_prop
    exact (Complex.continuous_im.continuousAt.comp (ContinuousAt.comp (g := bccH D) (f := fun x : ℝ => ((|x| : ℝ) : ℂ)) h2 h3)).neg.div_const _
  refine h1.congr ?_
  filter_upwards [isOpen_ne.mem_nhds he] with x hx
  exact (bccDosReal_bccH hk.off hD hx).symm

/-! ## The lattices -/

lemma _root_.Gftool.Spec.IsDos.hilbertPair {dos : ℝ → ℝ} {D : ℝ} (h : IsDos dos D) {gf : ℂ → ℂ}
    (hg : ∀ z, OffBand z D → ∫ e, (dos e : ℂ) / (z - e) = gf z) : HilbertPair dos gf (-D) D 1 where
  measurable := h.measurable
  nonneg := h.nonneg
  outside e he := h.outside e (by
    by_contra hc
    exact he (abs_le.1 (not_lt.1 hc)))
  integrable := h.integrable
  norm := h.norm
  hilbert z hz := (hg z fun e he => hz e (abs_le.1 he)).symm

/-- C79: Bethe lattice of infinite coordination. The density is continuous. -/
theorem bethe_causal {D : ℝ} (hD : 0 < D) : IsCausalGf (fun z => betheGfZ z D) (fun e => betheDos e D) 1 ∧
    IsRealGf (fun z => betheGfZ z D) (-D) D 1 ∧ Continuous fun e => betheDos e D :=
  have h := (bethe_dos hD).hilbertPair fun _ hz => bethe_gf_hilbert hD hz
  ⟨h.isCausalGf one_pos, h.isRealGf one_pos, betheDos_continuous hD⟩

/-- C79: one-dimensional lattice. The density is continuous except for the band edges. -/
theorem onedim_causal {D : ℝ} (hD : 0 < D) : IsCausalGf (fun z => onedimGfZ z D) (fun e => onedimDos e D) 1 ∧
    IsRealGf (fun z => onedimGfZ z D) (-D) D 1 ∧ ∀ e, |e| ≠ D → ContinuousAt (fun e => onedimDos e D) e :=
  have h := (onedim_dos hD).hilbertPair fun _ hz => onedim_gf_hilbert hD hz
  ⟨h.isCausalGf one_pos, h.isRealGf one_pos, fun _ he => onedimDos_continuousAt hD he⟩

/-- C79: box DOS. The density is continuous except for the band edges. -/
theorem box_causal {D : ℝ} (hD : 0 < D) : IsCausalGf (fun z => boxGfZ z D) (fun e => boxDos e D) 1 ∧
    IsRealGf (fun z => boxGfZ z D) (-D) D 1 ∧ ∀ e, |e| ≠ D → ContinuousAt (fun e => boxDos e D) e :=
  have h := (box_dos hD).hilbertPair fun _ hz => box_gf_hilbert hD hz
  ⟨h.isCausalGf one_pos, h.isRealGf one_pos, fun _ he => boxDos_continuousAt he⟩

/-- C79: Bethe lattice of finite coordination `Z ≥ 2`. -/
theorem bethez_causal {D Z : ℝ} (hD : 0 < D) (hZ : 2 ≤ Z) :
    ∃ (d : ℝ → ℝ) (G : ℂ → ℂ), (∀ e, bethezDos e D Z = .ok (d e)) ∧ (∀ z, bethezGfZ z D Z = .ok (G z)) ∧
      IsCausalGf G d 1 ∧ IsRealGf G (-D) D 1 := by
  obtain ⟨d, G, hd, hG, hint⟩ := bethez_gf_hilbert hD hZ
  obtain ⟨d', hd', hdos⟩ := bethez_dos hD hZ
  obtain rfl : d = d' := funext fun e => Except.ok.inj ((hd e).symm.trans (hd' e))
  have h := hdos.hilbertPair hint
  exact ⟨d, G, hd, hG, h.isCausalGf one_pos, h.isRealGf one_pos⟩

/-- C79: square lattice, for every implementation of the elliptic integral which is correct off its cut. The density is
continuous except for the middle and the edges of the band. -/
theorem square_causal {ellipk : ℂ → ℂ} (hk : EllipkContract ellipk) {D : ℝ} (hD : 0 < D) :
    IsCausalGf (fun z => squareGfZ ellipk z D) (fun e => squareDosK e D) 1 ∧
    IsRealGf (fun z => squareGfZ ellipk z D) (-D) D 1 ∧
    ∀ e, e ≠ 0 → |e| ≠ D → ContinuousAt (fun e => squareDosK e D) e :=
  have h := (square_hilbert hD).congr (gf' := fun z => squareGfZ ellipk z D) fun z hz => by
    rw [(square_gf_z_contract hk.off hD fun e he => hz e (abs_le.1 he)).1, square_gf_z hD fun e he => hz e (abs_le.1 he)]
  ⟨h.isCausalGf one_pos, h.isRealGf one_pos, fun _ h0 he => squareDos_continuousAt hD h0 he⟩

/-- C79: rectangular lattice. -/
theorem rectangular_causal {D γ : ℝ} (hD : 0 < D) (hγ : 0 < γ) :
    IsCausalGf (fun z => rectangularGfZ ellipK z D γ) (fun e => rectangularDos ellipK e D γ) 1 ∧
    IsRealGf (fun z => rectangularGfZ ellipK z D γ) (-D) D 1 :=
  have h := rectangular_hilbert hD hγ
  ⟨h.isCausalGf one_pos, h.isRealGf one_pos⟩

/-- C79: triangular lattice; on the real axis for half-bandwidths of at least `3/2`. -/
theorem triangular_causal {D : ℝ} (hD : 0 < D) :
    IsCausalGf (fun z => (triangularGfZ ellipKUp z D).getD 0) (fun e => triangularDos ellipKm1 e D) 1 ∧
    (3 / 2 ≤ D → IsRealGf (fun z => (triangularGfZ ellipKUp z D).getD 0) (-(2 / 3 * D)) (4 / 3 * D) 1) := by
  refine ⟨?_, fun h => (triangular_hilbert h).isRealGf one_pos⟩
  have h : HilbertPair (fun e => triangularDos ellipKm1 e D) (bzGreen bz2 (triangularDisp D)) (-(2 / 3 * D)) (4 / 3 * D) 1 :=
    (triangular_dos hD).hilbertPair (measurable_triangularDisp D) fun e he =>
      triangular_dos_outside hD _ (by
        by_contra hc
        push Not at hc
        exact he hc)
  refine (h.isCausalGf one_pos).congr fun z hz => ?_
  have hz' : z.im ≠ 0 := hz
  rw [triangular_gf_z_up hD (off_of_im hz') (fun hc => hz' (by rw [hc]; simp)), Option.getD_some]

/-- C79: body-centred cubic lattice. The density is continuous except for the middle of the band. -/
theorem bcc_causal {ellipk : ℂ → ℂ} (hk : EllipkContract ellipk) {D : ℝ} (hD : 0 < D) :
    IsCausalGf (fun z => bccGfZ ellipk z D) (fun e => (bccDos ellipk e D).untopD 0) 1 ∧
    IsRealGf (fun z => bccGfZ ellipk z D) (-D) D 1 ∧
    ∀ e, e ≠ 0 → ContinuousAt (fun e => (bccDos ellipk e D).untopD 0) e :=
  have h := bcc_hilbert hk hD
  ⟨h.isCausalGf one_pos, h.isRealGf one_pos, fun _ he => bccDos_continuousAt hk hD he⟩

/-- C79: simple cubic lattice. The exact density is continuous; `sc.dos` has its values outside of the tolerance around
the middle of the band, see `sc_dos` for the small difference inside. -/
theorem sc_causal {ellipk : ℂ → ℂ} (hk : EllipkContract ellipk) {D : ℝ} (hD : 0 < D) :
    ∃ ρ : ℝ → ℝ, IsCausalGf (fun z => scGfZ ellipk z D) ρ 1 ∧ IsRealGf (fun z => scGfZ ellipk z D) (-D) D 1 ∧
      Continuous ρ ∧ ∀ tol, 0 < tol → tol ≤ 1 / 2 → ∀ e, tol ≤ 3 / D * |e| → scDos ellipk tol e D = ρ e := by
  have h0 := sc_hilbert hk hD
  have h : HilbertPair (scRhoC D) (fun z => scGfZ ellipk z D) (-D) D 1 := by
    have h1 : ∀ e : ℝ, e ≠ 0 → scDos ellipk 0 e D = scRhoC D e := by
      intro e he
      rw [scDos_tol hk.off hD he (by positivity), scRhoC, if_neg he, scRho]
    refine ((isDosOf_scRhoC hD).hilbertPair (measurable_scDisp D) fun e he => ?_).congr fun z hz =>
      (sc_gf_z hk hD fun e he => hz e (abs_le.1 he)).1
    have he0 : e ≠ 0 := by
      rintro rfl
      exact he ⟨by linarith, hD.le⟩
    rw [← h1 e he0, h0.outside e he]
  refine ⟨scRhoC D, h.isCausalGf one_pos, h.isRealGf one_pos, continuous_scRhoC hD, fun tol htol _ e he => ?_⟩
  have he0 : e ≠ 0 := by
    rintro rfl
    rw [abs_zero, mul_zero] at he
    exact absurd he (not_le.2 htol)
  rw [scDos_tol hk.off hD he0 he, scRhoC, if_neg he0, scRho]

/-- C79: face-centred cubic lattice, for the frequencies off the branch cut of the elliptic integral. What is missing:
on the cut the function is wrong, see `fcc_not_analytic`. -/
theorem fcc_causal_partial {ellipk : ℂ → ℂ} (hk : EllipkContract ellipk) {D : ℝ} (hD : 0 < D) :
    ∃ G : ℂ → ℂ, IsCausalGf G (fun e => (fccDos ellipk e D).untopD 0) 1 ∧ IsRealGf G (-(D / 2)) (3 * D / 2) 1 ∧
      (∀ z : ℂ, (∀ e ∈ Set.Icc (-(D / 2)) (3 * D / 2), z ≠ (e : ℂ)) → FccRegular z D → fccGfZ ellipk z D = G z) ∧
      (∀ z : ℂ, D < ‖z + D / 2‖ → FccRegular z D) ∧
      ∀ e, e ≠ -(D / 2) → ContinuousAt (fun e => (fccDos ellipk e D).untopD 0) e := by
  obtain ⟨h, hG⟩ := fcc_hilbert_partial hk hD
  refine ⟨_, h.isCausalGf one_pos, h.isRealGf one_pos, fun z hz hr => (hG z hz hr).trans (h.hilbert z hz).symm,
    fun z hz => fcc_regular_of_far hD hz, fun e he => ?_⟩
  rw [fccDos_untop hk hD]
  exact continuousAt_fccRho hD he

/-- C79 fails for `fcc.gf_z`: for half-bandwidth 2 the function is not analytic in the lower half-plane. -/
theorem fcc_not_analytic : ¬ DifferentiableOn ℂ (fun z => fccGfZ ellipK z 2) {z | z.im < 0} := by
  intro hd
  obtain ⟨h, hG⟩ := fcc_hilbert_partial EllipkContract.exact (D := 2) (by norm_num)
  have hopen : IsOpen {z : ℂ | z.im < 0} := isOpen_lt Complex.continuous_im continuous_const
  have hd' : DifferentiableOn ℂ (bzGreen bz3 (fccDisp 2)) {z | z.im < 0} :=
    (h.isCausalGf one_pos).analytic.mono fun z hz => ne_of_lt hz
  have hpre : IsPreconnected {z : ℂ | z.im < 0} := (convex_halfSpace_im_lt 0).isPreconnected
  have hmem : (-10 * Complex.I : ℂ) ∈ {z : ℂ | z.im < 0} := by
    simp only [Set.mem_ofPred_eq]; simp
  have hfar : IsOpen {z : ℂ | (2 : ℝ) < ‖z + ((2 : ℝ) : ℂ) / 2‖} := isOpen_lt continuous_const (by fun_prop)
  have hmem' : (-10 * Complex.I : ℂ) ∈ {z : ℂ | (2 : ℝ) < ‖z + ((2 : ℝ) : ℂ) / 2‖} := by
    simp only [Set.mem_ofPred_eq]
    refine lt_of_lt_of_le ?_ (Complex.abs_im_le_norm _)
    simp
    norm_num
  have hev : (fun z => fccGfZ ellipK z 2) =ᶠ[𝓝 (-10 * Complex.I)] bzGreen bz3 (fccDisp 2) := by
    filter_upwards [hopen.mem_nhds hmem, hfar.mem_nhds hmem'] with z hz hz2
    have hoff := off_of_im (a := -(2 / 2)) (b := 3 * 2 / 2) (ne_of_lt hz)
    exact (hG z hoff (fcc_regular_of_far (by norm_num) hz2)).trans (h.hilbert z hoff).symm
  have heq := (hd.analyticOnNhd hopen).eqOn_of_preconnected_of_eventuallyEq (hd'.analyticOnNhd hopen) hpre hmem hev
  refine fcc_gf_z_wrong.2 (heq ?_)
  simp only [Set.mem_ofPred_eq]
  have : 0 < √11 := Real.sqrt_pos.2 (by norm_num)
  linarith

/-- C79: honeycomb lattice. -/
theorem honeycomb_causal {D : ℝ} (hD : 0 < D) :
    IsCausalGf (fun z => honeycombGfZ (fun z D => (triangularGfZ ellipKUp z D).getD 0) z D)
      (fun e => honeycombDos (triangularDos ellipKm1) e D) 1 ∧
    IsRealGf (fun z => honeycombGfZ (fun z D => (triangularGfZ ellipKUp z D).getD 0) z D) (-D) D 1 :=
  have h := honeycomb_hilbert_triangular hD
  ⟨h.isCausalGf one_pos, h.isRealGf one_pos⟩

/-- A flat band added to a causal Green's function. -/
lemma flat_band {gf : ℂ → ℂ} {dos : ℝ → ℝ} {w v x : ℝ} (h : IsCausalGf gf dos w) (hw : 0 < w) (hv : 0 < v) {z : ℂ}
    (hz : 0 < z.im) : (gf z + v / (z - x)).im < 0 ∧ (z - (w + v) / (gf z + v / (z - x))).im ≤ 0 ∧
      ‖gf z + v / (z - x)‖ ≤ (w + v) / z.im := by
  have h1 := h.causal z hz
  have hne : z - (x : ℂ) ≠ 0 := by
    intro hc
    have := congrArg Complex.im hc
    simp at this
    exact hz.ne' this
  have hn := Complex.normSq_pos.2 hne
  have h2 : ((v : ℂ) / (z - x)).im = -(v * (z.im / Complex.normSq (z - x))) := resolvent_im z x v
  have h3 : 0 < v * (z.im / Complex.normSq (z - x)) := by positivity
  have hneg : (gf z + v / (z - x)).im < 0 := by
    rw [Complex.add_im, h2]; linarith
  refine ⟨hneg, ?_, ?_⟩
  · have hcast : ((w : ℂ) + v) = ((w + v : ℝ) : ℂ) := by push_cast; ring
    rw [hcast]
    refine hyb_im hneg ?_
    have hg0 : gf z ≠ 0 := by intro hc; rw [hc] at h1; simp at h1
    have hgn := Complex.normSq_pos.2 hg0
    have h4 : z.im * Complex.normSq (gf z) ≤ w * (-(gf z).im) := by
      have := h.hybridization z hz
      rw [Complex.sub_im, div_eq_mul_inv, Complex.im_ofReal_mul, Complex.inv_im, sub_nonpos, mul_div_assoc', le_div_iff₀ hgn] at this
      exact this
    have h5 : z.im * Complex.normSq ((v : ℂ) / (z - x)) = v * (-((v : ℂ) / (z - x)).im) := by
      rw [h2, Complex.normSq_div, Complex.normSq_ofReal]; field_simp
    generalize gf z = g at *
    generalize (v : ℂ) / (z - x) = u at *
    rw [Complex.add_im]
    -- weighted Cauchy–Schwarz
    have h7 : Complex.normSq (g + u) * (w * v) ≤ (w + v) * (v * Complex.normSq g + w * Complex.normSq u) := by
      have h8 : (w + v) * (v * Complex.normSq g + w * Complex.normSq u) - Complex.normSq (g + u) * (w * v)
          = (v * g.re - w * u.re) ^ 2 + (v * g.im - w * u.im) ^ 2 := by
        simp only [Complex.normSq_apply, Complex.add_re, Complex.add_im]; ring
      nlinarith [sq_nonneg (v * g.re - w * u.re), sq_nonneg (v * g.im - w * u.im)]
    have h9 : v * (z.im * Complex.normSq g) ≤ v * (w * (-g.im)) := mul_le_mul_of_nonneg_left h4 hv.le
    have h10 : w * (z.im * Complex.normSq u) = w * (v * (-u.im)) := by rw [h5]
    have h11 := mul_le_mul_of_nonneg_left h7 hz.le
    have h12 : (w * v) * (z.im * Complex.normSq (g + u)) ≤ (w * v) * ((w + v) * (-(g.im + u.im))) := by
      have : 0 < w + v := by linarith
      nlinarith
    exact le_of_mul_le_mul_left h12 (by positivity)
  · refine (norm_add_le _ _).trans ?_
    rw [add_div]
    refine add_le_add ?_ ?_
    · have := h.bound z hz.ne'
      rwa [abs_of_pos hz] at this
    · rw [norm_div, Complex.norm_real, Real.norm_of_nonneg hv.le]
      refine div_le_div_of_nonneg_left hv.le hz ?_
      have := Complex.abs_im_le_norm (z - x)
      simp only [Complex.sub_im, Complex.ofReal_im, sub_zero, abs_of_pos hz] at this
      exact this

/-- C79: kagome lattice. The flat band of weight 1/3 is not part of `kagome.dos`; the dispersive bands have weight 2/3. The
total Green's function is causal as well, with causal hybridisation function. -/
theorem kagome_causal {D : ℝ} (hD : 0 < D) :
    IsCausalGf (fun z => kagomeGfZ (fun z D => (triangularGfZ ellipKUp z D).getD 0) z D - (1 / 3) / (z + 2 / 3 * D))
      (fun e => kagomeDos (triangularDos ellipKm1) e D) (2 / 3) ∧
    ∀ z : ℂ, 0 < z.im →
      (kagomeGfZ (fun z D => (triangularGfZ ellipKUp z D).getD 0) z D).im < 0 ∧
      (z - 1 / kagomeGfZ (fun z D => (triangularGfZ ellipKUp z D).getD 0) z D).im ≤ 0 ∧
      ‖kagomeGfZ (fun z D => (triangularGfZ ellipKUp z D).getD 0) z D‖ ≤ 1 / z.im := by
  have h := (kagome_hilbert_triangular hD).isCausalGf (by norm_num)
  refine ⟨h, fun z hz => ?_⟩
  have h1 := flat_band h (by norm_num) (v := 1 / 3) (by norm_num) (x := -(2 / 3 * D)) hz
  have e1 : ((1 / 3 : ℝ) : ℂ) / (z - ((-(2 / 3 * D) : ℝ) : ℂ)) = (1 / 3) / (z + 2 / 3 * D) := by
    push_cast; ring
  rw [e1, sub_add_cancel] at h1
  norm_num at h1
  simpa using h1

/-- C79: Lieb lattice, in the same way with the flat band at zero. -/
theorem lieb_causal {D : ℝ} (hD : 0 < D) :
    IsCausalGf (fun z => liebGfZ squareGfK z D - (1 / 3) / z) (fun e => liebDos squareDosK e D) (2 / 3) ∧
    ∀ z : ℂ, 0 < z.im → (liebGfZ squareGfK z D).im < 0 ∧ (z - 1 / liebGfZ squareGfK z D).im ≤ 0 ∧
      ‖liebGfZ squareGfK z D‖ ≤ 1 / z.im := by
  have h := (lieb_hilbert_square hD).isCausalGf (by norm_num)
  refine ⟨h, fun z hz => ?_⟩
  have h1 := flat_band h (by norm_num) (v := 1 / 3) (by norm_num) (x := 0) hz
  have e1 : ((1 / 3 : ℝ) : ℂ) / (z - ((0 : ℝ) : ℂ)) = (1 / 3) / z := by
    push_cast; ring
  rw [e1, sub_add_cancel] at h1
  norm_num at h1
  simpa using h1

/-- Example: the spectral function of the Bethe lattice in the middle of the band. -/
example : Tendsto (fun η : ℝ => -(betheGfZ (0 + η * Complex.I) 2).im / Real.pi) (𝓝[>] 0) (𝓝 (1 / Real.pi)) := by
  have h := (bethe_causal (D := 2) (by norm_num)).1.spectral 0 (bethe_causal (D := 2) (by norm_num)).2.2.continuousAt
  have e : betheDos 0 2 = 1 / Real.pi := by
    unfold betheDos
    norm_num
    ring
  rw [e] at h
  simpa using h

end Gftool.Props
