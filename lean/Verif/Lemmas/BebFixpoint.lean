import Verif.Lemmas.MatStieltjes

/-!
# The self-consistency of Blackman, Esterling and Berk as a fixed point

`M = z - Σ` solves the self-consistency iff `M = medium (hyb M)`, where `medium` replaces the
diagonal of the hybridisation.  The map is a strict contraction for the matrix Schwarz-Pick distance,
hence there is exactly one retarded solution.
-/

open MeasureTheory Matrix Filter Topology
open Gftool.Spec

namespace Gftool.Lemmas

variable {ν : Type*} [Fintype ν] [DecidableEq ν]

/-- Matrix of the effective medium for hybridisation `D`; `w i = z - e_i`. -/
noncomputable def medium (w : ν → ℂ) (c : ν → ℝ) (D : Matrix ν ν ℂ) : Matrix ν ν ℂ :=
  D + diagonal fun i => (w i - D i i) / c i

/-- The linear part of `medium` with the sign changed. -/
noncomputable def sprd (c : ν → ℝ) (D : Matrix ν ν ℂ) : Matrix ν ν ℂ :=
  diagonal (fun i => D i i / c i) - D

/-- The Kraus operators of `sprd`. -/
noncomputable def kv (c : ν → ℝ) (i : ν) (u : ν → ℂ) : ν → ℂ := Pi.single i (u i / c i) - u

omit [Fintype ν] in
lemma medium_eq (w : ν → ℂ) (c : ν → ℝ) (D : Matrix ν ν ℂ) :
    medium w c D = diagonal (fun i => w i / c i) - sprd c D := by
  ext i j
  unfold medium sprd
  by_cases h : i = j
  · subst h; simp; ring
  · simp [h]

omit [Fintype ν] in
lemma sprd_sub (c : ν → ℝ) (D D' : Matrix ν ν ℂ) : sprd c (D - D') = sprd c D - sprd c D' := by
  ext i j
  unfold sprd
  by_cases h : i = j
  · subst h; simp; ring
  · simp [h]; ring

lemma sf_diagonal (d u v : ν → ℂ) : sf (diagonal d) u v = ∑ i, star (u i) * d i * v i := by
  rw [sf_eq_sum]
  refine Finset.sum_congr rfl fun i _ => ?_
  rw [Finset.sum_eq_single i]
  · rw [diagonal_apply_eq]
  · intro b _ hb; rw [diagonal_apply_ne _ hb.symm]; ring
  · simp

variable {c : ν → ℝ} (hc0 : ∀ i, 0 < c i) (hc1 : ∑ i, c i = 1)

include hc0 hc1

/-- `sprd` is completely positive. -/
lemma sf_sprd (D : Matrix ν ν ℂ) (u v : ν → ℂ) :
    sf (sprd c D) u v = ∑ i, (c i : ℂ) * sf D (kv c i u) (kv c i v) := by
  have hne : ∀ i, (c i : ℂ) ≠ 0 := fun i => Complex.ofReal_ne_zero.2 (hc0 i).ne'
  have h1 : ∀ i, (c i : ℂ) * sf D (kv c i u) (kv c i v)
      = star (u i) * (D i i / c i) * v i - star (u i) * (D *ᵥ v) i
        - (star u ᵥ* D) i * v i + c i * sf D u v := by
    intro i
    have hs : star (u i / (c i : ℂ)) = star (u i) / c i := by simp
    have h2 : sf D (kv c i u) (kv c i v)
        = star (u i) / c i * D i i * (v i / c i) - star (u i) / c i * (D *ᵥ v) i
          - (star u ᵥ* D) i * (v i / c i) + sf D u v := by
      unfold sf kv
      rw [mulVec_sub, star_sub, dotProduct_sub, sub_dotProduct, sub_dotProduct, ← Pi.single_star,
        hs]
      have h3 : star u ⬝ᵥ D *ᵥ Pi.single i (v i / (c i : ℂ)) = (star u ᵥ* D) i * (v i / c i) := by
        rw [dotProduct_mulVec, dotProduct_single]
      have h4 : (D *ᵥ Pi.single i (v i / (c i : ℂ))) i = D i i * (v i / c i) := by
        rw [mulVec_single]; rfl
      rw [h3, single_dotProduct, single_dotProduct, h4]
      ring
    rw [h2]
    have := hne i
    field_simp
  simp only [h1]
  rw [Finset.sum_add_distrib, Finset.sum_sub_distrib, Finset.sum_sub_distrib, ← Finset.sum_mul,
    ← Complex.ofReal_sum, hc1]
  unfold sprd
  rw [sf_sub, sf_diagonal]
  have h5 : ∑ i, star (u i) * (D *ᵥ v) i = sf D u v := rfl
  have h6 : ∑ i, (star u ᵥ* D) i * v i = sf D u v := by
    unfold sf; rw [dotProduct_mulVec]; rfl
  rw [h5, h6]
  push_cast
  ring

lemma qf_sprd (D : Matrix ν ν ℂ) (u : ν → ℂ) :
    qf (sprd c D) u = ∑ i, c i * qf D (kv c i u) := by
  unfold qf
  rw [sf_sprd hc0 hc1, Complex.im_sum]
  exact Finset.sum_congr rfl fun i _ => Complex.im_ofReal_mul _ _

lemma kv_bound : ∃ C : ℝ, 0 ≤ C ∧ ∀ u, ∑ i, c i * nsq (kv c i u) ≤ C * nsq u := by
  have hone : ∀ u : ν → ℂ, sf 1 u u = (nsq u : ℂ) := by
    intro u
    unfold sf nsq
    rw [one_mulVec]
    simp only [dotProduct, Pi.star_apply]
    push_cast
    refine Finset.sum_congr rfl fun i _ => ?_
    rw [mul_comm]
    exact Complex.mul_conj' _
  refine ⟨∑ a, ∑ b, ‖sprd c (1 : Matrix ν ν ℂ) a b‖, Finset.sum_nonneg fun a _ =>
    Finset.sum_nonneg fun b _ => norm_nonneg _, fun u => ?_⟩
  have h1 := sf_bound (sprd c (1 : Matrix ν ν ℂ)) u u
  rw [sf_sprd hc0 hc1] at h1
  simp only [hone] at h1
  have h2 : (∑ i, (c i : ℂ) * (nsq (kv c i u) : ℂ)) = ((∑ i, c i * nsq (kv c i u) : ℝ) : ℂ) := by
    push_cast; rfl
  rw [h2, Complex.norm_real] at h1
  have h3 := Real.le_norm_self (∑ i, c i * nsq (kv c i u))
  linarith

/-- The quadratic form of the medium. -/
lemma qf_medium (w : ν → ℂ) (D : Matrix ν ν ℂ) (u : ν → ℂ) :
    qf (medium w c D) u
      = ∑ i, (w i).im / c i * ‖u i‖ ^ 2 + ∑ i, c i * -qf D (kv c i u) := by
  rw [medium_eq, qf_sub, qf_sprd hc0 hc1]
  have h1 : qf (diagonal fun i => w i / (c i : ℂ)) u = ∑ i, (w i).im / c i * ‖u i‖ ^ 2 := by
    unfold qf
    rw [sf_diagonal, Complex.im_sum]
    refine Finset.sum_congr rfl fun i _ => ?_
    have h2 : star (u i) * (w i / (c i : ℂ)) * u i
        = ((‖u i‖ ^ 2 : ℝ) : ℂ) * (w i / (c i : ℂ)) := by
      rw [mul_comm (star (u i)), mul_assoc, mul_comm (star (u i))]
      have : u i * star (u i) = ((‖u i‖ ^ 2 : ℝ) : ℂ) := by
        push_cast; exact Complex.mul_conj' _
      rw [this, mul_comm]
    rw [h2, Complex.im_ofReal_mul, Complex.div_ofReal_im]
    ring
  rw [h1]
  simp only [mul_neg, Finset.sum_neg_distrib]
  ring

section Fix

variable {dos : Measure ℝ} {band : Set ℝ} {hilbert : ℂ → ℂ} {T : Matrix ν ν ℂ}
  (hd : IsHilbert dos band hilbert) (hT : T.IsHermitian)
  {w : ν → ℂ} {p : ℝ} (hp : 0 < p) (hw : ∀ i, p ≤ (w i).im)

include hd hT hp hw

omit [DecidableEq ν] hd hT in
/-- The explicit damping of the medium. -/
lemma damping_le (u : ν → ℂ) : p * nsq u ≤ ∑ i, (w i).im / c i * ‖u i‖ ^ 2 := by
  unfold nsq
  rw [Finset.mul_sum]
  refine Finset.sum_le_sum fun i _ => ?_
  have h1 : c i ≤ 1 := by
    rw [← hc1]
    exact Finset.single_le_sum (fun j _ => (hc0 j).le) (Finset.mem_univ i)
  have h2 : p ≤ (w i).im / c i := by
    rw [le_div_iff₀ (hc0 i)]
    have := hw i
    nlinarith
  gcongr

omit hp hw hc1 in
lemma spread_nonneg {M : Matrix ν ν ℂ} (hM : Retarded M) (u : ν → ℂ) :
    0 ≤ ∑ i, c i * -qf (hyb dos T M) (kv c i u) :=
  Finset.sum_nonneg fun i _ => mul_nonneg (hc0 i).le (hyb_nonpos hd hM hT _)

/-- The medium is damped at least by `p`. -/
lemma medium_ge {M : Matrix ν ν ℂ} (hM : Retarded M) (u : ν → ℂ) :
    p * nsq u ≤ qf (medium w c (hyb dos T M)) u := by
  rw [qf_medium hc0 hc1]
  have h1 := damping_le hc0 hc1 hp hw u
  have h2 := spread_nonneg hc0 hd hT hM u
  linarith

omit [DecidableEq ν] hc0 hc1 hd hT hw in
lemma retarded_of_ge {M : Matrix ν ν ℂ} (h : ∀ u, p * nsq u ≤ qf M u) : Retarded M := fun v hv =>
  lt_of_lt_of_le (mul_pos hp (nsq_pos hv)) (h v)

omit hw in
/-- The spread is uniformly bounded. -/
lemma spread_bound : ∃ C : ℝ, 0 ≤ C ∧ ∀ M : Matrix ν ν ℂ, (∀ u, p * nsq u ≤ qf M u) →
    ∀ u, ∑ i, c i * -qf (hyb dos T M) (kv c i u) ≤ C * nsq u := by
  obtain ⟨B, hB⟩ := hd.compact.isBounded.exists_norm_le
  obtain ⟨Ct, hCt, hCt'⟩ := nsq_mulVec_le T
  obtain ⟨Ck, hCk, hCk'⟩ := kv_bound hc0 hc1
  refine ⟨B ^ 2 / p * Ct * Ck, by positivity, fun M hM u => ?_⟩
  calc ∑ i, c i * -qf (hyb dos T M) (kv c i u)
      ≤ ∑ i, c i * (B ^ 2 / p * Ct * nsq (kv c i u)) := by
        refine Finset.sum_le_sum fun i _ => mul_le_mul_of_nonneg_left ?_ (hc0 i).le
        refine (hyb_bound hd (retarded_of_ge hp hM) hT hp hM (fun e he => by
          rw [← Real.norm_eq_abs]; exact hB e he) _).trans ?_
        rw [mul_assoc]
        exact mul_le_mul_of_nonneg_left (hCt' _) (by positivity)
    _ = B ^ 2 / p * Ct * ∑ i, c i * nsq (kv c i u) := by
        rw [Finset.mul_sum]; exact Finset.sum_congr rfl fun i _ => by ring
    _ ≤ B ^ 2 / p * Ct * (Ck * nsq u) := mul_le_mul_of_nonneg_left (hCk' u) (by positivity)
    _ = _ := by ring

omit hp hw in
/-- One step of the iteration keeps the distance. -/
lemma medium_pick {M₁ M₂ : Matrix ν ν ℂ} (h₁ : Retarded M₁) (h₂ : Retarded M₂) {ρ : ℝ}
    (hρ : ∀ u v, ‖sf (M₁ - M₂) u v‖ ≤ ρ * ((qf M₁ u + qf M₂ v) / 2)) (u v : ν → ℂ) :
    ‖sf (medium w c (hyb dos T M₁) - medium w c (hyb dos T M₂)) u v‖
      ≤ ρ * ((∑ i, c i * -qf (hyb dos T M₁) (kv c i u)
        + ∑ i, c i * -qf (hyb dos T M₂) (kv c i v)) / 2) := by
  have h1 : medium w c (hyb dos T M₁) - medium w c (hyb dos T M₂)
      = -sprd c (hyb dos T M₁ - hyb dos T M₂) := by
    rw [medium_eq, medium_eq, sprd_sub]; abel
  rw [h1, sf_neg, norm_neg, sf_sprd hc0 hc1]
  refine (norm_sum_le _ _).trans ?_
  calc ∑ i, ‖(c i : ℂ) * sf (hyb dos T M₁ - hyb dos T M₂) (kv c i u) (kv c i v)‖
      ≤ ∑ i, c i * (ρ * ((-qf (hyb dos T M₁) (kv c i u) + -qf (hyb dos T M₂) (kv c i v)) / 2)) := by
        refine Finset.sum_le_sum fun i _ => ?_
        rw [norm_mul, Complex.norm_real, Real.norm_of_nonneg (hc0 i).le]
        exact mul_le_mul_of_nonneg_left (hyb_pick hd hT h₁ h₂ hρ _ _) (hc0 i).le
    _ = _ := by
        rw [← Finset.sum_add_distrib, Finset.sum_div, Finset.mul_sum]
        exact Finset.sum_congr rfl fun i _ => by ring

/-- The iteration is a strict contraction. -/
lemma medium_contract : ∃ κ : ℝ, 0 ≤ κ ∧ κ < 1 ∧ ∀ M₁ M₂ : Matrix ν ν ℂ,
    (∀ u, p * nsq u ≤ qf M₁ u) → (∀ u, p * nsq u ≤ qf M₂ u) → ∀ ρ : ℝ, 0 ≤ ρ →
    (∀ u v, ‖sf (M₁ - M₂) u v‖ ≤ ρ * ((qf M₁ u + qf M₂ v) / 2)) → ∀ u v,
    ‖sf (medium w c (hyb dos T M₁) - medium w c (hyb dos T M₂)) u v‖
      ≤ κ * ρ * ((qf (medium w c (hyb dos T M₁)) u + qf (medium w c (hyb dos T M₂)) v) / 2) := by
  obtain ⟨C, hC, hC'⟩ := spread_bound (dos := dos) hc0 hc1 hd hT hp
  refine ⟨C / (C + p), by positivity, by rw [div_lt_one (by positivity)]; linarith,
    fun M₁ M₂ h₁ h₂ ρ hρ h u v => ?_⟩
  have key : ∀ M : Matrix ν ν ℂ, (∀ u, p * nsq u ≤ qf M u) → ∀ u,
      ∑ i, c i * -qf (hyb dos T M) (kv c i u)
        ≤ C / (C + p) * qf (medium w c (hyb dos T M)) u := by
    intro M hM u
    rw [qf_medium hc0 hc1, div_mul_eq_mul_div, le_div_iff₀ (by positivity)]
    have h3 := hC' M hM u
    have h4 := damping_le hc0 hc1 hp hw u
    nlinarith [mul_le_mul_of_nonneg_left h4 hC, mul_le_mul_of_nonneg_left h3 hp.le]
  refine (medium_pick hc0 hc1 hd hT (retarded_of_ge hp h₁) (retarded_of_ge hp h₂) h u v).trans ?_
  have k1 := key M₁ h₁ u
  have k2 := key M₂ h₂ v
  calc _ ≤ ρ * ((C / (C + p) * qf (medium w c (hyb dos T M₁)) u
        + C / (C + p) * qf (medium w c (hyb dos T M₂)) v) / 2) := by gcongr
    _ = _ := by ring

omit [DecidableEq ν] hc0 hc1 hd hT hw in
/-- Every two damped matrices are at finite distance. -/
lemma dist_start {M₁ M₂ : Matrix ν ν ℂ} (h₁ : ∀ u, p * nsq u ≤ qf M₁ u)
    (h₂ : ∀ u, p * nsq u ≤ qf M₂ u) (u v : ν → ℂ) :
    ‖sf (M₁ - M₂) u v‖ ≤ (∑ a, ∑ b, ‖(M₁ - M₂) a b‖) / p * ((qf M₁ u + qf M₂ v) / 2) := by
  refine (sf_bound _ u v).trans ?_
  have hS : 0 ≤ ∑ a, ∑ b, ‖(M₁ - M₂) a b‖ :=
    Finset.sum_nonneg fun a _ => Finset.sum_nonneg fun b _ => norm_nonneg _
  rw [div_mul_eq_mul_div, le_div_iff₀ hp]
  have := h₁ u
  have := h₂ v
  calc _ = (∑ a, ∑ b, ‖(M₁ - M₂) a b‖) * ((p * nsq u + p * nsq v) / 2) := by ring
    _ ≤ _ := by gcongr

/-- Uniqueness of the fixed point. -/
theorem fix_unique {M₁ M₂ : Matrix ν ν ℂ} (h₁ : Retarded M₁) (h₂ : Retarded M₂)
    (e₁ : medium w c (hyb dos T M₁) = M₁) (e₂ : medium w c (hyb dos T M₂) = M₂) : M₁ = M₂ := by
  have g₁ : ∀ u, p * nsq u ≤ qf M₁ u := fun u => by
    rw [← e₁]; exact medium_ge hc0 hc1 hd hT hp hw h₁ u
  have g₂ : ∀ u, p * nsq u ≤ qf M₂ u := fun u => by
    rw [← e₂]; exact medium_ge hc0 hc1 hd hT hp hw h₂ u
  obtain ⟨κ, hκ0, hκ1, hκ⟩ := medium_contract (dos := dos) hc0 hc1 hd hT hp hw
  set S := (∑ a, ∑ b, ‖(M₁ - M₂) a b‖) / p with hS
  have hS0 : 0 ≤ S := div_nonneg
    (Finset.sum_nonneg fun a _ => Finset.sum_nonneg fun b _ => norm_nonneg _) hp.le
  have hn : ∀ n : ℕ, ∀ u v, ‖sf (M₁ - M₂) u v‖ ≤ κ ^ n * S * ((qf M₁ u + qf M₂ v) / 2) := by
    intro n
    induction n with
    | zero => intro u v; rw [pow_zero, one_mul]; exact dist_start hp g₁ g₂ u v
    | succ n ih =>
      intro u v
      have := hκ M₁ M₂ g₁ g₂ _ (by positivity) ih u v
      rw [e₁, e₂] at this
      rw [pow_succ']
      linarith
  ext i j
  have h3 : Tendsto (fun n : ℕ => κ ^ n * S
      * ((qf M₁ (Pi.single i 1) + qf M₂ (Pi.single j 1)) / 2)) atTop (𝓝 0) := by
    have := ((tendsto_pow_atTop_nhds_zero_of_lt_one hκ0 hκ1).mul_const S).mul_const
      ((qf M₁ (Pi.single i 1) + qf M₂ (Pi.single j 1)) / 2)
    simpa using this
  have h4 := ge_of_tendsto' h3 fun n => hn n (Pi.single i 1) (Pi.single j 1)
  rw [sf_single] at h4
  exact sub_eq_zero.1 (norm_le_zero_iff.1 h4)

/-- Existence of the fixed point. -/
theorem fix_exists : ∃ M : Matrix ν ν ℂ, (∀ u, p * nsq u ≤ qf M u) ∧
    medium w c (hyb dos T M) = M := by
  obtain ⟨κ, hκ0, hκ1, hκ⟩ := medium_contract (dos := dos) hc0 hc1 hd hT hp hw
  obtain ⟨C, hC, hC'⟩ := spread_bound (dos := dos) hc0 hc1 hd hT hp
  let M : ℕ → Matrix ν ν ℂ := fun n =>
    Nat.rec (diagonal fun i => w i / (c i : ℂ)) (fun _ A => medium w c (hyb dos T A)) n
  have hM0 : M 0 = medium w c 0 := by
    change diagonal _ = _
    unfold medium; simp
  have hMs : ∀ n, M (n + 1) = medium w c (hyb dos T (M n)) := fun n => rfl
  have hge : ∀ n u, p * nsq u ≤ qf (M n) u := by
    intro n
    induction n with
    | zero =>
      intro u
      rw [hM0, qf_medium hc0 hc1]
      have := damping_le hc0 hc1 hp hw u
      simpa [qf, sf] using this
    | succ n ih =>
      intro u
      rw [hMs]
      exact medium_ge hc0 hc1 hd hT hp hw (retarded_of_ge hp ih) u
  have hret : ∀ n, Retarded (M n) := fun n => retarded_of_ge hp (hge n)
  set Y : ℝ := ∑ i, (w i).im / c i + C with hY
  have hY0 : ∀ i, 0 ≤ (w i).im / c i := fun i => div_nonneg (hp.le.trans (hw i)) (hc0 i).le
  have hle : ∀ n i, qf (M n) (Pi.single i 1) ≤ Y := by
    intro n i
    have hbase : ∑ j, (w j).im / c j * ‖(Pi.single i 1 : ν → ℂ) j‖ ^ 2 ≤ ∑ i, (w i).im / c i := by
      rw [Finset.sum_eq_single i]
      · simp only [Pi.single_eq_same, norm_one, one_pow, mul_one]
        exact Finset.single_le_sum (f := fun i => (w i).im / c i) (fun j _ => hY0 j)
          (Finset.mem_univ i)
      · intro b _ hb; simp [hb]
      · simp
    cases n with
    | zero =>
      rw [hM0, qf_medium hc0 hc1]
      have : ∑ j, c j * -qf (0 : Matrix ν ν ℂ) (kv c j (Pi.single i 1)) = 0 := by simp [qf, sf]
      rw [this]
      linarith
    | succ n =>
      rw [hMs, qf_medium hc0 hc1]
      have := hC' (M n) (hge n) (Pi.single i 1)
      rw [nsq_single, mul_one] at this
      linarith
  set S := (∑ a, ∑ b, ‖(M 0 - M 1) a b‖) / p with hS
  have hS0 : 0 ≤ S := div_nonneg
    (Finset.sum_nonneg fun a _ => Finset.sum_nonneg fun b _ => norm_nonneg _) hp.le
  have hstep : ∀ n : ℕ, ∀ u v, ‖sf (M n - M (n + 1)) u v‖
      ≤ κ ^ n * S * ((qf (M n) u + qf (M (n + 1)) v) / 2) := by
    intro n
    induction n with
    | zero => intro u v; rw [pow_zero, one_mul]; exact dist_start hp (hge 0) (hge 1) u v
    | succ n ih =>
      intro u v
      have := hκ (M n) (M (n + 1)) (hge n) (hge (n + 1)) _ (by positivity) ih u v
      rw [pow_succ']
      rw [← hMs n, ← hMs (n + 1)] at this
      linarith
  have hcauchy : ∀ i j, CauchySeq fun n => M n i j := by
    intro i j
    refine cauchySeq_of_le_geometric κ (S * Y) hκ1 fun n => ?_
    have h1 := hstep n (Pi.single i 1) (Pi.single j 1)
    rw [sf_single, Matrix.sub_apply] at h1
    rw [dist_eq_norm]
    refine h1.trans ?_
    have h2 := hle n i
    have h3 := hle (n + 1) j
    calc _ ≤ κ ^ n * S * ((Y + Y) / 2) := by gcongr
      _ = _ := by ring
  choose L hL using fun i j => cauchySeq_tendsto_of_complete (hcauchy i j)
  set Ms : Matrix ν ν ℂ := Matrix.of L with hMs'
  have hlim : ∀ i j, Tendsto (fun n => M n i j) atTop (𝓝 (Ms i j)) := hL
  have hsf : ∀ u v, Tendsto (fun n => sf (M n) u v) atTop (𝓝 (sf Ms u v)) := by
    intro u v
    simp only [sf_eq_sum]
    exact tendsto_finsetSum _ fun a _ => tendsto_finsetSum _ fun b _ =>
      ((hlim a b).const_mul _).mul_const _
  have hgs : ∀ u, p * nsq u ≤ qf Ms u := fun u =>
    ge_of_tendsto' ((Complex.continuous_im.tendsto _).comp (hsf u u)) fun n => hge n u
  refine ⟨Ms, hgs, ?_⟩
  have hρ : Tendsto (fun n => (∑ a, ∑ b, ‖(M n - Ms) a b‖) / p) atTop (𝓝 0) := by
    have h1 : Tendsto (fun n => ∑ a, ∑ b, ‖(M n - Ms) a b‖) atTop (𝓝 (∑ a : ν, ∑ b : ν, (0 : ℝ))) := by
      refine tendsto_finsetSum _ fun a _ => tendsto_finsetSum _ fun b _ => ?_
      have := ((hlim a b).sub_const (Ms a b)).norm
      simpa using this
    simpa using h1.div_const p
  ext i j
  have h5 : Tendsto (fun n => M (n + 1) i j) atTop (𝓝 (medium w c (hyb dos T Ms) i j)) := by
    rw [tendsto_iff_norm_sub_tendsto_zero]
    refine squeeze_zero (fun n => norm_nonneg _) (fun n => ?_)
      (g := fun n => (∑ a, ∑ b, ‖(M n - Ms) a b‖) / p * ((C + C) / 2)) ?_
    · have h6 := medium_pick (w := w) hc0 hc1 hd hT (hret n) (retarded_of_ge hp hgs)
        (dist_start hp (hge n) hgs) (Pi.single i 1) (Pi.single j 1)
      rw [sf_single, Matrix.sub_apply, ← hMs] at h6
      refine h6.trans ?_
      have h7 := hC' (M n) (hge n) (Pi.single i 1)
      have h8 := hC' Ms hgs (Pi.single j 1)
      rw [nsq_single, mul_one] at h7 h8
      have : 0 ≤ (∑ a, ∑ b, ‖(M n - Ms) a b‖) / p := div_nonneg
        (Finset.sum_nonneg fun a _ => Finset.sum_nonneg fun b _ => norm_nonneg _) hp.le
      gcongr
    · simpa using hρ.mul_const ((C + C) / 2)
  exact tendsto_nhds_unique h5 ((tendsto_add_atTop_iff_nat 1).2 (hlim i j))

/-- Stability of the fixed point: a matrix that is almost a fixed point is close to the fixed
point. -/
theorem fix_stable : ∃ δ K : ℝ, 0 < δ ∧ 0 ≤ K ∧ ∀ M M' : Matrix ν ν ℂ, (∀ u, p * nsq u ≤ qf M u) →
    Retarded M' → medium w c (hyb dos T M') = M' → ∀ t : ℝ, t ≤ δ →
    (∀ a b, ‖(M - medium w c (hyb dos T M)) a b‖ ≤ t) → ∀ i j, ‖(M - M') i j‖ ≤ K * t := by
  obtain ⟨C, hC, hC'⟩ := spread_bound (dos := dos) hc0 hc1 hd hT hp
  set κ := C / (C + p) with hκ
  have hκ0 : 0 ≤ κ := by positivity
  have hκ1 : κ < 1 := by rw [hκ, div_lt_one (by positivity)]; linarith
  set m : ℝ := (Fintype.card ν : ℝ) with hm
  set Y : ℝ := ∑ i, (w i).im / c i + C with hY
  have hY0 : ∀ i, 0 ≤ (w i).im / c i := fun i => div_nonneg (hp.le.trans (hw i)) (hc0 i).le
  have hm0 : 0 ≤ m := by positivity
  refine ⟨(1 - κ) / 2 * p / (m * m + 1), 2 * (m * m / p) / (1 - κ) * (Y + p), by
    have : 0 < 1 - κ := by linarith
    positivity, ?_, fun M M' hM hM' eM' t ht hr i j => ?_⟩
  · have : 0 < 1 - κ := by linarith
    have : 0 ≤ Y := add_nonneg (Finset.sum_nonneg fun i _ => hY0 i) hC
    positivity
  have g' : ∀ u, p * nsq u ≤ qf M' u := fun u => by
    rw [← eM']; exact medium_ge hc0 hc1 hd hT hp hw hM' u
  set N := medium w c (hyb dos T M) with hN
  have ht0 : 0 ≤ t := (norm_nonneg _).trans (hr i j)
  set R := m * m / p * t with hR
  have hR0 : 0 ≤ R := by positivity
  have hRle : R ≤ (1 - κ) / 2 := by
    have h1 : t * (m * m + 1) ≤ (1 - κ) / 2 * p := by
      rwa [le_div_iff₀ (by positivity)] at ht
    rw [hR, div_mul_eq_mul_div, div_le_iff₀ hp]
    nlinarith
  have hRp : R ≤ 1 := by linarith
  have hsum : ∑ a, ∑ b, ‖(M - N) a b‖ ≤ R * p := by
    calc ∑ a, ∑ b, ‖(M - N) a b‖ ≤ ∑ _a : ν, ∑ _b : ν, t :=
          Finset.sum_le_sum fun a _ => Finset.sum_le_sum fun b _ => hr a b
      _ = R * p := by
          simp only [Finset.sum_const, Finset.card_univ, nsmul_eq_mul]
          rw [hR]; field_simp; rw [hm]; ring
  have hrsf : ∀ u v, ‖sf (M - N) u v‖ ≤ R * p * ((nsq u + nsq v) / 2) := fun u v =>
    (sf_bound _ u v).trans (mul_le_mul_of_nonneg_right hsum
      (by have := nsq_nonneg u; have := nsq_nonneg v; positivity))
  have hqr : ∀ u, |qf (M - N) u| ≤ R * (p * nsq u) := fun u =>
    ((Complex.abs_im_le_norm _).trans (hrsf u u)).trans (le_of_eq (by ring))
  have hNq : ∀ u, qf N u = qf M u - qf (M - N) u := fun u => by rw [qf_sub]; ring
  -- the spread of the two media
  have key : ∀ A : Matrix ν ν ℂ, (∀ u, p * nsq u ≤ qf A u) → ∀ u,
      ∑ i, c i * -qf (hyb dos T A) (kv c i u) ≤ κ * qf (medium w c (hyb dos T A)) u := by
    intro A hA u
    rw [qf_medium hc0 hc1, hκ, div_mul_eq_mul_div, le_div_iff₀ (by positivity)]
    have h3 := hC' A hA u
    have h4 := damping_le hc0 hc1 hp hw u
    nlinarith [mul_le_mul_of_nonneg_left h4 hC, mul_le_mul_of_nonneg_left h3 hp.le]
  set κ' := (1 + κ) / 2 with hκ'
  have hstep : ∀ ρ : ℝ, 0 ≤ ρ → (∀ u v, ‖sf (M - M') u v‖ ≤ ρ * ((qf M u + qf M' v) / 2)) →
      ∀ u v, ‖sf (M - M') u v‖ ≤ (κ' * ρ + R) * ((qf M u + qf M' v) / 2) := by
    intro ρ hρ h u v
    have h1 : M - M' = (M - N) + (N - M') := by abel
    have h2 := medium_pick (w := w) hc0 hc1 hd hT (retarded_of_ge hp hM) hM' h u v
    rw [eM', ← hN] at h2
    have k1 := key M hM u
    have k2 := key M' g' v
    rw [eM'] at k2
    rw [← hN, hNq] at k1
    have hMu := hM u
    have hMv := g' v
    have hu := nsq_nonneg u
    have hv := nsq_nonneg v
    have h3 : κ * (qf M u - qf (M - N) u) ≤ κ' * qf M u := by
      have h4 := neg_le_of_abs_le (hqr u)
      have h5 : R * (p * nsq u) ≤ (1 - κ) / 2 * qf M u :=
        mul_le_mul hRle hMu (by positivity) (by linarith)
      have h6 : κ * (R * (p * nsq u)) ≤ 1 * ((1 - κ) / 2 * qf M u) :=
        mul_le_mul hκ1.le h5 (by positivity) (by norm_num)
      have h7 : κ * -qf (M - N) u ≤ κ * (R * (p * nsq u)) :=
        mul_le_mul_of_nonneg_left (by linarith) hκ0
      rw [hκ']
      linarith
    have h8 : κ * qf M' v ≤ κ' * qf M' v :=
      mul_le_mul_of_nonneg_right (by rw [hκ']; linarith) ((by positivity : 0 ≤ p * nsq v).trans hMv)
    rw [h1, sf_add]
    refine (norm_add_le _ _).trans ?_
    have h9 : ‖sf (N - M') u v‖ ≤ ρ * ((κ' * qf M u + κ' * qf M' v) / 2) :=
      h2.trans (mul_le_mul_of_nonneg_left (by linarith) hρ)
    have h10 : ‖sf (M - N) u v‖ ≤ R * ((qf M u + qf M' v) / 2) := by
      refine (hrsf u v).trans ?_
      rw [mul_assoc]
      exact mul_le_mul_of_nonneg_left (by linarith) hR0
    linarith
  set L := 2 * R / (1 - κ) with hL
  have h1κ : 0 < 1 - κ := by linarith
  have hL0 : 0 ≤ L := by positivity
  have hLfix : κ' * L + R = L := by rw [hκ', hL]; field_simp; ring
  have hκ'0 : 0 ≤ κ' := by positivity
  set S := (∑ a, ∑ b, ‖(M - M') a b‖) / p with hS
  have hS0 : 0 ≤ S := div_nonneg
    (Finset.sum_nonneg fun a _ => Finset.sum_nonneg fun b _ => norm_nonneg _) hp.le
  have hn : ∀ n : ℕ, ∀ u v, ‖sf (M - M') u v‖ ≤ (κ' ^ n * S + L) * ((qf M u + qf M' v) / 2) := by
    intro n
    induction n with
    | zero =>
      intro u v
      refine (dist_start hp hM g' u v).trans (mul_le_mul_of_nonneg_right ?_ ?_)
      · rw [pow_zero, one_mul]; linarith
      · have h1 := hM u
        have h2 := g' v
        have := mul_nonneg hp.le (nsq_nonneg u)
        have := mul_nonneg hp.le (nsq_nonneg v)
        linarith
    | succ n ih =>
      intro u v
      refine (hstep _ (by positivity) ih u v).trans (le_of_eq ?_)
      congr 1
      rw [pow_succ']
      linear_combination hLfix
  have hlim : Tendsto (fun n : ℕ => (κ' ^ n * S + L)
      * ((qf M (Pi.single i 1) + qf M' (Pi.single j 1)) / 2)) atTop
      (𝓝 (L * ((qf M (Pi.single i 1) + qf M' (Pi.single j 1)) / 2))) := by
    have := (((tendsto_pow_atTop_nhds_zero_of_lt_one hκ'0 (by rw [hκ']; linarith)).mul_const
      S).add_const L).mul_const ((qf M (Pi.single i 1) + qf M' (Pi.single j 1)) / 2)
    simpa using this
  have hfin := ge_of_tendsto' hlim fun n => hn n (Pi.single i 1) (Pi.single j 1)
  rw [sf_single] at hfin
  have hub : ∀ A : Matrix ν ν ℂ, (∀ u, p * nsq u ≤ qf A u) → ∀ i,
      qf (medium w c (hyb dos T A)) (Pi.single i 1) ≤ Y := by
    intro A hA i
    have hbase : ∑ j, (w j).im / c j * ‖(Pi.single i 1 : ν → ℂ) j‖ ^ 2 ≤ ∑ i, (w i).im / c i := by
      rw [Finset.sum_eq_single i]
      · simp only [Pi.single_eq_same, norm_one, one_pow, mul_one]
        exact Finset.single_le_sum (f := fun i => (w i).im / c i) (fun j _ => hY0 j)
          (Finset.mem_univ i)
      · intro b _ hb; simp [hb]
      · simp
    rw [qf_medium hc0 hc1]
    have := hC' A hA (Pi.single i 1)
    rw [nsq_single, mul_one] at this
    linarith
  have h11 := hub M hM i
  have h12 := hub M' g' j
  rw [eM'] at h12
  rw [← hN, hNq] at h11
  have h13 := le_of_abs_le (hqr (Pi.single i 1))
  rw [nsq_single, mul_one] at h13
  have h14 : R * p ≤ p := by nlinarith
  calc ‖(M - M') i j‖ ≤ L * ((qf M (Pi.single i 1) + qf M' (Pi.single j 1)) / 2) := hfin
    _ ≤ L * (Y + p) := mul_le_mul_of_nonneg_left (by linarith) hL0
    _ = _ := by rw [hL, hR]; ring

end Fix

end Gftool.Lemmas
