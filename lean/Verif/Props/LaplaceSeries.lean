import Verif.Props.Laplace

/-!
# Z-transform by linear prediction and Padé approximants (C46)
-/

namespace Gftool.Props

open Gftool Model Spec Lemmas
open Complex (I)
open Polynomial (eval X C)
open scoped Polynomial

/-! ## Helpers -/

lemma hasSum_convo (x : ℕ → ℂ) (y S : ℂ) (hS : HasSum (fun k => x k * y ^ k) S) (aa : ℕ → ℂ)
    (p : ℕ) (haa : ∀ j, p < j → aa j = 0) :
    HasSum (fun i => (∑ j ∈ Finset.range (i + 1), aa j * x (i - j)) * y ^ i)
      ((∑ l ∈ Finset.range (p + 1), y ^ l * aa l) * S) := by
  have h1 : ∀ l, HasSum (fun i => if l ≤ i then aa l * x (i - l) * y ^ i else 0)
      (y ^ l * aa l * S) := by
    intro l
    rw [← hasSum_nat_add_iff' l]
    have h0 : ∑ i ∈ Finset.range l, (if l ≤ i then aa l * x (i - l) * y ^ i else 0) = 0 :=
      Finset.sum_eq_zero fun i hi => if_neg (by have := Finset.mem_range.1 hi; omega)
    rw [h0, sub_zero]
    have := hS.mul_left (y ^ l * aa l)
    have e : (fun k => y ^ l * aa l * (x k * y ^ k))
        = fun n => if l ≤ n + l then aa l * x (n + l - l) * y ^ (n + l) else 0 := by
      funext k
      rw [if_pos (by omega), Nat.add_sub_cancel, pow_add]
      ring
    rwa [e] at this
  have h2 := hasSum_sum (s := Finset.range (p + 1)) (fun l _ => h1 l)
  rw [Finset.sum_mul]
  have e : (fun i => (∑ j ∈ Finset.range (i + 1), aa j * x (i - j)) * y ^ i)
      = fun i => ∑ l ∈ Finset.range (p + 1), if l ≤ i then aa l * x (i - l) * y ^ i else 0 := by
    funext i
    rw [Finset.sum_mul]
    have e1 : ∑ j ∈ Finset.range (i + 1), aa j * x (i - j) * y ^ i
        = ∑ j ∈ Finset.range (i + 1 + (p + 1)), if j ≤ i then aa j * x (i - j) * y ^ i else 0 := by
      rw [Finset.sum_range_add (n := i + 1) (m := p + 1)]
      have : ∑ k ∈ Finset.range (p + 1), (if i + 1 + k ≤ i then
          aa (i + 1 + k) * x (i - (i + 1 + k)) * y ^ i else 0) = 0 :=
        Finset.sum_eq_zero fun k _ => if_neg (by omega)
      rw [this, add_zero]
      refine Finset.sum_congr rfl fun j hj => ?_
      rw [if_pos (by have := Finset.mem_range.1 hj; omega)]
    rw [e1, show i + 1 + (p + 1) = p + 1 + (i + 1) by omega, Finset.sum_range_add]
    have : ∑ k ∈ Finset.range (i + 1), (if p + 1 + k ≤ i then
        aa (p + 1 + k) * x (i - (p + 1 + k)) * y ^ i else 0) = 0 :=
      Finset.sum_eq_zero fun k _ => by rw [haa _ (by omega)]; simp
    rw [this, add_zero]
  rw [e]
  exact h2

private lemma phase_pow (z : ℂ) (dt : ℝ) (k : ℕ) :
    phase z (k * dt) = Complex.exp (I * z * dt) ^ k := by
  unfold phase
  rw [← Complex.exp_nat_mul]
  push_cast
  ring_nf

private lemma equidistant_lin (n : ℕ) (t0 dt : ℝ) : equidistant n (fun k => t0 + k * dt) := by
  intro k _
  have : (t0 + (k + 1 : ℕ) * dt - (t0 + (k : ℕ) * dt)
      - (t0 + (1 : ℕ) * dt - (t0 + (0 : ℕ) * dt)) : ℝ) = 0 := by
    push_cast; ring
  simp only
  rw [this, abs_zero]
  positivity

lemma equidistant_lin0 (n : ℕ) (dt : ℝ) : equidistant n (fun k => k * dt) := by
  have := equidistant_lin n 0 dt
  simpa using this

/-! ## Linear prediction -/

/-- C46: if the weighted samples `x_k` satisfy a linear recurrence of the used order `p` (which needs
`2 p ≤ n`, as for the default), `tt2z_lpz` returns the infinite sum `∑_k x_k exp(i z t_k)`: the
truncation at the last of the `n` times is removed. -/
theorem tt2z_lpz_exact (ext : LinalgExt ℂ) (n : ℕ) (hn : 2 ≤ n) (dt : ℝ) (g : ℕ → ℂ) (z : ℂ)
    (order : Option ℕ) (p : ℕ) (hp : order.getD (n / 2) = p) (hp0 : p ≠ 0) (hpn : 2 * p ≤ n)
    (quad : Quad) (hquad : quad ≠ .other) (c : Fin p → ℂ)
    (hrec : ∀ i, p ≤ i → quadWeight quad n dt g i
      = - ∑ j : Fin p, c j * quadWeight quad n dt g (i - 1 - j))
    (S : ℂ) (hS : HasSum (fun k : ℕ => quadWeight quad n dt g k * Complex.exp (I * z * (k * dt))) S) :
    ∃ a rho, pcoeffCovar ext (quadWeight quad n dt g) n p = .ok (a, rho) ∧
      (1 + ∑ j : Fin p, a j * Complex.exp (I * z * (((j : ℕ) + 1) * dt)) ≠ 0 →
        tt2zLpz ext n (fun k => k * dt) g z order quad = .ok S) := by
  set x := quadWeight quad n dt g with hx
  obtain ⟨a, rho, hcov⟩ : ∃ a rho, pcoeffCovar ext x n p = .ok (a, rho) := by
    unfold pcoeffCovar
    rw [if_neg (by omega), if_neg hp0]
    exact ⟨_, _, rfl⟩
  refine ⟨a, rho, hcov, fun hden => ?_⟩
  have hra := pcoeff_covar_recurs ext x n p hpn c hrec a rho hcov
  unfold tt2zLpz
  subst hp
  have hd : ((1 : ℕ) * dt - (0 : ℕ) * dt : ℝ) = dt := by push_cast; ring
  rw [if_neg (by omega), if_neg (not_not.2 (equidistant_lin0 n dt))]
  simp only [if_neg hquad, hd]
  rw [← hx, hcov]
  simp only
  clear_value x
  generalize order.getD (n / 2) = p at *
  set aa : ℕ → ℂ := fun j => if j = 0 then 1 else if h : j - 1 < p then a ⟨j - 1, h⟩ else 0 with haa
  set y := Complex.exp (I * z * dt) with hy
  have hS' : HasSum (fun k => x k * y ^ k) S := by
    have e : (fun k : ℕ => x k * Complex.exp (I * z * (k * dt))) = fun k => x k * y ^ k := by
      funext k
      rw [hy, ← Complex.exp_nat_mul]
      ring_nf
    rwa [e] at hS
  have haa0 : ∀ j, p < j → aa j = 0 := by
    intro j hj
    simp only [haa]
    rw [if_neg (by omega), dif_neg (by omega)]
  have hconv := hasSum_convo x y S hS' aa p haa0
  have hz : ∀ i, p ≤ i → ∑ j ∈ Finset.range (i + 1), aa j * x (i - j) = 0 := by
    intro i hi
    obtain ⟨d, rfl⟩ : ∃ d, i = p + d := ⟨i - p, by omega⟩
    rw [Finset.sum_range_succ', show p + d = p + d by rfl, Finset.sum_range_add]
    have h0 : ∑ k ∈ Finset.range d, aa (p + k + 1) * x (p + d - (p + k + 1)) = 0 :=
      Finset.sum_eq_zero fun k _ => by rw [haa0 _ (by omega), zero_mul]
    rw [h0, add_zero, Finset.sum_range]
    have h1 : ∀ j : Fin p, aa (j + 1) = a j := by
      intro j
      simp [haa]
    simp only [h1]
    have h2 : aa 0 = 1 := by simp [haa]
    rw [h2, one_mul, Nat.sub_zero, hra (p + d) hi]
    have h3 : ∀ j : Fin p, p + d - ((j : ℕ) + 1) = p + d - 1 - j := fun j => by omega
    simp only [h3]
    ring
  have hfin : HasSum (fun i => (∑ j ∈ Finset.range (i + 1), aa j * x (i - j)) * y ^ i)
      (∑ i ∈ Finset.range p, (∑ j ∈ Finset.range (i + 1), aa j * x (i - j)) * y ^ i) :=
    hasSum_sum_of_ne_finset_zero fun i hi => by
      rw [hz i (by simpa using hi), zero_mul]
  have heq := hconv.unique hfin
  congr 1
  simp only [phase_pow, ← hy]
  have hden' : ∑ l ∈ Finset.range (p + 1), y ^ l * aa l ≠ 0 := by
    rw [Finset.sum_range_succ', Finset.sum_range]
    have h1 : ∀ j : Fin p, aa (j + 1) = a j := by
      intro j
      simp [haa]
    have h2 : aa 0 = 1 := by simp [haa]
    simp only [h1, h2, pow_zero, mul_one]
    intro h0
    apply hden
    rw [← h0, add_comm]
    congr 1
    refine Finset.sum_congr rfl fun j _ => ?_
    rw [hy, ← Complex.exp_nat_mul]
    push_cast
    ring_nf
  rw [div_eq_iff hden', mul_comm S, heq]
  exact Finset.sum_congr rfl fun l _ => by ring

/-- C46: `tt2z_lpz` raises exactly for less than two points, for points which are not equidistant,
for an unknown quadrature, and for an order that is zero or not smaller than the number of points. -/
theorem tt2z_lpz_error_iff (ext : LinalgExt ℂ) (n : ℕ) (tt : ℕ → ℝ) (g : ℕ → ℂ) (z : ℂ)
    (order : Option ℕ) (quad : Quad) :
    (∃ e, tt2zLpz ext n tt g z order quad = .error e) ↔
      n < 2 ∨ ¬ equidistant n tt ∨ quad = .other ∨ n ≤ order.getD (n / 2) ∨
        order.getD (n / 2) = 0 := by
  unfold tt2zLpz
  by_cases h1 : n < 2
  · simp [h1]
  by_cases h2 : equidistant n tt
  swap
  · simp [h1, h2]
  by_cases h3 : quad = .other
  · simp [h1, h2, h3]
  simp only [h1, h2, h3, if_false, false_or, not_true]
  unfold pcoeffCovar
  by_cases h4 : n ≤ order.getD (n / 2)
  · simp [h4]
  by_cases h5 : order.getD (n / 2) = 0
  · rw [if_neg h4, if_pos h5]
    simp [h5]
  · rw [if_neg h4, if_neg h5]
    simp [h4, h5]

/-- `tt2z_lpz` ignores the first time: a shift of all times does not change the result, although it
changes the Laplace integral by a phase. -/
theorem tt2z_lpz_phase_ignored (ext : LinalgExt ℂ) (n : ℕ) (dt t0 : ℝ) (g : ℕ → ℂ) (z : ℂ)
    (order : Option ℕ) (quad : Quad) :
    tt2zLpz ext n (fun k => t0 + k * dt) g z order quad
      = tt2zLpz ext n (fun k => k * dt) g z order quad := by
  have hd : (t0 + (1 : ℕ) * dt - (t0 + (0 : ℕ) * dt) : ℝ) = ((1 : ℕ) * dt - (0 : ℕ) * dt : ℝ) := by
    push_cast; ring
  unfold tt2zLpz
  simp only [hd]
  by_cases h1 : n < 2
  · simp [h1]
  rw [if_neg h1, if_neg h1, if_neg (not_not.2 (equidistant_lin n t0 dt)),
    if_neg (not_not.2 (equidistant_lin0 n dt))]
  by_cases h3 : quad = .other
  · simp [h3]
  rw [if_neg h3, if_neg h3]
  rcases pcoeffCovar ext (quadWeight quad n ((1 : ℕ) * dt - (0 : ℕ) * dt) g) n (order.getD (n / 2))
    with e | ⟨a, rho⟩
  · rfl
  · simp only
    congr 1
    have hph : ∀ l : ℕ, phase z (t0 + l * dt) = phase z t0 * phase z (l * dt) := by
      intro l
      unfold phase
      rw [← Complex.exp_add]
      push_cast
      ring_nf
    simp only [hph, mul_assoc, ← Finset.mul_sum]
    rw [mul_div_mul_left]
    exact Complex.exp_ne_zero _

/-- Hence for times that start at `t0` the result lacks the factor `exp(i z t0)`. -/
theorem tt2z_lpz_phase_wrong (ext : LinalgExt ℂ) (n : ℕ) (hn : 2 ≤ n) (t0 dt : ℝ) (g : ℕ → ℂ) (z : ℂ)
    (order : Option ℕ) (p : ℕ) (hp : order.getD (n / 2) = p) (hp0 : p ≠ 0) (hpn : 2 * p ≤ n)
    (quad : Quad) (hquad : quad ≠ .other) (c : Fin p → ℂ)
    (hrec : ∀ i, p ≤ i → quadWeight quad n dt g i
      = - ∑ j : Fin p, c j * quadWeight quad n dt g (i - 1 - j))
    (S : ℂ) (hS : HasSum (fun k : ℕ => quadWeight quad n dt g k * Complex.exp (I * z * (t0 + k * dt))) S) :
    ∃ a rho, pcoeffCovar ext (quadWeight quad n dt g) n p = .ok (a, rho) ∧
      (1 + ∑ j : Fin p, a j * Complex.exp (I * z * (((j : ℕ) + 1) * dt)) ≠ 0 →
        tt2zLpz ext n (fun k => t0 + k * dt) g z order quad = .ok (Complex.exp (-(I * z * t0)) * S)) := by
  rw [tt2z_lpz_phase_ignored]
  apply tt2z_lpz_exact ext n hn dt g z order p hp hp0 hpn quad hquad c hrec
  have := hS.mul_left (Complex.exp (-(I * z * t0)))
  have e : (fun k : ℕ => Complex.exp (-(I * z * t0))
        * (quadWeight quad n dt g k * Complex.exp (I * z * (t0 + k * dt))))
      = fun k : ℕ => quadWeight quad n dt g k * Complex.exp (I * z * (k * dt)) := by
    funext k
    rw [show Complex.exp (I * z * (k * dt))
      = Complex.exp (-(I * z * t0)) * Complex.exp (I * z * (t0 + k * dt)) by
        rw [← Complex.exp_add]; ring_nf]
    ring
  rwa [e] at this

/-! ## Padé approximants -/

/-- C46: if the weighted samples `x_k` are the Taylor coefficients of a rational function whose degrees
do not exceed those of the approximant, `tt2z_pade` returns the infinite sum `∑_k x_k exp(i z t_k)`
(where the approximant is not `0/0`). -/
theorem tt2z_pade_exact (ext : LinalgExt ℂ) (text : ToeplitzExt) (n : ℕ) (hn : 2 ≤ n) (dt : ℝ)
    (g : ℕ → ℂ) (z : ℂ) (degree : ℤ) (quad : Quad) (hquad : quad ≠ .other) (dn dd : ℕ)
    (hdd : (dd : ℤ) = ((n : ℤ) - (degree + 1) - 1) / 2) (hdn : (dn : ℤ) = dd + (degree + 1))
    (P Q : ℂ[X]) (hexp : IsExpansion (quadWeight quad n dt g) P Q) (hP : P.natDegree ≤ dn)
    (hQ : Q.natDegree ≤ dd) (hQz : Q.eval (Complex.exp (I * z * dt)) ≠ 0)
    (S : ℂ) (hS : HasSum (fun k : ℕ => quadWeight quad n dt g k * Complex.exp (I * z * (k * dt))) S) :
    ∃ r, hermPade ext text n (quadWeight quad n dt g) dn dd false = .ok r ∧
      (polyval r.denom (Complex.exp (I * z * dt)) ≠ 0 →
        tt2zPade (fun L an num den => hermPade ext text L an num den false) n (fun k => k * dt) g z
          degree quad = .ok S) := by
  obtain ⟨r, hr, hev⟩ := herm_pade_exact ext text n (quadWeight quad n dt g) dn dd (by omega) P Q hexp hP hQ
  refine ⟨r, hr, fun hden => ?_⟩
  have hd : ((1 : ℕ) * dt - (0 : ℕ) * dt : ℝ) = dt := by push_cast; ring
  unfold tt2zPade
  simp only [hd]
  rw [if_neg (by omega), if_neg (not_not.2 (equidistant_lin0 n dt)), if_neg hquad,
    if_neg (by simp), ← hdd, if_neg (by omega)]
  rw [← hdn, Int.toNat_natCast, Int.toNat_natCast, hr]
  simp only
  congr 1
  set y := Complex.exp (I * z * dt) with hy
  change r.eval y = S
  rw [hev y hden hQz, div_eq_iff hQz]
  set x := quadWeight quad n dt g
  have hS' : HasSum (fun k => x k * y ^ k) S := by
    have e : (fun k : ℕ => x k * Complex.exp (I * z * (k * dt))) = fun k => x k * y ^ k := by
      funext k
      rw [hy, ← Complex.exp_nat_mul]
      ring_nf
    rwa [e] at hS
  have h1 := hasSum_convo x y S hS' Q.coeff dd
    (fun j hj => Polynomial.coeff_eq_zero_of_natDegree_lt (by omega))
  have hco : ∀ i, ∑ j ∈ Finset.range (i + 1), Q.coeff j * x (i - j) = P.coeff i := by
    intro i
    have := congrArg (PowerSeries.coeff i) hexp.2
    rw [PowerSeries.coeff_mul, Polynomial.coeff_coe] at this
    rw [← this, Finset.Nat.sum_antidiagonal_eq_sum_range_succ
      (fun a b => PowerSeries.coeff a (Q : PowerSeries ℂ) * PowerSeries.coeff b (PowerSeries.mk x))]
    exact Finset.sum_congr rfl fun j _ => by rw [Polynomial.coeff_coe, PowerSeries.coeff_mk]
  simp only [hco] at h1
  have h2 : HasSum (fun i => P.coeff i * y ^ i) (∑ i ∈ Finset.range (dn + 1), P.coeff i * y ^ i) :=
    hasSum_sum_of_ne_finset_zero fun i hi => by
      rw [Polynomial.coeff_eq_zero_of_natDegree_lt, zero_mul]
      have : ¬ i < dn + 1 := by simpa using hi
      omega
  rw [Polynomial.eval_eq_sum_range' (n := dn + 1) (by omega),
    Polynomial.eval_eq_sum_range' (n := dd + 1) (by omega), ← h1.unique h2, mul_comm S]
  congr 1
  exact Finset.sum_congr rfl fun l _ => by ring

/-- C46: `tt2z_pade` rejects: less than two points, points which are not equidistant, unknown
quadratures, and times that do not start at zero (in this order). -/
theorem tt2z_pade_rejects (pade : ℕ → (ℕ → ℂ) → ℕ → ℕ → Except Err RatPol) (n : ℕ) (tt : ℕ → ℝ)
    (g : ℕ → ℂ) (z : ℂ) (degree : ℤ) (quad : Quad) :
    (n < 2 → tt2zPade pade n tt g z degree quad = .error .indexError) ∧
    (2 ≤ n → ¬ equidistant n tt → tt2zPade pade n tt g z degree quad = .error .valueError) ∧
    (2 ≤ n → equidistant n tt → quad = .other →
      tt2zPade pade n tt g z degree quad = .error .valueError) ∧
    (2 ≤ n → equidistant n tt → quad ≠ .other → tt 0 ≠ 0 →
      tt2zPade pade n tt g z degree quad = .error .assertionError) := by
  unfold tt2zPade
  refine ⟨fun h => ?_, fun h h2 => ?_, fun h h2 h3 => ?_, fun h h2 h3 h4 => ?_⟩
  · simp only
    rw [if_pos h]
  · simp only
    rw [if_neg (by omega), if_pos h2]
  · simp only
    rw [if_neg (by omega), if_neg (not_not.2 h2), if_pos h3]
  · simp only
    rw [if_neg (by omega), if_neg (not_not.2 h2), if_neg h3, if_pos h4]

/-! ## Sums of exponentials -/

/-- The weighted samples of a sum of exponentials `g(t_k) = ∑_j w_j e_j^k` for both quadratures:
up to the first one they are again a sum of exponentials. -/
private lemma weight_exp {q : ℕ} (w e : Fin q → ℂ) (n : ℕ) (dt : ℝ) (g : ℕ → ℂ)
    (hg : ∀ k, g k = ∑ j, w j * e j ^ k) (k : ℕ) (hk : 1 ≤ k) :
    quadWeight .trapz n dt g k = ∑ j, (dt * w j) * e j ^ k ∧
    quadWeight .simps n dt g k = ∑ j : Fin q ⊕ Fin q,
      (Sum.elim (fun j => dt * w j) (fun j => -(dt / 3 * w j)) j) * (Sum.elim e (-e) j) ^ k := by
  constructor
  · simp only [quadWeight, trapzWeight, show k ≠ 0 by omega, if_false, Bool.false_eq_true, false_and,
      mul_one, hg, Finset.mul_sum, mul_assoc]
  · simp only [quadWeight, simpsWeight, Bool.false_eq_true, not_false_eq_true, if_true,
      Fintype.sum_sum_type, Sum.elim_inl, Sum.elim_inr, Pi.neg_apply]
    rw [← Finset.sum_add_distrib, hg, Finset.mul_sum, Finset.sum_mul, Finset.sum_mul]
    refine Finset.sum_congr rfl fun j _ => ?_
    rcases Nat.even_or_odd k with h | h
    · have h2 : k % 2 = 0 := Nat.even_iff.1 h
      rw [if_neg (by omega), if_pos (by omega), h.neg_pow]
      ring
    · have h2 : k % 2 = 1 := Nat.odd_iff.1 h
      rw [if_pos (by omega), if_neg (by omega), h.neg_pow]
      ring

private lemma exp_recurrence {ι : Type*} [Fintype ι] (w e : ι → ℂ) (p : ℕ) (hp : Fintype.card ι < p)
    (s : ℕ → ℂ) (hs : ∀ k, 1 ≤ k → s k = ∑ j, w j * e j ^ k) :
    ∃ c : Fin p → ℂ, ∀ i, p ≤ i → s i = - ∑ j : Fin p, c j * s (i - 1 - j) := by
  classical
  set P : ℂ[X] := X ^ (p - Fintype.card ι) * ∏ j, (X - C (e j)) with hP
  have hmon : P.Monic := (Polynomial.monic_X_pow _).mul
    (Polynomial.monic_prod_of_monic _ _ fun j _ => Polynomial.monic_X_sub_C _)
  have hdeg : P.natDegree = p := by
    rw [hP, (Polynomial.monic_X_pow _).natDegree_mul
      (Polynomial.monic_prod_of_monic _ _ fun j _ => Polynomial.monic_X_sub_C _),
      Polynomial.natDegree_X_pow, Polynomial.natDegree_prod_of_monic _ _
        (fun j _ => Polynomial.monic_X_sub_C _)]
    simp
    omega
  have hroot : ∀ j, P.eval (e j) = 0 := by
    intro j
    rw [hP, Polynomial.eval_mul, Polynomial.eval_prod,
      Finset.prod_eq_zero (Finset.mem_univ j) (by simp), mul_zero]
  have hzero : P.coeff 0 = 0 := by
    rw [Polynomial.coeff_zero_eq_eval_zero, hP, Polynomial.eval_mul, Polynomial.eval_pow,
      Polynomial.eval_X, zero_pow (by omega), zero_mul]
  refine ⟨fun j => P.coeff (p - 1 - j), fun i hi => ?_⟩
  have hsum : ∑ m ∈ Finset.range (p + 1), P.coeff m * s (i - p + m) = 0 := by
    have h1 : ∀ m ∈ Finset.range (p + 1), P.coeff m * s (i - p + m)
        = ∑ j, w j * e j ^ (i - p) * (P.coeff m * e j ^ m) := by
      intro m _
      by_cases hm : m = 0
      · rw [hm, hzero]
        simp
      · rw [hs _ (by omega), Finset.mul_sum]
        refine Finset.sum_congr rfl fun j _ => ?_
        rw [pow_add]
        ring
    rw [Finset.sum_congr rfl h1, Finset.sum_comm]
    refine Finset.sum_eq_zero fun j _ => ?_
    rw [← Finset.mul_sum, ← Polynomial.eval_eq_sum_range' (by omega), hroot, mul_zero]
  rw [Finset.sum_range_succ, ← Finset.sum_range_reflect] at hsum
  have hlead : P.coeff p = 1 := by
    have := hmon.coeff_natDegree
    rwa [hdeg] at this
  rw [hlead, one_mul, show i - p + p = i by omega, Finset.sum_range] at hsum
  have : ∑ j : Fin p, P.coeff (p - 1 - j) * s (i - p + (p - 1 - j))
      = ∑ j : Fin p, P.coeff (p - 1 - j) * s (i - 1 - j) := by
    refine Finset.sum_congr rfl fun j _ => ?_
    rw [show i - p + (p - 1 - (j : ℕ)) = i - 1 - j by omega]
  rw [this] at hsum
  linear_combination hsum

lemma exp_hasSum {ι : Type*} [Fintype ι] (w e : ι → ℂ) (s : ℕ → ℂ)
    (hs : ∀ k, 1 ≤ k → s k = ∑ j, w j * e j ^ k) (y : ℂ) (hy : ∀ j, ‖e j * y‖ < 1) :
    HasSum (fun k => s k * y ^ k) (s 0 - ∑ j, w j + ∑ j, w j / (1 - e j * y)) := by
  have h1 : HasSum (fun k => ∑ j, w j * (e j * y) ^ k) (∑ j, w j / (1 - e j * y)) := by
    refine hasSum_sum fun j _ => ?_
    rw [div_eq_mul_inv]
    exact (hasSum_geometric_of_norm_lt_one (hy j)).mul_left _
  have h2 : HasSum (fun k : ℕ => if k = 0 then s 0 - ∑ j, w j else 0) (s 0 - ∑ j, w j) :=
    hasSum_ite_eq 0 _
  have h3 := h2.add h1
  have e : (fun k => (if k = 0 then s 0 - ∑ j, w j else 0) + ∑ j, w j * (e j * y) ^ k)
      = fun k => s k * y ^ k := by
    funext k
    by_cases hk : k = 0
    · subst hk; simp
    · rw [if_neg hk, zero_add, hs k (by omega), Finset.sum_mul]
      refine Finset.sum_congr rfl fun j _ => ?_
      rw [mul_pow]
      ring
  rwa [e] at h3

lemma exp_expansion {ι : Type*} [Fintype ι] (w e : ι → ℂ) (s : ℕ → ℂ)
    (hs : ∀ k, 1 ≤ k → s k = ∑ j, w j * e j ^ k) :
    ∃ P Q : ℂ[X], IsExpansion s P Q ∧ P.natDegree ≤ Fintype.card ι ∧ Q.natDegree ≤ Fintype.card ι ∧
      ∀ y, (∀ j, ‖e j * y‖ < 1) → Q.eval y ≠ 0 := by
  classical
  have hlin : ∀ j, (1 - C (e j) * X : ℂ[X]).natDegree ≤ 1 := by
    intro j
    refine (Polynomial.natDegree_sub_le _ _).trans ?_
    have := (Polynomial.natDegree_C_mul_le (e j) X).trans Polynomial.natDegree_X_le
    simp only [Polynomial.natDegree_one]
    omega
  set Q : ℂ[X] := ∏ j, (1 - C (e j) * X) with hQ
  have hQd : Q.natDegree ≤ Fintype.card ι := by
    refine (Polynomial.natDegree_prod_le _ _).trans ((Finset.sum_le_sum fun j _ => hlin j).trans ?_)
    simp
  refine ⟨C (s 0 - ∑ j, w j) * Q + ∑ j, C (w j) * ∏ i ∈ Finset.univ.erase j, (1 - C (e i) * X), Q,
    ⟨?_, ?_⟩, ?_, hQd, ?_⟩
  · rw [Polynomial.coeff_zero_eq_eval_zero, hQ, Polynomial.eval_prod]
    simp
  · have hgeo : ∀ j, ((1 - C (e j) * X : ℂ[X]) : PowerSeries ℂ) * PowerSeries.mk (fun k => e j ^ k) = 1 := by
      intro j
      ext k
      rw [Polynomial.coe_sub, Polynomial.coe_mul, Polynomial.coe_one, Polynomial.coe_C,
        Polynomial.coe_X, sub_mul, one_mul, mul_assoc, map_sub, PowerSeries.coeff_C_mul]
      rcases k with _ | k
      · simp
      · rw [PowerSeries.coeff_succ_X_mul, PowerSeries.coeff_mk, PowerSeries.coeff_mk,
          PowerSeries.coeff_one, if_neg (by omega), pow_succ]
        ring
    have hmk : PowerSeries.mk s = PowerSeries.C (s 0 - ∑ j, w j)
        + ∑ j, PowerSeries.C (w j) * PowerSeries.mk (fun k => e j ^ k) := by
      ext k
      rw [PowerSeries.coeff_mk, map_add, map_sum, PowerSeries.coeff_C]
      simp only [PowerSeries.coeff_C_mul, PowerSeries.coeff_mk]
      by_cases hk : k = 0
      · subst hk; simp
      · rw [if_neg hk, zero_add, hs k (by omega)]
    have hcast : ((∑ j, C (w j) * ∏ i ∈ Finset.univ.erase j, (1 - C (e i) * X) : ℂ[X]) : PowerSeries ℂ)
        = ∑ j, PowerSeries.C (w j)
          * ((∏ i ∈ Finset.univ.erase j, (1 - C (e i) * X) : ℂ[X]) : PowerSeries ℂ) := by
      rw [← Polynomial.coeToPowerSeries.ringHom_apply, map_sum]
      refine Finset.sum_congr rfl fun j _ => ?_
      rw [Polynomial.coeToPowerSeries.ringHom_apply, Polynomial.coe_mul, Polynomial.coe_C]
    rw [hmk, Polynomial.coe_add, Polynomial.coe_mul, Polynomial.coe_C, hcast, mul_add, mul_comm,
      Finset.mul_sum]
    congr 1
    refine Finset.sum_congr rfl fun j _ => ?_
    rw [hQ, ← Finset.mul_prod_erase Finset.univ _ (Finset.mem_univ j), Polynomial.coe_mul]
    linear_combination PowerSeries.C (w j)
      * ((∏ i ∈ Finset.univ.erase j, (1 - C (e i) * X) : ℂ[X]) : PowerSeries ℂ) * hgeo j
  · refine (Polynomial.natDegree_add_le _ _).trans (max_le ?_ ?_)
    · exact (Polynomial.natDegree_C_mul_le _ _).trans hQd
    · refine Polynomial.natDegree_sum_le_of_forall_le _ _ fun j _ => ?_
      refine (Polynomial.natDegree_C_mul_le _ _).trans ((Polynomial.natDegree_prod_le _ _).trans
        ((Finset.sum_le_sum fun j _ => hlin j).trans ?_))
      simp
  · intro y hy
    rw [hQ, Polynomial.eval_prod, Finset.prod_ne_zero_iff]
    intro j _ h0
    simp only [Polynomial.eval_sub, Polynomial.eval_one, Polynomial.eval_mul, Polynomial.eval_C,
      Polynomial.eval_X] at h0
    have h1 := hy j
    rw [← sub_eq_zero.1 h0] at h1
    simp at h1

/-- Number of poles of the generating function of the weighted samples for a sum of `q` exponentials. -/
def quadPoles (quad : Quad) (q : ℕ) : ℕ := if quad = .trapz then q else 2 * q

lemma weight_data {q : ℕ} (w e : Fin q → ℂ) (n : ℕ) (dt : ℝ) (g : ℕ → ℂ)
    (hg : ∀ k, g k = ∑ j, w j * e j ^ k) (quad : Quad) (hquad : quad ≠ .other) (y : ℂ)
    (hy : ∀ j, ‖e j * y‖ < 1) :
    ∃ (ι : Type) (_ : Fintype ι) (w' e' : ι → ℂ), Fintype.card ι = quadPoles quad q ∧
      (∀ k, 1 ≤ k → quadWeight quad n dt g k = ∑ j, w' j * e' j ^ k) ∧ ∀ j, ‖e' j * y‖ < 1 := by
  rcases quad with _ | _ | _
  · refine ⟨Fin q, inferInstance, fun j => dt * w j, e, by simp [quadPoles],
      fun k hk => (weight_exp w e n dt g hg k hk).1, hy⟩
  · refine ⟨Fin q ⊕ Fin q, inferInstance, _, _, by simp [quadPoles]; ring,
      fun k hk => (weight_exp w e n dt g hg k hk).2, ?_⟩
    rintro (j | j)
    · exact hy j
    · simpa using hy j
  · exact absurd rfl hquad

lemma pow_phase (z : ℂ) (dt : ℝ) (k : ℕ) :
    Complex.exp (I * z * (k * dt)) = Complex.exp (I * z * dt) ^ k := by
  rw [← Complex.exp_nat_mul]
  ring_nf

/-- C46: for every sum of `q` damped exponentials `g(t_k) = ∑_j w_j e_j^k` the Z-transform converges
and `tt2z_lpz` returns it exactly from finitely many samples, if its order exceeds `q`
(`2 q` for Simpson weights) and `n ≥ 2·order`. -/
theorem tt2z_lpz_exponentials (ext : LinalgExt ℂ) (n : ℕ) (hn : 2 ≤ n) (dt : ℝ) (g : ℕ → ℂ) (z : ℂ)
    (order : Option ℕ) (p : ℕ) (hp : order.getD (n / 2) = p) (hpn : 2 * p ≤ n)
    (quad : Quad) (hquad : quad ≠ .other) {q : ℕ} (w e : Fin q → ℂ) (hq : quadPoles quad q < p)
    (hg : ∀ k, g k = ∑ j, w j * e j ^ k) (hconv : ∀ j, ‖e j * Complex.exp (I * z * dt)‖ < 1) :
    Summable (fun k : ℕ => quadWeight quad n dt g k * Complex.exp (I * z * (k * dt))) ∧
    ∃ a rho, pcoeffCovar ext (quadWeight quad n dt g) n p = .ok (a, rho) ∧
      (1 + ∑ j : Fin p, a j * Complex.exp (I * z * (((j : ℕ) + 1) * dt)) ≠ 0 →
        tt2zLpz ext n (fun k => k * dt) g z order quad
          = .ok (∑' k : ℕ, quadWeight quad n dt g k * Complex.exp (I * z * (k * dt)))) := by
  obtain ⟨ι, _, w', e', hcard, hs, hy⟩ := weight_data w e n dt g hg quad hquad _ hconv
  have hsum := exp_hasSum w' e' _ hs _ hy
  simp only [← pow_phase] at hsum
  obtain ⟨c, hc⟩ := exp_recurrence w' e' p (by omega) _ hs
  exact ⟨hsum.summable, tt2z_lpz_exact ext n hn dt g z order p hp (by omega) hpn quad hquad c hc _
    hsum.summable.hasSum⟩

/-- C46: the same for `tt2z_pade`, if the degrees of the approximant are at least `q` (`2 q` for
Simpson weights). -/
theorem tt2z_pade_exponentials (ext : LinalgExt ℂ) (text : ToeplitzExt) (n : ℕ) (hn : 2 ≤ n) (dt : ℝ)
    (g : ℕ → ℂ) (z : ℂ) (degree : ℤ) (quad : Quad) (hquad : quad ≠ .other) (dn dd : ℕ)
    (hdd : (dd : ℤ) = ((n : ℤ) - (degree + 1) - 1) / 2) (hdn : (dn : ℤ) = dd + (degree + 1))
    {q : ℕ} (w e : Fin q → ℂ) (hq : quadPoles quad q ≤ dd) (hq' : quadPoles quad q ≤ dn)
    (hg : ∀ k, g k = ∑ j, w j * e j ^ k) (hconv : ∀ j, ‖e j * Complex.exp (I * z * dt)‖ < 1) :
    ∃ r, hermPade ext text n (quadWeight quad n dt g) dn dd false = .ok r ∧
      (polyval r.denom (Complex.exp (I * z * dt)) ≠ 0 →
        tt2zPade (fun L an num den => hermPade ext text L an num den false) n (fun k => k * dt) g z
          degree quad
          = .ok (∑' k : ℕ, quadWeight quad n dt g k * Complex.exp (I * z * (k * dt)))) := by
  obtain ⟨ι, _, w', e', hcard, hs, hy⟩ := weight_data w e n dt g hg quad hquad _ hconv
  have hsum := exp_hasSum w' e' _ hs _ hy
  simp only [← pow_phase] at hsum
  obtain ⟨P, Q, h1, h2, h3, h4⟩ := exp_expansion w' e' _ hs
  exact tt2z_pade_exact ext text n hn dt g z degree quad hquad dn dd hdd hdn P Q h1 (by omega)
    (by omega) (h4 _ hy) _ hsum.summable.hasSum

/-- A single exponential: six points, default order three, a frequency in the upper half-plane. -/
example : quadPoles .trapz 1 < 3 ∧ 2 * 3 ≤ 6 ∧ (none : Option ℕ).getD (6 / 2) = 3 ∧
    ‖Complex.exp (-I * 2 * 1) * Complex.exp (I * I * (1 : ℝ))‖ < 1 := by
  refine ⟨by decide, by norm_num, rfl, ?_⟩
  rw [← Complex.exp_add, Complex.norm_exp]
  simp

/-- The default degree `-1` and seven points give the degrees `3, 3`. -/
example : ((3 : ℕ) : ℤ) = (((7 : ℕ) : ℤ) - (-1 + 1) - 1) / 2 ∧
    ((3 : ℕ) : ℤ) = ((3 : ℕ) : ℤ) + (-1 + 1) := by norm_num

end Gftool.Props
