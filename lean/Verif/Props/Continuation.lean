import Verif.Props.Polepade
import Verif.Lemmas.PolepadeExt

/-!
# C59: `polepade.continuation` reproduces rational functions
-/

namespace Gftool.Props

open Matrix Polynomial Gftool.Model Gftool.Lemmas Gftool.Spec

variable {N : ℕ} {z f : Fin N → ℂ} {P Q : ℂ[X]}

lemma nodal_roots {m : ℕ} (v : Fin m → ℂ) :
    (Lagrange.nodal Finset.univ v).roots = Finset.univ.val.map v := by
  have : Lagrange.nodal Finset.univ v
      = ((Finset.univ.val.map v).map fun a => X - C a).prod := by
    rw [Multiset.map_map]; rfl
  rw [this, roots_multiset_prod_X_sub_C]

/-- Rational data in a rotated coordinate. -/
lemma scaled_data (hd : IsRationalData z f P Q) {c : ℂ} (hc : c ≠ 0) :
    IsRationalData (fun i => z i / c) f (C (c ^ Q.natDegree)⁻¹ * P.comp (C c * X))
      (C (c ^ Q.natDegree)⁻¹ * Q.comp (C c * X)) where
  inj := fun i j h => hd.inj (by simpa [hc] using h)
  monic := by
    rw [Monic, leadingCoeff_mul, leadingCoeff_C, leadingCoeff_comp (by simp [natDegree_C_mul_X c hc]),
      hd.monic.leadingCoeff]
    simp [hc]
  coprime := by
    rw [isCoprime_mul_unit_left (isUnit_C.2 (isUnit_iff_ne_zero.2 (by positivity)))]
    exact hd.coprime.map (compRingHom (C c * X))
  den_ne := fun i => by
    simp only [eval_mul, eval_C, eval_comp, eval_X]
    rw [mul_div_cancel₀ _ hc]
    exact mul_ne_zero (by positivity) (hd.den_ne i)
  val := fun i => by
    simp only [eval_mul, eval_C, eval_comp, eval_X]
    rw [mul_div_cancel₀ _ hc, hd.val i, mul_div_mul_left]
    positivity

/-- C59: `continuation` is exact for rational functions with simple poles: sampled at sufficiently
many points, off the zeros and poles, with any non-vanishing weights, with or without rotation
and with the exact moments as constraint (or none), it returns an approximant which is the
function itself everywhere off the poles, in both representations. -/
theorem continuation_exact (ext : PolepadeExt) (hd : IsRationalData z f P Q)
    (hsimple : Q.roots.Nodup) {degree : ℤ} (hdeg : degree ≤ 0)
    (hP : (P.natDegree : ℤ) = Q.natDegree + degree) (hn1 : 1 ≤ P.natDegree)
    (hPz : ∀ i, P.eval (z i) ≠ 0)
    (hN : 2 * (Q.natDegree : ℤ) + degree + 6 ≤ N) (hN2 : 2 * (Q.natDegree : ℤ) - degree + 2 ≤ N)
    (hodd : ¬((((N : ℤ) - degree) % 2 = 0) ∧ (N : ℤ) - degree ≤ 100))
    (hmed : npMedian f ≠ 0) {weight : Option (Fin N → ℝ)} (hw : GoodWeight weight)
    (hwsum : ∀ w, weight = some w → ∑ i, w i ≠ 0) {l : ℕ} (moments : Fin l → ℂ)
    (hl : l ≤ Q.natDegree) (hmom : ∀ j, moments j = ratMoment P Q j)
    (rotate : Option Bool) (realAsymp : Bool)
    (hreal : realAsymp = true → P.leadingCoeff.im = 0) :
    ∃ fuel, ∀ fuel' ≥ fuel, ∃ n m, ∃ pa : PadeApprox n m,
      continuation ext z f degree weight moments rotate realAsymp fuel' = some (.ok ⟨n, m, pa⟩) ∧
      n = P.natDegree ∧ m = Q.natDegree ∧ pa.amplitude = P.leadingCoeff ∧
      ∀ x, Q.eval x ≠ 0 → pa.evalZeropole x = P.eval x / Q.eval x ∧
        pa.evalPolefct x = .ok (P.eval x / Q.eval x) := by
  classical
  set rot : Bool := rotateFlag z rotate with hrot
  set c : ℂ := if rot then Complex.I else 1 with hcdef
  have hc : c ≠ 0 := by rw [hcdef]; split_ifs <;> simp
  have hzr : (fun i => if rot then z i / Complex.I else z i) = fun i => z i / c := by
    funext i; rw [hcdef]; split_ifs <;> simp
  have hd' := scaled_data hd hc
  set P' := C (c ^ Q.natDegree)⁻¹ * P.comp (C c * X) with hP'
  set Q' := C (c ^ Q.natDegree)⁻¹ * Q.comp (C c * X) with hQ'
  have hX1 : (C c * X : ℂ[X]).natDegree = 1 := natDegree_C_mul_X c hc
  have hcp : (c ^ Q.natDegree)⁻¹ ≠ 0 := by positivity
  have hPd : P'.natDegree = P.natDegree := by
    rw [hP', natDegree_C_mul hcp, natDegree_comp, hX1, mul_one]
  have hQd : Q'.natDegree = Q.natDegree := by
    rw [hQ', natDegree_C_mul hcp, natDegree_comp, hX1, mul_one]
  have hPl : P'.leadingCoeff = (c ^ Q.natDegree)⁻¹ * (P.leadingCoeff * c ^ P.natDegree) := by
    rw [hP', leadingCoeff_mul, leadingCoeff_C, leadingCoeff_comp (by omega)]
    simp
  set p := Q.natDegree with hpdef
  set n := P.natDegree with hndef
  have hp1 : 1 ≤ p := by omega
  have hP0 : P ≠ 0 := by rintro rfl; simp [hndef] at hn1
  obtain ⟨fuel, hfuel⟩ := number_poles_exact ext.toLinalgExt hd' hdeg hQd hp1
    (by rw [hPd]; exact hP) hw hN hN2 hodd
  obtain ⟨pls, hpls1, hpls2⟩ := polepade_poles_exact ext hd' hQd hPd (by omega) hp1 (by omega)
    hmed hw
  obtain ⟨zrs, hzrs1, hzrs2⟩ := polepade_zeros_exact ext hd' hPd hn1 (by omega) hmed hw pls hpls2
  -- rotate back
  have hpr : ∀ x, ∏ k, (x - c * pls k) = Q.eval x := by
    intro x
    have h1 : ∀ k, x - c * pls k = c * (x / c - pls k) := by intro k; field_simp
    simp only [h1]
    rw [Finset.prod_mul_distrib, hpls2, hQ', Finset.prod_const, Finset.card_univ,
      Fintype.card_fin]
    simp only [eval_mul, eval_C, eval_comp, eval_X]
    rw [mul_div_cancel₀ _ hc, ← mul_assoc, mul_inv_cancel₀ (by positivity), one_mul]
  have hzr' : ∀ x, P.leadingCoeff * ∏ k, (x - c * zrs k) = P.eval x := by
    intro x
    have h1 : ∀ k, x - c * zrs k = c * (x / c - zrs k) := by intro k; field_simp
    simp only [h1]
    rw [Finset.prod_mul_distrib, Finset.prod_const, Finset.card_univ, Fintype.card_fin]
    have h2 := hzrs2 (x / c)
    rw [hPl, hP'] at h2
    simp only [eval_mul, eval_C, eval_comp, eval_X] at h2
    rw [mul_div_cancel₀ _ hc, mul_assoc] at h2
    have h3 := mul_left_cancel₀ hcp h2
    linear_combination h3
  set pls' : Fin p → ℂ := fun k => c * pls k with hpls'
  set zrs' : Fin n → ℂ := fun k => c * zrs k with hzrs'
  -- the poles are simple
  have hQn : Q = Lagrange.nodal Finset.univ pls' := by
    apply Polynomial.funext
    intro x
    rw [Lagrange.eval_nodal, ← hpr x]
  have hinj : Function.Injective pls' := by
    have hr : Q.roots = Finset.univ.val.map pls' := by
      rw [hQn, nodal_roots]
    rw [hr] at hsimple
    exact fun i j h => Multiset.inj_on_of_nodup_map hsimple i (Finset.mem_univ i) j
      (Finset.mem_univ j) h
  have hzp : ∀ i k, z i ≠ pls' k := by
    intro i k h
    apply hd.den_ne i
    rw [← hpr, Finset.prod_eq_zero_iff]
    exact ⟨k, Finset.mem_univ k, sub_eq_zero.2 h⟩
  have hzz : ∀ i k, z i ≠ zrs' k := by
    intro i k h
    apply hPz i
    rw [← hzr', mul_eq_zero, Finset.prod_eq_zero_iff]
    exact Or.inr ⟨k, Finset.mem_univ k, sub_eq_zero.2 h⟩
  have hasym : asymptotic z f zrs' pls' weight = .ok (P.leadingCoeff, 0) := by
    apply asymptotic_exact P.leadingCoeff zrs' pls' (by omega) _ hzz hzp weight hwsum
    intro i
    rw [ZeroPole.eval, hd.val i]
    simp only [hzrs', hpls']
    rw [hzr', hpr]
  set a' : ℂ := if realAsymp then (P.leadingCoeff.re : ℂ) else P.leadingCoeff with ha'
  have ha : a' = P.leadingCoeff := by
    rw [ha']
    split_ifs with h
    · have := hreal h
      apply Complex.ext <;> simp [this]
    · rfl
  set r : Fin p → ℂ := fun k => residueAt P Q (pls' k) with hr
  have hpf : ∀ x, (∀ k, x ≠ pls' k) → P.eval x / Q.eval x
      = (if n = p then P.leadingCoeff else 0) + poleGfZ x pls' r := by
    intro x hx
    have := partial_fractions (P := P) (m := p) (by omega) pls' hinj hx
    rw [← hQn] at this
    rw [← hpr]
    exact this
  have hres : residuesOls ext.toLinalgExt z
      (fun i => if degree = 0 then f i - a' else f i) pls' weight moments = .ok r := by
    apply residues_ols_exact _ hd.inj pls' hinj hzp hp1 (by omega) r _ hw moments hl
    · intro j
      rw [hmom, ratMoment, hr]
      have hrt : Q.roots = Finset.univ.val.map pls' := by
        conv_lhs => rw [hQn]
        rw [nodal_roots]
      rw [hrt, Multiset.map_map]
      rfl
    · intro i
      have h1 := hpf (z i) (hzp i)
      rw [← hd.val i] at h1
      rw [h1, ha]
      have : degree = 0 ↔ n = p := by omega
      by_cases h0 : degree = 0
      · rw [if_pos h0, if_pos (this.1 h0)]; ring
      · rw [if_neg h0, if_neg (fun h => h0 (this.2 h))]; ring
  refine ⟨fuel, fun fuel' hf' => ?_⟩
  have hnp := hfuel fuel' hf'
  have hmn : ((p : ℤ) + degree).toNat = n := by omega
  have hmn' : ((p : ℤ)).toNat = p := by omega
  have hcont : ∀ (n' m' : ℕ), n' = n → m' = p →
      ∀ (F : (n' m' : ℕ) → Option (Except Err (Σ n m : ℕ, PadeApprox n m))), F n' m' = F n p := by
    rintro n' m' rfl rfl F; rfl
  refine ⟨n, p, ⟨zrs', pls', r, a'⟩, ?_, rfl, rfl, ha, ?_⟩
  · unfold continuation
    rw [if_neg (by omega)]
    simp only
    rw [← hrot, hzr, hnp]
    simp only
    rw [if_neg (by omega)]
    refine (hcont _ _ hmn hmn' (fun n' m' => match polepadePoles ext (fun i => z i / c) f n' m' weight with
        | .error e => some (.error e)
        | .ok pls =>
          match polepadeZeros ext (fun i => z i / c) f pls n' weight with
          | .error e => some (.error e)
          | .ok zrs =>
            match asymptotic z f (fun k => if rot then Complex.I * zrs k else zrs k)
                (fun k => if rot then Complex.I * pls k else pls k) weight with
            | .error e => some (.error e)
            | .ok (asymp, _) =>
              match residuesOls ext.toLinalgExt z (fun i => if degree = 0 then
                  f i - (if realAsymp then (asymp.re : ℂ) else asymp) else f i)
                  (fun k => if rot then Complex.I * pls k else pls k) weight moments with
              | .error e => some (.error e)
              | .ok res => some (.ok ⟨n', m', ⟨fun k => if rot then Complex.I * zrs k else zrs k,
                  fun k => if rot then Complex.I * pls k else pls k, res,
                  (if realAsymp then (asymp.re : ℂ) else asymp)⟩⟩))).trans ?_
    rw [hpls1]
    simp only
    rw [hzrs1]
    simp only
    have e1 : (fun k => if rot = true then Complex.I * zrs k else zrs k) = zrs' := by
      funext k; rw [hzrs', hcdef]; split_ifs <;> simp
    have e2 : (fun k => if rot = true then Complex.I * pls k else pls k) = pls' := by
      funext k; rw [hpls', hcdef]; split_ifs <;> simp
    rw [e1, e2, hasym]
    simp only
    rw [← ha', hres]
  · intro x hx
    have hxp : ∀ k, x ≠ pls' k := by
      intro k h
      apply hx
      rw [← hpr, Finset.prod_eq_zero_iff]
      exact ⟨k, Finset.mem_univ k, sub_eq_zero.2 h⟩
    constructor
    · unfold PadeApprox.evalZeropole ZeroPole.eval
      simp only
      rw [ha, ← hzr' x, ← hpr x]
    · unfold PadeApprox.evalPolefct
      rw [if_neg (by omega), hpf x hxp, ha]

/-- C59 is violated for a single pole: for every function `a / (z - x₀)` sampled at sufficiently
many points `continuation` fails. -/
theorem continuation_single_pole_fails (ext : PolepadeExt) (hd : IsRationalData z f P Q)
    (hP : P.natDegree = 0) (hQ : Q.natDegree = 1) (hN : 7 ≤ N)
    (hodd : ¬((((N : ℤ) + 1) % 2 = 0) ∧ (N : ℤ) + 1 ≤ 100))
    {weight : Option (Fin N → ℝ)} (hw : GoodWeight weight) {l : ℕ} (moments : Fin l → ℂ)
    (realAsymp : Bool) :
    ∃ fuel, ∀ fuel' ≥ fuel, ∃ e,
      continuation ext z f (-1) weight moments (some false) realAsymp fuel' = some (.error e) := by
  obtain ⟨fuel, hfuel⟩ := number_poles_exact ext.toLinalgExt hd (degree := -1) (by norm_num) hQ
    le_rfl (by rw [hP]; norm_num) hw (by push_cast; omega) (by push_cast; omega) (by
      rintro ⟨h1, h2⟩; exact hodd ⟨by omega, by omega⟩)
  refine ⟨fuel, fun fuel' hf' => ?_⟩
  unfold continuation
  rw [if_neg (by norm_num)]
  simp only [rotateFlag, Bool.false_eq_true, if_false]
  rw [hfuel fuel' hf']
  simp only
  rw [if_neg (by norm_num)]
  split
  · exact ⟨_, rfl⟩
  · rename_i pls _
    have h0 : (((1 : ℕ) : ℤ) + -1).toNat = 0 := by norm_num
    have hz : ∀ k, k = 0 → ∃ e, polepadeZeros ext z f pls k weight = .error e := by
      rintro k rfl
      exact ⟨_, polepade_zeros_empty_fails ext pls weight⟩
    obtain ⟨e, he⟩ := hz _ h0
    rw [he]
    exact ⟨e, rfl⟩

/-- A positive `degree` is refused. -/
theorem continuation_degree_error (ext : PolepadeExt) {degree : ℤ} (h : 0 < degree)
    (weight : Option (Fin N → ℝ)) {l : ℕ} (moments : Fin l → ℂ) (rotate : Option Bool)
    (realAsymp : Bool) (fuel : ℕ) :
    continuation ext z f degree weight moments rotate realAsymp fuel
      = some (.error .valueError) := by
  unfold continuation
  rw [if_pos h]

/-- The median does not vanish if the data lie in an open half plane, e.g. for a Green's function
on positive Matsubara frequencies (`u = i`). -/
lemma npMedian_ne_zero (u : ℂ) (h : ∀ i, 0 < (u * f i).re) (hN : 0 < N) : npMedian f ≠ 0 := by
  classical
  have key : 0 < (u * npMedian f).re := by
    unfold npMedian
    simp only
    set l := (List.ofFn f).mergeSort (fun a b => decide (lexLE a b)) with hl
    have hperm : l.Perm (List.ofFn f) := List.mergeSort_perm _ _
    have hlen : l.length = N := by rw [hperm.length_eq, List.length_ofFn]
    have hmem : ∀ k, k < N → 0 < (u * l.getD k 0).re := by
      intro k hk
      have hg : l.getD k 0 = l[k]'(by omega) := by
        rw [List.getD_eq_getElem?_getD, List.getElem?_eq_getElem (by omega), Option.getD_some]
      rw [hg]
      have h1 : l[k]'(by omega) ∈ List.ofFn f := hperm.mem_iff.1 (List.getElem_mem _)
      rw [List.mem_ofFn] at h1
      obtain ⟨i, hi⟩ := h1
      rw [← hi]
      exact h i
    split_ifs with hodd
    · exact hmem _ (by omega)
    · have h1 := hmem (N / 2 - 1) (by omega)
      have h2 := hmem (N / 2) (by omega)
      have : u * ((l.getD (N / 2 - 1) 0 + l.getD (N / 2) 0) / 2)
          = ((u * l.getD (N / 2 - 1) 0 + u * l.getD (N / 2) 0)) * ((1 / 2 : ℝ) : ℂ) := by
        push_cast; ring
      rw [this, Complex.re_mul_ofReal, Complex.add_re]
      linarith
  intro h0
  rw [h0] at key
  simp at key

/-- Sample data: `(z + 3) / ((z + 1) (z + 2))` at `z = 0, 1, …, N - 1`. -/
lemma sampleData (N : ℕ) : IsRationalData (fun i : Fin N => ((i : ℕ) : ℂ))
    (fun i => (((i : ℕ) : ℂ) + 3) / ((((i : ℕ) : ℂ) + 1) * (((i : ℕ) : ℂ) + 2)))
    (X + C 3) ((X + C 1) * (X + C 2)) where
  inj := fun i j h => by
    apply Fin.ext
    simpa using h
  monic := (monic_X_add_C 1).mul (monic_X_add_C 2)
  coprime := by
    refine IsCoprime.mul_right ?_ ?_
    · refine ⟨C (1 / 2), C (-1 / 2), ?_⟩
      have h1 : (C (1 / 2) : ℂ[X]) * C 3 = C (3 / 2) := by rw [← C_mul]; norm_num
      have h2 : (C (-1 / 2) : ℂ[X]) = - C (1 / 2) := by rw [← C_neg]; norm_num
      have h3 : (C (3 / 2) : ℂ[X]) = 1 + C (1 / 2) := by rw [← C_1, ← C_add]; norm_num
      rw [h2, C_1]
      linear_combination h1 + h3
    · refine ⟨1, -1, ?_⟩
      have h3 : (C 3 : ℂ[X]) = 1 + C 2 := by rw [← C_1, ← C_add]; norm_num
      linear_combination h3
  den_ne := fun i => by
    simp only [eval_mul, eval_add, eval_X, eval_C]
    have h1 : (((i : ℕ) : ℂ) + 1) ≠ 0 := by exact_mod_cast (Nat.succ_ne_zero i)
    have h2 : (((i : ℕ) : ℂ) + 2) ≠ 0 := by exact_mod_cast (by omega : (i : ℕ) + 2 ≠ 0)
    exact mul_ne_zero h1 h2
  val := fun i => by simp

/-- The hypotheses of `number_poles_exact` are met by ten samples. -/
example : ∃ fuel, ∀ fuel' ≥ fuel, numberPoles (polesNullDim (linalgExt ℂ)
    (fun i : Fin 10 => ((i : ℕ) : ℂ))
    (fun i => (((i : ℕ) : ℂ) + 3) / ((((i : ℕ) : ℂ) + 1) * (((i : ℕ) : ℂ) + 2))) (-1) none)
    (10 : ℕ) (-1) none fuel' = some (.ok ((2 : ℕ) : ℤ)) :=
  number_poles_exact _ (sampleData 10) (by norm_num)
    (by rw [(monic_X_add_C 1).natDegree_mul (monic_X_add_C 2), natDegree_X_add_C,
      natDegree_X_add_C]) (by norm_num)
    (by rw [natDegree_X_add_C]; norm_num) (by intro w hw; cases hw) (by norm_num) (by norm_num)
    (by norm_num)

/-- C58, overestimation: six samples of the same function with two poles give three poles. -/
example (fuel : ℕ) : numberPoles (polesNullDim (linalgExt ℂ)
    (fun i : Fin 6 => ((i : ℕ) : ℂ))
    (fun i => (((i : ℕ) : ℂ) + 3) / ((((i : ℕ) : ℂ) + 1) * (((i : ℕ) : ℂ) + 2))) (-1) none)
    (6 : ℕ) (-1) none (fuel + 1) = some (.ok (((2 : ℕ) : ℤ) + 1)) :=
  number_poles_overestimates _ (sampleData 6) (by norm_num) (by norm_num)
    (by rw [(monic_X_add_C 1).natDegree_mul (monic_X_add_C 2), natDegree_X_add_C,
      natDegree_X_add_C]) (by norm_num) (by norm_num)
    (by rw [natDegree_X_add_C]; norm_num) (by intro w hw; cases hw) (by norm_num) fuel

/-- C58, start value zero: the null dimension vanishes for ten samples, so `n_poles0 = 0` never
terminates. -/
example (fuel : ℕ) : numberPoles (polesNullDim (linalgExt ℂ)
    (fun i : Fin 10 => ((i : ℕ) : ℂ))
    (fun i => (((i : ℕ) : ℂ) + 3) / ((((i : ℕ) : ℂ) + 1) * (((i : ℕ) : ℂ) + 2))) (-1) none)
    (10 : ℕ) (-1) (some 0) fuel = none := by
  apply number_poles_zero_start_diverges
  · exact (poles_null_dim_exact (linalgExt ℂ) (sampleData 10) (X_add_C_ne_zero 3) (by norm_num)
      (by rw [(monic_X_add_C 1).natDegree_mul (monic_X_add_C 2), natDegree_X_add_C,
        natDegree_X_add_C]) (by rw [natDegree_X_add_C]; norm_num) (by intro w hw; cases hw) 0
      (by norm_num)).1 (by norm_num)
  · norm_num
  · norm_num

/-- The hypotheses of `continuation_exact` are met by ten samples, without weight or moments,
and the external routines exist. -/
example : ∃ fuel, ∀ fuel' ≥ fuel, ∃ n m, ∃ pa : PadeApprox n m,
    continuation polepadeExt (fun i : Fin 10 => ((i : ℕ) : ℂ))
      (fun i => (((i : ℕ) : ℂ) + 3) / ((((i : ℕ) : ℂ) + 1) * (((i : ℕ) : ℂ) + 2))) (-1) none
      (![] : Fin 0 → ℂ) none true fuel' = some (.ok ⟨n, m, pa⟩) ∧
    pa.evalZeropole Complex.I = (Complex.I + 3) / ((Complex.I + 1) * (Complex.I + 2)) := by
  have hP : (X + C 3 : ℂ[X]).natDegree = 1 := natDegree_X_add_C 3
  have hQ : ((X + C 1) * (X + C 2) : ℂ[X]).natDegree = 2 := by
    rw [(monic_X_add_C 1).natDegree_mul (monic_X_add_C 2), natDegree_X_add_C, natDegree_X_add_C]
  have hroots : ((X + C 1) * (X + C 2) : ℂ[X]).roots = {-1, -2} := by
    rw [roots_mul (mul_ne_zero (X_add_C_ne_zero 1) (X_add_C_ne_zero 2)), roots_X_add_C,
      roots_X_add_C]
    rfl
  have h := continuation_exact polepadeExt (sampleData 10) (by rw [hroots]; simp)
    (degree := -1) (by norm_num) (by rw [hP, hQ]; norm_num) (by rw [hP])
    (by
      intro i
      simp only [eval_add, eval_X, eval_C]
      exact_mod_cast (by omega : (i : ℕ) + 3 ≠ 0))
    (by rw [hQ]; norm_num) (by rw [hQ]; norm_num) (by norm_num)
    (npMedian_ne_zero 1 (by
      intro i
      rw [one_mul]
      have : (((i : ℕ) : ℂ) + 3) / ((((i : ℕ) : ℂ) + 1) * (((i : ℕ) : ℂ) + 2))
          = (((((i : ℕ) : ℝ) + 3) / ((((i : ℕ) : ℝ) + 1) * (((i : ℕ) : ℝ) + 2)) : ℝ) : ℂ) := by
        push_cast; rfl
      rw [this, Complex.ofReal_re]
      positivity) (by norm_num)) (weight := none) (by intro w hw; cases hw)
    (by intro w hw; cases hw) (![] : Fin 0 → ℂ) (by omega) (fun j => j.elim0) none true
    (by rw [leadingCoeff_X_add_C]; simp)
  obtain ⟨fuel, hf⟩ := h
  refine ⟨fuel, fun fuel' hle => ?_⟩
  obtain ⟨n, m, pa, h1, _, _, _, h5⟩ := hf fuel' hle
  refine ⟨n, m, pa, h1, ?_⟩
  have h6 := (h5 Complex.I (by
    simp only [eval_mul, eval_add, eval_X, eval_C, ne_eq, mul_eq_zero, not_or]
    constructor <;> intro h <;> have := congrArg Complex.re h <;> simp at this)).1
  rw [h6]
  simp

/-! ### The scale and the rotation -/

/-- A complex number as a pair in lexicographic order. -/
def lexPair (a : ℂ) : ℝ ×ₗ ℝ := toLex (a.re, a.im)

private lemma lexLE_iff (a b : ℂ) : lexLE a b ↔ lexPair a ≤ lexPair b := by
  unfold lexLE lexPair
  rw [Prod.Lex.toLex_le_toLex]

private lemma lexPair_inj {a b : ℂ} (h : lexPair a = lexPair b) : a = b := by
  unfold lexPair at h
  have h1 := toLex_inj.1 h
  rw [Prod.mk.injEq] at h1
  exact Complex.ext h1.1 h1.2

open scoped Classical in
/-- Every sorted arrangement of the data is the sorted list. -/
private lemma sorted_unique (g : Fin N → ℂ) (hg : Monotone fun i => lexPair (g i))
    (hperm : (List.ofFn g).Perm (List.ofFn f)) :
    (List.ofFn f).mergeSort (fun a b => decide (lexLE a b)) = List.ofFn g := by
  have h1 : ((List.ofFn f).mergeSort (fun a b => decide (lexLE a b))).Pairwise
      fun a b => decide (lexLE a b) = true := by
    refine List.pairwise_mergeSort ?_ ?_ _
    · intro a b c
      simp only [decide_eq_true_eq, lexLE_iff]
      exact le_trans
    · intro a b
      simp only [Bool.or_eq_true, decide_eq_true_eq, lexLE_iff]
      exact le_total _ _
  have h2 : (List.ofFn g).Pairwise fun a b => decide (lexLE a b) = true := by
    rw [List.pairwise_ofFn]
    intro i j hij
    rw [decide_eq_true_eq, lexLE_iff]
    exact hg hij.le
  refine List.Perm.eq_of_pairwise ?_ h1 h2 ((List.mergeSort_perm _ _).trans hperm.symm)
  intro a b _ _ hab hba
  rw [decide_eq_true_eq, lexLE_iff] at hab hba
  exact lexPair_inj (le_antisymm hab hba)

private lemma npMedian_sorted (g : Fin N → ℂ) (hg : Monotone fun i => lexPair (g i))
    (hperm : (List.ofFn g).Perm (List.ofFn f)) (hN : 0 < N) :
    (N % 2 = 1 → npMedian f = g ⟨N / 2, by omega⟩) ∧
    (N % 2 = 0 → npMedian f = (g ⟨N / 2 - 1, by omega⟩ + g ⟨N / 2, by omega⟩) / 2) := by
  have hget : ∀ k (hk : k < N), (List.ofFn g).getD k 0 = g ⟨k, hk⟩ := by
    intro k hk
    rw [List.getD_eq_getElem?_getD, List.getElem?_ofFn, dif_pos hk, Option.getD_some]
  unfold npMedian
  simp only [sorted_unique g hg hperm]
  constructor
  · intro h
    rw [if_pos h, hget]
  · intro h
    rw [if_neg (by omega), hget, hget]

/-- C59: the scale of the data is their median in the lexicographic order (real parts, then
imaginary parts): for some sorted arrangement the middle value, or the mean of the two middle
ones. -/
theorem npMedian_spec (f : Fin N → ℂ) (hN : 0 < N) : ∃ σ : Equiv.Perm (Fin N),
    (Monotone fun i => lexPair (f (σ i))) ∧
    (N % 2 = 1 → npMedian f = f (σ ⟨N / 2, by omega⟩)) ∧
    (N % 2 = 0 → npMedian f = (f (σ ⟨N / 2 - 1, by omega⟩) + f (σ ⟨N / 2, by omega⟩)) / 2) := by
  refine ⟨Tuple.sort fun i => lexPair (f i), Tuple.monotone_sort fun i => lexPair (f i), ?_⟩
  exact npMedian_sorted (fun i => f (Tuple.sort (fun i => lexPair (f i)) i))
    (Tuple.monotone_sort fun i => lexPair (f i)) (Equiv.Perm.ofFn_comp_perm _ f) hN

/-- C59: the median of data that contain with every value its negative vanishes. -/
theorem npMedian_odd_data (f : Fin N → ℂ) (π : Equiv.Perm (Fin N)) (hodd : ∀ i, f (π i) = -f i) :
    npMedian f = 0 := by
  rcases Nat.eq_zero_or_pos N with rfl | hN
  · simp [npMedian]
  set σ := Tuple.sort fun i => lexPair (f i) with hσ
  have hmono : Monotone fun i => lexPair (f (σ i)) :=
    Tuple.monotone_sort fun i => lexPair (f i)
  have hmono' : Monotone fun i : Fin N => lexPair (-f (σ i.rev)) := by
    intro i j hij
    have h1 := hmono (Fin.rev_le_rev.2 hij)
    simp only [lexPair, Prod.Lex.toLex_le_toLex, Complex.neg_re, Complex.neg_im] at h1 ⊢
    rcases h1 with h1 | ⟨h1, h2⟩
    · left; linarith
    · right; exact ⟨by rw [h1], by linarith⟩
  have hp1 : (List.ofFn fun i => f (σ i)).Perm (List.ofFn f) := Equiv.Perm.ofFn_comp_perm _ f
  have hp2 : (List.ofFn fun i : Fin N => -f (σ i.rev)).Perm (List.ofFn f) := by
    have h1 : (fun i : Fin N => -f (σ i.rev)) = f ∘ ((Fin.revPerm.trans σ).trans π) := by
      funext i
      simp only [Function.comp, Equiv.trans_apply, Fin.revPerm_apply]
      rw [hodd]
    rw [h1]
    exact Equiv.Perm.ofFn_comp_perm _ f
  have heq : (fun i => f (σ i)) = fun i : Fin N => -f (σ i.rev) := by
    have h1 := (sorted_unique _ hmono hp1).symm.trans (sorted_unique _ hmono' hp2)
    exact List.ofFn_injective h1
  obtain ⟨h1, h2⟩ := npMedian_sorted _ hmono hp1 hN
  rcases Nat.mod_two_eq_zero_or_one N with h | h
  · rw [h2 h]
    have h3 := congrFun heq ⟨N / 2, by omega⟩
    have h4 : (⟨N / 2, by omega⟩ : Fin N).rev = ⟨N / 2 - 1, by omega⟩ := by
      apply Fin.ext
      simp only [Fin.val_rev]
      omega
    simp only [h4] at h3
    rw [h3]
    ring
  · rw [h1 h]
    have h3 := congrFun heq ⟨N / 2, by omega⟩
    have h4 : (⟨N / 2, by omega⟩ : Fin N).rev = ⟨N / 2, by omega⟩ := by
      apply Fin.ext
      simp only [Fin.val_rev]
      omega
    simp only [h4] at h3
    exact self_eq_neg.1 h3

/-- C59, disagreement: `continuation` never succeeds for data that contain with every value its
negative, e.g. for an odd function on a symmetric grid: the Green's function at particle-hole
symmetry on positive and negative Matsubara frequencies. -/
theorem continuation_odd_data_fails (ext : PolepadeExt) (π : Equiv.Perm (Fin N))
    (hodd : ∀ i, f (π i) = -f i) (degree : ℤ) (weight : Option (Fin N → ℝ)) {l : ℕ}
    (moments : Fin l → ℂ) (rotate : Option Bool) (realAsymp : Bool) (fuel : ℕ)
    (pa : Σ n m : ℕ, PadeApprox n m) :
    continuation ext z f degree weight moments rotate realAsymp fuel ≠ some (.ok pa) := by
  have h0 := npMedian_odd_data f π hodd
  have hpol : ∀ (zr : Fin N → ℂ) (n m : ℕ),
      ∃ e, polepadePoles ext zr f n m weight = .error e := by
    intro zr n m
    unfold polepadePoles
    simp only [h0, if_true]
    split
    · exact ⟨_, rfl⟩
    · exact ⟨_, rfl⟩
  unfold continuation
  by_cases hdeg : 0 < degree
  · rw [if_pos hdeg]
    simp
  · rw [if_neg hdeg]
    simp only
    split
    · simp
    · simp
    · rename_i m _
      by_cases hm : m < 0 ∨ m + degree < 0
      · rw [if_pos hm]
        simp
      · rw [if_neg hm]
        obtain ⟨e, he⟩ := hpol (fun i => if rotateFlag z rotate then z i / Complex.I else z i) (m + degree).toNat m.toNat
        rw [he]
        simp

/-- The hypotheses are met by a rational function that is otherwise covered by `continuation_exact`:
`z / (z² - 1) = (1/2) / (z - 1) + (1/2) / (z + 1)` on a symmetric grid of Matsubara frequencies. -/
example (n : ℕ) : IsRationalData (fun i : Fin (2 * n) => (2 * (i : ℕ) + 1 - 2 * n : ℂ) * Complex.I)
      (fun i => (2 * (i : ℕ) + 1 - 2 * n : ℂ) * Complex.I
        / (((2 * (i : ℕ) + 1 - 2 * n : ℂ) * Complex.I) ^ 2 - 1)) X (X ^ 2 - C 1) ∧
    ∃ π : Equiv.Perm (Fin (2 * n)), ∀ i, (2 * ((π i : Fin (2 * n)) : ℕ) + 1 - 2 * n : ℂ) * Complex.I
        / (((2 * ((π i : Fin (2 * n)) : ℕ) + 1 - 2 * n : ℂ) * Complex.I) ^ 2 - 1)
      = -((2 * (i : ℕ) + 1 - 2 * n : ℂ) * Complex.I
        / (((2 * (i : ℕ) + 1 - 2 * n : ℂ) * Complex.I) ^ 2 - 1)) := by
  refine ⟨{ inj := ?_, monic := ?_, coprime := ?_, den_ne := ?_, val := ?_ }, Fin.revPerm, ?_⟩
  · intro i j h
    simp only [mul_eq_mul_right_iff, Complex.I_ne_zero, or_false] at h
    apply Fin.ext
    have h1 : (2 * ((i : ℕ) : ℂ)) = 2 * ((j : ℕ) : ℂ) := by linear_combination h
    exact_mod_cast mul_left_cancel₀ two_ne_zero h1
  · exact monic_X_pow_sub_C 1 two_ne_zero
  · refine ⟨X, -1, ?_⟩
    rw [C_1]
    ring
  · intro i
    simp only [eval_sub, eval_pow, eval_X, eval_C]
    rw [mul_pow, Complex.I_sq]
    intro h
    have h1 : (((2 * ((i : ℕ) : ℝ) + 1 - 2 * n) ^ 2 + 1 : ℝ) : ℂ) = 0 := by
      push_cast
      linear_combination -h
    have h2 := Complex.ofReal_eq_zero.1 h1
    nlinarith [sq_nonneg (2 * ((i : ℕ) : ℝ) + 1 - 2 * n)]
  · intro i
    simp
  · intro i
    have h1 : (2 * ((Fin.revPerm i : Fin (2 * n)) : ℕ) + 1 - 2 * n : ℂ)
        = -(2 * (i : ℕ) + 1 - 2 * n : ℂ) := by
      have h2 : ((Fin.revPerm i : Fin (2 * n)) : ℕ) + (i : ℕ) + 1 = 2 * n := by
        rw [Fin.revPerm_apply, Fin.val_rev]
        omega
      have h3 : ((((Fin.revPerm i : Fin (2 * n)) : ℕ) + (i : ℕ) + 1 : ℕ) : ℂ) = ((2 * n : ℕ) : ℂ) := by
        rw [h2]
      push_cast at h3
      linear_combination 2 * h3
    rw [h1, neg_mul, neg_sq, neg_div]

/-- C59: by default the coordinates are rotated if (and only if) all points are imaginary. -/
theorem continuation_rotate_default (ext : PolepadeExt) (degree : ℤ) (weight : Option (Fin N → ℝ))
    {l : ℕ} (moments : Fin l → ℂ) (realAsymp : Bool) (fuel : ℕ) :
    ((∀ i, |(z i).re| ≤ 1e-8) → continuation ext z f degree weight moments none realAsymp fuel
      = continuation ext z f degree weight moments (some true) realAsymp fuel) ∧
    ((∃ i, 1e-8 < |(z i).re|) → continuation ext z f degree weight moments none realAsymp fuel
      = continuation ext z f degree weight moments (some false) realAsymp fuel) := by
  constructor
  · intro h
    have : rotateFlag z none = rotateFlag z (some true) := by
      simp only [rotateFlag, decide_eq_true_eq]
      exact h
    unfold continuation
    simp only [this]
  · rintro ⟨i, hi⟩
    have : rotateFlag z none = rotateFlag z (some false) := by
      simp only [rotateFlag, decide_eq_false_iff_not]
      exact fun h => absurd (h i) (not_le.2 hi)
    unfold continuation
    simp only [this]

end Gftool.Props
