import Verif.Model.InPlace
import Verif.Lemmas.Memory

/-!
# Property C85: functions that write to arrays leave the arrays of the caller alone
-/

namespace Gftool.Props

open Gftool Model Lemmas Spec MM

variable {ι : Type} [Encodable ι]

/-- Evaluation of the contents of arrays. -/
macro "mem_simp" : tactic => `(tactic|
  simp (disch := ((try simp only [freshArr_addr, push_next, write_next]); omega)) only [bind_read, bind_new, bind_assign,
    mm_pure, new_apply, contents_push_fresh, contents_push, contents_write_ne, contents_write _ _ (freshArr_pos _),
    freshArr_addr, push_next, write_next])

/-- Only new arrays have been written. -/
macro "untouched" : tactic => `(tactic|
  repeat first
    | exact Untouched.refl _
    | apply Untouched.push
    | refine Untouched.write ?_ (by (try simp only [freshArr_addr, push_next, write_next]); omega) _ _)

/-! ## Functions of single elements -/

/-- C85: `bose_fct` of an array is the elementwise one, for all contents of the uninitialised memory it uses. -/
theorem bose_fct_memory (junk : ι → ℝ) (m : Mem ℝ) (eps : Arr ι) (beta : ℝ) :
    PureCall (boseFctArr junk eps beta) m (.ok fun i => boseFct (contents m eps i) beta) := by
  classical
  unfold PureCall boseFctArr
  mem_simp
  refine ⟨by untouched, by omega, by omega, freshArr_pos _, ?_⟩
  funext i
  unfold boseFct
  by_cases h : beta * contents m eps i < 700 <;> simp [h]

/-- C85: `fermi_fct` of a complex array is the elementwise one, for all contents of the uninitialised memory. -/
theorem fermi_fct_memory (junk : ι → ℂ) (m : Mem ℂ) (eps : Arr ι) (beta : ℝ) :
    PureCall (fermiFctArr junk eps beta) m (.ok fun i => fermiFctC (contents m eps i) beta) := by
  classical
  unfold PureCall fermiFctArr
  mem_simp
  refine ⟨by untouched, by omega, by omega, freshArr_pos _, ?_⟩
  funext i
  unfold fermiFctC
  by_cases h : 0 < (contents m eps i * beta).re <;> simp only [h, if_true, if_false, not_true, not_false_eq_true]

/-- C85: `bethe.dos` of an array. -/
theorem bethe_dos_memory (m : Mem ℝ) (eps : Arr ι) (D : ℝ) :
    PureCall (betheDosArr eps D) m (.ok fun i => betheDos (contents m eps i) D) := by
  classical
  unfold PureCall betheDosArr
  mem_simp
  refine ⟨by untouched, by omega, by omega, freshArr_pos _, ?_⟩
  funext i
  rfl

/-- C85: `onedim.dos` of an array. -/
theorem onedim_dos_memory (m : Mem ℝ) (eps : Arr ι) (D : ℝ) :
    PureCall (onedimDosArr eps D) m (.ok fun i => onedimDos (contents m eps i) D) := by
  classical
  unfold PureCall onedimDosArr
  mem_simp
  refine ⟨by untouched, by omega, by omega, freshArr_pos _, ?_⟩
  funext i
  rfl

/-- C85: `bethez.dos` of an array; the assertion fails before anything happens. -/
theorem bethez_dos_memory (m : Mem ℝ) (eps : Arr ι) (D Z : ℝ) :
    ∃ r, PureCall (bethezDosArr eps D Z) m r ∧
      match r with
      | .ok v => ∀ i, bethezDos (contents m eps i) D Z = .ok (v i)
      | .error e => ∀ x, bethezDos x D Z = .error e := by
  classical
  by_cases hZ : Z > 1
  · refine ⟨.ok fun i => if |contents m eps i / D| ≤ 1 then 2 * Z * (Z - 1) / (D * Real.pi)
        * √(1 - (contents m eps i / D) ^ 2) / (Z ^ 2 - 4 * (Z - 1) * (contents m eps i / D) ^ 2) else 0, ?_, fun i => ?_⟩
    rotate_left
    · unfold bethezDos
      rw [if_neg (not_not.2 hZ)]
    · unfold PureCall bethezDosArr
      rw [if_neg (not_not.2 hZ)]
      mem_simp
      refine ⟨by untouched, by omega, by omega, freshArr_pos _, ?_⟩
      trivial
  · refine ⟨.error .assertionError, ?_, fun x => ?_⟩
    · unfold PureCall bethezDosArr
      rw [if_pos hZ]
      exact ⟨Untouched.refl m, rfl⟩
    · unfold bethezDos
      rw [if_pos hZ]

/-- C85: `rectangular.dos` of an array: the energies at the band edges are replaced in a copy. -/
theorem rectangular_dos_memory (ellipk : ℂ → ℂ) (m : Mem ℝ) (eps : Arr ι) (D scale : ℝ) :
    PureCall (rectangularDosArr ellipk eps D scale) m
      (.ok fun i => rectangularDos ellipk (contents m eps i) D scale) := by
  classical
  unfold PureCall rectangularDosArr
  mem_simp
  refine ⟨by untouched, by omega, by omega, freshArr_pos _, ?_⟩
  funext i
  unfold rectangularDos
  simp only
  generalize (if |contents m eps i / D| = 1 then (1 : ℝ) - 2 ^ (-52 : ℤ) else contents m eps i / D) = x
  by_cases h : |x| ≤ 1 <;> simp [h]

/-- C85: `triangular.dos` of an array. -/
theorem triangular_dos_memory (ellipkm1 : ℝ → ℝ) (m : Mem ℝ) (eps : Arr ι) (D : ℝ) :
    PureCall (triangularDosArr ellipkm1 eps D) m (.ok fun i => triangularDos ellipkm1 (contents m eps i) D) := by
  classical
  unfold PureCall triangularDosArr
  mem_simp
  refine ⟨by untouched, by omega, by omega, freshArr_pos _, ?_⟩
  funext i
  rfl

/-- C85: `bethe.gf_ret_t` of an array of times. -/
theorem bethe_gf_ret_t_memory (jv1 : ℝ → ℝ) (m : Mem ℂ) (tt : Arr ι) (D center : ℝ) :
    PureCall (betheGfRetTArr jv1 tt D center) m
      (.ok fun i => betheGfRetT jv1 (contents m tt i).re D center) := by
  classical
  unfold PureCall betheGfRetTArr
  by_cases hc : center ≠ 0
  · simp only [if_pos hc]
    mem_simp
    refine ⟨by untouched, by omega, by omega, freshArr_pos _, ?_⟩
    funext i
    unfold betheGfRetT
    simp only [if_pos hc, Complex.ofReal_re]
    generalize D * (contents m tt i).re = x
    by_cases h0 : 0 ≤ x <;> by_cases h1 : |x| < retSmall <;> simp [h0, h1]
  · simp only [if_neg hc]
    mem_simp
    refine ⟨by untouched, by omega, by omega, freshArr_pos _, ?_⟩
    funext i
    unfold betheGfRetT
    simp only [if_neg hc, Complex.ofReal_re]
    generalize D * (contents m tt i).re = x
    by_cases h0 : 0 ≤ x <;> by_cases h1 : |x| < retSmall <;> simp [h0, h1]

/-- C85: `box.gf_ret_t` of an array of times. -/
theorem box_gf_ret_t_memory (m : Mem ℂ) (tt : Arr ι) (D center : ℝ) :
    PureCall (boxGfRetTArr tt D center) m (.ok fun i => boxGfRetT (contents m tt i).re D center) := by
  classical
  unfold PureCall boxGfRetTArr
  by_cases hc : center ≠ 0
  · simp only [if_pos hc]
    mem_simp
    refine ⟨by untouched, by omega, by omega, freshArr_pos _, ?_⟩
    funext i
    unfold boxGfRetT
    simp only [if_pos hc, Complex.ofReal_re]
    generalize D * (contents m tt i).re = x
    by_cases h0 : 0 ≤ x <;> by_cases h1 : |x| < retSmall <;> simp [h0, h1]
  · simp only [if_neg hc]
    mem_simp
    refine ⟨by untouched, by omega, by omega, freshArr_pos _, ?_⟩
    funext i
    unfold boxGfRetT
    simp only [if_neg hc, Complex.ofReal_re]
    generalize D * (contents m tt i).re = x
    by_cases h0 : 0 ≤ x <;> by_cases h1 : |x| < retSmall <;> simp [h0, h1]

/-! ## Quadrature weights -/

omit [Encodable ι] in
lemma bind_imul {β : Type} (a : Arr ι) (mask : ι → Prop) (c : ℂ) (f : Unit → MM ℂ β) (m : Mem ℂ) :
    (imul a mask c >>= f) m = f () (Mem.write m a mask fun i => contents m a i * c) := rfl

/-- C85: `_trapz_weight` weights a copy of the data. -/
theorem trapz_weight_memory {n : ℕ} (hn : 0 < n) (m : Mem ℂ) (dt : ℝ) (g : Arr (Fin n)) (endpoint : Bool)
    (gs : ℕ → ℂ) (hg : ∀ k : Fin n, gs k = contents m g k) :
    PureCall (trapzWeightArr dt g endpoint) m (.ok fun k => trapzWeight n dt gs endpoint k) := by
  classical
  unfold PureCall trapzWeightArr
  simp only [if_neg (by omega : ¬ n = 0)]
  cases endpoint <;> simp only [if_true, if_false, Bool.false_eq_true, bind_imul, bind_read, bind_new] <;> mem_simp
  · refine ⟨by untouched, by omega, by omega, freshArr_pos _, ?_⟩
    funext k
    unfold trapzWeight
    rw [hg]
    by_cases h0 : (k : ℕ) = 0 <;> simp [h0]
  · refine ⟨by untouched, by omega, by omega, freshArr_pos _, ?_⟩
    funext k
    unfold trapzWeight
    rw [hg]
    by_cases h0 : (k : ℕ) = 0 <;> by_cases h1 : (k : ℕ) = n - 1 <;> simp [h0, h1]

/-- C85: `_simps_weight` weights a copy of the data; the sequence of multiplications of slices gives the Simpson
weights. -/
theorem simps_weight_memory {n : ℕ} (hn : 0 < n) (m : Mem ℂ) (dt : ℝ) (g : Arr (Fin n)) (endpoint : Bool)
    (gs : ℕ → ℂ) (hg : ∀ k : Fin n, gs k = contents m g k) :
    PureCall (simpsWeightArr dt g endpoint) m (.ok fun k => simpsWeight n dt gs endpoint k) := by
  classical
  unfold PureCall simpsWeightArr
  cases endpoint with
  | false =>
    simp only [if_true, Bool.false_eq_true, not_false_eq_true, bind_imul, bind_read, bind_new]
    mem_simp
    refine ⟨by untouched, by omega, by omega, freshArr_pos _, ?_⟩
    funext k
    unfold simpsWeight
    rw [hg]
    simp only [if_true, Bool.false_eq_true, not_false_eq_true]
    have e1 : (1 ≤ (k : ℕ) ∧ ((k : ℕ) - 1) % 2 = 0) ↔ (1 ≤ (k : ℕ) ∧ (k : ℕ) % 2 = 1) := by omega
    have e2 : (2 ≤ (k : ℕ) ∧ ((k : ℕ) - 2) % 2 = 0) ↔ (2 ≤ (k : ℕ) ∧ (k : ℕ) % 2 = 0) := by omega
    simp only [e1, e2]
    split_ifs <;> ring
  | true =>
    by_cases h2 : n % 2 = 1
    · simp only [if_true, if_false, not_true, h2, bind_imul, bind_read, bind_new]
      mem_simp
      refine ⟨by untouched, by omega, by omega, freshArr_pos _, ?_⟩
      funext k
      unfold simpsWeight
      rw [hg]
      simp only [if_true, if_false, not_true, h2]
      have e1 : (1 ≤ (k : ℕ) ∧ (k : ℕ) < n - 1 ∧ ((k : ℕ) - 1) % 2 = 0)
          ↔ (1 ≤ (k : ℕ) ∧ (k : ℕ) + 1 < n ∧ (k : ℕ) % 2 = 1) := by omega
      have e2 : (2 ≤ (k : ℕ) ∧ (k : ℕ) < n - 1 ∧ ((k : ℕ) - 2) % 2 = 0)
          ↔ (2 ≤ (k : ℕ) ∧ (k : ℕ) + 1 < n ∧ (k : ℕ) % 2 = 0) := by omega
      simp only [e1, e2]
      split_ifs <;> ring
    · have h3 : ¬ n = 0 := by omega
      simp only [if_false, not_true, h2, h3, bind_imul, bind_read, bind_new]
      mem_simp
      refine ⟨by untouched, by omega, by omega, freshArr_pos _, ?_⟩
      funext k
      unfold simpsWeight
      rw [hg]
      simp only [if_false, not_true, h2]
      have e1 : (1 ≤ (k : ℕ) ∧ (k : ℕ) < n - 2 ∧ ((k : ℕ) - 1) % 2 = 0)
          ↔ (1 ≤ (k : ℕ) ∧ (k : ℕ) + 2 < n ∧ (k : ℕ) % 2 = 1) := by omega
      have e2 : (2 ≤ (k : ℕ) ∧ (k : ℕ) < n - 2 ∧ ((k : ℕ) - 2) % 2 = 0)
          ↔ (2 ≤ (k : ℕ) ∧ (k : ℕ) + 2 < n ∧ (k : ℕ) % 2 = 0) := by omega
      have e3 : (k : ℕ) = n - 2 ↔ (k : ℕ) + 2 = n := by omega
      have e4 : (k : ℕ) = n - 1 ↔ (k : ℕ) + 1 = n := by omega
      simp only [e1, e2, e3, e4]
      split_ifs <;> ring

/-! ## Matrices -/

/-- C85: `hamiltonian_matrix` fills a new matrix; every element is the documented one. -/
theorem siam_hamiltonian_memory {n : ℕ} (cast : ℂ → ℂ) (m : Mem ℂ) (eOnsite : ℝ) (eBath hopping : Arr (Fin n))
    (he : Allocated m eBath) (hh : Allocated m hopping) :
    PureCall (siamHamiltonianArr cast eOnsite eBath hopping) m
      (.ok fun p => siamHamiltonian cast eOnsite (fun k => (contents m eBath k).re) (contents m hopping) p.1 p.2) := by
  classical
  unfold Allocated at he hh
  unfold PureCall siamHamiltonianArr
  mem_simp
  refine ⟨by untouched, by omega, by omega, freshArr_pos _, ?_⟩
  funext ⟨i, j⟩
  unfold siamHamiltonian
  refine Fin.cases ?_ (fun i => ?_) i <;> refine Fin.cases ?_ (fun j => ?_) j
  · simp
  · simp
  · simp only [Fin.cases_succ, Fin.cases_zero, (Fin.succ_ne_zero i).symm, Fin.succ_ne_zero i, ne_eq, not_false_eq_true,
      and_false, and_true, if_false, if_true, Matrix.of_apply]
  · by_cases h : i = j
    · subst h; simp
    · have h' : ¬ j = i := fun h' => h h'.symm
      simp [h, h']

/-- C85: `companion` fills a new matrix; it raises exactly for the documented arguments. -/
theorem companion_memory {n : ℕ} (m : Mem ℂ) (a : Arr (Fin (n + 1))) :
    PureCall (companionArr a) m (match companion (contents m a 0) (fun k => contents m a k.succ) with
      | .ok c => .ok fun p => c p.1 p.2
      | .error e => .error e) := by
  classical
  unfold companion
  by_cases hn : n + 1 < 2
  · rw [if_pos hn]
    refine PureCall.of_error (m' := m) ?_ (Untouched.refl m)
    unfold companionArr
    rw [if_pos hn]
    rfl
  rw [if_neg hn]
  by_cases h0 : contents m a 0 = 0
  · rw [if_pos h0]
    refine PureCall.of_error (m' := m) ?_ (Untouched.refl m)
    unfold companionArr
    rw [if_neg hn, bind_read, if_pos h0]
    rfl
  rw [if_neg h0]
  unfold PureCall companionArr
  rw [if_neg hn, bind_read, if_neg h0]
  mem_simp
  refine ⟨by untouched, by omega, by omega, freshArr_pos _, ?_⟩
  funext ⟨i, j⟩
  have hi := i.2
  have hj := j.2
  simp only [Matrix.of_apply]
  by_cases h1 : (i : ℕ) = 0
  · rw [if_neg (by rintro ⟨k, -, hk, -⟩; omega), if_pos h1, if_pos h1]
  · rw [if_neg h1, if_neg h1]
    by_cases h2 : (i : ℕ) = j + 1
    · rw [if_pos ⟨j, by omega, h2, rfl⟩, if_pos h2]
    · rw [if_neg (by rintro ⟨k, -, hk, hk'⟩; omega), if_neg h2]

/-! ## Padé coefficients -/

/-- C85: the loop of `coefficients`, which overwrites its array in every iteration, computes the coefficients of the
continued fraction in a copy of the data; other shapes raise. `z` and `fct_z` may share memory. -/
theorem coefficients_memory {N M : ℕ} (copy : Bool) (m : Mem ℂ) (z : Arr (Fin N)) (f : Arr (Fin M))
    (hz : Allocated m z) (zs fs : ℕ → ℂ) (hzs : ∀ k : Fin N, zs k = contents m z k)
    (hfs : ∀ k : Fin M, fs k = contents m f k) :
    PureCall (coefficientsArr copy z f) m
      (if N = M then .ok fun j => coefRes zs fs (N - 1) j else .error .valueError) := by
  classical
  by_cases hNM : N = M
  swap
  · rw [if_neg hNM]
    refine PureCall.of_error (m' := m) ?_ (Untouched.refl m)
    unfold coefficientsArr
    rw [dif_neg hNM]
    rfl
  rw [if_pos hNM]
  subst hNM
  unfold Allocated at hz
  have hfc : contents m f = fun j : Fin N => fs j := by funext j; exact (hfs j).symm
  -- the loop
  have loop : ∀ (res : Arr (Fin N)) (k : ℕ) (m0 : Mem ℂ), Untouched m m0 → m.next ≤ res.addr → res.addr < m0.next →
      res.pos.Injective → contents m0 res = (fun j : Fin N => fs j) → k ≤ N - 1 →
      ∃ m', forRange k (fun ii => do
        let r ← read res
        let x ← read z
        let x := fun j : Fin N => x (Fin.cast rfl j)
        let tmp ← new fun j : Fin N =>
          if hi : ii < N then (r ⟨ii, hi⟩ / r j - 1) / (x j - x ⟨ii, hi⟩) else 0
        let t ← read tmp
        assign res (fun j => ii + 1 ≤ (j : ℕ)) t) m0 = (.ok (), m') ∧ Untouched m m' ∧ m0.next ≤ m'.next ∧
        contents m' res = fun j : Fin N => coefRes zs fs k j := by
    intro res k m0 hu ha ha' hp hc
    induction k with
    | zero => exact fun _ => ⟨m0, rfl, hu, le_rfl, hc⟩
    | succ k ih =>
      intro hk
      obtain ⟨m1, h1, hu1, hn1, hc1⟩ := ih (by omega)
      have hk' : k < N := by omega
      have hz1 : contents m1 z = fun j : Fin N => zs j := by
        rw [Untouched.contents hu1 hz]
        funext j
        exact (hzs j).symm
      set t : Fin N → ℂ := fun j => if hi : k < N then (contents m1 res ⟨k, hi⟩ / contents m1 res j - 1)
        / (contents m1 z j - contents m1 z ⟨k, hi⟩) else 0 with ht
      refine ⟨Mem.write (Mem.push m1 t) res (fun j => k + 1 ≤ (j : ℕ))
        (contents (Mem.push m1 t) (freshArr (Fin N) m1)), ?_, ?_, ?_, ?_⟩
      · unfold forRange
        rw [mm_bind_ok h1]
        rfl
      · refine Untouched.write ?_ ha _ _
        exact Untouched.push hu1 _
      · exact hn1.trans (Nat.le_succ _)
      · rw [contents_write _ _ hp, contents_push_fresh, contents_push _ _ _ (by omega), ht, hc1, hz1]
        funext j
        simp only [dif_pos hk']
        rw [coefRes]
        by_cases hj : k < (j : ℕ)
        · rw [if_pos (by omega), if_pos hj]
        · rw [if_neg (by omega), if_neg hj]
  obtain ⟨m', h1, hu1, hn1, hc1⟩ := loop (freshArr (Fin N) m) (N - 1) (Mem.push m (contents m f))
    (Untouched.push (Untouched.refl m) _) (by rw [freshArr_addr]) (by rw [freshArr_addr, push_next]; omega) (freshArr_pos m)
    (by rw [contents_push_fresh, hfc]) le_rfl
  rw [push_next] at hn1
  cases copy with
  | false =>
    refine PureCall.of_ok (a := freshArr (Fin N) m) (m' := m') ?_ hu1 (by rw [freshArr_addr])
      (by rw [freshArr_addr]; omega) (freshArr_pos m) hc1
    unfold coefficientsArr
    rw [dif_pos rfl, bind_read, bind_new, mm_bind_ok h1]
    rfl
  | true =>
    refine PureCall.of_ok (a := freshArr (Fin N) m') (m' := Mem.push m' (contents m' (freshArr (Fin N) m))) ?_
      (Untouched.push hu1 _) (by rw [freshArr_addr]; omega) (by rw [freshArr_addr, push_next]; omega) (freshArr_pos m')
      (by rw [contents_push_fresh, hc1])
    unfold coefficientsArr
    rw [dif_pos rfl, bind_read, bind_new, mm_bind_ok h1]
    rfl

/-! ## Restricted root equations -/

/-- C85: `cpa.restrict_self_root_eq` returns the value of the model in a new array; of the existing arrays only the one
passed as self-energy may change, and only in its own elements, which become those without positive imaginary parts. -/
theorem restrict_self_root_eq_memory (m : Mem ℂ) (rootEq : Arr ι → MM ℂ (Arr ι)) (f : (ι → ℂ) → ι → ℂ) (s : Arr ι)
    (hs : Allocated m s) (hp : s.pos.Injective)
    (hr : ∀ m' : Mem ℂ, m.next ≤ m'.next → PureCall (rootEq s) m' (.ok (f (contents m' s)))) :
    ∃ a m', restrictSelfRootEqArr rootEq s m = (.ok a, m') ∧ m.next ≤ a.addr ∧ a.pos.Injective ∧
      contents m' a = (restrictSelfRootEq f (contents m s)).1 ∧
      contents m' s = (restrictSelfRootEq f (contents m s)).2 ∧
      (∀ b < m.next, b ≠ s.addr → m'.buf b = m.buf b) ∧
      ∀ p, (∀ i, s.pos i ≠ p) → m'.buf s.addr p = m.buf s.addr p := by
  classical
  unfold Allocated at hs
  unfold restrictSelfRootEqArr restrictSelfRootEq
  rw [bind_read]
  by_cases h0 : ∀ i, ¬ 0 < (contents m s i).im
  · rw [if_pos h0, if_pos h0]
    obtain ⟨a, m', hc, hu, ha, -, hi, hv⟩ := PureCall.ok (hr m le_rfl)
    exact ⟨a, m', hc, ha, hi, hv, Untouched.contents hu hs, fun b hb _ => hu.2 b hb, fun p _ => by rw [hu.2 _ hs]⟩
  rw [if_neg h0, if_neg h0, bind_read, bind_new, bind_assignIm]
  set m1 := Mem.push m fun i => ((contents m s i).im : ℂ) with hm1
  set m2 := Mem.write m1 s (fun i => 0 < (contents m s i).im) fun i => (⟨(contents m1 s i).re, 0⟩ : ℂ) with hm2
  have hn2 : m2.next = m.next + 1 := rfl
  have hs1 : contents m1 s = contents m s := contents_push _ _ _ (by omega)
  have hs2 : contents m2 s = fun i => clip (contents m s i) := by
    rw [hm2, contents_write _ _ hp, hs1]
    rfl
  have hd2 : contents m2 (freshArr ι m) = fun i => ((contents m s i).im : ℂ) := by
    rw [hm2, contents_write_ne _ _ _ _ _ (by rw [freshArr_addr]; omega), hm1, contents_push_fresh]
  obtain ⟨a, m3, hc, hu, ha, ha', hi, hv⟩ := PureCall.ok (hr m2 (by omega))
  have hd3 : contents m3 (freshArr ι m) = fun i => ((contents m s i).im : ℂ) := by
    rw [Untouched.contents hu (by unfold Allocated; rw [freshArr_addr, hn2]; omega), hd2]
  have hs3 : contents m3 s = fun i => clip (contents m s i) := by
    rw [Untouched.contents hu (by unfold Allocated; omega), hs2]
  rw [hs2] at hv
  have hda : (freshArr ι m).addr ≠ a.addr := by rw [freshArr_addr]; omega
  have hsa : s.addr ≠ a.addr := by omega
  rw [mm_bind_ok hc]
  simp (disch := assumption) only [bind_read, bind_assign, bind_assignRe, bind_assignIm, mm_pure, contents_write_ne,
    contents_write _ _ hi, hd3, hs3, hv]
  refine ⟨a, _, rfl, by omega, hi, ?_, ?_, ?_, ?_⟩
  · rw [contents_write _ _ hi, contents_write _ _ hi, contents_write _ _ hi, hv]
    funext i
    by_cases h : 0 < (contents m s i).im
    · simp only [if_pos h]
      unfold enlarge
      simp
    · simp only [if_neg h]
  · simp (disch := assumption) only [contents_write_ne, hs3]
  · intro b hb hbs
    rw [write_buf _ _ _ _ (by omega), write_buf _ _ _ _ (by omega), write_buf _ _ _ _ (by omega), hu.2 b (by omega), hm2,
      write_buf _ _ _ _ hbs, hm1, push_buf _ _ (by omega)]
  · intro p hpp
    rw [write_buf _ _ _ _ hsa, write_buf _ _ _ _ hsa, write_buf _ _ _ _ hsa, hu.2 _ (by omega), hm2]
    unfold Mem.write assign
    simp only
    rw [dif_neg (by rintro ⟨-, j, -, hj⟩; exact hpp j hj), hm1, push_buf _ _ (by omega)]

/-- C85: for a physical self-energy nothing is changed. -/
theorem restrict_self_root_eq_physical (m : Mem ℂ) (rootEq : Arr ι → MM ℂ (Arr ι)) (f : (ι → ℂ) → ι → ℂ) (s : Arr ι)
    (hr : PureCall (rootEq s) m (.ok (f (contents m s)))) (hphys : ∀ i, (contents m s i).im ≤ 0) :
    PureCall (restrictSelfRootEqArr rootEq s) m (.ok (f (contents m s))) := by
  have h0 : ∀ i, ¬ 0 < (contents m s i).im := fun i => not_lt.2 (hphys i)
  obtain ⟨a, m', hc, hu, ha, ha', hi, hv⟩ := PureCall.ok hr
  refine PureCall.of_ok (m' := m') (a := a) ?_ hu ha ha' hi hv
  unfold restrictSelfRootEqArr
  rw [bind_read, if_pos h0, hc]

/-- C85 fails: an unphysical self-energy of the caller is changed. -/
theorem restrict_self_root_eq_changes (m : Mem ℂ) (rootEq : Arr ι → MM ℂ (Arr ι)) (f : (ι → ℂ) → ι → ℂ) (s : Arr ι)
    (hs : Allocated m s) (hp : s.pos.Injective)
    (hr : ∀ m' : Mem ℂ, m.next ≤ m'.next → PureCall (rootEq s) m' (.ok (f (contents m' s))))
    {i : ι} (hi : 0 < (contents m s i).im) :
    contents (restrictSelfRootEqArr rootEq s m).2 s ≠ contents m s := by
  obtain ⟨a, m', hc, -, -, -, hv, -⟩ := restrict_self_root_eq_memory m rootEq f s hs hp hr
  rw [hc]
  intro h
  rw [hv] at h
  unfold restrictSelfRootEq at h
  rw [if_neg (fun h' => h' i hi)] at h
  have := congrFun h i
  simp only at this
  unfold clip at this
  rw [if_pos hi] at this
  rw [← this] at hi
  exact lt_irrefl _ hi

/-- C85: `beb.restrict_self_root_eq` returns the value of the model in a new array; of the existing arrays only the one
passed as self-energy may change, and only in its own elements. Errors of the root equation are passed on. -/
theorem beb_restrict_memory {κ : Type} [Encodable κ] {n : ℕ} (m : Mem ℂ)
    (rootEq : Arr (κ × Fin n × Fin n) → MM ℂ (Arr (κ × Fin n × Fin n)))
    (f : (κ → Matrix (Fin n) (Fin n) ℂ) → Except Err (κ → Matrix (Fin n) (Fin n) ℂ)) (s : Arr (κ × Fin n × Fin n))
    (hs : Allocated m s) (hp : s.pos.Injective)
    (hr : ∀ m' : Mem ℂ, m.next ≤ m'.next → PureCall (rootEq s) m'
      ((f fun k => Matrix.of fun i j => contents m' s (k, i, j)).map fun r i => r i.1 i.2.1 i.2.2)) :
    (∀ b < m.next, b ≠ s.addr → (bebRestrictArr rootEq s m).2.buf b = m.buf b) ∧
      (∀ p, (∀ i, s.pos i ≠ p) → (bebRestrictArr rootEq s m).2.buf s.addr p = m.buf s.addr p) ∧
      match bebRestrict f fun k => Matrix.of fun i j => contents m s (k, i, j) with
      | .error e => (bebRestrictArr rootEq s m).1 = .error e
      | .ok (r, s') => ∃ a, (bebRestrictArr rootEq s m).1 = .ok a ∧ m.next ≤ a.addr ∧ a.pos.Injective ∧
          (∀ k i j, contents (bebRestrictArr rootEq s m).2 a (k, i, j) = r k i j) ∧
          ∀ k i j, contents (bebRestrictArr rootEq s m).2 s (k, i, j) = s' k i j := by
  classical
  suffices h : ∃ res m', bebRestrictArr rootEq s m = (res, m') ∧ (∀ b < m.next, b ≠ s.addr → m'.buf b = m.buf b) ∧
      (∀ p, (∀ i, s.pos i ≠ p) → m'.buf s.addr p = m.buf s.addr p) ∧
      match bebRestrict f fun k => Matrix.of fun i j => contents m s (k, i, j) with
      | .error e => res = .error e
      | .ok (r, s') => ∃ a, res = .ok a ∧ m.next ≤ a.addr ∧ a.pos.Injective ∧
          (∀ k i j, contents m' a (k, i, j) = r k i j) ∧ ∀ k i j, contents m' s (k, i, j) = s' k i j by
    obtain ⟨res, m', hc, h⟩ := h
    rw [hc]
    exact h
  unfold Allocated at hs
  set X := contents m s with hX
  set D : κ × Fin n → ℂ := fun i => X (i.1, i.2, i.2) with hD
  unfold bebRestrictArr bebRestrict
  rw [bind_read, bind_new, bind_read, contents_push_fresh]
  simp only
  set m1 := Mem.push m D with hm1
  have hn1 : m1.next = m.next + 1 := rfl
  have hs1 : contents m1 s = X := contents_push _ _ _ (by omega)
  have hu1 : Untouched m m1 := Untouched.push (Untouched.refl m) _
  by_cases h0 : ∀ i, ¬ 0 < (D i).im
  · have h0' : ∀ k i, ¬ 0 < (Matrix.of (fun i j => X (k, i, j)) i i).im := fun k i => h0 (k, i)
    rw [if_pos h0, if_pos h0']
    have hr1 := hr m1 (by omega)
    rw [hs1] at hr1
    cases hf : f (fun k => Matrix.of fun i j => X (k, i, j)) with
    | error e =>
      rw [hf] at hr1
      obtain ⟨m', hc, hu⟩ := PureCall.error hr1
      have hu' := Untouched.trans hu1 hu
      exact ⟨_, m', hc, fun b hb _ => hu'.2 b hb, fun p _ => by rw [hu'.2 _ hs], rfl⟩
    | ok r =>
      rw [hf] at hr1
      obtain ⟨a, m', hc, hu, ha, -, hi, hv⟩ := PureCall.ok hr1
      have hu' := Untouched.trans hu1 hu
      refine ⟨_, m', hc, fun b hb _ => hu'.2 b hb, fun p _ => by rw [hu'.2 _ hs], a, rfl, by omega, hi, fun k i j => ?_,
        fun k i j => ?_⟩
      · rw [hv]
      · rw [Untouched.contents hu' hs]
        rfl
  have h0' : ¬ ∀ k i, ¬ 0 < (Matrix.of (fun i j => X (k, i, j)) i i).im := fun h => h0 fun i => h i.1 i.2
  rw [if_neg h0, if_neg h0', bind_read, bind_new, bind_assignIm, bind_read, bind_assignIm]
  rw [contents_push_fresh] 
  set m2 := Mem.push m1 fun i => ((D i).im : ℂ) with hm2
  set m3 := Mem.write m2 (freshArr (κ × Fin n) m) (fun i => 0 < (D i).im)
    (fun i => (⟨(contents m2 (freshArr (κ × Fin n) m) i).re, 0⟩ : ℂ)) with hm3
  have hd2 : contents m2 (freshArr (κ × Fin n) m) = D := by
    rw [hm2, contents_push _ _ _ (by rw [freshArr_addr]; omega), hm1, contents_push_fresh]
  have hd3 : contents m3 (freshArr (κ × Fin n) m) = fun i => clip (D i) := by
    rw [hm3, contents_write _ _ (freshArr_pos _), hd2]
    rfl
  have he2 : contents m2 (freshArr (κ × Fin n) m1) = fun i => ((D i).im : ℂ) := by
    rw [hm2, contents_push_fresh]
  have he3 : contents m3 (freshArr (κ × Fin n) m1) = fun i => ((D i).im : ℂ) := by
    rw [hm3, contents_write_ne _ _ _ _ _ (by rw [freshArr_addr, freshArr_addr]; omega), he2]
  have hs3 : contents m3 s = X := by
    rw [hm3, contents_write_ne _ _ _ _ _ (by rw [freshArr_addr]; omega), hm2, contents_push _ _ _ (by omega), hs1]
  rw [hd3, hs3]
  set m4 := Mem.write m3 s (fun i => i.2.1 = i.2.2) (fun i => (⟨(X i).re, (clip (D (i.1, i.2.1))).im⟩ : ℂ)) with hm4
  have hn4 : m4.next = m.next + 2 := rfl
  have hu3 : Untouched m m3 := by rw [hm3, hm2, hm1]; untouched
  have hs4 : ∀ k i j, contents m4 s (k, i, j) = bebClip (fun k => Matrix.of fun i j => X (k, i, j)) k i j := by
    intro k i j
    rw [hm4, contents_write _ _ hp, hs3]
    unfold bebClip
    simp only [Matrix.of_apply]
    by_cases hij : i = j
    · subst hij
      rw [if_pos rfl, if_pos rfl]
      simp only [hD]
      unfold clip
      split_ifs <;> rfl
    · rw [if_neg hij, if_neg hij]
  have he4 : contents m4 (freshArr (κ × Fin n) m1) = fun i => ((D i).im : ℂ) := by
    rw [hm4, contents_write_ne _ _ _ _ _ (by rw [freshArr_addr]; omega), he3]
  have hb4 : ∀ b < m.next, b ≠ s.addr → m4.buf b = m.buf b := fun b hb hbs => by
    rw [hm4, write_buf _ _ _ _ hbs, hu3.2 b hb]
  have hp4 : ∀ p, (∀ i, s.pos i ≠ p) → m4.buf s.addr p = m.buf s.addr p := fun p hpp => by
    rw [hm4]
    unfold Mem.write assign
    simp only
    rw [dif_neg (by rintro ⟨-, j, -, hj⟩; exact hpp j hj), hu3.2 _ hs]
  have hr4 := hr m4 (by omega)
  have hmat : (fun k => Matrix.of fun i j => contents m4 s (k, i, j))
      = bebClip (fun k => Matrix.of fun i j => X (k, i, j)) := by
    funext k i j
    exact hs4 k i j
  rw [hmat] at hr4
  cases hf : f (bebClip fun k => Matrix.of fun i j => X (k, i, j)) with
  | error e =>
    rw [hf] at hr4
    obtain ⟨m', hc, hu⟩ := PureCall.error hr4
    rw [mm_bind_error hc]
    exact ⟨_, m', rfl, fun b hb hbs => by rw [hu.2 b (by omega), hb4 b hb hbs], fun p hpp => by rw [hu.2 _ (by omega), hp4 p hpp],
      rfl⟩
  | ok r =>
    rw [hf] at hr4
    obtain ⟨a, m5, hc, hu, ha, ha', hi, hv⟩ := PureCall.ok hr4
    rw [mm_bind_ok hc]
    have he5 : contents m5 (freshArr (κ × Fin n) m1) = fun i => ((D i).im : ℂ) := by
      rw [Untouched.contents hu (by unfold Allocated; rw [freshArr_addr, hn4]; omega), he4]
    have hs5 : ∀ k i j, contents m5 s (k, i, j) = bebClip (fun k => Matrix.of fun i j => X (k, i, j)) k i j := by
      rw [Untouched.contents hu (by unfold Allocated; omega)]
      exact hs4
    rw [bind_read, hv, bind_new]
    set m6 := Mem.push m5 fun i : κ × Fin n => r i.1 i.2 i.2 with hm6
    have he6 : contents m6 (freshArr (κ × Fin n) m1) = fun i => ((D i).im : ℂ) := by
      rw [hm6, contents_push _ _ _ (by rw [freshArr_addr]; omega), he5]
    have hq : (freshArr (κ × Fin n) m1).addr ≠ (freshArr (κ × Fin n) m5).addr := by
      rw [freshArr_addr, freshArr_addr]; omega
    have hg6 : contents m6 (freshArr (κ × Fin n) m5) = fun i => r i.1 i.2 i.2 := by
      rw [hm6, contents_push_fresh]
    simp (disch := assumption) only [bind_read, bind_assign, bind_assignRe, bind_assignIm, mm_pure, contents_write_ne,
      contents_write _ _ (freshArr_pos _), he6, hg6]
    have hsa : s.addr ≠ a.addr := by omega
    have hs5' : s.addr ≠ (freshArr (κ × Fin n) m5).addr := by rw [freshArr_addr]; omega
    have haf : a.addr ≠ (freshArr (κ × Fin n) m5).addr := by rw [freshArr_addr]; omega
    refine ⟨_, _, rfl, fun b hb hbs => ?_, fun p hpp => ?_, a, rfl, by omega, hi, fun k i j => ?_, fun k i j => ?_⟩
    · have hba : b ≠ (freshArr (κ × Fin n) m5).addr := by rw [freshArr_addr]; omega
      rw [write_buf _ _ _ _ (by omega), write_buf _ _ _ _ hba, write_buf _ _ _ _ hba, write_buf _ _ _ _ hba, hm6,
        push_buf _ _ (by omega), hu.2 b (by omega), hb4 b hb hbs]
    · rw [write_buf _ _ _ _ hsa, write_buf _ _ _ _ hs5', write_buf _ _ _ _ hs5', write_buf _ _ _ _ hs5', hm6,
        push_buf _ _ (by omega), hu.2 _ (by omega), hp4 p hpp]
    · rw [contents_write _ _ hi]
      simp (disch := assumption) only [contents_write_ne]
      rw [hm6, contents_push _ _ _ (by omega), hv]
      simp only [Matrix.of_apply]
      by_cases hij : i = j
      · subst hij
        have hDk : D (k, i) = contents m s (k, i, i) := rfl
        rw [hDk]
        by_cases h : 0 < (contents m s (k, i, i)).im
        · have hX' : i = i ∧ 0 < (X (k, i, i)).im := ⟨rfl, h⟩
          refine (if_pos rfl).trans (Eq.trans ?_ (if_pos hX').symm)
          simp only [if_pos h]
          unfold enlarge
          simp [hX]
        · have hX' : ¬ (i = i ∧ 0 < (X (k, i, i)).im) := fun hh => h hh.2
          refine (if_pos rfl).trans (Eq.trans ?_ (if_neg hX').symm)
          simp only [if_neg h]
      · simp only [false_and, hij, if_false]
    · simp (disch := assumption) only [contents_write_ne]
      rw [hm6, contents_push _ _ _ (by omega)]
      exact hs5 k i j

/-! ## Branches of quadratic Hermite-Padé approximants -/

/-- C85: `eval_branches` returns two new arrays that do not overlap, with the elementwise branches, although the second
branch is computed from the changed first one. -/
theorem eval_branches_memory (h : Herm2) (m : Mem ℂ) (z : Arr ι) :
    ∃ a b m', evalBranchesArr h z m = (.ok (a, b), m') ∧ Untouched m m' ∧ m.next ≤ a.addr ∧ m.next ≤ b.addr ∧
      a.addr ≠ b.addr ∧ a.pos.Injective ∧ b.pos.Injective ∧
      ∀ i, polyval h.r (contents m z i) ≠ 0 →
        evalBranches h false (contents m z i) = .ok (some (contents m' a i, contents m' b i)) := by
  classical
  unfold evalBranchesArr
  mem_simp
  refine ⟨_, _, _, rfl, by untouched, by simp only [freshArr_addr, push_next]; omega,
    by simp only [freshArr_addr, push_next]; omega, by simp, freshArr_pos _, freshArr_pos _, ?_⟩
  intro i hi
  mem_simp
  unfold evalBranches
  simp only [if_neg hi]
  rfl

/-! ## Fourier transforms with user-supplied transformation -/

/-- C85: `tau2iv` with a transformation that returns a new array. -/
theorem tau2iv_memory {T : ℕ} (m : Mem ℂ) (g : Arr (Fin (T + 1))) (x : Fin (T + 1) → ℝ)
    (hx : ∀ k, contents m g k = x k) (beta : ℝ)
    (F : (Fin (T + 1) → ℝ) → ℝ → Except Err (Fin (T / 2 + 1) → ℂ))
    (fourier : Arr (Fin (T + 1)) → MM ℂ (Arr (Fin (T / 2 + 1))))
    (hF : ∀ m' a y, (∀ k, contents m' a k = ((y k : ℝ) : ℂ)) → PureCall (fourier a) m' (F y beta)) :
    PureCall (tau2ivArr g beta fourier) m (tau2iv x beta F) := by
  classical
  have hx' : contents m g = fun k => (x k : ℂ) := funext hx
  set m1 := Mem.push m fun _ : Unit => (x (Fin.last T) : ℂ) - x 0 with hm1
  set m2 := Mem.push m1 fun k : Fin (T + 1) => (linspace0 beta (T + 1) k : ℂ) with hm2
  set y : Fin (T + 1) → ℝ := fun k => x k - (x (Fin.last T) - x 0) / beta * linspace0 beta (T + 1) k with hy
  set m3 := Mem.push m2 fun k : Fin (T + 1) => (y k : ℂ) with hm3
  have hn3 : m3.next = m.next + 3 := rfl
  have hu3 : Untouched m m3 := by rw [hm3, hm2, hm1]; untouched
  have hj3 : contents m3 (freshArr Unit m) = fun _ => (x (Fin.last T) : ℂ) - x 0 := by
    rw [hm3, hm2, hm1]
    mem_simp
  have hcall : tau2ivArr g beta fourier m = (fourier (freshArr _ m2) >>= fun gfIv => do
      let r ← read gfIv
      let j ← read (freshArr Unit m)
      assign gfIv (fun n => 1 ≤ (n : ℕ)) fun n => r n + j () / matsubaraFrequenciesB (n : ℕ) beta
      let r ← read gfIv
      let j ← read (freshArr Unit m)
      assign gfIv (fun n => (n : ℕ) = 0) fun n => r n + 0.5 * j () * beta
      return gfIv) m3 := by
    unfold tau2ivArr
    rw [bind_read, hx', bind_new, ← hm1, bind_new, ← hm2, bind_read, bind_read, bind_new]
    have e1 : contents m2 (freshArr Unit m) = fun _ => (x (Fin.last T) : ℂ) - x 0 := by
      rw [hm2, hm1]
      mem_simp
    have e2 : contents m2 (freshArr (Fin (T + 1)) m1) = fun k => (linspace0 beta (T + 1) k : ℂ) := by
      rw [hm2, contents_push_fresh]
    rw [e1, e2]
    have : (fun k : Fin (T + 1) => (x k : ℂ) - ((x (Fin.last T) : ℂ) - x 0) / beta * linspace0 beta (T + 1) k)
        = fun k => (y k : ℂ) := by
      funext k
      simp only [hy]
      push_cast
      ring
    rw [this, ← hm3]
  have hP := hF m3 (freshArr _ m2) y (fun k => by rw [hm3, contents_push_fresh])
  unfold tau2iv
  simp only
  rw [← hy]
  cases hr : F y beta with
  | error e =>
    rw [hr] at hP
    obtain ⟨m4, hc, hu⟩ := PureCall.error hP
    refine PureCall.of_error (m' := m4) ?_ (Untouched.trans hu3 hu)
    rw [hcall, mm_bind_error hc]
  | ok r =>
    rw [hr] at hP
    obtain ⟨a, m4, hc, hu, ha, ha', hi, hv⟩ := PureCall.ok hP
    have hj4 : contents m4 (freshArr Unit m) = fun _ => (x (Fin.last T) : ℂ) - x 0 := by
      rw [Untouched.contents hu (by unfold Allocated; rw [freshArr_addr, hn3]; omega), hj3]
    have hja : (freshArr Unit m).addr ≠ a.addr := by rw [freshArr_addr]; omega
    rw [mm_bind_ok hc] at hcall
    simp (disch := assumption) only [bind_read, bind_assign, mm_pure, contents_write_ne, contents_write _ _ hi, hj4,
      hv] at hcall
    refine PureCall.of_ok hcall ?_ (by omega) ha' hi ?_
    · refine Untouched.write (Untouched.write (Untouched.trans hu3 hu) (by omega) _ _) (by omega) _ _
    · rw [contents_write _ _ hi, contents_write _ _ hi, hv]
      funext n
      by_cases h0 : (n : ℕ) = 0
      · have h1 : ¬ 1 ≤ (n : ℕ) := by omega
        simp only [if_pos h0, if_neg h1]
        push_cast
        ring
      · have h1 : 1 ≤ (n : ℕ) := by omega
        simp only [if_neg h0, if_pos h1]
        push_cast
        ring

/-- C85 fails: if the transformation returns an array it keeps (e.g. from a cache), `tau2iv` changes this array: a
second call for the same data gives a different result. -/
theorem tau2iv_changes_cached {T : ℕ} (m : Mem ℂ) (g : Arr (Fin (T + 1))) (beta : ℝ) (c : Arr (Fin (T / 2 + 1)))
    (hc : Allocated m c) (hp : c.pos.Injective) :
    ∃ m', tau2ivArr g beta (fun _ => pure c) m = (.ok c, m') ∧
      contents m' c 0 = contents m c 0 + 0.5 * (contents m g (Fin.last T) - contents m g 0) * beta := by
  classical
  unfold Allocated at hc
  have hc' : ∀ k, c.addr ≠ m.next + k := fun k => by omega
  have hca : ∀ k, m.next + k ≠ c.addr := fun k => by omega
  unfold tau2ivArr
  mem_simp
  have hpure : ∀ (f : Arr (Fin (T / 2 + 1)) → MM ℂ (Arr (Fin (T / 2 + 1)))), (pure c >>= f : MM ℂ _) = f c :=
    fun f => rfl
  simp only [hpure]
  simp (disch := ((try simp only [freshArr_addr, push_next, write_next]); omega)) only [bind_read, bind_assign, mm_pure,
    contents_push_fresh, contents_push, contents_write_ne, contents_write _ _ hp]
  refine ⟨_, rfl, ?_⟩
  rw [contents_write _ _ hp]
  simp

/-- C85: `iw2tau` with a transformation that returns a new array. -/
theorem iw2tau_memory (ext : LinalgExt ℝ) {N l : ℕ} (m : Mem ℂ) (g : Arr (Fin N)) (beta : ℝ) (moments : Fin l → ℝ)
    (nfit : ℕ) (F : (Fin N → ℂ) → ℝ → Except Err (Fin (2 * N + 1) → ℝ))
    (fourier : Arr (Fin N) → MM ℂ (Arr (Fin (2 * N + 1))))
    (hF : ∀ m' a, PureCall (fourier a) m' (match F (contents m' a) beta with
      | .ok r => .ok fun j => (r j : ℂ)
      | .error e => .error e)) :
    PureCall (iw2tauArr ext g beta moments fourier nfit) m
      (match iw2tau ext (contents m g) beta moments F nfit with
      | .ok r => .ok fun j => (r j : ℂ)
      | .error e => .error e) := by
  classical
  unfold iw2tau
  have hlift : ∀ {α β : Type} (r : Except Err α) (f : α → MM ℂ β) (m' : Mem ℂ),
      (lift r >>= f : MM ℂ β) m' = match r with | .ok a => f a m' | .error e => (.error e, m') := by
    intro α β r f m'
    cases r <;> rfl
  cases hp : iw2tauPoles ext (contents m g) beta moments nfit with
  | error e =>
    refine PureCall.of_error (m' := m) ?_ (Untouched.refl m)
    unfold iw2tauArr
    rw [bind_read, hlift, hp]
  | ok p =>
    simp only
    set v : Fin N → ℂ := fun i => contents m g i - p.evalZ (matsubaraFrequencies (i : ℕ) beta) with hv
    have hcall : iw2tauArr ext g beta moments fourier nfit m = (fourier (freshArr _ m) >>= fun gfTau => do
        let pt ← lift (evalTauGrid p beta (2 * N + 1))
        let r ← read gfTau
        assign gfTau (fun _ => True) fun j => r j + pt j
        return gfTau) (Mem.push m v) := by
      unfold iw2tauArr
      rw [bind_read, hlift, hp]
      rfl
    have hP := hF (Mem.push m v) (freshArr _ m)
    rw [contents_push_fresh] at hP
    have hu0 : Untouched m (Mem.push m v) := by untouched
    cases hr : F v beta with
    | error e =>
      rw [hr] at hP
      obtain ⟨m4, hc, hu⟩ := PureCall.error hP
      refine PureCall.of_error (m' := m4) ?_ (Untouched.trans hu0 hu)
      rw [hcall, mm_bind_error hc]
    | ok r =>
      rw [hr] at hP
      obtain ⟨a, m4, hc, hu, ha, ha', hi, hw⟩ := PureCall.ok hP
      rw [push_next] at ha
      rw [mm_bind_ok hc, hlift] at hcall
      cases he : evalTauGrid p beta (2 * N + 1) with
      | error e =>
        rw [he] at hcall
        exact PureCall.of_error hcall (Untouched.trans hu0 hu)
      | ok pt =>
        rw [he] at hcall
        simp only [bind_read, bind_assign, mm_pure, hw] at hcall
        refine PureCall.of_ok hcall (Untouched.write (Untouched.trans hu0 hu) (by omega) _ _) (by omega) ha' hi ?_
        rw [contents_write _ _ hi]
        funext j
        simp

/-! ## The hypotheses are met -/

/-- A transformation that returns a new array, here the values at every second point. -/
example (T : ℕ) (m' : Mem ℂ) (a : Arr (Fin (T + 1))) (y : Fin (T + 1) → ℝ) (hy : ∀ k, contents m' a k = ((y k : ℝ) : ℂ)) :
    PureCall (do
      let x ← read a
      new fun n : Fin (T / 2 + 1) => x ⟨n, by omega⟩ : MM ℂ (Arr (Fin (T / 2 + 1)))) m'
      (.ok fun n => (y ⟨n, by omega⟩ : ℂ)) := by
  unfold PureCall
  mem_simp
  refine ⟨by untouched, by omega, by omega, freshArr_pos _, ?_⟩
  funext n
  exact hy _

/-- An unphysical self-energy, stored in every second element of a buffer. -/
example : ∃ (m : Mem ℂ) (s : Arr (Fin 2)), Allocated m s ∧ s.pos.Injective ∧ 0 < (contents m s 1).im ∧
    ∀ m' : Mem ℂ, m.next ≤ m'.next →
      PureCall (do let x ← read s; new fun i => 2 * x i : MM ℂ (Arr (Fin 2))) m' (.ok fun i => 2 * contents m' s i) := by
  refine ⟨⟨1, fun _ p => ⟨0, p⟩⟩, ⟨0, fun i => 2 * i⟩, by simp [Allocated], ?_, by norm_num [contents], fun m' _ => ?_⟩
  · intro i j h
    exact Fin.ext (by simpa using h)
  · unfold PureCall
    mem_simp
    exact ⟨by untouched, by omega, by omega, freshArr_pos _, trivial⟩

end Gftool.Props
