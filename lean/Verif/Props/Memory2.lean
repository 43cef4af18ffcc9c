import Verif.Model.InPlace2
import Verif.Props.Memory
import Verif.Props.PoleFit

/-!
# Property C85: more functions that write to arrays
-/

namespace Gftool.Props

open Gftool Model Lemmas Spec MM
open ComplexConjugate

variable {ι : Type} [Encodable ι]

lemma bind_lift {E α β : Type} (r : Except Err α) (f : α → MM E β) (m : Mem E) :
    (lift r >>= f : MM E β) m = match r with | .ok a => f a m | .error e => (.error e, m) := by
  cases r <;> rfl

/-! ## Densities of states and Green's functions -/

/-- C85: `square.dos` of an array. -/
theorem square_dos_memory (ellipkm1 : ℝ → ℝ) (m : Mem ℝ) (eps : Arr ι) (D : ℝ) :
    PureCall (squareDosArr ellipkm1 eps D) m (.ok fun i => squareDos ellipkm1 (contents m eps i) D) := by
  classical
  unfold PureCall squareDosArr
  mem_simp
  refine ⟨by untouched, by omega, by omega, freshArr_pos _, ?_⟩
  funext i
  rfl

/-- C85: `sc.dos` of an array. -/
theorem sc_dos_memory (ellipk : ℂ → ℂ) (tol : ℝ) (m : Mem ℝ) (eps : Arr ι) (D : ℝ) :
    PureCall (scDosArr ellipk tol eps D) m (.ok fun i => scDos ellipk tol (contents m eps i) D) := by
  classical
  unfold PureCall scDosArr
  mem_simp
  refine ⟨by untouched, by omega, by omega, freshArr_pos _, ?_⟩
  funext i
  unfold scDos
  simp only
  generalize |3 / D * contents m eps i| = x
  by_cases h : x < tol <;> by_cases h' : x < 3 <;> simp [h, h']

/-- C85: `bcc.dos` of an array of finite energies; infinite exactly where the density of states is. -/
theorem bcc_dos_memory (ellipk : ℂ → ℂ) (m : Mem (WithTop ℝ)) (eps : Arr ι) (heps : Allocated m eps) (e : ι → ℝ)
    (he : ∀ i, contents m eps i = (e i : ℝ)) (D : ℝ) :
    PureCall (bccDosArr ellipk eps D) m (.ok fun i => bccDos ellipk (e i) D) := by
  classical
  unfold Allocated at heps
  unfold PureCall bccDosArr
  mem_simp
  refine ⟨by untouched, by omega, by omega, freshArr_pos _, ?_⟩
  funext i
  unfold bccDos
  simp only [he, WithTop.untopD_coe]
  by_cases h : e i / D = 0
  · rw [if_pos h, if_pos h]
  · by_cases h' : |e i / D| ≤ 1 <;> simp only [h, h', if_false, if_true, not_false_eq_true, and_true]

/-- C85: `fcc.dos` of an array of finite energies; infinite exactly where the density of states is. -/
theorem fcc_dos_memory (ellipk : ℂ → ℂ) (m : Mem (WithTop ℝ)) (eps : Arr ι) (heps : Allocated m eps) (e : ι → ℝ)
    (he : ∀ i, contents m eps i = (e i : ℝ)) (D : ℝ) :
    PureCall (fccDosArr ellipk eps D) m (.ok fun i => fccDos ellipk (e i) D) := by
  classical
  unfold Allocated at heps
  unfold PureCall fccDosArr
  mem_simp
  refine ⟨by untouched, by omega, by omega, freshArr_pos _, ?_⟩
  funext i
  unfold fccDos
  simp only [he, WithTop.untopD_coe]
  by_cases h : e i = -0.5 * D
  · rw [if_pos h, if_pos h]; rfl
  · by_cases h' : -0.5 * D < e i ∧ e i < 1.5 * D
    · rw [if_neg h, if_neg h, if_pos ⟨h'.1, h'.2, h⟩, if_pos h']
      rfl
    · rw [if_neg h, if_neg h, if_neg (fun hh => h' ⟨hh.1, hh.2.1⟩), if_neg h']
      simp

/-- C85: `fcc.gf_z` of an array. -/
theorem fcc_gf_z_memory (ellipk : ℂ → ℂ) (m : Mem ℂ) (z : Arr ι) (D : ℝ) :
    PureCall (fccGfZArr ellipk z D) m (.ok fun i => fccGfZ ellipk (contents m z i) D) := by
  classical
  unfold PureCall fccGfZArr
  mem_simp
  refine ⟨by untouched, by omega, by omega, freshArr_pos _, ?_⟩
  funext i
  rfl

/-- C85: `triangular.gf_z` of an array: the singular frequencies are replaced in a copy. -/
theorem triangular_gf_z_memory (ellipk : ℂ → ℂ) (m : Mem (Option ℂ)) (z : Arr ι) (zs : ι → ℂ)
    (hz : ∀ i, contents m z i = some (zs i)) (D : ℝ) :
    PureCall (triangularGfZArr ellipk z D) m (.ok fun i => triangularGfZ ellipk (zs i) D) := by
  classical
  unfold PureCall triangularGfZArr
  simp (maxSteps := 5000000) (disch := ((try simp only [freshArr_addr, push_next, write_next]); omega)) only
    [bind_read, bind_new, bind_assign, mm_pure, new_apply, contents_push_fresh, contents_push, contents_write_ne,
    contents_write _ _ (freshArr_pos _), freshArr_addr, push_next, write_next]
  refine ⟨by untouched, by omega, by omega, freshArr_pos _, ?_⟩
  funext i
  unfold triangularGfZ
  simp only [hz, Option.map_some, Option.getD_some]
  generalize (1.0 : ℂ) / (D * 4 / 9) * zs i = x
  by_cases ha : x.im < 0
  · simp only [if_pos ha, Option.getD_some]
    by_cases hs : (D * 4 / 9 : ℂ) * conj x = -1
    · simp only [if_pos hs]
      rfl
    · simp only [if_neg hs, Option.map_some, Option.getD_some]
      by_cases hk : 0 < (triangularGK (conj x)).2.im
      · simp only [if_pos hk, Option.bind_some, Option.map_some]
      · simp only [if_neg hk, Option.bind_some, Option.map_some]
  · simp only [if_neg ha, Option.getD_some]
    by_cases hs : (D * 4 / 9 : ℂ) * x = -1
    · simp only [if_pos hs]
    · simp only [if_neg hs, Option.map_some, Option.getD_some]
      by_cases hk : 0 < (triangularGK x).2.im
      · simp only [if_pos hk, Option.bind_some, Option.map_some]
      · simp only [if_neg hk, Option.bind_some, Option.map_some]

/-! ## Fourier transforms -/

/-- C85: `iw2tau_dft`: interleaving the frequencies and trimming the result. -/
theorem iw2tau_dft_memory {N : ℕ} (m : Mem ℂ) (g : Arr (Fin N)) (hg : Allocated m g) (beta : ℝ) :
    PureCall (iw2tauDftArr g beta) m (match iw2tauDft (contents m g) beta with
      | .ok r => .ok fun j => (r j : ℂ)
      | .error e => .error e) := by
  classical
  unfold Allocated at hg
  have hall : ∀ k : Fin (2 * N + 1),
      (if 1 ≤ (k : ℕ) ∧ (k : ℕ) < 2 * N ∧ ((k : ℕ) - 1) % 2 = 0 then
        if h : ((k : ℕ) - 1) / 2 < N then contents m g ⟨((k : ℕ) - 1) / 2, h⟩ else 0
      else 0) = iwAll (contents m g) k := by
    intro k
    have := k.2
    unfold iwAll
    by_cases h : (k : ℕ) % 2 = 1
    · rw [if_pos (by omega), dif_pos h, dif_pos (by omega)]
      congr 2
      omega
    · rw [if_neg (by omega), dif_neg h]
  unfold iw2tauDft
  cases hr : hfft fun k => 1 / (beta : ℂ) * iwAll (contents m g) k with
  | error e =>
    simp only
    unfold PureCall iw2tauDftArr
    mem_simp
    simp only [bind_lift]
    simp only [hall, hr]
    exact ⟨by untouched, trivial⟩
  | ok r =>
    have hN : N ≠ 0 := by
      rintro rfl
      simp [hfft] at hr
    simp only
    unfold PureCall iw2tauDftArr
    mem_simp
    simp only [bind_lift]
    simp only [hall, hr]
    mem_simp
    refine ⟨by untouched, by omega, by omega, ?_, ?_⟩
    · intro a b hab
      have ha := a.2
      have hb := b.2
      simp only at hab
      rw [dif_pos (by omega), dif_pos (by omega)] at hab
      have := freshArr_pos _ hab
      simpa [Fin.ext_iff] using this
    · funext j
      have hj := j.2
      have hj' : (j : ℕ) < 2 * (2 * N + 1 - 1) := by omega
      unfold contents
      simp only [dif_pos hj']
      exact congrFun (contents_push_fresh (ι := Fin (2 * (2 * N + 1 - 1))) _ fun j => (r j : ℂ)) ⟨j, hj'⟩

/-- C85: `tau2iv_dft`. -/
theorem tau2iv_dft_memory {T : ℕ} (m : Mem ℂ) (g : Arr (Fin (T + 1))) (x : Fin (T + 1) → ℝ)
    (hx : ∀ k, contents m g k = x k) (beta : ℝ) :
    PureCall (tau2ivDftArr g beta) m (tau2ivDft x beta) := by
  classical
  unfold tau2ivDft
  by_cases hT : T = 0
  · rw [if_pos hT]
    refine PureCall.of_error (m' := m) ?_ (Untouched.refl m)
    unfold tau2ivDftArr
    rw [if_pos hT]
    rfl
  rw [if_neg hT]
  simp only
  unfold PureCall tau2ivDftArr
  rw [if_neg hT]
  mem_simp
  simp only [bind_lift, hx, Complex.ofReal_re]
  cases hr : ihfft fun k : Fin T => x k.castSucc - trapezoidDx x (beta / T) with
  | error e =>
    simp only
    exact ⟨Untouched.refl m, trivial⟩
  | ok r =>
    simp only
    mem_simp
    refine ⟨by untouched, by omega, by omega, freshArr_pos _, ?_⟩
    trivial

/-- C85: `tau2iv_ft_lin`: the frequency zero is replaced and its weights corrected. -/
theorem tau2iv_ft_lin_memory {T : ℕ} (m : Mem ℂ) (g : Arr (Fin (T + 1))) (hg : Allocated m g) (x : Fin (T + 1) → ℝ)
    (hx : ∀ k, contents m g k = x k) (beta : ℝ) :
    PureCall (tau2ivFtLinArr g beta) m (tau2ivFtLin x beta) := by
  classical
  unfold Allocated at hg
  unfold tau2ivFtLin
  unfold PureCall tau2ivFtLinArr
  mem_simp
  simp only [bind_lift, hx, Complex.ofReal_re]
  cases hr : ihfft fun k : Fin T => x k.castSucc with
  | error e =>
    simp only
    exact ⟨Untouched.refl m, trivial⟩
  | ok r =>
    simp only
    mem_simp
    simp only [bind_lift, hx, Complex.ofReal_re]
    cases hd : ihfft fun k : Fin T => x k.succ - x k.castSucc with
    | error e =>
      simp only
      exact ⟨by untouched, trivial⟩
    | ok dr =>
      simp only
      mem_simp
      refine ⟨by untouched, by omega, by omega, freshArr_pos _, ?_⟩
      funext n
      by_cases h : (n : ℕ) = 0 <;> simp only [h, if_true, if_false, filonW1, filonW2]

/-- C85: `tau2iw` with a transformation that returns a new array. -/
theorem tau2iw_memory (ext : LinalgExt ℝ) {T l : ℕ} (m : Mem ℂ) (g : Arr (Fin (T + 1))) (x : Fin (T + 1) → ℝ)
    (hx : ∀ k, contents m g k = x k) (beta : ℝ) (n : ℕ) (moments : Fin l → ℝ)
    (F : (Fin (T + 1) → ℝ) → ℝ → Except Err (Fin ((T + 1) / 2) → ℂ))
    (fourier : Arr (Fin (T + 1)) → MM ℂ (Arr (Fin ((T + 1) / 2))))
    (hF : ∀ m' a y, (∀ k, contents m' a k = ((y k : ℝ) : ℂ)) → PureCall (fourier a) m' (F y beta)) :
    PureCall (tau2iwArr ext g beta n moments fourier) m (tau2iwMoments ext x beta n moments F) := by
  classical
  unfold tau2iwMoments
  have hx' : (fun k => (contents m g k).re) = x := by funext k; rw [hx, Complex.ofReal_re]
  cases hp : gfFromTau ext x n beta moments 0 1 none with
  | error e =>
    refine PureCall.of_error (m' := m) ?_ (Untouched.refl m)
    unfold tau2iwArr
    rw [bind_read, bind_lift, hx', hp]
  | ok p =>
    simp only
    cases ht : evalTauGrid p beta (T + 1) with
    | error e =>
      refine PureCall.of_error (m' := m) ?_ (Untouched.refl m)
      unfold tau2iwArr
      rw [bind_read, bind_lift, hx', hp]
      simp only
      rw [bind_lift, ht]
    | ok pt =>
      simp only
      have hnew : (fun k : Fin (T + 1) => contents m g k - (pt k : ℂ)) = fun k => ((x k - pt k : ℝ) : ℂ) := by
        funext k; rw [hx]; push_cast; rfl
      set m1 := Mem.push m fun k : Fin (T + 1) => ((x k - pt k : ℝ) : ℂ) with hm1
      have hcall : tau2iwArr ext g beta n moments fourier m = (fourier (freshArr _ m) >>= fun gfIw => do
          let r ← read gfIw
          assign gfIw (fun _ => True) fun i => r i + p.evalZ (matsubaraFrequencies (i : ℕ) beta)
          return gfIw) m1 := by
        unfold tau2iwArr
        rw [bind_read, bind_lift, hx', hp]
        simp only
        rw [bind_lift, ht]
        simp only
        rw [bind_read, bind_new, hnew]
      have hP := hF m1 (freshArr _ m) (fun k => x k - pt k) (fun k => by rw [hm1, contents_push_fresh])
      have hu1 : Untouched m m1 := by rw [hm1]; untouched
      have hn1 : m1.next = m.next + 1 := rfl
      cases hr : F (fun k => x k - pt k) beta with
      | error e =>
        rw [hr] at hP
        obtain ⟨m4, hc, hu⟩ := PureCall.error hP
        refine PureCall.of_error (m' := m4) ?_ (Untouched.trans hu1 hu)
        rw [hcall, mm_bind_error hc]
      | ok r =>
        rw [hr] at hP
        obtain ⟨a, m4, hc, hu, ha, ha', hi, hv⟩ := PureCall.ok hP
        rw [mm_bind_ok hc] at hcall
        simp only [bind_read, bind_assign, mm_pure, hv] at hcall
        refine PureCall.of_ok hcall ?_ (by omega) ha' hi ?_
        · exact Untouched.write (Untouched.trans hu1 hu) (by omega) _ _
        · rw [contents_write _ _ hi]
          simp

/-- C85 fails: if the transformation returns an array it keeps (e.g. from a cache), `tau2iw` adds the poles to this
array: a second call for the same data gives a different result. -/
theorem tau2iw_changes_cached (ext : LinalgExt ℝ) {T l : ℕ} (m : Mem ℂ) (g : Arr (Fin (T + 1))) (beta : ℝ) (n : ℕ)
    (moments : Fin l → ℝ) (p : PoleFct ℝ n) (pt : Fin (T + 1) → ℝ)
    (hp : gfFromTau ext (fun k => (contents m g k).re) n beta moments 0 1 none = .ok p)
    (hpt : evalTauGrid p beta (T + 1) = .ok pt)
    (c : Arr (Fin ((T + 1) / 2))) (hc : Allocated m c) (hi : c.pos.Injective) :
    ∃ m', tau2iwArr ext g beta n moments (fun _ => pure c) m = (.ok c, m') ∧
      ∀ i : Fin ((T + 1) / 2),
        contents m' c i = contents m c i + p.evalZ (matsubaraFrequencies ((i : ℕ) : ℤ) beta) := by
  classical
  unfold Allocated at hc
  unfold tau2iwArr
  rw [bind_read, bind_lift, hp]
  simp only
  rw [bind_lift, hpt]
  simp only
  have hpure : ∀ (f : Arr (Fin ((T + 1) / 2)) → MM ℂ (Arr (Fin ((T + 1) / 2)))), (pure c >>= f : MM ℂ _) = f c :=
    fun f => rfl
  simp only [hpure]
  mem_simp
  refine ⟨_, rfl, fun i => ?_⟩
  rw [contents_write _ _ hi]
  simp

/-- C85 fails: with the default of one pole, the term added to the cached array is the jump over the frequency, so the
second of two equal calls is wrong whenever the Green's function has a jump. -/
theorem tau2iw_changes_cached_jump (ext : LinalgExt ℝ) {T : ℕ} (m : Mem ℂ) (g : Arr (Fin (T + 1))) {beta : ℝ}
    (hb : 0 < beta) (jump : ℝ) (c : Arr (Fin ((T + 1) / 2))) (hc : Allocated m c) (hi : c.pos.Injective) :
    ∃ m', tau2iwArr ext g beta 1 (fun _ : Fin 1 => jump) (fun _ => pure c) m = (.ok c, m') ∧
      ∀ i : Fin ((T + 1) / 2),
        contents m' c i = contents m c i + jump / matsubaraFrequencies ((i : ℕ) : ℤ) beta := by
  obtain ⟨p, hp, hpol, hmom, -⟩ := gf_from_tau_moments ext (fun k => (contents m g k).re) hb.le (fun _ : Fin 1 => jump)
    (width := 1) none one_ne_zero le_rfl one_ne_zero
  have hpt : evalTauGrid p beta (T + 1) = .ok fun i =>
      ∑ j, p.residues j * singlePoleGfTau (linspace0 beta (T + 1) i) (p.poles j) beta := by
    unfold evalTauGrid
    rw [if_pos fun i => linspace_mem hb.le i]
  obtain ⟨m', h1, h2⟩ := tau2iw_changes_cached ext m g beta 1 (fun _ : Fin 1 => jump) p _ hp hpt c hc hi
  refine ⟨m', h1, fun i => ?_⟩
  rw [h2]
  congr 1
  have hr := hmom 0
  have h0 := hpol 0
  simp [poleMoments] at hr
  simp [chebyshevPoints] at h0
  simp [PoleFct.evalZ, poleGfZ, hr, h0]

/-! ## Linear prediction -/

lemma nanSum_some (l : List ℂ) : nanSum (l.map some) = some l.sum := by
  induction l with
  | nil => rfl
  | cons a l ih =>
    have : nanSum ((a :: l).map some) = Option.map₂ (· + ·) (some a) (nanSum (l.map some)) := rfl
    rw [this, ih, List.sum_cons]
    rfl

lemma nanBcastMul_some (a b : List ℂ) :
    nanBcastMul (a.map some) (b.map some) = (bcastMul a b).map (List.map some) := by
  unfold nanBcastMul bcastMul
  simp only [List.length_map]
  split_ifs with h1 h2 h3
  · simp only [Except.map, List.zipWith_map, List.map_zipWith]
    rfl
  · obtain ⟨c, rfl⟩ := List.length_eq_one_iff.1 h2
    simp [Except.map]
  · obtain ⟨c, rfl⟩ := List.length_eq_one_iff.1 h3
    simp [Except.map]
  · rfl

/-- The last iteration of the loop of `predict`. -/
lemma predictLoop_succ (total : ℕ) (p : List ℂ) (k : ℕ) (xt : List ℂ) :
    predictLoop total p (k + 1) xt = match predictLoop total p k xt with
      | .error e => .error e
      | .ok l => match predictStep total p l with
        | .error e => .error e
        | .ok y => .ok (l ++ [y]) := by
  induction k generalizing xt with
  | zero =>
    simp only [predictLoop]
    cases predictStep total p xt <;> rfl
  | succ k ih =>
    rw [predictLoop]
    conv_rhs => rw [predictLoop]
    cases predictStep total p xt with
    | error e => rfl
    | ok y => exact ih _

lemma predictLoop_length' {total : ℕ} {p : List ℂ} {k : ℕ} {xt l : List ℂ} (h : predictLoop total p k xt = .ok l) :
    l.length = xt.length + k := by
  induction k generalizing xt with
  | zero => simp only [predictLoop, Except.ok.injEq] at h; rw [← h]; rfl
  | succ k ih =>
    rw [predictLoop] at h
    cases hs : predictStep total p xt with
    | error e => rw [hs] at h; cases h
    | ok y =>
      rw [hs] at h
      rw [ih h, List.length_append, List.length_singleton]
      omega

/-- C85: `predict` fills a new array; none of the NaN placeholders is left, or enters a prediction, even when the slice
of the last elements starts before the first one. It raises exactly as documented. -/
theorem predict_memory {n p : ℕ} (m : Mem (Option ℂ)) (x : Arr (Fin n)) (pcoeff : Arr (Fin p)) (num : ℤ)
    (hp : Allocated m pcoeff) (xs : Fin n → ℂ) (ps : Fin p → ℂ)
    (hxs : ∀ k, contents m x k = some (xs k)) (hps : ∀ k, contents m pcoeff k = some (ps k)) :
    PureCall (predictArr x pcoeff num) m (match predict (List.ofFn xs) (List.ofFn ps) num with
      | .ok l => .ok fun j => l[(j : ℕ)]?
      | .error e => .error e) ∧
    ∀ l, predict (List.ofFn xs) (List.ofFn ps) num = .ok l → l.length = n + num.toNat := by
  classical
  unfold Allocated at hp
  refine ⟨?_, ?_⟩
  swap
  · intro l hl
    unfold predict at hl
    split_ifs at hl
    rw [predictLoop_length' hl, List.length_ofFn]
  unfold predict
  by_cases hnum : num < 0
  · rw [if_pos hnum]
    refine PureCall.of_error (m' := m) ?_ (Untouched.refl m)
    unfold predictArr
    rw [if_pos hnum]
    rfl
  rw [if_neg hnum, List.length_ofFn]
  have hxs' : contents m x = fun k => some (xs k) := funext hxs
  set N := num.toNat with hN
  set body : Arr (Fin (n + N)) → ℕ → MM (Option ℂ) Unit := fun xtended k => do
      let ii := n + k
      let ps ← read pcoeff
      let xt ← read xtended
      let lo := if p ≤ ii then ii - p else n + N - (p - ii)
      let prod ← lift (nanBcastMul (List.ofFn ps).reverse (((List.ofFn xt).take ii).drop lo))
      assign xtended (fun j => (j : ℕ) = ii) fun _ => (nanSum prod).map fun y => -y with hbody
  -- the loop
  have loop : ∀ (xt : Arr (Fin (n + N))) (k : ℕ) (m0 : Mem (Option ℂ)), Untouched m m0 → m.next ≤ xt.addr →
      xt.pos.Injective → contents m0 xt = (fun j : Fin (n + N) => (List.ofFn xs)[(j : ℕ)]?) → k ≤ N →
      ∃ m', m0.next = m'.next ∧ Untouched m m' ∧
        match predictLoop (n + N) (List.ofFn ps) k (List.ofFn xs) with
        | .ok l => forRange k (body xt) m0 = (.ok (), m') ∧ contents m' xt = fun j : Fin (n + N) => l[(j : ℕ)]?
        | .error e => forRange k (body xt) m0 = (.error e, m') := by
    intro xt k m0 hu ha hi hc
    induction k with
    | zero => exact fun _ => ⟨m0, rfl, hu, rfl, hc⟩
    | succ k ih =>
      intro hk
      obtain ⟨m1, hn1, hu1, h1⟩ := ih (by omega)
      rw [predictLoop_succ]
      cases hl : predictLoop (n + N) (List.ofFn ps) k (List.ofFn xs) with
      | error e =>
        rw [hl] at h1
        refine ⟨m1, hn1, hu1, ?_⟩
        simp only at h1 ⊢
        unfold forRange
        exact mm_bind_error h1
      | ok l =>
        rw [hl] at h1
        simp only at h1 ⊢
        have hlen : l.length = n + k := by rw [predictLoop_length' hl, List.length_ofFn]
        have hps1 : contents m1 pcoeff = fun k => some (ps k) := by
          rw [Untouched.contents hu1 hp]
          exact funext hps
        have htake : (List.ofFn fun j : Fin (n + N) => l[(j : ℕ)]?).take (n + k) = l.map some := by
          apply List.ext_getElem
          · simp [hlen]; omega
          · intro i hi1 hi2
            simp only [List.length_map] at hi2
            simp [hi2]
        have hprod : nanBcastMul (List.ofFn fun k => some (ps k)).reverse
              (((List.ofFn fun j : Fin (n + N) => l[(j : ℕ)]?).take (n + k)).drop
                (if p ≤ n + k then n + k - p else n + N - (p - (n + k))))
            = (bcastMul (List.ofFn ps).reverse
              (l.drop (if p ≤ n + k then n + k - p else n + N - (p - (n + k))))).map (List.map some) := by
          rw [htake, ← nanBcastMul_some, ← List.map_drop]
          congr 1
          rw [List.map_reverse, List.map_ofFn]
          rfl
        have hstep : forRange (k + 1) (body xt) m0 = body xt k m1 := by
          unfold forRange
          exact mm_bind_ok h1.1
        unfold predictStep
        simp only [hlen, List.length_ofFn]
        cases hm : bcastMul (List.ofFn ps).reverse
            (l.drop (if p ≤ n + k then n + k - p else n + N - (p - (n + k)))) with
        | error e =>
          refine ⟨m1, hn1, hu1, ?_⟩
          simp only
          rw [hstep, hbody]
          simp only
          rw [bind_read, bind_read, hps1, h1.2, bind_lift, hprod, hm]
          rfl
        | ok q =>
          refine ⟨Mem.write m1 xt (fun j => (j : ℕ) = n + k) fun _ => some (-q.sum), hn1,
            Untouched.write hu1 ha _ _, ?_, ?_⟩
          · rw [hstep, hbody]
            simp only
            rw [bind_read, bind_read, hps1, h1.2, bind_lift, hprod, hm]
            simp only [Except.map, nanSum_some, Option.map_some]
            rfl
          · rw [contents_write _ _ hi, h1.2]
            funext j
            by_cases hj : (j : ℕ) = n + k
            · rw [if_pos hj, hj, ← hlen, List.getElem?_concat_length]
            · rw [if_neg hj]
              by_cases hj' : (j : ℕ) < n + k
              · rw [List.getElem?_append_left (by omega)]
              · exact (List.getElem?_eq_none (by omega)).trans
                  (List.getElem?_eq_none (by rw [List.length_append, hlen, List.length_singleton]; omega)).symm
  have hinit : (fun j : Fin (n + N) => if h : (j : ℕ) < n then contents m x ⟨j, h⟩ else none)
      = fun j : Fin (n + N) => (List.ofFn xs)[(j : ℕ)]? := by
    funext j
    by_cases h : (j : ℕ) < n
    · rw [dif_pos h, hxs]
      simp [h]
    · rw [dif_neg h, List.getElem?_eq_none (by simpa using h)]
  obtain ⟨m', hn', hu', h'⟩ := loop (freshArr _ m) N
    (Mem.push m fun j : Fin (n + N) => (List.ofFn xs)[(j : ℕ)]?) (Untouched.push (Untouched.refl m) _) le_rfl
    (freshArr_pos m) (contents_push_fresh _ _) le_rfl
  have hcall : predictArr x pcoeff num m = (forRange N (body (freshArr _ m)) >>= fun _ => pure (freshArr _ m))
      (Mem.push m fun j : Fin (n + N) => (List.ofFn xs)[(j : ℕ)]?) := by
    unfold predictArr
    rw [if_neg hnum, bind_read, bind_new, hinit]
  cases hl : predictLoop (n + N) (List.ofFn ps) N (List.ofFn xs) with
  | error e =>
    rw [hl] at h'
    refine PureCall.of_error (m' := m') ?_ hu'
    rw [hcall]
    exact mm_bind_error h'
  | ok l =>
    rw [hl] at h'
    refine PureCall.of_ok (a := freshArr _ m) (m' := m') ?_ hu' le_rfl ?_ (freshArr_pos m) h'.2
    · rw [hcall, mm_bind_ok h'.1]
      rfl
    · rw [← hn', freshArr_addr, push_next]
      omega

/-- C85: `predict(stable=True)` (with non-negative `num`) fills a new array; the residues, which are changed in place in
every iteration, are the powers of the eigenvalues times the original ones, and no NaN placeholder is left. -/
theorem predict_stable_memory (ext : EigExt) {n p : ℕ} (m : Mem (Option ℂ)) (x : Arr (Fin n)) (pcoeff : Arr (Fin p))
    (num : ℕ) (hx : Allocated m x) (xs : Fin n → ℂ) (ps : Fin p → ℂ)
    (hxs : ∀ k, contents m x k = some (xs k)) (hps : ∀ k, contents m pcoeff k = some (ps k)) :
    PureCall (predictStableArr ext x pcoeff num) m (match predictStable ext (List.ofFn xs) ps num with
      | .ok l => .ok fun j => l[(j : ℕ)]?
      | .error e => .error e) ∧
    ∀ l, predictStable ext (List.ofFn xs) ps num = .ok l → l.length = n + num := by
  classical
  unfold Allocated at hx
  have hxs' : contents m x = fun k => some (xs k) := funext hxs
  have hps' : contents m pcoeff = fun k => some (ps k) := funext hps
  unfold predictStable
  cases hcm : companion 1 ps with
  | error e =>
    refine ⟨PureCall.of_error (m' := m) ?_ (Untouched.refl m), fun l hl => by cases hl⟩
    unfold predictStableArr
    rw [bind_read, bind_lift, hps']
    simp only [Option.getD_some]
    rw [hcm]
  | ok mat =>
    simp only
    cases hdec : decomposeMat ext mat with
    | error e =>
      refine ⟨PureCall.of_error (m' := m) ?_ (Untouched.refl m), fun l hl => by cases hl⟩
      unfold predictStableArr
      rw [bind_read, bind_lift, hps']
      simp only [Option.getD_some]
      rw [hcm]
      simp only
      rw [bind_lift, hdec]
    | ok dec =>
      have hstart : predictStableArr ext x pcoeff num m = (if hp : p = 0 then raise .valueError
          else if hn : n < p then raise .valueError
          else do
            let xs ← read x
            let right := dec.rvInv.mulVec fun i : Fin p => (xs ⟨n - 1 - i, by have := i.2; omega⟩).getD 0
            let left : Fin p → ℂ := fun j => dec.rv ⟨0, by omega⟩ j
            let residues ← new fun j : Fin p => some (left j * right j)
            assign residues (fun j => 1 < ‖dec.eig j‖) fun _ => some 0
            let xs ← read x
            let xtended ← new fun j : Fin (n + num) => if h : (j : ℕ) < n then xs ⟨j, h⟩ else none
            forRange num fun k => do
              let r ← read residues
              assign residues (fun _ => True) fun j => (r j).map fun r => r * dec.eig j
              let r ← read residues
              assign xtended (fun j => (j : ℕ) = n + k) fun _ => nanSum (List.ofFn r)
            return xtended : MM (Option ℂ) _) m := by
        unfold predictStableArr
        rw [bind_read, bind_lift, hps']
        simp only [Option.getD_some]
        rw [hcm]
        simp only
        rw [bind_lift, hdec]
      simp only
      by_cases hp : p = 0
      · rw [dif_pos hp]
        refine ⟨PureCall.of_error (m' := m) ?_ (Untouched.refl m), fun l hl => by cases hl⟩
        rw [hstart, dif_pos hp]
        rfl
      rw [dif_neg hp, List.length_ofFn]
      by_cases hn : n < p
      · rw [if_pos hn]
        refine ⟨PureCall.of_error (m' := m) ?_ (Untouched.refl m), fun l hl => by cases hl⟩
        rw [hstart, dif_neg hp, dif_pos hn]
        rfl
      rw [if_neg hn]
      rw [dif_neg hp, dif_neg hn] at hstart
      set right := dec.rvInv.mulVec fun i : Fin p => (List.ofFn xs).getD (n - 1 - i) 0 with hright
      have hright' : (dec.rvInv.mulVec fun i : Fin p => (contents m x ⟨n - 1 - i, by have := i.2; omega⟩).getD 0)
          = right := by
        rw [hright]
        congr 1
        funext i
        have := i.2
        rw [hxs, Option.getD_some]
        have hlt : n - 1 - (i : ℕ) < n := by omega
        simp [List.getD, hlt]
      set res : Fin p → ℂ := fun j => if 1 < ‖dec.eig j‖ then 0 else dec.rv ⟨0, by omega⟩ j * right j with hres
      set L : ℕ → List ℂ := fun k => List.ofFn xs ++ (List.range k).map fun k => ∑ j, res j * dec.eig j ^ (k + 1) with hL
      have hLlen : ∀ k, (L k).length = n + k := fun k => by simp [hL]
      have hLs : ∀ k, L (k + 1) = L k ++ [∑ j, res j * dec.eig j ^ (k + 1)] := fun k => by
        simp [hL, List.range_succ]
      refine ⟨?_, fun l hl => by rw [Except.ok.injEq] at hl; rw [← hl]; exact hLlen num⟩
      simp only
      set body : Arr (Fin p) → Arr (Fin (n + num)) → ℕ → MM (Option ℂ) Unit := fun residues xtended k => do
        let r ← read residues
        assign residues (fun _ => True) fun j => (r j).map fun r => r * dec.eig j
        let r ← read residues
        assign xtended (fun j => (j : ℕ) = n + k) fun _ => nanSum (List.ofFn r) with hbody
      have loop : ∀ (residues : Arr (Fin p)) (xt : Arr (Fin (n + num))) (k : ℕ) (m0 : Mem (Option ℂ)), Untouched m m0 →
          m.next ≤ xt.addr → m.next ≤ residues.addr → xt.addr ≠ residues.addr → xt.pos.Injective →
          residues.pos.Injective → contents m0 xt = (fun j : Fin (n + num) => (L 0)[(j : ℕ)]?) →
          contents m0 residues = (fun j => some (res j)) → k ≤ num →
          ∃ m', m0.next = m'.next ∧ Untouched m m' ∧ forRange k (body residues xt) m0 = (.ok (), m') ∧
            contents m' xt = (fun j : Fin (n + num) => (L k)[(j : ℕ)]?) ∧
            contents m' residues = fun j => some (res j * dec.eig j ^ k) := by
        intro residues xt k m0 hu ha hb hab hi hj hc hr
        induction k with
        | zero => exact fun _ => ⟨m0, rfl, hu, rfl, hc, by rw [hr]; simp⟩
        | succ k ih =>
          intro hk
          obtain ⟨m1, hn1, hu1, h1, hc1, hr1⟩ := ih (by omega)
          have hw : contents (Mem.write m1 residues (fun _ => True) fun j => some (res j * dec.eig j ^ (k + 1))) residues
              = fun j => some (res j * dec.eig j ^ (k + 1)) := by
            rw [contents_write _ _ hj]
            simp
          have hsum : nanSum (List.ofFn fun j => some (res j * dec.eig j ^ (k + 1)))
              = some (∑ j, res j * dec.eig j ^ (k + 1)) := by
            have : (List.ofFn fun j => some (res j * dec.eig j ^ (k + 1)))
                = (List.ofFn fun j => res j * dec.eig j ^ (k + 1)).map some := by
              rw [List.map_ofFn]; rfl
            rw [this, nanSum_some, List.sum_ofFn]
          refine ⟨Mem.write (Mem.write m1 residues (fun _ => True) fun j => some (res j * dec.eig j ^ (k + 1))) xt
            (fun j => (j : ℕ) = n + k) fun _ => some (∑ j, res j * dec.eig j ^ (k + 1)), hn1,
            Untouched.write (Untouched.write hu1 hb _ _) ha _ _, ?_, ?_, ?_⟩
          · unfold forRange
            rw [mm_bind_ok h1, hbody]
            simp only
            rw [bind_read, bind_assign, bind_read, hr1]
            have : (fun j => (some (res j * dec.eig j ^ k)).map fun r => r * dec.eig j)
                = fun j => some (res j * dec.eig j ^ (k + 1)) := by
              funext j
              rw [Option.map_some, pow_succ, mul_assoc]
            rw [this, hw, hsum]
            rfl
          · rw [contents_write _ _ hi, contents_write_ne _ _ _ _ _ hab, hc1, hLs]
            funext j
            by_cases hj : (j : ℕ) = n + k
            · rw [if_pos hj, hj, ← hLlen, List.getElem?_concat_length]
            · rw [if_neg hj]
              by_cases hj' : (j : ℕ) < n + k
              · rw [List.getElem?_append_left (by rw [hLlen]; omega)]
              · exact (List.getElem?_eq_none (by rw [hLlen]; omega)).trans
                  (List.getElem?_eq_none (by rw [List.length_append, hLlen, List.length_singleton]; omega)).symm
          · rw [contents_write_ne _ _ _ _ _ (Ne.symm hab), hw]
      have hinit : (fun j : Fin (n + num) => if h : (j : ℕ) < n then some (xs ⟨j, h⟩) else none)
          = fun j : Fin (n + num) => (L 0)[(j : ℕ)]? := by
        funext j
        have : L 0 = List.ofFn xs := by simp [hL]
        rw [this]
        by_cases h : (j : ℕ) < n
        · rw [dif_pos h]
          simp [h]
        · rw [dif_neg h, List.getElem?_eq_none (by simpa using h)]
      set m1 := Mem.push m fun j : Fin p => some (dec.rv ⟨0, by omega⟩ j * right j) with hm1
      set m2 := Mem.write m1 (freshArr (Fin p) m) (fun j => 1 < ‖dec.eig j‖) fun _ => some 0 with hm2
      set m3 := Mem.push m2 fun j : Fin (n + num) => (L 0)[(j : ℕ)]? with hm3
      have hu3 : Untouched m m3 := by rw [hm3, hm2, hm1]; untouched
      have hx2 : contents m2 x = fun k => some (xs k) := by
        rw [hm2, contents_write_ne _ _ _ _ _ (by rw [freshArr_addr]; omega), hm1, contents_push _ _ _ (by omega), hxs']
      have hr3 : contents m3 (freshArr (Fin p) m) = fun j => some (res j) := by
        rw [hm3, contents_push _ _ _ (by rw [freshArr_addr, hm2, write_next, hm1, push_next]; omega), hm2,
          contents_write _ _ (freshArr_pos m), hm1, contents_push_fresh]
        funext j
        simp only [hres]
        split_ifs <;> rfl
      obtain ⟨m', hn', hu', h', hc', -⟩ := loop (freshArr _ m) (freshArr _ m2) num m3 hu3
        (by rw [freshArr_addr, hm2, write_next, hm1, push_next]; omega) le_rfl
        (by rw [freshArr_addr, freshArr_addr, hm2, write_next, hm1, push_next]; omega) (freshArr_pos _) (freshArr_pos _)
        (contents_push_fresh _ _) hr3 le_rfl
      refine PureCall.of_ok (a := freshArr _ m2) (m' := m') ?_ hu'
        (by rw [freshArr_addr, hm2, write_next, hm1, push_next]; omega) ?_ (freshArr_pos _) hc'
      · rw [hstart, bind_read]
        simp only
        rw [hright', bind_new, ← hm1, bind_assign, ← hm2, bind_read, hx2, bind_new, hinit, ← hm3, mm_bind_ok h']
        rfl
      · rw [← hn', freshArr_addr, hm3, push_next]
        omega

end Gftool.Props
