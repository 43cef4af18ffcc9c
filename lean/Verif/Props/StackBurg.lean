import Verif.Props.StackSiam

/-!
# Leading axes are stacks: Burg's method and companion matrices (property C69)
-/

namespace Gftool.Props

open Model Spec Lemmas

/-- Rows of an array. -/
private def Rows {α : Type} (a : Nd α) (n : ℕ) (xs : List ℕ) (G : List ℕ → ℕ → α) : Prop :=
  a.dims = n :: xs ∧ ∀ i, InRange i xs → ∀ k < n, a.get (k :: i) = G i k

/-- Elements of an array without last axis. -/
private def Elts {α : Type} (a : Nd α) (xs : List ℕ) (G : List ℕ → α) : Prop :=
  a.dims = xs ∧ ∀ i, InRange i xs → a.get i = G i

private lemma Rows.map2 {α β γ : Type} {a : Nd α} {b : Nd β} {n : ℕ} {xs : List ℕ} {Ga : List ℕ → ℕ → α} {Gb : List ℕ → ℕ → β}
    (ha : Rows a n xs Ga) (hb : Rows b n xs Gb) (g : α → β → γ) :
    ∃ c, Nd.map2 g a b = .ok c ∧ Rows c n xs fun i k => g (Ga i k) (Gb i k) := by
  unfold Nd.map2
  rw [ha.1, hb.1, bcast_self]
  refine ⟨_, rfl, rfl, fun i hi k hk => ?_⟩
  have hr : InRange (k :: i) (n :: xs) := List.Forall₂.cons hk hi
  simp only [Nd.at, ha.1, hb.1, proj_inRange hr, ha.2 i hi k hk, hb.2 i hi k hk]

private lemma Rows.mulNew {α β γ : Type} {a : Nd α} {b : Nd β} {n : ℕ} {xs : List ℕ} {Ga : List ℕ → α} {Gb : List ℕ → ℕ → β}
    (ha : Elts a xs Ga) (hb : Rows b n xs Gb) (g : α → β → γ) :
    ∃ c, Nd.map2 g a.newaxis b = .ok c ∧ Rows c n xs fun i k => g (Ga i) (Gb i k) := by
  unfold Nd.map2
  rw [show a.newaxis.dims = 1 :: xs by rw [← ha.1]; rfl, hb.1, bcast_cons, bdim_one_left, bcast_self]
  refine ⟨_, rfl, rfl, fun i hi k hk => ?_⟩
  have hr : InRange (k :: i) (n :: xs) := List.Forall₂.cons hk hi
  simp only [Nd.at, hb.1, proj_inRange hr, hb.2 i hi k hk]
  congr 1
  rw [show a.newaxis.dims = 1 :: xs by rw [← ha.1]; rfl, proj_cons, List.tail_cons, proj_inRange hi]
  exact ha.2 i hi

private lemma Rows.map {α β : Type} {a : Nd α} {n : ℕ} {xs : List ℕ} {Ga : List ℕ → ℕ → α} (ha : Rows a n xs Ga) (g : α → β) :
    Rows (a.map g) n xs fun i k => g (Ga i k) := ⟨ha.1, fun i hi k hk => congrArg g (ha.2 i hi k hk)⟩

private lemma Elts.map {α β : Type} {a : Nd α} {xs : List ℕ} {Ga : List ℕ → α} (ha : Elts a xs Ga) (g : α → β) :
    Elts (a.map g) xs fun i => g (Ga i) := ⟨ha.1, fun i hi => congrArg g (ha.2 i hi)⟩

private lemma Elts.map2 {α β γ : Type} {a : Nd α} {b : Nd β} {xs : List ℕ} {Ga : List ℕ → α} {Gb : List ℕ → β}
    (ha : Elts a xs Ga) (hb : Elts b xs Gb) (g : α → β → γ) :
    ∃ c, Nd.map2 g a b = .ok c ∧ Elts c xs fun i => g (Ga i) (Gb i) := by
  unfold Nd.map2
  rw [ha.1, hb.1, bcast_self]
  refine ⟨_, rfl, rfl, fun i hi => ?_⟩
  simp only [Nd.at, ha.1, hb.1, proj_inRange hi, ha.2 i hi, hb.2 i hi]

private lemma Rows.sum {α : Type} [AddCommMonoid α] {a : Nd α} {n : ℕ} {xs : List ℕ} {Ga : List ℕ → ℕ → α} (ha : Rows a n xs Ga) :
    Elts a.sum xs fun i => ∑ k ∈ Finset.range n, Ga i k := by
  have h : a.sum = ⟨xs, fun i => ∑ k ∈ Finset.range n, a.get (k :: i)⟩ := by simp only [Nd.sum, ha.1]
  rw [h]
  exact ⟨rfl, fun i hi => Finset.sum_congr rfl fun k hk => ha.2 i hi k (Finset.mem_range.1 hk)⟩

private lemma Rows.slice {α : Type} {a : Nd α} {n : ℕ} {xs : List ℕ} {Ga : List ℕ → ℕ → α} (ha : Rows a n xs Ga) (m : ℕ) (g : ℕ → ℕ)
    (hg : ∀ k < m, g k < n) : ∃ c, a.slice m g = .ok c ∧ Rows c m xs fun i k => Ga i (g k) := by
  unfold Nd.slice
  rw [ha.1]
  exact ⟨_, rfl, rfl, fun i hi k hk => ha.2 i hi _ (hg k hk)⟩

private lemma burg_n (x : ℕ → ℂ) (N k : ℕ) : (burgState x N k).n = N - 1 - k := by
  induction k with
  | zero => rfl
  | succ k ih =>
    change (burgState x N k).n - 1 = _
    rw [ih]
    omega

/-- What the loop computes for every element of the stack. -/
private def BurgInv (x : Nd ℂ) (N order : ℕ) (xs : List ℕ) (k : ℕ) (s : BurgNd) : Prop :=
  Rows s.f (N - 1 - k) xs (fun i j => (burgState (fun k => x.at (k :: i)) N k).f j) ∧
  Rows s.b (N - 1 - k) xs (fun i j => (burgState (fun k => x.at (k :: i)) N k).b j) ∧
  Rows s.a order xs (fun i j => (burgState (fun k => x.at (k :: i)) N k).a j) ∧
  Elts s.rho xs (fun i => (burgState (fun k => x.at (k :: i)) N k).rho) ∧
  Elts s.fin xs (fun i => ∀ m < k, burgDenom (burgState (fun k => x.at (k :: i)) N m) ≠ 0)

private lemma burg_inv (x : Nd ℂ) (N order : ℕ) (xs : List ℕ) (hx : x.dims = N :: xs) :
    ∀ k ≤ order, ∃ s, burgLoopNd x N order xs k = .ok s ∧ BurgInv x N order xs k s
  | 0, _ => by
    have hxr : Rows x N xs fun i k => x.at (k :: i) := ⟨hx, fun i hi k hk => by
      have hr : InRange (k :: i) (N :: xs) := List.Forall₂.cons hk hi
      simp only [Nd.at, hx, proj_inRange hr]⟩
    obtain ⟨f, hf, hfr⟩ := hxr.slice (N - 1) (· + 1) fun k hk => by omega
    obtain ⟨b, hb, hbr⟩ := hxr.slice (N - 1) id fun k hk => by simp only [id]; omega
    refine ⟨{ f := f, b := b, a := ⟨order :: xs, fun _ => 0⟩, rho := (x.map fun x => ‖x‖ ^ 2).sum.map (· / (N : ℝ)), fin := ⟨xs, fun _ => True⟩ },
      ?_, hfr, hbr, ⟨rfl, fun i hi k hk => rfl⟩, ?_, rfl, fun i hi => ?_⟩
    · change burgInitNd x N order xs = _
      unfold burgInitNd
      rw [hf, hb]
      rfl
    · exact (hxr.map fun x => ‖x‖ ^ 2).sum.map (· / (N : ℝ))
    · simp
  | k + 1, hk => by
    obtain ⟨s, hs, hf, hb, ha, hrho, hfin⟩ := burg_inv x N order xs hx k (by omega)
    obtain ⟨p, e1, hp⟩ := hf.map2 hb fun x y : ℂ => x * star y
    have hnum := hp.sum.map (-2 * ·)
    obtain ⟨d, e2, hd⟩ := (hf.map fun x => ‖x‖ ^ 2).sum.map2 (hb.map fun x => ‖x‖ ^ 2).sum fun x y : ℝ => x + y
    obtain ⟨kk, e3, hkk⟩ := hnum.map2 hd fun (x : ℂ) (y : ℝ) => x / (y : ℂ)
    obtain ⟨rho, e4, hrho'⟩ := hkk.map2 hrho fun (x : ℂ) (r : ℝ) => (1 - ‖x‖ ^ 2) * r
    obtain ⟨fin, e5, hfin'⟩ := hd.map2 hfin fun (d : ℝ) (q : Prop) => q ∧ d ≠ 0
    obtain ⟨al, e6, hal⟩ := ha.slice k id fun j hj => by simp only [id]; omega
    obtain ⟨ar, e7, har⟩ := ha.slice k (fun j => k + 1 - 2 - j) fun j hj => by omega
    obtain ⟨c, e8, hc⟩ := Rows.mulNew hkk har fun x y : ℂ => x * star y
    obtain ⟨u, e9, hu⟩ := hal.map2 hc fun x y : ℂ => x + y
    obtain ⟨fr, e10, hfr⟩ := hf.slice (N - 1 - k - 1) (· + 1) fun j hj => by omega
    obtain ⟨br, e11, hbr⟩ := hb.slice (N - 1 - k - 1) (· + 1) fun j hj => by omega
    obtain ⟨kb, e12, hkb⟩ := Rows.mulNew hkk hbr fun x y : ℂ => x * y
    obtain ⟨f', e13, hf'⟩ := hfr.map2 hkb fun x y : ℂ => x + y
    obtain ⟨bl, e14, hbl⟩ := hb.slice (N - 1 - k - 1) id fun j hj => by simp only [id]; omega
    obtain ⟨fl, e15, hfl⟩ := hf.slice (N - 1 - k - 1) id fun j hj => by simp only [id]; omega
    obtain ⟨kf, e16, hkf⟩ := Rows.mulNew hkk hfl fun x y : ℂ => star x * y
    obtain ⟨b', e17, hb'⟩ := hbl.map2 hkf fun x y : ℂ => x + y
    have hden : ∀ i, burgDenom (burgState (fun k => x.at (k :: i)) N k)
        = ∑ j ∈ Finset.range (N - 1 - k), ‖(burgState (fun k => x.at (k :: i)) N k).f j‖ ^ 2
          + ∑ j ∈ Finset.range (N - 1 - k), ‖(burgState (fun k => x.at (k :: i)) N k).b j‖ ^ 2 := fun i => by
      rw [burgDenom, burg_n]
    have hrefl : ∀ i, burgRefl (burgState (fun k => x.at (k :: i)) N k)
        = -2 * (∑ j ∈ Finset.range (N - 1 - k), (burgState (fun k => x.at (k :: i)) N k).f j
          * star ((burgState (fun k => x.at (k :: i)) N k).b j))
          / ((∑ j ∈ Finset.range (N - 1 - k), ‖(burgState (fun k => x.at (k :: i)) N k).f j‖ ^ 2
          + ∑ j ∈ Finset.range (N - 1 - k), ‖(burgState (fun k => x.at (k :: i)) N k).b j‖ ^ 2 : ℝ) : ℂ) := fun i => by
      rw [burgRefl, hden, burg_n]
    refine ⟨{ f := f', b := b', rho := rho, fin := fin, a := ⟨s.a.dims, fun i => if i.headD 0 = k + 1 - 1 then kk.get i.tail
        else if i.headD 0 < k + 1 - 1 then u.get i else 0⟩ }, ?_, ?_, ?_, ?_, ?_, ?_⟩
    · change (burgLoopNd x N order xs k >>= burgStepNd (k + 1)) = _
      rw [hs]
      change burgStepNd (k + 1) s = _
      unfold burgStepNd
      simp only [hf.1, List.headD_cons, Nat.add_sub_cancel, e1, e2, bind, Except.bind]
      simp only [e3]
      simp only [e4, e5, e6, e7, e8]
      simp only [e9, e10, e11, e12]
      simp only [e13, e14, e15, e16]
      simp only [e17]
      rfl
    · rw [show N - 1 - (k + 1) = N - 1 - k - 1 by omega]
      refine ⟨hf'.1, fun i hi j hj => ?_⟩
      rw [hf'.2 i hi j hj]
      simp only [burgState, burgStep, hrefl]
    · rw [show N - 1 - (k + 1) = N - 1 - k - 1 by omega]
      refine ⟨hb'.1, fun i hi j hj => ?_⟩
      rw [hb'.2 i hi j hj]
      simp only [burgState, burgStep, hrefl, id]
    · refine ⟨ha.1, fun i hi j hj => ?_⟩
      simp only [burgState, burgStep, hrefl]
      by_cases h1 : j = k
      · subst h1
        simp only [List.headD_cons, List.tail_cons, Nat.add_sub_cancel, if_true]
        exact hkk.2 i hi
      · simp only [List.headD_cons, Nat.add_sub_cancel, if_neg h1]
        by_cases h2 : j < k
        · rw [if_pos h2, if_pos h2, hu.2 i hi j h2]
          rfl
        · rw [if_neg h2, if_neg h2]
    · refine ⟨hrho'.1, fun i hi => ?_⟩
      rw [hrho'.2 i hi]
      simp only [burgState, burgStep, hrefl]
    · refine ⟨hfin'.1, fun i hi => ?_⟩
      rw [hfin'.2 i hi]
      beta_reduce
      rw [← hden]
      refine propext ⟨fun ⟨h1, h2⟩ m hm => ?_, fun h => ⟨fun m hm => h m (by omega), h k (by omega)⟩⟩
      rcases Nat.lt_succ_iff_lt_or_eq.1 hm with hm | rfl
      · exact h1 m hm
      · exact h2

open scoped Classical in
/-- `pcoeff_burg` treats the leading axes of the series as a stack: coefficients and variance of every element are those of
the single series; a series for which the method breaks down does not affect the other ones. -/
theorem pcoeff_burg_stack (x : Nd ℂ) (N order : ℕ) (xs : List ℕ) (hx : x.dims = N :: xs) (ho : order ≠ 0) :
    ∃ a rho fin, pcoeffBurgNd x order = .ok (a, rho, fin) ∧ a.dims = order :: xs ∧ rho.dims = xs ∧
      ∀ i, InRange i xs → pcoeffBurg (fun k => x.at (k :: i)) N order
        = .ok (if fin.get i then some (fun k => a.get (k :: i), rho.get i) else none) := by
  obtain ⟨s, hs, -, -, ha, hrho, hfin⟩ := burg_inv x N order xs hx order le_rfl
  refine ⟨s.a, s.rho, s.fin, ?_, ha.1, hrho.1, fun i hi => ?_⟩
  · unfold pcoeffBurgNd
    rw [hx]
    simp only
    rw [if_neg ho, hs]
    rfl
  · unfold pcoeffBurg
    rw [if_neg ho, hfin.2 i hi, hrho.2 i hi]
    split_ifs
    · congr 3
      funext j
      exact (ha.2 i hi j j.2).symm
    · rfl

/-- Two series of three elements, order two. -/
example (x : Nd ℂ) (hx : x.dims = [3, 2]) : ∃ a rho fin, pcoeffBurgNd x 2 = .ok (a, rho, fin) ∧ a.dims = [2, 2] := by
  obtain ⟨a, rho, fin, h1, h2, -⟩ := pcoeff_burg_stack x 3 2 [2] hx (by norm_num)
  exact ⟨a, rho, fin, h1, h2⟩

/-! ### Companion matrices -/

private lemma size_pos {s : List ℕ} (h : 0 ∉ s) : 0 < s.prod := by
  rw [Nat.pos_iff_ne_zero, Ne, List.prod_eq_zero_iff]
  exact h

/-- `companion` treats the leading axes as a (non-empty) stack of polynomials with at least two coefficients. -/
theorem companion_stack_partial (a : Nd ℂ) (n : ℕ) (s : List ℕ) (ha : a.dims = (n + 1) :: s) (hn : 1 ≤ n) (hs : 0 ∉ s) :
    (∃ c, companionNd a = .ok c ∧ c.dims = n :: n :: s ∧ ∀ i, InRange i s →
      companion (a.get (0 :: i)) (fun j : Fin n => a.get ((j + 1) :: i)) = .ok (Matrix.of fun r q => c.get (q :: r :: i))) ∨
    ∃ i e, InRange i s ∧ companion (a.get (0 :: i)) (fun j : Fin n => a.get ((j + 1) :: i)) = .error e ∧ companionNd a = .error e := by
  have h1 : a.atleast1d = a := by
    unfold Nd.atleast1d
    rw [ha]
  have h2 : ¬ a.size < 2 := by
    rw [Nd.size, ha, List.prod_cons]
    have := size_pos hs
    have := Nat.le_mul_of_pos_right (n + 1) this
    omega
  unfold companionNd
  rw [h1]
  simp only
  rw [if_neg h2, ha]
  simp only
  rw [if_neg (by omega)]
  by_cases h3 : ∃ i, List.Forall₂ (· < ·) i s ∧ a.get (0 :: i) = 0
  · obtain ⟨i, hi, h0⟩ := h3
    refine .inr ⟨i, .valueError, hi, ?_, ?_⟩
    · unfold companion
      rw [if_neg (by omega), if_pos h0]
    · rw [if_pos ⟨i, hi, h0⟩]
  · rw [if_neg h3, if_neg (by omega)]
    refine .inl ⟨_, rfl, rfl, fun i hi => ?_⟩
    unfold companion
    rw [if_neg (by omega), if_neg fun h => h3 ⟨i, hi, h⟩]
    rfl

/-- For an empty stack `companion` raises `ValueError`. -/
theorem companion_empty_fails (a : Nd ℂ) (n : ℕ) (s : List ℕ) (ha : a.dims = n :: s) (hs : 0 ∈ s) :
    companionNd a = .error .valueError := by
  have h1 : a.atleast1d = a := by
    unfold Nd.atleast1d
    rw [ha]
  unfold companionNd
  rw [h1]
  simp only
  rw [if_pos]
  rw [Nd.size, ha, List.prod_cons, List.prod_eq_zero hs]
  norm_num

/-- For a stack of at least two (non-zero) constants `companion` raises `IndexError` instead of the documented `ValueError`,
which it raises for a single one. -/
theorem companion_short_fails (a : Nd ℂ) (m : ℕ) (ha : a.dims = [1, m]) (hm : 2 ≤ m) (h0 : ∀ i < m, a.get [0, i] ≠ 0) :
    companionNd a = .error .indexError ∧ ∀ i < m, companion (a.get [0, i]) (fun j : Fin 0 => j.elim0) = .error .valueError := by
  have h1 : a.atleast1d = a := by
    unfold Nd.atleast1d
    rw [ha]
  constructor
  · unfold companionNd
    rw [h1]
    simp only
    rw [if_neg, ha]
    · simp only
      rw [if_neg (by norm_num), if_neg]
      · rfl
      · rintro ⟨i, hi, h⟩
        cases hi with
        | cons h1 h2 =>
          cases h2
          exact h0 _ h1 h
    · rw [Nd.size, ha]
      simp only [List.prod_cons, List.prod_nil]
      omega
  · intro i _
    unfold companion
    rw [if_pos (by norm_num)]

end Gftool.Props
