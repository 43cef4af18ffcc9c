import Verif.Model.StackLaplace
import Verif.Props.StackFit

/-!
# Leading axes are stacks: Laplace transforms by Simpson's rule, Padé approximants and linear prediction (property C69)
-/

namespace Gftool.Props

open Model Spec Lemmas

/-- Normalise shapes. -/
local macro "bc_simp" : tactic =>
  `(tactic| simp only [bcastAll_cons, bcastAll_nil, bc_nil_right, bc_nil_left, bc_assoc, bc_comm, bc_left_comm, bc_self, bc_absorb])

private lemma bindM {α β : Type} {r : Except Err (Nd α)} {k : Nd α → Except Err (Nd β)} {s s' : Option (List ℕ)} {n m : ℕ}
    {F : List ℕ → α} {F' : List ℕ → β} (h : Rep r (s.map (n :: ·)) F) (hs : bc s s' = s')
    (hk : ∀ a, Rep (.ok a) (s.map (n :: ·)) F → Rep (k a) (s'.map (m :: ·)) F') : Rep (r >>= k) (s'.map (m :: ·)) F' :=
  h.bind (fun h => by
    rw [Option.map_eq_none_iff] at h ⊢
    rw [← hs, h, bc_none_left]) hk

private lemma bindMM {α β : Type} {r : Except Err (Nd α)} {k : Nd α → Except Err (Nd β)} {s s' : Option (List ℕ)} {n n' m : ℕ}
    {F : List ℕ → α} {F' : List ℕ → β} (h : Rep r ((s.map (n :: ·)).map (n' :: ·)) F) (hs : bc s s' = s')
    (hk : ∀ a, Rep (.ok a) ((s.map (n :: ·)).map (n' :: ·)) F → Rep (k a) (s'.map (m :: ·)) F') :
    Rep (r >>= k) (s'.map (m :: ·)) F' :=
  h.bind (fun h => by
    rw [Option.map_eq_none_iff, Option.map_eq_none_iff] at h
    rw [Option.map_eq_none_iff]
    rw [← hs, h, bc_none_left]) hk

private lemma phaseRep {z : Nd ℂ} {F : List ℕ → ℂ} {nz : ℕ} {zs : List ℕ} (hz : Rep (.ok z) ((some zs).map (nz :: ·)) F)
    (n : ℕ) (hn : n ≠ 1) (tt : ℕ → ℝ) :
    Rep (Nd.map2 phase z.newaxis ⟨[n, 1], fun i => tt (i.headD 0)⟩) (((some zs).map (nz :: ·)).map (n :: ·))
      fun i => phase (F i.tail) (tt (i.headD 0)) := by
  have ht : Rep (.ok (⟨[n, 1], fun i => tt (i.headD 0)⟩ : Nd ℝ)) (((some []).map (1 :: ·)).map (n :: ·))
      fun i => tt (i.headD 0) := by
    refine ⟨_, rfl, rfl, fun i => ?_⟩
    simp only [proj_cons, if_neg hn]
    rfl
  have := Rep.map2' hz.newaxis' ht phase
  rw [bc_map_cons (bdim_one_left _), bc_map_cons (bdim_one_right _), bc_nil_right] at this
  exact this

private lemma scaleRep {a : Nd ℂ} {n : ℕ} {s : List ℕ} {F : List ℕ → ℂ} (h : Rep (.ok a) ((some s).map (n :: ·)) F) (hn : n ≠ 1)
    (sel : ℕ → Prop) [DecidablePred sel] (c : ℂ) :
    Rep (a.scaleLast sel c) ((some s).map (n :: ·)) fun i => F i * if sel (i.headD 0) then c else 1 := by
  obtain ⟨a, h1, h2, h3⟩ := h
  cases h1
  refine ⟨⟨a.dims, fun i => if sel (i.headD 0) then a.get i * c else a.get i⟩, ?_, h2, fun i => ?_⟩
  · unfold Nd.scaleLast
    simp only at h2
    rw [h2]
    simp only
    congr 2
    funext i
    by_cases h : sel (i.headD 0)
    · rw [if_pos h, if_pos h]
    · rw [if_neg h, if_neg h]
  · simp only
    rw [proj_cons, if_neg hn, List.headD_cons, ← h3, proj_cons, if_neg hn]
    split_ifs <;> simp

private lemma weightRep (quad : Quad) {gfT : Nd ℂ} {n : ℕ} {s : List ℕ} (h : gfT.dims = n :: s) (hn : 2 ≤ n) (dt : ℝ) :
    Rep (quadWeightNd quad dt gfT) ((some s).map (n :: ·))
      fun i => quadWeight quad n dt (fun k => gfT.at (k :: i.tail)) (i.headD 0) := by
  have hn1 : n ≠ 1 := by omega
  have hat : ∀ i : List ℕ, gfT.at (i.headD 0 :: i.tail) = gfT.at i := fun i => by
    simp only [Nd.at, h, proj_cons, if_neg hn1, List.headD_cons, List.tail_cons]
  have hs : Rep (simpsWeightNd dt gfT) ((some s).map (n :: ·))
      fun i => simpsWeight n dt (fun k => gfT.at (k :: i.tail)) false (i.headD 0) := by
    unfold simpsWeightNd
    refine (bindM (m := n) (scaleRep ((Rep.ofCons h).map' fun g => (dt : ℂ) / 3 * g) hn1
      (fun k => 1 ≤ k ∧ k % 2 = 1) 4) (by bc_simp) fun a ha =>
      scaleRep ha hn1 (fun k => 2 ≤ k ∧ k % 2 = 0) 2).congr rfl fun i => ?_
    simp only [simpsWeight, Bool.false_eq_true, not_false_eq_true, if_true]
    rw [hat]
  cases quad with
  | trapz =>
    unfold quadWeightNd trapzWeightNd
    simp only
    rw [if_neg (by simp only [Nd.map, h, List.headD_cons]; omega)]
    refine (scaleRep ((Rep.ofCons h).map' fun g => (dt : ℂ) * g) hn1 (· = 0) 0.5).congr rfl fun i => ?_
    simp only [quadWeight, trapzWeight, Bool.false_eq_true, false_and, if_false, mul_one]
    rw [hat]
  | simps => exact hs
  | other => exact hs

/-- `tt2z_simps`: times of `gf_t` and frequencies of `z` are the last axes, everything else is a stack. -/
theorem tt2z_simps_stack (n : ℕ) (hn : 2 ≤ n) (tt : ℕ → ℝ) (gfT z : Nd ℂ) (gs zs : List ℕ) (nz : ℕ)
    (hg : gfT.dims = n :: gs) (hz : z.dims = nz :: zs) :
    StackedOk (tt2zSimpsNd n tt gfT z) ((bcastAll [gs, zs]).map (nz :: ·))
      fun i => tt2zSimps n tt (fun k => gfT.at (k :: i.tail)) (z.at i) := by
  have hn1 : n ≠ 1 := by omega
  refine Rep.stackedOk' (F := fun i => ∑ k ∈ Finset.range n, phase (z.at i) (tt k)
    * simpsWeight n (tt 1 - tt 0) (fun k => gfT.at (k :: i.tail)) false k) ?_ ?_
  · unfold tt2zSimpsNd
    rw [if_neg (by omega)]
    refine bindM (weightRep .simps hg hn (tt 1 - tt 0)) (by bc_simp) fun c hc => ?_
    refine bindMM (phaseRep (Rep.ofCons hz) n hn1 tt) (by bc_simp) fun ph hph => ?_
    exact (Rep.matvec' hph hc).congr (by bc_simp) fun i => rfl
  · intro i
    unfold tt2zSimps
    rw [if_neg (by omega)]

/-! ### Loops over the stack -/

lemma mem_allIdx : ∀ {s i : List ℕ}, i ∈ allIdx s ↔ InRange i s
  | [], i => by simp [allIdx, InRange]
  | n :: s, i => by
    simp only [allIdx, List.mem_flatMap, List.mem_map, List.mem_range, mem_allIdx (s := s), InRange]
    constructor
    · rintro ⟨j, hj, k, hk, rfl⟩
      exact List.Forall₂.cons hk hj
    · intro h
      cases h with
      | cons h1 h2 => exact ⟨_, h2, _, h1, rfl⟩

lemma firstErr_none {γ : Type} {F : List ℕ → Except Err γ} {s : List ℕ} (h : firstErr F s = none) (i : List ℕ)
    (hi : InRange i s) : ∃ r, F i = .ok r := by
  unfold firstErr at h
  rw [List.findSome?_eq_none_iff] at h
  have := h i (mem_allIdx.2 hi)
  cases hF : F i with
  | ok r => exact ⟨r, rfl⟩
  | error e => simp [hF, errOf] at this

lemma firstErr_some {γ : Type} {F : List ℕ → Except Err γ} {s : List ℕ} {e : Err} (h : firstErr F s = some e) :
    ∃ i, InRange i s ∧ F i = .error e := by
  unfold firstErr at h
  obtain ⟨i, hi, h⟩ := List.exists_of_findSome?_eq_some h
  refine ⟨i, mem_allIdx.1 hi, ?_⟩
  cases hF : F i with
  | ok r => simp [hF, errOf] at h
  | error e' =>
    simp only [hF, errOf, Option.some.injEq] at h
    rw [h]

private lemma vectorize2_stack {α β γ : Type} [Inhabited γ] (f : ℕ → (ℕ → α) → ℕ → (ℕ → β) → Except Err (ℕ → γ)) (y : Nd α) (c : Nd β)
    (n l : ℕ) (ys cs : List ℕ) (hy : y.dims = n :: ys) (hc : c.dims = l :: cs) :
    match bcast ys cs with
    | none => Nd.vectorize2 f y c = .error .valueError
    | some t => (∃ a, Nd.vectorize2 f y c = .ok a ∧ a.dims = n :: t ∧ ∀ i, InRange i t →
          f n (fun k => y.at (k :: i)) l (fun k => c.at (k :: i)) = .ok fun k => a.get (k :: i)) ∨
        ∃ i e, InRange i t ∧ f n (fun k => y.at (k :: i)) l (fun k => c.at (k :: i)) = .error e ∧ Nd.vectorize2 f y c = .error e := by
  unfold Nd.vectorize2
  rw [hy, hc]
  simp only
  cases hb : bcast ys cs with
  | none => rfl
  | some t =>
    simp only
    cases he : firstErr (fun i : List ℕ => f n (fun k => y.at (k :: i)) l (fun k => c.at (k :: i))) t with
    | none =>
      refine .inl ⟨_, rfl, rfl, fun i hi => ?_⟩
      obtain ⟨r, hr⟩ := firstErr_none he i hi
      simp only [List.tail_cons, List.headD_cons, hr]
    | some e =>
      obtain ⟨i, hi, h⟩ := firstErr_some he
      exact .inr ⟨i, e, hi, h, rfl⟩

private lemma weight_ok (quad : Quad) {gfT : Nd ℂ} {n : ℕ} {s : List ℕ} (h : gfT.dims = n :: s) (hn : 2 ≤ n) (dt : ℝ) :
    ∃ c, quadWeightNd quad dt gfT = .ok c ∧ c.dims = n :: s ∧
      ∀ i, (fun k => c.at (k :: i)) = quadWeight quad n dt fun k => gfT.at (k :: i) := by
  obtain ⟨c, h1, h2, h3⟩ := weightRep quad h hn dt
  refine ⟨c, h1, h2, fun i => funext fun k => ?_⟩
  simp only [Nd.at, h2]
  exact h3 (k :: i)

/-- `tt2z_pade` treats the leading axes of `gf_t` and `z` as a stack.  It fails if for one of the data sets it fails. -/
theorem tt2z_pade_stack (pade : ℕ → (ℕ → ℂ) → ℕ → ℕ → Except Err RatPol) (n : ℕ) (hn : 2 ≤ n) (tt : ℕ → ℝ) (htt : equidistant n tt)
    (h0 : tt 0 = 0) (gfT z : Nd ℂ) (gs zs : List ℕ) (nz : ℕ) (hg : gfT.dims = n :: gs) (hz : z.dims = nz :: zs) (degree : ℤ)
    (quad : Quad) (hq : quad ≠ .other) :
    StackedTry (tt2zPadeNd pade n tt gfT z degree quad) nz (bcastAll [gs, zs])
      (fun i w => tt2zPade pade n tt (fun k => gfT.at (k :: i)) w degree quad) (fun _ => True) fun i k => z.at (k :: i) := by
  obtain ⟨c, hc, hcd, hcat⟩ := weight_ok quad hg hn (tt 1 - tt 0)
  have hy : (z.map fun z => phase z (tt 1 - tt 0)).dims = nz :: zs := hz
  have hyat : ∀ i, (z.map fun z => phase z (tt 1 - tt 0)).at i = phase (z.at i) (tt 1 - tt 0) := fun i => rfl
  have key := vectorize2_stack (padeVal pade (((n : ℤ) - (degree + 1) - 1) / 2) (degree + 1)) _ c nz n zs gs hy hcd
  have hr : tt2zPadeNd pade n tt gfT z degree quad = Nd.vectorize2 (padeVal pade (((n : ℤ) - (degree + 1) - 1) / 2) (degree + 1))
      (z.map fun z => phase z (tt 1 - tt 0)) c := by
    unfold tt2zPadeNd
    simp only
    rw [if_neg (by omega), if_neg (by simpa using htt), if_neg hq, if_neg (by simpa using h0), hg]
    simp only [ne_eq, not_true_eq_false, if_false, hc]
    rfl
  rw [← hr] at key
  have hsingle : ∀ i w, tt2zPade pade n tt (fun k => gfT.at (k :: i)) w degree quad
      = (padeVal pade (((n : ℤ) - (degree + 1) - 1) / 2) (degree + 1) 1 (fun _ => phase w (tt 1 - tt 0)) n fun k => c.at (k :: i)).map
        (· 0) := by
    intro i w
    unfold tt2zPade padeVal
    simp only
    rw [if_neg (by omega), if_neg (by simpa using htt), if_neg hq, if_neg (by simpa using h0), hcat]
    split_ifs
    · rfl
    · split <;> simp_all [Except.map]
  rw [show bcastAll [gs, zs] = bcast zs gs by rw [bcastAll_cons, bcastAll_one, bc_some, bcast_comm]]
  cases hb : bcast zs gs with
  | none =>
    rw [hb] at key
    exact key
  | some t =>
    rw [hb] at key
    rcases key with ⟨a, h1, h2, h3⟩ | ⟨i, e, hi, h1, h2⟩
    · refine .inl ⟨a, h1, h2, fun i hi k hk => ?_⟩
      have := h3 i hi
      simp only [hyat] at this
      simp only [hsingle]
      unfold padeVal at this ⊢
      split_ifs at this ⊢
      split at this
      · cases this
      · next r hr =>
        simp only [Except.ok.injEq] at this
        simp only [Except.map, Except.ok.injEq]
        exact congrFun this k
    · refine .inr ⟨i, e, hi, fun w _ => ?_, h2⟩
      beta_reduce
      rw [hsingle]
      unfold padeVal at h1 ⊢
      split_ifs at h1 ⊢ with h
      · exact congrArg (Except.map _) h1
      · split at h1
        · next e' he =>
          simp only [Except.error.injEq] at h1
          simp [Except.map, h1]
        · cases h1

private lemma hermEval_ok (h : Herm2) (pade : RatPol) (z : ℂ) : ∃ v, hermite2Eval h pade false z = .ok v := by
  unfold hermite2Eval evalBranches
  simp only [Bool.false_eq_true, false_and, if_false]
  split_ifs <;> simp

/-- `tt2z_herm2` treats the leading axes of `gf_t` and `z` as a stack.  It fails if for one of the data sets it fails. -/
theorem tt2z_herm2_stack (herm2 : ℕ → (ℕ → ℂ) → ℕ → ℕ → ℕ → Except Err (Herm2 × RatPol)) (n : ℕ) (hn : 2 ≤ n) (tt : ℕ → ℝ)
    (htt : equidistant n tt) (h0 : tt 0 = 0) (gfT z : Nd ℂ) (gs zs : List ℕ) (nz : ℕ) (hg : gfT.dims = n :: gs)
    (hz : z.dims = nz :: zs) (hpos : ∀ i, InRange i z.dims → 0 < (z.get i).im) (quad : Quad) (hq : quad ≠ .other) :
    StackedTry (tt2zHerm2Nd herm2 n tt gfT z quad) nz (bcastAll [gs, zs])
      (fun i w => tt2zHerm2 herm2 n tt (fun k => gfT.at (k :: i)) w quad) (fun w => 0 < w.im) fun i k => z.at (k :: i) := by
  obtain ⟨c, hc, hcd, hcat⟩ := weight_ok quad hg hn (tt 1 - tt 0)
  have hy : (z.map fun z => phase z (tt 1 - tt 0)).dims = nz :: zs := hz
  have hyat : ∀ i, (z.map fun z => phase z (tt 1 - tt 0)).at i = phase (z.at i) (tt 1 - tt 0) := fun i => rfl
  have key := vectorize2_stack (hermVal herm2 ((n - 2) / 3)) _ c nz n zs gs hy hcd
  have hr : tt2zHerm2Nd herm2 n tt gfT z quad = Nd.vectorize2 (hermVal herm2 ((n - 2) / 3))
      (z.map fun z => phase z (tt 1 - tt 0)) c := by
    unfold tt2zHerm2Nd
    rw [if_neg (by omega), if_neg (by simpa using htt), if_neg hq, if_neg (by simpa using h0), if_neg (by
      rw [not_not]
      exact hpos)]
    rw [hc]
    change Nd.vectorize2 (hermVal herm2 ((c.dims.headD 0 - 2) / 3)) _ c = _
    rw [hcd]
    rfl
  rw [← hr] at key
  have hsingle : ∀ i w, 0 < w.im → tt2zHerm2 herm2 n tt (fun k => gfT.at (k :: i)) w quad
      = (hermVal herm2 ((n - 2) / 3) 1 (fun _ => phase w (tt 1 - tt 0)) n fun k => c.at (k :: i)).map (· 0) := by
    intro i w hw
    unfold tt2zHerm2 hermVal
    rw [if_neg (by omega), if_neg (by simpa using htt), if_neg hq, if_neg (by simpa using h0), if_neg (by simpa using hw), hcat]
    simp only
    split
    · next h => simp only [h, Except.map]
    · next h p h' =>
      obtain ⟨v, hv⟩ := hermEval_ok h p (phase w (tt 1 - tt 0))
      simp only [h', Except.map, hv]
  rw [show bcastAll [gs, zs] = bcast zs gs by rw [bcastAll_cons, bcastAll_one, bc_some, bcast_comm]]
  cases hb : bcast zs gs with
  | none =>
    rw [hb] at key
    exact key
  | some t =>
    rw [hb] at key
    rcases key with ⟨a, h1, h2, h3⟩ | ⟨i, e, hi, h1, h2⟩
    · refine .inl ⟨a, h1, h2, fun i hi k hk => ?_⟩
      have := h3 i hi
      simp only [hyat] at this
      have hzk : 0 < (z.at (k :: i)).im := by
        refine hpos _ ?_
        rw [hz, proj_cons]
        refine List.Forall₂.cons ?_ (proj_mem_left hb hi)
        rw [List.headD_cons]
        split_ifs <;> omega
      beta_reduce
      rw [hsingle _ _ hzk]
      unfold hermVal at this ⊢
      simp only at this ⊢
      split at this
      · cases this
      · next h p hr =>
        simp only [Except.ok.injEq] at this
        simp only [Except.map, Except.ok.injEq]
        exact congrFun this k
    · refine .inr ⟨i, e, hi, fun w hw => ?_, h2⟩
      beta_reduce
      rw [hsingle _ _ hw]
      unfold hermVal at h1 ⊢
      split at h1
      · next e' he =>
        simp only [Except.error.injEq] at h1
        simp [Except.map, h1]
      · cases h1

/-! ### Linear prediction -/

lemma allIdx_ne_nil : ∀ {s : List ℕ}, 0 ∉ s → allIdx s ≠ []
  | [], _ => by simp [allIdx]
  | n :: s, h => by
    simp only [List.mem_cons, not_or] at h
    obtain ⟨i, hi⟩ := List.exists_mem_of_ne_nil _ (allIdx_ne_nil h.2)
    refine List.ne_nil_of_mem (a := 0 :: i) (mem_allIdx.2 (List.Forall₂.cons (by omega) (mem_allIdx.1 hi)))

lemma allIdx_nil {s : List ℕ} (h : 0 ∈ s) : allIdx s = [] := by
  induction s with
  | nil => simp at h
  | cons n s ih =>
    rcases List.mem_cons.1 h with h | h
    · simp [allIdx, ← h]
    · simp [allIdx, ih h]

private lemma covar_all (ext : LinalgExt ℂ) (x : Nd ℂ) (N order : ℕ) (xs : List ℕ) (hx : x.dims = N :: xs)
    (h1 : 1 ≤ order) (h2 : order < N) (hs : 0 ∉ xs) :
    ∃ a rho, pcoeffCovarNd ext x order = .ok (a, rho) ∧ a.dims = order :: xs ∧ rho.dims = xs ∧
      ∀ i, pcoeffCovar ext (fun k => x.at (k :: i)) N order = .ok (fun k => a.get (k :: i), rho.get i) := by
  have hok : ∀ i, ∃ r, pcoeffCovar ext (fun k => x.at (k :: i)) N order = .ok r := fun i => by
    unfold pcoeffCovar
    rw [if_neg (by omega), if_neg (by omega)]
    exact ⟨_, rfl⟩
  have hf : firstErr (fun i : List ℕ => pcoeffCovar ext (fun k => x.at (k :: i)) N order) xs = none := by
    cases he : firstErr (fun i : List ℕ => pcoeffCovar ext (fun k => x.at (k :: i)) N order) xs with
    | none => rfl
    | some e =>
      obtain ⟨i, _, hi⟩ := firstErr_some he
      obtain ⟨r, hr⟩ := hok i
      rw [hr] at hi
      cases hi
  have hall := allIdx_ne_nil hs
  unfold pcoeffCovarNd
  rw [hx]
  simp only
  rw [if_neg (by omega), if_neg hall, hf]
  refine ⟨_, _, rfl, rfl, rfl, fun i => ?_⟩
  obtain ⟨⟨a, e⟩, hr⟩ := hok i
  simp only [hr, List.tail_cons]
  congr 2
  funext k
  have hk : (((k : ℕ) :: i).headD 0) < order := k.2
  rw [dif_pos hk]
  rfl

/-- `pcoeff_covar` treats the leading axes of the series as a (non-empty) stack: coefficients and errors are those of the single
series. -/
theorem pcoeff_covar_stack_partial (ext : LinalgExt ℂ) (x : Nd ℂ) (N order : ℕ) (xs : List ℕ) (hx : x.dims = N :: xs)
    (h1 : 1 ≤ order) (h2 : order < N) (hs : 0 ∉ xs) :
    ∃ a rho, pcoeffCovarNd ext x order = .ok (a, rho) ∧ a.dims = order :: xs ∧ rho.dims = xs ∧
      ∀ i, InRange i xs → pcoeffCovar ext (fun k => x.at (k :: i)) N order = .ok (fun k => a.get (k :: i), rho.get i) := by
  obtain ⟨a, rho, h1, h2, h3, h4⟩ := covar_all ext x N order xs hx h1 h2 hs
  exact ⟨a, rho, h1, h2, h3, fun i _ => h4 i⟩

/-- For an empty stack `pcoeff_covar` raises `ValueError` (`np.vectorize` without `otypes`), although there is nothing to do. -/
theorem pcoeff_covar_empty_fails (ext : LinalgExt ℂ) (x : Nd ℂ) (N order : ℕ) (xs : List ℕ) (hx : x.dims = N :: xs) (hs : 0 ∈ xs) :
    pcoeffCovarNd ext x order = .error .valueError := by
  unfold pcoeffCovarNd
  rw [hx]
  simp only
  rw [if_pos (allIdx_nil hs)]
  split_ifs <;> rfl

private lemma stackAllRep (n : ℕ) (f : ℕ → Except Err (Nd ℂ)) (s : List ℕ) (F : ℕ → List ℕ → ℂ)
    (h : ∀ l, Rep (f l) (some s) (F l)) :
    Rep (Nd.stackAll n f) ((some s).map (n :: ·)) fun i => F (if n = 1 then 0 else i.headD 0) i.tail := by
  choose a h1 h2 h3 using h
  unfold Nd.stackAll
  rw [show (List.range n).findSome? (fun k => errOf (f k)) = none by
      rw [List.findSome?_eq_none_iff]
      intro k _
      rw [h1]
      rfl]
  simp only [h1]
  rw [if_pos (by
    rintro k _ b hb
    rw [h1, Except.ok.injEq] at hb
    rw [← hb]
    rw [h2, h2])]
  refine ⟨_, rfl, by simp only [h2], fun i => ?_⟩
  simp only
  rw [proj_cons, List.headD_cons, List.tail_cons, h3]

/-- `tt2z_lpz` treats the leading axes of `gf_t` and `z` as a stack, `gf_t` must not be empty. -/
theorem tt2z_lpz_stack_partial (ext : LinalgExt ℂ) (n : ℕ) (hn : 2 ≤ n) (tt : ℕ → ℝ) (htt : equidistant n tt)
    (gfT z : Nd ℂ) (gs zs : List ℕ) (nz : ℕ) (hg : gfT.dims = n :: gs) (hz : z.dims = nz :: zs) (hs : 0 ∉ gs)
    (order : Option ℕ) (h1 : 1 ≤ order.getD (n / 2)) (h2 : order.getD (n / 2) < n) (quad : Quad) (hq : quad ≠ .other) :
    StackedOk (tt2zLpzNd ext n tt gfT z order quad) ((bcastAll [gs, zs]).map (nz :: ·))
      fun i => tt2zLpz ext n tt (fun k => gfT.at (k :: i.tail)) (z.at i) order quad := by
  set p := order.getD (n / 2) with hp
  have hn1 : n ≠ 1 := by omega
  have hp1 : p + 1 ≠ 1 := by omega
  obtain ⟨c, hc, hcd, hcat⟩ := weight_ok quad hg hn (tt 1 - tt 0)
  obtain ⟨a, rho, hpc, had, -, hrow⟩ := covar_all ext c n p gs hcd h1 h2 hs
  have hcr := Rep.ofCons hcd
  set A : List ℕ → ℂ := fun i => if i.headD 0 = 0 then 1 else a.get ((i.headD 0 - 1) :: proj gs i.tail) with hA
  refine Rep.stackedOk' (F := fun i =>
    (∑ l ∈ Finset.range p, phase (z.at i) (tt l) * ∑ j ∈ Finset.range (l + 1), A (j :: i.tail) * c.at ((l - j) :: i.tail))
      / ∑ l ∈ Finset.range (p + 1), phase (z.at i) (tt l) * A (l :: i.tail)) ?_ ?_
  · have haa : Rep (Nd.prependOne c a) ((some gs).map ((p + 1) :: ·)) A := by
      unfold Nd.prependOne
      rw [hcd, had]
      simp only
      rw [if_pos trivial]
      refine ⟨_, rfl, rfl, fun i => ?_⟩
      simp only [proj_cons, if_neg hp1, List.headD_cons, List.tail_cons, hA]
    unfold tt2zLpzNd
    rw [if_neg (by omega), if_neg (by simpa using htt)]
    simp only
    rw [if_neg hq, hc, ← hp]
    change Rep ((pcoeffCovarNd ext c p) >>= _) _ _
    rw [hpc]
    refine bindM haa (by bc_simp) fun aa haa => ?_
    have hconvo := stackAllRep p (fun l => do
        let a ← aa.slice (l + 1) id
        let c ← c.slice (l + 1) fun k => l - k
        let q ← Nd.map2 (· * ·) a c
        return q.sum) gs (fun l i => ∑ j ∈ Finset.range (l + 1), A (j :: i) * c.at ((l - j) :: i)) (by
      intro l
      refine Rep.bindC (haa.slice' hp1 (l + 1) id) (by bc_simp) fun x hx => ?_
      refine Rep.bindC (hcr.slice' hn1 (l + 1) fun k => l - k) (by bc_simp) fun y hy => ?_
      have := Rep.map2' hx hy fun x y : ℂ => x * y
      rw [bc_map_cons (bdim_self _), bc_self] at this
      refine Rep.bindC this (by bc_simp) fun q hq => ?_
      refine hq.sum'.congr rfl fun i => Finset.sum_congr rfl fun j hj => ?_
      simp only [List.headD_cons, List.tail_cons, id]
      have hj' : (if l + 1 = 1 then 0 else j) = j := by
        split_ifs with h
        · have := Finset.mem_range.1 hj
          omega
        · rfl
      rw [hj'])
    refine bindM hconvo (by bc_simp) fun convo hconvo => ?_
    rw [show min (p + 1) n = p + 1 by omega]
    refine bindMM (phaseRep (Rep.ofCons hz) (p + 1) hp1 tt) (by bc_simp) fun ph hph => ?_
    refine bindMM (hph.slice' hp1 p id) (by bc_simp) fun phn hphn => ?_
    refine bindM (Rep.matvec' hphn hconvo) (by bc_simp) fun nu hnu => ?_
    refine bindM (Rep.matvec' hph haa) (by bc_simp) fun de hde => ?_
    have := Rep.map2' hnu hde fun x y : ℂ => x / y
    rw [bc_map_cons (bdim_self _), bc_self] at this
    refine this.congr (by bc_simp) fun i => ?_
    simp only [List.headD_cons, List.tail_cons, id]
    congr 1
    refine Finset.sum_congr rfl fun k hk => ?_
    have hk' : (if p = 1 then 0 else k) = k := by
      split_ifs with h
      · have := Finset.mem_range.1 hk
        omega
      · rfl
    rw [hk']
  · intro i
    unfold tt2zLpz
    rw [if_neg (by omega), if_neg (by simpa using htt)]
    simp only
    rw [if_neg hq, ← hp, ← hcat]
    have hcp : (fun k => c.at (k :: i.tail)) = fun k => c.at (k :: proj gs i.tail) := by
      funext k
      simp only [Nd.at, hcd, proj_cons, if_neg hn1, List.headD_cons, List.tail_cons, proj_self]
    rw [hcp, hrow]
    simp only
    have hAj : ∀ j, j < p + 1 → (if j = 0 then 1 else if h : j - 1 < p then a.get ((j - 1) :: proj gs i.tail) else 0)
        = A (j :: i.tail) := by
      intro j hj
      by_cases h0 : j = 0
      · rw [if_pos h0]
        exact (if_pos h0).symm
      · rw [if_neg h0, dif_pos (by omega)]
        exact (if_neg h0).symm
    congr 2
    · refine Finset.sum_congr rfl fun l hl => ?_
      rw [Finset.mem_range] at hl
      congr 1
      refine Finset.sum_congr rfl fun j hj => ?_
      rw [Finset.mem_range] at hj
      rw [hAj j (by omega)]
      exact congrArg _ (congrFun hcp _).symm
    · refine Finset.sum_congr rfl fun l hl => ?_
      rw [hAj l (Finset.mem_range.1 hl)]

/-- `tt2z` treats leading axes as a stack, if the function `laplace` does; also for empty arrays. -/
theorem tt2z_stack (n : ℕ) (tt : ℕ → ℝ) (gfT z : Nd ℂ) (gs zs : List ℕ) (nz : ℕ) (hg : gfT.dims = n :: gs) (hz : z.dims = nz :: zs)
    (hsign : ((∀ k < n, 0 ≤ tt k) ∧ ∀ i, InRange i z.dims → 0 ≤ (z.get i).im) ∨
      ((∀ k < n, tt k ≤ 0) ∧ ∀ i, InRange i z.dims → (z.get i).im ≤ 0))
    (laplace : ℕ → (ℕ → ℝ) → Nd ℂ → Nd ℂ → Except Err (Nd (Option ℂ))) (L : ℕ → (ℕ → ℝ) → (ℕ → ℂ) → ℂ → Except Err ℂ)
    (hL : n ≠ 0 → nz ≠ 0 → 0 ∉ gs → 0 ∉ zs → StackedOk (laplace n tt gfT z) ((bcastAll [gs, zs]).map (nz :: ·))
      fun i => (L n tt (fun k => gfT.at (k :: i.tail)) (z.at i)).map some) :
    StackedOk (tt2zNd n tt gfT z laplace) ((bcastAll [gs, zs]).map (nz :: ·))
      fun i => (tt2z n tt (fun k => gfT.at (k :: i.tail)) (fun _ : Fin 1 => z.at i) L).map (· 0) := by
  have hbc : bcastAll [gs, zs] = bcast zs gs := by rw [bcastAll_cons, bcastAll_one, bc_some, bcast_comm]
  have hin : ∀ t, bcast zs gs = some t → ∀ i, InRange i (nz :: t) → InRange (proj z.dims i) z.dims := by
    intro t ht i hi
    cases hi with
    | cons h1 h2 =>
      rw [hz, proj_cons]
      refine List.Forall₂.cons ?_ (proj_mem_left ht h2)
      rw [List.headD_cons]
      split_ifs <;> omega
  have hs1 : ∀ t, bcast zs gs = some t → ∀ i, InRange i (nz :: t) →
      ((∀ k < n, 0 ≤ tt k) ∧ ∀ _ : Fin 1, 0 ≤ (z.at i).im) ∨ ((∀ k < n, tt k ≤ 0) ∧ ∀ _ : Fin 1, (z.at i).im ≤ 0) := by
    intro t ht i hi
    have := hin t ht i hi
    rcases hsign with ⟨h1, h2⟩ | ⟨h1, h2⟩
    · exact .inl ⟨h1, fun _ => h2 _ this⟩
    · exact .inr ⟨h1, fun _ => h2 _ this⟩
  unfold tt2zNd
  simp only
  rw [if_neg (by rw [not_not]; exact hsign), hbc]
  by_cases he : z.size = 0 ∨ gfT.size = 0
  · rw [if_pos he, hz, hg, List.tail_cons, bcast_cons, bdim_one_right, Option.bind_some]
    cases hb : bcast zs gs with
    | none => rfl
    | some t =>
      refine ⟨_, rfl, rfl, fun i hi => ?_⟩
      unfold tt2z
      simp only
      rw [if_neg (by rw [not_not]; exact hs1 t hb i hi), if_pos]
      · rfl
      · right
        by_contra h0
        -- the result has an element, so only the times can be empty
        have hzr := hin t hb i hi
        cases hi with
        | cons h1 h2 =>
          have hgr := proj_mem_left (by rw [bcast_comm, hb] : bcast gs zs = some t) h2
          have pos : ∀ {d j : List ℕ}, InRange j d → d.prod ≠ 0 := by
            intro d j h
            rw [Ne, List.prod_eq_zero_iff]
            intro h0
            have : allIdx d = [] := allIdx_nil h0
            have hm := mem_allIdx.2 h
            rw [this] at hm
            cases hm
          rcases he with he | he
          · exact pos hzr he
          · rw [Nd.size, hg, List.prod_cons] at he
            rcases mul_eq_zero.1 he with he | he
            · exact h0 he
            · exact pos hgr he
  · rw [if_neg he]
    rw [not_or, Nd.size, Nd.size, hz, hg, List.prod_cons, List.prod_cons, mul_eq_zero, mul_eq_zero, not_or, not_or,
      List.prod_eq_zero_iff, List.prod_eq_zero_iff] at he
    obtain ⟨⟨hnz, hzs⟩, hn0, hgs⟩ := he
    have h := hL hn0 hnz hgs hzs
    rw [hbc] at h
    cases hb : bcast zs gs with
    | none =>
      rw [hb] at h
      exact h
    | some t =>
      rw [hb] at h
      obtain ⟨a, h1, h2, h3⟩ := h
      refine ⟨a, h1, h2, fun i hi => ?_⟩
      have h3 := h3 i hi
      beta_reduce at h3
      unfold tt2z
      simp only
      rw [if_neg (by rw [not_not]; exact hs1 t hb i hi), if_neg (by simpa using hn0)]
      cases hl : L n tt (fun k => gfT.at (k :: i.tail)) (z.at i) with
      | error e =>
        rw [hl] at h3
        cases h3
      | ok v =>
        rw [hl] at h3
        exact h3

/-- Two data sets with three times each and five frequencies: the driver with Simpson's rule. -/
example (gfT z : Nd ℂ) (hg : gfT.dims = [3, 2]) (hz : z.dims = [5]) (hpos : ∀ i, InRange i z.dims → 0 ≤ (z.get i).im) :
    ∃ r, tt2zNd 3 (fun k => (k : ℝ)) gfT z (fun n tt g z => (tt2zSimpsNd n tt g z).map (·.map some)) = .ok r ∧ r.dims = [5, 2] := by
  have h := tt2z_stack 3 (fun k => (k : ℝ)) gfT z [2] [] 5 hg hz (.inl ⟨fun k _ => Nat.cast_nonneg k, hpos⟩)
    (fun n tt g z => (tt2zSimpsNd n tt g z).map (·.map some)) tt2zSimps (fun _ _ _ _ => by
      obtain ⟨a, h1, h2, h3⟩ := tt2z_simps_stack 3 (by norm_num) (fun k => (k : ℝ)) gfT z [2] [] 5 hg hz
      refine ⟨a.map some, by simp only [h1]; rfl, h2, fun i hi => ?_⟩
      exact congrArg (Except.map some) (h3 i hi))
  obtain ⟨r, h1, h2, -⟩ := h
  exact ⟨r, h1, h2⟩

/-- Equidistant times starting at zero, as needed by the Padé transformations and the linear prediction; the default order fits. -/
example : equidistant 4 (fun k => (k : ℝ) / 2) ∧ ((0 : ℕ) : ℝ) / 2 = 0 ∧ 1 ≤ (none : Option ℕ).getD (4 / 2) ∧
    (none : Option ℕ).getD (4 / 2) < 4 ∧ 0 ∉ [2, 3] := by
  refine ⟨fun k _ => ?_, by simp, by decide, by decide, by decide⟩
  push_cast
  rw [show ((k : ℝ) + 1) / 2 - k / 2 - (1 / 2 - 0 / 2) = 0 by ring, abs_zero]
  positivity

/-- With the wrong signs `tt2z` raises `ValueError` for the whole stack. -/
theorem tt2z_stack_sign (n : ℕ) (tt : ℕ → ℝ) (gfT z : Nd ℂ) (laplace : ℕ → (ℕ → ℝ) → Nd ℂ → Nd ℂ → Except Err (Nd (Option ℂ)))
    (h1 : (∃ k < n, tt k < 0) ∨ ∃ i, InRange i z.dims ∧ (z.get i).im < 0)
    (h2 : (∃ k < n, 0 < tt k) ∨ ∃ i, InRange i z.dims ∧ 0 < (z.get i).im) : tt2zNd n tt gfT z laplace = .error .valueError := by
  unfold tt2zNd
  simp only
  rw [if_pos]
  rintro (⟨ha, hb⟩ | ⟨ha, hb⟩)
  · rcases h1 with ⟨k, hk, h⟩ | ⟨i, hi, h⟩
    · exact absurd (ha k hk) (not_le.2 h)
    · exact absurd (hb i hi) (not_le.2 h)
  · rcases h2 with ⟨k, hk, h⟩ | ⟨i, hi, h⟩
    · exact absurd (ha k hk) (not_le.2 h)
    · exact absurd (hb i hi) (not_le.2 h)

end Gftool.Props
