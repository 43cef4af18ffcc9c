import Verif.Spec.PadeStack
import Verif.Lemmas.Nd
import Verif.Props.Pade

/-!
# Padé continuation of stacks of functions (property C70)
-/

namespace Gftool.Props

open Model Spec Lemmas

private lemma map2_ok {α β γ : Type} (f : α → β → γ) (a : Nd α) (b : Nd β) {s : List ℕ} (h : bcast a.dims b.dims = some s) :
    Nd.map2 f a b = .ok ⟨s, fun i => f (a.at i) (b.at i)⟩ := by
  unfold Nd.map2
  rw [h]

private lemma at_get {α : Type} (a : Nd α) {s i : List ℕ} (h : a.dims = s) (hi : InRange i s) : a.at i = a.get i := by
  unfold Nd.at
  rw [h, proj_inRange hi]

private lemma mk_at {α : Type} {s i : List ℕ} (hi : InRange i s) (f : List ℕ → α) : (⟨s, f⟩ : Nd α).at i = f i :=
  at_get _ rfl hi

private lemma inRange_cons {n k : ℕ} {i s : List ℕ} (hk : k < n) (hi : InRange i s) : InRange (k :: i) (n :: s) :=
  List.Forall₂.cons hk hi

/-! ### Coefficients -/

private lemma coefStep_ok (N : ℕ) (s : List ℕ) (z res : Nd ℂ) (hz : z.dims = [N]) (hr : res.dims = N :: s) (ii : ℕ)
    (hii : ii < N - 1) :
    ∃ r, coefStepNd N z res ii = .ok r ∧ r.dims = N :: s ∧ ∀ i, InRange i s → ∀ j < N, r.get (j :: i)
      = if ii < j then (res.get (ii :: i) / res.get (j :: i) - 1) / (z.get [j] - z.get [ii]) else res.get (j :: i) := by
  obtain ⟨m, hm⟩ : ∃ m, m = N - (ii + 1) := ⟨_, rfl⟩
  unfold coefStepNd
  rw [← hm]
  have h1 : res.slice 1 (fun _ => ii) = .ok ⟨1 :: s, fun i => res.get (ii :: i.tail)⟩ := by
    unfold Nd.slice; rw [hr]
  have h2 : res.slice m (fun j => ii + 1 + j) = .ok ⟨m :: s, fun i => res.get ((ii + 1 + i.headD 0) :: i.tail)⟩ := by
    unfold Nd.slice; rw [hr]
  have h3 : z.slice m (fun j => ii + 1 + j) = .ok ⟨[m], fun i => z.get ((ii + 1 + i.headD 0) :: i.tail)⟩ := by
    unfold Nd.slice; rw [hz]
  rw [h1, h2, h3]
  simp only [bind, Except.bind]
  rw [map2_ok _ _ _ (s := m :: s) (by simp [bcast_cons])]
  simp only
  rw [map2_ok _ _ _ (s := [m]) (by simp [Nd.scalar])]
  simp only
  rw [map2_ok _ _ _ (s := m :: s) (by simp [bcast_cons, Nd.map])]
  simp only
  unfold Nd.setFrom
  rw [hr]
  simp only
  rw [if_pos (by rw [hm]; simp)]
  refine ⟨_, rfl, rfl, fun i hi j hj => ?_⟩
  simp only [List.headD_cons, List.tail_cons]
  by_cases hlt : ii < j
  swap
  · rw [if_neg hlt]
    exact if_neg (by simpa using hlt)
  rw [if_pos hlt]
  refine (if_pos (by simpa using hlt)).trans ?_
  have hjm : j - (ii + 1) < m := by omega
  have hR : InRange ((j - (ii + 1)) :: i) (m :: s) := inRange_cons hjm hi
  rw [at_get _ rfl hR]
  have e1 : ∀ k, proj (1 :: s) (k :: i) = 0 :: i := fun k => by
    rw [proj_cons, if_pos rfl, List.tail_cons, proj_inRange hi]
  have e2 : proj (m :: s) ((j - (ii + 1)) :: i) = (j - (ii + 1)) :: i := proj_inRange hR
  have e3 : proj [m] ((j - (ii + 1)) :: i) = [j - (ii + 1)] := by
    have : InRange [j - (ii + 1)] [m] := inRange_cons hjm List.Forall₂.nil
    have h := proj_inRange this
    rw [proj_cons] at h ⊢
    simpa using h
  have e4 : proj [m] [j - (ii + 1)] = [j - (ii + 1)] := proj_inRange (inRange_cons hjm List.Forall₂.nil)
  simp only [Nd.at, Nd.map, Nd.scalar, e1, e2, e3, e4, List.headD_cons, List.tail_cons]
  rw [show ii + 1 + (j - (ii + 1)) = j by omega]

/-- `coefficients` of a stack of functions, `fct_z` of any shape `(..., N)`: every row of the result contains the coefficients of
the function in this row (if they are finite). -/
theorem coefficients_stack (N : ℕ) (s : List ℕ) (z fct : Nd ℂ) (hz : z.dims = [N]) (hf : fct.dims = N :: s) :
    ∃ a, coefficientsNd z fct = .ok a ∧ a.dims = N :: s ∧ ∀ i, InRange i s → ∀ co,
      coefficients N N (fun j => z.get [j]) (fun j => fct.get (j :: i)) = .ok (some co) → ∀ j < N, a.get (j :: i) = co j := by
  have key : ∀ k ≤ N - 1, ∃ a, (List.range k).foldlM (fun res ii => coefStepNd N z res ii) fct = .ok a ∧
      a.dims = N :: s ∧ ∀ i, InRange i s → ∀ j < N, a.get (j :: i)
        = coefRes (fun j => z.get [j]) (fun j => fct.get (j :: i)) k j := by
    intro k
    induction k with
    | zero => exact fun _ => ⟨fct, rfl, hf, fun i hi j hj => rfl⟩
    | succ k ih =>
      intro hk
      obtain ⟨a, h1, h2, h3⟩ := ih (by omega)
      obtain ⟨r, g1, g2, g3⟩ := coefStep_ok N s z a hz h2 k (by omega)
      refine ⟨r, ?_, g2, fun i hi j hj => ?_⟩
      · rw [List.range_succ, List.foldlM_append, h1]
        simp only [bind, Except.bind, List.foldlM_cons, List.foldlM_nil, g1]
        rfl
      · rw [g3 i hi j hj, h3 i hi j hj, h3 i hi k (by omega)]
        rfl
  obtain ⟨a, h1, h2, h3⟩ := key (N - 1) le_rfl
  refine ⟨a, ?_, h2, fun i hi co hco j hj => ?_⟩
  · unfold coefficientsNd
    rw [if_neg (by simp [hz, hf]), hz]
    exact h1
  · rw [h3 i hi j hj]
    unfold coefficients at hco
    rw [if_neg (by simp)] at hco
    split_ifs at hco with hreg
    · simp only [Except.ok.injEq, Option.some.injEq] at hco
      rw [← hco]
    · simp at hco

/-- Three functions at two points, with finite coefficients. -/
example : ∃ a, coefficientsNd ⟨[2], fun i => (i.headD 0 : ℂ)⟩ ⟨[2, 3], fun i => (i.headD 0 : ℂ) + 1 + i.tail.headD 0⟩ = .ok a ∧
    a.dims = [2, 3] ∧ a.get [1, 2] = 3 / 4 - 1 := by
  obtain ⟨a, h1, h2, h3⟩ := coefficients_stack 2 [3] ⟨[2], fun i => (i.headD 0 : ℂ)⟩
    ⟨[2, 3], fun i => (i.headD 0 : ℂ) + 1 + i.tail.headD 0⟩ rfl rfl
  refine ⟨a, h1, h2, ?_⟩
  have hreg : CoefRegular (fun j => (j : ℂ)) (fun j => (j : ℂ) + 1 + 2) 2 := by
    intro ii j hij hj
    obtain rfl : ii = 0 := by omega
    obtain rfl : j = 1 := by omega
    simp only [coefRes]
    norm_num
  have := h3 [2] (List.Forall₂.cons (by norm_num) List.Forall₂.nil) (coefRes (fun j => (j : ℂ)) (fun j => (j : ℂ) + 1 + 2) 1) (by
    unfold coefficients
    rw [if_neg (by simp)]
    exact if_pos hreg) 1 (by norm_num)
  rw [this]
  norm_num [coefRes]

/-- Wrong number of points: `ValueError`. -/
theorem coefficients_stack_mismatch (N M : ℕ) (s : List ℕ) (z fct : Nd ℂ) (hz : z.dims = [N]) (hf : fct.dims = M :: s)
    (h : N ≠ M) : coefficientsNd z fct = .error .valueError := by
  unfold coefficientsNd
  rw [if_pos (by simp [hz, hf, h])]

/-! ### Evaluation -/

private lemma calcLoop_ok (L : ℕ) (s : List ℕ) (Z : ℕ → ℂ) (zin : ℕ → ℂ) (co : List ℕ → ℕ → ℂ) (n : ℕ) :
    ∀ (k : ℕ) (ms : List (Nd ℂ)) (pade prev b2 : Nd ℂ),
      ms.length = n →
      (∀ q (hq : q < ms.length), (ms[q]).dims = L :: s ∧ ∀ l < L, ∀ i, InRange i s →
        (ms[q]).get (l :: i) = (Z l - zin (k + q)) * co i (k + q + 1)) →
      pade.dims = L :: s → bcast (L :: s) prev.dims = some (L :: s) → bcast (L :: s) b2.dims = some (L :: s) →
      (∀ l < L, ∀ i, InRange i s → pade.at (l :: i) = (padeState (Z l) zin (co i) k).pade ∧
        prev.at (l :: i) = (padeState (Z l) zin (co i) k).padePrev ∧ b2.at (l :: i) = (padeState (Z l) zin (co i) k).b2) →
      ∃ r, calcLoopNd ms pade prev b2 = .ok r ∧ r.length = n ∧ ∀ q (hq : q < r.length), (r[q]).dims = L :: s ∧
        ∀ l < L, ∀ i, InRange i s → (r[q]).get (l :: i) = (padeState (Z l) zin (co i) (k + q + 1)).pade := by
  induction n with
  | zero =>
    intro k ms pade prev b2 hlen _ _ _ _ _
    rw [List.length_eq_zero_iff] at hlen
    subst hlen
    exact ⟨[], rfl, rfl, fun q hq => absurd hq (by simp)⟩
  | succ n ih =>
    intro k ms pade prev b2 hlen hms hp hprev hb2 hst
    cases ms with
    | nil => simp at hlen
    | cons m ms =>
      obtain ⟨hmd, hmg⟩ := hms 0 (by simp)
      simp only [List.getElem_cons_zero] at hmd hmg
      unfold calcLoopNd
      simp only [bind, Except.bind]
      rw [map2_ok _ _ _ (s := L :: s) (by rw [hmd, hb2])]
      simp only
      rw [map2_ok _ _ _ (s := L :: s) (by rw [← hprev])]
      simp only
      rw [map2_ok _ _ _ (s := L :: s) (by rw [hp]; simp)]
      simp only
      rw [map2_ok _ _ _ (s := L :: s) (by simp [Nd.map])]
      simp only
      have hin : ∀ l < L, ∀ i, InRange i s → InRange (l :: i) (L :: s) := fun l hl i hi => inRange_cons hl hi
      generalize hB : Nd.map (fun x : ℂ => 1 + x) (⟨L :: s, fun i => m.at i / b2.at i⟩ : Nd ℂ) = B
      have hBd : B.dims = L :: s := by rw [← hB]; rfl
      obtain ⟨P, hP⟩ : ∃ P : Nd ℂ, P = ⟨L :: s, fun i => (⟨L :: s, fun i => pade.at i +
        (⟨L :: s, fun i => (⟨L :: s, fun i => m.at i / b2.at i⟩ : Nd ℂ).at i * prev.at i⟩ : Nd ℂ).at i⟩ : Nd ℂ).at i / B.at i⟩ :=
        ⟨_, rfl⟩
      rw [← hP]
      have hPd : P.dims = L :: s := by rw [hP]
      refine Exists.elim (ih (k + 1) ms P pade B (by simpa using hlen) ?_ hPd (by rw [hp]; simp) (by rw [hBd]; simp) ?_)
        fun r hr => ?_
      · intro q hq
        have := hms (q + 1) (by simpa using hq)
        simp only [List.getElem_cons_succ] at this
        rw [show k + 1 + q = k + (q + 1) by omega]
        exact this
      · intro l hl i hi
        obtain ⟨g1, g2, g3⟩ := hst l hl i hi
        have hR := hin l hl i hi
        have hm0 : m.at (l :: i) = (Z l - zin k) * co i (k + 1) := by rw [at_get _ hmd hR, hmg l hl i hi]; rfl
        refine ⟨?_, ?_, ?_⟩
        · rw [at_get P hPd hR, hP]
          simp only
          rw [at_get B hBd hR, ← hB]
          simp only [mk_at hR, Nd.map, padeState, g1, g2, g3, hm0]
        · rw [g1]; rfl
        · rw [at_get B hBd hR, ← hB]
          simp only [Nd.map, padeState, g3, hm0]
      · obtain ⟨h1, h2, h3⟩ := hr
        rw [h1]
        refine ⟨_, rfl, by simp [h2], fun q hq => ?_⟩
        cases q with
        | zero =>
          refine ⟨hPd, fun l hl i hi => ?_⟩
          obtain ⟨g1, g2, g3⟩ := hst l hl i hi
          have hR := hin l hl i hi
          have hm0 : m.at (l :: i) = (Z l - zin k) * co i (k + 1) := by rw [at_get _ hmd hR, hmg l hl i hi]; rfl
          simp only [List.getElem_cons_zero]
          rw [hP]
          simp only
          rw [at_get B hBd hR, ← hB]
          simp only [mk_at hR, Nd.map, padeState, g1, g2, g3, hm0]
        | succ q =>
          simp only [List.getElem_cons_succ]
          have := h3 q (by simpa using hq)
          rw [show k + (q + 1) + 1 = k + 1 + q + 1 by omega]
          exact this

/-- `calc_iterator` for a stack of coefficients, of any shape `(..., N)`, at `L` points: every element of the arrays it yields
is the value it yields for this function and this point alone. -/
theorem calc_iterator_stack (L N : ℕ) (s : List ℕ) (zOut zin coeff : Nd ℂ) (hN : 1 ≤ N) (ho : zOut.dims = [L])
    (hz : zin.dims = [N]) (hc : coeff.dims = N :: s) :
    ∃ r, calcIteratorNd zOut zin coeff = .ok r ∧ (∀ a ∈ r, a.dims = L :: s) ∧ ∀ l < L, ∀ i, InRange i s →
      calcIterator (zOut.get [l]) N N (fun j => zin.get [j]) (fun j => coeff.get (j :: i))
        = .ok (r.map fun a => a.get (l :: i)) := by
  have hmin : min 1 N = 1 := by omega
  have h1 : coeff.slice 1 id = .ok ⟨1 :: s, fun i => coeff.get (i.headD 0 :: i.tail)⟩ := by
    unfold Nd.slice; rw [hc]; rfl
  have h2 : zin.slice (N - 1) id = .ok ⟨[N - 1], fun i => zin.get (i.headD 0 :: i.tail)⟩ := by
    unfold Nd.slice; rw [hz]; rfl
  have h3 : coeff.slice (N - 1) (fun j => j + 1) = .ok ⟨(N - 1) :: s, fun i => coeff.get ((i.headD 0 + 1) :: i.tail)⟩ := by
    unfold Nd.slice; rw [hc]
  have hL : ∀ l < L, ∀ i, proj [L] (l :: i) = [l] := fun l hl i => by
    have h := proj_inRange (inRange_cons hl List.Forall₂.nil)
    rw [proj_cons] at h ⊢
    simpa using h
  obtain ⟨r, hr1, hr2, hr3⟩ := calcLoop_ok L s (fun l => zOut.get [l]) (fun j => zin.get [j])
    (fun i j => coeff.get (j :: i)) (N - 1) 0
    ((List.range (N - 1)).map fun k => (⟨L :: s, fun i => (zOut.at (i.headD 0 :: k :: i.tail) -
      (⟨[1, N - 1], fun i => zin.get (i.tail.headD 0 :: i.tail.tail)⟩ : Nd ℂ).at (i.headD 0 :: k :: i.tail)) *
      (⟨1 :: (N - 1) :: s, fun i => coeff.get ((i.tail.headD 0 + 1) :: i.tail.tail)⟩ : Nd ℂ).at
        (i.headD 0 :: k :: i.tail)⟩ : Nd ℂ))
    ⟨L :: s, fun i => (⟨1 :: s, fun i => coeff.get (i.headD 0 :: i.tail)⟩ : Nd ℂ).at i * (zOut.map fun _ => (1 : ℂ)).at i⟩
    ((zOut.map fun _ => (1 : ℂ)).map fun x => 0 * x) (zOut.map fun _ => (1 : ℂ))
    (by simp) (by
      intro q hq
      simp only [List.length_map, List.length_range] at hq
      simp only [List.getElem_map, List.getElem_range]
      refine ⟨trivial, fun l hl i hi => ?_⟩
      simp only [List.headD_cons, List.tail_cons, Nd.at, ho, hL l hl, Nat.zero_add]
      have e1 : proj [1, N - 1] (l :: q :: i) = [0, q] := by
        rw [proj_cons, if_pos rfl, List.tail_cons]
        have h := proj_inRange (inRange_cons hq List.Forall₂.nil)
        rw [proj_cons] at h ⊢
        simpa using h
      have e2 : proj (1 :: (N - 1) :: s) (l :: q :: i) = 0 :: q :: i := by
        rw [proj_cons, if_pos rfl, List.tail_cons, proj_inRange (inRange_cons hq hi)]
      rw [e1, e2]
      rfl) rfl (by simp [Nd.map, ho, bcast_cons]) (by simp [Nd.map, ho, bcast_cons]) (by
      intro l hl i hi
      refine ⟨?_, ?_, rfl⟩
      · rw [at_get _ rfl (inRange_cons hl hi)]
        simp only [Nd.at, Nd.map, mul_one, padeState]
        rw [proj_cons, if_pos rfl, List.tail_cons, proj_inRange hi]
        rfl
      · simp [Nd.at, Nd.map, padeState])
  refine ⟨r, ?_, ?_, fun l hl i hi => ?_⟩
  · unfold calcIteratorNd
    rw [hc]
    simp only [hz, List.headD_cons, ne_eq, not_true_eq_false, if_false]
    rw [hmin, h1, h2, h3]
    simp only [bind, Except.bind]
    rw [map2_ok _ _ _ (s := L :: s) (by simp [Nd.map, ho, bcast_cons])]
    simp only
    rw [map2_ok _ _ _ (s := [L, N - 1]) (by simp [Nd.newaxis, ho, bcast_cons])]
    simp only
    rw [map2_ok _ _ _ (s := L :: (N - 1) :: s) (by simp [Nd.newaxis, bcast_cons])]
    simp only
    rw [← hr1]
    congr 1
    simp only [Nd.iterAxis2]
    refine List.map_congr_left fun k hk => ?_
    have hk' : k < N - 1 := List.mem_range.1 hk
    congr 1
    funext i
    congr 1
    have e3 : proj [L, N - 1] (i.headD 0 :: k :: i.tail) = [if L = 1 then 0 else i.headD 0, k] := by
      rw [proj_cons, List.headD_cons, List.tail_cons]
      have h := proj_inRange (inRange_cons hk' List.Forall₂.nil)
      rw [proj_cons] at h ⊢
      simpa using h
    rw [Nd.at]
    simp only
    rw [e3]
    congr 1
    simp only [Nd.at, ho, proj_cons, List.headD_cons]
    split_ifs <;> rfl
  · intro a ha
    obtain ⟨q, hq, rfl⟩ := List.mem_iff_getElem.1 ha
    exact (hr3 q hq).1
  · unfold calcIterator
    rw [if_neg (by simp)]
    congr 1
    refine List.ext_getElem (by simp [hr2]) fun q h1 h2 => ?_
    simp only [List.getElem_map, List.getElem_range]
    rw [(hr3 q (by simpa using h2)).2 l hl i hi, Nat.zero_add]

/-- `calc_iterator` raises an error for a number of coefficients other than that of the input points. -/
theorem calc_iterator_raises (zOut zin coeff : Nd ℂ) :
    (coeff.dims = [] → calcIteratorNd zOut zin coeff = .error .indexError) ∧
    ∀ N s, coeff.dims = N :: s → N ≠ zin.dims.headD 1 → calcIteratorNd zOut zin coeff = .error .assertionError := by
  refine ⟨fun h => ?_, fun N s h hN => ?_⟩
  · unfold calcIteratorNd; rw [h]
  · unfold calcIteratorNd; rw [h]; exact if_pos hN

end Gftool.Props
