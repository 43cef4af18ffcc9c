import Verif.Model.StackFit
import Verif.Lemmas.Nd
import Verif.Props.PoleFit
import Verif.Props.Stack
import Verif.Props.LinearPrediction

/-!
# Leading axes are stacks: Laplace transforms, fits, linear prediction (property C69)
-/

namespace Gftool.Props

open Model Spec Lemmas

/-- Normalise shapes. -/
local macro "bc_simp" : tactic =>
  `(tactic| simp only [bcastAll_cons, bcastAll_nil, bc_nil_right, bc_nil_left, bc_assoc, bc_comm, bc_left_comm, bc_self, bc_absorb])

private lemma bindM {α β : Type} {r : Except Err (Nd α)} {k : Nd α → Except Err (Nd β)} {s s' : Option (List ℕ)} {n m : ℕ}
    {F : List ℕ → α} {F' : List ℕ → β} (h : Rep r (s.map (n :: ·)) F) (hs : bc s s' = s')
    (hk : ∀ a, Rep (.ok a) (s.map (n :: ·)) F → Rep (k a) (s'.map (m :: ·)) F') : Rep (r >>= k) (s'.map (m :: ·)) F' :=
  h.bind (fun h => by
    rw [Option.map_eq_none_iff] at h ⊢
    rw [← hs, h, bc_none_left]) hk

private lemma bindMM {α β : Type} {r : Except Err (Nd α)} {k : Nd α → Except Err (Nd β)} {s s' : Option (List ℕ)} {n n' m : ℕ}
    {F : List ℕ → α} {F' : List ℕ → β} (h : Rep r ((s.map (n :: ·)).map (n' :: ·)) F) (hs : bc s s' = s')
    (hk : ∀ a, Rep (.ok a) ((s.map (n :: ·)).map (n' :: ·)) F → Rep (k a) (s'.map (m :: ·)) F') :
    Rep (r >>= k) (s'.map (m :: ·)) F' :=
  h.bind (fun h => by
    rw [Option.map_eq_none_iff, Option.map_eq_none_iff] at h
    rw [Option.map_eq_none_iff]
    rw [← hs, h, bc_none_left]) hk

/-- The array `phase`: times are the last axis. -/
private lemma phaseRep {z : Nd ℂ} {F : List ℕ → ℂ} {nz : ℕ} {zs : List ℕ} (hz : Rep (.ok z) ((some zs).map (nz :: ·)) F)
    (n : ℕ) (hn : n ≠ 1) (tt : ℕ → ℝ) :
    Rep (Nd.map2 phase z.newaxis ⟨[n, 1], fun i => tt (i.headD 0)⟩) (((some zs).map (nz :: ·)).map (n :: ·))
      fun i => phase (F i.tail) (tt (i.headD 0)) := by
  have ht : Rep (.ok (⟨[n, 1], fun i => tt (i.headD 0)⟩ : Nd ℝ)) (((some []).map (1 :: ·)).map (n :: ·))
      fun i => tt (i.headD 0) := by
    refine ⟨_, rfl, rfl, fun i => ?_⟩
    simp only [proj_cons, if_neg hn]
    rfl
  have := Rep.map2' hz.newaxis' ht phase
  rw [bc_map_cons (bdim_one_left _), bc_map_cons (bdim_one_right _), bc_nil_right] at this
  exact this

/-- `tt2z_trapz`: times of `gf_t` and frequencies of `z` are the last axes, everything else is a stack. -/
theorem tt2z_trapz_stack (n : ℕ) (hn : 2 ≤ n) (tt : ℕ → ℝ) (gfT z : Nd ℂ) (gs zs : List ℕ) (nz : ℕ)
    (hg : gfT.dims = n :: gs) (hz : z.dims = nz :: zs) :
    StackedOk (tt2zTrapzNd n tt gfT z) ((bcastAll [gs, zs]).map (nz :: ·))
      fun i => tt2zTrapz n tt (fun k => gfT.at (k :: i.tail)) (z.at i) := by
  have hn1 : n ≠ 1 := by omega
  refine Rep.stackedOk' (F := fun i => 0.5 * ((phase (z.at i) (tt 0) * gfT.at (0 :: i.tail) * ((tt 1 - tt 0 : ℝ) : ℂ)
      + phase (z.at i) (tt (n - 1)) * gfT.at ((n - 1) :: i.tail) * ((tt (n - 1) - tt (n - 2) : ℝ) : ℂ))
      + ∑ k ∈ Finset.range (n - 2), phase (z.at i) (tt (k + 1)) * (gfT.at ((k + 1) :: i.tail)
        * ((tt (k + 2) - tt k : ℝ) : ℂ)))) ?_ ?_
  · unfold tt2zTrapzNd
    have hph := phaseRep (Rep.ofCons hz) n hn1 tt
    have hgr := Rep.ofCons hg
    refine bindMM hph (by bc_simp) fun ph hph => ?_
    refine bindM (hph.select' (by omega)) (by bc_simp) fun p0 hp0 => ?_
    rw [show min 1 n = 1 by omega]
    refine bindM (hgr.slice' hn1 1 fun _ => 0) (by bc_simp) fun g0 hg0 => ?_
    have hb0 := Rep.map2' hp0 hg0 (fun p g => p * g * ((tt 1 - tt 0 : ℝ) : ℂ))
    rw [bc_map_cons (bdim_one_right _)] at hb0
    refine bindM hb0 (by bc_simp) fun b0 hb0 => ?_
    rw [if_neg (by omega)]
    refine bindM (hph.select' (by omega)) (by bc_simp) fun p1 hp1 => ?_
    refine bindM (hgr.slice' hn1 1 fun _ => n - 1) (by bc_simp) fun g1 hg1 => ?_
    have hb1 := Rep.map2' hp1 hg1 (fun p g => p * g * ((tt (n - 1) - tt (n - 2) : ℝ) : ℂ))
    rw [bc_map_cons (bdim_one_right _)] at hb1
    refine bindM hb1 (by bc_simp) fun b1 hb1 => ?_
    have hb := Rep.map2' hb0 hb1 (fun x y : ℂ => x + y)
    rw [bc_map_cons (bdim_self _)] at hb
    refine bindM hb (by bc_simp) fun b hb => ?_
    refine bindMM (hph.slice' hn1 (n - 2) (· + 1)) (by bc_simp) fun pc hpc => ?_
    refine bindM (hgr.slice' hn1 (n - 2) (· + 1)) (by bc_simp) fun gc hgc => ?_
    have hd : Rep (.ok (Nd.vec (n - 2) fun k => ((tt (k + 2) - tt k : ℝ) : ℂ))) ((some []).map ((n - 2) :: ·))
        fun i => ((tt ((if n - 2 = 1 then 0 else i.headD 0) + 2) - tt (if n - 2 = 1 then 0 else i.headD 0) : ℝ) : ℂ) :=
      ⟨_, rfl, rfl, fun i => rfl⟩
    have hgd := Rep.map2' hgc hd (fun x y : ℂ => x * y)
    rw [bc_map_cons (bdim_self _), bc_nil_right] at hgd
    refine bindM hgd (by bc_simp) fun gd hgd => ?_
    have htr := Rep.matvec' hpc hgd
    refine bindM htr (by bc_simp) fun tr htr => ?_
    have hr := Rep.map2' hb htr (fun x y : ℂ => x + y)
    rw [bc_map_cons (bdim_self _)] at hr
    refine bindM hr (by bc_simp) fun r hr => ?_
    refine (hr.map' (0.5 * ·)).congr (by bc_simp) fun i => ?_
    simp only [List.headD_cons, List.tail_cons]
    congr 2
    refine Finset.sum_congr rfl fun k hk => ?_
    have hk' : (if n - 2 = 1 then 0 else k) = k := by
      split_ifs with h
      · have := Finset.mem_range.1 hk
        omega
      · rfl
    rw [hk']
  · intro i
    unfold tt2zTrapz
    rw [if_neg (by omega)]

/-- The formula of Filon's rule for `z ≠ 0`. -/
private noncomputable def linF (n : ℕ) (tt : ℕ → ℝ) (g : ℕ → ℂ) (z : ℂ) : ℂ :=
  (tt 1 - tt 0 : ℝ) * ((Complex.exp (Complex.I * z * (tt 1 - tt 0 : ℝ)) - 1) / (Complex.I * z * (tt 1 - tt 0 : ℝ))
      * ∑ k ∈ Finset.range (n - 1), phase z (tt k) * g k
    + (Complex.exp (Complex.I * z * (tt 1 - tt 0 : ℝ))
        - (Complex.exp (Complex.I * z * (tt 1 - tt 0 : ℝ)) - 1) / (Complex.I * z * (tt 1 - tt 0 : ℝ)))
        / (Complex.I * z * (tt 1 - tt 0 : ℝ))
      * ∑ k ∈ Finset.range (n - 1), phase z (tt k) * (g (k + 1) - g k))

private lemma linRep (n : ℕ) (hn : 2 ≤ n) (tt : ℕ → ℝ) (gfT z : Nd ℂ) (gs zs : List ℕ) (nz : ℕ) (Fz : List ℕ → ℂ)
    (hg : gfT.dims = n :: gs) (hz : Rep (.ok z) ((some zs).map (nz :: ·)) Fz) (k : Nd ℂ → Nd ℂ → Nd ℂ → Except Err (Nd ℂ))
    (F' : List ℕ → ℂ) (S : Option (List ℕ)) (hS : bc (bcastAll [gs, zs]) S = S)
    (hk : ∀ gr gl r : Nd ℂ,
      Rep (.ok gr) ((some gs).map ((n - 1) :: ·)) (fun i => gfT.at (((if n - 1 = 1 then 0 else i.headD 0) + 1) :: i.tail)) →
      Rep (.ok gl) ((some gs).map ((n - 1) :: ·)) (fun i => gfT.at ((if n - 1 = 1 then 0 else i.headD 0) :: i.tail)) →
      Rep (.ok r) ((bcastAll [gs, zs]).map (nz :: ·)) (fun i => linF n tt (fun k => gfT.at (k :: i.tail)) (Fz i)) →
      Rep (k gr gl r) (S.map (nz :: ·)) F') :
    Rep (do
      let ph ← Nd.map2 phase z.newaxis ⟨[n - 1, 1], fun i => tt (i.headD 0)⟩
      let gl ← gfT.slice (n - 1) id
      let gDft ← Nd.matvec ph gl
      let gr ← gfT.slice (n - 1) (· + 1)
      let dg ← Nd.map2 (· - ·) gr gl
      let dgDft ← Nd.matvec ph dg
      let weight1 := z.map fun z => (Complex.exp (Complex.I * z * (tt 1 - tt 0 : ℝ)) - 1) / (Complex.I * z * (tt 1 - tt 0 : ℝ))
      let weight2 := z.map fun z => (Complex.exp (Complex.I * z * (tt 1 - tt 0 : ℝ))
        - (Complex.exp (Complex.I * z * (tt 1 - tt 0 : ℝ)) - 1) / (Complex.I * z * (tt 1 - tt 0 : ℝ)))
          / (Complex.I * z * (tt 1 - tt 0 : ℝ))
      let a ← Nd.map2 (· * ·) weight1 gDft
      let b ← Nd.map2 (· * ·) weight2 dgDft
      let r ← Nd.map2 (fun a b : ℂ => (tt 1 - tt 0 : ℝ) * (a + b)) a b
      k gr gl r) (S.map (nz :: ·)) F' := by
  have hn1 : n ≠ 1 := by omega
  have hif : ∀ k ∈ Finset.range (n - 1), (if n - 1 = 1 then 0 else k) = k := fun k hk => by
    split_ifs with h
    · have := Finset.mem_range.1 hk
      omega
    · rfl
  have hgr := Rep.ofCons hg
  have ht : Rep (.ok (⟨[n - 1, 1], fun i => tt (i.headD 0)⟩ : Nd ℝ)) (((some []).map (1 :: ·)).map ((n - 1) :: ·))
      fun i => tt (if n - 1 = 1 then 0 else i.headD 0) := ⟨_, rfl, rfl, fun i => rfl⟩
  have hph := Rep.map2' hz.newaxis' ht phase
  rw [bc_map_cons (bdim_one_left _), bc_map_cons (bdim_one_right _), bc_nil_right] at hph
  refine bindMM hph (by rw [← hS]; bc_simp) fun ph hph => ?_
  refine bindM (hgr.slice' hn1 (n - 1) id) (by rw [← hS]; bc_simp) fun gl hl => ?_
  refine bindM (Rep.matvec' hph hl) (by rw [← hS]; bc_simp) fun gd hgd => ?_
  refine bindM (hgr.slice' hn1 (n - 1) (· + 1)) (by rw [← hS]; bc_simp) fun gr hr => ?_
  have hdg := Rep.map2' hr hl (fun x y : ℂ => x - y)
  rw [bc_map_cons (bdim_self _)] at hdg
  refine bindM hdg (by rw [← hS]; bc_simp) fun dg hdg => ?_
  refine bindM (Rep.matvec' hph hdg) (by rw [← hS]; bc_simp) fun dgd hdgd => ?_
  have ha := Rep.map2' (hz.map' fun z => (Complex.exp (Complex.I * z * (tt 1 - tt 0 : ℝ)) - 1)
    / (Complex.I * z * (tt 1 - tt 0 : ℝ))) hgd (fun x y : ℂ => x * y)
  have hb := Rep.map2' (hz.map' fun z => (Complex.exp (Complex.I * z * (tt 1 - tt 0 : ℝ))
        - (Complex.exp (Complex.I * z * (tt 1 - tt 0 : ℝ)) - 1) / (Complex.I * z * (tt 1 - tt 0 : ℝ)))
          / (Complex.I * z * (tt 1 - tt 0 : ℝ))) hdgd (fun x y : ℂ => x * y)
  rw [bc_map_cons (bdim_self _)] at ha hb
  refine bindM ha (by rw [← hS]; bc_simp) fun a ha => ?_
  refine bindM hb (by rw [← hS]; bc_simp) fun b hb => ?_
  have hab := Rep.map2' ha hb (fun a b : ℂ => (tt 1 - tt 0 : ℝ) * (a + b))
  rw [bc_map_cons (bdim_self _)] at hab
  refine bindM hab (by rw [← hS]; bc_simp) fun r hrr => ?_
  refine hk gr gl r hr hl (hrr.congr (by bc_simp) fun i => ?_)
  simp only [List.headD_cons, List.tail_cons, linF]
  congr 3
  · refine Finset.sum_congr rfl fun k hk => ?_
    rw [hif k hk]
    rfl
  · refine Finset.sum_congr rfl fun k hk => ?_
    rw [hif k hk]
    rfl

/-- `tt2z_lin` treats the leading axes as stacks, unless `z` has leading axes *and* contains 0 *and* `gf_t` has leading axes. -/
theorem tt2z_lin_stack_partial (n : ℕ) (hn : 2 ≤ n) (tt : ℕ → ℝ) (htt : equidistant n tt) (gfT z : Nd ℂ) (gs zs : List ℕ)
    (nz : ℕ) (hg : gfT.dims = n :: gs) (hz : z.dims = nz :: zs)
    (h0 : zs = [] ∨ gs = [] ∨ ∀ i, InRange i z.dims → z.get i ≠ 0) :
    StackedOk (tt2zLinNd n tt gfT z) ((bcastAll [gs, zs]).map (nz :: ·))
      fun i => tt2zLin n tt (fun k => gfT.at (k :: i.tail)) (z.at i) := by
  classical
  unfold tt2zLinNd
  rw [if_neg (by omega), if_neg (not_not.2 htt)]
  have hzr := Rep.ofCons hz
  by_cases hany : ∃ i, List.Forall₂ (· < ·) i (z.map (· = 0)).dims ∧ (z.map (· = 0)).get i
  · have hgz : gs = [] ∨ zs = [] := by
      obtain ⟨i, hi, hi0⟩ := hany
      rcases h0 with h | h | h
      · exact .inr h
      · exact .inl h
      · exact absurd hi0 (h i hi)
    simp only [if_pos hany]
    refine Rep.stackedOk (F := fun i => if z.at i = 0 then ∑ k ∈ Finset.range (n - 1),
        ((tt (k + 1) - tt k : ℝ) : ℂ) * (gfT.at ((k + 1) :: i.tail) + gfT.at (k :: i.tail)) / 2
      else linF n tt (fun k => gfT.at (k :: i.tail)) (z.at i)) ?_ ?_
    · refine linRep n hn tt gfT _ gs zs nz _ hg (hzr.map' fun z => if z = 0 then 1 else z) _ _ _ (bc_self _) ?_
      intro gr gl r hr hl hrr
      have hs := Rep.map2' hr hl (fun x y : ℂ => x + y)
      rw [bc_map_cons (bdim_self _), bc_self] at hs
      refine bindM hs (by bc_simp) fun s hs => ?_
      have hd : Rep (.ok (Nd.vec (n - 1) fun k => ((tt (k + 1) - tt k : ℝ) : ℂ))) ((some []).map ((n - 1) :: ·))
          fun i => ((tt ((if n - 1 = 1 then 0 else i.headD 0) + 1) - tt (if n - 1 = 1 then 0 else i.headD 0) : ℝ) : ℂ) :=
        ⟨_, rfl, rfl, fun i => rfl⟩
      have hq := Rep.map2' hs hd (fun s d : ℂ => d * s / 2)
      rw [bc_map_cons (bdim_self _), bc_nil_right] at hq
      refine bindM hq (by bc_simp) fun q hq => ?_
      have hv := hq.sum'
      have hF : ∀ i : List ℕ, (∑ k ∈ Finset.range (n - 1),
          ((tt ((if n - 1 = 1 then 0 else (k :: i).headD 0) + 1) - tt (if n - 1 = 1 then 0 else (k :: i).headD 0) : ℝ) : ℂ)
            * (gfT.at (((if n - 1 = 1 then 0 else (k :: i).headD 0) + 1) :: (k :: i).tail)
              + gfT.at ((if n - 1 = 1 then 0 else (k :: i).headD 0) :: (k :: i).tail)) / 2)
          = ∑ k ∈ Finset.range (n - 1),
            ((tt (k + 1) - tt k : ℝ) : ℂ) * (gfT.at ((k + 1) :: i) + gfT.at (k :: i)) / 2 := fun i =>
        Finset.sum_congr rfl fun k hk => by
          have : (if n - 1 = 1 then 0 else k) = k := by
            split_ifs with h
            · have := Finset.mem_range.1 hk
              omega
            · rfl
          simp only [List.headD_cons, List.tail_cons, this]
      have hv := hv.congr rfl hF
      obtain ⟨v, hv1, hv2, hv3⟩ := hv
      rw [← Except.ok.inj hv1] at hv2 hv3
      clear hv1 v
      obtain ⟨v, hvv⟩ : ∃ v, v = q.sum := ⟨_, rfl⟩
      rw [← hvv] at hv2 hv3 ⊢
      have hbs : bcastAll [gs, zs] = some (gs ++ zs) := by
        rw [bcastAll_cons, bcastAll_one, bc_some]
        rcases hgz with h | h <;> simp [h]
      rw [hbs] at hrr ⊢
      obtain ⟨r', hr1, hr2, hr3⟩ := hrr
      rw [← Except.ok.inj hr1] at hr2 hr3
      have hvat : ∀ i, v.at (proj gs i) = v.get (proj gs i) := fun i => by
        unfold Nd.at
        rw [hv2, proj_self]
      have hzat : ∀ i, z.at i = z.get (proj (nz :: zs) i) := fun i => by rw [Nd.at, hz]
      have hset : r.setMask (z.map (· = 0)) v = .ok ⟨r.dims, fun i => if (z.map (· = 0)).get
          (i.take (z.map (· = 0)).dims.length) then v.at (i.drop (z.map (· = 0)).dims.length) else r.get i⟩ := by
        have hzd : (z.map (· = 0)).dims = nz :: zs := hz
        have hbcs : bcast gs (gs.rdropWhile (· = 1)) = some gs := bcast_strip gs
        unfold Nd.setMask
        simp only [hzd, hr2, hv2]
        rw [if_neg, if_neg]
        · rcases hgz with h | h
          · subst h
            simp
          · subst h
            simpa using hbcs
        · rcases hgz with h | h <;> subst h <;> simp
      rw [hset]
      refine ⟨_, rfl, hr2, fun i => ?_⟩
      have hzd : (z.map (· = 0)).dims = nz :: zs := hz
      have hc : (z.map (· = 0)).get ((proj (nz :: (gs ++ zs)) i).take (z.map (· = 0)).dims.length) = (z.at i = 0) := by
        rw [hzat, hzd]
        rcases hgz with h | h
        · subst h
          rw [List.nil_append, List.take_of_length_le (by rw [proj_length])]
          rfl
        · subst h
          rfl
      have hval : v.at ((proj (nz :: (gs ++ zs)) i).drop (z.map (· = 0)).dims.length) = v.get (proj gs i.tail) := by
        rw [← hvat, hzd]
        rcases hgz with h | h
        · subst h
          rw [List.nil_append, List.drop_of_length_le (by rw [proj_length])]
          rfl
        · subst h
          rw [List.append_nil]
          rfl
      simp only
      rw [show proj ((fun x => nz :: x) (gs ++ zs)) i = proj (nz :: (gs ++ zs)) i from rfl] at *
      simp only [hc, hval]
      by_cases h0 : z.at i = 0
      · rw [if_pos h0, if_pos h0, hv3]
      · rw [if_neg h0, if_neg h0, hr3]
        simp only [if_neg h0]
    · intro t _ i hi
      unfold tt2zLin
      rw [if_neg (by omega), if_neg (not_not.2 htt)]
      split_ifs <;> rfl
  · simp only [if_neg hany]
    refine Rep.stackedOk (F := fun i => linF n tt (fun k => gfT.at (k :: i.tail)) (z.at i)) ?_ ?_
    · exact linRep n hn tt gfT z gs zs nz _ hg hzr _ _ _ (bc_self _) fun _ _ r _ _ hr => hr
    · intro t ht i hi
      have : z.at i ≠ 0 := by
        intro h
        refine hany ⟨proj z.dims i, ?_, h⟩
        rw [bcastAll_cons, bcastAll_one, bc_some] at ht
        cases hs : bcast gs zs with
        | none => rw [hs] at ht; cases ht
        | some s =>
          rw [hs] at ht
          cases ht
          refine proj_mem_left (b := nz :: gs) (s := nz :: s) ?_ hi
          rw [hz, bcast_cons, bdim_self, bcast_comm, hs]
          rfl
      unfold tt2zLin
      rw [if_neg (by omega), if_neg (not_not.2 htt), if_neg this]
      rfl

/-- **Violation**: for the documented stacks `gf_t : (A, Nt)` and `z : (A, Nz)`, `tt2z_lin` raises `ValueError` whenever one of the
frequencies is 0. -/
theorem tt2z_lin_stack_fails (n : ℕ) (hn : 2 ≤ n) (tt : ℕ → ℝ) (gfT z : Nd ℂ) (nz A : ℕ) (hA : A ≠ 1)
    (hg : gfT.dims = [n, A]) (hz : z.dims = [nz, A]) (h0 : ∃ i, InRange i z.dims ∧ z.get i = 0) :
    tt2zLinNd n tt gfT z = .error .valueError := by
  classical
  unfold tt2zLinNd
  rw [if_neg (by omega)]
  by_cases htt : equidistant n tt
  · rw [if_neg (not_not.2 htt)]
    have hany : ∃ i, List.Forall₂ (· < ·) i (z.map (· = 0)).dims ∧ (z.map (· = 0)).get i := h0
    simp only [if_pos hany]
    refine linRep n hn tt gfT _ [A] [A] nz _ hg ((Rep.ofCons hz).map' fun z => if z = 0 then 1 else z) _
      (fun _ => 0) none (by simp) ?_
    intro gr gl r hr hl hrr
    have hs := Rep.map2' hr hl (fun x y : ℂ => x + y)
    rw [bc_map_cons (bdim_self _), bc_self] at hs
    refine bindM hs (by simp) fun s hs => ?_
    have hd : Rep (.ok (Nd.vec (n - 1) fun k => ((tt (k + 1) - tt k : ℝ) : ℂ))) ((some []).map ((n - 1) :: ·))
        fun i => ((tt ((if n - 1 = 1 then 0 else i.headD 0) + 1) - tt (if n - 1 = 1 then 0 else i.headD 0) : ℝ) : ℂ) :=
      ⟨_, rfl, rfl, fun i => rfl⟩
    have hq := Rep.map2' hs hd (fun s d : ℂ => d * s / 2)
    rw [bc_map_cons (bdim_self _), bc_nil_right] at hq
    refine bindM hq (by simp) fun q hq => ?_
    obtain ⟨v, hv1, hv2, -⟩ := hq.sum'
    rw [← Except.ok.inj hv1] at hv2
    rw [bcastAll_cons, bcastAll_one, bc_self] at hrr
    obtain ⟨r', hr1, hr2, -⟩ := hrr
    rw [← Except.ok.inj hr1] at hr2
    have hzd : (z.map (· = 0)).dims = [nz, A] := hz
    change Nd.setMask _ _ _ = _
    unfold Nd.setMask
    simp only [hzd, hr2, hv2]
    rw [if_neg (by simp), if_pos]
    simp [hA]
  · rw [if_pos htt]

/-- The elements of the stack on their own are fine. -/
example (n : ℕ) (hn : 2 ≤ n) (tt : ℕ → ℝ) (htt : equidistant n tt) (g : ℕ → ℂ) (z : ℂ) : ∃ r, tt2zLin n tt g z = .ok r := by
  unfold tt2zLin
  rw [if_neg (by omega), if_neg (not_not.2 htt)]
  split_ifs <;> exact ⟨_, rfl⟩

/-! ## Fits -/

private lemma at_head {w : Nd ℝ} (h : w.dims.headD 1 = 1) (k : ℕ) (i : List ℕ) : w.at (k :: i) = w.at (0 :: i) := by
  unfold Nd.at
  congr 1
  cases hd : w.dims with
  | nil => rfl
  | cons n d =>
    rw [hd, List.headD_cons] at h
    rw [proj_cons, proj_cons, if_pos h, if_pos h]
    rfl

private lemma chebRep (n : ℕ) : Rep (.ok (chebNd n)) ((some []).map (n :: ·))
    fun i => if h : (if n = 1 then 0 else i.headD 0) < n then chebyshevPoints n ⟨_, h⟩ else 0 := ⟨_, rfl, rfl, fun _ => rfl⟩

/-- The part of `gf_from_moments` after the determination of `width`. -/
private lemma momTail (n : ℕ) (hn : 0 < n) (s : List ℕ) (moments w : Nd ℝ) (hm : moments.dims = n :: s)
    (hw : w.dims.headD 1 = 1) (hws : bcast w.dims.tail s = some s)
    (hw0 : n ≤ 1 ∨ ∀ i, InRange i s → w.at (0 :: i) ≠ 0) :
    ∃ p r : Nd ℝ, (do
      let poles ← Nd.map2 (· * ·) w (chebNd n)
      match bcast poles.dims (n :: s) with
      | some (n' :: s) => do
        let resid ← vanderSolveNd n' s poles moments
        .ok (poles, resid)
      | _ => .error .valueError) = .ok (p, r) ∧ p.dims = n :: w.dims.tail ∧ r.dims = n :: s ∧
      (∀ i (k : Fin n), p.at (k :: i) = w.at (0 :: i) * chebyshevPoints n k) ∧
      ∀ i (k : Fin n), r.get (k :: i) = ((vanderT ℝ n fun k : Fin n => p.at (k :: i))⁻¹.mulVec
        fun k => moments.at (k :: i)) k := by
  have hp := Rep.map2' (Rep.of w) (chebRep n) (fun x y : ℝ => x * y)
  rw [bc_comm, bc_cons n _ _ (by rw [hw]; exact bdim_one_right n), bc_nil_left] at hp
  obtain ⟨p, hp1, hp2, hp3⟩ := hp
  simp only at hp2
  have hpat : ∀ i (k : Fin n), p.at (k :: i) = w.at (0 :: i) * chebyshevPoints n k := by
    intro i k
    rw [Nd.at, hp2, hp3]
    have : (if n = 1 then 0 else (k : ℕ)) = k := by
      split_ifs with h
      · have := k.2
        omega
      · rfl
    change w.at (k :: i) * (if h : (if n = 1 then 0 else (k : ℕ)) < n then chebyshevPoints n ⟨_, h⟩ else 0) = _
    rw [at_head hw, dif_pos (by rw [this]; exact k.2)]
    congr 2
    exact Fin.ext this
  have hb : bcast p.dims (n :: s) = some (n :: s) := by
    rw [hp2, bcast_cons, bdim_self, hws]
    rfl
  have hdet : ¬ ∃ i, List.Forall₂ (· < ·) i s ∧ (vanderT ℝ n fun k : Fin n => p.at (k :: i)).det = 0 := by
    rintro ⟨i, hi, h⟩
    refine (vander_square_det _).2 ?_ h
    intro a b hab
    simp only [hpat] at hab
    rcases hw0 with hw0 | hw0
    · exact Fin.ext (by have := a.2; have := b.2; omega)
    · exact (chebyshev_strictMono n).injective (mul_left_cancel₀ (hw0 i hi) hab)
  refine ⟨p, ⟨n :: s, fun i => if h : i.headD 0 < n then
    ((vanderT ℝ n fun k : Fin n => p.at (k :: i.tail))⁻¹.mulVec fun k => moments.at (k :: i.tail)) ⟨i.headD 0, h⟩
    else 0⟩, ?_, hp2, rfl, hpat, fun i k => ?_⟩
  · rw [hp1]
    change (match bcast p.dims (n :: s) with
      | some (n' :: s) => do
        let resid ← vanderSolveNd n' s p moments
        .ok (p, resid)
      | _ => .error .valueError) = _
    rw [hb]
    simp only [vanderSolveNd, if_neg hdet]
    rfl
  · simp only [List.headD_cons, List.tail_cons, Fin.is_lt, ↓reduceDIte, Fin.eta]

/-- `gf_from_moments` for stacks of moments of any shape and automatic width, or a float as width. -/
lemma momStack (n : ℕ) (s : List ℕ) (moments : Nd ℝ) (hm : moments.dims = n :: s) (width : Option ℝ)
    (hw : width ≠ some 0 ∨ n ≤ 1) :
    ∃ p r : Nd ℝ, gfFromMomentsNd moments (width.map Nd.scalar) = .ok (p, r) ∧ r.dims = n :: s ∧
      (p.dims = n :: s ∨ p.dims = [n]) ∧
      ∀ i, gfFromMoments (fun k : Fin n => moments.at (k :: i)) width
        = .ok ⟨fun k => p.at (k :: i), fun k => r.get (k :: i)⟩ := by
  rcases Nat.eq_zero_or_pos n with h0 | h0
  · subst h0
    refine ⟨⟨[0], fun _ => 0⟩, moments, by simp only [gfFromMomentsNd, hm], hm, .inr rfl, fun i => ?_⟩
    obtain ⟨g, hg, -⟩ := gf_from_moments_correct (fun k : Fin 0 => moments.at (k :: i)) width hw
    rw [hg]
    congr 1
    have hp : ∀ x y : PoleFct ℝ 0, x = y := by
      rintro ⟨a, b⟩ ⟨c, d⟩
      congr 1 <;> exact Subsingleton.elim _ _
    exact hp _ _
  · obtain ⟨m, rfl⟩ : ∃ m, n = m + 1 := ⟨n - 1, by omega⟩
    have key : ∀ w : Nd ℝ, w.dims.headD 1 = 1 → (w.dims.tail = s ∨ w.dims.tail = []) →
        (∀ i, w.at (0 :: i) = autoWidth (m + 1) (fun k : Fin (m + 1) => moments.at (k :: i)) width) →
        ∃ p r : Nd ℝ, (do
          let poles ← Nd.map2 (· * ·) w (chebNd (m + 1))
          match bcast poles.dims ((m + 1) :: s) with
          | some (n' :: s) => do
            let resid ← vanderSolveNd n' s poles moments
            .ok (poles, resid)
          | _ => .error .valueError) = .ok (p, r) ∧ r.dims = (m + 1) :: s ∧
          (p.dims = (m + 1) :: s ∨ p.dims = [m + 1]) ∧
          ∀ i, gfFromMoments (fun k : Fin (m + 1) => moments.at (k :: i)) width
            = .ok ⟨fun k => p.at (k :: i), fun k => r.get (k :: i)⟩ := by
      intro w h1 h2 h3
      have hne : ∀ i, m + 1 ≤ 1 ∨ w.at (0 :: i) ≠ 0 := by
        intro i
        rw [h3]
        rcases hw with hw | hw
        · cases width with
          | none =>
            by_cases hn : m + 1 ≤ 1
            · exact .inl hn
            · exact .inr (auto_width_pos (.inl (by omega)) _).ne'
          | some w => exact .inr fun h => hw (by simpa [autoWidth] using h)
        · exact .inl hw
      obtain ⟨p, r, e1, e2, e3, e4, e5⟩ := momTail (m + 1) h0 s moments w hm h1
        (by rcases h2 with h | h <;> simp [h])
        (by
          by_cases hn : m + 1 ≤ 1
          · exact .inl hn
          · exact .inr fun i _ => (hne i).resolve_left hn)
      refine ⟨p, r, e1, e3, by rw [e2]; rcases h2 with h | h <;> simp [h], fun i => ?_⟩
      have hpe : (fun k : Fin (m + 1) => p.at (k :: i))
          = fun k => autoWidth (m + 1) (fun k : Fin (m + 1) => moments.at (k :: i)) width * chebyshevPoints (m + 1) k := by
        funext k
        rw [e4, h3]
      have hdet : (vanderT ℝ (m + 1) fun k : Fin (m + 1) => p.at (k :: i)).det ≠ 0 := by
        refine (vander_square_det _).2 ?_
        intro a b hab
        simp only [e4] at hab
        rcases hne i with hw0 | hw0
        · exact Fin.ext (by have := a.2; have := b.2; omega)
        · exact (chebyshev_strictMono (m + 1)).injective (mul_left_cancel₀ hw0 hab)
      have hre : (fun k : Fin (m + 1) => r.get (k :: i)) = _ := funext (e5 i)
      rw [hre]
      unfold gfFromMoments
      simp only
      rw [← hpe]
      unfold vecsolve
      rw [if_neg hdet]
    unfold gfFromMomentsNd
    rw [hm]
    simp only
    cases width with
    | some w =>
      exact key (Nd.scalar w) rfl (.inr rfl) fun i => rfl
    | none =>
      by_cases hn : m + 1 ≤ 1
      · simp only [Option.map_none, if_pos hn]
        refine key (Nd.scalar 1) rfl (.inr rfl) fun i => ?_
        unfold autoWidth
        rw [dif_neg (by omega)]
        rfl
      · simp only [Option.map_none, if_neg hn]
        have hsl := (Rep.ofCons hm).slice' (by omega) 1 fun _ => 1
        obtain ⟨m1, q1, q2, q3⟩ := hsl
        rw [q1]
        simp only at q2
        refine key (m1.map fun x => if 0.1 ≤ |x| then |x| / chebMax (m + 1) else 1) (by simp [Nd.map, q2])
          (.inl (by simp [Nd.map, q2])) fun i => ?_
        have : ((m1.map fun x => if 0.1 ≤ |x| then |x| / chebMax (m + 1) else 1) : Nd ℝ).at (0 :: i)
            = if 0.1 ≤ |moments.at (1 :: i)| then |moments.at (1 :: i)| / chebMax (m + 1) else 1 := by
          simp only [Nd.at, Nd.map, q2]
          have := q3 (0 :: i)
          simp only [List.tail_cons, Nd.at] at this
          rw [this]
          by_cases h : (0.1 : ℝ) ≤ |moments.get (proj moments.dims (1 :: i))|
          · rw [if_pos h]
            exact (if_pos h).symm
          · rw [if_neg h]
            exact (if_neg h).symm
        rw [this]
        unfold autoWidth
        rw [dif_pos (by omega)]
        rfl

/-- `gf_from_moments` for stacks of moments of any shape, with automatic width or a float: every element is the pole Green's
function of its moments.  (Poles without leading axes are shared by all elements.) -/
theorem gf_from_moments_stack_partial (n : ℕ) (s : List ℕ) (moments : Nd ℝ) (hm : moments.dims = n :: s) (width : Option ℝ)
    (hw : width ≠ some 0 ∨ n ≤ 1) :
    ∃ p r : Nd ℝ, gfFromMomentsNd moments (width.map Nd.scalar) = .ok (p, r) ∧ r.dims = n :: s ∧
      (p.dims = n :: s ∨ p.dims = [n]) ∧
      ∀ i, InRange i s → gfFromMoments (fun k : Fin n => moments.get (k :: i)) width
        = .ok ⟨fun k => p.at (k :: i), fun k => r.get (k :: i)⟩ := by
  obtain ⟨p, r, h1, h2, h3, h5⟩ := momStack n s moments hm width hw
  refine ⟨p, r, h1, h2, h3, fun i hi => ?_⟩
  rw [← h5 i]
  congr 1
  funext k
  rw [Nd.at, hm, proj_inRange (List.Forall₂.cons k.2 hi)]

/-- **Violation**: `width` is documented as `float or (...) float array_like`, but a width for each element of a stack raises
`ValueError` (the array would need the shape `(..., 1)`), unless the size of the stack is the number of moments. -/
theorem gf_from_moments_width_fails (n A : ℕ) (hn : 2 ≤ n) (hA : A ≠ 1) (hAn : A ≠ n) (moments width : Nd ℝ)
    (hm : moments.dims = [n, A]) (hw : width.dims = [A]) :
    gfFromMomentsNd moments (some width) = .error .valueError := by
  obtain ⟨m, rfl⟩ : ∃ m, n = m + 1 := ⟨n - 1, by omega⟩
  unfold gfFromMomentsNd
  rw [hm]
  simp only
  have : Nd.map2 (fun x y : ℝ => x * y) width (chebNd (m + 1)) = .error .valueError := by
    have hb : bcast width.dims (chebNd (m + 1)).dims = none := by
      rw [hw]
      change bcast [A] [m + 1] = none
      rw [bcast_cons, bdim, if_neg hAn, if_neg hA, if_neg (by omega)]
      rfl
    unfold Nd.map2
    rw [hb]
  change (Nd.map2 (fun x y : ℝ => x * y) width (chebNd (m + 1)) >>= _) = _
  rw [this]
  rfl

/-- **Violation**: if the size of the stack is the number of moments, the widths are silently applied to the poles instead: the
`k`-th pole is scaled with the `k`-th width, for all elements of the stack. -/
theorem gf_from_moments_width_silent (n : ℕ) (moments width : Nd ℝ) (hm : moments.dims = [n, n]) (hw : width.dims = [n])
    (p r : Nd ℝ) (h : gfFromMomentsNd moments (some width) = .ok (p, r)) (hn : 0 < n) :
    p.dims = [n] ∧ ∀ k : Fin n, p.get [(k : ℕ)] = width.get [(k : ℕ)] * chebyshevPoints n k := by
  obtain ⟨m, rfl⟩ : ∃ m, n = m + 1 := ⟨n - 1, by omega⟩
  unfold gfFromMomentsNd at h
  rw [hm] at h
  simp only at h
  have : Nd.map2 (fun x y : ℝ => x * y) width (chebNd (m + 1))
      = .ok ⟨[m + 1], fun i => width.at i * (chebNd (m + 1)).at i⟩ := by
    have hb : bcast width.dims (chebNd (m + 1)).dims = some [m + 1] := by
      rw [hw]
      exact bcast_self _
    unfold Nd.map2
    rw [hb]
  change (Nd.map2 (fun x y : ℝ => x * y) width (chebNd (m + 1)) >>= _) = _ at h
  rw [this] at h
  change (match bcast [m + 1] [m + 1, m + 1] with
    | some (n' :: s) => _
    | _ => _) = _ at h
  have hb : bcast [m + 1] [m + 1, m + 1] = some [m + 1, m + 1] := by simp [bcast_cons]
  rw [hb] at h
  simp only at h
  unfold vanderSolveNd at h
  split_ifs at h
  · cases h
  · have h := (Except.ok.inj h)
    have hp := (Prod.mk.inj h).1
    subst hp
    refine ⟨rfl, fun k => ?_⟩
    have hk : InRange [(k : ℕ)] [m + 1] := List.Forall₂.cons k.2 .nil
    have e1 : width.at [(k : ℕ)] = width.get [(k : ℕ)] := by rw [Nd.at, hw, proj_inRange hk]
    have e2 : (chebNd (m + 1)).at [(k : ℕ)] = chebyshevPoints (m + 1) k := by
      rw [Nd.at, show (chebNd (m + 1)).dims = [m + 1] from rfl, proj_inRange hk]
      change (if h : (k : ℕ) < m + 1 then chebyshevPoints (m + 1) ⟨k, h⟩ else 0) = _
      rw [dif_pos k.2]
    simp only [e1, e2]

/-- `density_iw` with `n_fit=0`, for stacks of frequencies, Green's functions, weights and moments of any broadcastable shapes. -/
theorem density_iw_stack_partial (ext : LinalgExt ℝ) (iws gfIw : Nd ℂ) (beta : ℝ) (weights moments : Nd ℝ) (K M : ℕ)
    (is gs ws ms : List ℕ) (hi : iws.dims = K :: is) (hg : gfIw.dims = K :: gs)
    (hwK : weights.dims = K :: ws ∨ weights.dims = [] ∧ ws = []) (hm : moments.dims = M :: ms) :
    StackedOk (densityIwNd iws gfIw beta weights moments) (bcastAll [is, gs, ws, ms])
      fun i => densityIw ext (fun k : Fin K => iws.at (k :: i)) (fun k : Fin K => gfIw.at (k :: i)) beta
        (fun k : Fin K => weights.at (k :: i)) (fun k : Fin M => moments.at (k :: i)) 0 := by
  have hmr := (Rep.ofCons hm).newaxis2'
  obtain ⟨m2, hm1, hm2, hm3⟩ := hmr
  simp only at hm2
  obtain ⟨p, r, e1, e2, e3, e4⟩ := momStack M (1 :: ms) m2 hm2 none (by simp)
  have hm2at : ∀ i (k : Fin M) w, m2.at (k :: w :: i) = moments.at (k :: i) := by
    intro i k w
    have := hm3 (k :: w :: i)
    simp only [List.headD_cons, List.tail_cons] at this
    rw [← this, Nd.at, hm2]
  have hrr : Rep (.ok r) (((some ms).map (1 :: ·)).map (M :: ·)) r.at := ⟨r, rfl, e2, fun i => by rw [Nd.at, e2]⟩
  have hpr : Rep (.ok p) ((some p.dims.tail).map (M :: ·)) p.at := by
    rcases e3 with h | h <;> exact ⟨p, rfl, by rw [h]; rfl, fun i => by rw [Nd.at, h]; rfl⟩
  have hrat : ∀ i (k : Fin M) w, r.at (k :: w :: i) = r.get (k :: 0 :: proj ms i) := by
    intro i k w
    have hk : (if M = 1 then 0 else (k : ℕ)) = k := by
      split_ifs with h
      · have := k.2
        omega
      · rfl
    rw [Nd.at, e2, proj_cons, proj_cons, List.headD_cons, hk]
    rfl
  have hpat : ∀ i (k : Fin M) w, p.at (k :: w :: i) = p.at (k :: 0 :: proj ms i) := by
    intro i k w
    have hk : (if M = 1 then 0 else (k : ℕ)) = k := by
      split_ifs with h
      · have := k.2
        omega
      · rfl
    rcases e3 with h | h
    · rw [Nd.at, Nd.at, h]
      simp only [proj_cons, List.headD_cons, hk, if_true, List.tail_cons, proj_self]
    · rw [Nd.at, Nd.at, h]
      rfl
  have hscal : ∀ i, gfFromMoments (fun k : Fin M => moments.at (k :: i)) none
      = .ok ⟨fun k => p.at (k :: 0 :: proj ms i), fun k => r.get (k :: 0 :: proj ms i)⟩ := by
    intro i
    rw [← e4 (0 :: proj ms i)]
    congr 1
    funext k
    rw [hm2at, Nd.at, Nd.at, hm, proj_cons, proj_cons]
    simp only [List.headD_cons, List.tail_cons, proj_self]
  obtain ⟨P, hP⟩ : ∃ P : List ℕ → Fin M → ℝ, ∀ i k, P i k = p.at (k :: 0 :: proj ms i) := ⟨_, fun _ _ => rfl⟩
  replace hpat : ∀ i (k : Fin M) w, p.at (k :: w :: i) = P i k := fun i k w => by rw [hP, hpat]
  replace hscal : ∀ i, gfFromMoments (fun k : Fin M => moments.at (k :: i)) none
      = .ok ⟨P i, fun k => r.get (k :: 0 :: proj ms i)⟩ := fun i => by
    rw [hscal]
    congr 2
    funext k
    rw [hP]
  have hpt : bc (some p.dims.tail) ((some ms).map (1 :: ·)) = (some ms).map (1 :: ·) := by
    rcases e3 with h | h
    · rw [h]
      exact bc_self _
    · rw [h]
      exact bc_nil_left _
  refine Rep.stackedOk' (F := fun i => 2 / beta * (∑ k ∈ Finset.range K, weights.at (k :: i) * ((gfIw.at (k :: i)).re
      - (poleGfZ (iws.at (k :: i)) (fun j : Fin M => ((p.at (j :: k :: i) : ℝ) : ℂ))
        (fun j : Fin M => ((r.at (j :: k :: i) : ℝ) : ℂ))).re))
      + ∑ j ∈ Finset.range M, r.at (j :: 0 :: i) * fermiFct (p.at (j :: 0 :: i)) beta) ?_ ?_
  · unfold densityIwNd
    rw [hm1]
    change Rep (gfFromMomentsNd m2 none >>= _) _ _
    rw [show gfFromMomentsNd m2 none = .ok (p, r) from e1]
    change Rep (poleGfZNd iws (p.map _) (r.map _) >>= _) _ _
    have hpd : (p.map fun x : ℝ => (x : ℂ)).dims = p.dims := rfl
    have hrd : (r.map fun x : ℝ => (x : ℂ)).dims = r.dims := rfl
    have hmom := gf_z_rep iws (p.map fun x : ℝ => (x : ℂ)) (r.map fun x : ℝ => (x : ℂ)) M (by
      rw [hpd, hrd, e2]
      rcases e3 with h | h <;> rw [h] <;> exact bdim_self M)
    rw [hpd, hrd, e2, List.tail_cons, bcastAll_cons, bcastAll_cons, bcastAll_one,
      show (some (1 :: ms)) = (some ms).map (1 :: ·) from rfl, hpt, hi,
      show (some (K :: is)) = (some is).map (K :: ·) from rfl, bc_map_cons (bdim_one_right _)] at hmom
    refine Rep.bindC hmom (by bc_simp) fun mom hmom => ?_
    have hdl := Rep.map2' (Rep.ofCons hg) hmom (fun g m : ℂ => g.re - m.re)
    rw [bc_map_cons (bdim_self _)] at hdl
    refine Rep.bindC hdl (by bc_simp) fun dl hdl => ?_
    have hwd := Rep.map2' (Rep.of weights) hdl (fun x y : ℝ => x * y)
    have hwt : weights.dims.tail = ws := by
      rcases hwK with h | h
      · rw [h]
        rfl
      · rw [h.1, h.2]
        rfl
    have hwh : bdim K (weights.dims.headD 1) = some K := by
      rcases hwK with h | h
      · rw [h]
        exact bdim_self K
      · rw [h.1]
        exact bdim_one_right K
    rw [bc_comm, bc_cons K _ weights.dims hwh, hwt] at hwd
    refine Rep.bindC hwd (by bc_simp) fun wd hwd => ?_
    have hoc := Rep.map2' hrr hpr (fun r p => r * fermiFct p beta)
    rw [bc_map_cons (bdim_self _), bc_comm, hpt] at hoc
    refine Rep.bind hoc (fun h => by simp at h) fun oc hoc => ?_
    have hoc0 := Rep.select' (k := 0) hoc.sum' (by norm_num)
    refine Rep.bindA hoc0 (by bc_simp) fun oc0 hoc0 => ?_
    exact (Rep.map2' hwd.sum' hoc0 _).congr (by bc_simp) fun i => rfl
  · intro i
    unfold densityIw
    simp only [ne_eq, not_true_eq_false, if_false]
    rw [hscal]
    simp only
    congr 2
    · congr 1
      rw [Finset.sum_range]
      refine Finset.sum_congr rfl fun k _ => ?_
      simp only [hrat, hpat]
    · rw [poleOcc, Finset.sum_range]
      refine Finset.sum_congr rfl fun k _ => ?_
      simp only [hrat, hpat]

lemma tauAll {beta : ℝ} (hb : 0 ≤ beta) (nt : ℕ) :
    ∀ i : Fin nt, 0 ≤ linspace0 beta nt i ∧ linspace0 beta nt i ≤ beta := by
  intro i
  unfold linspace0
  split_ifs with h
  · exact ⟨le_rfl, hb⟩
  · have h1 := i.2
    have hnt : (1 : ℝ) < nt := by
      have : 1 < nt := by omega
      exact_mod_cast this
    have hi : (i : ℝ) ≤ nt - 1 := by
      have : (i : ℕ) + 1 ≤ nt := h1
      have : ((i : ℕ) : ℝ) + 1 ≤ nt := by exact_mod_cast this
      linarith
    have hpos : (0 : ℝ) < nt - 1 := by linarith
    refine ⟨by positivity, ?_⟩
    rw [mul_div_assoc', div_le_iff₀ hpos, mul_comm]
    exact mul_le_mul_of_nonneg_left hi hb

/-- **Violation**: `weight` is documented as `(..., N_tau)`, but `gf_from_tau` raises `ValueError` for every weight with leading
axes: the matrix of the fit is multiplied in place. -/
theorem gf_from_tau_weight_fails (ext : LinalgExt ℝ) (gfTau : Nd ℝ) (n : ℕ) (hn : n ≠ 0) (beta : ℝ) (hb : 0 ≤ beta)
    (moments : Nd ℝ) (width : ℝ) (weight : Nd ℝ) (nt A l : ℕ) (gs ws ms : List ℕ) (hg : gfTau.dims = nt :: gs)
    (hm : moments.dims = l :: ms) (hw : weight.dims = nt :: A :: ws) :
    gfFromTauNd ext gfTau n beta moments width (some weight) = .error .valueError := by
  unfold gfFromTauNd
  simp only [hg, hm]
  rw [if_neg hn, if_neg (not_not.2 (tauAll hb nt))]
  have : ∀ m : Nd ℝ, m.dims = [n, nt] → Nd.imap2 (fun x y : ℝ => x * y) m weight.newaxis = .error .valueError := by
    intro m hm
    have hb : bcast m.dims weight.newaxis.dims = some (n :: nt :: A :: ws) := by
      rw [hm]
      change bcast [n, nt] (1 :: weight.dims) = _
      rw [hw]
      simp [bcast_cons]
    unfold Nd.imap2
    rw [hb]
    simp only
    rw [if_neg]
    rw [hm]
    simp
  rw [this _ rfl]
  rfl

/-- `gf_from_tau` (without fixed occupation) for stacks of data and moments, and no or a one-dimensional `weight`: the residues of every
element of the stack are those of its data. -/
theorem gf_from_tau_stack_partial (ext : LinalgExt ℝ) (gfTau : Nd ℝ) (n : ℕ) (beta : ℝ) (hb : 0 ≤ beta)
    (moments : Nd ℝ) (width : ℝ) (weight : Option (Nd ℝ)) (nt l : ℕ) (gs ms s : List ℕ) (hg : gfTau.dims = nt :: gs)
    (hm : moments.dims = l :: ms) (hms : l = 0 → ms = []) (hw : ∀ w, weight = some w → w.dims = [nt])
    (hs : bcast gs ms = some s)
    (hok : ∀ i, InRange i s → ∃ g, gfFromTau ext (fun k : Fin nt => gfTau.at (k :: i)) n beta
      (fun k : Fin l => moments.at (k :: i)) 0 width (weight.map fun w k => w.get [(k : ℕ)]) = .ok g)
    (hne : ∃ i, InRange i s) :
    ∃ r : Nd ℝ, gfFromTauNd ext gfTau n beta moments width weight = .ok r ∧ r.dims = n :: s ∧
      ∀ i, InRange i s → gfFromTau ext (fun k : Fin nt => gfTau.at (k :: i)) n beta
        (fun k : Fin l => moments.at (k :: i)) 0 width (weight.map fun w k => w.get [(k : ℕ)])
        = .ok ⟨fun k => width * chebyshevPoints n k, fun k => r.get (k :: i)⟩ := by
  classical
  obtain ⟨i0, hi0⟩ := hne
  have hn : n ≠ 0 := by
    rintro rfl
    obtain ⟨g, hg⟩ := hok i0 hi0
    unfold gfFromTau at hg
    rw [if_pos rfl] at hg
    cases hg
  have htau := tauAll hb nt
  obtain ⟨wt, hwt⟩ : ∃ wt : Fin nt → ℝ, wt = (weight.map fun w k => w.get [((k : Fin nt) : ℕ)]).getD fun _ => 1 := ⟨_, rfl⟩
  obtain ⟨A, hA⟩ : ∃ A, A = fitMatTau (k := nt) beta (fun k => width * chebyshevPoints n k) wt := ⟨_, rfl⟩
  -- the matrix and the data after the weighting
  have hgfat : ∀ i (k : Fin nt), gfTau.at (k :: i) = gfTau.get (k :: proj gs i) := by
    intro i k
    rw [Nd.at, hg, proj_cons]
    congr 2
    rw [List.headD_cons]
    split_ifs with h
    · have := k.2
      omega
    · rfl
  have key : ∀ (mat gf : Nd ℝ), (∀ (i : Fin nt) (j : Fin n), mat.get [(j : ℕ), (i : ℕ)] = A i j) → gf.dims = nt :: gs →
      (∀ i (k : Fin nt), gf.at (k :: i) = wt k * gfTau.at (k :: i)) →
      ∃ r : Nd ℝ, (if 0 < l then
        if n < l then .error .valueError
        else match gf.dims with
          | nt' :: gs => if nt' ≠ nt then .error .valueError else
            match bcast gs ms with
            | none => .error .valueError
            | some s =>
              if ∃ i, List.Forall₂ (· < ·) i s ∧ ∃ e, lstsqEc ext (Matrix.of fun (i : Fin nt) (j : Fin n) => mat.get [(j : ℕ), (i : ℕ)]) (fun k : Fin nt => gf.at (k :: i)) (vanderT ℝ l (fun k => width * chebyshevPoints n k))
                (fun k : Fin l => moments.at (k :: i)) = .error e then .error .linAlgError
              else .ok ⟨n :: s, fun i => match lstsqEc ext (Matrix.of fun (i : Fin nt) (j : Fin n) => mat.get [(j : ℕ), (i : ℕ)]) (fun k : Fin nt => gf.at (k :: i.tail)) (vanderT ℝ l (fun k => width * chebyshevPoints n k))
                (fun k : Fin l => moments.at (k :: i.tail)) with
                | .ok r => if h : i.headD 0 < n then r ⟨_, h⟩ else 0
                | .error _ => 0⟩
          | [] => .error .valueError
        else match gf.dims with
          | nt' :: gs => if nt' ≠ nt then .error .valueError else
            .ok ⟨n :: gs, fun i => if h : i.headD 0 < n then ext.lstsq (Matrix.of fun (i : Fin nt) (j : Fin n) => mat.get [(j : ℕ), (i : ℕ)]) (fun k : Fin nt => gf.at (k :: i.tail)) ⟨_, h⟩ else 0⟩
          | [] => .error .valueError : Except Err (Nd ℝ)) = .ok r ∧ r.dims = n :: s ∧
      ∀ i, InRange i s → gfFromTau ext (fun k : Fin nt => gfTau.at (k :: i)) n beta
        (fun k : Fin l => moments.at (k :: i)) 0 width (weight.map fun w k => w.get [(k : ℕ)])
        = .ok ⟨fun k => width * chebyshevPoints n k, fun k => r.get (k :: i)⟩ := by
    intro mat gf hmat hgf hgat
    have hmat' : (Matrix.of fun (i : Fin nt) (j : Fin n) => mat.get [(j : ℕ), (i : ℕ)]) = A := by
      ext i j
      exact hmat i j
    have hvec : ∀ i, (fun k : Fin nt => gf.at (k :: i)) = fun k => wt k * gfTau.at (k :: i) := fun i => funext (hgat i)
    rw [hmat', hgf]
    simp only [hvec]
    by_cases hl : 0 < l
    · have hexp : ∀ i, gfFromTau ext (fun k : Fin nt => gfTau.at (k :: i)) n beta
          (fun k : Fin l => moments.at (k :: i)) 0 width (weight.map fun w k => w.get [(k : ℕ)])
          = if n < l then .error .valueError else
            match lstsqEc ext A (fun k => wt k * gfTau.at (k :: i)) (vanderT ℝ l fun k => width * chebyshevPoints n k)
              (fun k : Fin l => moments.at (k :: i)) with
            | .ok resid => .ok ⟨fun k => width * chebyshevPoints n k, resid⟩
            | .error e => .error e := by
        intro i
        unfold gfFromTau
        rw [if_neg hn]
        simp only
        rw [if_neg (not_not.2 htau), if_pos (.inl hl), ← hwt, ← hA]
        have h0 : truncInt 0 = 0 := by simp [truncInt]
        simp only [h0, add_zero, Nat.cast_lt, ne_eq, not_true_eq_false, if_false, if_neg hl.ne']
        by_cases hnl : n < l
        · rw [if_pos hnl, if_pos hnl]
        · rw [if_neg hnl, if_neg hnl]
          cases lstsqEc ext A (fun k => wt k * gfTau.at (k :: i)) (vanderT ℝ l fun k => width * chebyshevPoints n k)
            (fun k : Fin l => moments.at (k :: i)) <;> rfl
      simp only [hexp] at hok ⊢
      have hnl : ¬ n < l := by
        intro h
        obtain ⟨g, hg⟩ := hok i0 hi0
        rw [if_pos h] at hg
        cases hg
      simp only [if_pos hl, if_neg hnl, ne_eq, not_true_eq_false, if_false, hs] at hok ⊢
      rw [if_neg]
      · refine ⟨_, rfl, rfl, fun i hi => ?_⟩
        obtain ⟨g, hg⟩ := hok i hi
        cases hL : lstsqEc ext A (fun k => wt k * gfTau.at (k :: i)) (vanderT ℝ l fun k => width * chebyshevPoints n k)
          (fun k : Fin l => moments.at (k :: i)) with
        | error e => rw [hL] at hg; cases hg
        | ok x =>
          simp only [List.tail_cons, hL, List.headD_cons, Fin.is_lt, ↓reduceDIte, Fin.eta]
      · rintro ⟨i, hi, e, he⟩
        obtain ⟨g, hg⟩ := hok i hi
        rw [he] at hg
        cases hg
    · have hl0 : l = 0 := by omega
      have hgs : gs = s := by
        rw [hms hl0, bcast_nil_right] at hs
        exact Option.some.inj hs
      simp only [if_neg hl, ne_eq, not_true_eq_false, if_false]
      refine ⟨_, rfl, by rw [hgs], fun i hi => ?_⟩
      unfold gfFromTau
      rw [if_neg hn]
      simp only
      rw [if_neg (not_not.2 htau), if_neg (by simp [hl]), ← hwt, ← hA]
      simp only [List.tail_cons, List.headD_cons, Fin.is_lt, ↓reduceDIte, Fin.eta]
  unfold gfFromTauNd
  simp only [hg, hm]
  rw [if_neg hn, if_neg (not_not.2 htau)]
  cases weight with
  | none =>
    refine key _ gfTau (fun i j => ?_) hg (fun i k => ?_)
    · simp only [List.tail_cons, List.headD_cons]
      refine (dif_pos ⟨i.2, j.2⟩).trans ?_
      rw [hA, hwt]
      simp [fitMatTau]
    · rw [hwt]
      simp
  | some w =>
    have hwd := hw w rfl
    have e1 : ∀ m : Nd ℝ, m.dims = [n, nt] → Nd.imap2 (fun x y : ℝ => x * y) m w.newaxis
        = .ok ⟨[n, nt], fun i => m.at i * w.newaxis.at i⟩ := by
      intro m hm
      have hb : bcast m.dims w.newaxis.dims = some [n, nt] := by
        rw [hm]
        change bcast [n, nt] (1 :: w.dims) = _
        rw [hwd]
        simp [bcast_cons]
      unfold Nd.imap2
      rw [hb]
      simp only [hm, if_true]
    have e2 : Nd.map2 (fun x y : ℝ => x * y) gfTau w = .ok ⟨nt :: gs, fun i => gfTau.at i * w.at i⟩ := by
      have hb : bcast gfTau.dims w.dims = some (nt :: gs) := by
        rw [hg, hwd, bcast_cons]
        simp
      unfold Nd.map2
      rw [hb]
    simp only
    rw [e1 _ rfl, e2]
    have hwat : ∀ (k : Fin nt) (i : List ℕ), w.at ((k : ℕ) :: i) = w.get [(k : ℕ)] := by
      intro k i
      rw [Nd.at, hwd, proj_cons]
      have := k.2
      split_ifs with h
      · have : (k : ℕ) = 0 := by omega
        rw [this]; rfl
      · rfl
    refine key ⟨[n, nt], _⟩ ⟨nt :: gs, fun i => gfTau.at i * w.at i⟩ (fun i j => ?_) rfl (fun i k => ?_)
    · have hr : InRange [(j : ℕ), (i : ℕ)] [n, nt] := .cons j.2 (.cons i.2 .nil)
      have hwn : w.newaxis.at [(j : ℕ), (i : ℕ)] = w.get [(i : ℕ)] := by
        have : w.newaxis.at [(j : ℕ), (i : ℕ)] = w.at [(i : ℕ)] := rfl
        rw [this, hwat]
      rw [hA, hwt]
      simp only [hwn, Nd.at, proj_inRange hr, List.tail_cons, List.headD_cons]
      rw [mul_comm]
      simp only [fitMatTau, Matrix.of_apply, Option.map_some, Option.getD_some, Fin.is_lt, and_self, ↓reduceDIte, Fin.eta]
      exact congrArg (· * _) hwn
    · have hp : (⟨nt :: gs, fun i => gfTau.at i * w.at i⟩ : Nd ℝ).at ((k : ℕ) :: i)
          = gfTau.at (proj (nt :: gs) (k :: i)) * w.at (proj (nt :: gs) (k :: i)) := rfl
      rw [hp]
      have h1 : gfTau.at (proj (nt :: gs) (k :: i)) = gfTau.at (k :: i) := by
        rw [Nd.at, Nd.at, hg, proj_self]
      have h2 : proj (nt :: gs) ((k : ℕ) :: i) = (k : ℕ) :: proj gs i := by
        rw [proj_cons]
        have := k.2
        split_ifs with h
        · have : (k : ℕ) = 0 := by omega
          rw [this]; rfl
        · rfl
      rw [h1, h2, hwat, hwt, mul_comm]
      rfl

/-! ## Linear prediction -/

private lemma proj_cons_lt {n k : ℕ} (h : k < n) (d i : List ℕ) : proj (n :: d) (k :: i) = k :: proj d i := by
  rw [proj_cons]
  split_ifs with h1
  · have : k = 0 := by omega
    rw [this]; rfl
  · rfl

private lemma predictLoop_stack (pc : Nd ℂ) (p : ℕ) (ps xs : List ℕ) (hp : pc.dims = p :: ps) (hb : bcast ps xs = some xs)
    (total : ℕ) : ∀ (num ii : ℕ) (xt : Nd ℂ), p ≤ ii → xt.dims = total :: xs →
    ∃ r, predictLoopNd pc p total num ii xt = .ok r ∧ r.dims = total :: xs ∧ ∀ i, InRange i xs →
      (∀ k < ii, r.get (k :: i) = xt.get (k :: i)) ∧
      ∀ k, ii ≤ k → k < ii + num → RecursAt (List.ofFn fun k : Fin p => pc.at (k :: i)) (fun k => r.get (k :: i)) k := by
  intro num
  induction num with
  | zero => intro ii xt _ hx; exact ⟨xt, rfl, hx, fun i _ => ⟨fun _ _ => rfl, by omega⟩⟩
  | succ num ih =>
    intro ii xt hle hx
    have hsub : ii - (ii - p) = p := by omega
    obtain ⟨v, hv1, hv2⟩ : ∃ v : Nd ℂ, (do
        let rev ← pc.slice p fun k => p - 1 - k
        let sl ← xt.slice p fun k => ii - p + k
        let q ← Nd.map2 (fun x y : ℂ => x * y) rev sl
        .ok (q.sum.map (- ·))) = .ok v ∧ v.dims = xs ∧ ∀ i, InRange i xs →
          v.get i = - ∑ k ∈ Finset.range p, pc.at (k :: i) * xt.get ((ii - 1 - k) :: i) := by
      have h1 : pc.slice p (fun k => p - 1 - k) = .ok ⟨p :: ps, fun i => pc.get ((p - 1 - i.headD 0) :: i.tail)⟩ := by
        unfold Nd.slice; rw [hp]
      have h2 : xt.slice p (fun k => ii - p + k) = .ok ⟨p :: xs, fun i => xt.get ((ii - p + i.headD 0) :: i.tail)⟩ := by
        unfold Nd.slice; rw [hx]
      have hbb : bcast (p :: ps) (p :: xs) = some (p :: xs) := by simp [bcast_cons, hb]
      rw [h1, h2]
      refine ⟨_, by
        simp only [bind, Except.bind, Nd.map2, hbb]
        rfl, rfl, fun i hi => ?_⟩
      change - ∑ k ∈ Finset.range p, _ = _
      rw [← Finset.sum_range_reflect]
      congr 1
      refine Finset.sum_congr rfl fun k hk => ?_
      have hk' := Finset.mem_range.1 hk
      have hk2 : p - 1 - k < p := by omega
      simp only [Nd.at, proj_cons_lt hk2, proj_cons_lt hk', hp, List.headD_cons, List.tail_cons, proj_inRange hi]
      rw [show p - 1 - (p - 1 - k) = k by omega, show ii - p + (p - 1 - k) = ii - 1 - k by omega]
    have hset : xt.setLast ii v = .ok ⟨xt.dims, fun i => if i.headD 0 = ii then v.at i.tail else xt.get i⟩ := by
      unfold Nd.setLast
      rw [if_pos]
      rw [hx, hv2.1]
      exact bcast_strip xs
    obtain ⟨r, hr1, hr2, hr3⟩ := ih (ii + 1) ⟨xt.dims, fun i => if i.headD 0 = ii then v.at i.tail else xt.get i⟩ (by omega) hx
    refine ⟨r, ?_, hr2, fun i hi => ?_⟩
    · rw [predictLoopNd]
      simp only [if_pos hle, hsub]
      revert hv1
      cases pc.slice p fun k => p - 1 - k with
      | error e => intro h; cases h
      | ok rev =>
      cases xt.slice p fun k => ii - p + k with
      | error e => intro h; cases h
      | ok sl =>
      change (Nd.map2 (fun x y : ℂ => x * y) rev sl >>= _) = _ → (Nd.map2 (fun x y : ℂ => x * y) rev sl >>= _) = _
      cases Nd.map2 (fun x y : ℂ => x * y) rev sl with
      | error e => intro h; cases h
      | ok q =>
      intro h
      injection h with h
      change (xt.setLast ii (q.sum.map (- ·)) >>= _) = _
      rw [h, hset]
      exact hr1
    · obtain ⟨h1, h2⟩ := hr3 i hi
      have hlt : ∀ k < ii, r.get (k :: i) = xt.get (k :: i) := by
        intro k hk
        rw [h1 k (by omega)]
        exact if_neg (by simpa using hk.ne)
      refine ⟨hlt, fun k hk1 hk2 => ?_⟩
      by_cases hki : k = ii
      · subst hki
        unfold RecursAt
        simp only [List.length_ofFn]
        rw [h1 k (by omega)]
        have hvat : v.at i = v.get i := by rw [Nd.at, hv2.1, proj_inRange hi]
        simp only [List.headD_cons, if_true, List.tail_cons, hvat]
        rw [hv2.2 i hi]
        congr 1
        refine Finset.sum_congr rfl fun j hj => ?_
        have hj' := Finset.mem_range.1 hj
        rw [hlt _ (by omega), List.getD_eq_getElem?_getD, List.getElem?_eq_getElem (by simpa using hj'), List.getElem_ofFn]
        rfl
      · exact h2 k (by omega) (by omega)

/-- `predict` (`stable=False`) for a stack of series and a stack of coefficients: if the leading axes of `pcoeff` can be broadcast to those
of `x`, every series is continued with its coefficients. -/
theorem predict_stack (x pc : Nd ℂ) (N p num : ℕ) (xs ps : List ℕ) (hx : x.dims = N :: xs) (hp : pc.dims = p :: ps)
    (hb : bcast ps xs = some xs) (hle : p ≤ N) :
    ∃ r, predictNd x pc num = .ok r ∧ r.dims = (N + num) :: xs ∧ ∀ i, InRange i xs →
      predict (List.ofFn fun k : Fin N => x.get (k :: i)) (List.ofFn fun k : Fin p => pc.at (k :: i)) num
        = .ok (List.ofFn fun k : Fin (N + num) => r.get (k :: i)) := by
  obtain ⟨r, h1, h2, h3⟩ := predictLoop_stack pc p ps xs hp hb (N + num) num N
    ⟨(N + num) :: xs, fun i => if i.headD 0 < N then x.get i else 0⟩ hle rfl
  refine ⟨r, ?_, h2, fun i hi => ?_⟩
  · unfold predictNd
    rw [if_neg (by omega), hx, hp]
    simpa using h1
  · obtain ⟨h4, h5⟩ := h3 i hi
    obtain ⟨y, hy1, hy2, hy3, hy4⟩ := predict_correct (List.ofFn fun k : Fin N => x.get (k :: i))
      (List.ofFn fun k : Fin p => pc.at (k :: i)) num (by simpa using hle)
    rw [hy1]
    simp only [List.length_ofFn] at hy2 hy3 hy4
    congr 1
    have hu := recurs_unique (List.ofFn fun k : Fin p => pc.at (k :: i)) N (N + num) (fun k => y.getD k 0)
      (fun k => r.get (k :: i)) (by simpa using hle) (fun k hk => by
        have ha : (y.take N)[k]? = (List.ofFn fun k : Fin N => x.get (k :: i))[k]? := by rw [hy3]
        rw [List.getElem?_take_of_lt hk] at ha
        rw [h4 k hk]
        simp only [List.getD_eq_getElem?_getD, ha, List.headD_cons]
        rw [List.getElem?_eq_getElem (by simpa using hk)]
        simp [hk]) hy4 h5
    refine List.ext_getElem (by simpa using hy2) fun k hk1 hk2 => ?_
    have := hu k (by omega)
    rw [List.getD_eq_getElem?_getD, List.getElem?_eq_getElem hk1] at this
    simpa using this

/-- … but a single series cannot be continued with a stack of coefficients: the broadcast values do not fit into the array of the
series. -/
theorem predict_stack_fails (x pc : Nd ℂ) (N p A num : ℕ) (ps : List ℕ) (hx : x.dims = [N]) (hp : pc.dims = p :: A :: ps)
    (hA : A ≠ 1) (hle : p ≤ N) : predictNd x pc (num + 1 : ℕ) = .error .valueError := by
  unfold predictNd
  rw [if_neg (by omega), hx, hp, Int.toNat_natCast]
  simp only
  rw [predictLoopNd]
  simp only [if_pos hle, show N - (N - p) = p by omega]
  have h1 : pc.slice p (fun k => p - 1 - k) = .ok ⟨p :: A :: ps, fun i => pc.get ((p - 1 - i.headD 0) :: i.tail)⟩ := by
    unfold Nd.slice; rw [hp]
  rw [h1]
  have hbb : bcast (p :: A :: ps) [p] = some (p :: A :: ps) := by simp [bcast_cons]
  simp only [Nd.slice, bind, Except.bind, Nd.map2, hbb]
  unfold Nd.setLast
  rw [if_neg]
  change ¬ bcast [] ((A :: ps).rdropWhile (· = 1)) = some []
  rw [bcast, Option.some.injEq, List.rdropWhile_eq_nil_iff]
  intro h
  simpa using hA (by simpa using h A (by simp))

private lemma stableLoop (p : ℕ) (ps xs : List ℕ) (eig : List ℕ → Fin p → ℂ) (vec : (List ℕ → Fin p → ℂ) → Nd ℂ)
    (hv : (vec eig).dims = p :: ps) (hb : bcast ps xs = some xs) (total : ℕ) :
    ∀ (num ii : ℕ) (res xt : Nd ℂ), res.dims = p :: xs → xt.dims = total :: xs →
    ∃ r, predictStableDecNd.loop p eig vec num ii res xt = .ok r ∧ r.dims = total :: xs ∧ ∀ i, InRange i xs →
      (∀ k < ii, r.get (k :: i) = xt.get (k :: i)) ∧
      ∀ k < num, r.get ((ii + k) :: i)
        = ∑ j ∈ Finset.range p, res.get (j :: i) * (vec eig).at (j :: i) ^ (k + 1) := by
  intro num
  induction num with
  | zero => intro ii res xt _ hx; exact ⟨xt, rfl, hx, fun i _ => ⟨fun _ _ => rfl, by omega⟩⟩
  | succ num ih =>
    intro ii res xt hres hx
    have hbb : bcast res.dims (vec eig).dims = some (p :: xs) := by
      rw [hres, hv, bcast_comm]; simp [bcast_cons, hb]
    have h1 : Nd.imap2 (fun x y : ℂ => x * y) res (vec eig) = .ok ⟨p :: xs, fun i => res.at i * (vec eig).at i⟩ := by
      unfold Nd.imap2
      rw [hbb]
      simp only [hres, if_true]
    obtain ⟨res', hres'⟩ : ∃ r : Nd ℂ, r = ⟨p :: xs, fun i => res.at i * (vec eig).at i⟩ := ⟨_, rfl⟩
    have hsum : res'.sum = ⟨xs, fun i => ∑ k ∈ Finset.range p, res'.get (k :: i)⟩ := by
      rw [hres']; rfl
    have hset : xt.setLast ii res'.sum
        = .ok ⟨xt.dims, fun i => if i.headD 0 = ii then res'.sum.at i.tail else xt.get i⟩ := by
      unfold Nd.setLast
      rw [if_pos]
      rw [hx, hsum]
      exact bcast_strip xs
    have hget : ∀ i, InRange i xs → ∀ j < p, res'.get (j :: i) = res.get (j :: i) * (vec eig).at (j :: i) := by
      intro i hi j hj
      rw [hres']
      simp only
      rw [Nd.at, hres, proj_inRange (.cons hj hi)]
    obtain ⟨r, hr1, hr2, hr3⟩ := ih (ii + 1) res' ⟨xt.dims, fun i => if i.headD 0 = ii then res'.sum.at i.tail else xt.get i⟩
      (by rw [hres']) hx
    refine ⟨r, ?_, hr2, fun i hi => ?_⟩
    · rw [predictStableDecNd.loop, h1, ← hres']
      change (xt.setLast ii res'.sum >>= _) = _
      rw [hset]
      exact hr1
    · obtain ⟨h1, h2⟩ := hr3 i hi
      refine ⟨fun k hk => ?_, fun k hk => ?_⟩
      · rw [h1 k (by omega)]
        exact if_neg (by simpa using hk.ne)
      · rcases k with _ | k
        · rw [add_zero, h1 ii (by omega)]
          simp only [List.headD_cons, if_true, List.tail_cons]
          have hsat : res'.sum.at i = ∑ k ∈ Finset.range p, res'.get (k :: i) := by
            rw [hsum, Nd.at, proj_inRange hi]
          rw [hsat]
          refine Finset.sum_congr rfl fun j hj => ?_
          rw [hget i hi j (Finset.mem_range.1 hj)]
          simp
        · rw [show ii + (k + 1) = ii + 1 + k by omega, h2 k (by omega)]
          refine Finset.sum_congr rfl fun j hj => ?_
          rw [hget i hi j (Finset.mem_range.1 hj)]
          ring

open scoped Classical in
private lemma stableDec (x : Nd ℂ) (N p num : ℕ) (ps xs : List ℕ) (rv0 eig : List ℕ → Fin p → ℂ)
    (rvInv : List ℕ → Matrix (Fin p) (Fin p) ℂ) (hx : x.dims = N :: xs) (hle : p ≤ N) (hb : bcast ps xs = some xs) :
    ((¬ (p :: ps) <:+ (p :: xs)) → predictStableDecNd x p ps rv0 eig rvInv num = .error .indexError) ∧
    ((p :: ps) <:+ (p :: xs) → ∃ r, predictStableDecNd x p ps rv0 eig rvInv num = .ok r ∧ r.dims = (N + num) :: xs ∧
      ∀ i, InRange i xs → (∀ k < N, r.get (k :: i) = x.get (k :: i)) ∧
        ∀ k < num, r.get ((N + k) :: i) = ∑ j : Fin p,
          (if 1 < ‖(if h : (((j : ℕ) :: i).drop (xs.length - ps.length)).headD 0 < p then
            eig (((j : ℕ) :: i).drop (xs.length - ps.length)).tail ⟨_, h⟩ else 0)‖ then 0
            else rv0 (proj ps i) j * ∑ m : Fin p, rvInv (proj ps i) j m * x.get ((N - 1 - m) :: i))
          * eig (proj ps i) j ^ (k + 1)) := by
  obtain ⟨vec, hvec⟩ : ∃ vec : (List ℕ → Fin p → ℂ) → Nd ℂ,
      vec = fun f => ⟨p :: ps, fun i => if h : i.headD 0 < p then f i.tail ⟨_, h⟩ else 0⟩ := ⟨_, rfl⟩
  have hvd : ∀ f, (vec f).dims = p :: ps := fun f => by rw [hvec]
  have hvat : ∀ f i (j : Fin p), (vec f).at ((j : ℕ) :: i) = f (proj ps i) j := by
    intro f i j
    rw [Nd.at, hvd, proj_cons_lt j.2, hvec]
    simp
  have hst : x.slice (min p N) (fun k => N - 1 - k) = .ok ⟨p :: xs, fun i => x.get ((N - 1 - i.headD 0) :: i.tail)⟩ := by
    unfold Nd.slice
    rw [hx, min_eq_left hle]
  obtain ⟨right, hright⟩ : ∃ r : Nd ℂ, r = ⟨p :: xs, fun i => ∑ k ∈ Finset.range p,
      (⟨p :: p :: ps, fun i => if h : i.headD 0 < p ∧ i.tail.headD 0 < p then
        rvInv i.tail.tail ⟨_, h.2⟩ ⟨_, h.1⟩ else 0⟩ : Nd ℂ).get (k :: i.headD 0 :: proj ps i.tail)
        * (⟨p :: xs, fun i => x.get ((N - 1 - i.headD 0) :: i.tail)⟩ : Nd ℂ).get (k :: proj xs i.tail)⟩ := ⟨_, rfl⟩
  have hmv : Nd.matvec (⟨p :: p :: ps, fun i => if h : i.headD 0 < p ∧ i.tail.headD 0 < p then
        rvInv i.tail.tail ⟨_, h.2⟩ ⟨_, h.1⟩ else 0⟩ : Nd ℂ)
      ⟨p :: xs, fun i => x.get ((N - 1 - i.headD 0) :: i.tail)⟩ = .ok right := by
    unfold Nd.matvec
    simp only [if_true, hb]
    rw [hright]
  have hrget : ∀ i, InRange i xs → ∀ j : Fin p, right.get ((j : ℕ) :: i)
      = ∑ m : Fin p, rvInv (proj ps i) j m * x.get ((N - 1 - m) :: i) := by
    intro i hi j
    rw [hright]
    simp only [List.headD_cons, List.tail_cons, proj_inRange hi]
    rw [Finset.sum_range]
    refine Finset.sum_congr rfl fun m _ => ?_
    simp
  have hbb : bcast (vec rv0).dims right.dims = some (p :: xs) := by
    rw [hvd, hright]
    simp [bcast_cons, hb]
  obtain ⟨res, hres⟩ : ∃ r : Nd ℂ, r = ⟨p :: xs, fun i => (vec rv0).at i * right.at i⟩ := ⟨_, rfl⟩
  have hm2 : Nd.map2 (fun x y : ℂ => x * y) (vec rv0) right = .ok res := by
    unfold Nd.map2
    rw [hbb, hres]
  have hexp : predictStableDecNd x p ps rv0 eig rvInv num = (res.maskZero ((vec eig).map fun e => 1 < ‖e‖) >>= fun residues =>
      predictStableDecNd.loop p eig vec num N residues ⟨(N + num) :: xs, fun i => if i.headD 0 < N then x.get i else 0⟩) := by
    unfold predictStableDecNd
    simp only [hx]
    rw [hst]
    change (Nd.matvec _ _ >>= _) = _
    rw [hmv]
    rw [hvec] at hm2 ⊢
    change (Nd.map2 (fun x y : ℂ => x * y) _ right >>= _) = _
    rw [hm2]
    rfl
  have hrd : res.dims = p :: xs := by rw [hres]
  have hmd : ((vec eig).map fun e => 1 < ‖e‖).dims = p :: ps := hvd eig
  rw [hexp]
  refine ⟨fun h => ?_, fun h => ?_⟩
  · unfold Nd.maskZero
    rw [if_neg (by rwa [hrd, hmd])]
    rfl
  · unfold Nd.maskZero
    rw [if_pos (by rwa [hrd, hmd])]
    obtain ⟨r, hr1, hr2, hr3⟩ := stableLoop p ps xs eig vec (hvd eig) hb (N + num) num N
      ⟨res.dims, fun i => if ((vec eig).map fun e => 1 < ‖e‖).get
        (i.drop (res.dims.length - ((vec eig).map fun e => 1 < ‖e‖).dims.length)) then 0 else res.get i⟩
      ⟨(N + num) :: xs, fun i => if i.headD 0 < N then x.get i else 0⟩ hrd rfl
    refine ⟨r, hr1, hr2, fun i hi => ?_⟩
    obtain ⟨h1, h2⟩ := hr3 i hi
    refine ⟨fun k hk => ?_, fun k hk => ?_⟩
    · rw [h1 k hk]
      exact if_pos hk
    · rw [h2 k hk, Finset.sum_range]
      refine Finset.sum_congr rfl fun j _ => ?_
      rw [hvat]
      have hL : res.dims.length - ((vec eig).map fun e => 1 < ‖e‖).dims.length = xs.length - ps.length := by
        rw [hrd, hmd]; simp
      have hG : res.get ((j : ℕ) :: i) = rv0 (proj ps i) j * ∑ m : Fin p, rvInv (proj ps i) j m * x.get ((N - 1 - m) :: i) := by
        rw [hres]
        simp only
        rw [hvat, Nd.at, hright, proj_inRange (.cons j.2 hi), ← hright, hrget i hi j]
      simp only [hL, hG]
      congr 2
      rw [hvec]
      rfl

/-- `predict` with `stable=True`, for `pcoeff` with the same leading axes as `x`: every series is continued on its own. -/
theorem predict_stable_stack_partial (ext : EigExt) (x pc : Nd ℂ) (N q num : ℕ) (xs : List ℕ) (hx : x.dims = N :: xs)
    (hp : pc.dims = (q + 1) :: xs) (hle : q + 1 ≤ N)
    (hdec : ∀ i, InRange i xs → ∃ d, lpDecomp ext (fun k : Fin (q + 1) => pc.at (k :: i)) = .ok d) :
    ∃ r, predictStableNd ext x pc num = .ok r ∧ r.dims = (N + num) :: xs ∧ ∀ i, InRange i xs →
      predictStable ext (List.ofFn fun k : Fin N => x.get (k :: i)) (fun k : Fin (q + 1) => pc.at (k :: i)) num
        = .ok (List.ofFn fun k : Fin (N + num) => r.get (k :: i)) := by
  classical
  obtain ⟨dec, hd⟩ : ∃ dec : List ℕ → Except Err (Decomposition (Fin (q + 1)) (Fin (q + 1))),
    dec = fun i => lpDecomp ext fun k : Fin (q + 1) => pc.at (k :: i) := ⟨_, rfl⟩
  have hexp : predictStableNd ext x pc num = predictStableDecNd x (q + 1) xs
      (fun i => match dec i with | .ok d => fun j => d.rv 0 j | .error _ => 0)
      (fun i => match dec i with | .ok d => d.eig | .error _ => 0)
      (fun i => match dec i with | .ok d => d.rvInv | .error _ => 0) num := by
    unfold predictStableNd
    simp only [hp]
    rw [hd]
    refine if_neg ?_
    rintro ⟨i, hi, e, he⟩
    obtain ⟨d, hd'⟩ := hdec i hi
    rw [hd'] at he
    cases he
  obtain ⟨r, h1, h2, h3⟩ := (stableDec x N (q + 1) num xs xs _ _ _ hx hle (by simp)).2 (List.suffix_refl _)
  rw [hexp]
  refine ⟨r, h1, h2, fun i hi => ?_⟩
  obtain ⟨h4, h5⟩ := h3 i hi
  obtain ⟨d, hd'⟩ := hdec i hi
  have hdi : dec i = .ok d := by rw [hd]; exact hd'
  simp only [Nat.sub_self, List.drop_zero, List.headD_cons, List.tail_cons, Fin.is_lt, ↓reduceDIte, Fin.eta,
    proj_inRange hi, hdi] at h5
  unfold lpDecomp at hd'
  unfold predictStable
  revert hd'
  cases companion 1 fun k : Fin (q + 1) => pc.at (k :: i) with
  | error e => intro h; cases h
  | ok mat =>
    intro h
    simp only at h ⊢
    rw [h]
    simp only [List.length_ofFn]
    rw [dif_neg (by omega), if_neg (by omega)]
    congr 1
    refine List.ext_getElem (by simp) fun k hk1 hk2 => ?_
    rw [List.getElem_ofFn]
    by_cases hk : k < N
    · rw [List.getElem_append_left (by simpa using hk), List.getElem_ofFn, h4 k hk]
    · obtain ⟨m, rfl⟩ : ∃ m, k = N + m := ⟨k - N, by omega⟩
      simp only [List.length_ofFn] at hk2
      rw [List.getElem_append_right (by simp), h5 m (by omega)]
      simp only [List.length_ofFn, Nat.add_sub_cancel_left, List.getElem_map, List.getElem_range]
      refine Finset.sum_congr rfl fun j _ => ?_
      congr 1
      split_ifs
      · rfl
      · congr 1
        rw [Matrix.mulVec, dotProduct]
        refine Finset.sum_congr rfl fun l _ => ?_
        congr 1
        have := l.2
        rw [List.getD_eq_getElem?_getD, List.getElem?_eq_getElem (by simp; omega), Option.getD_some, List.getElem_ofFn]

/-- **Violation**: one set of coefficients cannot be used for a stack of series with `stable=True` (it can with `stable=False`,
`predict_stack`): the mask of the growing terms does not have the shape of the residues, `IndexError` … -/
theorem predict_stable_shared_fails (ext : EigExt) (x pc : Nd ℂ) (N q num A : ℕ) (hx : x.dims = [N, A])
    (hp : pc.dims = [q + 1]) (hle : q + 1 ≤ N) (hA : A ≠ q + 1)
    (hdec : ∃ d, lpDecomp ext (fun k : Fin (q + 1) => pc.at [(k : ℕ)]) = .ok d) :
    predictStableNd ext x pc num = .error .indexError := by
  obtain ⟨d, hd⟩ := hdec
  unfold predictStableNd
  simp only [hp]
  rw [if_neg]
  · refine (stableDec x N (q + 1) num [] [A] _ _ _ hx hle rfl).1 ?_
    rintro ⟨t, ht⟩
    rcases t with _ | ⟨a, t⟩
    · simp at ht
    · rcases t with _ | ⟨b, t⟩
      · simp at ht
        exact hA ht.2.symm
      · simp at ht
  · rintro ⟨i, hi, e, he⟩
    cases hi
    rw [hd] at he
    cases he

/-- … **and** if the number of series happens to be the number of coefficients the mask is applied to the *series*: if the `s`-th eigenvalue
grows, the continuation of the `s`-th series is 0, and no growing term is removed from the others. -/
theorem predict_stable_shared_silent (ext : EigExt) (x pc : Nd ℂ) (N q num : ℕ) (hx : x.dims = [N, q + 1])
    (hp : pc.dims = [q + 1]) (hle : q + 1 ≤ N) (d : Decomposition (Fin (q + 1)) (Fin (q + 1)))
    (hdec : lpDecomp ext (fun k : Fin (q + 1) => pc.at [(k : ℕ)]) = .ok d) :
    ∃ r, predictStableNd ext x pc num = .ok r ∧ r.dims = [N + num, q + 1] ∧ ∀ s : Fin (q + 1), ∀ k < num,
      (1 < ‖d.eig s‖ → r.get [N + k, (s : ℕ)] = 0) ∧
      (‖d.eig s‖ ≤ 1 → r.get [N + k, (s : ℕ)]
        = ∑ j, d.rv 0 j * (∑ m : Fin (q + 1), d.rvInv j m * x.get [N - 1 - m, (s : ℕ)]) * d.eig j ^ (k + 1)) := by
  classical
  have hexp : predictStableNd ext x pc num = predictStableDecNd x (q + 1) []
      (fun i => match lpDecomp ext fun k : Fin (q + 1) => pc.at (k :: i) with | .ok d => fun j => d.rv 0 j | .error _ => 0)
      (fun i => match lpDecomp ext fun k : Fin (q + 1) => pc.at (k :: i) with | .ok d => d.eig | .error _ => 0)
      (fun i => match lpDecomp ext fun k : Fin (q + 1) => pc.at (k :: i) with | .ok d => d.rvInv | .error _ => 0) num := by
    unfold predictStableNd
    simp only [hp]
    refine if_neg ?_
    rintro ⟨i, hi, e, he⟩
    cases hi
    rw [hdec] at he
    cases he
  obtain ⟨r, h1, h2, h3⟩ := (stableDec x N (q + 1) num [] [q + 1]
    (fun i => match lpDecomp ext fun k : Fin (q + 1) => pc.at (k :: i) with | .ok d => fun j => d.rv 0 j | .error _ => 0)
    (fun i => match lpDecomp ext fun k : Fin (q + 1) => pc.at (k :: i) with | .ok d => d.eig | .error _ => 0)
    (fun i => match lpDecomp ext fun k : Fin (q + 1) => pc.at (k :: i) with | .ok d => d.rvInv | .error _ => 0)
    hx hle rfl).2 ⟨[q + 1], rfl⟩
  rw [hexp]
  refine ⟨r, h1, h2, fun s k hk => ?_⟩
  have h5 := (h3 [(s : ℕ)] (.cons s.2 .nil)).2 k hk
  simp only [List.length_cons, List.length_nil, zero_add, Nat.sub_zero, List.drop_succ_cons, List.drop_zero, List.headD_cons,
    List.tail_cons, Fin.is_lt, ↓reduceDIte, Fin.eta, proj, hdec] at h5
  refine ⟨fun h => ?_, fun h => ?_⟩
  · rw [h5]
    refine Finset.sum_eq_zero fun j _ => ?_
    rw [if_pos h, zero_mul]
  · rw [h5]
    refine Finset.sum_congr rfl fun j _ => ?_
    rw [if_neg (not_lt.2 h)]

/-! ## Concrete cases -/

/-- Two series of three elements are continued with the same or with their own two coefficients. -/
example : bcast [] [2] = some [2] ∧ bcast [2] [2] = some [2] ∧ bcast [1] [2] = some [2] ∧ (2 : ℕ) ≤ 3 := by decide

/-- Two series of two elements with values `1, 2` and `1, -3`, one common coefficient `-2`: the next elements are `4` and `-6`. -/
example : ∃ r, predictNd ⟨[2, 2], fun i => if i = [0, 0] then 1 else if i = [1, 0] then 2 else if i = [0, 1] then 1 else -3⟩
    ⟨[1], fun _ => -2⟩ 1 = .ok r ∧ r.dims = [3, 2] ∧ r.get [2, 0] = 4 ∧ r.get [2, 1] = -6 := by
  obtain ⟨r, h1, h2, h3⟩ := predict_stack
    ⟨[2, 2], fun i => if i = [0, 0] then 1 else if i = [1, 0] then 2 else if i = [0, 1] then 1 else -3⟩
    ⟨[1], fun _ => -2⟩ 2 1 1 [2] [] rfl rfl rfl (by norm_num)
  refine ⟨r, by simpa using h1, h2, ?_, ?_⟩
  · have := h3 [0] (.cons (by norm_num) .nil)
    simp [predict, predictLoop, predictStep, bcastMul, Nd.at] at this
    rw [← this.2.2]; norm_num
  · have := h3 [1] (.cons (by norm_num) .nil)
    simp [predict, predictLoop, predictStep, bcastMul, Nd.at] at this
    rw [← this.2.2]; norm_num

/-- Eigen-decomposition of `1 × 1` matrices: the decompositions assumed above exist. -/
example (ext : EigExt) (c : ℂ) (h : (ext.eig (!![-c] : Matrix (Fin 1) (Fin 1) ℂ)).2 = 1) :
    ∃ d, lpDecomp ext (fun k : Fin (0 + 1) => (⟨[1], fun _ => c⟩ : Nd ℂ).at [(k : ℕ)]) = .ok d := by
  unfold lpDecomp companion
  rw [if_neg (by norm_num), if_neg one_ne_zero]
  simp only
  have : (Matrix.of fun i j : Fin (0 + 1) => if (i : ℕ) = 0 then
      -(⟨[1], fun _ => c⟩ : Nd ℂ).at [(j : ℕ)] / (1.0 * 1) else if (i : ℕ) = j + 1 then 1 else 0) = (!![-c] : Matrix _ _ ℂ) := by
    ext i j
    fin_cases i
    fin_cases j
    simp [Nd.at]
    norm_num
  rw [this]
  unfold decomposeMat
  simp only
  rw [h]
  simp [npInv]

/-- A stack of weights: two Green's functions, four times, weights of their own. -/
example (ext : LinalgExt ℝ) (w : Nd ℝ) (hw : w.dims = [4, 2]) (gf : Nd ℝ) (hg : gf.dims = [4, 2]) :
    gfFromTauNd ext gf 3 10 ⟨[1], fun _ => 1⟩ 1 (some w) = .error .valueError :=
  gf_from_tau_weight_fails ext gf 3 (by norm_num) 10 (by norm_num) _ 1 w 4 2 1 [2] [] [] hg rfl hw

end Gftool.Props
