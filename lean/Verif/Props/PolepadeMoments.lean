import Verif.Props.Continuation
import Verif.Props.Pole

/-!
# C59: the moments of a Padé approximant

`PadeApprox.moments` are the coefficients of the high-frequency expansion of the approximant, and the moments given
to `continuation` as constraints are those of the result.
-/

namespace Gftool.Props

open Matrix Polynomial Filter Topology Gftool.Model Gftool.Lemmas Gftool.Spec

variable {N : ℕ} {z f : Fin N → ℂ}

/-- C59: the moments of a Padé approximant are the coefficients of the high-frequency expansion of its pole form to
every order `K`; the constant term is the amplitude if there are as many zeros as poles, otherwise zero. -/
theorem pade_approx_moments_tail {n m : ℕ} (a : PadeApprox n m) (hnm : n ≤ m) (K : ℕ) :
    ∃ g : ℂ → ℂ, (∀ x, a.evalPolefct x = .ok (g x)) ∧
      Tendsto (fun x : ℂ => x ^ K * (g x - (if n = m then a.amplitude else 0)
          - ∑ k ∈ Finset.Icc 1 K, a.moments k * x ^ (-(k : ℤ))))
        (Bornology.cobounded ℂ) (𝓝 0) := by
  refine ⟨fun x => (if n = m then a.amplitude else 0) + poleGfZ x a.poles a.residues, fun x => ?_, ?_⟩
  · unfold PadeApprox.evalPolefct
    rw [if_neg (by omega)]
  · have h := pole_gf_tail a.poles a.residues K
    refine h.congr fun x => ?_
    rw [add_sub_cancel_left]
    rfl

/-- The moments constrain the residues: rows of the Vandermonde matrix of distinct poles are independent. -/
lemma vander_row_rank {m l : ℕ} {pls : Fin m → ℂ} (hpls : Function.Injective pls) (hl : l ≤ m) :
    (Matrix.of fun (i : Fin l) j => pls j ^ (i : ℕ)).rank = l := by
  set c : Matrix (Fin l) (Fin m) ℂ := Matrix.of fun i j => pls j ^ (i : ℕ) with hc
  have hinj : Function.Injective cᵀ.mulVecLin := by
    rw [← LinearMap.ker_eq_bot, LinearMap.ker_eq_bot']
    intro x hx
    have hx' : vanderC pls l *ᵥ x = 0 := hx
    have h3 : (vecPoly l x : ℂ[X]) = 0 := by
      apply poly_eq_zero_of_eval hpls (degreeLT_mono hl (vecPoly l x).2)
      intro k
      rw [← vanderC_mulVec, hx']; rfl
    exact (LinearEquiv.map_eq_zero_iff (vecPoly l)).1 (Subtype.ext h3)
  rw [← Matrix.rank_transpose, Matrix.rank, LinearMap.finrank_range_of_inj hinj]
  simp

/-- C59: for distinct poles the residues of `residues_ols` have exactly the given moments, whatever the data are,
and no residues with these moments are closer to the data. -/
theorem residues_ols_moments (ext : LinalgExt ℂ) {m l : ℕ} {pls : Fin m → ℂ} (hpls : Function.Injective pls)
    (hm : 1 ≤ m) {weight : Option (Fin N → ℝ)} {moments : Fin l → ℂ} {r : Fin m → ℂ}
    (hr : residuesOls ext z f pls weight moments = .ok r) :
    (∀ j : Fin l, poleMoments pls r ((j : ℤ) + 1) = moments j) ∧
    ∀ r' : Fin m → ℂ, (∀ j : Fin l, poleMoments pls r' ((j : ℤ) + 1) = moments j) →
      ∑ i, ‖weightFn weight i * (poleGfZ (z i) pls r - f i)‖ ^ 2
        ≤ ∑ i, ‖weightFn weight i * (poleGfZ (z i) pls r' - f i)‖ ^ 2 := by
  have hmul : ∀ x : Fin m → ℂ, ∀ j : Fin l, ((Matrix.of fun (i : Fin l) j => pls j ^ (i : ℕ)) *ᵥ x) j
      = poleMoments pls x ((j : ℤ) + 1) := by
    intro x j
    simp [poleMoments, mulVec, dotProduct, mul_comm]
  have hres : ∀ x : Fin m → ℂ, sqNorm ((Matrix.of fun i j => 1 / (z i - pls j) * weightFn weight i) *ᵥ x
        - fun i => f i * weightFn weight i)
      = ∑ i, ‖weightFn weight i * (poleGfZ (z i) pls x - f i)‖ ^ 2 := by
    intro x
    unfold sqNorm
    refine Finset.sum_congr rfl fun i _ => ?_
    congr 2
    simp only [Pi.sub_apply, mulVec, dotProduct, Matrix.of_apply, poleGfZ, mul_sub, Finset.mul_sum]
    rw [mul_comm (f i)]
    congr 1
    exact Finset.sum_congr rfl fun k _ => by ring
  unfold residuesOls at hr
  simp only at hr
  split_ifs at hr with h0 h1
  · subst h0
    have hr' := Except.ok.inj hr
    refine ⟨fun j => j.elim0, fun r' _ => ?_⟩
    rw [← hres, ← hres, ← hr']
    exact ext.lstsq_min _ _ r'
  · obtain ⟨x, hx1, hx2, hx3⟩ := lstsq_ec_optimal ext
      (Matrix.of fun i j => 1 / (z i - pls j) * weightFn weight i) (fun i => f i * weightFn weight i)
      (Matrix.of fun (i : Fin l) j => pls j ^ (i : ℕ)) moments (by omega) (vander_row_rank hpls (by omega))
    rw [hx1] at hr
    obtain rfl := Except.ok.inj hr
    refine ⟨fun j => by rw [← hmul, hx2], fun r' hr' => ?_⟩
    rw [← hres, ← hres]
    exact hx3 r' (funext fun j => by rw [hmul, hr'])

/-- C59: whenever `continuation` succeeds and its poles are distinct, the moments of the result are the moments given
as constraints, for every data. -/
theorem continuation_moments (ext : PolepadeExt) {l : ℕ} {degree : ℤ} {weight : Option (Fin N → ℝ)}
    {moments : Fin l → ℂ} {rotate : Option Bool} {realAsymp : Bool} {fuel n m : ℕ} {a : PadeApprox n m}
    (h : continuation ext z f degree weight moments rotate realAsymp fuel = some (.ok ⟨n, m, a⟩))
    (hpls : Function.Injective a.poles) (hm : 1 ≤ m) (j : Fin l) :
    a.moments ((j : ℤ) + 1) = moments j := by
  unfold continuation at h
  by_cases h0 : 0 < degree
  · rw [if_pos h0] at h; cases h
  rw [if_neg h0] at h
  simp only at h
  split at h
  · cases h
  · cases h
  · rename_i k _
    by_cases h1 : k < 0 ∨ k + degree < 0
    · rw [if_pos h1] at h; cases h
    rw [if_neg h1] at h
    split at h
    · cases h
    · split at h
      · cases h
      · split at h
        · cases h
        · split at h
          · cases h
          · rename_i hres
            have h2 := Except.ok.inj (Option.some.inj h)
            cases h2
            exact (residues_ols_moments ext.toLinalgExt hpls hm hres).1 j

/-- Example: two residues with total weight one and first moment a third, whatever the five data points are. -/
example (g : Fin 5 → ℂ) : ∃ r, residuesOls (linalgExt ℂ) (fun i : Fin 5 => ((i : ℕ) : ℂ) * Complex.I) g
      ![1, -1] none ![1, 1 / 3] = .ok r ∧ poleMoments ![1, -1] r 2 = 1 / 3 := by
  have hp : Function.Injective (![1, -1] : Fin 2 → ℂ) := by
    intro a b hab
    fin_cases a <;> fin_cases b <;> simp_all <;> norm_num [Complex.ext_iff] at hab
  rcases h : residuesOls (linalgExt ℂ) (fun i : Fin 5 => ((i : ℕ) : ℂ) * Complex.I) g
      ![1, -1] none ![1, 1 / 3] with e | r
  · unfold residuesOls at h
    simp only at h
    rw [if_neg (by norm_num), if_neg (by norm_num), lstsq_ec_error_iff] at h
    omega
  · refine ⟨r, rfl, ?_⟩
    have := (residues_ols_moments _ hp (by norm_num) h).1 1
    simpa using this

end Gftool.Props
