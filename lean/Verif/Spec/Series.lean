import Mathlib.RingTheory.PowerSeries.Basic
import Mathlib.Analysis.Complex.Basic

/-!
# Specification: approximants of formal power series
-/

namespace Gftool.Spec

open Polynomial

/-- The polynomial with the given coefficients (lowest order first). -/
noncomputable def toPoly (l : List ℂ) : ℂ[X] := ∑ i ∈ Finset.range l.length, C (l.getD i 0) * X ^ i

/-- `p/q` is a `[m/n]` Padé approximant of the series with coefficients `a`:
`q a - p = O(x^(m+n+1))`, where `q` is not zero. -/
structure IsPade (a : ℕ → ℂ) (m n : ℕ) (p q : ℂ[X]) : Prop where
  num_deg : p.natDegree ≤ m
  den_deg : q.natDegree ≤ n
  den_ne : q ≠ 0
  order : (PowerSeries.X : PowerSeries ℂ) ^ (m + n + 1)
    ∣ (q : PowerSeries ℂ) * PowerSeries.mk a - (p : PowerSeries ℂ)

/-- The series with coefficients `a` is the expansion of the rational function `P/Q`. -/
def IsExpansion (a : ℕ → ℂ) (P Q : ℂ[X]) : Prop :=
  Q.coeff 0 ≠ 0 ∧ (Q : PowerSeries ℂ) * PowerSeries.mk a = (P : PowerSeries ℂ)

/-- `p, q, r` is a quadratic Hermite-Padé approximant: `p + q f + r f² = O(x^(np+nq+nr+2))`, where
`q` and `r` are not both zero. -/
structure IsHermite2 (a : ℕ → ℂ) (np nq nr : ℕ) (p q r : ℂ[X]) : Prop where
  p_deg : p.natDegree ≤ np
  q_deg : q.natDegree ≤ nq
  r_deg : r.natDegree ≤ nr
  ne : q ≠ 0 ∨ r ≠ 0
  order : (PowerSeries.X : PowerSeries ℂ) ^ (np + nq + nr + 2)
    ∣ (p : PowerSeries ℂ) + (q : PowerSeries ℂ) * PowerSeries.mk a
      + (r : PowerSeries ℂ) * (PowerSeries.mk a * PowerSeries.mk a)

end Gftool.Spec
