import Mathlib.Order.Interval.Finset.Nat
import Mathlib.Algebra.BigOperators.Group.Finset.Basic
import Mathlib.Data.Real.Basic

/-! Dyadic neighbourhoods (no repository code is modelled here). -/

namespace MFA

open Finset

/-- `(j', k')` lies in the dyadic neighbourhood of `(j, k)`: it is at the same or a finer scale, and its ancestor at
scale `j` is `k`, `k + 1` or `k + 2` (the leader `k` of the library is centred on position `k + 1`). -/
def InNbhd (j k j' k' : ℕ) : Prop := 1 ≤ j' ∧ j' ≤ j ∧ k ≤ k' / 2 ^ (j - j') ∧ k' / 2 ^ (j - j') ≤ k + 2

/-- The sum of `2^j' d(j',k')²` over the dyadic neighbourhood of `(j, k)`. -/
noncomputable def nbhdEnergy (d : ℕ → ℕ → ℝ) (j k : ℕ) : ℝ :=
  ∑ j' ∈ Icc 1 j, ∑ k' ∈ Ico (k * 2 ^ (j - j')) ((k + 3) * 2 ^ (j - j')), 2 ^ j' * d j' k' ^ 2

end MFA
