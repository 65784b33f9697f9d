import Verif.Model.RoundedWavelet

/-! # The decomposition level in rounded arithmetic -/

namespace MFA

noncomputable section

/-- wavelet.py:98-99 and 110-111 in rounded arithmetic: `int(np.floor(np.log2(length / (filter_len + 1))))`, then `min` with
`int(np.floor(np.log2(length)))`.  `length` and `filter_len + 1` are integers below `2^53`, which are exact floats; `np.floor` and `int` are exact.  `int` of
an infinity raises OverflowError, `int` of a NaN raises ValueError. -/
def Machine.maxLevel (M : Machine) (length filter_len : ℕ) : Except PyErr ℤ :=
  match M.log2 (M.div (Fl.fin length) (Fl.fin ((filter_len : ℝ) + 1))) with
  | .nan => .error .valueError
  | .pinf => .error .overflowError
  | .ninf => .error .overflowError
  | .fin a => match M.log2 (Fl.fin length) with
    | .nan => .error .valueError
    | .pinf => .error .overflowError
    | .ninf => .error .overflowError
    | .fin b => .ok (min ⌊b⌋ ⌊a⌋)

end

end MFA
