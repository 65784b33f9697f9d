import Mathlib.Analysis.SpecialFunctions.Log.Base
import Mathlib.Analysis.SpecialFunctions.Pow.Real

/-!
# Idealised numpy `float64`

`Fl` is a float: NaN, +inf, -inf or a finite value.  Finite arithmetic is exact (no rounding, no overflow,
no signed zero); the special values follow IEEE-754 as numpy does.  This file models no repository code by
itself; it is the value domain of all numpy expressions in `/repo/pymultifracs`.
-/

namespace MFA

open Classical

noncomputable section

/-- A numpy float64, idealised: see the header of this file. -/
inductive Fl where
  | nan
  | pinf
  | ninf
  | fin (r : ℝ)

namespace Fl

/-- `np.isnan`. -/
def isNaN : Fl → Bool
  | nan => true
  | _ => false

/-- `±inf` according to the sign of `b`, NaN for `b = 0`: the IEEE value of `inf * b`. -/
def sgnInf (b : ℝ) : Fl := if 0 < b then pinf else if b < 0 then ninf else nan

/-- IEEE addition. -/
protected def add : Fl → Fl → Fl
  | nan, _ => nan
  | _, nan => nan
  | fin a, fin b => fin (a + b)
  | pinf, ninf => nan
  | ninf, pinf => nan
  | pinf, _ => pinf
  | _, pinf => pinf
  | ninf, _ => ninf
  | _, ninf => ninf

/-- IEEE negation. -/
protected def neg : Fl → Fl
  | nan => nan
  | pinf => ninf
  | ninf => pinf
  | fin a => fin (-a)

/-- IEEE multiplication. -/
protected def mul : Fl → Fl → Fl
  | nan, _ => nan
  | _, nan => nan
  | fin a, fin b => fin (a * b)
  | pinf, pinf => pinf
  | ninf, ninf => pinf
  | pinf, ninf => ninf
  | ninf, pinf => ninf
  | pinf, fin b => sgnInf b
  | fin b, pinf => sgnInf b
  | ninf, fin b => sgnInf (-b)
  | fin b, ninf => sgnInf (-b)

/-- IEEE reciprocal; zero is taken to be `+0.0`. -/
protected def inv : Fl → Fl
  | nan => nan
  | pinf => fin 0
  | ninf => fin 0
  | fin a => if a = 0 then pinf else fin a⁻¹

instance : Zero Fl := ⟨fin 0⟩
instance : One Fl := ⟨fin 1⟩
instance : Add Fl := ⟨Fl.add⟩
instance : Neg Fl := ⟨Fl.neg⟩
instance : Mul Fl := ⟨Fl.mul⟩
instance : Inv Fl := ⟨Fl.inv⟩
/-- IEEE subtraction. -/
instance : Sub Fl := ⟨fun a b => a + -b⟩
/-- IEEE division (`0/0`, `inf/inf` NaN; `x/0 = ±inf`). -/
instance : Div Fl := ⟨fun a b => a * b⁻¹⟩
instance : Inhabited Fl := ⟨nan⟩

/-- `np.abs`. -/
def abs : Fl → Fl
  | nan => nan
  | pinf => pinf
  | ninf => pinf
  | fin a => fin |a|

/-- The common part of `np.log`, `np.log2`: `-inf` at 0, NaN on negative numbers. -/
def logOf (f : ℝ → ℝ) : Fl → Fl
  | nan => nan
  | pinf => pinf
  | ninf => nan
  | fin a => if 0 < a then fin (f a) else if a = 0 then ninf else nan

/-- `np.log2`. -/
def log2 : Fl → Fl := logOf (Real.logb 2)

/-- `np.log`. -/
def ln : Fl → Fl := logOf Real.log

/-- `np.sqrt`. -/
def sqrt : Fl → Fl
  | nan => nan
  | pinf => pinf
  | ninf => nan
  | fin a => if 0 ≤ a then fin (Real.sqrt a) else nan

/-- `np.power(a, e)` for a finite exponent `e` (C `pow`). -/
def pow (x : Fl) (e : ℝ) : Fl :=
  if e = 0 then fin 1 else
  match x with
  | nan => nan
  | pinf => if 0 < e then pinf else fin 0
  | ninf => if e < 0 then fin 0 else if ∃ n : ℤ, e = 2 * n + 1 then ninf else pinf
  | fin a =>
    if a = 0 then (if 0 < e then fin 0 else pinf)
    else if 0 < a ∨ ∃ n : ℤ, e = n then fin (a ^ e)
    else nan

/-- `2. ** x` for a float `x` (used by the p-leader correction). -/
def exp2 : Fl → Fl
  | nan => nan
  | pinf => pinf
  | ninf => fin 0
  | fin a => fin ((2:ℝ) ^ a)

/-- `np.exp`. -/
def exp : Fl → Fl
  | nan => nan
  | pinf => pinf
  | ninf => fin 0
  | fin a => fin (Real.exp a)

/-- Maximum of two non-NaN floats (NaN propagates). -/
def max : Fl → Fl → Fl
  | nan, _ => nan
  | _, nan => nan
  | pinf, _ => pinf
  | _, pinf => pinf
  | ninf, x => x
  | x, ninf => x
  | fin a, fin b => fin (Max.max a b)

/-- Float `<=` (false as soon as one side is NaN). -/
def le : Fl → Fl → Prop
  | nan, _ => False
  | _, nan => False
  | ninf, _ => True
  | _, pinf => True
  | fin a, fin b => a ≤ b
  | _, _ => False

/-- `x` is neither NaN nor infinite: `np.isfinite`. -/
def IsFin (x : Fl) : Prop := ∃ r : ℝ, x = fin r

end Fl

end

end MFA
