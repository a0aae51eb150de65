import Mathlib.Data.Real.Basic
import Mathlib.Tactic.Linarith

/-!
# Numbers with IEEE special values

`XR` models a numpy float64 with exact arithmetic on finite values: a finite real, `+inf`, `-inf`
or `nan`.  The rules for the special values are those of IEEE 754 (as used by numpy): `0*inf = nan`,
`inf - inf = nan`, every comparison with `nan` is false, and so on.  Signed zeros are not
distinguished (division by zero is handled explicitly where the code divides, see `XR.div`).
-/

namespace Verif

open Classical

/-- A numpy float with exact finite arithmetic. -/
inductive XR where
  | fin (r : ℝ)
  | pinf
  | ninf
  | nan

namespace XR

/-- `np.isfinite`. -/
def isFinite : XR → Prop
  | fin _ => True
  | _ => False

/-- `np.isinf`. -/
def isInf : XR → Prop
  | pinf => True
  | ninf => True
  | _ => False

@[simp] theorem isFinite_fin (r : ℝ) : (fin r).isFinite := trivial
@[simp] theorem not_isFinite_pinf : ¬ pinf.isFinite := fun h => h
@[simp] theorem not_isFinite_ninf : ¬ ninf.isFinite := fun h => h
@[simp] theorem not_isFinite_nan : ¬ nan.isFinite := fun h => h

/-- `x < y` (false if either is nan). -/
def lt : XR → XR → Prop
  | fin a, fin b => a < b
  | fin _, pinf => True
  | ninf, fin _ => True
  | ninf, pinf => True
  | _, _ => False

/-- `x == y` (false if either is nan). -/
def eq : XR → XR → Prop
  | fin a, fin b => a = b
  | pinf, pinf => True
  | ninf, ninf => True
  | _, _ => False

/-- `x <= y` (false if either is nan). -/
def le (x y : XR) : Prop := lt x y ∨ eq x y

/-- `x - y`. -/
def sub : XR → XR → XR
  | fin a, fin b => fin (a - b)
  | fin _, pinf => ninf
  | fin _, ninf => pinf
  | pinf, fin _ => pinf
  | pinf, ninf => pinf
  | ninf, fin _ => ninf
  | ninf, pinf => ninf
  | _, _ => nan

/-- `x + y`. -/
def add : XR → XR → XR
  | fin a, fin b => fin (a + b)
  | fin _, pinf => pinf
  | fin _, ninf => ninf
  | pinf, fin _ => pinf
  | pinf, pinf => pinf
  | ninf, fin _ => ninf
  | ninf, ninf => ninf
  | _, _ => nan

/-- Product of a finite number with a float: `0*inf = nan`. -/
noncomputable def smul (c : ℝ) : XR → XR
  | fin a => fin (c * a)
  | pinf => if c = 0 then nan else if 0 < c then pinf else ninf
  | ninf => if c = 0 then nan else if 0 < c then ninf else pinf
  | nan => nan

/-- Quotient of a float by a finite *nonzero* number. -/
noncomputable def divNZ (x : XR) (c : ℝ) : XR :=
  match x with
  | fin a => fin (a / c)
  | pinf => if 0 < c then pinf else ninf
  | ninf => if 0 < c then ninf else pinf
  | nan => nan

/-- Quotient of two finite floats; a zero divisor gives `±inf` by the sign of the numerator, or
`nan` for `0/0` (the sign of a zero divisor is not modelled; it is irrelevant to the uses, which
only look for positive quotients coming from nonzero divisors). -/
noncomputable def div (a c : ℝ) : XR :=
  if c = 0 then (if a = 0 then nan else if 0 < a then pinf else ninf) else fin (a / c)

/-- `np.maximum` (propagates nan). -/
noncomputable def max : XR → XR → XR
  | nan, _ => nan
  | _, nan => nan
  | pinf, _ => pinf
  | _, pinf => pinf
  | ninf, y => y
  | x, ninf => x
  | fin a, fin b => fin (Max.max a b)

/-- `np.minimum` (propagates nan). -/
noncomputable def min : XR → XR → XR
  | nan, _ => nan
  | _, nan => nan
  | ninf, _ => ninf
  | _, ninf => ninf
  | pinf, y => y
  | x, pinf => x
  | fin a, fin b => fin (Min.min a b)

/-- The Python builtin `min(x, y)` on floats: returns `x` unless `y < x`. -/
noncomputable def pyMin (x y : XR) : XR := if lt y x then y else x

/-- A float that is a legitimate lower bound: finite or `-inf`. -/
def okLower : XR → Prop
  | fin _ => True
  | ninf => True
  | _ => False

/-- A float that is a legitimate upper bound: finite or `+inf`. -/
def okUpper : XR → Prop
  | fin _ => True
  | pinf => True
  | _ => False

end XR

end Verif
