import Mathlib.Analysis.SpecialFunctions.Pow.Real
import Mathlib.Analysis.SpecialFunctions.Trigonometric.Basic
import Mathlib.Analysis.Complex.Trigonometric

/-!
# The demo functions as the expressions numpy evaluates

The definitions below the line "translated" are written by `tools/demoexp.py` from the syntax trees of
the python sources in /repo/psdr/demos; they are not edited by hand.  Local variables of the python
functions are replaced by their right-hand sides, `x3` of the gear box by its constant 17 (golinski.py
`expand_variables`), the beam parameters by their defaults (beam.py 6-12), `ell` and `mu0` by 1.  Reshaping
of the input (`atleast_2d`, `flatten`, the final `[0]`) is dropped: an expression is evaluated at one point.

`Exp.eval` is the meaning numpy gives an expression in exact arithmetic: `none` where numpy issues a
`RuntimeWarning` and returns `nan` or `inf`: division by zero, the logarithm of a number that is not
positive, the square root of a negative number, a fractional power of a number that is not positive, the
tangent where the cosine vanishes.  (`0 ** 0.5` is 0 in numpy; `eval` is stricter.)  Overflow of floating
point numbers is not modelled.
-/

namespace Verif.Demo

/-- Expressions in `n` variables as written in the demos. -/
inductive Exp (n : ℕ) : Type
  | c (r : ℝ)
  | x (i : Fin n)
  | add (a b : Exp n)
  | sub (a b : Exp n)
  | mul (a b : Exp n)
  | div (a b : Exp n)
  | neg (a : Exp n)
  | npow (a : Exp n) (k : ℕ)
  | rpow (a : Exp n) (r : ℝ)
  | sqrt (a : Exp n)
  | log (a : Exp n)
  | cos (a : Exp n)
  | sin (a : Exp n)
  | tan (a : Exp n)
  | tanh (a : Exp n)
  | sinh (a : Exp n)

namespace Exp

variable {n : ℕ}

noncomputable instance : Add (Exp n) := ⟨add⟩
noncomputable instance : Sub (Exp n) := ⟨sub⟩
noncomputable instance : Mul (Exp n) := ⟨mul⟩
noncomputable instance : Div (Exp n) := ⟨div⟩
noncomputable instance : Neg (Exp n) := ⟨neg⟩
noncomputable instance : Pow (Exp n) ℕ := ⟨npow⟩
noncomputable instance {k : ℕ} [OfNat ℝ k] : OfNat (Exp n) k := ⟨c (OfNat.ofNat k)⟩
noncomputable instance : OfScientific (Exp n) := ⟨fun m s e => c (OfScientific.ofScientific m s e)⟩

/-- `np.pi`. -/
noncomputable def pi : Exp n := c Real.pi

open Classical in
/-- Evaluation at a point; `none` where numpy returns `nan` or `inf`. -/
noncomputable def eval : Exp n → (Fin n → ℝ) → Option ℝ
  | c r, _ => some r
  | x i, v => some (v i)
  | add a b, v => (a.eval v).bind fun p => (b.eval v).bind fun q => some (p + q)
  | sub a b, v => (a.eval v).bind fun p => (b.eval v).bind fun q => some (p - q)
  | mul a b, v => (a.eval v).bind fun p => (b.eval v).bind fun q => some (p * q)
  | div a b, v => (a.eval v).bind fun p => (b.eval v).bind fun q => if q = 0 then none else some (p / q)
  | neg a, v => (a.eval v).bind fun p => some (-p)
  | npow a k, v => (a.eval v).bind fun p => some (p ^ k)
  | rpow a r, v => (a.eval v).bind fun p => if p ≤ 0 then none else some (p ^ r)
  | sqrt a, v => (a.eval v).bind fun p => if p < 0 then none else some (Real.sqrt p)
  | log a, v => (a.eval v).bind fun p => if p ≤ 0 then none else some (Real.log p)
  | cos a, v => (a.eval v).bind fun p => some (Real.cos p)
  | sin a, v => (a.eval v).bind fun p => some (Real.sin p)
  | tan a, v => (a.eval v).bind fun p => if Real.cos p = 0 then none else some (Real.tan p)
  | tanh a, v => (a.eval v).bind fun p => some (Real.tanh p)
  | sinh a, v => (a.eval v).bind fun p => some (Real.sinh p)

end Exp

/-- A list of expressions (`np.vstack([...]).T`, `np.array([...]).T`) at one point: one row of the array,
or `none` if an entry is not a number. -/
noncomputable def evalAll {n : ℕ} (l : List (Exp n)) (v : Fin n → ℝ) : Option (List ℝ) :=
  l.mapM fun e => e.eval v

open Exp (pi)

set_option linter.unusedVariables false
set_option maxHeartbeats 1600000

/-! ### Translated -/
