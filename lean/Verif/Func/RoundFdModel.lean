import Verif.Domain.RoundModel

/-!
# Model of finite difference gradients in rounded arithmetic

Source: `/repo/psdr/function.py` 200-214 (`Function.grad` with `fd_grad`), for one function and a call without options (with options see C54).

`f` is the computed evaluation `self.eval`, with its own errors.  The step `h` is a number of the format (in the code the double nearest to `1e-7`).
-/

namespace Verif.Round

open Verif

/-- `x + h * ei`, function.py 207-209: every coordinate is added (the others plus zero). -/
noncomputable def moved (F : FP) (h : ℝ) (x : Vec) (i : ℕ) : Vec :=
  List.zipWith (fun a j => F.rd (a + F.rd (h * if j = i then 1 else 0))) x (List.range x.length)

/-- `(self.eval(x + h*ei) - fx)/h`, function.py 209. -/
noncomputable def quotient (F : FP) (h : ℝ) (f : Vec → ℝ) (x : Vec) (i : ℕ) : ℝ := F.rd (F.rd (f (moved F h x i) - f x) / h)

/-- The gradient at one point, function.py 203-209. -/
noncomputable def gradF (F : FP) (h : ℝ) (f : Vec → ℝ) (x : Vec) : Vec := (List.range x.length).map (quotient F h f x)

end Verif.Round
