import Verif.Lipschitz.FitModel
import Verif.Misc.NonlinModel
import Mathlib.Analysis.SpecialFunctions.Pow.Real

/-!
# Model of the derivative checks

Source: `/repo/checkder/checkder.py` 9-102 (`check_jacobian`, `check_gradient`, `check_derivative`, `check_hessian`).

Exact real arithmetic for the functions; the errors are floats (`XR`), because quotients `0/0` occur.  Functions return one-dimensional arrays (in
`check_hessian` arrays with one entry or scalars); `check_derivative` raises for scalars, because `np.linalg.norm(·, np.inf)` refuses arrays without
dimension.  Printing is left out.  `dtype = np.float` exists in the versions of numpy of that time only.
-/

namespace Verif.Misc

open Verif Verif.Domain Verif.Lip Matrix

variable {n k : ℕ}

/-- The `i`-th unit vector. -/
def ev (i : Fin n) : Pt n := fun j => if j = i then 1 else 0

/-- `np.logspace(a, b, N)`. -/
noncomputable def logspace (a b : ℝ) (N : ℕ) : List ℝ := (List.range N).map fun (l : ℕ) => (10 : ℝ) ^ (a + (b - a) * l / ((N : ℝ) - 1))

/-- The default steps, checkder.py 12, 48, 68. -/
noncomputable def defaultSteps : List ℝ := logspace (-14) (-1) 100

/-- The central difference, checkder.py 30, 59, 75. -/
noncomputable def cdiff (f : Pt n → Pt k) (x : Pt n) (i : Fin n) (h : ℝ) : Pt k := (1 / (2 * h)) • (f (x + h • ev i) - f (x - h • ev i))

open Classical in
/-- The error of one step; a step of zero gives `nan`. -/
noncomputable def stepErr (h e : ℝ) : XR := if h = 0 then .nan else .fin e

/-- Python's `min` of a nonempty list. -/
noncomputable def pyMinL : List XR → Except Err XR
  | [] => .error .valueError
  | a :: l => .ok (l.foldl XR.pyMin a)

/-- `np.min` of a nonempty list. -/
noncomputable def npMinL : List XR → Except Err XR
  | [] => .error .valueError
  | a :: l => .ok (l.foldl XR.min a)

/-- `max_err = max(new, max_err)` over the coordinates. -/
noncomputable def checkLoop (val : Fin n → Except Err XR) : List (Fin n) → XR → Except Err XR
  | [], M => .ok M
  | i :: l, M =>
    match val i with
    | .error e => .error e
    | .ok v => checkLoop val l (pyMax2 v M)

/-- Division of a float by a float that is not negative. -/
noncomputable def xdiv : XR → ℝ → XR
  | .fin a, c => fdivX a c
  | _, _ => .nan

/-- `check_jacobian(x, residual, jacobian, hvec)`, checkder.py 9-42. -/
noncomputable def checkJacobian (x : Pt n) (r : Pt n → Pt k) (J : Pt n → Matrix (Fin k) (Fin n) ℝ) (hvec : Option (List ℝ)) : Except Err XR :=
  checkLoop (fun i => (pyMinL ((hvec.getD defaultSteps).map fun h => stepErr h (nrm (cdiff r x i h - fun j => J x j i)))).map
    fun v => xdiv v (nrm fun j => J x j i)) (List.finRange n) (.fin 0)

/-- `check_gradient(x, residual, jacobian, hvec)`, checkder.py 45-63. -/
noncomputable def checkGradient (x : Pt n) (r : Pt n → Pt k) (J : Pt n → Matrix (Fin k) (Fin n) ℝ) (hvec : Option (List ℝ)) : Except Err XR :=
  checkLoop (fun i => pyMinL ((hvec.getD defaultSteps).map fun h =>
    stepErr h |0.5 * (nrm (r (x + h • ev i)) ^ 2 - nrm (r (x - h • ev i)) ^ 2) / (2 * h) - ((J x)ᵀ *ᵥ r x) i|)) (List.finRange n) (.fin 0)

/-- `check_derivative(x, obj, grad, hvec)`, checkder.py 65-79; `g x i` is `grad(x)[i]`, the norm is the largest entry. -/
noncomputable def checkDerivative (x : Pt n) (f : Pt n → Pt k) (g : Pt n → Fin n → Pt k) (hvec : Option (List ℝ)) : Except Err XR :=
  checkLoop (fun i => npMinL ((hvec.getD defaultSteps).map fun h => stepErr h ‖cdiff f x i h - g x i‖)) (List.finRange n) (.fin 0)

/-- The second difference, checkder.py 97. -/
noncomputable def hdiff (f : Pt n → ℝ) (x : Pt n) (i j : Fin n) (h : ℝ) : ℝ :=
  ((f (x + h • ev i + h • ev j) - f (x - h • ev i + h • ev j)) - (f (x + h • ev i - h • ev j) - f (x - h • ev i - h • ev j))) / (4 * h ^ 2)

/-- `check_hessian(x, obj, hess)`, checkder.py 82-102: steps `np.logspace(-7, -1, 10)`. -/
noncomputable def checkHessian (x : Pt n) (f : Pt n → ℝ) (H : Pt n → Matrix (Fin n) (Fin n) ℝ) : XR :=
  (List.finRange n).foldl (fun M i => (List.finRange n).foldl (fun M j =>
    pyMax2 ((logspace (-7) (-1) 10).foldl (fun e h => XR.min e (.fin |hdiff f x i j h - H x i j|)) .pinf) M) M) (.fin 0)

end Verif.Misc
