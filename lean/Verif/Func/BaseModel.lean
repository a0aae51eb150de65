import Verif.Domain.Model

/-!
# Model of the base class of functions

Source: `/repo/psdr/function.py` 19-41 (`BaseFunction`).

`eval`, `grad` and `__call__` are defined by each other; a subclass overrides some of them.  A subclass is
the record of its overrides.  Calls nest at most `limit` deep, as in python; one level deeper raises
`RecursionError`.  Besides the outcome, the list of the overrides that were run is recorded.
-/

namespace Verif.Func.BaseFn

open Verif.Domain

/-- Exceptions: that of the recursion limit, and those raised by the overrides and by the base class. -/
inductive Exn where
  | recursion
  | py (e : Err)
  deriving DecidableEq

/-- The overrides of a subclass; `KW` are keyword arguments, `X` points. -/
structure Cls (KW X R G : Type) where
  eval : Option (KW → X → Except Err R) := none
  grad : Option (X → Except Err G) := none
  hessian : Option (X → Except Err R) := none
  /-- An override of `__call__` without and with `return_grad`. -/
  call : Option ((KW → X → Except Err R) × (KW → X → Except Err (R × G))) := none

/-- The overrides that were run, in order. -/
inductive Ev where
  | eval
  | grad
  | call
  deriving DecidableEq

/-- Trace and outcome. -/
abbrev Run (α : Type) := List Ev × Except Exn α

variable {KW X R G α β : Type}

/-- Run an override. -/
def own (ev : Ev) (r : Except Err α) : Run α := ([ev], match r with | .ok a => .ok a | .error e => .error (.py e))

/-- Sequencing: the second part runs only if the first returns. -/
def Run.andThen (a : Run α) (f : α → Run β) : Run β :=
  match a.2 with
  | .error e => (a.1, .error e)
  | .ok v => (a.1 ++ (f v).1, (f v).2)

mutual

/-- `self.eval(X, **kwargs)`, function.py 23-24: the base class drops the keyword arguments. -/
def evalM (c : Cls KW X R G) (nokw : KW) : ℕ → KW → X → Run R
  | 0, _, _ => ([], .error .recursion)
  | limit + 1, kw, x =>
    match c.eval with
    | some e => own .eval (e kw x)
    | none => callM c nokw limit nokw x

/-- `self.__call__(X, **kwargs)` without `return_grad`, function.py 32-36. -/
def callM (c : Cls KW X R G) (nokw : KW) : ℕ → KW → X → Run R
  | 0, _, _ => ([], .error .recursion)
  | limit + 1, kw, x =>
    match c.call with
    | some (k, _) => own .call (k kw x)
    | none => evalM c nokw limit kw x

end

mutual

/-- `self.grad(X)`, function.py 26-27. -/
def gradM (c : Cls KW X R G) (nokw : KW) : ℕ → X → Run G
  | 0, _ => ([], .error .recursion)
  | limit + 1, x =>
    match c.grad with
    | some g => own .grad (g x)
    | none => (callGradM c nokw limit nokw x).andThen fun p => ([], .ok p.2)

/-- `self.__call__(X, return_grad = True, **kwargs)`, function.py 32-34. -/
def callGradM (c : Cls KW X R G) (nokw : KW) : ℕ → KW → X → Run (R × G)
  | 0, _, _ => ([], .error .recursion)
  | limit + 1, kw, x =>
    match c.call with
    | some (_, k) => own .call (k kw x)
    | none => (evalM c nokw limit kw x).andThen fun r => (gradM c nokw limit x).andThen fun g => ([], .ok (r, g))

end

/-- `predict(X)`, function.py 38-41. -/
def predictM (c : Cls KW X R G) (nokw : KW) : ℕ → X → Run R
  | 0, _ => ([], .error .recursion)
  | limit + 1, x => callM c nokw limit nokw x

/-- `hessian(X)`, function.py 29-30. -/
def hessianM (c : Cls KW X R G) (x : X) : Except Exn R :=
  match c.hessian with
  | some h => match h x with | .ok a => .ok a | .error e => .error (.py e)
  | none => .error (.py .notImplemented)

/-- Overrides of the surrogates: `PolynomialFunction` (poly.py 77-112), `PolynomialRidgeFunction` (polyridge.py 50-100),
`LowerBound` and `UpperBound` (lipschitz.py 653-665, 673-685) define `eval` and `grad`; keyword arguments are refused. -/
def surrogate (ev : X → Except Err R) (gr : X → Except Err G) : Cls (List String) X R G :=
  { eval := some fun kw x => if kw = [] then ev x else .error .typeError, grad := some gr }

/-- `GaussianProcess` (gp.py 365-386) and `LipschitzApproximation` (lipschitz_approx.py 68-70) define `eval` only. -/
def evalOnly (ev : KW → X → Except Err R) : Cls KW X R G := { eval := some ev }

end Verif.Func.BaseFn
