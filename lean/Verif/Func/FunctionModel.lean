import Verif.Domain.SolverModel

/-!
# Model of `Function`

Source: `/repo/psdr/function.py` 71-290 and `/repo/psdr/misc.py` 6-9.

User functions are parameters: a python callable is described by what it returns on one point (1-d
array) and on an array of points.  Arrays are lists; a shape mismatch that numpy rejects is the value
`Err.valueError`.  `eval_async`/`call_async` and pickling are in `AsyncModel`.
-/

namespace Verif.Func

open Verif Verif.Domain

/-! ## Keyword dictionaries -/

/-- A python dictionary of keyword arguments: the value stored under each key, if any. -/
abbrev Kw (V : Type) := String → Option V

/-- `z = x.copy(); z.update(y); return z`, misc.py 6-9. -/
def merge {V : Type} (x y : Kw V) : Kw V := fun k => (y k).or (x k)

/-! ## Arrays -/

/-- A numpy result: a 1-d array or a 2-d array given by its rows. -/
inductive Arr where
  | vec (v : Vec)
  | mat (rows : List Vec)

/-- An argument of `f(X)`: one point or a 2-d array of points (function.py 138, 142). -/
inductive In where
  | one (z : Vec)
  | many (Z : List Vec)

/-- The result of a gradient: `_shape_grad`, function.py 181-192. -/
inductive Grad where
  | vec (g : Vec)
  | mat (rows : List Vec)
  | ten (t : List (List Vec))

/-- Output of a vectorized function on `N` points: a 1-d array of `N` values or an array of rows. -/
inductive OutN where
  | flat (v : Vec)
  | rows (r : List Vec)

/-- `len(fXi)`. -/
def OutN.len : OutN → ℕ
  | .flat v => v.length
  | .rows r => r.length

/-- 1-d outputs become one column, function.py 150-153. -/
def OutN.toRows : OutN → List Vec
  | .flat v => v.map (fun a => [a])
  | .rows r => r

/-- A user function with the kinds of calls `Function` makes.
`one`: value on one point, `hstack`-ready (a scalar is a list of length 1).
`many`: value on an array of points (only used with `vectorized=True`).
`oneG`, `manyG`: the `return_grad=True` versions; the gradient of one point is a list of rows (one row
per output), that of `N` points is the array of shape `(N, m)` of a scalar function. -/
structure UserFun (V : Type) where
  one : Vec → Kw V → Vec
  many : List Vec → Kw V → OutN
  oneG : Vec → Kw V → Vec × List Vec
  manyG : List Vec → Kw V → OutN × List Vec

/-- A user gradient passed as `grads`: rows on one point, and an `(N, m)` array on `N` points. -/
structure UserGrad (V : Type) where
  one : Vec → Kw V → List Vec
  many : List Vec → Kw V → List Vec

/-- The attributes of a `Function`, function.py 71-131. -/
structure Fn (V : Type) where
  funs : List (UserFun V)
  grads : Option (List (UserGrad V))
  fdGrad : Bool
  vectorized : Bool
  kw : Kw V
  returnGrad : Bool
  dom : Dom
  fb : CornerOracle

/-- `__init__` 71-94: a gradient list of another length than the function list is rejected. -/
def mkFn {V : Type} (funs : List (UserFun V)) (dom : Dom) (fb : CornerOracle)
    (grads : Option (List (UserGrad V))) (fd vec : Bool) (kw : Kw V) (rg : Bool) : Except Err (Fn V) :=
  if (match grads with
    | none => true
    | some g => g.length = funs.length) then
    .ok ⟨funs, grads, fd, vec, kw, rg, dom, fb⟩
  else .error .assertion

/-! ## Numpy helpers -/

/-- `np.hstack` of 1-d arrays: raises on an empty list of arrays. -/
def hstack1 : List Vec → Except Err Vec
  | [] => .error .valueError
  | vs => .ok vs.flatten

/-- Row-wise concatenation of two row lists. -/
def catRows (a b : List Vec) : List Vec := List.zipWith (· ++ ·) a b

/-- `np.hstack` of 2-d arrays: raises on an empty list or on different numbers of rows. -/
def hstack2 : List (List Vec) → Except Err (List Vec)
  | [] => .error .valueError
  | [m] => .ok m
  | m :: ms => match hstack2 ms with
    | .ok r => if m.length = r.length then .ok (catRows m r) else .error .valueError
    | .error e => .error e

/-- `np.vstack` of 1-d arrays: raises on an empty list or on different lengths. -/
def vstack1 : List Vec → Except Err (List Vec)
  | [] => .error .valueError
  | v :: vs => if vs.all (fun w => w.length = v.length) then .ok (v :: vs) else .error .valueError

/-- `np.vstack` of 2-d arrays given by rows. -/
def vstack2 (ms : List (List Vec)) : Except Err (List Vec) := vstack1 ms.flatten

/-- `np.array` of a list of 2-d arrays: raises on different shapes (here: numbers of rows).  With no
array at all the result has no second axis, so that `grads.shape[1]` raises. -/
def stack3 : List (List Vec) → Except Err (List (List Vec))
  | [] => .error .indexError
  | m :: ms => if ms.all (fun w => w.length = m.length) then .ok (m :: ms) else .error .valueError

/-- `np.transpose(T, (1, 0, 2))` for `T` with `n` entries along the second axis. -/
def transpose102 (n : ℕ) (T : List (List Vec)) : List (List Vec) :=
  (List.range n).map (fun i => T.map (fun m => m.getD i []))

/-- All values of a list of computations, or the first failure. -/
def sequence {α : Type} : List (Except Err α) → Except Err (List α)
  | [] => .ok []
  | a :: as => match a with
    | .error e => .error e
    | .ok x => match sequence as with
      | .error e => .error e
      | .ok xs => .ok (x :: xs)

/-! ## Evaluation -/

variable {V : Type}

/-- `eval`, 132-155. -/
noncomputable def Fn.eval (f : Fn V) (Xn : In) (kw : Kw V) : Except Err Arr :=
  let k := merge f.kw kw
  match Xn with
  | .one z =>
    let x := f.dom.unnormalize f.fb z
    (hstack1 (f.funs.map (fun g => g.one x k))).map Arr.vec
  | .many Z =>
    let X := Z.map (f.dom.unnormalize f.fb)
    if f.vectorized then
      let fX := f.funs.map (fun g => g.many X k)
      if fX.all (fun o => o.len = X.length) then (hstack2 (fX.map OutN.toRows)).map Arr.mat
      else .error .assertion
    else
      match sequence (X.map (fun x => hstack1 (f.funs.map (fun g => g.one x k)))) with
      | .error e => .error e
      | .ok rows => (vstack1 rows).map Arr.mat

/-! ## Gradients -/

/-- `_shape_grad`, 181-192: `grads` is indexed [sample, function, dimension]; `m = len(self.domain)`. -/
def shapeGrad (m : ℕ) (X : In) (T : List (List Vec)) : Except Err Grad :=
  match T with
  | [] => .error .indexError
  | t :: ts =>
    match X with
    | .one _ =>
      if t.length = 1 then
        if ts = [] then .ok (.vec (t.getD 0 [])) else .error .valueError
      else if ts = [] then .ok (.mat t) else .error .valueError
    | .many Z =>
      if t.length = 1 then
        if (t :: ts).length = Z.length ∨ m = 0 then .ok (.mat ((t :: ts).map (fun r => r.getD 0 [])))
        else .error .valueError
      else .ok (.ten (t :: ts))

/-- `np.atleast_2d(X_norm)`. -/
def In.rows : In → List Vec
  | .one z => [z]
  | .many Z => Z

/-- `x + h*e_i`. -/
noncomputable def bump (z : Vec) (i : ℕ) (h : ℝ) : Vec := z.set i (z.getD i 0 + h)

/-- One entry of the finite difference gradient, 209-212: the assignment into a scalar slot needs a
result of length one. -/
noncomputable def fdEntry (h : ℝ) (fh fx : Vec) : Except Err ℝ :=
  match fh, fx with
  | [a], [b] => .ok ((a - b) / h)
  | _, _ => .error .valueError

/-- The 1-d result of `self.eval(x)` on one point. -/
noncomputable def Fn.eval1 (f : Fn V) (z : Vec) (kw : Kw V) : Except Err Vec :=
  hstack1 (f.funs.map (fun g => g.one (f.dom.unnormalize f.fb z) (merge f.kw kw)))

/-- The finite difference gradient at one point, 204-214.  `kw` are the keyword arguments of the call
(already merged, 195); line 205 calls `self.eval(x)` without them. -/
noncomputable def Fn.fdRow (f : Fn V) (h : ℝ) (kw : Kw V) (z : Vec) : Except Err Vec :=
  match f.eval1 z (fun _ => none) with
  | .error e => .error e
  | .ok fx => sequence ((List.range z.length).map (fun i =>
      match f.eval1 (bump z i h) kw with
      | .error e => .error e
      | .ok fh => fdEntry h fh fx))

/-- `grads.dot(D.T)` for the diagonal matrix `D` (232, 255, 284). -/
noncomputable def dotD (s : Vec) (T : List (List Vec)) : List (List Vec) :=
  T.map (fun m => m.map (Vec.mul s))

/-- `grad`, 194-257; `h = 1e-7` in the code. -/
noncomputable def Fn.grad (f : Fn V) (h : ℝ) (Xn : In) (kw0 : Kw V) : Except Err Grad :=
  let kw := merge f.kw kw0
  if f.fdGrad then
    match sequence (Xn.rows.map (f.fdRow h kw)) with
    | .error e => .error e
    | .ok gs => shapeGrad f.dom.len Xn (gs.map (fun g => [g]))
  else
    let X := Xn.rows.map (f.dom.unnormalize f.fb)
    let s := f.dom.uslopes f.fb
    match f.grads with
    | some G =>
      if f.vectorized then
        match stack3 (G.map (fun g => g.many X kw)) with
        | .error e => .error e
        | .ok T => shapeGrad f.dom.len Xn (dotD s (transpose102 (T.headD []).length T))
      else
        match sequence (X.map (fun x => vstack2 (G.map (fun g => g.one x kw)))) with
        | .error e => .error e
        | .ok T => match stack3 T with
          | .error e => .error e
          | .ok T => shapeGrad f.dom.len Xn (dotD s T)
    | none =>
      if f.returnGrad then
        if f.vectorized then
          -- 240-245: indexed [function, sample, dimension], not transposed
          match stack3 (f.funs.map (fun g => (g.manyG X kw).2)) with
          | .error e => .error e
          | .ok T => shapeGrad f.dom.len Xn (dotD s T)
        else
          match sequence (X.map (fun x => vstack2 (f.funs.map (fun g => (g.oneG x kw).2)))) with
          | .error e => .error e
          | .ok T => match stack3 T with
            | .error e => .error e
            | .ok T => shapeGrad f.dom.len Xn (dotD s T)
      else .error .notImplemented

/-- A 1-d output. -/
def OutN.isFlat : OutN → Bool
  | .flat _ => true
  | .rows _ => false

/-- The entries of a 1-d output. -/
def OutN.flatVal : OutN → Vec
  | .flat v => v
  | .rows _ => []

/-- `np.hstack` of the values of vectorized functions, 274: 1-d arrays are joined end to end. -/
def hstackOut : List OutN → Except Err Arr
  | [] => .error .valueError
  | os =>
    if os.all OutN.isFlat then
      .ok (.vec (os.flatMap OutN.flatVal))
    else if os.all (fun o => !o.isFlat) then
      (hstack2 (os.map OutN.toRows)).map Arr.mat
    else .error .valueError

/-- `fX.flatten()`. -/
def Arr.flatten : Arr → Arr
  | .vec v => .vec v
  | .mat r => .vec r.flatten

/-- `if len(X_norm.shape) == 1: fX = fX.flatten()`, 284-285. -/
def finishArr : In → Arr → Arr
  | .one _, a => a.flatten
  | .many _, a => a

/-- `__call__` with `return_grad=True` when the functions return gradients, 263-288. -/
noncomputable def Fn.callG (f : Fn V) (Xn : In) (kw0 : Kw V) : Except Err (Arr × Grad) :=
  let kw := merge f.kw kw0
  let X := Xn.rows.map (f.dom.unnormalize f.fb)
  let s := f.dom.uslopes f.fb
  let finish := fun (fX : Arr) (T : List (List Vec)) =>
    (shapeGrad f.dom.len Xn (dotD s T)).map (fun g => (finishArr Xn fX, g))
  if f.vectorized then
    match hstackOut (f.funs.map (fun g => (g.manyG X kw).1)) with
    | .error e => .error e
    | .ok fX => match stack3 (f.funs.map (fun g => (g.manyG X kw).2)) with
      | .error e => .error e
      | .ok T => finish fX (transpose102 X.length T)
  else
    match sequence (X.map (fun x => hstack1 (f.funs.map (fun g => (g.oneG x kw).1)))) with
    | .error e => .error e
    | .ok rows => match vstack1 rows with
      | .error e => .error e
      | .ok fX => match sequence (X.map (fun x => vstack2 (f.funs.map (fun g => (g.oneG x kw).2)))) with
        | .error e => .error e
        | .ok T => match stack3 T with
          | .error e => .error e
          | .ok T => finish (.mat fX) T

/-- `__call__`, 258-290. -/
noncomputable def Fn.call (f : Fn V) (h : ℝ) (Xn : In) (returnGrad : Bool) (kw0 : Kw V) :
    Except Err (Arr × Option Grad) :=
  let kw := merge f.kw kw0
  if returnGrad then
    if f.returnGrad then (f.callG Xn kw0).map (fun p => (p.1, some p.2))
    else match f.eval Xn kw with
      | .error e => .error e
      | .ok a => (f.grad h Xn kw).map (fun g => (a, some g))
  else (f.eval Xn kw).map (fun a => (a, none))

end Verif.Func
