import Verif.Func.FunctionModel

/-!
# Model of asynchronous evaluation

Source: `/repo/psdr/function.py` 96-127 (pickling of the functions), 158-178 (`eval_async`), 297-304 (`call_async`).

The scheduler is a list of submitted tasks with the results known so far. Which task is executed next, tasks executed again and results lost with a worker are
events in an arbitrary order. Python code refers to names of the scope it was defined in; it is a function of the values of these names. `submit` takes some
keyword arguments (`key`, `workers`, `retries`, ...) for itself; their names are a parameter. Tasks have no other effect than their result.
-/

namespace Verif.Func

open Verif Verif.Domain

/-- The source code of a user function: what it returns or raises, given the values of the global names it may use. -/
structure Src (G V : Type) where
  body : (String → Option G) → Vec → Kw V → Except Err Vec

/-- A `Function` with a `dask_client` (or without), function.py 71-131; `globals` is the module the functions come from. -/
structure AFn (G V : Type) where
  funs : List (Src G V)
  globals : String → Option G
  dask : Bool
  kw : Kw V
  dom : Dom
  fb : CornerOracle

/-- A submitted task: pickled functions, the point, and the keyword arguments that reach it. -/
structure Task (G V : Type) where
  funs : List (Src G V)
  x : Vec
  kw : Kw V

variable {G V : Type}

/-- `subcall`, 168-171. The functions were defined by executing their source in an empty scope, 119-127. -/
def Task.value (t : Task G V) : Except Err (List Vec) := sequence (t.funs.map fun g => g.body (fun _ => none) t.x t.kw)

/-- The scheduler: tasks in the order of submission, with their results. -/
abbrev Cluster (G V : Type) := List (Task G V × Option (Except Err (List Vec)))

/-- What `eval_async` returns: one future or a list of futures, 174-178. -/
inductive Fut where
  | one (i : ℕ)
  | many (is : List ℕ)

/-- `results[0]` or `results`, 174-178. -/
def Fut.of : In → List ℕ → Fut
  | .one _, ids => .one (ids.getD 0 0)
  | .many _, ids => .many ids

/-- The keyword arguments `submit` passes on. -/
def passed (reserved : String → Bool) (kw : Kw V) : Kw V := fun s => if reserved s then none else kw s

/-- `eval_async`, 158-178. -/
noncomputable def AFn.evalAsync (reserved : String → Bool) (a : AFn G V) (X : In) (kw : Kw V) (C : Cluster G V) : Except Err (Cluster G V × Fut) :=
  if a.dask then
    let k := merge a.kw kw
    let rows := X.rows.map (a.dom.unnormalize a.fb)
    let ids := (List.range rows.length).map (C.length + ·)
    .ok (C ++ rows.map (fun x => (⟨a.funs, x, passed reserved k⟩, none)), Fut.of X ids)
  else .error .assertion

/-- `call_async`, 297-304: `return_grad` is passed as a keyword argument; if it is also among the keyword arguments of the object python refuses the call. -/
noncomputable def AFn.callAsync (reserved : String → Bool) (ofBool : Bool → V) (a : AFn G V) (X : In) (rg : Bool) (kw : Kw V) (C : Cluster G V) :
    Except Err (Cluster G V × Fut) :=
  let k := merge a.kw kw
  if (k "return_grad").isSome then .error .typeError
  else a.evalAsync reserved X (fun s => if s = "return_grad" then some (ofBool rg) else k s) C

/-- What can happen: a call of `eval_async` on some object, the execution of a task, the loss of a result. -/
inductive Ev (G V : Type) where
  | call (a : AFn G V) (X : In) (kw : Kw V)
  | run (i : ℕ)
  | lose (i : ℕ)

/-- One event. -/
noncomputable def Cluster.step (reserved : String → Bool) (C : Cluster G V) : Ev G V → Cluster G V
  | .call a X kw => match a.evalAsync reserved X kw C with
    | .ok r => r.1
    | .error _ => C
  | .run i => C.modify i fun p => (p.1, some p.1.value)
  | .lose i => C.modify i fun p => (p.1, none)

/-- A history. -/
noncomputable def Cluster.exec (reserved : String → Bool) (C : Cluster G V) (evs : List (Ev G V)) : Cluster G V := evs.foldl (Cluster.step reserved) C

/-- `future.result()`, if the future is done. -/
def Cluster.result (C : Cluster G V) (i : ℕ) : Option (Except Err (List Vec)) := (C[i]?).bind (·.2)

end Verif.Func
