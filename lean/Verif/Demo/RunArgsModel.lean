import Verif.Demo.RunModel
import Verif.Func.FunctionModel

/-!
# Model of the arguments and of the numbers handed to external programs

Source: `/repo/psdr/demos/multif.py` 80-91 (`MULTIF.__init__`), 108-109 (signature of `multif`), `/repo/psdr/demos/naca0012.py` 31-35 (`NACA0012.__init__`), 45-47,
`/repo/psdr/demos/oas.py` 21-23, 75, 95, `/repo/psdr/function.py` 131-151 (`eval`), `/repo/psdr/demos/naca0012/naca0012_driver.py` 19-21.
-/

namespace Verif.Demo

open Verif.Func (Kw merge)

/-- Values of keyword arguments. -/
inductive ArgV where
  | none
  | int (z : ℤ)
  | bool (b : Bool)
  | str (s : String)
  | path (p : Path)
  deriving DecidableEq

/-- The named parameters of `MULTIF.__init__`, multif.py 80-81. -/
def multifNamed : List String := ["truncate", "level", "su2_maxiter", "workdir", "dask_client"]

/-- The keywords that `MULTIF.__init__` stores, multif.py 91: those that are not named parameters. -/
def multifStored (args : Kw ArgV) : Kw ArgV := fun k => if k ∈ multifNamed then Option.none else args k

/-- The named parameters of `NACA0012.__init__`, naca0012.py 31. -/
def nacaNamed : List String := ["n_lower", "n_upper", "fraction", "dask_client"]

/-- The keywords that `NACA0012.__init__` stores, naca0012.py 33: the rest, updated with the numbers of bumps. -/
def nacaStored (args : Kw ArgV) : Kw ArgV :=
  merge (fun k => if k ∈ nacaNamed then Option.none else args k)
    (fun k => if k = "n_lower" then some ((args "n_lower").getD (.int 10)) else if k = "n_upper" then some ((args "n_upper").getD (.int 10)) else Option.none)

/-- The parameters of `multif` and their defaults, multif.py 108-109. -/
def multifParams : List (String × ArgV) :=
  [("level", .int 0), ("version", .str "v25"), ("su2_maxiter", .none), ("workdir", .none), ("keep_data", .bool false), ("verbose", .bool false), ("cores", .none)]

/-- The parameters of `naca0012_func` and their defaults, naca0012.py 45-47. -/
def nacaParams : List (String × ArgV) :=
  [("version", .str "v1"), ("workdir", .none), ("verbose", .bool false), ("keep_data", .bool false), ("n_lower", .int 10), ("n_upper", .int 10), ("return_grad", .bool false),
    ("maxiter", .int 1000), ("nprocesses", .int 1)]

open Classical in
/-- `fun(x, **kw)` for a function with the given parameters: an unknown keyword raises, a missing one gets its default. -/
noncomputable def bindArgs (params : List (String × ArgV)) (kw : Kw ArgV) : Except RunErr (List (String × ArgV)) :=
  if ∀ k, kw k ≠ Option.none → k ∈ params.map Prod.fst then .ok (params.map fun p => (p.1, (kw p.1).getD p.2)) else .error .typeError

/-- The arguments with which `multif` is called by `MULTIF(**args)(x, **call)`; function.py 135. -/
noncomputable def multifBound (args call : Kw ArgV) : Except RunErr (List (String × ArgV)) := bindArgs multifParams (merge (multifStored args) call)

/-- The arguments with which `naca0012_func` is called by `NACA0012(**args).eval(x, **call)`. -/
noncomputable def nacaBound (args call : Kw ArgV) : Except RunErr (List (String × ArgV)) := bindArgs nacaParams (merge (nacaStored args) call)

/-- The number written by the format `'%.15e'`: sixteen significant decimal digits.  (A tie, here rounded up, is rounded to even by the C library.) -/
noncomputable def dec16 (x : ℝ) : ℝ :=
  if x = 0 then 0 else round (x * (10 : ℝ) ^ (15 - Int.log 10 |x|)) / (10 : ℝ) ^ (15 - Int.log 10 |x|)

/-- An array read by `np.loadtxt`. -/
inductive Loaded where
  | scalar (v : ℝ)
  | vec (v : List ℝ)
  | mat (rows : List (List ℝ))

/-- `np.loadtxt` drops the axes of length one. -/
def squeezed (rows : List (List ℝ)) : Loaded :=
  match rows with
  | [[v]] => .scalar v
  | [row] => .vec row
  | rows => if ∀ r ∈ rows, r.length = 1 then .vec (rows.map fun r => r.headD 0) else .mat rows

/-- `len` of an array; that of a scalar raises. -/
def Loaded.len : Loaded → Option ℕ
  | .scalar _ => none
  | .vec v => some v.length
  | .mat rows => some rows.length

/-- `OpenAeroStruct().eval(X)` for a matrix `X` with `N` rows, from the table of results the program leaves; function.py 142-149. -/
def oasBatch (N : ℕ) (rows : List (List ℝ)) : Except RunErr (List (List ℝ)) :=
  match (squeezed rows).len with
  | none => .error .typeError
  | some l =>
    if l = N then
      match squeezed rows with
      | .scalar v => .ok [[v]]
      | .vec v => .ok (v.map fun a => [a])
      | .mat r => .ok r
    else .error .assertion

/-- `OpenAeroStruct().eval(x)` for a vector, function.py 137-139. -/
def oasOne (rows : List (List ℝ)) : List ℝ :=
  match squeezed rows with
  | .scalar v => [v]
  | .vec v => v
  | .mat r => r.flatten

/-- The positions of the bumps on one surface, naca0012_driver.py 20-21: `np.linspace(0, 1, n + 2)[1:-1]`. -/
noncomputable def bumps (n : ℕ) : List ℝ := (((List.range (n + 2)).map fun k : ℕ => (k : ℝ) * (1 / ((n : ℝ) + 1))).drop 1).dropLast

end Verif.Demo
