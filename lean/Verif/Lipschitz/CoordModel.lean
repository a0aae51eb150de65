import Verif.Lipschitz.FitModel
import Mathlib.Data.Fintype.Perm
import Mathlib.Logic.Equiv.Basic

/-!
# Model of coordinate based dimension reduction: `DiagonalLipschitzMatrix` as an object

Sources: `/repo/psdr/coord.py` 15-48, `/repo/psdr/lipschitz.py` 77-95, 584-608.

The object has attributes `_L`, `_score` (set by `fit`) and `_U` (a cache).  The number of coordinates is the same in all calls of `fit`
(simplified).  `np.argsort` is a parameter.  Optional `epsilon`, the method and the solver are fixed at construction.
-/

namespace Verif.Lip

open Verif Matrix

variable {m : ℕ}

/-- `np.argsort`: position `j` of the result holds the index of the `j`-th smallest entry. -/
abbrev Argsort (m : ℕ) := (Fin m → ℝ) → Equiv.Perm (Fin m)

/-- Attributes of a `DiagonalLipschitzMatrix`. -/
structure DiagObj (m : ℕ) where
  L : Option (Matrix (Fin m) (Fin m) ℝ)
  score : Option (Pt m)
  U : Option (Matrix (Fin m) (Fin m) ℝ)

/-- `__init__`, lipschitz.py 591-596 and 77-80: `np.diag(np.diag(L))` if given; `_U = None`; `_score` is not set. -/
def diagInit (L : Option (Matrix (Fin m) (Fin m) ℝ)) : DiagObj m :=
  { L := L.map fun L => Matrix.diagonal fun i => L i i, score := none, U := none }

/-- Calls by the user. -/
inductive DiagOp (m : ℕ) where
  | fit (X : Option (List (Pt m))) (fX : Option (List ℝ)) (grads : Option (List (Pt m)))
  | getU
  | getL
  | getScore

/-- What a call gives. -/
inductive DiagOut (m : ℕ) where
  | none
  | mat (A : Matrix (Fin m) (Fin m) ℝ)
  | vec (v : Pt m)
  | fitError (e : LErr)
  | attributeError

/-- `np.eye(len(score))[:, np.argsort(-score)]`, coord.py 46. -/
def coordU (sort : Argsort m) (score : Pt m) : Matrix (Fin m) (Fin m) ℝ :=
  (1 : Matrix (Fin m) (Fin m) ℝ).submatrix id (sort fun i => -score i)

/-- One call: `fit` lipschitz.py 599-608 (a failing fit leaves `_L`, `_score`, `_U` as they are), `U` coord.py 40-48, `L` lipschitz.py 200-204,
`score` coord.py 19-23. -/
noncomputable def diagStep (sort : Argsort m) (method : Method) (build : Build m) (epsilon : Option ℝ) (s : DiagObj m) : DiagOp m → DiagObj m × DiagOut m
  | .fit X fX grads =>
    match diagFit method build epsilon X fX grads with
    | .error e => (s, .fitError e)
    | .ok (_, L) => ({ s with L := some L, score := some fun i => L i i }, .none)
  | .getU =>
    match s.U with
    | some U => (s, .mat U)
    | none =>
      match s.score with
      | none => (s, .attributeError)
      | some score => ({ s with U := some (coordU sort score) }, .mat (coordU sort score))
  | .getL =>
    match s.L with
    | some L => (s, .mat L)
    | none => (s, .attributeError)
  | .getScore =>
    match s.score with
    | some v => (s, .vec v)
    | none => (s, .attributeError)

/-- A sequence of calls on one object: the results and the final object. -/
noncomputable def diagRun (sort : Argsort m) (method : Method) (build : Build m) (epsilon : Option ℝ) :
    DiagObj m → List (DiagOp m) → DiagObj m × List (DiagOut m)
  | s, [] => (s, [])
  | s, op :: ops =>
    let r := diagStep sort method build epsilon s op
    let q := diagRun sort method build epsilon r.1 ops
    (q.1, r.2 :: q.2)

end Verif.Lip
