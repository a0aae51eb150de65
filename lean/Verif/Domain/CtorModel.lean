import Verif.Domain.Model

/-!
# Model of the constructors of linearly and quadratically constrained domains

Source: `/repo/psdr/domains/linquad.py` 63-207; `LinIneqDomain` (linineq.py 46-47) and `BoxDomain` (box.py 27-28) call this constructor
with fewer arguments.

The arguments come as the user passes them: bounds may be numbers, the right hand sides may be numbers, a constraint matrix may be a
single row. Arrays are rectangular (`np.array` of a ragged list is outside the model); names are treated in `NamesModel`, the solver
options are left out.
-/

namespace Verif.Domain

open Verif

/-- The arguments `lb` and `ub`: a number or a list. -/
inductive BoundArg where
  | scalar (x : XR)
  | vec (l : List XR)

/-- The arguments `A` and `A_eq`: a one dimensional array, or `c` columns and a list of rows. -/
inductive MatArg where
  | vec (l : Vec)
  | mat (c : ℕ) (rows : List Vec)

/-- The arguments `b` and `b_eq`: a number, a list, or an array of more dimensions. -/
inductive RhsArg where
  | scalar (x : ℝ)
  | vec (l : List ℝ)
  | array

/-- The arguments of the constructor, linquad.py 63-67. -/
structure RawArgs where
  A : Option MatArg := none
  b : Option RhsArg := none
  lb : Option BoundArg := none
  ub : Option BoundArg := none
  Aeq : Option MatArg := none
  beq : Option RhsArg := none
  Ls : Option (List (List Vec)) := none
  ys : Option (List Vec) := none
  rhos : Option (List ℝ) := none

/-- The exceptions of the constructor: the bare `Exception` of linquad.py 121, or another one. -/
inductive CErr where
  | exception
  | err (e : Err)

/-- `1` for a number, `len(lb)` otherwise, linquad.py 104-113. -/
def BoundArg.dim : BoundArg → ℕ
  | .scalar _ => 1
  | .vec l => l.length

/-- `len(A[0])`, linquad.py 115 and 117: `A[0]` is a number if `A` is a single row. -/
def MatArg.dim : MatArg → Except CErr ℕ
  | .vec [] => .error (.err .indexError)
  | .vec (_ :: _) => .error (.err .typeError)
  | .mat _ [] => .error (.err .indexError)
  | .mat c (_ :: _) => .ok c

/-- `len(Ls[0][0])`, linquad.py 119. -/
def quadDim : List (List Vec) → Except CErr ℕ
  | [] => .error (.err .indexError)
  | [] :: _ => .error (.err .indexError)
  | (r :: _) :: _ => .ok r.length

/-- `_init_dim`, linquad.py 101-123. -/
def initDim (a : RawArgs) : Except CErr ℕ :=
  match a.lb, a.ub, a.A, a.Aeq, a.Ls with
  | some l, _, _, _, _ => .ok l.dim
  | none, some u, _, _, _ => .ok u.dim
  | none, none, some A, _, _ => A.dim
  | none, none, none, some A, _ => A.dim
  | none, none, none, none, some Ls => quadDim Ls
  | none, none, none, none, none => .error .exception

/-- `_init_lb` and `_init_ub`, linquad.py 126-142, with the value for a missing bound. -/
def initBound (n : ℕ) (d : XR) : Option BoundArg → Except CErr (List XR)
  | none => .ok (List.replicate n d)
  | some (.scalar x) => if 1 = n then .ok [x] else .error (.err .assertion)
  | some (.vec l) => if l.length = n then .ok l else .error (.err .assertion)

/-- linquad.py 150-153: a number becomes a vector of one entry; more than one dimension is refused. -/
def rhsVec : RhsArg → Except CErr (List ℝ)
  | .scalar x => .ok [x]
  | .vec l => .ok l
  | .array => .error (.err .assertion)

/-- linquad.py 155-159: a single row with one right hand side becomes a matrix; `A.shape[1]` raises for one dimensional arrays. -/
def matRows (n : ℕ) (b : List ℝ) : MatArg → Except CErr (List Vec)
  | .vec l => if b.length = 1 then (if l.length = n then .ok [l] else .error (.err .assertion)) else .error (.err .indexError)
  | .mat c rows => if c = n then (if rows.length = b.length then .ok rows else .error (.err .assertion)) else .error (.err .assertion)

/-- `_init_ineq` and `_init_eq`, linquad.py 144-184. -/
def initRows (n : ℕ) : Option MatArg → Option RhsArg → Except CErr (List Vec × List ℝ)
  | none, none => .ok ([], [])
  | some A, some b => do
      let b ← rhsVec b
      let A ← matRows n b A
      pure (A, b)
  | _, _ => .error (.err .assertion)

open Classical in
/-- The checks of one quadratic constraint, linquad.py 198-200. -/
noncomputable def quadCheck (n : ℕ) (L : List Vec) (y : Vec) (rho : ℝ) : Except CErr Unit :=
  match L with
  | [] => .error (.err .indexError)
  | r :: _ => if r.length = n ∧ y.length = n ∧ 0 < rho then .ok () else .error (.err .assertion)

/-- The loop over the quadratic constraints, linquad.py 197-203. -/
noncomputable def quadLoop (n : ℕ) : List (List Vec) → List Vec → List ℝ → Except CErr Unit
  | L :: Ls, y :: ys, rho :: rhos => do
      quadCheck n L y rho
      quadLoop n Ls ys rhos
  | _, _, _ => .ok ()

/-- `_init_quad`, linquad.py 186-207. -/
noncomputable def initQuads (n : ℕ) : Option (List (List Vec)) → Option (List Vec) → Option (List ℝ) →
    Except CErr (List (List Vec) × List Vec × List ℝ)
  | none, none, none => .ok ([], [], [])
  | some Ls, some ys, some rhos =>
      if Ls.length = ys.length ∧ ys.length = rhos.length then do
        quadLoop n Ls ys rhos
        pure (Ls, ys, rhos)
      else .error (.err .assertion)
  | _, _, _ => .error (.err .assertion)

/-- The constructor, linquad.py 63-83. -/
noncomputable def mkLinQuad (a : RawArgs) : Except CErr LQ := do
  let n ← initDim a
  let lb ← initBound n .ninf a.lb
  let ub ← initBound n .pinf a.ub
  let (A, b) ← initRows n a.A a.b
  let (Aeq, beq) ← initRows n a.Aeq a.beq
  let (Ls, ys, rhos) ← initQuads n a.Ls a.ys a.rhos
  pure { n := n, lb := lb, ub := ub, A := A, b := b, Aeq := Aeq, beq := beq, Ls := Ls, ys := ys, rhos := rhos }

end Verif.Domain
