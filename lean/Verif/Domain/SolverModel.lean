import Verif.Domain.Exact

/-!
# Model of the operations that call a convex solver: `corner`, `closest_point`,
# `constrained_least_squares`, and the queries built on `corner`

Sources: `/repo/psdr/domains/euclidean.py` 79-126, 139-379; `linquad.py` 268-293; `convexhull.py` 255-259;
`tensor.py` 97-98, 112-116; `point.py` 34-38; `unbounded.py` 38-48.

The solver (CVXPY) is a parameter: a function from a problem to a status.  The problem is the number of
variables, the feasible set and the objective to minimize.  The statuses `optimal` and
`optimal_inaccurate` are one status here.

Objects remember `_empty` once it was determined: `none` (attribute missing), `some b`.

Simplifications: an array of the wrong size is rejected where `reshape` raises; the case where a
matrix of the wrong width has a number of entries divisible by the dimension (and is silently
re-chunked by `reshape(-1, m)`, euclidean.py 181, 336) is not modelled: matrices are rejected unless
every row has the right width.  `BoxDomain` overrides `_corner`; that version is in `QueryModel`.
-/

namespace Verif.Domain

open Classical Verif

/-- `problem.status` and `x_norm.value`. -/
inductive Status where
  | infeasible
  | unbounded
  | optimal (z : Vec)
  | other

/-- The solver: number of variables, feasible set, objective to be minimized. -/
abbrev Solver := ℕ → (Vec → Prop) → (Vec → ℝ) → Status

/-- The constraints handed to the solver, linquad.py 268-293 (only finite entries of `lb_norm`, `ub_norm`
are passed on, as in `LQ.Holds`), convexhull.py 255-259, unbounded.py 38-39. -/
def Base.feasNorm (fb : CornerOracle) (d : Base) (z : Vec) : Prop :=
  match d with
  | .unbounded _ => True
  | .hull X q => ((Base.hull X q).normData fb).Holds z ∧
      InHull q.n (X.map ((Base.hull X q).normalize fb)) z
  | d => (d.normData fb).Holds z

/-- `len(constraints) == 0`. -/
def Base.noConstraints (fb : CornerOracle) (d : Base) : Prop :=
  match d with
  | .unbounded _ => True
  | .hull _ _ => False
  | d => (∀ v ∈ d.lbNorm fb, ¬ v.isFinite) ∧ (∀ v ∈ d.ubNorm fb, ¬ v.isFinite) ∧
      d.acc.A = [] ∧ d.acc.Aeq = [] ∧ d.acc.Ls = []

/-- `_build_constraints_norm`, with tensor.py 112-116. -/
def Dom.feasNorm (fb : CornerOracle) : Dom → Vec → Prop
  | .base d, z => d.feasNorm fb z
  | .tensor ds, z => ∀ q ∈ slicesFrom 0 ds z, q.1.feasNorm fb q.2

/-- `len(constraints) == 0`, with tensor.py 112-116. -/
def Dom.noConstraints (fb : CornerOracle) : Dom → Prop
  | .base d => d.noConstraints fb
  | .tensor ds => ∀ d ∈ ds, d.noConstraints fb

/-- Diagonal of `_unnormalize_der`, with tensor.py 97-98 (block diagonal). -/
noncomputable def Dom.uslopes (fb : CornerOracle) : Dom → Vec
  | .base d => d.uslopes fb
  | .tensor ds => ds.flatMap (fun d => d.uslopes fb)

/-- `_center()`.  `TensorProductDomain` does not override it: it is computed from the bounds of the
product (euclidean.py 1019-1072, 1095-1099); `fbD` are the corner answers for the product. -/
noncomputable def Dom.centerOf (fb : CornerOracle) (fbD : List XR × List XR) : Dom → Vec
  | .base d => d.center fb
  | .tensor ds => Domain.center
      (List.zipWith (fun lu f => normLb1 lu.1 lu.2 f) ((Dom.tensor ds).acc.lb.zip (Dom.tensor ds).acc.ub) fbD.1)
      (List.zipWith (fun lu f => normUb1 lu.1 lu.2 f) ((Dom.tensor ds).acc.lb.zip (Dom.tensor ds).acc.ub) fbD.2)

/-- Some factor is an `UnboundedDomain`: these objects have no attribute `kwargs`, so `corner` and
everything computed from it raises AttributeError (euclidean.py 189, 261; unbounded.py 21-27). -/
def Dom.hasUnbounded : Dom → Prop
  | .base d => ∃ n, d = .unbounded n
  | .tensor ds => ∃ d ∈ ds, ∃ n, d = .unbounded n

/-- `corner(p)` for domains other than boxes, euclidean.py 228-307; point.py 37-38.  For boxes this
definition only records that the call leaves `_empty` alone; what it returns is in `QueryModel`.
Returns the result and the new value of `_empty`. -/
noncomputable def Dom.corner (S : Solver) (fb : CornerOracle) (D : Dom) (empty : Option Bool) (p : Vec) :
    Except Err Vec × Option Bool :=
  if p.length ≠ D.len then (.error .valueError, empty)
  else match D with
    | .base (.point x) => (.ok x, empty)
    | .base (.box _ _) => (.error .notImplemented, empty)      -- see `QueryModel.boxCorner`
    | D =>
      if empty = some true then (.error .emptyDomain, empty)
      else if D.hasUnbounded then (.error .attributeError, empty)
      else match S D.len (D.feasNorm fb) (fun z => -(Vec.dot (Vec.mul (D.uslopes fb) p) z)) with
        | .infeasible => (.error .emptyDomain, empty)
        | .unbounded => (.error .unboundedDomain, empty)
        | .optimal z => if D.noConstraints fb then (.error .unboundedDomain, empty)
            else (.ok (D.unnormalize fb z), some false)
        | .other => if D.noConstraints fb then (.error .unboundedDomain, empty) else (.error .solverError, empty)

/-- `np.eye(n)`. -/
def eyeRows (n : ℕ) : List Vec :=
  (List.range n).map (fun i => (List.range n).map (fun j => if i = j then 1 else 0))

/-- The objective of `closest_point`, euclidean.py 212-214. -/
noncomputable def Dom.closestObj (fb : CornerOracle) (D : Dom) (L : List Vec) (x0 z : Vec) : ℝ :=
  Vec.norm (Vec.sub (Vec.mulVec (colScale (D.uslopes fb) L) z)
    (Vec.mulVec (colScale (D.uslopes fb) L) (D.normalize fb x0)))

/-- `closest_point(x0, L)`, euclidean.py 173-225; point.py 34-35. -/
noncomputable def Dom.closest (S : Solver) (nnls : NNLS) (TOL : ℝ) (fb : CornerOracle) (D : Dom)
    (empty : Option Bool) (x0 : Vec) (L : Option (List Vec)) : Except Err Vec × Option Bool :=
  if x0.length ≠ D.len ∨ ∃ r ∈ L.getD [], r.length ≠ D.len then (.error .valueError, empty)
  else match D with
    | .base (.point x) => (.ok x, empty)
    | .base (.unbounded _) => (.error .attributeError, empty)
    | D =>
      if empty = some true then (.error .emptyDomain, empty)
      else if D.isInside nnls TOL x0 then (.ok x0, some false)
      else if D.hasUnbounded then (.error .attributeError, empty)
      else match S D.len (D.feasNorm fb) (D.closestObj fb (L.getD (eyeRows D.len)) x0) with
        | .infeasible => (.error .emptyDomain, some true)
        | .optimal z => (.ok (D.unnormalize fb z), empty)
        | .unbounded => (.error .solverError, empty)
        | .other => (.error .solverError, empty)

/-- The objective of `constrained_least_squares`, euclidean.py 358-359. -/
noncomputable def Dom.clsObj (fb : CornerOracle) (fbD : List XR × List XR) (D : Dom) (A : List Vec) (b z : Vec) : ℝ :=
  Vec.norm (Vec.sub (Vec.sub (Vec.mulVec (colScale (D.uslopes fb) A) z) b) (Vec.mulVec A (D.centerOf fb fbD)))

/-- `constrained_least_squares(A, b)`, euclidean.py 334-379. -/
noncomputable def Dom.cls (S : Solver) (fb : CornerOracle) (fbD : List XR × List XR) (D : Dom)
    (empty : Option Bool) (A : List Vec) (b : Vec) : Except Err Vec × Option Bool :=
  if (∃ r ∈ A, r.length ≠ D.len) ∨ b.length ≠ A.length then (.error .valueError, empty)
  else if empty = some true then (.error .emptyDomain, empty)
  else if D.hasUnbounded then (.error .attributeError, empty)
  else match S D.len (D.feasNorm fb) (D.clsObj fb fbD A b) with
    | .infeasible => (.error .emptyDomain, some true)
    | .unbounded => (.error .unboundedDomain, some false)
    | .optimal z => (.ok (D.unnormalize fb z), some false)
    | .other => (.error .solverError, empty)

/-! ## Histories of calls on one object -/

/-- A public call that runs the solver. -/
inductive SCall where
  | corner (p : Vec)
  | closest (x0 : Vec) (L : Option (List Vec))
  | cls (A : List Vec) (b : Vec)

/-- One call. -/
noncomputable def Dom.scall (S : Solver) (nnls : NNLS) (TOL : ℝ) (fb : CornerOracle) (fbD : List XR × List XR)
    (D : Dom) (empty : Option Bool) : SCall → Except Err Vec × Option Bool
  | .corner p => D.corner S fb empty p
  | .closest x0 L => D.closest S nnls TOL fb empty x0 L
  | .cls A b => D.cls S fb fbD empty A b

/-- The value of `_empty` after a sequence of calls (each with its own run of the solver). -/
noncomputable def Dom.afterCalls (nnls : NNLS) (TOL : ℝ) (fb : CornerOracle) (fbD : List XR × List XR)
    (D : Dom) : Option Bool → List (Solver × SCall) → Option Bool
  | e, [] => e
  | e, (S, k) :: ks => D.afterCalls nnls TOL fb fbD (D.scall S nnls TOL fb fbD e k).2 ks

/-! ## Queries built on `corner` -/

/-- `is_empty` of a domain that is not a box, euclidean.py 79-91 (first evaluation). -/
noncomputable def Dom.isEmptyQuery (S : Solver) (fb : CornerOracle) (D : Dom) (empty : Option Bool) :
    Except Err Bool :=
  match (D.corner S fb empty (List.replicate D.len 1)).1 with
  | .ok _ => .ok false
  | .error .emptyDomain => .ok true
  | .error .unboundedDomain => .ok false
  | .error e => .error e

/-- The loop of `is_unbounded`, euclidean.py 116-126, over the rows of the random orthogonal matrix. -/
noncomputable def unboundedLoop (corner : Option Bool → Vec → Except Err Vec × Option Bool) :
    Option Bool → List Vec → Except Err Bool
  | _, [] => .ok false
  | e, u :: us =>
    match corner e u with
    | (.error .unboundedDomain, _) => .ok true
    | (.error .emptyDomain, _) => .ok false
    | (.error r, _) => .error r
    | (.ok _, e1) =>
      match corner e1 (Vec.smul (-1) u) with
      | (.error .unboundedDomain, _) => .ok true
      | (.error .emptyDomain, _) => .ok false
      | (.error r, _) => .error r
      | (.ok _, e2) => unboundedLoop corner e2 us

/-- `is_unbounded` of a domain that is not a box, euclidean.py 113-126; `ortho_group.rvs(n)` raises
ValueError for `n ≤ 1`. -/
noncomputable def Dom.isUnboundedQuery (S : Solver) (fb : CornerOracle) (D : Dom) (empty : Option Bool)
    (U : List Vec) : Except Err Bool :=
  if D.len ≤ 1 then .error .valueError else unboundedLoop (D.corner S fb) empty U

end Verif.Domain
