import Verif.Domain.SolverModel

/-!
# Model of `_build_constraints`: the constraints handed to the optimizers

Sources: `/repo/psdr/domains/linquad.py` 296-321, `convexhull.py` 248-253, `tensor.py` 119-123, `unbounded.py` 35-36.  They are used by
`sequential_lp` (seqlp.py 183), `minimax` (minimax.py 154), the designs of sample/minimax.py 98 and sample/minimax_lloyd.py 99.

A list of cvxpy constraints is represented by the set of vectors (of the length of the domain) that satisfy it.
-/

namespace Verif.Domain

open Verif

/-- linquad.py 296-321: only finite bounds are passed on. -/
def LQ.feas (d : LQ) (x : Vec) : Prop :=
  (∀ q ∈ d.lb.zip x, ∀ r, q.1 = XR.fin r → r ≤ q.2) ∧
  (∀ q ∈ d.ub.zip x, ∀ r, q.1 = XR.fin r → q.2 ≤ r) ∧
  (∀ q ∈ (Vec.mulVec d.A x).zip d.b, q.1 ≤ q.2) ∧
  (∀ q ∈ (Vec.mulVec d.Aeq x).zip d.beq, q.1 = q.2) ∧
  (∀ q ∈ d.Ls.zip (d.ys.zip d.rhos), Vec.norm (Vec.sub (Vec.mulVec q.1 x) (Vec.mulVec q.1 q.2.1)) ≤ q.2.2)

/-- convexhull.py 250-251: `x == alpha @ self._X.T, alpha >= 0, sum(alpha) == 1`; entry `j` of `alpha @ X.T` is `X[j] · alpha`. -/
def hullTransposed (X : List Vec) (x : Vec) : Prop :=
  ∃ al : Vec, al.length = X.length ∧ x = X.map (fun r => Vec.dot r al) ∧ (∀ a ∈ al, 0 ≤ a) ∧ al.sum = 1

/-- `_build_constraints` by class.  The product `alpha @ self._X.T` of a vector with one entry for each point and a matrix with one row for each
coordinate is a ValueError unless there are as many points as coordinates. -/
def Base.build : Base → Except Err (Vec → Prop)
  | .unbounded _ => .ok fun _ => True
  | .hull X q => if X.length = q.n then .ok fun x => hullTransposed X x ∧ q.feas x else .error .valueError
  | d => .ok d.acc.feas

/-- `TensorProductDomain._build_constraints`, tensor.py 119-123. -/
noncomputable def Dom.build : Dom → Except Err (Vec → Prop)
  | .base d => d.build
  | .tensor ds => (ds.mapM Base.build).map fun (Ps : List (Vec → Prop)) (x : Vec) => ∀ q ∈ (slicesFrom 0 ds x).zip Ps, q.2 q.1.2

end Verif.Domain
