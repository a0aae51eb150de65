import Verif.Domain.HitRunModel
import Verif.Domain.QueryModel

/-!
# Model of the sampling of the boundary

Source: `/repo/psdr/domains/euclidean.py` 638-656 (`sample_boundary`), 658-684 (`random_direction`); `linineq.py` 136-142
(`center`). `Dom.sampleBoundary` returns `none` if the loop of `random_direction` has not ended after the given random vectors.
For `draw = 1` the method returns the single row as a vector (654); here it is a list with one row.
-/

namespace Verif.Domain

open Classical Verif

/-- `corner(p)` of all classes: boxes (with bounds stored as floats) in box.py 65-72, the others in euclidean.py 228-307. -/
noncomputable def Dom.anyCorner (S : Solver) (TOL : ℝ) (fb : CornerOracle) (e : Option Bool) (D : Dom) (p : Vec) : Except Err (List XR) :=
  match D with
  | .base (.box lb ub) => boxCorner TOL false lb ub p
  | D => match (D.corner S fb e p).1 with
    | .error r => .error r
    | .ok x => .ok (x.map XR.fin)

/-- `[self.random_direction(self.center) for i in range(draw)]`, euclidean.py 648; one list of random vectors per call. -/
noncomputable def directionLoop (extent : Vec → Except Err XR) (Q : List Vec) : List (List Vec) → Option (Except Err (List Vec))
  | [] => some (.ok [])
  | ps :: pss =>
    match randomDirection extent Q ps with
    | none => none
    | some (.error r) => some (.error r)
    | some (.ok p) =>
      match directionLoop extent Q pss with
      | none => none
      | some (.error r) => some (.error r)
      | some (.ok ds) => some (.ok (p :: ds))

/-- `[self.corner(d) for d in dirs]`, euclidean.py 649 (a call that returns leaves `_empty` so that the next one does the same). -/
noncomputable def cornersOf (corner : Vec → Except Err (List XR)) : List Vec → Except Err (List (List XR))
  | [] => .ok []
  | d :: ds =>
    match corner d with
    | .error r => .error r
    | .ok x =>
      match cornersOf corner ds with
      | .error r => .error r
      | .ok X => .ok (x :: X)

/-- `sample_boundary(draw)`, euclidean.py 638-656, with one list of random vectors for each of the `draw` points. The center is
only computed if there is something to draw. -/
noncomputable def Dom.sampleBoundary (nnls : NNLS) (TOL tol : ℝ) (he : HullExtent) (fb : CornerOracle) (Q : List Vec) (D : Dom)
    (S : Solver) (e : Option Bool) (pss : List (List Vec)) : Option (Except Err (List (List XR))) :=
  match pss with
  | [] => some (.ok [])
  | ps :: pss =>
    match D.centerProp S with
    | .error r => some (.error r)
    | .ok c =>
      match directionLoop (fun p => D.extent nnls TOL tol he c p) Q (ps :: pss) with
      | none => none
      | some (.error r) => some (.error r)
      | some (.ok ds) => some (cornersOf (D.anyCorner S TOL fb e) ds)

end Verif.Domain
