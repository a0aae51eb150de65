import Verif.Domain.Model
import Mathlib.Algebra.Order.Floor.Defs
import Mathlib.Algebra.Order.Archimedean.Basic
import Mathlib.Algebra.Order.Archimedean.Real.Basic

/-!
# Model of the cached queries and of `corner` for box domains

Sources: `/repo/psdr/domains/box.py` 30-72, `point.py` 22-29, `euclidean.py` 202-214.
-/

namespace Verif.Domain

open Classical Verif

/-- The state of a `BoxDomain` object relevant to its queries: the bounds and the three cached
attributes (`none` when the attribute does not exist). -/
structure BoxState where
  lb : List XR
  ub : List XR
  empty : Option Bool := none
  point : Option Bool := none
  unbounded : Option Bool := none

/-- `np.any(self.lb > self.ub)`, box.py 36. -/
noncomputable def boxEmpty (lb ub : List XR) : Bool := decide (∃ q ∈ lb.zip ub, XR.lt q.2 q.1)

/-- `np.all(np.abs(self.ub - self.lb) < TOL)`, box.py 46. -/
noncomputable def boxPoint (TOL : ℝ) (lb ub : List XR) : Bool :=
  decide (∀ q ∈ lb.zip ub, match XR.sub q.2 q.1 with
    | .fin d => |d| < TOL
    | _ => False)

/-- `np.any(np.isinf(self.lb)) | np.any(np.isinf(self.ub))`, box.py 54. -/
noncomputable def boxUnbounded (lb ub : List XR) : Bool :=
  decide ((∃ v ∈ lb, v.isInf) ∨ ∃ v ∈ ub, v.isInf)

/-- The property `is_empty`, box.py 31-39: on first use it also writes the two other attributes. -/
noncomputable def BoxState.isEmpty (s : BoxState) : Bool × BoxState :=
  match s.empty with
  | some b => (b, s)
  | none =>
    let b := boxEmpty s.lb s.ub
    (b, { s with empty := some b, point := some false, unbounded := some false })

/-- The property `is_point`, box.py 41-47. -/
noncomputable def BoxState.isPoint (TOL : ℝ) (s : BoxState) : Bool × BoxState :=
  match s.point with
  | some b => (b, s)
  | none =>
    let b := boxPoint TOL s.lb s.ub
    (b, { s with point := some b })

/-- The property `is_unbounded`, box.py 49-55. -/
noncomputable def BoxState.isUnbounded (s : BoxState) : Bool × BoxState :=
  match s.unbounded with
  | some b => (b, s)
  | none =>
    let b := boxUnbounded s.lb s.ub
    (b, { s with unbounded := some b })

/-- A public call that reads or writes the cached attributes. -/
inductive BoxCall where
  | isEmpty
  | isPoint
  | isUnbounded
  /-- `sample(draw)` with `draw ≥ 1`, box.py 59-63: evaluates `is_empty` -/
  | sample
  /-- `closest_point(x0)`, euclidean.py 194-225 -/
  | closestPoint (x0 : Vec)

/-- What the caller sees: the answer to a query, that an array came back, or an exception. -/
inductive BoxAns where
  | bool (b : Bool)
  | array
  | raised (e : Err)

/-- One call on a box object.  `infeasible` is the verdict of the convex solver that `closest_point`
consults for a point that is not inside. -/
noncomputable def BoxState.call (TOL : ℝ) (infeasible : Vec → Bool) (s : BoxState) : BoxCall → BoxAns × BoxState
  | .isEmpty => (.bool s.isEmpty.1, s.isEmpty.2)
  | .isPoint => (.bool (s.isPoint TOL).1, (s.isPoint TOL).2)
  | .isUnbounded => (.bool s.isUnbounded.1, s.isUnbounded.2)
  | .sample => (if s.isEmpty.1 then .raised .emptyDomain else .array, s.isEmpty.2)
  | .closestPoint x0 =>
      if x0.length ≠ s.lb.length then (.raised .valueError, s)
      else if s.empty = some true then (.raised .emptyDomain, s)
      else if inBounds s.lb s.ub TOL x0 then (.array, { s with empty := some false })
      else if infeasible x0 then (.raised .emptyDomain, { s with empty := some true })
      else (.array, s)

/-- The object after a sequence of calls. -/
noncomputable def BoxState.after (TOL : ℝ) (infeasible : Vec → Bool) (s : BoxState) : List BoxCall → BoxState
  | [] => s
  | c :: cs => ((s.call TOL infeasible c).2).after TOL infeasible cs

/-- A freshly constructed `BoxDomain`. -/
def freshBox (lb ub : List XR) : BoxState := { lb := lb, ub := ub }

/-- A freshly constructed `PointDomain`, point.py 22-29: the attributes are set by the constructor. -/
def freshPoint (x : Vec) : BoxState :=
  { lb := x.map XR.fin, ub := x.map XR.fin, empty := some false, point := some true, unbounded := some false }

/-! ## `corner` -/

/-- Assignment of a float into an integer array: truncation towards zero (infinities become the
smallest 64-bit integer on the usual platforms). -/
noncomputable def castInt : XR → XR
  | .fin r => .fin (if 0 ≤ r then (⌊r⌋ : ℝ) else (⌈r⌉ : ℝ))
  | _ => .fin (-9223372036854775808)

/-- Assignment into an array whose element type is integer (`true`) or float (`false`). -/
noncomputable def assignTo (isInt : Bool) (v : XR) : XR := if isInt then castInt v else v

/-- `isinside` of a one-dimensional array that may contain infinities, for a box
(euclidean.py 493-508, 1116-1129). -/
def inBoundsX (lb ub : List XR) (tol : ℝ) (x : List XR) : Prop :=
  (∀ q ∈ lb.zip x, ∀ r, q.1 = XR.fin r → XR.le (.fin (r - tol)) q.2) ∧
  (∀ q ∈ ub.zip x, ∀ r, q.1 = XR.fin r → XR.le q.2 (.fin (r + tol)))

/-- The array built by `BoxDomain._corner`: `x = np.copy(self.lb); I = (p >= 0); x[I] = self.ub[I]`,
box.py 65-69.  `lbInt` says whether `lb` is stored as an integer array (`np.array(lb)` of integers,
linquad.py 132). -/
noncomputable def boxCornerPoint (lbInt : Bool) (lb ub : List XR) (p : Vec) : List XR :=
  List.zipWith (fun lu pi => if pi ≥ 0 then assignTo lbInt lu.2 else lu.1) (lb.zip ub) p

/-- `BoxDomain._corner`, box.py 65-72, called through `corner` (euclidean.py 256-262), which checks the
length of `p`. -/
noncomputable def boxCorner (TOL : ℝ) (lbInt : Bool) (lb ub : List XR) (p : Vec) : Except Err (List XR) :=
  if p.length ≠ lb.length then .error .valueError
  else if ¬ inBoundsX lb ub TOL (boxCornerPoint lbInt lb ub p) then .error .emptyDomain
  else .ok (boxCornerPoint lbInt lb ub p)

end Verif.Domain
