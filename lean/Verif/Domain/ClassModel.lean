import Verif.Domain.VolumeModel

/-!
# The class tests `is_linquad_domain`, `is_linineq_domain`, `is_box_domain`

`Base.isBox` and `Dom.isBox` are in `VolumeModel`.
-/

namespace Verif.Domain

open Classical Verif

/-- `is_linquad_domain`, domain.py 29-37 with euclidean.py 1007-1008: every Euclidean domain answers True. -/
def Base.isLinquad : Base → Prop := fun _ => True

/-- `is_linineq_domain`, domain.py 39-46 with euclidean.py 1010-1011 (not overridden by the hull). -/
def Base.isLinineq (d : Base) : Prop := d.acc.Ls = []

/-- `is_linquad_domain`, tensor.py 44-45. -/
def Dom.isLinquad : Dom → Prop
  | .base d => d.isLinquad
  | .tensor ds => ∀ d ∈ ds, d.isLinquad

/-- `is_linineq_domain`, tensor.py 47-48. -/
def Dom.isLinineq : Dom → Prop
  | .base d => d.isLinineq
  | .tensor ds => ∀ d ∈ ds, d.isLinineq

/-- The guard of `closest_point`, `corner`, `constrained_least_squares` and `random_direction`,
euclidean.py 192-194, 265-267, 343-345, 671-673. -/
noncomputable def Dom.guardLinquad (D : Dom) : Except Err Unit := if D.isLinquad then .ok () else .error .notImplemented

/-- What `latin_hypercube_sample` and `latin_hypercube_maximin` do with the domain, latin.py 30-34, 68-72:
the routine for boxes, or `projection_sample` with the given number of iterations and `_lhs = True`. -/
inductive LatinRoute where
  | boxes
  | projection (maxiter : ℕ)

/-- latin.py 13-34. -/
noncomputable def latinSampleRoute (D : Dom) : LatinRoute := if D.isBox then .boxes else .projection 1

/-- latin.py 49-72. -/
noncomputable def latinMaximinRoute (D : Dom) (maxiter : ℕ) : LatinRoute := if D.isBox then .boxes else .projection maxiter

end Verif.Domain
