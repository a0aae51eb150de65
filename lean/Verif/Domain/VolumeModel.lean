import Verif.Domain.NormModel

/-!
# Model of `volume` and of Monte Carlo quadrature

Sources: `/repo/psdr/domains/euclidean.py` 790-813, 1013-1014; `convexhull.py` 171-172; `tensor.py` 50-51.

`norm_lb` and `norm_ub` (`NormModel`) and the random numbers are parameters.  The cache (`lru_cache`) is not modelled: it returns the value of the
first call with the same arguments.
-/

namespace Verif.Domain

open Classical Verif

/-- `is_box_domain`, euclidean.py 1013-1014, convexhull.py 171-172. -/
def Base.isBox : Base → Prop
  | .hull _ _ => False
  | d => d.acc.Ls = [] ∧ d.acc.b = [] ∧ d.acc.beq = []

/-- `is_box_domain`, tensor.py 50-51. -/
def Dom.isBox : Dom → Prop
  | .base d => d.isBox
  | .tensor ds => ∀ d ∈ ds, d.isBox

/-- Product of floating point numbers, with zero times infinity not a number. -/
noncomputable def mulX : XR → XR → XR
  | .fin a, .fin b => .fin (a * b)
  | .nan, _ => .nan
  | _, .nan => .nan
  | .fin a, .pinf => if a = 0 then .nan else if 0 < a then .pinf else .ninf
  | .fin a, .ninf => if a = 0 then .nan else if 0 < a then .ninf else .pinf
  | .pinf, .fin b => if b = 0 then .nan else if 0 < b then .pinf else .ninf
  | .ninf, .fin b => if b = 0 then .nan else if 0 < b then .ninf else .pinf
  | .pinf, .pinf => .pinf
  | .ninf, .ninf => .pinf
  | .pinf, .ninf => .ninf
  | .ninf, .pinf => .ninf

/-- `np.prod`. -/
noncomputable def prodX (l : List XR) : XR := l.foldl mulX (.fin 1)

/-- The value of a finite number. -/
def realOf : XR → ℝ
  | .fin a => a
  | _ => 0

/-- One row of `np.random.uniform(norm_lb, norm_ub, size = (N, m))` for finite bounds, from random numbers of the unit interval. -/
def uniformRow (nlb nub : List XR) (u : Vec) : Vec := List.zipWith (fun q t => realOf q.1 + (realOf q.2 - realOf q.1) * t) (nlb.zip nub) u

/-- `volume(N)`, euclidean.py 802-813; `U` are the `N` rows of random numbers of the unit interval.  Infinite bounds raise OverflowError. -/
noncomputable def Dom.volume (nnls : NNLS) (tol : ℝ) (nlb nub : List XR) (D : Dom) (U : List Vec) : Except Err XR :=
  if D.isBox then .ok (prodX (List.zipWith XR.sub D.acc.ub D.acc.lb))
  else if ∃ q ∈ nlb.zip nub, ¬ (q.1.isFinite ∧ q.2.isFinite) then .error .overflow
  else .ok (mulX (prodX (List.zipWith XR.sub nub nlb))
    (if U = [] then .nan else .fin (((U.map (uniformRow nlb nub)).filter fun x => D.isInside nnls tol x).length / (U.length : ℝ))))

/-- The weights of `quadrature_rule(N, method = 'montecarlo')`, euclidean.py 790-799, for the value `vol` of `volume()`. -/
noncomputable def mcWeights (vol : ℝ) (N : ℕ) : Vec := List.replicate N (1 / (N : ℝ) * vol)

end Verif.Domain
