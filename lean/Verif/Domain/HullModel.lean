import Verif.Domain.Exact

/-!
# Model of the conversion of a convex hull into inequalities

Sources: `/repo/psdr/domains/convexhull.py` 28-65 (`_hull_to_linineq`), 189-200 (`to_linineq`).

The matrices `Qpar`, `Qperp` obtained from the singular value and QR decompositions are parameters (lists of
columns), as are the facets returned by Qhull (`hull.equations`: normal vectors and offsets).
-/

namespace Verif.Domain

open Classical Verif

/-- The external computations of `_hull_to_linineq` for a list of points: columns of `Qpar` and `Qperp`,
convexhull.py 40-49, and the rows `(normal, offset)` of `hull.equations` for points in the reduced coordinates,
convexhull.py 53-55. -/
structure HullOracle where
  Qpar : List Vec
  Qperp : List Vec
  facets : List (Vec × ℝ)

/-- Rows of `eye(n)`. -/
def unitRows (n : ℕ) : List Vec :=
  (List.range n).map (fun i => (List.range n).map (fun j => if i = j then 1 else 0))

/-- `np.mean(R, axis = 0)` for rows of width `k`. -/
noncomputable def meanRows (k : ℕ) (R : List Vec) : Vec :=
  Vec.smul (1 / (R.length : ℝ)) (comb k (List.replicate R.length 1) R)

/-- `eq @ Qpar.T` for one facet normal `eq`. -/
noncomputable def liftRow (n : ℕ) (Qpar : List Vec) (e : Vec) : Vec := comb n e Qpar

/-- `(A, b, A_eq, b_eq)` of `_hull_to_linineq`, convexhull.py 28-65. -/
noncomputable def hullLinineq (o : HullOracle) (n : ℕ) (X : List Vec) : List Vec × List ℝ × List Vec × List ℝ :=
  match X with
  | [x] => ([], [], unitRows n, x)
  | X =>
    let Y := X.map (Vec.mulVec o.Qpar)
    let Aeq := o.Qperp
    let beq := meanRows o.Qperp.length (X.map (Vec.mulVec o.Qperp))
    if 1 < o.Qpar.length then
      (o.facets.map (fun f => liftRow n o.Qpar f.1), o.facets.map (fun f => -f.2), Aeq, beq)
    else
      ([liftRow n o.Qpar [1], liftRow n o.Qpar [-1]], [maxL Y.flatten, -(minL Y.flatten)], Aeq, beq)

/-- The data of `to_linineq()`, convexhull.py 189-200: the bounds of the domain are not passed on. -/
noncomputable def hullToLinineq (o : HullOracle) (X : List Vec) (d : LQ) : LQ :=
  let h := hullLinineq o d.n X
  { n := d.n, lb := List.replicate d.n .ninf, ub := List.replicate d.n .pinf,
    A := h.1 ++ d.A, b := h.2.1 ++ d.b, Aeq := h.2.2.1 ++ d.Aeq, beq := h.2.2.2 ++ d.beq,
    Ls := d.Ls, ys := d.ys, rhos := d.rhos }

/-- One row of the two-point sampler, convexhull.py 228: `X[0]*alpha + X[1]*(1-alpha)`. -/
noncomputable def twoPoint (x0 x1 : Vec) (alpha : ℝ) : Vec := Vec.add (Vec.smul alpha x0) (Vec.smul (1 - alpha) x1)

end Verif.Domain
