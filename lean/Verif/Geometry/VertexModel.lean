import Verif.Geometry.GeoModel
import Mathlib.LinearAlgebra.Matrix.NonsingularInverse

/-!
# Model of `voronoi_vertex` and `fill_distance` in two or more dimensions

Sources: `/repo/psdr/geometry/vertex.py` 38-119, `/repo/psdr/geometry/fill.py` 8-29.

Qhull (`HalfspaceIntersection`) and the linear program for a point inside are parameters.  The domain is given by what the code reads of it:
`A_aug`, `b_aug`, `isinside`.  `Linv` is the inverse of `L` (computed from a singular value decomposition in the code); if `L` is singular the
code divides by zero and Qhull gets `nan`, which is an error here.
-/

namespace Verif.Geo

open Verif Verif.Domain Matrix

variable {m : ℕ}

/-- What `voronoi_vertex` reads of a domain: the rows of `A_aug` with `b_aug`, and `isinside`. -/
structure VDomain (m : ℕ) where
  aug : List (Lip.Pt m × ℝ)
  inside : Lip.Pt m → Prop

/-- `scipy.spatial.HalfspaceIntersection(halfspaces, interior_point).intersections`; rows `(a, c)` stand for `a y + c <= 0`; `none` is `QhullError`. -/
abbrev HSI (m : ℕ) := List (Lip.Pt m × ℝ) → Lip.Pt m → Option (List (Lip.Pt m))

/-- `np.hstack([A, -b.reshape(-1,1)])`, vertex.py 68. -/
def augRows (aug : List (Lip.Pt m × ℝ)) : List (Lip.Pt m × ℝ) := aug.map fun r => (r.1, -r.2)

open Classical in
/-- The halfspaces of the cell of the sample with image `yk`, vertex.py 75-86. -/
noncomputable def cellRows (aug : List (Lip.Pt m × ℝ)) (Linv : Matrix (Fin m) (Fin m) ℝ) (Y : List (Lip.Pt m)) (yk : Lip.Pt m) :
    List (Lip.Pt m × ℝ) :=
  aug.map (fun r => (r.1 ᵥ* Linv, -r.2)) ++
    (Y.filter fun y => 0 < (y - yk) ⬝ᵥ (y - yk)).map fun y => (y - yk, -((y - yk) ⬝ᵥ ((1 / 2 : ℝ) • (yk + y))))

/-- vertex.py 88-106: Qhull with the sample as interior point, then with the center computed by the linear program. -/
def cellVertices (hsi : HSI m) (center : List (Lip.Pt m × ℝ) → Lip.Pt m) (rows : List (Lip.Pt m × ℝ)) (xhat : Lip.Pt m) :
    Except Err (List (Lip.Pt m)) :=
  match hsi rows xhat with
  | some V => .ok V
  | none =>
    match hsi rows (center rows) with
    | some V => .ok V
    | none => .error .solverError

/-- The loop over the samples, vertex.py 74-110. -/
noncomputable def allVertices (hsi : HSI m) (center : List (Lip.Pt m × ℝ) → Lip.Pt m) (aug : List (Lip.Pt m × ℝ)) (L Linv : Matrix (Fin m) (Fin m) ℝ)
    (Xhat : List (Lip.Pt m)) : List (Lip.Pt m) → Except Err (List (Lip.Pt m))
  | [] => .ok []
  | x :: t =>
    match cellVertices hsi center (cellRows aug Linv (Xhat.map (L *ᵥ ·)) (L *ᵥ x)) x with
    | .error e => .error e
    | .ok V =>
      match allVertices hsi center aug L Linv Xhat t with
      | .error e => .error e
      | .ok W => .ok (V ++ W)

open Classical in
/-- `voronoi_vertex(domain, Xhat, L)`, vertex.py 38-119, in at least two dimensions. -/
noncomputable def voronoiVertex (hsi : HSI m) (center : List (Lip.Pt m × ℝ) → Lip.Pt m) (D : VDomain m) (L : Option (Matrix (Fin m) (Fin m) ℝ))
    (Xhat : List (Lip.Pt m)) : Except Err (List (Lip.Pt m)) :=
  if ∃ x ∈ Xhat, ¬ D.inside x then .error .assertion else
  match Xhat with
  | [] => .error .valueError
  | [x] =>
    match hsi (augRows D.aug) x with
    | some V => .ok V
    | none => .error .solverError
  | Xhat =>
    if (L.getD 1).det = 0 then .error .solverError else
    match allVertices hsi center D.aug (L.getD 1) (L.getD 1)⁻¹ Xhat Xhat with
    | .error e => .error e
    | .ok LV =>
      let V := LV.map ((L.getD 1)⁻¹ *ᵥ ·)
      .ok ((select V (uniquePoints V)).filter fun v => D.inside v)

/-- `fill_distance(domain, Xhat, L)`, fill.py 8-29; `np.max` of an empty array raises. -/
noncomputable def fillDistance (hsi : HSI m) (center : List (Lip.Pt m × ℝ) → Lip.Pt m) (D : VDomain m) (L : Option (Matrix (Fin m) (Fin m) ℝ))
    (Xhat : List (Lip.Pt m)) : Except Err ℝ :=
  match voronoiVertex hsi center D L Xhat with
  | .error e => .error e
  | .ok [] => .error .valueError
  | .ok V => .ok (fillOver (L.getD 1) Xhat V)

end Verif.Geo
