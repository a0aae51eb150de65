import Verif.Geometry.GeoModel
import Mathlib.LinearAlgebra.Matrix.Rank

/-!
# Model of `voronoi_vertex_sample` and `fill_distance_estimate`

Sources: `/repo/psdr/geometry/vertex.py` 121-314, `/repo/psdr/geometry/fill.py` 31-88.

The points of `X0` do not interact, so a pass is modelled for one point.  The QR factorization, the order of the samples by distance
(`np.argsort`) and the random directions are parameters.  `np.inf` as a step length is `none`.  The numerical rank is the rank.
Samples and starting points are nonempty arrays.
-/

namespace Verif.Geo

open Verif Verif.Domain Matrix

variable {k m : ℕ}

/-- What the code reads of a domain: rows of `A_aug` with `b_aug`, rows of `A_eq`, and the number of quadratic constraints. -/
structure SDomain (m : ℕ) where
  aug : List (Lip.Pt m × ℝ)
  eqs : List (Lip.Pt m)
  quads : ℕ

/-- `np.isclose(a, b)`. -/
def isClose (a b : ℝ) : Prop := |a - b| ≤ atol + 1 / 10 ^ 5 * |b|

/-- `Xhat[np.argsort(D)]`: the samples sorted by a key. -/
abbrev SortBy (m : ℕ) := (Lip.Pt m → ℝ) → List (Lip.Pt m) → List (Lip.Pt m)

/-- The columns of `Q` in the economic QR factorization of the matrix with the given columns. -/
abbrev QRcols (m : ℕ) := List (Lip.Pt m) → List (Lip.Pt m)

/-- `h - Q.dot(Q.T.dot(h))`, vertex.py 248, 256. -/
noncomputable def projOut (Q : List (Lip.Pt m)) (h : Lip.Pt m) : Lip.Pt m := h - (Q.map fun q => (q ⬝ᵥ h) • q).sum

/-- The smaller of two step lengths, `np.minimum`. -/
noncomputable def minStep : Option ℝ → Option ℝ → Option ℝ
  | none, b => b
  | a, none => a
  | some a, some b => some (min a b)

open Classical in
/-- The columns of `nullspace`, vertex.py 232-244; `near :: rest` are the samples sorted by distance. -/
noncomputable def nullCols (D : SDomain m) (L : Matrix (Fin k) (Fin m) ℝ) (it : ℕ) (near : Lip.Pt m) (rest : List (Lip.Pt m)) (x : Lip.Pt m) :
    List (Lip.Pt m) :=
  D.eqs ++ (D.aug.filter fun r => isClose (r.1 ⬝ᵥ x) r.2).map Prod.fst ++
    ((rest.take it).filter fun x' => isClose (Lip.ldist L x near) (Lip.ldist L x x')).map fun x' => (Lᵀ * L) *ᵥ (near - x')

open Classical in
/-- The search direction, vertex.py 223-224, 246-256. -/
noncomputable def direction (qr : QRcols m) (randomize : Bool) (rnd : Lip.Pt m) (cols : List (Lip.Pt m)) (h : Lip.Pt m) : Lip.Pt m :=
  if cols = [] then h else
    if |Lip.nrm (projOut (qr cols) h)| ≤ atol ∧ randomize = true then projOut (qr cols) rnd else projOut (qr cols) h

open Classical in
/-- Step to the hyperplane between `near` and `xhat`, vertex.py 270-284. -/
noncomputable def planeStep (L : Matrix (Fin k) (Fin m) ℝ) (near xhat x h : Lip.Pt m) : Option ℝ :=
  let p0 := (1 / 2 : ℝ) • (L *ᵥ (xhat + near))
  let n := L *ᵥ (xhat - near)
  let nh := n ⬝ᵥ (L *ᵥ h)
  let numerator := -((L *ᵥ x - p0) ⬝ᵥ n)
  if |nh| ≤ atol then none else if numerator / nh < 0 then none else some (numerator / nh)

open Classical in
/-- Step to one constraint of the domain, vertex.py 289-298. -/
noncomputable def wallStep (r : Lip.Pt m × ℝ) (x h : Lip.Pt m) : Option ℝ :=
  if ∀ i, |h i| < 1 / 10 ^ 10 then some 0 else
  if r.1 ⬝ᵥ h = 0 then none else
  if (r.2 - r.1 ⬝ᵥ x) / (r.1 ⬝ᵥ h) ≤ 0 then none else some ((r.2 - r.1 ⬝ᵥ x) / (r.1 ⬝ᵥ h))

/-- The step length, vertex.py 263-304. -/
noncomputable def stepLength (D : SDomain m) (L : Matrix (Fin k) (Fin m) ℝ) (Xhat : List (Lip.Pt m)) (near x h : Lip.Pt m) : ℝ :=
  (minStep ((Xhat.map fun xhat => planeStep L near xhat x h).foldl minStep none) ((D.aug.map fun r => wallStep r x h).foldl minStep none)).getD 0

/-- One pass for one point, vertex.py 215-307. -/
noncomputable def vstep (sort : SortBy m) (qr : QRcols m) (D : SDomain m) (L : Matrix (Fin k) (Fin m) ℝ) (randomize : Bool) (Xhat : List (Lip.Pt m))
    (it : ℕ) (rnd x : Lip.Pt m) : Except Err (Lip.Pt m) :=
  match sort (fun y => Lip.ldist L x y) Xhat with
  | [] => .error .indexError
  | near :: rest =>
    if D.aug = [] then .error .valueError else
    let h := direction qr randomize rnd (nullCols D L it near rest x) ((Lᵀ * L) *ᵥ (x - near))
    .ok (x + stepLength D L Xhat near x h • h)

/-- The passes for one point; `rnd` holds the random directions of the passes. -/
noncomputable def vpasses (sort : SortBy m) (qr : QRcols m) (D : SDomain m) (L : Matrix (Fin k) (Fin m) ℝ) (randomize : Bool) (Xhat : List (Lip.Pt m))
    (rnd : ℕ → Lip.Pt m) : ℕ → Lip.Pt m → Except Err (Lip.Pt m)
  | 0, x => .ok x
  | n + 1, x =>
    match vpasses sort qr D L randomize Xhat rnd n x with
    | .error e => .error e
    | .ok y => vstep sort qr D L randomize Xhat n (rnd n) y

/-- The number of passes, vertex.py 211-213. -/
noncomputable def passes (D : SDomain m) (L : Matrix (Fin k) (Fin m) ℝ) (randomize : Bool) : ℕ :=
  if randomize then m - D.eqs.length else min (m - D.eqs.length) L.rank

/-- `[f(x) for x in X]` with exceptions. -/
def mapE {α β : Type*} (f : α → Except Err β) : List α → Except Err (List β)
  | [] => .ok []
  | a :: t =>
    match f a with
    | .error e => .error e
    | .ok b =>
      match mapE f t with
      | .error e => .error e
      | .ok r => .ok (b :: r)

/-- `voronoi_vertex_sample(domain, Xhat, X0, L, randomize)`, vertex.py 121-314; the `i`-th starting point comes with its random directions. -/
noncomputable def vertexSample (sort : SortBy m) (qr : QRcols m) (D : SDomain m) (L : Matrix (Fin k) (Fin m) ℝ) (randomize : Bool)
    (Xhat : List (Lip.Pt m)) (X0 : List (Lip.Pt m × (ℕ → Lip.Pt m))) : Except Err (List (Lip.Pt m)) :=
  if D.quads ≠ 0 then .error .assertion else
  mapE (fun p => vpasses sort qr D L randomize Xhat p.2 (passes D L randomize) p.1) X0

/-- `fill_distance_estimate(domain, Xhat, L, X0)`, fill.py 73-88. -/
noncomputable def fillEstimate (sort : SortBy m) (qr : QRcols m) (D : SDomain m) (L : Matrix (Fin k) (Fin m) ℝ) (Xhat X0 : List (Lip.Pt m)) :
    Except Err ℝ :=
  match vertexSample sort qr D L false Xhat (X0.map fun x => (x, fun _ => 0)) with
  | .error e => .error e
  | .ok [] => .error .valueError
  | .ok V => .ok (fillOver L Xhat V)

end Verif.Geo
