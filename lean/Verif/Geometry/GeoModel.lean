import Mathlib.Data.List.Sort
import Verif.Domain.Model
import Verif.Lipschitz.BoundModel

/-!
# Model of the geometric helpers

Sources: `/repo/psdr/geometry/geometry.py` 12-86 (`sample_sphere`, `unique_points`, `sample_simplex`),
`/repo/psdr/geometry/vertex.py` 20-36 (`voronoi_vertex_1d`), `/repo/psdr/geometry/fill.py` 8-30, 32-84
(`fill_distance`, `fill_distance_estimate`), `/repo/psdr/geometry/cdist.py`.

Exact reals; the random draws are arguments.
-/

namespace Verif.Geo

open Verif Verif.Domain Matrix

variable {k m : ℕ}

/-! ### `unique_points` -/

/-- `atol` of `np.isclose`. -/
noncomputable def atol : ℝ := 1 / 10 ^ 8

open Classical in
/-- `~np.isclose(d, 0)` for a distance, geometry.py 68 (the relative tolerance is multiplied by zero). -/
noncomputable def notClose (d : ℝ) : Bool := !decide (|d - 0| ≤ atol)

/-- `unique_points(X)`, geometry.py 52-69: `D[i,i+1:]` are the distances to the later points; the last entry stays true. -/
noncomputable def uniquePoints : List (Lip.Pt m) → List Bool
  | [] => []
  | [_] => [true]
  | x :: y :: t => notClose (minL ((y :: t).map (fun z => Lip.nrm (x - z)))) :: uniquePoints (y :: t)

/-- `X[I]` for a Boolean mask. -/
def select {α : Type*} (X : List α) (I : List Bool) : List α := ((X.zip I).filter Prod.snd).map Prod.fst

/-! ### `sample_simplex` -/

/-- `r[0] = 0` and then `r[-1] = 1` for one row, geometry.py 82-83. -/
noncomputable def pinEnds (r : List ℝ) : List ℝ := (r.set 0 0).set (r.length - 1) 1

/-- `r[1:] - r[:-1]`. -/
noncomputable def diffs (r : List ℝ) : List ℝ := List.zipWith (fun a b => a - b) r.tail r

open Classical in
/-- `np.sort`. -/
noncomputable def sortR (r : List ℝ) : List ℝ := r.insertionSort (fun a b => a ≤ b)

/-- One row of `sample_simplex(dim)`, geometry.py 72-86; `r` holds the `dim + 1` uniform draws of the row. -/
noncomputable def simplexRow (r : List ℝ) : List ℝ := diffs (sortR (pinEnds r))

/-! ### One-dimensional Voronoi vertices and the fill distance -/

/-- `0.5*(X[1:] + X[:-1])`, vertex.py 33. -/
noncomputable def midpoints (X : List ℝ) : List ℝ := List.zipWith (fun a b => 1 / 2 * (a + b)) X.tail X

/-- `voronoi_vertex_1d`, vertex.py 20-36, with `lb`, `ub` the two corners of the interval. -/
noncomputable def voronoi1d (lb ub : ℝ) (Xhat : List ℝ) : List ℝ := lb :: (midpoints (sortR (Xhat ++ [ub, lb])) ++ [ub])

/-- The column minimum of `cdist(Xhat, V, L)` at one point, cdist.py and fill.py 29. -/
noncomputable def nearest (L : Matrix (Fin k) (Fin m) ℝ) (Xhat : List (Lip.Pt m)) (v : Lip.Pt m) : ℝ := minL (Xhat.map (fun x => Lip.ldist L x v))

/-- `np.max(np.min(D, axis = 0))` over given points, fill.py 29-30, 82-84. -/
noncomputable def fillOver (L : Matrix (Fin k) (Fin m) ℝ) (Xhat V : List (Lip.Pt m)) : ℝ := maxL (V.map (nearest L Xhat))

/-- A one-dimensional point. -/
def pt1 (x : ℝ) : Lip.Pt 1 := fun _ => x

/-- `fill_distance(domain, Xhat, L)` on an interval, fill.py 8-30 with vertex.py 47-48. -/
noncomputable def fillDistance1d (L : Matrix (Fin k) (Fin 1) ℝ) (lb ub : ℝ) (Xhat : List ℝ) : ℝ :=
  fillOver L (Xhat.map pt1) ((voronoi1d lb ub Xhat).map pt1)

/-! ### `sample_sphere` -/

open Classical in
/-- `np.argmax` over a nonempty list of candidates: the first maximizer. -/
noncomputable def argmaxL {α : Type*} (f : α → ℝ) (best : α) : List α → α
  | [] => best
  | a :: l => if f best < f a then argmaxL f a l else argmaxL f best l

/-- `x /= np.linalg.norm(x)`. -/
noncomputable def unit (x : Lip.Pt m) : Lip.Pt m := fun i => x i / Lip.nrm x

/-- `np.min(1 - X[:i] @ Xcan.T, axis=0)` at one candidate, geometry.py 46. -/
noncomputable def sphereScore (X : List (Lip.Pt m)) (c : Lip.Pt m) : ℝ := minL (X.map (fun x => 1 - x ⬝ᵥ c))

/-- One pass of `sample_sphere`, geometry.py 41-48: `c :: cs` are the Gaussian draws of the pass. -/
noncomputable def sphereStep (X : List (Lip.Pt m)) (draw : Lip.Pt m × List (Lip.Pt m)) : List (Lip.Pt m) :=
  X ++ [argmaxL (sphereScore X) (unit draw.1) (draw.2.map unit)]

/-- `sample_sphere(dim, n, k)`, geometry.py 12-50, with the Gaussian draws of each pass as an argument (`k ≥ 1`). -/
noncomputable def sampleSphere (x0 : Lip.Pt m) (draws : List (Lip.Pt m × List (Lip.Pt m))) : List (Lip.Pt m) := draws.foldl sphereStep [unit x0]

end Verif.Geo
