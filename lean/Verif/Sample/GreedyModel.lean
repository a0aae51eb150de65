import Verif.Geometry.GeoModel

/-!
# Model of the greedy (coffeehouse) design

Source: `/repo/psdr/sample/maximin_coffeehouse.py` 36-66.

The candidate generators `voronoi_vertex` and `voronoi_vertex_sample` are a parameter `cand` from the points chosen so far to candidate
points; the first sample is an argument. `np.argmax` of an empty array raises. Printing is left out.
-/

namespace Verif.Samp

open Verif Verif.Domain

variable {k m : ℕ}

/-- One pass, maximin_coffeehouse.py 56-62. -/
noncomputable def coffeeStep (L : Matrix (Fin k) (Fin m) ℝ) (cand : List (Lip.Pt m) → List (Lip.Pt m)) (Xhat : List (Lip.Pt m)) :
    Except Err (List (Lip.Pt m)) :=
  match cand Xhat with
  | [] => .error .valueError
  | c :: cs => .ok (Xhat ++ [Geo.argmaxL (Geo.nearest L Xhat) c cs])

/-- The passes `j = 1, …, n`. -/
noncomputable def coffeeRun (L : Matrix (Fin k) (Fin m) ℝ) (cand : List (Lip.Pt m) → List (Lip.Pt m)) : ℕ → List (Lip.Pt m) → Except Err (List (Lip.Pt m))
  | 0, Xhat => .ok Xhat
  | n + 1, Xhat => do
    let Xhat' ← coffeeRun L cand n Xhat
    coffeeStep L cand Xhat'

/-- `maximin_coffeehouse(domain, N, L)`; `range(1, N)` has `N - 1` passes (none for `N = 0`). -/
noncomputable def coffeehouse (L : Matrix (Fin k) (Fin m) ℝ) (cand : List (Lip.Pt m) → List (Lip.Pt m)) (x0 : Lip.Pt m) (N : ℕ) : Except Err (List (Lip.Pt m)) :=
  coffeeRun L cand (N - 1) [x0]

end Verif.Samp
