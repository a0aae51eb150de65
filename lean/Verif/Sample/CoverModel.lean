import Verif.Sample.PoissonModel
import Verif.Geometry.GeoModel

/-!
# Model of covering designs

Source: `/repo/psdr/sample/minimax.py` 388-452 (`minimax_covering`, `minimax_covering_discrete`).

The mixed integer solver is a parameter; `none` is the value of the variable when the problem is infeasible, and comparing it with a
number raises a `TypeError`.
-/

namespace Verif.Samp

open Verif Verif.Domain

variable {k m : ℕ}

open Classical in
/-- A row of `(D < r) @ I`, minimax.py 446. -/
noncomputable def coverRow (L : Matrix (Fin k) (Fin m) ℝ) (r : ℝ) (X : List (Lip.Pt m)) (v : List ℝ) (x : Lip.Pt m) : ℝ :=
  (List.zipWith (fun y w => (if Lip.ldist L x y < r then 1 else 0) * w) X v).sum

/-- The constraints of the program, minimax.py 441, 446: Boolean variables and `(D < r) @ I >= 1`. -/
def CoverFeasible (L : Matrix (Fin k) (Fin m) ℝ) (r : ℝ) (X : List (Lip.Pt m)) (v : List ℝ) : Prop :=
  v.length = X.length ∧ (∀ w ∈ v, w = 0 ∨ w = 1) ∧ ∀ x ∈ X, 1 ≤ coverRow L r X v x

open Classical in
/-- `minimax_covering_discrete(X, r, L)`, minimax.py 424-452: the mask `I.value > 0.5`. -/
noncomputable def coverDiscrete (solver : List (Lip.Pt m) → ℝ → Option (List ℝ)) (X : List (Lip.Pt m)) (r : ℝ) : Except Err (List Bool) :=
  match solver X r with
  | none => .error .typeError
  | some v => .ok (v.map (fun w => decide (1 / 2 < w)))

/-- `minimax_covering(domain, r, L)`, minimax.py 388-421; `.ok none` when the sampling has not ended. -/
noncomputable def minimaxCovering (L : Matrix (Fin k) (Fin m) ℝ) (inside : Lip.Pt m → Prop) (solver : List (Lip.Pt m) → ℝ → Option (List ℝ)) (r : ℝ)
    (x0 : Lip.Pt m) (ds : List (DiskDraw m)) : Except Err (Option (List (Lip.Pt m))) :=
  match poissonDisk L inside (r / 4) x0 ds with
  | none => .ok none
  | some X =>
    match coverDiscrete solver X (r / 2) with
    | .error e => .error e
    | .ok I => .ok (some (Geo.select X I))

end Verif.Samp
