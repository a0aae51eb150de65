import Verif.Domain.Model
import Verif.Lipschitz.BoundModel

/-!
# Model of the one-dimensional maximin and minimax designs

Source: `/repo/psdr/sample/maximin.py` 13-26 (`maximin_design_1d`) and 82-87 (the same construction inside `maximin_block`),
`/repo/psdr/sample/minimax.py` 455-472 (`minimax_design_1d`).

The corner solver is a function returning a point for a direction; what it is assumed to return is stated in the theorems. Arithmetic
is exact.
-/

namespace Verif.Samp

open Verif Verif.Domain Matrix

/-- The metric: either left out, or a matrix given by its rows. -/
abbrev MetricArg (m : ℕ) := Option (List (Lip.Pt m))

/-- The checks on `L`, maximin.py 14-19 and minimax.py 459-464; returns the single row. -/
def oneRow (m : ℕ) : MetricArg m → Except Err (Lip.Pt m)
  | none => if m = 1 then .ok (fun _ => 1) else .error .assertion
  | some [l] => .ok l
  | some _ => .error .assertion

/-- `np.linspace(0, 1, N)[k]`. -/
noncomputable def unitLin (N k : ℕ) : ℝ := if N = 1 then 0 else k / (N - 1 : ℝ)

/-- `a*c1 + (1-a)*c2`. -/
def blend {m : ℕ} (c1 c2 : Lip.Pt m) (a : ℝ) : Lip.Pt m := a • c1 + (1 - a) • c2

/-- `maximin_design_1d(domain, N, L)`, maximin.py 13-26. -/
noncomputable def maximin1d {m : ℕ} (corner : Lip.Pt m → Lip.Pt m) (N : ℕ) (L : MetricArg m) : Except Err (List (Lip.Pt m)) := do
  let l ← oneRow m L
  return (List.range N).map (fun k => blend (corner l) (corner (-l)) (unitLin N k))

/-- The branch of `maximin_block` for a metric with one row, maximin.py 82-87: the same points from the other end. -/
noncomputable def maximinBlock1d {m : ℕ} (corner : Lip.Pt m → Lip.Pt m) (N : ℕ) (l : Lip.Pt m) : List (Lip.Pt m) :=
  (List.range N).map (fun k => blend (corner (-l)) (corner l) (unitLin N k))

/-- `minimax_design_1d(domain, N, L)`, minimax.py 455-472; `1./N` raises for `N = 0` (a `ZeroDivisionError`, reported as `overflow`,
the class used here for arithmetic errors). -/
noncomputable def minimax1d {m : ℕ} (corner : Lip.Pt m → Lip.Pt m) (N : ℕ) (L : MetricArg m) : Except Err (List (Lip.Pt m)) := do
  let l ← oneRow m L
  if N = 0 then .error .overflow
  else return (List.range N).map (fun (k : ℕ) => blend (corner l) (corner (-l)) ((1 / (N : ℝ)) / 2 + (1 / (N : ℝ)) * k))

end Verif.Samp
