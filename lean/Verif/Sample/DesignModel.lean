import Verif.Sample.OneDModel
import Verif.Sample.ClusterModel

/-!
# Model of `minimax_design`

Source: `/repo/psdr/sample/minimax.py` 474-487 (`minimax_design`), 455-472 (`minimax_design_1d`), 275-387 (`minimax_cluster` without `X` and `Xhat`).

The corner solver, the Sobol' sequence of the domain and the convex solver are parameters.  The corner solver does not raise.  `N` is a natural number.
-/

namespace Verif.Samp

open Verif Verif.Domain Verif.Geo Matrix

variable {m : ℕ}

/-- `L` as `minimax_cluster` uses it, minimax.py 324-325: the identity if left out. -/
def metricMat (L : MetricArg m) : Σ k, Matrix (Fin k) (Fin m) ℝ :=
  match L with
  | none => ⟨m, 1⟩
  | some rows => ⟨rows.length, fun i => rows.get i⟩

/-- The number of points of the discretization, minimax.py 317-318. -/
def discretization (N : ℕ) : ℕ := min (N * 100) 10000

open Classical in
/-- `minimax_cluster(domain, N, L, maxiter, xtol)`, minimax.py 317-387: the discretization is a Sobol' sequence, the first `N` of its points are the initial
centers.  If there are fewer than `N` the comprehension over `range(N)` ends with an `IndexError` (after solving for the others); this is not reached if all
points are nearest to the first center. -/
noncomputable def clusterDefault (sobol : ℕ → Except Err (List (Lip.Pt m))) (center : ∀ k, Matrix (Fin k) (Fin m) ℝ → Center m) (L : MetricArg m) (xtol : ℝ)
    (maxiter N : ℕ) : Except Err (List (Lip.Pt m)) :=
  match sobol (discretization N) with
  | .error e => .error e
  | .ok X =>
    if N ≤ X.length then minimaxCluster (center _ (metricMat L).2) (metricMat L).2 X xtol maxiter (X.take N)
    else if maxiter = 0 then .ok X
    else if X = [] then .error .valueError
    else if (X.map fun _ => 0) = assignment (metricMat L).2 X X then .ok X
    else
      match newCenters (center _ (metricMat L).2) X (assignment (metricMat L).2 X X) 0 X with
      | .error e => .error e
      | .ok _ => .error .indexError

/-- `minimax_design(domain, N, L, ...)`, minimax.py 484-487. -/
noncomputable def minimaxDesign (corner : Lip.Pt m → Lip.Pt m) (sobol : ℕ → Except Err (List (Lip.Pt m))) (center : ∀ k, Matrix (Fin k) (Fin m) ℝ → Center m)
    (L : MetricArg m) (xtol : ℝ) (maxiter N : ℕ) : Except Err (List (Lip.Pt m)) :=
  match minimax1d corner N L with
  | .error .assertion => clusterDefault sobol center L xtol maxiter N
  | r => r

end Verif.Samp
