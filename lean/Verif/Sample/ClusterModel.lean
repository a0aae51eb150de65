import Verif.Geometry.GeoModel
import Mathlib.Analysis.SpecialFunctions.Pow.Real

/-!
# Model of `minimax_cluster`

Source: `/repo/psdr/sample/minimax.py` 73-102 (`_cq_center_cvxpy` without `domain`), 275-387 (`minimax_cluster`).

The discretization `X` and the initial centers are parameters (they come from `sobol_sequence`, C41, or from the caller).  The convex solver is a
parameter which may raise.  Printing is left out.
-/

namespace Verif.Samp

open Verif Verif.Domain Verif.Geo Matrix

variable {k m : ℕ}

/-- The centers returned by the convex solver for a cluster, given the old center. -/
abbrev Center (m : ℕ) := List (Lip.Pt m) → Lip.Pt m → Except Err (Lip.Pt m)

open Classical in
/-- `np.argmin` over a list: the first minimizer. -/
noncomputable def argminFrom (d : ℕ → ℝ) (best : ℕ) : List ℕ → ℕ
  | [] => best
  | j :: js => if d j < d best then argminFrom d j js else argminFrom d best js

/-- `I[p]`: the index of the nearest center, minimax.py 361. -/
noncomputable def nearIdx (L : Matrix (Fin k) (Fin m) ℝ) (Xhat : List (Lip.Pt m)) (x : Lip.Pt m) : ℕ :=
  argminFrom (fun j => Lip.ldist L (Xhat.getD j 0) x) 0 (List.range Xhat.length)

/-- `I = np.argmin(D, axis = 0)`. -/
noncomputable def assignment (L : Matrix (Fin k) (Fin m) ℝ) (X Xhat : List (Lip.Pt m)) : List ℕ := X.map (nearIdx L Xhat)

/-- `np.max(np.min(D, axis = 0))`, minimax.py 362. -/
noncomputable def scoreOf (L : Matrix (Fin k) (Fin m) ℝ) (X Xhat : List (Lip.Pt m)) : ℝ := fillOver L Xhat X

/-- `X[I == i]`. -/
def clusterOf (X : List (Lip.Pt m)) (I : List ℕ) (i : ℕ) : List (Lip.Pt m) := ((X.zip I).filter fun p => p.2 = i).map Prod.fst

/-- The list comprehension of minimax.py 376, from index `i` on. -/
noncomputable def newCenters (center : Center m) (X : List (Lip.Pt m)) (I : List ℕ) : ℕ → List (Lip.Pt m) → Except Err (List (Lip.Pt m))
  | _, [] => .ok []
  | i, x :: xs =>
    match center (clusterOf X I i) x with
    | .error e => .error e
    | .ok y =>
      match newCenters center X I (i + 1) xs with
      | .error e => .error e
      | .ok ys => .ok (y :: ys)

/-- `dx = np.max(Xhat_new - Xhat)`, minimax.py 378: no absolute value. -/
noncomputable def movement (new old : List (Lip.Pt m)) : ℝ :=
  maxL ((List.zipWith (fun a b => (List.finRange m).map fun i => a i - b i) new old).flatten)

open Classical in
/-- The best design and its score (`none` is `np.inf`) after a design with score `d`, minimax.py 364-366. -/
noncomputable def keepBest (d : ℝ) (Xhat : List (Lip.Pt m)) : List (Lip.Pt m) × Option ℝ → List (Lip.Pt m) × Option ℝ
  | (_, none) => (Xhat, some d)
  | (best, some b) => if d < b then (Xhat, some d) else (best, some b)

open Classical in
/-- The loop, minimax.py 357-385. -/
noncomputable def clusterLoop (center : Center m) (L : Matrix (Fin k) (Fin m) ℝ) (X : List (Lip.Pt m)) (xtol : ℝ) :
    ℕ → List (Lip.Pt m) → List (Lip.Pt m) × Option ℝ → List ℕ → Except Err (List (Lip.Pt m))
  | 0, _, best, _ => .ok best.1
  | fuel + 1, Xhat, best, Iold =>
    if Iold = assignment L X Xhat then .ok (keepBest (scoreOf L X Xhat) Xhat best).1 else
    match newCenters center X (assignment L X Xhat) 0 Xhat with
    | .error e => .error e
    | .ok Xnew =>
      if movement Xnew Xhat < xtol then .ok (keepBest (scoreOf L X Xhat) Xhat best).1 else
      clusterLoop center L X xtol fuel Xnew (keepBest (scoreOf L X Xhat) Xhat best) (assignment L X Xhat)

/-- `minimax_cluster(domain, N, L, maxiter, xtol, X = X, Xhat = Xhat)`, minimax.py 321-387, with `N` centers and a nonempty discretization. -/
noncomputable def minimaxCluster (center : Center m) (L : Matrix (Fin k) (Fin m) ℝ) (X : List (Lip.Pt m)) (xtol : ℝ) (maxiter : ℕ) (Xhat : List (Lip.Pt m)) :
    Except Err (List (Lip.Pt m)) :=
  if maxiter ≠ 0 ∧ (X = [] ∨ Xhat = []) then .error .valueError else
  clusterLoop center L X xtol maxiter Xhat (Xhat, none) (X.map fun _ => 0)

end Verif.Samp
