import Verif.Sample.ClusterModel

/-!
# Model of `minimax_cluster_pso`

Source: `/repo/psdr/sample/minimax.py` 16-28 (`_align_vector`), 139-270 (`minimax_cluster_pso`).

The random draws, the points returned by the convex solver and the assignment solver are parameters.  The run is a fold over the updates of single particles and
the replacements of the worst particle.
-/

namespace Verif.Samp

open Verif Verif.Domain Verif.Geo Matrix

variable {k m : ℕ}

/-- A design. -/
abbrev PDesign (m : ℕ) := List (Lip.Pt m)

/-- The points after the first one in `random_init()`, minimax.py 173-176: for every further point the candidates of which `k = np.argmax(np.min(cdist(..)))` is
taken.  The minimum has no axis, so `np.argmax` is applied to a number and is `0`. -/
def randomRest : List (List (Lip.Pt m)) → Except Err (PDesign m)
  | [] => .ok []
  | cand :: cs =>
    match cand[0]? with
    | none => .error .indexError
    | some x =>
      match randomRest cs with
      | .error e => .error e
      | .ok X => .ok (x :: X)

/-- `random_init()`, minimax.py 170-177. -/
def randomInit (first : Lip.Pt m) (cands : List (List (Lip.Pt m))) : Except Err (PDesign m) :=
  match randomRest cands with
  | .error e => .error e
  | .ok X => .ok (first :: X)

/-- The draws of one update: four arrays of weights, the random points `Z` and the centers of the clusters, per point. -/
structure Draw (m : ℕ) where
  u1 : Lip.Pt m
  u2 : Lip.Pt m
  u3 : Lip.Pt m
  u4 : Lip.Pt m
  z : Lip.Pt m

/-- The weights `a1 .. a4`. -/
structure Weights where
  a1 : ℝ
  a2 : ℝ
  a3 : ℝ
  a4 : ℝ

/-- `A_sum` for one entry, minimax.py 234. -/
noncomputable def aSum (w : Weights) (d : Draw m) (i : Fin m) : ℝ := w.a1 * d.u1 i + w.a2 * d.u2 i + w.a3 * d.u3 i + w.a4 * d.u4 i

/-- The new position of one point, minimax.py 228-245: the weights are drawn for every entry. -/
noncomputable def psoMove (w : Weights) (d : Draw m) (p1 p2 p3 : Lip.Pt m) : Lip.Pt m := fun i =>
  w.a1 * d.u1 i / aSum w d i * p1 i + w.a2 * d.u2 i / aSum w d i * p2 i + w.a3 * d.u3 i / aSum w d i * p3 i + w.a4 * d.u4 i / aSum w d i * d.z i

/-- The new design of a particle from the three aligned designs. -/
noncomputable def psoDesign (w : Weights) : List (Draw m) → PDesign m → PDesign m → PDesign m → PDesign m
  | d :: ds, p1 :: P1, p2 :: P2, p3 :: P3 => psoMove w d p1 p2 p3 :: psoDesign w ds P1 P2 P3
  | _, _, _, _ => []

/-- The state: designs, local best designs with scores and the global best one (`none` is `np.inf`). -/
structure Swarm (m : ℕ) where
  cur : List (PDesign m)
  loc : List (PDesign m × Option ℝ)
  glob : PDesign m × Option ℝ

/-- What happens: the update of particle `j` with the centers of its clusters and draws, or its replacement by a new random design. -/
inductive PsoOp (m : ℕ) where
  | update (j : ℕ) (centers : PDesign m) (draws : List (Draw m))
  | reset (j : ℕ) (X : PDesign m)

/-- One operation, minimax.py 209-268.  `align X Y` is `_align_vector(X, Y)`. -/
noncomputable def psoStep (align : PDesign m → PDesign m → PDesign m) (w : Weights) (L : Matrix (Fin k) (Fin m) ℝ) (X : List (Lip.Pt m)) (s : Swarm m) : PsoOp m →
    Except Err (Swarm m)
  | .update j centers draws =>
    match s.cur[j]?, s.loc[j]? with
    | some A, some B =>
      let N := psoDesign w draws (align A centers) (align A B.1) (align A s.glob.1)
      .ok ⟨s.cur.set j N, s.loc.set j (keepBest (scoreOf L X N) N B), keepBest (scoreOf L X N) N s.glob⟩
    | _, _ => .error .indexError
  | .reset j Y =>
    match s.cur[j]? with
    | some _ => .ok { s with cur := s.cur.set j Y }
    | none => .error .indexError

/-- A run. -/
noncomputable def psoRun (align : PDesign m → PDesign m → PDesign m) (w : Weights) (L : Matrix (Fin k) (Fin m) ℝ) (X : List (Lip.Pt m)) :
    List (PsoOp m) → Swarm m → Except Err (Swarm m)
  | [], s => .ok s
  | o :: os, s =>
    match psoStep align w L X s o with
    | .error e => .error e
    | .ok s' => psoRun align w L X os s'

/-- The initial state, minimax.py 179-185. -/
def psoInit (Xs : List (PDesign m)) (X0 : PDesign m) : Swarm m := ⟨X0 :: Xs, (X0 :: Xs).map fun A => (A, none), (X0, none)⟩

/-- `minimax_cluster_pso`: the global best design and its score. -/
noncomputable def minimaxPso (align : PDesign m → PDesign m → PDesign m) (w : Weights) (L : Matrix (Fin k) (Fin m) ℝ) (X : List (Lip.Pt m)) (ops : List (PsoOp m))
    (X0 : PDesign m) (Xs : List (PDesign m)) : Except Err (PDesign m × Option ℝ) :=
  match psoRun align w L X ops (psoInit Xs X0) with
  | .error e => .error e
  | .ok s => .ok s.glob

end Verif.Samp
