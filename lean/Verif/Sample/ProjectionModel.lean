import Mathlib.Data.Matrix.Mul
import Verif.Sample.SatModel
import Verif.Sample.LatinModel

/-!
# Model of projection designs

Source: `/repo/psdr/sample/projection.py` 279-311 (`_voronoi_cell_point`) and 323-465 (`projection_design`).

The `K` projections `Ls` are real matrices and the designs `ys` are given for each (the branch of lines 331-338 only computes them).
The domain is a set of points. What the code asks of other components is passed in:

* `cls` is `subdom.constrained_least_squares` on the domain with the extra rows (line 309), answering `none` where it raises
  `EmptyDomainException` (its own model is property C16); it also gets the function minimized;
* `sat` is the solver behind `picosat.itersolve`, as a function of the clauses so far, the solutions already given and the assumptions;
* `order` is `np.argsort(-d_best)` of the best design.

The cache of line 343 has no effect on a function of its argument. Printing is not modelled, `M = 0` is not considered. The endless loop
is run for a number of passes, which the theorems quantify over.
-/

namespace Verif.Samp

open Verif Verif.Domain

/-- The exceptions `projection_design` can end with. -/
inductive PErr where
  | value
  | name
  | index
deriving DecidableEq

/-- The projections and the designs for each of them. -/
structure Proj (m K M : ℕ) where
  r : Fin K → ℕ
  L : (i : Fin K) → Matrix (Fin (r i)) (Fin m) ℝ
  y : (i : Fin K) → Fin M → Lip.Pt (r i)

variable {m K M : ℕ}

/-- The rows `n.T.dot(L)` and right hand sides `n.dot(p)`, projection.py 292-301. -/
noncomputable def cellRows (P : Proj m K M) (coord : Fin K → Fin M) : List (Lip.Pt m × ℝ) :=
  (List.finRange K).flatMap (fun i =>
    ((List.finRange M).filter (fun k => decide (coord i ≠ k))).map (fun k =>
      (Matrix.vecMul (P.y i k - P.y i (coord i)) (P.L i),
        (P.y i k - P.y i (coord i)) ⬝ᵥ ((0.5 : ℝ) • (P.y i (coord i) + P.y i k)))))

/-- The function minimized on the cell, projection.py 306-309: the squared norm of `Lall x - b`, block by block. -/
noncomputable def cellMisfit (P : Proj m K M) (coord : Fin K → Fin M) (x : Lip.Pt m) : ℝ :=
  ∑ i, Lip.nrm (Matrix.mulVec (P.L i) x - P.y i (coord i)) ^ 2

/-- `_voronoi_cell_point`, projection.py 279-310; `np.vstack` of an empty list raises `ValueError` (line 303). -/
noncomputable def cellPoint (cls : List (Lip.Pt m × ℝ) → (Lip.Pt m → ℝ) → Option (Lip.Pt m)) (P : Proj m K M)
    (coord : Fin K → Fin M) : Except PErr (Option (Lip.Pt m)) :=
  if cellRows P coord = [] then .error .value else .ok (cls (cellRows P coord) (cellMisfit P coord))

/-- The solver: the clauses, the solutions already given, the assumptions. -/
abbrev SatSolver := List (List ℤ) → List Assign → List ℤ → Option Assign

/-- The variables of the main loop, projection.py 376-381: the clauses, what `itersolve` has given so far, `sol`, `perms`, `it`,
`X_best`, `score_best`. `perms_best` and `d_best` are only used through the test `perms_best is not None` and the order computed from
`X_best`, which are assigned together with `X_best` (lines 436-444). -/
structure PState (m M : ℕ) where
  clauses : List (List ℤ)
  seen : List Assign
  sol : Option Assign
  perms : Perms
  it : ℕ
  X : Option (Fin M → Lip.Pt m)
  best : List ℝ

/-- `keep_range`, projection.py 387-390. -/
def keepRange (M : ℕ) (use : Bool) : List ℕ := if use then (List.range (max (M - 2 + 1) 1)).reverse else List.range 1

/-- The assumptions, projection.py 393-397. (The permutations read are those of the last solution, not those of the best one.) -/
def assumptions (K : ℕ) (order : (Fin M → Lip.Pt m) → List (Fin M)) (s : PState m M) (nKeep : ℕ) : List ℤ :=
  match s.X with
  | none => []
  | some X => ((order X).take nKeep).flatMap (fun j => (List.range K).map (fun k => encode M k j (s.perms k (j : ℕ)).toNat))

/-- The attempts with fewer and fewer assumptions, projection.py 392-407. -/
def trySat (sat : SatSolver) (K : ℕ) (order : (Fin M → Lip.Pt m) → List (Fin M)) (s : PState m M) : List ℕ → Option Assign
  | [] => none
  | n :: rest =>
    match sat s.clauses s.seen (assumptions K order s n) with
    | some σ => some σ
    | none => trySat sat K order s rest

/-- Column `j` of `perms` as an index into the designs, for every `j`; `none` stands for an entry which is no index. -/
def designOf (K M : ℕ) (p : Perms) : Option (Fin M → Fin K → Fin M) :=
  if h : ∀ (k : Fin K) (j : Fin M), 0 ≤ p (k : ℕ) (j : ℕ) ∧ p (k : ℕ) (j : ℕ) < M then
    some (fun j k => ⟨(p (k : ℕ) (j : ℕ)).toNat, by have := h k j; omega⟩)
  else none

/-- The clauses added for an empty cell, projection.py 425-427. -/
def cellBlock (cell : Fin K → Fin M) : List (List ℤ) := blockClauses M K (fun k => if hk : k < K then (cell ⟨k, hk⟩ : ℕ) else 0)

/-- Lines 417-427: the points of the cells, `none` for an empty cell. -/
noncomputable def cellPoints (cls : List (Lip.Pt m × ℝ) → (Lip.Pt m → ℝ) → Option (Lip.Pt m)) (P : Proj m K M)
    (d : Fin M → Fin K → Fin M) (j : Fin M) : Option (Lip.Pt m) := cls (cellRows P (d j)) (cellMisfit P (d j))

/-- The clauses added in one pass, projection.py 422-427. -/
noncomputable def newClauses (cls : List (Lip.Pt m × ℝ) → (Lip.Pt m → ℝ) → Option (Lip.Pt m)) (P : Proj m K M)
    (d : Fin M → Fin K → Fin M) : List (List ℤ) :=
  (((List.finRange M).filter (fun j => (cellPoints cls P d j).isNone)).map d).flatMap cellBlock

open Classical in
/-- Lines 429-450: if every cell has a point the design is scored. -/
noncomputable def scoreStep (s : PState m M) (pts : Fin M → Option (Lip.Pt m)) : PState m M :=
  if h : ∀ j, (pts j).isSome then
    (if tupleLt s.best (score (fun j => (pts j).get (h j))) then
      { s with X := some (fun j => (pts j).get (h j)), best := score (fun j => (pts j).get (h j)), it := s.it + 1 }
    else { s with it := s.it + 1 })
  else s

open Classical in
/-- One pass of the loop after the solution `σ` has been chosen, projection.py 409-450. -/
noncomputable def buildStep (cls : List (Lip.Pt m × ℝ) → (Lip.Pt m → ℝ) → Option (Lip.Pt m)) (P : Proj m K M)
    (s : PState m M) (σ : Assign) : Except PErr (PState m M) :=
  match designOf K M (readPerms M (solutionOf (K * M ^ 2) σ)) with
  | none => .error .index
  | some d =>
    if ∃ j, cellRows P (d j) = [] then .error .value
    else .ok (scoreStep { s with sol := some σ, perms := readPerms M (solutionOf (K * M ^ 2) σ),
                                 clauses := s.clauses ++ newClauses cls P d } (cellPoints cls P d))

/-- One pass of the loop, projection.py 384-450. When the solver has no more solutions `sol` keeps its value; before the first
solution that is a `NameError`. -/
noncomputable def projStep (cls : List (Lip.Pt m × ℝ) → (Lip.Pt m → ℝ) → Option (Lip.Pt m)) (sat : SatSolver)
    (order : (Fin M → Lip.Pt m) → List (Fin M)) (use : Bool) (P : Proj m K M) (s : PState m M) : Except PErr (PState m M) :=
  match trySat sat K order s (keepRange M use) with
  | some σ => buildStep cls P { s with seen := s.seen ++ [σ] } σ
  | none =>
    match s.sol with
    | none => .error .name
    | some σ => buildStep cls P s σ

/-- The loop, projection.py 384-460: at most `fuel` passes; `none` if it is still running. -/
noncomputable def projRun (cls : List (Lip.Pt m × ℝ) → (Lip.Pt m → ℝ) → Option (Lip.Pt m)) (sat : SatSolver)
    (order : (Fin M → Lip.Pt m) → List (Fin M)) (use : Bool) (P : Proj m K M) (maxiter : ℕ) :
    ℕ → PState m M → Except PErr (Option (PState m M))
  | 0, _ => .ok none
  | fuel + 1, s =>
    match projStep cls sat order use P s with
    | .error e => .error e
    | .ok s' => if maxiter ≤ s'.it then .ok (some s') else projRun cls sat order use P maxiter fuel s'

/-- The variables before the loop, projection.py 355-381. -/
def projInit (m K M : ℕ) : PState m M := ⟨geoCnf M K, [], none, fun _ _ => -1, 0, none, List.replicate M 0⟩

/-- `projection_design(domain, M, Ls, ys, maxiter, use_assumptions)`, projection.py 323-465, after `fuel` passes: `none` while it is
running, else `X_best`. -/
noncomputable def projectionDesign (cls : List (Lip.Pt m × ℝ) → (Lip.Pt m → ℝ) → Option (Lip.Pt m)) (sat : SatSolver)
    (order : (Fin M → Lip.Pt m) → List (Fin M)) (use : Bool) (P : Proj m K M) (maxiter fuel : ℕ) :
    Except PErr (Option (Option (Fin M → Lip.Pt m))) :=
  match projRun cls sat order use P maxiter fuel (projInit m K M) with
  | .error e => .error e
  | .ok none => .ok none
  | .ok (some s) => .ok (some s.X)

end Verif.Samp
