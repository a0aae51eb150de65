import Verif.Sample.ProjectionModel

/-!
# Model of projection samples

Source: `/repo/psdr/sample/projection.py` 18-269 (`projection_sample`); `/repo/psdr/sample/latin.py` 13-34, 49-72 calls it for domains other than boxes.

The `K` matrices are those after `low_rank_L` (line 46, property C88). The domain is a set of points; tolerances are not modelled. What the code asks of other
components is passed in:

* `corner` is `domain.corner` (59-61), the targets `T` are the points of `maximin_block` (69) or those of `lhsTargets`, `asort` is `np.argsort` (77);
* `cls` is `is_empty` and `constrained_least_squares` of a subdomain (129, 195): `none` if it is empty;
* `csample` and `vv` are `sample` and `voronoi_vertex_sample` on the subdomains with fixed projections (211, 221);
* `sat` is the solver behind `picosat.itersolve`; `order` is `np.argsort(-min_dist)` (248).

`Delaunay` (88) is not imported: projections of dimension other than one end with a `NameError`. The caches have no effect. Printing is not modelled, no samples
(`Nsamp = 0`) are not considered.
-/

namespace Verif.Samp

open Verif Verif.Domain Classical

variable {m K N : ℕ}

/-- `avec`, projection.py 59-65: middles of the pieces of the extent in the direction `l`. -/
noncomputable def lhsMid (corner : Lip.Pt m → Lip.Pt m) (N : ℕ) (l : Lip.Pt m) (k : Fin N) : ℝ :=
  let a1 := l ⬝ᵥ corner l
  let a2 := l ⬝ᵥ corner (-l)
  let lo := min a1 a2
  let hi := max a1 a2
  0.5 * ((lo + ((k : ℝ) + 1) * ((hi - lo) / N)) + (lo + (k : ℝ) * ((hi - lo) / N)))

/-- `X`, projection.py 66. -/
noncomputable def lhsTargets (corner : Lip.Pt m → Lip.Pt m) (N : ℕ) (l : Lip.Pt m) (k : Fin N) : Lip.Pt m := lhsMid corner N l k • l

/-- The neighbors in a sorted list, projection.py 77-85, of the point at place `j`. -/
def placeNeighbors (I : Equiv.Perm (Fin N)) (j : Fin N) : List (Fin N) :=
  (if h : 0 < (j : ℕ) then [I ⟨j - 1, by omega⟩] else []) ++ (if h : (j : ℕ) + 1 < N then [I ⟨j + 1, h⟩] else [])

/-- `neighbors[k]`. -/
def neighborsOf (I : Equiv.Perm (Fin N)) (k : Fin N) : List (Fin N) := placeNeighbors I (I.symm k)

/-- One row, projection.py 99-102: `n.T L.T L` and `n.T L.T L p`. -/
noncomputable def psRow {r : ℕ} (L : Matrix (Fin r) (Fin m) ℝ) (T : Fin N → Lip.Pt m) (j k : Fin N) : Lip.Pt m × ℝ :=
  (Matrix.vecMul (L.mulVec (T k - T j)) L, L.mulVec (T k - T j) ⬝ᵥ L.mulVec ((0.5 : ℝ) • (T j + T k)))

/-- `As[i][j], bs[i][j]`, projection.py 95-105. -/
noncomputable def psCell {r : ℕ} (asort : (Fin N → ℝ) → Equiv.Perm (Fin N)) (L : Matrix (Fin r) (Fin m) ℝ) (T : Fin N → Lip.Pt m) (j : Fin N) :
    List (Lip.Pt m × ℝ) :=
  (neighborsOf (asort fun k => ∑ a, L.mulVec (T k) a) j).map (psRow L T j)

/-- A point satisfies rows. -/
def MeetsRows (rows : List (Lip.Pt m × ℝ)) (x : Lip.Pt m) : Prop := ∀ r ∈ rows, r.1 ⬝ᵥ x ≤ r.2

/-- One pass of the loop over the metrics, projection.py 55-108: the exception it ends with, if any. -/
noncomputable def psMetric {r : ℕ} (asort : (Fin N → ℝ) → Equiv.Perm (Fin N)) (D : Set (Lip.Pt m)) (L : Matrix (Fin r) (Fin m) ℝ) (T : Fin N → Lip.Pt m) : Option Err :=
  if r ≠ 1 then some .nameError
  else if N = 1 then some .indexError
  else if ∀ j, (T j ∈ D ∧ MeetsRows (psCell asort L T j) (T j)) ∧ (Finset.univ.filter fun k => T k ∈ D ∧ MeetsRows (psCell asort L T j) (T k)).card = 1 then none
  else some .assertion

/-- The first exception of a list. -/
def firstErr : List (Option Err) → Except Err Unit
  | [] => .ok ()
  | none :: l => firstErr l
  | some e :: _ => .error e

/-- The projections and the points whose projections are the targets. -/
structure PSIn (m K N : ℕ) where
  r : Fin K → ℕ
  L : (i : Fin K) → Matrix (Fin (r i)) (Fin m) ℝ
  T : (i : Fin K) → Fin N → Lip.Pt m

/-- The loop of `projection_sample` up to the SAT solver, projection.py 46-108. -/
noncomputable def psSetup (asort : (Fin N → ℝ) → Equiv.Perm (Fin N)) (D : Set (Lip.Pt m)) (P : PSIn m K N) : Except Err Unit :=
  if m < ∑ i, P.r i then .error .valueError
  else firstErr ((List.finRange K).map fun i => psMetric asort D (P.L i) (P.T i))

/-- `subdomain(idx)`, projection.py 118-121: the rows added to the domain. -/
noncomputable def psRows (asort : (Fin N → ℝ) → Equiv.Perm (Fin N)) (P : PSIn m K N) (c : Fin K → Fin N) : List (Lip.Pt m × ℝ) :=
  (List.finRange K).flatMap fun i => psCell asort (P.L i) (P.T i) (c i)

/-- The function minimized by `subdomain_sample`, projection.py 124-129. -/
noncomputable def psMisfit (P : PSIn m K N) (c : Fin K → Fin N) (x : Lip.Pt m) : ℝ :=
  ∑ i, Lip.nrm ((P.L i).mulVec x - (P.L i).mulVec (P.T i (c i))) ^ 2

/-- What the code asks of other components in the main loop. -/
structure PSOracles (m K N : ℕ) where
  cls : List (Lip.Pt m × ℝ) → (Lip.Pt m → ℝ) → Option (Lip.Pt m)
  csample : (Fin N → Fin K → Fin N) → (Fin N → Lip.Pt m) → Fin N → Lip.Pt m
  vv : (Fin N → Fin K → Fin N) → (Fin N → Lip.Pt m) → Fin N → (Fin N → Lip.Pt m) → Lip.Pt m
  sat : SatSolver
  order : (Fin N → Lip.Pt m) → List (Fin N)

/-- The point of a cell. -/
noncomputable def psPoint (O : PSOracles m K N) (asort : (Fin N → ℝ) → Equiv.Perm (Fin N)) (P : PSIn m K N) (c : Fin K → Fin N) : Option (Lip.Pt m) :=
  O.cls (psRows asort P c) (psMisfit P c)

/-- Moving one point, projection.py 214-228. -/
noncomputable def psMove (v : Fin N → (Fin N → Lip.Pt m) → Lip.Pt m) (s : (Fin N → Lip.Pt m) × ℝ) (i : Fin N) : (Fin N → Lip.Pt m) × ℝ :=
  (Function.update s.1 i (v i s.1), max s.2 ‖s.1 i - v i s.1‖)

/-- The sweeps, projection.py 213-230. -/
noncomputable def psSweeps (v : Fin N → (Fin N → Lip.Pt m) → Lip.Pt m) : ℕ → (Fin N → Lip.Pt m) → (Fin N → Lip.Pt m)
  | 0, X => X
  | n + 1, X =>
    let s := (List.finRange N).foldl (psMove v) (X, 0)
    if s.2 < 1e-6 then s.1 else psSweeps v n s.1

/-- The design of the cells `d` with points `X`, projection.py 208-230. -/
noncomputable def psRefine (O : PSOracles m K N) (P : PSIn m K N) (d : Fin N → Fin K → Fin N) (X : Fin N → Lip.Pt m) : Fin N → Lip.Pt m :=
  if ∑ i, P.r i < m then psSweeps (O.vv d X) 100 (O.csample d X) else X

/-- The variables of the main loop, projection.py 154-161: the clauses, the solutions given so far, the assumptions for the next solution, the variable
`assumptions`, `it`, `X_best`, `score_best`. -/
structure PSState (m N : ℕ) where
  clauses : List (List ℤ)
  seen : List Assign
  pending : List ℤ
  asm : Option (List ℤ)
  it : ℕ
  X : Option (Fin N → Lip.Pt m)
  best : List ℝ

/-- `sat_iter.next()`, and once more without assumptions, projection.py 163-175; afterwards the assumptions are released. -/
def psNext (sat : SatSolver) (s : PSState m N) : Option Assign :=
  match sat s.clauses s.seen s.pending with
  | some σ => some σ
  | none => sat s.clauses s.seen []

/-- The clauses for empty cells, projection.py 193-201. -/
noncomputable def psBlock (O : PSOracles m K N) (asort : (Fin N → ℝ) → Equiv.Perm (Fin N)) (P : PSIn m K N) (d : Fin N → Fin K → Fin N) : List (List ℤ) :=
  (((List.finRange N).filter fun j => (psPoint O asort P (d j)).isNone).map d).flatMap cellBlock

/-- The assumptions after an improvement, projection.py 247-251. -/
def psAssume (O : PSOracles m K N) (d : Fin N → Fin K → Fin N) (X : Fin N → Lip.Pt m) : List ℤ :=
  ((O.order X).take (N - K * 2)).flatMap fun k : Fin N => (List.finRange K).map fun i : Fin K => encode N (i : ℕ) (k : ℕ) (d k i : ℕ)

/-- Scoring a complete design, projection.py 203-256. The name `assumptions` is not bound before the first improvement. -/
noncomputable def psScore (O : PSOracles m K N) (d : Fin N → Fin K → Fin N) (Y : Fin N → Lip.Pt m) (s : PSState m N) : Except Err (PSState m N) :=
  if tupleLt s.best (score Y) then
    .ok { s with it := s.it + 1, X := some Y, best := score Y, asm := some (psAssume O d Y), pending := psAssume O d Y }
  else match s.asm with
    | none => .error .nameError
    | some a => .ok { s with it := s.it + 1, pending := a }

/-- One pass with the solution `σ`, projection.py 177-256. -/
noncomputable def psStep (O : PSOracles m K N) (asort : (Fin N → ℝ) → Equiv.Perm (Fin N)) (P : PSIn m K N) (s : PSState m N) (σ : Assign) : Except Err (PSState m N) :=
  match designOf K N (readPerms N (solutionOf (K * N ^ 2) σ)) with
  | none => .error .indexError
  | some d =>
    let s1 : PSState m N := { s with seen := s.seen ++ [σ], clauses := s.clauses ++ psBlock O asort P d, pending := [] }
    if h : ∀ j, (psPoint O asort P (d j)).isSome then psScore O d (psRefine O P d fun j => (psPoint O asort P (d j)).get (h j)) s1
    else .ok s1

/-- The main loop, projection.py 162-268, for at most the given number of passes; `none` if it is still running. -/
noncomputable def psRun (O : PSOracles m K N) (asort : (Fin N → ℝ) → Equiv.Perm (Fin N)) (P : PSIn m K N) (maxiter : ℕ) : ℕ → PSState m N → Except Err (Option (PSState m N))
  | 0, _ => .ok none
  | fuel + 1, s =>
    match psNext O.sat s with
    | none => .ok (some s)
    | some σ =>
      match psStep O asort P s σ with
      | .error e => .error e
      | .ok s' => if maxiter ≤ s'.it then .ok (some s') else psRun O asort P maxiter fuel s'

/-- The variables before the loop, projection.py 132-161. -/
def psInit (m K N : ℕ) : PSState m N := ⟨geoCnf N K, [], [], none, 0, none, List.replicate N 0⟩

/-- `projection_sample`, projection.py 18-269, after `fuel` passes: `none` while it is running, else `X_best`. -/
noncomputable def projectionSample (O : PSOracles m K N) (asort : (Fin N → ℝ) → Equiv.Perm (Fin N)) (D : Set (Lip.Pt m)) (P : PSIn m K N) (maxiter fuel : ℕ) :
    Except Err (Option (Option (Fin N → Lip.Pt m))) :=
  match psSetup asort D P with
  | .error e => .error e
  | .ok _ =>
    match psRun O asort P maxiter fuel (psInit m K N) with
    | .error e => .error e
    | .ok none => .ok none
    | .ok (some s) => .ok (some s.X)

/-- The projections of `_lhs`, projection.py 40-42 and 57-66. -/
noncomputable def lhsIn (corner : Lip.Pt m → Lip.Pt m) (N : ℕ) : PSIn m m N :=
  ⟨fun _ => 1, fun i => Matrix.of fun _ => Pi.single i 1, fun i => lhsTargets corner N (Pi.single i 1)⟩

end Verif.Samp
