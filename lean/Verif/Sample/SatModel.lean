import Mathlib.Data.Int.Init
import Mathlib.Data.List.Basic
import Mathlib.Tactic.Linarith

/-!
# Model of the SAT encoding used by projection designs

Source: `/repo/psdr/sample/projection.py` 111-151 (`encode`, `decode`, the clauses), 176-198 (reading a solution, blocking
clauses); the same text is repeated in `projection_design` at 342-370 and 413-427.

Literals are nonzero integers as in the SAT solver's interface; an assignment gives a truth value to every variable number.
-/

namespace Verif.Samp

/-- `encode(metric, order, value)`, projection.py 111-113. -/
def encode (N metric order value : ℕ) : ℤ := metric * N * N + order * N + value + 1

/-- `decode(idx)`, projection.py 114-115. Python's `//` and `%` round down, as `Int.fdiv` and `Int.fmod` do. -/
def decode (N : ℕ) (idx : ℤ) : ℤ × ℤ × ℤ :=
  (Int.fdiv (idx - 1) ((N : ℤ) ^ 2), Int.fdiv (Int.fmod (idx - 1) ((N : ℤ) ^ 2)) N, Int.fmod (idx - 1) N)

/-- An assignment: a truth value for every variable number. -/
abbrev Assign := ℕ → Bool

/-- A literal is satisfied. -/
def litSat (σ : Assign) (l : ℤ) : Prop := (0 < l ∧ σ l.toNat = true) ∨ (l < 0 ∧ σ (-l).toNat = false)

/-- A clause is satisfied. -/
def clauseSat (σ : Assign) (c : List ℤ) : Prop := ∃ l ∈ c, litSat σ l

/-- A list of clauses is satisfied. -/
def cnfSat (σ : Assign) (f : List (List ℤ)) : Prop := ∀ c ∈ f, clauseSat σ c

/-- `zip(*np.triu_indices(N, 1))`: the pairs `i < j` in row order. -/
def triu (N : ℕ) : List (ℕ × ℕ) := (List.range N).flatMap (fun i => ((List.range N).filter (fun j => decide (i < j))).map (fun j => (i, j)))

/-- The clauses of one row of one metric, projection.py 134-140. -/
def rowClauses (N metric order : ℕ) : List (List ℤ) :=
  [(List.range N).map (fun value => encode N metric order value)] ++
    (triu N).map (fun p => [-encode N metric order p.1, -encode N metric order p.2])

/-- The clauses forbidding a value to be used twice, projection.py 143-145. -/
def valueClauses (N metric value : ℕ) : List (List ℤ) :=
  (triu N).map (fun p => [-encode N metric p.1 value, -encode N metric p.2 value])

/-- `geo_cnf`, projection.py 132-148. -/
def geoCnf (N K : ℕ) : List (List ℤ) :=
  (List.range K).flatMap (fun metric =>
    (List.range N).flatMap (rowClauses N metric) ++ (List.range N).flatMap (valueClauses N metric)) ++
  (List.range N).map (fun value => [encode N 0 value value])

/-- The solution list returned by the solver for the variables `1..n`. -/
def solutionOf (n : ℕ) (σ : Assign) : List ℤ := (List.range n).map (fun v => if σ (v + 1) then ((v : ℤ) + 1) else -((v : ℤ) + 1))

/-- The integer array `perms`, as a function of the metric and the row. -/
abbrev Perms := ℤ → ℤ → ℤ

/-- One assignment `perms[metric, order] = value`, projection.py 180-181. -/
def permStep (N : ℕ) (p : Perms) (l : ℤ) : Perms :=
  fun k o => if k = (decode N l).1 ∧ o = (decode N l).2.1 then (decode N l).2.2 else p k o

/-- Reading the solution, projection.py 177-181. -/
def readPerms (N : ℕ) (sol : List ℤ) : Perms := (sol.filter (fun l => decide (0 < l))).foldl (permStep N) (fun _ _ => -1)

/-- The clauses added when the cell `cell` turns out to be empty, projection.py 194-195. -/
def blockClauses (N K : ℕ) (cell : ℕ → ℕ) : List (List ℤ) :=
  (List.range N).map (fun o => (List.range K).map (fun metric => -encode N metric o (cell metric)))

end Verif.Samp
