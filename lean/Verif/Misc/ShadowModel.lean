import Verif.Domain.Model
import Mathlib.Algebra.BigOperators.Fin
import Mathlib.Algebra.Order.Floor.Ring

/-!
# The shadow envelope (/repo/psdr/subspace.py 130-223)

The projected coordinates `y = X.dot(U)` and the values `fX` are the input here (the projection is one
dot product per sample).  Exact real arithmetic.  The two linear programs handed to cvxpy/OSQP are a
parameter with a specification; plotting and file output are left out (the file is C62).
A zero grid spacing makes every quotient `nan`, the integer cast then gives a negative column and
`coo_matrix` refuses it: modelled as `valueError`.
-/

namespace Verif.Misc
open Verif Verif.Domain

/-- `np.min` of a nonempty list. -/
noncomputable def ymin (a : ℝ) (l : List ℝ) : ℝ := l.foldl min a
/-- `np.max` of a nonempty list. -/
noncomputable def ymax (a : ℝ) (l : List ℝ) : ℝ := l.foldl max a

/-- The spacing `h = yy[1] - yy[0]` of `np.linspace(lo, hi, n)`, subspace.py 163-164, 175-176. -/
noncomputable def gridH (lo hi : ℝ) (n : ℕ) : ℝ := (hi - lo) / ((n : ℝ) - 1)

/-- The grid points `yy`, subspace.py 163, 175. -/
noncomputable def gridPt (lo hi : ℝ) (n k : ℕ) : ℝ := lo + k * gridH lo hi n

/-- `np.floor((y - yy[0])/h)`, subspace.py 168, 181. -/
noncomputable def cellOf (lo h y : ℝ) : ℤ := ⌊(y - lo) / h⌋

open Classical in
/-- `counts` of cell `k`, subspace.py 168. -/
noncomputable def cellCount (lo h : ℝ) (ys : List ℝ) (k : ℕ) : ℕ :=
  ys.countP (fun y => decide (cellOf lo h y = (k : ℤ)))

/-- The acceptance test `(np.min(counts[:-1]) >= 5) and len(items) == ngrid`, subspace.py 170.  The
items are integers between `0` and `n-1` (`cellOf_range`), so having `n` of them means that every cell
occurs. -/
def gridAccept (lo hi : ℝ) (ys : List ℝ) (n : ℕ) : Prop :=
  (∀ k < n - 1, 5 ≤ cellCount lo (gridH lo hi n) ys k) ∧ ∀ k < n, 0 < cellCount lo (gridH lo hi n) ys k

open Classical in
/-- The loop that determines the number of grid points, subspace.py 159-173: `fuel` counts down from
`25 - 3`, the grid has `fuel + 3` points. -/
noncomputable def gridSearch (lo hi : ℝ) (ys : List ℝ) : ℕ → ℕ
  | 0 => 3
  | k + 1 => if gridAccept lo hi ys (k + 1 + 3) then k + 1 + 3 else gridSearch lo hi ys k

/-- The entries of one row of the interpolation matrix, subspace.py 181-195: the pairs of a column and
a value. -/
noncomputable def envEntries (lo h : ℝ) (n : ℕ) (y : ℝ) : List (ℤ × ℝ) :=
  let j := cellOf lo h y
  (j, ((lo + (j + 1) * h) - y) / h) ::
    if j ≠ (n : ℤ) - 1 then [(j + 1, (y - (lo + j * h)) / h)] else []

/-- `coo_matrix` checks the columns, subspace.py 197. -/
def entriesOk (n : ℕ) (es : List (ℤ × ℝ)) : Prop := ∀ e ∈ es, 0 ≤ e.1 ∧ e.1 < n

/-- The row as a vector (entries with equal columns are added), subspace.py 197. -/
noncomputable def denseRow (n : ℕ) (es : List (ℤ × ℝ)) (k : Fin n) : ℝ :=
  (es.map fun e => if e.1 = (k : ℤ) then e.2 else 0).sum

open Classical in
/-- The rows of the interpolation matrix for all samples, subspace.py 178-197. -/
noncomputable def envRows (lo hi : ℝ) (n : ℕ) (ys : List ℝ) : Except Err (List (Fin n → ℝ)) :=
  if gridH lo hi n = 0 then .error .valueError
  else if ∀ y ∈ ys, entriesOk n (envEntries lo (gridH lo hi n) n y) then
    .ok (ys.map fun y => denseRow n (envEntries lo (gridH lo hi n) n y))
  else .error .valueError

/-- `A*u` for one row. -/
def envDot {n : ℕ} (r u : Fin n → ℝ) : ℝ := ∑ k, r k * u k

/-- An upper vector is feasible: `A*ub >= fX`, subspace.py 202. -/
def UpFeasible {n : ℕ} (rows : List (Fin n → ℝ)) (fX : List ℝ) (u : Fin n → ℝ) : Prop :=
  ∀ p ∈ rows.zip fX, p.2 ≤ envDot p.1 u

/-- A lower vector is feasible: `A*lb <= fX`, subspace.py 209. -/
def LoFeasible {n : ℕ} (rows : List (Fin n → ℝ)) (fX : List ℝ) (u : Fin n → ℝ) : Prop :=
  ∀ p ∈ rows.zip fX, envDot p.1 u ≤ p.2

/-- The LP solver: minimize the sum under `rows * u ≥ f` (the second program is this one with both signs
changed).  `none` is cvxpy's `value = None`, which it leaves for infeasible and unbounded programs. -/
abbrev EnvSolver := ∀ n : ℕ, List (Fin n → ℝ) → List ℝ → Option (Fin n → ℝ)

/-- An exact solver. -/
structure EnvSpec (s : EnvSolver) : Prop where
  feasible : ∀ n rows f u, s n rows f = some u → UpFeasible rows f u
  minimal : ∀ n rows f u, s n rows f = some u → ∀ v, UpFeasible rows f v → ∑ k, u k ≤ ∑ k, v k

/-- The number of grid points, subspace.py 159-176; fewer than two grid points make `yy[1]` fail. -/
noncomputable def envGrid (lo hi : ℝ) (ys : List ℝ) : Option ℕ → Except Err ℕ
  | none => .ok (gridSearch lo hi ys 22)
  | some n => if n < 2 then .error .indexError else .ok n

/-- What `shadow_envelope` returns: `y`, `lb`, `ub` (and the number of grid points, which is the length
of `lb` and `ub`). -/
structure Envelope where
  n : ℕ
  y : List ℝ
  lb : Option (Fin n → ℝ)
  ub : Option (Fin n → ℝ)

/-- The last part of `shadow_envelope`, subspace.py 178-223. -/
noncomputable def envSolve (s : EnvSolver) (lo hi : ℝ) (ys fX : List ℝ) (n : ℕ) :
    Except Err Envelope :=
  match envRows lo hi n ys with
  | .error e => .error e
  | .ok rows => .ok ⟨n, ys, (s n rows (fX.map fun v => -v)).map (fun u k => - u k), s n rows fX⟩

/-- `shadow_envelope`, subspace.py 130-223. -/
noncomputable def shadowEnvelope (s : EnvSolver) (ys fX : List ℝ) (ngrid : Option ℕ) :
    Except Err Envelope :=
  if ys.length ≠ fX.length then .error .assertion else
  match ys with
  | [] => .error .valueError
  | a :: l =>
    match envGrid (ymin a l) (ymax a l) ys ngrid with
    | .error e => .error e
    | .ok n => envSolve s (ymin a l) (ymax a l) ys fX n

end Verif.Misc
