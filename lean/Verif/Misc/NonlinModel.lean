import Verif.Lipschitz.BoundModel
import Verif.Domain.Model

/-!
# Model of the nonlinearity measure

Source: `/repo/psdr/nonlin.py` 5-56 (`measure_nonlinearity`).  The linear program is solved by a parameter.
-/

namespace Verif.Misc

open Verif Verif.Domain Verif.Lip Matrix

variable {m M : ℕ}

/-- `np.triu_indices(M, k = 1)`, nonlin.py 36. -/
def triuPairs (M : ℕ) : List (Fin M × Fin M) :=
  (List.finRange M).flatMap fun i : Fin M => ((List.finRange M).filter fun j : Fin M => decide (i < j)).map fun j : Fin M => (i, j)

/-- The rows `P` and the entries `fdiff`, nonlin.py 37-39. -/
def nlRows (X : Fin M → Pt m) (fX : Pt M) : List (Pt m × ℝ) := (triuPairs M).map fun p => (X p.1 - X p.2, fX p.1 - fX p.2)

/-- Division of two finite floats, the second one not negative. -/
noncomputable def fdivX (a b : ℝ) : XR :=
  open Classical in
  if b = 0 then (if a = 0 then .nan else if 0 < a then .pinf else .ninf) else .fin (a / b)

/-- `L.value/L0` for a nonnegative float `L0`, nonlin.py 56. -/
noncomputable def fdivXX (a : ℝ) : XR → XR
  | .fin b => fdivX a b
  | .pinf => .fin 0
  | .ninf => .fin 0
  | .nan => .nan

/-- `L0 = np.max(np.abs(fdiff)/Pnorm)`, nonlin.py 42; `none` for an empty array. -/
noncomputable def nlConst (rows : List (Pt m × ℝ)) : Option XR :=
  match rows.map fun r => fdivX |r.2| (nrm r.1) with
  | [] => none
  | q :: qs => some (qs.foldl XR.max q)

/-- The constraints of the program, nonlin.py 47-50. -/
def NLFeasible (rows : List (Pt m × ℝ)) (K : ℝ) (a : Pt m) : Prop :=
  ∀ r ∈ rows, r.2 + r.1 ⬝ᵥ a ≤ K * nrm r.1 ∧ r.2 + r.1 ⬝ᵥ a ≥ -K * nrm r.1

/-- The solver for the program of nonlin.py 45-52: value and variables, `none` if it fails. -/
abbrev NLSolver (m : ℕ) := List (Pt m × ℝ) → Option (ℝ × Pt m)

/-- `measure_nonlinearity(X, fX)`, nonlin.py 5-56. -/
noncomputable def nonlin (sol : NLSolver m) (X : Fin M → Pt m) (fX : Pt M) : Except Err (XR × Pt m) :=
  match nlConst (nlRows X fX) with
  | none => .error .valueError
  | some L0 =>
    match sol (nlRows X fX) with
    | none => .error .typeError
    | some (K, a) => .ok (fdivXX K L0, a)

end Verif.Misc
