import Verif.Lipschitz.BoundModel
import Verif.Domain.Model

/-!
# Model of the smallest enclosing ball

Source: `/repo/psdr/geometry/miniball.py` 5-35 (`miniball`).  The convex solver is a parameter.
-/

namespace Verif.Geo

open Verif.Domain Verif.Lip Matrix

variable {k m M : ℕ}

/-- The objective `mixed_norm((L @ (x 1^T - X^T)).T, 2, inf)`, miniball.py 31: the largest norm of a row. -/
noncomputable def ballRadius (L : Matrix (Fin k) (Fin m) ℝ) (X : Fin M → Pt m) (x : Pt m) : ℝ := ⨆ i, nrm (L *ᵥ (x - X i))

/-- The solver for the center. -/
abbrev BallSolver (m : ℕ) := {k M : ℕ} → Matrix (Fin k) (Fin m) ℝ → (Fin M → Pt m) → Option (Pt m)

/-- `miniball(X, L)`, miniball.py 5-35: center and radius. Without points the shape of `X` cannot be unpacked. -/
noncomputable def miniball (sol : BallSolver m) (X : Fin M → Pt m) (L : Option (Matrix (Fin m) (Fin m) ℝ)) : Except Err (Pt m × ℝ) :=
  if M = 0 then .error .valueError
  else
    match sol (L.getD 1) X with
    | none => .error .solverError
    | some x => .ok (x, ballRadius (L.getD 1) X x)

end Verif.Geo
