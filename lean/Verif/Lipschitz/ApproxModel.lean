import Verif.Lipschitz.BoundModel
import Verif.Domain.Model
import Verif.Func.PolyModel

/-!
# Model of the Lipschitz approximation

Source: `/repo/psdr/lipschitz_approx.py` 15-74 (`lipschitz_approximation_compatible_data`, `LipschitzApproximation.__init__`, `fit`,
`eval`).  The convex solver is a parameter; plotting is dropped.
-/

namespace Verif.Lip

open Verif Verif.Domain Verif.Func Matrix

variable {k m M : ℕ}

/-- `np.tril_indices(len(X), k=1)`, lipschitz_approx.py 36: the lower triangle, the diagonal and the first superdiagonal. -/
def trilPairs (M : ℕ) : List (Fin M × Fin M) :=
  (List.finRange M).flatMap fun i : Fin M => ((List.finRange M).filter fun j : Fin M => decide ((j : ℕ) ≤ (i : ℕ) + 1)).map fun j : Fin M => (i, j)

/-- The constraints of the program, lipschitz_approx.py 38-40. -/
def CompatFeasible (L : Matrix (Fin k) (Fin m) ℝ) (X : Fin M → Pt m) (y : Pt M) : Prop :=
  ∀ p ∈ trilPairs M, |y p.1 - y p.2| ≤ nrm (L *ᵥ (X p.1 - X p.2))

/-- The convex solver for the program of lipschitz_approx.py 31-43: data closest to `fX` in the norm, `none` if it fails. -/
abbrev CompatSolver (k m : ℕ) := {M : ℕ} → PNorm → Matrix (Fin k) (Fin m) ℝ → (Fin M → Pt m) → Pt M → Option (Pt M)

/-- The attributes set by `fit`, lipschitz_approx.py 64-69. -/
structure Approx (m M : ℕ) where
  X : Fin M → Pt m
  y : Pt M
  epsilon : ℝ

/-- `fit(X, fX)`, lipschitz_approx.py 60-69: samples outside of the domain and unequal numbers are rejected; without samples the
maximum of line 69 fails; if the solver fails `y.value` is `None` and line 69 raises. -/
noncomputable def approxFit {M' : ℕ} (sol : CompatSolver k m) (p : PNorm) (L : Matrix (Fin k) (Fin m) ℝ) (inside : Pt m → Prop)
    (X : Fin M → Pt m) (fX : Pt M') : Except Err (Approx m M) :=
  open Classical in
  if ¬ ∀ i, inside (X i) then .error .assertion
  else if h : M = M' then
    match sol p L X (fX ∘ Fin.cast h) with
    | none => .error .typeError
    | some y => if M = 0 then .error .valueError else .ok ⟨X, y, ⨆ i, |y i - fX (Fin.cast h i)|⟩
  else .error .assertion

/-- `eval(x)` at one point, lipschitz_approx.py 71-73. -/
noncomputable def approxEval (L : Matrix (Fin k) (Fin m) ℝ) (a : Approx m M) (x : Pt m) : XR :=
  let u := uncertainty L (some a.epsilon) (List.ofFn fun i => (a.X i, a.y i)) x
  XR.smul (1 / 2) (XR.add u.1 u.2)

end Verif.Lip
