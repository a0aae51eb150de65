import Mathlib.LinearAlgebra.Matrix.Trace
import Mathlib.Data.Fin.VecNotation
import Mathlib.Data.List.FinRange
import Verif.Lipschitz.BoundModel

/-!
# Model of the parametrization and the constraints of the Lipschitz matrix problem

Source: `/repo/psdr/lipschitz.py` 206-352.  The three builders hand a semidefinite program to a solver; the solver is not modelled, the
constraints and objectives given to it are.
-/

namespace Verif.Lip

open Verif Matrix

/-- The pairs `(i, i), (i, i+1), ..., (i, m-1)` in the order of the loops at lipschitz.py 241-247 and 293-298. -/
def basisPairs (m : ℕ) : List (Fin m × Fin m) :=
  (List.finRange m).flatMap (fun i => (i, i) :: ((List.finRange m).filter (fun j => decide (i < j))).map (fun j => (i, j)))

/-- `np.outer(v, v)`. -/
def outer {m : ℕ} (v : Pt m) : Matrix (Fin m) (Fin m) ℝ := Matrix.of (fun i j => v i * v j)

/-- `I[:, i]`. -/
def unitVec {m : ℕ} (i : Fin m) : Pt m := fun k => if k = i then 1 else 0

/-- The matrix appended to `Es` for a pair: `np.outer(ei, ei)` or `0.5 * np.outer(ei + ej, ei + ej)`. -/
noncomputable def basisMat {m : ℕ} (p : Fin m × Fin m) : Matrix (Fin m) (Fin m) ℝ :=
  if p.1 = p.2 then outer (unitVec p.1) else (1 / 2 : ℝ) • outer (unitVec p.1 + unitVec p.2)

/-- `Es` with structure 'full'. -/
noncomputable def Es (m : ℕ) : List (Matrix (Fin m) (Fin m) ℝ) := (basisPairs m).map basisMat

/-- `Es` with structure 'diag', lipschitz.py 299-302. -/
noncomputable def EsDiag (m : ℕ) : List (Matrix (Fin m) (Fin m) ℝ) := (List.finRange m).map (fun i => outer (unitVec i))

/-- `np.sum([alpha_i * Ei for alpha_i, Ei in zip(alpha, Es)], axis = 0)`, lipschitz.py 282 and 351. -/
def combine {m : ℕ} (E : List (Matrix (Fin m) (Fin m) ℝ)) (alpha : List ℝ) : Matrix (Fin m) (Fin m) ℝ :=
  (List.zipWith (fun a M => a • M) alpha E).sum

/-- The objective of the cvxopt builder: `c[i] = trace(E_i)`, lipschitz.py 334. -/
noncomputable def cvxoptObjective {m : ℕ} (E : List (Matrix (Fin m) (Fin m) ℝ)) (alpha : List ℝ) : ℝ :=
  (List.zipWith (fun a M => a * Matrix.trace M) alpha E).sum

/-- `x.T A x`. -/
def quad {m : ℕ} (A : Matrix (Fin m) (Fin m) ℝ) (x : Pt m) : ℝ := x ⬝ᵥ (A *ᵥ x)

/-- All pairs `(l[i], l[j])` with `i < j`, in the order of the double loops. -/
def pairsOf {α : Type*} : List α → List (α × α)
  | [] => []
  | a :: l => l.map (fun b => (a, b)) ++ pairsOf l

/-- `max(np.abs(fX[i] - fX[j]) - epsilon, 0)**2`. -/
noncomputable def slack2 (epsilon a b : ℝ) : ℝ := (max (|a - b| - epsilon) 0) ^ 2

/-- `A << B`: the difference is positive semidefinite (both matrices are symmetric here). -/
def LoewnerLe {m : ℕ} (A B : Matrix (Fin m) (Fin m) ℝ) : Prop := ∀ x, quad A x ≤ quad B x

/-- Constraints of `_build_lipschitz_matrix_cvxpy`, lipschitz.py 206-225: `H` is declared PSD. -/
def CvxpyFeasible {m : ℕ} (data : List (Pt m × ℝ)) (grads : List (Pt m)) (epsilon : ℝ) (H : Matrix (Fin m) (Fin m) ℝ) : Prop :=
  Hᵀ = H ∧ LoewnerLe 0 H ∧
  (∀ p ∈ pairsOf data, 0 < slack2 epsilon p.1.2 p.2.2 → slack2 epsilon p.1.2 p.2.2 ≤ quad H (p.1.1 - p.2.1)) ∧
  (∀ g ∈ grads, LoewnerLe (outer g) H)

/-- Constraints of `_build_lipschitz_matrix_param`, lipschitz.py 249-276: rows `A[row] = [p.dot(E.dot(p)) for E in Es]`, rows with `b = 0`
removed. -/
def ParamFeasible {m : ℕ} (data : List (Pt m × ℝ)) (grads : List (Pt m)) (epsilon : ℝ) (alpha : List ℝ) : Prop :=
  LoewnerLe 0 (combine (Es m) alpha) ∧
  (∀ g ∈ grads, LoewnerLe (outer g) (combine (Es m) alpha)) ∧
  (∀ p ∈ pairsOf data, slack2 epsilon p.1.2 p.2.2 ≠ 0 →
    slack2 epsilon p.1.2 p.2.2 ≤ (List.zipWith (fun a E => a * quad E (p.1.1 - p.2.1)) alpha (Es m)).sum)

/-- Constraints of `_build_lipschitz_matrix_cvxopt`, lipschitz.py 313-341, for either structure.  A row is added when `|f_i - f_j| > epsilon`;
it is normalized by the distance. `sum_k alpha_k G_k <= h`. -/
def CvxoptFeasible {m : ℕ} (E : List (Matrix (Fin m) (Fin m) ℝ)) (data : List (Pt m × ℝ)) (grads : List (Pt m)) (epsilon : ℝ)
    (alpha : List ℝ) : Prop :=
  (∀ p ∈ pairsOf data, epsilon < |p.1.2 - p.2.2| →
    (List.zipWith (fun a M => a * -quad M ((nrm (p.1.1 - p.2.1))⁻¹ • (p.1.1 - p.2.1))) alpha E).sum ≤
      -(slack2 epsilon p.1.2 p.2.2 / nrm (p.1.1 - p.2.1) ^ 2)) ∧
  LoewnerLe (-combine E alpha) 0 ∧
  (∀ g ∈ grads, LoewnerLe (-combine E alpha) (-outer g))

end Verif.Lip
