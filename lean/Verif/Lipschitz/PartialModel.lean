import Mathlib.Analysis.SpecialFunctions.Trigonometric.Basic
import Verif.Lipschitz.FitModel

/-!
# Model of `PartialLipschitzMatrix`

Source: `/repo/psdr/lipschitz_partial.py` 65-121, 139-183, 238-299.  The solvers in `_fixed_U` and `_U_descent`, `np.linalg.eigh`, `np.linalg.svd` and
`np.linalg.qr` are parameters.  Output for `verbose` is not modelled.
-/

namespace Verif.Lip

open Verif Matrix

/-- The property `H`, lipschitz_partial.py 106-114. -/
def partialH {m r : ℕ} (U : Matrix (Fin m) (Fin r) ℝ) (J : Matrix (Fin r) (Fin r) ℝ) (alpha : ℝ) : Matrix (Fin m) (Fin m) ℝ :=
  U * J * Uᵀ + alpha • (1 - U * Uᵀ)

/-- `JJdiag = np.hstack([np.diag(J), alpha*np.ones(m-r)])`, lipschitz_partial.py 120. -/
def jjDiag {m r : ℕ} (J : Matrix (Fin r) (Fin r) ℝ) (alpha : ℝ) (i : Fin m) : ℝ := if h : i.1 < r then J ⟨i.1, h⟩ ⟨i.1, h⟩ else alpha

/-- The property `L`, lipschitz_partial.py 116-121; `Q` is the orthogonal factor of the complete QR factorization of `U`. -/
noncomputable def partialL {m r : ℕ} (Q : Matrix (Fin m) (Fin m) ℝ) (J : Matrix (Fin r) (Fin r) ℝ) (alpha : ℝ) : Matrix (Fin m) (Fin m) ℝ :=
  Q * Matrix.diagonal (fun i => Real.sqrt (jjDiag J alpha i)) * Qᵀ

/-- The constraints of `_fixed_U`, lipschitz_partial.py 153-177. -/
def FixedUFeasible {m r : ℕ} (data : List (Pt m × ℝ)) (grads : List (Pt m)) (epsilon : ℝ) (U : Matrix (Fin m) (Fin r) ℝ)
    (J : Matrix (Fin r) (Fin r) ℝ) (alpha : ℝ) : Prop :=
  Jᵀ = J ∧ LoewnerLe 0 J ∧ 0 ≤ alpha ∧ (m = r → alpha = 0) ∧
  (∀ p ∈ pairsOf data, (|p.1.2 - p.2.2| - epsilon) ^ 2 ≤ quad J (Uᵀ *ᵥ (p.1.1 - p.2.1)) +
    alpha * ((p.1.1 - p.2.1) ⬝ᵥ (p.1.1 - p.2.1) - (Uᵀ *ᵥ (p.1.1 - p.2.1)) ⬝ᵥ (Uᵀ *ᵥ (p.1.1 - p.2.1)))) ∧
  (∀ g ∈ grads, LoewnerLe (outer g) (U * J * Uᵀ + alpha • (1 - U * Uᵀ)))

/-- The objective `np.trace(J) + (m - r)*alpha`. -/
noncomputable def partialObj {r : ℕ} (m : ℕ) (J : Matrix (Fin r) (Fin r) ℝ) (alpha : ℝ) : ℝ := Matrix.trace J + ((m : ℝ) - (r : ℝ)) * alpha

/-- The end of `_fit`, lipschitz_partial.py 85-103: rotate, order, fix the signs and undo the scaling. -/
noncomputable def finishPartial {m r : ℕ} (eigh : EighFn r) (data : List (Pt m × ℝ)) (grads : List (Pt m)) (s : ℝ) (U : Matrix (Fin m) (Fin r) ℝ)
    (J : Matrix (Fin r) (Fin r) ℝ) (alpha : ℝ) : Matrix (Fin m) (Fin r) ℝ × Matrix (Fin r) (Fin r) ℝ × ℝ :=
  (fixSigns (U * Matrix.of (fun i j => (eigh J).2 i j.rev)) (scaleData s data) (scaleGrads s grads),
   s ^ 2 • Matrix.diagonal (fun i => (eigh J).1 i.rev), s ^ 2 * alpha)

/-- A point on the geodesic, lipschitz_partial.py 264: `Y, s, ZT` is the thin singular value decomposition of the step. -/
noncomputable def geodesic {m r : ℕ} (U : Matrix (Fin m) (Fin r) ℝ) (Y : Matrix (Fin m) (Fin r) ℝ) (s : Fin r → ℝ) (ZT : Matrix (Fin r) (Fin r) ℝ) (t : ℝ) :
    Matrix (Fin m) (Fin r) ℝ :=
  U * (ZTᵀ * (Matrix.diagonal (fun i => Real.cos (s i * t)) * ZT)) + Y * (Matrix.diagonal (fun i => Real.sin (s i * t)) * ZT)

/-- Parameters of the optimizer: the fixed-subspace solver, the direction solver with the decomposition of its answer, and tolerances. -/
structure PartialSolver (m r : ℕ) where
  fixedU : Matrix (Fin m) (Fin r) ℝ → Matrix (Fin r) (Fin r) ℝ × ℝ
  /-- `_U_descent`: `none` stands for the `ValueError` -/
  descent : Matrix (Fin m) (Fin r) ℝ → Matrix (Fin r) (Fin r) ℝ → ℝ → Option (Matrix (Fin m) (Fin r) ℝ)
  svd : Matrix (Fin m) (Fin r) ℝ → Matrix (Fin m) (Fin r) ℝ × (Fin r → ℝ) × Matrix (Fin r) (Fin r) ℝ
  /-- `np.linalg.norm(dU)` -/
  norm : Matrix (Fin m) (Fin r) ℝ → ℝ
  tolDx : ℝ
  tolObj : ℝ

/-- An iterate. -/
abbrev Iter (m r : ℕ) := Matrix (Fin m) (Fin r) ℝ × Matrix (Fin r) (Fin r) ℝ × ℝ

open Classical in
/-- The backtracking loop `for it2 in range(10)`, lipschitz_partial.py 263-269: `n` more tries at step `t`. -/
noncomputable def backtrack {m r : ℕ} (S : PartialSolver m r) (U dU : Matrix (Fin m) (Fin r) ℝ) (obj : ℝ) : ℕ → ℝ → Iter m r → Iter m r
  | 0, _, last => last
  | n + 1, t, _ =>
    let Unew := geodesic U (S.svd dU).1 (S.svd dU).2.1 (S.svd dU).2.2 t
    let new : Iter m r := (Unew, S.fixedU Unew)
    if partialObj m new.2.1 new.2.2 < obj then new else backtrack S U dU obj n (t * (1 / 10)) new

open Classical in
/-- The main loop of `_optimize`, lipschitz_partial.py 250-297, with `fuel` iterations left. -/
noncomputable def optLoop {m r : ℕ} (S : PartialSolver m r) : ℕ → Iter m r → ℝ → Except LErr (Iter m r)
  | 0, it, _ => .ok it
  | n + 1, it, obj =>
    match S.descent it.1 it.2.1 it.2.2 with
    | none => .error .valueError
    | some dU =>
      if S.norm dU < S.tolDx then .ok it else
      let new := backtrack S it.1 dU obj 10 1 it
      if obj < partialObj m new.2.1 new.2.2 then .ok it else
      if obj < partialObj m new.2.1 new.2.2 + S.tolObj then .ok new else
      optLoop S n new (partialObj m new.2.1 new.2.2)

/-- `_optimize`, lipschitz_partial.py 238-299. -/
noncomputable def optimizeU {m r : ℕ} (S : PartialSolver m r) (maxiter : ℕ) (U0 : Matrix (Fin m) (Fin r) ℝ) : Except LErr (Iter m r) :=
  optLoop S maxiter (U0, S.fixedU U0) (partialObj m (S.fixedU U0).1 (S.fixedU U0).2)

end Verif.Lip
