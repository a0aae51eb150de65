import Verif.Lipschitz.PartialModel

/-!
# Model of the search direction of `PartialLipschitzMatrix`

Source: `/repo/psdr/lipschitz_partial.py` 185-236 (`_U_descent`): the convex program whose solution is the direction.
-/

namespace Verif.Lip

open Verif Matrix

variable {m r : ℕ}

/-- The unknowns `Up`, `Jp`, `alphap`, lipschitz_partial.py 191-193. -/
structure Direction (m r : ℕ) where
  Up : Matrix (Fin m) (Fin r) ℝ
  Jp : Matrix (Fin r) (Fin r) ℝ
  alphap : ℝ

/-- `lhs` for two evaluations, lipschitz_partial.py 206-208. -/
noncomputable def descentLhsEval (epsilon : ℝ) (U : Matrix (Fin m) (Fin r) ℝ) (J : Matrix (Fin r) (Fin r) ℝ) (alpha : ℝ) (y : Pt m) (fi fj : ℝ) : ℝ :=
  (|fi - fj| - epsilon) ^ 2 - ((Uᵀ *ᵥ y) ⬝ᵥ (J *ᵥ (Uᵀ *ᵥ y)) + alpha * (y ⬝ᵥ y - (Uᵀ *ᵥ y) ⬝ᵥ (Uᵀ *ᵥ y)))

/-- `rhs` for two evaluations, lipschitz_partial.py 210-212. -/
noncomputable def descentRhsEval (U : Matrix (Fin m) (Fin r) ℝ) (J : Matrix (Fin r) (Fin r) ℝ) (alpha : ℝ) (d : Direction m r) (y : Pt m) : ℝ :=
  2 * ((J *ᵥ (Uᵀ *ᵥ y)) ⬝ᵥ (d.Upᵀ *ᵥ y)) + quad d.Jp (Uᵀ *ᵥ y) +
    (-(2 * alpha) * ((J *ᵥ (Uᵀ *ᵥ y)) ⬝ᵥ (d.Upᵀ *ᵥ y)) + d.alphap * (y ⬝ᵥ y - (Uᵀ *ᵥ y) ⬝ᵥ (Uᵀ *ᵥ y)))

/-- `lhs` for a gradient, lipschitz_partial.py 217-218. -/
def descentLhsGrad (U : Matrix (Fin m) (Fin r) ℝ) (J : Matrix (Fin r) (Fin r) ℝ) (alpha : ℝ) (g : Pt m) : Matrix (Fin m) (Fin m) ℝ :=
  outer g - (U * (J * Uᵀ) + alpha • (1 - U * Uᵀ))

/-- `rhs` for a gradient, lipschitz_partial.py 220-224. -/
def descentRhsGrad (U : Matrix (Fin m) (Fin r) ℝ) (J : Matrix (Fin r) (Fin r) ℝ) (alpha : ℝ) (d : Direction m r) : Matrix (Fin m) (Fin m) ℝ :=
  U * d.Jp * Uᵀ + d.Up * (J * Uᵀ) + (d.Up * (J * Uᵀ))ᵀ - alpha • (d.Up * Uᵀ + (d.Up * Uᵀ)ᵀ) + d.alphap • (1 - U * Uᵀ)

/-- The constraints, lipschitz_partial.py 197-226. -/
def DescentFeasible (data : List (Pt m × ℝ)) (grads : List (Pt m)) (epsilon : ℝ) (U : Matrix (Fin m) (Fin r) ℝ) (J : Matrix (Fin r) (Fin r) ℝ)
    (alpha : ℝ) (d : Direction m r) : Prop :=
  d.Jpᵀ = d.Jp ∧ Uᵀ * d.Up = 0 ∧
  (∀ p ∈ pairsOf data, descentLhsEval epsilon U J alpha (p.1.1 - p.2.1) p.1.2 p.2.2 ≤ descentRhsEval U J alpha d (p.1.1 - p.2.1)) ∧
  ∀ g ∈ grads, LoewnerLe (descentLhsGrad U J alpha g) (descentRhsGrad U J alpha d)

/-- The objective, lipschitz_partial.py 195. -/
noncomputable def descentObj (d : Direction m r) : ℝ := Matrix.trace d.Jp + d.alphap * ((m : ℝ) - r)

end Verif.Lip
