import Verif.Lipschitz.FitModel

/-!
# Model of Gauss-Legendre quadrature

Source: `/repo/psdr/quadrature.py`. The rule with `n + 1` points is modelled (`N = n + 1`; for `N <= 1` the code computes
the one point rule, because `np.diag` of an empty off-diagonal is a 1 by 1 zero matrix). `scipy.linalg.eigh` is a parameter.
-/

namespace Verif.Misc

open Verif.Lip Matrix

/-- `beta[k]`, quadrature.py 35: `0.5/sqrt(1 - (2(k+1))**(-2))`. -/
noncomputable def gaussBeta (k : ℕ) : ℝ := 0.5 / Real.sqrt (1 - (2 * ((k : ℝ) + 1)) ^ (-2 : ℤ))

/-- `T = np.diag(beta, 1) + np.diag(beta, -1)`, quadrature.py 36. -/
noncomputable def gaussT (n : ℕ) : Matrix (Fin (n + 1)) (Fin (n + 1)) ℝ :=
  Matrix.of fun i j => (if (j : ℕ) = i + 1 then gaussBeta i else 0) + (if (i : ℕ) = j + 1 then gaussBeta j else 0)

/-- `gauss(N, a, b)`, quadrature.py 7-48: points and weights. -/
noncomputable def gauss (n : ℕ) (a b : ℝ) (eigh : EighFn (n + 1)) : (Fin (n + 1) → ℝ) × (Fin (n + 1) → ℝ) :=
  (fun k => a + (b - a) / 2 * (1 + (eigh (gaussT n)).1 k),
   fun k => (b - a) / 2 * (2 * (eigh (gaussT n)).2 0 k ^ 2))

end Verif.Misc
