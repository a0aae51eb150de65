import Verif.GP.Model
import Mathlib.Analysis.SpecialFunctions.Log.Basic
import Mathlib.LinearAlgebra.Matrix.Trace

/-!
# Model of the marginal likelihood and its gradient

Source: `/repo/psdr/gp.py` 174-276 (`_log_marginal_likelihood`). `np.log` of a value that is not positive is not
represented faithfully (theorems assume positive eigenvalues).
-/

namespace Verif.GP

open Verif Verif.Lip Matrix

variable {m M q : ℕ}

/-- `alpha = x[:M]`, gp.py 203. -/
noncomputable def gpAlpha (e : Eighs M q) (τ : ℝ) (Y : Fin M → Pt m) (V : Matrix (Fin M) (Fin q) ℝ) (y : Fin M → ℝ) : Fin M → ℝ :=
  fun i => gpX e τ Y V y (Sum.inl i)

/-- `K + self.nugget*np.eye(K.shape[0])`, gp.py 209. -/
noncomputable def regK (τ : ℝ) (Y : Fin M → Pt m) : Matrix (Fin M) (Fin M) ℝ := kernMat Y + τ • (1 : Matrix (Fin M) (Fin M) ℝ)

/-- The objective, gp.py 209-223. -/
noncomputable def gpObj (e : Eighs M q) (τ : ℝ) (V : Matrix (Fin M) (Fin q) ℝ) (y : Fin M → ℝ) (Y : Fin M → Pt m) : ℝ :=
  0.5 * (y ⬝ᵥ gpAlpha e τ Y V y) + 0.5 * ∑ k, Real.log ((e.small (regK τ Y)).1 k)

/-- The derivative of the kernel matrix for the structure `tril`, gp.py 228-242: `dL` is the derivative of `L` (which the code
approximates by a complex step). -/
noncomputable def dKgen (X : Fin M → Pt m) (L dL : Matrix (Fin m) (Fin m) ℝ) : Matrix (Fin M) (Fin M) ℝ :=
  Matrix.of fun i j => -(∑ r, (images L X i r - images L X j r) * (images dL X i r - images dL X j r)) * kern (images L X i) (images L X j)

/-- The derivative of the kernel matrix for the structure `diag`, gp.py 244-250. -/
noncomputable def dKdiag (Y : Fin M → Pt m) (k : Fin m) : Matrix (Fin M) (Fin M) ℝ :=
  Matrix.of fun i j => -((Y i k - Y j k) * (Y i k - Y j k)) * kern (Y i) (Y j)

/-- The derivative of the kernel matrix for the structures `const` and `scalar_mult`, gp.py 252-257. -/
noncomputable def dKconst (Y : Fin M → Pt m) : Matrix (Fin M) (Fin M) ℝ := Matrix.of fun i j => -(sqd (Y i) (Y j) * kern (Y i) (Y j))

/-- One component of the gradient, gp.py 268-271. -/
noncomputable def gpGrad (e : Eighs M q) (τ : ℝ) (V : Matrix (Fin M) (Fin q) ℝ) (y : Fin M → ℝ) (Y : Fin M → Pt m) (dK : Matrix (Fin M) (Fin M) ℝ) : ℝ :=
  let d := e.small (regK τ Y)
  0.5 * (d.2 * Matrix.of (fun k j => (d.2ᵀ * dK) k j / d.1 k)).trace
    - 0.5 * (gpAlpha e τ Y V y ⬝ᵥ (gpAlpha e τ Y V y ᵥ* dK))

end Verif.GP
