import Verif.GP.LikModel
import Mathlib.Analysis.Complex.Basic

/-!
# Model of the complex step in the gradient of the likelihood

Source: `/repo/psdr/gp.py` 228-242 (the structure `tril` in `_log_marginal_likelihood`).
-/

namespace Verif.GP

open Verif Verif.Lip Matrix

variable {m M q : ℕ}

/-- `_make_L` of complex parameters for the structure `tril`, gp.py 157-172. -/
noncomputable def makeLC (l : Fin m → Fin m → ℂ) : Matrix (Fin m) (Fin m) ℂ := NormedSpace.exp (Matrix.of fun i j => if j ≤ i then l i j else 0)

/-- `np.imag(self._make_L(ell + 1j*h*eidx))/h`, gp.py 233-237: `(k, el)` is the position of the parameter `idx`. -/
noncomputable def stepL (l : Fin m → Fin m → ℝ) (k el : Fin m) (h : ℝ) : Matrix (Fin m) (Fin m) ℝ :=
  Matrix.of fun i j => (makeLC (fun a b => (l a b : ℂ) + Complex.I * h * (if a = k ∧ b = el then 1 else 0)) i j).im / h

/-- The step, gp.py 236. -/
noncomputable def stepH : ℝ := 1e-10

/-- The component of the gradient for the parameter at `(k, el)` of the structure `tril` with step `h`, gp.py 228-242, 268-271. -/
noncomputable def gpGradTril (e : Eighs M q) (τ : ℝ) (V : Matrix (Fin M) (Fin q) ℝ) (y : Fin M → ℝ) (X : Fin M → Pt m) (l : Fin m → Fin m → ℝ)
    (k el : Fin m) (h : ℝ) : ℝ :=
  gpGrad e τ V y (images (makeL (.tril l)) X) (dKgen X (makeL (.tril l)) (stepL l k el h))

end Verif.GP
