import Verif.Lipschitz.ProjModel

/-!
# Model of `dist_eval_constraints`

Source: `/repo/psdr/lipschitz_utils.py` 21-48. (`dist_grad_constraints` is in `Verif.Lipschitz.ProjModel`.)
-/

namespace Verif.Lip

open Verif Matrix

/-- One entry: `(pHp - lhs)/pp2`, lipschitz_utils.py 41-46. -/
noncomputable def distRow {m : ℕ} (H : Matrix (Fin m) (Fin m) ℝ) (r : EvalRow m) : XR := XR.div (quad H r.1 - r.2) (r.1 ⬝ᵥ r.1)

/-- `dist_eval_constraints(H, X, fX)`, lipschitz_utils.py 21-48. -/
noncomputable def distEval {m : ℕ} (H : Matrix (Fin m) (Fin m) ℝ) (data : List (Pt m × ℝ)) : List XR := (evalRows data).map (distRow H)

end Verif.Lip
