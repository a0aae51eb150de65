import Verif.Domain.Model
import Verif.Lipschitz.BoundModel

/-!
# Model of the Chebyshev centre

Source: `/repo/psdr/domains/linineq.py` 61-126 and `/repo/psdr/domains/euclidean.py` 926-938.

The linear program is solved by a parameter `lp`; the bounds may be infinite, the other data are real. (The domain is given with its
dimension in the type, membership is exact.)
-/

namespace Verif.Domain

open Verif

/-- The data of a `LinIneqDomain`. -/
structure LinDom (m : ℕ) where
  lb : Fin m → XR
  ub : Fin m → XR
  A : List (Lip.Pt m × ℝ)
  Aeq : List (Lip.Pt m × ℝ)

variable {m : ℕ}

/-- The row of a finite lower bound, euclidean.py 932 and 938. -/
noncomputable def lbRow (i : Fin m) : XR → Option (Lip.Pt m × ℝ)
  | .fin l => some (-Pi.single i 1, -l)
  | _ => none

/-- The row of a finite upper bound, euclidean.py 932 and 938. -/
noncomputable def ubRow (i : Fin m) : XR → Option (Lip.Pt m × ℝ)
  | .fin u => some (Pi.single i 1, u)
  | _ => none

/-- `A_aug` and `b_aug`, euclidean.py 926-938. -/
noncomputable def LinDom.aug (D : LinDom m) : List (Lip.Pt m × ℝ) :=
  D.A ++ (List.finRange m).filterMap (fun i => lbRow i (D.lb i)) ++ (List.finRange m).filterMap (fun i => ubRow i (D.ub i))

/-- `chebyshev_center`, linineq.py 90-126: the solver gets the rows with their norms and the equality constraints; if it finds no
optimum `r.value` is `None` and `float(None)` raises `TypeError`. -/
noncomputable def chebyshevCenter (lp : List (Lip.Pt m × ℝ × ℝ) → List (Lip.Pt m × ℝ) → Option (Lip.Pt m × ℝ)) (D : LinDom m) :
    Except Err (Lip.Pt m × ℝ) :=
  match lp (D.aug.map (fun p => (p.1, Lip.nrm p.1, p.2))) D.Aeq with
  | none => .error .typeError
  | some xr => .ok xr

end Verif.Domain
