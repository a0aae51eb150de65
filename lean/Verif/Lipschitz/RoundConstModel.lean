import Verif.Lipschitz.RoundModel
import Verif.Lipschitz.FitModel

/-!
# Model of `LipschitzConstant.fit` in rounded arithmetic

Source: `/repo/psdr/lipschitz.py` 620-631 (`LipschitzConstant._fit`), without noise level (`epsilon = None`, so that nothing is subtracted: subtracting the
number zero changes no number of the format) and for distinct points.  The numbers and the library are those of `Verif.Domain.RoundModel`.
-/

namespace Verif.Round

open Verif Verif.Domain

/-- `abs(fX[i] - fX[j]) / np.linalg.norm(X[i] - X[j])`, lipschitz.py 623. -/
noncomputable def ratioF (F : FP) (lib : Lib) (p : (Vec × ℝ) × (Vec × ℝ)) : ℝ := F.rd (|F.rd (p.1.2 - p.2.2)| / distF F lib p.1.1 p.2.1)

/-- `np.linalg.norm(grad)`, lipschitz.py 628. -/
noncomputable def normF (F : FP) (lib : Lib) (g : Vec) : ℝ := F.rd (Real.sqrt (lib.sq g))

/-- The sample part, lipschitz.py 621-625: `np.max` of an empty list is a ValueError. -/
noncomputable def constSampF (F : FP) (lib : Lib) (data : List (Vec × ℝ)) : Except Lip.LErr ℝ :=
  if data.length > 0 then
    match (Lip.pairsOf data).map (ratioF F lib) with
    | [] => .error .valueError
    | r :: rs => .ok (max 0 (Lip.lmax r rs))
  else .ok 0

/-- `LipschitzConstant._fit`, lipschitz.py 620-631. -/
noncomputable def constF (F : FP) (lib : Lib) (data : List (Vec × ℝ)) (grads : List Vec) : Except Lip.LErr ℝ :=
  match constSampF F lib data with
  | .error e => .error e
  | .ok c =>
    match grads with
    | [] => .ok c
    | g :: gs => .ok (max c (Lip.lmax (normF F lib g) (gs.map (normF F lib))))

end Verif.Round
