import Verif.Domain.RoundModel

/-!
# Model of the uncertainty intervals of a Lipschitz matrix in rounded arithmetic

Source: `/repo/psdr/lipschitz.py` 386-405 (`LipschitzMatrix.uncertainty`), for one test point.  The numbers and the library are those of `Verif.Domain.RoundModel`; the
order of the sums in the products with `L` may differ from point to point, so the transformed points are given by their contract (`Transformed`).
-/

namespace Verif.Round

open Verif Verif.Domain

/-- `v` is a possible result for the column `L x` of `L.dot(X.T)`, lipschitz.py 394-395. -/
def Transformed (F : FP) (L : List Vec) (x v : Vec) : Prop := List.Forall₂ (fun row t => Computes F row x t) L v

/-- `cdist(Lx, LXtest)` for two points: the root of the sum of the squares of the differences, lipschitz.py 399. -/
noncomputable def distF (F : FP) (lib : Lib) (a b : Vec) : ℝ := F.rd (Real.sqrt (lib.sq (subF F a b)))

/-- The lower bound, lipschitz.py 389-400: `none` stands for minus infinity (no data). -/
noncomputable def lowerF (F : FP) (lib : Lib) (data : List (Vec × ℝ)) (t : Vec) : Option ℝ := (data.map fun p => F.rd (p.2 - distF F lib p.1 t)).max?

/-- The upper bound, lipschitz.py 390-401: `none` stands for infinity (no data). -/
noncomputable def upperF (F : FP) (lib : Lib) (data : List (Vec × ℝ)) (t : Vec) : Option ℝ := (data.map fun p => F.rd (p.2 + distF F lib p.1 t)).min?

/-- The interval, lipschitz.py 403-406: with a noise level it is widened. -/
noncomputable def intervalF (F : FP) (lib : Lib) (eps : Option ℝ) (data : List (Vec × ℝ)) (t : Vec) : Option ℝ × Option ℝ :=
  match eps with
  | none => (lowerF F lib data t, upperF F lib data t)
  | some e => ((lowerF F lib data t).map fun v => F.rd (v - e), (upperF F lib data t).map fun v => F.rd (v + e))

end Verif.Round
