import Verif.Domain.RoundModel

/-!
# Model of moves inside a box in rounded arithmetic

Source: `/repo/psdr/domains/euclidean.py` 1155-1179 (`_extent_bounds`), `/repo/psdr/domains/box.py` 74-75, for finite bounds; `x + alpha*p` as in the users of `extent`
(hit and run, `/repo/psdr/domains/euclidean.py`).
-/

namespace Verif.Round

open Verif Verif.Domain

/-- One coordinate: lower bound, upper bound, position, direction. -/
structure Coord where
  l : ℝ
  h : ℝ
  x : ℝ
  p : ℝ

/-- The quotients of one coordinate, euclidean.py 1166-1176: none where the direction is zero. -/
noncomputable def quotientsF (F : FP) (c : Coord) : List ℝ :=
  if c.p = 0 then [] else [F.rd (F.rd (c.h - c.x) / c.p), F.rd (F.rd (c.l - c.x) / c.p)]

open Classical in
/-- `_extent_bounds`, euclidean.py 1155-1179: `none` stands for infinity. -/
noncomputable def extentF (F : FP) (cs : List Coord) : Option ℝ :=
  if ∃ c ∈ cs, c.l = c.x ∧ c.p < 0 then some 0
  else if ∃ c ∈ cs, c.h = c.x ∧ c.p > 0 then some 0
  else ((cs.flatMap (quotientsF F)).filter (fun y => 0 < y)).min?

/-- One coordinate of `x + alpha*p`. -/
noncomputable def moveF (F : FP) (alpha : ℝ) (c : Coord) : ℝ := F.rd (c.x + F.rd (alpha * c.p))

end Verif.Round
