import Verif.Domain.Model

/-!
# Model of `extent`

Sources: `/repo/psdr/domains/euclidean.py` 459-491, 1155-1208; `linquad.py` 257-262; `linineq.py` 52-53;
`box.py` 74-75; `point.py` 40-41; `convexhull.py` 68-97; `tensor.py` 78-80; `unbounded.py` (no
`_extent`).

Step lengths are `XR` (they can be `+inf`).  The convex hull solver is a parameter.
-/

namespace Verif.Domain

open Classical Verif

/-- `alpha = inf; if np.any(y > 0): alpha = min(alpha, np.min(y[y > 0]))`. -/
noncomputable def posMin (alpha : XR) (ys : List XR) : XR :=
  (ys.filter (fun y => decide (XR.lt (.fin 0) y))).foldl XR.pyMin alpha

/-- The quotients `(bound - x)[I] / p[I]` with `I = np.nonzero(p)`, euclidean.py 1167-1176. -/
noncomputable def boundQuotients (bd : List XR) (x p : Vec) : List XR :=
  ((bd.zip (x.zip p)).filter (fun q => decide (q.2.2 ≠ 0))).map
    (fun q => XR.divNZ (XR.sub q.1 (.fin q.2.1)) q.2.2)

/-- `_extent_bounds`, euclidean.py 1155-1179. -/
noncomputable def extentBounds (lb ub : List XR) (x p : Vec) : XR :=
  if ∃ q ∈ lb.zip (x.zip p), XR.eq q.1 (.fin q.2.1) ∧ q.2.2 < 0 then .fin 0
  else if ∃ q ∈ ub.zip (x.zip p), XR.eq q.1 (.fin q.2.1) ∧ q.2.2 > 0 then .fin 0
  else posMin (posMin .pinf (boundQuotients ub x p)) (boundQuotients lb x p)

/-- `_extent_ineq`, euclidean.py 1181-1190. -/
noncomputable def extentIneq (A : List Vec) (b : List ℝ) (x p : Vec) : XR :=
  posMin .pinf ((A.zip b).map (fun q => XR.div (q.2 - Vec.dot q.1 x) (Vec.dot q.1 p)))

/-- The real entries of `np.roots([a, b, c])` in exact arithmetic (leading zeros are stripped), as
used in euclidean.py 1203-1204. -/
noncomputable def realRoots (a b c : ℝ) : List ℝ :=
  if a ≠ 0 then
    if 0 ≤ b ^ 2 - 4 * a * c then
      [(-b + Real.sqrt (b ^ 2 - 4 * a * c)) / (2 * a), (-b - Real.sqrt (b ^ 2 - 4 * a * c)) / (2 * a)]
    else []
  else if b ≠ 0 then [-c / b]
  else []

/-- Loop body of `_extent_quad`, euclidean.py 1195-1207 (`min` of the empty list is not taken). -/
noncomputable def quadStep (x p : Vec) (alpha : XR) (q : List Vec × Vec × ℝ) : XR :=
  let Lp := Vec.mulVec q.1 p
  let Lxy := Vec.mulVec q.1 (Vec.sub x q.2.1)
  let a := Vec.dot Lp Lp
  let b := 2 * Vec.dot Lp Lxy
  let c := Vec.dot Lxy Lxy - q.2.2 ^ 2
  ((realRoots a b c).filter (fun r => decide (r ≥ 0))).foldl (fun al r => XR.pyMin al (.fin r)) alpha

/-- `_extent_quad`, euclidean.py 1192-1208. -/
noncomputable def extentQuad (Ls : List (List Vec)) (ys : List Vec) (rhos : List ℝ) (x p : Vec) : XR :=
  (Ls.zip (ys.zip rhos)).foldl (quadStep x p) .pinf

/-- The test of `LinQuadDomain._extent` on the direction, linquad.py 259. -/
def dirOk (tol : ℝ) (Aeq : List Vec) (p : Vec) : Prop :=
  Aeq.length = 0 ∨ ∀ v ∈ Vec.mulVec Aeq p, |v| < tol

/-- `LinQuadDomain._extent`, linquad.py 257-262; `tol` is `self.tol` (1e-6). -/
noncomputable def extentLQ (tol : ℝ) (q : LQ) (x p : Vec) : XR :=
  if dirOk tol q.Aeq p then
    XR.pyMin (XR.pyMin (extentBounds q.lb q.ub x p) (extentIneq q.A q.b x p))
      (extentQuad q.Ls q.ys q.rhos x p)
  else .fin 0

/-- The solver used by `ConvexHullDomain`'s `_Extent` (convexhull.py 68-97), as a function of the
domain, the starting point and the direction. -/
abbrev HullExtent := List Vec → LQ → Vec → Vec → XR

/-- `_extent` by class. -/
noncomputable def Base.extent (tol : ℝ) (he : HullExtent) (d : Base) (x p : Vec) : Except Err XR :=
  match d with
  | .linquad q => .ok (extentLQ tol q x p)                                        -- linquad.py 257-262
  | .linineq q => .ok (XR.pyMin (extentBounds q.lb q.ub x p) (extentIneq q.A q.b x p))  -- linineq.py 52-53
  | .box lb ub => .ok (extentBounds lb ub x p)                                    -- box.py 74-75
  | .point _ => .ok (.fin 0)                                                      -- point.py 40-41
  | .normal m L c => .ok (extentLQ tol (Base.normal m L c).acc x p)
  | .hull X q => .ok (he X q x p)
  | .unbounded _ => .error .notImplemented                                        -- euclidean.py 490-491

/-- The Python builtin `min` of a nonempty list, `ValueError` for the empty list. -/
noncomputable def pyMinList : List XR → Except Err XR
  | [] => .error .valueError
  | a :: as => .ok (as.foldl XR.pyMin a)

/-- `_extent`: tensor.py 78-80. -/
noncomputable def Dom.extentRaw (tol : ℝ) (he : HullExtent) : Dom → Vec → Vec → Except Err XR
  | .base d, x, p => d.extent tol he x p
  | .tensor ds, x, p => do
      let al ← ((slicesFrom 0 ds x).zip (slicesFrom 0 ds p)).mapM
        (fun q => q.1.1.extent tol he q.1.2 q.2.2)
      pyMinList al

/-- `extent`, euclidean.py 459-488: checks the length of the starting point and that it is inside to
the tolerance `TOL`. -/
noncomputable def Dom.extent (nnls : NNLS) (TOL tol : ℝ) (he : HullExtent) (D : Dom) (x p : Vec) :
    Except Err XR :=
  if x.length ≠ D.len then .error .valueError
  else if ¬ D.isInside nnls TOL x then .error .assertion
  else D.extentRaw tol he x p

end Verif.Domain
