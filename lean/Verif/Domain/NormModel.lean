import Verif.Domain.Model

/-!
# Model of normalization

Sources: `/repo/psdr/domains/euclidean.py` 518-556, 955-1111; `linquad.py` 247-252; `linineq.py` 55-58;
`box.py` 80-82; `normal.py` 113-123; `tensor.py` 91-105; `unbounded.py` 44-48; `convexhull.py` 162-163.

Where a bound is infinite the code asks a convex solver for the extreme coordinate of the domain
(`corner(∓e_i)[i]`, or `∓inf` if that raises); the answers are a parameter (`CornerOracle`).
-/

namespace Verif.Domain

open Classical Verif

/-- Answers of `corner(-e_i)[i]` and `corner(e_i)[i]` for every coordinate `i` of a domain
(`∓inf` when the call raised). -/
abbrev CornerOracle := Base → List XR × List XR

/-- The Python builtin `max(x, y)` on floats. -/
noncomputable def pyMax (x y : XR) : XR := if XR.lt x y then y else x

/-- One entry of `norm_lb`, euclidean.py 1030-1040. -/
noncomputable def normLb1 (l u fb : XR) : XR :=
  match l with
  | .fin a => match u with
    | .fin b => XR.pyMin (.fin a) (.fin b)
    | _ => .fin a
  | _ => fb

/-- One entry of `norm_ub`, euclidean.py 1060-1070. -/
noncomputable def normUb1 (l u fb : XR) : XR :=
  match u with
  | .fin b => pyMax (.fin b) l
  | _ => fb

/-- `norm_lb` by class: euclidean.py 1019-1042, convexhull.py 162. -/
noncomputable def Base.normLb (fb : CornerOracle) (d : Base) : List XR :=
  match d with
  | .hull X q => hullNormLb q.n X
  | d => List.zipWith (fun lu f => normLb1 lu.1 lu.2 f) (d.acc.lb.zip d.acc.ub) (fb d).1

/-- `norm_ub` by class: euclidean.py 1044-1072, convexhull.py 163. -/
noncomputable def Base.normUb (fb : CornerOracle) (d : Base) : List XR :=
  match d with
  | .hull X q => hullNormUb q.n X
  | d => List.zipWith (fun lu f => normUb1 lu.1 lu.2 f) (d.acc.lb.zip d.acc.ub) (fb d).2

/-- Diagonal of `_normalize_der` by class. -/
noncomputable def Base.nslopes (fb : CornerOracle) (d : Base) : Vec :=
  Domain.nslopes (d.normLb fb) (d.normUb fb)

/-- Diagonal of `_unnormalize_der` by class. -/
noncomputable def Base.uslopes (fb : CornerOracle) (d : Base) : Vec :=
  Domain.uslopes (d.normLb fb) (d.normUb fb)

/-- `_center` by class: euclidean.py 1095-1099; normal.py 113-116. -/
noncomputable def Base.center (fb : CornerOracle) (d : Base) : Vec :=
  match d with
  | .normal mean _ _ => mean
  | d => Domain.center (d.normLb fb) (d.normUb fb)

/-- `normalize` of one point by class: euclidean.py 1101-1105; unbounded.py 44-45. -/
noncomputable def Base.normalize (fb : CornerOracle) (d : Base) (x : Vec) : Vec :=
  match d with
  | .unbounded _ => x
  | d => Vec.mul (d.nslopes fb) (Vec.sub x (d.center fb))

/-- `unnormalize` of one point by class: euclidean.py 1107-1111; unbounded.py 47-48. -/
noncomputable def Base.unnormalize (fb : CornerOracle) (d : Base) (z : Vec) : Vec :=
  match d with
  | .unbounded _ => z
  | d => Vec.add (Vec.mul (d.uslopes fb) z) (d.center fb)

/-- `normalize` of one point, with tensor.py 91-92. -/
noncomputable def Dom.normalize (fb : CornerOracle) : Dom → Vec → Vec
  | .base d, x => d.normalize fb x
  | .tensor ds, x => (slicesFrom 0 ds x).flatMap (fun q => q.1.normalize fb q.2)

/-- `unnormalize` of one point, with tensor.py 94-95. -/
noncomputable def Dom.unnormalize (fb : CornerOracle) : Dom → Vec → Vec
  | .base d, x => d.unnormalize fb x
  | .tensor ds, x => (slicesFrom 0 ds x).flatMap (fun q => q.1.unnormalize fb q.2)

/-! ## Normalized constraint data -/

/-- `row.dot(v)` where `v` may contain infinities: `0*inf = nan`. -/
noncomputable def dotX (row : Vec) (v : List XR) : XR :=
  (List.zipWith XR.smul row v).foldl XR.add (.fin 0)

/-- Row `i` of the diagonal matrix with diagonal `s`. -/
noncomputable def diagRow (s : Vec) (i : ℕ) : Vec :=
  (List.range s.length).map (fun j => if j = i then s.getD i 0 else 0)

/-- `D.dot(v - c)` for a diagonal matrix `D`, a vector `v` that may contain infinities and a finite `c`;
this is `normalize` applied to `lb` or `ub` (euclidean.py 957, 964, 1101-1105). -/
noncomputable def normalizeX (s c : Vec) (v : List XR) : List XR :=
  (List.range s.length).map (fun i => dotX (diagRow s i) (List.zipWith (fun a b => XR.sub a (.fin b)) v c))

/-- `lb_norm`, euclidean.py 955-960. -/
noncomputable def Base.lbNorm (fb : CornerOracle) (d : Base) : List XR :=
  List.zipWith (fun l z => match l with
    | .fin _ => z
    | _ => .ninf) d.acc.lb (normalizeX (d.nslopes fb) (d.center fb) d.acc.lb)

/-- `ub_norm`, euclidean.py 962-967. -/
noncomputable def Base.ubNorm (fb : CornerOracle) (d : Base) : List XR :=
  List.zipWith (fun u z => match u with
    | .fin _ => z
    | _ => .pinf) d.acc.ub (normalizeX (d.nslopes fb) (d.center fb) d.acc.ub)

/-- `A.dot(D)` for a diagonal `D`, euclidean.py 969-972, 979-982, 989-992. -/
noncomputable def colScale (s : Vec) (A : List Vec) : List Vec := A.map (fun r => Vec.mul r s)

/-- `b - A.dot(c)`, euclidean.py 974-977, 984-987. -/
noncomputable def shiftRhs (A : List Vec) (c : Vec) (b : List ℝ) : List ℝ := Vec.sub b (Vec.mulVec A c)

/-- The constraint data of the normalized domain, euclidean.py 955-1001. -/
noncomputable def Base.normData (fb : CornerOracle) (d : Base) : LQ :=
  { n := d.acc.n
    lb := d.lbNorm fb
    ub := d.ubNorm fb
    A := colScale (d.uslopes fb) d.acc.A
    b := shiftRhs d.acc.A (d.center fb) d.acc.b
    Aeq := colScale (d.uslopes fb) d.acc.Aeq
    beq := shiftRhs d.acc.Aeq (d.center fb) d.acc.beq
    Ls := d.acc.Ls.map (colScale (d.uslopes fb))
    ys := d.acc.ys.map (fun y => Vec.sub y (d.center fb))      -- ys_norm, 994-997
    rhos := d.acc.rhos }

/-- `normalized_domain` by class.  `ConvexHullDomain` inherits the `LinQuadDomain` version, which drops
the hull; `UnboundedDomain` has none (AttributeError).  For `NormalDomain` (normal.py 118-123) the
inverse Cholesky factor of `D cov Dᵀ` is `L⁻¹ D⁻¹` (exact arithmetic, positive diagonal `D`). -/
noncomputable def Base.normalizedDomain (fb : CornerOracle) (d : Base) : Except Err Base :=
  match d with
  | .linquad q => .ok (.linquad ((Base.linquad q).normData fb))
  | .linineq q => .ok (.linineq ((Base.linineq q).normData fb))
  | .box l u => .ok (.box ((Base.box l u).lbNorm fb) ((Base.box l u).ubNorm fb))
  | .point x => .ok (.box ((Base.point x).lbNorm fb) ((Base.point x).ubNorm fb))
  | .normal mean Linv clip =>
      .ok (.normal ((Base.normal mean Linv clip).normalize fb mean)
        (colScale ((Base.normal mean Linv clip).uslopes fb) Linv) clip)
  | .hull X q => .ok (.linquad ((Base.hull X q).normData fb))
  | .unbounded _ => .error .typeError

/-- `normalized_domain` of a tensor product, tensor.py 103-105. -/
noncomputable def Dom.normalizedDomain (fb : CornerOracle) : Dom → Except Err Dom
  | .base d => (d.normalizedDomain fb).map Dom.base
  | .tensor ds => (ds.mapM (Base.normalizedDomain fb)).map Dom.tensor

end Verif.Domain
