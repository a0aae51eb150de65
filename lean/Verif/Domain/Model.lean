import Verif.Base.XR
import Verif.Base.Vec

/-!
# Model of the Euclidean domains: constraint data, membership, intersection, tensor products

Sources: `/repo/psdr/domains/{euclidean,linquad,linineq,box,point,normal,convexhull,tensor,unbounded}.py`.

Simplifications, valid for the whole file:
* a two-dimensional array is the list of its rows; membership is modelled for one row
  (`isInside`) and for batches (`isInsideBatch`);
* scalars passed for one-dimensional bounds are one-element lists, and a one-dimensional `A` with a
  one-element `b` is the one-row matrix (linquad.py 129-131, 138-140, 150-156, 171-177);
* `UniformDomain` and `LogNormalDomain` inherit the membership code of `BoxDomain` and are
  represented by `box` here (uniform.py 8-14, lognormal.py 10-81);
* the object's `names` are in `Verif/Domain/Names.lean`, the solver keyword arguments are dropped.
-/

namespace Verif.Domain

open Classical Verif

/-- The exceptions raised by the modelled code. -/
inductive Err where
  | assertion
  | notImplemented
  | typeError
  | valueError
  | emptyDomain
  | unboundedDomain
  | solverError
  | attributeError
  | indexError
  | overflow
  | nameError
  | underdetermined
  | infeasible
  | unbounded
  | linAlg
  | zeroDivision
  | keyError
  deriving DecidableEq

/-- The constraint data a domain exposes through its properties
`lb, ub, A, b, A_eq, b_eq, Ls, ys, rhos` and its length (euclidean.py 913-953, linquad.py 212-239). -/
structure LQ where
  n : ℕ
  lb : List XR
  ub : List XR
  A : List Vec
  b : List ℝ
  Aeq : List Vec
  beq : List ℝ
  Ls : List (List Vec)
  ys : List Vec
  rhos : List ℝ

/-! ## Bound checking (euclidean.py 1116-1148) -/

/-- `_isinside_bounds`, euclidean.py 1116-1129: only finite bounds are checked. -/
def inBounds (lb ub : List XR) (tol : ℝ) (x : Vec) : Prop :=
  (∀ q ∈ lb.zip x, ∀ r, q.1 = XR.fin r → q.2 ≥ r - tol) ∧
  (∀ q ∈ ub.zip x, ∀ r, q.1 = XR.fin r → q.2 ≤ r + tol)

/-- `_isinside_ineq`, euclidean.py 1131-1133. -/
def inIneq (A : List Vec) (b : List ℝ) (tol : ℝ) (x : Vec) : Prop :=
  ∀ q ∈ (Vec.mulVec A x).zip b, q.1 ≤ q.2 + tol

/-- `_isinside_eq`, euclidean.py 1135-1137 (strict). -/
def inEq (Aeq : List Vec) (beq : List ℝ) (tol : ℝ) (x : Vec) : Prop :=
  ∀ q ∈ (Vec.mulVec Aeq x).zip beq, |q.1 - q.2| < tol

/-- `_isinside_quad`, euclidean.py 1139-1148. -/
def inQuad (Ls : List (List Vec)) (ys : List Vec) (rhos : List ℝ) (tol : ℝ) (x : Vec) : Prop :=
  ∀ q ∈ Ls.zip (ys.zip rhos),
    Real.sqrt (Vec.sumSq (Vec.mulVec q.1 (Vec.sub x q.2.1))) ≤ q.2.2 + tol

/-! ## Normalization constants (euclidean.py 1081-1111) -/

/-- One entry of the slope of `_normalize_der`, euclidean.py 1081-1087. -/
noncomputable def nslope : XR → XR → ℝ
  | .fin l, .fin u => if u ≠ l then 2 / (u - l) else 1
  | _, _ => 1

/-- One entry of the slope of `_unnormalize_der`, euclidean.py 1089-1093. -/
noncomputable def uslope : XR → XR → ℝ
  | .fin l, .fin u => if u ≠ l then (u - l) / 2 else 1
  | _, _ => 1

/-- One entry of `_center`, euclidean.py 1095-1099. -/
noncomputable def center1 : XR → XR → ℝ
  | .fin l, .fin u => (l + u) / 2
  | _, _ => 0

/-- `np.diag` of `_normalize_der` for normalization bounds `nlb, nub`. -/
noncomputable def nslopes (nlb nub : List XR) : Vec := List.zipWith nslope nlb nub
/-- `np.diag` of `_unnormalize_der`. -/
noncomputable def uslopes (nlb nub : List XR) : Vec := List.zipWith uslope nlb nub
/-- `_center`. -/
noncomputable def center (nlb nub : List XR) : Vec := List.zipWith center1 nlb nub

/-- `_normalize` on a finite point, euclidean.py 1101-1105.  The matrix is diagonal, and for finite
entries the off-diagonal products vanish, so this is the elementwise product. -/
noncomputable def normalize (nlb nub : List XR) (x : Vec) : Vec :=
  Vec.mul (nslopes nlb nub) (Vec.sub x (center nlb nub))

/-- `_unnormalize` on a finite point, euclidean.py 1107-1111. -/
noncomputable def unnormalize (nlb nub : List XR) (z : Vec) : Vec :=
  Vec.add (Vec.mul (uslopes nlb nub) z) (center nlb nub)

/-! ## Domain classes -/

/-- Instances of the domain classes other than tensor products. -/
inductive Base where
  /-- `LinQuadDomain`, linquad.py 21-83. -/
  | linquad (d : LQ)
  /-- `LinIneqDomain`, linineq.py 46-47; its `Ls, ys, rhos` are empty, linineq.py 144-151. -/
  | linineq (d : LQ)
  /-- `BoxDomain` (also `UniformDomain`, `LogNormalDomain`), box.py 27-28, 84-94. -/
  | box (lb ub : List XR)
  /-- `PointDomain`, point.py 22-29. -/
  | point (x : Vec)
  /-- `NormalDomain` with `Linv` and the optional clip radius squared, normal.py 47-94. -/
  | normal (mean : Vec) (Linv : List Vec) (clip : Option ℝ)
  /-- `ConvexHullDomain`: unique points `X` and the other constraints, convexhull.py 140-168. -/
  | hull (X : List Vec) (d : LQ)
  /-- `UnboundedDomain`, unbounded.py 21-27. -/
  | unbounded (n : ℕ)

/-- The constraint properties of a domain object.
linquad.py 212-239; linineq.py 144-151; box.py 84-94; normal.py 130-146; euclidean.py 913-953. -/
noncomputable def Base.acc : Base → LQ
  | .linquad d => d
  | .linineq d => { d with Ls := [], ys := [], rhos := [] }
  | .box lb ub => { n := lb.length, lb := lb, ub := ub, A := [], b := [], Aeq := [], beq := [],
                    Ls := [], ys := [], rhos := [] }
  | .point x => { n := x.length, lb := x.map XR.fin, ub := x.map XR.fin, A := [], b := [],
                  Aeq := [], beq := [], Ls := [], ys := [], rhos := [] }
  | .normal mean Linv clip =>
      { n := mean.length, lb := List.replicate mean.length XR.ninf,
        ub := List.replicate mean.length XR.pinf, A := [], b := [], Aeq := [], beq := [],
        Ls := if clip.isSome then [Linv] else [],
        ys := if clip.isSome then [mean] else [],
        rhos := match clip with
          | some c => [Real.sqrt c]
          | none => [] }
  | .hull _ d => d
  | .unbounded n =>
      { n := n, lb := List.replicate n XR.ninf, ub := List.replicate n XR.pinf, A := [], b := [],
        Aeq := [], beq := [], Ls := [], ys := [], rhos := [] }

/-- `len(domain)`. -/
noncomputable def Base.len (d : Base) : ℕ := d.acc.n

/-- Transpose of a list of rows with `n` columns. -/
def columns (n : ℕ) (X : List Vec) : List Vec := (List.range n).map (fun j => X.map (fun r => r.getD j 0))

/-- Minimum of a nonempty list (`np.min`). -/
noncomputable def minL : List ℝ → ℝ
  | [] => 0
  | a :: as => as.foldl min a
/-- Maximum of a nonempty list (`np.max`). -/
noncomputable def maxL : List ℝ → ℝ
  | [] => 0
  | a :: as => as.foldl max a

/-- `_norm_lb` of a convex hull, convexhull.py 162. -/
noncomputable def hullNormLb (n : ℕ) (X : List Vec) : List XR := (columns n X).map (fun c => .fin (minL c))
/-- `_norm_ub` of a convex hull, convexhull.py 163. -/
noncomputable def hullNormUb (n : ℕ) (X : List Vec) : List XR := (columns n X).map (fun c => .fin (maxL c))

/-- The nonnegative least squares routine `scipy.optimize.nnls(A, b)`: rows of `A`, right-hand
side `b`, returns the minimizer. -/
abbrev NNLS := List Vec → Vec → Vec

/-- `ConvexHullDomain.coefficients`, convexhull.py 203-211. -/
noncomputable def hullCoefficients (nnls : NNLS) (n : ℕ) (X : List Vec) (x : Vec) : Vec :=
  let nlb := hullNormLb n X
  let nub := hullNormUb n X
  let Xn := X.map (normalize nlb nub)
  nnls (columns n Xn ++ [List.replicate X.length 1]) (normalize nlb nub x ++ [1])

/-- `_X.T.dot(alpha)`, convexhull.py 268. -/
noncomputable def hullCombine (n : ℕ) (X : List Vec) (alpha : Vec) : Vec :=
  (columns n X).map (fun c => Vec.dot c alpha)

/-- All four constraint checks of `LinQuadDomain._isinside`, linquad.py 254-255. -/
def LQ.inAll (d : LQ) (tol : ℝ) (x : Vec) : Prop :=
  inBounds d.lb d.ub tol x ∧ inIneq d.A d.b tol x ∧ inEq d.Aeq d.beq tol x ∧
    inQuad d.Ls d.ys d.rhos tol x

/-- `_isinside` for one row of the right width, by class. -/
def Base.inside (nnls : NNLS) (tol : ℝ) (dom : Base) (x : Vec) : Prop :=
  match dom with
  | .linquad d =>                                    -- linquad.py 254-255
      inBounds d.lb d.ub tol x ∧ inIneq d.A d.b tol x ∧ inEq d.Aeq d.beq tol x ∧
        inQuad d.Ls d.ys d.rhos tol x
  | .linineq d =>                                    -- linineq.py 49-50
      inBounds d.lb d.ub tol x ∧ inIneq d.A d.b tol x ∧ inEq d.Aeq d.beq tol x
  | .box lb ub => inBounds lb ub tol x               -- box.py 77-78
  | .point p => x = p                                -- point.py 43-45
  | .normal mean Linv clip =>                        -- normal.py 149-150
      inQuad (Base.normal mean Linv clip).acc.Ls (Base.normal mean Linv clip).acc.ys
        (Base.normal mean Linv clip).acc.rhos tol x
  | .hull X d =>                                     -- convexhull.py 261-277
      Vec.norm (Vec.sub x (hullCombine d.n X (hullCoefficients nnls d.n X x))) < tol ∧
      inBounds d.lb d.ub tol x ∧ inIneq d.A d.b tol x ∧ inEq d.Aeq d.beq tol x ∧
        inQuad d.Ls d.ys d.rhos tol x
  | .unbounded _ => True                             -- unbounded.py 50-54

/-- `isinside` of a one-dimensional array, euclidean.py 493-508: a length mismatch is `False`. -/
def Base.isInside (nnls : NNLS) (tol : ℝ) (dom : Base) (x : Vec) : Prop :=
  x.length = dom.len ∧ dom.inside nnls tol x

/-! ## Tensor products (tensor.py) -/

/-- A domain object: a basic one or a tensor product of basic ones. -/
inductive Dom where
  | base (d : Base)
  | tensor (ds : List Base)

/-- Loop body of `TensorProductDomain.__init__`, tensor.py 27-34. -/
def flattenStep (acc : List Base) (d : Dom) : List Base :=
  match d with
  | .tensor bs => acc ++ bs
  | .base b => acc ++ [b]

/-- `TensorProductDomain.__init__`, tensor.py 22-35: nested products are flattened. -/
def mkTensor (ds : List Dom) : Dom := .tensor (ds.foldl flattenStep [])

/-- `len`, tensor.py 83-84. -/
noncomputable def Dom.len : Dom → ℕ
  | .base d => d.len
  | .tensor ds => (ds.map Base.len).sum

/-- The slices of a row handed to each factor, tensor.py 57-63 and 71-76 (`zip(domains, _slices)`);
the argument `start` is the running start index. -/
noncomputable def slicesFrom (start : ℕ) : List Base → Vec → List (Base × Vec)
  | [], _ => []
  | d :: ds, x => (d, (x.drop start).take d.len) :: slicesFrom (start + d.len) ds x

/-- `_isinside`, tensor.py 71-76 (calls the public `isinside` of each factor on the slice). -/
def Dom.inside (nnls : NNLS) (tol : ℝ) : Dom → Vec → Prop
  | .base d, x => d.inside nnls tol x
  | .tensor ds, x => ∀ q ∈ slicesFrom 0 ds x, q.1.isInside nnls tol q.2

/-- `isinside` of a one-dimensional array, euclidean.py 493-508. -/
def Dom.isInside (nnls : NNLS) (tol : ℝ) (dom : Dom) (x : Vec) : Prop :=
  x.length = dom.len ∧ dom.inside nnls tol x

/-- `isinside` of a two-dimensional array with rows `X` of common width `w`,
euclidean.py 509-513: a width mismatch gives all `False`. -/
noncomputable def Dom.isInsideBatch (nnls : NNLS) (tol : ℝ) (dom : Dom) (w : ℕ) (X : List Vec) : List Prop :=
  if w ≠ dom.len then X.map (fun _ => False) else X.map (fun x => dom.inside nnls tol x)

/-- Pad the rows of a factor's matrix into the full space, tensor.py 137-144, 150-157. -/
def padRows (start total len : ℕ) (A : List Vec) : List Vec :=
  A.map (fun r => List.replicate start 0 ++ r ++ List.replicate (total - start - len) 0)

/-- `A` of a tensor product, tensor.py 137-144. -/
noncomputable def tensorA (start total : ℕ) : List Base → List Vec
  | [] => []
  | d :: ds => padRows start total d.len d.acc.A ++ tensorA (start + d.len) total ds

/-- `A_eq` of a tensor product, tensor.py 150-157. -/
noncomputable def tensorAeq (start total : ℕ) : List Base → List Vec
  | [] => []
  | d :: ds => padRows start total d.len d.acc.Aeq ++ tensorAeq (start + d.len) total ds

/-- The constraint properties of a domain.  For tensor products `Ls, ys, rhos` are not overridden
and come from `EuclideanDomain` (euclidean.py 946-953): they are empty. -/
noncomputable def Dom.acc : Dom → LQ
  | .base d => d.acc
  | .tensor ds =>
      let total := (ds.map Base.len).sum
      { n := total
        lb := ds.flatMap (fun d => d.acc.lb)      -- tensor.py 129-131
        ub := ds.flatMap (fun d => d.acc.ub)      -- tensor.py 133-135
        A := tensorA 0 total ds
        b := ds.flatMap (fun d => d.acc.b)        -- tensor.py 146-148
        Aeq := tensorAeq 0 total ds
        beq := ds.flatMap (fun d => d.acc.beq)    -- tensor.py 159-161
        Ls := [], ys := [], rhos := [] }

/-! ## Initialization helpers (linquad.py 125-207) -/

/-- The keyword arguments of `add_constraints` (linquad.py 328-329). -/
structure Args where
  A : Option (List Vec) := none
  b : Option (List ℝ) := none
  lb : Option (List XR) := none
  ub : Option (List XR) := none
  Aeq : Option (List Vec) := none
  beq : Option (List ℝ) := none
  Ls : Option (List (List Vec)) := none
  ys : Option (List Vec) := none
  rhos : Option (List ℝ) := none

/-- `_init_lb`, linquad.py 125-132. -/
def initLb (n : ℕ) : Option (List XR) → Except Err (List XR)
  | none => .ok (List.replicate n .ninf)
  | some lb => if lb.length = n then .ok lb else .error .assertion

/-- `_init_ub`, linquad.py 134-141. -/
def initUb (n : ℕ) : Option (List XR) → Except Err (List XR)
  | none => .ok (List.replicate n .pinf)
  | some ub => if ub.length = n then .ok ub else .error .assertion

/-- `_init_ineq` and `_init_eq`, linquad.py 143-184. -/
noncomputable def initIneq (n : ℕ) : Option (List Vec) → Option (List ℝ) → Except Err (List Vec × List ℝ)
  | none, none => .ok ([], [])
  | some A, some b =>
      if (∀ r ∈ A, r.length = n) ∧ A.length = b.length then .ok (A, b) else .error .assertion
  | _, _ => .error .assertion

/-- `_init_quad`, linquad.py 186-207 (`len(L[0])` raises for a matrix without rows). -/
noncomputable def initQuad (n : ℕ) : Option (List (List Vec)) → Option (List Vec) → Option (List ℝ) →
    Except Err (List (List Vec) × List Vec × List ℝ)
  | none, none, none => .ok ([], [], [])
  | some Ls, some ys, some rhos =>
      if Ls.length = ys.length ∧ ys.length = rhos.length ∧
          (∀ L ∈ Ls, L ≠ [] ∧ ∀ r ∈ L, r.length = n) ∧ (∀ y ∈ ys, y.length = n) ∧ (∀ r ∈ rhos, 0 < r)
      then .ok (Ls, ys, rhos) else .error .assertion
  | _, _, _ => .error .assertion

/-- The merged constraint data computed by `add_constraints`, linquad.py 332-350 and
convexhull.py 281-298. -/
noncomputable def mergeConstraints (self : LQ) (a : Args) : Except Err LQ := do
  let lb ← initLb self.n a.lb
  let ub ← initUb self.n a.ub
  let (A, b) ← initIneq self.n a.A a.b
  let (Aeq, beq) ← initIneq self.n a.Aeq a.beq
  let (Ls, ys, rhos) ← initQuad self.n a.Ls a.ys a.rhos
  pure { n := self.n
         lb := List.zipWith XR.max lb self.lb
         ub := List.zipWith XR.min ub self.ub
         A := self.A ++ A, b := self.b ++ b
         Aeq := self.Aeq ++ Aeq, beq := self.beq ++ beq
         Ls := self.Ls ++ Ls, ys := self.ys ++ ys, rhos := self.rhos ++ rhos }

/-- `LinQuadDomain.add_constraints`, linquad.py 328-360; the class of the result depends on which
constraints are present. -/
noncomputable def addConstraintsLQ (self : LQ) (a : Args) : Except Err Base := do
  let d ← mergeConstraints self a
  if d.Ls.length > 0 then
    -- the LinQuadDomain constructor checks radii again (linquad.py 200)
    if ∀ r ∈ d.rhos, 0 < r then pure (.linquad d) else .error .assertion
  else if d.b.length > 0 ∨ d.beq.length > 0 then pure (.linineq d)
  else pure (.box d.lb d.ub)

/-- `add_constraints` by class.  `ConvexHullDomain` overrides it (convexhull.py 279-301);
`TensorProductDomain` delegates to `LinQuadDomain` (tensor.py 163-168; every modelled factor is a
"linquad" domain); `UnboundedDomain` has no such method. -/
noncomputable def Dom.addConstraints (self : Dom) (a : Args) : Except Err Base :=
  match self with
  | .base (.hull X d) => do
      let d' ← mergeConstraints d a
      if ∀ r ∈ d'.rhos, 0 < r then pure (.hull X d') else .error .assertion
  | .base (.unbounded _) => .error .typeError
  | .base d => addConstraintsLQ d.acc a
  | .tensor [] => .error .valueError       -- np.concatenate of an empty list
  | .tensor ds => addConstraintsLQ (Dom.tensor ds).acc a

/-- The arguments `self.__and__(other)` passes to `add_constraints`, linquad.py 364-366. -/
def LQ.toArgs (d : LQ) : Args :=
  { A := some d.A, b := some d.b, lb := some d.lb, ub := some d.ub, Aeq := some d.Aeq,
    beq := some d.beq, Ls := some d.Ls, ys := some d.ys, rhos := some d.rhos }

/-- `isinstance(dom, LinQuadDomain)`. -/
def Dom.isLinQuadClass : Dom → Bool
  | .base (.unbounded _) => false
  | .base _ => true
  | .tensor _ => false

/-- `LinQuadDomain.__and__`, linquad.py 362-368 (every modelled tensor product answers
`is_linquad_domain = True`). -/
noncomputable def andLQ (self other : Dom) : Except Err Base :=
  match other with
  | .tensor [] => .error .valueError
  | .base (.unbounded _) => .error .notImplemented
  | other => self.addConstraints other.acc.toArgs

/-- The expression `a & b`, with Python's fallback to `__rand__` (linquad.py 370-371) when `a` has
no `__and__`. -/
noncomputable def Dom.and (a b : Dom) : Except Err Base :=
  if a.isLinQuadClass then andLQ a b
  else if b.isLinQuadClass then andLQ b a
  else .error .typeError

end Verif.Domain
