import Verif.Domain.Model
import Verif.Basis.IndexModel

/-!
# Model of the tensor-product polynomial bases

Source: `/repo/psdr/basis.py` 76-433.  Matrices are modelled by their rows, one per point; a row of the
input is a vector of length `dim` (`X.reshape(-1, dim)`).  The scalar polynomials and their derivatives
(`numpy.polynomial`) are a parameter, `Family`; concrete families are in `FamilyModel`.
-/

namespace Verif.Basis

open Verif Verif.Domain

/-- The scalar polynomials of a basis class: `phi n x` is the value of the `n`-th polynomial, `der c m` the coefficients
of the `m`-th derivative of the polynomial with coefficients `c` (numpy's `polyder(c, m)`). -/
structure Family where
  phi : ℕ → ℝ → ℝ
  der : List ℝ → ℕ → List ℝ

/-- `self.vander(x, degree)` for one number, basis.py 187. -/
def Family.vander (F : Family) (x : ℝ) (deg : ℕ) : Vec := (List.range (deg + 1)).map (fun n => F.phi n x)

/-- The affine transformation of the coordinates: none if the basis was built without points; basis.py 131-152 and,
for Hermite polynomials, 412-427. -/
inductive Scaling where
  | none
  | minmax (lb ub : Vec)
  | meanstd (mean std : Vec)

/-- `_scale` of one row, basis.py 137-143 and 416-420. -/
noncomputable def Scaling.scale : Scaling → Vec → Vec
  | .none, x => x
  | .minmax lb ub, x => x.mapIdx (fun q t => 2 * (t - lb.getD q 0) / (ub.getD q 0 - lb.getD q 0) - 1)
  | .meanstd mean std, x => x.mapIdx (fun q t => (t - mean.getD q 0) / std.getD q 0 / Real.sqrt 2)

/-- `_dscale` at coordinate `k`, with the default one, basis.py 145-152, 275-278, 422-426. -/
noncomputable def Scaling.dscale : Scaling → ℕ → ℝ
  | .none, _ => 1
  | .minmax lb ub, k => 2 / (ub.getD k 0 - lb.getD k 0)
  | .meanstd _ std, k => 1 / std.getD k 0 / Real.sqrt 2

/-- A `PolynomialTensorBasis`, basis.py 102-113. -/
structure TBasis where
  F : Family
  degree : ℕ
  dim : ℕ
  sc : Scaling

/-- `self.indices`, basis.py 112. -/
def TBasis.indices (B : TBasis) : List (List ℕ) := indexSet B.degree B.dim

/-- The unit vector of length `n` with a one at `j`. -/
def unitVec (n j : ℕ) : List ℝ := (List.range n).map (fun i => if i = j then 1 else 0)

/-- Row `j` of `Dmat`, basis.py 118-124 (for degree zero the matrix has no columns). -/
def TBasis.dmat (B : TBasis) (j : ℕ) : Vec := if B.degree = 0 then [] else B.F.der (unitVec (B.degree + 1) j) 1

/-- The running products `*=` over the coordinates. -/
def prodLoop (dim : ℕ) (f : ℕ → ℝ) : ℝ := (List.range dim).foldl (fun acc q => acc * f q) 1

/-- `V_coordinate[k]` at the row. -/
noncomputable def TBasis.vc (B : TBasis) (x : Vec) (q : ℕ) : Vec := B.F.vander ((B.sc.scale x).getD q 0) B.degree

/-- One row of `V(X)`, basis.py 183-193. -/
noncomputable def TBasis.V (B : TBasis) (x : Vec) : Vec :=
  B.indices.map (fun alpha => prodLoop B.dim (fun k => (B.vc x k).getD (alpha.getD k 0) 0))

/-- `np.max(np.abs(c[j,:])) > 0`: some entry is not zero. -/
def anyNonzero (c : Vec) : Prop := ∃ a ∈ c, a ≠ 0

open Classical in
/-- The loop of `VC` for one row, basis.py 228-238: `cs` are the rows of the coefficient matrix with `w` columns. -/
noncomputable def vcLoop (B : TBasis) (x : Vec) (w : ℕ) (cs : List Vec) : Vec :=
  (B.indices.zip cs).foldl (fun out jc =>
    if anyNonzero jc.2 then
      Vec.add out (Vec.smul (prodLoop B.dim (fun l => (B.vc x l).getD (jc.1.getD l 0) 0)) jc.2)
    else out) (List.replicate w 0)

open Classical in
/-- One row of `VC(X, c)`, basis.py 195-242, with the length assertion. -/
noncomputable def TBasis.VC (B : TBasis) (x : Vec) (w : ℕ) (cs : List Vec) : Except Err Vec :=
  if B.indices.length = cs.length then .ok (vcLoop B x w cs) else .error .assertion

/-- The factor of coordinate `q` in a first derivative, basis.py 285: `V_coordinate[q][:,0:-1] @ Dmat[alpha[q]]`. -/
noncomputable def TBasis.d1 (B : TBasis) (x : Vec) (q a : ℕ) : ℝ := Vec.dot ((B.vc x q).dropLast) (B.dmat a)

/-- Entry `[alpha, k]` of one row of `DV(X)`, basis.py 280-290. -/
noncomputable def TBasis.DV (B : TBasis) (x : Vec) (alpha : List ℕ) (k : ℕ) : ℝ :=
  prodLoop B.dim (fun q => if q = k then B.d1 x q (alpha.getD q 0) else (B.vc x q).getD (alpha.getD q 0) 0) * B.sc.dscale k

/-- The factor of coordinate `q` in a pure second derivative, basis.py 338-341. -/
noncomputable def TBasis.d2 (B : TBasis) (x : Vec) (q a : ℕ) : ℝ :=
  Vec.dot ((B.vc x q).take (B.F.der (unitVec (B.degree + 1) a) 2).length) (B.F.der (unitVec (B.degree + 1) a) 2)

/-- Entry `[alpha, k, l]`, `k ≤ l`, of one row of `DDV(X)`, basis.py 331-349. -/
noncomputable def TBasis.ddvUpper (B : TBasis) (x : Vec) (alpha : List ℕ) (k l : ℕ) : ℝ :=
  prodLoop B.dim (fun q =>
    if q = k ∧ k = l then B.d2 x q (alpha.getD q 0)
    else if q = k ∨ q = l then B.d1 x q (alpha.getD q 0)
    else (B.vc x q).getD (alpha.getD q 0) 0) * (B.sc.dscale k * B.sc.dscale l)

/-- Entry `[alpha, k, l]` of one row of `DDV(X)`, basis.py 295-352 (the lower half is copied, line 351). -/
noncomputable def TBasis.DDV (B : TBasis) (x : Vec) (alpha : List ℕ) (k l : ℕ) : ℝ :=
  if k ≤ l then B.ddvUpper x alpha k l else B.ddvUpper x alpha l k

/-- `set_scale(X)`, basis.py 126-135. -/
noncomputable def setScale (dim : ℕ) (X : List Vec) : Scaling :=
  .minmax ((columns dim X).map minL) ((columns dim X).map maxL)

/-- `np.mean`. -/
noncomputable def mean (c : Vec) : ℝ := c.sum / c.length
/-- `np.std`. -/
noncomputable def std (c : Vec) : ℝ := Real.sqrt (mean (c.map (fun t => (t - mean c) ^ 2)))

/-- `set_scale(X)` of `HermiteTensorBasis`, basis.py 412-414. -/
noncomputable def setScaleHermite (dim : ℕ) (X : List Vec) : Scaling :=
  .meanstd ((columns dim X).map mean) ((columns dim X).map std)

/-- `roots(coef)`, basis.py 354-358 and 429-433 (real roots only): `polyroots` is the scalar routine; without scaling the
attributes do not exist. -/
noncomputable def TBasis.roots (B : TBasis) (polyroots : List ℝ → List ℝ) (coef : List ℝ) : Except Err (List ℝ) :=
  if 1 < B.dim then .error .notImplemented
  else match B.sc with
    | .none => .error .attributeError
    | .minmax lb ub => .ok ((polyroots coef).map
        (fun r => r * (ub.getD 0 0 - lb.getD 0 0) / 2 + (ub.getD 0 0 + lb.getD 0 0) / 2))
    | .meanstd mean std => .ok ((polyroots coef).map (fun r => r * std.getD 0 0 * Real.sqrt 2 + mean.getD 0 0))

end Verif.Basis
