import Verif.Basis.ArnoldiModel
import Verif.Basis.TensorModel
import Mathlib.Algebra.Order.Round

/-!
# Model of the polynomial bases on arrays of integers and of floats

Source: `/repo/psdr/basis.py` 137-143, 183-193, 268-292, 320-352, 489-515; `/repo/psdr/poly.py` 77-81.

Arrays carry their element type. Entries are exact numbers (no overflow, no rounding). The rules of numpy used here:
* storing floats in an integer array (`W[:,k] = ..`) drops the fractional part;
* an operation in place (`*=`, `-=`) on an integer array with a float operand raises `UFuncTypeError`, a `TypeError`, whatever the shape;
* products of two integer arrays are integer arrays; a quotient is a float array;
* the Vandermonde routines of `numpy.polynomial` return floats.
-/

namespace Verif.Dtype

open Verif Verif.Domain Verif.Basis

/-- The element types. -/
inductive Kind
  | int
  | float
deriving DecidableEq

/-- An array of points, one row for each. -/
structure Pts where
  kind : Kind
  rows : List Vec

/-- Storing a float in an array. -/
noncomputable def store : Kind → ℝ → ℝ
  | .float, t => t
  | .int, t => if 0 ≤ t then ⌊t⌋ else ⌈t⌉

/-- Assigning to a column (or row) of an array what an operation in place has computed with a float operand. -/
def inPlace : Kind → Vec → Except Err Vec
  | .float, v => .ok v
  | .int, _ => .error .typeError

/-- The array as its rows, from its columns. -/
def rowsOf (M : ℕ) (cols : List Vec) : List Vec := (List.range M).map fun p => cols.map fun c => c.getD p 0

/-! ## Tensor bases -/

/-- The element type after `_scale`, basis.py 137-143, 416-420: without scaling the array itself. -/
def scaledKind : Scaling → Kind → Kind
  | .none, kd => kd
  | _, _ => .float

/-- `col *= f(q)` for the coordinates `q` in turn. -/
noncomputable def mulCols (kd : Kind) : List Vec → Vec → Except Err Vec
  | [], col => .ok col
  | f :: fs, col =>
    match inPlace kd (Vec.mul col f) with
    | .error e => .error e
    | .ok c => mulCols kd fs c

/-- A loop over columns with exceptions. -/
def eachCol {α β : Type} (f : α → Except Err β) : List α → Except Err (List β)
  | [] => .ok []
  | a :: t =>
    match f a with
    | .error e => .error e
    | .ok b =>
      match eachCol f t with
      | .error e => .error e
      | .ok r => .ok (b :: r)

/-- `V(X)`, basis.py 183-193: `V = np.ones(.., dtype = X.dtype)` and `V[:,j] *= V_coordinate[k][:,alpha[k]]`. -/
noncomputable def tensorV (B : TBasis) (X : Pts) : Except Err (List Vec) :=
  (eachCol (fun alpha => mulCols (scaledKind B.sc X.kind)
      ((List.range B.dim).map fun k => X.rows.map fun x => (B.vc x k).getD (alpha.getD k 0) 0) (X.rows.map fun _ => 1)) B.indices).map
    (rowsOf X.rows.length)

/-- Column `[:,alpha,k]` of `DV(X)`, basis.py 275-292. -/
noncomputable def tensorDV (B : TBasis) (X : Pts) (alpha : List ℕ) (k : ℕ) : Except Err Vec :=
  (mulCols (scaledKind B.sc X.kind)
    ((List.range B.dim).map fun q => X.rows.map fun x => if q = k then B.d1 x q (alpha.getD q 0) else (B.vc x q).getD (alpha.getD q 0) 0)
    (X.rows.map fun _ => 1)).bind fun col => inPlace (scaledKind B.sc X.kind) (col.map fun t => t * B.sc.dscale k)

/-! ## Arnoldi basis -/

/-- `for j in range(k): w -= self.R[j,k]*W[:,j]`, basis.py 505-506. -/
noncomputable def subCols (kd : Kind) : List (ℝ × Vec) → Vec → Except Err Vec
  | [], w => .ok w
  | p :: ps, w =>
    match inPlace kd (Vec.sub w (Vec.smul p.1 p.2)) with
    | .error e => .error e
    | .ok w' => subCols kd ps w'

/-- The columns of `W`, basis.py 499-508; `W` has the element type of `X`. -/
noncomputable def arnCols (kd : Kind) (X : List Vec) : List ((ℕ × ℕ) × List ℝ) → List Vec → Except Err (List Vec)
  | [], W => .ok W
  | e :: es, W =>
    match subCols kd (List.zip e.2 W) (Vec.mul (X.map fun x => x.getD e.1.1 0) (W.getD e.1.2 [])) with
    | .error er => .error er
    | .ok w => arnCols kd X es (W ++ [w.map fun t => store kd (t / e.2.getD W.length 0)])

/-- `arnoldi_X(X)`, basis.py 489-510. -/
noncomputable def arnoldiX (P : List (ℕ × ℕ)) (R : List (List ℝ)) (X : Pts) : Except Err (List Vec) :=
  (arnCols X.kind X.rows (List.zip P R.tail) [X.rows.map fun _ => store X.kind (1 / (R.getD 0 []).getD 0 0)]).map (rowsOf X.rows.length)

open Classical in
/-- `V(X)`, basis.py 512-515, for the basis built on the points `X0`; `np.array_equal` compares the numbers. -/
noncomputable def arnoldiV (degree dim : ℕ) (X0 : List Vec) (X : Pts) : Except Err (List Vec) :=
  match plan (indexSet degree dim) with
  | none => .error .valueError
  | some P =>
    if X.rows = X0 then .ok (rowsOf X0.length (arnoldi 1 X0 P).1)
    else arnoldiX P (arnoldi 1 X0 P).2 X

/-- `PolynomialFunction.eval(X)`, poly.py 77-81, from the rows of `V(X)`. -/
noncomputable def evalWith (V : Except Err (List Vec)) (coef : Vec) : Except Err Vec := V.map fun rows => rows.map fun r => Vec.dot r coef

end Verif.Dtype
