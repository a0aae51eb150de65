import Verif.Func.PolyModel
import Verif.Func.RidgeProps
import Verif.Basis.ArnoldiLemmas
import Verif.Basis.FamilyModel
import Mathlib.Algebra.Order.Round

/-!
# Model of the constructors of the polynomial approximations and of fits by basis name

Sources: `/repo/psdr/poly.py` 114-171, `/repo/psdr/polyridge.py` 235-305.
-/

namespace Verif.Func

open Verif.Domain Verif.Lip Verif.Basis Matrix

/-- The names of the bases, poly.py 136 and polyridge.py 257. -/
inductive BasisName where
  | arnoldi
  | legendre
  | monomial
  | chebyshev
  | laguerre
  | hermite
deriving DecidableEq

/-- `basis in ['arnoldi', 'legendre', ...]`. -/
def parseBasis (s : String) : Option BasisName :=
  if s = "arnoldi" then some .arnoldi else if s = "legendre" then some .legendre else if s = "monomial" then some .monomial
  else if s = "chebyshev" then some .chebyshev else if s = "laguerre" then some .laguerre else if s = "hermite" then some .hermite else none

/-- `bound in [None, 'lower', 'upper']`. -/
def parseBound : Option String → Option Bound
  | none => some .none
  | some s => if s = "lower" then some .lower else if s = "upper" then some .upper else none

/-- The `norm` argument: a number, infinity, or a string. -/
inductive NormArg where
  | num (x : ℝ)
  | infinity
  | str (s : String)

open Classical in
/-- `norm in [1, 2, np.inf]`, poly.py 144. -/
noncomputable def parseNorm : NormArg → Option PNorm
  | .num x => if x = 1 then some .one else if x = 2 then some .two else none
  | .infinity => some .inf
  | .str _ => none

/-- `norm in [1, 2, 'inf', np.inf]` and the replacement of `'inf'`, polyridge.py 279-281. -/
noncomputable def parseNormRidge : NormArg → Option PNorm
  | .str s => if s = "inf" then some .inf else none
  | a => parseNorm a

/-- `s.lower()` (for ASCII letters). -/
def lowerName (s : String) : String := String.ofList (s.toList.map Char.toLower)

/-- What the constructors store. -/
structure ApproxOpts where
  degree : ℕ
  basis : BasisName
  norm : PNorm
  bound : Bound

/-- `int(x)` of a number: rounding towards zero. -/
noncomputable def pyInt (x : ℝ) : ℤ := if 0 ≤ x then ⌊x⌋ else ⌈x⌉

/-- `PolynomialApproximation.__init__`, poly.py 130-145. -/
noncomputable def approxInit (degree : ℝ) (basis : String) (norm : NormArg) (bound : Option String) : Except Err ApproxOpts :=
  if 0 ≤ pyInt degree then
    match parseBasis basis with
    | none => .error .assertion
    | some b => match parseBound bound with
      | none => .error .assertion
      | some bd => match parseNorm norm with
        | none => .error .assertion
        | some p => .ok ⟨(pyInt degree).toNat, b, p, bd⟩
  else .error .assertion

/-- An argument that has to be an `int`: an integer or another number. -/
inductive IntArg where
  | int (k : ℤ)
  | float (x : ℝ)

/-- What `PolynomialRidgeApproximation` stores. -/
structure RidgeOpts where
  degree : ℕ
  dim : ℕ
  basis : BasisName
  norm : PNorm
  bound : Bound

/-- The dimension that is stored for degree `d`, polyridge.py 247-251. -/
def storedDim (d k : ℤ) : ℤ := if d = 0 then 0 else if d = 1 ∧ 1 < k then 1 else k

/-- `PolynomialRidgeApproximation.__init__`, polyridge.py 235-290 (the type checks of `keep_data`, `scale` and `domain` are not modelled; `n_init` is not
used by the code). -/
noncomputable def ridgeInit (degree dim : IntArg) (basis : String) (norm : NormArg) (bound : Option String) : Except Err RidgeOpts :=
  match degree, dim with
  | .int d, .int k =>
    if 0 ≤ d ∧ 1 ≤ k then
      match parseBasis (lowerName basis) with
      | none => .error .assertion
      | some b => match parseNormRidge norm with
        | none => .error .assertion
        | some p => match parseBound bound with
          | none => .error .assertion
          | some bd => .ok ⟨d.toNat, (storedDim d k).toNat, b, p, bd⟩
    else .error .assertion
  | _, _ => .error .assertion

/-! ## The basis of a fit -/

/-- The rows of the sample array. -/
def sampleRows {M m : ℕ} (X : Fin M → Pt m) : List Vec := List.ofFn fun i => List.ofFn (X i)

/-- The polynomial family of a tensor basis, poly.py 154-163. -/
noncomputable def familyOf : BasisName → Family
  | .monomial => monoFamily
  | .chebyshev => chebFamily
  | .laguerre => lagFamily
  | .hermite => hermFamily
  | _ => legFamily

/-- The scaling that the constructor of a tensor basis sets from `X`, basis.py 132-136 and 412-414. -/
noncomputable def scaleFor {M m : ℕ} (b : BasisName) (X : Fin M → Pt m) : Scaling :=
  if b = .hermite then setScaleHermite m (sampleRows X) else setScale m (sampleRows X)

/-- An `ArnoldiPolynomialBasis` as a basis object; `V` at the samples of the construction returns the stored `Q`, which agrees (`arnoldi_consistent`). -/
noncomputable def arnoldiObj {m : ℕ} (N : ℕ) (P : List (ℕ × ℕ)) (R : List (List ℝ)) : BasisObj m N where
  V := fun y j => (evalX P R (List.ofFn y)).getD j 0
  DV := fun y j k => (evalDV P R (List.ofFn y) k).getD j 0
  DDV := fun _ _ => 0

open Classical in
/-- `ArnoldiPolynomialBasis(degree, X = X)`, basis.py 434-484: a zero pivot gives `nan`, which the solvers reject. -/
noncomputable def arnoldiFor {M m : ℕ} (d : ℕ) (X : Fin M → Pt m) : Except Err (BasisObj m (indexSet d m).length) :=
  match plan (indexSet d m), arnoldiBasis d m (sampleRows X) with
  | some P, some (_, R) => if NoBreakdown R then .ok (arnoldiObj _ P R) else .error .valueError
  | _, _ => .error .valueError

open Classical in
/-- The tensor bases: samples that are equal in a coordinate make the scaling divide by zero, and the solvers reject the `nan`. -/
noncomputable def tensorFor {M m : ℕ} (b : BasisName) (d : ℕ) (X : Fin M → Pt m) : Except Err (BasisObj m (indexSet d m).length) :=
  if (scaleFor b X).Nondeg m then .ok (tensorObj ⟨familyOf b, d, m, scaleFor b X⟩ m) else .error .valueError

/-- The choice of the basis in `fit`, poly.py 152-163. -/
noncomputable def basisFor {M m : ℕ} (b : BasisName) (d : ℕ) (X : Fin M → Pt m) : Except Err (BasisObj m (indexSet d m).length) :=
  if b = .arnoldi then arnoldiFor d X else tensorFor b d X

/-- `PolynomialApproximation(...).fit(X, fX)`, poly.py 148-171. -/
noncomputable def approxFit (S : FitSolver) (o : ApproxOpts) {M m : ℕ} (X : Fin M → Pt m) (fX : Pt M) :
    Except Err (BasisObj m (indexSet o.degree m).length × Pt (indexSet o.degree m).length) :=
  (basisFor o.basis o.degree X).bind fun B => polyFit S (fun _ => B) o.norm o.bound X fX

/-- `fit_fixed_subspace(X, fX, U)`, polyridge.py 299-305: two assertions about the shape of `U`, then `_finish`. -/
noncomputable def fitFixed (S : FitSolver) {M m n N : ℕ} (mk : (Fin M → Pt n) → BasisObj n N) (svdU : (Fin M → Pt n) → Matrix (Fin n) (Fin n) ℝ)
    (norm : PNorm) (bound : Bound) (rotate : Bool) (X : Fin M → Pt m) (fX : Pt M) {r c : ℕ} (U : Matrix (Fin r) (Fin c) ℝ) :
    Except Err (Ridge m n N) :=
  if h : r = m ∧ c = n then finish S mk svdU norm bound rotate X fX (U.submatrix (Fin.cast h.1.symm) (Fin.cast h.2.symm))
  else .error .assertion

end Verif.Func
