import Verif.Domain.Model
import Verif.Lipschitz.BoundModel
import Mathlib.Data.Nat.Choose.Basic

/-!
# Model of polynomial and polynomial ridge functions and their fits

Sources: `/repo/psdr/poly.py` 19-172, `/repo/psdr/polyridge.py` 23-443, `/repo/psdr/ridge.py`.

Samples are `X : Fin M → Pt m`.  A basis object is what `V`, `DV`, `DDV` return at one point.  Convex
solvers, `lstsq`, `svd` and the outer optimizers (`gauss_newton`, `sequential_lp`) are parameters.
-/

namespace Verif.Func

open Verif.Domain Verif.Lip Matrix

/-- A polynomial basis in `n` variables with `N` columns: rows of `V`, `DV`, `DDV` at a point. -/
structure BasisObj (n N : ℕ) where
  V : Pt n → Pt N
  DV : Pt n → Fin N → Pt n
  DDV : Pt n → Fin N → Matrix (Fin n) (Fin n) ℝ

/-- The `norm` argument. -/
inductive PNorm where
  | one
  | two
  | inf
  | other

/-- The `bound` argument. -/
inductive Bound where
  | none
  | lower
  | upper
  | other

/-- Solvers: unconstrained fits and fits with `A x ≥ b` or `A x ≤ b`; `none` when the solver has no answer. -/
structure FitSolver where
  free : ∀ {M N : ℕ}, PNorm → Matrix (Fin M) (Fin N) ℝ → Pt M → Option (Pt N)
  ge : ∀ {M N : ℕ}, PNorm → Matrix (Fin M) (Fin N) ℝ → Pt M → Option (Pt N)
  le : ∀ {M N : ℕ}, PNorm → Matrix (Fin M) (Fin N) ℝ → Pt M → Option (Pt N)

/-- A solver result (`x.value` is `None` if it failed; using it raises). -/
def ofSolver {α : Type} : Option α → Except Err α
  | some x => .ok x
  | none => .error .typeError

/-- `linear_fit`, poly.py 19-44. -/
def linearFit (S : FitSolver) {M N : ℕ} (A : Matrix (Fin M) (Fin N) ℝ) (b : Pt M) (norm : PNorm) (bound : Bound) :
    Except Err (Pt N) :=
  match norm with
  | .other => .error .assertion
  | p => match bound with
    | .other => .error .assertion
    | .none => ofSolver (S.free p A b)
    | .lower => ofSolver (S.le p A b)     -- residual <= 0
    | .upper => ofSolver (S.ge p A b)     -- residual >= 0

/-- `PolynomialFunction.eval` at one point, poly.py 77-81. -/
def polyEval {n N : ℕ} (B : BasisObj n N) (c : Pt N) (y : Pt n) : ℝ := B.V y ⬝ᵥ c

/-- `PolynomialFunction.grad` at one point: `tensordot(DV, coef, (1,0))`, poly.py 83-97. -/
def polyGrad {n N : ℕ} (B : BasisObj n N) (c : Pt N) (y : Pt n) : Pt n := fun k => ∑ j, B.DV y j k * c j

/-- `PolynomialFunction.hessian` at one point, poly.py 99-110. -/
def polyHess {n N : ℕ} (B : BasisObj n N) (c : Pt N) (y : Pt n) : Matrix (Fin n) (Fin n) ℝ :=
  Matrix.of (fun k l => ∑ j, B.DDV y j k l * c j)

/-- `PolynomialApproximation.fit`, poly.py 148-171: `mk` builds the basis from the samples. -/
def polyFit (S : FitSolver) {M m N : ℕ} (mk : (Fin M → Pt m) → BasisObj m N) (norm : PNorm) (bound : Bound)
    (X : Fin M → Pt m) (fX : Pt M) : Except Err (BasisObj m N × Pt N) :=
  (linearFit S (Matrix.of (fun i => (mk X).V (X i))) fX norm bound).map (fun c => (mk X, c))

/-! ## Ridge functions -/

/-- A `PolynomialRidgeFunction`: basis, coefficients and `U`, polyridge.py 26-30. -/
structure Ridge (m n N : ℕ) where
  basis : BasisObj n N
  coef : Pt N
  U : Matrix (Fin m) (Fin n) ℝ

variable {m n N M : ℕ}

/-- `Y = (U.T @ X.T).T`, polyridge.py 36. -/
def projY (U : Matrix (Fin m) (Fin n) ℝ) (x : Pt m) : Pt n := Uᵀ *ᵥ x

/-- `eval`, polyridge.py 50-52. -/
def Ridge.eval (R : Ridge m n N) (x : Pt m) : ℝ := R.basis.V (projY R.U x) ⬝ᵥ R.coef

/-- `grad`, polyridge.py 54-69: `Df.dot(U.T)`. -/
def Ridge.grad (R : Ridge m n N) (x : Pt m) : Pt m :=
  fun i => ∑ k, (∑ j, R.basis.DV (projY R.U x) j k * R.coef j) * R.U i k

/-- `hessian`, polyridge.py 71-85: `tensordot(tensordot(DDf, U, (2,1)), U, (1,1))`. -/
def Ridge.hess (R : Ridge m n N) (x : Pt m) : Matrix (Fin m) (Fin m) ℝ :=
  Matrix.of (fun i j => ∑ k, (∑ l, (∑ a, R.basis.DDV (projY R.U x) a k l * R.coef a) * R.U i l) * R.U j k)

/-- `profile`, polyridge.py 87-89. -/
def Ridge.profile (R : Ridge m n N) (y : Pt n) : ℝ := polyEval R.basis R.coef y

/-- `bound_fit(A, b)`, polyridge.py 151-178: `A x - b ≥ 0`. -/
def boundFit (S : FitSolver) {M N : ℕ} (A : Matrix (Fin M) (Fin N) ℝ) (b : Pt M) (norm : PNorm) : Except Err (Pt N) :=
  ofSolver (S.ge norm A b)

/-- `_fit_coef`, polyridge.py 396-416 (`norm` was checked in `__init__`). -/
def fitCoef (S : FitSolver) (mk : (Fin M → Pt n) → BasisObj n N) (norm : PNorm) (bound : Bound)
    (X : Fin M → Pt m) (fX : Pt M) (U : Matrix (Fin m) (Fin n) ℝ) : Except Err (BasisObj n N × Pt N) :=
  let Y := fun i => projY U (X i)
  let B := mk Y
  let V : Matrix (Fin M) (Fin N) ℝ := Matrix.of (fun i => B.V (Y i))
  match bound with
  | .none => match norm with
    | .other => .error .notImplemented
    | p => (ofSolver (S.free p V fX)).map (fun c => (B, c))
  | .lower => (boundFit S (-V) (-fX) norm).map (fun c => (B, c))
  | .upper => (boundFit S V fX norm).map (fun c => (B, c))
  | .other => .error .assertion

/-- `np.sign`. -/
noncomputable def sgn (t : ℝ) : ℝ := if 0 < t then 1 else if t < 0 then -1 else 0

/-- `np.mean(grads, axis=0)`. -/
noncomputable def meanGrad (g : Fin M → Pt n) : Pt n := fun k => (∑ i, g i k) / M

/-- Step 1 of `_finish`, 425-433: rotate to the left singular vectors of the profile gradients. -/
def finishRotate (S : FitSolver) (mk : (Fin M → Pt n) → BasisObj n N) (svdU : (Fin M → Pt n) → Matrix (Fin n) (Fin n) ℝ)
    (norm : PNorm) (bound : Bound) (rotate : Bool) (X : Fin M → Pt m) (fX : Pt M) (U : Matrix (Fin m) (Fin n) ℝ) :
    Except Err (Matrix (Fin m) (Fin n) ℝ) :=
  if 1 < n ∧ rotate = true then
    (fitCoef S mk norm bound X fX U).map (fun bc => U * svdU (fun i => polyGrad bc.1 bc.2 (projY U (X i))))
  else .ok U

/-- Step 2 of `_finish`, 437-441: flip signs.  `Y` is the projection by the `U` given to `_finish`, also when
step 1 has rotated. -/
noncomputable def finishSigns (S : FitSolver) (mk : (Fin M → Pt n) → BasisObj n N) (norm : PNorm) (bound : Bound)
    (rotate : Bool) (X : Fin M → Pt m) (fX : Pt M) (Y : Fin M → Pt n) (U : Matrix (Fin m) (Fin n) ℝ) :
    Except Err (Matrix (Fin m) (Fin n) ℝ) :=
  if rotate = true then
    (fitCoef S mk norm bound X fX U).map (fun bc =>
      U * Matrix.diagonal (fun k => sgn (meanGrad (fun i => polyGrad bc.1 bc.2 (Y i)) k)))
  else .ok U

/-- `_finish`, polyridge.py 418-443. -/
noncomputable def finish (S : FitSolver) (mk : (Fin M → Pt n) → BasisObj n N) (svdU : (Fin M → Pt n) → Matrix (Fin n) (Fin n) ℝ)
    (norm : PNorm) (bound : Bound) (rotate : Bool) (X : Fin M → Pt m) (fX : Pt M) (U : Matrix (Fin m) (Fin n) ℝ) :
    Except Err (Ridge m n N) := do
  let U1 ← finishRotate S mk svdU norm bound rotate X fX U
  let U2 ← finishSigns S mk norm bound rotate X fX (fun i => projY U (X i)) U1
  let bc ← fitCoef S mk norm bound X fX U2
  return ⟨bc.1, bc.2, U2⟩

/-- Smallest and largest entry of a nonempty family. -/
noncomputable def infOf (f : Fin M → ℝ) : ℝ := ⨅ i, f i
/-- Largest entry. -/
noncomputable def supOf (f : Fin M → ℝ) : ℝ := ⨆ i, f i

/-- Slope of the box normalization used in `_fit_affine`. -/
noncomputable def affSlope (X : Fin M → Pt m) (k : Fin m) : ℝ :=
  let l := infOf (fun i => X i k)
  let u := supOf (fun i => X i k)
  if u ≠ l then 2 / (u - l) else 1

/-- `np.hstack([dom.normalize(X), ones])`, polyridge.py 367-371. -/
noncomputable def affDesign (X : Fin M → Pt m) : Matrix (Fin M) (Fin (m + 1)) ℝ :=
  Matrix.of (fun i => Fin.snoc (fun k => affSlope X k * (X i k - (infOf (fun i => X i k) + supOf (fun i => X i k)) / 2)) 1)

/-- The normalized output, polyridge.py 374. -/
noncomputable def affRhs (fX : Pt M) : Pt M := fun i => (fX i - infOf fX) / (supOf fX - infOf fX)

/-- The solution `b` of the affine problem in `_fit_affine`, 376-388. -/
noncomputable def affSolve (S : FitSolver) (norm : PNorm) (bound : Bound) (X : Fin M → Pt m) (fX : Pt M) :
    Except Err (Pt (m + 1)) :=
  match bound with
  | .none => match norm with
    | .other => .error .nameError
    | p => ofSolver (S.free p (affDesign X) (affRhs fX))
  | .lower => boundFit S (affDesign X) (affRhs fX) norm
  | .upper => boundFit S (-affDesign X) (-affRhs fX) norm
  | .other => .error .assertion

open Classical in
/-- `_fit_affine`, polyridge.py 364-394.  Constant data (`fX` is scaled by its range) and a zero slope give `nan`, which later calls reject. -/
noncomputable def fitAffine (S : FitSolver) (norm : PNorm) (bound : Bound) (X : Fin M → Pt m) (fX : Pt M) :
    Except Err (Matrix (Fin m) (Fin 1) ℝ) :=
  if supOf fX = infOf fX then .error .valueError else
  match affSolve S norm bound X fX with
  | .error e => .error e
  | .ok b =>
    let u : Pt m := fun k => affSlope X k * b k.castSucc
    if nrm u = 0 then .error .valueError else .ok (Matrix.of (fun i _ => u i / nrm u))

/-- Number of parameters, polyridge.py 326-331. -/
def nParam (m n d : ℕ) : ℤ := ((n + d).choose d : ℤ) + (m * n : ℤ) - ((n * (n + 1)) / 2 : ℕ)

/-- `fit`, polyridge.py 308-358, for subspace dimension `n` and degree `d`: the outer optimizers
(`_fit_varpro`, `_fit_alternating`) are the parameter `opt`, which returns the final `U` passed to `_finish`. -/
noncomputable def ridgeFit (S : FitSolver) (d : ℕ) (mk : (Fin M → Pt n) → BasisObj n N) (svdU : (Fin M → Pt n) → Matrix (Fin n) (Fin n) ℝ)
    (norm : PNorm) (bound : Bound) (rotate : Bool) (opt : (Fin M → Pt m) → Pt M → Except Err (Matrix (Fin m) (Fin n) ℝ))
    (X : Fin M → Pt m) (fX : Pt M) : Except Err (Ridge m n N) :=
  if (M : ℤ) < nParam m n d then .error .underdetermined
  else if h : n = 1 ∧ d = 1 then do
    let U ← fitAffine S norm bound X fX
    let U' : Matrix (Fin m) (Fin n) ℝ := Matrix.of (fun i k => U i (Fin.cast h.1 k))
    let bc ← fitCoef S mk norm bound X fX U'
    return ⟨bc.1, bc.2, U'⟩
  else do
    let U ← opt X fX
    finish S mk svdU norm bound rotate X fX U

end Verif.Func
