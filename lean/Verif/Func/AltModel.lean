import Verif.Func.VarproModel
import Verif.Opt.SeqLPModel

/-!
# Model of the alternating fit of the polynomial ridge approximation

Source: `/repo/psdr/polyridge.py` 544-672 (`_residual`, `_jacobian`, `_trajectory`, `_fit_alternating`), used by `fit` for norms other than
two or with a bound. The solver `sequential_lp` is the model of `/repo/psdr/seqlp.py` in `Verif.Opt.SeqLPModel`.

The object keeps its current basis in `self.basis`; the methods below receive the basis they find and return the basis they leave.
The parameter vector is the concatenation of `U.flatten()` (row-major) and the coefficients.

Simplifications: the convex program of `sequential_lp` is its parameter `solve`; its extra constraint is `searchCon`.
-/

namespace Verif.Func

open Verif.Domain Verif.Lip Verif.Opt Matrix

variable {M m n N : ℕ}

/-- `np.hstack([U.flatten(), c])`, polyridge.py 618, 640. -/
def packUc (U : Matrix (Fin m) (Fin n) ℝ) (c : Pt N) : Pt (m * n + N) := Fin.append (flat U) c

/-- `U_c[:m*n].reshape(m,n)`, polyridge.py 550. -/
def partU (x : Pt (m * n + N)) : Matrix (Fin m) (Fin n) ℝ := unflat fun k => x (Fin.castAdd N k)

/-- `U_c[m*n:].reshape(N)`, polyridge.py 551. -/
def partC (x : Pt (m * n + N)) : Pt N := fun j => x (Fin.natAdd (m * n) j)

/-- `_residual`, polyridge.py 544-558, with the basis `B` the object holds. -/
def altResidual (B : BasisObj n N) (X : Fin M → Pt m) (fX : Pt M) (x : Pt (m * n + N)) : Pt M :=
  vandU B X (partU x) *ᵥ partC x - fX

/-- The matrix returned by `_jacobian`, polyridge.py 571-586, for the basis `B` built there. -/
def altJacobianOf (B : BasisObj n N) (X : Fin M → Pt m) (x : Pt (m * n + N)) : Matrix (Fin M) (Fin (m * n + N)) ℝ :=
  Matrix.of fun i => Fin.append
    (flat (Matrix.of fun k l => X i k * ∑ j, B.DV (projY (partU x) (X i)) j l * partC x j))
    (B.V (projY (partU x) (X i)))

/-- `_jacobian`, polyridge.py 560-586: the basis it leaves (569-570) and the matrix. -/
def altJacobian (mk : (Fin M → Pt n) → BasisObj n N) (X : Fin M → Pt m) (x : Pt (m * n + N)) :
    BasisObj n N × Matrix (Fin M) (Fin (m * n + N)) ℝ :=
  let B := mk fun i => projY (partU x) (X i)
  (B, altJacobianOf B X x)

/-- The new matrix of `_trajectory`, polyridge.py 599-611, for `n ≤ m`. -/
noncomputable def altMove (hn : n ≤ m) (svd : Matrix (Fin m) (Fin n) ℝ → TSvd m n)
    (qr : Matrix (Fin m) (Fin n) ℝ → Matrix (Fin m) (Fin n) ℝ × Matrix (Fin n) (Fin n) ℝ) (x p : Pt (m * n + N)) (t : ℝ) :
    Matrix (Fin m) (Fin n) ℝ :=
  let U := orthStep (qr (partU x))
  let Delta := partU p - U * (Uᵀ * partU p)
  (geodesic U (svd Delta) t).submatrix id (finCongr (min_eq_right hn).symm)

/-- `_trajectory`, polyridge.py 589-618: the basis it leaves (through `_fit_coef`) and the new parameters. -/
noncomputable def altTrajectory (S : FitSolver) (mk : (Fin M → Pt n) → BasisObj n N) (norm : PNorm) (bound : Bound) (hn : n ≤ m)
    (svd : Matrix (Fin m) (Fin n) ℝ → TSvd m n)
    (qr : Matrix (Fin m) (Fin n) ℝ → Matrix (Fin m) (Fin n) ℝ × Matrix (Fin n) (Fin n) ℝ) (X : Fin M → Pt m) (fX : Pt M)
    (x p : Pt (m * n + N)) (t : ℝ) : Except Err (BasisObj n N × Pt (m * n + N)) :=
  (fitCoef S mk norm bound X fX (altMove hn svd qr x p t)).map fun bc => (bc.1, packUc (altMove hn svd qr x p t) bc.2)

/-- The norm handed to `sequential_lp` (`norm` was checked in `__init__`). -/
def PNorm.toS : PNorm → SNorm
  | .one => .one
  | .two => .two
  | .inf => .inf
  | .other => .none

/-- An exception raised inside a callback. -/
def liftE {α : Type} : Except Err α → Except Exn α
  | .ok a => .ok a
  | .error e => .error (.err e)

/-- The extra constraint on the search direction, polyridge.py 644-650: `U.T @ p[k*m:(k+1)*m] == 0` for `k < n`. -/
def searchCon (x p : Pt (m * n + N)) : Prop :=
  ∀ k : Fin n, (partU x)ᵀ *ᵥ (fun i : Fin m => p (Fin.castAdd N (Fin.cast (mul_comm n m) (finProdFinEquiv (k, i))))) = 0

/-- The arguments `_fit_alternating` passes to `sequential_lp`, polyridge.py 620-667. `residual` reads the basis the object holds, which is
always that of the evaluated point (`residual_after_fit`, `residual_after_trajectory`). -/
noncomputable def altArgs (S : FitSolver) (mk : (Fin M → Pt n) → BasisObj n N) (norm : PNorm) (bound : Bound) (hn : n ≤ m)
    (svd : Matrix (Fin m) (Fin n) ℝ → TSvd m n)
    (qr : Matrix (Fin m) (Fin n) ℝ → Matrix (Fin m) (Fin n) ℝ × Matrix (Fin n) (Fin n) ℝ) (X : Fin M → Pt m) (fX : Pt M)
    (maxiter btMax : ℕ) (tolDx tolObj : ℝ) (verbose : Bool)
    (solve : Pt (m * n + N) → Pt M → Matrix (Fin M) (Fin (m * n + N)) ℝ → Option ℝ → LPRes (m * n + N)) : LPArgs (m * n + N) M where
  f := fun x => .ok (altResidual (mk fun i => projY (partU x) (X i)) X fX x)
  jac := fun x => .ok (altJacobian mk X x).2
  norm := norm.toS
  T := fun x p t => liftE ((altTrajectory S mk norm bound hn svd qr X fX x p t).map Prod.snd)
  lb := match bound with | .upper => some 0 | _ => none
  ub := match bound with | .lower => some 0 | _ => none
  maxiter := maxiter
  btMax := btMax
  tolDx := tolDx
  tolObj := tolObj
  verbose := verbose
  solve := solve

/-- `_fit_alternating`, polyridge.py 620-672, given the arguments it hands to `sequential_lp`. -/
noncomputable def fitAlternating (S : FitSolver) (mk : (Fin M → Pt n) → BasisObj n N)
    (svdU : (Fin M → Pt n) → Matrix (Fin n) (Fin n) ℝ) (norm : PNorm) (bound : Bound) (rotate : Bool) (X : Fin M → Pt m) (fX : Pt M)
    (a : LPArgs (m * n + N) M) (U0 : Matrix (Fin m) (Fin n) ℝ) : Except Exn (Ridge m n N) :=
  match fitCoef S mk norm bound X fX U0 with
  | .error e => .error (.err e)
  | .ok (_, c0) =>
    match sequentialLP a (packUc U0 c0) with
    | .error e => .error e
    | .ok x => liftE (finish S mk svdU norm bound rotate X fX (partU x))

end Verif.Func
