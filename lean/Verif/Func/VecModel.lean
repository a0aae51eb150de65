import Verif.Func.VarproModel

/-!
# Model of the vector valued polynomial ridge approximation

Source: `/repo/psdr/polyridge_vec.py` 16-182 (the residual and the Jacobian of one output are `varproResidual` and `varproJacobian` of `VarproModel`).

Simplifications: exact real arithmetic; `scipy.linalg.svd`, `np.linalg.qr` and `scipy.linalg.lstsq` are parameters; a fixed subspace has at most as many
columns as rows and at most `dimension` columns (so the shapes `m = nf + mm` and `dimension = nf + n` are built into the types).
-/

namespace Verif.Func

open Verif.Domain Verif.Lip Verif.Opt Matrix

variable {M m n N K nf mm : ℕ}

/-- `_varpro_residual`, polyridge_vec.py 30-45: `r.T.flatten()`, the residuals of the outputs one after the other. -/
def vecResidual (mk : (Fin M → Pt n) → BasisObj n N) (coef : Matrix (Fin M) (Fin N) ℝ → Pt M → Pt N)
    (X : Fin M → Pt m) (fX : Fin K → Pt M) (U : Matrix (Fin m) (Fin n) ℝ) : Pt (K * M) :=
  fun p => varproResidual mk coef X (fX (finProdFinEquiv.symm p).1) U (finProdFinEquiv.symm p).2

/-- `_varpro_jacobian`, polyridge_vec.py 47-91: `np.vstack(Js)`; the decomposition of the Vandermonde matrix serves all outputs. -/
noncomputable def vecJacobian (mk : (Fin M → Pt n) → BasisObj n N) (coef : Matrix (Fin M) (Fin N) ℝ → Pt M → Pt N)
    (dec : Matrix (Fin M) (Fin N) ℝ → VDec M N) (X : Fin M → Pt m) (fX : Fin K → Pt M) (U : Matrix (Fin m) (Fin n) ℝ) :
    Matrix (Fin (K * M)) (Fin (m * n)) ℝ :=
  let B := mk fun i => projY U (X i)
  let V := vandU B X U
  Matrix.of fun p => flatJac (varproJacobian B X (fX (finProdFinEquiv.symm p).1) U (coef V (fX (finProdFinEquiv.symm p).1))
    (dec V).Y (dec V).s (dec V).ZT) (finProdFinEquiv.symm p).2

/-- `np.hstack([Uf, W])`. -/
def hcat (Uf : Matrix (Fin m) (Fin nf) ℝ) (W : Matrix (Fin m) (Fin n) ℝ) : Matrix (Fin m) (Fin (nf + n)) ℝ :=
  Matrix.of fun i => Fin.append (Uf i) (W i)

/-- `_varpro_residual_fixed`, polyridge_vec.py 94-105. -/
def vecResidualFixed (mk : (Fin M → Pt (nf + n)) → BasisObj (nf + n) N) (coef : Matrix (Fin M) (Fin N) ℝ → Pt M → Pt N)
    (X : Fin M → Pt m) (fX : Fin K → Pt M) (Uf : Matrix (Fin m) (Fin nf) ℝ) (Uc : Matrix (Fin m) (Fin mm) ℝ) (u : Matrix (Fin mm) (Fin n) ℝ) :
    Pt (K * M) :=
  vecResidual mk coef X fX (hcat Uf (Uc * u))

/-- The part of the Jacobian for the columns that are not fixed, with the chain rule applied, polyridge_vec.py 113-117. -/
def restrictJac {R : ℕ} (Uc : Matrix (Fin m) (Fin mm) ℝ) (J : Matrix (Fin R) (Fin (m * (nf + n))) ℝ) : Matrix (Fin R) (Fin (mm * n)) ℝ :=
  Matrix.of fun i => flat (Matrix.of fun (l : Fin mm) (k : Fin n) => ∑ j : Fin m, unflat (J i) j (Fin.natAdd nf k) * Uc j l)

/-- `_varpro_jacobian_fixed`, polyridge_vec.py 108-117. -/
noncomputable def vecJacobianFixed (mk : (Fin M → Pt (nf + n)) → BasisObj (nf + n) N) (coef : Matrix (Fin M) (Fin N) ℝ → Pt M → Pt N)
    (dec : Matrix (Fin M) (Fin N) ℝ → VDec M N) (X : Fin M → Pt m) (fX : Fin K → Pt M) (Uf : Matrix (Fin m) (Fin nf) ℝ)
    (Uc : Matrix (Fin m) (Fin mm) ℝ) (u : Matrix (Fin mm) (Fin n) ℝ) : Matrix (Fin (K * M)) (Fin (mm * n)) ℝ :=
  restrictJac Uc (vecJacobian mk coef dec X fX (hcat Uf (Uc * u)))

/-- `_grassmann_trajectory` on reshaped arguments, polyridge_vec.py 16-20, 154, for `n ≤ m`; there is no `orth` here. -/
noncomputable def vecTraj (hn : n ≤ m) (svd : Matrix (Fin m) (Fin n) ℝ → TSvd m n) : Traj (m * n) := fun x p t =>
  .ok (flat ((geodesic (unflat x) (svd (unflat p)) t).submatrix id (finCongr (min_eq_right hn).symm)))

/-- The options passed on to `gauss_newton`. -/
structure GNOpt where
  tol : ℝ
  tolDx : ℝ
  maxiter : ℤ
  verbose : ℤ

/-- The arguments of `gauss_newton` for a residual and a Jacobian, polyridge_vec.py 150-175. -/
noncomputable def vecArgs {R : ℕ} (hn : n ≤ m) (svdJ : Matrix (Fin R) (Fin (m * n)) ℝ → TSvd R (m * n))
    (svdD : Matrix (Fin m) (Fin n) ℝ → TSvd m n) (res : Matrix (Fin m) (Fin n) ℝ → Pt R)
    (jac : Matrix (Fin m) (Fin n) ℝ → Matrix (Fin R) (Fin (m * n)) ℝ) (o : GNOpt) : GNArgs (m * n) R where
  f := fun x => .ok (res (unflat x))
  F := fun x => .ok (jac (unflat x))
  tol := o.tol
  tolDx := o.tolDx
  maxiter := o.maxiter
  ls := armijoLS
  verbose := o.verbose
  T := vecTraj hn svdD
  solver := varproSolver svdJ

/-- `polynomial_ridge_approximation(X, fX, dimension, degree, U0 = U0)`, polyridge_vec.py 150-155, 173-178. -/
noncomputable def vecRidge (hn : n ≤ m) (svdJ : Matrix (Fin (K * M)) (Fin (m * n)) ℝ → TSvd (K * M) (m * n))
    (svdD : Matrix (Fin m) (Fin n) ℝ → TSvd m n) (mk : (Fin M → Pt n) → BasisObj n N)
    (coef : Matrix (Fin M) (Fin N) ℝ → Pt M → Pt N) (dec : Matrix (Fin M) (Fin N) ℝ → VDec M N) (X : Fin M → Pt m) (fX : Fin K → Pt M) (o : GNOpt)
    (U0 : Matrix (Fin m) (Fin n) ℝ) : Except Exn (Matrix (Fin m) (Fin n) ℝ) :=
  (gaussNewton (vecArgs hn svdJ svdD (vecResidual mk coef X fX) (vecJacobian mk coef dec X fX) o) (flat U0)).map fun r => unflat r.1

/-- The two blocks of the complete QR factorization of the fixed subspace, polyridge_vec.py 159-161. -/
def fixedPart (Q : Matrix (Fin m) (Fin (nf + mm)) ℝ) : Matrix (Fin m) (Fin nf) ℝ := Matrix.of fun i j => Q i (Fin.castAdd mm j)

/-- `Q[:, nf:]`, polyridge_vec.py 161. -/
def freePart (Q : Matrix (Fin m) (Fin (nf + mm)) ℝ) : Matrix (Fin m) (Fin mm) ℝ := Matrix.of fun i j => Q i (Fin.natAdd nf j)

/-- The start of the search: the leading `n` left singular vectors of `Uc.T @ U0`, polyridge_vec.py 170-171; with fewer of them the reshape in the
residual raises `ValueError`. -/
def vecStart {k : ℕ} (svd : Matrix (Fin mm) (Fin k) ℝ → TSvd mm k) (Uc : Matrix (Fin m) (Fin mm) ℝ) (n : ℕ) (U0 : Matrix (Fin m) (Fin k) ℝ) :
    Except Exn (Matrix (Fin mm) (Fin n) ℝ) :=
  if h : n ≤ min mm k then .ok (Matrix.of fun i j => (svd (Ucᵀ * U0)).Y i (Fin.castLE h j)) else .error (.err .valueError)

/-- `polynomial_ridge_approximation(X, fX, dimension, degree, fixed_subspace, U0)`, polyridge_vec.py 156-180; `Q` comes from
`np.linalg.qr(fixed_subspace, mode = 'complete')`. -/
noncomputable def vecRidgeFixed {k : ℕ} (hn : n ≤ mm) (svdJ : Matrix (Fin (K * M)) (Fin (mm * n)) ℝ → TSvd (K * M) (mm * n))
    (svdD : Matrix (Fin mm) (Fin n) ℝ → TSvd mm n) (svdU : Matrix (Fin mm) (Fin k) ℝ → TSvd mm k)
    (mk : (Fin M → Pt (nf + n)) → BasisObj (nf + n) N) (coef : Matrix (Fin M) (Fin N) ℝ → Pt M → Pt N)
    (dec : Matrix (Fin M) (Fin N) ℝ → VDec M N) (X : Fin M → Pt m) (fX : Fin K → Pt M) (o : GNOpt)
    (Q : Matrix (Fin m) (Fin (nf + mm)) ℝ) (U0 : Matrix (Fin m) (Fin k) ℝ) : Except Exn (Matrix (Fin m) (Fin (nf + n)) ℝ) :=
  match vecStart svdU (freePart Q) n U0 with
  | .error e => .error e
  | .ok u0 =>
    (gaussNewton (vecArgs hn svdJ svdD (vecResidualFixed mk coef X fX (fixedPart Q) (freePart Q))
      (vecJacobianFixed mk coef dec X fX (fixedPart Q) (freePart Q)) o) (flat u0)).map fun r => hcat (fixedPart Q) (freePart Q * unflat r.1)

/-- The outputs as passed by the user: one value per sample, or a matrix with one column per output. -/
inductive VecData (M : ℕ) where
  | oneD (f : Pt M)
  | twoD (K : ℕ) (f : Fin K → Pt M)

/-- The arrays `fXi` of `for fXi in fX.T` after `fX = np.atleast_2d(fX)`, polyridge_vec.py 143, 146: a one dimensional array becomes one row. -/
def VecData.iter : VecData M → List (List ℝ)
  | .oneD f => (List.ofFn f).map fun v => [v]
  | .twoD _ f => List.ofFn fun k => List.ofFn (f k)

/-- The columns of `fX.reshape(M, -1)`, polyridge_vec.py 35, 51. -/
def VecData.cols : VecData M → List (Pt M)
  | .oneD f => [f]
  | .twoD _ f => List.ofFn f

/-- The matrices that are stacked for the default start, polyridge_vec.py 146; `init` is `initialize_subspace(X, fXi)` for as many evaluations as samples,
otherwise misc.py 16 raises.  `np.hstack([])` raises `ValueError`. -/
def vecInit {α : Type} (init : Pt M → α) (d : VecData M) : Except Err (List α) :=
  match d.iter with
  | [] => .error .valueError
  | l => l.mapM fun fi => if h : fi.length = M then .ok (init fun i => fi.get (i.cast h.symm)) else .error .assertion

end Verif.Func
