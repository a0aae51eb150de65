import Verif.Func.PolyModel
import Verif.Opt.GNModel
import Mathlib.Analysis.SpecialFunctions.Trigonometric.Deriv

/-!
# Model of the variable projection step of polynomial ridge approximation

Source: `/repo/psdr/polyridge.py` 103-107 (`orth`) and 448-538 (`_varpro_residual`, `_varpro_jacobian`,
`_grassmann_trajectory`, `_fit_varpro`), and the copies of these in `/repo/psdr/polyridge_vec.py` 16-91.

`scipy.linalg.svd` (thin form), `np.linalg.qr` and `scipy.linalg.lstsq` are parameters.  Exact real arithmetic;
a division by a vanishing singular value (which gives `inf`) is not modelled, the theorems assume the
singular values that are used are positive.
-/

namespace Verif.Func

open Verif.Domain Verif.Lip Verif.Opt Matrix

variable {M m n N : ℕ}

/-- A thin singular value decomposition, as returned by `scipy.linalg.svd(A, full_matrices = False)`. -/
structure TSvd (a b : ℕ) where
  Y : Matrix (Fin a) (Fin (min a b)) ℝ
  s : Fin (min a b) → ℝ
  ZT : Matrix (Fin (min a b)) (Fin b) ℝ

/-- What `scipy.linalg.svd` promises. -/
structure IsTSvd {a b : ℕ} (A : Matrix (Fin a) (Fin b) ℝ) (d : TSvd a b) : Prop where
  orthY : d.Yᵀ * d.Y = 1
  orthZ : d.ZT * d.ZTᵀ = 1
  nonneg : ∀ i, 0 ≤ d.s i
  sorted : Antitone d.s
  eq : A = d.Y * Matrix.diagonal d.s * d.ZT

/-- A reduced QR factorization (of a matrix with at least as many rows as columns). -/
structure IsRQr (A : Matrix (Fin m) (Fin n) ℝ) (d : Matrix (Fin m) (Fin n) ℝ × Matrix (Fin n) (Fin n) ℝ) : Prop where
  orth : d.1ᵀ * d.1 = 1
  upper : ∀ i j, j < i → d.2 i j = 0
  eq : A = d.1 * d.2

/-- `orth(U)`, polyridge.py 103-107, given the two factors returned by `np.linalg.qr`. -/
noncomputable def orthStep (d : Matrix (Fin m) (Fin n) ℝ × Matrix (Fin n) (Fin n) ℝ) : Matrix (Fin m) (Fin n) ℝ :=
  d.1 * Matrix.diagonal (fun i => sgn (d.2 i i))

/-- The geodesic before `orth`, polyridge.py 510-512 and polyridge_vec.py 16-20. -/
noncomputable def geodesic (U : Matrix (Fin m) (Fin n) ℝ) (d : TSvd m n) (t : ℝ) : Matrix (Fin m) (Fin (min m n)) ℝ :=
  U * d.ZTᵀ * Matrix.diagonal (fun i => Real.cos (d.s i * t)) + d.Y * Matrix.diagonal (fun i => Real.sin (d.s i * t))

/-- `_grassmann_trajectory`, polyridge.py 507-514. -/
noncomputable def grassmann (svd : Matrix (Fin m) (Fin n) ℝ → TSvd m n)
    (qr : Matrix (Fin m) (Fin (min m n)) ℝ → Matrix (Fin m) (Fin (min m n)) ℝ × Matrix (Fin (min m n)) (Fin (min m n)) ℝ)
    (U Delta : Matrix (Fin m) (Fin n) ℝ) (t : ℝ) : Matrix (Fin m) (Fin (min m n)) ℝ :=
  orthStep (qr (geodesic U (svd Delta) t))

/-- `U.flatten()` in row-major order. -/
def flat (U : Matrix (Fin m) (Fin n) ℝ) : Pt (m * n) := fun p => U (finProdFinEquiv.symm p).1 (finProdFinEquiv.symm p).2

/-- `reshape(m, n)` in row-major order. -/
def unflat (v : Pt (m * n)) : Matrix (Fin m) (Fin n) ℝ := Matrix.of fun k l => v (finProdFinEquiv (k, l))

/-- The indices kept by the slice `[:-n**2]` of a sequence of length `p` (for `n = 0` the slice `[:0]` is empty). -/
def keepIdx (n p : ℕ) (i : Fin p) : Prop := n ≠ 0 ∧ (i : ℕ) + n ^ 2 < p

instance (n p : ℕ) (i : Fin p) : Decidable (keepIdx n p i) := by unfold keepIdx; infer_instance

/-- `gn_solver(J_flat, r)`, polyridge.py 519-524 and polyridge_vec.py 22-27: the search direction. -/
noncomputable def gnDirection (n : ℕ) {q : ℕ} (d : TSvd M q) (r : Pt M) : Pt q :=
  -(∑ i : Fin (min M q), if keepIdx n (min M q) i then ((1 / d.s i) * ((fun a => d.Y a i) ⬝ᵥ r)) • d.ZT i else 0)

/-- `V = basis.V(Y)` with `Y = (U.T @ X.T).T`, polyridge.py 452-454. -/
def vandU (B : BasisObj n N) (X : Fin M → Pt m) (U : Matrix (Fin m) (Fin n) ℝ) : Matrix (Fin M) (Fin N) ℝ :=
  Matrix.of fun i => B.V (projY U (X i))

/-- `_varpro_residual`, polyridge.py 448-461: the basis is rebuilt from the projected samples; `coef` is `lstsq`, or
`V.T @ fX` for the Arnoldi basis. -/
def varproResidual (mk : (Fin M → Pt n) → BasisObj n N) (coef : Matrix (Fin M) (Fin N) ℝ → Pt M → Pt N)
    (X : Fin M → Pt m) (fX : Pt M) (U : Matrix (Fin m) (Fin n) ℝ) : Pt M :=
  let V := vandU (mk fun i => projY U (X i)) X U
  fX - V *ᵥ coef V fX

/-- `V.T @ fX`, the coefficients for the Arnoldi basis, polyridge.py 457. -/
def arnoldiCoef (V : Matrix (Fin M) (Fin N) ℝ) (fX : Pt M) : Pt N := Vᵀ *ᵥ fX

/-- The matrix `DVDU_k = X[:,k,None]*DV[:,:,ell]`, polyridge.py 493. -/
def dvdu (B : BasisObj n N) (X : Fin M → Pt m) (U : Matrix (Fin m) (Fin n) ℝ) (k : Fin m) (l : Fin n) : Matrix (Fin M) (Fin N) ℝ :=
  Matrix.of fun i j => X i k * B.DV (projY U (X i)) j l

/-- `_varpro_jacobian`, polyridge.py 463-505, as a function of row and entry of `U`: the projector `Y Y^T` and
`Y diag(1/s) ZT` come from the singular value decomposition of `V` (for the Arnoldi basis `Y = V`, `s = 1`, `ZT = I`). -/
noncomputable def varproJacobian {p : ℕ} (B : BasisObj n N) (X : Fin M → Pt m) (fX : Pt M) (U : Matrix (Fin m) (Fin n) ℝ) (c : Pt N)
    (Y : Matrix (Fin M) (Fin p) ℝ) (s : Fin p → ℝ) (ZT : Matrix (Fin p) (Fin N) ℝ) (i : Fin M) (k : Fin m) (l : Fin n) : ℝ :=
  let J1 := dvdu B X U k l *ᵥ c
  let J2 := (dvdu B X U k l)ᵀ *ᵥ (fX - vandU B X U *ᵥ c)
  0 - ((J1 i - (Y *ᵥ (Yᵀ *ᵥ J1)) i) + (Y *ᵥ (Matrix.diagonal (fun a => 1 / s a) *ᵥ (ZT *ᵥ J2))) i)

/-- `J.reshape(J.shape[0], -1)`, polyridge.py 505. -/
def flatJac (J : Fin M → Fin m → Fin n → ℝ) : Matrix (Fin M) (Fin (m * n)) ℝ := Matrix.of fun i => flat (Matrix.of (J i))

/-- `gn_solver`, polyridge.py 519-524: a vanishing singular value among those kept makes the direction non-finite. -/
noncomputable def varproSolver (svd : Matrix (Fin M) (Fin (m * n)) ℝ → TSvd M (m * n)) : GNSolver (m * n) M := fun J r =>
  open Classical in
  let d := svd J
  .ok (if ∀ i, keepIdx n (min M (m * n)) i → d.s i ≠ 0 then some (gnDirection n d r) else none,
    ((List.finRange (min M (m * n))).filter (fun i => keepIdx n (min M (m * n)) i)).map d.s)

/-- `_grassmann_trajectory` on flattened arguments, polyridge.py 507-514, for `n ≤ m` (then `min m n` columns are `n`). -/
noncomputable def grassTraj (hn : n ≤ m) (svd : Matrix (Fin m) (Fin n) ℝ → TSvd m n)
    (qr : Matrix (Fin m) (Fin (min m n)) ℝ → Matrix (Fin m) (Fin (min m n)) ℝ × Matrix (Fin (min m n)) (Fin (min m n)) ℝ) :
    Traj (m * n) := fun x p t =>
  .ok (flat ((grassmann svd qr (unflat x) (unflat p) t).submatrix id (finCongr (min_eq_right hn).symm)))

/-- The decomposition used in `_varpro_jacobian`, polyridge.py 473-481. -/
structure VDec (M N : ℕ) where
  p : ℕ
  Y : Matrix (Fin M) (Fin p) ℝ
  s : Fin p → ℝ
  ZT : Matrix (Fin p) (Fin N) ℝ

/-- The arguments `_fit_varpro` passes to `gauss_newton`, polyridge.py 516-535; `dec` and `coef` are the decomposition and the
coefficients of a Vandermonde matrix, the rest are the options of the solver. -/
noncomputable def varproArgs (hn : n ≤ m) (svdJ : Matrix (Fin M) (Fin (m * n)) ℝ → TSvd M (m * n))
    (svdD : Matrix (Fin m) (Fin n) ℝ → TSvd m n)
    (qr : Matrix (Fin m) (Fin (min m n)) ℝ → Matrix (Fin m) (Fin (min m n)) ℝ × Matrix (Fin (min m n)) (Fin (min m n)) ℝ)
    (mk : (Fin M → Pt n) → BasisObj n N) (coef : Matrix (Fin M) (Fin N) ℝ → Pt M → Pt N) (dec : Matrix (Fin M) (Fin N) ℝ → VDec M N)
    (X : Fin M → Pt m) (fX : Pt M) (tol tolDx : ℝ) (maxiter verbose : ℤ) : GNArgs (m * n) M where
  f := fun x => .ok (varproResidual mk coef X fX (unflat x))
  F := fun x =>
    let B := mk fun i => projY (unflat x) (X i)
    let V := vandU B X (unflat x)
    .ok (flatJac (varproJacobian B X fX (unflat x) (coef V fX) (dec V).Y (dec V).s (dec V).ZT))
  tol := tol
  tolDx := tolDx
  maxiter := maxiter
  ls := armijoLS
  verbose := verbose
  T := grassTraj hn svdD qr
  solver := varproSolver svdJ

end Verif.Func
