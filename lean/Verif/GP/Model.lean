import Verif.Lipschitz.FitModel
import Mathlib.Analysis.SpecialFunctions.Exp
import Mathlib.Analysis.Normed.Algebra.MatrixExponential

/-!
# Model of the Gaussian process

Source: `/repo/psdr/gp.py`.

Samples are a function `X` on `Fin M`, the values a function `y`. The polynomial part is given by the functions `ψ`
(`self.basis.V`), with no functions when `degree` is `None`. The eigenvalue routine `scipy.linalg.eigh` and the optimizer
`scipy.optimize.minimize` are parameters; of the latter only the returned parameter matters. Exact real arithmetic; arrays of
wrong shape are not represented.
-/

namespace Verif.GP

open Verif Verif.Lip Matrix

variable {m M q : ℕ}

/-- `np.finfo(float).eps`. -/
noncomputable def eps : ℝ := 1 / 2 ^ 52

/-- The default nugget, gp.py 139-140. -/
noncomputable def defaultNugget : ℝ := 5 * eps

/-- The parameter for each of the structures, gp.py 147-172 and 293-301. -/
inductive Ell (m : ℕ) where
  | const (l : ℝ)
  | mult (L0 : Matrix (Fin m) (Fin m) ℝ) (l : ℝ)
  | diag (l : Fin m → ℝ)
  | tril (l : Fin m → Fin m → ℝ)

/-- `_make_L`, gp.py 147-172. -/
noncomputable def makeL : Ell m → Matrix (Fin m) (Fin m) ℝ
  | .const l => Real.exp l • (1 : Matrix (Fin m) (Fin m) ℝ)
  | .mult L0 l => Real.exp l • L0
  | .diag l => Matrix.diagonal fun i => Real.exp (l i)
  | .tril l => NormedSpace.exp (Matrix.of fun i j => if j ≤ i then l i j else 0)

/-- `sqeuclidean` of two rows. -/
def sqd (a b : Pt m) : ℝ := ∑ i, (a i - b i) ^ 2

/-- `np.exp(-0.5*dij)`, gp.py 190, 369. -/
noncomputable def kern (a b : Pt m) : ℝ := Real.exp (-0.5 * sqd a b)

/-- The covariance matrix of transformed samples, gp.py 186-190. -/
noncomputable def kernMat (Y : Fin M → Pt m) : Matrix (Fin M) (Fin M) ℝ := Matrix.of fun i j => kern (Y i) (Y j)

/-- `Y = np.dot(L, X.T).T`, gp.py 186. -/
def images (L : Matrix (Fin m) (Fin m) ℝ) (X : Fin M → Pt m) : Fin M → Pt m := fun i => L *ᵥ X i

/-- The Vandermonde matrix `self.V`, gp.py 305-309. -/
def vmat (ψ : Fin q → Pt m → ℝ) (X : Fin M → Pt m) : Matrix (Fin M) (Fin q) ℝ := Matrix.of fun i j => ψ j (X i)

/-- The matrix `A`, gp.py 194-195. -/
noncomputable def gpA (τ : ℝ) (K : Matrix (Fin M) (Fin M) ℝ) (V : Matrix (Fin M) (Fin q) ℝ) :
    Matrix (Fin M ⊕ Fin q) (Fin M ⊕ Fin q) ℝ := Matrix.fromBlocks (K + τ • (1 : Matrix (Fin M) (Fin M) ℝ)) V Vᵀ 0

/-- The right hand side, gp.py 196. -/
def gpB (y : Fin M → ℝ) : Fin M ⊕ Fin q → ℝ := Sum.elim y 0

/-- An eigendecomposition as returned by `eigh`: values and vectors. -/
abbrev Eig (ι : Type) := (ι → ℝ) × Matrix ι ι ℝ

/-- What `scipy.linalg.eigh` promises for a symmetric matrix. -/
def IsEig {ι : Type} [Fintype ι] [DecidableEq ι] (A : Matrix ι ι ℝ) (d : Eig ι) : Prop :=
  d.2ᵀ * d.2 = 1 ∧ A = d.2 * Matrix.diagonal d.1 * d.2ᵀ

open Classical in
/-- The solution with the eigenvalues in `I` only, `evA[:,I] · (1/ewA[I]) · evA[:,I].T · b`, gp.py 201 and 380. -/
noncomputable def specSolve {ι : Type} [Fintype ι] (d : Eig ι) (I : ι → Prop) (b : ι → ℝ) : ι → ℝ :=
  d.2 *ᵥ fun k => if I k then 1 / d.1 k * (d.2ᵀ *ᵥ b) k else 0

/-- The eigenvalues kept, gp.py 200. -/
def kept {ι : Type} (d : Eig ι) : ι → Prop := fun k => 5 * eps < |d.1 k|

/-- The routine `eigh` for the three matrices of the class. -/
structure Eighs (M q : ℕ) where
  big : Matrix (Fin M ⊕ Fin q) (Fin M ⊕ Fin q) ℝ → Eig (Fin M ⊕ Fin q)
  small : Matrix (Fin M) (Fin M) ℝ → Eig (Fin M)

structure EighsSpec (e : Eighs M q) : Prop where
  big : ∀ A, Aᵀ = A → IsEig A (e.big A)
  small : ∀ A, Aᵀ = A → IsEig A (e.small A)

/-- A fitted process: `L`, `alpha`, `beta`. -/
structure GPFit (m M q : ℕ) where
  L : Matrix (Fin m) (Fin m) ℝ
  α : Fin M → ℝ
  β : Fin q → ℝ

/-- `x`, gp.py 192-201. -/
noncomputable def gpX (e : Eighs M q) (τ : ℝ) (Y : Fin M → Pt m) (V : Matrix (Fin M) (Fin q) ℝ) (y : Fin M → ℝ) : Fin M ⊕ Fin q → ℝ :=
  specSolve (e.big (gpA τ (kernMat Y) V)) (kept (e.big (gpA τ (kernMat Y) V))) (gpB y)

/-- `_fit` for the parameter `ell` returned by the optimizer, gp.py 350-363. -/
noncomputable def gpFit (e : Eighs M q) (τ : ℝ) (ψ : Fin q → Pt m → ℝ) (X : Fin M → Pt m) (y : Fin M → ℝ) (ell : Ell m) : GPFit m M q :=
  let x := gpX e τ (images (makeL ell) X) (vmat ψ X) y
  ⟨makeL ell, fun i => x (Sum.inl i), fun j => x (Sum.inr j)⟩

/-- The predicted mean at one point, gp.py 365-375. -/
noncomputable def gpMean (ψ : Fin q → Pt m → ℝ) (X : Fin M → Pt m) (f : GPFit m M q) (x : Pt m) : ℝ :=
  ∑ i, kern (f.L *ᵥ x) (f.L *ᵥ X i) * f.α i + ∑ j, ψ j x * f.β j

/-- The eigenvalues kept for the variance, gp.py 379. -/
def keptVar {ι : Type} (d : Eig ι) : ι → Prop := fun k => 500 * eps < d.1 k

/-- The predicted variance before clipping, gp.py 377-382: no nugget and no polynomial part. -/
noncomputable def rawVar (e : Eighs M q) (X : Fin M → Pt m) (f : GPFit m M q) (x : Pt m) : ℝ :=
  let d := e.small (kernMat (images f.L X))
  let k : Fin M → ℝ := fun i => kern (f.L *ᵥ x) (f.L *ᵥ X i)
  1 - k ⬝ᵥ specSolve d (keptVar d) k

open Classical in
/-- The predicted variance, gp.py 383. -/
noncomputable def gpVar (e : Eighs M q) (X : Fin M → Pt m) (f : GPFit m M q) (x : Pt m) : ℝ :=
  if rawVar e X f x < 0 then 0 else rawVar e X f x

end Verif.GP
