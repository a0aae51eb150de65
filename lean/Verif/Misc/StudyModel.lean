import Verif.Lipschitz.BoundModel
import Verif.Domain.Model
import Mathlib.Analysis.InnerProductSpace.Projection.FiniteDimensional
import Mathlib.Analysis.InnerProductSpace.PiL2
import Mathlib.Analysis.SpecialFunctions.Trigonometric.Inverse

/-!
# Model of convergence studies

Source: `/repo/psdr/study.py` 1-57 (`subspace_convergence`).

The sampler, the function, the dimension reduction object and `scipy.linalg.subspace_angles` are parameters.  The sampler may be random: its
reply depends on the number of the call.  The dimension reduction object has a state; reading its attribute `U` may change the state (it does
for coordinate based reduction, coord.py 40-48).  A matrix is the list of its columns.  `subspace_dimension` is a natural number.
-/

namespace Verif.Misc

open Verif Verif.Domain Verif.Lip

variable {m : ℕ}

/-- The argument `data`, study.py 36. -/
inductive StudyData where
  | eval
  | grad
  | other
  deriving DecidableEq

/-- What the code calls. `σ` are the states of the dimension reduction object, `δ` the domains. -/
structure StudyEnv (σ δ : Type) (m : ℕ) where
  /-- the `i`-th call of `sampler(domain, N)`, one point per row after the `reshape` -/
  sampler : ℕ → δ → ℕ → Except Err (List (Pt m))
  /-- `fun.domain` -/
  funDomain : Except Err δ
  /-- `fun(X)` -/
  eval : List (Pt m) → Except Err (List ℝ)
  /-- `fun.grad(X)` -/
  grad : List (Pt m) → Except Err (List (Pt m))
  /-- `sdr.fit(X = X, fX = fX)` -/
  fitEval : σ → List (Pt m) → List ℝ → Except Err σ
  /-- `sdr.fit(grads = grads)` -/
  fitGrad : σ → List (Pt m) → Except Err σ
  /-- `sdr.U`, the columns -/
  getU : σ → Except Err (List (Pt m) × σ)
  /-- `np.max(subspace_angles(A, B))` -/
  ang : List (Pt m) → List (Pt m) → Except Err ℝ

variable {σ δ : Type}

/-- One fit, study.py 46-51. -/
def studyFit (E : StudyEnv σ δ m) (data : StudyData) (s : σ) (X : List (Pt m)) : Except Err σ :=
  match data with
  | .eval => do
    let fX ← E.eval X
    E.fitEval s X fX
  | .grad => do
    let g ← E.grad X
    E.fitGrad s g
  | .other => .ok s

/-- The loop, study.py 38-53: columns and numbers of points, and the object afterwards; `i` counts the calls of the sampler. -/
def studyLoop (E : StudyEnv σ δ m) (data : StudyData) (dom : δ) (d : ℕ) : ℕ → σ → List ℕ → Except Err (List (List (Pt m)) × List ℕ × σ)
  | _, s, [] => .ok ([], [], s)
  | i, s, N :: Ns => do
    let X ← E.sampler i dom N
    let s1 ← studyFit E data s X
    let U ← E.getU s1
    let r ← studyLoop E data dom d (i + 1) U.2 Ns
    pure (U.1.take d :: r.1, X.length :: r.2.1, r.2.2)

/-- The angles between consecutive subspaces, study.py 56. -/
def studyAngles (E : StudyEnv σ δ m) : List (List (Pt m)) → Except Err (List ℝ)
  | U :: V :: r => do
    let a ← E.ang U V
    let t ← studyAngles E (V :: r)
    pure (a :: t)
  | _ => .ok []

/-- `if domain is None: domain = fun.domain`, study.py 33-34. -/
def studyDomain (E : StudyEnv σ δ m) : Option δ → Except Err δ
  | none => E.funDomain
  | some D => .ok D

/-- study.py 36-57 for a given domain. -/
noncomputable def studyOn (E : StudyEnv σ δ m) (s : σ) (Ns : List ℕ) (data : StudyData) (d : ℕ) (dom : δ) : Except Err (List ℝ × List ℕ) :=
  if data = .other then .error .assertion else do
    let r ← studyLoop E data dom d 0 s Ns
    let a ← studyAngles E r.1
    pure (Real.pi / 2 :: a, r.2.1)

/-- `subspace_convergence(sdr, fun, sampler, Ns, domain, data, subspace_dimension)`, study.py 5-57: angles and numbers of points. -/
noncomputable def subspaceConvergence (E : StudyEnv σ δ m) (s : σ) (Ns : List ℕ) (domain : Option δ) (data : StudyData) (d : ℕ) :
    Except Err (List ℝ × List ℕ) :=
  (studyDomain E domain).bind (studyOn E s Ns data d)

/-! ### What `scipy.linalg.subspace_angles` promises -/

/-- Euclidean space. -/
abbrev Eu (m : ℕ) := EuclideanSpace ℝ (Fin m)

/-- The span of a list of columns. -/
def colSpan (A : List (Pt m)) : Submodule ℝ (Eu m) := Submodule.span ℝ {x | ∃ a ∈ A, x = WithLp.toLp 2 a}

/-- The smallest cosine between a unit vector of `S` and its best approximation in `T`. -/
noncomputable def minCos (S T : Submodule ℝ (Eu m)) : ℝ := sInf {c | ∃ x ∈ S, ‖x‖ = 1 ∧ c = ‖T.starProjection x‖}

/-- The cosine of the largest principal angle: measured from the space of smaller dimension. -/
noncomputable def principalCos (S T : Submodule ℝ (Eu m)) : ℝ :=
  if Module.finrank ℝ S ≤ Module.finrank ℝ T then minCos S T else minCos T S

/-- The largest angle returned by `subspace_angles`; without any column (of nonzero span) there is no angle and `np.max` raises. -/
def AngSpec (ang : List (Pt m) → List (Pt m) → Except Err ℝ) : Prop :=
  ∀ A B, (colSpan A = ⊥ ∨ colSpan B = ⊥ → ang A B = .error .valueError) ∧
    (colSpan A ≠ ⊥ → colSpan B ≠ ⊥ → ∃ θ, ang A B = .ok θ ∧ 0 ≤ θ ∧ θ ≤ Real.pi / 2 ∧ Real.cos θ = principalCos (colSpan A) (colSpan B))

end Verif.Misc
