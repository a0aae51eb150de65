import Mathlib.Analysis.SpecialFunctions.Log.Basic
import Mathlib.Analysis.SpecialFunctions.Trigonometric.Basic
import Mathlib.LinearAlgebra.Matrix.Determinant.Basic
import Mathlib.Data.Matrix.Mul
import Mathlib.Data.Matrix.Diagonal

/-!
# Model of the probability densities of random domains

Source: `/repo/psdr/domains/random.py` 13-34, `/repo/psdr/domains/uniform.py` 12-14, `/repo/psdr/domains/normal.py` 48-90, 119-124 and 149-163,
`/repo/psdr/domains/lognormal.py` 63-80.

Points are vectors of the right length, arithmetic is exact. The Cholesky factor of the covariance, its inverse and the quantile of
the chi-squared distribution are fields, with the contracts of `scipy` stated in the property file.
-/

namespace Verif.Domain

variable {m : ℕ}

open Classical in
/-- The indicator of `isinside(X)` for bounds, euclidean.py 1116-1130, with finite bounds and tolerance `tol` (`TOL = 1e-5`). -/
noncomputable def boxIndicator (lb ub : Fin m → ℝ) (tol : ℝ) (x : Fin m → ℝ) : ℝ :=
  if ∀ i, lb i - tol ≤ x i ∧ x i ≤ ub i + tol then 1 else 0

/-- `UniformDomain._pdf`, uniform.py 12-14. -/
noncomputable def uniformPdf (lb ub : Fin m → ℝ) (tol : ℝ) (x : Fin m → ℝ) : ℝ := boxIndicator lb ub tol x / ∏ i, (ub i - lb i)

/-- What `NormalDomain.__init__` stores, normal.py 48-89: mean, covariance, its Cholesky factor and the inverse of that, and the
truncation parameter with the `clip` computed from it. -/
structure NormalDist (m : ℕ) where
  mean : Fin m → ℝ
  cov : Matrix (Fin m) (Fin m) ℝ
  L : Matrix (Fin m) (Fin m) ℝ
  Linv : Matrix (Fin m) (Fin m) ℝ
  trunc : Option (ℝ × ℝ)

/-- The squared Mahalanobis distance, normal.py 152. -/
noncomputable def NormalDist.d2 (D : NormalDist m) (x : Fin m → ℝ) : ℝ := ∑ i, (D.Linv.mulVec (x - D.mean) i) ^ 2

/-- The density without truncation, normal.py 154. -/
noncomputable def NormalDist.base (D : NormalDist m) (x : Fin m → ℝ) : ℝ :=
  Real.exp (-0.5 * D.d2 x) / Real.sqrt ((2 * Real.pi) ^ m * |D.cov.det|)

open Classical in
/-- The indicator of `isinside(X)` for the quadratic constraint of a truncated domain, normal.py 84 and euclidean.py 1139-1148. -/
noncomputable def NormalDist.indicator (D : NormalDist m) (clip tol : ℝ) (x : Fin m → ℝ) : ℝ :=
  if Real.sqrt (D.d2 x) ≤ Real.sqrt clip + tol then 1 else 0

/-- `NormalDomain._pdf`, normal.py 150-163. -/
noncomputable def NormalDist.pdf (D : NormalDist m) (tol : ℝ) (x : Fin m → ℝ) : ℝ :=
  match D.trunc with
  | none => D.base x
  | some (τ, clip) => D.base x / (1 - τ) * D.indicator clip tol x

/-- One draw of `NormalDomain._sample` without truncation, normal.py 107: the standard normal vector `z` becomes `mean + L z`. -/
noncomputable def NormalDist.draw (D : NormalDist m) (z : Fin m → ℝ) : Fin m → ℝ := D.mean + D.L.mulVec z

/-- `LogNormalDomain._pdf`, lognormal.py 77-80, at points above the offset (elsewhere the logarithm is `nan`). -/
noncomputable def logNormalPdf (mean cov offset scaling x : ℝ) : ℝ :=
  Real.exp (-(Real.log ((x - offset) / scaling) - mean) ^ 2 / (2 * cov)) / ((x - offset) / scaling * cov * Real.sqrt (2 * Real.pi))


/-- `normalize`, euclidean.py 1101-1105, with slopes `s` (the diagonal of `_normalize_der`) and centre `c`. -/
noncomputable def affNormalize (s c x : Fin m → ℝ) : Fin m → ℝ := (Matrix.diagonal s).mulVec (x - c)

/-- `NormalDomain._normalized_domain`, normal.py 119-124: the constructor is called with `normalize(mean)`, `D cov D^T` and the same
`truncate`; it computes a new Cholesky factor `L` with inverse `Linv`, and the same `clip` since the dimension is the same. -/
noncomputable def NormalDist.normalized (N : NormalDist m) (s c : Fin m → ℝ) (L Linv : Matrix (Fin m) (Fin m) ℝ) : NormalDist m where
  mean := affNormalize s c N.mean
  cov := Matrix.diagonal s * N.cov * (Matrix.diagonal s).transpose
  L := L
  Linv := Linv
  trunc := N.trunc

/-- One draw of `LogNormalDomain._sample`, lognormal.py 63-65, from a draw `y` of the normal domain. -/
noncomputable def logNormalDraw (offset scaling y : ℝ) : ℝ := offset + scaling * Real.exp y

/-- The offset and scaling of the normalized lognormal domain (truncated case), lognormal.py 67-73. -/
noncomputable def logNormalizedParams (d c offset scaling : ℝ) : ℝ × ℝ := (d * (offset - c), d * scaling)

end Verif.Domain
