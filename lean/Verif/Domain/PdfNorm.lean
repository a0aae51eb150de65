import Mathlib.LinearAlgebra.Matrix.Notation
import Mathlib.Data.Matrix.Diagonal
import Verif.Domain.PdfProps

/-!
# Normalized random domains (C114)

Source: `/repo/psdr/domains/normal.py` 119-124 and `/repo/psdr/domains/lognormal.py` 67-75: the normalized domain of a normal (lognormal)
domain is again of that kind. `normalize(x)` is `D (x - c)`, euclidean.py 1101-1105, with the diagonal matrix `D` of positive slopes and
the centre `c`.
-/

namespace Verif.Domain

open MeasureTheory

variable {m : ℕ}

/-! ## Normal domains -/

/-- The Mahalanobis distance depends on the covariance only: any factorization gives the same. -/
theorem NormalDist.Ok.d2_eq {N : NormalDist m} (h : N.Ok) (x : Fin m → ℝ) :
    N.d2 x = (x - N.mean) ⬝ᵥ (N.cov⁻¹.mulVec (x - N.mean)) := by
  have hinv : N.cov⁻¹ = N.Linv.transpose * N.Linv := by
    apply Matrix.inv_eq_left_inv
    rw [← h.chol]
    calc N.Linv.transpose * N.Linv * (N.L * N.L.transpose) = N.Linv.transpose * (N.Linv * N.L) * N.L.transpose := by
          simp only [Matrix.mul_assoc]
      _ = (N.L * N.Linv).transpose := by rw [h.inv', Matrix.mul_one, Matrix.transpose_mul]
      _ = 1 := by rw [h.inv, Matrix.transpose_one]
  rw [hinv, ← Matrix.mulVec_mulVec, Matrix.dotProduct_mulVec, Matrix.vecMul_transpose]
  unfold NormalDist.d2 dotProduct
  exact Finset.sum_congr rfl fun i _ => sq _

theorem diag_isUnit {s : Fin m → ℝ} (hs : ∀ i, 0 < s i) : IsUnit (Matrix.diagonal s).det := by
  rw [Matrix.det_diagonal]
  exact (Finset.prod_pos fun i _ => hs i).ne'.isUnit

/-- C114: a point and its image under `normalize` have the same Mahalanobis distance in the two domains. -/
theorem normalized_d2 {N : NormalDist m} (h : N.Ok) {s c : Fin m → ℝ} (hs : ∀ i, 0 < s i) {L Linv : Matrix (Fin m) (Fin m) ℝ}
    (h' : (N.normalized s c L Linv).Ok) (x : Fin m → ℝ) : (N.normalized s c L Linv).d2 (affNormalize s c x) = N.d2 x := by
  rw [h.d2_eq, h'.d2_eq]
  have hu := diag_isUnit hs
  have hdiff : affNormalize s c x - (N.normalized s c L Linv).mean = (Matrix.diagonal s).mulVec (x - N.mean) := by
    show (Matrix.diagonal s).mulVec (x - c) - (Matrix.diagonal s).mulVec (N.mean - c) = _
    rw [← Matrix.mulVec_sub]
    congr 1
    abel
  have hcov : (N.normalized s c L Linv).cov⁻¹ = (Matrix.diagonal s)⁻¹ * N.cov⁻¹ * (Matrix.diagonal s)⁻¹ := by
    show (Matrix.diagonal s * N.cov * (Matrix.diagonal s).transpose)⁻¹ = _
    rw [Matrix.diagonal_transpose, Matrix.mul_inv_rev, Matrix.mul_inv_rev, ← Matrix.mul_assoc]
  have hvec : Matrix.vecMul ((Matrix.diagonal s).mulVec (x - N.mean)) (Matrix.diagonal s)⁻¹ = x - N.mean := by
    rw [← Matrix.vecMul_transpose, Matrix.diagonal_transpose, Matrix.vecMul_vecMul, Matrix.mul_nonsing_inv _ hu, Matrix.vecMul_one]
  rw [hdiff, hcov, Matrix.mul_assoc, ← Matrix.mulVec_mulVec, ← Matrix.mulVec_mulVec, Matrix.mulVec_mulVec _ _ (Matrix.diagonal s),
    Matrix.nonsing_inv_mul _ hu, Matrix.one_mulVec, Matrix.dotProduct_mulVec, hvec]

/-- C114: a point belongs to a normal domain exactly if its image under `normalize` belongs to the normalized domain. -/
theorem normalized_points {N : NormalDist m} (h : N.Ok) {s c : Fin m → ℝ} (hs : ∀ i, 0 < s i) {L Linv : Matrix (Fin m) (Fin m) ℝ}
    (h' : (N.normalized s c L Linv).Ok) (x : Fin m → ℝ) : affNormalize s c x ∈ (N.normalized s c L Linv).points ↔ x ∈ N.points := by
  have hd := normalized_d2 h hs h' x
  unfold NormalDist.points
  rw [show (N.normalized s c L Linv).trunc = N.trunc from rfl]
  rcases N.trunc with _ | ⟨τ, clip⟩
  · exact Iff.rfl
  · show (N.normalized s c L Linv).d2 (affNormalize s c x) ≤ clip ↔ N.d2 x ≤ clip
    rw [hd]

/-- C114: the density of the normalized domain is the density of the domain in the normalized coordinates: `p_norm(normalize(x)) |det D|
= p(x)`, with and without truncation. -/
theorem normalized_pdf {N : NormalDist m} (h : N.Ok) {s c : Fin m → ℝ} (hs : ∀ i, 0 < s i) {L Linv : Matrix (Fin m) (Fin m) ℝ}
    (h' : (N.normalized s c L Linv).Ok) (tol : ℝ) (x : Fin m → ℝ) :
    (N.normalized s c L Linv).pdf tol (affNormalize s c x) * ∏ i, s i = N.pdf tol x := by
  have hd := normalized_d2 h hs h' x
  have hpos : 0 < ∏ i, s i := Finset.prod_pos fun i _ => hs i
  have hbase : (N.normalized s c L Linv).base (affNormalize s c x) * ∏ i, s i = N.base x := by
    unfold NormalDist.base
    rw [hd]
    have hdet : |(N.normalized s c L Linv).cov.det| = |N.cov.det| * (∏ i, s i) ^ 2 := by
      show |(Matrix.diagonal s * N.cov * (Matrix.diagonal s).transpose).det| = _
      rw [Matrix.det_mul, Matrix.det_mul, Matrix.det_transpose, Matrix.det_diagonal, abs_mul, abs_mul, abs_of_pos hpos]
      ring
    rw [hdet, ← mul_assoc, Real.sqrt_mul (by positivity), Real.sqrt_sq hpos.le, div_mul_eq_mul_div, mul_comm (Real.sqrt _),
      mul_comm (Real.exp _), mul_div_mul_left _ _ hpos.ne']
  unfold NormalDist.pdf NormalDist.indicator
  rw [show (N.normalized s c L Linv).trunc = N.trunc from rfl]
  rcases N.trunc with _ | ⟨τ, clip⟩
  · exact hbase
  · show (N.normalized s c L Linv).base (affNormalize s c x) / (1 - τ) * _ * _ = N.base x / (1 - τ) * _
    rw [hd, ← hbase]
    ring

/-- C114: the factorization the constructor needs always exists if the domain had one. -/
theorem normalized_factor_exists {N : NormalDist m} (h : N.Ok) {s c : Fin m → ℝ} (hs : ∀ i, 0 < s i) :
    ∃ L Linv, (N.normalized s c L Linv).Ok := by
  have hu := diag_isUnit hs
  refine ⟨Matrix.diagonal s * N.L, N.Linv * (Matrix.diagonal s)⁻¹, ?_, ?_, h.quantile⟩
  · show Matrix.diagonal s * N.L * (Matrix.diagonal s * N.L).transpose = Matrix.diagonal s * N.cov * (Matrix.diagonal s).transpose
    rw [Matrix.transpose_mul, ← h.chol]
    simp only [Matrix.mul_assoc]
  · show Matrix.diagonal s * N.L * (N.Linv * (Matrix.diagonal s)⁻¹) = 1
    rw [Matrix.mul_assoc, ← Matrix.mul_assoc N.L, h.inv, Matrix.one_mul, Matrix.mul_nonsing_inv _ hu]

/-! ## Lognormal domains -/

/-- C114: drawing from the normalized lognormal domain is normalizing a draw. -/
theorem lognormal_normalized_draw (d c offset scaling y : ℝ) :
    logNormalDraw (logNormalizedParams d c offset scaling).1 (logNormalizedParams d c offset scaling).2 y =
      d * (logNormalDraw offset scaling y - c) := by
  unfold logNormalDraw logNormalizedParams
  ring

/-- C114 for lognormal densities: the normalized domain reports the same value at corresponding points, without the factor that the
change of variables needs. -/
theorem lognormal_normalized_pdf (mean cov : ℝ) {d : ℝ} (hd : d ≠ 0) (c offset scaling x : ℝ) :
    logNormalPdf mean cov (logNormalizedParams d c offset scaling).1 (logNormalizedParams d c offset scaling).2 (d * (x - c)) =
      logNormalPdf mean cov offset scaling x := by
  have e : (d * (x - c) - d * (offset - c)) / (d * scaling) = (x - offset) / scaling := by
    rw [show d * (x - c) - d * (offset - c) = d * (x - offset) by ring, mul_div_mul_left _ _ hd]
  unfold logNormalPdf logNormalizedParams
  dsimp only
  rw [e]

theorem logNormalPdf_pos (mean offset : ℝ) {cov scaling x : ℝ} (hc : 0 < cov) (hs : 0 < scaling) (hx : offset < x) :
    0 < logNormalPdf mean cov offset scaling x := by
  unfold logNormalPdf
  have : 0 < (x - offset) / scaling := div_pos (sub_pos.2 hx) hs
  positivity

/-- C114 fails for lognormal domains unless the slope is one. -/
theorem lognormal_normalized_iff (mean : ℝ) {cov scaling d : ℝ} (hc : 0 < cov) (hs : 0 < scaling) (hd : 0 < d) (c offset x : ℝ)
    (hx : offset < x) :
    logNormalPdf mean cov (logNormalizedParams d c offset scaling).1 (logNormalizedParams d c offset scaling).2 (d * (x - c)) * d =
      logNormalPdf mean cov offset scaling x ↔ d = 1 := by
  rw [lognormal_normalized_pdf mean cov hd.ne']
  exact mul_eq_left₀ (logNormalPdf_pos mean offset hc hs hx).ne'

/-- C114 with numbers: the density of the normalized domain is off by the slope. -/
theorem lognormal_normalized_false : ∃ d c offset scaling x : ℝ, 0 < d ∧ 0 < scaling ∧ offset < x ∧
    logNormalPdf 0 1 (logNormalizedParams d c offset scaling).1 (logNormalizedParams d c offset scaling).2 (d * (x - c)) * d ≠
      logNormalPdf 0 1 offset scaling x := by
  refine ⟨2, 0, 0, 1, 1, by norm_num, by norm_num, by norm_num, fun h => ?_⟩
  have := (lognormal_normalized_iff 0 one_pos one_pos two_pos 0 0 1 one_pos).1 h
  norm_num at this

/-- The hypotheses of `normalized_pdf` are met by a correlated covariance. -/
example : ∃ N : NormalDist 2, N.Ok ∧ N.cov = !![4, 2; 2, 2] ∧ ∃ L Linv, (N.normalized ![2, 3] ![1, 1] L Linv).Ok := by
  have h : (⟨![0, 1], !![4, 2; 2, 2], !![2, 0; 1, 1], !![1 / 2, 0; -1 / 2, 1], none⟩ : NormalDist 2).Ok := by
    refine ⟨?_, ?_, by simp⟩
    · ext i j; fin_cases i <;> fin_cases j <;> norm_num [Matrix.mul_apply, Fin.sum_univ_two]
    · ext i j; fin_cases i <;> fin_cases j <;> norm_num [Matrix.mul_apply, Fin.sum_univ_two]
  exact ⟨_, h, rfl, normalized_factor_exists h (fun i => by fin_cases i <;> norm_num)⟩

end Verif.Domain
