import Verif.Func.PolyProps

/-!
# Property C78: rotating and sign-fixing a ridge fit must only change the basis of the subspace
-/

namespace Verif.Func

open Verif.Domain Verif.Lip Matrix

variable {M m n N : ℕ}

theorem sgn_sq (t : ℝ) : sgn t * sgn t = if t = 0 then 0 else 1 := by
  unfold sgn
  rcases lt_trichotomy t 0 with h | h | h
  · simp [h, not_lt.2 h.le, h.ne]
  · simp [h]
  · simp [h, h.ne']

/-- **C78**, rotation: the first step keeps the columns orthonormal. -/
theorem finishRotate_orthonormal (S : FitSolver) (mk : (Fin M → Pt n) → BasisObj n N)
    (svdU : (Fin M → Pt n) → Matrix (Fin n) (Fin n) ℝ) (hsvd : ∀ g, (svdU g)ᵀ * svdU g = 1) (p : PNorm) (bound : Bound)
    (rotate : Bool) (X : Fin M → Pt m) (fX : Pt M) (U U1 : Matrix (Fin m) (Fin n) ℝ) (hU : Uᵀ * U = 1)
    (h : finishRotate S mk svdU p bound rotate X fX U = .ok U1) : U1ᵀ * U1 = 1 := by
  unfold finishRotate at h
  split at h
  · obtain ⟨bc, -, rfl⟩ := map_ok h
    rw [Matrix.transpose_mul, Matrix.mul_assoc, ← Matrix.mul_assoc Uᵀ, hU, Matrix.one_mul, hsvd]
  · cases h; exact hU

/-- **C78**, signs: with the gradients `g` used to choose the signs, the result has orthonormal columns exactly
if no mean slope vanishes. -/
theorem finishSigns_orthonormal_iff (S : FitSolver) (mk : (Fin M → Pt n) → BasisObj n N) (p : PNorm) (bound : Bound)
    (X : Fin M → Pt m) (fX : Pt M) (Y : Fin M → Pt n) (U U2 : Matrix (Fin m) (Fin n) ℝ) (hU : Uᵀ * U = 1)
    (bc : BasisObj n N × Pt N) (hfit : fitCoef S mk p bound X fX U = .ok bc)
    (h : finishSigns S mk p bound true X fX Y U = .ok U2) :
    U2ᵀ * U2 = 1 ↔ ∀ k, meanGrad (fun i => polyGrad bc.1 bc.2 (Y i)) k ≠ 0 := by
  unfold finishSigns at h
  rw [if_pos rfl, hfit] at h
  obtain rfl : U * Matrix.diagonal (fun k => sgn (meanGrad (fun i => polyGrad bc.1 bc.2 (Y i)) k)) = U2 := by
    cases h; rfl
  rw [Matrix.transpose_mul, Matrix.mul_assoc, ← Matrix.mul_assoc Uᵀ, hU, Matrix.one_mul, Matrix.diagonal_transpose,
    Matrix.diagonal_mul_diagonal]
  simp only [sgn_sq]
  constructor
  · intro e k hk
    have := congrFun (congrFun e k) k
    simp [hk] at this
  · intro hk
    rw [← Matrix.diagonal_one]
    congr 1
    funext k
    rw [if_neg (hk k)]

/-- Without rotation nothing is changed. -/
theorem finish_no_rotate (S : FitSolver) (mk : (Fin M → Pt n) → BasisObj n N)
    (svdU : (Fin M → Pt n) → Matrix (Fin n) (Fin n) ℝ) (p : PNorm) (bound : Bound) (X : Fin M → Pt m) (fX : Pt M)
    (U : Matrix (Fin m) (Fin n) ℝ) (R : Ridge m n N) (h : finish S mk svdU p bound false X fX U = .ok R) : R.U = U := by
  obtain ⟨U1, h1, h2, -⟩ := finish_ok h
  simp only [finishRotate, Bool.false_eq_true, and_false, if_false] at h1
  cases h1
  simp only [finishSigns, Bool.false_eq_true, if_false] at h2
  cases h2
  rfl

/-- **C78**: a ridge fit keeps orthonormal columns when no mean slope used for the signs vanishes (missing: the
vanishing case, where it is false, `finish_sign_false`). -/
theorem finish_orthonormal_partial (S : FitSolver) (mk : (Fin M → Pt n) → BasisObj n N)
    (svdU : (Fin M → Pt n) → Matrix (Fin n) (Fin n) ℝ) (hsvd : ∀ g, (svdU g)ᵀ * svdU g = 1) (p : PNorm) (bound : Bound)
    (rotate : Bool) (X : Fin M → Pt m) (fX : Pt M) (U : Matrix (Fin m) (Fin n) ℝ) (hU : Uᵀ * U = 1) (R : Ridge m n N)
    (hs : ∀ U1 bc, fitCoef S mk p bound X fX U1 = .ok bc → ∀ k, meanGrad (fun i => polyGrad bc.1 bc.2 (projY U (X i))) k ≠ 0)
    (h : finish S mk svdU p bound rotate X fX U = .ok R) : R.Uᵀ * R.U = 1 := by
  obtain ⟨U1, h1, h2, -⟩ := finish_ok h
  have hU1 := finishRotate_orthonormal S mk svdU hsvd p bound rotate X fX U U1 hU h1
  cases rotate with
  | false =>
    simp only [finishSigns, Bool.false_eq_true, if_false] at h2
    cases h2; exact hU1
  | true =>
    have h2' := h2
    unfold finishSigns at h2'
    rw [if_pos rfl] at h2'
    obtain ⟨bc, hbc, -⟩ := map_ok h2'
    exact (finishSigns_orthonormal_iff S mk p bound X fX _ U1 R.U hU1 bc hbc h2).2 (hs U1 bc hbc)

/-! ## The sign of a vanishing mean slope -/

/-- The monomials `1, y, y²` with their derivatives. -/
def quadBasis : BasisObj 1 3 where
  V := fun y => ![1, y 0, y 0 ^ 2]
  DV := fun y => ![![0], ![1], ![2 * y 0]]
  DDV := fun _ => ![!![0], !![0], !![2]]

/-- The samples `-1, 0, 1` of `f(x) = x²`. -/
def parX : Fin 3 → Pt 1 := ![![-1], ![0], ![1]]
/-- The data `f(x) = x²`. -/
def parF : Pt 3 := ![1, 0, 1]

theorem par_unique {S : FitSolver} (hS : S.Exact) {p : PNorm} (hp : p = .two)
    {bc : BasisObj 1 3 × Pt 3} (h : fitCoef S (fun _ => quadBasis) p .none parX parF 1 = .ok bc) :
    bc = (quadBasis, ![0, 0, 1]) := by
  subst hp
  obtain ⟨c, hc, e⟩ := map_ok h
  have hopt := hS.free _ _ _ _ (ofSolver_ok hc) ![0, 0, 1]
  have h0 : pnorm PNorm.two ((Matrix.of (fun i => quadBasis.V (projY 1 (parX i))) : Matrix (Fin 3) (Fin 3) ℝ) *ᵥ ![0, 0, 1] - parF) = 0 := by
    have : (Matrix.of (fun i => quadBasis.V (projY 1 (parX i))) : Matrix (Fin 3) (Fin 3) ℝ) *ᵥ ![0, 0, 1] - parF = 0 := by
      funext i
      fin_cases i <;> simp [quadBasis, projY, parX, parF, Matrix.mulVec, dotProduct, Fin.sum_univ_three, vecHead, vecTail]
    rw [this]
    exact nrm_zero
  rw [h0] at hopt
  have hz : nrm ((Matrix.of (fun i => quadBasis.V (projY 1 (parX i))) : Matrix (Fin 3) (Fin 3) ℝ) *ᵥ c - parF) = 0 :=
    le_antisymm hopt (nrm_nonneg _)
  have hv : (Matrix.of (fun i => quadBasis.V (projY 1 (parX i))) : Matrix (Fin 3) (Fin 3) ℝ) *ᵥ c - parF = 0 := by
    have h2 := nrm_sq ((Matrix.of (fun i => quadBasis.V (projY 1 (parX i))) : Matrix (Fin 3) (Fin 3) ℝ) *ᵥ c - parF)
    rw [hz] at h2
    exact dotProduct_self_eq_zero.1 (by linarith)
  have e0 := congrFun hv 0
  have e1 := congrFun hv 1
  have e2 := congrFun hv 2
  simp [quadBasis, projY, parX, parF, Matrix.mulVec, dotProduct, Fin.sum_univ_three, vecHead, vecTail] at e0 e1 e2
  rw [← e]
  simp only [Prod.mk.injEq, true_and]
  funext i
  fin_cases i
  · simpa using e1
  · simp; linarith
  · simp; linarith

theorem ideal_answers {M N : ℕ} {p : PNorm} {A : Matrix (Fin M) (Fin N) ℝ} {b : Pt M} {x : Pt N}
    (hx : ∀ x', pnorm p (A *ᵥ x - b) ≤ pnorm p (A *ᵥ x' - b)) : ∃ c, idealSolver.free p A b = some c := by
  simp only [idealSolver]
  rw [dif_pos ⟨x, hx⟩]
  exact ⟨_, rfl⟩

/-- **C78 fails when a mean slope vanishes**: for the data `x²` at `-1, 0, 1` the quadratic ridge model with
direction `U = [1]` fits exactly, but the mean slope is zero, so the sign step multiplies the direction by
`sign(0) = 0`: the fit returns `U = 0`, a constant function that does not fit the data. -/
theorem finish_sign_false (svdU : (Fin 3 → Pt 1) → Matrix (Fin 1) (Fin 1) ℝ) (S : FitSolver) (hS : S.Exact)
    (R : Ridge 1 1 3) (h : finish S (fun _ => quadBasis) svdU .two .none true parX parF 1 = .ok R) :
    R.U = 0 ∧ ∃ i, R.eval (parX i) ≠ parF i := by
  obtain ⟨U1, h1, h2, h3⟩ := finish_ok h
  simp only [finishRotate, lt_self_iff_false, false_and, if_false] at h1
  cases h1
  unfold finishSigns at h2
  rw [if_pos rfl] at h2
  obtain ⟨bc, hbc, hU⟩ := map_ok h2
  have := par_unique hS rfl hbc
  subst this
  have hz : R.U = 0 := by
    rw [← hU]
    have : (fun k => sgn (meanGrad (fun i => polyGrad quadBasis ![0, 0, 1] (projY 1 (parX i))) k)) = fun _ => (0:ℝ) := by
      funext k
      have : meanGrad (fun i => polyGrad quadBasis ![0, 0, 1] (projY 1 (parX i))) k = 0 := by
        fin_cases k
        simp [meanGrad, polyGrad, quadBasis, projY, parX, Fin.sum_univ_three]
      rw [this]
      simp [sgn]
    rw [this]
    simp
  refine ⟨hz, ?_⟩
  by_contra hall
  push Not at hall
  have a := hall 0
  have b := hall 1
  have e : R.eval (parX 0) = R.eval (parX 1) := by
    unfold Ridge.eval projY
    rw [hz]
    simp
  rw [a, b] at e
  simp [parF] at e

/-- The run of `finish_sign_false` exists. -/
example (svdU : (Fin 3 → Pt 1) → Matrix (Fin 1) (Fin 1) ℝ) :
    ∃ bc, fitCoef idealSolver (fun _ => quadBasis) .two .none parX parF 1 = .ok bc := by
  obtain ⟨c, hc⟩ := ideal_answers (p := .two) (A := Matrix.of (fun i => quadBasis.V (projY 1 (parX i)))) (b := parF) (x := ![0, 0, 1])
    (fun x' => by
      have : (Matrix.of (fun i => quadBasis.V (projY 1 (parX i))) : Matrix (Fin 3) (Fin 3) ℝ) *ᵥ ![0, 0, 1] - parF = 0 := by
        funext i
        fin_cases i <;> simp [quadBasis, projY, parX, parF, Matrix.mulVec, dotProduct, Fin.sum_univ_three, vecHead, vecTail]
      rw [this]
      show nrm 0 ≤ nrm _
      rw [nrm_zero]
      exact nrm_nonneg _)
  refine ⟨(quadBasis, c), ?_⟩
  simp only [fitCoef]
  rw [hc]
  rfl

end Verif.Func
