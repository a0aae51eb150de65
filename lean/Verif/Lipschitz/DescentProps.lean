import Verif.Lipschitz.DescentModel
import Verif.Lipschitz.PartialProps
import Verif.Lipschitz.ProjProps
import Mathlib.Analysis.Calculus.Deriv.Add
import Mathlib.Analysis.Calculus.Deriv.Mul
import Mathlib.Analysis.Calculus.Deriv.Pow

/-!
# C111: the search direction of the partial Lipschitz matrix is that of the linearized problem

The matrix is `H(U, J, α) = U J Uᵀ + α (I - U Uᵀ)` (`partialH`). The specification is the derivative of its quadratic form along the direction.
-/

namespace Verif.Lip

open Verif Matrix

variable {m r : ℕ}

/-- The matrix a step `t` along a direction (before returning to orthonormal matrices). -/
def alongH (U : Matrix (Fin m) (Fin r) ℝ) (J : Matrix (Fin r) (Fin r) ℝ) (alpha : ℝ) (d : Direction m r) (t : ℝ) : Matrix (Fin m) (Fin m) ℝ :=
  partialH (U + t • d.Up) (J + t • d.Jp) (alpha + t * d.alphap)

/-- The true derivative of `yᵀ H y`. -/
theorem hasDerivAt_alongH (U : Matrix (Fin m) (Fin r) ℝ) (J : Matrix (Fin r) (Fin r) ℝ) (hJ : Jᵀ = J) (alpha : ℝ) (d : Direction m r) (y : Pt m) :
    HasDerivAt (fun t => quad (alongH U J alpha d t) y)
      (2 * ((J *ᵥ (Uᵀ *ᵥ y)) ⬝ᵥ (d.Upᵀ *ᵥ y)) + quad d.Jp (Uᵀ *ᵥ y) +
        (-(2 * alpha) * ((Uᵀ *ᵥ y) ⬝ᵥ (d.Upᵀ *ᵥ y)) + d.alphap * (y ⬝ᵥ y - (Uᵀ *ᵥ y) ⬝ᵥ (Uᵀ *ᵥ y)))) 0 := by
  set u := Uᵀ *ᵥ y with hu
  set p := d.Upᵀ *ᵥ y with hp
  have hup : ∀ t : ℝ, (U + t • d.Up)ᵀ *ᵥ y = u + t • p := by
    intro t
    rw [Matrix.transpose_add, Matrix.transpose_smul, Matrix.add_mulVec, Matrix.smul_mulVec]
  have hsym : p ⬝ᵥ (J *ᵥ u) = u ⬝ᵥ (J *ᵥ p) := by
    rw [Matrix.dotProduct_mulVec u, ← Matrix.mulVec_transpose, hJ, dotProduct_comm]
  have hsym2 : (J *ᵥ u) ⬝ᵥ p = u ⬝ᵥ (J *ᵥ p) := by rw [dotProduct_comm, hsym]
  have e : (fun t => quad (alongH U J alpha d t) y) = fun t : ℝ =>
      (u ⬝ᵥ (J *ᵥ u) + alpha * (y ⬝ᵥ y - u ⬝ᵥ u)) +
      t * (2 * (u ⬝ᵥ (J *ᵥ p)) + quad d.Jp u + (-(2 * alpha) * (u ⬝ᵥ p) + d.alphap * (y ⬝ᵥ y - u ⬝ᵥ u))) +
      t ^ 2 * (p ⬝ᵥ (J *ᵥ p) + u ⬝ᵥ (d.Jp *ᵥ p) + p ⬝ᵥ (d.Jp *ᵥ u) - alpha * (p ⬝ᵥ p) - 2 * d.alphap * (u ⬝ᵥ p)) +
      t ^ 3 * (p ⬝ᵥ (d.Jp *ᵥ p) - d.alphap * (p ⬝ᵥ p)) := by
    funext t
    unfold alongH
    rw [quad_partialH, hup]
    have hc : p ⬝ᵥ u = u ⬝ᵥ p := dotProduct_comm _ _
    simp only [quad, Matrix.add_mulVec, Matrix.smul_mulVec, Matrix.mulVec_add, Matrix.mulVec_smul, add_dotProduct, dotProduct_add, smul_dotProduct,
      dotProduct_smul, smul_eq_mul, hsym, hc]
    ring
  rw [e, hsym2]
  set c1 := 2 * (u ⬝ᵥ (J *ᵥ p)) + quad d.Jp u + (-(2 * alpha) * (u ⬝ᵥ p) + d.alphap * (y ⬝ᵥ y - u ⬝ᵥ u))
  set c0 := u ⬝ᵥ (J *ᵥ u) + alpha * (y ⬝ᵥ y - u ⬝ᵥ u)
  have h1 : HasDerivAt (fun t : ℝ => c0 + t * c1) c1 0 := by simpa using ((hasDerivAt_id (0 : ℝ)).mul_const c1).const_add c0
  have h2 : ∀ c : ℝ, HasDerivAt (fun t : ℝ => t ^ 2 * c) 0 0 := fun c => by simpa using (hasDerivAt_pow 2 (0 : ℝ)).mul_const c
  have h3 : ∀ c : ℝ, HasDerivAt (fun t : ℝ => t ^ 3 * c) 0 0 := fun c => by simpa using (hasDerivAt_pow 3 (0 : ℝ)).mul_const c
  simpa using (h1.fun_add (h2 _)).fun_add (h3 _)

/-- **C111**: the constraint for a gradient is the linearization: its left side is the violation and its right side the derivative, in every
direction `x`. -/
theorem descent_grad (U : Matrix (Fin m) (Fin r) ℝ) (J : Matrix (Fin r) (Fin r) ℝ) (hJ : Jᵀ = J) (alpha : ℝ) (d : Direction m r) (g x : Pt m) :
    quad (descentLhsGrad U J alpha g) x = quad (outer g) x - quad (partialH U J alpha) x ∧
      HasDerivAt (fun t => quad (alongH U J alpha d t) x) (quad (descentRhsGrad U J alpha d) x) 0 := by
  constructor
  · unfold descentLhsGrad partialH
    rw [quad_sub, Matrix.mul_assoc]
  · refine (hasDerivAt_alongH U J hJ alpha d x).congr_deriv ?_
    have q1 : ∀ A : Matrix (Fin r) (Fin r) ℝ, x ⬝ᵥ ((U * A * Uᵀ) *ᵥ x) = (Uᵀ *ᵥ x) ⬝ᵥ (A *ᵥ (Uᵀ *ᵥ x)) := by
      intro A
      rw [Matrix.mul_assoc, ← Matrix.mulVec_mulVec, ← Matrix.mulVec_mulVec, Matrix.dotProduct_mulVec x, ← Matrix.mulVec_transpose]
    have q2 : ∀ A : Matrix (Fin m) (Fin m) ℝ, x ⬝ᵥ (Aᵀ *ᵥ x) = x ⬝ᵥ (A *ᵥ x) := by
      intro A
      rw [Matrix.mulVec_transpose, dotProduct_comm, ← Matrix.dotProduct_mulVec]
    have q3 : x ⬝ᵥ ((d.Up * (J * Uᵀ)) *ᵥ x) = (J *ᵥ (Uᵀ *ᵥ x)) ⬝ᵥ (d.Upᵀ *ᵥ x) := by
      rw [← Matrix.mulVec_mulVec, ← Matrix.mulVec_mulVec, Matrix.dotProduct_mulVec x, ← Matrix.mulVec_transpose, dotProduct_comm]
    have q4 : x ⬝ᵥ ((d.Up * Uᵀ) *ᵥ x) = (Uᵀ *ᵥ x) ⬝ᵥ (d.Upᵀ *ᵥ x) := by
      rw [← Matrix.mulVec_mulVec, Matrix.dotProduct_mulVec x, ← Matrix.mulVec_transpose, dotProduct_comm]
    have q5 : x ⬝ᵥ ((1 - U * Uᵀ) *ᵥ x) = x ⬝ᵥ x - (Uᵀ *ᵥ x) ⬝ᵥ (Uᵀ *ᵥ x) := by
      have := q1 1
      rw [Matrix.mul_one, Matrix.one_mulVec] at this
      rw [Matrix.sub_mulVec, Matrix.one_mulVec, dotProduct_sub, this]
    unfold descentRhsGrad
    simp only [quad, Matrix.add_mulVec, Matrix.sub_mulVec, Matrix.smul_mulVec, dotProduct_add, dotProduct_sub, dotProduct_smul, smul_eq_mul, q1, q2, q3, q4]
    have q5' := q5
    rw [Matrix.sub_mulVec, dotProduct_sub] at q5'
    rw [q5']
    ring

/-- **C111**: the left side of the constraint for two evaluations is the violation, and the right side differs from the derivative by a term
with `J Uᵀ y` in place of `Uᵀ y`; it is the derivative if `α = 0`, if `J = I`, or if `U` does not move. -/
theorem descent_eval_partial (U : Matrix (Fin m) (Fin r) ℝ) (J : Matrix (Fin r) (Fin r) ℝ) (hJ : Jᵀ = J) (alpha : ℝ) (d : Direction m r) (y : Pt m)
    (epsilon a b : ℝ) :
    descentLhsEval epsilon U J alpha y a b = (|a - b| - epsilon) ^ 2 - quad (partialH U J alpha) y ∧
      HasDerivAt (fun t => quad (alongH U J alpha d t) y)
        (descentRhsEval U J alpha d y + 2 * alpha * ((J *ᵥ (Uᵀ *ᵥ y) - Uᵀ *ᵥ y) ⬝ᵥ (d.Upᵀ *ᵥ y))) 0 ∧
      (alpha = 0 ∨ J = 1 ∨ d.Up = 0 → HasDerivAt (fun t => quad (alongH U J alpha d t) y) (descentRhsEval U J alpha d y) 0) := by
  have h := hasDerivAt_alongH U J hJ alpha d y
  refine ⟨?_, ?_, ?_⟩
  · rw [quad_partialH]
    rfl
  · refine h.congr_deriv ?_
    unfold descentRhsEval
    rw [sub_dotProduct]
    ring
  · rintro (rfl | rfl | h0)
    · refine h.congr_deriv ?_
      unfold descentRhsEval
      ring
    · refine h.congr_deriv ?_
      unfold descentRhsEval
      rw [Matrix.one_mulVec]
    · refine h.congr_deriv ?_
      unfold descentRhsEval
      rw [h0]
      simp

/-- **C111**: at a feasible point the zero direction is allowed, so an optimal direction does not predict an increase. -/
theorem descent_nonpos (data : List (Pt m × ℝ)) (grads : List (Pt m)) (epsilon : ℝ) (U : Matrix (Fin m) (Fin r) ℝ) (J : Matrix (Fin r) (Fin r) ℝ)
    (alpha : ℝ) (hf : FixedUFeasible data grads epsilon U J alpha) (d : Direction m r)
    (hopt : ∀ d', DescentFeasible data grads epsilon U J alpha d' → descentObj d ≤ descentObj d') : descentObj d ≤ 0 := by
  have h0 : DescentFeasible data grads epsilon U J alpha ⟨0, 0, 0⟩ := by
    refine ⟨by simp, by simp, fun p hp => ?_, fun g hg x => ?_⟩
    · have := hf.2.2.2.2.1 p hp
      have e : descentRhsEval U J alpha ⟨0, 0, 0⟩ (p.1.1 - p.2.1) = 0 := by simp [descentRhsEval, quad]
      rw [e]
      unfold descentLhsEval
      unfold quad at this
      linarith
    · have := hf.2.2.2.2.2 g hg x
      have e : descentRhsGrad U J alpha ⟨0, 0, 0⟩ = (0 : Matrix (Fin m) (Fin m) ℝ) := by simp [descentRhsGrad]
      rw [e]
      unfold descentLhsGrad
      rw [quad_sub, ← Matrix.mul_assoc]
      have z : quad (0 : Matrix (Fin m) (Fin m) ℝ) x = 0 := by simp [quad]
      linarith
  have := hopt _ h0
  simpa [descentObj] using this

/-- **C111 fails for evaluations**: the constraint predicts a decrease of `yᵀ H y` where turning the subspace increases it, for the subspace
spanned by the first coordinate, `J = 2`, `α = 3/2`, `y = (1, 1)`, and the tangent direction turning towards the second coordinate. -/
theorem descent_eval_false :
    ∃ (U : Matrix (Fin 2) (Fin 1) ℝ) (J : Matrix (Fin 1) (Fin 1) ℝ) (alpha : ℝ) (d : Direction 2 1) (y : Pt 2),
      Uᵀ * U = 1 ∧ Jᵀ = J ∧ LoewnerLe (alpha • 1) J ∧ 0 ≤ alpha ∧ Uᵀ * d.Up = 0 ∧ descentRhsEval U J alpha d y < 0 ∧
      ∃ D, 0 < D ∧ HasDerivAt (fun t => quad (alongH U J alpha d t) y) D 0 := by
  refine ⟨!![1; 0], !![2], 3 / 2, ⟨!![0; 1], 0, 0⟩, ![1, 1], ?_, ?_, ?_, by norm_num, ?_, ?_, 1, one_pos, ?_⟩
  · ext i j; fin_cases i; fin_cases j; simp [Matrix.mul_apply]
  · ext i j; fin_cases i; fin_cases j; simp
  · intro x
    simp [quad, Matrix.mulVec, dotProduct, Matrix.smul_apply]
    nlinarith [mul_self_nonneg (x 0)]
  · ext i j; fin_cases i; fin_cases j; simp [Matrix.mul_apply]
  · simp [descentRhsEval, quad, Matrix.mulVec, dotProduct]
    norm_num
  · refine (hasDerivAt_alongH _ _ ?_ _ _ _).congr_deriv ?_
    · ext i j; fin_cases i; fin_cases j; simp
    · simp [quad, Matrix.mulVec, dotProduct]
      norm_num

/-- The hypotheses of `descent_nonpos` are met: one variable, one gradient, `H = 1`. -/
example : FixedUFeasible (m := 1) (r := 1) [] [![1]] 0 1 1 0 ∧
    ∀ d', DescentFeasible (m := 1) (r := 1) [] [![1]] 0 1 1 0 d' → descentObj (⟨0, 0, 0⟩ : Direction 1 1) ≤ descentObj d' := by
  constructor
  · refine ⟨by simp, fun x => ?_, le_rfl, fun _ => rfl, by simp [pairsOf], fun g hg x => ?_⟩
    · simp [quad, dotProduct, mul_self_nonneg]
    · obtain rfl := List.mem_singleton.1 hg
      simp [quad, outer, dotProduct, Matrix.mulVec]
  · intro d' h
    have := h.2.2.2 ![1] (by simp) ![1]
    have hU : d'.Up = 0 := by simpa using h.2.1
    simp [descentLhsGrad, descentRhsGrad, quad, outer, hU, dotProduct, Matrix.mulVec, Matrix.sub_apply] at this
    simp [descentObj, Matrix.trace]
    exact this

end Verif.Lip
