import Mathlib.Analysis.Calculus.FDeriv.Basic
import Mathlib.Analysis.Calculus.FDeriv.Add
import Mathlib.Analysis.Calculus.FDeriv.Mul
import Mathlib.Analysis.Calculus.FDeriv.Pi
import Mathlib.Analysis.Calculus.Deriv.Comp
import Mathlib.Analysis.Calculus.Deriv.Inv
import Mathlib.Analysis.Calculus.Deriv.Pow
import Mathlib.Analysis.Calculus.Deriv.Pi
import Mathlib.Analysis.SpecialFunctions.Log.Deriv
import Mathlib.Analysis.SpecialFunctions.Sqrt
import Mathlib.Analysis.SpecialFunctions.Pow.Deriv
import Mathlib.Analysis.SpecialFunctions.Trigonometric.Deriv
import Mathlib.Analysis.SpecialFunctions.Trigonometric.DerivHyp
import Mathlib.Tactic.FieldSimp
import Mathlib.Tactic.Ring
import Mathlib.Tactic.FinCases

/-!
# Specification of "the gradient" and a small calculus for it

`IsGrad f x g` says that the scalar function `f` of `n` real variables is (Fréchet) differentiable at
`x` and that its gradient there is the vector `g`.  This file is specification only; it models no code.
-/

namespace Verif.Demo

/-- The linear form `v ↦ ∑ i, g i * v i`. -/
noncomputable def gradMap {n : ℕ} (g : Fin n → ℝ) : (Fin n → ℝ) →L[ℝ] ℝ :=
  ∑ i, g i • ContinuousLinearMap.proj i

theorem gradMap_apply {n : ℕ} (g v : Fin n → ℝ) : gradMap g v = ∑ i, g i * v i := by
  simp [gradMap]

/-- `g` is the gradient of `f` at `x`. -/
def IsGrad {n : ℕ} (f : (Fin n → ℝ) → ℝ) (x g : Fin n → ℝ) : Prop :=
  HasFDerivAt f (gradMap g) x

/-- The gradient is unique: two vectors that are both the gradient are equal. -/
theorem IsGrad.unique {n : ℕ} {f : (Fin n → ℝ) → ℝ} {x g g' : Fin n → ℝ}
    (h : IsGrad f x g) (h' : IsGrad f x g') : g = g' := by
  have e := HasFDerivAt.unique h h'
  funext i
  have := congrArg (fun L => L (Pi.single i 1)) e
  simpa [gradMap_apply, Pi.single_apply] using this

/-- A gradient gives every partial derivative. -/
theorem IsGrad.partial {n : ℕ} {f : (Fin n → ℝ) → ℝ} {x g : Fin n → ℝ}
    (h : IsGrad f x g) (i : Fin n) :
    HasDerivAt (fun t => f (Function.update x i t)) (g i) (x i) := by
  have hu : HasDerivAt (fun t => Function.update x i t) (Pi.single i (1 : ℝ)) (x i) := by
    rw [hasDerivAt_pi]
    intro j
    by_cases e : j = i
    · subst e
      simpa using hasDerivAt_id' (x j)
    · simpa [Function.update_of_ne e, Pi.single_eq_of_ne e] using hasDerivAt_const (x i) (x j)
  have h' : HasFDerivAt f (gradMap g) (Function.update x i (x i)) := by
    rw [Function.update_eq_self]; exact h
  have := h'.comp_hasDerivAt (x i) hu
  refine this.congr_deriv ?_
  simp [gradMap_apply, Pi.single_apply]

variable {n : ℕ} {f g : (Fin n → ℝ) → ℝ} {x u v : Fin n → ℝ}

theorem IsGrad.congr (h : IsGrad f x u) (e : u = v) : IsGrad f x v := e ▸ h

theorem IsGrad.const (c : ℝ) : IsGrad (fun _ : Fin n → ℝ => c) x (fun _ => 0) := by
  refine (hasFDerivAt_const c x).congr_fderiv ?_
  ext v; simp [gradMap_apply]

theorem IsGrad.coord (i : Fin n) :
    IsGrad (fun y : Fin n → ℝ => y i) x (fun j => if j = i then 1 else 0) := by
  refine (hasFDerivAt_apply i x).congr_fderiv ?_
  ext v; simp [gradMap_apply]

theorem IsGrad.add (hf : IsGrad f x u) (hg : IsGrad g x v) :
    IsGrad (fun y => f y + g y) x (fun j => u j + v j) := by
  refine (HasFDerivAt.fun_add hf hg).congr_fderiv ?_
  ext w; simp [gradMap_apply, add_mul, Finset.sum_add_distrib]

theorem IsGrad.neg (hf : IsGrad f x u) :
    IsGrad (fun y => - f y) x (fun j => - u j) := by
  refine (HasFDerivAt.fun_neg hf).congr_fderiv ?_
  ext w; simp [gradMap_apply]

theorem IsGrad.sub (hf : IsGrad f x u) (hg : IsGrad g x v) :
    IsGrad (fun y => f y - g y) x (fun j => u j - v j) := by
  refine (HasFDerivAt.fun_sub hf hg).congr_fderiv ?_
  ext w; simp [gradMap_apply, sub_mul, Finset.sum_sub_distrib]

theorem IsGrad.mul (hf : IsGrad f x u) (hg : IsGrad g x v) :
    IsGrad (fun y => f y * g y) x (fun j => f x * v j + g x * u j) := by
  refine (HasFDerivAt.mul hf hg).congr_fderiv ?_
  ext w; simp [gradMap_apply, add_mul, Finset.sum_add_distrib, Finset.mul_sum, mul_assoc]

/-- Composition with a function of one variable. -/
theorem IsGrad.comp {φ : ℝ → ℝ} {d : ℝ} (hφ : HasDerivAt φ d (f x)) (hf : IsGrad f x u) :
    IsGrad (fun y => φ (f y)) x (fun j => d * u j) := by
  refine (HasDerivAt.comp_hasFDerivAt x hφ hf).congr_fderiv ?_
  ext w; simp [gradMap_apply, Finset.mul_sum, mul_assoc]

theorem IsGrad.div (hf : IsGrad f x u) (hg : IsGrad g x v) (h : g x ≠ 0) :
    IsGrad (fun y => f y / g y) x (fun j => (u j * g x - f x * v j) / g x ^ 2) := by
  have h1 := (IsGrad.comp (hasDerivAt_inv h) hg)
  have h2 := IsGrad.mul hf h1
  refine IsGrad.congr (f := fun y => f y / g y) (by simpa only [div_eq_mul_inv] using h2) ?_
  funext j
  field_simp
  ring

theorem IsGrad.pow (hf : IsGrad f x u) (k : ℕ) :
    IsGrad (fun y => f y ^ k) x (fun j => (k * f x ^ (k - 1)) * u j) := by
  have := IsGrad.comp (hasDerivAt_pow k (f x)) hf
  exact this

theorem IsGrad.sqrt (hf : IsGrad f x u) (h : f x ≠ 0) :
    IsGrad (fun y => Real.sqrt (f y)) x (fun j => (1 / (2 * Real.sqrt (f x))) * u j) :=
  IsGrad.comp (Real.hasDerivAt_sqrt h) hf

theorem IsGrad.log (hf : IsGrad f x u) (h : f x ≠ 0) :
    IsGrad (fun y => Real.log (f y)) x (fun j => (f x)⁻¹ * u j) :=
  IsGrad.comp (Real.hasDerivAt_log h) hf

theorem IsGrad.sin (hf : IsGrad f x u) :
    IsGrad (fun y => Real.sin (f y)) x (fun j => Real.cos (f x) * u j) :=
  IsGrad.comp (Real.hasDerivAt_sin _) hf

theorem IsGrad.cos (hf : IsGrad f x u) :
    IsGrad (fun y => Real.cos (f y)) x (fun j => - Real.sin (f x) * u j) :=
  IsGrad.comp (Real.hasDerivAt_cos _) hf

theorem IsGrad.rpow (hf : IsGrad f x u) (p : ℝ) (h : f x ≠ 0) :
    IsGrad (fun y => (f y) ^ p) x (fun j => (p * (f x) ^ (p - 1)) * u j) :=
  IsGrad.comp (Real.hasDerivAt_rpow_const (Or.inl h)) hf

theorem hasDerivAt_tanh (t : ℝ) : HasDerivAt Real.tanh (1 - Real.tanh t ^ 2) t := by
  have hc : Real.cosh t ≠ 0 := (Real.cosh_pos t).ne'
  have h := (Real.hasDerivAt_sinh t).div (Real.hasDerivAt_cosh t) hc
  have e : Real.tanh = fun s => Real.sinh s / Real.cosh s := by
    funext s; exact Real.tanh_eq_sinh_div_cosh s
  rw [e]
  refine h.congr_deriv ?_
  field_simp

theorem IsGrad.tanh (hf : IsGrad f x u) :
    IsGrad (fun y => Real.tanh (f y)) x (fun j => (1 - Real.tanh (f x) ^ 2) * u j) :=
  IsGrad.comp (hasDerivAt_tanh _) hf

/-- One syntax-directed step of the gradient calculus. -/
macro "grad_step" : tactic => `(tactic| first
  | with_reducible exact IsGrad.const _
  | with_reducible exact IsGrad.coord _
  | with_reducible apply IsGrad.neg
  | with_reducible apply IsGrad.add
  | with_reducible apply IsGrad.sub
  | with_reducible apply IsGrad.div
  | with_reducible apply IsGrad.mul
  | with_reducible apply IsGrad.pow
  | with_reducible apply IsGrad.sqrt
  | with_reducible apply IsGrad.log
  | with_reducible apply IsGrad.sin
  | with_reducible apply IsGrad.cos
  | with_reducible apply IsGrad.tanh
  | with_reducible apply IsGrad.rpow)

/-- Differentiate: the goal `IsGrad f x ?g` is decomposed into side conditions. -/
macro "grad_auto" : tactic => `(tactic| repeat' grad_step)

end Verif.Demo
