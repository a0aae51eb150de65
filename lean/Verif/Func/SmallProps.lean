import Verif.Func.VecProps
import Verif.Func.PolyProps

/-!
# Options handed on and failures of the fits
-/

namespace Verif.Func

open Verif Verif.Domain Verif.Lip Verif.Opt Matrix

/-- A fit for which the solver has no answer raises `TypeError` (the missing coefficients are used); an unknown norm or bound is an `AssertionError`. -/
theorem linearFit_error (S : FitSolver) {M N : ℕ} (A : Matrix (Fin M) (Fin N) ℝ) (b : Pt M) (p : PNorm) (bound : Bound) (e : Err)
    (h : linearFit S A b p bound = .error e) :
    (p = .other ∨ bound = .other) ∧ e = .assertion ∨ (p ≠ .other ∧ bound ≠ .other) ∧ e = .typeError := by
  have key : ∀ o : Option (Pt N), ofSolver o = .error e → e = .typeError := by
    intro o ho
    cases o with
    | none => cases ho; rfl
    | some x => cases ho
  cases p <;> cases bound <;> simp only [linearFit] at h <;>
    first
    | exact Or.inr ⟨by simp, key _ h⟩
    | (cases h; exact Or.inl ⟨by simp, rfl⟩)

/-- Without outputs there is no default start: `ValueError`. -/
theorem vecInit_empty {M : ℕ} {α : Type} (init : Pt M → α) (f : Fin 0 → Pt M) : vecInit init (.twoD 0 f) = .error .valueError := by
  simp [vecInit, VecData.iter]

/-- The options reach `gauss_newton` unchanged. -/
theorem vecArgs_options {m n R : ℕ} (hn : n ≤ m) (svdJ : Matrix (Fin R) (Fin (m * n)) ℝ → TSvd R (m * n))
    (svdD : Matrix (Fin m) (Fin n) ℝ → TSvd m n) (res : Matrix (Fin m) (Fin n) ℝ → Pt R)
    (jac : Matrix (Fin m) (Fin n) ℝ → Matrix (Fin R) (Fin (m * n)) ℝ) (o : GNOpt) :
    (⟨(vecArgs hn svdJ svdD res jac o).tol, (vecArgs hn svdJ svdD res jac o).tolDx, (vecArgs hn svdJ svdD res jac o).maxiter,
      (vecArgs hn svdJ svdD res jac o).verbose⟩ : GNOpt) = o := rfl

end Verif.Func
