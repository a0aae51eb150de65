import Mathlib.Algebra.Group.Nat.Even
import Verif.Func.PolyModel
import Verif.Lipschitz.BoundProps

/-!
# Property C55: bounded polynomial fits bound the data
-/

namespace Verif.Func

open Verif.Domain Verif.Lip Matrix

/-! ## Specification -/

/-- The norms of the code. -/
noncomputable def pnorm {M : ℕ} : PNorm → Pt M → ℝ
  | .one, r => ∑ i, |r i|
  | .two, r => nrm r
  | .inf, r => ⨆ i, |r i|
  | .other, _ => 0

/-- Exact solvers: an answer is feasible and optimal among the feasible points. -/
structure FitSolver.Exact (S : FitSolver) : Prop where
  free : ∀ {M N : ℕ} (p : PNorm) (A : Matrix (Fin M) (Fin N) ℝ) (b : Pt M) (x : Pt N), S.free p A b = some x →
    ∀ x', pnorm p (A *ᵥ x - b) ≤ pnorm p (A *ᵥ x' - b)
  ge : ∀ {M N : ℕ} (p : PNorm) (A : Matrix (Fin M) (Fin N) ℝ) (b : Pt M) (x : Pt N), S.ge p A b = some x →
    (∀ i, b i ≤ (A *ᵥ x) i) ∧ ∀ x', (∀ i, b i ≤ (A *ᵥ x') i) → pnorm p (A *ᵥ x - b) ≤ pnorm p (A *ᵥ x' - b)
  le : ∀ {M N : ℕ} (p : PNorm) (A : Matrix (Fin M) (Fin N) ℝ) (b : Pt M) (x : Pt N), S.le p A b = some x →
    (∀ i, (A *ᵥ x) i ≤ b i) ∧ ∀ x', (∀ i, (A *ᵥ x') i ≤ b i) → pnorm p (A *ᵥ x - b) ≤ pnorm p (A *ᵥ x' - b)

/-- What `bound` promises about approximate values `v` of data `f`. -/
def RespectsBound {M : ℕ} (bound : Bound) (v f : Fin M → ℝ) : Prop :=
  match bound with
  | .lower => ∀ i, v i ≤ f i
  | .upper => ∀ i, f i ≤ v i
  | _ => True

theorem pnorm_neg {M : ℕ} (p : PNorm) (r : Pt M) : pnorm p (-r) = pnorm p r := by
  cases p <;> simp [pnorm, nrm_neg]

theorem ofSolver_ok {α : Type} {o : Option α} {x : α} (h : ofSolver o = .ok x) : o = some x := by
  cases o with
  | none => cases h
  | some y => cases h; rfl

theorem map_ok {α β : Type} {e : Except Err α} {F : α → β} {y : β} (h : e.map F = .ok y) : ∃ x, e = .ok x ∧ F x = y := by
  cases e with
  | error e => cases h
  | ok x => cases h; exact ⟨x, rfl, rfl⟩

/-! ## `linear_fit` -/

/-- **C55** for `linear_fit`: the fitted values respect the requested bound, and no coefficients that
respect it are closer to the data in the requested norm. -/
theorem linearFit_bound (S : FitSolver) (hS : S.Exact) {M N : ℕ} (A : Matrix (Fin M) (Fin N) ℝ) (b : Pt M)
    (p : PNorm) (bound : Bound) (x : Pt N) (h : linearFit S A b p bound = .ok x) :
    RespectsBound bound (A *ᵥ x) b ∧
    ∀ x', RespectsBound bound (A *ᵥ x') b → pnorm p (A *ᵥ x - b) ≤ pnorm p (A *ᵥ x' - b) := by
  have hn : p ≠ .other := by
    rintro rfl
    simp [linearFit] at h
  have h' : (match bound with
    | .other => .error .assertion
    | .none => ofSolver (S.free p A b)
    | .lower => ofSolver (S.le p A b)
    | .upper => ofSolver (S.ge p A b)) = Except.ok x := by
    cases p <;> first | exact h | exact absurd rfl hn
  cases bound with
  | none =>
    exact ⟨trivial, fun x' _ => hS.free p A b x (ofSolver_ok h') x'⟩
  | lower => exact hS.le p A b x (ofSolver_ok h')
  | upper => exact hS.ge p A b x (ofSolver_ok h')
  | other => cases h'

/-- `linear_fit` succeeds exactly for a valid norm and bound on which the solver has an answer. -/
theorem linearFit_ok_iff (S : FitSolver) {M N : ℕ} (A : Matrix (Fin M) (Fin N) ℝ) (b : Pt M) (p : PNorm) (bound : Bound) :
    (∃ x, linearFit S A b p bound = .ok x) ↔ p ≠ .other ∧
      ((bound = .none ∧ (S.free p A b).isSome) ∨ (bound = .lower ∧ (S.le p A b).isSome) ∨
        (bound = .upper ∧ (S.ge p A b).isSome)) := by
  have key : ∀ o : Option (Pt N), (∃ x, ofSolver o = .ok x) ↔ o.isSome := by
    intro o; cases o <;> simp [ofSolver]
  cases p <;> cases bound <;> simp [linearFit, key]

/-- Bounded fits are never infeasible when the constant function is in the space. -/
theorem bound_feasible {M N : ℕ} (A : Matrix (Fin M) (Fin N) ℝ) (e : Pt N) (he : ∀ i, (A *ᵥ e) i = 1) (b : Pt M) :
    (∃ x, ∀ i, (A *ᵥ x) i ≤ b i) ∧ ∃ x, ∀ i, b i ≤ (A *ᵥ x) i := by
  have habs : ∀ i, |b i| ≤ ∑ j, |b j| := fun i =>
    Finset.single_le_sum (f := fun j => |b j|) (fun j _ => abs_nonneg _) (Finset.mem_univ i)
  constructor
  · refine ⟨(-(∑ j, |b j|)) • e, fun i => ?_⟩
    rw [Matrix.mulVec_smul, Pi.smul_apply, he i, smul_eq_mul, mul_one]
    have := habs i
    have := neg_abs_le (b i)
    linarith
  · refine ⟨(∑ j, |b j|) • e, fun i => ?_⟩
    rw [Matrix.mulVec_smul, Pi.smul_apply, he i, smul_eq_mul, mul_one]
    exact (le_abs_self _).trans (habs i)

/-- **C55** for `PolynomialApproximation.fit`: the values at the samples, as returned by `eval`, respect the
bound and are optimal. -/
theorem polyFit_bound (S : FitSolver) (hS : S.Exact) {M m N : ℕ} (mk : (Fin M → Pt m) → BasisObj m N) (p : PNorm)
    (bound : Bound) (X : Fin M → Pt m) (fX : Pt M) (B : BasisObj m N) (c : Pt N)
    (h : polyFit S mk p bound X fX = .ok (B, c)) :
    RespectsBound bound (fun i => polyEval B c (X i)) fX ∧
    ∀ c', RespectsBound bound (fun i => polyEval B c' (X i)) fX →
      pnorm p ((fun i => polyEval B c (X i)) - fX) ≤ pnorm p ((fun i => polyEval B c' (X i)) - fX) := by
  obtain ⟨x, hx, e⟩ := map_ok h
  cases e
  exact linearFit_bound S hS _ fX p bound c hx

/-! ## Ridge fits -/

theorem fitCoef_bound (S : FitSolver) (hS : S.Exact) {M m n N : ℕ} (mk : (Fin M → Pt n) → BasisObj n N) (p : PNorm)
    (bound : Bound) (X : Fin M → Pt m) (fX : Pt M) (U : Matrix (Fin m) (Fin n) ℝ) (B : BasisObj n N) (c : Pt N)
    (h : fitCoef S mk p bound X fX U = .ok (B, c)) :
    RespectsBound bound (fun i => (⟨B, c, U⟩ : Ridge m n N).eval (X i)) fX ∧
    ∀ c', RespectsBound bound (fun i => (⟨B, c', U⟩ : Ridge m n N).eval (X i)) fX →
      pnorm p ((fun i => (⟨B, c, U⟩ : Ridge m n N).eval (X i)) - fX) ≤
        pnorm p ((fun i => (⟨B, c', U⟩ : Ridge m n N).eval (X i)) - fX) := by
  have hv : ∀ (B : BasisObj n N) (c : Pt N), (fun i => (⟨B, c, U⟩ : Ridge m n N).eval (X i)) =
      Matrix.of (fun i => B.V (projY U (X i))) *ᵥ c := fun B c => rfl
  simp only [hv]
  cases bound with
  | none =>
    cases p with
    | other => cases h
    | one =>
      obtain ⟨x, hx, e⟩ := map_ok h
      cases e
      exact ⟨trivial, fun c' _ => hS.free _ _ _ _ (ofSolver_ok hx) c'⟩
    | two =>
      obtain ⟨x, hx, e⟩ := map_ok h
      cases e
      exact ⟨trivial, fun c' _ => hS.free _ _ _ _ (ofSolver_ok hx) c'⟩
    | inf =>
      obtain ⟨x, hx, e⟩ := map_ok h
      cases e
      exact ⟨trivial, fun c' _ => hS.free _ _ _ _ (ofSolver_ok hx) c'⟩
  | lower =>
    obtain ⟨x, hx, e⟩ := map_ok h
    cases e
    obtain ⟨h1, h2⟩ := hS.ge _ _ _ _ (ofSolver_ok hx)
    constructor
    · intro i
      have := h1 i
      rw [Matrix.neg_mulVec] at this
      simp only [Pi.neg_apply] at this
      linarith
    · intro c' hc'
      have := h2 c' (fun i => by
        rw [Matrix.neg_mulVec]
        simp only [Pi.neg_apply]
        have := hc' i
        linarith)
      have e : ∀ v : Pt M, -v - -fX = -(v - fX) := fun v => by ring
      rw [Matrix.neg_mulVec, Matrix.neg_mulVec, e, e, pnorm_neg, pnorm_neg] at this
      exact this
  | upper =>
    obtain ⟨x, hx, e⟩ := map_ok h
    cases e
    exact hS.ge _ _ _ _ (ofSolver_ok hx)
  | other => cases h

/-- The requirement on a finished ridge fit. -/
def RidgeOk {M m n N : ℕ} (p : PNorm) (bound : Bound) (X : Fin M → Pt m) (fX : Pt M) (R : Ridge m n N) : Prop :=
  RespectsBound bound (fun i => R.eval (X i)) fX ∧
  ∀ c', RespectsBound bound (fun i => (⟨R.basis, c', R.U⟩ : Ridge m n N).eval (X i)) fX →
    pnorm p ((fun i => R.eval (X i)) - fX) ≤ pnorm p ((fun i => (⟨R.basis, c', R.U⟩ : Ridge m n N).eval (X i)) - fX)

theorem finish_ok {S : FitSolver} {M m n N : ℕ} {mk : (Fin M → Pt n) → BasisObj n N}
    {svdU : (Fin M → Pt n) → Matrix (Fin n) (Fin n) ℝ} {p : PNorm} {bound : Bound} {rotate : Bool} {X : Fin M → Pt m}
    {fX : Pt M} {U : Matrix (Fin m) (Fin n) ℝ} {R : Ridge m n N} (h : finish S mk svdU p bound rotate X fX U = .ok R) :
    ∃ U1, finishRotate S mk svdU p bound rotate X fX U = .ok U1 ∧
      finishSigns S mk p bound rotate X fX (fun i => projY U (X i)) U1 = .ok R.U ∧
      fitCoef S mk p bound X fX R.U = .ok (R.basis, R.coef) := by
  unfold finish at h
  simp only [Bind.bind, Except.bind] at h
  split at h
  · cases h
  · rename_i U1 e1
    refine ⟨U1, e1, ?_⟩
    split at h
    · cases h
    · rename_i U2 e2
      split at h
      · cases h
      · rename_i bc e3
        cases h
        exact ⟨e2, e3⟩

/-- **C55** for `_finish` (used by every iterative ridge fit and by `fit_fixed_subspace`): whatever the
subspace, the rotation and the sign fixing, the final values at the samples respect the bound and no other
coefficients for the same subspace do better. -/
theorem finish_bound (S : FitSolver) (hS : S.Exact) {M m n N : ℕ} (mk : (Fin M → Pt n) → BasisObj n N)
    (svdU : (Fin M → Pt n) → Matrix (Fin n) (Fin n) ℝ) (p : PNorm) (bound : Bound) (rotate : Bool) (X : Fin M → Pt m)
    (fX : Pt M) (U : Matrix (Fin m) (Fin n) ℝ) (R : Ridge m n N) (h : finish S mk svdU p bound rotate X fX U = .ok R) :
    RidgeOk p bound X fX R := by
  obtain ⟨_, _, _, e⟩ := finish_ok h
  exact fitCoef_bound S hS mk p bound X fX R.U R.basis R.coef e

/-- **C55** for `PolynomialRidgeApproximation.fit`: every path, including the affine special case and whatever
the outer optimizer returned. -/
theorem ridgeFit_bound (S : FitSolver) (hS : S.Exact) {M m n N : ℕ} (d : ℕ) (mk : (Fin M → Pt n) → BasisObj n N)
    (svdU : (Fin M → Pt n) → Matrix (Fin n) (Fin n) ℝ) (p : PNorm) (bound : Bound) (rotate : Bool)
    (opt : (Fin M → Pt m) → Pt M → Except Err (Matrix (Fin m) (Fin n) ℝ)) (X : Fin M → Pt m) (fX : Pt M)
    (R : Ridge m n N) (h : ridgeFit S d mk svdU p bound rotate opt X fX = .ok R) :
    RidgeOk p bound X fX R := by
  unfold ridgeFit at h
  split at h
  · cases h
  · split at h
    · simp only [Bind.bind, Except.bind] at h
      split at h
      · cases h
      · split at h
        · cases h
        · rename_i e
          cases h
          exact fitCoef_bound S hS mk p bound X fX _ _ _ e
    · simp only [Bind.bind, Except.bind] at h
      split at h
      · cases h
      · exact finish_bound S hS mk svdU p bound rotate X fX _ R h

/-- **C55**: fewer samples than parameters are rejected: the polynomials of degree `d` in `n` variables have `(n+d choose d)`
coefficients, and orthonormal `m × n` matrices `m n - n (n+1)/2` degrees of freedom. -/
theorem ridgeFit_underdetermined (S : FitSolver) {M m n N : ℕ} (d : ℕ) (mk : (Fin M → Pt n) → BasisObj n N)
    (svdU : (Fin M → Pt n) → Matrix (Fin n) (Fin n) ℝ) (p : PNorm) (bound : Bound) (rotate : Bool)
    (opt : (Fin M → Pt m) → Pt M → Except Err (Matrix (Fin m) (Fin n) ℝ)) (X : Fin M → Pt m) (fX : Pt M)
    (h : 2 * M + n * (n + 1) < 2 * (n + d).choose d + 2 * (m * n)) :
    ridgeFit S d mk svdU p bound rotate opt X fX = .error .underdetermined := by
  unfold ridgeFit
  rw [if_pos]
  unfold nParam
  have h2 : 2 ∣ n * (n + 1) := (Nat.even_mul_succ_self n).two_dvd
  obtain ⟨k, hk⟩ := h2
  rw [hk, Nat.mul_div_cancel_left k (by norm_num)]
  rw [hk] at h
  have : (2 * M + 2 * k : ℤ) < 2 * ((n + d).choose d : ℤ) + 2 * (m * n : ℤ) := by exact_mod_cast h
  linarith

/-- **C55**: with enough samples, an outer optimizer that succeeds and coefficients that can be fitted, the fit is not rejected
as underdetermined. -/
theorem ridgeFit_determined (S : FitSolver) {M m n N : ℕ} (d : ℕ) (mk : (Fin M → Pt n) → BasisObj n N)
    (svdU : (Fin M → Pt n) → Matrix (Fin n) (Fin n) ℝ) (p : PNorm) (bound : Bound) (rotate : Bool)
    (opt : (Fin M → Pt m) → Pt M → Except Err (Matrix (Fin m) (Fin n) ℝ)) (X : Fin M → Pt m) (fX : Pt M) (hnd : ¬ (n = 1 ∧ d = 1))
    (h : 2 * (n + d).choose d + 2 * (m * n) ≤ 2 * M + n * (n + 1)) :
    ridgeFit S d mk svdU p bound rotate opt X fX = (opt X fX).bind (finish S mk svdU p bound rotate X fX) := by
  unfold ridgeFit
  rw [if_neg, dif_neg hnd]
  · rfl
  unfold nParam
  have h2 : 2 ∣ n * (n + 1) := (Nat.even_mul_succ_self n).two_dvd
  obtain ⟨k, hk⟩ := h2
  rw [hk, Nat.mul_div_cancel_left k (by norm_num)]
  rw [hk] at h
  have : 2 * ((n + d).choose d : ℤ) + 2 * (m * n : ℤ) ≤ (2 * M + 2 * k : ℤ) := by exact_mod_cast h
  linarith

/-- **The affine special case picks its direction from the opposite bound**: with `bound='lower'` the affine
function used to choose the direction lies *above* the (normalized) data, and with `bound='upper'` below. The
final coefficients are fitted again, so the result is still a bound (`ridgeFit_bound`), but the direction is
that of the other problem. -/
theorem affSolve_swapped (S : FitSolver) (hS : S.Exact) {M m : ℕ} (p : PNorm) (X : Fin M → Pt m) (fX : Pt M) (b : Pt (m + 1)) :
    (affSolve S p .lower X fX = .ok b → ∀ i, affRhs fX i ≤ (affDesign X *ᵥ b) i) ∧
    (affSolve S p .upper X fX = .ok b → ∀ i, (affDesign X *ᵥ b) i ≤ affRhs fX i) := by
  constructor
  · intro h
    exact (hS.ge _ _ _ _ (ofSolver_ok h)).1
  · intro h i
    have := (hS.ge _ _ _ _ (ofSolver_ok h)).1 i
    rw [Matrix.neg_mulVec] at this
    simp only [Pi.neg_apply] at this
    linarith

/-! ## Non-vacuity: an exact solver that answers -/

open Classical in
/-- The solver that returns an optimal point whenever there is one. -/
noncomputable def idealSolver : FitSolver where
  free := fun p A b => if h : ∃ x, ∀ x', pnorm p (A *ᵥ x - b) ≤ pnorm p (A *ᵥ x' - b) then some h.choose else none
  ge := fun p A b => if h : ∃ x, (∀ i, b i ≤ (A *ᵥ x) i) ∧ ∀ x', (∀ i, b i ≤ (A *ᵥ x') i) →
    pnorm p (A *ᵥ x - b) ≤ pnorm p (A *ᵥ x' - b) then some h.choose else none
  le := fun p A b => if h : ∃ x, (∀ i, (A *ᵥ x) i ≤ b i) ∧ ∀ x', (∀ i, (A *ᵥ x') i ≤ b i) →
    pnorm p (A *ᵥ x - b) ≤ pnorm p (A *ᵥ x' - b) then some h.choose else none

theorem idealSolver_exact : idealSolver.Exact where
  free := by
    intro M N p A b x h
    simp only [idealSolver] at h
    split at h
    · rename_i hh; cases h; exact hh.choose_spec
    · cases h
  ge := by
    intro M N p A b x h
    simp only [idealSolver] at h
    split at h
    · rename_i hh; cases h; exact hh.choose_spec
    · cases h
  le := by
    intro M N p A b x h
    simp only [idealSolver] at h
    split at h
    · rename_i hh; cases h; exact hh.choose_spec
    · cases h

/-- The constant fit from below to the data `(1, 3)`. -/
example : ∃ x, linearFit idealSolver (Matrix.of ![![1], ![1]] : Matrix (Fin 2) (Fin 1) ℝ) ![1, 3] .one .lower = .ok x := by
  rw [linearFit_ok_iff]
  refine ⟨by simp, .inr (.inl ⟨rfl, ?_⟩)⟩
  simp only [idealSolver]
  rw [dif_pos]
  · rfl
  · refine ⟨![1], ?_, ?_⟩
    · intro i; fin_cases i <;> simp [Matrix.mulVec, dotProduct]
    · intro x' h
      have h0 := h 0
      simp [Matrix.mulVec, dotProduct] at h0
      simp [pnorm, dotProduct, Fin.sum_univ_two]
      rw [abs_of_nonpos (by linarith : (1:ℝ) - 3 ≤ 0), abs_of_nonpos (by linarith : x' 0 - 1 ≤ 0),
        abs_of_nonpos (by linarith : x' 0 - 3 ≤ 0)]
      linarith

end Verif.Func
