import Verif.Misc.GaussModel
import Verif.Lipschitz.FitProps
import Verif.Lipschitz.FitExists
import Mathlib.MeasureTheory.Integral.IntervalIntegral.Basic
import Mathlib.Analysis.SpecialFunctions.Integrals.Basic
import Mathlib.Topology.Algebra.Polynomial

/-!
# Properties C63 and C79: Gauss-Legendre quadrature
-/

namespace Verif.Misc

open Verif.Lip Matrix Polynomial

variable {n : ℕ}

theorem gaussT_symm (n : ℕ) : (gaussT n)ᵀ = gaussT n := by
  ext i j
  simp only [gaussT, Matrix.transpose_apply, Matrix.of_apply]
  ring

/-- **C63**: the weights are nonnegative. -/
theorem gauss_nonneg (a b : ℝ) (hab : a ≤ b) (eigh : EighFn (n + 1)) (k : Fin (n + 1)) : 0 ≤ (gauss n a b eigh).2 k := by
  simp only [gauss]
  have : 0 ≤ (b - a) / 2 := by linarith
  positivity

theorem first_row (eigh : EighFn (n + 1)) (he : EighSpec eigh) : ∑ k, (eigh (gaussT n)).2 0 k ^ 2 = 1 := by
  obtain ⟨h1, -⟩ := he _ (gaussT_symm n)
  have h2 : (eigh (gaussT n)).2 * (eigh (gaussT n)).2ᵀ = 1 := mul_eq_one_comm.1 h1
  have := congrFun (congrFun h2 0) 0
  simp only [Matrix.mul_apply, Matrix.transpose_apply, Matrix.one_apply_eq] at this
  rw [← this]
  exact Finset.sum_congr rfl fun k _ => sq _

/-- **C63**: the weights sum to the length of the interval. -/
theorem gauss_sum (a b : ℝ) (eigh : EighFn (n + 1)) (he : EighSpec eigh) : ∑ k, (gauss n a b eigh).2 k = b - a := by
  simp only [gauss]
  rw [← Finset.mul_sum, ← Finset.mul_sum, first_row eigh he]
  ring

/-- **C63**, affine mapping: if the rule on `[-1, 1]` integrates the pulled back function exactly, the rule on `[a, b]`
integrates the function exactly. -/
theorem gauss_affine (a b : ℝ) (eigh : EighFn (n + 1)) (g : ℝ → ℝ)
    (h : ∑ k, (gauss n (-1) 1 eigh).2 k * g (a + (b - a) / 2 * (1 + (gauss n (-1) 1 eigh).1 k)) =
      ∫ t in (-1 : ℝ)..1, g (a + (b - a) / 2 * (1 + t))) :
    ∑ k, (gauss n a b eigh).2 k * g ((gauss n a b eigh).1 k) = ∫ x in a..b, g x := by
  have e : ∀ k, (gauss n (-1) 1 eigh).1 k = (eigh (gaussT n)).1 k := fun k => by simp only [gauss]; ring
  have e2 : ∀ k, (gauss n a b eigh).2 k = (b - a) / 2 * (gauss n (-1) 1 eigh).2 k := fun k => by simp only [gauss]; ring
  have e3 : ∑ k, (gauss n a b eigh).2 k * g ((gauss n a b eigh).1 k) =
      (b - a) / 2 * ∫ t in (-1 : ℝ)..1, g (a + (b - a) / 2 * (1 + t)) := by
    rw [← h, Finset.mul_sum]
    refine Finset.sum_congr rfl fun k _ => ?_
    rw [e2, e, mul_assoc]
    rfl
  rw [e3]
  have hfun : (fun t : ℝ => g (a + (b - a) / 2 * (1 + t))) = fun t => g ((b - a) / 2 * t + (a + (b - a) / 2)) := by
    funext t
    congr 1
    ring
  rw [hfun]
  by_cases hab : b = a
  · subst hab; simp
  · have hc : (b - a) / 2 ≠ 0 := by
      intro h0
      apply hab
      linarith
    rw [intervalIntegral.integral_comp_mul_add g hc, smul_eq_mul, ← mul_assoc, mul_inv_cancel₀ hc, one_mul]
    congr 1 <;> ring

/-! ## Exactness: the moments of the Legendre polynomials -/

/-- Half the integral over `[-1, 1]`. -/
noncomputable def Lfun (p : ℝ[X]) : ℝ := (1 / 2) * ∫ t in (-1 : ℝ)..1, p.eval t

theorem poly_integrable (p : ℝ[X]) (a b : ℝ) : IntervalIntegrable (fun t => p.eval t) MeasureTheory.volume a b :=
  (Polynomial.continuous p).intervalIntegrable a b

theorem Lfun_add (p q : ℝ[X]) : Lfun (p + q) = Lfun p + Lfun q := by
  unfold Lfun
  simp only [Polynomial.eval_add]
  rw [intervalIntegral.integral_add (poly_integrable p _ _) (poly_integrable q _ _)]
  ring

theorem Lfun_smul (c : ℝ) (p : ℝ[X]) : Lfun (C c * p) = c * Lfun p := by
  unfold Lfun
  simp only [Polynomial.eval_mul, Polynomial.eval_C]
  rw [intervalIntegral.integral_const_mul]
  ring

theorem Lfun_sub (p q : ℝ[X]) : Lfun (p - q) = Lfun p - Lfun q := by
  have : p - q = p + C (-1) * q := by rw [C_neg, C_1]; ring
  rw [this, Lfun_add, Lfun_smul]
  ring

theorem Lfun_pow_even (i : ℕ) : Lfun (X ^ (2 * i)) = 1 / (2 * i + 1) := by
  unfold Lfun
  simp only [Polynomial.eval_pow, Polynomial.eval_X]
  rw [integral_pow]
  have h1 : (-1 : ℝ) ^ (2 * i + 1) = -1 := Odd.neg_one_pow ⟨i, rfl⟩
  rw [h1, one_pow]
  push_cast
  ring

theorem Lfun_pow_odd (i : ℕ) : Lfun (X ^ (2 * i + 1)) = 0 := by
  unfold Lfun
  simp only [Polynomial.eval_pow, Polynomial.eval_X]
  rw [integral_pow]
  have h1 : (-1 : ℝ) ^ (2 * i + 1 + 1) = 1 := Even.neg_one_pow ⟨i + 1, by ring⟩
  rw [h1, one_pow]
  ring

/-- The squares of the recurrence coefficients. -/
noncomputable def bsq (k : ℕ) : ℝ := ((k : ℝ) + 1) ^ 2 / (4 * ((k : ℝ) + 1) ^ 2 - 1)

theorem bsq_pos (k : ℕ) : 0 < bsq k := by
  unfold bsq
  apply div_pos
  · positivity
  · have : (0:ℝ) ≤ k := Nat.cast_nonneg k
    nlinarith

theorem gaussBeta_sq (k : ℕ) : gaussBeta k = Real.sqrt (bsq k) := by
  have hk : (0:ℝ) ≤ k := Nat.cast_nonneg k
  have hp : 0 < 1 - (2 * ((k : ℝ) + 1)) ^ (-2 : ℤ) := by
    rw [_root_.zpow_neg, sub_pos, inv_lt_one_iff₀]
    right
    norm_cast
    have : 2 ≤ 2 * (k + 1) := by omega
    nlinarith
  have h0 : 0 ≤ gaussBeta k := by unfold gaussBeta; positivity
  rw [← Real.sqrt_sq h0]
  congr 1
  unfold gaussBeta bsq
  rw [div_pow, Real.sq_sqrt hp.le, _root_.zpow_neg]
  have h1 : (4 * ((k : ℝ) + 1) ^ 2 - 1) ≠ 0 := by nlinarith
  have h2 : ((2 * ((k : ℝ) + 1)) ^ (2 : ℤ)) = 4 * ((k : ℝ) + 1) ^ 2 := by
    rw [show (2 : ℤ) = ((2 : ℕ) : ℤ) from rfl, zpow_natCast]; ring
  rw [h2]
  have h3 : (4 * ((k : ℝ) + 1) ^ 2) ≠ 0 := by positivity
  have h4 : 1 - (4 * ((k : ℝ) + 1) ^ 2)⁻¹ ≠ 0 := by
    rw [← h2]; rw [_root_.zpow_neg] at hp; exact hp.ne'
  rw [div_eq_div_iff h4 h1]
  field_simp
  ring

/-- The monic Legendre polynomials, by their recurrence. -/
noncomputable def leg : ℕ → ℝ[X]
  | 0 => 1
  | 1 => X
  | k + 2 => X * leg (k + 1) - C (bsq k) * leg k

/-- The closed form of the moments. -/
noncomputable def mom (k i : ℕ) : ℝ :=
  ((k + 2 * i).factorial : ℝ) * (k.factorial : ℝ) ^ 2 * ((k + i).factorial : ℝ) * 4 ^ k /
    ((i.factorial : ℝ) * ((2 * k + 2 * i + 1).factorial : ℝ) * ((2 * k).factorial : ℝ))

theorem mom_rec (k i : ℕ) : mom (k + 2) i = mom (k + 1) (i + 1) - bsq k * mom k (i + 1) := by
  unfold mom bsq
  have e1 : (k + 2 + 2 * i).factorial = (k + 2 * i + 2).factorial := by congr 1; omega
  have e2 : (k + 1 + 2 * (i + 1)).factorial = (k + 2 * i + 3) * (k + 2 * i + 2).factorial := by
    rw [← Nat.factorial_succ]; congr 1; omega
  have e3 : (k + 2 * (i + 1)).factorial = (k + 2 * i + 2).factorial := by congr 1
  have e4 : (k + 2 + i).factorial = (k + i + 2) * (k + i + 1).factorial := by
    rw [← Nat.factorial_succ]; congr 1; omega
  have e5 : (k + 1 + (i + 1)).factorial = (k + i + 2) * (k + i + 1).factorial := by
    rw [← Nat.factorial_succ]; congr 1; omega
  have e6 : (k + (i + 1)).factorial = (k + i + 1).factorial := by congr 1
  have e7 : (2 * (k + 2) + 2 * i + 1).factorial = (2 * k + 2 * i + 5) * ((2 * k + 2 * i + 4) * (2 * k + 2 * i + 3).factorial) := by
    rw [← Nat.factorial_succ, ← Nat.factorial_succ]; congr 1; omega
  have e8 : (2 * (k + 1) + 2 * (i + 1) + 1).factorial = (2 * k + 2 * i + 5) * ((2 * k + 2 * i + 4) * (2 * k + 2 * i + 3).factorial) := by
    rw [← Nat.factorial_succ, ← Nat.factorial_succ]; congr 1; omega
  have e9 : (2 * k + 2 * (i + 1) + 1).factorial = (2 * k + 2 * i + 3).factorial := by congr 1
  have e10 : (2 * (k + 2)).factorial = (2 * k + 4) * ((2 * k + 3) * ((2 * k + 2) * ((2 * k + 1) * (2 * k).factorial))) := by
    rw [← Nat.factorial_succ, ← Nat.factorial_succ, ← Nat.factorial_succ, ← Nat.factorial_succ]; congr 1
  have e11 : (2 * (k + 1)).factorial = (2 * k + 2) * ((2 * k + 1) * (2 * k).factorial) := by
    rw [← Nat.factorial_succ, ← Nat.factorial_succ]; congr 1
  rw [e1, e2, e3, e4, e5, e6, e7, e8, e9, e10, e11, Nat.factorial_succ i, Nat.factorial_succ (k + 1), Nat.factorial_succ k]
  push_cast
  have p1 := Nat.cast_pos (α := ℝ).2 (Nat.factorial_pos (k + 2 * i + 2))
  have p2 := Nat.cast_pos (α := ℝ).2 (Nat.factorial_pos (k + i + 1))
  have p3 := Nat.cast_pos (α := ℝ).2 (Nat.factorial_pos (2 * k + 2 * i + 3))
  have p4 := Nat.cast_pos (α := ℝ).2 (Nat.factorial_pos (2 * k))
  have p5 := Nat.cast_pos (α := ℝ).2 (Nat.factorial_pos i)
  have p6 := Nat.cast_pos (α := ℝ).2 (Nat.factorial_pos k)
  generalize ((k + 2 * i + 2).factorial : ℝ) = A at *
  generalize ((k + i + 1).factorial : ℝ) = B at *
  generalize ((2 * k + 2 * i + 3).factorial : ℝ) = D at *
  generalize ((2 * k).factorial : ℝ) = E at *
  generalize (i.factorial : ℝ) = G at *
  generalize (k.factorial : ℝ) = H at *
  have hk : (0:ℝ) ≤ k := Nat.cast_nonneg k
  have hi : (0:ℝ) ≤ i := Nat.cast_nonneg i
  have hd : (4 * ((k : ℝ) + 1) ^ 2 - 1) = (2 * k + 1) * (2 * k + 3) := by ring
  rw [hd]
  generalize (k : ℝ) = x at *
  generalize (i : ℝ) = y at *
  have : (4:ℝ) ^ (k + 2) = 16 * 4 ^ k := by ring
  rw [this]
  have : (4:ℝ) ^ (k + 1) = 4 * 4 ^ k := by ring
  rw [this]
  have p7 : (0:ℝ) < 4 ^ k := by positivity
  generalize (4:ℝ) ^ k = F at *
  field_simp
  ring

theorem leg_moments (k : ℕ) : (∀ i, Lfun (X ^ (k + 2 * i) * leg k) = mom k i) ∧
    (∀ i, Lfun (X ^ (k + 2 * i + 1) * leg k) = 0) ∧ (∀ j < k, Lfun (X ^ j * leg k) = 0) := by
  induction k using Nat.twoStepInduction with
  | zero =>
    refine ⟨fun i => ?_, fun i => ?_, fun j hj => absurd hj (by omega)⟩
    · rw [leg, mul_one, zero_add, Lfun_pow_even]
      unfold mom
      have e : (2 * 0 + 2 * i + 1).factorial = (2 * i + 1) * (2 * i).factorial := by
        rw [← Nat.factorial_succ]; congr 1; omega
      rw [e]
      simp only [zero_add, Nat.factorial_zero, Nat.mul_zero]
      have p1 := Nat.cast_pos (α := ℝ).2 (Nat.factorial_pos (2 * i))
      have p2 := Nat.cast_pos (α := ℝ).2 (Nat.factorial_pos i)
      push_cast
      field_simp
    · rw [leg, mul_one, zero_add, Lfun_pow_odd]
  | one =>
    refine ⟨fun i => ?_, fun i => ?_, fun j hj => ?_⟩
    · have e0 : (X : ℝ[X]) ^ (1 + 2 * i) * leg 1 = X ^ (2 * (i + 1)) := by rw [leg]; ring
      rw [e0, Lfun_pow_even]
      unfold mom
      have e : (2 * 1 + 2 * i + 1).factorial = (2 * i + 3) * ((2 * i + 2) * (1 + 2 * i).factorial) := by
        rw [show 1 + 2 * i = 2 * i + 1 by omega, ← Nat.factorial_succ, ← Nat.factorial_succ]; congr 1; omega
      have e' : (1 + i).factorial = (i + 1) * i.factorial := by rw [← Nat.factorial_succ]; congr 1; omega
      rw [e, e']
      have p1 := Nat.cast_pos (α := ℝ).2 (Nat.factorial_pos (1 + 2 * i))
      have p2 := Nat.cast_pos (α := ℝ).2 (Nat.factorial_pos i)
      push_cast
      simp only [Nat.factorial]
      field_simp
      push_cast
      ring
    · have e0 : (X : ℝ[X]) ^ (1 + 2 * i + 1) * leg 1 = X ^ (2 * (i + 1) + 1) := by rw [leg]; ring
      rw [e0, Lfun_pow_odd]
    · obtain rfl : j = 0 := by omega
      have e0 : (X : ℝ[X]) ^ 0 * leg 1 = X ^ (2 * 0 + 1) := by rw [leg]; ring
      rw [e0, Lfun_pow_odd]
  | more k ih0 ih1 =>
    have step : ∀ j, Lfun (X ^ j * leg (k + 2)) = Lfun (X ^ (j + 1) * leg (k + 1)) - bsq k * Lfun (X ^ j * leg k) := by
      intro j
      have : (X : ℝ[X]) ^ j * leg (k + 2) = X ^ (j + 1) * leg (k + 1) - C (bsq k) * (X ^ j * leg k) := by
        rw [leg]; ring
      rw [this, Lfun_sub, Lfun_smul]
    refine ⟨fun i => ?_, fun i => ?_, fun j hj => ?_⟩
    · rw [step, show k + 2 + 2 * i + 1 = k + 1 + 2 * (i + 1) by omega, ih1.1, show k + 2 + 2 * i = k + 2 * (i + 1) by omega, ih0.1, mom_rec]
    · rw [step, show k + 2 + 2 * i + 1 + 1 = k + 1 + 2 * (i + 1) + 1 by omega, ih1.2.1,
        show k + 2 + 2 * i + 1 = k + 2 * (i + 1) + 1 by omega, ih0.2.1]
      ring
    · rw [step]
      rcases Nat.lt_trichotomy j k with h | h | h
      · rw [ih1.2.2 (j + 1) (by omega), ih0.2.2 j h]; ring
      · subst h
        have h1 := ih1.1 0
        have h0 := ih0.1 0
        simp only [Nat.mul_zero, Nat.add_zero] at h1 h0
        rw [h1, h0]
        unfold mom bsq
        have e1 : (2 * (j + 1) + 2 * 0 + 1).factorial = (2 * j + 3) * ((2 * j + 2) * (2 * j + 2 * 0 + 1).factorial) := by
          rw [← Nat.factorial_succ, ← Nat.factorial_succ]; congr 1
        have e2 : (2 * (j + 1)).factorial = (2 * j + 2) * ((2 * j + 1) * (2 * j).factorial) := by
          rw [← Nat.factorial_succ, ← Nat.factorial_succ]; congr 1
        rw [e1, e2]
        simp only [Nat.mul_zero, Nat.add_zero, Nat.factorial_succ j]
        have hk : (0:ℝ) ≤ j := Nat.cast_nonneg j
        have hd : (4 * ((j : ℝ) + 1) ^ 2 - 1) = (2 * j + 1) * (2 * j + 3) := by ring
        rw [hd]
        have p1 := Nat.cast_pos (α := ℝ).2 (Nat.factorial_pos (2 * j + 1))
        have p4 := Nat.cast_pos (α := ℝ).2 (Nat.factorial_pos (2 * j))
        have p6 := Nat.cast_pos (α := ℝ).2 (Nat.factorial_pos j)
        push_cast
        generalize ((2 * j + 1).factorial : ℝ) = A at *
        generalize ((2 * j).factorial : ℝ) = B at *
        generalize (j.factorial : ℝ) = D at *
        have p7 : (0:ℝ) < 4 ^ j := by positivity
        rw [show (4:ℝ) ^ (j + 1) = 4 * 4 ^ j by ring]
        generalize (4:ℝ) ^ j = F at *
        field_simp
        ring
      · obtain rfl : j = k + 1 := by omega
        have h1 := ih1.2.1 0
        have h0 := ih0.2.1 0
        simp only [Nat.mul_zero, Nat.add_zero] at h1 h0
        rw [h1, h0]
        ring

/-- The squared norms. -/
noncomputable def hsq (k : ℕ) : ℝ := mom k 0

theorem hsq_pos (k : ℕ) : 0 < hsq k := by
  unfold hsq mom
  positivity

theorem hsq_zero : hsq 0 = 1 := by simp [hsq, mom]

theorem hsq_succ (k : ℕ) : hsq (k + 1) = bsq k * hsq k := by
  have h := (leg_moments (k + 2)).2.2 k (by omega)
  have e : (X : ℝ[X]) ^ k * leg (k + 2) = X ^ (k + 1) * leg (k + 1) - C (bsq k) * (X ^ k * leg k) := by
    rw [leg]; ring
  rw [e, Lfun_sub, Lfun_smul] at h
  have h1 := (leg_moments (k + 1)).1 0
  have h0 := (leg_moments k).1 0
  simp only [Nat.mul_zero, Nat.add_zero] at h1 h0
  rw [h1, h0] at h
  unfold hsq
  linarith

/-- The coefficients of a polynomial in the orthonormal basis. -/
noncomputable def phi (p : ℝ[X]) (j : ℕ) : ℝ := Lfun (p * leg j) / Real.sqrt (hsq j)

theorem sqrt_hsq_succ (k : ℕ) : Real.sqrt (hsq (k + 1)) = gaussBeta k * Real.sqrt (hsq k) := by
  rw [hsq_succ, Real.sqrt_mul (bsq_pos k).le, gaussBeta_sq]

theorem sqrt_hsq_pos (k : ℕ) : 0 < Real.sqrt (hsq k) := Real.sqrt_pos.2 (hsq_pos k)

theorem gaussBeta_pos (k : ℕ) : 0 < gaussBeta k := by rw [gaussBeta_sq]; exact Real.sqrt_pos.2 (bsq_pos k)

theorem phi_up (p : ℝ[X]) (k : ℕ) : Lfun (p * leg (k + 1)) / Real.sqrt (hsq k) = gaussBeta k * phi p (k + 1) := by
  unfold phi
  rw [sqrt_hsq_succ]
  have h1 := (sqrt_hsq_pos k).ne'
  have h2 := (gaussBeta_pos k).ne'
  field_simp

theorem phi_X_zero (p : ℝ[X]) : phi (X * p) 0 = gaussBeta 0 * phi p 1 := by
  rw [← phi_up]
  unfold phi
  congr 2
  simp only [leg]
  ring

theorem phi_X_succ (p : ℝ[X]) (k : ℕ) : phi (X * p) (k + 1) = gaussBeta (k + 1) * phi p (k + 2) + gaussBeta k * phi p k := by
  rw [← phi_up p (k + 1)]
  have e : X * p * leg (k + 1) = p * leg (k + 2) + C (bsq k) * (p * leg k) := by rw [leg]; ring
  unfold phi
  rw [e, Lfun_add, Lfun_smul, add_div]
  congr 1
  rw [sqrt_hsq_succ]
  have h1 := (sqrt_hsq_pos k).ne'
  have h2 := (gaussBeta_pos k).ne'
  have h3 : bsq k = gaussBeta k ^ 2 := by rw [gaussBeta_sq, Real.sq_sqrt (bsq_pos k).le]
  rw [h3]
  field_simp

/-- The action of the tridiagonal matrix. -/
theorem gaussT_mulVec (v : ℕ → ℝ) (i : Fin (n + 1)) : (gaussT n *ᵥ fun j : Fin (n + 1) => v j) i =
    (if (i : ℕ) + 1 ≤ n then gaussBeta i * v (i + 1) else 0) + (if 1 ≤ (i : ℕ) then gaussBeta (i - 1) * v (i - 1) else 0) := by
  simp only [Matrix.mulVec, dotProduct, gaussT, Matrix.of_apply, add_mul, Finset.sum_add_distrib]
  congr 1
  · split
    · rename_i h
      rw [Finset.sum_eq_single ⟨i + 1, by omega⟩]
      · simp
      · intro b _ hb
        rw [if_neg, zero_mul]
        intro e
        exact hb (Fin.ext e)
      · simp
    · rename_i h
      refine Finset.sum_eq_zero fun j _ => ?_
      rw [if_neg, zero_mul]
      intro e
      have := j.2
      omega
  · split
    · rename_i h
      rw [Finset.sum_eq_single ⟨i - 1, by omega⟩]
      · rw [if_pos (by simp only; omega)]
      · intro b _ hb
        rw [if_neg, zero_mul]
        intro e
        exact hb (Fin.ext (by simp only; omega))
      · simp
    · rename_i h
      refine Finset.sum_eq_zero fun j _ => ?_
      rw [if_neg, zero_mul]
      omega

/-- Multiplication by `X` is the tridiagonal matrix, except possibly in the last component. -/
theorem gaussT_phi (v : Fin (n + 1) → ℝ) (p : ℝ[X]) (i : Fin (n + 1)) (hv : ∀ j : Fin (n + 1), (j : ℕ) ≤ i + 1 → v j = phi p j)
    (h : (i : ℕ) < n ∨ phi p (n + 1) = 0) : (gaussT n *ᵥ v) i = phi (X * p) i := by
  set w : ℕ → ℝ := fun j => if hj : j < n + 1 then v ⟨j, hj⟩ else 0 with hw
  have e : v = fun j : Fin (n + 1) => w j := by
    funext j
    simp only [hw, dif_pos j.2, Fin.eta]
  have hwj : ∀ j, j < n + 1 → j ≤ i + 1 → w j = phi p j := by
    intro j hj hji
    simp only [hw, dif_pos hj]
    exact hv ⟨j, hj⟩ hji
  rw [e, gaussT_mulVec]
  have hi := i.2
  obtain ⟨i, hi'⟩ := i
  simp only at *
  cases i with
  | zero =>
    rw [phi_X_zero]
    rw [if_neg (show ¬ 1 ≤ 0 by omega), add_zero]
    simp only [zero_add]
    by_cases hn : 1 ≤ n
    · rw [if_pos hn, hwj 1 (by omega) (by omega)]
    · rw [if_neg hn]
      obtain rfl : n = 0 := by omega
      rcases h with h | h
      · omega
      · rw [h, mul_zero]
  | succ k =>
    rw [phi_X_succ, if_pos (show 1 ≤ k + 1 by omega)]
    simp only [Nat.add_sub_cancel]
    rw [hwj k (by omega) (by omega)]
    congr 1
    by_cases hn : k + 1 + 1 ≤ n
    · rw [if_pos hn, hwj (k + 1 + 1) (by omega) (by omega)]
    · rw [if_neg hn]
      rcases h with h | h
      · omega
      · have : k + 2 = n + 1 := by omega
        rw [this, h, mul_zero]

theorem phi_pow_zero {j k : ℕ} (h : j < k) : phi (X ^ j) k = 0 := by
  unfold phi
  rw [(leg_moments k).2.2 j h, zero_div]

theorem pow_apply (k : ℕ) (hk : k ≤ n + 1) (i : Fin (n + 1)) : ((gaussT n) ^ k *ᵥ Pi.single 0 1) i = phi (X ^ k) i := by
  induction k generalizing i with
  | zero =>
    rw [pow_zero, Matrix.one_mulVec]
    by_cases h : i = 0
    · subst h
      rw [Pi.single_eq_same]
      unfold phi
      have := Lfun_pow_even 0
      simp only [Nat.mul_zero] at this
      simp [leg, hsq_zero]
      simpa using this.symm
    · rw [Pi.single_eq_of_ne h, phi_pow_zero]
      exact Nat.pos_of_ne_zero (fun e => h (Fin.ext e))
  | succ k ih =>
    rw [pow_succ', ← Matrix.mulVec_mulVec, pow_succ']
    exact gaussT_phi _ _ _ (fun j _ => ih (by omega) j) (Or.inr (phi_pow_zero (by omega)))

theorem pow_phi (v : Fin (n + 1) → ℝ) (p : ℝ[X]) (hv : ∀ j : Fin (n + 1), v j = phi p j) (i : ℕ) (j : Fin (n + 1)) (hj : j + i ≤ n) :
    ((gaussT n) ^ i *ᵥ v) j = phi (X ^ i * p) j := by
  induction i generalizing j with
  | zero => simp [hv]
  | succ i ih =>
    rw [pow_succ', ← Matrix.mulVec_mulVec, pow_succ', mul_assoc]
    exact gaussT_phi _ _ _ (fun l hl => ih l (by omega)) (Or.inl (by omega))

theorem phi_zero (p : ℝ[X]) : phi p 0 = Lfun p := by simp [phi, leg, hsq_zero]

/-- The moments of the tridiagonal matrix. -/
theorem gaussT_moment (s : ℕ) (hs : s ≤ 2 * n + 1) : ((gaussT n) ^ s) 0 0 = Lfun (X ^ s) := by
  have h0 : ((gaussT n) ^ s) 0 0 = ((gaussT n) ^ s *ᵥ Pi.single 0 1) 0 := by simp
  rw [h0]
  by_cases h : s ≤ n + 1
  · rw [pow_apply s h]
    exact phi_zero _
  · obtain ⟨i, rfl⟩ : ∃ i, s = i + (n + 1) := ⟨s - (n + 1), by omega⟩
    rw [pow_add, ← Matrix.mulVec_mulVec, pow_phi _ (X ^ (n + 1)) (fun j => pow_apply (n + 1) le_rfl j) i 0 (by simp; omega), ← pow_add]
    exact phi_zero _

theorem eigh_pow (eigh : EighFn (n + 1)) (he : EighSpec eigh) (s : ℕ) :
    ((gaussT n) ^ s) 0 0 = ∑ k, (eigh (gaussT n)).2 0 k ^ 2 * (eigh (gaussT n)).1 k ^ s := by
  obtain ⟨h1, h2⟩ := he _ (gaussT_symm n)
  set Q := (eigh (gaussT n)).2
  set d := (eigh (gaussT n)).1
  have h3 : Q * Qᵀ = 1 := mul_eq_one_comm.1 h1
  have hp : (gaussT n) ^ s = Q * Matrix.diagonal (fun k => d k ^ s) * Qᵀ := by
    induction s with
    | zero => simp [h3]
    | succ s ih =>
      rw [pow_succ, ih]
      conv_lhs => rw [h2]
      have : Q * Matrix.diagonal (fun k => d k ^ s) * Qᵀ * (Q * Matrix.diagonal d * Qᵀ) =
          Q * (Matrix.diagonal (fun k => d k ^ s) * ((Qᵀ * Q) * Matrix.diagonal d)) * Qᵀ := by simp only [Matrix.mul_assoc]
      rw [this, h1, Matrix.one_mul, Matrix.diagonal_mul_diagonal]
      simp only [pow_succ]
  rw [hp]
  rw [Matrix.mul_apply]
  simp only [Matrix.mul_diagonal, Matrix.transpose_apply]
  refine Finset.sum_congr rfl fun k _ => ?_
  ring

theorem Lfun_sum (s : Finset ℕ) (f : ℕ → ℝ[X]) : Lfun (∑ i ∈ s, f i) = ∑ i ∈ s, Lfun (f i) := by
  classical
  induction s using Finset.induction_on with
  | empty => simp [Lfun]
  | insert a s ha ih => rw [Finset.sum_insert ha, Finset.sum_insert ha, Lfun_add, ih]

/-- **C79**: `gauss(N, a, b)` with `N = n + 1` points integrates every polynomial of degree at most `2 N - 1` exactly over
`[a, b]`, for every exact symmetric eigenvalue routine. -/
theorem gauss_exact (a b : ℝ) (eigh : EighFn (n + 1)) (he : EighSpec eigh) (p : ℝ[X]) (hp : p.natDegree ≤ 2 * (n + 1) - 1) :
    ∑ k, (gauss n a b eigh).2 k * p.eval ((gauss n a b eigh).1 k) = ∫ x in a..b, p.eval x := by
  refine gauss_affine a b eigh (fun x => p.eval x) ?_
  -- the pulled back polynomial
  set r : ℝ[X] := p.comp (C ((b - a) / 2) * X + C (a + (b - a) / 2)) with hr
  have hev : ∀ t, p.eval (a + (b - a) / 2 * (1 + t)) = r.eval t := by
    intro t
    rw [hr, eval_comp]
    congr 1
    simp
    ring
  have hdeg : r.natDegree < 2 * n + 2 := by
    have h1 := natDegree_comp_le (p := p) (q := C ((b - a) / 2) * X + C (a + (b - a) / 2))
    have h2 : (C ((b - a) / 2) * X + C (a + (b - a) / 2)).natDegree ≤ 1 := natDegree_linear_le
    have h3 : p.natDegree * (C ((b - a) / 2) * X + C (a + (b - a) / 2)).natDegree ≤ p.natDegree * 1 := Nat.mul_le_mul_left _ h2
    rw [← hr] at h1
    omega
  simp only [hev]
  have e : ∀ k, (gauss n (-1) 1 eigh).1 k = (eigh (gaussT n)).1 k := fun k => by simp only [gauss]; ring
  have e2 : ∀ k, (gauss n (-1) 1 eigh).2 k = 2 * (eigh (gaussT n)).2 0 k ^ 2 := fun k => by simp only [gauss]; ring
  simp only [e, e2]
  have hL : ∫ t in (-1 : ℝ)..1, r.eval t = 2 * Lfun r := by unfold Lfun; ring
  rw [hL]
  have hrs : r = ∑ s ∈ Finset.range (2 * n + 2), C (r.coeff s) * X ^ s := by
    conv_lhs => rw [r.as_sum_range' (2 * n + 2) hdeg]
    simp only [C_mul_X_pow_eq_monomial]
  have hLr : Lfun r = ∑ s ∈ Finset.range (2 * n + 2), r.coeff s * Lfun (X ^ s) := by
    conv_lhs => rw [hrs]
    rw [Lfun_sum]
    exact Finset.sum_congr rfl fun s _ => Lfun_smul _ _
  rw [hLr, Finset.mul_sum]
  have hm : ∀ s ∈ Finset.range (2 * n + 2), 2 * (r.coeff s * Lfun (X ^ s)) =
      ∑ k, 2 * (eigh (gaussT n)).2 0 k ^ 2 * (r.coeff s * (eigh (gaussT n)).1 k ^ s) := by
    intro s hs
    rw [← gaussT_moment (n := n) s (by have := Finset.mem_range.1 hs; omega), eigh_pow eigh he s, Finset.mul_sum, Finset.mul_sum]
    exact Finset.sum_congr rfl fun k _ => by ring
  rw [Finset.sum_congr rfl hm, Finset.sum_comm]
  refine Finset.sum_congr rfl fun k _ => ?_
  rw [← Finset.mul_sum, eval_eq_sum_range' hdeg]

/-- Exact eigenvalue routines exist. -/
example : ∃ eigh : EighFn (n + 1), EighSpec eigh := exists_eigh (n + 1)

end Verif.Misc
