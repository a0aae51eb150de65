import Verif.GP.Model
import Mathlib.Analysis.Normed.Algebra.Exponential
import Mathlib.Analysis.SpecialFunctions.Exponential
import Mathlib.Algebra.MvPolynomial.Eval
import Mathlib.Algebra.BigOperators.Fin
import Mathlib.Algebra.Order.BigOperators.Group.Finset
import Mathlib.Topology.Algebra.InfiniteSum.Order

/-!
# The Gaussian kernel is positive definite

`∑ cᵢ cⱼ exp(-|yᵢ-yⱼ|²/2) ≥ 0`, with equality only for `c = 0` when the points are distinct.
-/

namespace Verif.GP

open Verif Verif.Lip Matrix

variable {m M : ℕ}

theorem sqd_expand (a b : Pt m) : sqd a b = sqd a 0 + sqd b 0 - 2 * (a ⬝ᵥ b) := by
  simp only [sqd, dotProduct, Finset.mul_sum, ← Finset.sum_add_distrib, ← Finset.sum_sub_distrib]
  exact Finset.sum_congr rfl fun i _ => by simp; ring

theorem kern_split (a b : Pt m) : kern a b = Real.exp (-0.5 * sqd a 0) * Real.exp (-0.5 * sqd b 0) * Real.exp (a ⬝ᵥ b) := by
  unfold kern
  rw [← Real.exp_add, ← Real.exp_add, sqd_expand]
  congr 1; ring

theorem kern_self (a : Pt m) : kern a a = 1 := by simp [kern, sqd]

theorem kern_symm (a b : Pt m) : kern a b = kern b a := by
  have : sqd a b = sqd b a := by
    unfold sqd
    exact Finset.sum_congr rfl fun i _ => by ring
  rw [kern, kern, this]

theorem kernMat_symm (Y : Fin M → Pt m) : (kernMat Y)ᵀ = kernMat Y := by
  ext i j; exact kern_symm _ _

/-- A power of a scalar product is a sum of products of monomials. -/
theorem dot_pow (a b : Pt m) (n : ℕ) : (a ⬝ᵥ b) ^ n = ∑ p : Fin n → Fin m, (∏ l, a (p l)) * ∏ l, b (p l) := by
  have h := Finset.prod_univ_sum (fun _ : Fin n => (Finset.univ : Finset (Fin m))) (fun _ k => a k * b k)
  rw [Finset.prod_const, Finset.card_univ, Fintype.card_fin] at h
  rw [dotProduct, h, Fintype.piFinset_univ]
  exact Finset.sum_congr rfl fun p _ => Finset.prod_mul_distrib

/-- The moments `∑ cᵢ e^{-|yᵢ|²/2} yᵢ^p`. -/
noncomputable def moment (Y : Fin M → Pt m) (c : Fin M → ℝ) (n : ℕ) (p : Fin n → Fin m) : ℝ :=
  ∑ i, c i * Real.exp (-0.5 * sqd (Y i) 0) * ∏ l, Y i (p l)

/-- The quadratic form of the kernel is a series of squares. -/
theorem kern_series (Y : Fin M → Pt m) (c : Fin M → ℝ) :
    HasSum (fun n : ℕ => (∑ p : Fin n → Fin m, moment Y c n p ^ 2) / (n.factorial : ℝ)) (c ⬝ᵥ (kernMat Y *ᵥ c)) := by
  have hexp : ∀ t : ℝ, HasSum (fun n : ℕ => t ^ n / (n.factorial : ℝ)) (Real.exp t) := by
    intro t
    rw [Real.exp_eq_exp_ℝ]
    exact NormedSpace.expSeries_div_hasSum_exp t
  have h1 : ∀ i j, HasSum (fun n : ℕ => c i * Real.exp (-0.5 * sqd (Y i) 0) * (c j * Real.exp (-0.5 * sqd (Y j) 0)) *
      ((Y i ⬝ᵥ Y j) ^ n / (n.factorial : ℝ))) (c i * (kern (Y i) (Y j) * c j)) := by
    intro i j
    have := (hexp (Y i ⬝ᵥ Y j)).mul_left (c i * Real.exp (-0.5 * sqd (Y i) 0) * (c j * Real.exp (-0.5 * sqd (Y j) 0)))
    have e : c i * (kern (Y i) (Y j) * c j) = c i * Real.exp (-0.5 * sqd (Y i) 0) * (c j * Real.exp (-0.5 * sqd (Y j) 0)) * Real.exp (Y i ⬝ᵥ Y j) := by
      rw [kern_split]; ring
    rw [e]
    exact this
  have h2 := hasSum_sum (s := Finset.univ) fun i _ => hasSum_sum (s := Finset.univ) fun j _ => h1 i j
  have e : c ⬝ᵥ (kernMat Y *ᵥ c) = ∑ i, ∑ j, c i * (kern (Y i) (Y j) * c j) := by
    simp only [dotProduct, mulVec, Finset.mul_sum, kernMat, Matrix.of_apply]
  rw [e]
  convert h2 using 2 with n
  rw [Finset.sum_div]
  have : ∀ i j, c i * Real.exp (-0.5 * sqd (Y i) 0) * (c j * Real.exp (-0.5 * sqd (Y j) 0)) * ((Y i ⬝ᵥ Y j) ^ n / (n.factorial : ℝ)) =
      ∑ p : Fin n → Fin m, (c i * Real.exp (-0.5 * sqd (Y i) 0) * ∏ l, Y i (p l)) * (c j * Real.exp (-0.5 * sqd (Y j) 0) * ∏ l, Y j (p l)) / (n.factorial : ℝ) := by
    intro i j
    rw [dot_pow, Finset.sum_div, Finset.mul_sum]
    exact Finset.sum_congr rfl fun p _ => by ring
  rw [Finset.sum_congr rfl fun i _ => Finset.sum_congr rfl fun j _ => this i j]
  rw [Finset.sum_congr rfl fun i _ => Finset.sum_comm, Finset.sum_comm]
  refine Finset.sum_congr rfl fun p _ => ?_
  rw [moment, sq, Finset.sum_mul_sum, Finset.sum_div]
  exact Finset.sum_congr rfl fun i _ => Finset.sum_div _ _ _

theorem kern_nonneg (Y : Fin M → Pt m) (c : Fin M → ℝ) : 0 ≤ c ⬝ᵥ (kernMat Y *ᵥ c) :=
  (kern_series Y c).nonneg fun n => div_nonneg (Finset.sum_nonneg fun _ _ => sq_nonneg _) (by positivity)

theorem moment_zero (Y : Fin M → Pt m) (c : Fin M → ℝ) (h : c ⬝ᵥ (kernMat Y *ᵥ c) = 0) (n : ℕ) (p : Fin n → Fin m) : moment Y c n p = 0 := by
  have hs := kern_series Y c
  rw [h] at hs
  have h0 := (hasSum_zero_iff_of_nonneg fun n => div_nonneg (Finset.sum_nonneg fun _ _ => sq_nonneg _) (by positivity)).1 hs
  have h1 := congrFun h0 n
  have hf : (n.factorial : ℝ) ≠ 0 := by positivity
  have h2 : ∑ p : Fin n → Fin m, moment Y c n p ^ 2 = 0 := by
    have := (div_eq_zero_iff.1 h1).resolve_right hf
    exact this
  have := (Finset.sum_eq_zero_iff_of_nonneg fun _ _ => sq_nonneg _).1 h2 p (Finset.mem_univ _)
  exact pow_eq_zero_iff (two_ne_zero) |>.1 this

/-- All polynomials are annihilated. -/
theorem moment_poly (Y : Fin M → Pt m) (c : Fin M → ℝ) (h : ∀ n (p : Fin n → Fin m), moment Y c n p = 0) (P : MvPolynomial (Fin m) ℝ) :
    ∀ n (p : Fin n → Fin m), ∑ i, c i * Real.exp (-0.5 * sqd (Y i) 0) * (∏ l, Y i (p l)) * MvPolynomial.eval (Y i) P = 0 := by
  induction P using MvPolynomial.induction_on with
  | C a =>
    intro n p
    simp only [MvPolynomial.eval_C, ← Finset.sum_mul]
    rw [show (∑ i, c i * Real.exp (-0.5 * sqd (Y i) 0) * ∏ l, Y i (p l)) = 0 from h n p, zero_mul]
  | add P Q hP hQ =>
    intro n p
    simp only [map_add, mul_add, Finset.sum_add_distrib, hP n p, hQ n p, add_zero]
  | mul_X P k hP =>
    intro n p
    rw [← hP (n + 1) (Fin.snoc p k)]
    refine Finset.sum_congr rfl fun i _ => ?_
    rw [Fin.prod_univ_castSucc]
    simp only [Fin.snoc_castSucc, Fin.snoc_last, map_mul, MvPolynomial.eval_X]
    ring

/-- The kernel is strictly positive definite for distinct points. -/
theorem kern_pos (Y : Fin M → Pt m) (hY : Function.Injective Y) (c : Fin M → ℝ) (hc : c ≠ 0) : 0 < c ⬝ᵥ (kernMat Y *ᵥ c) := by
  refine lt_of_le_of_ne (kern_nonneg Y c) fun h => hc ?_
  have hm := moment_zero Y c h.symm
  funext i
  let P : MvPolynomial (Fin m) ℝ := ∏ j ∈ Finset.univ.erase i, ∑ k, MvPolynomial.C (Y i k - Y j k) * (MvPolynomial.X k - MvPolynomial.C (Y j k))
  have hP : ∀ z : Pt m, MvPolynomial.eval z P = ∏ j ∈ Finset.univ.erase i, ∑ k, (Y i k - Y j k) * (z k - Y j k) := by
    intro z; simp [P, map_prod, map_sum]
  have h0 := moment_poly Y c hm P 0 Fin.elim0
  rw [Finset.sum_eq_single i] at h0
  · have hi : MvPolynomial.eval (Y i) P ≠ 0 := by
      rw [hP]
      refine Finset.prod_ne_zero_iff.2 fun j hj => ?_
      have hne : Y i ≠ Y j := fun e => (Finset.ne_of_mem_erase hj) (hY e).symm
      obtain ⟨k, hk⟩ := Function.ne_iff.1 hne
      have : 0 < ∑ k, (Y i k - Y j k) * (Y i k - Y j k) :=
        Finset.sum_pos' (fun k _ => mul_self_nonneg _) ⟨k, Finset.mem_univ _, mul_self_pos.2 (sub_ne_zero.2 hk)⟩
      exact this.ne'
    have he := Real.exp_pos (-0.5 * sqd (Y i) 0)
    simp only [Finset.univ_eq_empty, Finset.prod_empty, mul_one] at h0
    have := (mul_eq_zero.1 h0).resolve_right hi
    exact (mul_eq_zero.1 this).resolve_right he.ne'
  · intro j _ hj
    have : MvPolynomial.eval (Y j) P = 0 := by
      rw [hP]
      refine Finset.prod_eq_zero (Finset.mem_erase.2 ⟨hj, Finset.mem_univ _⟩) ?_
      simp
    rw [this, mul_zero]
  · simp

end Verif.GP
