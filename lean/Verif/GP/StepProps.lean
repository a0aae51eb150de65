import Mathlib.Analysis.Calculus.Deriv.Prod
import Verif.GP.StepModel
import Verif.GP.LikProps
import Mathlib.Analysis.Matrix.Normed
import Mathlib.Analysis.SpecialFunctions.Exponential
import Mathlib.Analysis.SpecialFunctions.Trigonometric.Bounds

/-!
# Property C84 for the structure `tril`: the complex step
-/

namespace Verif.GP

open Verif Verif.Lip Matrix Filter Topology
open scoped Nat

variable {m M q : ℕ}

/-! ## Powers of `A + t E` in a normed ring -/

section
variable {R : Type*} [NormedRing R] [NormedAlgebra ℝ R] (A E : R)

/-- The derivative of the power in direction `E`. -/
def dpow : ℕ → R
  | 0 => 0
  | n + 1 => A * dpow n + E * A ^ n

/-- The real and the imaginary part, divided by `h`, of the power of `A + i h E`. -/
def cpow (h : ℝ) : ℕ → R × R
  | 0 => (1, 0)
  | n + 1 => (A * (cpow h n).1 - h ^ 2 • (E * (cpow h n).2), A * (cpow h n).2 + E * (cpow h n).1)

/-- The weights in the bounds. -/
noncomputable def wt (b : ℝ) (k n : ℕ) : ℝ := n.choose k * b ^ (n - k)

theorem wt_nonneg {b : ℝ} (hb : 0 ≤ b) (k n : ℕ) : 0 ≤ wt b k n := by unfold wt; positivity

theorem wt_step {a b : ℝ} (h0 : 0 ≤ b) (hab : a ≤ b) (k n : ℕ) : a * wt b (k + 1) n + wt b k n ≤ wt b (k + 1) (n + 1) := by
  unfold wt
  rw [Nat.choose_succ_succ, Nat.add_sub_add_right]
  push_cast
  have : a * ((n.choose (k + 1) : ℝ) * b ^ (n - (k + 1))) ≤ n.choose (k + 1) * b ^ (n - k) := by
    by_cases h : n < k + 1
    · rw [Nat.choose_eq_zero_of_lt h]; simp
    · have e : n - k = n - (k + 1) + 1 := by omega
      rw [e, pow_succ]
      have hp : (0 : ℝ) ≤ n.choose (k + 1) * b ^ (n - (k + 1)) := by positivity
      nlinarith
  linarith

variable {A E}

theorem cpow_bounds (h1 : ‖(1 : R)‖ ≤ 1) {b h : ℝ} (hb : ‖A‖ + |h| * ‖E‖ = b) (n : ℕ) :
    ‖(cpow A E h n).1‖ + |h| * ‖(cpow A E h n).2‖ ≤ wt b 0 n ∧ ‖(cpow A E h n).2‖ ≤ ‖E‖ * wt b 1 n ∧
    ‖(cpow A E h n).1 - A ^ n‖ ≤ h ^ 2 * ‖E‖ ^ 2 * wt b 2 n ∧ ‖(cpow A E h n).2 - dpow A E n‖ ≤ h ^ 2 * ‖E‖ ^ 3 * wt b 3 n := by
  have hb0 : 0 ≤ b := by rw [← hb]; positivity
  have hab : ‖A‖ ≤ b := by rw [← hb]; nlinarith [norm_nonneg E, abs_nonneg h]
  induction n with
  | zero => simp [cpow, dpow, wt, h1]
  | succ n ih =>
    obtain ⟨i0, i1, i2, i3⟩ := ih
    set P := (cpow A E h n).1
    set Q := (cpow A E h n).2
    have e1 : (cpow A E h (n + 1)).1 = A * P - h ^ 2 • (E * Q) := rfl
    have e2 : (cpow A E h (n + 1)).2 = A * Q + E * P := rfl
    have hsq : |h| ^ 2 = h ^ 2 := sq_abs h
    have hh : ‖h ^ 2 • (E * Q)‖ ≤ h ^ 2 * (‖E‖ * ‖Q‖) := by
      rw [norm_smul, Real.norm_of_nonneg (sq_nonneg h)]
      exact mul_le_mul_of_nonneg_left (norm_mul_le _ _) (sq_nonneg h)
    have hw0 : wt b 0 (n + 1) = b * wt b 0 n := by simp [wt, pow_succ]; ring
    have hP0 := norm_nonneg P
    have hQ0 := norm_nonneg Q
    have hE0 := norm_nonneg E
    have hA0 := norm_nonneg A
    have hP : ‖P‖ ≤ wt b 0 n := by nlinarith [abs_nonneg h]
    refine ⟨?_, ?_, ?_, ?_⟩
    · rw [e1, e2, hw0]
      have a1 : ‖A * P - h ^ 2 • (E * Q)‖ ≤ ‖A‖ * ‖P‖ + h ^ 2 * (‖E‖ * ‖Q‖) := (norm_sub_le _ _).trans (add_le_add (norm_mul_le _ _) hh)
      have a2 : ‖A * Q + E * P‖ ≤ ‖A‖ * ‖Q‖ + ‖E‖ * ‖P‖ := (norm_add_le _ _).trans (add_le_add (norm_mul_le _ _) (norm_mul_le _ _))
      have a3 : b * (‖P‖ + |h| * ‖Q‖) ≤ b * wt b 0 n := mul_le_mul_of_nonneg_left i0 hb0
      have a4 := mul_le_mul_of_nonneg_left a2 (abs_nonneg h)
      have a5 : b * (‖P‖ + |h| * ‖Q‖) = ‖A‖ * ‖P‖ + h ^ 2 * (‖E‖ * ‖Q‖) + |h| * (‖A‖ * ‖Q‖ + ‖E‖ * ‖P‖) := by rw [← hb, ← hsq]; ring
      linarith
    · rw [e2]
      have a2 : ‖A * Q + E * P‖ ≤ ‖A‖ * ‖Q‖ + ‖E‖ * ‖P‖ := (norm_add_le _ _).trans (add_le_add (norm_mul_le _ _) (norm_mul_le _ _))
      have a3 := mul_le_mul_of_nonneg_left (wt_step hb0 hab 0 n) hE0
      have a4 := mul_le_mul_of_nonneg_left i1 hA0
      have a5 := mul_le_mul_of_nonneg_left hP hE0
      simp only [zero_add] at a3
      nlinarith
    · have e : (cpow A E h (n + 1)).1 - A ^ (n + 1) = A * (P - A ^ n) - h ^ 2 • (E * Q) := by
        rw [e1, pow_succ' A n, mul_sub]; abel
      rw [e]
      have a1 : ‖A * (P - A ^ n) - h ^ 2 • (E * Q)‖ ≤ ‖A‖ * ‖P - A ^ n‖ + h ^ 2 * (‖E‖ * ‖Q‖) :=
        (norm_sub_le _ _).trans (add_le_add (norm_mul_le _ _) hh)
      have a2 := mul_le_mul_of_nonneg_left (wt_step hb0 hab 1 n) (mul_nonneg (sq_nonneg h) (sq_nonneg ‖E‖))
      have a3 := mul_le_mul_of_nonneg_left i2 hA0
      have a4 := mul_le_mul_of_nonneg_left (mul_le_mul_of_nonneg_left i1 hE0) (sq_nonneg h)
      simp only [Nat.reduceAdd] at a2
      nlinarith
    · have e : (cpow A E h (n + 1)).2 - dpow A E (n + 1) = A * (Q - dpow A E n) + E * (P - A ^ n) := by
        rw [e2, dpow, mul_sub, mul_sub]; abel
      rw [e]
      have a1 : ‖A * (Q - dpow A E n) + E * (P - A ^ n)‖ ≤ ‖A‖ * ‖Q - dpow A E n‖ + ‖E‖ * ‖P - A ^ n‖ :=
        (norm_add_le _ _).trans (add_le_add (norm_mul_le _ _) (norm_mul_le _ _))
      have a2 := mul_le_mul_of_nonneg_left (wt_step hb0 hab 2 n) (mul_nonneg (sq_nonneg h) (pow_nonneg hE0 3))
      have a3 := mul_le_mul_of_nonneg_left i3 hA0
      have a4 := mul_le_mul_of_nonneg_left i2 hE0
      simp only [Nat.reduceAdd] at a2
      nlinarith

theorem dpow_bound (h1 : ‖(1 : R)‖ ≤ 1) {b : ℝ} (hb : ‖A‖ ≤ b) (n : ℕ) : ‖A ^ n‖ ≤ wt b 0 n ∧ ‖dpow A E n‖ ≤ ‖E‖ * wt b 1 n := by
  have hb0 : 0 ≤ b := (norm_nonneg A).trans hb
  induction n with
  | zero => simp [dpow, wt, h1]
  | succ n ih =>
    obtain ⟨i0, i1⟩ := ih
    have hE0 := norm_nonneg E
    have hA0 := norm_nonneg A
    have hw0 : wt b 0 (n + 1) = b * wt b 0 n := by simp [wt, pow_succ]; ring
    refine ⟨?_, ?_⟩
    · rw [pow_succ', hw0]
      exact (norm_mul_le _ _).trans (mul_le_mul hb i0 (norm_nonneg _) hb0)
    · have a2 : ‖dpow A E (n + 1)‖ ≤ ‖A‖ * ‖dpow A E n‖ + ‖E‖ * ‖A ^ n‖ := (norm_add_le _ _).trans (add_le_add (norm_mul_le _ _) (norm_mul_le _ _))
      have a3 := mul_le_mul_of_nonneg_left (wt_step hb0 hb 0 n) hE0
      have a4 := mul_le_mul_of_nonneg_left i1 hA0
      have a5 := mul_le_mul_of_nonneg_left i0 hE0
      simp only [zero_add] at a3
      nlinarith

theorem pow_line (h1 : ‖(1 : R)‖ ≤ 1) {b t : ℝ} (hb : ‖A‖ + |t| * ‖E‖ = b) (n : ℕ) :
    ‖(A + t • E) ^ n - A ^ n - t • dpow A E n‖ ≤ t ^ 2 * ‖E‖ ^ 2 * wt b 2 n := by
  have hb0 : 0 ≤ b := by rw [← hb]; positivity
  have hab : ‖A‖ ≤ b := by rw [← hb]; nlinarith [norm_nonneg E, abs_nonneg t]
  induction n with
  | zero => simp [dpow, wt]
  | succ n ih =>
    have e : (A + t • E) ^ (n + 1) - A ^ (n + 1) - t • dpow A E (n + 1) =
        (A + t • E) * ((A + t • E) ^ n - A ^ n - t • dpow A E n) + t ^ 2 • (E * dpow A E n) := by
      rw [pow_succ', pow_succ', dpow]
      simp only [mul_sub, add_mul, smul_mul_assoc, mul_smul_comm, smul_add, smul_smul, pow_two]
      abel
    rw [e]
    have hn : ‖A + t • E‖ ≤ b := by
      rw [← hb, ← Real.norm_eq_abs, ← norm_smul]
      exact norm_add_le _ _
    have hd := (dpow_bound (E := E) h1 hab n).2
    have a1 : ‖t ^ 2 • (E * dpow A E n)‖ ≤ t ^ 2 * (‖E‖ * ‖dpow A E n‖) := by
      rw [norm_smul, Real.norm_of_nonneg (sq_nonneg t)]
      exact mul_le_mul_of_nonneg_left (norm_mul_le _ _) (sq_nonneg t)
    have a2 : ‖(A + t • E) * ((A + t • E) ^ n - A ^ n - t • dpow A E n)‖ ≤ b * (t ^ 2 * ‖E‖ ^ 2 * wt b 2 n) :=
      (norm_mul_le _ _).trans (mul_le_mul hn ih (norm_nonneg _) hb0)
    have a3 := mul_le_mul_of_nonneg_left (wt_step hb0 le_rfl 1 n) (mul_nonneg (sq_nonneg t) (sq_nonneg ‖E‖))
    have a4 := mul_le_mul_of_nonneg_left (mul_le_mul_of_nonneg_left hd (norm_nonneg E)) (sq_nonneg t)
    simp only [Nat.reduceAdd] at a3
    refine (norm_add_le _ _).trans ?_
    nlinarith

/-! ## Sums -/

theorem wt_sum (b : ℝ) (k : ℕ) : HasSum (fun n => ((n ! : ℝ))⁻¹ * wt b k n) (Real.exp b / k !) := by
  have h1 : HasSum (fun n : ℕ => b ^ n / n !) (Real.exp b) := by
    rw [Real.exp_eq_exp_ℝ]
    exact NormedSpace.expSeries_div_hasSum_exp b
  have h2 := h1.div_const (k ! : ℝ)
  rw [← hasSum_nat_add_iff' k]
  have h0 : ∑ i ∈ Finset.range k, ((i ! : ℝ))⁻¹ * wt b k i = 0 := Finset.sum_eq_zero fun i hi => by
    simp [wt, Nat.choose_eq_zero_of_lt (Finset.mem_range.1 hi)]
  rw [h0, sub_zero]
  refine h2.congr_fun ?_
  intro n
  have hc : ((n + k).choose k : ℝ) = (n + k)! / (n ! * k !) := by
    rw [eq_div_iff (by positivity)]
    have := Nat.add_choose_mul_factorial_mul_factorial n k
    rw [← mul_assoc]
    exact_mod_cast this
  unfold wt
  rw [hc, Nat.add_sub_cancel]
  have : ((n + k)! : ℝ) ≠ 0 := by positivity
  field_simp

variable [CompleteSpace R]

variable (A E) in
/-- The derivative of the exponential at `A` in direction `E`. -/
noncomputable def dexp : R := ∑' n, ((n ! : ℝ))⁻¹ • dpow A E n

theorem norm_sum_le {f : ℕ → R} {S : R} {g : ℕ → ℝ} {T c : ℝ} (hf : HasSum (fun n => ((n ! : ℝ))⁻¹ • f n) S) (hg : HasSum (fun n => ((n ! : ℝ))⁻¹ * g n) T)
    (h : ∀ n, ‖f n‖ ≤ c * g n) : ‖S‖ ≤ c * T := by
  rw [← hf.tsum_eq]
  refine tsum_of_norm_bounded (hg.mul_left c) fun n => ?_
  rw [norm_smul, Real.norm_of_nonneg (by positivity)]
  have := mul_le_mul_of_nonneg_left (h n) (show (0 : ℝ) ≤ ((n ! : ℝ))⁻¹ by positivity)
  linarith

theorem dexp_hasSum (h1 : ‖(1 : R)‖ ≤ 1) : HasSum (fun n => ((n ! : ℝ))⁻¹ • dpow A E n) (dexp A E) := by
  refine Summable.hasSum (Summable.of_norm_bounded ((wt_sum ‖A‖ 1).summable.mul_left ‖E‖) fun n => ?_)
  rw [norm_smul, Real.norm_of_nonneg (by positivity)]
  have := mul_le_mul_of_nonneg_left (dpow_bound (E := E) h1 (le_refl ‖A‖) n).2 (show (0 : ℝ) ≤ ((n ! : ℝ))⁻¹ by positivity)
  linarith

/-- The exponential along a line, up to second order. -/
theorem exp_line (h1 : ‖(1 : R)‖ ≤ 1) (t : ℝ) :
    ‖NormedSpace.exp (A + t • E) - NormedSpace.exp A - t • dexp A E‖ ≤ t ^ 2 * ‖E‖ ^ 2 * (Real.exp (‖A‖ + |t| * ‖E‖) / 2 !) := by
  refine norm_sum_le (f := fun n => (A + t • E) ^ n - A ^ n - t • dpow A E n) ?_ (wt_sum _ 2) fun n => pow_line h1 rfl n
  have s1 := NormedSpace.exp_series_hasSum_exp' (𝕂 := ℝ) (A + t • E)
  have s2 := NormedSpace.exp_series_hasSum_exp' (𝕂 := ℝ) A
  have s3 := (dexp_hasSum (A := A) (E := E) h1).const_smul t
  refine ((s1.sub s2).sub s3).congr_fun fun n => ?_
  rw [smul_sub, smul_sub, smul_comm]

/-- The exponential is differentiable along lines. -/
theorem exp_line_hasDerivAt (h1 : ‖(1 : R)‖ ≤ 1) : HasDerivAt (fun t : ℝ => NormedSpace.exp (A + t • E)) (dexp A E) 0 := by
  rw [hasDerivAt_iff_isLittleO_nhds_zero]
  refine Asymptotics.IsBigO.trans_isLittleO (g := fun t : ℝ => t ^ 2) ?_ ?_
  · refine Asymptotics.IsBigO.of_bound (‖E‖ ^ 2 * (Real.exp (‖A‖ + 1 * ‖E‖) / 2 !)) ?_
    filter_upwards [Metric.ball_mem_nhds (0 : ℝ) one_pos] with t ht
    have ht' : |t| ≤ 1 := by
      rw [Metric.mem_ball, dist_zero_right] at ht
      exact ht.le
    have := exp_line (A := A) (E := E) h1 t
    simp only [zero_add, zero_smul, add_zero] at this ⊢
    refine this.trans ?_
    rw [Real.norm_of_nonneg (sq_nonneg t), mul_comm (‖E‖ ^ 2 * _), mul_assoc]
    have : Real.exp (‖A‖ + |t| * ‖E‖) ≤ Real.exp (‖A‖ + 1 * ‖E‖) := Real.exp_le_exp.2 (by nlinarith [norm_nonneg E])
    gcongr
  · have := Asymptotics.isLittleO_pow_pow (𝕜 := ℝ) (m := 1) (n := 2) (by norm_num)
    simpa using this

end

/-! ## Matrices -/

section
open scoped Matrix.Norms.Operator

theorem norm_one_le : ‖(1 : Matrix (Fin m) (Fin m) ℝ)‖ ≤ 1 := by
  rcases Nat.eq_zero_or_pos m with rfl | hm
  · rw [Subsingleton.elim (1 : Matrix (Fin 0) (Fin 0) ℝ) 0, norm_zero]
    exact zero_le_one
  · haveI : Nonempty (Fin m) := ⟨⟨0, hm⟩⟩
    exact norm_one.le

theorem entry_le (B : Matrix (Fin m) (Fin m) ℝ) (i j : Fin m) : |B i j| ≤ ‖B‖ := by
  rw [Matrix.linfty_opNorm_def]
  have h1 : ‖B i j‖₊ ≤ ∑ j, ‖B i j‖₊ := Finset.single_le_sum (f := fun j => ‖B i j‖₊) (fun _ _ => zero_le) (Finset.mem_univ j)
  have h2 : ∑ j, ‖B i j‖₊ ≤ Finset.univ.sup fun i => ∑ j, ‖B i j‖₊ := Finset.le_sup (f := fun i => ∑ j, ‖B i j‖₊) (Finset.mem_univ i)
  have := h1.trans h2
  rw [← Real.norm_eq_abs, ← coe_nnnorm]
  exact_mod_cast this

theorem cpow_complex (A E : Matrix (Fin m) (Fin m) ℝ) (h : ℝ) (n : ℕ) :
    (A.map Complex.ofReal + (Complex.I * h) • E.map Complex.ofReal) ^ n =
      ((cpow A E h n).1).map Complex.ofReal + (Complex.I * h) • ((cpow A E h n).2).map Complex.ofReal := by
  induction n with
  | zero =>
    ext i j
    simp [cpow, Matrix.one_apply]
  | succ n ih =>
    rw [pow_succ', ih]
    have hm : ∀ P Q : Matrix (Fin m) (Fin m) ℝ, (P * Q).map Complex.ofReal = P.map Complex.ofReal * Q.map Complex.ofReal := fun P Q =>
      Matrix.map_mul (f := Complex.ofRealHom)
    have e1 : ((cpow A E h (n + 1)).1).map Complex.ofReal = A.map Complex.ofReal * ((cpow A E h n).1).map Complex.ofReal
        - ((h : ℂ) ^ 2) • (E.map Complex.ofReal * ((cpow A E h n).2).map Complex.ofReal) := by
      rw [← hm, ← hm]
      ext i j
      simp [cpow]
    have e2 : ((cpow A E h (n + 1)).2).map Complex.ofReal = A.map Complex.ofReal * ((cpow A E h n).2).map Complex.ofReal
        + E.map Complex.ofReal * ((cpow A E h n).1).map Complex.ofReal := by
      rw [← hm, ← hm]
      ext i j
      simp [cpow]
    rw [e1, e2]
    simp only [add_mul, mul_add, smul_mul_assoc, mul_smul_comm, smul_add, smul_smul]
    have : Complex.I * h * (Complex.I * h) = -(h : ℂ) ^ 2 := by
      linear_combination (h : ℂ) ^ 2 * Complex.I_sq
    rw [this, neg_smul]
    abel

/-- The imaginary part of the exponential of `A + i h E`, divided by `h`. -/
noncomputable def cstep (A E : Matrix (Fin m) (Fin m) ℝ) (h : ℝ) : Matrix (Fin m) (Fin m) ℝ :=
  Matrix.of fun i j => (NormedSpace.exp (A.map Complex.ofReal + (Complex.I * h) • E.map Complex.ofReal) i j).im / h

theorem cstep_hasSum (A E : Matrix (Fin m) (Fin m) ℝ) {h : ℝ} (hh : h ≠ 0) : HasSum (fun n => ((n ! : ℝ))⁻¹ • (cpow A E h n).2) (cstep A E h) := by
  have s := NormedSpace.exp_series_hasSum_exp' (𝕂 := ℂ) (A.map Complex.ofReal + (Complex.I * h) • E.map Complex.ofReal)
  refine Pi.hasSum.2 fun i => Pi.hasSum.2 fun j => ?_
  have s1 := Complex.hasSum_im (Pi.hasSum.1 (Pi.hasSum.1 s i) j)
  refine (s1.div_const h).congr_fun fun n => ?_
  rw [cpow_complex]
  have : ((n ! : ℂ))⁻¹ = (((n ! : ℝ))⁻¹ : ℝ) := by push_cast; rfl
  simp only [Matrix.smul_apply, Matrix.add_apply, Matrix.map_apply, smul_eq_mul, this, Complex.re_ofReal_mul, Complex.im_ofReal_mul, Complex.add_im, Complex.ofReal_im]
  simp
  field_simp

/-- The complex step has an error of second order. -/
theorem cstep_error (A E : Matrix (Fin m) (Fin m) ℝ) {h : ℝ} (hh : h ≠ 0) :
    ‖cstep A E h - dexp A E‖ ≤ h ^ 2 * ‖E‖ ^ 3 * (Real.exp (‖A‖ + |h| * ‖E‖) / 3 !) := by
  refine norm_sum_le (f := fun n => (cpow A E h n).2 - dpow A E n) ?_ (wt_sum _ 3) fun n => (cpow_bounds norm_one_le rfl n).2.2.2
  refine ((cstep_hasSum A E hh).sub (dexp_hasSum norm_one_le)).congr_fun fun n => ?_
  rw [smul_sub]

/-- The lower triangular matrix of the parameters. -/
def trilMat (l : Fin m → Fin m → ℝ) : Matrix (Fin m) (Fin m) ℝ := Matrix.of fun i j => if j ≤ i then l i j else 0

/-- The matrix with a single one. -/
def oneMat (k el : Fin m) : Matrix (Fin m) (Fin m) ℝ := Matrix.of fun i j => if i = k ∧ j = el then 1 else 0

/-- The parameters with the one at `(k, el)` replaced. -/
def setPar (l : Fin m → Fin m → ℝ) (k el : Fin m) (t : ℝ) : Fin m → Fin m → ℝ := fun i j => if i = k ∧ j = el then t else l i j

theorem setPar_self (l : Fin m → Fin m → ℝ) (k el : Fin m) : setPar l k el (l k el) = l := by
  funext i j
  unfold setPar
  split
  · rename_i h; rw [h.1, h.2]
  · rfl

theorem stepL_eq (l : Fin m → Fin m → ℝ) {k el : Fin m} (hk : el ≤ k) (h : ℝ) : stepL l k el h = cstep (trilMat l) (oneMat k el) h := by
  unfold stepL cstep makeLC
  have key : (Matrix.of fun a b => if b ≤ a then (l a b : ℂ) + Complex.I * h * (if a = k ∧ b = el then 1 else 0) else 0 : Matrix (Fin m) (Fin m) ℂ) =
      (trilMat l).map Complex.ofReal + (Complex.I * h) • (oneMat k el).map Complex.ofReal := ?_
  · rw [key]
  ext a b
  simp only [Matrix.of_apply, Matrix.add_apply, Matrix.map_apply, Matrix.smul_apply, trilMat, oneMat, smul_eq_mul]
  by_cases hab : a = k ∧ b = el
  · obtain ⟨rfl, rfl⟩ := hab
    simp [hk]
  · simp only [if_neg hab]
    split <;> simp

theorem tril_norm {l : Fin m → Fin m → ℝ} {r : ℝ} (hr0 : 0 ≤ r) (hr : ∀ i, ∑ j, |if j ≤ i then l i j else 0| ≤ r) : ‖trilMat l‖ ≤ r := by
  rw [Matrix.linfty_opNorm_def]
  lift r to NNReal using hr0
  rw [NNReal.coe_le_coe]
  refine Finset.sup_le fun i _ => ?_
  rw [← NNReal.coe_le_coe]
  push_cast
  simpa [trilMat] using hr i

theorem one_norm (k el : Fin m) : ‖oneMat k el‖ ≤ 1 := by
  rw [Matrix.linfty_opNorm_def]
  have : (1 : ℝ) = ((1 : NNReal) : ℝ) := rfl
  rw [this, NNReal.coe_le_coe]
  refine Finset.sup_le fun i _ => ?_
  rw [← NNReal.coe_le_coe]
  push_cast
  by_cases hi : i = k <;> simp [oneMat, hi]
  rw [Finset.sum_eq_single el] <;> simp +contextual

/-- **C84**: the complex step of the code approximates the partial derivatives of the matrix exponential with an error of second order; `r` bounds the absolute
row sums of the parameters. -/
theorem stepL_error (l : Fin m → Fin m → ℝ) {k el : Fin m} (hk : el ≤ k) : ∃ D : Matrix (Fin m) (Fin m) ℝ,
    (∀ i j, HasDerivAt (fun t => makeL (.tril (setPar l k el t)) i j) (D i j) (l k el)) ∧
    ∀ r, (∀ i, ∑ j, |if j ≤ i then l i j else 0| ≤ r) → ∀ h, h ≠ 0 → ∀ i j, |stepL l k el h i j - D i j| ≤ h ^ 2 * (Real.exp (r + |h|) / 6) := by
  refine ⟨dexp (trilMat l) (oneMat k el), fun i j => ?_, fun r hr h hh i j => ?_⟩
  · have h0 := exp_line_hasDerivAt (A := trilMat l) (E := oneMat k el) norm_one_le
    have h1 : HasDerivAt (fun t : ℝ => NormedSpace.exp (trilMat l + (t - l k el) • oneMat k el)) (dexp (trilMat l) (oneMat k el)) (l k el) := by
      have h2 : HasDerivAt (fun t : ℝ => t - l k el) 1 (l k el) := (hasDerivAt_id _).sub_const _
      have h0' : HasDerivAt (fun t : ℝ => NormedSpace.exp (trilMat l + t • oneMat k el)) (dexp (trilMat l) (oneMat k el)) (l k el - l k el) := by rwa [sub_self]
      have := HasDerivAt.scomp (h := fun t : ℝ => t - l k el) (l k el) h0' h2
      rwa [one_smul] at this
    have h3 := hasDerivAt_pi.1 (hasDerivAt_pi.1 h1 i) j
    refine h3.congr_of_eventuallyEq (Filter.Eventually.of_forall fun t => ?_)
    simp only [makeL]
    have key : (Matrix.of fun a b => if b ≤ a then setPar l k el t a b else 0 : Matrix (Fin m) (Fin m) ℝ) = trilMat l + (t - l k el) • oneMat k el := ?_
    · rw [key]
    ext a b
    simp only [Matrix.of_apply, Matrix.add_apply, Matrix.smul_apply, trilMat, oneMat, smul_eq_mul, setPar]
    by_cases hab : a = k ∧ b = el
    · obtain ⟨rfl, rfl⟩ := hab
      simp [hk]
    · simp [hab]
  · have h0 : 0 ≤ r := by
      have := hr i
      exact (Finset.sum_nonneg fun j _ => abs_nonneg _).trans this
    have e := cstep_error (trilMat l) (oneMat k el) hh
    rw [← stepL_eq l hk] at e
    refine (entry_le (stepL l k el h - dexp (trilMat l) (oneMat k el)) i j).trans (e.trans ?_)
    have n1 := one_norm k el
    have n2 := tril_norm h0 hr
    have : (3 ! : ℝ) = 6 := by norm_num [Nat.factorial]
    rw [this]
    have n3 : ‖oneMat k el‖ ^ 3 ≤ 1 := pow_le_one₀ (norm_nonneg _) n1
    have n4 : Real.exp (‖trilMat l‖ + |h| * ‖oneMat k el‖) ≤ Real.exp (r + |h|) := Real.exp_le_exp.2 (by nlinarith [abs_nonneg h])
    calc h ^ 2 * ‖oneMat k el‖ ^ 3 * (Real.exp (‖trilMat l‖ + |h| * ‖oneMat k el‖) / 6) ≤ h ^ 2 * 1 * (Real.exp (r + |h|) / 6) := by gcongr
      _ = _ := by rw [mul_one]

/-! ## The gradient -/

theorem gpGrad_coef (e : Eighs M q) (τ : ℝ) (V : Matrix (Fin M) (Fin q) ℝ) (y : Fin M → ℝ) (Y : Fin M → Pt m) (dK : Matrix (Fin M) (Fin M) ℝ) :
    gpGrad e τ V y Y dK = ∑ i, ∑ j, dK i j * (0.5 * (∑ k, (e.small (regK τ Y)).2 j k * (e.small (regK τ Y)).2 i k / (e.small (regK τ Y)).1 k) -
      0.5 * (gpAlpha e τ Y V y i * gpAlpha e τ Y V y j)) := by
  unfold gpGrad
  simp only [Matrix.trace, Matrix.diag_apply, Matrix.mul_apply, Matrix.of_apply, Matrix.transpose_apply, dotProduct, Matrix.vecMul, mul_sub, Finset.sum_sub_distrib]
  congr 1
  · rw [Finset.mul_sum]
    have : ∀ j, 0.5 * ∑ k, (e.small (regK τ Y)).2 j k * ((∑ i, (e.small (regK τ Y)).2 i k * dK i j) / (e.small (regK τ Y)).1 k) =
        ∑ i, dK i j * (0.5 * ∑ k, (e.small (regK τ Y)).2 j k * (e.small (regK τ Y)).2 i k / (e.small (regK τ Y)).1 k) := by
      intro j
      simp only [Finset.mul_sum, Finset.sum_div]
      rw [Finset.sum_comm]
      refine Finset.sum_congr rfl fun i _ => Finset.sum_congr rfl fun k _ => ?_
      ring
    rw [Finset.sum_congr rfl fun j _ => this j, Finset.sum_comm]
  · simp only [Finset.mul_sum]
    rw [Finset.sum_comm]
    refine Finset.sum_congr rfl fun i _ => Finset.sum_congr rfl fun k _ => ?_
    ring

theorem gpGrad_linear (e : Eighs M q) (τ : ℝ) (V : Matrix (Fin M) (Fin q) ℝ) (y : Fin M → ℝ) (Y : Fin M → Pt m) (dK : Matrix (Fin M) (Fin M) ℝ) :
    gpGrad e τ V y Y dK = ∑ i, ∑ j, dK i j * gpGrad e τ V y Y (Matrix.of fun a b => if a = i ∧ b = j then 1 else 0) := by
  obtain ⟨c, hc⟩ : ∃ c : Fin M → Fin M → ℝ, ∀ B, gpGrad e τ V y Y B = ∑ i, ∑ j, B i j * c i j := ⟨_, gpGrad_coef e τ V y Y⟩
  rw [hc]
  refine Finset.sum_congr rfl fun i _ => Finset.sum_congr rfl fun j _ => ?_
  rw [hc]
  congr 1
  rw [Finset.sum_eq_single i, Finset.sum_eq_single j]
  · simp
  · intro b _ hb; simp [hb]
  · simp
  · intro a _ ha; simp [ha]
  · simp

/-- How the coded gradient depends on errors of the derivative of `L`. -/
noncomputable def gpSens (e : Eighs M q) (τ : ℝ) (V : Matrix (Fin M) (Fin q) ℝ) (y : Fin M → ℝ) (X : Fin M → Pt m) (L : Matrix (Fin m) (Fin m) ℝ) : ℝ :=
  ∑ i, ∑ j, |gpGrad e τ V y (images L X) (Matrix.of fun a b => if a = i ∧ b = j then 1 else 0)| *
    ((∑ r, |images L X i r - images L X j r|) * (∑ c, |X i c - X j c|) * kern (images L X i) (images L X j))

theorem gpGrad_sens (e : Eighs M q) (τ : ℝ) (V : Matrix (Fin M) (Fin q) ℝ) (y : Fin M → ℝ) (X : Fin M → Pt m) (L D D' : Matrix (Fin m) (Fin m) ℝ) {δ : ℝ}
    (h : ∀ i j, |D i j - D' i j| ≤ δ) : |gpGrad e τ V y (images L X) (dKgen X L D) - gpGrad e τ V y (images L X) (dKgen X L D')| ≤ gpSens e τ V y X L * δ := by
  rw [gpGrad_linear, gpGrad_linear e τ V y _ (dKgen X L D'), ← Finset.sum_sub_distrib, gpSens, Finset.sum_mul]
  refine (Finset.abs_sum_le_sum_abs _ _).trans (Finset.sum_le_sum fun i _ => ?_)
  rw [← Finset.sum_sub_distrib, Finset.sum_mul]
  refine (Finset.abs_sum_le_sum_abs _ _).trans (Finset.sum_le_sum fun j _ => ?_)
  rw [← sub_mul, abs_mul, mul_comm, mul_assoc]
  refine mul_le_mul_of_nonneg_left ?_ (abs_nonneg _)
  have e1 : dKgen X L D i j - dKgen X L D' i j = -(∑ r, (images L X i r - images L X j r) * ∑ c, (D r c - D' r c) * (X i c - X j c)) *
      kern (images L X i) (images L X j) := by
    have e2 : ∀ B : Matrix (Fin m) (Fin m) ℝ, ∀ r, images B X i r - images B X j r = ∑ c, B r c * (X i c - X j c) := by
      intro B r
      simp only [images, Matrix.mulVec, dotProduct, mul_sub, Finset.sum_sub_distrib]
    simp only [dKgen, Matrix.of_apply]
    rw [← sub_mul, ← neg_sub', ← Finset.sum_sub_distrib]
    congr 2
    refine Finset.sum_congr rfl fun r _ => ?_
    rw [e2 D, e2 D']
    simp only [sub_mul, Finset.sum_sub_distrib]
    ring
  have e0 : 0 < kern (images L X i) (images L X j) := Real.exp_pos _
  rw [e1, abs_mul, abs_neg, abs_of_pos e0]
  have e3 : |∑ r, (images L X i r - images L X j r) * ∑ c, (D r c - D' r c) * (X i c - X j c)| ≤
      (∑ r, |images L X i r - images L X j r|) * (δ * ∑ c, |X i c - X j c|) := by
    rw [Finset.sum_mul]
    refine (Finset.abs_sum_le_sum_abs _ _).trans (Finset.sum_le_sum fun r _ => ?_)
    rw [abs_mul]
    refine mul_le_mul_of_nonneg_left ?_ (abs_nonneg _)
    rw [Finset.mul_sum]
    refine (Finset.abs_sum_le_sum_abs _ _).trans (Finset.sum_le_sum fun c _ => ?_)
    rw [abs_mul]
    exact mul_le_mul_of_nonneg_right (h r c) (abs_nonneg _)
  have := mul_le_mul_of_nonneg_right e3 e0.le
  linarith

/-- **C84 for the structure `tril`**, without polynomial part: the objective is differentiable in every parameter, and the coded partial derivative with step
`h` differs from the derivative by at most `h²` times a number computed from the data (exactness: `gp_grad_tril_false`). -/
theorem gp_grad_tril_partial (e : Eighs M 0) (he : EighsSpec e) (τ : ℝ) (V : Matrix (Fin M) (Fin 0) ℝ) (y : Fin M → ℝ) (X : Fin M → Pt m)
    (hτ : 5 * eps < τ ∨ (defaultNugget ≤ τ ∧ Function.Injective X)) (l : Fin m → Fin m → ℝ) {k el : Fin m} (hk : el ≤ k) :
    ∃ g, HasDerivAt (fun s => gpObj e τ V y (images (makeL (.tril (setPar l k el s))) X)) g (l k el) ∧
      ∀ r, (∀ i, ∑ j, |if j ≤ i then l i j else 0| ≤ r) → ∀ h, h ≠ 0 →
        |gpGradTril e τ V y X l k el h - g| ≤ gpSens e τ V y X (makeL (.tril l)) * (h ^ 2 * (Real.exp (r + |h|) / 6)) := by
  obtain ⟨D, hD, hb⟩ := stepL_error l hk
  refine ⟨gpGrad e τ V y (images (makeL (.tril l)) X) (dKgen X (makeL (.tril l)) D), ?_, fun r hr h hh => gpGrad_sens e τ V y X _ _ _ (hb r hr h hh)⟩
  have := gp_grad_curve e he τ V y X (fun s => makeL (.tril (setPar l k el s))) D (l k el) hD
    (Filter.Eventually.of_forall fun s k => big_kept e he τ V _ (hτ.imp id fun h => ⟨h.1, (makeL_injective _ (by simp)).comp h.2⟩) k)
    (Filter.Eventually.of_forall fun s k => regK_pos e he τ (tau_pos hτ) _ k)
  simpa only [setPar_self] using this

/-! ## The step is not the derivative -/

/-- In one dimension the step multiplies the derivative by `sin h / h`. -/
theorem stepL_one (l : Fin 1 → Fin 1 → ℝ) (h : ℝ) : stepL l 0 0 h = Matrix.of fun _ _ => Real.exp (l 0 0) * (Real.sin h / h) := by
  ext i j
  rw [Subsingleton.elim i 0, Subsingleton.elim j 0]
  unfold stepL makeLC
  have key : (Matrix.of fun a b : Fin 1 => if b ≤ a then ((l a b : ℂ) + Complex.I * h * (if a = 0 ∧ b = 0 then 1 else 0)) else 0 : Matrix (Fin 1) (Fin 1) ℂ) =
      Matrix.diagonal fun _ => ((l 0 0 : ℂ) + Complex.I * h) := by
    ext a b
    rw [Subsingleton.elim a 0, Subsingleton.elim b 0]
    simp
  rw [Matrix.of_apply, key, Matrix.exp_diagonal, Matrix.diagonal_apply_eq, Matrix.of_apply]
  have : (NormedSpace.exp fun _ : Fin 1 => ((l 0 0 : ℂ) + Complex.I * h)) 0 = Complex.exp ((l 0 0 : ℂ) + Complex.I * h) := by
    rw [Pi.coe_exp, Complex.exp_eq_exp_ℂ]
  rw [this, mul_comm Complex.I, Complex.exp_im]
  simp [mul_div_assoc]

theorem makeL_one (l : Fin 1 → Fin 1 → ℝ) : makeL (.tril l) = Matrix.of fun _ _ => Real.exp (l 0 0) := by
  ext i j
  rw [Subsingleton.elim i 0, Subsingleton.elim j 0]
  simp only [makeL]
  have key : (Matrix.of fun a b : Fin 1 => if b ≤ a then l a b else 0 : Matrix (Fin 1) (Fin 1) ℝ) = Matrix.diagonal fun _ => l 0 0 := by
    ext a b
    rw [Subsingleton.elim a 0, Subsingleton.elim b 0]
    simp
  rw [key, Matrix.exp_diagonal, Matrix.diagonal_apply_eq, Matrix.of_apply, Pi.coe_exp, Real.exp_eq_exp_ℝ]

/-- In one dimension: the coded component is the derivative times `sin h / h`. -/
theorem gpGradTril_one (e : Eighs M 0) (he : EighsSpec e) (τ : ℝ) (V : Matrix (Fin M) (Fin 0) ℝ) (y : Fin M → ℝ) (X : Fin M → Pt 1)
    (hτ : 5 * eps < τ ∨ (defaultNugget ≤ τ ∧ Function.Injective X)) (l : Fin 1 → Fin 1 → ℝ) :
    ∃ g, HasDerivAt (fun s => gpObj e τ V y (images (makeL (.tril (setPar l 0 0 s))) X)) g (l 0 0) ∧
      ∀ h, gpGradTril e τ V y X l 0 0 h = Real.sin h / h * g := by
  have hD : ∀ i j : Fin 1, HasDerivAt (fun s => makeL (.tril (setPar l 0 0 s)) i j) ((Matrix.of fun _ _ => Real.exp (l 0 0) : Matrix (Fin 1) (Fin 1) ℝ) i j) (l 0 0) := by
    intro i j
    simp only [makeL_one, Matrix.of_apply]
    simpa [setPar] using Real.hasDerivAt_exp (l 0 0)
  refine ⟨gpGrad e τ V y (images (makeL (.tril l)) X) (dKgen X (makeL (.tril l)) (Matrix.of fun _ _ => Real.exp (l 0 0))), ?_, fun h => ?_⟩
  · have := gp_grad_curve e he τ V y X (fun s => makeL (.tril (setPar l 0 0 s))) _ (l 0 0) hD
      (Filter.Eventually.of_forall fun s k => big_kept e he τ V _ (hτ.imp id fun h => ⟨h.1, (makeL_injective _ (by simp)).comp h.2⟩) k)
      (Filter.Eventually.of_forall fun s k => regK_pos e he τ (tau_pos hτ) _ k)
    simpa only [setPar_self] using this
  · unfold gpGradTril
    rw [gpGrad_coef, gpGrad_coef, stepL_one, Finset.mul_sum]
    refine Finset.sum_congr rfl fun i _ => ?_
    rw [Finset.mul_sum]
    refine Finset.sum_congr rfl fun j _ => ?_
    have e1 : ∀ (c : ℝ) a, images (Matrix.of fun _ _ => c) X a 0 = c * X a 0 := by
      intro c a
      simp [images, Matrix.mulVec, dotProduct]
    have e2 : dKgen X (makeL (.tril l)) (Matrix.of fun _ _ => Real.exp (l 0 0) * (Real.sin h / h)) i j =
        Real.sin h / h * dKgen X (makeL (.tril l)) (Matrix.of fun _ _ => Real.exp (l 0 0)) i j := by
      simp only [dKgen, Matrix.of_apply, Fin.sum_univ_one, e1]
      ring
    rw [e2, mul_assoc]

/-- **C84 is not exact for the structure `tril`**: for two samples with values zero, any nugget of the default size or larger and every step the code could
use, the coded component is not the derivative of the coded objective. -/
theorem gp_grad_tril_false (e : Eighs 2 0) (he : EighsSpec e) (τ : ℝ) (hτ : defaultNugget ≤ τ) (V : Matrix (Fin 2) (Fin 0) ℝ) (l : Fin 1 → Fin 1 → ℝ)
    {h : ℝ} (hh : h ≠ 0) : ¬ HasDerivAt (fun s => gpObj e τ V 0 (images (makeL (.tril (setPar l 0 0 s))) (fun i _ => (i : ℕ)))) 
      (gpGradTril e τ V 0 (fun i _ => (i : ℕ)) l 0 0 h) (l 0 0) := by
  intro hc
  have hX : Function.Injective (fun (i : Fin 2) (_ : Fin 1) => ((i : ℕ) : ℝ)) := by
    intro i j hij
    have : ((i : ℕ) : ℝ) = ((j : ℕ) : ℝ) := congrFun hij 0
    exact Fin.ext (by exact_mod_cast this)
  obtain ⟨g, hg, hs⟩ := gpGradTril_one e he τ V 0 (fun i _ => ((i : ℕ) : ℝ)) (Or.inr ⟨hτ, hX⟩) l
  have hgg := hc.unique hg
  rw [hs] at hgg
  have h1 : Real.sin h / h ≠ 1 := by
    intro h1
    rw [div_eq_one_iff_eq hh] at h1
    rcases lt_or_gt_of_ne hh with h0 | h0
    · have := Real.lt_sin h0
      linarith
    · have := Real.sin_lt h0
      linarith
  have hg0 : g = 0 := by
    by_contra h0
    exact h1 (mul_right_cancel₀ h0 (hgg.trans (one_mul g).symm))
  rw [hg0] at hg
  have hobj : (fun s => gpObj e τ V 0 (images (makeL (.tril (setPar l 0 0 s))) (fun i _ => ((i : ℕ) : ℝ)))) =
      fun s => 0.5 * Real.log ((1 + τ) ^ 2 - Real.exp (-0.5 * Real.exp s ^ 2) ^ 2) := by
    funext s
    have hp := regK_pos e he τ (tau_pos (P := True) (Or.inr ⟨hτ, trivial⟩)) (images (makeL (.tril (setPar l 0 0 s))) (fun (i : Fin 2) (_ : Fin 1) => ((i : ℕ) : ℝ)))
    rw [gpObj, zero_dotProduct, mul_zero, zero_add, ← Real.log_prod fun k _ => (hp k).ne', ← (he.small _ (regK_symm τ _)).det_eq, Matrix.det_fin_two]
    congr 2
    simp [regK, kernMat, kern, sqd, images, makeL_one, setPar, Matrix.mulVec, dotProduct]
    ring
  rw [hobj] at hg
  have hk : HasDerivAt (fun s => Real.exp (-0.5 * Real.exp s ^ 2)) (Real.exp (-0.5 * Real.exp (l 0 0) ^ 2) * (-0.5 * (2 * Real.exp (l 0 0) * Real.exp (l 0 0)))) (l 0 0) := by
    have := ((((Real.hasDerivAt_exp (l 0 0)).pow 2).const_mul (-0.5)).exp)
    simpa using this
  have hpos : 0 < (1 + τ) ^ 2 - Real.exp (-0.5 * Real.exp (l 0 0) ^ 2) ^ 2 := by
    have h2 : 0 < τ := tau_pos (P := True) (Or.inr ⟨hτ, trivial⟩)
    have h3 : Real.exp (-0.5 * Real.exp (l 0 0) ^ 2) ≤ 1 := Real.exp_le_one_iff.2 (by nlinarith [sq_nonneg (Real.exp (l 0 0))])
    nlinarith [Real.exp_pos (-0.5 * Real.exp (l 0 0) ^ 2)]
  have hφ := (((hk.pow 2).const_sub ((1 + τ) ^ 2)).log hpos.ne').const_mul 0.5
  have := hφ.unique hg
  have p1 := Real.exp_pos (-0.5 * Real.exp (l 0 0) ^ 2)
  have p2 := Real.exp_pos (l 0 0)
  revert this
  refine ne_of_gt ?_
  refine mul_pos (by norm_num) (div_pos ?_ hpos)
  simp only [neg_mul, mul_neg, neg_neg]
  positivity

/-! ## The hypotheses are met -/

example : ∃ e : Eighs 2 0, EighsSpec e ∧ ∀ V : Matrix (Fin 2) (Fin 0) ℝ, ∃ g : ℝ,
    |gpGradTril e 1 V (fun i => i) (fun i _ => (i : ℕ)) (m := 2) (fun _ _ => 1) 1 0 stepH - g| ≤
      gpSens (m := 2) e 1 V (fun i => i) (fun i _ => (i : ℕ)) (makeL (.tril fun _ _ => (1 : ℝ))) * (stepH ^ 2 * (Real.exp (2 + |stepH|) / 6)) := by
  obtain ⟨e, he⟩ := exists_eighs 2 0
  refine ⟨e, he, fun V => ?_⟩
  obtain ⟨g, _, hg⟩ := gp_grad_tril_partial e he 1 V (fun i => i) (fun i (_ : Fin 2) => ((i : ℕ) : ℝ)) (Or.inl (by norm_num [eps])) (fun _ _ => 1) (k := 1) (el := 0) (by decide)
  refine ⟨g, hg 2 (fun i => ?_) stepH (by norm_num [stepH])⟩
  fin_cases i <;> simp [Fin.sum_univ_two]
  norm_num

end

end Verif.GP
