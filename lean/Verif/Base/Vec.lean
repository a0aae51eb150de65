import Mathlib.Data.Real.Basic
import Mathlib.Analysis.Real.Sqrt
import Mathlib.Algebra.BigOperators.Group.List.Basic
import Mathlib.Tactic.Linarith
import Mathlib.Tactic.Ring

/-!
# Vectors as lists of reals

Numpy one-dimensional arrays of finite floats are lists of reals.  Binary elementwise operations
are `zipWith`; all uses have equal lengths (numpy raises otherwise; the models check lengths where
the code does).
-/

namespace Verif

/-- A one-dimensional float array with finite entries. -/
abbrev Vec := List ℝ

namespace Vec

/-- `a.dot(x)` for one-dimensional arrays. -/
noncomputable def dot (a x : Vec) : ℝ := (List.zipWith (· * ·) a x).sum

/-- `x + y`. -/
noncomputable def add (x y : Vec) : Vec := List.zipWith (· + ·) x y

/-- `x - y`. -/
noncomputable def sub (x y : Vec) : Vec := List.zipWith (· - ·) x y

/-- `c * x`. -/
noncomputable def smul (c : ℝ) (x : Vec) : Vec := x.map (c * ·)

/-- elementwise product `x * y`. -/
noncomputable def mul (x y : Vec) : Vec := List.zipWith (· * ·) x y

/-- `A.dot(x)` for a matrix given by its rows. -/
noncomputable def mulVec (A : List Vec) (x : Vec) : Vec := A.map (fun a => dot a x)

/-- `np.sum(x**2)`. -/
noncomputable def sumSq (x : Vec) : ℝ := (x.map (fun t => t ^ 2)).sum

/-- `np.linalg.norm(x)`. -/
noncomputable def norm (x : Vec) : ℝ := Real.sqrt (sumSq x)

@[simp] theorem dot_nil_left (x : Vec) : dot [] x = 0 := by simp [dot]
@[simp] theorem dot_nil_right (x : Vec) : dot x [] = 0 := by simp [dot]
@[simp] theorem dot_cons (a : ℝ) (as : Vec) (x : ℝ) (xs : Vec) :
    dot (a :: as) (x :: xs) = a * x + dot as xs := by simp [dot]
@[simp] theorem add_nil_left (x : Vec) : add [] x = [] := by simp [add]
@[simp] theorem add_nil_right (x : Vec) : add x [] = [] := by simp [add]
@[simp] theorem add_cons (a : ℝ) (as : Vec) (x : ℝ) (xs : Vec) :
    add (a :: as) (x :: xs) = (a + x) :: add as xs := by simp [add]
@[simp] theorem sub_nil_left (x : Vec) : sub [] x = [] := by simp [sub]
@[simp] theorem sub_nil_right (x : Vec) : sub x [] = [] := by simp [sub]
@[simp] theorem sub_cons (a : ℝ) (as : Vec) (x : ℝ) (xs : Vec) :
    sub (a :: as) (x :: xs) = (a - x) :: sub as xs := by simp [sub]
@[simp] theorem mul_cons (a : ℝ) (as : Vec) (x : ℝ) (xs : Vec) :
    mul (a :: as) (x :: xs) = (a * x) :: mul as xs := by simp [mul]
@[simp] theorem mul_nil_left (x : Vec) : mul [] x = [] := by simp [mul]
@[simp] theorem mul_nil_right (x : Vec) : mul x [] = [] := by simp [mul]
@[simp] theorem smul_nil (c : ℝ) : smul c [] = [] := rfl
@[simp] theorem smul_cons (c a : ℝ) (as : Vec) : smul c (a :: as) = (c * a) :: smul c as := rfl
@[simp] theorem sumSq_nil : sumSq [] = 0 := rfl
@[simp] theorem sumSq_cons (a : ℝ) (as : Vec) : sumSq (a :: as) = a ^ 2 + sumSq as := by
  simp [sumSq]

@[simp] theorem length_smul (c : ℝ) (x : Vec) : (smul c x).length = x.length := by simp [smul]
theorem length_add (x y : Vec) : (add x y).length = min x.length y.length := by simp [add]
theorem length_sub (x y : Vec) : (sub x y).length = min x.length y.length := by simp [sub]
theorem length_mul (x y : Vec) : (mul x y).length = min x.length y.length := by simp [mul]
@[simp] theorem length_mulVec (A : List Vec) (x : Vec) : (mulVec A x).length = A.length := by
  simp [mulVec]

theorem dot_comm (a x : Vec) : dot a x = dot x a := by
  induction a generalizing x with
  | nil => simp
  | cons a as ih => cases x with
    | nil => simp
    | cons x xs => simp [ih xs, mul_comm]

theorem dot_add_right (a x y : Vec) (h : x.length = y.length) :
    dot a (add x y) = dot a x + dot a y := by
  induction a generalizing x y with
  | nil => simp
  | cons a as ih =>
    cases x with
    | nil => cases y with
      | nil => simp
      | cons => simp at h
    | cons x xs => cases y with
      | nil => simp at h
      | cons y ys =>
        simp only [add_cons, dot_cons]
        rw [ih xs ys (by simpa using h)]; ring

theorem dot_sub_right (a x y : Vec) (h : x.length = y.length) :
    dot a (sub x y) = dot a x - dot a y := by
  induction a generalizing x y with
  | nil => simp
  | cons a as ih =>
    cases x with
    | nil => cases y with
      | nil => simp
      | cons => simp at h
    | cons x xs => cases y with
      | nil => simp at h
      | cons y ys =>
        simp only [sub_cons, dot_cons]
        rw [ih xs ys (by simpa using h)]; ring

theorem dot_smul_right (a : Vec) (c : ℝ) (x : Vec) : dot a (smul c x) = c * dot a x := by
  induction a generalizing x with
  | nil => simp
  | cons a as ih => cases x with
    | nil => simp
    | cons x xs => simp only [smul_cons, dot_cons, ih]; ring

theorem dot_mul (a d x : Vec) : dot (mul a d) x = dot a (mul d x) := by
  induction a generalizing d x with
  | nil => simp
  | cons a as ih => cases d with
    | nil => simp
    | cons d ds => cases x with
      | nil => simp
      | cons x xs => simp only [mul_cons, dot_cons, ih]; ring

theorem sumSq_nonneg (x : Vec) : 0 ≤ sumSq x := by
  induction x with
  | nil => simp
  | cons a as ih => simp only [sumSq_cons]; positivity

theorem sumSq_eq_dot (x : Vec) : sumSq x = dot x x := by
  induction x with
  | nil => simp
  | cons a as ih => simp only [sumSq_cons, dot_cons, ih]; ring

theorem norm_nonneg (x : Vec) : 0 ≤ norm x := Real.sqrt_nonneg _

theorem dot_append (a b x y : Vec) (h : a.length = x.length) :
    dot (a ++ b) (x ++ y) = dot a x + dot b y := by
  induction a generalizing x with
  | nil => cases x with
    | nil => simp
    | cons => simp at h
  | cons a as ih => cases x with
    | nil => simp at h
    | cons x xs =>
      simp only [List.cons_append, dot_cons]
      rw [ih xs (by simpa using h)]; ring

theorem dot_replicate_zero (n : ℕ) (x : Vec) : dot (List.replicate n 0) x = 0 := by
  induction n generalizing x with
  | zero => simp
  | succ n ih => cases x with
    | nil => simp
    | cons x xs => simp [List.replicate_succ, ih]

/-- Cauchy-Schwarz for list vectors. -/
theorem dot_sq_le (x y : Vec) : dot x y ^ 2 ≤ sumSq x * sumSq y := by
  induction x generalizing y with
  | nil => simp
  | cons a as ih => cases y with
    | nil => simp
    | cons b bs =>
      simp only [dot_cons, sumSq_cons]
      have h := ih bs
      have h1 := sumSq_nonneg as
      have h2 := sumSq_nonneg bs
      set s := sumSq as
      set t := sumSq bs
      set d := dot as bs
      -- 2 a b d ≤ a² t + b² s
      have key : 2 * (a * b * d) ≤ a ^ 2 * t + b ^ 2 * s := by
        by_cases hp : a * b * d ≤ 0
        · have : 0 ≤ a ^ 2 * t + b ^ 2 * s := by positivity
          linarith
        · have hp' : 0 < a * b * d := lt_of_not_ge hp
          have hsq : (2 * (a * b * d)) ^ 2 ≤ (a ^ 2 * t + b ^ 2 * s) ^ 2 := by
            have e1 : (2 * (a * b * d)) ^ 2 = 4 * (a * b) ^ 2 * d ^ 2 := by ring
            have e2 : (a ^ 2 * t + b ^ 2 * s) ^ 2
                = (a ^ 2 * t - b ^ 2 * s) ^ 2 + 4 * (a * b) ^ 2 * (s * t) := by ring
            rw [e1, e2]
            have : 4 * (a * b) ^ 2 * d ^ 2 ≤ 4 * (a * b) ^ 2 * (s * t) :=
              mul_le_mul_of_nonneg_left h (by positivity)
            nlinarith [sq_nonneg (a ^ 2 * t - b ^ 2 * s)]
          exact le_of_sq_le_sq hsq (by positivity)
      nlinarith

end Vec

end Verif
