import Verif.Demo.OtlModel
import Mathlib.Analysis.Calculus.Deriv.Abs

namespace Verif.Demo
open Real

/-- **C68 (OTL circuit).** -/
theorem otl_isGrad (x : Fin 6 → ℝ) (h1 : x 0 + x 1 ≠ 0) (h2 : x 5 * (x 4 + 9) + x 2 ≠ 0)
    (h3 : x 3 ≠ 0) : IsGrad otl x (otlGrad x) := by
  have h2' : x 2 + x 5 * (x 4 + 9) ≠ 0 := by rwa [add_comm]
  unfold otl
  apply IsGrad.congr
  case h =>
    grad_auto
    all_goals first | assumption | exact mul_ne_zero h2 h3
  case e =>
    funext j
    fin_cases j <;> simp [otlGrad] <;> field_simp <;> ring

/-- **C68 (borehole).** -/
theorem borehole_isGrad (x : Fin 8 → ℝ) (hrw : 0 < x 0) (hr : x 0 < x 1) (hTu : 0 < x 2)
    (hTl : 0 < x 4) (hL : 0 ≤ x 6) (hKw : 0 < x 7) : IsGrad borehole x (boreholeGrad x) := by
  have hlog : 0 < log (x 1 / x 0) := Real.log_pos (by rw [one_lt_div hrw]; exact hr)
  have h1 : 0 < x 1 := hrw.trans hr
  have hd : x 7 * x 4 * x 0 ^ 2 * log (x 1 / x 0) + x 7 * x 2 * x 0 ^ 2 * log (x 1 / x 0)
      + 2 * x 6 * x 4 * x 2 ≠ 0 := by positivity
  unfold borehole
  apply IsGrad.congr
  case h =>
    grad_auto
    all_goals positivity
  case e =>
    have hden : 1 + 2 * x 6 * x 2 / (log (x 1 / x 0) * x 0 ^ 2 * x 7) + x 2 / x 4 =
      (x 7 * x 4 * x 0 ^ 2 * log (x 1 / x 0) + x 7 * x 2 * x 0 ^ 2 * log (x 1 / x 0)
      + 2 * x 6 * x 4 * x 2) / (log (x 1 / x 0) * x 0 ^ 2 * x 7 * x 4) := by
        field_simp; ring
    rw [hden]
    set l := log (x 1 / x 0) with hl
    funext j
    fin_cases j <;> simp [boreholeGrad, ← hl] <;> field_simp <;> ring

/-- The trigonometric identities behind the printed robot arm gradient. -/
theorem cos_sub' (a b : ℝ) : cos b = cos (a + b) * cos a + sin (a + b) * sin a := by
  have := Real.cos_sub (a + b) a
  rwa [add_sub_cancel_left] at this

theorem sin_sub' (a b : ℝ) : sin b = sin (a + b) * cos a - cos (a + b) * sin a := by
  have := Real.sin_sub (a + b) a
  rwa [add_sub_cancel_left] at this

/-- The radicand in the gradient is the squared distance to the origin. -/
theorem armRad_eq (x : Fin 8 → ℝ) :
    armRad (x 1) (x 2) (x 3) (x 4) (x 5) (x 6) (x 7) = armU x ^ 2 + armV x ^ 2 := by
  have e2 := cos_sub' (x 0) (x 1)
  have e23 := cos_sub' (x 0) (x 1 + x 2)
  have e234 := cos_sub' (x 0) (x 1 + x 2 + x 3)
  have e3 := cos_sub' (x 0 + x 1) (x 2)
  have e34 := cos_sub' (x 0 + x 1) (x 2 + x 3)
  have e4 := cos_sub' (x 0 + x 1 + x 2) (x 3)
  simp only [← add_assoc] at e2 e23 e234 e3 e34 e4
  unfold armRad armU armV
  rw [e2, e23, e234, e3, e34, e4]
  linear_combination (- x 4 ^ 2) * Real.sin_sq_add_cos_sq (x 0)
    - x 5 ^ 2 * Real.sin_sq_add_cos_sq (x 0 + x 1)
    - x 6 ^ 2 * Real.sin_sq_add_cos_sq (x 0 + x 1 + x 2)
    - x 7 ^ 2 * Real.sin_sq_add_cos_sq (x 0 + x 1 + x 2 + x 3)

/-- The gradient of the horizontal coordinate of the tip. -/
theorem armU_isGrad (x : Fin 8 → ℝ) : IsGrad armU x
    ![-(x 4 * sin (x 0) + x 5 * sin (x 0 + x 1) + x 6 * sin (x 0 + x 1 + x 2)
        + x 7 * sin (x 0 + x 1 + x 2 + x 3)),
      -(x 5 * sin (x 0 + x 1) + x 6 * sin (x 0 + x 1 + x 2) + x 7 * sin (x 0 + x 1 + x 2 + x 3)),
      -(x 6 * sin (x 0 + x 1 + x 2) + x 7 * sin (x 0 + x 1 + x 2 + x 3)),
      -(x 7 * sin (x 0 + x 1 + x 2 + x 3)),
      cos (x 0), cos (x 0 + x 1), cos (x 0 + x 1 + x 2), cos (x 0 + x 1 + x 2 + x 3)] := by
  unfold armU
  apply IsGrad.congr
  case h => grad_auto
  case e =>
    funext j
    fin_cases j <;> simp <;> ring

/-- The gradient of the vertical coordinate of the tip. -/
theorem armV_isGrad (x : Fin 8 → ℝ) : IsGrad armV x
    ![x 4 * cos (x 0) + x 5 * cos (x 0 + x 1) + x 6 * cos (x 0 + x 1 + x 2)
        + x 7 * cos (x 0 + x 1 + x 2 + x 3),
      x 5 * cos (x 0 + x 1) + x 6 * cos (x 0 + x 1 + x 2) + x 7 * cos (x 0 + x 1 + x 2 + x 3),
      x 6 * cos (x 0 + x 1 + x 2) + x 7 * cos (x 0 + x 1 + x 2 + x 3),
      x 7 * cos (x 0 + x 1 + x 2 + x 3),
      sin (x 0), sin (x 0 + x 1), sin (x 0 + x 1 + x 2), sin (x 0 + x 1 + x 2 + x 3)] := by
  unfold armV
  apply IsGrad.congr
  case h => grad_auto
  case e =>
    funext j
    fin_cases j <;> simp <;> ring

/-- **C68 (robot arm), partial.**  Wherever the tip of the arm is away from the origin the printed
gradient is the gradient.  (At the origin the function is not differentiable and the printed gradient
divides by zero: `arm_origin_false`.) -/
theorem arm_isGrad_partial (x : Fin 8 → ℝ) (h : arm x ≠ 0) : IsGrad arm x (armGrad x) := by
  have hp : armU x ^ 2 + armV x ^ 2 ≠ 0 := by
    intro e; apply h; unfold arm; rw [e]; simp
  have hs : sqrt (armU x ^ 2 + armV x ^ 2) ≠ 0 := h
  unfold arm
  apply IsGrad.congr
  case h =>
    exact IsGrad.sqrt (IsGrad.add (IsGrad.pow (armU_isGrad x) 2) (IsGrad.pow (armV_isGrad x) 2)) hp
  case e =>
    have e2 := cos_sub' (x 0) (x 1)
    have e23 := cos_sub' (x 0) (x 1 + x 2)
    have e234 := cos_sub' (x 0) (x 1 + x 2 + x 3)
    have e3 := cos_sub' (x 0 + x 1) (x 2)
    have e34 := cos_sub' (x 0 + x 1) (x 2 + x 3)
    have e4 := cos_sub' (x 0 + x 1 + x 2) (x 3)
    have f2 := sin_sub' (x 0) (x 1)
    have f23 := sin_sub' (x 0) (x 1 + x 2)
    have f234 := sin_sub' (x 0) (x 1 + x 2 + x 3)
    have f3 := sin_sub' (x 0 + x 1) (x 2)
    have f34 := sin_sub' (x 0 + x 1) (x 2 + x 3)
    have f4 := sin_sub' (x 0 + x 1 + x 2) (x 3)
    simp only [← add_assoc] at e2 e23 e234 e3 e34 e4 f2 f23 f234 f3 f34 f4
    have q1 := Real.sin_sq_add_cos_sq (x 0)
    have q2 := Real.sin_sq_add_cos_sq (x 0 + x 1)
    have q3 := Real.sin_sq_add_cos_sq (x 0 + x 1 + x 2)
    have q4 := Real.sin_sq_add_cos_sq (x 0 + x 1 + x 2 + x 3)
    funext j
    fin_cases j
    · simp [armGrad]
      right
      unfold armU armV; ring
    all_goals
      simp only [armGrad, armRad_eq, e2, e23, e234, e3, e34, e4, f2, f23, f234, f3, f34, f4]
      simp
      field_simp
      unfold armU armV
    · ring
    · ring
    · ring
    · linear_combination (x 4) * q1
    · linear_combination (x 5) * q2
    · linear_combination (x 6) * q3
    · linear_combination (x 7) * q4


/-- The printed gradient of the OTL circuit is right on the whole design box. -/
theorem otl_domain (x : Fin 6 → ℝ) (hl : otlLb ≤ x) : IsGrad otl x (otlGrad x) := by
  have h0 := hl 0
  have h1 := hl 1
  have h2 := hl 2
  have h3 := hl 3
  have h4 := hl 4
  have h5 := hl 5
  simp [otlLb] at h0 h1 h2 h3 h4 h5
  norm_num at h2 h3 h4
  have p0 : 0 < x 0 := by linarith
  have p1 : 0 < x 1 := by linarith
  have p2 : 0 < x 2 := by linarith
  have p3 : 0 < x 3 := by linarith
  have p4 : 0 < x 4 := by linarith
  have p5 : 0 < x 5 := by linarith
  exact otl_isGrad x (by positivity) (by positivity) p3.ne'

/-- The printed gradient of the borehole function is right on the whole design box. -/
theorem borehole_domain (x : Fin 8 → ℝ) (hl : boreholeLb ≤ x) (hu : x ≤ boreholeUb) :
    IsGrad borehole x (boreholeGrad x) := by
  have h0 := hl 0
  have u0 := hu 0
  have h1 := hl 1
  have h2 := hl 2
  have h4 := hl 4
  have h6 := hl 6
  have h7 := hl 7
  simp [boreholeLb, boreholeUb] at h0 u0 h1 h2 h4 h6 h7
  norm_num at h0 u0 h1 h2 h4 h6 h7
  exact borehole_isGrad x (by linarith) (by linarith) (by linarith) (by linarith) (by linarith)
    (by linarith)

/-- The boxes are inhabited, so the two statements above are about something. -/
example : otlLb ≤ otlUb := by
  intro i; fin_cases i <;> simp [otlLb, otlUb] <;> norm_num

example : boreholeLb ≤ boreholeUb := by
  intro i; fin_cases i <;> simp [boreholeLb, boreholeUb] <;> norm_num

/-- A stretched-out arm meets the hypothesis of `arm_isGrad_partial`. -/
example : arm ![0, 0, 0, 0, 1, 0, 0, 0] ≠ 0 := by
  simp [arm, armU, armV]

/-- **C68 is false for the robot arm at the origin**: at the corner of the design box where all
lengths vanish the function has no gradient at all, so whatever the code returns (it divides by zero)
is not one. -/
theorem arm_origin_false : ¬ ∃ g, IsGrad arm (fun _ => 0) g := by
  rintro ⟨g, hg⟩
  have h := hg.partial 4
  have e : (fun t : ℝ => arm (Function.update (fun _ => 0) 4 t)) = fun t => |t| := by
    funext t
    simp [arm, armU, armV, Function.update]
    exact Real.sqrt_sq_eq_abs t
  rw [e] at h
  exact not_differentiableAt_abs_zero h.differentiableAt

/-- Sums of functions. -/
theorem IsGrad.sum {n : ℕ} {ι : Type*} (s : Finset ι) {f : ι → (Fin n → ℝ) → ℝ} {x : Fin n → ℝ}
    {u : ι → Fin n → ℝ} (h : ∀ i ∈ s, IsGrad (f i) x (u i)) :
    IsGrad (fun y => ∑ i ∈ s, f i y) x (fun j => ∑ i ∈ s, u i j) := by
  classical
  induction s using Finset.induction_on with
  | empty => simpa using IsGrad.const 0
  | insert a s ha ih =>
    simp only [Finset.sum_insert ha]
    exact IsGrad.add (h a (Finset.mem_insert_self a s))
      (ih fun i hi => h i (Finset.mem_insert_of_mem hi))

/-- **C68 (affine functions).** -/
theorem affine_isGrad {m : ℕ} (a : Fin m → ℝ) (c : ℝ) (x : Fin m → ℝ) :
    IsGrad (affineFn a c) x (affineGrad a x) := by
  unfold affineFn dotProduct
  apply IsGrad.congr
  case h =>
    exact IsGrad.add (IsGrad.sum _ fun i _ => IsGrad.mul (IsGrad.const (a i)) (IsGrad.coord i))
      (IsGrad.const c)
  case e =>
    funext j
    simp [affineGrad]

/-- The gradient of the quadratic demo function, for any matrix. -/
theorem quad_trueGrad {m : ℕ} (Q : Matrix (Fin m) (Fin m) ℝ) (a : Fin m → ℝ) (c : ℝ)
    (x : Fin m → ℝ) :
    IsGrad (quadFn Q a c) x (fun j => Matrix.vecMul x Q j + Matrix.mulVec Q x j + a j) := by
  have hlin : IsGrad (fun y => dotProduct a y) x a := by
    have := affine_isGrad a 0 x
    have e : affineFn a 0 = fun y => dotProduct a y := by
      funext y; simp [affineFn]
    rwa [e] at this
  unfold quadFn
  apply IsGrad.congr
  case h =>
    refine IsGrad.add (IsGrad.add (IsGrad.sum _ fun i _ => IsGrad.mul (u := fun j => Q j i) ?_
      (IsGrad.coord i)) hlin)
      (IsGrad.const c)
    unfold Matrix.vecMul dotProduct
    apply IsGrad.congr
    case h =>
      exact IsGrad.sum _ fun k _ => IsGrad.mul (IsGrad.coord k) (IsGrad.const (Q k i))
    case e =>
      funext j
      simp
  case e =>
    funext j
    simp [Finset.sum_add_distrib, Matrix.mulVec, dotProduct, mul_comm]

/-- **C68 (quadratic functions).**  The printed gradient `2 X Q + linear` is the gradient at every
point exactly when the matrix is symmetric; the constructor accepts any square matrix. -/
theorem quad_isGrad_iff {m : ℕ} (Q : Matrix (Fin m) (Fin m) ℝ) (a : Fin m → ℝ) (c : ℝ) :
    (∀ x, IsGrad (quadFn Q a c) x (quadGrad Q a x)) ↔ Q.IsSymm := by
  constructor
  · intro h
    ext i j
    have e := congrFun ((h (Pi.single j 1)).unique (quad_trueGrad Q a c (Pi.single j 1))) i
    simp [quadGrad, Matrix.vecMul, Matrix.mulVec, dotProduct, Pi.single_apply] at e
    simp only [Matrix.transpose_apply]
    linarith
  · intro h x
    refine (quad_trueGrad Q a c x).congr ?_
    funext j
    have e : Matrix.mulVec Q x = Matrix.vecMul x Q := by
      rw [← Matrix.vecMul_transpose, h.eq]
    rw [e, quadGrad]; ring

/-- **C68 is false for a non-symmetric quadratic form**: with `Q = [[0, 1], [0, 0]]`, the function is
`x₀ x₁`, whose gradient at `(1, 0)` is `(0, 1)`, but the code returns `(0, 2)`. -/
theorem quad_grad_false :
    ¬ IsGrad (quadFn !![0, 1; 0, 0] 0 0) ![1, 0] (quadGrad !![0, 1; 0, 0] 0 ![1, 0]) := by
  intro h
  have e := congrFun (h.unique (quad_trueGrad !![0, 1; 0, 0] 0 0 ![1, 0])) 1
  simp [quadGrad, Matrix.vecMul, Matrix.mulVec] at e

end Verif.Demo
