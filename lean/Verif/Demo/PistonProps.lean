import Verif.Demo.PistonModel

namespace Verif.Demo
open Real

theorem pistonA_isGrad (x : Fin 7 → ℝ) (hS : x 1 ≠ 0) :
    IsGrad pistonA x ![19.62, x 4 + x 3 * x 2 / x 1 ^ 2, - x 3 / x 1, - x 2 / x 1, x 1, 0, 0] := by
  unfold pistonA
  apply IsGrad.congr
  case h =>
    grad_auto
    exact hS
  case e =>
    funext j
    fin_cases j <;> simp <;> field_simp <;> ring

theorem inv_two_sqrt_div {M Q : ℝ} (hM : 0 < M) (hQ : 0 < Q) :
    1 / (2 * sqrt (M / Q)) = sqrt (M / Q) * Q / (2 * M) := by
  have hz : 0 < sqrt (M / Q) := Real.sqrt_pos.2 (div_pos hM hQ)
  have hzz := Real.mul_self_sqrt (div_pos hM hQ).le
  generalize sqrt (M / Q) = z at hz hzz
  rw [eq_div_iff hQ.ne'] at hzz
  rw [div_eq_div_iff (by positivity) (by positivity)]
  linear_combination (-2) * hzz

/-- **C82 (piston).**  The generated gradient of the piston function is its gradient at every point
with positive coordinates. -/
theorem piston_isGrad (x : Fin 7 → ℝ) (hM : 0 < x 0) (hS : 0 < x 1) (hV : 0 < x 2) (hk : 0 < x 3)
    (hP : 0 < x 4) (hTa : 0 < x 5) (hT0 : 0 < x 6) : IsGrad piston x (pistonGrad x) := by
  have hB : 0 < 4 * x 3 * x 4 * x 2 / x 6 * x 5 := by positivity
  have hrad : 0 < pistonA x ^ 2 + 4 * x 3 * x 4 * x 2 / x 6 * x 5 := by positivity
  have hR : 0 < sqrt (pistonA x ^ 2 + 4 * x 3 * x 4 * x 2 / x 6 * x 5) := Real.sqrt_pos.2 hrad
  have hD : 0 < sqrt (pistonA x ^ 2 + 4 * x 3 * x 4 * x 2 / x 6 * x 5) - pistonA x := by
    rw [sub_pos]
    refine Real.lt_sqrt_of_sq_lt ?_
    linarith
  have hVV : 0 < pistonV x := by unfold pistonV; positivity
  have hQ : 0 < x 3 + x 1 ^ 2 * (x 4 * x 2 / x 6) * (x 5 / pistonV x ^ 2) := by positivity
  have hA := pistonA_isGrad x hS.ne'
  have hz : 0 < sqrt (x 0 / (x 3 + x 1 ^ 2 * (x 4 * x 2 / x 6) * (x 5 / pistonV x ^ 2))) :=
    Real.sqrt_pos.2 (by positivity)
  have hzz := Real.mul_self_sqrt (div_pos hM hQ).le
  have hVdef : pistonV x = x 1 / (2 * x 3) *
    (sqrt (pistonA x ^ 2 + 4 * x 3 * x 4 * x 2 / x 6 * x 5) - pistonA x) := rfl
  have hVg : IsGrad (fun y => pistonV y) x (fun j => x 1 / (2 * x 3) *
      ((2 * pistonA x * (![19.62, x 4 + x 3 * x 2 / x 1 ^ 2, - x 3 / x 1, - x 2 / x 1, x 1, 0, 0]
          : Fin 7 → ℝ) j
        + (![0, 0, 4 * x 3 * x 4 / x 6 * x 5, 4 * x 4 * x 2 / x 6 * x 5, 4 * x 3 * x 2 / x 6 * x 5,
          4 * x 3 * x 4 * x 2 / x 6, - 4 * x 3 * x 4 * x 2 / x 6 ^ 2 * x 5] : Fin 7 → ℝ) j)
        / (2 * sqrt (pistonA x ^ 2 + 4 * x 3 * x 4 * x 2 / x 6 * x 5))
        - (![19.62, x 4 + x 3 * x 2 / x 1 ^ 2, - x 3 / x 1, - x 2 / x 1, x 1, 0, 0]
          : Fin 7 → ℝ) j)
      + (sqrt (pistonA x ^ 2 + 4 * x 3 * x 4 * x 2 / x 6 * x 5) - pistonA x) *
        (![0, 1 / (2 * x 3), 0, - x 1 / (2 * x 3 ^ 2), 0, 0, 0] : Fin 7 → ℝ) j) := by
    unfold pistonV
    apply IsGrad.congr
    case h =>
      repeat' first | exact hA | grad_step
      all_goals positivity
    case e =>
      set R := sqrt (pistonA x ^ 2 + 4 * x 3 * x 4 * x 2 / x 6 * x 5) with hRdef
      set A := pistonA x with hAdef
      clear_value R A
      funext j
      fin_cases j <;> simp [-mul_eq_mul_left_iff, -mul_eq_mul_right_iff] <;> field_simp <;> ring
  unfold piston
  apply IsGrad.congr
  case h =>
    repeat' first | exact hVg | grad_step
    all_goals positivity
  case e =>
    have hRc : 4*x 4*x 5*x 2*x 3/x 6 + pistonA x ^ 2 =
        pistonA x ^ 2 + 4 * x 3 * x 4 * x 2 / x 6 * x 5 := by ring
    have hDc : -19.62*x 0 - x 4*x 1 + sqrt (pistonA x ^ 2 + 4 * x 3 * x 4 * x 2 / x 6 * x 5)
        + x 2*x 3/x 1 = sqrt (pistonA x ^ 2 + 4 * x 3 * x 4 * x 2 / x 6 * x 5) - pistonA x := by
      unfold pistonA; ring
    have hQc : 4*x 4*x 5*x 2*x 3^2/(x 6*(sqrt (pistonA x ^ 2 + 4 * x 3 * x 4 * x 2 / x 6 * x 5)
        - pistonA x)^2) + x 3 = x 3 + x 1 ^ 2 * (x 4 * x 2 / x 6) * (x 5 / pistonV x ^ 2) := by
      rw [hVdef]; field_simp; ring
    have hAc : 19.62*x 0 + x 4*x 1 - x 2*x 3/x 1 = pistonA x := by unfold pistonA; ring
    have hAc' : 384.9444*x 0 + 19.62*x 4*x 1 - 19.62*x 2*x 3/x 1 = 19.62 * pistonA x := by
      unfold pistonA; ring
    have hfac : 1 / (2 * sqrt (x 0 / (x 3 + x 1 ^ 2 * (x 4 * x 2 / x 6) * (x 5 / pistonV x ^ 2))))
        = sqrt (x 0 / (x 3 + x 1 ^ 2 * (x 4 * x 2 / x 6) * (x 5 / pistonV x ^ 2)))
          * (x 3 + x 1 ^ 2 * (x 4 * x 2 / x 6) * (x 5 / pistonV x ^ 2)) / (2 * x 0) :=
      inv_two_sqrt_div hM hQ
    unfold pistonGrad
    simp only [hRc, hDc, hQc, hAc, hAc', hfac]
    have hVd2 := hVdef
    set Q := x 3 + x 1 ^ 2 * (x 4 * x 2 / x 6) * (x 5 / pistonV x ^ 2) with hQdef
    set z := sqrt (x 0 / Q) with hzdef
    set R := sqrt (pistonA x ^ 2 + 4 * x 3 * x 4 * x 2 / x 6 * x 5) with hRdef
    set A := pistonA x with hAdef
    rw [hVdef]
    have hVp : pistonV x ≠ 0 := hVV.ne'
    clear_value Q z R A
    obtain ⟨D, hDD⟩ : ∃ D, D = R - A := ⟨_, rfl⟩
    rw [← hDD] at hD ⊢
    have hA' : A = R - D := by rw [hDD]; ring
    clear hzz hVd2 hRdef hQdef hzdef hRc hDc hQc hAc hAc' hfac hVg hVdef hrad
    funext j
    fin_cases j
    all_goals
      simp [-mul_eq_mul_left_iff, -mul_eq_mul_right_iff]
      field_simp
      try ring

/-- The generated gradient of the piston function is right on the whole design box. -/
theorem piston_domain (x : Fin 7 → ℝ) (hl : pistonLb ≤ x) : IsGrad piston x (pistonGrad x) := by
  have h0 := hl 0
  have h1 := hl 1
  have h2 := hl 2
  have h3 := hl 3
  have h4 := hl 4
  have h5 := hl 5
  have h6 := hl 6
  simp [pistonLb] at h0 h1 h2 h3 h4 h5 h6
  norm_num at h0 h1 h2 h3 h4 h5 h6
  exact piston_isGrad x (by linarith) (by linarith) (by linarith) (by linarith) (by linarith)
    (by linarith) (by linarith)

/-- **C82 (Hartmann, average velocity).** -/
theorem uAve_isGrad (x : Fin 4 → ℝ) (hmu : 0 < x 0) (heta : 0 < x 2) (hB : 0 < x 3) :
    IsGrad uAve x (uAveGrad x) := by
  have hp : 0 < x 2 * x 0 := mul_pos heta hmu
  have hs : 0 < sqrt (x 2 * x 0) := Real.sqrt_pos.2 hp
  have hss := Real.sq_sqrt hp.le
  have ht : 0 < x 3 * 1 / sqrt (x 2 * x 0) := by positivity
  have hsinh : 0 < sinh (x 3 * 1 / sqrt (x 2 * x 0)) := Real.sinh_pos_iff.2 ht
  have hcosh : 0 < cosh (x 3 * 1 / sqrt (x 2 * x 0)) := Real.cosh_pos _
  have htanh : tanh (x 3 * 1 / sqrt (x 2 * x 0)) ≠ 0 := by
    rw [Real.tanh_eq_sinh_div_cosh]; positivity
  unfold uAve
  apply IsGrad.congr
  case h =>
    grad_auto
    all_goals first | exact htanh | positivity
  case e =>
    have hc2 := Real.cosh_sq (x 3 * 1 / sqrt (x 2 * x 0))
    simp only [uAveGrad, Real.tanh_eq_sinh_div_cosh]
    set q := sqrt (x 2 * x 0) with hqdef
    set t := x 3 * 1 / q with htdef
    set C := cosh t
    set s := sinh t
    have hC : C ^ 2 - s ^ 2 = 1 := by linarith
    have htq : x 3 = t * q := by rw [htdef]; field_simp
    have hx2 : x 2 = q ^ 2 / x 0 := by rw [hss]; field_simp
    clear_value C s
    clear_value t
    clear_value q
    funext j
    fin_cases j
    all_goals
      simp [-mul_eq_mul_left_iff, -mul_eq_mul_right_iff]
      field_simp
      try rw [hC]
      try rw [hx2]
      try rw [htq]
      try field_simp
      try ring

/-- **C82 (Hartmann, induced field).** -/
theorem bind_isGrad (x : Fin 4 → ℝ) (hmu : 0 < x 0) (heta : 0 < x 2) (hB : 0 < x 3) :
    IsGrad bind x (bindGrad x) := by
  have hp : 0 < x 2 * x 0 := mul_pos heta hmu
  have hs : 0 < sqrt (x 2 * x 0) := Real.sqrt_pos.2 hp
  have hss := Real.sq_sqrt hp.le
  unfold bind
  apply IsGrad.congr
  case h =>
    grad_auto
    all_goals positivity
  case e =>
    simp only [bindGrad]
    set q := sqrt (x 2 * x 0)
    set T := tanh (x 3 * 1 / (2 * q))
    have hx2 : x 2 = q ^ 2 / x 0 := by rw [hss]; field_simp
    clear_value T
    clear_value q
    funext j
    fin_cases j
    all_goals
      simp [-mul_eq_mul_left_iff, -mul_eq_mul_right_iff]
      field_simp
      try rw [hx2]
      try field_simp
      try ring

/-- The generated gradients of the Hartmann problem are right on the whole design box. -/
theorem hartmann_domain (x : Fin 4 → ℝ) (hl : hartmannLb ≤ x) :
    IsGrad uAve x (uAveGrad x) ∧ IsGrad bind x (bindGrad x) := by
  have h0 := hl 0
  have h2 := hl 2
  have h3 := hl 3
  simp [hartmannLb] at h0 h2 h3
  norm_num at h0 h2 h3
  exact ⟨uAve_isGrad x (by linarith) (by linarith) (by linarith),
    bind_isGrad x (by linarith) (by linarith) (by linarith)⟩

end Verif.Demo
