import Verif.Demo.GearModel
import Verif.Demo.PistonProps

namespace Verif.Demo
open Real

/-- `g` is the gradient of `f` at `x` up to a relative error of `ε` in every coordinate. -/
def ApproxGrad {n : ℕ} (ε : ℝ) (f : (Fin n → ℝ) → ℝ) (x g : Fin n → ℝ) : Prop :=
  ∃ g', IsGrad f x g' ∧ ∀ i, |g i - g' i| ≤ ε * |g' i|

theorem IsGrad.approx {n : ℕ} {f : (Fin n → ℝ) → ℝ} {x g : Fin n → ℝ} (h : IsGrad f x g) :
    ApproxGrad 0 f x g := ⟨g, h, by simp⟩

/-- Scaling a number by a constant within `ε` of one. -/
theorem approx_scale {c c' t ε : ℝ} (h : |c - c'| ≤ ε * |c'|) : |c * t - c' * t| ≤ ε * |c' * t| := by
  rw [← sub_mul, abs_mul, abs_mul, ← mul_assoc]
  exact mul_le_mul_of_nonneg_right h (abs_nonneg t)

theorem golVol_isGrad (x : Fin 6 → ℝ) : IsGrad golVol x (golVolGrad x) := by
  unfold golVol
  apply IsGrad.congr
  case h => grad_auto
  case e =>
    funext j
    fin_cases j <;> simp [golVolGrad, gx3, -mul_eq_mul_left_iff, -mul_eq_mul_right_iff] <;> ring

/-- Differentiate a rational function at a point where the side conditions are positivity facts. -/
macro "grad_rat" d:ident : tactic => `(tactic|
  (apply IsGrad.congr
   case h =>
     grad_auto
     all_goals positivity
   case e =>
     funext j
     fin_cases j <;> simp [$d:ident, -mul_eq_mul_left_iff, -mul_eq_mul_right_iff]
       <;> (try field_simp) <;> (try ring)))

theorem gx3_pos : 0 < gx3 := by unfold gx3; norm_num

theorem gol1_isGrad (x : Fin 6 → ℝ) (h0 : 0 < x 0) (h1 : 0 < x 1) : IsGrad gol1 x (gol1Grad x) := by
  have := gx3_pos
  unfold gol1
  grad_rat gol1Grad

theorem gol2_isGrad (x : Fin 6 → ℝ) (h0 : 0 < x 0) (h1 : 0 < x 1) : IsGrad gol2 x (gol2Grad x) := by
  have := gx3_pos
  unfold gol2
  grad_rat gol2Grad

theorem gol3_isGrad (x : Fin 6 → ℝ) (h1 : 0 < x 1) (h4 : 0 < x 4) : IsGrad gol3 x (gol3Grad x) := by
  have := gx3_pos
  unfold gol3
  grad_rat gol3Grad

theorem gol4_isGrad (x : Fin 6 → ℝ) (h1 : 0 < x 1) (h5 : 0 < x 5) : IsGrad gol4 x (gol4Grad x) := by
  have := gx3_pos
  unfold gol4
  grad_rat gol4Grad

theorem gol7_isGrad (x : Fin 6 → ℝ) : IsGrad gol7 x (gol7Grad x) := by
  unfold gol7
  grad_rat gol7Grad

theorem gol8_isGrad (x : Fin 6 → ℝ) (h0 : 0 < x 0) : IsGrad gol8 x (gol8Grad x) := by
  unfold gol8
  grad_rat gol8Grad

theorem gol9_isGrad (x : Fin 6 → ℝ) (h1 : 0 < x 1) : IsGrad gol9 x (gol9Grad x) := by
  unfold gol9
  grad_rat gol9Grad

theorem gol24_isGrad (x : Fin 6 → ℝ) (h2 : 0 < x 2) : IsGrad gol24 x (gol24Grad x) := by
  unfold gol24
  grad_rat gol24Grad

theorem gol25_isGrad (x : Fin 6 → ℝ) (h3 : 0 < x 3) : IsGrad gol25 x (gol25Grad x) := by
  unfold gol25
  grad_rat gol25Grad

/-- The gradient of the fifth gearbox constraint without rounding. -/
noncomputable def gol5True (x : Fin 6 → ℝ) : Fin 6 → ℝ :=
  let R := sqrt (16900000 + 555025*x 2^2/(x 1^2*gx3^2))
  ![0, -(555025/110)*(x 2^2/(x 1^3*gx3^2*x 4^3*R)), (555025/110)*(x 2/(x 1^2*gx3^2*x 4^3*R)), 0,
    -(3/110)*(R/x 4^4), 0]

theorem gol5_trueGrad (x : Fin 6 → ℝ) (h1 : 0 < x 1) (h4 : 0 < x 4) :
    IsGrad gol5 x (gol5True x) := by
  have := gx3_pos
  have hr : 0 < sqrt (16900000 + 555025*x 2^2/(x 1^2*gx3^2)) := by
    apply Real.sqrt_pos.2
    have : 0 ≤ 555025*x 2^2/(x 1^2*gx3^2) := by positivity
    linarith
  have e : (745*x 2/x 1/gx3)^2 + 16900000 = 16900000 + 555025*x 2^2/(x 1^2*gx3^2) := by
    field_simp; ring
  unfold gol5
  apply IsGrad.congr
  case h =>
    grad_auto
    all_goals positivity
  case e =>
    simp only [gol5True, e]
    set R := sqrt (16900000 + 555025*x 2^2/(x 1^2*gx3^2))
    clear_value R
    funext j
    fin_cases j <;> simp [-mul_eq_mul_left_iff, -mul_eq_mul_right_iff]
       <;> (try field_simp) <;> (try ring)

/-- Coordinates that are the same number times a rounded and an exact constant. -/
theorem approx_coord {a b c c' t ε : ℝ} (ha : a = c * t) (hb : b = c' * t)
    (h : |c - c'| ≤ ε * |c'|) : |a - b| ≤ ε * |b| := by
  rw [ha, hb]; exact approx_scale h

/-- **C82 (gearbox, constraint 5), partial.**  The printed decimals give the gradient up to a relative
error of `2e-15` in every coordinate (they are not exact: `gol5_exact_false`). -/
theorem gol5_partial (x : Fin 6 → ℝ) (h1 : 0 < x 1) (h4 : 0 < x 4) :
    ApproxGrad (2 / 10 ^ 15) gol5 x (gol5Grad x) := by
  refine ⟨_, gol5_trueGrad x h1 h4, ?_⟩
  have a1 : |(-5045.68181818182 : ℝ) - -(555025/110)| ≤ 2 / 10 ^ 15 * |(-(555025/110) : ℝ)| := by
    norm_num [abs_of_pos, abs_of_neg]
  have a2 : |(5045.68181818182 : ℝ) - (555025/110)| ≤ 2 / 10 ^ 15 * |((555025/110) : ℝ)| := by
    norm_num [abs_of_pos, abs_of_neg]
  have a3 : |(-0.0272727272727273 : ℝ) - -(3/110)| ≤ 2 / 10 ^ 15 * |(-(3/110) : ℝ)| := by
    norm_num [abs_of_pos, abs_of_neg]
  simp only [gol5Grad, gol5True]
  set R := sqrt (16900000 + 555025*x 2^2/(x 1^2*gx3^2))
  intro i
  fin_cases i
  · simp
  · exact approx_coord (t := x 2^2/(x 1^3*gx3^2*x 4^3*R)) (by simp; ring) rfl a1
  · exact approx_coord (t := x 2/(x 1^2*gx3^2*x 4^3*R)) (by simp; ring) rfl a2
  · simp
  · exact approx_coord (t := R/x 4^4) (by simp; ring) rfl a3
  · simp

/-- The rounded constants are not the exact ones: at the point with all coordinates one the printed
vector is not the gradient. -/
theorem gol5_exact_false : ¬ IsGrad gol5 (fun _ => 1) (gol5Grad fun _ => 1) := by
  intro h
  have e := congrFun (h.unique (gol5_trueGrad (fun _ => 1) (by norm_num) (by norm_num))) 4
  have hr : sqrt (16900000 + 555025/gx3^2) ≠ 0 := by
    apply (Real.sqrt_pos.2 _).ne'
    positivity
  simp [gol5Grad, gol5True] at e
  rcases e with e | e
  · norm_num at e
  · exact hr e

/-- The gradient of the sixth gearbox constraint without rounding. -/
noncomputable def gol6True (x : Fin 6 → ℝ) : Fin 6 → ℝ :=
  let R := sqrt (157500000 + 555025*x 3^2/(x 1^2*gx3^2))
  ![0, -(555025/85)*(x 3^2/(x 1^3*gx3^2*x 5^3*R)), 0, (555025/85)*(x 3/(x 1^2*gx3^2*x 5^3*R)), 0,
    -(3/85)*(R/x 5^4)]

theorem gol6_trueGrad (x : Fin 6 → ℝ) (h1 : 0 < x 1) (h5 : 0 < x 5) :
    IsGrad gol6 x (gol6True x) := by
  have := gx3_pos
  have hr : 0 < sqrt (157500000 + 555025*x 3^2/(x 1^2*gx3^2)) := by
    apply Real.sqrt_pos.2
    have : 0 ≤ 555025*x 3^2/(x 1^2*gx3^2) := by positivity
    linarith
  have e : (745*x 3/x 1/gx3)^2 + 157500000 = 157500000 + 555025*x 3^2/(x 1^2*gx3^2) := by
    field_simp; ring
  unfold gol6
  apply IsGrad.congr
  case h =>
    grad_auto
    all_goals positivity
  case e =>
    simp only [gol6True, e]
    set R := sqrt (157500000 + 555025*x 3^2/(x 1^2*gx3^2))
    clear_value R
    funext j
    fin_cases j <;> simp [-mul_eq_mul_left_iff, -mul_eq_mul_right_iff]
       <;> (try field_simp) <;> (try ring)

/-- **C82 (gearbox, constraint 6), partial.**  As for constraint 5. -/
theorem gol6_partial (x : Fin 6 → ℝ) (h1 : 0 < x 1) (h5 : 0 < x 5) :
    ApproxGrad (2 / 10 ^ 15) gol6 x (gol6Grad x) := by
  refine ⟨_, gol6_trueGrad x h1 h5, ?_⟩
  have a1 : |(-6529.70588235294 : ℝ) - -(555025/85)| ≤ 2 / 10 ^ 15 * |(-(555025/85) : ℝ)| := by
    norm_num [abs_of_pos, abs_of_neg]
  have a2 : |(6529.70588235294 : ℝ) - (555025/85)| ≤ 2 / 10 ^ 15 * |((555025/85) : ℝ)| := by
    norm_num [abs_of_pos, abs_of_neg]
  have a3 : |(-0.0352941176470588 : ℝ) - -(3/85)| ≤ 2 / 10 ^ 15 * |(-(3/85) : ℝ)| := by
    norm_num [abs_of_pos, abs_of_neg]
  simp only [gol6Grad, gol6True]
  set R := sqrt (157500000 + 555025*x 3^2/(x 1^2*gx3^2))
  intro i
  fin_cases i
  · simp
  · exact approx_coord (t := x 3^2/(x 1^3*gx3^2*x 5^3*R)) (by simp; ring) rfl a1
  · simp
  · exact approx_coord (t := x 3/(x 1^2*gx3^2*x 5^3*R)) (by simp; ring) rfl a2
  · simp
  · exact approx_coord (t := R/x 5^4) (by simp; ring) rfl a3

/-- **C82 (gearbox).**  On the whole design box: the volume and nine of the eleven constraints have
exactly the printed gradient, the other two up to a relative error of `2e-15`. -/
theorem golinski_domain_partial (x : Fin 6 → ℝ) (hl : golLb ≤ x) :
    IsGrad golVol x (golVolGrad x) ∧ IsGrad gol1 x (gol1Grad x) ∧ IsGrad gol2 x (gol2Grad x) ∧
    IsGrad gol3 x (gol3Grad x) ∧ IsGrad gol4 x (gol4Grad x) ∧
    ApproxGrad (2 / 10 ^ 15) gol5 x (gol5Grad x) ∧ ApproxGrad (2 / 10 ^ 15) gol6 x (gol6Grad x) ∧
    IsGrad gol7 x (gol7Grad x) ∧ IsGrad gol8 x (gol8Grad x) ∧ IsGrad gol9 x (gol9Grad x) ∧
    IsGrad gol24 x (gol24Grad x) ∧ IsGrad gol25 x (gol25Grad x) := by
  have h0 := hl 0
  have h1 := hl 1
  have h2 := hl 2
  have h3 := hl 3
  have h4 := hl 4
  have h5 := hl 5
  simp [golLb] at h0 h1 h2 h3 h4 h5
  norm_num at h0 h1 h2 h3 h4 h5
  have p0 : 0 < x 0 := by linarith
  have p1 : 0 < x 1 := by linarith
  have p2 : 0 < x 2 := by linarith
  have p3 : 0 < x 3 := by linarith
  have p4 : 0 < x 4 := by linarith
  have p5 : 0 < x 5 := by linarith
  exact ⟨golVol_isGrad x, gol1_isGrad x p0 p1, gol2_isGrad x p0 p1, gol3_isGrad x p1 p4,
    gol4_isGrad x p1 p5, gol5_partial x p1 p4, gol6_partial x p1 p5, gol7_isGrad x,
    gol8_isGrad x p0, gol9_isGrad x p1, gol24_isGrad x p2, gol25_isGrad x p3⟩

/-! ### Nowacki beam -/

theorem beamTwist_isGrad (P : Beam) (x : Fin 2 → ℝ) (hb : 0 < x 0) (hh : 0 < x 1) (hL : 0 < P.L)
    (hE : 0 < P.E) (hG : 0 < P.G) (hnu : P.nu < 1) :
    IsGrad (beamTwist P) x (beamTwistGrad P x) := by
  have hn : 0 < 1 - P.nu := by linarith
  have hr : 0 < P.G*((x 0^3*x 1 + x 0*x 1^3)/12)*P.E*(x 0^3*x 1/12)/(1 - P.nu) := by positivity
  have hs : 0 < sqrt (P.G*((x 0^3*x 1 + x 0*x 1^3)/12)*P.E*(x 0^3*x 1/12)/(1 - P.nu)) :=
    Real.sqrt_pos.2 hr
  have hss := Real.sq_sqrt hr.le
  have e : sqrt 3 * sqrt (P.E*P.G*x 0^3*x 1*(x 0^3*x 1/12 + x 0*x 1^3/12)/(1 - P.nu)) =
      6 * sqrt (P.G*((x 0^3*x 1 + x 0*x 1^3)/12)*P.E*(x 0^3*x 1/12)/(1 - P.nu)) := by
    rw [← Real.sqrt_mul (by norm_num)]
    have : (3 : ℝ) * (P.E*P.G*x 0^3*x 1*(x 0^3*x 1/12 + x 0*x 1^3/12)/(1 - P.nu)) =
      6 ^ 2 * (P.G*((x 0^3*x 1 + x 0*x 1^3)/12)*P.E*(x 0^3*x 1/12)/(1 - P.nu)) := by
        field_simp; ring
    rw [this, Real.sqrt_mul (by norm_num), Real.sqrt_sq (by norm_num)]
  unfold beamTwist
  apply IsGrad.congr
  case h =>
    grad_auto
    all_goals positivity
  case e =>
    simp only [beamTwistGrad, mul_assoc 2 (sqrt 3), e]
    set q := sqrt (P.G*((x 0^3*x 1 + x 0*x 1^3)/12)*P.E*(x 0^3*x 1/12)/(1 - P.nu))
    have hinv : 1 / (2 * q) = q / (2 * (P.G*((x 0^3*x 1 + x 0*x 1^3)/12)*P.E*(x 0^3*x 1/12)/(1 - P.nu))) := by
      rw [← hss]; field_simp
    rw [hinv]
    clear_value q
    funext j
    fin_cases j <;> simp [-mul_eq_mul_left_iff, -mul_eq_mul_right_iff]
       <;> (try field_simp) <;> (try ring)

theorem beamArea_isGrad (x : Fin 2 → ℝ) : IsGrad beamArea x (beamAreaGrad x) := by
  unfold beamArea
  grad_rat beamAreaGrad

theorem beamBending_isGrad (P : Beam) (x : Fin 2 → ℝ) (hb : 0 < x 0) (hh : 0 < x 1) :
    IsGrad (beamBending P) x (beamBendingGrad P x) := by
  unfold beamBending
  grad_rat beamBendingGrad

theorem beamTip_isGrad (P : Beam) (x : Fin 2 → ℝ) (hb : 0 < x 0) (hh : 0 < x 1) (hE : 0 < P.E) :
    IsGrad (beamTip P) x (beamTipGrad P x) := by
  unfold beamTip
  grad_rat beamTipGrad

theorem beamStress_isGrad (P : Beam) (x : Fin 2 → ℝ) (hb : 0 < x 0) (hh : 0 < x 1) :
    IsGrad (beamStress P) x (beamStressGrad P x) := by
  unfold beamStress
  grad_rat beamStressGrad

theorem beamShear_isGrad (P : Beam) (x : Fin 2 → ℝ) (hb : 0 < x 0) (hh : 0 < x 1) :
    IsGrad (beamShear P) x (beamShearGrad P x) := by
  unfold beamShear
  grad_rat beamShearGrad

theorem beamRatio_isGrad (x : Fin 2 → ℝ) (hb : 0 < x 0) : IsGrad beamRatio x (beamRatioGrad x) := by
  unfold beamRatio
  grad_rat beamRatioGrad

/-- **C82 (beam).**  On the whole design box and for every material with positive length and moduli
and Poisson ratio below one, all seven printed gradients are the gradients. -/
theorem beam_domain (P : Beam) (x : Fin 2 → ℝ) (hl : beamLb ≤ x) (hL : 0 < P.L)
    (hE : 0 < P.E) (hG : 0 < P.G) (hnu : P.nu < 1) :
    IsGrad beamArea x (beamAreaGrad x) ∧ IsGrad (beamBending P) x (beamBendingGrad P x) ∧
    IsGrad (beamTip P) x (beamTipGrad P x) ∧ IsGrad (beamStress P) x (beamStressGrad P x) ∧
    IsGrad (beamShear P) x (beamShearGrad P x) ∧ IsGrad beamRatio x (beamRatioGrad x) ∧
    IsGrad (beamTwist P) x (beamTwistGrad P x) := by
  have h0 := hl 0
  have h1 := hl 1
  simp [beamLb] at h0 h1
  norm_num at h0 h1
  have p0 : 0 < x 0 := by linarith
  have p1 : 0 < x 1 := by linarith
  exact ⟨beamArea_isGrad x, beamBending_isGrad P x p0 p1, beamTip_isGrad P x p0 p1 hE,
    beamStress_isGrad P x p0 p1, beamShear_isGrad P x p0 p1, beamRatio_isGrad x p0,
    beamTwist_isGrad P x p0 p1 hL hE hG hnu⟩

/-- The default material meets the hypotheses. -/
example : 0 < beamDefault.L ∧ 0 < beamDefault.E ∧ 0 < beamDefault.G ∧ beamDefault.nu < 1 := by
  refine ⟨?_, ?_, ?_, ?_⟩ <;> norm_num [beamDefault]

end Verif.Demo
