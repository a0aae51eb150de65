import Verif.Demo.WingModel
import Verif.Demo.GearProps

namespace Verif.Demo
open Real

/-- Real powers, with the derivative written without shifting the exponent. -/
theorem IsGrad.rpow' {n : ℕ} {f : (Fin n → ℝ) → ℝ} {x u : Fin n → ℝ} (hf : IsGrad f x u) (p : ℝ)
    (h : f x ≠ 0) : IsGrad (fun y => (f y) ^ p) x (fun j => (p * ((f x) ^ p / f x)) * u j) := by
  have := IsGrad.rpow hf p h
  rwa [Real.rpow_sub_one h] at this

/-- The constant hidden in the printed decimals. -/
noncomputable def wingK : ℝ := (100 : ℝ) ^ (-0.3 : ℝ)

theorem wingK_pow : wingK ^ 10 = 1 / 10 ^ 6 := by
  unfold wingK
  rw [← Real.rpow_natCast, ← Real.rpow_mul (by norm_num)]
  have : (-0.3 : ℝ) * ((10 : ℕ) : ℝ) = ((-3 : ℤ) : ℝ) := by norm_num
  rw [this, Real.rpow_intCast]
  norm_num

theorem wingK_pos : 0 < wingK := Real.rpow_pos_of_pos (by norm_num) _

theorem wingK_lower : 0.251188643150958 < wingK := by
  by_contra h
  have h' : wingK ≤ 0.251188643150958 := not_lt.1 h
  have := pow_le_pow_left₀ wingK_pos.le h' 10
  rw [wingK_pow] at this
  norm_num at this

theorem wingK_upper : wingK < 0.25118864315095802 := by
  by_contra h
  have h' : 0.25118864315095802 ≤ wingK := not_lt.1 h
  have := pow_le_pow_left₀ (by norm_num) h' 10
  rw [wingK_pow] at this
  norm_num at this

/-- The gradient of the wing weight without rounding: `wingP` is the product of all powers. -/
noncomputable def wingP (x : Fin 10 → ℝ) : ℝ :=
  (x 0)^(0.758 : ℝ)*(x 1)^(0.0035 : ℝ)*(x 5)^(0.04 : ℝ)*(x 4)^(0.006 : ℝ)
      *(x 2/cos (x 3*(π/180))^2)^(0.6 : ℝ)*(x 7*x 8)^(0.49 : ℝ)*(x 6/cos (x 3*(π/180)))^(-0.3 : ℝ)

noncomputable def wingTrue (x : Fin 10 → ℝ) : Fin 10 → ℝ :=
  ![0.036*0.758*wingK * (wingP x / x 0) + x 9,
    0.036*0.0035*wingK * (wingP x / x 1),
    0.036*0.6*wingK * (wingP x / x 2),
    0.036*0.9*wingK * (wingP x * (π/180) * tan (x 3*(π/180))),
    0.036*0.006*wingK * (wingP x / x 4),
    0.036*0.04*wingK * (wingP x / x 5),
    -(0.036*0.3*wingK) * (wingP x / x 6),
    0.036*0.49*wingK * (wingP x / x 7),
    0.036*0.49*wingK * (wingP x / x 8),
    x 0]

set_option maxHeartbeats 2000000 in
theorem wing_trueGrad (x : Fin 10 → ℝ) (h0 : 0 < x 0) (h1 : 0 < x 1) (h2 : 0 < x 2)
    (h3 : 0 < cos (x 3*(π/180))) (h4 : 0 < x 4) (h5 : 0 < x 5) (h6 : 0 < x 6) (h7 : 0 < x 7)
    (h8 : 0 < x 8) : IsGrad wing x (wingTrue x) := by
  unfold wing
  apply IsGrad.congr
  case h =>
    repeat' first | with_reducible apply IsGrad.rpow' | grad_step
    all_goals positivity
  case e =>
    have hK : (100*x 6/cos (x 3*(π/180)))^(-0.3 : ℝ) =
        wingK * (x 6/cos (x 3*(π/180)))^(-0.3 : ℝ) := by
      rw [mul_div_assoc, Real.mul_rpow (by norm_num) (by positivity), wingK]
    simp only [wingTrue, hK, wingP, Real.tan_eq_sin_div_cos]
    set c := cos (x 3*(π/180))
    set s := sin (x 3*(π/180))
    set a0 := (x 0)^(0.758 : ℝ)
    set a1 := (x 1)^(0.0035 : ℝ)
    set a5 := (x 5)^(0.04 : ℝ)
    set a4 := (x 4)^(0.006 : ℝ)
    set aA := (x 2/c^2)^(0.6 : ℝ)
    set aN := (x 7*x 8)^(0.49 : ℝ)
    set aT := (x 6/c)^(-0.3 : ℝ)
    clear_value aA aT a0 a1 a4 a5 aN
    clear_value c s
    generalize wingK = K
    funext j
    fin_cases j <;> simp [-mul_eq_mul_left_iff, -mul_eq_mul_right_iff]
       <;> (try field_simp) <;> (try ring)

theorem wing_const {c k : ℝ} (hk : 0 < k) (hl : c ≤ (1 + 3 / 10 ^ 15) * (k * 0.251188643150958))
    (hu : (1 - 3 / 10 ^ 15) * (k * 0.25118864315095802) ≤ c) :
    |c - k * wingK| ≤ 3 / 10 ^ 15 * |k * wingK| := by
  have h1 := mul_lt_mul_of_pos_left wingK_lower hk
  have h2 := mul_lt_mul_of_pos_left wingK_upper hk
  rw [abs_of_pos (mul_pos hk wingK_pos), abs_le]
  constructor
  · nlinarith
  · nlinarith

/-- **C82 (wing weight), partial.**  The printed decimals give the gradient up to a relative error of
`3e-15` in every coordinate. -/
theorem wing_partial (x : Fin 10 → ℝ) (h0 : 0 < x 0) (h1 : 0 < x 1) (h2 : 0 < x 2)
    (h3 : 0 < cos (x 3*(π/180))) (h4 : 0 < x 4) (h5 : 0 < x 5) (h6 : 0 < x 6) (h7 : 0 < x 7)
    (h8 : 0 < x 8) (h9 : 0 ≤ x 9) : ApproxGrad (3 / 10 ^ 15) wing x (wingGrad x) := by
  refine ⟨_, wing_trueGrad x h0 h1 h2 h3 h4 h5 h6 h7 h8, ?_⟩
  have hP : 0 < wingP x := by unfold wingP; positivity
  have e0 : (x 0) ^ (-0.242 : ℝ) = (x 0) ^ (0.758 : ℝ) / x 0 := by
    rw [← Real.rpow_sub_one h0.ne']; norm_num
  have e1 : (x 1) ^ (-0.9965 : ℝ) = (x 1) ^ (0.0035 : ℝ) / x 1 := by
    rw [← Real.rpow_sub_one h1.ne']; norm_num
  have e4 : (x 4) ^ (-0.994 : ℝ) = (x 4) ^ (0.006 : ℝ) / x 4 := by
    rw [← Real.rpow_sub_one h4.ne']; norm_num
  have e5 : (x 5) ^ (-0.96 : ℝ) = (x 5) ^ (0.04 : ℝ) / x 5 := by
    rw [← Real.rpow_sub_one h5.ne']; norm_num
  intro i
  fin_cases i
  · have key := approx_scale (t := wingP x / x 0)
      (wing_const (c := 0.00685443569430334) (k := 0.036*0.758) (by norm_num) (by norm_num)
        (by norm_num))
    have ha : wingGrad x 0 = 0.00685443569430334 * (wingP x / x 0) + x 9 := by
      simp [wingGrad, wingP, e0]; ring
    have hb : wingTrue x 0 = 0.036*0.758*wingK * (wingP x / x 0) + x 9 := rfl
    change |wingGrad x 0 - wingTrue x 0| ≤ _ * |wingTrue x 0|
    have hp : 0 ≤ 0.036*0.758*wingK * (wingP x / x 0) := by have := wingK_pos; positivity
    rw [ha, hb, add_sub_add_right_eq_sub, abs_of_nonneg (add_nonneg hp h9)]
    rw [abs_of_nonneg hp] at key
    refine key.trans ?_
    apply mul_le_mul_of_nonneg_left _ (by norm_num)
    linarith
  · exact approx_coord (t := wingP x / x 1) (c := 3.16497690370207e-5)
      (by simp [wingGrad, wingP, e1]; ring) rfl
      (wing_const (by norm_num) (by norm_num) (by norm_num))
  · exact approx_coord (t := wingP x / x 2) (c := 0.00542567469206069)
      (by simp [wingGrad, wingP]; ring) rfl
      (wing_const (by norm_num) (by norm_num) (by norm_num))
  · exact approx_coord (t := wingP x * (π/180) * tan (x 3*(π/180))) (c := 0.00813851203809104)
      (by simp [wingGrad, wingP]; ring) rfl
      (wing_const (by norm_num) (by norm_num) (by norm_num))
  · exact approx_coord (t := wingP x / x 4) (c := 5.42567469206069e-5)
      (by simp [wingGrad, wingP, e4]; ring) rfl
      (wing_const (by norm_num) (by norm_num) (by norm_num))
  · exact approx_coord (t := wingP x / x 5) (c := 0.000361711646137379)
      (by simp [wingGrad, wingP, e5]; ring) rfl
      (wing_const (by norm_num) (by norm_num) (by norm_num))
  · refine approx_coord (t := wingP x / x 6) (c := -0.00271283734603035)
      (by simp [wingGrad, wingP]; ring) rfl ?_
    have := wing_const (c := 0.00271283734603035) (k := 0.036*0.3) (by norm_num) (by norm_num)
      (by norm_num)
    rw [← abs_neg, abs_neg (0.036*0.3*wingK)]
    rw [show -(-0.00271283734603035 - -(0.036*0.3*wingK)) =
      0.00271283734603035 - 0.036*0.3*wingK by ring]
    exact this
  · exact approx_coord (t := wingP x / x 7) (c := 0.0044309676651829)
      (by simp [wingGrad, wingP]; ring) rfl
      (wing_const (by norm_num) (by norm_num) (by norm_num))
  · exact approx_coord (t := wingP x / x 8) (c := 0.0044309676651829)
      (by simp [wingGrad, wingP]; ring) rfl
      (wing_const (by norm_num) (by norm_num) (by norm_num))
  · simp [wingGrad, wingTrue]

/-- The same on the whole design box. -/
theorem wing_domain_partial (x : Fin 10 → ℝ) (hl : wingLb ≤ x) (hu : x ≤ wingUb) :
    ApproxGrad (3 / 10 ^ 15) wing x (wingGrad x) := by
  have h0 := hl 0
  have h1 := hl 1
  have h2 := hl 2
  have h3 := hl 3
  have u3 := hu 3
  have h4 := hl 4
  have h5 := hl 5
  have h6 := hl 6
  have h7 := hl 7
  have h8 := hl 8
  have h9 := hl 9
  simp [wingLb, wingUb] at h0 h1 h2 h3 u3 h4 h5 h6 h7 h8 h9
  norm_num at h0 h1 h2 h3 u3 h4 h5 h6 h7 h8 h9
  have hpi := Real.pi_pos
  have hc : 0 < cos (x 3*(π/180)) := by
    apply Real.cos_pos_of_mem_Ioo
    constructor <;> nlinarith
  exact wing_partial x (by linarith) (by linarith) (by linarith) hc (by linarith) (by linarith)
    (by linarith) (by linarith) (by linarith) (by linarith)

/-- The rounded constants are not the exact ones: at a point with unit coordinates and no sweep the
printed vector is not the gradient. -/
theorem wing_exact_false : ¬ IsGrad wing (fun j => if j = 3 then 0 else 1)
    (wingGrad fun j => if j = 3 then 0 else 1) := by
  intro h
  have e := congrFun (h.unique (wing_trueGrad (fun j => if j = 3 then 0 else 1) (by simp) (by simp)
    (by simp) (by simp) (by simp) (by simp) (by simp) (by simp) (by simp))) 2
  simp [wingGrad, wingTrue, wingP] at e
  have k := wingK_pow
  have : wingK = 0.00542567469206069 / (0.036*0.6) := by
    rw [e]; field_simp
  rw [this] at k
  norm_num at k

end Verif.Demo
