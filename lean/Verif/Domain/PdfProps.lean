import Mathlib.MeasureTheory.Integral.Pi
import Mathlib.MeasureTheory.Measure.Lebesgue.EqHaar
import Mathlib.MeasureTheory.Function.JacobianOneDim
import Mathlib.Analysis.SpecialFunctions.Gaussian.GaussianIntegral
import Mathlib.MeasureTheory.Measure.Lebesgue.Integral
import Mathlib.Tactic.NormNum
import Mathlib.LinearAlgebra.Matrix.NonsingularInverse
import Verif.Domain.PdfModel

/-!
# Probability densities of random domains (C113)

The density of a random domain has integral one over the domain. This holds for uniform and normal domains, truncated or not. The
density of a lognormal domain has the integral `scaling / sqrt cov`.
-/

namespace Verif.Domain

open MeasureTheory

variable {m : ℕ}

/-! ## Specification -/

/-- `p` is a probability density on the set `S`. -/
structure IsDensityOn {α : Type*} [MeasureSpace α] (p : α → ℝ) (S : Set α) : Prop where
  nonneg : ∀ x ∈ S, 0 ≤ p x
  integrable : IntegrableOn p S
  integral : ∫ x in S, p x = 1

/-- The box of a uniform domain. -/
def boxOf (lb ub : Fin m → ℝ) : Set (Fin m → ℝ) := {x | ∀ i, lb i ≤ x i ∧ x i ≤ ub i}

/-- The points of a normal domain: everything, or the ellipsoid of the truncated domain. -/
def NormalDist.points (D : NormalDist m) : Set (Fin m → ℝ) :=
  match D.trunc with
  | none => Set.univ
  | some (_, clip) => {x | D.d2 x ≤ clip}

/-- The standard normal density of `m` variables. -/
noncomputable def stdPdf (m : ℕ) (z : Fin m → ℝ) : ℝ := (Real.sqrt (2 * Real.pi))⁻¹ ^ m * Real.exp (-0.5 * ∑ i, z i ^ 2)

/-- What the library functions are trusted with: the Cholesky factorization, the inverse of the factor, and the quantile of the
chi-squared distribution (the ball of squared radius `clip` has standard normal probability `1 - τ`). -/
structure NormalDist.Ok (D : NormalDist m) : Prop where
  chol : D.L * D.L.transpose = D.cov
  inv : D.L * D.Linv = 1
  quantile : ∀ τ clip, D.trunc = some (τ, clip) → τ < 1 ∧ 0 ≤ clip ∧ ∫ z in {z : Fin m → ℝ | ∑ i, z i ^ 2 ≤ clip}, stdPdf m z = 1 - τ

/-! ## Uniform domains -/

theorem volume_boxOf (lb ub : Fin m → ℝ) (h : ∀ i, lb i ≤ ub i) : (volume (boxOf lb ub)).toReal = ∏ i, (ub i - lb i) := by
  have : boxOf lb ub = Set.Icc lb ub := by
    ext x
    simp only [boxOf, Set.mem_ofPred_eq, Set.mem_Icc, Pi.le_def]
    exact ⟨fun h => ⟨fun i => (h i).1, fun i => (h i).2⟩, fun h i => ⟨h.1 i, h.2 i⟩⟩
  rw [this]
  exact Real.volume_Icc_pi_toReal h

theorem measurableSet_boxOf (lb ub : Fin m → ℝ) : MeasurableSet (boxOf lb ub) := by
  have : boxOf lb ub = Set.Icc lb ub := by
    ext x
    simp only [boxOf, Set.mem_ofPred_eq, Set.mem_Icc, Pi.le_def]
    exact ⟨fun h => ⟨fun i => (h i).1, fun i => (h i).2⟩, fun h i => ⟨h.1 i, h.2 i⟩⟩
  rw [this]
  exact measurableSet_Icc

/-- C113: the density of a uniform domain has integral one over the box, whatever the tolerance of the membership test. -/
theorem uniform_density (lb ub : Fin m → ℝ) (h : ∀ i, lb i < ub i) {tol : ℝ} (ht : 0 ≤ tol) :
    IsDensityOn (uniformPdf lb ub tol) (boxOf lb ub) := by
  have hp : 0 < ∏ i, (ub i - lb i) := Finset.prod_pos fun i _ => sub_pos.2 (h i)
  have e : ∀ x ∈ boxOf lb ub, uniformPdf lb ub tol x = (∏ i, (ub i - lb i))⁻¹ := by
    intro x hx
    unfold uniformPdf boxIndicator
    rw [if_pos fun i => ⟨by linarith [(hx i).1], by linarith [(hx i).2]⟩, one_div]
  have hfin : volume (boxOf lb ub) ≠ ⊤ := by
    intro ht'
    have := volume_boxOf lb ub fun i => (h i).le
    rw [ht'] at this
    simp only [ENNReal.toReal_top] at this
    exact hp.ne this
  refine ⟨fun x hx => ?_, ?_, ?_⟩
  · rw [e x hx]; positivity
  · rw [integrableOn_congr_fun e (measurableSet_boxOf lb ub)]
    exact integrableOn_const hfin
  · rw [setIntegral_congr_fun (measurableSet_boxOf lb ub) e, setIntegral_const, Measure.real, volume_boxOf lb ub fun i => (h i).le,
      smul_eq_mul, mul_inv_cancel₀ hp.ne']

/-- C113: over the whole space the integral is larger: the density is also positive where only the tolerance lets points in. -/
theorem uniform_total (lb ub : Fin m → ℝ) (h : ∀ i, lb i < ub i) {tol : ℝ} (ht : 0 ≤ tol) :
    ∫ x, uniformPdf lb ub tol x = ∏ i, ((ub i - lb i + 2 * tol) / (ub i - lb i)) := by
  have hind : uniformPdf lb ub tol = (boxOf (fun i => lb i - tol) (fun i => ub i + tol)).indicator (fun _ => (∏ i, (ub i - lb i))⁻¹) := by
    funext x
    unfold uniformPdf boxIndicator
    by_cases hx : ∀ i, lb i - tol ≤ x i ∧ x i ≤ ub i + tol
    · rw [if_pos hx, Set.indicator_of_mem (show x ∈ boxOf _ _ from hx), one_div]
    · rw [if_neg hx, Set.indicator_of_notMem (show x ∉ boxOf _ _ from hx), zero_div]
  rw [hind, integral_indicator (measurableSet_boxOf _ _), setIntegral_const, Measure.real,
    volume_boxOf _ _ fun i => by linarith [h i], smul_eq_mul, Finset.prod_div_distrib, div_eq_mul_inv]
  congr 1
  exact Finset.prod_congr rfl fun i _ => by ring

/-! ## Normal domains -/

theorem stdPdf_prod (z : Fin m → ℝ) : stdPdf m z = ∏ i, ((Real.sqrt (2 * Real.pi))⁻¹ * Real.exp (-0.5 * z i ^ 2)) := by
  unfold stdPdf
  rw [Finset.prod_mul_distrib, Finset.prod_const, Finset.card_univ, Fintype.card_fin, ← Real.exp_sum, Finset.mul_sum]

theorem stdPdf_integral (m : ℕ) : ∫ z, stdPdf m z = 1 := by
  simp_rw [stdPdf_prod]
  rw [integral_fintype_prod_volume_eq_prod (fun (_ : Fin m) (t : ℝ) => (Real.sqrt (2 * Real.pi))⁻¹ * Real.exp (-0.5 * t ^ 2))]
  apply Finset.prod_eq_one
  intro i _
  rw [integral_const_mul, integral_gaussian, show Real.pi / 0.5 = 2 * Real.pi by ring]
  exact inv_mul_cancel₀ (by positivity)

theorem stdPdf_integrable (m : ℕ) : Integrable (stdPdf m) := by
  by_contra h
  have := stdPdf_integral m
  rw [integral_undef h] at this
  exact zero_ne_one this

theorem sqrt_two_pi_pow (n : ℕ) : Real.sqrt ((2 * Real.pi) ^ n) = Real.sqrt (2 * Real.pi) ^ n := by
  induction n with
  | zero => simp
  | succ n ih => rw [pow_succ, Real.sqrt_mul (by positivity), pow_succ, ih]

/-- The density is the standard density of the transformed point, divided by the determinant of the factor. -/
theorem NormalDist.Ok.base_eq {D : NormalDist m} (h : D.Ok) (x : Fin m → ℝ) :
    D.base x = |D.L.det|⁻¹ * stdPdf m (D.Linv.mulVec (x - D.mean)) := by
  have hdet : |D.cov.det| = |D.L.det| ^ 2 := by
    rw [← h.chol, Matrix.det_mul, Matrix.det_transpose, abs_mul, sq]
  unfold NormalDist.base stdPdf NormalDist.d2
  rw [hdet, Real.sqrt_mul (by positivity), Real.sqrt_sq (abs_nonneg _)]
  have e := sqrt_two_pi_pow m
  rw [e, inv_pow, div_eq_mul_inv, mul_inv]
  ring

theorem NormalDist.Ok.det_ne {D : NormalDist m} (h : D.Ok) : D.L.det ≠ 0 := by
  intro h0
  have := congrArg Matrix.det h.inv
  rw [Matrix.det_mul, h0, zero_mul, Matrix.det_one] at this
  exact zero_ne_one this

theorem NormalDist.Ok.det_inv {D : NormalDist m} (h : D.Ok) : D.Linv.det = D.L.det⁻¹ := by
  have := congrArg Matrix.det h.inv
  rw [Matrix.det_mul, Matrix.det_one] at this
  exact eq_inv_of_mul_eq_one_right this

theorem NormalDist.Ok.inv' {D : NormalDist m} (h : D.Ok) : D.Linv * D.L = 1 := mul_eq_one_comm.1 h.inv

/-- Change of variables: the law of `Linv (x - mean)` for Lebesgue measure. -/
theorem NormalDist.Ok.map_volume {D : NormalDist m} (h : D.Ok) :
    Measure.map (fun x => D.Linv.mulVec (x - D.mean)) volume = ENNReal.ofReal |D.L.det| • (volume : Measure (Fin m → ℝ)) := by
  have hd : D.Linv.det ≠ 0 := by rw [h.det_inv]; exact inv_ne_zero h.det_ne
  have h1 : (fun x => D.Linv.mulVec (x - D.mean)) = (Matrix.toLin' D.Linv) ∘ (fun x => x - D.mean) := by
    funext x; simp
  have hc : Continuous (Matrix.toLin' D.Linv) := LinearMap.continuous_of_finiteDimensional _
  rw [h1, ← Measure.map_map hc.measurable (show Measurable (fun x : Fin m → ℝ => x - D.mean) by fun_prop), map_sub_right_eq_self volume D.mean,
    Real.map_matrix_volume_pi_eq_smul_volume_pi hd]
  rw [h.det_inv, inv_inv]

theorem NormalDist.Ok.embedding {D : NormalDist m} (h : D.Ok) : MeasurableEmbedding (fun x => D.Linv.mulVec (x - D.mean)) := by
  let e : (Fin m → ℝ) ≃ᵐ (Fin m → ℝ) :=
    { toFun := fun x => D.Linv.mulVec (x - D.mean)
      invFun := fun z => D.L.mulVec z + D.mean
      left_inv := fun x => by
        show D.L.mulVec (D.Linv.mulVec (x - D.mean)) + D.mean = x
        rw [Matrix.mulVec_mulVec, h.inv, Matrix.one_mulVec, sub_add_cancel]
      right_inv := fun z => by
        show D.Linv.mulVec (D.L.mulVec z + D.mean - D.mean) = z
        rw [add_sub_cancel_right, Matrix.mulVec_mulVec, h.inv', Matrix.one_mulVec]
      measurable_toFun := by
        have hc : Continuous (fun x => D.Linv.mulVec (x - D.mean)) := by fun_prop
        exact hc.measurable
      measurable_invFun := by
        have hc : Continuous (fun z => D.L.mulVec z + D.mean) := by fun_prop
        exact hc.measurable }
  exact e.measurableEmbedding

/-- The integral of the density over the points whose transform lies in `S` is the standard normal probability of `S`. -/
theorem NormalDist.Ok.integral_base {D : NormalDist m} (h : D.Ok) (S : Set (Fin m → ℝ)) :
    ∫ x in (fun x => D.Linv.mulVec (x - D.mean)) ⁻¹' S, D.base x = ∫ z in S, stdPdf m z := by
  have e : ∀ x, D.base x = |D.L.det|⁻¹ * stdPdf m (D.Linv.mulVec (x - D.mean)) := h.base_eq
  simp_rw [e]
  rw [integral_const_mul]
  have hm := h.embedding.setIntegral_map (μ := volume) (stdPdf m) S
  rw [h.map_volume, Measure.restrict_smul, integral_smul_measure, ENNReal.toReal_ofReal (abs_nonneg _), smul_eq_mul] at hm
  rw [← hm, inv_mul_cancel_left₀ (abs_ne_zero.2 h.det_ne)]

theorem NormalDist.Ok.integrable_base {D : NormalDist m} (h : D.Ok) : Integrable D.base := by
  have e : D.base = fun x => |D.L.det|⁻¹ * stdPdf m (D.Linv.mulVec (x - D.mean)) := funext h.base_eq
  rw [e]
  apply Integrable.const_mul
  have := (h.embedding.integrable_map_iff (μ := volume) (g := stdPdf m)).1 (by
    rw [h.map_volume]
    exact (stdPdf_integrable m).smul_measure ENNReal.ofReal_ne_top)
  exact this

theorem NormalDist.base_nonneg (D : NormalDist m) (x : Fin m → ℝ) : 0 ≤ D.base x := by
  unfold NormalDist.base; positivity

/-- C113: the density of a normal domain has integral one over the domain, with and without truncation. -/
theorem normal_density {D : NormalDist m} (h : D.Ok) {tol : ℝ} (ht : 0 ≤ tol) : IsDensityOn (D.pdf tol) D.points := by
  unfold NormalDist.pdf NormalDist.points
  rcases htr : D.trunc with _ | ⟨τ, clip⟩
  · refine ⟨fun x _ => D.base_nonneg x, h.integrable_base.integrableOn, ?_⟩
    have := h.integral_base Set.univ
    rw [Set.preimage_univ, setIntegral_univ, setIntegral_univ, stdPdf_integral] at this
    show ∫ x in Set.univ, D.base x = 1
    rw [setIntegral_univ]; exact this
  · obtain ⟨hτ, hcl, hq⟩ := h.quantile τ clip htr
    have hS : {x | D.d2 x ≤ clip} = (fun x => D.Linv.mulVec (x - D.mean)) ⁻¹' {z : Fin m → ℝ | ∑ i, z i ^ 2 ≤ clip} := rfl
    have hmeas : MeasurableSet {x | D.d2 x ≤ clip} := by
      have hc : Continuous D.d2 := by unfold NormalDist.d2; fun_prop
      exact measurableSet_le hc.measurable measurable_const
    have hone : ∀ x ∈ {x | D.d2 x ≤ clip}, D.base x / (1 - τ) * D.indicator clip tol x = D.base x / (1 - τ) := by
      intro x hx
      unfold NormalDist.indicator
      rw [if_pos, mul_one]
      have := Real.sqrt_le_sqrt (show D.d2 x ≤ clip from hx)
      linarith
    have hpos : 0 < 1 - τ := by linarith
    refine ⟨fun x hx => ?_, ?_, ?_⟩
    · show 0 ≤ D.base x / (1 - τ) * D.indicator clip tol x
      rw [hone x hx]
      exact div_nonneg (D.base_nonneg x) hpos.le
    · show IntegrableOn (fun x => D.base x / (1 - τ) * D.indicator clip tol x) _
      rw [integrableOn_congr_fun hone hmeas]
      exact (h.integrable_base.div_const _).integrableOn
    · show ∫ x in {x | D.d2 x ≤ clip}, D.base x / (1 - τ) * D.indicator clip tol x = 1
      rw [setIntegral_congr_fun hmeas hone, integral_div, hS, h.integral_base, hq, div_self hpos.ne']

/-- C113: without truncation samples follow the density: the standard normal law of the draws is carried to the law with density
`pdf`. -/
theorem normal_sample_law {D : NormalDist m} (h : D.Ok) (htr : D.trunc = none) (tol : ℝ) :
    Measure.map D.draw (volume.withDensity fun z => ENNReal.ofReal (stdPdf m z)) =
      volume.withDensity fun x => ENNReal.ofReal (D.pdf tol x) := by
  have hpdf : D.pdf tol = D.base := by funext x; unfold NormalDist.pdf; rw [htr]
  rw [hpdf]
  have hdraw : Continuous D.draw := by unfold NormalDist.draw; fun_prop
  have hbase : Continuous D.base := by unfold NormalDist.base NormalDist.d2; fun_prop
  have hstd : Continuous (stdPdf m) := by unfold stdPdf; fun_prop
  ext A hA
  rw [Measure.map_apply hdraw.measurable hA, withDensity_apply _ (hdraw.measurable hA), withDensity_apply _ hA]
  have hpre : A = (fun x => D.Linv.mulVec (x - D.mean)) ⁻¹' (D.draw ⁻¹' A) := by
    ext x
    simp only [Set.mem_preimage, NormalDist.draw]
    rw [Matrix.mulVec_mulVec, h.inv, Matrix.one_mulVec, add_sub_cancel]
  conv_rhs => rw [hpre]
  rw [← ofReal_integral_eq_lintegral_ofReal (stdPdf_integrable m).integrableOn (ae_of_all _ fun z => by unfold stdPdf; positivity),
    ← ofReal_integral_eq_lintegral_ofReal h.integrable_base.integrableOn (ae_of_all _ fun z => D.base_nonneg z), h.integral_base]

/-! ## Lognormal domains -/

/-- C113: the density of a lognormal domain has the integral `scaling / sqrt cov` over the points above the offset. -/
theorem lognormal_integral (mean offset : ℝ) {cov scaling : ℝ} (hc : 0 < cov) (hs : 0 < scaling) :
    ∫ x in Set.Ioi offset, logNormalPdf mean cov offset scaling x = scaling / Real.sqrt cov := by
  have himg : (fun y => offset + scaling * Real.exp y) '' Set.univ = Set.Ioi offset := by
    ext x
    simp only [Set.image_univ, Set.mem_range, Set.mem_Ioi]
    constructor
    · rintro ⟨y, rfl⟩
      have := mul_pos hs (Real.exp_pos y)
      linarith
    · intro hx
      refine ⟨Real.log ((x - offset) / scaling), ?_⟩
      rw [Real.exp_log (div_pos (by linarith) hs)]
      field_simp
      ring
  have hd : ∀ y ∈ Set.univ, HasDerivWithinAt (fun y => offset + scaling * Real.exp y) (scaling * Real.exp y) Set.univ y := by
    intro y _
    exact (((Real.hasDerivAt_exp y).const_mul scaling).const_add offset).hasDerivWithinAt
  have hinj : Set.InjOn (fun y => offset + scaling * Real.exp y) Set.univ := by
    intro a _ b _ hab
    have h1 : scaling * Real.exp a = scaling * Real.exp b := by
      have : offset + scaling * Real.exp a = offset + scaling * Real.exp b := hab
      linarith
    exact Real.exp_injective (mul_left_cancel₀ hs.ne' h1)
  have key := integral_image_eq_integral_abs_deriv_smul MeasurableSet.univ hd hinj (logNormalPdf mean cov offset scaling)
  rw [himg, setIntegral_univ] at key
  rw [key]
  have hpt : ∀ y, |scaling * Real.exp y| • logNormalPdf mean cov offset scaling (offset + scaling * Real.exp y) =
      scaling / (cov * Real.sqrt (2 * Real.pi)) * Real.exp (-(1 / (2 * cov)) * (y - mean) ^ 2) := by
    intro y
    unfold logNormalPdf
    rw [add_sub_cancel_left, mul_div_cancel_left₀ _ hs.ne', Real.log_exp, abs_of_pos (mul_pos hs (Real.exp_pos y)), smul_eq_mul]
    have he := (Real.exp_pos y).ne'
    have hq : Real.sqrt (2 * Real.pi) ≠ 0 := by positivity
    rw [show -(y - mean) ^ 2 / (2 * cov) = -(1 / (2 * cov)) * (y - mean) ^ 2 by ring]
    field_simp
  simp_rw [hpt]
  rw [integral_const_mul, integral_sub_right_eq_self (fun y => Real.exp (-(1 / (2 * cov)) * y ^ 2)) mean, integral_gaussian]
  have e : Real.pi / (1 / (2 * cov)) = (2 * Real.pi) * cov := by field_simp
  rw [e, Real.sqrt_mul (show 0 ≤ 2 * Real.pi by positivity) cov]
  have h1 : Real.sqrt (2 * Real.pi) ≠ 0 := by positivity
  have h2 : Real.sqrt cov ≠ 0 := by positivity
  have h3 : Real.sqrt cov * Real.sqrt cov = cov := Real.mul_self_sqrt hc.le
  rw [div_mul_eq_mul_div, div_eq_div_iff (mul_ne_zero hc.ne' h1) h2]
  linear_combination scaling * Real.sqrt (2 * Real.pi) * h3

/-- C113 for lognormal domains: the density has integral one exactly if the scaling is the standard deviation. -/
theorem lognormal_density_iff (mean offset : ℝ) {cov scaling : ℝ} (hc : 0 < cov) (hs : 0 < scaling) :
    ∫ x in Set.Ioi offset, logNormalPdf mean cov offset scaling x = 1 ↔ scaling = Real.sqrt cov := by
  rw [lognormal_integral mean offset hc hs]
  exact div_eq_one_iff_eq (by positivity)

/-- C113 fails for lognormal domains with the default offset and scaling, covariance `1/4`: the integral of the density is `2`. -/
theorem lognormal_density_false : ∫ x in Set.Ioi (0 : ℝ), logNormalPdf 0 (1 / 4) 0 1 x = 2 := by
  rw [lognormal_integral 0 0 (by norm_num) one_pos, show (1 / 4 : ℝ) = (1 / 2) ^ 2 by norm_num, Real.sqrt_sq (by norm_num)]
  norm_num

/-- The hypotheses of `normal_density` can be met: any mean and nonsingular factor, any truncation radius of the ball. -/
example : ∃ D : NormalDist 2, D.Ok ∧ D.trunc ≠ none ∧ D.cov = !![4, 0; 0, 1] := by
  refine ⟨⟨![1, 2], !![4, 0; 0, 1], !![2, 0; 0, 1], !![1 / 2, 0; 0, 1],
    some (1 - ∫ z in {z : Fin 2 → ℝ | ∑ i, z i ^ 2 ≤ 1}, stdPdf 2 z, 1)⟩, ⟨?_, ?_, ?_⟩, by simp, rfl⟩
  · ext i j; fin_cases i <;> fin_cases j <;> norm_num [Matrix.mul_apply, Fin.sum_univ_two]
  · ext i j; fin_cases i <;> fin_cases j <;> norm_num [Matrix.mul_apply, Fin.sum_univ_two]
  · rintro τ clip h
    obtain ⟨rfl, rfl⟩ := Prod.mk.inj (Option.some.inj h)
    refine ⟨?_, zero_le_one, by ring⟩
    have hpos : 0 < ∫ z in {z : Fin 2 → ℝ | ∑ i, z i ^ 2 ≤ 1}, stdPdf 2 z := by
      have hc : Continuous (fun z : Fin 2 → ℝ => ∑ i, z i ^ 2) := by fun_prop
      have hs : Continuous (stdPdf 2) := by unfold stdPdf; fun_prop
      rw [setIntegral_pos_iff_support_of_nonneg_ae (ae_of_all _ fun z => by unfold stdPdf; positivity)
        (stdPdf_integrable 2).integrableOn]
      have hsupp : Function.support (stdPdf 2) = Set.univ := by
        ext z; simp only [Function.mem_support, Set.mem_univ, iff_true]; unfold stdPdf; positivity
      rw [hsupp, Set.univ_inter]
      have hopen : IsOpen {z : Fin 2 → ℝ | ∑ i, z i ^ 2 < 1} := isOpen_lt hc continuous_const
      refine (hopen.measure_pos volume ⟨0, by simp⟩).trans_le (measure_mono fun z hz => ?_)
      exact le_of_lt (show ∑ i, z i ^ 2 < 1 from hz)
    linarith

end Verif.Domain
