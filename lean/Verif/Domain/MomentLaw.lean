import Verif.Domain.MomentProps
import Verif.Misc.ActiveLimit
import Mathlib.Analysis.SpecialFunctions.Integrals.Basic
import Mathlib.Probability.Independence.Integration

/-!
# Averages over samples of random domains (C183): normal, lognormal and uniform
-/

namespace Verif.Domain

open MeasureTheory ProbabilityTheory Filter Topology

variable {m : ℕ}

/-! ## Averages over normal samples -/

section
variable {Ω : Type*} [MeasurableSpace Ω] {μ : Measure Ω} {X : ℕ → Ω → Lip.Pt m}

/-- **C183**: almost surely the average of the samples tends to the mean of the domain, truncated or not. -/
theorem normal_average [NeZero m] {D : NormalDist m} (h : D.Ok) (hX : Misc.Iid μ X D.law) (i : Fin m) :
    ∀ᵐ ω ∂μ, Tendsto (fun N : ℕ => (∑ n ∈ Finset.range N, X n ω i) / N) atTop (𝓝 (D.mean i)) := by
  have hm : Integrable (fun x : Fin m → ℝ => x i) D.law ∧ ∫ x, x i ∂D.law = D.mean i := by
    cases htr : D.trunc with
    | none => exact (normal_moments h htr).1 i
    | some p =>
      obtain ⟨κ, -, -, -, h1, -⟩ := normal_truncated_moments (τ := p.1) (clip := p.2) h htr
      exact h1 i
  have := Misc.mean_limit hX (measurable_pi_apply i) hm.1
  rwa [hm.2] at this

/-- **C183**: without truncation the average products of deviations tend to the covariance. -/
theorem normal_average_cov {D : NormalDist m} (h : D.Ok) (htr : D.trunc = none) (hX : Misc.Iid μ X D.law) (i j : Fin m) :
    ∀ᵐ ω ∂μ, Tendsto (fun N : ℕ => (∑ n ∈ Finset.range N, (X n ω i - D.mean i) * (X n ω j - D.mean j)) / N) atTop (𝓝 (D.cov i j)) := by
  have hm := (normal_moments h htr).2 i j
  have := Misc.mean_limit hX (φ := fun x => (x i - D.mean i) * (x j - D.mean j)) (by fun_prop) hm.1
  rwa [hm.2] at this

end

/-- The law of the samples is a probability. -/
theorem normal_law_prob {D : NormalDist m} (h : D.Ok) : IsProbabilityMeasure D.law := by
  unfold NormalDist.law
  cases htr : D.trunc with
  | none => exact Measure.isProbabilityMeasure_map D.draw_continuous.measurable.aemeasurable
  | some p =>
    haveI : IsProbabilityMeasure ((stdLaw m)[|clipBall m p.2]) := cond_isProbabilityMeasure (clipBall_pos (τ := p.1) h htr)
    exact Measure.isProbabilityMeasure_map D.draw_continuous.measurable.aemeasurable

/-! ## Lognormal domains -/

/-- The law of `LogNormalDomain._sample` without truncation, lognormal.py 63-65. -/
noncomputable def logNormalLaw (mean : ℝ) (cov : NNReal) (offset scaling : ℝ) : Measure ℝ := (gaussianReal mean cov).map (logNormalDraw offset scaling)

theorem logNormalDraw_measurable (offset scaling : ℝ) : Measurable (logNormalDraw offset scaling) := by
  unfold logNormalDraw
  fun_prop

/-- **C183**: the mean of lognormal samples. -/
theorem lognormal_mean (mean : ℝ) (cov : NNReal) (offset scaling : ℝ) :
    ∫ x, x ∂logNormalLaw mean cov offset scaling = offset + scaling * Real.exp (mean + cov / 2) := by
  unfold logNormalLaw
  rw [integral_map (logNormalDraw_measurable _ _).aemeasurable (by fun_prop)]
  unfold logNormalDraw
  have hi : Integrable (fun y => Real.exp y) (gaussianReal mean cov) := by simpa using integrable_exp_mul_gaussianReal (μ := mean) (v := cov) 1
  rw [integral_add (integrable_const _) (hi.const_mul _), integral_const_mul]
  have := mgf_gaussianReal (p := gaussianReal mean cov) (X := id) (μ := mean) (v := cov) (by simp) 1
  unfold mgf at this
  simp only [id, one_mul, mul_one, one_pow] at this
  rw [this]
  simp

/-- **C183**: lognormal samples have `sqrt(cov)/scaling` times the density `pdf`, so `pdf` is the density of the samples if the scaling is the standard deviation. -/
theorem lognormal_law (mean offset : ℝ) {cov : NNReal} {scaling : ℝ} (hc : cov ≠ 0) (hs : 0 < scaling) {A : Set ℝ} (hA : MeasurableSet A) :
    logNormalLaw mean cov offset scaling A = ENNReal.ofReal (∫ x in A ∩ Set.Ioi offset, Real.sqrt cov / scaling * logNormalPdf mean cov offset scaling x) := by
  have hc' : (0 : ℝ) < cov := by exact_mod_cast pos_iff_ne_zero.2 hc
  unfold logNormalLaw
  rw [Measure.map_apply (logNormalDraw_measurable _ _) hA, gaussianReal_apply_eq_integral _ hc]
  have himg : logNormalDraw offset scaling '' (logNormalDraw offset scaling ⁻¹' A) = A ∩ Set.Ioi offset := by
    rw [Set.image_preimage_eq_inter_range]
    congr 1
    ext x
    simp only [logNormalDraw, Set.mem_range, Set.mem_Ioi]
    constructor
    · rintro ⟨y, rfl⟩
      have := mul_pos hs (Real.exp_pos y)
      linarith
    · intro hx
      refine ⟨Real.log ((x - offset) / scaling), ?_⟩
      rw [Real.exp_log (div_pos (by linarith) hs)]
      field_simp
      ring
  have hd : ∀ y ∈ logNormalDraw offset scaling ⁻¹' A, HasDerivWithinAt (logNormalDraw offset scaling) (scaling * Real.exp y) (logNormalDraw offset scaling ⁻¹' A) y := by
    intro y _
    exact (((Real.hasDerivAt_exp y).const_mul scaling).const_add offset).hasDerivWithinAt
  have hinj : Set.InjOn (logNormalDraw offset scaling) (logNormalDraw offset scaling ⁻¹' A) := by
    intro a _ b _ hab
    have h1 : scaling * Real.exp a = scaling * Real.exp b := by
      have : offset + scaling * Real.exp a = offset + scaling * Real.exp b := hab
      linarith
    exact Real.exp_injective (mul_left_cancel₀ hs.ne' h1)
  have key := integral_image_eq_integral_abs_deriv_smul (logNormalDraw_measurable offset scaling hA) hd hinj (fun x => Real.sqrt cov / scaling * logNormalPdf mean cov offset scaling x)
  rw [himg] at key
  rw [key]
  congr 1
  refine integral_congr_ae (ae_of_all _ fun y => ?_)
  simp only [gaussianPDFReal, logNormalPdf, logNormalDraw]
  rw [add_sub_cancel_left, mul_div_cancel_left₀ _ hs.ne', Real.log_exp, abs_of_pos (mul_pos hs (Real.exp_pos y)), smul_eq_mul, Real.sqrt_mul (by positivity)]
  have he := (Real.exp_pos y).ne'
  have hq : Real.sqrt (2 * Real.pi) ≠ 0 := by positivity
  have h2 : Real.sqrt (cov : ℝ) ≠ 0 := by positivity
  have h3 : Real.sqrt (cov : ℝ) ^ 2 = cov := Real.sq_sqrt hc'.le
  field_simp
  rw [h3]

/-! ## Uniform domains -/

/-- The uniform law of a box is the product of the uniform laws of the intervals. -/
theorem condBox_pi {lo hi : Fin m → ℝ} (h : ∀ i, lo i < hi i) :
    ProbabilityTheory.cond (volume : Measure (Fin m → ℝ)) (Set.Icc lo hi) = Measure.pi fun i => ProbabilityTheory.cond (volume : Measure ℝ) (Set.Icc (lo i) (hi i)) := by
  haveI : ∀ i, IsProbabilityMeasure (ProbabilityTheory.cond (volume : Measure ℝ) (Set.Icc (lo i) (hi i))) := fun i =>
    cond_isProbabilityMeasure_of_finite (by simpa using h i) (by simp)
  symm
  refine Measure.pi_eq fun s hs => ?_
  rw [cond_apply measurableSet_Icc, Real.volume_Icc_pi, ← Set.pi_univ_Icc, ← Set.pi_inter_distrib, volume_pi_pi]
  simp_rw [cond_apply measurableSet_Icc, Real.volume_Icc]
  rw [Finset.prod_mul_distrib, ENNReal.prod_inv_distrib]
  intro i _ j _ _
  exact Or.inr (by simp)

theorem unif_integral {a b : ℝ} (h : a < b) (f : ℝ → ℝ) : ∫ x, f x ∂ProbabilityTheory.cond (volume : Measure ℝ) (Set.Icc a b) = (b - a)⁻¹ * ∫ x in a..b, f x := by
  unfold ProbabilityTheory.cond
  rw [integral_smul_measure, Real.volume_Icc, ENNReal.toReal_inv, ENNReal.toReal_ofReal (by linarith), smul_eq_mul, integral_Icc_eq_integral_Ioc, intervalIntegral.integral_of_le h.le]

/-- **C183**: samples of a box have the center as mean, are uncorrelated, and have the variance of the uniform distribution. -/
theorem box_moments {lo hi : Fin m → ℝ} (h : ∀ i, lo i < hi i) :
    (∀ i, ∫ x, x i ∂ProbabilityTheory.cond (volume : Measure (Fin m → ℝ)) (Set.Icc lo hi) = (lo i + hi i) / 2) ∧
    ∀ i j, ∫ x, (x i - (lo i + hi i) / 2) * (x j - (lo j + hi j) / 2) ∂ProbabilityTheory.cond (volume : Measure (Fin m → ℝ)) (Set.Icc lo hi) =
      if i = j then (hi i - lo i) ^ 2 / 12 else 0 := by
  haveI : ∀ i, IsProbabilityMeasure (ProbabilityTheory.cond (volume : Measure ℝ) (Set.Icc (lo i) (hi i))) := fun i =>
    cond_isProbabilityMeasure_of_finite (by simpa using h i) (by simp)
  rw [condBox_pi h]
  have hne : ∀ i, hi i - lo i ≠ 0 := fun i => (sub_pos.2 (h i)).ne'
  have hmean : ∀ i, ∫ x, (x - (lo i + hi i) / 2) ∂ProbabilityTheory.cond (volume : Measure ℝ) (Set.Icc (lo i) (hi i)) = 0 := fun i => by
    rw [unif_integral (h i), intervalIntegral.integral_comp_sub_right (fun x => x), integral_id]
    ring
  refine ⟨fun i => ?_, fun i j => ?_⟩
  · rw [integral_comp_eval (μ := fun i => ProbabilityTheory.cond (volume : Measure ℝ) (Set.Icc (lo i) (hi i))) (i := i) (f := fun t : ℝ => t) (by fun_prop), unif_integral (h i), integral_id]
    have := hne i
    field_simp
    ring
  · split_ifs with hij
    · subst hij
      rw [integral_comp_eval (μ := fun i => ProbabilityTheory.cond (volume : Measure ℝ) (Set.Icc (lo i) (hi i))) (i := i)
        (f := fun t : ℝ => (t - (lo i + hi i) / 2) * (t - (lo i + hi i) / 2)) (by fun_prop), unif_integral (h i),
        intervalIntegral.integral_comp_sub_right (fun x => x * x)]
      have e : (fun x : ℝ => x * x) = fun x => x ^ 2 := by funext x; ring
      rw [e, integral_pow]
      have := hne i
      field_simp
      norm_num
      ring
    · have hind := (iIndepFun_pi (μ := fun i => ProbabilityTheory.cond (volume : Measure ℝ) (Set.Icc (lo i) (hi i))) (X := fun i (x : ℝ) => x - (lo i + hi i) / 2) (fun i => by fun_prop)).indepFun hij
      rw [hind.integral_fun_mul_eq_mul_integral (Measurable.aestronglyMeasurable (by fun_prop)) (Measurable.aestronglyMeasurable (by fun_prop)),
        integral_comp_eval (μ := fun i => ProbabilityTheory.cond (volume : Measure ℝ) (Set.Icc (lo i) (hi i))) (i := i) (f := fun t : ℝ => t - (lo i + hi i) / 2) (by fun_prop), hmean, zero_mul]

/-- The hypotheses can be met: a normal domain with its independent samples. -/
example : ∃ D : NormalDist 2, D.Ok ∧ D.trunc = none ∧ ∃ (Ω : Type) (_ : MeasurableSpace Ω) (μ : Measure Ω) (X : ℕ → Ω → Lip.Pt 2), Misc.Iid μ X D.law := by
  have hD : NormalDist.Ok (m := 2) ⟨![1, 2], !![4, 0; 0, 1], !![2, 0; 0, 1], !![1 / 2, 0; 0, 1], none⟩ := by
    refine ⟨?_, ?_, fun τ clip h => by cases h⟩
    · ext i j; fin_cases i <;> fin_cases j <;> norm_num [Matrix.mul_apply, Fin.sum_univ_two]
    · ext i j; fin_cases i <;> fin_cases j <;> norm_num [Matrix.mul_apply, Fin.sum_univ_two]
  haveI := normal_law_prob hD
  exact ⟨_, hD, rfl, _, _, _, _, Misc.exists_iid _⟩

end Verif.Domain
