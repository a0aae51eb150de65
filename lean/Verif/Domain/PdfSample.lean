import Mathlib.MeasureTheory.Measure.GiryMonad
import Mathlib.MeasureTheory.Measure.Dirac
import Mathlib.Analysis.SpecificLimits.Basic
import Verif.Domain.PdfProps

/-!
# The law of samples of truncated normal domains (C113)

Source: `/repo/psdr/domains/normal.py` 93-108: rows outside the ball are drawn again until there is none.
-/

namespace Verif.Domain

open MeasureTheory

variable {m : ℕ}

/-! ## Model -/

open Classical in
/-- The law of a row after `k` passes of the loop, normal.py 99-104, if the first draw and every redraw has the law `μ`: a row in `S` stays,
any other row is replaced by an independent new draw. -/
noncomputable def redrawLaw {α : Type*} [MeasurableSpace α] (μ : Measure α) (S : Set α) : ℕ → Measure α
  | 0 => μ
  | k + 1 => (redrawLaw μ S k).bind (fun x => if x ∈ S then Measure.dirac x else μ)

/-! ## Theorems -/

theorem redraw_apply {α : Type*} [MeasurableSpace α] (μ : Measure α) {S : Set α} (hS : MeasurableSet S) (k : ℕ) {A : Set α}
    (hA : MeasurableSet A) : redrawLaw μ S (k + 1) A = redrawLaw μ S k (A ∩ S) + redrawLaw μ S k Sᶜ * μ A := by
  classical
  have hmeas : Measurable (fun x => if x ∈ S then Measure.dirac x else μ) :=
    Measurable.ite hS Measure.measurable_dirac measurable_const
  show (redrawLaw μ S k).bind _ A = _
  rw [Measure.bind_apply hA hmeas.aemeasurable, ← lintegral_add_compl _ hS]
  congr 1
  · have : ∀ x ∈ S, (if x ∈ S then Measure.dirac x else μ) A = A.indicator 1 x := by
      intro x hx
      rw [if_pos hx, Measure.dirac_apply' _ hA]
    rw [setLIntegral_congr_fun hS this, lintegral_indicator_one hA, Measure.restrict_apply hA]
  · have : ∀ x ∈ Sᶜ, (if x ∈ S then Measure.dirac x else μ) A = μ A := by
      intro x hx
      rw [if_neg hx]
    rw [setLIntegral_congr_fun hS.compl this, setLIntegral_const, mul_comm]

/-- After `k` passes a row is still outside with probability `(μ Sᶜ)^(k+1)`. -/
theorem redraw_compl {α : Type*} [MeasurableSpace α] (μ : Measure α) {S : Set α} (hS : MeasurableSet S) (k : ℕ) :
    redrawLaw μ S k Sᶜ = μ Sᶜ ^ (k + 1) := by
  induction k with
  | zero => rw [zero_add, pow_one]; rfl
  | succ k ih =>
    rw [redraw_apply μ hS k hS.compl, Set.compl_inter_self, measure_empty, zero_add, ih, pow_succ _ (k + 1)]

/-- C113: whatever the number of passes, the accepted rows have the law of a draw restricted to the ball: for every set the probability of
being accepted and in it is in the same proportion. -/
theorem redraw_restrict {α : Type*} [MeasurableSpace α] (μ : Measure α) {S : Set α} (hS : MeasurableSet S) (k : ℕ) {A : Set α}
    (hA : MeasurableSet A) : redrawLaw μ S k (A ∩ S) = (∑ n ∈ Finset.range (k + 1), μ Sᶜ ^ n) * μ (A ∩ S) := by
  induction k with
  | zero => simp [redrawLaw]
  | succ k ih =>
    rw [redraw_apply μ hS k (hA.inter hS), Set.inter_assoc, Set.inter_self, ih, redraw_compl μ hS, Finset.sum_range_succ _ (k + 1), add_mul]

/-- C113: rows are accepted in the end: the probability of being outside tends to zero (if the ball has positive probability). -/
theorem redraw_accepts {α : Type*} [MeasurableSpace α] (μ : Measure α) [IsProbabilityMeasure μ] {S : Set α} (hS : MeasurableSet S)
    (hpos : μ S ≠ 0) : Filter.Tendsto (fun k => redrawLaw μ S k Sᶜ) Filter.atTop (nhds 0) := by
  have hlt : μ Sᶜ < 1 := by
    rw [prob_compl_eq_one_sub hS]
    exact ENNReal.sub_lt_self ENNReal.one_ne_top one_ne_zero hpos
  simp_rw [redraw_compl μ hS]
  exact (ENNReal.tendsto_pow_atTop_nhds_zero_of_lt_one hlt).comp (Filter.tendsto_add_atTop_nat 1)

/-- C113: the law of the rows in the limit: probability `μ (A ∩ S) / μ S` of lying in `A`. -/
theorem redraw_limit {α : Type*} [MeasurableSpace α] (μ : Measure α) [IsProbabilityMeasure μ] {S : Set α} (hS : MeasurableSet S)
    (hpos : μ S ≠ 0) {A : Set α} (hA : MeasurableSet A) :
    Filter.Tendsto (fun k => redrawLaw μ S k (A ∩ S)) Filter.atTop (nhds ((μ S)⁻¹ * μ (A ∩ S))) := by
  have hgeo : HasSum (fun n => μ Sᶜ ^ n) (μ S)⁻¹ := by
    have h1 : (1 - μ Sᶜ) = μ S := by
      rw [prob_compl_eq_one_sub hS]
      exact ENNReal.sub_sub_cancel ENNReal.one_ne_top prob_le_one
    rw [← h1, ← ENNReal.tsum_geometric]
    exact ENNReal.summable.hasSum
  simp_rw [redraw_restrict μ hS _ hA]
  have ht := (hgeo.tendsto_sum_nat).comp (Filter.tendsto_add_atTop_nat 1)
  exact ENNReal.Tendsto.mul_const ht (Or.inr (measure_ne_top μ _))

/-- The law of a standard normal vector. -/
noncomputable def stdLaw (m : ℕ) : Measure (Fin m → ℝ) := volume.withDensity fun z => ENNReal.ofReal (stdPdf m z)

theorem stdLaw_apply {A : Set (Fin m → ℝ)} (hA : MeasurableSet A) : stdLaw m A = ENNReal.ofReal (∫ z in A, stdPdf m z) := by
  unfold stdLaw
  rw [withDensity_apply _ hA, ← ofReal_integral_eq_lintegral_ofReal (stdPdf_integrable m).integrableOn
    (ae_of_all _ fun z => by unfold stdPdf; positivity)]

instance stdLaw_prob (m : ℕ) : IsProbabilityMeasure (stdLaw m) :=
  ⟨by rw [stdLaw_apply MeasurableSet.univ, setIntegral_univ, stdPdf_integral, ENNReal.ofReal_one]⟩

/-- C113: rows of a truncated normal domain follow its density. In the limit of many passes the probability that a row is accepted and
ends in `A` is the integral of `pdf` over the part of `A` in the domain. -/
theorem normal_truncated_law {D : NormalDist m} (h : D.Ok) {τ clip : ℝ} (htr : D.trunc = some (τ, clip)) {tol : ℝ} (ht : 0 ≤ tol)
    {A : Set (Fin m → ℝ)} (hA : MeasurableSet A) :
    Filter.Tendsto (fun k => redrawLaw (stdLaw m) {z | ∑ i, z i ^ 2 ≤ clip} k (D.draw ⁻¹' A ∩ {z | ∑ i, z i ^ 2 ≤ clip}))
      Filter.atTop (nhds (ENNReal.ofReal (∫ x in A ∩ D.points, D.pdf tol x))) := by
  obtain ⟨hτ, hcl, hq⟩ := h.quantile τ clip htr
  set S : Set (Fin m → ℝ) := {z | ∑ i, z i ^ 2 ≤ clip} with hSdef
  have hS : MeasurableSet S := by
    have hc : Continuous (fun z : Fin m → ℝ => ∑ i, z i ^ 2) := by fun_prop
    exact measurableSet_le hc.measurable measurable_const
  have hdraw : Continuous D.draw := by unfold NormalDist.draw; fun_prop
  have hpos : 0 < 1 - τ := by linarith
  have hmS : stdLaw m S = ENNReal.ofReal (1 - τ) := by rw [stdLaw_apply hS, hq]
  have hlim := redraw_limit (stdLaw m) hS (by rw [hmS]; exact (ENNReal.ofReal_pos.2 hpos).ne') (hdraw.measurable hA)
  convert hlim using 2
  rw [hmS, stdLaw_apply ((hdraw.measurable hA).inter hS), ← ENNReal.ofReal_inv_of_pos hpos, ← ENNReal.ofReal_mul (by positivity)]
  congr 1
  have hpts : D.points = {x | D.d2 x ≤ clip} := by unfold NormalDist.points; rw [htr]
  have hset : A ∩ D.points = (fun x => D.Linv.mulVec (x - D.mean)) ⁻¹' (D.draw ⁻¹' A ∩ S) := by
    ext x
    rw [hpts]
    simp only [Set.mem_inter_iff, Set.mem_preimage, NormalDist.draw]
    rw [Matrix.mulVec_mulVec, h.inv, Matrix.one_mulVec, add_sub_cancel]
    rfl
  have hmeas : MeasurableSet (A ∩ D.points) := by
    rw [hpts]
    have hc : Continuous D.d2 := by unfold NormalDist.d2; fun_prop
    exact hA.inter (measurableSet_le hc.measurable measurable_const)
  have hval : ∀ x ∈ A ∩ D.points, D.pdf tol x = (1 - τ)⁻¹ * D.base x := by
    intro x hx
    have hx2 : D.d2 x ≤ clip := by
      have := hx.2
      rw [hpts] at this
      exact this
    unfold NormalDist.pdf NormalDist.indicator
    rw [htr]
    dsimp only
    rw [if_pos, mul_one, div_eq_inv_mul]
    have := Real.sqrt_le_sqrt hx2
    linarith
  rw [setIntegral_congr_fun hmeas hval, integral_const_mul, hset, h.integral_base]

end Verif.Domain
