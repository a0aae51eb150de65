import Verif.Domain.PdfSample
import Mathlib.Probability.Distributions.Gaussian.Real
import Mathlib.Probability.ConditionalProbability
import Mathlib.MeasureTheory.Integral.Pi

/-!
# Means and covariances of samples of random domains (C183)

Source: `/repo/psdr/domains/normal.py` 93-108, `/repo/psdr/domains/lognormal.py` 63-65.
-/

namespace Verif.Domain

open MeasureTheory ProbabilityTheory

variable {m : ℕ}

/-! ## The law of samples -/

/-- The ball outside of which rows are drawn again, normal.py 101. -/
def clipBall (m : ℕ) (clip : ℝ) : Set (Fin m → ℝ) := {z | ∑ i, z i ^ 2 ≤ clip}

/-- The law of a row of `NormalDomain._sample`, normal.py 93-108: without truncation a standard normal row is mapped to the domain; with truncation the row has the
conditional law on the ball (`normal_law_limit`: the limit of the passes of the loop). -/
noncomputable def NormalDist.law (D : NormalDist m) : Measure (Fin m → ℝ) :=
  match D.trunc with
  | none => (stdLaw m).map D.draw
  | some (_, clip) => ((stdLaw m)[|clipBall m clip]).map D.draw

theorem clipBall_measurable (m : ℕ) (clip : ℝ) : MeasurableSet (clipBall m clip) := by
  have hc : Continuous (fun z : Fin m → ℝ => ∑ i, z i ^ 2) := by fun_prop
  exact (isClosed_le hc continuous_const).measurableSet

theorem NormalDist.draw_continuous (D : NormalDist m) : Continuous D.draw := by
  unfold NormalDist.draw
  exact continuous_const.add (Continuous.matrix_mulVec continuous_const continuous_id)

theorem clipBall_pos {D : NormalDist m} (h : D.Ok) {τ clip : ℝ} (htr : D.trunc = some (τ, clip)) : stdLaw m (clipBall m clip) ≠ 0 := by
  obtain ⟨hτ, -, hq⟩ := h.quantile τ clip htr
  rw [stdLaw_apply (clipBall_measurable m clip)]
  show ENNReal.ofReal (∫ z in {z : Fin m → ℝ | ∑ i, z i ^ 2 ≤ clip}, stdPdf m z) ≠ 0
  rw [hq]
  simpa using hτ

/-- The law of the rows tends to `law` in the passes of the loop. -/
theorem normal_law_limit {D : NormalDist m} (h : D.Ok) {τ clip : ℝ} (htr : D.trunc = some (τ, clip)) {A : Set (Fin m → ℝ)} (hA : MeasurableSet A) :
    Filter.Tendsto (fun k => (redrawLaw (stdLaw m) (clipBall m clip) k).map D.draw A) Filter.atTop (nhds (D.law A)) := by
  have hS := clipBall_measurable m clip
  have hd := D.draw_continuous.measurable
  have hpos := clipBall_pos h htr
  have h1 := redraw_limit (stdLaw m) hS hpos (hd hA)
  have h2 : Filter.Tendsto (fun k => redrawLaw (stdLaw m) (clipBall m clip) k (D.draw ⁻¹' A ∩ (clipBall m clip)ᶜ)) Filter.atTop (nhds 0) :=
    tendsto_of_tendsto_of_tendsto_of_le_of_le tendsto_const_nhds (redraw_accepts (stdLaw m) hS hpos) (fun _ => zero_le) fun k => measure_mono Set.inter_subset_right
  have h3 := h1.add h2
  rw [add_zero] at h3
  have e : D.law A = (stdLaw m (clipBall m clip))⁻¹ * stdLaw m (D.draw ⁻¹' A ∩ clipBall m clip) := by
    unfold NormalDist.law
    rw [htr]
    dsimp only
    rw [Measure.map_apply hd hA, cond_apply hS, Set.inter_comm]
  rw [e]
  refine h3.congr fun k => ?_
  rw [Measure.map_apply hd hA, ← Set.diff_eq, measure_inter_add_diff _ hS]

/-! ## The standard normal law -/

theorem stdLaw_pi (m : ℕ) : stdLaw m = Measure.pi fun _ : Fin m => gaussianReal 0 1 := by
  symm
  refine Measure.pi_eq fun s hs => ?_
  rw [stdLaw_apply (MeasurableSet.univ_pi hs)]
  simp_rw [stdPdf_prod, gaussianReal_apply_eq_integral 0 one_ne_zero]
  rw [volume_pi, Measure.restrict_pi_pi, integral_fintype_prod_eq_prod (fun (_ : Fin m) (t : ℝ) => (Real.sqrt (2 * Real.pi))⁻¹ * Real.exp (-0.5 * t ^ 2)),
    ENNReal.ofReal_prod_of_nonneg fun i _ => integral_nonneg fun t => by positivity]
  refine Finset.prod_congr rfl fun i _ => ?_
  congr 1
  refine integral_congr_ae (ae_of_all _ fun t => ?_)
  simp only [gaussianPDFReal, NNReal.coe_one, mul_one, sub_zero]
  congr 2
  ring

theorem std_memLp (k : Fin m) : MemLp (fun z : Fin m → ℝ => z k) 2 (stdLaw m) := by
  rw [stdLaw_pi]
  exact (memLp_id_gaussianReal' 2 (by simp)).comp_measurePreserving (measurePreserving_eval (fun _ : Fin m => gaussianReal 0 1) k)

theorem std_integrable (k : Fin m) : Integrable (fun z : Fin m → ℝ => z k) (stdLaw m) := (std_memLp k).integrable (by norm_num)

theorem std_integrable_mul (k l : Fin m) : Integrable (fun z : Fin m → ℝ => z k * z l) (stdLaw m) := (std_memLp k).integrable_mul (std_memLp l)

theorem std_sq (k : Fin m) : ∫ z, z k ^ 2 ∂stdLaw m = 1 := by
  rw [stdLaw_pi, integral_comp_eval (μ := fun _ : Fin m => gaussianReal 0 1) (i := k) (f := fun t : ℝ => t ^ 2) (by fun_prop)]
  have h1 := variance_id_gaussianReal (μ := 0) (v := 1)
  rw [variance_eq_integral (by fun_prop)] at h1
  simpa [integral_id_gaussianReal] using h1

/-- Changing the sign of one coordinate. -/
def flipAt (k : Fin m) (z : Fin m → ℝ) : Fin m → ℝ := fun i => (if i = k then (fun t : ℝ => -t) else id) (z i)

theorem flipAt_preserving (k : Fin m) : MeasurePreserving (flipAt k) (stdLaw m) (stdLaw m) := by
  rw [stdLaw_pi]
  refine measurePreserving_pi _ _ fun i => ?_
  split_ifs
  · exact ⟨measurable_neg, by simpa using gaussianReal_map_neg (μ := 0) (v := 1)⟩
  · exact MeasurePreserving.id _

theorem flipAt_embedding (k : Fin m) : MeasurableEmbedding (flipAt k) := by
  have hi : Function.Involutive (flipAt k) := fun z => by
    funext i
    unfold flipAt
    split_ifs <;> simp
  exact (MeasurableEquiv.mk hi.toPerm (flipAt_preserving k).measurable (flipAt_preserving k).measurable).measurableEmbedding

theorem flipAt_ball (k : Fin m) (clip : ℝ) : flipAt k ⁻¹' clipBall m clip = clipBall m clip := by
  ext z
  have : ∀ i, flipAt k z i ^ 2 = z i ^ 2 := fun i => by unfold flipAt; split_ifs <;> simp
  simp [clipBall, this]

/-- A set that is symmetric in the coordinates: reflections and exchanges of coordinates keep it. -/
structure Symmetric (S : Set (Fin m → ℝ)) : Prop where
  meas : MeasurableSet S
  flip : ∀ k, flipAt k ⁻¹' S = S
  swap : ∀ σ : Equiv.Perm (Fin m), MeasurableEquiv.piCongrLeft (fun _ => ℝ) σ ⁻¹' S = S

theorem symmetric_univ : Symmetric (Set.univ : Set (Fin m → ℝ)) := ⟨MeasurableSet.univ, fun _ => rfl, fun _ => rfl⟩

theorem symmetric_ball (clip : ℝ) : Symmetric (clipBall m clip) where
  meas := clipBall_measurable m clip
  flip := fun k => flipAt_ball k clip
  swap := fun σ => by
    ext z
    simp only [clipBall, Set.mem_preimage, Set.mem_ofPred_eq]
    rw [← Equiv.sum_comp σ]
    simp [MeasurableEquiv.coe_piCongrLeft, Equiv.piCongrLeft_apply_apply]

theorem sym_mean {S : Set (Fin m → ℝ)} (hS : Symmetric S) (k : Fin m) : ∫ z in S, z k ∂stdLaw m = 0 := by
  have h := (flipAt_preserving k).setIntegral_preimage_emb (flipAt_embedding k) (fun z => z k) S
  rw [hS.flip k] at h
  have e : ∀ z : Fin m → ℝ, flipAt k z k = -z k := fun z => by simp [flipAt]
  simp only [e, integral_neg] at h
  linarith

theorem sym_cross {S : Set (Fin m → ℝ)} (hS : Symmetric S) {k l : Fin m} (hkl : k ≠ l) : ∫ z in S, z k * z l ∂stdLaw m = 0 := by
  have h := (flipAt_preserving k).setIntegral_preimage_emb (flipAt_embedding k) (fun z => z k * z l) S
  rw [hS.flip k] at h
  have e : ∀ z : Fin m → ℝ, flipAt k z k * flipAt k z l = -(z k * z l) := fun z => by simp [flipAt, hkl.symm]
  simp only [e, integral_neg] at h
  linarith

theorem sym_square {S : Set (Fin m → ℝ)} (hS : Symmetric S) (k l : Fin m) : ∫ z in S, z k ^ 2 ∂stdLaw m = ∫ z in S, z l ^ 2 ∂stdLaw m := by
  have hp : MeasurePreserving (MeasurableEquiv.piCongrLeft (fun _ : Fin m => ℝ) (Equiv.swap k l)) (stdLaw m) (stdLaw m) := by
    rw [stdLaw_pi]
    exact measurePreserving_piCongrLeft (μ := fun _ : Fin m => gaussianReal 0 1) (Equiv.swap k l)
  have h := hp.setIntegral_preimage_emb (MeasurableEquiv.measurableEmbedding _) (fun z => z k ^ 2) S
  rw [hS.swap] at h
  have e : ∀ z : Fin m → ℝ, (MeasurableEquiv.piCongrLeft (fun _ : Fin m => ℝ) (Equiv.swap k l)) z k = z l := fun z => by
    have := Equiv.piCongrLeft_apply_apply (P := fun _ : Fin m => ℝ) (Equiv.swap k l) z l
    rw [Equiv.swap_apply_right] at this
    rw [MeasurableEquiv.coe_piCongrLeft]
    exact this
  simp only [e] at h
  exact h.symm

/-! ## Moments through the map -/

/-- The mean and covariance of the drawn rows, from those of the standard rows. -/
theorem draw_moments (D : NormalDist m) (hch : D.L * D.L.transpose = D.cov) (ν : Measure (Fin m → ℝ)) [IsProbabilityMeasure ν] (κ : ℝ)
    (hi1 : ∀ k, Integrable (fun z : Fin m → ℝ => z k) ν) (hi2 : ∀ k l, Integrable (fun z : Fin m → ℝ => z k * z l) ν) (h1 : ∀ k, ∫ z, z k ∂ν = 0)
    (h2 : ∀ k l, ∫ z, z k * z l ∂ν = if k = l then κ else 0) :
    (∀ i, Integrable (fun x : Fin m → ℝ => x i) (ν.map D.draw) ∧ ∫ x, x i ∂ν.map D.draw = D.mean i) ∧
    ∀ i j, Integrable (fun x : Fin m → ℝ => (x i - D.mean i) * (x j - D.mean j)) (ν.map D.draw) ∧ ∫ x, (x i - D.mean i) * (x j - D.mean j) ∂ν.map D.draw = κ * D.cov i j := by
  have hd := D.draw_continuous.measurable
  have e : ∀ z i, D.draw z i = D.mean i + ∑ k, D.L i k * z k := fun z i => rfl
  have hsum : ∀ i, Integrable (fun z : Fin m → ℝ => ∑ k, D.L i k * z k) ν := fun i => integrable_finsetSum _ fun k _ => (hi1 k).const_mul _
  constructor
  · intro i
    have hm : Measurable fun x : Fin m → ℝ => x i := measurable_pi_apply i
    rw [integrable_map_measure hm.aestronglyMeasurable hd.aemeasurable, integral_map hd.aemeasurable hm.aestronglyMeasurable]
    refine ⟨(integrable_const (D.mean i)).add (hsum i), ?_⟩
    simp only [e]
    rw [integral_add (integrable_const _) (hsum i), integral_finsetSum _ fun k _ => (hi1 k).const_mul _]
    simp [integral_const_mul, h1]
  · intro i j
    have hm : Measurable fun x : Fin m → ℝ => (x i - D.mean i) * (x j - D.mean j) := by fun_prop
    have e2 : ∀ z, (D.draw z i - D.mean i) * (D.draw z j - D.mean j) = ∑ k, ∑ l, D.L i k * D.L j l * (z k * z l) := fun z => by
      rw [e, e, add_sub_cancel_left, add_sub_cancel_left, Finset.sum_mul_sum]
      exact Finset.sum_congr rfl fun k _ => Finset.sum_congr rfl fun l _ => by ring
    have hint : ∀ k, Integrable (fun z : Fin m → ℝ => ∑ l, D.L i k * D.L j l * (z k * z l)) ν := fun k => integrable_finsetSum _ fun l _ => (hi2 k l).const_mul _
    rw [integrable_map_measure hm.aestronglyMeasurable hd.aemeasurable, integral_map hd.aemeasurable hm.aestronglyMeasurable]
    refine ⟨by simpa only [Function.comp_def, e2] using integrable_finsetSum _ fun k _ => hint k, ?_⟩
    simp only [e2]
    rw [integral_finsetSum _ fun k _ => hint k]
    simp_rw [integral_finsetSum _ fun l _ => (hi2 _ l).const_mul _, integral_const_mul, h2]
    simp only [mul_ite, mul_zero, Finset.sum_ite_eq, Finset.mem_univ, if_true]
    rw [← hch, Matrix.mul_apply, Finset.mul_sum]
    exact Finset.sum_congr rfl fun k _ => by rw [Matrix.transpose_apply]; ring

/-- **C183, without truncation**: the samples have the mean and the covariance the domain was built with. -/
theorem normal_moments {D : NormalDist m} (h : D.Ok) (htr : D.trunc = none) :
    (∀ i, Integrable (fun x : Fin m → ℝ => x i) D.law ∧ ∫ x, x i ∂D.law = D.mean i) ∧
    ∀ i j, Integrable (fun x : Fin m → ℝ => (x i - D.mean i) * (x j - D.mean j)) D.law ∧ ∫ x, (x i - D.mean i) * (x j - D.mean j) ∂D.law = D.cov i j := by
  have e : D.law = (stdLaw m).map D.draw := by unfold NormalDist.law; rw [htr]
  rw [e]
  have := draw_moments D h.chol (stdLaw m) 1 std_integrable std_integrable_mul (fun k => by simpa using sym_mean symmetric_univ k) fun k l => by
    split_ifs with hkl
    · subst hkl
      simpa [sq] using std_sq k
    · simpa using sym_cross symmetric_univ hkl
  simpa using this

/-! ## Truncation -/

theorem std_open_pos {A : Set (Fin m → ℝ)} (hA : IsOpen A) (hne : A.Nonempty) : 0 < stdLaw m A := by
  have hac : (volume : Measure (Fin m → ℝ)) ≪ stdLaw m := by
    unfold stdLaw
    refine withDensity_absolutelyContinuous' ?_ (ae_of_all _ fun z => ?_)
    · have : Continuous (stdPdf m) := by unfold stdPdf; fun_prop
      fun_prop
    · have : 0 < stdPdf m z := by unfold stdPdf; positivity
      simpa using this
  rw [pos_iff_ne_zero]
  exact fun h0 => (hA.measure_pos volume hne).ne' (hac h0)

/-- The standard normal vectors in the ball are shorter than those outside, so on the ball the mean square length is less than the dimension. -/
theorem ball_shrinks [NeZero m] {clip : ℝ} (hpos : stdLaw m (clipBall m clip) ≠ 0) : ∫ z in clipBall m clip, ∑ i, z i ^ 2 ∂stdLaw m < m * (stdLaw m (clipBall m clip)).toReal := by
  have hS := clipBall_measurable m clip
  have hc : Continuous (fun z : Fin m → ℝ => ∑ i, z i ^ 2) := by fun_prop
  have hi : Integrable (fun z : Fin m → ℝ => ∑ i, z i ^ 2) (stdLaw m) := integrable_finsetSum _ fun i _ => by simpa [sq] using std_integrable_mul i i
  have hg : Integrable (fun z : Fin m → ℝ => (m : ℝ) - ∑ i, z i ^ 2) (stdLaw m) := (integrable_const _).sub hi
  have htot : ∫ z, ((m : ℝ) - ∑ i, z i ^ 2) ∂stdLaw m = 0 := by
    rw [integral_sub (integrable_const _) hi, integral_finsetSum _ fun i _ => by simpa [sq] using std_integrable_mul i i]
    simp [std_sq]
  have hkey : 0 < ∫ z in clipBall m clip, ((m : ℝ) - ∑ i, z i ^ 2) ∂stdLaw m := by
    rcases le_or_gt clip m with hle | hgt
    · rw [setIntegral_pos_iff_support_of_nonneg_ae ?_ hg.integrableOn]
      · have hclip : 0 < clip := by
          by_contra hneg
          have hz : clipBall m clip ⊆ {0} := fun z hz => by
            have h0 : ∑ i, z i ^ 2 ≤ 0 := le_trans hz (not_lt.1 hneg)
            have := (Finset.sum_eq_zero_iff_of_nonneg fun i _ => sq_nonneg (z i)).1 (le_antisymm h0 (Finset.sum_nonneg fun i _ => sq_nonneg _))
            exact funext fun i => pow_eq_zero_iff two_ne_zero |>.1 (this i (Finset.mem_univ i))
          have hv : stdLaw m {0} = 0 := by
            unfold stdLaw
            exact withDensity_absolutelyContinuous _ _ (by
              haveI : Nonempty (Fin m) := ⟨0⟩
              exact measure_singleton _)
          exact hpos (measure_mono_null hz hv)
        refine lt_of_lt_of_le (std_open_pos (isOpen_lt hc (continuous_const (y := clip))) ⟨0, by simpa using hclip⟩) (measure_mono fun z hz => ?_)
        have hz' : ∑ i, z i ^ 2 < clip := hz
        exact ⟨by simp only [Function.mem_support]; linarith [hz'.trans_le hle] , hz'.le⟩
      · rw [Filter.EventuallyLE, ae_restrict_iff' hS]
        exact ae_of_all _ fun z hz => by
          have : ∑ i, z i ^ 2 ≤ clip := hz
          simp only [Pi.zero_apply]
          linarith
    · have hsplit := integral_add_compl hS hg
      rw [htot] at hsplit
      have hout : 0 < ∫ z in (clipBall m clip)ᶜ, (∑ i, z i ^ 2 - (m : ℝ)) ∂stdLaw m := by
        rw [setIntegral_pos_iff_support_of_nonneg_ae ?_ (show Integrable (fun z : Fin m → ℝ => ∑ i, z i ^ 2 - (m : ℝ)) (stdLaw m) from hi.sub (integrable_const _)).integrableOn]
        · refine lt_of_lt_of_le (std_open_pos (isOpen_lt (continuous_const (y := clip)) hc) ⟨fun _ => clip + 1, ?_⟩) (measure_mono fun z hz => ?_)
          · have hm1 : (1 : ℝ) ≤ m := by exact_mod_cast NeZero.one_le
            show clip < ∑ _i : Fin m, (clip + 1) ^ 2
            simp only [Finset.sum_const, Finset.card_univ, Fintype.card_fin, nsmul_eq_mul]
            nlinarith
          · have hz' : clip < ∑ i, z i ^ 2 := hz
            exact ⟨by simp only [Function.mem_support]; linarith, by show ¬ (∑ i, z i ^ 2 ≤ clip); linarith⟩
        · rw [Filter.EventuallyLE, ae_restrict_iff' hS.compl]
          exact ae_of_all _ fun z hz => by
            have : ¬ ∑ i, z i ^ 2 ≤ clip := hz
            simp only [Pi.zero_apply]
            linarith
      have hneg : ∫ z in (clipBall m clip)ᶜ, ((m : ℝ) - ∑ i, z i ^ 2) ∂stdLaw m = -∫ z in (clipBall m clip)ᶜ, (∑ i, z i ^ 2 - (m : ℝ)) ∂stdLaw m := by
        rw [← integral_neg]
        exact integral_congr_ae (ae_of_all _ fun z => by simp)
      linarith
  rw [integral_sub (integrable_const _) hi.integrableOn] at hkey
  simp only [integral_const, smul_eq_mul, measureReal_restrict_apply_univ] at hkey
  rw [mul_comm]
  exact sub_pos.1 hkey

/-- **C183, with truncation**: the samples have the mean the domain was built with, but their covariance is that of the domain times a factor less than one,
which depends only on the dimension and the truncation. -/
theorem normal_truncated_moments [NeZero m] {D : NormalDist m} (h : D.Ok) {τ clip : ℝ} (htr : D.trunc = some (τ, clip)) :
    ∃ κ, 0 ≤ κ ∧ κ < 1 ∧ κ = (∫ z in clipBall m clip, ∑ i, z i ^ 2 ∂stdLaw m) / (m * (1 - τ)) ∧ (∀ i, Integrable (fun x : Fin m → ℝ => x i) D.law ∧ ∫ x, x i ∂D.law = D.mean i) ∧
    ∀ i j, Integrable (fun x : Fin m → ℝ => (x i - D.mean i) * (x j - D.mean j)) D.law ∧ ∫ x, (x i - D.mean i) * (x j - D.mean j) ∂D.law = κ * D.cov i j := by
  have hS := clipBall_measurable m clip
  have hpos := clipBall_pos h htr
  obtain ⟨hτ, -, hq⟩ := h.quantile τ clip htr
  have hp : (stdLaw m (clipBall m clip)).toReal = 1 - τ := by
    rw [stdLaw_apply hS]
    show (ENNReal.ofReal (∫ z in {z : Fin m → ℝ | ∑ i, z i ^ 2 ≤ clip}, stdPdf m z)).toReal = _
    rw [hq, ENNReal.toReal_ofReal (by linarith)]
  have e : D.law = ((stdLaw m)[|clipBall m clip]).map D.draw := by unfold NormalDist.law; rw [htr]
  have hm : (0 : ℝ) < m := by exact_mod_cast Nat.pos_of_ne_zero (NeZero.ne m)
  have h1τ : 0 < 1 - τ := by linarith
  set κ := (∫ z in clipBall m clip, ∑ i, z i ^ 2 ∂stdLaw m) / (m * (1 - τ)) with hκ
  have hnn : 0 ≤ ∫ z in clipBall m clip, ∑ i, z i ^ 2 ∂stdLaw m := integral_nonneg fun z => Finset.sum_nonneg fun i _ => sq_nonneg _
  have hsq : ∀ k, ∫ z in clipBall m clip, z k ^ 2 ∂stdLaw m = (∫ z in clipBall m clip, ∑ i, z i ^ 2 ∂stdLaw m) / m := by
    intro k
    rw [integral_finsetSum _ fun i _ => by simpa [sq] using (std_integrable_mul i i).restrict]
    rw [Finset.sum_congr rfl fun i _ => sym_square (symmetric_ball clip) i k]
    simp only [Finset.sum_const, Finset.card_univ, Fintype.card_fin, nsmul_eq_mul]
    field_simp
  haveI : IsProbabilityMeasure ((stdLaw m)[|clipBall m clip]) := cond_isProbabilityMeasure hpos
  have hcond : ∀ f : (Fin m → ℝ) → ℝ, ∫ z, f z ∂(stdLaw m)[|clipBall m clip] = (1 - τ)⁻¹ * ∫ z in clipBall m clip, f z ∂stdLaw m := fun f => by
    unfold ProbabilityTheory.cond
    rw [integral_smul_measure, ENNReal.toReal_inv, hp, smul_eq_mul]
  have hint : ∀ f : (Fin m → ℝ) → ℝ, Integrable f (stdLaw m) → Integrable f ((stdLaw m)[|clipBall m clip]) := fun f hf => by
    unfold ProbabilityTheory.cond
    exact hf.restrict.smul_measure (ENNReal.inv_ne_top.2 hpos)
  refine ⟨κ, div_nonneg hnn (by positivity), ?_, rfl, ?_⟩
  · rw [hκ, div_lt_one (by positivity), ← hp]
    exact ball_shrinks hpos
  · rw [e]
    refine draw_moments D h.chol _ κ (fun k => hint _ (std_integrable k)) (fun k l => hint _ (std_integrable_mul k l)) (fun k => ?_) fun k l => ?_
    · rw [hcond, sym_mean (symmetric_ball clip), mul_zero]
    · rw [hcond]
      split_ifs with hkl
      · subst hkl
        have := hsq k
        simp only [sq] at this ⊢
        rw [this, hκ]
        simp only [sq]
        field_simp
      · rw [sym_cross (symmetric_ball clip) hkl, mul_zero]

/-- **C183 fails with truncation**: every variance of the samples is less than that of the domain. -/
theorem normal_truncated_cov_false [NeZero m] {D : NormalDist m} (h : D.Ok) {τ clip : ℝ} (htr : D.trunc = some (τ, clip)) (i : Fin m) :
    ∫ x, (x i - D.mean i) * (x i - D.mean i) ∂D.law < D.cov i i := by
  obtain ⟨κ, -, h1, -, -, h2⟩ := normal_truncated_moments h htr
  rw [(h2 i i).2]
  have hpos : 0 < D.cov i i := by
    have hnn : 0 ≤ D.cov i i := by
      rw [← h.chol, Matrix.mul_apply]
      exact Finset.sum_nonneg fun k _ => mul_self_nonneg _
    refine lt_of_le_of_ne hnn fun h0 => ?_
    rw [← h.chol, Matrix.mul_apply] at h0
    have hrow := (Finset.sum_eq_zero_iff_of_nonneg fun k _ => mul_self_nonneg (D.L i k)).1 h0.symm
    have hone : (D.L * D.Linv) i i = 1 := by rw [h.inv]; simp
    rw [Matrix.mul_apply, Finset.sum_eq_zero fun k hk => by rw [mul_self_eq_zero.1 (hrow k hk), zero_mul]] at hone
    exact zero_ne_one hone
  nlinarith

end Verif.Domain
