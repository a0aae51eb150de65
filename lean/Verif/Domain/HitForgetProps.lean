import Verif.Domain.HitForget

/-!
# Hit-and-run forgets where it starts: the properties (C169)
-/

namespace Verif.Domain

open MeasureTheory Set Classical
open scoped ENNReal

/-- The share of the difference between two samplers that survives a step; `n` variables, diameter at most `R`, volume `V`. -/
noncomputable def hitRate (n : ℕ) (R : ℝ) (V : ℝ≥0∞) : ℝ≥0∞ := 1 - ENNReal.ofReal (seeConst n / R ^ n) * (V - 2 * ENNReal.ofReal ((2 / 10 ^ 7) ^ n))

/-- Differences decay if the domain has more volume than two cubes with sides `2e-7`. -/
theorem hitRate_lt_one {n : ℕ} {R : ℝ} (hR : 0 < R) {V : ℝ≥0∞} (hV : 2 * ENNReal.ofReal ((2 / 10 ^ 7) ^ n) < V) : hitRate n R V < 1 := by
  unfold hitRate
  refine ENNReal.sub_lt_self ENNReal.one_ne_top one_ne_zero ?_
  have h1 : ENNReal.ofReal (seeConst n / R ^ n) ≠ 0 := by
    have := seeConst_pos n
    rw [ne_eq, ENNReal.ofReal_eq_zero, not_le]
    positivity
  exact mul_ne_zero h1 (tsub_pos_of_lt hV).ne'

theorem stdLaw_zero {n : ℕ} (hn1 : 1 ≤ n) : stdLaw n {0} = 0 := by
  unfold stdLaw
  haveI : Nonempty (Fin n) := ⟨⟨0, hn1⟩⟩
  exact withDensity_absolutelyContinuous _ _ (measure_singleton 0)

theorem norm_le_len2 {n : ℕ} (v : Fin n → ℝ) : ‖v‖ ≤ len2 v := by
  rw [pi_norm_le_iff_of_nonneg (show 0 ≤ len2 v from Real.sqrt_nonneg _)]
  intro i
  rw [Real.norm_eq_abs, ← Real.sqrt_sq_eq_abs]
  exact Real.sqrt_le_sqrt (Finset.single_le_sum (f := fun i => v i ^ 2) (fun j _ => sq_nonneg _) (Finset.mem_univ i))

theorem len2_dirOf {n : ℕ} {v : Fin n → ℝ} (hv : v ≠ 0) : len2 (dirOf v) = 1 := by
  have hp := norm_ofFn_pos hv
  unfold dirOf
  rw [len2_smul, ← norm_ofFn_eq, abs_of_pos (by positivity)]
  field_simp

theorem chord_le {n : ℕ} {K : Set (Fin n → ℝ)} {R : ℝ} (hR : ∀ x ∈ K, ∀ y ∈ K, len2 (x - y) ≤ R) {u : Fin n → ℝ} (hu : len2 u = 1) (x : Fin n → ℝ) :
    chord K u x ≤ ENNReal.ofReal R := by
  unfold chord
  refine (Real.volume_le_diam _).trans (EMetric.diam_le fun s hs t ht => ?_)
  rw [edist_dist, Real.dist_eq]
  refine ENNReal.ofReal_le_ofReal ?_
  have h := hR _ hs _ ht
  have e : x + s • u - (x + t • u) = (s - t) • u := by rw [sub_smul]; abel
  rwa [e, len2_smul, hu, mul_one] at h

section
variable {nnls : NNLS} (hn : SolvesConsistent nnls) {TOL tol : ℝ} (ht : 0 < TOL) (htol : 0 < tol) {he : HullExtent}
  (hh : HullExtentExact he) (fb : CornerOracle) {d : Base} (hd : Smooth d) (hw : d.WF) (hb : Bornology.IsBounded (Dom.base d).pts)
  {S : Solver} {e : Option Bool} (hemp : e ≠ some true) (hn1 : 1 ≤ (Dom.base d).len)
  {R : ℝ} (hR0 : 0 < R) (hR : ∀ x ∈ (Dom.base d).pts, ∀ y ∈ (Dom.base d).pts, len2 (x - y) ≤ R)
include hn ht htol hh hd hw hb hemp hn1 hR0 hR

/-- **C169**: from every interior point a call moves into a region with a probability proportional to the volume of the region, up to the points within `1e-7`. -/
theorem hitRun_reaches {x : Fin (Dom.base d).len → ℝ} (hx : x ∈ interior (Dom.base d).pts) {B : Set (Fin (Dom.base d).len → ℝ)} (hB : MeasurableSet B) :
    ENNReal.ofReal (seeConst (Dom.base d).len / R ^ (Dom.base d).len) * volume (((Dom.base d).pts ∩ B) \ Metric.closedBall x (1 / 10 ^ 7)) ≤
      ∫⁻ v, hitProb nnls TOL tol he fb (.base d) S e B v x ∂(stdLaw (Dom.base d).len) := by
  have hK := (smooth_closed hd hw).measurableSet
  have hxK := interior_subset hx
  set A := ((Dom.base d).pts ∩ B) \ Metric.closedBall x (1 / 10 ^ 7) with hAdef
  have hA : MeasurableSet A := (hK.inter hB).diff measurableSet_closedBall
  have hfar : ∀ y ∈ A, (1 : ℝ) / 10 ^ 7 < len2 (y - x) := by
    intro y hy
    have h1 := hy.2
    rw [Metric.mem_closedBall, not_le, dist_eq_norm] at h1
    exact h1.trans_le (norm_le_len2 _)
  have hsee := seen_lower hn1 hA (x := x) (R := R) fun y hy => ⟨lt_trans (by positivity) (hfar y hy), hR y hy.1.1 x hxK⟩
  have hmass : ∀ v : Fin (Dom.base d).len → ℝ, v ≠ 0 → (ENNReal.ofReal R)⁻¹ * volume {t : ℝ | x + t • dirOf v ∈ A} ≤ hitMass (.base d) B v x := by
    intro v hv
    by_cases hempty : {t : ℝ | x + t • dirOf v ∈ A} = ∅
    · rw [hempty]; simp
    · obtain ⟨t, htA⟩ := nonempty_iff_ne_empty.2 hempty
      have htA : x + t • dirOf v ∈ A := htA
      have hlen : |t| = len2 (x + t • dirOf v - x) := by
        rw [add_sub_cancel_left, len2_smul, len2_dirOf hv, mul_one]
      have htt : (1 : ℝ) / 10 ^ 7 < |t| := by rw [hlen]; exact hfar _ htA
      have hlong : (Dom.base d).Long v x := by
        unfold Dom.Long
        refine lt_of_lt_of_le (ENNReal.ofReal_lt_ofReal_iff (by positivity) |>.2 htt) ?_
        have hsub : uIcc 0 t ⊆ {s : ℝ | x + s • dirOf v ∈ (Dom.base d).pts} := by
          intro s hs
          have hpre : Convex ℝ {s : ℝ | x + s • dirOf v ∈ (Dom.base d).pts} := by
            have := (pts_convex (.base d)).affine_preimage (AffineMap.lineMap x (x + dirOf v))
            have e : {s : ℝ | x + s • dirOf v ∈ (Dom.base d).pts} = (AffineMap.lineMap x (x + dirOf v)) ⁻¹' (Dom.base d).pts := by
              ext s
              simp [AffineMap.lineMap_apply, add_comm]
            rw [e]
            exact this
          rw [← segment_eq_uIcc] at hs
          exact hpre.segment_subset (by simpa using hxK) htA.1.1 hs
        calc ENNReal.ofReal |t| = volume (uIcc 0 t) := by rw [Real.volume_interval, sub_zero]
          _ ≤ _ := measure_mono hsub
      unfold hitMass
      rw [if_pos hlong]
      gcongr
      · exact chord_le hR (len2_dirOf hv) x
      · exact fun t ht => ht.1
  have hae : ∀ᵐ v ∂(stdLaw (Dom.base d).len), v ≠ 0 := by
    have := stdLaw_zero hn1
    rw [measure_eq_zero_iff_ae_notMem] at this
    exact this
  calc ENNReal.ofReal (seeConst (Dom.base d).len / R ^ (Dom.base d).len) * volume A = (ENNReal.ofReal R)⁻¹ * (ENNReal.ofReal (seeConst (Dom.base d).len * (R / R ^ (Dom.base d).len)) * volume A) := by
        rw [← mul_assoc, ← ENNReal.ofReal_inv_of_pos hR0, ← ENNReal.ofReal_mul (by positivity)]
        congr 2
        field_simp
    _ ≤ (ENNReal.ofReal R)⁻¹ * ∫⁻ v, volume {t : ℝ | x + t • dirOf v ∈ A} ∂(stdLaw (Dom.base d).len) := by gcongr
    _ = ∫⁻ v, (ENNReal.ofReal R)⁻¹ * volume {t : ℝ | x + t • dirOf v ∈ A} ∂(stdLaw (Dom.base d).len) :=
        (lintegral_const_mul _ ((measurable_section hA).comp (measurable_prodMk_right (y := x)))).symm
    _ ≤ ∫⁻ v, hitProb nnls TOL tol he fb (.base d) S e B v x ∂(stdLaw (Dom.base d).len) := by
        refine lintegral_mono_ae (hae.mono fun v hv => ?_)
        rw [hitProb_eq hn ht htol hh fb hd hw hb hemp hv hx hB]
        exact hmass v hv

variable {F : ProbabilityTheory.Kernel (Fin (Dom.base d).len → ℝ) (Fin (Dom.base d).len → ℝ)}
  (hF : HitKernel nnls TOL tol he fb (.base d) S e (stdLaw (Dom.base d).len) F) (hin : ∀ x ∈ interior (Dom.base d).pts, F x (interior (Dom.base d).pts)ᶜ = 0)
include hF hin

theorem hitRun_overlap : Overlap F (interior (Dom.base d).pts) (hitRate (Dom.base d).len R (volume (Dom.base d).pts)) := by
  refine ⟨hin, fun x hx y hy => ?_⟩
  have hK := (smooth_closed hd hw).measurableSet
  set ε := ENNReal.ofReal (seeConst (Dom.base d).len / R ^ (Dom.base d).len) with hε
  set N := Metric.closedBall x (1 / 10 ^ 7 : ℝ) ∪ Metric.closedBall y (1 / 10 ^ 7) with hN
  have hle : ∀ z ∈ interior (Dom.base d).pts, Metric.closedBall z (1 / 10 ^ 7 : ℝ) ⊆ N → ε • volume.restrict ((Dom.base d).pts \ N) ≤ F z := by
    intro z hz hzN
    refine Measure.le_iff.2 fun B hB => ?_
    rw [Measure.smul_apply, Measure.restrict_apply hB, smul_eq_mul]
    refine le_trans ?_ ((hitRun_reaches hn ht htol hh fb hd hw hb (S := S) hemp hn1 hR0 hR hz hB).trans (hF.first z hz B hB))
    rw [← hε]
    gcongr
    exact fun w hw => ⟨⟨hw.2.1, hw.1⟩, fun h => hw.2.2 (hzN h)⟩
  refine ⟨ε • volume.restrict ((Dom.base d).pts \ N), hle x hx subset_union_left, hle y hy subset_union_right, ?_⟩
  have hvol : volume (Dom.base d).pts - 2 * ENNReal.ofReal ((2 / 10 ^ 7) ^ (Dom.base d).len) ≤ volume ((Dom.base d).pts \ N) := by
    rw [tsub_le_iff_right]
    have hball : ∀ z : Fin (Dom.base d).len → ℝ, volume (Metric.closedBall z (1 / 10 ^ 7 : ℝ)) = ENNReal.ofReal ((2 / 10 ^ 7) ^ (Dom.base d).len) := fun z => by
      rw [Real.volume_pi_closedBall _ (by positivity), Fintype.card_fin]
      congr 2
      ring
    calc volume (Dom.base d).pts ≤ volume ((Dom.base d).pts \ N ∪ N) := measure_mono (by rw [diff_union_self]; exact subset_union_left)
      _ ≤ volume ((Dom.base d).pts \ N) + volume N := measure_union_le _ _
      _ ≤ volume ((Dom.base d).pts \ N) + 2 * ENNReal.ofReal ((2 / 10 ^ 7) ^ (Dom.base d).len) := by
        gcongr
        refine (measure_union_le _ _).trans ?_
        rw [hball, hball, two_mul]
  rw [Measure.smul_apply, Measure.restrict_apply_univ, smul_eq_mul]
  unfold hitRate
  rw [← hε]
  calc (1 : ℝ≥0∞) ≤ ε * (volume (Dom.base d).pts - 2 * ENNReal.ofReal ((2 / 10 ^ 7) ^ (Dom.base d).len)) +
        (1 - ε * (volume (Dom.base d).pts - 2 * ENNReal.ofReal ((2 / 10 ^ 7) ^ (Dom.base d).len))) := le_add_tsub
    _ ≤ _ := by gcongr

/-- **C169**: two samplers standing anywhere in the interior: after `k` calls the probabilities of all events differ by at most `hitRate ^ k`. -/
theorem hitRun_forgets {ρ ρ' : ℕ → Measure (Fin (Dom.base d).len → ℝ)} [IsProbabilityMeasure (ρ 0)] [IsProbabilityMeasure (ρ' 0)]
    (h0 : ρ 0 (interior (Dom.base d).pts)ᶜ = 0) (h0' : ρ' 0 (interior (Dom.base d).pts)ᶜ = 0) (hs : ∀ k, ρ (k + 1) = (ρ k).bind F)
    (hs' : ∀ k, ρ' (k + 1) = (ρ' k).bind F) (k : ℕ) {B : Set (Fin (Dom.base d).len → ℝ)} (hB : MeasurableSet B) :
    ρ k B ≤ ρ' k B + hitRate (Dom.base d).len R (volume (Dom.base d).pts) ^ k := by
  haveI := hF.markov
  have h := (hitRun_overlap hn ht htol hh fb hd hw hb hemp hn1 hR0 hR hF hin).forgets h0 h0' hs hs' k (g := B.indicator 1) (measurable_one.indicator hB) (o := 1)
    fun x _ y _ => le_trans (indicator_le_self' (fun _ _ => zero_le) x) le_add_self
  simpa [lintegral_indicator_one hB] using h

/-- **C169**: a sampler started anywhere in the interior approaches the uniform distribution: after `k` calls the probabilities of all events differ from the uniform ones
by at most `hitRate ^ k` and the share of the calls which have to redraw, accumulated over the forgetting time. -/
theorem hitRun_converges {ρ : ℕ → Measure (Fin (Dom.base d).len → ℝ)} [IsProbabilityMeasure (ρ 0)]
    (h0 : ρ 0 (interior (Dom.base d).pts)ᶜ = 0) (hs : ∀ k, ρ (k + 1) = (ρ k).bind F) (hV : volume (Dom.base d).pts ≠ 0) (k : ℕ)
    {B : Set (Fin (Dom.base d).len → ℝ)} (hB : MeasurableSet B) :
    ρ k B ≤ ProbabilityTheory.cond volume (Dom.base d).pts B + (hitRate (Dom.base d).len R (volume (Dom.base d).pts) ^ k +
        (volume (Dom.base d).pts)⁻¹ * (Dom.base d).redraw (stdLaw (Dom.base d).len) * ∑ j ∈ Finset.range k, hitRate (Dom.base d).len R (volume (Dom.base d).pts) ^ j) ∧
      ProbabilityTheory.cond volume (Dom.base d).pts B ≤ ρ k B + (hitRate (Dom.base d).len R (volume (Dom.base d).pts) ^ k +
        (volume (Dom.base d).pts)⁻¹ * (Dom.base d).redraw (stdLaw (Dom.base d).len) * ∑ j ∈ Finset.range k, hitRate (Dom.base d).len R (volume (Dom.base d).pts) ^ j) := by
  haveI := hF.markov
  have hν := stdLaw_zero hn1
  have hK := (smooth_closed hd hw).measurableSet
  have hL := measurable_long (D := .base d) hK
  have hVt : volume (Dom.base d).pts ≠ ∞ := hb.measure_lt_top.ne
  haveI : IsProbabilityMeasure (ProbabilityTheory.cond volume (Dom.base d).pts) := ProbabilityTheory.cond_isProbabilityMeasure_of_finite hV hVt
  set c := (volume (Dom.base d).pts)⁻¹ with hc
  set U := (volume : Measure (Fin (Dom.base d).len → ℝ)).restrict (Dom.base d).pts with hU
  have hcond : ProbabilityTheory.cond volume (Dom.base d).pts = c • U := rfl
  have ha : Measurable (fun x => stdLaw (Dom.base d).len {v | (Dom.base d).Long v x}) := measurable_measure_prodMk_right hL
  set A := U.withDensity (fun x => stdLaw (Dom.base d).len {v | (Dom.base d).Long v x}) with hA
  have hAU : A ≤ U := by
    calc A ≤ U.withDensity 1 := withDensity_mono (Filter.Eventually.of_forall fun x => prob_le_one)
      _ = U := withDensity_one
  have hUF : A ≤ U.bind F := by
    refine Measure.le_iff.2 fun B hB => ?_
    rw [Measure.bind_apply hB F.measurable.aemeasurable, hA, withDensity_apply _ hB, hU, Measure.restrict_restrict hB, inter_comm,
      ← hitRun_first_law hn ht htol hh fb hd hw hb hemp hν hB (S := S) (e := e)]
    apply lintegral_mono_ae
    rw [ae_restrict_iff' hK]
    filter_upwards [ae_interior hd hw] with x hx hxK
    exact hF.first x (hx hxK) B hB
  have hδ : A univ + (Dom.base d).redraw (stdLaw (Dom.base d).len) = volume (Dom.base d).pts := by
    rw [hA, withDensity_apply _ MeasurableSet.univ, Measure.restrict_univ]
    unfold Dom.redraw
    rw [← lintegral_add_left ha]
    have : ∀ x, stdLaw (Dom.base d).len {v | (Dom.base d).Long v x} + stdLaw (Dom.base d).len {v | ¬ (Dom.base d).Long v x} = 1 := by
      intro x
      have hs : MeasurableSet {v | (Dom.base d).Long v x} := hL.preimage (measurable_prodMk_right (y := x))
      rw [← prob_add_prob_compl (μ := stdLaw (Dom.base d).len) hs]
      rfl
    simp only [this, lintegral_one, hU, Measure.restrict_apply_univ]
  have hbind : (c • U).bind F = c • U.bind F := by
    ext B hB
    rw [Measure.bind_apply hB F.measurable.aemeasurable, lintegral_smul_measure, Measure.smul_apply, Measure.bind_apply hB F.measurable.aemeasurable]
  have hUS : (ProbabilityTheory.cond volume (Dom.base d).pts) (interior (Dom.base d).pts)ᶜ = 0 := by
    rw [hcond, Measure.smul_apply, hU, Measure.restrict_apply isOpen_interior.measurableSet.compl, smul_eq_mul]
    have : volume ((interior (Dom.base d).pts)ᶜ ∩ (Dom.base d).pts) = 0 := by
      rw [measure_eq_zero_iff_ae_notMem]
      filter_upwards [ae_interior hd hw] with x hx hxm
      exact hxm.1 (hx hxm.2)
    rw [this, mul_zero]
  have h := (hitRun_overlap hn ht htol hh fb hd hw hb hemp hn1 hR0 hR hF hin).approaches isOpen_interior.measurableSet h0 hs
    (U := ProbabilityTheory.cond volume (Dom.base d).pts) (A := c • A) hUS
    (by rw [hcond]; exact Measure.le_iff.2 fun B _ => by
          rw [Measure.smul_apply, Measure.smul_apply]; exact mul_le_mul_right (hAU B) c)
    (by rw [hcond, hbind]; exact Measure.le_iff.2 fun B _ => by
          rw [Measure.smul_apply, Measure.smul_apply]; exact mul_le_mul_right (hUF B) c)
    (β := c * (Dom.base d).redraw (stdLaw (Dom.base d).len))
    (by rw [Measure.smul_apply, smul_eq_mul, ← mul_add, hδ, hc, ENNReal.inv_mul_cancel hV hVt])
    k (g := B.indicator 1) (measurable_one.indicator hB) (o := 1) fun x _ y _ => le_trans (indicator_le_self' (fun _ _ => zero_le) x) le_add_self
  simpa [lintegral_indicator_one hB] using h

end

/-! ## Such kernels exist -/

theorem section_boundary_null {n : ℕ} {K : Set (Fin n → ℝ)} (hK : Convex ℝ K) {x : Fin n → ℝ} (hx : x ∈ interior K) (u : Fin n → ℝ) :
    volume {t : ℝ | x + t • u ∈ K \ interior K} = 0 := by
  have key : ∀ c : ℝ, 0 < c → c < 1 → ∀ t : ℝ, x + t • u ∈ K → x + (c * t) • u ∈ interior K := by
    intro c h0 h1 t ht
    refine hK.openSegment_interior_self_subset_interior hx ht ⟨1 - c, c, by linarith, h0, by ring, ?_⟩
    rw [smul_add, smul_smul, ← add_assoc, ← add_smul]
    congr 1
    rw [show (1 - c + c : ℝ) = 1 by ring, one_smul]
  have hp : ({t : ℝ | x + t • u ∈ K \ interior K} ∩ Ioi 0).Subsingleton := by
    have : ∀ s t : ℝ, 0 < s → s < t → x + s • u ∉ interior K → x + t • u ∈ K → False := fun s t h0 hst hs ht => by
      have htp : 0 < t := h0.trans hst
      refine hs ?_
      have := key (s / t) (by positivity) ((div_lt_one htp).2 hst) t ht
      rwa [div_mul_cancel₀ _ htp.ne'] at this
    intro s hs t ht
    rcases lt_trichotomy s t with h | h | h
    · exact (this s t hs.2 h hs.1.2 ht.1.1).elim
    · exact h
    · exact (this t s ht.2 h ht.1.2 hs.1.1).elim
  have hm : ({t : ℝ | x + t • u ∈ K \ interior K} ∩ Iio 0).Subsingleton := by
    have : ∀ s t : ℝ, s < 0 → t < s → x + s • u ∉ interior K → x + t • u ∈ K → False := fun s t h0 hst hs ht => by
      have htp : t < 0 := hst.trans h0
      refine hs ?_
      have := key (s / t) (div_pos_of_neg_of_neg h0 htp) ((div_lt_one_of_neg htp).2 hst) t ht
      rwa [div_mul_cancel₀ _ htp.ne] at this
    intro s hs t ht
    rcases lt_trichotomy s t with h | h | h
    · exact (this t s ht.2 h ht.1.2 hs.1.1).elim
    · exact h
    · exact (this s t hs.2 h hs.1.2 ht.1.1).elim
  refine measure_mono_null (t := ({t : ℝ | x + t • u ∈ K \ interior K} ∩ Ioi 0) ∪ ({t : ℝ | x + t • u ∈ K \ interior K} ∩ Iio 0)) ?_
    (measure_union_null (hp.measure_zero _) (hm.measure_zero _))
  intro t ht
  rcases lt_trichotomy t 0 with h | h | h
  · exact Or.inr ⟨ht, h⟩
  · subst h
    have h2 := ht.2
    rw [zero_smul, add_zero] at h2
    exact absurd hx h2
  · exact Or.inl ⟨ht, h⟩

section
variable {nnls : NNLS} (hn : SolvesConsistent nnls) {TOL tol : ℝ} (ht : 0 < TOL) (htol : 0 < tol) {he : HullExtent}
  (hh : HullExtentExact he) (fb : CornerOracle) {d : Base} (hd : Smooth d) (hw : d.WF) (hb : Bornology.IsBounded (Dom.base d).pts)
  {S : Solver} {e : Option Bool} (hemp : e ≠ some true) {ν : Measure (Fin (Dom.base d).len → ℝ)} [IsProbabilityMeasure ν] (hν : ν {0} = 0)
include hn ht htol hh hd hw hb hemp hν

/-- There are kernels as assumed in `hitRun_forgets` and `hitRun_converges`. -/
theorem hitKernel_inside : ∃ F, HitKernel nnls TOL tol he fb (.base d) S e ν F ∧ ∀ x ∈ interior (Dom.base d).pts, F x (interior (Dom.base d).pts)ᶜ = 0 := by
  obtain ⟨F, hF⟩ := hitKernel_exists hn ht htol hh fb hd hw hb hemp hν (S := S) (e := e)
  haveI := hF.markov
  set I := interior (Dom.base d).pts with hI
  have hIm : MeasurableSet I := isOpen_interior.measurableSet
  have hν' : ∀ᵐ v ∂ν, v ≠ 0 := by
    rw [measure_eq_zero_iff_ae_notMem] at hν
    exact hν
  let G : ProbabilityTheory.Kernel (Fin (Dom.base d).len → ℝ) (Fin (Dom.base d).len → ℝ) :=
    { toFun := fun x => (F x).restrict I + (F x Iᶜ) • Measure.dirac x
      measurable' := by
        refine Measure.measurable_of_measurable_coe _ fun B hB => ?_
        simp only [Measure.add_apply, Measure.smul_apply, smul_eq_mul, Measure.restrict_apply hB]
        exact (F.measurable_coe (hB.inter hIm)).add ((F.measurable_coe hIm.compl).mul ((Measure.measurable_coe hB).comp Measure.measurable_dirac)) }
  have hG : ∀ x, G x = (F x).restrict I + (F x Iᶜ) • Measure.dirac x := fun x => rfl
  refine ⟨G, ⟨⟨fun x => ⟨?_⟩⟩, fun x hx B hB => ?_⟩, fun x hx => ?_⟩
  · rw [hG, Measure.add_apply, Measure.smul_apply, measure_univ (μ := Measure.dirac x), smul_eq_mul, mul_one, Measure.restrict_apply_univ]
    exact prob_add_prob_compl hIm
  · rw [hG, Measure.add_apply, Measure.restrict_apply hB]
    refine le_trans (le_trans (le_of_eq ?_) (hF.first x hx (B ∩ I) (hB.inter hIm))) le_self_add
    refine lintegral_congr_ae (hν'.mono fun v hv => ?_)
    show hitProb nnls TOL tol he fb (.base d) S e B v x = hitProb nnls TOL tol he fb (.base d) S e (B ∩ I) v x
    rw [hitProb_eq hn ht htol hh fb hd hw hb hemp hv hx hB, hitProb_eq hn ht htol hh fb hd hw hb hemp hv hx (hB.inter hIm)]
    unfold hitMass
    congr 2
    refine measure_congr ?_
    have hnull := section_boundary_null (pts_convex (.base d)) hx (dirOf v)
    rw [measure_eq_zero_iff_ae_notMem] at hnull
    filter_upwards [hnull] with t ht
    refine propext ⟨fun h => ⟨h.1, h.2, ?_⟩, fun h => ⟨h.1, h.2.1⟩⟩
    by_contra hno
    exact ht ⟨h.1, hno⟩
  · rw [hG, Measure.add_apply, Measure.smul_apply, Measure.restrict_apply hIm.compl, Set.compl_inter_self, measure_empty, zero_add, smul_eq_mul,
      Measure.dirac_apply' _ hIm.compl, indicator_of_notMem (by simpa using hx), mul_zero]

end

/-- The triangle has diameter at most two and its rate is below one. -/
example : (∀ x ∈ (Dom.base (.linineq triLQ)).pts, ∀ y ∈ (Dom.base (.linineq triLQ)).pts, len2 (x - y) ≤ 2) ∧
    hitRate 2 2 (volume (Dom.base (.linineq triLQ)).pts) < 1 := by
  constructor
  · intro x hx y hy
    obtain ⟨h1, h2, h3, h4, -⟩ := (tri_pts x).1 hx
    obtain ⟨g1, g2, g3, g4, -⟩ := (tri_pts y).1 hy
    unfold len2
    rw [Real.sqrt_le_left (by norm_num)]
    have key : ∀ a b : Fin 2 → ℝ, 0 ≤ a 0 → 0 ≤ a 1 → a 0 ≤ 1 → a 1 ≤ 1 → 0 ≤ b 0 → 0 ≤ b 1 → b 0 ≤ 1 → b 1 ≤ 1 → ∑ i, ((a - b) i) ^ 2 ≤ 2 ^ 2 := by
      intro a b a1 a2 a3 a4 b1 b2 b3 b4
      rw [Fin.sum_univ_two]
      simp only [Pi.sub_apply]
      nlinarith
    exact key x y h1 h2 h3 h4 g1 g2 g3 g4
  · refine hitRate_lt_one two_pos ?_
    have hsub : Icc (0 : Fin 2 → ℝ) (fun _ => 1 / 2) ⊆ (Dom.base (.linineq triLQ)).pts := by
      intro x hx
      have a0 := hx.1 0; have a1 := hx.1 1; have b0 := hx.2 0; have b1 := hx.2 1
      simp only [Pi.zero_apply] at a0 a1 b0 b1
      refine (tri_pts x).2 ⟨a0, a1, by linarith, by linarith, by linarith⟩
    have hvol : (2 : ℝ≥0∞) * ENNReal.ofReal ((2 / 10 ^ 7) ^ 2) < volume (Icc (0 : Fin 2 → ℝ) (fun _ => 1 / 2)) := by
      rw [Real.volume_Icc_pi]
      simp only [Pi.zero_apply, sub_zero, Finset.prod_const, Finset.card_univ, Fintype.card_fin]
      rw [← ENNReal.ofReal_pow (by norm_num), ← ENNReal.ofReal_ofNat, ← ENNReal.ofReal_mul (by norm_num), ENNReal.ofReal_lt_ofReal_iff (by norm_num)]
      norm_num
    exact lt_of_lt_of_le hvol (measure_mono hsub)

end Verif.Domain
