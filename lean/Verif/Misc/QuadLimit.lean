import Mathlib.Topology.ContinuousMap.StoneWeierstrass
import Mathlib.Topology.MetricSpace.ThickenedIndicator
import Mathlib.MeasureTheory.Integral.Pi
import Mathlib.MeasureTheory.Integral.DominatedConvergence
import Mathlib.MeasureTheory.Measure.Lebesgue.Basic
import Mathlib.MeasureTheory.Integral.IntervalIntegral.Basic
import Mathlib.Algebra.MvPolynomial.Degrees
import Mathlib.Algebra.MvPolynomial.CommRing
import Mathlib.Topology.Algebra.MvPolynomial

/-!
# Convergence of positive rules

General facts about sequences of positive linear rules on a box: polynomials suffice for convergence on continuous functions,
and continuous functions suffice for sets whose boundary has measure zero.
-/

namespace Verif.Misc

open MeasureTheory Filter Topology

variable {m : ℕ}

/-- A positive linear functional on functions on the set `K`. -/
structure PosRule (K : Set (Fin m → ℝ)) (Q : ((Fin m → ℝ) → ℝ) → ℝ) : Prop where
  add : ∀ f g, Q (fun x => f x + g x) = Q f + Q g
  smul : ∀ (c : ℝ) f, Q (fun x => c * f x) = c * Q f
  mono : ∀ f g, (∀ x ∈ K, f x ≤ g x) → Q f ≤ Q g

theorem PosRule.sub {K : Set (Fin m → ℝ)} {Q} (h : PosRule K Q) (f g) : Q (fun x => f x - g x) = Q f - Q g := by
  have e : (fun x => f x - g x) = fun x => f x + (-1) * g x := by funext x; ring
  rw [e, h.add, h.smul]
  ring

theorem PosRule.congr {K : Set (Fin m → ℝ)} {Q} (h : PosRule K Q) {f g} (he : ∀ x ∈ K, f x = g x) : Q f = Q g :=
  le_antisymm (h.mono _ _ fun x hx => (he x hx).le) (h.mono _ _ fun x hx => (he x hx).ge)

theorem PosRule.abs_le {K : Set (Fin m → ℝ)} {Q} (h : PosRule K Q) {f} {c : ℝ} (hf : ∀ x ∈ K, |f x| ≤ c) :
    |Q f| ≤ c * Q (fun _ => 1) := by
  have e : Q (fun _ => c * 1) = c * Q (fun _ => 1) := h.smul c _
  rw [_root_.abs_le, ← e]
  constructor
  · have := h.smul (-1) (fun _ => c * 1)
    have h2 := h.mono (fun _ => -1 * (c * 1)) f fun x hx => by have := (_root_.abs_le.1 (hf x hx)).1; linarith
    linarith
  · exact h.mono _ _ fun x hx => by have := (_root_.abs_le.1 (hf x hx)).2; linarith

/-- Polynomials are dense in the continuous functions on a compact set. -/
theorem exists_mvPoly_near {K : Set (Fin m → ℝ)} (hK : IsCompact K) (f : (Fin m → ℝ) → ℝ) (hf : ContinuousOn f K) (ε : ℝ)
    (hε : 0 < ε) : ∃ p : MvPolynomial (Fin m) ℝ, ∀ x ∈ K, |MvPolynomial.eval x p - f x| < ε := by
  haveI : CompactSpace K := isCompact_iff_compactSpace.1 hK
  let X : Fin m → C(K, ℝ) := fun i => ⟨fun x => x.1 i, (continuous_apply i).comp continuous_subtype_val⟩
  let A : Subalgebra ℝ C(K, ℝ) := (MvPolynomial.aeval (R := ℝ) X).range
  have hA : A.SeparatesPoints := by
    intro x y hxy
    have : ∃ i, x.1 i ≠ y.1 i := by
      by_contra h
      push Not at h
      exact hxy (Subtype.ext (funext h))
    obtain ⟨i, hi⟩ := this
    exact ⟨X i, ⟨X i, ⟨MvPolynomial.X i, by simp⟩, rfl⟩, hi⟩
  obtain ⟨⟨g, p, rfl⟩, hg⟩ := ContinuousMap.exists_mem_subalgebra_near_continuous_of_separatesPoints A hA (K.restrict f)
    (continuousOn_iff_continuous_restrict.1 hf) ε hε
  refine ⟨p, fun x hx => ?_⟩
  have h := hg ⟨x, hx⟩
  have e : (MvPolynomial.aeval (R := ℝ) X p : C(K, ℝ)) ⟨x, hx⟩ = MvPolynomial.eval x p := by
    clear hg h
    induction p using MvPolynomial.induction_on with
    | C a => simp
    | add p q hp hq => simp [hp, hq]
    | mul_X p i hp =>
      rw [map_mul, map_mul, ContinuousMap.mul_apply, hp]
      simp [X]
  rw [← e]
  exact h

/-- Rules that are eventually exact for each polynomial converge for each continuous function. -/
theorem rule_converges {l h : Fin m → ℝ} {Q : ℕ → ((Fin m → ℝ) → ℝ) → ℝ} (hQ : ∀ n, PosRule (Set.Icc l h) (Q n))
    (hex : ∀ p : MvPolynomial (Fin m) ℝ, ∀ᶠ n in atTop, Q n (fun x => MvPolynomial.eval x p) =
      ∫ x in Set.Icc l h, MvPolynomial.eval x p) (f : (Fin m → ℝ) → ℝ) (hf : ContinuousOn f (Set.Icc l h)) :
    Tendsto (fun n => Q n f) atTop (𝓝 (∫ x in Set.Icc l h, f x)) := by
  set V := (volume (Set.Icc l h)).toReal with hV
  have hV0 : 0 ≤ V := ENNReal.toReal_nonneg
  have hc : IsCompact (Set.Icc l h) := isCompact_Icc
  rw [Metric.tendsto_atTop]
  intro ε hε
  have hden : 0 < 2 * V + 1 := by linarith
  set δ := ε / (2 * V + 1) with hδ
  have hδ0 : 0 < δ := div_pos hε hden
  obtain ⟨p, hp⟩ := exists_mvPoly_near hc f hf δ hδ0
  have hone : ∫ x in Set.Icc l h, MvPolynomial.eval x (1 : MvPolynomial (Fin m) ℝ) = V := by
    simp [hV, Measure.real]
  obtain ⟨n0, hn0⟩ := eventually_atTop.1 ((hex p).and (hex 1))
  refine ⟨n0, fun n hn => ?_⟩
  obtain ⟨hp1, h1⟩ := hn0 n hn
  rw [hone] at h1
  simp only [map_one] at h1
  have ha : |Q n (fun x => MvPolynomial.eval x p - f x)| ≤ δ * V := by
    rw [← h1]
    exact (hQ n).abs_le fun x hx => (hp x hx).le
  rw [(hQ n).sub] at ha
  have hpc : Continuous fun x : Fin m → ℝ => MvPolynomial.eval x p := MvPolynomial.continuous_eval p
  have hb : |∫ x in Set.Icc l h, (MvPolynomial.eval x p - f x)| ≤ δ * V :=
    norm_setIntegral_le_of_norm_le_const (f := fun x => MvPolynomial.eval x p - f x) hc.measure_lt_top
      fun x hx => (hp x hx).le
  rw [integral_sub (hpc.continuousOn.integrableOn_compact hc) (hf.integrableOn_compact hc), ← hp1] at hb
  rw [Real.dist_eq]
  have h3 : δ * (2 * V + 1) = ε := div_mul_cancel₀ _ hden.ne'
  have := abs_sub_le (Q n f) (Q n fun x => MvPolynomial.eval x p) (∫ x in Set.Icc l h, f x)
  rw [abs_sub_comm] at ha
  nlinarith

theorem tI_tendsto (E : Set (Fin m → ℝ)) (x : Fin m → ℝ) :
    Tendsto (fun n : ℕ => ((thickenedIndicator (δ := 1 / ((n : ℝ) + 1)) (by positivity) E x : NNReal) : ℝ)) atTop
      (𝓝 ((closure E).indicator (fun _ => (1 : ℝ)) x)) := by
  have h := thickenedIndicator_tendsto_indicator_closure (δseq := fun n : ℕ => 1 / ((n : ℝ) + 1)) (fun n => by positivity)
    tendsto_one_div_add_atTop_nhds_zero_nat E
  rw [tendsto_pi_nhds] at h
  have h2 := (NNReal.tendsto_coe.2 (h x))
  convert h2 using 2
  by_cases hx : x ∈ closure E <;> simp [hx]

/-- Rules that converge for continuous functions converge on sets whose boundary has measure zero: nonnegative functions. -/
theorem rule_cut_nonneg {K : Set (Fin m → ℝ)} (hK : IsCompact K) {Q : ℕ → ((Fin m → ℝ) → ℝ) → ℝ} (hQ : ∀ n, PosRule K (Q n))
    (hcv : ∀ f, ContinuousOn f K → Tendsto (fun n => Q n f) atTop (𝓝 (∫ x in K, f x))) (D : Set (Fin m → ℝ))
    (hD : volume (frontier D) = 0) (f : (Fin m → ℝ) → ℝ) (hf : ContinuousOn f K) (h0 : ∀ x ∈ K, 0 ≤ f x) :
    Tendsto (fun n => Q n (D.indicator f)) atTop (𝓝 (∫ x in K, D.indicator f x)) := by
  have hKm : MeasurableSet K := hK.measurableSet
  -- continuous bounds from above and below
  let u : ℕ → (Fin m → ℝ) → ℝ := fun k x => ((thickenedIndicator (δ := 1 / ((k : ℝ) + 1)) (by positivity) D x : NNReal) : ℝ)
  let v : ℕ → (Fin m → ℝ) → ℝ := fun k x => 1 - ((thickenedIndicator (δ := 1 / ((k : ℝ) + 1)) (by positivity) Dᶜ x : NNReal) : ℝ)
  have hu : ∀ k, Continuous (u k) := fun k => NNReal.continuous_coe.comp (thickenedIndicator _ D).continuous
  have hv : ∀ k, Continuous (v k) := fun k => continuous_const.sub (NNReal.continuous_coe.comp (thickenedIndicator _ Dᶜ).continuous)
  have hu1 : ∀ k x, u k x ≤ 1 := fun k x => by exact_mod_cast thickenedIndicator_le_one _ D x
  have hu0 : ∀ k x, 0 ≤ u k x := fun k x => NNReal.coe_nonneg _
  have hv0 : ∀ k x, 0 ≤ v k x := fun k x => sub_nonneg.2 (by exact_mod_cast thickenedIndicator_le_one _ Dᶜ x)
  have hv1 : ∀ k x, v k x ≤ 1 := fun k x => sub_le_self _ (NNReal.coe_nonneg _)
  have hle : ∀ k, ∀ x ∈ K, D.indicator f x ≤ u k x * f x := by
    intro k x hx
    by_cases hxD : x ∈ D
    · have : u k x = 1 := by
        have := thickenedIndicator_one (δ := 1 / ((k : ℝ) + 1)) (by positivity) D hxD
        simp only [u, this, NNReal.coe_one]
      simp [hxD, this]
    · rw [Set.indicator_of_notMem hxD]
      exact mul_nonneg (hu0 k x) (h0 x hx)
  have hge : ∀ k, ∀ x ∈ K, v k x * f x ≤ D.indicator f x := by
    intro k x hx
    by_cases hxD : x ∈ D
    · rw [Set.indicator_of_mem hxD]
      exact mul_le_of_le_one_left (h0 x hx) (hv1 k x)
    · have : v k x = 0 := by
        have := thickenedIndicator_one (δ := 1 / ((k : ℝ) + 1)) (by positivity) Dᶜ hxD
        simp only [v, this, NNReal.coe_one, sub_self]
      simp [hxD, this]
  have hfi : Integrable f (volume.restrict K) := hf.integrableOn_compact hK
  have hae : ∀ᵐ x ∂(volume.restrict K), x ∉ frontier D :=
    ae_restrict_of_ae (measure_eq_zero_iff_ae_notMem.1 hD)
  have hfm : AEStronglyMeasurable f (volume.restrict K) := hfi.1
  -- the integrals of the bounds
  have hlu : Tendsto (fun k => ∫ x in K, u k x * f x) atTop (𝓝 (∫ x in K, D.indicator f x)) := by
    refine tendsto_integral_of_dominated_convergence (fun x => |f x|) (fun k => (hu k).aestronglyMeasurable.mul hfm) hfi.abs
      (fun k => Eventually.of_forall fun x => ?_) ?_
    · rw [Real.norm_eq_abs, abs_mul, abs_of_nonneg (hu0 k x)]
      exact mul_le_of_le_one_left (abs_nonneg _) (hu1 k x)
    · filter_upwards [hae] with x hx
      have h1 := (tI_tendsto D x).mul_const (f x)
      convert h1 using 2
      by_cases hxD : x ∈ D
      · simp [hxD, subset_closure hxD]
      · have : x ∉ closure D := fun hc => hx ⟨hc, fun hi => hxD (interior_subset hi)⟩
        simp [hxD, this]
  have hlv : Tendsto (fun k => ∫ x in K, v k x * f x) atTop (𝓝 (∫ x in K, D.indicator f x)) := by
    refine tendsto_integral_of_dominated_convergence (fun x => |f x|) (fun k => (hv k).aestronglyMeasurable.mul hfm) hfi.abs
      (fun k => Eventually.of_forall fun x => ?_) ?_
    · rw [Real.norm_eq_abs, abs_mul, abs_of_nonneg (hv0 k x)]
      exact mul_le_of_le_one_left (abs_nonneg _) (hv1 k x)
    · filter_upwards [hae] with x hx
      have h1 := ((tI_tendsto Dᶜ x).const_sub 1).mul_const (f x)
      convert h1 using 2
      by_cases hxD : x ∈ D
      · have : x ∉ closure Dᶜ := fun hc => hx ⟨subset_closure hxD, by rwa [closure_compl, Set.mem_compl_iff] at hc⟩
        rw [Set.indicator_of_mem hxD, Set.indicator_of_notMem this]
        ring
      · rw [Set.indicator_of_notMem hxD, Set.indicator_of_mem (subset_closure (s := Dᶜ) hxD)]
        ring
  refine tendsto_order.2 ⟨fun c hc => ?_, fun c hc => ?_⟩
  · obtain ⟨k, hk⟩ := ((tendsto_order.1 hlv).1 c hc).exists
    filter_upwards [(tendsto_order.1 (hcv _ ((hv k).continuousOn.mul hf))).1 c hk] with n hn
    exact hn.trans_le ((hQ n).mono _ _ (hge k))
  · obtain ⟨k, hk⟩ := ((tendsto_order.1 hlu).2 c hc).exists
    filter_upwards [(tendsto_order.1 (hcv _ ((hu k).continuousOn.mul hf))).2 c hk] with n hn
    exact ((hQ n).mono _ _ (hle k)).trans_lt hn

/-- Rules that converge for continuous functions converge on sets whose boundary has measure zero. -/
theorem rule_cut {K : Set (Fin m → ℝ)} (hK : IsCompact K) {Q : ℕ → ((Fin m → ℝ) → ℝ) → ℝ} (hQ : ∀ n, PosRule K (Q n))
    (hcv : ∀ f, ContinuousOn f K → Tendsto (fun n => Q n f) atTop (𝓝 (∫ x in K, f x))) (D : Set (Fin m → ℝ))
    (hDm : MeasurableSet D) (hD : volume (frontier D) = 0) (f : (Fin m → ℝ) → ℝ) (hf : ContinuousOn f K) :
    Tendsto (fun n => Q n (D.indicator f)) atTop (𝓝 (∫ x in K ∩ D, f x)) := by
  obtain ⟨c, hc⟩ := hK.exists_bound_of_continuousOn hf
  have h1 := rule_cut_nonneg hK hQ hcv D hD (fun x => f x + |c|) (hf.add continuousOn_const) fun x hx => by
    have := neg_abs_le (f x)
    have h2 := hc x hx
    rw [Real.norm_eq_abs] at h2
    have := le_abs_self c
    linarith
  have h2 := rule_cut_nonneg hK hQ hcv D hD (fun _ => |c|) continuousOn_const fun x _ => abs_nonneg c
  have h3 := h1.sub h2
  have e : ∀ n, Q n (D.indicator fun x => f x + |c|) - Q n (D.indicator fun _ => |c|) = Q n (D.indicator f) := by
    intro n
    rw [← (hQ n).sub]
    congr 1
    funext x
    by_cases hx : x ∈ D <;> simp [hx]
  simp only [e] at h3
  have hi1 : Integrable (fun x => f x + |c|) (volume.restrict K) :=
    (hf.add continuousOn_const).integrableOn_compact hK
  have hi2 : Integrable (fun _ => |c|) (volume.restrict K) :=
    (continuousOn_const (c := |c|)).integrableOn_compact hK
  rw [← integral_sub (hi1.indicator hDm) (hi2.indicator hDm)] at h3
  convert h3 using 2
  rw [← setIntegral_indicator hDm]
  refine integral_congr_ae (Eventually.of_forall fun x => ?_)
  by_cases hx : x ∈ D <;> simp [hx]

end Verif.Misc
