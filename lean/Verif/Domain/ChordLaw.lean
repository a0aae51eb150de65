import Mathlib.MeasureTheory.Measure.Prod
import Mathlib.MeasureTheory.Measure.Lebesgue.Basic
import Mathlib.MeasureTheory.Measure.Haar.OfBasis
import Mathlib.MeasureTheory.Group.Arithmetic

/-!
# Moving a random point along its chord (C119)

A point of a set moves to a random point of the chord through it; a uniformly distributed point stays uniformly distributed.
-/

namespace Verif.Domain

open MeasureTheory Set
open scoped ENNReal

section
variable {V : Type} [AddCommGroup V] [Module ℝ V] [MeasurableSpace V] [MeasurableAdd₂ V] [MeasurableSMul₂ ℝ V]

/-- The length of the chord of `K` through `x` in the direction `u` (in multiples of `u`). -/
noncomputable def chord (K : Set V) (u x : V) : ℝ≥0∞ := volume {t : ℝ | x + t • u ∈ K}

theorem chord_shift (K : Set V) (u x : V) (t : ℝ) : chord K u (x + t • u) = chord K u x := by
  unfold chord
  have h : {s : ℝ | x + t • u + s • u ∈ K} = (fun s => t + s) ⁻¹' {s : ℝ | x + s • u ∈ K} := by
    ext s
    simp only [mem_ofPred_eq, mem_preimage, add_smul, add_assoc]
  rw [h, measure_preimage_add]

theorem measurable_line (u : V) : Measurable (fun q : V × ℝ => q.1 + q.2 • u) :=
  measurable_fst.add (measurable_snd.smul_const u)

theorem measurable_chord {K : Set V} (hK : MeasurableSet K) (u : V) : Measurable (chord K u) := by
  have := measurable_measure_prodMk_left (ν := (volume : Measure ℝ)) (measurable_line u hK)
  exact this

theorem chord_neg (K : Set V) (u x : V) : volume {t : ℝ | x - t • u ∈ K} = chord K u x := by
  unfold chord
  have h : {t : ℝ | x - t • u ∈ K} = (fun t => -1 * t) ⁻¹' {t : ℝ | x + t • u ∈ K} := by
    ext t
    simp only [mem_ofPred_eq, mem_preimage, neg_mul, one_mul, neg_smul, sub_eq_add_neg]
  rw [h, Real.volume_preimage_mul_left (by norm_num)]
  simp

open Classical in
/-- A point of the chord, drawn with density `1 / length`: the total over a set `K` equals the part of `K` with long chords. -/
theorem chord_mean {μ : Measure V} [SFinite μ] {u : V} (hμ : ∀ t : ℝ, MeasurePreserving (fun x => x + t • u) μ μ) {K B : Set V}
    (hK : MeasurableSet K) (hB : MeasurableSet B) (c : ℝ≥0∞) (hfin : ∀ᵐ x ∂μ, x ∈ K → chord K u x < ∞) :
    ∫⁻ x, (if x ∈ K ∧ c < chord K u x then (chord K u x)⁻¹ * volume {t : ℝ | x + t • u ∈ K ∩ B} else 0) ∂μ =
      μ {x | x ∈ K ∧ x ∈ B ∧ c < chord K u x} := by
  have hlen := measurable_chord hK u
  have hlong : MeasurableSet {x | c < chord K u x} := hlen measurableSet_Ioi
  let G : V → ℝ≥0∞ := K.indicator 1
  let F : V → ℝ≥0∞ := (K ∩ B ∩ {x | c < chord K u x}).indicator (fun x => (chord K u x)⁻¹)
  have hG : Measurable G := measurable_one.indicator hK
  have hF : Measurable F := hlen.inv.indicator ((hK.inter hB).inter hlong)
  have h1 : ∀ x, (if x ∈ K ∧ c < chord K u x then (chord K u x)⁻¹ * volume {t : ℝ | x + t • u ∈ K ∩ B} else 0) =
      ∫⁻ t : ℝ, G x * F (x + t • u) := by
    intro x
    have hm : MeasurableSet {t : ℝ | x + t • u ∈ K ∩ B} := (measurable_line u).comp measurable_prodMk_left (hK.inter hB)
    split
    · rename_i hx
      have : ∀ t : ℝ, G x * F (x + t • u) = {t : ℝ | x + t • u ∈ K ∩ B}.indicator (fun _ => (chord K u x)⁻¹) t := by
        intro t
        simp only [G, F, indicator_of_mem hx.1, Pi.one_apply, one_mul, indicator_apply, mem_inter_iff, mem_ofPred_eq, chord_shift, hx.2,
          and_true]
      simp only [this]
      rw [lintegral_indicator hm, lintegral_const, Measure.restrict_apply_univ]
    · rename_i hx
      have : ∀ t : ℝ, G x * F (x + t • u) = 0 := by
        intro t
        by_cases hxK : x ∈ K
        · have hc : ¬ c < chord K u x := fun h => hx ⟨hxK, h⟩
          simp only [F, indicator_apply, mem_inter_iff, mem_ofPred_eq, chord_shift, hc, and_false, if_false, mul_zero]
        · simp only [G, indicator_of_notMem hxK, zero_mul]
      simp only [this, lintegral_zero]
  have h2 : ∀ x, ∫⁻ t : ℝ, F x * G (x - t • u) = F x * chord K u x := by
    intro x
    have hm : MeasurableSet {t : ℝ | x - t • u ∈ K} := by
      have : Measurable (fun t : ℝ => x - t • u) := by
        simp only [sub_eq_add_neg, ← neg_smul]
        exact (measurable_line u).comp (measurable_prodMk_left.comp measurable_neg)
      exact this hK
    have hg : Measurable (fun t : ℝ => G (x - t • u)) := by
      have : Measurable (fun t : ℝ => x - t • u) := by
        simp only [sub_eq_add_neg, ← neg_smul]
        exact (measurable_line u).comp (measurable_prodMk_left.comp measurable_neg)
      exact hG.comp this
    rw [lintegral_const_mul _ hg]
    · congr 1
      rw [← chord_neg K u x]
      have : ∀ t : ℝ, G (x - t • u) = {t : ℝ | x - t • u ∈ K}.indicator 1 t := by
        intro t
        simp only [G, indicator_apply, mem_ofPred_eq, Pi.one_apply]
      simp only [this]
      rw [lintegral_indicator_one hm]
  calc ∫⁻ x, (if x ∈ K ∧ c < chord K u x then (chord K u x)⁻¹ * volume {t : ℝ | x + t • u ∈ K ∩ B} else 0) ∂μ
      = ∫⁻ x, (∫⁻ t : ℝ, G x * F (x + t • u)) ∂μ := by simp only [h1]
    _ = ∫⁻ t : ℝ, ∫⁻ x, G x * F (x + t • u) ∂μ := by
        apply lintegral_lintegral_swap
        exact ((hG.comp measurable_fst).mul (hF.comp (measurable_line u))).aemeasurable
    _ = ∫⁻ t : ℝ, ∫⁻ x, F x * G (x - t • u) ∂μ := by
        congr 1
        funext t
        have hme : Measurable (fun x => F x * G (x - t • u)) := by
          have : Measurable (fun x : V => x - t • u) := by
            simp only [sub_eq_add_neg]; exact measurable_id.add_const _
          exact hF.mul (hG.comp this)
        rw [← (hμ t).lintegral_comp hme]
        congr 1
        funext x
        rw [add_sub_cancel_right, mul_comm]
    _ = ∫⁻ x, (∫⁻ t : ℝ, F x * G (x - t • u)) ∂μ := by
        symm
        apply lintegral_lintegral_swap
        have : Measurable (fun q : V × ℝ => q.1 - q.2 • u) := by
          simp only [sub_eq_add_neg, ← neg_smul]
          exact measurable_fst.add (measurable_snd.neg.smul_const u)
        exact ((hF.comp measurable_fst).mul (hG.comp this)).aemeasurable
    _ = ∫⁻ x, F x * chord K u x ∂μ := by simp only [h2]
    _ = ∫⁻ x, {x | x ∈ K ∧ x ∈ B ∧ c < chord K u x}.indicator 1 x ∂μ := by
        apply lintegral_congr_ae
        filter_upwards [hfin] with x hx
        by_cases h : x ∈ K ∧ x ∈ B ∧ c < chord K u x
        · have hF' : F x = (chord K u x)⁻¹ := indicator_of_mem (show x ∈ K ∩ B ∩ {x | c < chord K u x} from ⟨⟨h.1, h.2.1⟩, h.2.2⟩) _
          rw [indicator_of_mem (show x ∈ {x | x ∈ K ∧ x ∈ B ∧ c < chord K u x} from h), hF',
            ENNReal.inv_mul_cancel (pos_of_gt h.2.2).ne' (hx h.1).ne]
          rfl
        · have hF' : F x = 0 := indicator_of_notMem (fun hc => h ⟨hc.1.1, hc.1.2, hc.2⟩) _
          rw [indicator_of_notMem (show x ∉ {x | x ∈ K ∧ x ∈ B ∧ c < chord K u x} from h), hF', zero_mul]
    _ = μ {x | x ∈ K ∧ x ∈ B ∧ c < chord K u x} := by
        rw [lintegral_indicator_one]
        exact hK.inter (hB.inter hlong)

/-- The uniform random number `w` of the unit interval, mapped onto the chord. -/
theorem chord_draw {K B : Set V} {u x : V} {lo hi : ℝ} (hB : MeasurableSet B) (hlt : lo < hi) (h : ∀ t : ℝ, x + t • u ∈ K ↔ lo ≤ t ∧ t ≤ hi) :
    volume {w : ℝ | w ∈ Icc (0 : ℝ) 1 ∧ x + (lo + (hi - lo) * w) • u ∈ B} = (chord K u x)⁻¹ * volume {t : ℝ | x + t • u ∈ K ∩ B} := by
  have hset : {t : ℝ | x + t • u ∈ K} = Icc lo hi := by ext t; exact h t
  have hc : chord K u x = ENNReal.ofReal (hi - lo) := by
    unfold chord
    rw [hset, Real.volume_Icc]
  have hpos : 0 < hi - lo := by linarith
  have e : {w : ℝ | w ∈ Icc (0 : ℝ) 1 ∧ x + (lo + (hi - lo) * w) • u ∈ B} =
      (fun w => (hi - lo) * w) ⁻¹' ((fun t => lo + t) ⁻¹' {t : ℝ | x + t • u ∈ K ∩ B}) := by
    ext w
    simp only [mem_ofPred_eq, mem_preimage, mem_inter_iff, h, mem_Icc]
    refine and_congr_left fun _ => ?_
    constructor
    · rintro ⟨h1, h2⟩; constructor <;> nlinarith
    · rintro ⟨h1, h2⟩
      constructor
      · by_contra hc; push Not at hc; nlinarith
      · by_contra hc; push Not at hc; nlinarith
  rw [e, Real.volume_preimage_mul_left hpos.ne', measure_preimage_add, hc, abs_of_pos (inv_pos.2 hpos),
    ENNReal.ofReal_inv_of_pos hpos]

end

end Verif.Domain
