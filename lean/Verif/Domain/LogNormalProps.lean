import Mathlib.Analysis.SpecialFunctions.Log.Basic
import Verif.Domain.LogNormalModel
import Verif.Domain.SampleProps
import Verif.Domain.Exact

/-!
# Property C23: samples of a log-normal domain lie within its bounds
-/

namespace Verif.Domain

open Classical Verif

/-- The assumptions on the parameters: positive standard deviation, and for a truncated distribution a positive
clip radius and the exact bounds of the underlying normal domain (C14). -/
structure LogN.Ok (d : LogN) : Prop where
  sd : 0 < d.sd
  clip : ∀ c, d.clip = some c → 0 < c ∧ IsLeast {y | d.normal.Holds [y]} d.nlb ∧ IsGreatest {y | d.normal.Holds [y]} d.nub

/-- Every sample, for every stream of standard normal numbers, is a single number within the bounds. -/
def LogN.SamplesInside (d : LogN) : Prop :=
  ∀ (fuel : ℕ) (r : Rand) (draw : ℕ) (X : List Vec), (∀ k i, (r.gauss k i).length = 1) → d.sample fuel r draw = some X →
    X.length = draw ∧ ∀ x ∈ X, ∃ t, x = [t] ∧ XR.le d.lb (.fin t) ∧ XR.le (.fin t) d.ub

theorem logN_holds_iff {d : LogN} (hs : 0 < d.sd) {c : ℝ} (hc : d.clip = some c) (y : ℝ) :
    d.normal.Holds [y] ↔ |y - d.mean| ≤ d.sd * Real.sqrt c := by
  have hn : Vec.norm (Vec.mulVec [[1 / d.sd]] (Vec.sub [y] [d.mean])) = |y - d.mean| / d.sd := by
    simp only [Vec.sub_cons, Vec.sub_nil_left, Vec.mulVec, List.map_cons, List.map_nil, Vec.dot_cons, Vec.dot_nil_left, add_zero,
      Vec.norm, Vec.sumSq_cons, Vec.sumSq_nil, Real.sqrt_sq_eq_abs, abs_mul, abs_of_pos (one_div_pos.2 hs)]
    ring
  have key : Vec.norm (Vec.mulVec [[1 / d.sd]] (Vec.sub [y] [d.mean])) ≤ Real.sqrt c ↔ |y - d.mean| ≤ d.sd * Real.sqrt c := by
    rw [hn, div_le_iff₀ hs, mul_comm]
  rw [← key]
  unfold LogN.normal Base.Holds
  rw [hc]
  constructor
  · rintro ⟨-, h, -⟩
    exact h.quad 0 [[1 / d.sd]] [d.mean] (Real.sqrt c) rfl rfl rfl
  · intro h
    refine ⟨rfl, ⟨?_, ?_, ?_, ?_, ?_⟩, by simp⟩
    · intro i r xi h1; simp [Base.acc] at h1
      rcases i with _ | i <;> simp at h1
    · intro i r xi h1; simp [Base.acc] at h1
      rcases i with _ | i <;> simp at h1
    · intro i row bi h1; simp [Base.acc] at h1
    · intro i row bi h1; simp [Base.acc] at h1
    · intro i L y' rho h1 h2 h3
      rcases i with _ | i
      · simp [Base.acc] at h1 h2 h3
        subst h1; subst h2; subst h3
        simpa using h
      · simp [Base.acc] at h1

theorem xle_fin (a b : ℝ) : XR.le (.fin a) (.fin b) ↔ a ≤ b := by
  simp only [XR.le, XR.lt, XR.eq]
  exact le_iff_lt_or_eq.symm

/-- The bounds of a truncated domain. -/
theorem logN_bounds {d : LogN} (h : d.Ok) {c : ℝ} (hc : d.clip = some c) :
    d.nlb = d.mean - d.sd * Real.sqrt c ∧ d.nub = d.mean + d.sd * Real.sqrt c := by
  obtain ⟨h0, h1, h2⟩ := h.clip c hc
  have e1 : IsLeast {y | d.normal.Holds [y]} (d.mean - d.sd * Real.sqrt c) := by
    have := h.sd
    refine ⟨(logN_holds_iff h.sd hc _).2 ?_, fun y hy => ?_⟩
    · rw [show d.mean - d.sd * Real.sqrt c - d.mean = -(d.sd * Real.sqrt c) by ring, abs_neg, abs_of_nonneg (by positivity)]
    · have := (abs_le.1 ((logN_holds_iff h.sd hc _).1 hy)).1
      linarith
  have e2 : IsGreatest {y | d.normal.Holds [y]} (d.mean + d.sd * Real.sqrt c) := by
    have := h.sd
    refine ⟨(logN_holds_iff h.sd hc _).2 ?_, fun y hy => ?_⟩
    · rw [show d.mean + d.sd * Real.sqrt c - d.mean = (d.sd * Real.sqrt c) by ring, abs_of_nonneg (by positivity)]
    · have := (abs_le.1 ((logN_holds_iff h.sd hc _).1 hy)).2
      linarith
  exact ⟨h1.unique e1, h2.unique e2⟩

theorem logN_sample_spec {d : LogN} (hs : 0 < d.sd) {fuel : ℕ} {r : Rand} (hr : ∀ k i, (r.gauss k i).length = 1) {draw : ℕ} {X : List Vec}
    (h : d.sample fuel r draw = some X) :
    X.length = draw ∧ ∀ x ∈ X, ∃ y, x = [d.offset + d.scaling * Real.exp y] ∧ ∀ c, d.clip = some c → d.normal.Holds [y] := by
  unfold LogN.sample at h
  obtain ⟨Y, hY, rfl⟩ := Option.map_eq_some_iff.1 h
  have hin := normalSample_inside (mean := [d.mean]) (L := [[d.sd]]) (Linv := [[1 / d.sd]]) rfl (by
    intro z hz
    obtain ⟨t, rfl⟩ := List.length_eq_one_iff.1 hz
    simp [Vec.mulVec, hs.ne']) hr hY (fun _ b => b) (le_refl (0 : ℝ))
  refine ⟨by simp [hin.1], fun x hx => ?_⟩
  obtain ⟨w, hw, rfl⟩ := List.mem_map.1 hx
  obtain ⟨l, hi⟩ := hin.2 w hw
  obtain ⟨y, rfl⟩ := List.length_eq_one_iff.1 l
  refine ⟨y, by simp, fun c hc => ?_⟩
  rw [logN_holds_iff hs hc]
  rw [hc] at hi
  have : Vec.norm (Vec.mulVec [[1 / d.sd]] (Vec.sub [y] [d.mean])) ≤ Real.sqrt c + 0 :=
    hi ([[1 / d.sd]], [d.mean], Real.sqrt c) (by simp [Base.acc])
  have hn : Vec.norm (Vec.mulVec [[1 / d.sd]] (Vec.sub [y] [d.mean])) = |y - d.mean| / d.sd := by
    simp only [Vec.sub_cons, Vec.sub_nil_left, Vec.mulVec, List.map_cons, List.map_nil, Vec.dot_cons, Vec.dot_nil_left, add_zero,
      Vec.norm, Vec.sumSq_cons, Vec.sumSq_nil, Real.sqrt_sq_eq_abs, abs_mul, abs_of_pos (one_div_pos.2 hs)]
    ring
  rw [hn, div_le_iff₀ hs] at this
  linarith

/-- **C23**, truncated distributions: all samples lie within the bounds for all random numbers, exactly when the scaling
is nonnegative. -/
theorem lognormal_truncated_inside_iff {d : LogN} (h : d.Ok) (hc : d.clip.isSome) : d.SamplesInside ↔ 0 ≤ d.scaling := by
  obtain ⟨c, hc'⟩ := Option.isSome_iff_exists.1 hc
  obtain ⟨b1, b2⟩ := logN_bounds h hc'
  have hlb : d.lb = .fin (d.offset + d.scaling * Real.exp d.nlb) := by simp [LogN.lb, hc]
  have hub : d.ub = .fin (d.offset + d.scaling * Real.exp d.nub) := by simp [LogN.ub, hc]
  obtain ⟨h0, h1, h2⟩ := h.clip c hc'
  constructor
  · intro H
    by_contra hneg
    push Not at hneg
    obtain ⟨-, hx⟩ := H 1 ⟨fun _ _ => 0, fun _ _ => [0]⟩ 1 [[d.offset + d.scaling * Real.exp d.mean]] (by simp) (by
      simp [LogN.sample, normalSample, hc', rejectLoop, h0.le, Vec.mulVec])
    obtain ⟨t, ht, h3, h4⟩ := hx _ (List.mem_singleton.2 rfl)
    cases ht
    rw [hlb] at h3
    have h3' := (xle_fin _ _).1 h3
    have hlt : Real.exp d.nlb < Real.exp d.mean := by
      rw [Real.exp_lt_exp, b1]
      have := mul_pos h.sd (Real.sqrt_pos.2 h0)
      linarith
    nlinarith
  · intro hsc fuel r draw X hr hX
    obtain ⟨l, hx⟩ := logN_sample_spec h.sd hr hX
    refine ⟨l, fun x hxm => ?_⟩
    obtain ⟨y, rfl, hy⟩ := hx x hxm
    refine ⟨_, rfl, ?_, ?_⟩
    · rw [hlb]
      have := Real.exp_le_exp.2 (h1.2 (hy c hc'))
      rw [xle_fin]
      nlinarith
    · rw [hub]
      have := Real.exp_le_exp.2 (h2.2 (hy c hc'))
      rw [xle_fin]
      nlinarith

/-- **C23**, distributions that are not truncated: all samples lie within the bounds exactly when offset and scaling are
nonnegative (the bounds do not take them into account). -/
theorem lognormal_inside_iff {d : LogN} (h : d.Ok) (hc : d.clip = none) : d.SamplesInside ↔ 0 ≤ d.offset ∧ 0 ≤ d.scaling := by
  have hlb : d.lb = .fin 0 := by simp [LogN.lb, hc]
  have hub : d.ub = .pinf := by simp [LogN.ub, hc]
  have hs := h.sd
  constructor
  · intro H
    have key : ∀ y, 0 ≤ d.offset + d.scaling * Real.exp y := by
      intro y
      obtain ⟨-, hx⟩ := H 1 ⟨fun _ _ => 0, fun _ _ => [(y - d.mean) / d.sd]⟩ 1 [[d.offset + d.scaling * Real.exp y]] (by simp) (by
        simp [LogN.sample, normalSample, hc, Vec.mulVec]
        left
        congr 1
        field_simp
        ring)
      obtain ⟨t, ht, h3, h4⟩ := hx _ (List.mem_singleton.2 rfl)
      cases ht
      rw [hlb] at h3
      exact (xle_fin _ _).1 h3
    constructor
    · by_contra hneg
      push Not at hneg
      by_cases hsc : d.scaling ≤ 0
      · have := key 0
        simp at this
        linarith
      · push Not at hsc
        have hp : 0 < -d.offset / (2 * d.scaling) := by apply div_pos <;> linarith
        have := key (Real.log (-d.offset / (2 * d.scaling)))
        rw [Real.exp_log hp] at this
        field_simp at this
        linarith
    · by_contra hneg
      push Not at hneg
      have hp : 0 < (|d.offset| + 1) / -d.scaling := by
        apply div_pos
        · positivity
        · linarith
      have := key (Real.log ((|d.offset| + 1) / -d.scaling))
      rw [Real.exp_log hp] at this
      have e : d.scaling * ((|d.offset| + 1) / -d.scaling) = -(|d.offset| + 1) := by
        have := hneg.ne
        field_simp
      rw [e] at this
      have := le_abs_self d.offset
      linarith
  · rintro ⟨ho, hsc⟩ fuel r draw X hr hX
    obtain ⟨l, hx⟩ := logN_sample_spec h.sd hr hX
    refine ⟨l, fun x hxm => ?_⟩
    obtain ⟨y, rfl, hy⟩ := hx x hxm
    refine ⟨_, rfl, ?_, ?_⟩
    · rw [hlb]
      have := (Real.exp_pos y).le
      rw [xle_fin]
      positivity
    · rw [hub]
      exact .inl trivial

/-- **C23** is false: a truncated log-normal domain with negative scaling. -/
theorem lognormal_negative_scaling_false : ∃ d : LogN, d.Ok ∧ d.clip.isSome ∧ ¬ d.SamplesInside := by
  let d : LogN := ⟨0, 1, some 1, -1, 1, 0, -1⟩
  have hd : d.Ok := by
    refine ⟨one_pos, fun c hc => ?_⟩
    cases hc
    refine ⟨one_pos, ⟨?_, fun y hy => ?_⟩, ⟨?_, fun y hy => ?_⟩⟩
    · exact (logN_holds_iff (d := d) one_pos rfl _).2 (by simp [d])
    · have := (logN_holds_iff (d := d) one_pos rfl _).1 hy
      simp [d] at this
      exact (abs_le.1 this).1
    · exact (logN_holds_iff (d := d) one_pos rfl _).2 (by simp [d])
    · have := (logN_holds_iff (d := d) one_pos rfl _).1 hy
      simp [d] at this
      exact (abs_le.1 this).2
  refine ⟨d, hd, rfl, fun H => ?_⟩
  have := (lognormal_truncated_inside_iff hd rfl).1 H
  norm_num [d] at this

/-- **C23** is false: a log-normal domain with negative offset. -/
theorem lognormal_negative_offset_false : ∃ d : LogN, d.Ok ∧ d.clip = none ∧ 0 < d.scaling ∧ ¬ d.SamplesInside := by
  have hd : (⟨0, 1, none, 0, 0, -1, 1⟩ : LogN).Ok := ⟨one_pos, fun c hc => by cases hc⟩
  refine ⟨_, hd, rfl, one_pos, fun H => ?_⟩
  have := ((lognormal_inside_iff hd rfl).1 H).1
  norm_num at this

end Verif.Domain
