import Verif.Misc.DensityModel
import Verif.Misc.ChanceProps
import Verif.Domain.SweepProps
import Verif.Domain.GridProps
import Mathlib.MeasureTheory.Integral.IntervalIntegral.Basic
import Mathlib.MeasureTheory.Integral.IntegralEqImproper
import Mathlib.Analysis.SpecialFunctions.Integrals.Basic
import Mathlib.MeasureTheory.Function.LocallyIntegrable

/-!
# The estimated densities are densities with the mean of the samples; the exported curve loses mass (C180)
-/

namespace Verif.Misc

open Verif Verif.Domain MeasureTheory

theorem linKernel_eq {h : ℝ} (hh : 0 < h) (t : ℝ) : linKernel h t = max 0 (1 - |t| / h) := by
  unfold linKernel
  split_ifs with hc
  · rw [max_eq_right]
    have := (div_lt_one hh).2 hc
    linarith
  · rw [max_eq_left]
    have := (one_le_div hh).2 (not_lt.1 hc)
    linarith

theorem linKernel_nonneg {h : ℝ} (hh : 0 < h) (t : ℝ) : 0 ≤ linKernel h t := by
  rw [linKernel_eq hh]; exact le_max_left _ _

theorem linKernel_cont {h : ℝ} (hh : 0 < h) : Continuous (linKernel h) := by
  have : linKernel h = fun t => max 0 (1 - |t| / h) := funext (linKernel_eq hh)
  rw [this]
  fun_prop

theorem linKernel_support {h : ℝ} : Function.support (linKernel h) ⊆ Set.Ioc (-h) h := by
  intro t ht
  by_contra hc
  apply ht
  unfold linKernel
  rw [if_neg]
  intro h1
  exact hc ⟨(abs_lt.1 h1).1, (abs_lt.1 h1).2.le⟩

theorem linKernel_compact {h : ℝ} : HasCompactSupport (linKernel h) :=
  HasCompactSupport.intro (isCompact_Icc (a := -h) (b := h)) fun t ht => by
    by_contra hc
    exact ht (Set.Ioc_subset_Icc_self (linKernel_support hc))

theorem linKernel_even (h t : ℝ) : linKernel h (-t) = linKernel h t := by simp [linKernel]

theorem linKernel_half {h : ℝ} (hh : 0 < h) : ∫ t in (0 : ℝ)..h, linKernel h t = h / 2 := by
  have : ∫ t in (0 : ℝ)..h, linKernel h t = ∫ t in (0 : ℝ)..h, (1 - t / h) := by
    apply intervalIntegral.integral_congr
    intro t ht
    rw [Set.uIcc_of_le hh.le] at ht
    simp only
    rw [linKernel_eq hh, abs_of_nonneg ht.1, max_eq_right]
    have := (div_le_one hh).2 ht.2
    linarith
  rw [this, intervalIntegral.integral_sub (by simp) (by apply Continuous.intervalIntegrable; fun_prop), intervalIntegral.integral_div]
  simp
  field_simp
  ring

theorem linKernel_half' {h : ℝ} (hh : 0 < h) : ∫ t in (-h)..0, linKernel h t = h / 2 := by
  have := intervalIntegral.integral_comp_neg (a := 0) (b := h) (f := linKernel h)
  simp only [linKernel_even, neg_zero] at this
  rw [← this, linKernel_half hh]

theorem linKernel_integral {h : ℝ} (hh : 0 < h) : ∫ t, linKernel h t = h := by
  rw [← intervalIntegral.integral_eq_integral_of_support_subset linKernel_support,
    ← intervalIntegral.integral_add_adjacent_intervals (b := 0) ((linKernel_cont hh).intervalIntegrable _ _) ((linKernel_cont hh).intervalIntegrable _ _),
    linKernel_half hh, linKernel_half' hh]
  ring

theorem linKernel_integrable {h : ℝ} (hh : 0 < h) : Integrable (linKernel h) := (linKernel_cont hh).integrable_of_hasCompactSupport linKernel_compact

theorem linKernel_moment {h : ℝ} : ∫ t, t * linKernel h t = 0 := by
  have h1 := integral_neg_eq_self (fun t => t * linKernel h t) volume
  simp only [linKernel_even, neg_mul] at h1
  rw [integral_neg] at h1
  linarith

theorem linKernel_moment_integrable {h : ℝ} (hh : 0 < h) : Integrable fun t => t * linKernel h t :=
  (continuous_id.mul (linKernel_cont hh)).integrable_of_hasCompactSupport linKernel_compact.mul_left

theorem kdeAt_nonneg {h : ℝ} (hh : 0 < h) (y : List ℝ) (x : ℝ) : 0 ≤ kdeAt h y x := by
  refine div_nonneg (List.sum_nonneg fun a ha => ?_) (by positivity)
  obtain ⟨s, _, rfl⟩ := List.mem_map.1 ha
  exact linKernel_nonneg hh _

theorem kdeSum_cont {h : ℝ} (hh : 0 < h) (y : List ℝ) : Continuous fun x => (y.map fun s => linKernel h (x - s)).sum := by
  induction y with
  | nil => simpa using continuous_const
  | cons s y ih =>
    simp only [List.map_cons, List.sum_cons]
    exact ((linKernel_cont hh).comp (continuous_id.sub continuous_const)).add ih

theorem kdeAt_cont {h : ℝ} (hh : 0 < h) (y : List ℝ) : Continuous (kdeAt h y) := (kdeSum_cont hh y).div_const _

theorem kdeSum_integral {h : ℝ} (hh : 0 < h) (y : List ℝ) :
    Integrable (fun x => (y.map fun s => linKernel h (x - s)).sum) ∧ ∫ x, (y.map fun s => linKernel h (x - s)).sum = y.length * h := by
  induction y with
  | nil => simp
  | cons s y ih =>
    have hi := (linKernel_integrable hh).comp_sub_right s
    simp only [List.map_cons, List.sum_cons, List.length_cons]
    refine ⟨hi.add ih.1, ?_⟩
    rw [integral_add hi ih.1, ih.2, integral_sub_right_eq_self (linKernel h) s, linKernel_integral hh]
    push_cast
    ring

theorem kdeSum_moment {h : ℝ} (hh : 0 < h) (y : List ℝ) :
    Integrable (fun x => x * (y.map fun s => linKernel h (x - s)).sum) ∧ ∫ x, x * (y.map fun s => linKernel h (x - s)).sum = y.sum * h := by
  induction y with
  | nil => simp
  | cons s y ih =>
    have e : (fun x => x * linKernel h (x - s)) = fun x => (fun t => t * linKernel h t + s * linKernel h t) (x - s) := by
      funext x; simp only; ring
    have hj : Integrable fun t => t * linKernel h t + s * linKernel h t := (linKernel_moment_integrable hh).add ((linKernel_integrable hh).const_mul s)
    have hi : Integrable fun x => x * linKernel h (x - s) := by rw [e]; exact hj.comp_sub_right s
    simp only [List.map_cons, List.sum_cons, mul_add]
    refine ⟨hi.add ih.1, ?_⟩
    rw [integral_add hi ih.1, ih.2, e, integral_sub_right_eq_self (fun t => t * linKernel h t + s * linKernel h t) s,
      integral_add (linKernel_moment_integrable hh) ((linKernel_integrable hh).const_mul s), linKernel_moment, integral_const_mul, linKernel_integral hh]
    ring

/-- **C180**: the estimate is a probability density. -/
theorem kde_total {h : ℝ} (hh : 0 < h) {y : List ℝ} (hy : y ≠ []) : Integrable (kdeAt h y) ∧ ∫ x, kdeAt h y x = 1 := by
  have hN : (0 : ℝ) < y.length := by exact_mod_cast List.length_pos_iff.2 hy
  refine ⟨(kdeSum_integral hh y).1.div_const _, ?_⟩
  unfold kdeAt
  rw [integral_div, (kdeSum_integral hh y).2]
  exact div_self (by positivity)

/-- Its mean is the mean of the samples. -/
theorem kde_mean {h : ℝ} (hh : 0 < h) {y : List ℝ} (hy : y ≠ []) : ∫ x, x * kdeAt h y x = y.sum / y.length := by
  have hN : (0 : ℝ) < y.length := by exact_mod_cast List.length_pos_iff.2 hy
  unfold kdeAt
  simp only [← mul_div_assoc]
  rw [integral_div, (kdeSum_moment hh y).2]
  field_simp

/-- It is positive exactly near samples. -/
theorem kde_pos_iff {h : ℝ} (hh : 0 < h) {y : List ℝ} (x : ℝ) : 0 < kdeAt h y x ↔ ∃ s ∈ y, |x - s| < h := by
  have hk : ∀ s, 0 < linKernel h (x - s) ↔ |x - s| < h := by
    intro s
    unfold linKernel
    split_ifs with hc
    · have := (div_lt_one hh).2 hc
      simp only [hc, iff_true]
      linarith
    · simp [hc]
  constructor
  · intro hp
    by_contra hc
    push Not at hc
    have : kdeAt h y x = 0 := by
      unfold kdeAt
      rw [List.sum_eq_zero, zero_div]
      intro a ha
      obtain ⟨s, hs, rfl⟩ := List.mem_map.1 ha
      have := (hk s).not.2 (not_lt.2 (hc s hs))
      linarith [linKernel_nonneg hh (x - s)]
    linarith
  · rintro ⟨s, hs, hlt⟩
    have hN : (0 : ℝ) < y.length := by exact_mod_cast List.length_pos_of_mem hs
    refine div_pos (lt_of_lt_of_le ((hk s).2 hlt) (List.single_le_sum ?_ _ (List.mem_map.2 ⟨s, hs, rfl⟩))) (by positivity)
    intro a ha
    obtain ⟨s, _, rfl⟩ := List.mem_map.1 ha
    exact linKernel_nonneg hh _

theorem percentile_zero {y : List ℝ} {v : ℝ} (h : percentile y 0 = .ok v) : v ∈ y ∧ ∀ s ∈ y, v ≤ s := by
  obtain ⟨_, _, hy⟩ := (percentile_ok_iff y 0).1 ⟨v, h⟩
  have hN : 0 < y.length := List.length_pos_iff.2 hy
  have hb := percentile_between h
  have hl := Geo.sortR_length y
  have e : v = (Geo.sortR y).getD 0 0 := le_antisymm (hb.2 0 hN (by simp)) (hb.1 0 (by simp))
  rw [List.getD_eq_getElem _ _ (by omega)] at e
  refine ⟨Geo.sortR_mem.1 (e ▸ List.getElem_mem _), fun s hs => ?_⟩
  obtain ⟨i, hi, rfl⟩ := List.mem_iff_getElem.1 (Geo.sortR_mem.2 hs)
  have := hb.2 i (by omega) (by simp)
  rwa [List.getD_eq_getElem _ _ hi] at this

theorem percentile_one {y : List ℝ} {v : ℝ} (h : percentile y 1 = .ok v) : v ∈ y ∧ ∀ s ∈ y, s ≤ v := by
  obtain ⟨_, _, hy⟩ := (percentile_ok_iff y 1).1 ⟨v, h⟩
  have hN : 0 < y.length := List.length_pos_iff.2 hy
  have hb := percentile_between h
  have hl := Geo.sortR_length y
  have hc : ((y.length - 1 : ℕ) : ℝ) = y.length - 1 := by rw [Nat.cast_sub (by omega)]; simp
  have e : v = (Geo.sortR y).getD (y.length - 1) 0 := le_antisymm (hb.2 _ (by omega) (by rw [hc]; simp)) (hb.1 _ (by rw [hc]; simp))
  rw [List.getD_eq_getElem _ _ (by omega)] at e
  refine ⟨Geo.sortR_mem.1 (e ▸ List.getElem_mem _), fun s hs => ?_⟩
  obtain ⟨i, hi, rfl⟩ := List.mem_iff_getElem.1 (Geo.sortR_mem.2 hs)
  have := hb.1 i (by
    have : (i : ℝ) ≤ (y.length - 1 : ℕ) := by exact_mod_cast (by omega : i ≤ y.length - 1)
    rw [hc] at this
    linarith)
  rwa [List.getD_eq_getElem _ _ hi] at this

/-- The quartiles are between the ends, and percentiles are ordered. -/
theorem percentile_mono {y : List ℝ} {q q' v v' : ℝ} (h : percentile y q = .ok v) (h' : percentile y q' = .ok v') (hq : q = 0 ∨ q' = 1) : v ≤ v' := by
  obtain ⟨a0, a1, hy⟩ := (percentile_ok_iff y q).1 ⟨v, h⟩
  obtain ⟨b0, b1, _⟩ := (percentile_ok_iff y q').1 ⟨v', h'⟩
  have hN : 0 < y.length := List.length_pos_iff.2 hy
  have hN1 : (1 : ℝ) ≤ y.length := by exact_mod_cast hN
  have hb := percentile_between h
  have hb' := percentile_between h'
  rcases hq with rfl | rfl
  · exact (hb.2 0 hN (by simp)).trans (hb'.1 0 (by
      have := mul_nonneg (sub_nonneg.2 hN1) b0
      simpa using this))
  · have hc : ((y.length - 1 : ℕ) : ℝ) = y.length - 1 := by rw [Nat.cast_sub (by omega)]; simp
    exact (hb.2 (y.length - 1) (by omega) (by rw [hc]; nlinarith)).trans (hb'.1 (y.length - 1) (by rw [hc]; simp))

/-- Exactly when a curve is returned: some samples, quartiles that differ, and some points; and what it is. -/
theorem densityCurve_ok_iff (y : List ℝ) (n : ℕ) (c : List ℝ × List ℝ) :
    densityCurve y n = .ok c ↔ ∃ p0 p25 p75 p100, percentile y 0 = .ok p0 ∧ percentile y (1 / 4) = .ok p25 ∧ percentile y (3 / 4) = .ok p75 ∧
      percentile y 1 = .ok p100 ∧ p25 < p75 ∧ 0 < n ∧ c = (linspace p0 p100 n, (linspace p0 p100 n).map (kdeAt ((p75 - p25) / 10) y)) := by
  constructor
  · intro h
    unfold densityCurve at h
    split at h
    · rename_i p0 p25 p75 p100 h0 h1 h2 h3
      split_ifs at h with hb hn
      injection h with h
      refine ⟨p0, p25, p75, p100, h0, h1, h2, h3, ?_, by omega, h.symm⟩
      unfold bandwidth at hb
      linarith
    all_goals cases h
  · rintro ⟨p0, p25, p75, p100, h0, h1, h2, h3, hlt, hn, rfl⟩
    unfold densityCurve
    rw [h0, h1, h2, h3]
    simp only
    rw [if_neg (by unfold bandwidth; linarith), if_neg (by omega)]
    rfl

/-- **C180**: what a returned curve is: as many points as asked for, from the smallest to the largest sample, with the values of
a nonnegative function that integrates to one and has the mean of the samples. -/
theorem densityCurve_sound {y : List ℝ} {n : ℕ} {xs ys : List ℝ} (h : densityCurve y n = .ok (xs, ys)) :
    xs.length = n ∧ ys.length = n ∧ ∃ f : ℝ → ℝ, ys = xs.map f ∧ (∀ x, 0 ≤ f x) ∧ (∫ x, f x) = 1 ∧ (∫ x, x * f x) = y.sum / y.length ∧
      (2 ≤ n → ∀ x ∈ xs, (∃ s ∈ y, s ≤ x) ∧ ∃ s ∈ y, x ≤ s) := by
  obtain ⟨p0, p25, p75, p100, h0, h1, h2, h3, hlt, hn, hc⟩ := (densityCurve_ok_iff _ _ _).1 h
  obtain ⟨_, _, hy⟩ := (percentile_ok_iff y 0).1 ⟨_, h0⟩
  have hh : 0 < (p75 - p25) / 10 := by linarith
  injection hc with e1 e2
  subst e1 e2
  refine ⟨linspace_length _ _ _, by rw [List.length_map, linspace_length], kdeAt ((p75 - p25) / 10) y, rfl, kdeAt_nonneg hh y, (kde_total hh hy).2, kde_mean hh hy, ?_⟩
  intro hn2 x hx
  obtain ⟨a, b⟩ := linspace_between (percentile_mono h0 h3 (.inl rfl)) hn2 hx
  exact ⟨⟨p0, (percentile_zero h0).1, a⟩, ⟨p100, (percentile_one h3).1, b⟩⟩

/-- The part of a kernel between two points around its center, one of them a bandwidth away. -/
theorem kernel_part {h : ℝ} (hh : 0 < h) {a b s : ℝ} (ha : a ≤ s) (hb : s ≤ b) (hw : h ≤ s - a ∨ h ≤ b - s) : h / 2 ≤ ∫ x in a..b, linKernel h (x - s) := by
  rw [intervalIntegral.integral_comp_sub_right (linKernel h) s]
  have hI := fun u v => (linKernel_cont hh).intervalIntegrable (μ := volume) u v
  rcases hw with hw | hw
  · rw [← intervalIntegral.integral_add_adjacent_intervals (hI (a - s) (-h)) (hI (-h) (b - s)), ← intervalIntegral.integral_add_adjacent_intervals (hI (-h) 0) (hI 0 (b - s)), linKernel_half' hh]
    have p1 := intervalIntegral.integral_nonneg (μ := volume) (a := a - s) (b := -h) (by linarith) (fun u _ => linKernel_nonneg hh u)
    have p2 := intervalIntegral.integral_nonneg (μ := volume) (a := 0) (b := b - s) (by linarith) (fun u _ => linKernel_nonneg hh u)
    linarith
  · rw [← intervalIntegral.integral_add_adjacent_intervals (hI (a - s) 0) (hI 0 (b - s)), ← intervalIntegral.integral_add_adjacent_intervals (hI 0 h) (hI h (b - s)), linKernel_half hh]
    have p1 := intervalIntegral.integral_nonneg (μ := volume) (a := a - s) (b := 0) (by linarith) (fun u _ => linKernel_nonneg hh u)
    have p2 := intervalIntegral.integral_nonneg (μ := volume) (a := h) (b := b - s) (by linarith) (fun u _ => linKernel_nonneg hh u)
    linarith

theorem kdeSum_part {h : ℝ} (hh : 0 < h) {a b : ℝ} (y : List ℝ) (hy : ∀ s ∈ y, a ≤ s ∧ s ≤ b ∧ (h ≤ s - a ∨ h ≤ b - s)) :
    y.length * (h / 2) ≤ ∫ x in a..b, (y.map fun s => linKernel h (x - s)).sum := by
  induction y with
  | nil => simp
  | cons s y ih =>
    have i1 : Continuous fun x => linKernel h (x - s) := (linKernel_cont hh).comp (continuous_id.sub continuous_const)
    simp only [List.map_cons, List.sum_cons, List.length_cons]
    rw [intervalIntegral.integral_add (i1.intervalIntegrable _ _) ((kdeSum_cont hh y).intervalIntegrable _ _)]
    obtain ⟨h1, h2, h3⟩ := hy s (by simp)
    have := kernel_part hh h1 h2 h3
    have := ih fun s hs => hy s (by simp [hs])
    push_cast
    linarith

/-- **C180**: the exported range holds at least half of the mass, and always less than all of it: the curve is cut off at the
extreme samples, where the density is still positive. -/
theorem density_range_mass {y : List ℝ} {p0 p25 p75 p100 : ℝ} (h0 : percentile y 0 = .ok p0) (h1 : percentile y (1 / 4) = .ok p25)
    (h2 : percentile y (3 / 4) = .ok p75) (h3 : percentile y 1 = .ok p100) (hlt : p25 < p75) :
    1 / 2 ≤ ∫ x in p0..p100, kdeAt ((p75 - p25) / 10) y x ∧ ∫ x in p0..p100, kdeAt ((p75 - p25) / 10) y x < 1 := by
  obtain ⟨_, _, hy⟩ := (percentile_ok_iff y 0).1 ⟨_, h0⟩
  have hN : (0 : ℝ) < y.length := by exact_mod_cast List.length_pos_iff.2 hy
  have a1 := percentile_mono h0 h1 (.inl rfl)
  have a2 := percentile_mono h2 h3 (.inr rfl)
  set h := (p75 - p25) / 10 with hdef
  have hh : 0 < h := by rw [hdef]; linarith
  have hwide : 2 * h ≤ p100 - p0 := by rw [hdef]; linarith
  obtain ⟨m0, hmin⟩ := percentile_zero h0
  obtain ⟨m1, hmax⟩ := percentile_one h3
  have hI := fun u v => (kdeAt_cont hh y).intervalIntegrable (μ := volume) u v
  constructor
  · have hp := kdeSum_part hh (a := p0) (b := p100) y fun s hs => ⟨hmin s hs, hmax s hs, by
      by_contra hc
      push Not at hc
      linarith [hc.1, hc.2]⟩
    unfold kdeAt
    rw [intervalIntegral.integral_div, le_div_iff₀ (by positivity)]
    linarith
  · have hsup : Function.support (kdeAt h y) ⊆ Set.Ioc (p0 - h) (p100 + h) := by
      intro x hx
      have hpos : 0 < kdeAt h y x := lt_of_le_of_ne (kdeAt_nonneg hh y x) (Ne.symm hx)
      obtain ⟨s, hs, hd⟩ := (kde_pos_iff hh x).1 hpos
      have := abs_lt.1 hd
      exact ⟨by linarith [hmin s hs], by linarith [hmax s hs]⟩
    have htot := (kde_total hh hy).2
    rw [← intervalIntegral.integral_eq_integral_of_support_subset hsup, ← intervalIntegral.integral_add_adjacent_intervals (hI (p0 - h) p0) (hI p0 (p100 + h)),
      ← intervalIntegral.integral_add_adjacent_intervals (hI p0 p100) (hI p100 (p100 + h))] at htot
    have q1 : 0 < ∫ x in (p0 - h)..p0, kdeAt h y x := intervalIntegral.intervalIntegral_pos_of_pos_on (hI _ _) (fun x hx => (kde_pos_iff hh x).2 ⟨p0, m0, by
      rw [abs_lt]; constructor <;> linarith [hx.1, hx.2]⟩) (by linarith)
    have q2 := intervalIntegral.integral_nonneg (μ := volume) (f := kdeAt h y) (a := p100) (b := p100 + h) (by linarith) (fun u _ => kdeAt_nonneg hh y u)
    linarith

/-- Samples whose quartiles coincide raise, however different the samples are. -/
theorem densityCurve_raises_false (n : ℕ) : ∃ y : List ℝ, y.length = 5 ∧ (∃ s ∈ y, ∃ t ∈ y, s ≠ t) ∧ densityCurve y n = .error .valueError := by
  refine ⟨[0, 0, 0, 0, 1], rfl, ⟨0, by simp, 1, by simp, by norm_num⟩, ?_⟩
  have hs : Geo.sortR [0, 0, 0, 0, 1] = [0, 0, 0, 0, 1] := Geo.sortR_eq (by simp)
  have hp : ∀ q v : ℝ, ∀ k : ℕ, 0 ≤ q → q ≤ 1 → 4 * q = k → k ≤ 4 → ([0, 0, 0, 0, 1] : List ℝ).getD k 0 = v → percentile [0, 0, 0, 0, 1] q = .ok v := by
    intro q v k h0 h1 hk hk4 hv
    obtain ⟨w, hw⟩ := (percentile_ok_iff [0, 0, 0, 0, 1] q).2 ⟨h0, h1, by simp⟩
    have hb := percentile_between hw
    have hl : ((([0, 0, 0, 0, 1] : List ℝ).length : ℝ) - 1) * q = k := by rw [← hk]; norm_num
    rw [hl, hs] at hb
    rw [hw, ← hv]
    congr 1
    exact le_antisymm (hb.2 k (by simpa using Nat.lt_succ_of_le hk4) le_rfl) (hb.1 k le_rfl)
  unfold densityCurve
  rw [hp 0 0 0 (by norm_num) (by norm_num) (by norm_num) (by norm_num) rfl, hp (1 / 4) 0 1 (by norm_num) (by norm_num) (by norm_num) (by norm_num) rfl,
    hp (3 / 4) 0 3 (by norm_num) (by norm_num) (by norm_num) (by norm_num) rfl, hp 1 1 4 (by norm_num) (by norm_num) (by norm_num) (by norm_num) rfl]
  simp only
  rw [if_pos (by unfold bandwidth; norm_num)]

/-- The hypotheses are met: samples with different quartiles. -/
example : ∃ c, densityCurve [0, 1, 2, 3, 4] 7 = .ok c := by
  have hs : Geo.sortR [0, 1, 2, 3, 4] = [0, 1, 2, 3, 4] := Geo.sortR_eq (by simp; norm_num)
  have hp : ∀ q : ℝ, ∀ k : ℕ, 0 ≤ q → q ≤ 1 → 4 * q = k → k ≤ 4 → percentile [0, 1, 2, 3, 4] q = .ok (([0, 1, 2, 3, 4] : List ℝ).getD k 0) := by
    intro q k h0 h1 hk hk4
    obtain ⟨w, hw⟩ := (percentile_ok_iff [0, 1, 2, 3, 4] q).2 ⟨h0, h1, by simp⟩
    have hb := percentile_between hw
    have hl : ((([0, 1, 2, 3, 4] : List ℝ).length : ℝ) - 1) * q = k := by rw [← hk]; norm_num
    rw [hl, hs] at hb
    rw [hw]
    congr 1
    exact le_antisymm (hb.2 k (by simpa using Nat.lt_succ_of_le hk4) le_rfl) (hb.1 k le_rfl)
  exact ⟨_, (densityCurve_ok_iff _ _ _).2 ⟨_, _, _, _, hp 0 0 (by norm_num) (by norm_num) (by norm_num) (by norm_num), hp (1 / 4) 1 (by norm_num) (by norm_num) (by norm_num) (by norm_num),
    hp (3 / 4) 3 (by norm_num) (by norm_num) (by norm_num) (by norm_num), hp 1 4 (by norm_num) (by norm_num) (by norm_num) (by norm_num), by norm_num, by norm_num, rfl⟩⟩

/-- The number of samples asked for reaches `forward_propagation_pdf` but not `random_ridge_pdf`. -/
theorem randomRidgePdf_ignores (sample : ℕ → List Vec) (U : List ℝ) (nr np n n' : ℕ) : randomRidgePdf sample U nr np n = randomRidgePdf sample U nr np n' := rfl

/-- The propagated density has the mean response of the samples asked for. -/
theorem forwardPdf_mean {sample : ℕ → List Vec} {normalize : Vec → Vec} {f : Vec → ℝ} {N n : ℕ} {xs ys : List ℝ} (h : forwardPdf sample normalize f N n = .ok (xs, ys)) :
    ∃ g : ℝ → ℝ, ys = xs.map g ∧ (∀ x, 0 ≤ g x) ∧ (∫ x, g x) = 1 ∧ (∫ x, x * g x) = ((sample N).map fun x => f (normalize x)).sum / (sample N).length := by
  obtain ⟨_, _, g, h1, h2, h3, h4, _⟩ := densityCurve_sound h
  refine ⟨g, h1, h2, h3, ?_⟩
  rw [h4, List.length_map]

end Verif.Misc
