import Verif.Misc.ChanceModel
import Verif.Geometry.GeoProps
import Mathlib.Data.List.GetD

/-!
# Chance constraints (C178)
-/

namespace Verif.Misc

open Verif Verif.Domain

/-- The number of samples with a property. -/
noncomputable def howMany (y : List ℝ) (p : ℝ → Prop) : ℕ := open Classical in y.countP fun t => decide (p t)

theorem percentile_ok_iff (y : List ℝ) (q : ℝ) : (∃ v, percentile y q = .ok v) ↔ 0 ≤ q ∧ q ≤ 1 ∧ y ≠ [] := by
  unfold percentile
  split_ifs with h1 h2
  · simp [h2]
  · simp [h1, h2]
  · simp only [reduceCtorEq, exists_false, false_iff]
    tauto

theorem sortR_getD_mono (y : List ℝ) {i j : ℕ} (hij : i ≤ j) (hj : j < y.length) : (Geo.sortR y).getD i 0 ≤ (Geo.sortR y).getD j 0 := by
  have hl := Geo.sortR_length y
  rw [List.getD_eq_getElem _ _ (by omega), List.getD_eq_getElem _ _ (by omega)]
  rcases hij.lt_or_eq with h | h
  · exact List.pairwise_iff_getElem.1 (Geo.sortR_sorted y) i j (by omega) (by omega) h
  · subst h; exact le_rfl

/-- The percentile is above the sorted samples up to the virtual index, and below those from it on. -/
theorem percentile_between {y : List ℝ} {q v : ℝ} (h : percentile y q = .ok v) :
    (∀ i : ℕ, (i : ℝ) ≤ (y.length - 1) * q → (Geo.sortR y).getD i 0 ≤ v) ∧ (∀ i : ℕ, i < y.length → (y.length - 1) * q ≤ i → v ≤ (Geo.sortR y).getD i 0) := by
  obtain ⟨hq0, hq1, hy⟩ := (percentile_ok_iff y q).1 ⟨v, h⟩
  have hN : 0 < y.length := List.length_pos_iff.2 hy
  have hN1 : (1 : ℝ) ≤ y.length := by exact_mod_cast hN
  unfold percentile at h
  rw [if_pos ⟨hq0, hq1⟩, if_neg hy] at h
  set H : ℝ := ((y.length : ℝ) - 1) * q with hH
  have hH0 : 0 ≤ H := mul_nonneg (by linarith) hq0
  have hHN : H ≤ y.length - 1 := by nlinarith
  have hfl : (⌊H⌋₊ : ℝ) ≤ H := Nat.floor_le hH0
  have hfl1 : H < ⌊H⌋₊ + 1 := Nat.lt_floor_add_one H
  have hlt : ⌊H⌋₊ < y.length := by
    have : (⌊H⌋₊ : ℝ) < y.length := by linarith
    exact_mod_cast this
  have hmono := sortR_getD_mono y (i := ⌊H⌋₊) (j := min (⌊H⌋₊ + 1) (y.length - 1)) (by omega) (by omega)
  injection h with h
  set a := (Geo.sortR y).getD ⌊H⌋₊ 0 with ha
  set b := (Geo.sortR y).getD (min (⌊H⌋₊ + 1) (y.length - 1)) 0 with hb
  refine ⟨fun i hi => ?_, fun i hi hi' => ?_⟩
  · have h1 : i ≤ ⌊H⌋₊ := Nat.le_floor hi
    have h2 := sortR_getD_mono y h1 hlt
    nlinarith
  · rcases Nat.lt_or_ge ⌊H⌋₊ i with h1 | h1
    · have h2 := sortR_getD_mono y (i := min (⌊H⌋₊ + 1) (y.length - 1)) (j := i) (by omega) hi
      nlinarith
    · have h1' : (i : ℝ) ≤ ⌊H⌋₊ := by exact_mod_cast h1
      have e : i = ⌊H⌋₊ := by
        have : (i : ℝ) = ⌊H⌋₊ := by linarith
        exact_mod_cast this
      have e' : H - ⌊H⌋₊ = 0 := by rw [← e] at hfl ⊢; linarith
      rw [← h, e', mul_zero, add_zero, e]

theorem howMany_sort (y : List ℝ) (p : ℝ → Prop) : howMany y p = howMany (Geo.sortR y) p :=
  ((List.perm_insertionSort _ y).countP_eq _).symm

theorem howMany_le_drop (s : List ℝ) (p : ℝ → Prop) (n : ℕ) (h : ∀ i < n, i < s.length → ¬ p (s.getD i 0)) : howMany s p ≤ s.length - n := by
  classical
  have h0 : (s.take n).countP (fun t => decide (p t)) = 0 := by
    rw [List.countP_eq_zero]
    intro t ht
    obtain ⟨i, hi, rfl⟩ := List.mem_iff_getElem.1 ht
    rw [List.length_take] at hi
    have := h i (by omega) (by omega)
    rw [List.getD_eq_getElem _ _ (by omega)] at this
    simpa using this
  have h1 := List.countP_append (p := fun t => decide (p t)) (l₁ := s.take n) (l₂ := s.drop n)
  rw [List.take_append_drop, h0, zero_add] at h1
  have h2 := List.countP_le_length (p := fun t => decide (p t)) (l := s.drop n)
  rw [List.length_drop] at h2
  unfold howMany
  convert h1.le.trans h2

theorem howMany_le_take (s : List ℝ) (p : ℝ → Prop) (n : ℕ) (h : ∀ i, n ≤ i → i < s.length → ¬ p (s.getD i 0)) : howMany s p ≤ n := by
  classical
  have h0 : (s.drop n).countP (fun t => decide (p t)) = 0 := by
    rw [List.countP_eq_zero]
    intro t ht
    obtain ⟨i, hi, rfl⟩ := List.mem_iff_getElem.1 ht
    rw [List.length_drop] at hi
    have := h (n + i) (by omega) (by omega)
    rw [List.getD_eq_getElem _ _ (by omega)] at this
    simpa using this
  have h1 := List.countP_append (p := fun t => decide (p t)) (l₁ := s.take n) (l₂ := s.drop n)
  rw [List.take_append_drop, h0, add_zero] at h1
  have h2 := List.countP_le_length (p := fun t => decide (p t)) (l := s.take n)
  rw [List.length_take] at h2
  unfold howMany
  convert h1.le.trans (h2.trans (min_le_left _ _))

/-- Which samples violate a safety factor: for `upper` those above, otherwise those below. -/
def Violates (upper : Bool) (v t : ℝ) : Prop := if upper then v < t else t < v

/-- Fewer than `(N - 1) prob + 1` samples violate the safety factor. -/
theorem safety_count {upper : Bool} {prob v : ℝ} {y : List ℝ} (h : safetyFactor upper prob y = .ok v) : (howMany y (Violates upper v) : ℝ) < (y.length - 1) * prob + 1 := by
  have hl := Geo.sortR_length y
  rw [howMany_sort]
  cases upper with
  | true =>
    have h' : percentile y (1 - prob) = .ok v := h
    obtain ⟨hq0, hq1, hy⟩ := (percentile_ok_iff y _).1 ⟨v, h'⟩
    have hN1 : (1 : ℝ) ≤ y.length := by exact_mod_cast List.length_pos_iff.2 hy
    obtain ⟨hb, _⟩ := percentile_between h'
    have hH0 : 0 ≤ ((y.length : ℝ) - 1) * (1 - prob) := mul_nonneg (by linarith) hq0
    have hc := howMany_le_drop (Geo.sortR y) (Violates true v) (⌊((y.length : ℝ) - 1) * (1 - prob)⌋₊ + 1) (fun i hi _ => by
      have := hb i ((Nat.cast_le.2 (Nat.lt_succ_iff.1 hi)).trans (Nat.floor_le hH0))
      simpa [Violates] using this)
    have hfl := Nat.lt_floor_add_one (((y.length : ℝ) - 1) * (1 - prob))
    have hle : ⌊((y.length : ℝ) - 1) * (1 - prob)⌋₊ + 1 ≤ y.length := by
      have h1 : (⌊((y.length : ℝ) - 1) * (1 - prob)⌋₊ : ℝ) ≤ y.length - 1 := (Nat.floor_le hH0).trans (by nlinarith)
      have : ((⌊((y.length : ℝ) - 1) * (1 - prob)⌋₊ + 1 : ℕ) : ℝ) ≤ y.length := by push_cast; linarith
      exact_mod_cast this
    rw [hl] at hc
    have hc' : (howMany (Geo.sortR y) (Violates true v) : ℝ) ≤ y.length - (⌊((y.length : ℝ) - 1) * (1 - prob)⌋₊ + 1) := by
      have : ((y.length - (⌊((y.length : ℝ) - 1) * (1 - prob)⌋₊ + 1) : ℕ) : ℝ) = y.length - (⌊((y.length : ℝ) - 1) * (1 - prob)⌋₊ + 1) := by
        rw [Nat.cast_sub hle]; push_cast; ring
      rw [← this]
      exact_mod_cast hc
    linarith
  | false =>
    have h' : percentile y prob = .ok v := h
    obtain ⟨hq0, hq1, hy⟩ := (percentile_ok_iff y _).1 ⟨v, h'⟩
    have hN1 : (1 : ℝ) ≤ y.length := by exact_mod_cast List.length_pos_iff.2 hy
    obtain ⟨_, hb⟩ := percentile_between h'
    have hc := howMany_le_take (Geo.sortR y) (Violates false v) ⌈((y.length : ℝ) - 1) * prob⌉₊ (fun i hi hi' => by
      have := hb i (by omega) ((Nat.le_ceil _).trans (Nat.cast_le.2 hi))
      simpa [Violates] using this)
    have : (howMany (Geo.sortR y) (Violates false v) : ℝ) ≤ ⌈((y.length : ℝ) - 1) * prob⌉₊ := by exact_mod_cast hc
    exact this.trans_lt (Nat.ceil_lt_add_one (mul_nonneg (by linarith) hq0))

/-- **C178, partial**: if `prob` is a whole number of samples (as one percent of ten thousand), at most the fraction `prob` of
the samples violates the safety factor. -/
theorem safety_fraction_partial {upper : Bool} {prob v : ℝ} {y : List ℝ} (h : safetyFactor upper prob y = .ok v) (k : ℕ) (hk : prob * y.length = k) :
    (howMany y (Violates upper v) : ℝ) ≤ prob * y.length := by
  have hp : 0 ≤ prob := by
    cases upper with
    | true => linarith [((percentile_ok_iff y (1 - prob)).1 ⟨v, h⟩).2.1]
    | false => exact ((percentile_ok_iff y prob).1 ⟨v, h⟩).1
  have h1 := safety_count h
  rw [hk]
  have : (howMany y (Violates upper v) : ℝ) < k + 1 := by nlinarith
  exact_mod_cast Nat.lt_succ_iff.1 (by exact_mod_cast this)

/-- The constraint does its work for monotone ridge profiles: if the design coordinate plus the safety factor does not exceed the
root, at most the fraction `prob` of the samples fails. -/
theorem chance_upper {g : ℝ → ℝ} (hg : Monotone g) {prob v r yd : ℝ} {y : List ℝ} (h : safetyFactor true prob y = .ok v) (k : ℕ) (hk : prob * y.length = k)
    (hd : yd + v ≤ r) : (howMany y (fun t => g r < g (yd + t)) : ℝ) ≤ prob * y.length := by
  refine le_trans ?_ (safety_fraction_partial h k hk)
  unfold howMany
  refine Nat.cast_le.2 (List.countP_mono_left fun t _ ht => ?_)
  simp only [decide_eq_true_eq, Violates, if_true] at ht ⊢
  by_contra hc
  exact absurd (hg (by linarith [not_lt.1 hc] : yd + t ≤ r)) (not_le.2 ht)

/-- For the lower mode the design coordinate plus the safety factor stays above the root. -/
theorem chance_lower {g : ℝ → ℝ} (hg : Monotone g) {prob v r yd : ℝ} {y : List ℝ} (h : safetyFactor false prob y = .ok v) (k : ℕ) (hk : prob * y.length = k)
    (hd : r ≤ yd + v) : (howMany y (fun t => g (yd + t) < g r) : ℝ) ≤ prob * y.length := by
  refine le_trans ?_ (safety_fraction_partial h k hk)
  unfold howMany
  refine Nat.cast_le.2 (List.countP_mono_left fun t _ ht => ?_)
  simp only [decide_eq_true_eq, Violates] at ht ⊢
  simp only [Bool.false_eq_true, if_false, decide_eq_true_eq]
  by_contra hc
  exact absurd (hg (by linarith [not_lt.1 hc] : r ≤ yd + t)) (not_le.2 ht)

/-- The documentation says that `upper` keeps the ridge function from falling *below* the threshold.  For an increasing profile
it does not: everything falls below. -/
theorem chance_docs_false : ∃ (y : List ℝ) (v r yd : ℝ), y.length = 2 ∧ safetyFactor true (1 / 2) y = .ok v ∧ yd + v ≤ r ∧ howMany y (fun t => id (yd + t) < id r) = 2 := by
  have h0 : (0 : ℝ) ≤ 1 - 1 / 2 ∧ (1 - 1 / 2 : ℝ) ≤ 1 := by norm_num
  obtain ⟨v, hv⟩ := (percentile_ok_iff [0, 1] (1 - 1 / 2)).2 ⟨h0.1, h0.2, by simp⟩
  refine ⟨[0, 1], v, max (v + 0) 2, 0, rfl, hv, by simp, ?_⟩
  simp [howMany]

/-- For a probability below one sample, distinct samples always violate: with ten thousand samples the factor for one in a
hundred thousand is exceeded by one in ten thousand. -/
theorem safety_fraction_false {N : ℕ} (hN : 2 ≤ N) {prob : ℝ} (hp : 0 < prob) (hp1 : prob * N < 1) :
    ∃ (y : List ℝ) (v : ℝ), y.length = N ∧ safetyFactor true prob y = .ok v ∧ prob * y.length < howMany y (Violates true v) := by
  classical
  have hN2 : (2 : ℝ) ≤ N := by exact_mod_cast hN
  have hp2 : prob ≤ 1 := by nlinarith
  set y : List ℝ := (List.range N).map fun k : ℕ => (k : ℝ) with hy
  have hl : y.length = N := by simp [hy]
  have hne : y ≠ [] := by rw [← List.length_pos_iff, hl]; omega
  have hs : Geo.sortR y = y := Geo.sortR_eq (by
    rw [hy, List.pairwise_map]
    refine List.Pairwise.imp ?_ List.pairwise_lt_range
    intro a b h
    exact_mod_cast h.le)
  have hg : ∀ i < N, (Geo.sortR y).getD i 0 = i := by
    intro i hi
    rw [hs, List.getD_eq_getElem _ _ (by omega)]
    simp [hy]
  obtain ⟨v, hv⟩ := (percentile_ok_iff y (1 - prob)).2 ⟨by linarith, by linarith, hne⟩
  refine ⟨y, v, hl, hv, ?_⟩
  have hvlt : v < (N - 1 : ℕ) := by
    unfold percentile at hv
    rw [if_pos ⟨by linarith, by linarith⟩, if_neg hne, hl] at hv
    injection hv with hv
    have hcast : ((N - 1 : ℕ) : ℝ) = N - 1 := by rw [Nat.cast_sub (by omega)]; simp
    set H : ℝ := ((N : ℝ) - 1) * (1 - prob) with hH
    have hH0 : 0 ≤ H := mul_nonneg (by linarith) (by linarith)
    have hH1 : H < N - 1 := by rw [hH]; nlinarith
    have hfl : (⌊H⌋₊ : ℝ) ≤ H := Nat.floor_le hH0
    have hlt : ⌊H⌋₊ < N - 1 := by
      have : (⌊H⌋₊ : ℝ) < (N - 1 : ℕ) := by linarith
      exact_mod_cast this
    rw [hg _ (by omega), hg _ (by omega), min_eq_left (by omega)] at hv
    push_cast at hv
    have : v = H := by rw [← hv]; ring
    rw [this, hcast]
    exact hH1
  have hmem : ((N - 1 : ℕ) : ℝ) ∈ y := List.mem_map.2 ⟨N - 1, List.mem_range.2 (by omega), rfl⟩
  have : 0 < howMany y (Violates true v) := List.countP_pos_iff.2 ⟨_, hmem, by simpa [Violates] using hvlt⟩
  have h1 : (1 : ℝ) ≤ howMany y (Violates true v) := by exact_mod_cast this
  rw [hl]
  linarith

/-- The number of samples asked for is ignored. -/
theorem randomRidge_ignores (sample : ℕ → List Vec) (U : List ℝ) (nr n n' : ℕ) : randomRidge sample U nr n = randomRidge sample U nr n' := rfl

/-- A sample contributes the part of the ridge coordinate due to the random variables: together with the design part it is the
ridge coordinate of the pair. -/
theorem randomRidge_split {U : List ℝ} {nr : ℕ} (hn : 0 < nr) (hU : nr ≤ U.length) (xd xr : Vec) (hd : xd.length = U.length - nr) :
    Vec.dot U (xd ++ xr) = Vec.dot (U.take (U.length - nr)) xd + Vec.dot (lastRows U nr) xr := by
  rw [lastRows, if_neg hn.ne']
  conv_lhs => rw [← List.take_append_drop (U.length - nr) U]
  rw [Vec.dot, List.zipWith_append (by simp [hd]), List.sum_append]
  rfl

example : ∃ v, safetyFactor true (1 / 100) ((List.range 10000).map fun k : ℕ => (k : ℝ)) = .ok v :=
  (percentile_ok_iff _ _).2 ⟨by norm_num, by norm_num, by simp⟩

example : (1 / 100 : ℝ) * ((List.range 10000).map fun k : ℕ => (k : ℝ)).length = (100 : ℕ) := by simp; norm_num

end Verif.Misc
