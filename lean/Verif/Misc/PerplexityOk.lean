import Verif.Misc.PerplexityProps

/-!
# C81: when the bandwidth is found

The bracket of `perplexity_bandwidth` is the one of Vladymyrov and Carreira-Perpiñán, who state it for distances; the code uses it with squared
distances. It contains the solution if no distance is zero, the smallest one is attained once, and the largest one is not small.
-/

namespace Verif.Misc

open Verif Verif.Domain

theorem minPos_some (d : List ℝ) (x : ℝ) (hx : x ∈ d) (h0 : 0 < x) : ∃ y, minPos d = some y := by
  unfold minPos
  cases h : (d.filter (fun x => decide (0 < x))).min? with
  | some y => exact ⟨y, rfl⟩
  | none =>
    rw [List.min?_eq_none_iff] at h
    have : x ∈ d.filter (fun x => decide (0 < x)) := List.mem_filter.2 ⟨hx, by simpa using h0⟩
    rw [h] at this
    cases this

theorem mo_zero_length (d : List ℝ) : mo d 0 0 = d.length := by
  unfold mo
  simp

theorem logEntropy_zero (d : List ℝ) : logEntropy 0 d = Real.log d.length := by
  rw [logEntropy_eq, mo_zero_length, zero_mul, zero_add]

/-- Popoviciu's bound of the variance. -/
theorem variance_le (d : List ℝ) (hd : d ≠ []) (a b β : ℝ) (ha : ∀ x ∈ d, a ≤ x) (hb : ∀ x ∈ d, x ≤ b) :
    (mo d 2 β * mo d 0 β - mo d 1 β ^ 2) / mo d 0 β ^ 2 ≤ (b - a) ^ 2 / 4 := by
  have h0 := mo_pos d hd β
  have h1 : 0 ≤ (a + b) * mo d 1 β - mo d 2 β - a * b * mo d 0 β := by
    have e : (a + b) * mo d 1 β - mo d 2 β - a * b * mo d 0 β = ∑ i : Fin d.length, (d[i] - a) * (b - d[i]) * Real.exp (-β * d[i]) := by
      unfold mo
      rw [Finset.mul_sum, Finset.mul_sum, ← Finset.sum_sub_distrib, ← Finset.sum_sub_distrib]
      refine Finset.sum_congr rfl fun i _ => ?_
      ring
    rw [e]
    refine Finset.sum_nonneg fun i _ => ?_
    have := ha d[i] (List.getElem_mem _)
    have := hb d[i] (List.getElem_mem _)
    have := (Real.exp_pos (-β * d[i])).le
    exact mul_nonneg (mul_nonneg (by linarith) (by linarith)) this
  rw [div_le_iff₀ (by positivity)]
  nlinarith [sq_nonneg (2 * mo d 1 β - (a + b) * mo d 0 β)]

/-- The entropy decreases at most quadratically. -/
theorem entropy_quadratic (d : List ℝ) (hd : d ≠ []) (a b β : ℝ) (ha : ∀ x ∈ d, a ≤ x) (hb : ∀ x ∈ d, x ≤ b) (hβ : 0 ≤ β) :
    Real.log d.length - β ^ 2 * (b - a) ^ 2 / 8 ≤ logEntropy β d := by
  have hder : ∀ s, HasDerivAt (fun s => logEntropy s d + s ^ 2 * ((b - a) ^ 2 / 8))
      (-s * (mo d 2 s * mo d 0 s - mo d 1 s ^ 2) / mo d 0 s ^ 2 + 2 * s * ((b - a) ^ 2 / 8)) s := by
    intro s
    have := (logEntropy_deriv d hd s).add (((hasDerivAt_pow 2 s)).mul_const ((b - a) ^ 2 / 8))
    refine this.congr_deriv ?_
    norm_num
  have hmono : MonotoneOn (fun s => logEntropy s d + s ^ 2 * ((b - a) ^ 2 / 8)) (Set.Ici 0) := by
    refine monotoneOn_of_deriv_nonneg (convex_Ici 0) (fun s _ => (hder s).continuousAt.continuousWithinAt)
      (fun s _ => (hder s).differentiableAt.differentiableWithinAt) fun s hs => ?_
    rw [interior_Ici, Set.mem_Ioi] at hs
    rw [(hder s).deriv]
    have := variance_le d hd a b s ha hb
    have e : -s * (mo d 2 s * mo d 0 s - mo d 1 s ^ 2) / mo d 0 s ^ 2 = -(s * ((mo d 2 s * mo d 0 s - mo d 1 s ^ 2) / mo d 0 s ^ 2)) := by ring
    rw [e]
    nlinarith
  have h := hmono (Set.mem_Ici.2 le_rfl) (Set.mem_Ici.2 hβ) hβ
  simp only [logEntropy_zero] at h
  linarith

/-- The entropy decreases at most linearly. -/
theorem entropy_linear (d : List ℝ) (a b β : ℝ) (ha : ∀ x ∈ d, a ≤ x) (hb : ∀ x ∈ d, x ≤ b) (hmem : a ∈ d) (hβ : 0 ≤ β) :
    Real.log d.length - β * ((d.length - 1) / d.length * (b - a)) ≤ logEntropy β d := by
  have hd : d ≠ [] := List.ne_nil_of_mem hmem
  have hM : (0 : ℝ) < d.length := by exact_mod_cast List.length_pos_iff.2 hd
  have h0 := mo_pos d hd β
  -- the mean distance
  obtain ⟨i0, hi0, he0⟩ := List.getElem_of_mem hmem
  have hsum : ∑ i : Fin d.length, d[i] ≤ a + (d.length - 1) * b := by
    rw [← Finset.add_sum_erase _ _ (Finset.mem_univ (⟨i0, hi0⟩ : Fin d.length))]
    have h1 : ∑ i ∈ Finset.univ.erase (⟨i0, hi0⟩ : Fin d.length), d[i] ≤ ∑ _i ∈ Finset.univ.erase (⟨i0, hi0⟩ : Fin d.length), b :=
      Finset.sum_le_sum fun i _ => hb _ (List.getElem_mem _)
    rw [Finset.sum_const, Finset.card_erase_of_mem (Finset.mem_univ _), Finset.card_univ, Fintype.card_fin, nsmul_eq_mul,
      Nat.cast_sub (List.length_pos_iff.2 hd), Nat.cast_one] at h1
    have h2 : d[(⟨i0, hi0⟩ : Fin d.length)] = a := he0
    rw [h2]
    linarith
  set μ := (∑ i : Fin d.length, d[i]) / d.length with hμ
  have hμ1 : μ * d.length = ∑ i : Fin d.length, d[i] := by rw [hμ]; field_simp
  have hZ : d.length * Real.exp (-β * μ) ≤ mo d 0 β := by
    have h1 : ∀ i : Fin d.length, Real.exp (-β * μ) * (1 - β * (d[i] - μ)) ≤ d[i] ^ 0 * Real.exp (-β * d[i]) := by
      intro i
      have h2 : 1 - β * (d[i] - μ) ≤ Real.exp (-β * (d[i] - μ)) := by
        have := Real.add_one_le_exp (-β * (d[i] - μ))
        linarith
      have e : Real.exp (-β * d[i]) = Real.exp (-β * μ) * Real.exp (-β * (d[i] - μ)) := by rw [← Real.exp_add]; ring_nf
      rw [pow_zero, one_mul, e]
      exact mul_le_mul_of_nonneg_left h2 (Real.exp_pos _).le
    have h3 := Finset.sum_le_sum (s := Finset.univ) fun i _ => h1 i
    have h4 : ∑ i : Fin d.length, Real.exp (-β * μ) * (1 - β * (d[i] - μ)) = d.length * Real.exp (-β * μ) := by
      rw [← Finset.mul_sum, Finset.sum_sub_distrib, ← Finset.mul_sum, Finset.sum_sub_distrib, ← hμ1]
      simp
      ring
    rw [h4] at h3
    exact h3
  have hlog : Real.log d.length - β * μ ≤ Real.log (mo d 0 β) := by
    have := Real.log_le_log (by positivity) hZ
    rw [Real.log_mul hM.ne' (Real.exp_pos _).ne', Real.log_exp] at this
    linarith
  have h1 : a * mo d 0 β ≤ mo d 1 β := by
    unfold mo
    rw [Finset.mul_sum]
    refine Finset.sum_le_sum fun i _ => ?_
    rw [pow_zero, one_mul, pow_one]
    exact mul_le_mul_of_nonneg_right (ha _ (List.getElem_mem _)) (Real.exp_pos _).le
  have h2 : a ≤ mo d 1 β / mo d 0 β := by rwa [le_div_iff₀ h0]
  have h3 : μ - a ≤ (d.length - 1) / d.length * (b - a) := by
    rw [hμ, div_sub' hM.ne', div_mul_eq_mul_div, div_le_div_iff_of_pos_right hM]
    linarith
  rw [logEntropy_eq]
  nlinarith [mul_le_mul_of_nonneg_left h2 hβ, mul_le_mul_of_nonneg_left h3 hβ]

/-- Gibbs' inequality. -/
theorem entropy_gibbs (d : List ℝ) (hd : d ≠ []) (β : ℝ) (r : Fin d.length → ℝ) (hr : ∀ i, 0 < r i) (hr1 : ∑ i, r i = 1) :
    logEntropy β d ≤ -∑ i : Fin d.length, Real.exp (-β * d[i]) / mo d 0 β * Real.log (r i) := by
  have h0 := mo_pos d hd β
  have hw : ∑ i : Fin d.length, Real.exp (-β * d[i]) / mo d 0 β = 1 := by
    rw [← Finset.sum_div]
    have : ∑ i : Fin d.length, Real.exp (-β * d[i]) = mo d 0 β := by unfold mo; simp
    rw [this, div_self h0.ne']
  have hle : ∑ i : Fin d.length, Real.exp (-β * d[i]) / mo d 0 β * (Real.log (r i) + β * d[i] + Real.log (mo d 0 β)) ≤ 0 := by
    have h1 : ∀ i : Fin d.length, Real.exp (-β * d[i]) / mo d 0 β * (Real.log (r i) + β * d[i] + Real.log (mo d 0 β)) ≤
        r i - Real.exp (-β * d[i]) / mo d 0 β := by
      intro i
      have hwp : 0 < Real.exp (-β * d[i]) / mo d 0 β := div_pos (Real.exp_pos _) h0
      have e : Real.log (r i) + β * d[i] + Real.log (mo d 0 β) = Real.log (r i / (Real.exp (-β * d[i]) / mo d 0 β)) := by
        rw [Real.log_div (hr i).ne' hwp.ne', Real.log_div (Real.exp_pos _).ne' h0.ne', Real.log_exp]
        ring
      rw [e]
      have := Real.log_le_sub_one_of_pos (div_pos (hr i) hwp)
      have h2 := mul_le_mul_of_nonneg_left this hwp.le
      have h3 : Real.exp (-β * d[i]) / mo d 0 β * (r i / (Real.exp (-β * d[i]) / mo d 0 β) - 1) = r i - Real.exp (-β * d[i]) / mo d 0 β := by
        field_simp
      linarith
    refine (Finset.sum_le_sum fun i _ => h1 i).trans ?_
    rw [Finset.sum_sub_distrib, hr1, hw, sub_self]
  have e : ∑ i : Fin d.length, Real.exp (-β * d[i]) / mo d 0 β * (Real.log (r i) + β * d[i] + Real.log (mo d 0 β)) =
      ∑ i : Fin d.length, Real.exp (-β * d[i]) / mo d 0 β * Real.log (r i) + logEntropy β d := by
    have e1 : ∀ i : Fin d.length, Real.exp (-β * d[i]) / mo d 0 β * (Real.log (r i) + β * d[i] + Real.log (mo d 0 β)) =
        Real.exp (-β * d[i]) / mo d 0 β * Real.log (r i) + β * (d[i] ^ 1 * Real.exp (-β * d[i])) / mo d 0 β +
          Real.exp (-β * d[i]) / mo d 0 β * Real.log (mo d 0 β) := by
      intro i; ring
    rw [Finset.sum_congr rfl fun i _ => e1 i, Finset.sum_add_distrib, Finset.sum_add_distrib, ← Finset.sum_mul, hw, one_mul, logEntropy_eq,
      ← Finset.sum_div, ← Finset.mul_sum]
    unfold mo
    ring
  linarith

/-- The entropy is small if one distance is smaller than the others by enough. -/
theorem entropy_peak (d : List ℝ) (i0 : Fin d.length) (δ β q : ℝ) (hM : 2 ≤ d.length) (hgap : ∀ j, j ≠ i0 → d[i0] + δ ≤ d[j]) (hβ : 0 ≤ β) (hq : 0 < q)
    (hq2 : q ≤ 1 / 2) (hbd : (d.length - 1) * Real.exp (-β * δ) ≤ q / (1 - q)) :
    logEntropy β d ≤ -(1 - q) * Real.log (1 - q) - q * Real.log q + q * Real.log (d.length - 1) := by
  have hd : d ≠ [] := by rintro rfl; simp at hM
  have h0 := mo_pos d hd β
  have hM1 : (0 : ℝ) < d.length - 1 := by
    have : (2 : ℝ) ≤ d.length := by exact_mod_cast hM
    linarith
  have hM1' : (1 : ℝ) ≤ d.length - 1 := by
    have : (2 : ℝ) ≤ d.length := by exact_mod_cast hM
    linarith
  have hg := entropy_gibbs d hd β (fun i => if i = i0 then 1 - q else q / (d.length - 1)) (fun i => by split <;> [linarith; positivity]) (by
    rw [← Finset.add_sum_erase _ _ (Finset.mem_univ i0), if_pos rfl, Finset.sum_congr rfl fun i hi => if_neg (Finset.ne_of_mem_erase hi), Finset.sum_const,
      Finset.card_erase_of_mem (Finset.mem_univ _), Finset.card_univ, Fintype.card_fin, nsmul_eq_mul, Nat.cast_sub (by omega), Nat.cast_one]
    field_simp
    ring)
  set w : Fin d.length → ℝ := fun i => Real.exp (-β * d[i]) / mo d 0 β with hwdef
  have hw : w i0 + ∑ i ∈ Finset.univ.erase i0, w i = 1 := by
    rw [Finset.add_sum_erase _ _ (Finset.mem_univ i0), hwdef, ← Finset.sum_div]
    have : ∑ i : Fin d.length, Real.exp (-β * d[i]) = mo d 0 β := by unfold mo; simp
    rw [this, div_self h0.ne']
  have hrest : ∑ i ∈ Finset.univ.erase i0, w i ≤ w i0 * (q / (1 - q)) := by
    have h1 : ∀ i ∈ Finset.univ.erase i0, w i ≤ w i0 * Real.exp (-β * δ) := by
      intro i hi
      simp only [hwdef]
      rw [div_mul_eq_mul_div, div_le_div_iff_of_pos_right h0, ← Real.exp_add]
      refine Real.exp_le_exp.2 ?_
      have := mul_le_mul_of_nonneg_left (hgap i (Finset.ne_of_mem_erase hi)) hβ
      linarith
    refine (Finset.sum_le_sum h1).trans ?_
    rw [Finset.sum_const, Finset.card_erase_of_mem (Finset.mem_univ _), Finset.card_univ, Fintype.card_fin, nsmul_eq_mul, Nat.cast_sub (by omega), Nat.cast_one]
    have : 0 < w i0 := div_pos (Real.exp_pos _) h0
    calc ((d.length : ℝ) - 1) * (w i0 * Real.exp (-β * δ)) = w i0 * ((d.length - 1) * Real.exp (-β * δ)) := by ring
      _ ≤ w i0 * (q / (1 - q)) := mul_le_mul_of_nonneg_left hbd this.le
  have hw0 : 1 - q ≤ w i0 := by
    have h1 : 1 ≤ w i0 * (1 + q / (1 - q)) := by nlinarith
    have e : 1 + q / (1 - q) = 1 / (1 - q) := by
      have : 1 - q ≠ 0 := by linarith
      field_simp
      ring
    rw [e, mul_one_div, le_div_iff₀ (by linarith)] at h1
    linarith
  have hsum : ∑ i : Fin d.length, w i * Real.log (if i = i0 then 1 - q else q / (d.length - 1)) =
      w i0 * Real.log (1 - q) + (1 - w i0) * Real.log (q / (d.length - 1)) := by
    rw [← Finset.add_sum_erase _ _ (Finset.mem_univ i0), if_pos rfl, Finset.sum_congr rfl fun i hi => by rw [if_neg (Finset.ne_of_mem_erase hi)], ← Finset.sum_mul]
    congr 2
    linarith
  rw [hsum] at hg
  have hl : Real.log (q / (d.length - 1)) ≤ Real.log (1 - q) := by
    refine Real.log_le_log (by positivity) ?_
    rw [div_le_iff₀ hM1]
    nlinarith
  have hlog : Real.log (q / (d.length - 1)) = Real.log q - Real.log (d.length - 1) := Real.log_div hq.ne' hM1.ne'
  have hfin : -(w i0 * Real.log (1 - q) + (1 - w i0) * Real.log (q / (d.length - 1))) ≤ -(1 - q) * Real.log (1 - q) - q * Real.log (q / (d.length - 1)) := by
    nlinarith [mul_nonneg (sub_nonneg.2 hw0) (sub_nonneg.2 hl)]
  rw [hlog] at hfin
  rw [hlog] at hg
  linarith

/-- The constant `p1` solves its equation. -/
theorem computeP1_eq (root : RootFn) (hr : RootSpec root) (M : ℕ) (p : ℝ) (hM : 1 ≤ M) (hp : 2 ≤ p) :
    ∃ x, computeP1 root M p = .ok (1 - x / 2) ∧ 0 < x ∧ x ≤ 1 / 2 ∧ x * Real.log M - x * Real.log x = Real.log (min (Real.sqrt (2 * M)) p) := by
  have h0 := log_min_pos M p hM hp
  have h5 := p1Fun_half M p hM hp
  have hsign : p1Fun M p 0 * p1Fun M p 0.5 ≤ 0 := by
    rw [p1Fun_zero]
    nlinarith
  unfold computeP1
  cases hc : root (p1Fun M p) 0 0.5 with
  | none => exact absurd hc (hr.total _ _ _ (p1Fun_continuous M p) hsign)
  | some x =>
    obtain ⟨e1, e2, e3⟩ := hr.sound _ _ _ _ hc
    have hx : x ≠ 0 := by
      rintro rfl
      rw [p1Fun_zero] at e1
      linarith
    rw [min_eq_left (by norm_num)] at e2
    rw [max_eq_right (by norm_num)] at e3
    refine ⟨x, rfl, lt_of_le_of_ne e2 (Ne.symm hx), by norm_num at e3; linarith, ?_⟩
    unfold p1Fun at e1
    linarith

/-- The numerical inequality behind the upper end of the bracket. -/
theorem peak_le (M : ℕ) (hM : 3 ≤ M) (q : ℝ) (hq : 0 < q) (hq4 : q ≤ 1 / 4) :
    -(1 - q) * Real.log (1 - q) - q * Real.log q + q * Real.log (M - 1) ≤ 2 * q * Real.log M - 2 * q * Real.log (2 * q) := by
  have hM' : (3 : ℝ) ≤ M := by exact_mod_cast hM
  have h1 : -(1 - q) * Real.log (1 - q) ≤ q := by
    have := Real.one_sub_inv_le_log_of_pos (show 0 < 1 - q by linarith)
    have h2 := mul_le_mul_of_nonneg_left this (show 0 ≤ 1 - q by linarith)
    have h3 : (1 - q) * (1 - (1 - q)⁻¹) = -q := by
      have : 1 - q ≠ 0 := by linarith
      field_simp
      ring
    linarith
  have h2 : Real.log (2 * q) = Real.log 2 + Real.log q := Real.log_mul (by norm_num) hq.ne'
  have h3 : Real.log q ≤ -(2 * Real.log 2) := by
    have := Real.log_le_log hq hq4
    have e : Real.log (1 / 4) = -(2 * Real.log 2) := by
      rw [show (1 / 4 : ℝ) = ((2 : ℝ) ^ 2)⁻¹ by norm_num, Real.log_inv, Real.log_pow]
      norm_num
    linarith
  have h4 : 1 ≤ Real.log M := by
    rw [Real.le_log_iff_exp_le (by linarith)]
    have := Real.exp_one_lt_d9
    linarith
  have h5 : Real.log (M - 1) ≤ Real.log M := Real.log_le_log (by linarith) (by linarith)
  rw [h2]
  nlinarith

/-- **C81, partial**: if the location is no sample, has a unique nearest sample, and some squared distance is at least 1/2, then the bandwidth is found for every
perplexity from two to below the number of samples. Missing: the other cases, for some of which the call fails though there is a bandwidth
(`perp_equal_false`, `perp_scale_false`). -/
theorem perp_succeeds_partial (root : RootFn) (hr : RootSpec root) (d : List ℝ) (p : ℝ) (hp : 2 ≤ p) (hpM : p < d.length) (i0 : Fin d.length)
    (hpos : 0 < d[i0]) (huniq : ∀ j, j ≠ i0 → d[i0] < d[j]) (hbig : ∃ x ∈ d, 1 / 2 ≤ x) : ∃ β, perpBandwidth root d p = .ok β := by
  have hM3 : 3 ≤ d.length := by
    have : (2 : ℝ) < d.length := by linarith
    exact_mod_cast this
  have hM3' : (3 : ℝ) ≤ d.length := by exact_mod_cast hM3
  have hd : d ≠ [] := by rintro rfl; simp at hM3
  set a := d[i0] with ha
  have hmin : ∀ x ∈ d, a ≤ x := by
    intro x hx
    obtain ⟨j, hj, rfl⟩ := List.getElem_of_mem hx
    by_cases e : (⟨j, hj⟩ : Fin d.length) = i0
    · have h1 : d[j] = a := by rw [ha]; simp [← e]
      exact h1.ge
    · exact (huniq _ e).le
  have hamem : a ∈ d := List.getElem_mem _
  obtain ⟨x, hx, hx0, hxle, hxeq⟩ := computeP1_eq root hr d.length p (by omega) hp
  -- the largest distance
  obtain ⟨b, hb⟩ : ∃ b, d.max? = some b := by
    cases h : d.max? with
    | none => exact absurd (List.max?_eq_none_iff.1 h) hd
    | some b => exact ⟨b, rfl⟩
  have hbm := List.max?_eq_some_iff.1 hb
  have hbmax : ∀ x ∈ d, x ≤ b := hbm.2
  -- the smallest positive distance
  obtain ⟨d1, hd1⟩ := minPos_some d a hamem hpos
  obtain ⟨m1, m2, m3⟩ := minPos_spec _ _ hd1
  obtain rfl : d1 = a := le_antisymm (m3 a hamem hpos) (hmin d1 m1)
  -- the gap
  obtain ⟨j0, hj0⟩ : ∃ j : Fin d.length, j ≠ i0 := by
    haveI : Nontrivial (Fin d.length) := Fin.nontrivial_iff_two_le.2 (by omega)
    exact exists_ne i0
  have hgapmem : d[j0] - a ∈ d.map (fun x => x - a) := List.mem_map.2 ⟨d[j0], List.getElem_mem _, rfl⟩
  obtain ⟨δ, hδ⟩ := minPos_some _ _ hgapmem (sub_pos.2 (huniq j0 hj0))
  obtain ⟨n1, n2, n3⟩ := minPos_spec _ _ hδ
  have hgap : ∀ j, j ≠ i0 → d[i0] + δ ≤ d[j] := by
    intro j hj
    have := n3 (d[j] - a) (List.mem_map.2 ⟨d[j], List.getElem_mem _, rfl⟩) (sub_pos.2 (huniq j hj))
    linarith
  have hab : a < b := lt_of_lt_of_le (huniq j0 hj0) (hbmax _ (List.getElem_mem _))
  have hb2 : 1 / 2 ≤ b := by
    obtain ⟨y, hy, hy2⟩ := hbig
    exact hy2.trans (hbmax y hy)
  have hlogp : 0 < Real.log (d.length / p) := Real.log_pos (by rw [lt_div_iff₀ (by linarith)]; linarith)
  have hlogp' : Real.log (d.length / p) = Real.log d.length - Real.log p := Real.log_div (by linarith) (by linarith)
  -- the lower end
  have hlow : Real.log p ≤ logEntropy (beta1 d.length p b a) d := by
    have hq : 0 < b ^ 4 - a ^ 4 := by
      have : a ^ 4 < b ^ 4 := pow_lt_pow_left₀ hab hpos.le (by norm_num)
      linarith
    have n1 : 0 ≤ d.length * Real.log (d.length / p) / ((d.length - 1) * (b - a)) := by
      have : 0 < b - a := by linarith
      have : (0 : ℝ) < d.length - 1 := by linarith
      positivity
    unfold beta1
    rcases max_choice (d.length * Real.log (d.length / p) / ((d.length - 1) * (b - a))) (Real.sqrt (Real.log (d.length / p) / (b ^ 4 - a ^ 4))) with e | e
    · rw [e]
      have := entropy_linear d a b _ hmin hbmax hamem n1
      have e2 : d.length * Real.log (d.length / p) / ((d.length - 1) * (b - a)) * ((d.length - 1) / d.length * (b - a)) = Real.log (d.length / p) := by
        have h1 : b - a ≠ 0 := by linarith
        have h2 : (d.length : ℝ) - 1 ≠ 0 := by linarith
        have h3 : (d.length : ℝ) ≠ 0 := by linarith
        field_simp
      rw [e2] at this
      linarith
    · rw [e]
      have := entropy_quadratic d hd a b _ hmin hbmax (Real.sqrt_nonneg (Real.log (d.length / p) / (b ^ 4 - a ^ 4)))
      rw [Real.sq_sqrt (div_nonneg hlogp.le hq.le)] at this
      have h8 : (b - a) ^ 2 ≤ 8 * (b ^ 4 - a ^ 4) := by
        have h1 : b - a ≤ 8 * ((b + a) * (b ^ 2 + a ^ 2)) := by
          have hbb : 1 / 4 ≤ b ^ 2 := by nlinarith
          have : b * (1 / 4) ≤ (b + a) * (b ^ 2 + a ^ 2) :=
            mul_le_mul (by linarith) (by nlinarith [sq_nonneg a]) (by norm_num) (by linarith)
          linarith
        nlinarith
      have h9 : Real.log (d.length / p) / (b ^ 4 - a ^ 4) * (b - a) ^ 2 / 8 ≤ Real.log (d.length / p) := by
        rw [div_mul_eq_mul_div, div_div, div_le_iff₀ (by positivity)]
        nlinarith
      linarith
  -- the upper end
  have hhigh : logEntropy (beta2 d.length δ (1 - x / 2)) d ≤ Real.log p := by
    have hr1 : (1 - x / 2) / (1 - (1 - x / 2)) * (d.length - 1) = (1 - x / 2) / (x / 2) * (d.length - 1) := by ring
    have h3 : 3 ≤ (1 - x / 2) / (x / 2) := by rw [le_div_iff₀ (by linarith)]; linarith
    have harg : 1 < (1 - x / 2) / (x / 2) * (d.length - 1) := by nlinarith
    have hb0 : 0 ≤ beta2 d.length δ (1 - x / 2) := by
      unfold beta2
      rw [hr1]
      have := Real.log_pos harg
      positivity
    have hexp : Real.exp (-beta2 d.length δ (1 - x / 2) * δ) = ((1 - x / 2) / (x / 2) * (d.length - 1))⁻¹ := by
      unfold beta2
      rw [hr1, show -(1 / δ * Real.log ((1 - x / 2) / (x / 2) * (d.length - 1))) * δ = -Real.log ((1 - x / 2) / (x / 2) * (d.length - 1)) by field_simp,
        Real.exp_neg, Real.exp_log (by linarith)]
    have hpk := entropy_peak d i0 δ _ (x / 2) (by omega) hgap hb0 (by linarith) (by linarith) (by
      rw [hexp]
      have h1 : (d.length : ℝ) - 1 ≠ 0 := by linarith
      have h2 : 1 - x / 2 ≠ 0 := by linarith
      have h4 : x / 2 ≠ 0 := by linarith
      refine le_of_eq ?_
      field_simp)
    have hpl := peak_le d.length hM3 (x / 2) (by linarith) (by linarith)
    have e : 2 * (x / 2) * Real.log d.length - 2 * (x / 2) * Real.log (2 * (x / 2)) = x * Real.log d.length - x * Real.log x := by
      rw [show 2 * (x / 2) = x by ring]
    rw [e, hxeq] at hpl
    have hmn : Real.log (min (Real.sqrt (2 * d.length)) p) ≤ Real.log p := by
      refine Real.log_le_log ?_ (min_le_right _ _)
      refine lt_min (Real.sqrt_pos.2 (by linarith)) (by linarith)
    linarith
  have hroot := hr.total (fun β => logEntropy β d - Real.log p) (beta1 d.length p b a) (beta2 d.length δ (1 - x / 2))
    ((logEntropy_continuous d hd).sub continuous_const) (mul_nonpos_of_nonneg_of_nonpos (by linarith) (by linarith))
  unfold perpBandwidth
  simp only [hx, hb, hd1, hδ]
  cases hc : root (fun β => logEntropy β d - Real.log p) (beta1 d.length p b a) (beta2 d.length δ (1 - x / 2)) with
  | none => exact absurd hc hroot
  | some β => exact ⟨β, rfl⟩

/-- The hypotheses are met by the squared distances `1, 4, 9`. -/
example : (2 : ℝ) < ([1, 4, 9] : List ℝ).length ∧ 0 < ([1, 4, 9] : List ℝ)[(0 : Fin 3)] ∧
    (∀ j : Fin 3, j ≠ 0 → ([1, 4, 9] : List ℝ)[(0 : Fin 3)] < ([1, 4, 9] : List ℝ)[j]) ∧ ∃ x ∈ ([1, 4, 9] : List ℝ), 1 / 2 ≤ x := by
  refine ⟨by norm_num, by norm_num, fun j hj => ?_, 1, by simp, by norm_num⟩
  fin_cases j
  · exact absurd rfl hj
  · norm_num
  · norm_num

end Verif.Misc
