import Mathlib.Data.List.Basic
import Mathlib.Data.List.Range
import Mathlib.Tactic.Linarith
import Verif.Sample.SobolModel

/-!
# C41: Sobol sampling
-/

namespace Verif.Samp

open Verif Verif.Domain

/-- The first `K` points of the scaled sequence (the sequence is used from position 1 on). -/
noncomputable def sobolPrefix (seq : ℕ → Vec) (lb ub : Vec) (K : ℕ) : List Vec :=
  (List.range K).map (fun j => sobolScale lb ub (seq (1 + j)))

/-- `r` consists of the first `n` points of the scaled sequence which lie inside, in order. -/
def FirstInside (seq : ℕ → Vec) (lb ub : Vec) (inside : Vec → Bool) (n : ℕ) (r : List Vec) : Prop :=
  r.length = n ∧ (∀ x ∈ r, inside x = true) ∧
    ∀ K, n ≤ ((sobolPrefix seq lb ub K).filter inside).length → ((sobolPrefix seq lb ub K).filter inside).take n = r

theorem prefix_append (seq : ℕ → Vec) (lb ub : Vec) (K n : ℕ) :
    sobolPrefix seq lb ub (K + n) = sobolPrefix seq lb ub K ++ sobolBatch seq lb ub (1 + K) n := by
  unfold sobolPrefix sobolBatch
  rw [List.range_add, List.map_append, List.map_map]
  congr 1
  refine List.map_congr_left fun j _ => ?_
  simp only [Function.comp_apply, add_assoc]

theorem prefix_prefix (seq : ℕ → Vec) (lb ub : Vec) (inside : Vec → Bool) {K K' n : ℕ} (h : K ≤ K')
    (hn : n ≤ ((sobolPrefix seq lb ub K).filter inside).length) :
    ((sobolPrefix seq lb ub K').filter inside).take n = ((sobolPrefix seq lb ub K).filter inside).take n := by
  obtain ⟨d, rfl⟩ := Nat.exists_eq_add_of_le h
  rw [prefix_append, List.filter_append, List.take_append_of_le_length hn]

theorem sobolLoop_spec (seq : ℕ → Vec) (lb ub : Vec) (inside : Vec → Bool) (n fuel t : ℕ) (r : List Vec)
    (h : sobolLoop seq lb ub inside n fuel (1 + t * n) ((sobolPrefix seq lb ub (t * n)).filter inside) = some r) :
    ∃ K, n ≤ ((sobolPrefix seq lb ub K).filter inside).length ∧ r = ((sobolPrefix seq lb ub K).filter inside).take n := by
  induction fuel generalizing t with
  | zero => cases h
  | succ fuel ih =>
    have e : (sobolPrefix seq lb ub (t * n)).filter inside ++ (sobolBatch seq lb ub (1 + t * n) n).filter inside =
        (sobolPrefix seq lb ub ((t + 1) * n)).filter inside := by
      rw [← List.filter_append, ← prefix_append, Nat.succ_mul]
    rw [sobolLoop, e] at h
    by_cases hc : n ≤ ((sobolPrefix seq lb ub ((t + 1) * n)).filter inside).length
    · rw [if_pos hc] at h
      exact ⟨_, hc, (Option.some.inj h).symm⟩
    · rw [if_neg hc, show 1 + t * n + n = 1 + (t + 1) * n by ring] at h
      exact ih _ h

/-- C41: whatever is returned is exactly the first `n` points of the scaled sequence lying inside the domain, in order. -/
theorem sobol_first (hasEq isRandom : Bool) (seq : ℕ → Vec) (lb ub : Vec) (inside : Vec → Bool) (fuel n : ℕ) (r : List Vec)
    (h : sobolSequence hasEq isRandom seq lb ub inside fuel n = .ok (some r)) : FirstInside seq lb ub inside n r := by
  unfold sobolSequence at h
  cases hasEq with
  | true => simp at h
  | false =>
    cases isRandom with
    | true => simp at h
    | false =>
      simp only [Bool.false_eq_true, if_false, Except.ok.injEq] at h
      have h' : sobolLoop seq lb ub inside n fuel (1 + 0 * n) ((sobolPrefix seq lb ub (0 * n)).filter inside) = some r := by
        simpa [sobolPrefix] using h
      obtain ⟨K, hK, rfl⟩ := sobolLoop_spec seq lb ub inside n fuel 0 r h'
      refine ⟨by rw [List.length_take]; omega, fun x hx => (List.mem_filter.1 (List.mem_of_mem_take hx)).2, fun K' hK' => ?_⟩
      rcases le_total K K' with hl | hl
      · exact prefix_prefix seq lb ub inside hl hK
      · exact (prefix_prefix seq lb ub inside hl hK').symm

theorem prefix_count_mono (seq : ℕ → Vec) (lb ub : Vec) (inside : Vec → Bool) {K K' : ℕ} (h : K ≤ K') :
    ((sobolPrefix seq lb ub K).filter inside).length ≤ ((sobolPrefix seq lb ub K').filter inside).length := by
  obtain ⟨d, rfl⟩ := Nat.exists_eq_add_of_le h
  rw [prefix_append, List.filter_append, List.length_append]; omega

theorem sobolLoop_ends (seq : ℕ → Vec) (lb ub : Vec) (inside : Vec → Bool) (n fuel t : ℕ) :
    (∃ r, sobolLoop seq lb ub inside n fuel (1 + t * n) ((sobolPrefix seq lb ub (t * n)).filter inside) = some r) ↔
      ∃ u, u < fuel ∧ n ≤ ((sobolPrefix seq lb ub ((t + u + 1) * n)).filter inside).length := by
  induction fuel generalizing t with
  | zero => simp [sobolLoop]
  | succ fuel ih =>
    have e : (sobolPrefix seq lb ub (t * n)).filter inside ++ (sobolBatch seq lb ub (1 + t * n) n).filter inside =
        (sobolPrefix seq lb ub ((t + 1) * n)).filter inside := by
      rw [← List.filter_append, ← prefix_append, Nat.succ_mul]
    rw [sobolLoop, e]
    by_cases hc : n ≤ ((sobolPrefix seq lb ub ((t + 1) * n)).filter inside).length
    · rw [if_pos hc]
      exact ⟨fun _ => ⟨0, Nat.succ_pos _, hc⟩, fun _ => ⟨_, rfl⟩⟩
    · rw [if_neg hc, show 1 + t * n + n = 1 + (t + 1) * n by ring, ih (t + 1)]
      constructor
      · rintro ⟨u, hu, h⟩
        exact ⟨u + 1, by omega, by rw [show t + (u + 1) + 1 = t + 1 + u + 1 by ring]; exact h⟩
      · rintro ⟨u, hu, h⟩
        cases u with
        | zero => exact absurd h hc
        | succ u => exact ⟨u, by omega, by rw [show t + 1 + u + 1 = t + (u + 1) + 1 by ring]; exact h⟩

/-- C41: the call ends exactly when the domain has no equality constraints, is not a random domain, and the sequence enters the domain
`n` times; it then ends within the number of batches needed. -/
theorem sobol_ends_iff (hasEq isRandom : Bool) (seq : ℕ → Vec) (lb ub : Vec) (inside : Vec → Bool) (n : ℕ) :
    (∃ fuel r, sobolSequence hasEq isRandom seq lb ub inside fuel n = .ok (some r)) ↔
      hasEq = false ∧ isRandom = false ∧ ∃ K, n ≤ ((sobolPrefix seq lb ub K).filter inside).length := by
  have hstart : ∀ fuel, sobolLoop seq lb ub inside n fuel 1 [] =
      sobolLoop seq lb ub inside n fuel (1 + 0 * n) ((sobolPrefix seq lb ub (0 * n)).filter inside) := fun fuel => by simp [sobolPrefix]
  constructor
  · rintro ⟨fuel, r, h⟩
    unfold sobolSequence at h
    cases hasEq with
    | true => simp at h
    | false =>
      cases isRandom with
      | true => simp at h
      | false =>
        simp only [Bool.false_eq_true, if_false, Except.ok.injEq] at h
        rw [hstart] at h
        obtain ⟨u, _, hu⟩ := (sobolLoop_ends seq lb ub inside n fuel 0).1 ⟨r, h⟩
        exact ⟨rfl, rfl, _, hu⟩
  · rintro ⟨rfl, rfl, K, hK⟩
    unfold sobolSequence
    simp only [Bool.false_eq_true, if_false, Except.ok.injEq]
    refine ⟨K + 1, ?_⟩
    rw [hstart]
    refine (sobolLoop_ends seq lb ub inside n (K + 1) 0).2 ⟨K, by omega, ?_⟩
    rcases Nat.eq_zero_or_pos n with h0 | h0
    · omega
    · exact hK.trans (prefix_count_mono seq lb ub inside (by nlinarith))

example : FirstInside (fun j => [(j : ℝ)]) [0] [1] (fun _ => true) 1 [[1]] := by
  refine sobol_first false false _ _ _ _ 1 1 _ ?_
  simp [sobolSequence, sobolLoop, sobolBatch, sobolScale, Vec.add, Vec.mul, Vec.sub]

end Verif.Samp
