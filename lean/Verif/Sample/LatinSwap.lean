import Verif.Sample.LatinProps

/-!
# The proposals of the Latin hypercube search

Every iteration proposes a design that differs from the best one so far, and every non-empty set of coordinates can be exchanged.
-/

namespace Verif.Samp

open Verif Verif.Domain

variable {m N : ℕ}

/-- At least one coordinate is chosen, whatever the uniform numbers. -/
theorem swapMask_some (r : Fin m → ℝ) (hm : 0 < m) : ∃ c, swapMask r c := by
  have hne : (List.finRange m).map r ≠ [] := by
    intro h
    have := congrArg List.length h
    simp at this
    omega
  obtain ⟨c, _, hc⟩ := List.mem_map.1 (maxL_spec hne).1
  refine ⟨c, ?_⟩
  rw [swapMask, hc]
  exact min_le_left _ _

/-- Every coordinate whose uniform number is at least one half is chosen. -/
theorem swapMask_half (r : Fin m → ℝ) (c : Fin m) (h : 1 / 2 ≤ r c) : swapMask r c := by
  rw [swapMask]
  exact (min_le_right _ _).trans (by norm_num at h ⊢; linarith)

/-- C40: **the proposal of an iteration always differs from the current design**, and agrees with it outside of the two rows drawn. -/
theorem swapPerms_differs (hm : 0 < m) (π : Fin m → Fin N → Fin N) (hπ : ∀ i, Function.Bijective (π i)) (d : LatinDraw m N) :
    (∃ c, swapPerms π d c d.i = π c d.j ∧ swapPerms π d c d.j = π c d.i ∧ swapPerms π d c d.i ≠ π c d.i) ∧
      ∀ c p, p ≠ d.i → p ≠ d.j → swapPerms π d c p = π c p := by
  refine ⟨?_, ?_⟩
  · obtain ⟨c, hc⟩ := swapMask_some d.r hm
    have e : swapPerms π d c d.i = π c d.j := by
      unfold swapPerms
      rw [if_pos hc, if_neg d.ne, if_pos rfl]
    refine ⟨c, e, ?_, ?_⟩
    · unfold swapPerms
      rw [if_pos hc, if_pos rfl]
    · rw [e]
      exact fun h => d.ne ((hπ c).injective h).symm
  · intro c p h1 h2
    unfold swapPerms
    simp [h1, h2]

/-- C40: every non-empty set of coordinates is exchanged for some draw of numbers in `[0, 1)`. -/
theorem swapMask_reach (S : Fin m → Prop) (hS : ∃ c, S c) : ∃ r : Fin m → ℝ, (∀ c, 0 ≤ r c ∧ r c < 1) ∧ ∀ c, swapMask r c ↔ S c := by
  classical
  refine ⟨fun c => if S c then 1 / 2 else 0, fun c => by dsimp only; split <;> norm_num, fun c => ?_⟩
  obtain ⟨c0, h0⟩ := hS
  have hmem : ((if S c0 then 1 / 2 else 0 : ℝ)) ∈ (List.finRange m).map fun c => if S c then (1 / 2 : ℝ) else 0 :=
    List.mem_map.2 ⟨c0, List.mem_finRange _, rfl⟩
  have hmax := (maxL_spec (List.ne_nil_of_mem hmem)).2 _ hmem
  rw [if_pos h0] at hmax
  have hmin : min (maxL ((List.finRange m).map fun c => if S c then (1 / 2 : ℝ) else 0)) 0.5 = 1 / 2 := by
    rw [min_eq_right (by norm_num at hmax ⊢; linarith)]
    norm_num
  rw [swapMask, hmin]
  by_cases h : S c
  · simp [h]
  · simp only [h, if_false, iff_false, not_le]
    norm_num

/-- Two points in the plane: both coordinates can be exchanged although both numbers are small. -/
example : ∃ c : Fin 2, swapMask (fun _ => (1 / 10 : ℝ)) c := swapMask_some _ (by norm_num)

end Verif.Samp
