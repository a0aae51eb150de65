import Verif.Domain.ExtentModel
import Mathlib.Algebra.QuadraticDiscriminant
import Mathlib.Tactic.FieldSimp
import Mathlib.Tactic.LinearCombination

/-!
# The real roots used for the extent to a quadratic constraint

`np.roots([a, b, c])` followed by the selection of the real roots (`/repo/psdr/domains/euclidean.py` 1195-1207): exactly the real zeros of the
polynomial, unless its two leading coefficients vanish.
-/

namespace Verif.Domain

/-- **C09** The list holds exactly the real zeros of `a t² + b t + c`. -/
theorem mem_realRoots (a b c t : ℝ) (h : a ≠ 0 ∨ b ≠ 0) : t ∈ realRoots a b c ↔ a * t ^ 2 + b * t + c = 0 := by
  unfold realRoots
  by_cases ha : a ≠ 0
  · rw [if_pos ha]
    by_cases hd : 0 ≤ b ^ 2 - 4 * a * c
    · rw [if_pos hd]
      have hs : discrim a b c = Real.sqrt (b ^ 2 - 4 * a * c) * Real.sqrt (b ^ 2 - 4 * a * c) := by
        rw [Real.mul_self_sqrt hd, discrim]
      have := quadratic_eq_zero_iff ha hs t
      rw [show a * t ^ 2 + b * t + c = a * (t * t) + b * t + c by ring, this]
      simp
    · rw [if_neg hd]
      refine ⟨fun hm => by simp at hm, fun h0 => ?_⟩
      exfalso
      apply hd
      have : b ^ 2 - 4 * a * c = (2 * a * t + b) ^ 2 := by linear_combination (-4 * a) * h0
      rw [this]
      positivity
  · rw [if_neg ha]
    push Not at ha
    have hb : b ≠ 0 := by
      rcases h with h | h
      · exact absurd ha h
      · exact h
    rw [if_pos hb, List.mem_singleton, ha]
    constructor
    · rintro rfl
      field_simp
      ring
    · intro h0
      rw [eq_div_iff hb]
      linear_combination h0

/-- Both kinds of polynomials. -/
example : (3 : ℝ) ∈ realRoots 1 (-4) 3 ∧ (-2 : ℝ) ∈ realRoots 0 3 6 ∧ (2 : ℝ) ∉ realRoots 0 3 6 := by
  refine ⟨?_, ?_, ?_⟩
  · rw [mem_realRoots _ _ _ _ (by norm_num)]; norm_num
  · rw [mem_realRoots _ _ _ _ (by norm_num)]; norm_num
  · rw [mem_realRoots _ _ _ _ (by norm_num)]; norm_num

end Verif.Domain
