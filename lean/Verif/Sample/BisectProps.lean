import Mathlib.Tactic.Positivity
import Mathlib.Order.Monotone.Basic
import Verif.Sample.BisectModel

/-!
# C43: integer bisection
-/

namespace Verif.Samp

open Verif.Domain

theorem bisect_done {f : ℤ → ℝ} {n1 n2 : ℤ} {c : ℕ} (h : n1 < n2) (h2 : bisectMid n1 n2 = n2) : bisectLoop f n1 n2 c = ((n1, n2), c) := by
  rw [bisectLoop, dif_pos h, dif_pos h2]

theorem bisect_left {f : ℤ → ℝ} {n1 n2 : ℤ} {c : ℕ} (h : n1 < n2) (h2 : bisectMid n1 n2 ≠ n2) (h3 : 0 < f (bisectMid n1 n2) * f n1) :
    bisectLoop f n1 n2 c = bisectLoop f (bisectMid n1 n2) n2 (c + 1) := by
  rw [bisectLoop, dif_pos h, dif_neg h2, if_pos h3]

theorem bisect_right {f : ℤ → ℝ} {n1 n2 : ℤ} {c : ℕ} (h : n1 < n2) (h2 : bisectMid n1 n2 ≠ n2) (h3 : ¬ 0 < f (bisectMid n1 n2) * f n1) :
    bisectLoop f n1 n2 c = bisectLoop f n1 (bisectMid n1 n2) (c + 1) := by
  rw [bisectLoop, dif_pos h, dif_neg h2, if_neg h3]

theorem mid_eq_right {n1 n2 : ℤ} (h : n1 < n2) : bisectMid n1 n2 = n2 ↔ n2 = n1 + 1 := by
  unfold bisectMid
  rw [Int.fdiv_eq_ediv_of_nonneg _ (by norm_num)]
  split <;> omega

/-- What the loop ends with, for any function with values of opposite sign at the ends (`P` is "the sign of the left end"):
adjacent integers, the left one with the sign of the left end and the right one without it. -/
theorem bisectLoop_spec (f : ℤ → ℝ) (s : ℝ) (hs : s = 1 ∨ s = -1) (n : ℕ) : ∀ (n1 n2 : ℤ) (c : ℕ), n1 < n2 → (n2 - n1).toNat ≤ n →
    0 < s * f n1 → s * f n2 ≤ 0 → ∃ a, (bisectLoop f n1 n2 c).1 = (a, a + 1) ∧ n1 ≤ a ∧ a + 1 ≤ n2 ∧ 0 < s * f a ∧ s * f (a + 1) ≤ 0 := by
  induction n with
  | zero => intro n1 n2 c h h0; omega
  | succ n ih =>
    intro n1 n2 c h hn h1 h2
    by_cases hd : bisectMid n1 n2 = n2
    · rw [bisect_done h hd]
      have := (mid_eq_right h).1 hd
      subst this
      exact ⟨n1, rfl, le_refl _, le_refl _, h1, h2⟩
    · have hb := bisectMid_bounds h
      have hsign : ∀ x : ℝ, 0 < x * f n1 ↔ 0 < s * x := by
        intro x
        rcases hs with rfl | rfl
        · rw [one_mul] at h1 ⊢
          exact ⟨fun h => pos_of_mul_pos_of_pos_right' h h1, fun h => mul_pos h h1⟩
        · have hneg : f n1 < 0 := by linarith
          constructor
          · intro h; nlinarith [neg_of_mul_pos_right' h hneg]
          · intro h; nlinarith
      by_cases hc : 0 < f (bisectMid n1 n2) * f n1
      · rw [bisect_left h hd hc]
        obtain ⟨a, e, a1, a2, a3, a4⟩ := ih (bisectMid n1 n2) n2 (c + 1) (by omega) (by omega) ((hsign _).1 hc) h2
        exact ⟨a, e, by omega, a2, a3, a4⟩
      · rw [bisect_right h hd hc]
        obtain ⟨a, e, a1, a2, a3, a4⟩ := ih n1 (bisectMid n1 n2) (c + 1) (by omega) (by omega) h1
          (not_lt.1 fun h => hc ((hsign _).2 h))
        exact ⟨a, e, a1, by omega, a3, a4⟩
where
  pos_of_mul_pos_of_pos_right' {x y : ℝ} (h : 0 < x * y) (hy : 0 < y) : 0 < x := by
    by_contra hx
    nlinarith [mul_nonpos_of_nonpos_of_nonneg (not_lt.1 hx) hy.le]
  neg_of_mul_pos_right' {x y : ℝ} (h : 0 < x * y) (hy : y < 0) : x < 0 := by
    by_contra hx
    nlinarith [mul_nonpos_of_nonneg_of_nonpos (not_lt.1 hx) hy.le]

/-- C43: the call succeeds exactly on brackets with a strict sign change. -/
theorem intBisect_ok_iff (f : ℤ → ℝ) (n1 n2 : ℤ) : (∃ n, intBisect f n1 n2 = .ok n) ↔ n1 < n2 ∧ f n1 * f n2 < 0 := by
  unfold intBisect
  by_cases h1 : n1 < n2
  · by_cases h2 : f n1 * f n2 < 0
    · rw [if_neg (not_not.2 h1), if_neg (not_not.2 h2)]
      exact ⟨fun _ => ⟨h1, h2⟩, fun _ => by split <;> exact ⟨_, rfl⟩⟩
    · rw [if_neg (not_not.2 h1), if_pos h2]
      exact ⟨fun ⟨_, h⟩ => (by cases h), fun h => absurd h.2 h2⟩
  · rw [if_pos h1]
    exact ⟨fun ⟨_, h⟩ => (by cases h), fun h => absurd h.1 h1⟩

/-- Without any monotonicity: for a bracket going from negative to positive, the result is an integer in the bracket where the
function is not negative although it is negative just before. -/
theorem intBisect_crossing_up (f : ℤ → ℝ) (n1 n2 n : ℤ) (h1 : f n1 < 0) (h : intBisect f n1 n2 = .ok n) :
    n1 < n ∧ n ≤ n2 ∧ 0 ≤ f n ∧ f (n - 1) < 0 := by
  obtain ⟨hlt, hsc⟩ := (intBisect_ok_iff f n1 n2).1 ⟨n, h⟩
  have h2 : 0 < f n2 := by
    by_contra hc
    nlinarith [mul_nonneg_of_nonpos_of_nonpos h1.le (not_lt.1 hc)]
  obtain ⟨a, e, a1, a2, a3, a4⟩ := bisectLoop_spec f (-1) (Or.inr rfl) _ n1 n2 0 hlt (le_refl _) (by linarith) (by linarith)
  unfold intBisect at h
  rw [if_neg (not_not.2 hlt), if_neg (not_not.2 hsc), e] at h
  simp only at h
  rw [if_neg (by linarith)] at h
  cases h
  refine ⟨by omega, a2, by linarith, ?_⟩
  rw [add_sub_cancel_right]; linarith

/-- For a bracket going from positive to negative, the result is an integer where the function is positive although it is not
positive just after. -/
theorem intBisect_crossing_down (f : ℤ → ℝ) (n1 n2 n : ℤ) (h1 : 0 < f n1) (h : intBisect f n1 n2 = .ok n) :
    n1 ≤ n ∧ n < n2 ∧ 0 < f n ∧ f (n + 1) ≤ 0 := by
  obtain ⟨hlt, hsc⟩ := (intBisect_ok_iff f n1 n2).1 ⟨n, h⟩
  have h2 : f n2 < 0 := by
    by_contra hc
    nlinarith [mul_nonneg h1.le (not_lt.1 hc)]
  obtain ⟨a, e, a1, a2, a3, a4⟩ := bisectLoop_spec f 1 (Or.inl rfl) _ n1 n2 0 hlt (le_refl _) (by linarith) (by linarith)
  unfold intBisect at h
  rw [if_neg (not_not.2 hlt), if_neg (not_not.2 hsc), e] at h
  simp only at h
  rw [if_pos (by linarith)] at h
  cases h
  exact ⟨a1, by omega, by linarith, by linarith⟩

/-- C43: for a monotone function with a negative left end that does not vanish inside the bracket, the result is the least integer
of the bracket at which the function is positive. -/
theorem intBisect_least_partial (f : ℤ → ℝ) (n1 n2 n : ℤ) (hm : MonotoneOn f (Set.Icc n1 n2)) (h0 : ∀ k, n1 ≤ k → k ≤ n2 → f k ≠ 0)
    (hl : f n1 < 0) (h : intBisect f n1 n2 = .ok n) : n1 ≤ n ∧ n ≤ n2 ∧ 0 < f n ∧ ∀ k, n1 ≤ k → k < n → ¬ 0 < f k := by
  obtain ⟨a1, a2, a3, a4⟩ := intBisect_crossing_up f n1 n2 n hl h
  refine ⟨a1.le, a2, lt_of_le_of_ne a3 (Ne.symm (h0 n a1.le a2)), fun k hk hkn => ?_⟩
  have := hm (show k ∈ Set.Icc n1 n2 from ⟨hk, by omega⟩) (show n - 1 ∈ Set.Icc n1 n2 from ⟨by omega, by omega⟩) (by omega)
  linarith

/-- For a monotone function in general: the result is the least integer of the bracket where the function is not negative. -/
theorem intBisect_least_nonneg (f : ℤ → ℝ) (n1 n2 n : ℤ) (hm : MonotoneOn f (Set.Icc n1 n2)) (hl : f n1 < 0)
    (h : intBisect f n1 n2 = .ok n) : n1 ≤ n ∧ n ≤ n2 ∧ 0 ≤ f n ∧ ∀ k, n1 ≤ k → k < n → f k < 0 := by
  obtain ⟨a1, a2, a3, a4⟩ := intBisect_crossing_up f n1 n2 n hl h
  refine ⟨a1.le, a2, a3, fun k hk hkn => ?_⟩
  have := hm (show k ∈ Set.Icc n1 n2 from ⟨hk, by omega⟩) (show n - 1 ∈ Set.Icc n1 n2 from ⟨by omega, by omega⟩) (by omega)
  linarith

/-- C43, disagreement: with a value exactly zero the integer returned need not be one where the function is positive. -/
theorem intBisect_zero_false : ∃ f : ℤ → ℝ, Monotone f ∧ intBisect f 0 2 = .ok 1 ∧ ¬ 0 < f 1 := by
  refine ⟨fun n => (n : ℝ) - 1, fun a b h => sub_le_sub_right (Int.cast_le.2 h) 1, ?_, by norm_num⟩
  obtain ⟨n, hn⟩ := (intBisect_ok_iff (fun n : ℤ => (n : ℝ) - 1) 0 2).2 ⟨by norm_num, by norm_num⟩
  obtain ⟨a1, a2, a3, a4⟩ := intBisect_crossing_up (fun n : ℤ => (n : ℝ) - 1) 0 2 n (by norm_num) hn
  rw [hn]
  have : n = 1 := by
    have h3 : (1 : ℝ) ≤ n := by linarith
    have h4 : ((n - 1 : ℤ) : ℝ) < 1 := by linarith
    have : (1 : ℤ) ≤ n := by exact_mod_cast h3
    have : n - 1 < 1 := by exact_mod_cast h4
    omega
  rw [this]

/-- C43, disagreement: for a decreasing function the integer returned is the last one where the function is positive, not the
smallest. -/
theorem intBisect_decreasing_false : ∃ f : ℤ → ℝ, Antitone f ∧ intBisect f 0 3 = .ok 1 ∧ 0 < f 0 := by
  refine ⟨fun n => 3 / 2 - (n : ℝ), fun a b h => sub_le_sub_left (Int.cast_le.2 h) (3 / 2), ?_, by norm_num⟩
  obtain ⟨n, hn⟩ := (intBisect_ok_iff (fun n : ℤ => 3 / 2 - (n : ℝ)) 0 3).2 ⟨by norm_num, by norm_num⟩
  obtain ⟨a1, a2, a3, a4⟩ := intBisect_crossing_down (fun n : ℤ => 3 / 2 - (n : ℝ)) 0 3 n (by norm_num) hn
  rw [hn]
  have : n = 1 := by
    push_cast at a4
    have h3 : (n : ℝ) < 2 := by linarith
    have h4 : (0 : ℝ) < n := by linarith
    have : n < 2 := by exact_mod_cast h3
    have : 0 < n := by exact_mod_cast h4
    omega
  rw [this]

/-- C43: the number of evaluations inside the loop is at most logarithmic: a bracket of length at most `2^t` needs at most `t`. -/
theorem bisectLoop_count (f : ℤ → ℝ) (t : ℕ) : ∀ (n1 n2 : ℤ) (c : ℕ), n1 < n2 → n2 - n1 ≤ 2 ^ t → (bisectLoop f n1 n2 c).2 ≤ c + t := by
  induction t with
  | zero =>
    intro n1 n2 c h hl
    rw [bisect_done h ((mid_eq_right h).2 (by simp at hl; omega))]; simp
  | succ t ih =>
    intro n1 n2 c h hl
    by_cases hd : bisectMid n1 n2 = n2
    · rw [bisect_done h hd]; simp
    · have hb := bisectMid_bounds h
      have hne : ¬ n2 = n1 + 1 := fun e => hd ((mid_eq_right h).2 e)
      rw [pow_succ] at hl
      have hm : bisectMid n1 n2 - n1 ≤ 2 ^ t ∧ n2 - bisectMid n1 n2 ≤ 2 ^ t := by
        unfold bisectMid at *
        rw [Int.fdiv_eq_ediv_of_nonneg _ (by norm_num)] at *
        generalize (2 : ℤ) ^ t = T at *
        split <;> constructor <;> omega
      by_cases hc : 0 < f (bisectMid n1 n2) * f n1
      · rw [bisect_left h hd hc]
        have := ih (bisectMid n1 n2) n2 (c + 1) (by omega) hm.2
        omega
      · rw [bisect_right h hd hc]
        have := ih n1 (bisectMid n1 n2) (c + 1) (by omega) hm.1
        omega

example : MonotoneOn (fun n : ℤ => (n : ℝ) - 1 / 2) (Set.Icc 0 5) ∧ (∃ n, intBisect (fun n : ℤ => (n : ℝ) - 1 / 2) 0 5 = .ok n) :=
  ⟨fun a _ b _ h => sub_le_sub_right (Int.cast_le.2 h) _, (intBisect_ok_iff _ _ _).2 ⟨by norm_num, by norm_num⟩⟩

end Verif.Samp
