import Mathlib.Data.Real.Basic
import Mathlib.Tactic.Linarith
import Verif.Domain.Model

/-!
# Model of the integer bisection

Source: `/repo/psdr/sample/minimax.py` 30-71 (`_int_bisect`).

The printing is left out. The function values are exact reals and evaluating the function has no side effect; the model also counts the
passes of the loop that evaluate the function.
-/

namespace Verif.Samp

open Verif.Domain

/-- `n3 = (n1 + n2)//2`, rounded up when it collides with the left end, minimax.py 51-54. -/
def bisectMid (n1 n2 : ℤ) : ℤ := if Int.fdiv (n1 + n2) 2 = n1 then Int.fdiv (n1 + n2) 2 + 1 else Int.fdiv (n1 + n2) 2

theorem bisectMid_bounds {n1 n2 : ℤ} (h : n1 < n2) : n1 < bisectMid n1 n2 ∧ bisectMid n1 n2 ≤ n2 := by
  unfold bisectMid
  rw [Int.fdiv_eq_ediv_of_nonneg _ (by norm_num)]
  split <;> omega

open Classical in
/-- The loop, minimax.py 49-65; the third component counts the evaluations. -/
noncomputable def bisectLoop (f : ℤ → ℝ) (n1 n2 : ℤ) (count : ℕ) : (ℤ × ℤ) × ℕ :=
  if h : n1 < n2 then
    if h2 : bisectMid n1 n2 = n2 then ((n1, n2), count)
    else if 0 < f (bisectMid n1 n2) * f n1 then bisectLoop f (bisectMid n1 n2) n2 (count + 1)
    else bisectLoop f n1 (bisectMid n1 n2) (count + 1)
  else ((n1, n2), count)
termination_by (n2 - n1).toNat
decreasing_by
  · have := bisectMid_bounds h; omega
  · have := bisectMid_bounds h; omega

open Classical in
/-- `_int_bisect(fun, n1, n2)`, minimax.py 30-71. -/
noncomputable def intBisect (f : ℤ → ℝ) (n1 n2 : ℤ) : Except Err ℤ :=
  if ¬ n1 < n2 then .error .assertion
  else if ¬ f n1 * f n2 < 0 then .error .assertion
  else if 0 < f (bisectLoop f n1 n2 0).1.1 then .ok (bisectLoop f n1 n2 0).1.1
  else .ok (bisectLoop f n1 n2 0).1.2

end Verif.Samp
