import Mathlib.Tactic.LinearCombination
import Verif.Misc.ShadowModel
import Mathlib.Tactic.Linarith
import Mathlib.Tactic.FieldSimp
import Mathlib.Tactic.Positivity
import Mathlib.Tactic.Ring
import Mathlib.Tactic.FinCases
import Mathlib.Tactic.IntervalCases

namespace Verif.Misc
open Verif Verif.Domain

/-! ## Specification -/

/-- The value at `y` of the piecewise linear function with the values `u` at the grid points, in the cell
between the grid points `k` and `k + 1`. -/
noncomputable def cellInterp (lo hi : ℝ) (n : ℕ) (u : ℕ → ℝ) (k : ℕ) (y : ℝ) : ℝ :=
  u k + (y - gridPt lo hi n k) / (gridPt lo hi n (k + 1) - gridPt lo hi n k) * (u (k + 1) - u k)

/-! ## The grid -/

theorem gridH_pos {lo hi : ℝ} {n : ℕ} (h : lo < hi) (hn : 2 ≤ n) : 0 < gridH lo hi n := by
  unfold gridH
  have : (2 : ℝ) ≤ n := by exact_mod_cast hn
  apply div_pos <;> linarith

theorem gridPt_zero (lo hi : ℝ) (n : ℕ) : gridPt lo hi n 0 = lo := by simp [gridPt]

theorem gridPt_last {lo hi : ℝ} {n : ℕ} (hn : 2 ≤ n) : gridPt lo hi n (n - 1) = hi := by
  have h2 : (2 : ℝ) ≤ n := by exact_mod_cast hn
  have : ((n : ℝ) - 1) ≠ 0 := by linarith
  unfold gridPt gridH
  rw [Nat.cast_sub (by omega)]
  push_cast
  field_simp
  ring

theorem gridPt_succ (lo hi : ℝ) (n k : ℕ) :
    gridPt lo hi n (k + 1) = gridPt lo hi n k + gridH lo hi n := by
  unfold gridPt; push_cast; ring

/-- Every cell number is between `0` and `n - 1`. -/
theorem cellOf_range {lo hi y : ℝ} {n : ℕ} (h : lo < hi) (hn : 2 ≤ n) (h1 : lo ≤ y) (h2 : y ≤ hi) :
    0 ≤ cellOf lo (gridH lo hi n) y ∧ cellOf lo (gridH lo hi n) y ≤ (n : ℤ) - 1 := by
  have hh := gridH_pos h hn
  constructor
  · exact Int.floor_nonneg.2 (div_nonneg (by linarith) hh.le)
  · have e : (y - lo) / gridH lo hi n ≤ (n : ℝ) - 1 := by
      rw [div_le_iff₀ hh]
      have := gridPt_last (lo := lo) (hi := hi) hn
      unfold gridPt at this
      rw [Nat.cast_sub (by omega)] at this
      push_cast at this
      linarith
    have := Int.floor_mono e
    rw [show ((n : ℝ) - 1) = (((n : ℤ) - 1 : ℤ) : ℝ) by push_cast; ring, Int.floor_intCast] at this
    exact this

/-- The entries of a row lie inside the matrix: `coo_matrix` never refuses them. -/
theorem envEntries_ok {lo hi y : ℝ} {n : ℕ} (h : lo < hi) (hn : 2 ≤ n) (h1 : lo ≤ y) (h2 : y ≤ hi) :
    entriesOk n (envEntries lo (gridH lo hi n) n y) := by
  obtain ⟨a, b⟩ := cellOf_range h hn h1 h2
  intro e he
  simp only [envEntries, List.mem_cons] at he
  rcases he with rfl | he
  · constructor
    · exact a
    · show cellOf lo (gridH lo hi n) y < n
      omega
  · split_ifs at he with hc
    · simp only [List.mem_singleton] at he
      subst he
      constructor
      · show 0 ≤ cellOf lo (gridH lo hi n) y + 1
        omega
      · show cellOf lo (gridH lo hi n) y + 1 < n
        omega
    · simp at he

theorem denseRow_sum {n : ℕ} (φ : ℤ → ℝ) (es : List (ℤ × ℝ)) (h : entriesOk n es) :
    ∑ k : Fin n, denseRow n es k * φ k = (es.map fun e => e.2 * φ e.1).sum := by
  induction es with
  | nil => simp [denseRow]
  | cons e es ih =>
    have h' : entriesOk n es := fun x hx => h x (List.mem_cons_of_mem _ hx)
    obtain ⟨a, b⟩ := h e List.mem_cons_self
    have e1 : ∀ k : Fin n, denseRow n (e :: es) k =
        (if e.1 = (k : ℤ) then e.2 else 0) + denseRow n es k := by
      intro k; simp [denseRow]
    simp only [e1, add_mul, Finset.sum_add_distrib, ih h', List.map_cons, List.sum_cons]
    congr 1
    obtain ⟨m, hm⟩ := Int.eq_ofNat_of_zero_le a
    have hmn : m < n := by omega
    rw [Finset.sum_eq_single (⟨m, hmn⟩ : Fin n)]
    · simp [hm]
    · intro k _ hk
      rw [if_neg, zero_mul]
      intro hc
      apply hk
      apply Fin.ext
      show (k : ℕ) = m
      omega
    · simp

/-- All entries of a row are nonnegative. -/
theorem envEntries_nonneg {lo hi y : ℝ} {n : ℕ} (h : lo < hi) (hn : 2 ≤ n) :
    ∀ e ∈ envEntries lo (gridH lo hi n) n y, 0 ≤ e.2 := by
  have hh := gridH_pos h hn
  have f1 := Int.floor_le ((y - lo) / gridH lo hi n)
  have f2 := Int.lt_floor_add_one ((y - lo) / gridH lo hi n)
  rw [le_div_iff₀ hh] at f1
  rw [div_lt_iff₀ hh] at f2
  intro e he
  simp only [envEntries, List.mem_cons] at he
  rcases he with rfl | he
  · apply div_nonneg _ hh.le
    simp only [cellOf]
    linarith
  · split_ifs at he with hc
    · simp only [List.mem_singleton] at he
      subst he
      apply div_nonneg _ hh.le
      simp only [cellOf]
      linarith
    · simp at he

/-- **C69, nonnegative.**  Every entry of the interpolation matrix is nonnegative. -/
theorem envRow_nonneg {lo hi y : ℝ} {n : ℕ} (h : lo < hi) (hn : 2 ≤ n) (k : Fin n) :
    0 ≤ denseRow n (envEntries lo (gridH lo hi n) n y) k := by
  apply List.sum_nonneg
  intro v hv
  obtain ⟨e, he, rfl⟩ := List.mem_map.1 hv
  split_ifs
  · exact envEntries_nonneg h hn e he
  · exact le_rfl

/-- At the right endpoint the single entry of the row is one. -/
theorem cellOf_last {lo hi y : ℝ} {n : ℕ} (h : lo < hi) (hn : 2 ≤ n) (h2 : y ≤ hi)
    (hc : cellOf lo (gridH lo hi n) y = (n : ℤ) - 1) : y = hi := by
  have hh := gridH_pos h hn
  have f1 := Int.floor_le ((y - lo) / gridH lo hi n)
  rw [le_div_iff₀ hh] at f1
  have e : ⌊(y - lo) / gridH lo hi n⌋ = (n : ℤ) - 1 := hc
  rw [e] at f1
  have := gridPt_last (lo := lo) (hi := hi) hn
  unfold gridPt at this
  rw [Nat.cast_sub (by omega)] at this
  push_cast at this f1
  linarith

theorem envRow_affine_aux {lo hi y : ℝ} {n : ℕ} (h : lo < hi) (hn : 2 ≤ n) (h1 : lo ≤ y)
    (h2 : y ≤ hi) (a b : ℝ) :
    ∑ k : Fin n, denseRow n (envEntries lo (gridH lo hi n) n y) k *
      (a + b * (lo + ((k : ℕ) : ℝ) * gridH lo hi n)) = a + b * y := by
  have hh := gridH_pos h hn
  have := denseRow_sum (fun z => a + b * (lo + (z : ℝ) * gridH lo hi n))
    (envEntries lo (gridH lo hi n) n y) (envEntries_ok h hn h1 h2)
  simp only [Int.cast_natCast] at this
  rw [this]
  unfold envEntries
  by_cases hc : cellOf lo (gridH lo hi n) y = (n : ℤ) - 1
  · have hy := cellOf_last h hn h2 hc
    have hl := gridPt_last (lo := lo) (hi := hi) hn
    unfold gridPt at hl
    rw [Nat.cast_sub (by omega)] at hl
    push_cast at hl
    simp only [hc, ne_eq, not_true_eq_false, if_false, List.map_cons, List.map_nil, List.sum_cons,
      List.sum_nil, add_zero]
    push_cast
    rw [hl, hy]
    have e : lo + ((n : ℝ) - 1 + 1) * gridH lo hi n - hi = gridH lo hi n := by
      linear_combination hl
    rw [e, div_self hh.ne', one_mul]
  · simp only [ne_eq, hc, not_false_eq_true, if_true, List.map_cons, List.map_nil, List.sum_cons,
      List.sum_nil, add_zero]
    push_cast
    field_simp
    ring

/-- **C69, rows sum to one.** -/
theorem envRow_sum {lo hi y : ℝ} {n : ℕ} (h : lo < hi) (hn : 2 ≤ n) (h1 : lo ≤ y) (h2 : y ≤ hi) :
    ∑ k : Fin n, denseRow n (envEntries lo (gridH lo hi n) n y) k = 1 := by
  have := envRow_affine_aux h hn h1 h2 1 0
  simpa using this

/-- **C69, affine functions are reproduced.**  If `u` has the values of `a + b t` at the grid points,
the matrix applied to `u` gives `a + b y`. -/
theorem envRow_affine {lo hi y : ℝ} {n : ℕ} (h : lo < hi) (hn : 2 ≤ n) (h1 : lo ≤ y) (h2 : y ≤ hi)
    (a b : ℝ) : envDot (denseRow n (envEntries lo (gridH lo hi n) n y))
      (fun k => a + b * gridPt lo hi n k) = a + b * y :=
  envRow_affine_aux h hn h1 h2 a b

/-- **C69, interpolation.**  The matrix evaluates the piecewise linear interpolant: in the cell between
the grid points `k` and `k+1`, including both ends. -/
theorem envRow_interp {lo hi y : ℝ} {n k : ℕ} (h : lo < hi) (hk : k + 1 < n)
    (h1 : gridPt lo hi n k ≤ y) (h2 : y ≤ gridPt lo hi n (k + 1)) (u : ℕ → ℝ) :
    envDot (denseRow n (envEntries lo (gridH lo hi n) n y)) (fun i => u i) =
      cellInterp lo hi n u k y := by
  have hn : 2 ≤ n := by omega
  have hh := gridH_pos h hn
  have hlo : lo ≤ y := by
    refine le_trans ?_ h1
    unfold gridPt
    have : 0 ≤ (k : ℝ) * gridH lo hi n := by positivity
    linarith
  have hhi : y ≤ hi := by
    refine h2.trans ?_
    have hl := gridPt_last (lo := lo) (hi := hi) hn
    unfold gridPt at hl ⊢
    have : ((k + 1 : ℕ) : ℝ) ≤ ((n - 1 : ℕ) : ℝ) := by exact_mod_cast (by omega)
    have := mul_le_mul_of_nonneg_right this hh.le
    linarith
  have key := denseRow_sum (fun z => u z.toNat) (envEntries lo (gridH lo hi n) n y)
    (envEntries_ok h hn hlo hhi)
  simp only [Int.toNat_natCast] at key
  unfold envDot
  rw [key]
  unfold cellInterp
  rw [gridPt_succ, add_sub_cancel_left]
  unfold gridPt at h1 ⊢
  rw [gridPt_succ] at h2
  unfold gridPt at h2
  rcases eq_or_lt_of_le h2 with heq | hlt
  · -- right end of the cell
    have hcell : cellOf lo (gridH lo hi n) y = (k : ℤ) + 1 := by
      unfold cellOf
      rw [heq, show (lo + (k : ℝ) * gridH lo hi n + gridH lo hi n - lo) / gridH lo hi n =
        (((k : ℤ) + 1 : ℤ) : ℝ) by push_cast; field_simp; ring, Int.floor_intCast]
    unfold envEntries
    have ht : ((k : ℤ) + 1).toNat = k + 1 := by omega
    by_cases hc : (k : ℤ) + 1 = (n : ℤ) - 1
    · simp only [hcell, hc, ne_eq, not_true_eq_false, if_false, List.map_cons, List.map_nil,
        List.sum_cons, List.sum_nil, add_zero]
      rw [← hc, ht]
      push_cast
      rw [heq]
      field_simp
      ring
    · simp only [hcell, ne_eq, hc, not_false_eq_true, if_true, List.map_cons, List.map_nil,
        List.sum_cons, List.sum_nil, add_zero, ht]
      push_cast
      rw [heq]
      field_simp
      ring
  · have hcell : cellOf lo (gridH lo hi n) y = (k : ℤ) := by
      unfold cellOf
      rw [Int.floor_eq_iff]
      push_cast
      rw [le_div_iff₀ hh, div_lt_iff₀ hh]
      constructor <;> linarith
    unfold envEntries
    have hc : (k : ℤ) ≠ (n : ℤ) - 1 := by omega
    have ht : ((k : ℤ) + 1).toNat = k + 1 := by omega
    simp only [hcell, ne_eq, hc, not_false_eq_true, if_true, List.map_cons, List.map_nil,
      List.sum_cons, List.sum_nil, add_zero, ht, Int.toNat_natCast]
    push_cast
    field_simp
    ring

/-- The hypotheses are met by a grid with three points on `[0, 2]`. -/
example : (0 : ℝ) < 2 ∧ 0 + 1 < 3 ∧ gridPt 0 2 3 0 ≤ 0.5 ∧ (0.5 : ℝ) ≤ gridPt 0 2 3 (0 + 1) := by
  norm_num [gridPt, gridH]

/-! ## The samples and the grid -/

theorem ymin_le (a : ℝ) (l : List ℝ) : ∀ y ∈ a :: l, ymin a l ≤ y := by
  unfold ymin
  induction l generalizing a with
  | nil => simp
  | cons b l ih =>
    intro y hy
    simp only [List.foldl_cons]
    rcases List.mem_cons.1 hy with rfl | hy
    · exact (ih (min y b) _ List.mem_cons_self).trans (min_le_left _ _)
    · rcases List.mem_cons.1 hy with rfl | hy
      · exact (ih (min a y) _ List.mem_cons_self).trans (min_le_right _ _)
      · exact ih (min a b) y (List.mem_cons_of_mem _ hy)

theorem le_ymax (a : ℝ) (l : List ℝ) : ∀ y ∈ a :: l, y ≤ ymax a l := by
  unfold ymax
  induction l generalizing a with
  | nil => simp
  | cons b l ih =>
    intro y hy
    simp only [List.foldl_cons]
    rcases List.mem_cons.1 hy with rfl | hy
    · exact (le_max_left _ _).trans (ih (max y b) _ List.mem_cons_self)
    · rcases List.mem_cons.1 hy with rfl | hy
      · exact (le_max_right _ _).trans (ih (max a y) _ List.mem_cons_self)
      · exact ih (max a b) y (List.mem_cons_of_mem _ hy)

theorem ymin_mem (a : ℝ) (l : List ℝ) : ymin a l ∈ a :: l := by
  unfold ymin
  induction l generalizing a with
  | nil => simp
  | cons b l ih =>
    simp only [List.foldl_cons]
    have := ih (min a b)
    rcases List.mem_cons.1 this with h | h
    · rw [h]
      rcases min_choice a b with e | e <;> rw [e] <;> simp
    · exact List.mem_cons_of_mem _ (List.mem_cons_of_mem _ h)

theorem ymax_mem (a : ℝ) (l : List ℝ) : ymax a l ∈ a :: l := by
  unfold ymax
  induction l generalizing a with
  | nil => simp
  | cons b l ih =>
    simp only [List.foldl_cons]
    have := ih (max a b)
    rcases List.mem_cons.1 this with h | h
    · rw [h]
      rcases max_choice a b with e | e <;> rw [e] <;> simp
    · exact List.mem_cons_of_mem _ (List.mem_cons_of_mem _ h)

theorem ymin_lt_ymax_iff (a : ℝ) (l : List ℝ) :
    ymin a l < ymax a l ↔ ∃ y ∈ a :: l, ∃ z ∈ a :: l, y ≠ z := by
  constructor
  · intro h
    exact ⟨_, ymin_mem a l, _, ymax_mem a l, h.ne⟩
  · rintro ⟨y, hy, z, hz, hne⟩
    have h1 := ymin_le a l y hy
    have h2 := le_ymax a l y hy
    have h3 := ymin_le a l z hz
    have h4 := le_ymax a l z hz
    by_contra hcon
    apply hne
    linarith

theorem gridSearch_range (lo hi : ℝ) (ys : List ℝ) (k : ℕ) :
    3 ≤ gridSearch lo hi ys k ∧ gridSearch lo hi ys k ≤ k + 3 := by
  induction k with
  | zero => simp [gridSearch]
  | succ k ih =>
    unfold gridSearch
    split_ifs <;> omega

/-- The default number of grid points is between 3 and 25. -/
theorem defaultGrid_range (lo hi : ℝ) (ys : List ℝ) :
    3 ≤ gridSearch lo hi ys 22 ∧ gridSearch lo hi ys 22 ≤ 25 := gridSearch_range lo hi ys 22

open Classical in
/-- The grid of `n` points is well filled: at least five samples in each cell but the last, and at least one in each cell.  Cell `k` is
`[lo + k h, lo + (k+1) h)` with `h = (hi - lo)/(n - 1)`. -/
def WellFilled (lo hi : ℝ) (ys : List ℝ) (n : ℕ) : Prop :=
  ∀ k < n, (if k < n - 1 then 5 else 1) ≤ (ys.filter fun y => decide (lo + k * ((hi - lo) / ((n : ℝ) - 1)) ≤ y ∧ y < lo + (k + 1) * ((hi - lo) / ((n : ℝ) - 1)))).length

theorem cellOf_iff {lo h y : ℝ} (hh : 0 < h) (k : ℕ) : cellOf lo h y = (k : ℤ) ↔ lo + k * h ≤ y ∧ y < lo + (k + 1) * h := by
  rw [cellOf, Int.floor_eq_iff, le_div_iff₀ hh, div_lt_iff₀ hh]
  push_cast
  constructor <;> rintro ⟨h1, h2⟩ <;> constructor <;> linarith

/-- The acceptance test says that the grid is well filled. -/
theorem gridAccept_iff {lo hi : ℝ} (hlt : lo < hi) (ys : List ℝ) {n : ℕ} (hn : 2 ≤ n) : gridAccept lo hi ys n ↔ WellFilled lo hi ys n := by
  classical
  have hh := gridH_pos hlt hn
  have hc : ∀ k, cellCount lo (gridH lo hi n) ys k = (ys.filter fun y => decide (lo + k * ((hi - lo) / ((n : ℝ) - 1)) ≤ y ∧ y < lo + (k + 1) * ((hi - lo) / ((n : ℝ) - 1)))).length := by
    intro k
    rw [cellCount, List.countP_eq_length_filter]
    congr 1
    refine List.filter_congr fun y _ => ?_
    rw [decide_eq_decide, cellOf_iff hh]; rfl
  constructor
  · intro h k hk
    rw [← hc]
    split_ifs with h1
    · exact h.1 k h1
    · exact h.2 k hk
  · intro h
    refine ⟨fun k hk => ?_, fun k hk => ?_⟩
    · have := h k (by omega); rw [if_pos hk, ← hc] at this; exact this
    · have := h k hk; rw [← hc] at this; split_ifs at this <;> omega

/-- If it is more than three, every cell but the last holds at least five samples and the last one at least one. -/
theorem defaultGrid_counts {lo hi : ℝ} (hlt : lo < hi) (ys : List ℝ) (k : ℕ) (h : 3 < gridSearch lo hi ys k) :
    WellFilled lo hi ys (gridSearch lo hi ys k) := by
  rw [← gridAccept_iff hlt ys (by omega)]
  induction k with
  | zero => simp [gridSearch] at h
  | succ k ih =>
    unfold gridSearch at h ⊢
    split_ifs with hc
    · exact hc
    · rw [if_neg hc] at h
      exact ih h

/-- No finer grid (up to 25 points) is well filled. -/
theorem defaultGrid_finest {lo hi : ℝ} (hlt : lo < hi) (ys : List ℝ) (k m : ℕ) (h : gridSearch lo hi ys k < m)
    (hm : m ≤ k + 3) : ¬ WellFilled lo hi ys m := by
  have h3 := (gridSearch_range lo hi ys k).1
  rw [← gridAccept_iff hlt ys (by omega)]
  clear h3
  induction k with
  | zero => simp [gridSearch] at h; omega
  | succ k ih =>
    unfold gridSearch at h
    split_ifs at h with hc
    · omega
    · rcases Nat.lt_or_ge (k + 3) m with h' | h'
      · have : m = k + 1 + 3 := by omega
        rw [this]; exact hc
      · exact ih h h'

theorem envRows_ok {lo hi : ℝ} {n : ℕ} {ys : List ℝ} (h : lo < hi) (hn : 2 ≤ n)
    (hy : ∀ y ∈ ys, lo ≤ y ∧ y ≤ hi) :
    envRows lo hi n ys = .ok (ys.map fun y => denseRow n (envEntries lo (gridH lo hi n) n y)) := by
  unfold envRows
  rw [if_neg (gridH_pos h hn).ne', if_pos]
  intro y hyy
  exact envEntries_ok h hn (hy y hyy).1 (hy y hyy).2

/-- **C69, when the call succeeds**: equally many values, at least one sample, at least two grid
points if the number is given, and two different projected coordinates. -/
theorem shadow_ok_iff (s : EnvSolver) (ys fX : List ℝ) (ng : Option ℕ) :
    (∃ e, shadowEnvelope s ys fX ng = .ok e) ↔
      ys.length = fX.length ∧ (∀ n, ng = some n → 2 ≤ n) ∧ ∃ y ∈ ys, ∃ z ∈ ys, y ≠ z := by
  unfold shadowEnvelope
  by_cases hl : ys.length = fX.length
  swap
  · simp [hl]
  rw [if_neg (not_not.2 hl)]
  match ys with
  | [] => simp
  | a :: l =>
    simp only [hl, true_and]
    have hmem : ∀ y ∈ a :: l, ymin a l ≤ y ∧ y ≤ ymax a l :=
      fun y hy => ⟨ymin_le a l y hy, le_ymax a l y hy⟩
    have hle : ymin a l ≤ ymax a l := (hmem a List.mem_cons_self).1.trans (hmem a List.mem_cons_self).2
    rw [← ymin_lt_ymax_iff]
    have hbad : ∀ n, ¬ ymin a l < ymax a l →
        envSolve s (ymin a l) (ymax a l) (a :: l) fX n = .error .valueError := by
      intro n hn
      have : gridH (ymin a l) (ymax a l) n = 0 := by
        unfold gridH
        rw [le_antisymm hle (not_lt.1 hn)]; simp
      unfold envSolve envRows
      rw [if_pos this]
    have hgood : ∀ n, 2 ≤ n → ymin a l < ymax a l →
        ∃ e, envSolve s (ymin a l) (ymax a l) (a :: l) fX n = .ok e := by
      intro n hn hlt
      unfold envSolve
      rw [envRows_ok hlt hn hmem]
      exact ⟨_, rfl⟩
    match ng with
    | none =>
      simp only [envGrid, reduceCtorEq, false_implies, implies_true, true_and]
      constructor
      · rintro ⟨e, he⟩
        by_contra hn
        rw [hbad _ hn] at he
        cases he
      · intro hlt
        exact hgood _ (by have := (defaultGrid_range (ymin a l) (ymax a l) (a :: l)).1; omega) hlt
    | some n =>
      simp only [envGrid, Option.some.injEq, forall_eq']
      by_cases hn : n < 2
      · simp only [if_pos hn]
        constructor
        · rintro ⟨e, he⟩; cases he
        · rintro ⟨h, _⟩; omega
      · simp only [if_neg hn]
        constructor
        · rintro ⟨e, he⟩
          refine ⟨by omega, ?_⟩
          by_contra hc
          rw [hbad _ hc] at he
          cases he
        · rintro ⟨h, hlt⟩
          exact hgood _ h hlt

theorem envSolve_ok {s : EnvSolver} {a : ℝ} {l fX : List ℝ} {n : ℕ} {e : Envelope}
    (hlt : ymin a l < ymax a l) (hn : 2 ≤ n)
    (he : envSolve s (ymin a l) (ymax a l) (a :: l) fX n = .ok e) :
    e = ⟨n, a :: l,
      (s n ((a :: l).map fun y => denseRow n (envEntries (ymin a l) (gridH (ymin a l) (ymax a l) n) n y))
        (fX.map fun v => -v)).map (fun u k => - u k),
      s n ((a :: l).map fun y => denseRow n (envEntries (ymin a l) (gridH (ymin a l) (ymax a l) n) n y)) fX⟩ := by
  unfold envSolve at he
  rw [envRows_ok hlt hn fun y hy => ⟨ymin_le a l y hy, le_ymax a l y hy⟩] at he
  simp only [Except.ok.injEq] at he
  exact he.symm

/-- What a successful call returns. -/
theorem shadow_ok {s : EnvSolver} {ys fX : List ℝ} {ng : Option ℕ} {e : Envelope}
    (h : shadowEnvelope s ys fX ng = .ok e) :
    ∃ lo hi, lo < hi ∧ 2 ≤ e.n ∧ (∀ y ∈ ys, lo ≤ y ∧ y ≤ hi) ∧ lo ∈ ys ∧ hi ∈ ys ∧
      ys.length = fX.length ∧ e.y = ys ∧
      e.ub = s e.n (ys.map fun y => denseRow e.n (envEntries lo (gridH lo hi e.n) e.n y)) fX ∧
      e.lb = (s e.n (ys.map fun y => denseRow e.n (envEntries lo (gridH lo hi e.n) e.n y))
        (fX.map fun v => -v)).map (fun u k => - u k) := by
  have hok := (shadow_ok_iff s ys fX ng).1 ⟨e, h⟩
  obtain ⟨hl, hng, hne⟩ := hok
  unfold shadowEnvelope at h
  rw [if_neg (not_not.2 hl)] at h
  match ys, h, hl, hne with
  | [], h, _, _ => simp at h
  | a :: l, h, hl, hne =>
    have hlt := (ymin_lt_ymax_iff a l).2 hne
    have hmem : ∀ y ∈ a :: l, ymin a l ≤ y ∧ y ≤ ymax a l :=
      fun y hy => ⟨ymin_le a l y hy, le_ymax a l y hy⟩
    have fin : ∃ n, 2 ≤ n ∧ envSolve s (ymin a l) (ymax a l) (a :: l) fX n = .ok e := by
      match ng, h, hng with
      | none, h, _ =>
        simp only [envGrid] at h
        exact ⟨_, (by have := (defaultGrid_range (ymin a l) (ymax a l) (a :: l)).1; omega), h⟩
      | some n, h, hng =>
        have hn := hng n rfl
        simp only [envGrid, if_neg (not_lt.2 hn)] at h
        exact ⟨_, hn, h⟩
    obtain ⟨n, hn, he⟩ := fin
    have := envSolve_ok hlt hn he
    subst this
    exact ⟨ymin a l, ymax a l, hlt, hn, hmem, ymin_mem a l, ymax_mem a l, hl, rfl, rfl, rfl⟩

/-- **C69, the envelope encloses the data.**  With an exact solver, the piecewise linear function with
the returned upper values lies above every sample and the one with the lower values below. -/
theorem shadow_encloses {s : EnvSolver} (hs : EnvSpec s) {ys fX : List ℝ} {ng : Option ℕ}
    {e : Envelope} (h : shadowEnvelope s ys fX ng = .ok e) :
    ∃ lo hi, lo < hi ∧ (∀ y ∈ ys, lo ≤ y ∧ y ≤ hi) ∧
      (∀ u : ℕ → ℝ, e.ub = some (fun k : Fin e.n => u k) → ∀ p ∈ ys.zip fX, ∀ k, k + 1 < e.n →
        gridPt lo hi e.n k ≤ p.1 → p.1 ≤ gridPt lo hi e.n (k + 1) →
        p.2 ≤ cellInterp lo hi e.n u k p.1) ∧
      (∀ u : ℕ → ℝ, e.lb = some (fun k : Fin e.n => u k) → ∀ p ∈ ys.zip fX, ∀ k, k + 1 < e.n →
        gridPt lo hi e.n k ≤ p.1 → p.1 ≤ gridPt lo hi e.n (k + 1) →
        cellInterp lo hi e.n u k p.1 ≤ p.2) := by
  obtain ⟨lo, hi, hlt, hn, hmem, _, _, hl, hy, hub, hlb⟩ := shadow_ok h
  refine ⟨lo, hi, hlt, hmem, ?_, ?_⟩
  · intro u hu p hp k hk h1 h2
    rw [← envRow_interp hlt hk h1 h2]
    have hf := hs.feasible _ _ _ _ (hub.symm.trans hu)
    refine hf (denseRow e.n (envEntries lo (gridH lo hi e.n) e.n p.1), p.2) ?_
    rw [List.zip_map_left]
    exact List.mem_map.2 ⟨p, hp, rfl⟩
  · intro u hu p hp k hk h1 h2
    rw [← envRow_interp hlt hk h1 h2]
    rw [hlb, Option.map_eq_some_iff] at hu
    obtain ⟨w, hw, hwu⟩ := hu
    have hf := hs.feasible _ _ _ _ hw
    have := hf (denseRow e.n (envEntries lo (gridH lo hi e.n) e.n p.1), -p.2) (by
      rw [List.zip_map]
      exact List.mem_map.2 ⟨p, hp, rfl⟩)
    have e2 : ∀ k : Fin e.n, u k = - w k := fun k => (congrFun hwu k).symm
    simp only [envDot, e2, mul_neg, Finset.sum_neg_distrib] at this ⊢
    linarith

/-- Every sample lies in some cell, so the previous statement covers all samples. -/
theorem cell_exists {lo hi y : ℝ} {n : ℕ} (h : lo < hi) (hn : 2 ≤ n) (h1 : lo ≤ y) (h2 : y ≤ hi) :
    ∃ k, k + 1 < n ∧ gridPt lo hi n k ≤ y ∧ y ≤ gridPt lo hi n (k + 1) := by
  have hh := gridH_pos h hn
  obtain ⟨a, b⟩ := cellOf_range h hn h1 h2
  obtain ⟨j, hj⟩ := Int.eq_ofNat_of_zero_le a
  have f1 := Int.floor_le ((y - lo) / gridH lo hi n)
  have f2 := Int.lt_floor_add_one ((y - lo) / gridH lo hi n)
  rw [le_div_iff₀ hh] at f1
  rw [div_lt_iff₀ hh] at f2
  change (cellOf lo (gridH lo hi n) y : ℝ) * _ ≤ _ at f1
  change _ < ((cellOf lo (gridH lo hi n) y : ℝ) + 1) * _ at f2
  rw [hj] at f1 f2 b
  push_cast at f1 f2
  by_cases hc : j + 1 < n
  · refine ⟨j, hc, ?_, ?_⟩
    · unfold gridPt; linarith
    · unfold gridPt; push_cast; linarith
  · have hjn : j = n - 1 := by omega
    refine ⟨n - 2, by omega, ?_, ?_⟩
    · have : gridPt lo hi n (n - 2) ≤ gridPt lo hi n j := by
        unfold gridPt
        have : ((n - 2 : ℕ) : ℝ) ≤ j := by exact_mod_cast (by omega)
        have := mul_le_mul_of_nonneg_right this hh.le
        linarith
      refine this.trans ?_
      unfold gridPt; linarith
    · rw [show n - 2 + 1 = n - 1 by omega, gridPt_last hn]
      exact h2

/-- **C69 is false for the returned coordinates**: `y` are the coordinates of the samples, but the bounds
live on the grid; their numbers differ (here four samples and a grid of two points), so `lb` and `ub`
cannot be plotted against `y`. -/
theorem shadow_returned_false (s : EnvSolver) : ∃ e,
    shadowEnvelope s [0, 1, 2, 3] [0, 0, 0, 0] (some 2) = .ok e ∧ e.y.length ≠ e.n := by
  obtain ⟨e, he⟩ := (shadow_ok_iff s [0, 1, 2, 3] [0, 0, 0, 0] (some 2)).2
    ⟨rfl, by simp, 0, by simp, 1, by simp, by norm_num⟩
  refine ⟨e, he, ?_⟩
  have hn : e.n = 2 := by
    unfold shadowEnvelope envGrid envSolve at he
    simp only [List.length_cons, List.length_nil, ne_eq, not_true_eq_false, if_false,
      show ¬ (2 < 2) by decide] at he
    split at he
    · cases he
    · simp only [Except.ok.injEq] at he
      rw [← he]
  obtain ⟨_, _, _, _, _, _, _, _, hy, _⟩ := shadow_ok he
  rw [hy, hn]; simp

/-! ## Is there an envelope at all? -/

/-- A direction that keeps all samples covered and lowers the sum: then no exact solver returns
anything. -/
theorem env_none_of_ray {s : EnvSolver} (hs : EnvSpec s) {n : ℕ} (rows : List (Fin n → ℝ))
    (f : List ℝ) (d : Fin n → ℝ) (hd : ∀ r ∈ rows, 0 ≤ envDot r d) (hneg : ∑ k, d k < 0) :
    s n rows f = none := by
  by_contra hne
  obtain ⟨u, hu⟩ := Option.ne_none_iff_exists'.1 hne
  have hf := hs.feasible _ _ _ _ hu
  have hm := hs.minimal _ _ _ _ hu (fun k => u k + d k) (by
    intro p hp
    have h1 := hf p hp
    have h2 := hd p.1 (List.of_mem_zip hp).1
    have : envDot p.1 (fun k => u k + d k) = envDot p.1 u + envDot p.1 d := by
      simp [envDot, mul_add, Finset.sum_add_distrib]
    rw [this]; linarith)
  rw [Finset.sum_add_distrib] at hm
  linarith

/-- **C83 (partial).**  If nonnegative multipliers of the rows add up to the vector of ones, the sum
that is minimized is bounded below by the same combination of the values, for every feasible vector:
the program is not unbounded. -/
theorem env_bounded_partial {n : ℕ} (rows : List (Fin n → ℝ)) (f lam : List ℝ)
    (hl : lam.length = rows.length) (hf : f.length = rows.length) (hpos : ∀ c ∈ lam, 0 ≤ c)
    (hone : ∀ k, ((lam.zip rows).map fun p => p.1 * p.2 k).sum = 1)
    (u : Fin n → ℝ) (hu : UpFeasible rows f u) :
    ((lam.zip f).map fun p => p.1 * p.2).sum ≤ ∑ k, u k := by
  have e : ∑ k, u k = ((lam.zip rows).map fun p => p.1 * envDot p.2 u).sum := by
    have : ∀ k, u k = ((lam.zip rows).map fun p => p.1 * p.2 k).sum * u k := by
      intro k; rw [hone k, one_mul]
    rw [Finset.sum_congr rfl fun k _ => this k]
    clear this hone hu hf hpos hl
    induction lam generalizing rows with
    | nil => simp
    | cons c lam ih =>
      match rows with
      | [] => simp
      | r :: rows =>
        simp only [List.zip_cons_cons, List.map_cons, List.sum_cons, add_mul,
          Finset.sum_add_distrib, ih rows]
        congr 1
        simp only [envDot, Finset.mul_sum, mul_assoc]
  rw [e]
  clear e hone
  induction lam generalizing rows f with
  | nil => simp
  | cons c lam ih =>
    match rows, f, hl, hf, hu with
    | r :: rows, v :: f, hl, hf, hu =>
      simp only [List.zip_cons_cons, List.map_cons, List.sum_cons]
      apply add_le_add
      · exact mul_le_mul_of_nonneg_left (hu (r, v) (by simp)) (hpos c (by simp))
      · exact ih rows f (by simpa using hl) (by simpa using hf)
          (fun x hx => hpos x (List.mem_cons_of_mem _ hx))
          (fun p hp => hu p (by
            simp only [List.zip_cons_cons, List.mem_cons]
            exact Or.inr hp))

/-- **C83 is false**: for two samples with different coordinates the default grid has three points, the
middle one is touched by no sample, the program is unbounded and no exact solver returns bounds: the
call succeeds with `None` in place of both arrays. -/
theorem shadow_none_false {s : EnvSolver} (hs : EnvSpec s) : ∃ e,
    shadowEnvelope s [0, 1] [0, 0] none = .ok e ∧ e.ub = none ∧ e.lb = none := by
  obtain ⟨e, he⟩ := (shadow_ok_iff s [0, 1] [0, 0] none).2
    ⟨rfl, by simp, 0, by simp, 1, by simp, by norm_num⟩
  refine ⟨e, he, ?_⟩
  have hmin : ymin (0 : ℝ) [1] = 0 := by simp [ymin]
  have hmax : ymax (0 : ℝ) [1] = 1 := by simp [ymax]
  have hcount : ∀ k, ∀ j < k + 1, ¬ gridAccept 0 1 [0, 1] (k + 1 + 3) := by
    intro k j _ hacc
    have := hacc.1 0 (by omega)
    have h2 : cellCount 0 (gridH 0 1 (k + 1 + 3)) [0, 1] 0 ≤ 2 := by
      unfold cellCount
      exact List.countP_le_length
    omega
  have hsearch : ∀ k, gridSearch 0 1 [0, 1] k = 3 := by
    intro k
    induction k with
    | zero => rfl
    | succ k ih =>
      unfold gridSearch
      rw [if_neg (hcount k 0 (by omega)), ih]
  have hsol : envSolve s 0 1 [0, 1] [0, 0] 3 = .ok e := by
    have := he
    unfold shadowEnvelope at this
    simp only [List.length_cons, List.length_nil, ne_eq, not_true_eq_false, if_false, hmin, hmax,
      envGrid, hsearch] at this
    exact this
  unfold envSolve at hsol
  rw [envRows_ok (by norm_num) (by norm_num) (by intro y hy; simp at hy; rcases hy with rfl | rfl <;> norm_num)] at hsol
  simp only [Except.ok.injEq] at hsol
  have hh : gridH 0 1 3 = 2⁻¹ := by norm_num [gridH]
  have c0 : cellOf 0 2⁻¹ 0 = 0 := by norm_num [cellOf]
  have c1 : cellOf 0 2⁻¹ 1 = 2 := by norm_num [cellOf]
  have hray : ∀ r ∈ ([0, 1] : List ℝ).map (fun y => denseRow 3 (envEntries 0 (gridH 0 1 3) 3 y)),
      0 ≤ envDot r (fun k => if k = 1 then -1 else 0) := by
    intro r hr
    simp only [List.map_cons, List.map_nil, List.mem_cons, List.not_mem_nil, or_false] at hr
    rcases hr with rfl | rfl
    · rw [hh]
      simp [envDot, denseRow, envEntries, c0, Fin.sum_univ_three]
    · rw [hh]
      simp [envDot, denseRow, envEntries, c1, Fin.sum_univ_three]
  have hneg : ∑ k : Fin 3, (if k = 1 then (-1 : ℝ) else 0) < 0 := by
    simp
  subst hsol
  refine ⟨env_none_of_ray hs _ _ _ hray hneg, ?_⟩
  show Option.map _ _ = none
  rw [env_none_of_ray hs _ _ _ hray hneg]
  rfl

open Classical in
/-- An exact solver exists: take a minimizer when there is one. -/
noncomputable def exactEnv : EnvSolver := fun _ rows f =>
  if h : ∃ u, UpFeasible rows f u ∧ ∀ v, UpFeasible rows f v → ∑ k, u k ≤ ∑ k, v k
  then some h.choose else none

theorem exactEnv_spec : EnvSpec exactEnv := by
  constructor
  · intro n rows f u h
    unfold exactEnv at h
    split_ifs at h with hc
    simp only [Option.some.injEq] at h
    rw [← h]; exact hc.choose_spec.1
  · intro n rows f u h
    unfold exactEnv at h
    split_ifs at h with hc
    simp only [Option.some.injEq] at h
    rw [← h]; exact hc.choose_spec.2

end Verif.Misc
