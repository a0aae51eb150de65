import Mathlib.Tactic.Linarith
import Mathlib.Tactic.Ring
import Mathlib.Tactic.Positivity
import Mathlib.Tactic.FieldSimp
import Mathlib.Logic.Relation
import Verif.Geometry.GeoModel
import Verif.Lipschitz.BoundProps
import Verif.Domain.HullProps

/-!
# C49, C50, C51, C76, C77: geometric helpers
-/

namespace Verif.Geo

open Verif Verif.Domain Matrix

variable {k m : ℕ}

theorem nrm_smul (c : ℝ) (v : Lip.Pt k) : Lip.nrm (c • v) = |c| * Lip.nrm v := by
  unfold Lip.nrm
  rw [smul_dotProduct, dotProduct_smul, smul_eq_mul, smul_eq_mul, ← mul_assoc, Real.sqrt_mul (mul_self_nonneg c), Real.sqrt_mul_self_eq_abs]

/-! ## C49: `unique_points` -/

theorem uniquePoints_length : ∀ X : List (Lip.Pt m), (uniquePoints X).length = X.length
  | [] => rfl
  | [_] => rfl
  | x :: y :: t => by
    rw [uniquePoints, List.length_cons, uniquePoints_length (y :: t)]
    rfl

theorem notClose_iff (d : ℝ) (h : 0 ≤ d) : notClose d = true ↔ atol < d := by
  unfold notClose
  rw [sub_zero, abs_of_nonneg h]
  simp

theorem minL_map_nonneg {α : Type*} {f : α → ℝ} {l : List α} (hl : l ≠ []) (h : ∀ a ∈ l, 0 ≤ f a) : 0 ≤ minL (l.map f) := by
  obtain ⟨a, ha, e⟩ := List.mem_map.1 (minL_spec (l := l.map f) (by simpa using hl)).1
  rw [← e]; exact h a ha

/-- The mask at the first point. -/
theorem uniquePoints_head (x : Lip.Pt m) (t : List (Lip.Pt m)) :
    ∃ b, uniquePoints (x :: t) = b :: uniquePoints t ∧ (b = true ↔ ∀ z ∈ t, atol < Lip.nrm (x - z)) := by
  cases t with
  | nil => exact ⟨true, rfl, by simp⟩
  | cons y t =>
    refine ⟨_, by rw [uniquePoints], ?_⟩
    rw [notClose_iff _ (minL_map_nonneg (by simp) (fun a _ => Lip.nrm_nonneg _))]
    have hs := minL_spec (l := (y :: t).map (fun z => Lip.nrm (x - z))) (by simp)
    constructor
    · intro h z hz
      exact h.trans_le (hs.2 _ (List.mem_map.2 ⟨z, hz, rfl⟩))
    · intro h
      obtain ⟨z, hz, e⟩ := List.mem_map.1 hs.1
      rw [← e]; exact h z hz

/-- C49: a point is kept exactly when all later points are farther away than the tolerance. -/
theorem unique_iff (X : List (Lip.Pt m)) (i : ℕ) (hi : i < X.length) :
    (uniquePoints X)[i]? = some true ↔ ∀ j (hj : j < X.length), i < j → atol < Lip.nrm (X[i] - X[j]) := by
  induction X generalizing i with
  | nil => simp at hi
  | cons x t ih =>
    obtain ⟨b, e, hb⟩ := uniquePoints_head x t
    rw [e]
    cases i with
    | zero =>
      rw [List.getElem?_cons_zero, Option.some.injEq, hb]
      constructor
      · intro h j hj h0
        cases j with
        | zero => omega
        | succ j => exact h _ (List.getElem_mem (by simpa using hj))
      · intro h z hz
        obtain ⟨j, hj, rfl⟩ := List.getElem_of_mem hz
        exact h (j + 1) (by simpa using hj) (by omega)
    | succ i =>
      rw [List.getElem?_cons_succ, ih i (by simpa using hi)]
      constructor
      · intro h j hj h0
        cases j with
        | zero => omega
        | succ j => exact h j (by simpa using hj) (by omega)
      · intro h j hj h0
        exact h (j + 1) (by simpa using hj) (by omega)

theorem select_cons {α : Type*} (x : α) (X : List α) (b : Bool) (I : List Bool) :
    select (x :: X) (b :: I) = if b then x :: select X I else select X I := by
  cases b <;> simp [select]

theorem select_subset {α : Type*} (X : List α) (I : List Bool) : ∀ x ∈ select X I, x ∈ X := by
  intro x hx
  obtain ⟨p, hp, rfl⟩ := List.mem_map.1 hx
  exact (List.of_mem_zip (List.mem_filter.1 hp).1).1

theorem select_sublist {α : Type*} (X : List α) (I : List Bool) : (select X I).Sublist X := by
  induction X generalizing I with
  | nil => simp [select]
  | cons x X ih =>
    cases I with
    | nil => simp [select]
    | cons b I =>
      rw [select_cons]
      cases b
      · simpa using (ih I).cons x
      · simpa using (ih I).cons_cons x

/-- C49: the kept points, in the original order, are pairwise farther apart than the tolerance. -/
theorem unique_separated (X : List (Lip.Pt m)) : (select X (uniquePoints X)).Pairwise (fun x y => atol < Lip.nrm (x - y)) := by
  induction X with
  | nil => simp [select]
  | cons x t ih =>
    obtain ⟨b, e, hb⟩ := uniquePoints_head x t
    rw [e, select_cons]
    cases b with
    | false => simpa using ih
    | true => exact List.pairwise_cons.2 ⟨fun z hz => hb.1 rfl z (select_subset _ _ z hz), ih⟩

/-- C49: every dropped point is within the tolerance of another (later) input point. -/
theorem unique_dropped (X : List (Lip.Pt m)) (i : ℕ) (hi : i < X.length) (h : (uniquePoints X)[i]? ≠ some true) :
    ∃ j, ∃ hj : j < X.length, i < j ∧ Lip.nrm (X[i] - X[j]) ≤ atol := by
  rw [Ne, unique_iff X i hi] at h
  push Not at h
  obtain ⟨j, hj, h1, h2⟩ := h
  exact ⟨j, hj, h1, h2⟩

theorem atol_pos : 0 < atol := by unfold atol; positivity

/-- C49: no value is kept twice. -/
theorem unique_nodup (X : List (Lip.Pt m)) : (select X (uniquePoints X)).Nodup := by
  refine List.Pairwise.imp ?_ (unique_separated X)
  intro a b hab he
  rw [he, sub_self, Lip.nrm_zero] at hab
  linarith [atol_pos]

open Classical in
/-- C49: a value repeated any number of times, and otherwise separated from the rest, is kept exactly once. -/
theorem unique_duplicates (X : List (Lip.Pt m)) (x : Lip.Pt m) (hx : x ∈ X) (h : ∀ y ∈ X, y ≠ x → atol < Lip.nrm (x - y)) :
    (select X (uniquePoints X)).count x = 1 := by
  refine List.count_eq_one_of_mem (unique_nodup X) ?_
  induction X with
  | nil => simp at hx
  | cons a t ih =>
    obtain ⟨b, e, hb⟩ := uniquePoints_head a t
    rw [e, select_cons]
    have hrest : x ∈ t → x ∈ select t (uniquePoints t) := fun hm => ih hm (fun y hy => h y (List.mem_cons_of_mem _ hy))
    cases b with
    | true =>
      rcases List.mem_cons.1 hx with rfl | hx
      · exact List.mem_cons_self
      · exact List.mem_cons_of_mem _ (hrest hx)
    | false =>
      refine hrest ?_
      rcases List.mem_cons.1 hx with rfl | hx
      · by_contra hnot
        have : ∀ z ∈ t, atol < Lip.nrm (x - z) := fun z hz => h z (List.mem_cons_of_mem _ hz) (fun he => hnot (he ▸ hz))
        exact absurd (hb.2 this) (by simp)
      · exact hx

/-- C49: every input point is linked to a kept point by steps no longer than the tolerance. -/
theorem unique_linked (X : List (Lip.Pt m)) : ∀ x ∈ X, ∃ y ∈ select X (uniquePoints X),
    Relation.ReflTransGen (fun a b => b ∈ X ∧ Lip.nrm (a - b) ≤ atol) x y := by
  induction X with
  | nil => simp
  | cons a t ih =>
    obtain ⟨b, e, hb⟩ := uniquePoints_head a t
    rw [e, select_cons]
    have hrest : ∀ x ∈ t, ∃ y ∈ (if b then a :: select t (uniquePoints t) else select t (uniquePoints t)),
        Relation.ReflTransGen (fun p q => q ∈ a :: t ∧ Lip.nrm (p - q) ≤ atol) x y := by
      intro x hx
      obtain ⟨y, hy, hc⟩ := ih x hx
      refine ⟨y, ?_, Relation.ReflTransGen.mono (fun p q (hpq : q ∈ t ∧ _) => (⟨List.mem_cons_of_mem _ hpq.1, hpq.2⟩ : q ∈ a :: t ∧ Lip.nrm (p - q) ≤ atol)) x y hc⟩
      cases b
      · exact hy
      · exact List.mem_cons_of_mem _ hy
    intro x hx
    rcases List.mem_cons.1 hx with rfl | hx
    · cases b with
      | true => exact ⟨x, List.mem_cons_self, .refl⟩
      | false =>
        have : ¬ ∀ z ∈ t, atol < Lip.nrm (x - z) := fun h => absurd (hb.2 h) (by simp)
        push Not at this
        obtain ⟨z, hz, hle⟩ := this
        obtain ⟨y, hy, hc⟩ := hrest z hz
        exact ⟨y, hy, .head ⟨List.mem_cons_of_mem _ hz, hle⟩ hc⟩
    · exact hrest x hx

theorem nrm_one (v : ℝ) : Lip.nrm (m := 1) (fun _ => v) = |v| := by
  unfold Lip.nrm
  simp [dotProduct, Real.sqrt_mul_self_eq_abs]

/-- The limit of C49: a dropped point can be farther than the tolerance from every kept point. -/
theorem unique_far : ∃ X : List (Lip.Pt 1), ∃ x ∈ X, ∀ y ∈ select X (uniquePoints X), atol < Lip.nrm (x - y) := by
  have h1 : Lip.nrm (m := 1) ((fun _ => 0) - fun _ => atol) = atol := by
    have : ((fun _ => 0) - fun _ => atol : Lip.Pt 1) = fun _ => -atol := by funext i; simp
    rw [this, nrm_one, abs_neg, abs_of_pos atol_pos]
  have h2 : Lip.nrm (m := 1) ((fun _ => atol) - fun _ => 2 * atol) = atol := by
    have : ((fun _ => atol) - fun _ => 2 * atol : Lip.Pt 1) = fun _ => -atol := by funext i; simp; ring
    rw [this, nrm_one, abs_neg, abs_of_pos atol_pos]
  have h3 : Lip.nrm (m := 1) ((fun _ => 0) - fun _ => 2 * atol) = 2 * atol := by
    have : ((fun _ => 0) - fun _ => 2 * atol : Lip.Pt 1) = fun _ => -(2 * atol) := by funext i; simp
    rw [this, nrm_one, abs_neg, abs_of_pos (by linarith [atol_pos])]
  refine ⟨[fun _ => 0, fun _ => atol, fun _ => 2 * atol], fun _ => 0, List.mem_cons_self, ?_⟩
  have e : uniquePoints (m := 1) [fun _ => 0, fun _ => atol, fun _ => 2 * atol] = [false, false, true] := by
    have hp := atol_pos
    have a1 : notClose atol = false := by
      rw [← Bool.not_eq_true, notClose_iff _ hp.le]; exact lt_irrefl _
    have hm : min atol (2 * atol) = atol := min_eq_left (by linarith)
    simp [uniquePoints, minL, h1, h2, h3, hm, a1]
  rw [e]
  intro y hy
  simp [select] at hy
  rw [hy, h3]
  linarith [atol_pos]

/-! ## C50: `sample_simplex` -/

theorem diffs_cons (a b : ℝ) (l : List ℝ) : diffs (a :: b :: l) = (b - a) :: diffs (b :: l) := by
  simp [diffs]

theorem diffs_length (l : List ℝ) : (diffs l).length = l.length - 1 := by
  simp [diffs]

theorem diffs_sum (a : ℝ) (l : List ℝ) : (diffs (a :: l)).sum = (a :: l).getLast (by simp) - a := by
  induction l generalizing a with
  | nil => simp [diffs]
  | cons b l ih => rw [diffs_cons, List.sum_cons, ih b, List.getLast_cons (a := a) (List.cons_ne_nil b l)]; ring

theorem diffs_nonneg {l : List ℝ} (h : l.Pairwise (· ≤ ·)) : ∀ w ∈ diffs l, 0 ≤ w := by
  induction l with
  | nil => simp [diffs]
  | cons a l ih =>
    cases l with
    | nil => simp [diffs]
    | cons b l =>
      rw [diffs_cons]
      obtain ⟨h1, h2⟩ := List.pairwise_cons.1 h
      intro w hw
      rcases List.mem_cons.1 hw with rfl | hw
      · linarith [h1 b List.mem_cons_self]
      · exact ih h2 w hw

theorem sortR_sorted (l : List ℝ) : (sortR l).Pairwise (· ≤ ·) := by
  classical
  exact List.pairwise_insertionSort (fun a b : ℝ => a ≤ b) l

theorem sortR_mem {l : List ℝ} {x : ℝ} : x ∈ sortR l ↔ x ∈ l := by
  classical
  exact List.mem_insertionSort _

theorem sortR_length (l : List ℝ) : (sortR l).length = l.length := by
  classical
  exact List.length_insertionSort _ _

theorem sortR_eq {l : List ℝ} (h : l.Pairwise (· ≤ ·)) : sortR l = l := by
  classical
  exact List.Pairwise.insertionSort_eq h

theorem pinEnds_length (r : List ℝ) : (pinEnds r).length = r.length := by simp [pinEnds]

/-- C50: for every stream of draws in `[0,1]` the weights of a row are nonnegative, as many as the dimension, and sum to one
(dimension at least one). -/
theorem simplex_weights (dim : ℕ) (hd : 1 ≤ dim) (r : List ℝ) (hl : r.length = dim + 1) (hr : ∀ u ∈ r, 0 ≤ u ∧ u ≤ 1) :
    (simplexRow r).length = dim ∧ (∀ w ∈ simplexRow r, 0 ≤ w) ∧ (simplexRow r).sum = 1 := by
  unfold simplexRow
  have hlen : (sortR (pinEnds r)).length = dim + 1 := by rw [sortR_length, pinEnds_length, hl]
  refine ⟨by rw [diffs_length, hlen]; rfl, diffs_nonneg (sortR_sorted _), ?_⟩
  have hmem0 : (0 : ℝ) ∈ sortR (pinEnds r) := by
    rw [sortR_mem]
    refine List.mem_iff_getElem?.2 ⟨0, ?_⟩
    unfold pinEnds
    rw [List.getElem?_set, List.getElem?_set]
    rw [if_neg (by omega), if_pos rfl, if_pos (by omega)]
  have hmem1 : (1 : ℝ) ∈ sortR (pinEnds r) := by
    rw [sortR_mem]
    refine List.mem_iff_getElem?.2 ⟨r.length - 1, ?_⟩
    unfold pinEnds
    rw [List.getElem?_set, if_pos rfl, if_pos (by rw [List.length_set]; omega)]
  have hbd : ∀ u ∈ sortR (pinEnds r), 0 ≤ u ∧ u ≤ 1 := by
    intro u hu
    rw [sortR_mem] at hu
    unfold pinEnds at hu
    rcases List.mem_or_eq_of_mem_set hu with hu | rfl
    · rcases List.mem_or_eq_of_mem_set hu with hu | rfl
      · exact hr u hu
      · norm_num
    · norm_num
  have hs := sortR_sorted (pinEnds r)
  cases hq : sortR (pinEnds r) with
  | nil => rw [hq] at hlen; simp at hlen
  | cons a l =>
    rw [hq] at hmem0 hmem1 hbd hs
    rw [diffs_sum]
    have ha : a = 0 := by
      refine le_antisymm ?_ (hbd a List.mem_cons_self).1
      rcases List.mem_cons.1 hmem0 with h | h
      · exact h.ge
      · exact (List.pairwise_cons.1 hs).1 0 h
    have hlast : (a :: l).getLast (by simp) = 1 := by
      refine le_antisymm (hbd _ (List.getLast_mem _)).2 ?_
      rcases List.eq_nil_or_concat (a :: l) with h | ⟨p, q, h⟩
      · cases h
      · rw [List.concat_eq_append] at h
        simp only [h] at hmem1 hs ⊢
        rw [List.getLast_append_singleton]
        rcases List.mem_append.1 hmem1 with h1 | h1
        · exact (List.pairwise_append.1 hs).2.2 1 h1 q (by simp)
        · exact (List.mem_singleton.1 h1).le
    rw [hlast, ha]; ring

/-- In dimension zero there are no weights (their sum is not one). -/
theorem simplex_zero (u : ℝ) : simplexRow [u] = [] := by
  simp [simplexRow, pinEnds, sortR, diffs]

/-- Running sums starting from `a`. -/
noncomputable def sumsFrom (a : ℝ) : List ℝ → List ℝ
  | [] => [a]
  | w :: l => a :: sumsFrom (a + w) l

theorem sumsFrom_ne (a : ℝ) (l : List ℝ) : ∃ t, sumsFrom a l = a :: t := by
  cases l with
  | nil => exact ⟨[], rfl⟩
  | cons w l => exact ⟨_, rfl⟩

theorem sumsFrom_diffs (a : ℝ) (l : List ℝ) : diffs (sumsFrom a l) = l := by
  induction l generalizing a with
  | nil => simp [sumsFrom, diffs]
  | cons w l ih =>
    obtain ⟨t, ht⟩ := sumsFrom_ne (a + w) l
    have := ih (a + w)
    rw [sumsFrom, ht, diffs_cons, ← ht, this]
    congr 1; ring

theorem sumsFrom_length (a : ℝ) (l : List ℝ) : (sumsFrom a l).length = l.length + 1 := by
  induction l generalizing a with
  | nil => rfl
  | cons w l ih => rw [sumsFrom, List.length_cons, ih, List.length_cons]

theorem sumsFrom_bounds (a : ℝ) (l : List ℝ) (h : ∀ w ∈ l, 0 ≤ w) : ∀ u ∈ sumsFrom a l, a ≤ u ∧ u ≤ a + l.sum := by
  induction l generalizing a with
  | nil => intro u hu; simp [sumsFrom] at hu; simp [hu]
  | cons w l ih =>
    have hw := h w List.mem_cons_self
    have hl : 0 ≤ l.sum := List.sum_nonneg (fun x hx => h x (List.mem_cons_of_mem _ hx))
    intro u hu
    rw [sumsFrom] at hu
    rw [List.sum_cons]
    rcases List.mem_cons.1 hu with rfl | hu
    · constructor <;> linarith
    · have := ih (a + w) (fun x hx => h x (List.mem_cons_of_mem _ hx)) u hu
      constructor <;> linarith

theorem sumsFrom_sorted (a : ℝ) (l : List ℝ) (h : ∀ w ∈ l, 0 ≤ w) : (sumsFrom a l).Pairwise (· ≤ ·) := by
  induction l generalizing a with
  | nil => simp [sumsFrom]
  | cons w l ih =>
    rw [sumsFrom, List.pairwise_cons]
    refine ⟨fun u hu => ?_, ih _ (fun x hx => h x (List.mem_cons_of_mem _ hx))⟩
    have := (sumsFrom_bounds (a + w) l (fun x hx => h x (List.mem_cons_of_mem _ hx)) u hu).1
    linarith [h w List.mem_cons_self]

theorem sumsFrom_last (a : ℝ) (l : List ℝ) : (sumsFrom a l)[l.length]? = some (a + l.sum) := by
  induction l generalizing a with
  | nil => simp [sumsFrom]
  | cons w l ih => rw [sumsFrom, List.length_cons, List.getElem?_cons_succ, ih, List.sum_cons, add_assoc]

/-- C50: every vector of convex weights is produced by some stream. -/
theorem simplex_surjective (w : List ℝ) (hw : ∀ x ∈ w, 0 ≤ x) (hs : w.sum = 1) :
    ∃ r : List ℝ, r.length = w.length + 1 ∧ (∀ u ∈ r, 0 ≤ u ∧ u ≤ 1) ∧ simplexRow r = w := by
  refine ⟨sumsFrom 0 w, sumsFrom_length _ _, fun u hu => ?_, ?_⟩
  · have := sumsFrom_bounds 0 w hw u hu
    rw [hs, zero_add] at this
    exact this
  · have e : pinEnds (sumsFrom 0 w) = sumsFrom 0 w := by
      unfold pinEnds
      obtain ⟨t, ht⟩ := sumsFrom_ne 0 w
      have e0 : (sumsFrom 0 w).set 0 0 = sumsFrom 0 w := by rw [ht]; rfl
      rw [e0]
      have hl := sumsFrom_last 0 w
      rw [hs, zero_add] at hl
      rw [sumsFrom_length, Nat.add_sub_cancel]
      refine List.ext_getElem? fun i => ?_
      rw [List.getElem?_set]
      by_cases hi : w.length = i
      · subst hi
        rw [if_pos rfl, if_pos (by rw [sumsFrom_length]; omega), hl]
      · rw [if_neg hi]
    unfold simplexRow
    rw [e, sortR_eq (sumsFrom_sorted 0 w hw), sumsFrom_diffs]

example : simplexRow [0.3, 0.5, 0.9] = [0.5, 0.5] := by
  have h : ([0, 0.5, 1] : List ℝ).Pairwise (· ≤ ·) := by norm_num
  have e : pinEnds [0.3, 0.5, 0.9] = [0, 0.5, 1] := by simp [pinEnds]
  rw [simplexRow, e, sortR_eq h]
  norm_num [diffs]

/-! ## C51: one-dimensional Voronoi vertices -/

theorem ldist_pt1 (L : Matrix (Fin k) (Fin 1) ℝ) (x y : ℝ) : Lip.ldist L (pt1 x) (pt1 y) = Lip.nrm (L *ᵥ pt1 1) * |x - y| := by
  have : (pt1 x - pt1 y : Lip.Pt 1) = (x - y) • pt1 1 := by funext i; simp [pt1]
  rw [Lip.ldist_eq, this, Lip.lnorm, Matrix.mulVec_smul, nrm_smul, mul_comm]

theorem nearest_le (L : Matrix (Fin k) (Fin m) ℝ) {X : List (Lip.Pt m)} {x : Lip.Pt m} (hx : x ∈ X) (v : Lip.Pt m) : nearest L X v ≤ Lip.ldist L x v :=
  (minL_spec (l := X.map (fun x => Lip.ldist L x v)) (List.ne_nil_of_mem (List.mem_map_of_mem hx))).2 _ (List.mem_map_of_mem hx)

theorem nearest_mem (L : Matrix (Fin k) (Fin m) ℝ) {X : List (Lip.Pt m)} (hX : X ≠ []) (v : Lip.Pt m) : ∃ x ∈ X, nearest L X v = Lip.ldist L x v := by
  obtain ⟨x, hx, e⟩ := List.mem_map.1 (minL_spec (l := X.map (fun x => Lip.ldist L x v)) (by simpa using hX)).1
  exact ⟨x, hx, e.symm⟩

theorem nearest_mono (L : Matrix (Fin k) (Fin m) ℝ) {X : List (Lip.Pt m)} (hX : X ≠ []) (v z : Lip.Pt m)
    (h : ∀ x ∈ X, ∃ y ∈ X, Lip.ldist L y z ≤ Lip.ldist L x v) : nearest L X z ≤ nearest L X v := by
  obtain ⟨x, hx, e⟩ := nearest_mem L hX v
  obtain ⟨y, hy, hle⟩ := h x hx
  rw [e]; exact (nearest_le L hy z).trans hle

theorem midpoints_cons (a b : ℝ) (l : List ℝ) : midpoints (a :: b :: l) = 1 / 2 * (b + a) :: midpoints (b :: l) := by
  simp [midpoints]

/-- The midpoint of two consecutive values is among the midpoints. -/
theorem midpoint_mem {S : List ℝ} (hS : S.Pairwise (· ≤ ·)) {a b : ℝ} (ha : a ∈ S) (hb : b ∈ S) (hab : a < b) (hgap : ∀ c ∈ S, c ≤ a ∨ b ≤ c) :
    1 / 2 * (b + a) ∈ midpoints S := by
  induction S with
  | nil => simp at ha
  | cons c S ih =>
    cases S with
    | nil =>
      rw [List.mem_singleton.1 ha, List.mem_singleton.1 hb] at hab
      exact absurd hab (lt_irrefl _)
    | cons d t =>
      rw [midpoints_cons]
      obtain ⟨h1, h2⟩ := List.pairwise_cons.1 hS
      have hb' : a ∈ d :: t ∨ a = c → b ∈ d :: t := by
        intro h
        rcases List.mem_cons.1 hb with rfl | hb
        · rcases h with h | h
          · linarith [h1 a h]
          · linarith
        · exact hb
      by_cases haS : a ∈ d :: t
      · exact List.mem_cons_of_mem _ (ih h2 haS (hb' (.inl haS)) (fun c hc => hgap c (List.mem_cons_of_mem _ hc)))
      · have hac : a = c := (List.mem_cons.1 ha).resolve_right haS
        have hbS := hb' (.inr hac)
        have hda : a ≤ d := hac ▸ h1 d List.mem_cons_self
        have hdb : d ≤ b := by
          rcases List.mem_cons.1 hbS with h | h
          · exact h.ge
          · exact (List.pairwise_cons.1 h2).1 b h
        have : d = b := by
          rcases hgap d (List.mem_cons_of_mem _ List.mem_cons_self) with h | h
          · exact absurd (le_antisymm h hda ▸ List.mem_cons_self : a ∈ d :: t) haS
          · exact le_antisymm hdb h
        rw [this, hac]
        exact List.mem_cons_self

theorem midpoints_between {S : List ℝ} {lo hi : ℝ} (h : ∀ x ∈ S, lo ≤ x ∧ x ≤ hi) : ∀ v ∈ midpoints S, lo ≤ v ∧ v ≤ hi := by
  induction S with
  | nil => simp [midpoints]
  | cons a S ih =>
    cases S with
    | nil => simp [midpoints]
    | cons b t =>
      rw [midpoints_cons]
      intro v hv
      have ha := h a List.mem_cons_self
      have hb := h b (List.mem_cons_of_mem _ List.mem_cons_self)
      rcases List.mem_cons.1 hv with rfl | hv
      · constructor <;> linarith
      · exact ih (fun x hx => h x (List.mem_cons_of_mem _ hx)) v hv

/-- C51: the vertices lie in the interval. -/
theorem voronoi1d_inside {lb ub : ℝ} (hlu : lb ≤ ub) {X : List ℝ} (hX : ∀ x ∈ X, lb ≤ x ∧ x ≤ ub) : ∀ v ∈ voronoi1d lb ub X, lb ≤ v ∧ v ≤ ub := by
  intro v hv
  unfold voronoi1d at hv
  rcases List.mem_cons.1 hv with rfl | hv
  · exact ⟨le_refl _, hlu⟩
  · rcases List.mem_append.1 hv with hv | hv
    · refine midpoints_between (fun x hx => ?_) v hv
      rw [sortR_mem] at hx
      rcases List.mem_append.1 hx with hx | hx
      · exact hX x hx
      · rcases List.mem_cons.1 hx with rfl | hx
        · exact ⟨hlu, le_refl _⟩
        · rw [List.mem_singleton.1 hx]; exact ⟨le_refl _, hlu⟩
    · rw [List.mem_singleton.1 hv]; exact ⟨hlu, le_refl _⟩

/-- The largest sample at or below `z`. -/
theorem exists_below {X : List ℝ} {z : ℝ} (h : ∃ x ∈ X, x ≤ z) : ∃ a ∈ X, a ≤ z ∧ ∀ x ∈ X, x ≤ z → x ≤ a := by
  classical
  obtain ⟨x, hx, hxz⟩ := h
  have hne : X.filter (fun x => decide (x ≤ z)) ≠ [] := List.ne_nil_of_mem (List.mem_filter.2 ⟨hx, by simpa using hxz⟩)
  have hs := maxL_spec hne
  obtain ⟨h1, h2⟩ := List.mem_filter.1 hs.1
  exact ⟨_, h1, by simpa using h2, fun y hy hyz => hs.2 y (List.mem_filter.2 ⟨hy, by simpa using hyz⟩)⟩

/-- The smallest sample at or above `z`. -/
theorem exists_above {X : List ℝ} {z : ℝ} (h : ∃ x ∈ X, z ≤ x) : ∃ a ∈ X, z ≤ a ∧ ∀ x ∈ X, z ≤ x → a ≤ x := by
  classical
  obtain ⟨x, hx, hxz⟩ := h
  have hne : X.filter (fun x => decide (z ≤ x)) ≠ [] := List.ne_nil_of_mem (List.mem_filter.2 ⟨hx, by simpa using hxz⟩)
  have hs := minL_spec hne
  obtain ⟨h1, h2⟩ := List.mem_filter.1 hs.1
  exact ⟨_, h1, by simpa using h2, fun y hy hyz => hs.2 y (List.mem_filter.2 ⟨hy, by simpa using hyz⟩)⟩

/-- C51: some vertex is at least as far from the samples as any given point of the interval. -/
theorem voronoi1d_dominates (L : Matrix (Fin k) (Fin 1) ℝ) {lb ub : ℝ} {X : List ℝ} (hne : X ≠ []) (hX : ∀ x ∈ X, lb ≤ x ∧ x ≤ ub) {z : ℝ}
    (hz : lb ≤ z ∧ z ≤ ub) : ∃ v ∈ voronoi1d lb ub X, nearest L (X.map pt1) (pt1 z) ≤ nearest L (X.map pt1) (pt1 v) := by
  have hc := Lip.nrm_nonneg (L *ᵥ pt1 1)
  have hmap : X.map pt1 ≠ [] := by simpa using hne
  -- reduce to comparing absolute differences
  have red : ∀ v, (∀ x ∈ X, ∃ y ∈ X, |y - z| ≤ |x - v|) → nearest L (X.map pt1) (pt1 z) ≤ nearest L (X.map pt1) (pt1 v) := by
    intro v h
    refine nearest_mono L hmap _ _ fun p hp => ?_
    obtain ⟨x, hx, rfl⟩ := List.mem_map.1 hp
    obtain ⟨y, hy, hle⟩ := h x hx
    refine ⟨pt1 y, List.mem_map_of_mem hy, ?_⟩
    rw [ldist_pt1, ldist_pt1]
    exact mul_le_mul_of_nonneg_left hle hc
  by_cases hlow : ∃ x ∈ X, x ≤ z
  · by_cases hup : ∃ x ∈ X, z ≤ x
    · obtain ⟨a, ha, haz, hamax⟩ := exists_below hlow
      obtain ⟨b, hb, hbz, hbmin⟩ := exists_above hup
      by_cases hab : a = b
      · have haz' : a = z := le_antisymm haz (hab ▸ hbz)
        refine ⟨lb, List.mem_cons_self, red _ fun x _ => ⟨a, ha, ?_⟩⟩
        rw [haz', sub_self, abs_zero]; exact abs_nonneg _
      · have hlt : a < b := lt_of_le_of_ne (haz.trans hbz) hab
        have hgapX : ∀ c ∈ X, c ≤ a ∨ b ≤ c := fun c hc' => by
          rcases le_total c z with h | h
          · exact .inl (hamax c hc' h)
          · exact .inr (hbmin c hc' h)
        have hgap : ∀ c ∈ sortR (X ++ [ub, lb]), c ≤ a ∨ b ≤ c := by
          intro c hc'
          rw [sortR_mem] at hc'
          rcases List.mem_append.1 hc' with h | h
          · exact hgapX c h
          · rcases List.mem_cons.1 h with rfl | h
            · exact .inr (hX b hb).2
            · rw [List.mem_singleton.1 h]; exact .inl (hX a ha).1
        refine ⟨1 / 2 * (b + a), List.mem_cons_of_mem _ (List.mem_append_left _ (midpoint_mem (sortR_sorted _)
          (sortR_mem.2 (List.mem_append_left _ ha)) (sortR_mem.2 (List.mem_append_left _ hb)) hlt hgap)), red _ fun x hx => ?_⟩
        have hfar : (b - a) / 2 ≤ |x - 1 / 2 * (b + a)| := by
          rcases hgapX x hx with h | h
          · rw [abs_sub_comm]; exact le_trans (by linarith) (le_abs_self _)
          · exact le_trans (by linarith) (le_abs_self _)
        rcases le_total (z - a) (b - z) with h | h
        · refine ⟨a, ha, ?_⟩
          rw [abs_of_nonpos (by linarith)]; linarith
        · refine ⟨b, hb, ?_⟩
          rw [abs_of_nonneg (by linarith)]; linarith
    · push Not at hup
      refine ⟨ub, List.mem_cons_of_mem _ (List.mem_append_right _ (by simp)), red _ fun x hx => ⟨x, hx, ?_⟩⟩
      have := hup x hx
      rw [abs_of_nonpos (by linarith), abs_of_nonpos (by linarith)]; linarith
  · push Not at hlow
    refine ⟨lb, List.mem_cons_self, red _ fun x hx => ⟨x, hx, ?_⟩⟩
    have := hlow x hx
    rw [abs_of_nonneg (by linarith), abs_of_nonneg (by linarith)]; linarith

theorem fillOver_le (L : Matrix (Fin k) (Fin m) ℝ) (X : List (Lip.Pt m)) {V : List (Lip.Pt m)} {v : Lip.Pt m} (hv : v ∈ V) : nearest L X v ≤ fillOver L X V :=
  (maxL_spec (l := V.map (nearest L X)) (List.ne_nil_of_mem (List.mem_map_of_mem hv))).2 _ (List.mem_map_of_mem hv)

theorem fillOver_mem (L : Matrix (Fin k) (Fin m) ℝ) (X : List (Lip.Pt m)) {V : List (Lip.Pt m)} (hV : V ≠ []) : ∃ v ∈ V, fillOver L X V = nearest L X v := by
  obtain ⟨v, hv, e⟩ := List.mem_map.1 (maxL_spec (l := V.map (nearest L X)) (by simpa using hV)).1
  exact ⟨v, hv, e.symm⟩

/-- C51: `fill_distance` on an interval is the largest distance from a point of the interval to its nearest sample. -/
theorem fillDistance1d_exact (L : Matrix (Fin k) (Fin 1) ℝ) {lb ub : ℝ} (hlu : lb ≤ ub) {X : List ℝ} (hne : X ≠ []) (hX : ∀ x ∈ X, lb ≤ x ∧ x ≤ ub) :
    IsGreatest {d | ∃ z, (lb ≤ z ∧ z ≤ ub) ∧ d = nearest L (X.map pt1) (pt1 z)} (fillDistance1d L lb ub X) := by
  constructor
  · obtain ⟨v, hv, e⟩ := fillOver_mem L (X.map pt1) (V := (voronoi1d lb ub X).map pt1) (by simp [voronoi1d])
    obtain ⟨z, hz, rfl⟩ := List.mem_map.1 hv
    exact ⟨z, voronoi1d_inside hlu hX z hz, e⟩
  · rintro d ⟨z, hz, rfl⟩
    obtain ⟨v, hv, hle⟩ := voronoi1d_dominates L hne hX hz
    exact hle.trans (fillOver_le L _ (List.mem_map_of_mem hv))

/-- The vertices: the two ends and the midpoints between neighbours of the sorted list of samples and ends, nothing else. -/
theorem voronoi1d_mem {lb ub : ℝ} {X : List ℝ} {v : ℝ} : v ∈ voronoi1d lb ub X ↔ v = lb ∨ v = ub ∨ ∃ i, ∃ h : i + 1 < (sortR (X ++ [ub, lb])).length,
    v = 1 / 2 * ((sortR (X ++ [ub, lb]))[i + 1] + (sortR (X ++ [ub, lb]))[i]) := by
  unfold voronoi1d
  rw [List.mem_cons, List.mem_append, List.mem_singleton]
  have : v ∈ midpoints (sortR (X ++ [ub, lb])) ↔ ∃ i, ∃ h : i + 1 < (sortR (X ++ [ub, lb])).length,
      v = 1 / 2 * ((sortR (X ++ [ub, lb]))[i + 1] + (sortR (X ++ [ub, lb]))[i]) := by
    unfold midpoints
    rw [List.mem_iff_getElem]
    constructor
    · rintro ⟨i, hi, e⟩
      rw [List.length_zipWith, List.length_tail] at hi
      refine ⟨i, by omega, ?_⟩
      rw [List.getElem_zipWith, List.getElem_tail] at e
      exact e.symm
    · rintro ⟨i, hi, e⟩
      refine ⟨i, by rw [List.length_zipWith, List.length_tail]; omega, ?_⟩
      rw [List.getElem_zipWith, List.getElem_tail]
      exact e.symm
  rw [this, or_comm (b := v = ub)]

example : ∃ X : List ℝ, X ≠ [] ∧ ∀ x ∈ X, (0 : ℝ) ≤ x ∧ x ≤ 1 := ⟨[0.25, 0.5], by simp, by norm_num⟩

/-! ## C76: fill distances -/

/-- C76: a fill distance computed from candidates inside the domain is attained in the domain, so it never exceeds the true one. -/
theorem fill_lower (L : Matrix (Fin k) (Fin m) ℝ) (inside : Lip.Pt m → Prop) (X V : List (Lip.Pt m)) (hV : V ≠ []) (hin : ∀ v ∈ V, inside v) (B : ℝ)
    (hB : ∀ z, inside z → ∃ x ∈ X, Lip.ldist L x z ≤ B) : fillOver L X V ≤ B := by
  obtain ⟨v, hv, e⟩ := fillOver_mem L X hV
  obtain ⟨x, hx, hle⟩ := hB v (hin v hv)
  rw [e]; exact (nearest_le L hx v).trans hle

/-- C76: adding samples does not increase the distance over the same candidates. -/
theorem fill_antitone (L : Matrix (Fin k) (Fin m) ℝ) {X Y V : List (Lip.Pt m)} (hX : X ≠ []) (hV : V ≠ []) (hXY : X ⊆ Y) : fillOver L Y V ≤ fillOver L X V := by
  obtain ⟨v, hv, e⟩ := fillOver_mem L Y hV
  obtain ⟨x, hx, e2⟩ := nearest_mem L hX v
  rw [e]
  exact ((nearest_le L (hXY hx) v).trans e2.ge).trans (fillOver_le L X hv)

/-- C76: adding candidates does not decrease it. -/
theorem fill_mono (L : Matrix (Fin k) (Fin m) ℝ) (X : List (Lip.Pt m)) {V W : List (Lip.Pt m)} (hV : V ≠ []) (hVW : V ⊆ W) : fillOver L X V ≤ fillOver L X W := by
  obtain ⟨v, hv, e⟩ := fillOver_mem L X hV
  rw [e]; exact fillOver_le L X (hVW hv)

/-! ## C77: `sample_sphere` -/

theorem argmaxL_mem {α : Type*} (f : α → ℝ) (b : α) (l : List α) : argmaxL f b l ∈ b :: l := by
  induction l generalizing b with
  | nil => simp [argmaxL]
  | cons a l ih =>
    rw [argmaxL]
    split
    · exact List.mem_cons_of_mem _ (ih a)
    · rcases List.mem_cons.1 (ih b) with h | h
      · rw [h]; exact List.mem_cons_self
      · exact List.mem_cons_of_mem _ (List.mem_cons_of_mem _ h)

theorem argmaxL_max {α : Type*} (f : α → ℝ) (b : α) (l : List α) : ∀ a ∈ b :: l, f a ≤ f (argmaxL f b l) := by
  induction l generalizing b with
  | nil => intro a ha; rw [List.mem_singleton.1 ha]; simp [argmaxL]
  | cons c l ih =>
    intro a ha
    rw [argmaxL]
    split
    · rename_i h
      rcases List.mem_cons.1 ha with rfl | ha
      · exact h.le.trans (ih c c List.mem_cons_self)
      · exact ih c a ha
    · rename_i h
      rcases List.mem_cons.1 ha with rfl | ha
      · exact ih a a List.mem_cons_self
      · rcases List.mem_cons.1 ha with rfl | ha
        · exact (not_lt.1 h).trans (ih b b List.mem_cons_self)
        · exact ih b a (List.mem_cons_of_mem _ ha)

theorem nrm_unit {x : Lip.Pt m} (h : x ≠ 0) : Lip.nrm (unit x) = 1 := by
  have hx : Lip.nrm x ≠ 0 := by
    intro h0
    refine h ?_
    have := Lip.nrm_sq x
    rw [h0] at this
    have := (dotProduct_self_eq_zero (v := x)).1 (by rw [← this]; norm_num)
    exact this
  have : unit x = (Lip.nrm x)⁻¹ • x := by funext i; simp [unit, div_eq_inv_mul]
  rw [this, nrm_smul, abs_of_nonneg (inv_nonneg.2 (Lip.nrm_nonneg _)), inv_mul_cancel₀ hx]

/-- On unit vectors the score is half the squared distance. -/
theorem score_dist {x y : Lip.Pt m} (hx : Lip.nrm x = 1) (hy : Lip.nrm y = 1) : 1 - x ⬝ᵥ y = Lip.nrm (x - y) ^ 2 / 2 := by
  have e1 := Lip.nrm_sq x
  have e2 := Lip.nrm_sq y
  rw [hx] at e1; rw [hy] at e2
  rw [Lip.nrm_sq, sub_dotProduct, dotProduct_sub, dotProduct_sub, ← e1, ← e2, dotProduct_comm y x]
  ring

/-- C77: the number of points, and all of them are on the unit sphere, for every stream without zero draws. -/
theorem sphere_unit (x0 : Lip.Pt m) (h0 : x0 ≠ 0) (draws : List (Lip.Pt m × List (Lip.Pt m))) (hd : ∀ d ∈ draws, d.1 ≠ 0 ∧ ∀ c ∈ d.2, c ≠ 0) :
    (sampleSphere x0 draws).length = draws.length + 1 ∧ ∀ x ∈ sampleSphere x0 draws, Lip.nrm x = 1 := by
  unfold sampleSphere
  induction draws using List.reverseRecOn with
  | nil => exact ⟨rfl, fun x hx => by rw [List.foldl_nil, List.mem_singleton] at hx; rw [hx]; exact nrm_unit h0⟩
  | append_singleton ds d ih =>
    obtain ⟨i1, i2⟩ := ih (fun d' hd' => hd d' (List.mem_append_left _ hd'))
    rw [List.foldl_append, List.foldl_cons, List.foldl_nil, sphereStep]
    refine ⟨by simp [i1], fun x hx => ?_⟩
    rcases List.mem_append.1 hx with hx | hx
    · exact i2 x hx
    · rw [List.mem_singleton.1 hx]
      obtain ⟨hd1, hd2⟩ := hd d (List.mem_append_right _ (by simp))
      rcases List.mem_cons.1 (argmaxL_mem (sphereScore (ds.foldl sphereStep [unit x0])) (unit d.1) (d.2.map unit)) with h | h
      · rw [h]; exact nrm_unit hd1
      · obtain ⟨c, hc, e⟩ := List.mem_map.1 h
        rw [← e]; exact nrm_unit (hd2 c hc)

/-- C77: each added point is, among the candidates of its pass, the one whose nearest earlier point is farthest away. -/
theorem sphere_best (X : List (Lip.Pt m)) (hX : X ≠ []) (hu : ∀ x ∈ X, Lip.nrm x = 1) (d : Lip.Pt m × List (Lip.Pt m)) (hd : d.1 ≠ 0 ∧ ∀ c ∈ d.2, c ≠ 0) :
    ∃ c ∈ (d.1 :: d.2).map unit, sphereStep X d = X ++ [c] ∧
      ∀ c' ∈ (d.1 :: d.2).map unit, minL (X.map (fun x => Lip.nrm (x - c'))) ≤ minL (X.map (fun x => Lip.nrm (x - c))) := by
  have hmem := argmaxL_mem (sphereScore X) (unit d.1) (d.2.map unit)
  have hmax := argmaxL_max (sphereScore X) (unit d.1) (d.2.map unit)
  have hunit : ∀ c ∈ unit d.1 :: d.2.map unit, Lip.nrm c = 1 := by
    intro c hc
    rcases List.mem_cons.1 hc with rfl | hc
    · exact nrm_unit hd.1
    · obtain ⟨c', hc', rfl⟩ := List.mem_map.1 hc
      exact nrm_unit (hd.2 c' hc')
  refine ⟨_, by simpa using hmem, rfl, fun c' hc' => ?_⟩
  rw [List.map_cons] at hc'
  have hle := hmax c' hc'
  set c := argmaxL (sphereScore X) (unit d.1) (d.2.map unit) with hcdef
  have s1 := minL_spec (l := X.map (fun x => Lip.nrm (x - c))) (by simpa using hX)
  have s2 := minL_spec (l := X.map (fun x => Lip.nrm (x - c'))) (by simpa using hX)
  have s3 := minL_spec (l := X.map (fun x => 1 - x ⬝ᵥ c)) (by simpa using hX)
  have s4 := minL_spec (l := X.map (fun x => 1 - x ⬝ᵥ c')) (by simpa using hX)
  obtain ⟨x, hx, ex⟩ := List.mem_map.1 s1.1
  obtain ⟨y, hy, ey⟩ := List.mem_map.1 s4.1
  have g1 : minL (X.map (fun x => 1 - x ⬝ᵥ c)) ≤ 1 - x ⬝ᵥ c := s3.2 _ (List.mem_map.2 ⟨x, hx, rfl⟩)
  have g2 : minL (X.map (fun x => Lip.nrm (x - c'))) ≤ Lip.nrm (y - c') := s2.2 _ (List.mem_map.2 ⟨y, hy, rfl⟩)
  have hle' : minL (X.map (fun x => 1 - x ⬝ᵥ c')) ≤ minL (X.map (fun x => 1 - x ⬝ᵥ c)) := hle
  rw [← ey, score_dist (hu y hy) (hunit c' hc')] at hle'
  rw [score_dist (hu x hx) (hunit c hmem)] at g1
  rw [← ex]
  refine g2.trans (abs_le_abs_of_sq ?_ ?_ ?_)
  · exact Lip.nrm_nonneg _
  · exact Lip.nrm_nonneg _
  · linarith
where
  abs_le_abs_of_sq {a b : ℝ} (ha : 0 ≤ a) (hb : 0 ≤ b) (h : a ^ 2 ≤ b ^ 2) : a ≤ b := by nlinarith

end Verif.Geo
