import Verif.Geometry.GeoProps
import Verif.Geometry.LawProps

/-!
# The order of the points and the fill distance, the one-dimensional Voronoi cells, and `unique_points`
-/

namespace Verif.Geo

open Verif Verif.Domain Matrix

variable {m k : ℕ}

theorem minL_same {l l' : List ℝ} (h : ∀ a, a ∈ l ↔ a ∈ l') : minL l = minL l' := by
  by_cases hl : l = []
  · have : l' = [] := List.eq_nil_iff_forall_not_mem.2 fun a ha => by simpa [hl] using (h a).2 ha
    rw [hl, this]
  · have hl' : l' ≠ [] := by
      obtain ⟨a, ha⟩ := List.exists_mem_of_ne_nil _ hl
      exact List.ne_nil_of_mem ((h a).1 ha)
    exact le_antisymm ((minL_spec hl).2 _ ((h _).2 (minL_spec hl').1)) ((minL_spec hl').2 _ ((h _).1 (minL_spec hl).1))

theorem maxL_same {l l' : List ℝ} (h : ∀ a, a ∈ l ↔ a ∈ l') : maxL l = maxL l' := by
  by_cases hl : l = []
  · have : l' = [] := List.eq_nil_iff_forall_not_mem.2 fun a ha => by simpa [hl] using (h a).2 ha
    rw [hl, this]
  · have hl' : l' ≠ [] := by
      obtain ⟨a, ha⟩ := List.exists_mem_of_ne_nil _ hl
      exact List.ne_nil_of_mem ((h a).1 ha)
    exact le_antisymm ((maxL_spec hl').2 _ ((h _).1 (maxL_spec hl).1)) ((maxL_spec hl).2 _ ((h _).2 (maxL_spec hl').1))

/-- The distance to the nearest sample depends on the set of samples only. -/
theorem nearest_order (L : Matrix (Fin k) (Fin m) ℝ) {X X' : List (Lip.Pt m)} (h : ∀ x, x ∈ X ↔ x ∈ X') (v : Lip.Pt m) : nearest L X v = nearest L X' v :=
  minL_same fun a => by simp only [List.mem_map, h]

/-- The fill distance over given vertices depends on the sets of samples and vertices only. -/
theorem fillOver_order (L : Matrix (Fin k) (Fin m) ℝ) {X X' V V' : List (Lip.Pt m)} (h : ∀ x, x ∈ X ↔ x ∈ X') (hV : ∀ x, x ∈ V ↔ x ∈ V') :
    fillOver L X V = fillOver L X' V' := by
  refine maxL_same fun a => ?_
  simp only [List.mem_map, hV, nearest_order L h]

/-- The Voronoi vertices of an interval do not depend on the order of the samples. -/
theorem voronoi1d_order (lb ub : ℝ) {X X' : List ℝ} (h : X.Perm X') : voronoi1d lb ub X = voronoi1d lb ub X' := by
  have : sortR (X ++ [ub, lb]) = sortR (X' ++ [ub, lb]) :=
    sortR_unique ((List.perm_insertionSort _ _).trans (h.symm.append_right _)) (sortR_sorted _)
  rw [voronoi1d, voronoi1d, this]

/-- The fill distance of an interval does not depend on the order of the samples. -/
theorem fillDistance1d_order (L : Matrix (Fin k) (Fin 1) ℝ) (lb ub : ℝ) {X X' : List ℝ} (h : X.Perm X') :
    fillDistance1d L lb ub X = fillDistance1d L lb ub X' := by
  rw [fillDistance1d, fillDistance1d, voronoi1d_order lb ub h]
  exact fillOver_order L (fun x => (h.map pt1).mem_iff) fun _ => Iff.rfl

theorem nrm_pt1 (a b : ℝ) : Lip.nrm (pt1 a - pt1 b) = |a - b| := by
  simp [Lip.nrm, pt1, dotProduct, Real.sqrt_mul_self_eq_abs]

/-- Not so for `unique_points`: of three points in a row, each within the tolerance of the next, it keeps one or two
depending on their order. -/
theorem uniquePoints_order_false :
    ∃ X X' : List (Lip.Pt 1), X.Perm X' ∧ (select X (uniquePoints X)).length = 1 ∧ (select X' (uniquePoints X')).length = 2 := by
  set a : ℝ := 8 / 10 ^ 9 with ha
  refine ⟨[pt1 0, pt1 a, pt1 (2 * a)], [pt1 a, pt1 0, pt1 (2 * a)], .swap _ _ _, ?_, ?_⟩
  · obtain ⟨b, hb, hb'⟩ := uniquePoints_head (pt1 0) [pt1 a, pt1 (2 * a)]
    obtain ⟨c, hc, hc'⟩ := uniquePoints_head (pt1 a) [pt1 (2 * a)]
    have hbf : b = false := by
      rw [← Bool.not_eq_true, hb']
      intro h
      have := h (pt1 a) (by simp)
      rw [nrm_pt1] at this
      norm_num [ha, atol, abs_of_pos] at this
    have hcf : c = false := by
      rw [← Bool.not_eq_true, hc']
      intro h
      have := h (pt1 (2 * a)) (by simp)
      rw [nrm_pt1] at this
      norm_num [ha, atol, abs_of_pos] at this
    rw [hb, hc, hbf, hcf]
    simp [select, uniquePoints]
  · obtain ⟨b, hb, hb'⟩ := uniquePoints_head (pt1 a) [pt1 0, pt1 (2 * a)]
    obtain ⟨c, hc, hc'⟩ := uniquePoints_head (pt1 0) [pt1 (2 * a)]
    have hbf : b = false := by
      rw [← Bool.not_eq_true, hb']
      intro h
      have := h (pt1 0) (by simp)
      rw [nrm_pt1] at this
      norm_num [ha, atol, abs_of_pos] at this
    have hcf : c = true := by
      rw [hc']
      intro z hz
      rw [List.mem_singleton.1 hz, nrm_pt1]
      norm_num [ha, atol, abs_of_pos]
    rw [hb, hc, hbf, hcf]
    simp [select, uniquePoints]

/-- Points of which no two are within the tolerance are all kept, in every order. -/
theorem uniquePoints_order_partial {X X' : List (Lip.Pt m)} (h : X.Perm X') (hX : X.Pairwise fun x z => atol < Lip.nrm (x - z)) :
    select X' (uniquePoints X') = X' := by
  have hsym : ∀ x z : Lip.Pt m, atol < Lip.nrm (x - z) → atol < Lip.nrm (z - x) := fun x z hh => by
    have : Lip.nrm (z - x) = Lip.nrm (x - z) := by rw [Lip.nrm, Lip.nrm, ← neg_sub x z, neg_dotProduct_neg]
    rwa [this]
  have hX' : X'.Pairwise fun x z => atol < Lip.nrm (x - z) := h.pairwise hX fun {x z} => hsym x z
  clear h hX
  induction X' with
  | nil => rfl
  | cons x t ih =>
    obtain ⟨b, hb, hb'⟩ := uniquePoints_head x t
    obtain ⟨h1, h2⟩ := List.pairwise_cons.1 hX'
    rw [hb, hb'.2 h1]
    have := ih h2
    simp only [select] at this ⊢
    simp [this]

example : [pt1 0, pt1 1].Pairwise fun x z => atol < Lip.nrm (x - z) := by
  simp [nrm_pt1, atol]
  norm_num

end Verif.Geo
