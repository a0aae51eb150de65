import Verif.Domain.QueryProps
import Verif.Domain.SolverProps

/-!
# Corners of boxes with integer bounds, and centers of products (C13, C16)
-/

namespace Verif.Domain

open Verif

/-- Truncation: the integer closest to `r` among those between zero and `r`. -/
structure Truncates (r : ℝ) (k : ℤ) : Prop where
  within : |(k : ℝ)| ≤ |r|
  sign : 0 ≤ (k : ℝ) * r
  close : |r - k| < 1

theorem castInt_fin (r : ℝ) : ∃ k : ℤ, castInt (.fin r) = .fin k ∧ Truncates r k := by
  by_cases h : 0 ≤ r
  · have h0 : (0 : ℝ) ≤ ⌊r⌋ := by exact_mod_cast Int.floor_nonneg.2 h
    refine ⟨⌊r⌋, by simp only [castInt]; rw [if_pos h], ?_, mul_nonneg h0 h, ?_⟩
    · rw [abs_of_nonneg h0, abs_of_nonneg h]; exact Int.floor_le r
    · rw [abs_of_nonneg (by linarith [Int.floor_le r])]; linarith [Int.lt_floor_add_one r]
  · have h0 : r < 0 := not_le.1 h
    have h1 : ((⌈r⌉ : ℤ) : ℝ) ≤ 0 := by exact_mod_cast Int.ceil_le.2 (by simpa using h0.le)
    refine ⟨⌈r⌉, by simp only [castInt]; rw [if_neg h], ?_, mul_nonneg_of_nonpos_of_nonpos h1 h0.le, ?_⟩
    · rw [abs_of_nonpos h1, abs_of_neg h0]; linarith [Int.le_ceil r]
    · rw [abs_of_nonpos (by linarith [Int.le_ceil r])]; linarith [Int.ceil_lt_add_one r]

/-- **C13**, integer lower bounds: where `p` is negative `corner` returns the lower bound, elsewhere the upper bound truncated towards zero. -/
theorem box_corner_int (TOL : ℝ) (lo hi p : Vec) {x : List XR} (h : boxCorner TOL true (lo.map XR.fin) (hi.map XR.fin) p = .ok x) (i : ℕ) {l u q : ℝ}
    (hl : lo[i]? = some l) (hu : hi[i]? = some u) (hq : p[i]? = some q) :
    (q < 0 → x[i]? = some (.fin l)) ∧ (0 ≤ q → ∃ k : ℤ, x[i]? = some (.fin k) ∧ Truncates u k) := by
  unfold boxCorner at h
  split at h
  · cases h
  · split at h
    · cases h
    · cases h
      have e : (boxCornerPoint true (lo.map XR.fin) (hi.map XR.fin) p)[i]? = some (if q ≥ 0 then castInt (.fin u) else .fin l) := by
        simp [boxCornerPoint, List.getElem?_zipWith, List.zip, hl, hu, hq, assignTo]
      rw [e]
      constructor
      · intro hq'
        rw [if_neg (by simpa using hq')]
      · intro hq'
        obtain ⟨k, hk, ht⟩ := castInt_fin u
        exact ⟨k, by rw [if_pos hq', hk], ht⟩

/-- **C13**: for integer bounds on both sides the element type makes no difference. -/
theorem box_corner_int_same (TOL : ℝ) (lo : Vec) (hi : List ℤ) (p : Vec) :
    boxCorner TOL true (lo.map XR.fin) ((hi.map fun k : ℤ => (k : ℝ)).map XR.fin) p = boxCorner TOL false (lo.map XR.fin) ((hi.map fun k : ℤ => (k : ℝ)).map XR.fin) p := by
  have hc : ∀ k : ℤ, castInt (.fin (k : ℝ)) = .fin (k : ℝ) := by
    intro k
    simp [castInt]
  have e : boxCornerPoint true (lo.map XR.fin) ((hi.map fun k : ℤ => (k : ℝ)).map XR.fin) p = boxCornerPoint false (lo.map XR.fin) ((hi.map fun k : ℤ => (k : ℝ)).map XR.fin) p := by
    unfold boxCornerPoint
    induction lo generalizing hi p with
    | nil => simp
    | cons l lo ih =>
      cases hi with
      | nil => simp
      | cons k hi => cases p with
        | nil => simp
        | cons q p =>
          rw [List.map_cons, List.map_cons, List.map_cons, List.zip_cons_cons, List.zipWith_cons_cons, List.zipWith_cons_cons, ih]
          simp [assignTo, hc]
  unfold boxCorner
  rw [e]

/-- Midpoints. -/
noncomputable def midpoints (b : Vec × Vec) : Vec := List.zipWith (fun l u => (l + u) / 2) b.1 b.2

/-- **C16**: the center of a product of boxes, by which `constrained_least_squares` shifts its target, is the list of all midpoints. -/
theorem center_product (fb : CornerOracle) (fbD : List XR × List XR) (bs : List (Vec × Vec)) (hb : ∀ b ∈ bs, List.Forall₂ (· < ·) b.1 b.2)
    (h1 : fbD.1.length = (bs.flatMap Prod.fst).length) (h2 : fbD.2.length = (bs.flatMap Prod.fst).length) :
    (Dom.tensor (bs.map fun b => Base.box (b.1.map XR.fin) (b.2.map XR.fin))).centerOf fb fbD = bs.flatMap midpoints := by
  have e1 : (Dom.tensor (bs.map fun b => Base.box (b.1.map XR.fin) (b.2.map XR.fin))).acc.lb = (bs.flatMap Prod.fst).map XR.fin := by
    simp [Dom.acc, Base.acc, List.flatMap_map, List.map_flatMap]
  have e2 : (Dom.tensor (bs.map fun b => Base.box (b.1.map XR.fin) (b.2.map XR.fin))).acc.ub = (bs.flatMap Prod.snd).map XR.fin := by
    simp [Dom.acc, Base.acc, List.flatMap_map, List.map_flatMap]
  have hf : List.Forall₂ (· < ·) (bs.flatMap Prod.fst) (bs.flatMap Prod.snd) := by
    clear h1 h2 e1 e2
    induction bs with
    | nil => exact .nil
    | cons b bs ih =>
      rw [List.flatMap_cons, List.flatMap_cons]
      exact List.rel_append (hb b (by simp)) (ih fun b' hb' => hb b' (by simp [hb']))
  have hm : bs.flatMap midpoints = List.zipWith (fun l u => (l + u) / 2) (bs.flatMap Prod.fst) (bs.flatMap Prod.snd) := by
    clear h1 h2 e1 e2 hf
    induction bs with
    | nil => rfl
    | cons b bs ih =>
      rw [List.flatMap_cons, List.flatMap_cons, List.flatMap_cons, List.zipWith_append (hb b (by simp)).length_eq, ih fun b' hb' => hb b' (by simp [hb'])]
      rfl
  obtain ⟨k1, k2⟩ := box_normBounds _ _ hf fbD.1 fbD.2 (by simpa using h1) (by simpa using h2)
  change center _ _ = _
  rw [e1, e2, k1, k2, hm]
  simp [center, List.zipWith_map, center1]

/-- The hypotheses hold for the product of `[0, 2]` and `[1, 3] × [5, 7]`, whose center is `(1, 2, 6)`. -/
example (fb : CornerOracle) : (Dom.tensor ([(([0], [2]) : Vec × Vec), ([1, 5], [3, 7])].map fun b => Base.box (b.1.map XR.fin) (b.2.map XR.fin))).centerOf fb
    ([.pinf, .pinf, .pinf], [.pinf, .pinf, .pinf]) = ([1, 2, 6] : List ℝ) := by
  rw [center_product _ _ _ (by simp; norm_num) (by simp) (by simp)]
  simp [midpoints]
  norm_num

/-- `box_corner_int` applies: integer lower bounds `-3` and `0`, upper bounds `-1/2` and `5/2`. -/
example : (boxCorner 1 true ([-3, 0].map XR.fin) ([-(1 / 2), 5 / 2].map XR.fin) [1, 1]).isOk := by
  have f1 : ⌈(-(1 / 2) : ℝ)⌉ = 0 := by rw [Int.ceil_eq_iff]; norm_num
  have f2 : ⌊(5 / 2 : ℝ)⌋ = 2 := by rw [Int.floor_eq_iff]; norm_num
  have e : boxCornerPoint true ([-3, 0].map XR.fin) ([-(1 / 2), 5 / 2].map XR.fin) [1, 1] = [.fin 0, .fin 2] := by
    simp only [boxCornerPoint, assignTo, castInt, List.map_cons, List.map_nil, List.zip_cons_cons, List.zip_nil_left, List.zipWith_cons_cons, List.zipWith_nil_left, f1, f2]
    norm_num
  unfold boxCorner
  rw [e, if_neg (by simp), if_neg]
  · rfl
  · push Not
    rw [inBoundsX_iff]
    constructor <;> intro i r v h1 h2 <;> rcases i with _ | _ | i <;> simp at h1 h2 <;> subst h1 h2 <;> left <;> simp only [XR.lt] <;> norm_num

end Verif.Domain
