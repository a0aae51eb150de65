import Verif.Geometry.VertexModel
import Verif.Geometry.GeoProps
import Mathlib.Analysis.Convex.KreinMilman
import Mathlib.Analysis.Convex.Jensen
import Mathlib.Analysis.Convex.Topology
import Mathlib.LinearAlgebra.Matrix.ToLinearEquiv

/-!
# C91: Voronoi vertices and the exact fill distance in any dimension
-/

namespace Verif.Geo

open Verif Verif.Domain Matrix

variable {k m : ℕ}

/-! ## Specification -/

/-- The polyhedron of the domain. -/
def domSet (aug : List (Lip.Pt m × ℝ)) : Set (Lip.Pt m) := {x | ∀ r ∈ aug, r.1 ⬝ᵥ x ≤ r.2}

/-- The part of the domain for which the sample `x` is nearest. -/
def cellSet (aug : List (Lip.Pt m × ℝ)) (L : Matrix (Fin k) (Fin m) ℝ) (Xhat : List (Lip.Pt m)) (x : Lip.Pt m) : Set (Lip.Pt m) :=
  {z | z ∈ domSet aug ∧ ∀ x' ∈ Xhat, Lip.ldist L x z ≤ Lip.ldist L x' z}

/-- Bounded Voronoi vertices: the extreme points of the cells. -/
def IsVoronoiVertex (aug : List (Lip.Pt m × ℝ)) (L : Matrix (Fin k) (Fin m) ℝ) (Xhat : List (Lip.Pt m)) (v : Lip.Pt m) : Prop :=
  ∃ x ∈ Xhat, v ∈ (cellSet aug L Xhat x).extremePoints ℝ

/-- The points of an intersection of halfspaces `a y + c ≤ 0`. -/
def polySet (rows : List (Lip.Pt m × ℝ)) : Set (Lip.Pt m) := {y | ∀ r ∈ rows, r.1 ⬝ᵥ y + r.2 ≤ 0}

/-- Strictly inside all halfspaces. -/
def StrictlyIn (rows : List (Lip.Pt m × ℝ)) (p : Lip.Pt m) : Prop := ∀ r ∈ rows, r.1 ⬝ᵥ p + r.2 < 0

/-- Contract of Qhull: it needs a point strictly inside, and for bounded intersections it then returns the vertices. -/
structure HSI.Exact (hsi : HSI m) : Prop where
  vertices : ∀ rows p V, hsi rows p = some V → StrictlyIn rows p ∧ ∀ v, v ∈ V ↔ v ∈ (polySet rows).extremePoints ℝ
  complete : ∀ rows p, StrictlyIn rows p → Bornology.IsBounded (polySet rows) → ∃ V, hsi rows p = some V

/-- Contract of the linear program for the Chebyshev center. -/
def IsCenter (center : List (Lip.Pt m × ℝ) → Lip.Pt m) : Prop :=
  ∀ rows, (∃ p, StrictlyIn rows p) → Bornology.IsBounded (polySet rows) → StrictlyIn rows (center rows)

/-! ## Polyhedra -/

theorem polySet_convex (rows : List (Lip.Pt m × ℝ)) : Convex ℝ (polySet rows) := by
  intro x hx y hy a b ha hb hab r hr
  have h1 := hx r hr
  have h2 := hy r hr
  rw [dotProduct_add, dotProduct_smul, dotProduct_smul, smul_eq_mul, smul_eq_mul]
  have e : a * (r.1 ⬝ᵥ x) + b * (r.1 ⬝ᵥ y) + r.2 = a * (r.1 ⬝ᵥ x + r.2) + b * (r.1 ⬝ᵥ y + r.2) + (1 - (a + b)) * r.2 := by ring
  rw [e, hab, sub_self, zero_mul, add_zero]
  nlinarith [mul_nonneg ha (neg_nonneg.2 h1), mul_nonneg hb (neg_nonneg.2 h2)]

theorem polySet_closed (rows : List (Lip.Pt m × ℝ)) : IsClosed (polySet rows) := by
  have : polySet rows = ⋂ r ∈ rows, {y | r.1 ⬝ᵥ y + r.2 ≤ 0} := by
    ext y
    simp [polySet]
  rw [this]
  refine isClosed_biInter fun r _ => isClosed_le ?_ continuous_const
  exact (Continuous.dotProduct continuous_const continuous_id).add continuous_const

/-- An extreme point is determined by its active constraints. -/
theorem extreme_active {rows : List (Lip.Pt m × ℝ)} {x y : Lip.Pt m} (hx : x ∈ (polySet rows).extremePoints ℝ) (hy : y ∈ polySet rows)
    (h : ∀ r ∈ rows, r.1 ⬝ᵥ x + r.2 = 0 → r.1 ⬝ᵥ y + r.2 = 0) : x = y := by
  -- a small step from `x` away from `y` stays inside
  have key : ∃ t : ℝ, 0 < t ∧ x + t • (x - y) ∈ polySet rows := by
    have hx' := hx.1
    clear hx
    induction rows with
    | nil => exact ⟨1, one_pos, fun r hr => by simp at hr⟩
    | cons r rows ih =>
      obtain ⟨t, ht, hin⟩ := ih (fun r hr => hy r (List.mem_cons_of_mem _ hr)) (fun r hr => h r (List.mem_cons_of_mem _ hr))
        (fun r hr => hx' r (List.mem_cons_of_mem _ hr))
      have hmono : ∀ s : ℝ, 0 ≤ s → s ≤ t → x + s • (x - y) ∈ polySet rows := by
        intro s hs hst
        have hseg := polySet_convex rows (fun r hr => hx' r (List.mem_cons_of_mem _ hr)) hin (a := 1 - s / t) (b := s / t)
          (by rw [sub_nonneg]; exact (div_le_one ht).2 hst) (by positivity) (by ring)
        convert hseg using 1
        rw [smul_add, smul_smul, div_mul_cancel₀ _ ht.ne', ← add_assoc, ← add_smul]
        simp
      have hr0 := hx' r List.mem_cons_self
      rcases hr0.eq_or_lt with h0 | h0
      · have h1 := h r List.mem_cons_self h0
        refine ⟨t, ht, fun q hq => ?_⟩
        rcases List.mem_cons.1 hq with rfl | hq
        · rw [dotProduct_add, dotProduct_smul, dotProduct_sub, smul_eq_mul]
          have : q.1 ⬝ᵥ x - q.1 ⬝ᵥ y = 0 := by linarith
          rw [this]; linarith
        · exact hin q hq
      · -- slack
        set c := |r.1 ⬝ᵥ (x - y)| + 1 with hc
        have hcpos : 0 < c := by positivity
        refine ⟨min t (-(r.1 ⬝ᵥ x + r.2) / c), lt_min ht (div_pos (by linarith) hcpos), fun q hq => ?_⟩
        rcases List.mem_cons.1 hq with rfl | hq
        · rw [dotProduct_add, dotProduct_smul, smul_eq_mul]
          set s := min t (-(q.1 ⬝ᵥ x + q.2) / c) with hs
          have hs0 : 0 ≤ s := (lt_min ht (div_pos (by linarith) hcpos)).le
          have hs1 : s * c ≤ -(q.1 ⬝ᵥ x + q.2) := (le_div_iff₀ hcpos).1 (min_le_right _ _)
          have hle : q.1 ⬝ᵥ (x - y) ≤ c := (le_abs_self _).trans (by linarith)
          nlinarith [mul_le_mul_of_nonneg_left hle hs0]
        · exact hmono _ (lt_min ht (div_pos (by linarith) hcpos)).le (min_le_left _ _) q hq
  obtain ⟨t, ht, hin⟩ := key
  have hseg : x ∈ openSegment ℝ y (x + t • (x - y)) := by
    refine ⟨t / (1 + t), 1 / (1 + t), by positivity, by positivity, by field_simp; ring, ?_⟩
    funext i
    simp only [Pi.add_apply, Pi.smul_apply, Pi.sub_apply, smul_eq_mul]
    field_simp
    ring
  exact ((mem_extremePoints.1 hx).2 y hy _ hin hseg).1.symm

/-- A polyhedron has finitely many vertices. -/
theorem extreme_finite (rows : List (Lip.Pt m × ℝ)) : ((polySet rows).extremePoints ℝ).Finite := by
  classical
  refine Set.Finite.of_finite_image (f := fun x => rows.toFinset.filter fun r => r.1 ⬝ᵥ x + r.2 = 0)
    (rows.toFinset.powerset.finite_toSet.subset ?_) ?_
  · rintro s ⟨x, -, rfl⟩
    exact Finset.mem_coe.2 (Finset.mem_powerset.2 (Finset.filter_subset _ _))
  · intro x hx y hy hxy
    refine extreme_active hx hy.1 fun r hr h0 => ?_
    have : r ∈ rows.toFinset.filter fun r => r.1 ⬝ᵥ x + r.2 = 0 := Finset.mem_filter.2 ⟨List.mem_toFinset.2 hr, h0⟩
    simp only at hxy
    rw [hxy] at this
    exact (Finset.mem_filter.1 this).2

/-- A bounded polyhedron is the convex hull of its vertices. -/
theorem poly_hull (rows : List (Lip.Pt m × ℝ)) (hb : Bornology.IsBounded (polySet rows)) :
    convexHull ℝ ((polySet rows).extremePoints ℝ) = polySet rows := by
  have hc : IsCompact (polySet rows) := Metric.isCompact_of_isClosed_isBounded (polySet_closed rows) hb
  have h := closure_convexHull_extremePoints hc (polySet_convex rows)
  rwa [((extreme_finite rows).isCompact_convexHull (𝕜 := ℝ)).isClosed.closure_eq] at h

/-- Routines meeting the contracts exist. -/
theorem exists_hsi : ∃ hsi : HSI m, hsi.Exact := by
  classical
  refine ⟨fun rows p => if StrictlyIn rows p then some (extreme_finite rows).toFinset.toList else none, ?_, ?_⟩
  · intro rows p V h
    split at h
    · rename_i hs
      cases h
      exact ⟨hs, by simp⟩
    · cases h
  · intro rows p hs _
    exact ⟨_, if_pos hs⟩

theorem exists_isCenter : ∃ center : List (Lip.Pt m × ℝ) → Lip.Pt m, IsCenter center := by
  classical
  refine ⟨fun rows => if h : ∃ p, StrictlyIn rows p then h.choose else 0, ?_⟩
  intro rows h _
  simp only [dif_pos h]
  exact h.choose_spec

/-! ## Cells -/

/-- Being nearer to `x` than to `x'` is a linear condition. -/
theorem nearer_iff (L : Matrix (Fin k) (Fin m) ℝ) (x x' z : Lip.Pt m) : Lip.ldist L x z ≤ Lip.ldist L x' z ↔
    (L *ᵥ x' - L *ᵥ x) ⬝ᵥ (L *ᵥ z) + -((L *ᵥ x' - L *ᵥ x) ⬝ᵥ ((1 / 2 : ℝ) • (L *ᵥ x + L *ᵥ x'))) ≤ 0 := by
  unfold Lip.ldist
  rw [← sq_le_sq₀ (Lip.nrm_nonneg _) (Lip.nrm_nonneg _), Lip.nrm_sq, Lip.nrm_sq]
  set a := L *ᵥ x
  set b := L *ᵥ x'
  set y := L *ᵥ z
  have e1 : (a - y) ⬝ᵥ (a - y) = a ⬝ᵥ a - 2 * (a ⬝ᵥ y) + y ⬝ᵥ y := by
    rw [sub_dotProduct, dotProduct_sub, dotProduct_sub, dotProduct_comm y a]; ring
  have e2 : (b - y) ⬝ᵥ (b - y) = b ⬝ᵥ b - 2 * (b ⬝ᵥ y) + y ⬝ᵥ y := by
    rw [sub_dotProduct, dotProduct_sub, dotProduct_sub, dotProduct_comm y b]; ring
  have e3 : (b - a) ⬝ᵥ y + -((b - a) ⬝ᵥ ((1 / 2 : ℝ) • (a + b))) = b ⬝ᵥ y - a ⬝ᵥ y - (1 / 2) * (b ⬝ᵥ b - a ⬝ᵥ a) := by
    rw [dotProduct_smul, sub_dotProduct, sub_dotProduct, dotProduct_add, dotProduct_add, dotProduct_comm b a, smul_eq_mul]; ring
  rw [e1, e2, e3]
  constructor <;> intro h <;> linarith

/-- The cell as an intersection of halfspaces in the original coordinates. -/
noncomputable def zRows (aug : List (Lip.Pt m × ℝ)) (L : Matrix (Fin k) (Fin m) ℝ) (Xhat : List (Lip.Pt m)) (x : Lip.Pt m) : List (Lip.Pt m × ℝ) :=
  augRows aug ++ Xhat.map fun x' => ((L *ᵥ x' - L *ᵥ x) ᵥ* L, -((L *ᵥ x' - L *ᵥ x) ⬝ᵥ ((1 / 2 : ℝ) • (L *ᵥ x + L *ᵥ x'))))

theorem domSet_poly (aug : List (Lip.Pt m × ℝ)) : domSet aug = polySet (augRows aug) := by
  ext z
  simp only [domSet, polySet, augRows, Set.mem_ofPred_eq, List.mem_map, forall_exists_index, and_imp, forall_apply_eq_imp_iff₂]
  exact forall₂_congr fun r _ => by constructor <;> intro h <;> linarith

theorem cellSet_poly (aug : List (Lip.Pt m × ℝ)) (L : Matrix (Fin k) (Fin m) ℝ) (Xhat : List (Lip.Pt m)) (x : Lip.Pt m) :
    cellSet aug L Xhat x = polySet (zRows aug L Xhat x) := by
  ext z
  unfold cellSet zRows
  rw [domSet_poly]
  simp only [polySet, Set.mem_ofPred_eq, List.mem_append, or_imp, forall_and, List.mem_map, forall_exists_index, and_imp, forall_apply_eq_imp_iff₂]
  refine and_congr Iff.rfl (forall₂_congr fun x' _ => ?_)
  rw [nearer_iff, ← dotProduct_mulVec]

/-- The halfspaces passed to Qhull describe the image of the cell. -/
theorem cellRows_iff (aug : List (Lip.Pt m × ℝ)) {L : Matrix (Fin m) (Fin m) ℝ} (hL : L.det ≠ 0) (Xhat : List (Lip.Pt m)) (x z : Lip.Pt m) :
    L *ᵥ z ∈ polySet (cellRows aug L⁻¹ (Xhat.map (L *ᵥ ·)) (L *ᵥ x)) ↔ z ∈ cellSet aug L Xhat x := by
  have hinv : L⁻¹ *ᵥ (L *ᵥ z) = z := by
    rw [mulVec_mulVec, Matrix.nonsing_inv_mul L (isUnit_iff_ne_zero.2 hL), one_mulVec]
  constructor
  · intro h
    refine ⟨fun r hr => ?_, fun x' hx' => ?_⟩
    · have := h (r.1 ᵥ* L⁻¹, -r.2) (List.mem_append_left _ (List.mem_map.2 ⟨r, hr, rfl⟩))
      simp only at this
      rw [← dotProduct_mulVec, hinv] at this
      linarith
    · rw [nearer_iff]
      by_cases h0 : 0 < (L *ᵥ x' - L *ᵥ x) ⬝ᵥ (L *ᵥ x' - L *ᵥ x)
      · refine h _ (List.mem_append_right _ (List.mem_map.2 ⟨L *ᵥ x', List.mem_filter.2 ⟨List.mem_map.2 ⟨x', hx', rfl⟩, decide_eq_true h0⟩, rfl⟩))
      · have : L *ᵥ x' - L *ᵥ x = 0 := dotProduct_self_eq_zero.1 (le_antisymm (not_lt.1 h0) (Lip.dotProduct_self_nonneg' _))
        rw [this]
        simp
  · rintro ⟨h1, h2⟩ r hr
    rcases List.mem_append.1 hr with hr | hr
    · obtain ⟨q, hq, rfl⟩ := List.mem_map.1 hr
      simp only
      rw [← dotProduct_mulVec, hinv]
      linarith [h1 q hq]
    · obtain ⟨y, hy, rfl⟩ := List.mem_map.1 hr
      obtain ⟨x', hx', rfl⟩ := List.mem_map.1 (List.mem_filter.1 hy).1
      exact (nearer_iff L x x' z).1 (h2 x' hx')

/-- The linear bijection `z ↦ L z`. -/
noncomputable def lEquiv (L : Matrix (Fin m) (Fin m) ℝ) (hL : L.det ≠ 0) : Lip.Pt m ≃ₗ[ℝ] Lip.Pt m :=
  L.toLinearEquiv' (Matrix.invertibleOfIsUnitDet L (isUnit_iff_ne_zero.2 hL))

theorem lEquiv_apply (L : Matrix (Fin m) (Fin m) ℝ) (hL : L.det ≠ 0) (z : Lip.Pt m) : lEquiv L hL z = L *ᵥ z := rfl

theorem cellRows_image (aug : List (Lip.Pt m × ℝ)) {L : Matrix (Fin m) (Fin m) ℝ} (hL : L.det ≠ 0) (Xhat : List (Lip.Pt m)) (x : Lip.Pt m) :
    polySet (cellRows aug L⁻¹ (Xhat.map (L *ᵥ ·)) (L *ᵥ x)) = lEquiv L hL '' cellSet aug L Xhat x := by
  ext y
  constructor
  · intro hy
    refine ⟨L⁻¹ *ᵥ y, ?_, ?_⟩
    · rw [← cellRows_iff aug hL, mulVec_mulVec, Matrix.mul_nonsing_inv L (isUnit_iff_ne_zero.2 hL), one_mulVec]
      exact hy
    · rw [lEquiv_apply, mulVec_mulVec, Matrix.mul_nonsing_inv L (isUnit_iff_ne_zero.2 hL), one_mulVec]
  · rintro ⟨z, hz, rfl⟩
    exact (cellRows_iff aug hL Xhat x z).2 hz

/-- The vertices returned for a cell, mapped back, are the extreme points of the cell. -/
theorem cell_extreme (aug : List (Lip.Pt m × ℝ)) {L : Matrix (Fin m) (Fin m) ℝ} (hL : L.det ≠ 0) (Xhat : List (Lip.Pt m)) (x v : Lip.Pt m) :
    v ∈ (cellSet aug L Xhat x).extremePoints ℝ ↔ L *ᵥ v ∈ (polySet (cellRows aug L⁻¹ (Xhat.map (L *ᵥ ·)) (L *ᵥ x))).extremePoints ℝ := by
  rw [cellRows_image aug hL, ← image_extremePoints (𝕜 := ℝ) (lEquiv L hL)]
  rw [← lEquiv_apply L hL, (lEquiv L hL).injective.mem_set_image]

theorem cellVertices_ok {hsi : HSI m} (hh : hsi.Exact) {center : List (Lip.Pt m × ℝ) → Lip.Pt m} {rows : List (Lip.Pt m × ℝ)} {x : Lip.Pt m}
    {V : List (Lip.Pt m)} (h : cellVertices hsi center rows x = .ok V) : ∀ v, v ∈ V ↔ v ∈ (polySet rows).extremePoints ℝ := by
  unfold cellVertices at h
  split at h
  · rename_i W hW
    cases h
    exact (hh.vertices _ _ _ hW).2
  · split at h
    · rename_i W hW
      cases h
      exact (hh.vertices _ _ _ hW).2
    · cases h

theorem allVertices_ok {hsi : HSI m} (hh : hsi.Exact) {center : List (Lip.Pt m × ℝ) → Lip.Pt m} {aug : List (Lip.Pt m × ℝ)}
    {L : Matrix (Fin m) (Fin m) ℝ} (hL : L.det ≠ 0) (Xhat : List (Lip.Pt m)) {t LV : List (Lip.Pt m)}
    (h : allVertices hsi center aug L L⁻¹ Xhat t = .ok LV) (v : Lip.Pt m) : L *ᵥ v ∈ LV ↔ ∃ x ∈ t, v ∈ (cellSet aug L Xhat x).extremePoints ℝ := by
  induction t generalizing LV with
  | nil =>
    cases h
    simp
  | cons x t ih =>
    unfold allVertices at h
    split at h
    · cases h
    · rename_i V hV
      split at h
      · cases h
      · rename_i W hW
        cases h
        rw [List.mem_append, ih hW, cellVertices_ok hh hV, ← cell_extreme aug hL]
        simp

theorem cellSet_single (aug : List (Lip.Pt m × ℝ)) (L : Matrix (Fin k) (Fin m) ℝ) (x : Lip.Pt m) : cellSet aug L [x] x = domSet aug := by
  ext z
  simp [cellSet]

/-- What is returned: only vertices, and every vertex is linked to a returned one by steps of at most the tolerance. -/
theorem voronoi_mem {hsi : HSI m} (hh : hsi.Exact) {center : List (Lip.Pt m × ℝ) → Lip.Pt m} {D : VDomain m} (hD : domSet D.aug ⊆ {x | D.inside x})
    {L : Option (Matrix (Fin m) (Fin m) ℝ)} {Xhat V : List (Lip.Pt m)} (h : voronoiVertex hsi center D L Xhat = .ok V) :
    (∀ v ∈ V, IsVoronoiVertex D.aug (L.getD 1) Xhat v) ∧ ∃ C : List (Lip.Pt m), (∀ v, v ∈ C ↔ IsVoronoiVertex D.aug (L.getD 1) Xhat v) ∧
      (V = select C (uniquePoints C) ∨ V = C) := by
  unfold voronoiVertex at h
  split at h
  · cases h
  · split at h
    · cases h
    · rename_i x _
      split at h
      · rename_i W hW
        cases h
        have hv : ∀ v, v ∈ V ↔ IsVoronoiVertex D.aug (L.getD 1) [x] v := by
          intro v
          rw [(hh.vertices _ _ _ hW).2, ← domSet_poly, IsVoronoiVertex]
          simp [cellSet_single]
        exact ⟨fun v => (hv v).1, V, hv, Or.inr rfl⟩
      · cases h
    · split at h
      · cases h
      · rename_i hL
        split at h
        · cases h
        · rename_i LV hLV
          cases h
          set M := L.getD 1
          have hinv : ∀ z, M⁻¹ *ᵥ (M *ᵥ z) = z := fun z => by
            rw [mulVec_mulVec, Matrix.nonsing_inv_mul M (isUnit_iff_ne_zero.2 hL), one_mulVec]
          have hinv' : ∀ z, M *ᵥ (M⁻¹ *ᵥ z) = z := fun z => by
            rw [mulVec_mulVec, Matrix.mul_nonsing_inv M (isUnit_iff_ne_zero.2 hL), one_mulVec]
          have hC : ∀ v, v ∈ LV.map (M⁻¹ *ᵥ ·) ↔ IsVoronoiVertex D.aug M Xhat v := by
            intro v
            unfold IsVoronoiVertex
            rw [← allVertices_ok hh hL Xhat hLV]
            constructor
            · intro hv
              obtain ⟨y, hy, rfl⟩ := List.mem_map.1 hv
              rwa [hinv']
            · intro hv
              exact List.mem_map.2 ⟨_, hv, hinv v⟩
          refine ⟨fun v hv => ?_, _, hC, Or.inl ?_⟩
          · exact (hC v).1 (select_subset _ _ v (List.mem_filter.1 hv).1)
          · refine List.filter_eq_self.2 fun v hv => ?_
            obtain ⟨x, -, hx⟩ := (hC v).1 (select_subset _ _ v hv)
            simpa using hD hx.1.1

/-- Vertices that differ are farther apart than the tolerance of `unique_points`. -/
def VertexSeparated (aug : List (Lip.Pt m × ℝ)) (L : Matrix (Fin k) (Fin m) ℝ) (Xhat : List (Lip.Pt m)) : Prop :=
  ∀ u v, IsVoronoiVertex aug L Xhat u → IsVoronoiVertex aug L Xhat v → u ≠ v → atol < Lip.nrm (u - v)

/-- **C91**: exactly the bounded Voronoi vertices are returned, as long as no two of them are within the tolerance. -/
theorem voronoi_spec {hsi : HSI m} (hh : hsi.Exact) {center : List (Lip.Pt m × ℝ) → Lip.Pt m} {D : VDomain m} (hD : domSet D.aug ⊆ {x | D.inside x})
    {L : Option (Matrix (Fin m) (Fin m) ℝ)} {Xhat V : List (Lip.Pt m)} (hsep : VertexSeparated D.aug (L.getD 1) Xhat)
    (h : voronoiVertex hsi center D L Xhat = .ok V) (v : Lip.Pt m) : v ∈ V ↔ IsVoronoiVertex D.aug (L.getD 1) Xhat v := by
  obtain ⟨h1, C, hC, hV⟩ := voronoi_mem hh hD h
  refine ⟨h1 v, fun hv => ?_⟩
  rcases hV with rfl | rfl
  · have := unique_duplicates C v ((hC v).2 hv) fun y hy hne => hsep v y hv ((hC y).1 hy) hne.symm
    exact List.count_pos_iff.1 (by omega)
  · exact (hC v).2 hv

/-- **C91**: the returned vertices lie in the domain. -/
theorem voronoi_inside {hsi : HSI m} (hh : hsi.Exact) {center : List (Lip.Pt m × ℝ) → Lip.Pt m} {D : VDomain m} (hD : domSet D.aug ⊆ {x | D.inside x})
    {L : Option (Matrix (Fin m) (Fin m) ℝ)} {Xhat V : List (Lip.Pt m)} (h : voronoiVertex hsi center D L Xhat = .ok V) : ∀ v ∈ V, v ∈ domSet D.aug := by
  intro v hv
  obtain ⟨x, -, hx⟩ := (voronoi_mem hh hD h).1 v hv
  exact hx.1.1

theorem nrm_convex (c : Lip.Pt m) (L : Matrix (Fin k) (Fin m) ℝ) : ConvexOn ℝ Set.univ fun z => Lip.ldist L c z := by
  refine ⟨convex_univ, fun x _ y _ a b ha hb hab => ?_⟩
  have e : L *ᵥ c - L *ᵥ (a • x + b • y) = a • (L *ᵥ c - L *ᵥ x) + b • (L *ᵥ c - L *ᵥ y) := by
    rw [Matrix.mulVec_add, Matrix.mulVec_smul, Matrix.mulVec_smul, smul_sub, smul_sub]
    have : L *ᵥ c = a • (L *ᵥ c) + b • (L *ᵥ c) := by rw [← add_smul, hab, one_smul]
    conv_lhs => rw [this]
    abel
  show Lip.nrm _ ≤ a • Lip.nrm _ + b • Lip.nrm _
  rw [e]
  refine (Lip.nrm_add_le _ _).trans ?_
  rw [nrm_smul, nrm_smul, abs_of_nonneg ha, abs_of_nonneg hb]
  rfl

/-- Every point of a bounded domain is no farther from the samples than some Voronoi vertex. -/
theorem vertex_dominates (aug : List (Lip.Pt m × ℝ)) (hb : Bornology.IsBounded (domSet aug)) (L : Matrix (Fin k) (Fin m) ℝ) {Xhat : List (Lip.Pt m)}
    (hne : Xhat ≠ []) {z : Lip.Pt m} (hz : z ∈ domSet aug) : ∃ v, IsVoronoiVertex aug L Xhat v ∧ nearest L Xhat z ≤ nearest L Xhat v := by
  obtain ⟨x, hx, e⟩ := nearest_mem L hne z
  have hzc : z ∈ cellSet aug L Xhat x := ⟨hz, fun x' hx' => e ▸ nearest_le L hx' z⟩
  have hbc : Bornology.IsBounded (cellSet aug L Xhat x) := hb.subset fun w hw => hw.1
  rw [cellSet_poly] at hzc hbc
  rw [← poly_hull _ hbc] at hzc
  obtain ⟨v, hv, hle⟩ := (nrm_convex x L).exists_ge_of_mem_convexHull (Set.subset_univ _) hzc
  rw [← cellSet_poly] at hv
  refine ⟨v, ⟨x, hx, hv⟩, ?_⟩
  obtain ⟨x', hx', e'⟩ := nearest_mem L hne v
  rw [e, e']
  exact hle.trans (hv.1.2 x' hx')

/-- **C91**: the fill distance is attained in the domain: it never exceeds the largest distance to the nearest sample. -/
theorem fillDistance_attained {hsi : HSI m} (hh : hsi.Exact) {center : List (Lip.Pt m × ℝ) → Lip.Pt m} {D : VDomain m}
    (hD : domSet D.aug ⊆ {x | D.inside x}) {L : Option (Matrix (Fin m) (Fin m) ℝ)} {Xhat : List (Lip.Pt m)} {d : ℝ}
    (h : fillDistance hsi center D L Xhat = .ok d) : ∃ z ∈ domSet D.aug, d = nearest (L.getD 1) Xhat z := by
  unfold fillDistance at h
  split at h
  · cases h
  · cases h
  · rename_i V hne hV
    cases h
    obtain ⟨v, hv, e⟩ := fillOver_mem (L.getD 1) Xhat (V := V) (fun h0 => hne (by rw [h0]))
    exact ⟨v, voronoi_inside hh hD hV v hv, e⟩

theorem voronoi_ne {hsi : HSI m} {center : List (Lip.Pt m × ℝ) → Lip.Pt m} {D : VDomain m} {L : Option (Matrix (Fin m) (Fin m) ℝ)}
    {Xhat V : List (Lip.Pt m)} (h : voronoiVertex hsi center D L Xhat = .ok V) : Xhat ≠ [] := by
  rintro rfl
  unfold voronoiVertex at h
  split at h <;> cases h

/-- **C91**: the fill distance is the largest distance from a point of the domain to its nearest sample. -/
theorem fillDistance_exact {hsi : HSI m} (hh : hsi.Exact) {center : List (Lip.Pt m × ℝ) → Lip.Pt m} {D : VDomain m}
    (hD : domSet D.aug ⊆ {x | D.inside x}) (hb : Bornology.IsBounded (domSet D.aug)) {L : Option (Matrix (Fin m) (Fin m) ℝ)} {Xhat : List (Lip.Pt m)}
    (hsep : VertexSeparated D.aug (L.getD 1) Xhat) {d : ℝ} (h : fillDistance hsi center D L Xhat = .ok d) :
    IsGreatest {d | ∃ z ∈ domSet D.aug, d = nearest (L.getD 1) Xhat z} d := by
  refine ⟨fillDistance_attained hh hD h, ?_⟩
  rintro _ ⟨z, hz, rfl⟩
  unfold fillDistance at h
  split at h
  · cases h
  · cases h
  · rename_i V hne hV
    cases h
    obtain ⟨v, hv, hle⟩ := vertex_dominates D.aug hb (L.getD 1) (voronoi_ne hV) hz
    exact hle.trans (fillOver_le _ _ ((voronoi_spec hh hD hsep hV v).2 hv))

/-! ## Success and failure -/

theorem cell_bounded (aug : List (Lip.Pt m × ℝ)) (hb : Bornology.IsBounded (domSet aug)) {L : Matrix (Fin m) (Fin m) ℝ} (hL : L.det ≠ 0)
    (Xhat : List (Lip.Pt m)) (x : Lip.Pt m) : Bornology.IsBounded (polySet (cellRows aug L⁻¹ (Xhat.map (L *ᵥ ·)) (L *ᵥ x))) := by
  rw [cellRows_image aug hL]
  have hbc : Bornology.IsBounded (cellSet aug L Xhat x) := hb.subset fun w hw => hw.1
  have hc : IsCompact (cellSet aug L Xhat x) := by
    rw [cellSet_poly] at hbc ⊢
    exact Metric.isCompact_of_isClosed_isBounded (polySet_closed _) hbc
  exact (hc.image (lEquiv L hL).toLinearMap.continuous_of_finiteDimensional).isBounded

/-- The cell of a sample in the domain has interior points, if the domain has. -/
theorem cell_interior (aug : List (Lip.Pt m × ℝ)) {z0 : Lip.Pt m} (hz0 : ∀ r ∈ aug, r.1 ⬝ᵥ z0 < r.2) {L : Matrix (Fin m) (Fin m) ℝ} (hL : L.det ≠ 0)
    (Xhat : List (Lip.Pt m)) {x : Lip.Pt m} (hx : x ∈ domSet aug) : ∃ p, StrictlyIn (cellRows aug L⁻¹ (Xhat.map (L *ᵥ ·)) (L *ᵥ x)) p := by
  classical
  set near := (((Xhat.map (L *ᵥ ·)).filter fun y => 0 < (y - L *ᵥ x) ⬝ᵥ (y - L *ᵥ x)).map
    fun y => (y - L *ᵥ x, -((y - L *ᵥ x) ⬝ᵥ ((1 / 2 : ℝ) • (L *ᵥ x + y))))) with hnear
  have h0 : ∀ r ∈ near, r.1 ⬝ᵥ (L *ᵥ x) + r.2 < 0 := by
    intro r hr
    obtain ⟨y, hy, rfl⟩ := List.mem_map.1 hr
    have hpos : 0 < (y - L *ᵥ x) ⬝ᵥ (y - L *ᵥ x) := by simpa using (List.mem_filter.1 hy).2
    simp only
    have e : (y - L *ᵥ x) ⬝ᵥ (L *ᵥ x) + -((y - L *ᵥ x) ⬝ᵥ ((1 / 2 : ℝ) • (L *ᵥ x + y))) = -(1 / 2) * ((y - L *ᵥ x) ⬝ᵥ (y - L *ᵥ x)) := by
      rw [dotProduct_smul, dotProduct_add, smul_eq_mul, dotProduct_sub (y - L *ᵥ x) y]
      ring
    rw [e]
    linarith
  have hev : ∀ᶠ t : ℝ in nhds 0, ∀ r ∈ near.toFinset, r.1 ⬝ᵥ (L *ᵥ x + t • (L *ᵥ (z0 - x))) + r.2 < 0 := by
    rw [Filter.eventually_all_finset]
    intro r hr
    have hc : Continuous fun t : ℝ => r.1 ⬝ᵥ (L *ᵥ x + t • (L *ᵥ (z0 - x))) + r.2 := by
      have : (fun t : ℝ => r.1 ⬝ᵥ (L *ᵥ x + t • (L *ᵥ (z0 - x))) + r.2) = fun t : ℝ => r.1 ⬝ᵥ (L *ᵥ x) + t * (r.1 ⬝ᵥ (L *ᵥ (z0 - x))) + r.2 := by
        funext t
        rw [dotProduct_add, dotProduct_smul, smul_eq_mul]
      rw [this]
      fun_prop
    have hlt : r.1 ⬝ᵥ (L *ᵥ x + (0 : ℝ) • (L *ᵥ (z0 - x))) + r.2 < 0 := by
      rw [zero_smul, add_zero]
      exact h0 r (List.mem_toFinset.1 hr)
    exact hc.continuousAt.eventually_lt continuousAt_const hlt
  obtain ⟨δ, hδ, hball⟩ := Metric.eventually_nhds_iff.1 hev
  set t := min (δ / 2) 1 with ht
  have htpos : 0 < t := lt_min (by linarith) one_pos
  have ht1 : t ≤ 1 := min_le_right _ _
  have hin := hball (y := t) (by rw [Real.dist_eq, sub_zero, abs_of_pos htpos]; exact lt_of_le_of_lt (min_le_left _ _) (by linarith))
  refine ⟨L *ᵥ x + t • (L *ᵥ (z0 - x)), fun r hr => ?_⟩
  rcases List.mem_append.1 hr with hr | hr
  · obtain ⟨q, hq, rfl⟩ := List.mem_map.1 hr
    have hinv : ∀ z, L⁻¹ *ᵥ (L *ᵥ z) = z := fun z => by
      rw [mulVec_mulVec, Matrix.nonsing_inv_mul L (isUnit_iff_ne_zero.2 hL), one_mulVec]
    simp only
    rw [← dotProduct_mulVec, Matrix.mulVec_add, Matrix.mulVec_smul, hinv, hinv, dotProduct_add, dotProduct_smul, dotProduct_sub, smul_eq_mul]
    have h1 := hx q hq
    have h2 := hz0 q hq
    nlinarith
  · refine hin r (List.mem_toFinset.2 ?_)
    rw [hnear]
    convert hr

/-- **C91**: for at least two samples in a bounded domain with interior points and an invertible metric the computation succeeds. -/
theorem voronoi_ok {hsi : HSI m} (hh : hsi.Exact) {center : List (Lip.Pt m × ℝ) → Lip.Pt m} (hc : IsCenter center) {D : VDomain m}
    (hD : domSet D.aug ⊆ {x | D.inside x}) (hb : Bornology.IsBounded (domSet D.aug)) {z0 : Lip.Pt m} (hz0 : ∀ r ∈ D.aug, r.1 ⬝ᵥ z0 < r.2)
    {L : Option (Matrix (Fin m) (Fin m) ℝ)} (hL : (L.getD 1).det ≠ 0) {Xhat : List (Lip.Pt m)} (hX : ∀ x ∈ Xhat, x ∈ domSet D.aug)
    (hlen : 2 ≤ Xhat.length) : ∃ V, voronoiVertex hsi center D L Xhat = .ok V := by
  have hcell : ∀ x ∈ Xhat, ∃ V, cellVertices hsi center (cellRows D.aug (L.getD 1)⁻¹ (Xhat.map ((L.getD 1) *ᵥ ·)) ((L.getD 1) *ᵥ x)) x = .ok V := by
    intro x hx
    have hbd := cell_bounded D.aug hb hL Xhat x
    obtain ⟨W, hW⟩ := hh.complete _ _ (hc _ (cell_interior D.aug hz0 hL Xhat (hX x hx)) hbd) hbd
    unfold cellVertices
    split
    · exact ⟨_, rfl⟩
    · rw [hW]
      exact ⟨_, rfl⟩
  have hall : ∀ t : List (Lip.Pt m), (∀ x ∈ t, x ∈ Xhat) → ∃ LV, allVertices hsi center D.aug (L.getD 1) (L.getD 1)⁻¹ Xhat t = .ok LV := by
    intro t
    induction t with
    | nil => exact fun _ => ⟨_, rfl⟩
    | cons x t ih =>
      intro ht
      obtain ⟨V, hV⟩ := hcell x (ht x List.mem_cons_self)
      obtain ⟨W, hW⟩ := ih fun y hy => ht y (List.mem_cons_of_mem _ hy)
      exact ⟨V ++ W, by rw [allVertices, hV, hW]⟩
  obtain ⟨LV, hLV⟩ := hall Xhat fun x hx => hx
  unfold voronoiVertex
  rw [if_neg (by push Not; exact fun x hx => hD (hX x hx))]
  match Xhat, hlen, hLV with
  | x :: y :: t, _, hLV =>
    simp only
    rw [if_neg hL, hLV]
    exact ⟨_, rfl⟩

/-- **C91**, success of the fill distance. -/
theorem fillDistance_ok {hsi : HSI m} (hh : hsi.Exact) {center : List (Lip.Pt m × ℝ) → Lip.Pt m} (hc : IsCenter center) {D : VDomain m}
    (hD : domSet D.aug ⊆ {x | D.inside x}) (hb : Bornology.IsBounded (domSet D.aug)) {z0 : Lip.Pt m} (hz0 : ∀ r ∈ D.aug, r.1 ⬝ᵥ z0 < r.2)
    {L : Option (Matrix (Fin m) (Fin m) ℝ)} (hL : (L.getD 1).det ≠ 0) {Xhat : List (Lip.Pt m)} (hX : ∀ x ∈ Xhat, x ∈ domSet D.aug)
    (hlen : 2 ≤ Xhat.length) : ∃ d, fillDistance hsi center D L Xhat = .ok d := by
  obtain ⟨V, hV⟩ := voronoi_ok hh hc hD hb hz0 hL hX hlen
  have hne : V ≠ [] := by
    rintro rfl
    obtain ⟨-, C, hC, hVC⟩ := voronoi_mem hh hD hV
    have hXne : Xhat ≠ [] := fun h => by rw [h] at hlen; simp at hlen
    obtain ⟨v, hv, -⟩ := vertex_dominates D.aug hb (L.getD 1) hXne (fun r hr => (hz0 r hr).le)
    have hmem := (hC v).2 hv
    rcases hVC with h | h
    · obtain ⟨y, hy, -⟩ := unique_linked C v hmem
      rw [← h] at hy
      simp at hy
    · rw [← h] at hmem
      simp at hmem
  unfold fillDistance
  rw [hV]
  cases V with
  | nil => exact absurd rfl hne
  | cons v V => exact ⟨_, rfl⟩

/-- **C91**, failure: a single sample on the boundary of the domain (where one constraint is active) makes the computation raise. -/
theorem voronoi_single_boundary {hsi : HSI m} (hh : hsi.Exact) (center : List (Lip.Pt m × ℝ) → Lip.Pt m) (D : VDomain m)
    (L : Option (Matrix (Fin m) (Fin m) ℝ)) {x : Lip.Pt m} (hx : D.inside x) {r : Lip.Pt m × ℝ} (hr : r ∈ D.aug) (ha : r.1 ⬝ᵥ x = r.2) :
    voronoiVertex hsi center D L [x] = .error .solverError := by
  unfold voronoiVertex
  rw [if_neg (by simpa using hx)]
  simp only
  split
  · rename_i V hV
    have := (hh.vertices _ _ _ hV).1 (r.1, -r.2) (List.mem_map.2 ⟨r, hr, rfl⟩)
    simp only at this
    rw [ha] at this
    linarith
  · rfl

/-- The square `[-1,1]²` cut by the line `x₁ = 0` (an equality constraint), which `A_aug` does not contain. -/
def lineDomain : VDomain 2 where
  aug := [(![1, 0], 1), (![-1, 0], 1), (![0, 1], 1), (![0, -1], 1)]
  inside x := -1 ≤ x 0 ∧ x 0 ≤ 1 ∧ x 1 = 0

/-- **C91**, failure: equality constraints are ignored.  The domain is a line segment of length two with its midpoint as the only sample, so
every point is within distance one; the fill distance returned is at least `√2`. -/
theorem fill_equality_false {hsi : HSI 2} (hh : hsi.Exact) (center : List (Lip.Pt 2 × ℝ) → Lip.Pt 2) :
    ∃ d, fillDistance hsi center lineDomain none [0] = .ok d ∧ Real.sqrt 2 ≤ d ∧ ∀ z, lineDomain.inside z → Lip.nrm (z - 0) ≤ 1 := by
  have hdom : ∀ z : Lip.Pt 2, z ∈ domSet lineDomain.aug ↔ z 0 ≤ 1 ∧ -1 ≤ z 0 ∧ z 1 ≤ 1 ∧ -1 ≤ z 1 := by
    intro z
    simp only [domSet, lineDomain, Set.mem_ofPred_eq, List.mem_cons, List.not_mem_nil, or_false, forall_eq_or_imp, forall_eq, vec2_dotProduct]
    simp [neg_le]
  have hb : Bornology.IsBounded (domSet lineDomain.aug) := by
    refine (Metric.isBounded_closedBall (x := (0 : Lip.Pt 2)) (r := 1)).subset fun z hz => ?_
    rw [mem_closedBall_zero_iff, pi_norm_le_iff_of_nonneg zero_le_one]
    obtain ⟨h1, h2, h3, h4⟩ := (hdom z).1 hz
    intro i
    fin_cases i
    · exact abs_le.2 ⟨h2, h1⟩
    · exact abs_le.2 ⟨h4, h3⟩
  have hst : StrictlyIn (augRows lineDomain.aug) (0 : Lip.Pt 2) := by
    intro r hr
    simp only [augRows, lineDomain, List.map_cons, List.map_nil, List.mem_cons, List.not_mem_nil, or_false] at hr
    rcases hr with rfl | rfl | rfl | rfl <;> simp
  obtain ⟨V, hV⟩ := hh.complete _ _ hst (by rw [← domSet_poly]; exact hb)
  have hvor : voronoiVertex hsi center lineDomain none [0] = .ok V := by
    unfold voronoiVertex
    rw [if_neg (by simp [lineDomain])]
    simp only [hV]
  have hcorner : (![1, 1] : Lip.Pt 2) ∈ domSet lineDomain.aug := (hdom _).2 (by norm_num)
  obtain ⟨v, ⟨x, hx, hv⟩, hle⟩ := vertex_dominates lineDomain.aug hb (1 : Matrix (Fin 2) (Fin 2) ℝ) (Xhat := [0]) (by simp) hcorner
  rw [List.mem_singleton.1 hx, cellSet_single, domSet_poly, ← (hh.vertices _ _ _ hV).2] at hv
  have hne : V ≠ [] := List.ne_nil_of_mem hv
  refine ⟨fillOver (1 : Matrix (Fin 2) (Fin 2) ℝ) [0] V, ?_, ?_, ?_⟩
  · unfold fillDistance
    rw [hvor]
    cases V with
    | nil => exact absurd rfl hne
    | cons v V => rfl
  · refine le_trans ?_ (hle.trans (fillOver_le 1 [0] hv))
    obtain ⟨x, hx, e⟩ := nearest_mem (1 : Matrix (Fin 2) (Fin 2) ℝ) (X := [0]) (by simp) ![1, 1]
    rw [e, List.mem_singleton.1 hx, Lip.ldist, Matrix.one_mulVec, Matrix.one_mulVec, zero_sub, Lip.nrm_neg, Lip.nrm]
    apply Real.sqrt_le_sqrt
    norm_num [vec2_dotProduct]
  · rintro z ⟨h1, h2, h3⟩
    rw [sub_zero, Lip.nrm, vec2_dotProduct, h3]
    refine Real.sqrt_le_one.2 ?_
    nlinarith

/-- Non-vacuity of `fillDistance_exact` and `fillDistance_ok`: the square `[-1,1]²` with samples `(-1/2,0)` and `(1/2,0)`; the vertices are the
corners of the two halves. -/
example : ∃ (D : VDomain 2) (Xhat : List (Lip.Pt 2)) (z0 : Lip.Pt 2), domSet D.aug ⊆ {x | D.inside x} ∧ Bornology.IsBounded (domSet D.aug) ∧
    VertexSeparated D.aug (1 : Matrix (Fin 2) (Fin 2) ℝ) Xhat ∧ (∀ r ∈ D.aug, r.1 ⬝ᵥ z0 < r.2) ∧ (∀ x ∈ Xhat, x ∈ domSet D.aug) ∧ 2 ≤ Xhat.length := by
  set aug : List (Lip.Pt 2 × ℝ) := [(![1, 0], 1), (![-1, 0], 1), (![0, 1], 1), (![0, -1], 1)] with haug
  have hdom : ∀ z : Lip.Pt 2, z ∈ domSet aug ↔ z 0 ≤ 1 ∧ -1 ≤ z 0 ∧ z 1 ≤ 1 ∧ -1 ≤ z 1 := by
    intro z
    simp only [domSet, haug, Set.mem_ofPred_eq, List.mem_cons, List.not_mem_nil, or_false, forall_eq_or_imp, forall_eq, vec2_dotProduct]
    simp [neg_le]
  have hb : Bornology.IsBounded (domSet aug) := by
    refine (Metric.isBounded_closedBall (x := (0 : Lip.Pt 2)) (r := 1)).subset fun z hz => ?_
    rw [mem_closedBall_zero_iff, pi_norm_le_iff_of_nonneg zero_le_one]
    obtain ⟨h1, h2, h3, h4⟩ := (hdom z).1 hz
    intro i
    fin_cases i
    · exact abs_le.2 ⟨h2, h1⟩
    · exact abs_le.2 ⟨h4, h3⟩
  set Xhat : List (Lip.Pt 2) := [![-1 / 2, 0], ![1 / 2, 0]] with hXhat
  have hcell : ∀ x ∈ Xhat, ∀ z : Lip.Pt 2, z ∈ cellSet aug (1 : Matrix (Fin 2) (Fin 2) ℝ) Xhat x ↔
      z 0 ≤ 1 ∧ -1 ≤ z 0 ∧ z 1 ≤ 1 ∧ -1 ≤ z 1 ∧ 0 ≤ x 0 * z 0 := by
    intro x hx z
    simp only [cellSet, Set.mem_ofPred_eq, hdom, hXhat, List.mem_cons, List.not_mem_nil, or_false, forall_eq_or_imp, forall_eq, nearer_iff,
      Matrix.one_mulVec, vec2_dotProduct] at hx ⊢
    rcases hx with rfl | rfl <;> simp <;> norm_num <;> constructor <;> intro h <;>
      simp only [and_assoc] at h ⊢ <;> exact ⟨h.1, h.2.1, h.2.2.1, h.2.2.2.1, by linarith [h.2.2.2.2]⟩
  have hvert : ∀ v, IsVoronoiVertex aug (1 : Matrix (Fin 2) (Fin 2) ℝ) Xhat v → (v 0 = -1 ∨ v 0 = 0 ∨ v 0 = 1) ∧ (v 1 = -1 ∨ v 1 = 1) := by
    rintro v ⟨x, hx, hv⟩
    have hv1 := hv.1
    have hext := (mem_extremePoints.1 hv).2
    rw [hcell x hx] at hv1
    obtain ⟨h1, h2, h3, h4, h5⟩ := hv1
    have move : ∀ e : Lip.Pt 2, v + e ∈ cellSet aug (1 : Matrix (Fin 2) (Fin 2) ℝ) Xhat x → v - e ∈ cellSet aug (1 : Matrix (Fin 2) (Fin 2) ℝ) Xhat x →
        e = 0 := by
      intro e h h'
      have := (hext _ h _ h' ⟨1 / 2, 1 / 2, by norm_num, by norm_num, by norm_num, by
        funext i; simp only [Pi.add_apply, Pi.smul_apply, Pi.sub_apply, smul_eq_mul]; ring⟩).1
      simpa using this
    have hx0 : x 0 = -1 / 2 ∨ x 0 = 1 / 2 := by
      rw [hXhat] at hx
      rcases List.mem_cons.1 hx with rfl | hx
      · left; rfl
      · right; rw [List.mem_singleton.1 hx]; rfl
    constructor
    · by_contra hn
      push Not at hn
      obtain ⟨n1, n2, n3⟩ := hn
      set t := min (1 - |v 0|) |v 0| with ht
      have habs : |v 0| < 1 := abs_lt.2 ⟨lt_of_le_of_ne h2 (Ne.symm n1), lt_of_le_of_ne h1 n3⟩
      have htpos : 0 < t := lt_min (by linarith) (abs_pos.2 n2)
      have ht1 : t ≤ 1 - |v 0| := min_le_left _ _
      have ht2 : t ≤ |v 0| := min_le_right _ _
      have hz := move ![t, 0] ((hcell x hx _).2 ?_) ((hcell x hx _).2 ?_)
      · have := congrFun hz 0
        simp at this
        exact htpos.ne' this
      · simp only [Pi.add_apply, Matrix.cons_val_zero, Matrix.cons_val_one, add_zero]
        rcases hx0 with e | e <;> rw [e] at h5 ⊢ <;> rcases abs_cases (v 0) with ⟨ha, _⟩ | ⟨ha, _⟩ <;> rw [ha] at ht1 ht2 <;>
          exact ⟨by linarith, by linarith, h3, h4, by nlinarith⟩
      · simp only [Pi.sub_apply, Matrix.cons_val_zero, Matrix.cons_val_one, sub_zero]
        rcases hx0 with e | e <;> rw [e] at h5 ⊢ <;> rcases abs_cases (v 0) with ⟨ha, _⟩ | ⟨ha, _⟩ <;> rw [ha] at ht1 ht2 <;>
          exact ⟨by linarith, by linarith, h3, h4, by nlinarith⟩
    · by_contra hn
      push Not at hn
      obtain ⟨n1, n2⟩ := hn
      set t := 1 - |v 1| with ht
      have habs : |v 1| < 1 := abs_lt.2 ⟨lt_of_le_of_ne h4 (Ne.symm n1), lt_of_le_of_ne h3 n2⟩
      have htpos : 0 < t := by linarith
      have l1 := le_abs_self (v 1)
      have l2 := neg_abs_le (v 1)
      have hz := move ![0, t] ((hcell x hx _).2 ?_) ((hcell x hx _).2 ?_)
      · have := congrFun hz 1
        simp at this
        exact htpos.ne' this
      · simp only [Pi.add_apply, Matrix.cons_val_zero, Matrix.cons_val_one, add_zero]
        exact ⟨h1, h2, by linarith, by linarith, h5⟩
      · simp only [Pi.sub_apply, Matrix.cons_val_zero, Matrix.cons_val_one, sub_zero]
        exact ⟨h1, h2, by linarith, by linarith, h5⟩
  refine ⟨⟨aug, fun z => z ∈ domSet aug⟩, Xhat, 0, fun z hz => hz, hb, ?_, ?_, ?_, by simp [hXhat]⟩
  · intro u v hu hv hne
    obtain ⟨a1, a2⟩ := hvert u hu
    obtain ⟨b1, b2⟩ := hvert v hv
    have hge : 1 ≤ Lip.nrm (u - v) := by
      rw [Lip.nrm, Real.one_le_sqrt, vec2_dotProduct]
      simp only [Pi.sub_apply]
      by_contra hlt
      apply hne
      have e0 : u 0 = v 0 := by
        rcases a1 with h | h | h <;> rcases b1 with h' | h' | h' <;> first | exact h.trans h'.symm | (exfalso; apply hlt; rw [h, h']; nlinarith [mul_self_nonneg (u 1 - v 1)])
      have e1 : u 1 = v 1 := by
        rcases a2 with h | h <;> rcases b2 with h' | h' <;> first | exact h.trans h'.symm | (exfalso; apply hlt; rw [h, h']; nlinarith [mul_self_nonneg (u 0 - v 0)])
      funext i
      fin_cases i
      · exact e0
      · exact e1
    have : atol < 1 := by unfold atol; norm_num
    linarith
  · simp [haug]
  · intro x hx
    rw [hdom]
    rw [hXhat] at hx
    rcases List.mem_cons.1 hx with rfl | hx
    · norm_num
    · rw [List.mem_singleton.1 hx]; norm_num

end Verif.Geo
