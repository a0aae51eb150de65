import Verif.Domain.SolverProps
import Verif.Domain.HitUniform
import Verif.Domain.HullExists
import Verif.Domain.PointQueryProps

/-!
# Closest points exist, are unique, and do not move more than the points they are closest to (C179)
-/

namespace Verif.Domain

open Set

/-! ## Geometry of nearest points -/

/-- `x` is a point of the domain nearest to `x0`, distances measured after multiplication with `L`. -/
def IsNearest (D : Dom) (L : List Vec) (x0 x : Vec) : Prop :=
  D.Holds x ∧ ∀ y, D.Holds y → Vec.norm (Vec.mulVec L (Vec.sub x x0)) ≤ Vec.norm (Vec.mulVec L (Vec.sub y x0))

theorem sumSq_sub {a b : Vec} (h : a.length = b.length) : Vec.sumSq (Vec.sub a b) = Vec.dot a a - 2 * Vec.dot a b + Vec.dot b b := by
  induction a generalizing b with
  | nil => simp at h; simp [List.eq_nil_of_length_eq_zero h.symm]
  | cons x a ih =>
    cases b with
    | nil => simp at h
    | cons y b =>
      simp only [Vec.sub_cons, Vec.sumSq_cons, Vec.dot_cons, ih (by simpa using h)]
      ring

theorem mulVec_lerp (L : List Vec) {x y : Vec} (h : x.length = y.length) (t : ℝ) :
    Vec.mulVec L (Vec.lerp t x y) = Vec.lerp t (Vec.mulVec L x) (Vec.mulVec L y) := by
  unfold Vec.lerp
  rw [mulVec_add _ _ _ (by simp [h])]
  have hs : ∀ (c : ℝ) (v : Vec), Vec.mulVec L (Vec.smul c v) = Vec.smul c (Vec.mulVec L v) := by
    intro c v
    simp only [Vec.mulVec, Vec.dot_smul_right]
    simp [Vec.smul]
  rw [hs, hs]

theorem dot_lerp (a : Vec) {x y : Vec} (h : x.length = y.length) (t : ℝ) : Vec.dot a (Vec.lerp t x y) = (1 - t) * Vec.dot a x + t * Vec.dot a y := by
  unfold Vec.lerp
  rw [Vec.dot_add_right _ _ _ (by simp [h]), Vec.dot_smul_right, Vec.dot_smul_right]

/-- The obtuse angle condition. -/
theorem nearest_angle {D : Dom} {L : List Vec} {x0 x y : Vec} (h0 : x0.length = D.len) (h : IsNearest D L x0 x) (hy : D.Holds y) :
    0 ≤ Vec.dot (Vec.mulVec L x) (Vec.mulVec L y) - Vec.dot (Vec.mulVec L x) (Vec.mulVec L x) - Vec.dot (Vec.mulVec L x0) (Vec.mulVec L y)
      + Vec.dot (Vec.mulVec L x0) (Vec.mulVec L x) := by
  have hxl := dom_holds_length h.1
  have hyl := dom_holds_length hy
  set P := Vec.mulVec L x with hP
  set Q := Vec.mulVec L y with hQ
  set P0 := Vec.mulVec L x0 with hP0
  have lP : P.length = L.length := Vec.length_mulVec _ _
  have lQ : Q.length = L.length := Vec.length_mulVec _ _
  have lP0 : P0.length = L.length := Vec.length_mulVec _ _
  have key : ∀ t : ℝ, 0 < t → t ≤ 1 → 0 ≤ 2 * (Vec.dot P Q - Vec.dot P P - Vec.dot P0 Q + Vec.dot P0 P) + t * Vec.sumSq (Vec.sub Q P) := by
    intro t ht ht1
    have hc := dom_holds_convex h.1 hy ht.le ht1
    have hlen := dom_holds_length hc
    have := h.2 _ hc
    rw [mulVec_sub _ _ _ (by omega), mulVec_sub _ _ _ (by omega), mulVec_lerp _ (by omega), ← hP, ← hQ, ← hP0] at this
    have h2 := (sq_le_sq₀ (Vec.norm_nonneg _) (Vec.norm_nonneg _)).2 this
    have lC : (Vec.lerp t P Q).length = L.length := by simp [Vec.lerp, Vec.length_add, lP, lQ]
    rw [Vec.norm, Vec.norm, Real.sq_sqrt (Vec.sumSq_nonneg _), Real.sq_sqrt (Vec.sumSq_nonneg _), sumSq_sub (by omega), sumSq_sub (by omega),
      dot_lerp _ (by omega), Vec.dot_comm (Vec.lerp t P Q) P, Vec.dot_comm (Vec.lerp t P Q) Q, Vec.dot_comm (Vec.lerp t P Q) P0, dot_lerp _ (by omega), dot_lerp _ (by omega),
      dot_lerp _ (by omega), Vec.dot_comm Q P, Vec.dot_comm P P0] at h2
    have h3 : Vec.sumSq (Vec.sub Q P) = Vec.dot Q Q - 2 * Vec.dot P Q + Vec.dot P P := by rw [sumSq_sub (by omega), Vec.dot_comm Q P]
    rw [h3]
    have h4 : 0 ≤ t * (2 * (Vec.dot P Q - Vec.dot P P - Vec.dot P0 Q + Vec.dot P0 P) + t * (Vec.dot Q Q - 2 * Vec.dot P Q + Vec.dot P P)) := by nlinarith
    exact nonneg_of_mul_nonneg_right h4 ht
  by_contra hc
  push Not at hc
  set V := Vec.dot P Q - Vec.dot P P - Vec.dot P0 Q + Vec.dot P0 P with hV
  have hS := Vec.sumSq_nonneg (Vec.sub Q P)
  set S := Vec.sumSq (Vec.sub Q P) with hSdef
  have hpos : 0 < min 1 (-V / (S + 1)) := lt_min one_pos (div_pos (by linarith) (by linarith))
  have h1 := key _ hpos (min_le_left _ _)
  have h2 : min 1 (-V / (S + 1)) * S ≤ -V := by
    calc min 1 (-V / (S + 1)) * S ≤ -V / (S + 1) * (S + 1) := by
          refine mul_le_mul (min_le_right _ _) (by linarith) hS (div_nonneg (by linarith) (by linarith))
      _ = -V := div_mul_cancel₀ _ (by linarith)
  linarith

/-- **C179**: nearest points are at most as far apart as the points they are nearest to. -/
theorem nearest_nonexpansive {D : Dom} {L : List Vec} {x0 y0 x y : Vec} (hx0 : x0.length = D.len) (hy0 : y0.length = D.len) (hx : IsNearest D L x0 x)
    (hy : IsNearest D L y0 y) : Vec.norm (Vec.mulVec L (Vec.sub x y)) ≤ Vec.norm (Vec.mulVec L (Vec.sub x0 y0)) := by
  have h1 := nearest_angle hx0 hx hy.1
  have h2 := nearest_angle hy0 hy hx.1
  have hxl := dom_holds_length hx.1
  have hyl := dom_holds_length hy.1
  rw [mulVec_sub _ _ _ (by omega), mulVec_sub _ _ _ (by omega)]
  set P := Vec.mulVec L x with hP
  set Q := Vec.mulVec L y with hQ
  set P0 := Vec.mulVec L x0 with hP0
  set Q0 := Vec.mulVec L y0 with hQ0
  have lP : P.length = L.length := Vec.length_mulVec _ _
  have lQ : Q.length = L.length := Vec.length_mulVec _ _
  have lP0 : P0.length = L.length := Vec.length_mulVec _ _
  have lQ0 : Q0.length = L.length := Vec.length_mulVec _ _
  have hcs := Vec.dot_sq_le (Vec.sub P Q) (Vec.sub P0 Q0)
  have hd : Vec.dot (Vec.sub P Q) (Vec.sub P0 Q0) = Vec.dot P0 P - Vec.dot P0 Q - Vec.dot Q0 P + Vec.dot Q0 Q := by
    rw [Vec.dot_sub_right _ _ _ (by omega), Vec.dot_comm _ P0, Vec.dot_comm _ Q0, Vec.dot_sub_right _ _ _ (by omega), Vec.dot_sub_right _ _ _ (by omega)]
    ring
  have hs := sumSq_sub (a := P) (b := Q) (by omega)
  rw [Vec.dot_comm Q P] at h2
  have hle : Vec.sumSq (Vec.sub P Q) ≤ Vec.dot (Vec.sub P Q) (Vec.sub P0 Q0) := by rw [hs, hd]; linarith
  unfold Vec.norm
  apply Real.sqrt_le_sqrt
  have n1 := Vec.sumSq_nonneg (Vec.sub P Q)
  have n2 := Vec.sumSq_nonneg (Vec.sub P0 Q0)
  rcases n1.eq_or_lt with e | hpos
  · rw [← e]; exact n2
  · have : Vec.sumSq (Vec.sub P Q) * Vec.sumSq (Vec.sub P Q) ≤ Vec.sumSq (Vec.sub P Q) * Vec.sumSq (Vec.sub P0 Q0) := by
      refine le_trans ?_ hcs
      rw [sq]
      exact mul_le_mul hle hle n1 (n1.trans hle)
    exact le_of_mul_le_mul_left this hpos

/-- Nearest points agree in the coordinates that `L` sees. -/
theorem nearest_unique {D : Dom} {L : List Vec} {x0 x y : Vec} (hx0 : x0.length = D.len) (hx : IsNearest D L x0 x) (hy : IsNearest D L x0 y) :
    Vec.norm (Vec.mulVec L (Vec.sub x y)) = 0 := by
  refine le_antisymm ((nearest_nonexpansive hx0 hx0 hx hy).trans ?_) (Vec.norm_nonneg _)
  rw [mulVec_sub _ _ _ rfl, Vec.norm, sumSq_sub rfl]
  simp [show Vec.dot (Vec.mulVec L x0) (Vec.mulVec L x0) - 2 * Vec.dot (Vec.mulVec L x0) (Vec.mulVec L x0) + Vec.dot (Vec.mulVec L x0) (Vec.mulVec L x0) = 0 by ring]

theorem sumSq_sub_zero {a b : Vec} (h : a.length = b.length) (hz : Vec.sumSq (Vec.sub a b) = 0) : a = b := by
  induction a generalizing b with
  | nil => simp at h; exact (List.eq_nil_of_length_eq_zero h.symm).symm
  | cons x a ih =>
    cases b with
    | nil => simp at h
    | cons y b =>
      simp only [Vec.sub_cons, Vec.sumSq_cons] at hz
      have h1 := Vec.sumSq_nonneg (Vec.sub a b)
      have h2 : (x - y) ^ 2 = 0 := by nlinarith [sq_nonneg (x - y)]
      rw [ih (by simpa using h) (by nlinarith [sq_nonneg (x - y)]), sub_eq_zero.1 (pow_eq_zero_iff (two_ne_zero) |>.1 h2)]

/-- In the Euclidean norm there is only one nearest point. -/
theorem nearest_unique_eye {D : Dom} {x0 x y : Vec} (hx0 : x0.length = D.len) (hx : IsNearest D (eyeRows D.len) x0 x) (hy : IsNearest D (eyeRows D.len) x0 y) : x = y := by
  have h := nearest_unique hx0 hx hy
  have hxl := dom_holds_length hx.1
  have hyl := dom_holds_length hy.1
  rw [mulVec_eye _ _ (by rw [Vec.length_sub]; omega), Vec.norm, Real.sqrt_eq_zero (Vec.sumSq_nonneg _)] at h
  exact sumSq_sub_zero (by omega) h

/-! ## Domains are closed -/

theorem hull_closed {n : ℕ} {X : List Vec} (hX : ∀ r ∈ X, r.length = n) : IsClosed {x : Fin n → ℝ | InHull n X (List.ofFn x)} := by
  have e : {x : Fin n → ℝ | InHull n X (List.ofFn x)} = Prod.snd '' {q : stdSimplex ℝ (Fin X.length) × (Fin n → ℝ) |
      ∀ i : Fin n, ∑ j : Fin X.length, q.1.1 j * X[j].getD i 0 = q.2 i} := by
    ext x
    have hg : ∀ i : Fin n, (List.ofFn x).getD i 0 = x i := fun i => by simp
    constructor
    · intro h
      obtain ⟨w, hw, hw'⟩ := (inHull_iff_simplex hX (by simp)).1 h
      exact ⟨(⟨w, hw⟩, x), fun i => (hw' i i.2).trans (hg i), rfl⟩
    · rintro ⟨⟨⟨w, hw⟩, s⟩, h, rfl⟩
      exact (inHull_iff_simplex hX (by simp)).2 ⟨w, hw, fun i hi => by rw [hg ⟨i, hi⟩]; exact h ⟨i, hi⟩⟩
  rw [e]
  apply isClosedMap_snd_of_compactSpace
  simp only [Set.setOf_forall]
  refine isClosed_iInter fun i => isClosed_eq ?_ ?_
  · refine continuous_finsetSum _ fun j _ => ?_
    exact ((continuous_apply j).comp (continuous_subtype_val.comp continuous_fst)).mul continuous_const
  · exact (continuous_apply i).comp continuous_snd

theorem base_acc_n (d : Base) : d.acc.n = d.len := by
  cases d <;> first | rfl | simp [Base.acc, Base.len]

theorem base_closed {d : Base} (hw : d.WF) {n : ℕ} (hn : n = d.len) : IsClosed {x : Fin n → ℝ | d.Holds (List.ofFn x)} := by
  have h1 := base_wf_acc hw
  obtain rfl : n = d.acc.n := hn.trans (base_acc_n d).symm
  have e : {x : Fin d.acc.n → ℝ | d.Holds (List.ofFn x)} = {x : Fin d.acc.n → ℝ | d.acc.Holds (List.ofFn x)} ∩
      {x | ∀ X q, d = .hull X q → InHull q.n X (List.ofFn x)} := by
    ext x
    exact ⟨fun h => h.2, fun h => ⟨by simp [hn], h.1, h.2⟩⟩
  rw [e]
  refine (lq_closed h1).inter ?_
  cases d with
  | hull X q =>
    have : {x : Fin (Base.hull X q).acc.n → ℝ | ∀ X' q', Base.hull X q = .hull X' q' → InHull q'.n X' (List.ofFn x)} = {x | InHull q.n X (List.ofFn x)} := by
      ext x
      exact ⟨fun h => h X q rfl, fun h X' q' e => by cases e; exact h⟩
    rw [this]
    exact hull_closed hw.2.2
  | _ =>
    convert isClosed_univ
    rw [Set.eq_univ_iff_forall]
    intro x X q e
    cases e

theorem tensor_holds_slices {ds : List Base} {x : Vec} (hx : x.length = (Dom.tensor ds).len) :
    (Dom.tensor ds).Holds x ↔ ∀ q ∈ slicesFrom 0 ds x, q.1.Holds q.2 := by
  constructor
  · rintro ⟨xs, rfl, h⟩
    have hp : Pieces ds xs := h.imp fun _ _ h => h.1
    have e := slicesFrom_eq ds xs [] hp
    simp only [List.length_nil, List.nil_append] at e
    rw [e]
    intro q hq
    exact (List.forall₂_iff_zip.1 h).2 hq
  · obtain ⟨xs, hp, rfl⟩ := pieces_exist ds x hx
    have e := slicesFrom_eq ds xs [] hp
    simp only [List.length_nil, List.nil_append] at e
    rw [e]
    intro h
    exact ⟨xs, rfl, List.forall₂_iff_zip.2 ⟨hp.length_eq, fun {a b} hab => h (a, b) hab⟩⟩

theorem slices_closed {n : ℕ} (ds : List Base) (hw : ∀ d ∈ ds, d.WF) (s : ℕ) (hs : s + (ds.map Base.len).sum ≤ n) :
    IsClosed {x : Fin n → ℝ | ∀ q ∈ slicesFrom s ds (List.ofFn x), q.1.Holds q.2} := by
  induction ds generalizing s with
  | nil => simp [slicesFrom]
  | cons d ds ih =>
    simp only [List.map_cons, List.sum_cons] at hs
    have e : {x : Fin n → ℝ | ∀ q ∈ slicesFrom s (d :: ds) (List.ofFn x), q.1.Holds q.2} =
        (fun (x : Fin n → ℝ) (i : Fin d.len) => x ⟨s + i, by omega⟩) ⁻¹' {z : Fin d.len → ℝ | d.Holds (List.ofFn z)} ∩
          {x : Fin n → ℝ | ∀ q ∈ slicesFrom (s + d.len) ds (List.ofFn x), q.1.Holds q.2} := by
      ext x
      have : ((List.ofFn x).drop s).take d.len = List.ofFn fun i : Fin d.len => x ⟨s + i, by omega⟩ := by
        apply List.ext_getElem
        · simp; omega
        · intro i h1 h2
          simp
      simp only [slicesFrom, List.mem_cons, forall_eq_or_imp, Set.mem_setOf_eq, this, Set.mem_inter_iff, Set.mem_preimage]
    rw [e]
    refine IsClosed.inter (IsClosed.preimage ?_ (base_closed (hw d (by simp)) rfl)) (ih (fun d hd => hw d (by simp [hd])) _ (by omega))
    exact continuous_pi fun i => continuous_apply _

/-- The set of every well-formed domain is closed. -/
theorem pts_closed {D : Dom} (hw : D.WF) : IsClosed D.pts := by
  cases D with
  | base d => exact base_closed hw rfl
  | tensor ds =>
    have e : (Dom.tensor ds).pts = {x | ∀ q ∈ slicesFrom 0 ds (List.ofFn x), q.1.Holds q.2} := by
      ext x
      exact tensor_holds_slices (by simp)
    rw [e]
    exact slices_closed ds hw.2 0 (by simp [Dom.len])

end Verif.Domain
