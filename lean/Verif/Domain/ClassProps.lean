import Verif.Domain.ClassModel
import Verif.Domain.VolumeProps

/-!
# C138: the class tests of domains
-/

namespace Verif.Domain

open Classical Verif

/-! ## Specification -/

/-- The point meets the bounds. -/
def LQ.MeetsBounds (q : LQ) (x : Vec) : Prop :=
  (∀ (i : ℕ) (r xi : ℝ), q.lb[i]? = some (XR.fin r) → x[i]? = some xi → r ≤ xi) ∧
  (∀ (i : ℕ) (r xi : ℝ), q.ub[i]? = some (XR.fin r) → x[i]? = some xi → xi ≤ r)

/-- The point meets the linear inequality and equality constraints. -/
def LQ.MeetsLinear (q : LQ) (x : Vec) : Prop :=
  (∀ (i : ℕ) (row : Vec) (bi : ℝ), q.A[i]? = some row → q.b[i]? = some bi → Vec.dot row x ≤ bi) ∧
  (∀ (i : ℕ) (row : Vec) (bi : ℝ), q.Aeq[i]? = some row → q.beq[i]? = some bi → Vec.dot row x = bi)

/-- The point meets the quadratic constraints. -/
def LQ.MeetsQuad (q : LQ) (x : Vec) : Prop :=
  ∀ (i : ℕ) (L : List Vec) (y : Vec) (rho : ℝ), q.Ls[i]? = some L → q.ys[i]? = some y →
    q.rhos[i]? = some rho → Vec.norm (Vec.mulVec L (Vec.sub x y)) ≤ rho

/-- No factor of the domain is a convex hull. -/
def Dom.HullFree (D : Dom) : Prop :=
  match D with
  | .base d => ∀ X q, d ≠ .hull X q
  | .tensor ds => ∀ d ∈ ds, ∀ X q, d ≠ .hull X q

/-! ## Lemmas -/

theorem lq_holds_split (q : LQ) (x : Vec) : q.Holds x ↔ q.MeetsBounds x ∧ q.MeetsLinear x ∧ q.MeetsQuad x :=
  ⟨fun h => ⟨⟨h.lb, h.ub⟩, ⟨h.ineq, h.eq⟩, h.quad⟩, fun ⟨⟨a, b⟩, ⟨c, d⟩, e⟩ => ⟨a, b, c, d, e⟩⟩

theorem le_of_forall_tol {a b : ℝ} (h : ∀ tol > 0, a ≤ b + tol) : a ≤ b := le_of_forall_pos_le_add h

theorem holds_iff_forall_tol (q : LQ) (x : Vec) : q.Holds x ↔ ∀ tol > 0, q.inAll tol x := by
  refine ⟨fun h tol ht => holds_inAll h ht, fun h => ?_⟩
  rw [holds_iff]
  refine ⟨⟨fun p hp r hr => ?_, fun p hp r hr => ?_⟩, fun p hp => ?_, fun tol ht => (h tol ht).2.2.1, fun p hp => ?_⟩
  · have := le_of_forall_tol fun tol ht => sub_le_iff_le_add.1 ((h tol ht).1.1 p hp r hr)
    simpa using this
  · have := le_of_forall_tol fun tol ht => (h tol ht).1.2 p hp r hr
    simpa using this
  · have := le_of_forall_tol fun tol ht => (h tol ht).2.1 p hp
    simpa using this
  · have := le_of_forall_tol fun tol ht => (h tol ht).2.2.2 p hp
    simpa using this

theorem forall₂_forall_tol {R : ℝ → Base → Vec → Prop} {ds : List Base} {xs : List Vec} (hl : ds.length = xs.length) :
    (∀ tol > 0, List.Forall₂ (R tol) ds xs) ↔ List.Forall₂ (fun d x => ∀ tol > 0, R tol d x) ds xs := by
  induction ds generalizing xs with
  | nil =>
    cases xs with
    | nil => exact ⟨fun _ => .nil, fun _ _ _ => .nil⟩
    | cons _ _ => simp at hl
  | cons d ds ih =>
    cases xs with
    | nil => simp at hl
    | cons x xs =>
      have ih' := ih (xs := xs) (by simpa using hl)
      simp only [List.forall₂_cons]
      rw [← ih']
      exact ⟨fun h => ⟨fun t ht => (h t ht).1, fun t ht => (h t ht).2⟩, fun h t ht => ⟨h.1 t ht, h.2 t ht⟩⟩

theorem base_holds_nohull {d : Base} (hn : ∀ X q, d ≠ .hull X q) (x : Vec) : d.Holds x ↔ x.length = d.len ∧ d.acc.Holds x :=
  ⟨fun h => ⟨h.1, h.2.1⟩, fun h => ⟨h.1, h.2, fun X q e => absurd e (hn X q)⟩⟩

theorem pieces_unique {ds : List Base} {xs ys : List Vec} (hx : Pieces ds xs) (hy : Pieces ds ys) (e : xs.flatten = ys.flatten) : xs = ys := by
  unfold Pieces at hx hy
  induction hx generalizing ys with
  | nil => cases hy; rfl
  | cons h _ ih =>
    cases hy with
    | cons h' hy' =>
      rw [List.flatten_cons, List.flatten_cons] at e
      obtain ⟨e1, e2⟩ := List.append_inj e (h.trans h'.symm)
      rw [e1, ih hy' e2]

theorem tensor_linear_holds {ds : List Base} (hw : (Dom.tensor ds).WF) (hL : ∀ d ∈ ds, d.acc.Ls = []) (hn : ∀ d ∈ ds, ∀ X q, d ≠ .hull X q)
    (x : Vec) : (Dom.tensor ds).Holds x ↔ x.length = (Dom.tensor ds).len ∧ (Dom.tensor ds).acc.Holds x := by
  have fac : ∀ xs : List Vec, Pieces ds xs → (List.Forall₂ Base.Holds ds xs ↔ (Dom.tensor ds).acc.Holds xs.flatten) := by
    intro xs hp
    rw [holds_iff_forall_tol]
    have e : (∀ tol > 0, (Dom.tensor ds).acc.inAll tol xs.flatten) ↔ ∀ tol > 0, List.Forall₂ (fun d x => inBounds d.acc.lb d.acc.ub tol x ∧
        inIneq d.acc.A d.acc.b tol x ∧ inEq d.acc.Aeq d.acc.beq tol x) ds xs :=
      forall₂_congr fun tol _ => tensor_acc_inAll tol hp fun b hb => base_wf_acc (hw.2 b hb)
    rw [e, forall₂_forall_tol (R := fun tol d x => inBounds d.acc.lb d.acc.ub tol x ∧
        inIneq d.acc.A d.acc.b tol x ∧ inEq d.acc.Aeq d.acc.beq tol x) hp.length_eq]
    have hp' : List.Forall₂ (fun (d : Base) (x : Vec) => x.length = d.len) ds xs := hp
    have e2 : List.Forall₂ Base.Holds ds xs ↔ List.Forall₂ (fun d x => x.length = d.len ∧ d.acc.Holds x) ds xs :=
      forall₂_congr_mem fun d hd y _ => base_holds_nohull (hn d hd) y
    rw [e2, ← forall₂_and, and_iff_right hp']
    refine forall₂_congr_mem fun d hd y _ => ?_
    rw [holds_iff_forall_tol]
    refine forall₂_congr fun tol _ => ?_
    unfold LQ.inAll
    rw [hL d hd]
    have := inQuad_nil d.acc.ys d.acc.rhos tol y
    tauto
  constructor
  · intro h
    refine ⟨dom_holds_length h, ?_⟩
    obtain ⟨xs, rfl, hxs⟩ := h
    exact (fac xs (hxs.imp fun d y hd => hd.1)).1 hxs
  · rintro ⟨hl, h⟩
    obtain ⟨xs, hp, rfl⟩ := pieces_exist ds x hl
    exact ⟨xs, rfl, (fac xs hp).2 h⟩

/-! ## Theorems -/

/-- C138: the tests are nested. -/
theorem class_chain (D : Dom) : (D.isBox → D.isLinineq) ∧ (D.isLinineq → D.isLinquad) := by
  have hb : ∀ d : Base, d.isBox → d.isLinineq := by
    intro d h
    cases d <;> first | exact h.1 | exact h.elim
  cases D with
  | base d => exact ⟨hb d, fun _ => trivial⟩
  | tensor ds => exact ⟨fun h d hd => hb d (h d hd), fun _ _ _ => trivial⟩

/-- C138: every domain answers True to the first test, so that closest points, corners, constrained least squares
and random directions never refuse a domain for its class. -/
theorem class_guard (D : Dom) : D.isLinquad ∧ D.guardLinquad = .ok () := by
  have h : D.isLinquad := by cases D <;> [trivial; exact fun _ _ => trivial]
  exact ⟨h, if_pos h⟩

/-- C138: a domain answering True to `is_box_domain` is exactly the set of points between its bounds. -/
theorem class_box {D : Dom} (hw : D.WF) (h : D.isBox) (x : Vec) : D.Holds x ↔ x.length = D.len ∧ D.acc.MeetsBounds x := by
  rw [dom_box_holds h hw, inBounds_iff]
  simp only [sub_zero, add_zero]
  rfl

/-- C138: a domain without convex hulls answers True to `is_box_domain` exactly if no factor has constraints besides bounds. -/
theorem class_box_iff {D : Dom} (hn : D.HullFree) : D.isBox ↔
    ∀ d ∈ (match D with | .base d => [d] | .tensor ds => ds), d.acc.Ls = [] ∧ d.acc.b = [] ∧ d.acc.beq = [] := by
  have hb : ∀ d : Base, (∀ X q, d ≠ .hull X q) → (d.isBox ↔ d.acc.Ls = [] ∧ d.acc.b = [] ∧ d.acc.beq = []) := by
    intro d hd
    cases d <;> first | exact Iff.rfl | exact absurd rfl (hd _ _)
  cases D with
  | base d => simpa [Dom.isBox] using hb d hn
  | tensor ds => exact forall₂_congr fun d hd => hb d (hn d hd)

/-- C138: a domain without convex hulls answering True to `is_linineq_domain` is exactly the set of points meeting
the exported bounds and linear constraints. -/
theorem class_linineq_partial {D : Dom} (hw : D.WF) (hn : D.HullFree) (h : D.isLinineq) (x : Vec) :
    D.Holds x ↔ x.length = D.len ∧ D.acc.MeetsBounds x ∧ D.acc.MeetsLinear x := by
  have key : D.Holds x ↔ x.length = D.len ∧ D.acc.Holds x := by
    cases D with
    | base d => exact base_holds_nohull hn x
    | tensor ds => exact tensor_linear_holds hw h hn x
  have hQ : D.acc.MeetsQuad x := by
    have : D.acc.Ls = [] := by
      cases D with
      | base d => exact h
      | tensor ds => rfl
    intro i L y rho hL
    rw [this] at hL
    simp at hL
  rw [key, lq_holds_split]
  tauto

/-- C138: a domain that is neither a convex hull nor a product is exactly the set of points meeting the exported
bounds, linear and quadratic constraints. -/
theorem class_linquad_partial {d : Base} (hn : ∀ X q, d ≠ .hull X q) (x : Vec) :
    (Dom.base d).Holds x ↔ x.length = d.len ∧ d.acc.MeetsBounds x ∧ d.acc.MeetsLinear x ∧ d.acc.MeetsQuad x := by
  rw [← lq_holds_split]
  exact base_holds_nohull hn x

/-- C138: a product is in a class exactly if all factors are. -/
theorem class_product (ds : List Base) :
    ((Dom.tensor ds).isBox ↔ ∀ d ∈ ds, (Dom.base d).isBox) ∧ ((Dom.tensor ds).isLinineq ↔ ∀ d ∈ ds, (Dom.base d).isLinineq) ∧
      ((Dom.tensor ds).isLinquad ↔ ∀ d ∈ ds, (Dom.base d).isLinquad) := ⟨Iff.rfl, Iff.rfl, Iff.rfl⟩

/-- **Disagreement**: the hull of two points answers that it is specified by linear constraints, but the constraints it
exports are met by points outside. -/
theorem class_hull_false : ∃ D : Dom, D.WF ∧ D.isLinquad ∧ D.isLinineq ∧ ¬ D.isBox ∧
    ∃ x, x.length = D.len ∧ D.acc.MeetsBounds x ∧ D.acc.MeetsLinear x ∧ D.acc.MeetsQuad x ∧ ¬ D.Holds x := by
  let q : LQ := { n := 1, lb := [.ninf], ub := [.pinf], A := [], b := [], Aeq := [], beq := [], Ls := [], ys := [], rhos := [] }
  have hwq : q.WF := by constructor <;> simp [q, XR.okLower, XR.okUpper]
  refine ⟨.base (.hull [[0], [1]] q), ⟨hwq, by simp, by simp [q]⟩, trivial, rfl, id, [5], rfl, ?_, ?_, ?_, ?_⟩
  · constructor <;> intro i r xi h1 _ <;> simp only [Dom.acc, Base.acc, q] at h1 <;> rcases i with _ | i <;> simp at h1
  · constructor <;> intro i r xi h1 _ <;> simp [Dom.acc, Base.acc, q] at h1
  · intro i L y rho h1
    simp [Dom.acc, Base.acc, q] at h1
  · rintro ⟨-, -, h⟩
    obtain ⟨al, hl, h0, hs, hc⟩ := h _ _ rfl
    match al, hl with
    | [a, b], _ =>
      simp only [List.mem_cons, List.not_mem_nil, or_false, forall_eq_or_imp, forall_eq] at h0
      simp only [List.sum_cons, List.sum_nil, add_zero] at hs
      simp [comb, Vec.add, Vec.smul, q] at hc
      linarith [h0.1]

/-- **Disagreement**: a product with a quadratic constraint answers that it is specified by linear and quadratic constraints,
but the constraints it exports are met by points outside. -/
theorem class_tensor_false : ∃ D : Dom, D.WF ∧ D.HullFree ∧ D.isLinquad ∧ ¬ D.isLinineq ∧
    ∃ x, x.length = D.len ∧ D.acc.MeetsBounds x ∧ D.acc.MeetsLinear x ∧ D.acc.MeetsQuad x ∧ ¬ D.Holds x := by
  let q : LQ := { n := 1, lb := [.ninf], ub := [.pinf], A := [], b := [], Aeq := [], beq := [], Ls := [[[1]]], ys := [[0]], rhos := [1] }
  have hwq : (Base.linquad q).WF := by show LQ.WF _; constructor <;> simp [q, Base.acc, XR.okLower, XR.okUpper]
  refine ⟨.tensor [.linquad q], ⟨by simp, by simpa using hwq⟩, ?_, fun _ _ => trivial, ?_, [5], rfl, ?_, ?_, ?_, ?_⟩
  · intro d hd X p
    simp only [List.mem_singleton] at hd
    subst hd
    simp
  · intro h
    have := h (.linquad q) (by simp)
    simp [Base.isLinineq, Base.acc, q] at this
  · constructor <;> intro i r xi h1 _ <;> simp only [Dom.acc, Base.acc, q, List.flatMap_cons, List.flatMap_nil, List.append_nil] at h1 <;>
      rcases i with _ | i <;> simp at h1
  · constructor <;> intro i r xi h1 _ <;> simp [Dom.acc, Base.acc, q, tensorA, tensorAeq, padRows] at h1
  · intro i L y rho h1
    simp [Dom.acc] at h1
  · rintro ⟨xs, e, h⟩
    obtain ⟨y, ys, hy, hys, rfl⟩ := List.forall₂_cons_left_iff.1 h
    obtain rfl := List.forall₂_nil_left_iff.1 hys
    simp only [List.flatten_cons, List.flatten_nil, List.append_nil] at e
    subst e
    have := hy.2.1.quad 0 [[1]] [0] 1 rfl rfl rfl
    simp [Vec.norm, Vec.mulVec, Vec.sub, Vec.dot, Vec.sumSq] at this

/-- C138: Latin hypercubes use the routine for boxes exactly on boxes; otherwise a projection design with one iteration,
respectively with the given number. -/
theorem latin_route (D : Dom) (k : ℕ) :
    (D.isBox → latinSampleRoute D = .boxes ∧ latinMaximinRoute D k = .boxes) ∧
    (¬ D.isBox → latinSampleRoute D = .projection 1 ∧ latinMaximinRoute D k = .projection k) :=
  ⟨fun h => ⟨if_pos h, if_pos h⟩, fun h => ⟨if_neg h, if_neg h⟩⟩

/-- A product of a box and a halfline specified by a linear constraint. -/
example : ∃ D : Dom, D.WF ∧ D.HullFree ∧ D.isLinineq ∧ ¬ D.isBox := by
  let q : LQ := { n := 1, lb := [.ninf], ub := [.pinf], A := [[1]], b := [0], Aeq := [], beq := [], Ls := [], ys := [], rhos := [] }
  have hwq : q.WF := by constructor <;> simp [q, XR.okLower, XR.okUpper]
  have hwb : (Base.box [.fin 0] [.fin 1]).WF := by show LQ.WF _; constructor <;> simp [Base.acc, XR.okLower, XR.okUpper]
  refine ⟨.tensor [.linineq q, .box [.fin 0] [.fin 1]], ⟨by simp, ?_⟩, ?_, ?_, ?_⟩
  · intro d hd
    simp only [List.mem_cons, List.not_mem_nil, or_false] at hd
    rcases hd with rfl | rfl
    · exact ⟨hwq, rfl, rfl, rfl⟩
    · exact hwb
  · intro d hd X p
    simp only [List.mem_cons, List.not_mem_nil, or_false] at hd
    rcases hd with rfl | rfl <;> simp
  · intro d hd
    simp only [List.mem_cons, List.not_mem_nil, or_false] at hd
    rcases hd with rfl | rfl <;> rfl
  · intro h
    have := (h (.linineq q) (by simp)).2.1
    simp [Base.acc, q] at this

end Verif.Domain
