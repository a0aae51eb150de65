import Verif.Domain.QueryModel
import Verif.Domain.Lemmas

/-!
# Properties C12 and C13
-/

namespace Verif.Domain

open Classical Verif

/-! ## C12 -/

/-- The call evaluates `is_empty`. -/
def BoxCall.checksEmpty : BoxCall → Prop
  | .isEmpty => True
  | .sample => True
  | _ => False

/-- The call is not `closest_point`. -/
def BoxCall.isQuery : BoxCall → Prop
  | .closestPoint _ => False
  | _ => True

theorem after_append (TOL : ℝ) (inf : Vec → Bool) (s : BoxState) (a b : List BoxCall) :
    s.after TOL inf (a ++ b) = (s.after TOL inf a).after TOL inf b := by
  induction a generalizing s with
  | nil => rfl
  | cons c a ih => exact ih _

/-- The state of a box object after any sequence of calls other than `closest_point`. -/
theorem box_state_after (TOL : ℝ) (inf : Vec → Bool) (lb ub : List XR) (h : List BoxCall)
    (hq : ∀ c ∈ h, c.isQuery) :
    let s := (freshBox lb ub).after TOL inf h
    s.lb = lb ∧ s.ub = ub ∧
    ((¬ (∃ c ∈ h, c.checksEmpty) ∧ s.empty = none ∧
        (s.point = none ∨ s.point = some (boxPoint TOL lb ub)) ∧
        (s.unbounded = none ∨ s.unbounded = some (boxUnbounded lb ub))) ∨
     ((∃ c ∈ h, c.checksEmpty) ∧ s.empty = some (boxEmpty lb ub) ∧ s.point = some false ∧
        s.unbounded = some false)) := by
  intro s
  induction h using List.reverseRecOn with
  | nil => simp [s, BoxState.after, freshBox]
  | append_singleton h c ih =>
    obtain ⟨h1, h2, h3⟩ := ih (fun c hc => hq c (by simp [hc]))
    have hs : s = (((freshBox lb ub).after TOL inf h).call TOL inf c).2 := by
      simp only [s, after_append]; rfl
    generalize (freshBox lb ub).after TOL inf h = t at hs h1 h2 h3
    have hc := hq c (by simp)
    rw [hs]
    cases c with
    | isEmpty =>
      rcases h3 with ⟨k0, k1, k2, k3⟩ | ⟨⟨c', k0, k0'⟩, k1, k2, k3⟩
      · simp [BoxState.call, BoxState.isEmpty, k1, h1, h2, BoxCall.checksEmpty]
      · simp only [BoxState.call, BoxState.isEmpty, k1]
        exact ⟨h1, h2, Or.inr ⟨⟨.isEmpty, by simp, trivial⟩, trivial, k2, k3⟩⟩
    | sample =>
      rcases h3 with ⟨k0, k1, k2, k3⟩ | ⟨⟨c', k0, k0'⟩, k1, k2, k3⟩
      · simp [BoxState.call, BoxState.isEmpty, k1, h1, h2, BoxCall.checksEmpty]
      · simp only [BoxState.call, BoxState.isEmpty, k1]
        exact ⟨h1, h2, Or.inr ⟨⟨.sample, by simp, trivial⟩, trivial, k2, k3⟩⟩
    | isPoint =>
      rcases h3 with ⟨k0, k1, k2, k3⟩ | ⟨⟨c', k0, k0'⟩, k1, k2, k3⟩
      · have k0' : ¬ ∃ c ∈ h ++ [BoxCall.isPoint], c.checksEmpty := by
          rintro ⟨c, hc, hc'⟩
          rcases List.mem_append.1 hc with hc | hc
          · exact k0 ⟨c, hc, hc'⟩
          · simp at hc; subst hc; exact hc'
        rcases k2 with k2 | k2
        · simp only [BoxState.call, BoxState.isPoint, k2]
          exact ⟨h1, h2, Or.inl ⟨k0', k1, Or.inr (by rw [h1, h2]), k3⟩⟩
        · simp only [BoxState.call, BoxState.isPoint, k2]
          exact ⟨h1, h2, Or.inl ⟨k0', k1, Or.inr trivial, k3⟩⟩
      · simp only [BoxState.call, BoxState.isPoint, k2]
        exact ⟨h1, h2, Or.inr ⟨⟨c', by simp [k0], k0'⟩, k1, trivial, k3⟩⟩
    | isUnbounded =>
      rcases h3 with ⟨k0, k1, k2, k3⟩ | ⟨⟨c', k0, k0'⟩, k1, k2, k3⟩
      · have k0' : ¬ ∃ c ∈ h ++ [BoxCall.isUnbounded], c.checksEmpty := by
          rintro ⟨c, hc, hc'⟩
          rcases List.mem_append.1 hc with hc | hc
          · exact k0 ⟨c, hc, hc'⟩
          · simp at hc; subst hc; exact hc'
        rcases k3 with k3 | k3
        · simp only [BoxState.call, BoxState.isUnbounded, k3]
          exact ⟨h1, h2, Or.inl ⟨k0', k1, k2, Or.inr (by rw [h1, h2])⟩⟩
        · simp only [BoxState.call, BoxState.isUnbounded, k3]
          exact ⟨h1, h2, Or.inl ⟨k0', k1, k2, Or.inr trivial⟩⟩
      · simp only [BoxState.call, BoxState.isUnbounded, k3]
        exact ⟨h1, h2, Or.inr ⟨⟨c', by simp [k0], k0'⟩, k1, k2, trivial⟩⟩
    | closestPoint x0 => exact absurd hc id

/-- **C12, the part that holds**: whatever sequence of `is_empty`, `is_point`, `is_unbounded` and
`sample` calls came before, `is_empty` answers whether some lower bound exceeds its upper bound. -/
theorem box_is_empty_history_partial (TOL : ℝ) (inf : Vec → Bool) (lb ub : List XR) (h : List BoxCall)
    (hq : ∀ c ∈ h, c.isQuery) :
    ∃ b, (((freshBox lb ub).after TOL inf h).call TOL inf .isEmpty).1 = .bool b ∧
      (b = true ↔ ∃ (i : ℕ) (l u : XR), lb[i]? = some l ∧ ub[i]? = some u ∧ XR.lt u l) := by
  refine ⟨boxEmpty lb ub, ?_, ?_⟩
  · obtain ⟨h1, h2, h3⟩ := box_state_after TOL inf lb ub h hq
    rcases h3 with ⟨_, k, _, _⟩ | ⟨_, k, _, _⟩
    · simp only [BoxState.call, BoxState.isEmpty, k, h1, h2]
    · simp only [BoxState.call, BoxState.isEmpty, k]
  · unfold boxEmpty
    rw [decide_eq_true_eq]
    constructor
    · rintro ⟨q, hq, hlt⟩
      obtain ⟨i, hi⟩ := List.mem_iff_getElem?.1 hq
      rw [List.getElem?_zip_eq_some] at hi
      exact ⟨i, _, _, hi.1, hi.2, hlt⟩
    · rintro ⟨i, l, u, h1, h2, hlt⟩
      exact ⟨(l, u), List.mem_of_getElem? (i := i) (by rw [List.getElem?_zip_eq_some]; exact ⟨h1, h2⟩), hlt⟩

/-- Specification of a point: all bounds are finite and differ by less than the tolerance. -/
def NarrowBox (TOL : ℝ) (lb ub : List XR) : Prop :=
  ∀ (i : ℕ) (l u : XR), lb[i]? = some l → ub[i]? = some u → ∃ a b, l = .fin a ∧ u = .fin b ∧ |b - a| < TOL

/-- Specification of an unbounded box: some bound is infinite. -/
def InfiniteBox (lb ub : List XR) : Prop := XR.pinf ∈ lb ∨ XR.ninf ∈ lb ∨ XR.pinf ∈ ub ∨ XR.ninf ∈ ub

theorem boxPoint_iff (TOL : ℝ) (lb ub : List XR) : boxPoint TOL lb ub = true ↔ NarrowBox TOL lb ub := by
  unfold boxPoint
  rw [decide_eq_true_eq]
  constructor
  · intro h i l u hl hu
    have := h (l, u) (List.mem_of_getElem? (i := i) (by rw [List.getElem?_zip_eq_some]; exact ⟨hl, hu⟩))
    rcases l with a | _ | _ | _ <;> rcases u with b | _ | _ | _ <;> simp only [XR.sub] at this <;>
      first | exact this.elim | exact ⟨a, b, rfl, rfl, this⟩
  · intro h q hq
    obtain ⟨i, hi⟩ := List.mem_iff_getElem?.1 hq
    rw [List.getElem?_zip_eq_some] at hi
    obtain ⟨a, b, h1, h2, h3⟩ := h i _ _ hi.1 hi.2
    rw [h1, h2]
    exact h3

theorem boxUnbounded_iff (lb ub : List XR) : boxUnbounded lb ub = true ↔ InfiniteBox lb ub := by
  unfold boxUnbounded InfiniteBox
  rw [decide_eq_true_eq]
  constructor
  · rintro (⟨v, hv, h⟩ | ⟨v, hv, h⟩) <;> rcases v with a | _ | _ | _ <;> simp [XR.isInf] at h <;> simp [hv]
  · rintro (h | h | h | h)
    · exact .inl ⟨_, h, trivial⟩
    · exact .inl ⟨_, h, trivial⟩
    · exact .inr ⟨_, h, trivial⟩
    · exact .inr ⟨_, h, trivial⟩

theorem box_point_unbounded_eq (TOL : ℝ) (inf : Vec → Bool) (lb ub : List XR) (h : List BoxCall)
    (hq : ∀ c ∈ h, c.isQuery) :
    (((freshBox lb ub).after TOL inf h).call TOL inf .isPoint).1 =
      .bool (if ∃ c ∈ h, c.checksEmpty then false else boxPoint TOL lb ub) ∧
    (((freshBox lb ub).after TOL inf h).call TOL inf .isUnbounded).1 =
      .bool (if ∃ c ∈ h, c.checksEmpty then false else boxUnbounded lb ub) := by
  obtain ⟨h1, h2, h3⟩ := box_state_after TOL inf lb ub h hq
  rcases h3 with ⟨k0, _, k2, k3⟩ | ⟨k0, _, k2, k3⟩
  · rw [if_neg k0, if_neg k0]
    constructor
    · rcases k2 with k2 | k2 <;> simp only [BoxState.call, BoxState.isPoint, k2, h1, h2]
    · rcases k3 with k3 | k3 <;> simp only [BoxState.call, BoxState.isUnbounded, k3, h1, h2]
  · rw [if_pos k0, if_pos k0]
    exact ⟨by simp only [BoxState.call, BoxState.isPoint, k2], by simp only [BoxState.call, BoxState.isUnbounded, k3]⟩

/-- **C12, exact behaviour**: `is_point` and `is_unbounded` answer correctly as long as neither `is_empty`
nor `sample` has been called, and `False` forever after. -/
theorem box_point_unbounded_history (TOL : ℝ) (inf : Vec → Bool) (lb ub : List XR) (h : List BoxCall)
    (hq : ∀ c ∈ h, c.isQuery) :
    (∃ b, (((freshBox lb ub).after TOL inf h).call TOL inf .isPoint).1 = .bool b ∧
      (b = true ↔ (¬ ∃ c ∈ h, c.checksEmpty) ∧ NarrowBox TOL lb ub)) ∧
    (∃ b, (((freshBox lb ub).after TOL inf h).call TOL inf .isUnbounded).1 = .bool b ∧
      (b = true ↔ (¬ ∃ c ∈ h, c.checksEmpty) ∧ InfiniteBox lb ub)) := by
  obtain ⟨h1, h2⟩ := box_point_unbounded_eq TOL inf lb ub h hq
  refine ⟨⟨_, h1, ?_⟩, ⟨_, h2, ?_⟩⟩
  · by_cases hc : ∃ c ∈ h, c.checksEmpty
    · rw [if_pos hc]; simp [hc]
    · rw [if_neg hc, boxPoint_iff]; exact ⟨fun k => ⟨hc, k⟩, fun k => k.2⟩
  · by_cases hc : ∃ c ∈ h, c.checksEmpty
    · rw [if_pos hc]; simp [hc]
    · rw [if_neg hc, boxUnbounded_iff]; exact ⟨fun k => ⟨hc, k⟩, fun k => k.2⟩

/-- **C12 is false** for `is_point`: for the box `[1,1]`, `is_point` answers `True` on a fresh object and
`False` once `is_empty` has been asked. -/
theorem box_is_point_history_false (TOL : ℝ) (hT : 0 < TOL) (inf : Vec → Bool) :
    ((freshBox [.fin 1] [.fin 1]).call TOL inf .isPoint).1 = .bool true ∧
    (((freshBox [.fin 1] [.fin 1]).after TOL inf [.isEmpty]).call TOL inf .isPoint).1 = .bool false := by
  constructor
  · have := (box_point_unbounded_eq TOL inf [.fin 1] [.fin 1] [] (by simp)).1
    rw [if_neg (by simp)] at this
    refine Eq.trans this ?_
    have : boxPoint TOL [.fin 1] [.fin 1] = true := by simp [boxPoint, XR.sub, hT]
    rw [this]
  · have := (box_point_unbounded_eq TOL inf [.fin 1] [.fin 1] [.isEmpty] (by simp [BoxCall.isQuery])).1
    rw [if_pos ⟨BoxCall.isEmpty, by simp, trivial⟩] at this
    exact this

/-- **C12 is false** for `is_unbounded`: for the box `[0, inf)`, `is_unbounded` answers `True` on a fresh
object and `False` once `sample` or `is_empty` has been called. -/
theorem box_is_unbounded_history_false (TOL : ℝ) (inf : Vec → Bool) :
    ((freshBox [.fin 0] [.pinf]).call TOL inf .isUnbounded).1 = .bool true ∧
    (((freshBox [.fin 0] [.pinf]).after TOL inf [.sample]).call TOL inf .isUnbounded).1 = .bool false := by
  constructor
  · have := (box_point_unbounded_eq TOL inf [.fin 0] [.pinf] [] (by simp)).2
    rw [if_neg (by simp)] at this
    refine Eq.trans this ?_
    have : boxUnbounded [.fin 0] [.pinf] = true := by simp [boxUnbounded, XR.isInf]
    rw [this]
  · have := (box_point_unbounded_eq TOL inf [.fin 0] [.pinf] [.sample] (by simp [BoxCall.isQuery])).2
    rw [if_pos ⟨BoxCall.sample, by simp, trivial⟩] at this
    exact this

/-- **C12 is false** for `is_empty` once `closest_point` is in the history: a box whose lower bound exceeds
the upper bound by less than the tolerance is empty when asked first, and not empty after `closest_point` of
a point inside to the tolerance. -/
theorem box_is_empty_closest_point_false (TOL : ℝ) (hT : 0 < TOL) (inf : Vec → Bool) :
    ((freshBox [.fin TOL] [.fin 0]).call TOL inf .isEmpty).1 = .bool true ∧
    (((freshBox [.fin TOL] [.fin 0]).after TOL inf [.closestPoint [0]]).call TOL inf .isEmpty).1 = .bool false := by
  constructor
  · have : boxEmpty [.fin TOL] [.fin 0] = true := by simp [boxEmpty, XR.lt, hT]
    simp only [BoxState.call, BoxState.isEmpty, freshBox, this]
  · have hin : inBounds [.fin TOL] [.fin 0] TOL [0] := by
      rw [inBounds_iff]
      constructor <;> intro i r xi h1 h2 <;> cases i <;> simp at h1 h2 <;> subst h1 h2 <;> linarith
    have : (freshBox [.fin TOL] [.fin 0]).after TOL inf [.closestPoint [0]] =
        { freshBox [.fin TOL] [.fin 0] with empty := some false } := by
      have e : (freshBox [.fin TOL] [.fin 0]).call TOL inf (.closestPoint [0]) =
          (.array, { freshBox [.fin TOL] [.fin 0] with empty := some false }) := by
        have c1 : ¬ ([0] : Vec).length ≠ (freshBox [.fin TOL] [.fin 0]).lb.length := by simp [freshBox]
        have c2 : ¬ (freshBox [.fin TOL] [.fin 0]).empty = some true := by simp [freshBox]
        have c3 : inBounds (freshBox [.fin TOL] [.fin 0]).lb (freshBox [.fin TOL] [.fin 0]).ub TOL [0] := hin
        simp only [BoxState.call, if_neg c1, if_neg c2, if_pos c3]
      simp only [BoxState.after, e]
    rw [this]
    rfl

/-- **C12 for point domains**: the answers never change, whatever is called in between, provided the solver
does not report the (nonempty) domain infeasible. -/
theorem point_history (TOL : ℝ) (inf : Vec → Bool) (hinf : ∀ x, inf x = false) (x : Vec) (h : List BoxCall) :
    (((freshPoint x).after TOL inf h).call TOL inf .isEmpty).1 = .bool false ∧
    (((freshPoint x).after TOL inf h).call TOL inf .isPoint).1 = .bool true ∧
    (((freshPoint x).after TOL inf h).call TOL inf .isUnbounded).1 = .bool false := by
  have key : (freshPoint x).after TOL inf h = freshPoint x := by
    induction h with
    | nil => rfl
    | cons c h ih =>
      have : ((freshPoint x).call TOL inf c).2 = freshPoint x := by
        cases c with
        | closestPoint x0 =>
          simp only [BoxState.call, hinf]
          split
          · rfl
          rw [if_neg (by simp [freshPoint])]
          split <;> simp [freshPoint]
        | _ => rfl
      unfold BoxState.after
      rw [this]; exact ih
  rw [key]
  exact ⟨rfl, rfl, rfl⟩

/-! ## C13 -/

theorem zip_getElem? {lb ub : List XR} {p : Vec} {f : XR × XR → ℝ → XR} {i : ℕ} {v : XR}
    (h : (List.zipWith f (lb.zip ub) p)[i]? = some v) :
    ∃ l u pi, lb[i]? = some l ∧ ub[i]? = some u ∧ p[i]? = some pi ∧ v = f (l, u) pi := by
  rw [List.getElem?_zipWith] at h
  rcases h1 : (lb.zip ub)[i]? with _ | q
  · rw [h1] at h; simp at h
  rcases h2 : p[i]? with _ | pi
  · rw [h1, h2] at h; simp at h
  rw [h1, h2] at h
  rw [List.getElem?_zip_eq_some] at h1
  exact ⟨q.1, q.2, pi, h1.1, h1.2, rfl, by simpa using h.symm⟩

theorem inBoundsX_iff (lb ub : List XR) (tol : ℝ) (x : List XR) :
    inBoundsX lb ub tol x ↔
      (∀ (i : ℕ) (r : ℝ) (v : XR), lb[i]? = some (.fin r) → x[i]? = some v → XR.le (.fin (r - tol)) v) ∧
      (∀ (i : ℕ) (r : ℝ) (v : XR), ub[i]? = some (.fin r) → x[i]? = some v → XR.le v (.fin (r + tol))) := by
  unfold inBoundsX
  rw [forall_mem_zip lb x (fun q => ∀ r, q.1 = XR.fin r → XR.le (.fin (r - tol)) q.2),
    forall_mem_zip ub x (fun q => ∀ r, q.1 = XR.fin r → XR.le q.2 (.fin (r + tol)))]
  constructor
  · rintro ⟨h1, h2⟩
    exact ⟨fun i r v a b => h1 i _ v a b r rfl, fun i r v a b => h2 i _ v a b r rfl⟩
  · rintro ⟨h1, h2⟩
    exact ⟨fun i l v a b r e => h1 i r v (by rw [a]; exact congrArg some e) b,
      fun i l v a b r e => h2 i r v (by rw [a]; exact congrArg some e) b⟩

/-- **C13** (totality): with bounds stored as floats, `corner(p)` raises `EmptyDomainException` exactly when
some lower bound exceeds its upper bound by more than the tolerance, and otherwise returns. -/
theorem box_corner_ok_iff (TOL : ℝ) (hT : 0 ≤ TOL) (lb ub : List XR) (p : Vec)
    (hlo : ∀ v ∈ lb, v.okLower) (hup : ∀ v ∈ ub, v.okUpper) (hp : p.length = lb.length) :
    (∃ x, boxCorner TOL false lb ub p = .ok x) ↔
      ¬ ∃ (i : ℕ) (l u : ℝ), lb[i]? = some (.fin l) ∧ ub[i]? = some (.fin u) ∧ u + TOL < l := by
  unfold boxCorner
  rw [if_neg (by omega)]
  have key : inBoundsX lb ub TOL (boxCornerPoint false lb ub p) ↔
      ¬ ∃ (i : ℕ) (l u : ℝ), lb[i]? = some (.fin l) ∧ ub[i]? = some (.fin u) ∧ u + TOL < l := by
    rw [inBoundsX_iff]
    constructor
    · rintro ⟨h1, h2⟩ ⟨i, l, u, hli, hui, hlt⟩
      have hi := (List.getElem?_eq_some_iff.1 hli).1
      obtain ⟨pi, hpi⟩ : ∃ pi, p[i]? = some pi := ⟨_, List.getElem?_eq_getElem (by omega)⟩
      have hx : (boxCornerPoint false lb ub p)[i]? = some (if pi ≥ 0 then .fin u else .fin l) := by
        unfold boxCornerPoint
        rw [List.getElem?_zipWith, show (lb.zip ub)[i]? = some (XR.fin l, XR.fin u) from List.getElem?_zip_eq_some.2 ⟨hli, hui⟩, hpi]
        simp [assignTo]
      by_cases h0 : pi ≥ 0
      · rw [if_pos h0] at hx
        have := h1 i l _ hli hx
        simp [XR.le, XR.lt, XR.eq] at this
        rcases this with h | h <;> linarith
      · rw [if_neg h0] at hx
        have := h2 i u _ hui hx
        simp [XR.le, XR.lt, XR.eq] at this
        rcases this with h | h <;> linarith
    · intro h
      push Not at h
      constructor
      · intro i r v hr hv
        obtain ⟨l, u, pi, e1, e2, e3, e4⟩ := zip_getElem? hv
        rw [hr] at e1; cases e1
        by_cases h0 : pi ≥ 0
        · simp only [h0, if_true, assignTo] at e4
          simp only [Bool.false_eq_true, if_false] at e4
          rw [e4]
          have hu := hup u (List.mem_of_getElem? e2)
          cases u with
          | fin u =>
            have := h i r u hr e2
            simp only [XR.le, XR.lt, XR.eq]
            rcases lt_or_eq_of_le (show r - TOL ≤ u by linarith) with h | h
            · exact Or.inl h
            · exact Or.inr h
          | pinf => exact Or.inl trivial
          | ninf => simp [XR.okUpper] at hu
          | nan => simp [XR.okUpper] at hu
        · simp only [h0, if_false] at e4
          subst e4
          simp only [XR.le, XR.lt, XR.eq]
          rcases lt_or_eq_of_le (show r - TOL ≤ r by linarith) with h | h
          · exact Or.inl h
          · exact Or.inr h
      · intro i r v hr hv
        obtain ⟨l, u, pi, e1, e2, e3, e4⟩ := zip_getElem? hv
        rw [hr] at e2; cases e2
        by_cases h0 : pi ≥ 0
        · simp only [h0, if_true, assignTo] at e4
          simp at e4
          subst e4
          simp only [XR.le, XR.lt, XR.eq]
          rcases lt_or_eq_of_le (show r ≤ r + TOL by linarith) with h | h
          · exact Or.inl h
          · exact Or.inr h
        · simp only [h0, if_false] at e4
          rw [e4]
          have hu := hlo l (List.mem_of_getElem? e1)
          cases l with
          | fin l =>
            have := h i l r e1 hr
            simp only [XR.le, XR.lt, XR.eq]
            rcases lt_or_eq_of_le (show l ≤ r + TOL by linarith) with h | h
            · exact Or.inl h
            · exact Or.inr h
          | ninf => exact Or.inl trivial
          | pinf => simp [XR.okLower] at hu
          | nan => simp [XR.okLower] at hu
  rw [← key]
  constructor
  · rintro ⟨x, h⟩
    by_contra hc
    rw [if_pos hc] at h; cases h
  · intro h
    exact ⟨_, by rw [if_neg (by push Not; exact h)]⟩

/-- **C13** (the returned point): with bounds stored as floats and a nonempty box, if the returned point is
finite then it is a point of the box, and no point of the box has a larger inner product with `p`. -/
theorem box_corner_maximizes (TOL : ℝ) (lb ub : List XR) (hl : ub.length = lb.length) (p : Vec)
    (hne : ∀ (i : ℕ) (l u : ℝ), lb[i]? = some (.fin l) → ub[i]? = some (.fin u) → l ≤ u) (x : Vec)
    (h : boxCorner TOL false lb ub p = .ok (x.map XR.fin)) :
    (x.length = lb.length ∧
      (∀ (i : ℕ) (r xi : ℝ), lb[i]? = some (.fin r) → x[i]? = some xi → r ≤ xi) ∧
      (∀ (i : ℕ) (r xi : ℝ), ub[i]? = some (.fin r) → x[i]? = some xi → xi ≤ r)) ∧
    ∀ y : Vec, y.length = lb.length →
      (∀ (i : ℕ) (r yi : ℝ), lb[i]? = some (.fin r) → y[i]? = some yi → r ≤ yi) →
      (∀ (i : ℕ) (r yi : ℝ), ub[i]? = some (.fin r) → y[i]? = some yi → yi ≤ r) →
      Vec.dot p y ≤ Vec.dot p x := by
  unfold boxCorner at h
  split at h
  · cases h
  rename_i hp
  split at h
  · cases h
  have h : boxCornerPoint false lb ub p = x.map XR.fin := by injection h
  push Not at hp
  have hxl : x.length = lb.length := by
    have := congrArg List.length h
    simp [boxCornerPoint] at this
    omega
  have hx : ∀ (i : ℕ) (xi : ℝ), x[i]? = some xi → ∃ l u pi, lb[i]? = some l ∧ ub[i]? = some u ∧ p[i]? = some pi ∧
      XR.fin xi = if pi ≥ 0 then u else l := by
    intro i xi hxi
    have : (boxCornerPoint false lb ub p)[i]? = some (.fin xi) := by
      rw [h, List.getElem?_map, hxi]; rfl
    obtain ⟨l, u, pi, e1, e2, e3, e4⟩ := zip_getElem? this
    refine ⟨l, u, pi, e1, e2, e3, ?_⟩
    simpa [assignTo] using e4
  refine ⟨⟨hxl, ?_, ?_⟩, ?_⟩
  · intro i r xi hr hxi
    obtain ⟨l, u, pi, e1, e2, e3, e4⟩ := hx i xi hxi
    rw [hr] at e1; cases e1
    by_cases h0 : pi ≥ 0
    · rw [if_pos h0] at e4; subst e4
      exact hne i r xi hr e2
    · rw [if_neg h0] at e4; cases e4; exact le_refl _
  · intro i r xi hr hxi
    obtain ⟨l, u, pi, e1, e2, e3, e4⟩ := hx i xi hxi
    rw [hr] at e2; cases e2
    by_cases h0 : pi ≥ 0
    · rw [if_pos h0] at e4; cases e4; exact le_refl _
    · rw [if_neg h0] at e4; subst e4
      exact hne i xi r e1 hr
  · intro y hy hy1 hy2
    -- compare termwise
    have key : ∀ (i : ℕ) (pi yi xi : ℝ), p[i]? = some pi → y[i]? = some yi → x[i]? = some xi →
        pi * yi ≤ pi * xi := by
      intro i pi yi xi hpi hyi hxi
      obtain ⟨l, u, pi', e1, e2, e3, e4⟩ := hx i xi hxi
      rw [hpi] at e3; cases e3
      by_cases h0 : pi ≥ 0
      · rw [if_pos h0] at e4; subst e4
        exact mul_le_mul_of_nonneg_left (hy2 i xi yi e2 hyi) h0
      · rw [if_neg h0] at e4; subst e4
        exact mul_le_mul_of_nonpos_left (hy1 i xi yi e1 hyi) (le_of_lt (not_le.1 h0))
    have gen : ∀ (p y x : Vec), p.length = x.length → y.length = x.length →
        (∀ (i : ℕ) (pi yi xi : ℝ), p[i]? = some pi → y[i]? = some yi → x[i]? = some xi → pi * yi ≤ pi * xi) →
        Vec.dot p y ≤ Vec.dot p x := by
      intro p
      induction p with
      | nil => intro y x h1 h2 _; simp
      | cons a p ih =>
        intro y x h1 h2 h3
        cases x with
        | nil => simp at h1
        | cons b x => cases y with
          | nil => simp at h2
          | cons c y =>
            simp only [Vec.dot_cons]
            have := h3 0 a c b rfl rfl rfl
            have := ih y x (by simpa using h1) (by simpa using h2) (fun i pi yi xi k1 k2 k3 => h3 (i + 1) pi yi xi k1 k2 k3)
            linarith
    exact gen p y x (by omega) (by omega) key

example : (∀ (i : ℕ) (l u : ℝ), ([.fin 0, .fin (-1)] : List XR)[i]? = some (.fin l) →
      ([.fin 1, .fin 5] : List XR)[i]? = some (.fin u) → l ≤ u) ∧
    ∃ x : Vec, boxCorner 0 false [.fin 0, .fin (-1)] [.fin 1, .fin 5] [1, -1] = .ok (x.map XR.fin) := by
  constructor
  · intro i l u h1 h2
    rcases i with _ | _ | i <;> simp at h1 h2 <;> subst h1 h2 <;> norm_num
  · obtain ⟨x, hx⟩ := (box_corner_ok_iff 0 le_rfl [.fin 0, .fin (-1)] [.fin 1, .fin 5] [1, -1]
      (by simp [XR.okLower]) (by simp [XR.okUpper]) rfl).2 (by
        rintro ⟨i, l, u, h1, h2, h3⟩
        rcases i with _ | _ | i <;> simp at h1 h2 <;> subst h1 h2 <;> norm_num at h3)
    refine ⟨[1, -1], ?_⟩
    have e : boxCornerPoint false [.fin 0, .fin (-1)] [.fin 1, .fin 5] [1, -1] = ([1, -1] : Vec).map XR.fin := by
      simp [boxCornerPoint, assignTo]
    unfold boxCorner at hx ⊢
    rw [e] at hx ⊢
    rw [if_neg (by simp)] at hx ⊢
    split at hx
    · cases hx
    · rename_i k; rw [if_neg k]

/-- **C13 is false** for integer lower bounds: with `lb = [0]` stored as an integer array and `ub = [3/2]`,
`corner([1])` returns `1`, although `3/2` is in the box. -/
theorem box_corner_int_false (TOL : ℝ) (hT : 0 ≤ TOL) :
    boxCorner TOL true [.fin 0] [.fin (3 / 2)] [1] = .ok [.fin 1] := by
  have e : boxCornerPoint true [.fin 0] [.fin (3 / 2)] [1] = [.fin 1] := by
    have : ⌊(3 / 2 : ℝ)⌋ = 1 := by rw [Int.floor_eq_iff]; norm_num
    simp only [boxCornerPoint, assignTo, castInt, List.zip_cons_cons, List.zip_nil_left, List.zipWith_cons_cons, List.zipWith_nil_left, this]
    norm_num
  unfold boxCorner
  rw [e, if_neg (by simp), if_neg]
  push Not
  rw [inBoundsX_iff]
  constructor
  · intro i r v h1 h2
    cases i <;> simp at h1 h2
    subst h1 h2
    left; simp only [XR.lt]; linarith
  · intro i r v h1 h2
    cases i <;> simp at h1 h2
    subst h1 h2
    left; simp only [XR.lt]; linarith

/-- **C13, emptiness is only detected beyond the tolerance**: a box that `is_empty` reports empty still
returns a corner if its bounds cross by at most the tolerance. -/
theorem box_corner_empty_false (TOL : ℝ) (hT : 0 < TOL) :
    boxEmpty [.fin TOL] [.fin 0] = true ∧ ∃ x, boxCorner TOL false [.fin TOL] [.fin 0] [1] = .ok x := by
  refine ⟨by simp [boxEmpty, XR.lt, hT], ?_⟩
  rw [box_corner_ok_iff TOL hT.le [.fin TOL] [.fin 0] [1] (by simp [XR.okLower]) (by simp [XR.okUpper]) rfl]
  rintro ⟨i, l, u, h1, h2, h3⟩
  cases i <;> simp at h1 h2
  subst h1 h2; linarith

end Verif.Domain
