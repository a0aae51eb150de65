import Verif.Domain.Spec

namespace Verif.Domain

open Classical Verif

theorem forall_mem_zip {α β : Type*} (l : List α) (m : List β) (P : α × β → Prop) :
    (∀ q ∈ l.zip m, P q) ↔ ∀ (i : ℕ) a b, l[i]? = some a → m[i]? = some b → P (a, b) := by
  constructor
  · intro h i a b ha hb
    apply h
    rw [List.mem_iff_getElem?]
    exact ⟨i, by rw [List.getElem?_zip_eq_some]; exact ⟨ha, hb⟩⟩
  · intro h q hq
    rw [List.mem_iff_getElem?] at hq
    obtain ⟨i, hi⟩ := hq
    rw [List.getElem?_zip_eq_some] at hi
    exact h i q.1 q.2 hi.1 hi.2

/-! ### Bounds -/

theorem inBounds_nil (lb ub : List XR) (tol : ℝ) : inBounds lb ub tol [] := by
  simp [inBounds]

theorem inBounds_cons (l u : XR) (lb ub : List XR) (tol x : ℝ) (xs : Vec) :
    inBounds (l :: lb) (u :: ub) tol (x :: xs) ↔
      ((∀ r, l = .fin r → x ≥ r - tol) ∧ (∀ r, u = .fin r → x ≤ r + tol)) ∧ inBounds lb ub tol xs := by
  simp only [inBounds, List.zip_cons_cons, List.forall_mem_cons]
  tauto

theorem max_lower (a b : XR) (ha : a.okLower) (hb : b.okLower) (tol x : ℝ) :
    (∀ r, XR.max a b = .fin r → x ≥ r - tol) ↔
      (∀ r, a = .fin r → x ≥ r - tol) ∧ (∀ r, b = .fin r → x ≥ r - tol) := by
  cases a <;> cases b <;> simp_all [XR.max, XR.okLower]

theorem min_upper (a b : XR) (ha : a.okUpper) (hb : b.okUpper) (tol x : ℝ) :
    (∀ r, XR.min a b = .fin r → x ≤ r + tol) ↔
      (∀ r, a = .fin r → x ≤ r + tol) ∧ (∀ r, b = .fin r → x ≤ r + tol) := by
  cases a <;> cases b <;> simp_all [XR.min, XR.okUpper]
  rename_i r s
  constructor
  · intro h
    have h1 := min_le_left r s
    have h2 := min_le_right r s
    constructor <;> linarith
  · rintro ⟨h1, h2⟩
    rcases min_choice r s with h | h <;> rw [h] <;> assumption

theorem okLower_max (a b : XR) (ha : a.okLower) (hb : b.okLower) : (XR.max a b).okLower := by
  cases a <;> cases b <;> simp_all [XR.max, XR.okLower]

theorem okUpper_min (a b : XR) (ha : a.okUpper) (hb : b.okUpper) : (XR.min a b).okUpper := by
  cases a <;> cases b <;> simp_all [XR.min, XR.okUpper]

theorem lower_merge (l1 l2 : List XR) (hl : l1.length = l2.length) (h1 : ∀ v ∈ l1, v.okLower)
    (h2 : ∀ v ∈ l2, v.okLower) (tol : ℝ) (x : Vec) :
    (∀ q ∈ (List.zipWith XR.max l1 l2).zip x, ∀ r, q.1 = XR.fin r → q.2 ≥ r - tol) ↔
      (∀ q ∈ l1.zip x, ∀ r, q.1 = XR.fin r → q.2 ≥ r - tol) ∧
      (∀ q ∈ l2.zip x, ∀ r, q.1 = XR.fin r → q.2 ≥ r - tol) := by
  induction l1 generalizing l2 x with
  | nil => cases l2 with
    | nil => simp
    | cons => simp at hl
  | cons a as ih => cases l2 with
    | nil => simp at hl
    | cons b bs => cases x with
      | nil => simp
      | cons x xs =>
        simp only [List.forall_mem_cons] at h1 h2
        have ih := ih bs (by simpa using hl) h1.2 h2.2 xs
        have hm := max_lower a b h1.1 h2.1 tol x
        simp only [List.zipWith_cons_cons, List.zip_cons_cons, List.forall_mem_cons, ih, hm]
        tauto

theorem upper_merge (l1 l2 : List XR) (hl : l1.length = l2.length) (h1 : ∀ v ∈ l1, v.okUpper)
    (h2 : ∀ v ∈ l2, v.okUpper) (tol : ℝ) (x : Vec) :
    (∀ q ∈ (List.zipWith XR.min l1 l2).zip x, ∀ r, q.1 = XR.fin r → q.2 ≤ r + tol) ↔
      (∀ q ∈ l1.zip x, ∀ r, q.1 = XR.fin r → q.2 ≤ r + tol) ∧
      (∀ q ∈ l2.zip x, ∀ r, q.1 = XR.fin r → q.2 ≤ r + tol) := by
  induction l1 generalizing l2 x with
  | nil => cases l2 with
    | nil => simp
    | cons => simp at hl
  | cons a as ih => cases l2 with
    | nil => simp at hl
    | cons b bs => cases x with
      | nil => simp
      | cons x xs =>
        simp only [List.forall_mem_cons] at h1 h2
        have ih := ih bs (by simpa using hl) h1.2 h2.2 xs
        have hm := min_upper a b h1.1 h2.1 tol x
        simp only [List.zipWith_cons_cons, List.zip_cons_cons, List.forall_mem_cons, ih, hm]
        tauto

theorem inBounds_merge (l1 l2 u1 u2 : List XR) (hl : l1.length = l2.length) (hu : u1.length = u2.length)
    (h1 : ∀ v ∈ l1, v.okLower) (h2 : ∀ v ∈ l2, v.okLower) (h3 : ∀ v ∈ u1, v.okUpper)
    (h4 : ∀ v ∈ u2, v.okUpper) (tol : ℝ) (x : Vec) :
    inBounds (List.zipWith XR.max l1 l2) (List.zipWith XR.min u1 u2) tol x ↔
      inBounds l1 u1 tol x ∧ inBounds l2 u2 tol x := by
  unfold inBounds
  rw [lower_merge l1 l2 hl h1 h2, upper_merge u1 u2 hu h3 h4]
  tauto

theorem okLower_zipWith (l1 l2 : List XR) (h1 : ∀ v ∈ l1, v.okLower) (h2 : ∀ v ∈ l2, v.okLower) :
    ∀ v ∈ List.zipWith XR.max l1 l2, v.okLower := by
  induction l1 generalizing l2 with
  | nil => simp
  | cons a as ih => cases l2 with
    | nil => simp
    | cons b bs =>
      simp only [List.forall_mem_cons] at h1 h2
      simp only [List.zipWith_cons_cons, List.forall_mem_cons]
      exact ⟨okLower_max a b h1.1 h2.1, ih bs h1.2 h2.2⟩

theorem okUpper_zipWith (l1 l2 : List XR) (h1 : ∀ v ∈ l1, v.okUpper) (h2 : ∀ v ∈ l2, v.okUpper) :
    ∀ v ∈ List.zipWith XR.min l1 l2, v.okUpper := by
  induction l1 generalizing l2 with
  | nil => simp
  | cons a as ih => cases l2 with
    | nil => simp
    | cons b bs =>
      simp only [List.forall_mem_cons] at h1 h2
      simp only [List.zipWith_cons_cons, List.forall_mem_cons]
      exact ⟨okUpper_min a b h1.1 h2.1, ih bs h1.2 h2.2⟩

theorem inBounds_inf (n m : ℕ) (tol : ℝ) (x : Vec) :
    inBounds (List.replicate n .ninf) (List.replicate m .pinf) tol x := by
  constructor
  · intro q hq r hr
    have := (List.of_mem_zip hq).1
    rw [List.mem_replicate] at this
    rw [this.2] at hr; cases hr
  · intro q hq r hr
    have := (List.of_mem_zip hq).1
    rw [List.mem_replicate] at this
    rw [this.2] at hr; cases hr

/-! ### Linear and quadratic constraints -/

theorem mulVec_append (A1 A2 : List Vec) (x : Vec) :
    Vec.mulVec (A1 ++ A2) x = Vec.mulVec A1 x ++ Vec.mulVec A2 x := by simp [Vec.mulVec]

theorem inIneq_append (A1 A2 : List Vec) (b1 b2 : List ℝ) (h : A1.length = b1.length) (tol : ℝ) (x : Vec) :
    inIneq (A1 ++ A2) (b1 ++ b2) tol x ↔ inIneq A1 b1 tol x ∧ inIneq A2 b2 tol x := by
  unfold inIneq
  rw [mulVec_append, List.zip_append (by simpa using h)]
  simp only [List.forall_mem_append]

theorem inEq_append (A1 A2 : List Vec) (b1 b2 : List ℝ) (h : A1.length = b1.length) (tol : ℝ) (x : Vec) :
    inEq (A1 ++ A2) (b1 ++ b2) tol x ↔ inEq A1 b1 tol x ∧ inEq A2 b2 tol x := by
  unfold inEq
  rw [mulVec_append, List.zip_append (by simpa using h)]
  simp only [List.forall_mem_append]

theorem inQuad_append (L1 L2 : List (List Vec)) (y1 y2 : List Vec) (r1 r2 : List ℝ)
    (h : L1.length = y1.length) (h' : y1.length = r1.length) (tol : ℝ) (x : Vec) :
    inQuad (L1 ++ L2) (y1 ++ y2) (r1 ++ r2) tol x ↔ inQuad L1 y1 r1 tol x ∧ inQuad L2 y2 r2 tol x := by
  unfold inQuad
  rw [List.zip_append h', List.zip_append (by simp [h, h'])]
  simp only [List.forall_mem_append]

theorem inIneq_nil (b : List ℝ) (tol : ℝ) (x : Vec) : inIneq [] b tol x := by
  intro q hq; simp [Vec.mulVec] at hq
theorem inIneq_nil_right (A : List Vec) (tol : ℝ) (x : Vec) : inIneq A [] tol x := by
  intro q hq; simp at hq
theorem inEq_nil (b : List ℝ) (tol : ℝ) (x : Vec) : inEq [] b tol x := by
  intro q hq; simp [Vec.mulVec] at hq
theorem inEq_nil_right (A : List Vec) (tol : ℝ) (x : Vec) : inEq A [] tol x := by
  intro q hq; simp at hq
theorem inQuad_nil (ys : List Vec) (rhos : List ℝ) (tol : ℝ) (x : Vec) : inQuad [] ys rhos tol x := by
  intro q hq; simp at hq

theorem inIneq_iff (A : List Vec) (b : List ℝ) (tol : ℝ) (x : Vec) :
    inIneq A b tol x ↔ ∀ (i : ℕ) (row : Vec) (bi : ℝ), A[i]? = some row → b[i]? = some bi →
      Vec.dot row x ≤ bi + tol := by
  unfold inIneq
  rw [forall_mem_zip]
  constructor
  · intro h i row bi hA hb
    exact h i (Vec.dot row x) bi (by simp [Vec.mulVec, hA]) hb
  · intro h i v bi hv hb
    simp only [Vec.mulVec, List.getElem?_map, Option.map_eq_some_iff] at hv
    obtain ⟨row, hA, rfl⟩ := hv
    exact h i row bi hA hb

theorem inEq_iff (A : List Vec) (b : List ℝ) (tol : ℝ) (x : Vec) :
    inEq A b tol x ↔ ∀ (i : ℕ) (row : Vec) (bi : ℝ), A[i]? = some row → b[i]? = some bi →
      |Vec.dot row x - bi| < tol := by
  unfold inEq
  rw [forall_mem_zip]
  constructor
  · intro h i row bi hA hb
    exact h i (Vec.dot row x) bi (by simp [Vec.mulVec, hA]) hb
  · intro h i v bi hv hb
    simp only [Vec.mulVec, List.getElem?_map, Option.map_eq_some_iff] at hv
    obtain ⟨row, hA, rfl⟩ := hv
    exact h i row bi hA hb

theorem inQuad_iff (Ls : List (List Vec)) (ys : List Vec) (rhos : List ℝ) (tol : ℝ) (x : Vec) :
    inQuad Ls ys rhos tol x ↔ ∀ (i : ℕ) (L : List Vec) (y : Vec) (rho : ℝ), Ls[i]? = some L →
      ys[i]? = some y → rhos[i]? = some rho → Vec.norm (Vec.mulVec L (Vec.sub x y)) ≤ rho + tol := by
  unfold inQuad
  rw [forall_mem_zip]
  constructor
  · intro h i L y rho h1 h2 h3
    exact h i L (y, rho) h1 (by rw [List.getElem?_zip_eq_some]; exact ⟨h2, h3⟩)
  · intro h i L q h1 h2
    rw [List.getElem?_zip_eq_some] at h2
    exact h i L q.1 q.2 h1 h2.1 h2.2

theorem inBounds_iff (lb ub : List XR) (tol : ℝ) (x : Vec) :
    inBounds lb ub tol x ↔
      (∀ (i : ℕ) (r xi : ℝ), lb[i]? = some (XR.fin r) → x[i]? = some xi → r - tol ≤ xi) ∧
      (∀ (i : ℕ) (r xi : ℝ), ub[i]? = some (XR.fin r) → x[i]? = some xi → xi ≤ r + tol) := by
  unfold inBounds
  rw [forall_mem_zip, forall_mem_zip]
  constructor
  · rintro ⟨h1, h2⟩
    exact ⟨fun i r xi ha hb => h1 i _ xi ha hb r rfl, fun i r xi ha hb => h2 i _ xi ha hb r rfl⟩
  · rintro ⟨h1, h2⟩
    refine ⟨fun i a b ha hb r hr => ?_, fun i a b ha hb r hr => ?_⟩
    · simp only at hr; subst hr; exact h1 i r b ha hb
    · simp only at hr; subst hr; exact h2 i r b ha hb

/-! ### The argument initializers -/

theorem initLb_spec {n : ℕ} {o : Option (List XR)} {l : List XR} (h : initLb n o = .ok l) :
    (o = none ∧ l = List.replicate n .ninf) ∨ (o = some l ∧ l.length = n) := by
  cases o with
  | none => simp [initLb] at h; left; exact ⟨rfl, h.symm⟩
  | some v =>
    simp only [initLb] at h
    split at h
    · rename_i hl; cases h; right; exact ⟨rfl, hl⟩
    · cases h

theorem initUb_spec {n : ℕ} {o : Option (List XR)} {l : List XR} (h : initUb n o = .ok l) :
    (o = none ∧ l = List.replicate n .pinf) ∨ (o = some l ∧ l.length = n) := by
  cases o with
  | none => simp [initUb] at h; left; exact ⟨rfl, h.symm⟩
  | some v =>
    simp only [initUb] at h
    split at h
    · rename_i hl; cases h; right; exact ⟨rfl, hl⟩
    · cases h

theorem initIneq_spec {n : ℕ} {o : Option (List Vec)} {o' : Option (List ℝ)} {A : List Vec} {b : List ℝ}
    (h : initIneq n o o' = .ok (A, b)) :
    (o = none ∧ o' = none ∧ A = [] ∧ b = []) ∨
    (o = some A ∧ o' = some b ∧ (∀ r ∈ A, r.length = n) ∧ A.length = b.length) := by
  cases o <;> cases o' <;> simp only [initIneq] at h
  · cases h; simp
  · cases h
  · cases h
  · split at h
    · rename_i hl; cases h; right; exact ⟨rfl, rfl, hl⟩
    · cases h

theorem initQuad_spec {n : ℕ} {o : Option (List (List Vec))} {o' : Option (List Vec)} {o'' : Option (List ℝ)}
    {Ls ys rhos} (h : initQuad n o o' o'' = .ok (Ls, ys, rhos)) :
    (o = none ∧ o' = none ∧ o'' = none ∧ Ls = [] ∧ ys = [] ∧ rhos = []) ∨
    (o = some Ls ∧ o' = some ys ∧ o'' = some rhos ∧ Ls.length = ys.length ∧ ys.length = rhos.length ∧
      (∀ L ∈ Ls, L ≠ [] ∧ ∀ r ∈ L, r.length = n) ∧ (∀ y ∈ ys, y.length = n) ∧ (∀ r ∈ rhos, 0 < r)) := by
  cases o <;> cases o' <;> cases o'' <;> simp only [initQuad] at h
  case none.none.none => cases h; simp
  case some.some.some =>
    split at h
    · rename_i hl; cases h; right; exact ⟨rfl, rfl, rfl, hl⟩
    · cases h
  all_goals cases h

theorem bind_ok {α β : Type} {x : Except Err α} {f : α → Except Err β} {b : β} (h : (x >>= f) = .ok b) :
    ∃ a, x = .ok a ∧ f a = .ok b := by
  cases x with
  | error e => cases h
  | ok a => exact ⟨a, rfl, h⟩

/-- What a successful merge computed. -/
theorem merge_spec {self : LQ} {a : Args} {d : LQ} (h : mergeConstraints self a = .ok d) :
    ∃ lb ub A b Aeq beq Ls ys rhos, initLb self.n a.lb = .ok lb ∧ initUb self.n a.ub = .ok ub ∧
      initIneq self.n a.A a.b = .ok (A, b) ∧ initIneq self.n a.Aeq a.beq = .ok (Aeq, beq) ∧
      initQuad self.n a.Ls a.ys a.rhos = .ok (Ls, ys, rhos) ∧
      d = { n := self.n, lb := List.zipWith XR.max lb self.lb, ub := List.zipWith XR.min ub self.ub,
            A := self.A ++ A, b := self.b ++ b, Aeq := self.Aeq ++ Aeq, beq := self.beq ++ beq,
            Ls := self.Ls ++ Ls, ys := self.ys ++ ys, rhos := self.rhos ++ rhos } := by
  unfold mergeConstraints at h
  obtain ⟨lb, h1, h⟩ := bind_ok h
  obtain ⟨ub, h2, h⟩ := bind_ok h
  obtain ⟨⟨A, b⟩, h3, h⟩ := bind_ok h
  obtain ⟨⟨Aeq, beq⟩, h4, h⟩ := bind_ok h
  obtain ⟨⟨Ls, ys, rhos⟩, h5, h⟩ := bind_ok h
  cases h
  exact ⟨lb, ub, A, b, Aeq, beq, Ls, ys, rhos, h1, h2, h3, h4, h5, rfl⟩

theorem satArgs_iff {n : ℕ} {a : Args} {lb ub A b Aeq beq Ls ys rhos}
    (h1 : initLb n a.lb = .ok lb) (h2 : initUb n a.ub = .ok ub)
    (h3 : initIneq n a.A a.b = .ok (A, b)) (h4 : initIneq n a.Aeq a.beq = .ok (Aeq, beq))
    (h5 : initQuad n a.Ls a.ys a.rhos = .ok (Ls, ys, rhos)) (tol : ℝ) (x : Vec) :
    SatArgs a tol x ↔ inBounds lb ub tol x ∧ inIneq A b tol x ∧ inEq Aeq beq tol x ∧
      inQuad Ls ys rhos tol x := by
  have e1 := initLb_spec h1
  have e2 := initUb_spec h2
  have e3 := initIneq_spec h3
  have e4 := initIneq_spec h4
  have e5 := initQuad_spec h5
  constructor
  · intro h
    refine ⟨?_, ?_, ?_, ?_⟩
    · rw [inBounds_iff]
      constructor
      · rcases e1 with ⟨_, rfl⟩ | ⟨e1, _⟩
        · intro i r xi hi; rw [List.getElem?_replicate] at hi; split at hi <;> cases hi
        · exact h.lb lb e1
      · rcases e2 with ⟨_, rfl⟩ | ⟨e2, _⟩
        · intro i r xi hi; rw [List.getElem?_replicate] at hi; split at hi <;> cases hi
        · exact h.ub ub e2
    · rcases e3 with ⟨_, _, rfl, rfl⟩ | ⟨ha, hb, _⟩
      · exact inIneq_nil _ _ _
      · rw [inIneq_iff]; exact h.ineq A b ha hb
    · rcases e4 with ⟨_, _, rfl, rfl⟩ | ⟨ha, hb, _⟩
      · exact inEq_nil _ _ _
      · rw [inEq_iff]; exact h.eq Aeq beq ha hb
    · rcases e5 with ⟨_, _, _, rfl, rfl, rfl⟩ | ⟨ha, hb, hc, _⟩
      · exact inQuad_nil _ _ _ _
      · rw [inQuad_iff]; exact h.quad Ls ys rhos ha hb hc
  · rintro ⟨hb, hi, he, hq⟩
    rw [inBounds_iff] at hb
    rw [inIneq_iff] at hi
    rw [inEq_iff] at he
    rw [inQuad_iff] at hq
    constructor
    · intro l hl
      rcases e1 with ⟨e, _⟩ | ⟨e, _⟩ <;> rw [e] at hl <;> cases hl
      exact hb.1
    · intro l hl
      rcases e2 with ⟨e, _⟩ | ⟨e, _⟩ <;> rw [e] at hl <;> cases hl
      exact hb.2
    · intro A' b' hA hb'
      rcases e3 with ⟨e, _⟩ | ⟨e, e', _⟩
      · rw [e] at hA; cases hA
      · rw [e] at hA; rw [e'] at hb'; cases hA; cases hb'; exact hi
    · intro A' b' hA hb'
      rcases e4 with ⟨e, _⟩ | ⟨e, e', _⟩
      · rw [e] at hA; cases hA
      · rw [e] at hA; rw [e'] at hb'; cases hA; cases hb'; exact he
    · intro L' y' r' hL hy hr
      rcases e5 with ⟨e, _⟩ | ⟨e, e', e'', _⟩
      · rw [e] at hL; cases hL
      · rw [e] at hL; rw [e'] at hy; rw [e''] at hr; cases hL; cases hy; cases hr; exact hq

theorem replicate_okLower (n : ℕ) : ∀ v ∈ List.replicate n XR.ninf, v.okLower := by
  intro v hv; rw [List.mem_replicate] at hv; rw [hv.2]; trivial
theorem replicate_okUpper (n : ℕ) : ∀ v ∈ List.replicate n XR.pinf, v.okUpper := by
  intro v hv; rw [List.mem_replicate] at hv; rw [hv.2]; trivial

theorem initLb_ok {n a lb} (ha : ArgsOk a) (h : initLb n a.lb = .ok lb) :
    lb.length = n ∧ ∀ v ∈ lb, v.okLower := by
  rcases initLb_spec h with ⟨_, rfl⟩ | ⟨e, hl⟩
  · exact ⟨by simp, replicate_okLower n⟩
  · exact ⟨hl, ha.lb lb e⟩

theorem initUb_ok {n a ub} (ha : ArgsOk a) (h : initUb n a.ub = .ok ub) :
    ub.length = n ∧ ∀ v ∈ ub, v.okUpper := by
  rcases initUb_spec h with ⟨_, rfl⟩ | ⟨e, hl⟩
  · exact ⟨by simp, replicate_okUpper n⟩
  · exact ⟨hl, ha.ub ub e⟩

/-- Membership in the merged data is membership in both. -/
theorem merge_inAll {self : LQ} (hs : self.WF) {a : Args} (ha : ArgsOk a) {d : LQ}
    (h : mergeConstraints self a = .ok d) (tol : ℝ) (x : Vec) :
    d.inAll tol x ↔ self.inAll tol x ∧ SatArgs a tol x := by
  obtain ⟨lb, ub, A, b, Aeq, beq, Ls, ys, rhos, h1, h2, h3, h4, h5, rfl⟩ := merge_spec h
  rw [satArgs_iff h1 h2 h3 h4 h5]
  obtain ⟨hlb, hlb'⟩ := initLb_ok ha h1
  obtain ⟨hub, hub'⟩ := initUb_ok ha h2
  unfold LQ.inAll
  simp only
  rw [inBounds_merge _ _ _ _ (by rw [hlb, hs.lb_len]) (by rw [hub, hs.ub_len]) hlb' hs.lb_ok hub' hs.ub_ok,
    inIneq_append _ _ _ _ hs.A_len, inEq_append _ _ _ _ hs.Aeq_len,
    inQuad_append _ _ _ _ _ _ hs.Ls_len hs.ys_len]
  tauto

/-- The merged data is well formed. -/
theorem merge_wf {self : LQ} (hs : self.WF) {a : Args} (ha : ArgsOk a) {d : LQ}
    (h : mergeConstraints self a = .ok d) : d.WF ∧ d.n = self.n := by
  obtain ⟨lb, ub, A, b, Aeq, beq, Ls, ys, rhos, h1, h2, h3, h4, h5, rfl⟩ := merge_spec h
  obtain ⟨hlb, hlb'⟩ := initLb_ok ha h1
  obtain ⟨hub, hub'⟩ := initUb_ok ha h2
  have e3 : (∀ r ∈ A, r.length = self.n) ∧ A.length = b.length := by
    rcases initIneq_spec h3 with ⟨_, _, rfl, rfl⟩ | ⟨_, _, h⟩
    · simp
    · exact h
  have e4 : (∀ r ∈ Aeq, r.length = self.n) ∧ Aeq.length = beq.length := by
    rcases initIneq_spec h4 with ⟨_, _, rfl, rfl⟩ | ⟨_, _, h⟩
    · simp
    · exact h
  have e5 : Ls.length = ys.length ∧ ys.length = rhos.length ∧
      (∀ L ∈ Ls, L ≠ [] ∧ ∀ r ∈ L, r.length = self.n) ∧ (∀ y ∈ ys, y.length = self.n) ∧
      (∀ r ∈ rhos, 0 < r) := by
    rcases initQuad_spec h5 with ⟨_, _, _, rfl, rfl, rfl⟩ | ⟨_, _, _, h⟩
    · simp
    · exact h
  refine ⟨⟨?_, ?_, ?_, ?_, ?_, ?_, ?_, ?_, ?_, ?_, ?_, ?_, ?_⟩, rfl⟩
  · simp [hlb, hs.lb_len]
  · simp [hub, hs.ub_len]
  · exact okLower_zipWith _ _ hlb' hs.lb_ok
  · exact okUpper_zipWith _ _ hub' hs.ub_ok
  · simp only [List.forall_mem_append]; exact ⟨hs.A_w, e3.1⟩
  · simp [hs.A_len, e3.2]
  · simp only [List.forall_mem_append]; exact ⟨hs.Aeq_w, e4.1⟩
  · simp [hs.Aeq_len, e4.2]
  · simp [hs.Ls_len, e5.1]
  · simp [hs.ys_len, e5.2.1]
  · simp only [List.forall_mem_append]; exact ⟨hs.Ls_w, e5.2.2.1⟩
  · simp only [List.forall_mem_append]; exact ⟨hs.ys_w, e5.2.2.2.1⟩
  · simp only [List.forall_mem_append]; exact ⟨hs.rhos_pos, e5.2.2.2.2⟩

/-- The initializers succeed exactly on arguments of consistent shape. -/
theorem merge_ok_iff (self : LQ) (a : Args) :
    (∃ d, mergeConstraints self a = .ok d) ↔ ArgsShape self.n a := by
  constructor
  · rintro ⟨d, h⟩
    obtain ⟨lb, ub, A, b, Aeq, beq, Ls, ys, rhos, h1, h2, h3, h4, h5, rfl⟩ := merge_spec h
    constructor
    · intro l hl
      rcases initLb_spec h1 with ⟨e, _⟩ | ⟨e, e'⟩ <;> rw [e] at hl <;> cases hl; exact e'
    · intro l hl
      rcases initUb_spec h2 with ⟨e, _⟩ | ⟨e, e'⟩ <;> rw [e] at hl <;> cases hl; exact e'
    · rcases initIneq_spec h3 with ⟨e, e', _⟩ | ⟨e, e', _⟩ <;> simp [e, e']
    · intro A' b' hA hb
      rcases initIneq_spec h3 with ⟨e, e', _⟩ | ⟨e, e', h⟩
      · rw [e] at hA; cases hA
      · rw [e] at hA; rw [e'] at hb; cases hA; cases hb; exact h
    · rcases initIneq_spec h4 with ⟨e, e', _⟩ | ⟨e, e', _⟩ <;> simp [e, e']
    · intro A' b' hA hb
      rcases initIneq_spec h4 with ⟨e, e', _⟩ | ⟨e, e', h⟩
      · rw [e] at hA; cases hA
      · rw [e] at hA; rw [e'] at hb; cases hA; cases hb; exact h
    · rcases initQuad_spec h5 with ⟨e, e', e'', _⟩ | ⟨e, e', e'', _⟩ <;> simp [e, e', e'']
    · intro A' b' c' hA hb hc
      rcases initQuad_spec h5 with ⟨e, e', e'', _⟩ | ⟨e, e', e'', h⟩
      · rw [e] at hA; cases hA
      · rw [e] at hA; rw [e'] at hb; rw [e''] at hc; cases hA; cases hb; cases hc; exact h
  · intro h
    have h1 : ∃ lb, initLb self.n a.lb = .ok lb := by
      rcases hh : a.lb with _ | l
      · exact ⟨_, rfl⟩
      · exact ⟨l, by simp [initLb, h.lb l hh]⟩
    have h2 : ∃ lb, initUb self.n a.ub = .ok lb := by
      rcases hh : a.ub with _ | l
      · exact ⟨_, rfl⟩
      · exact ⟨l, by simp [initUb, h.ub l hh]⟩
    have h3 : ∃ q, initIneq self.n a.A a.b = .ok q := by
      have hb := h.ineq_both
      rcases hA : a.A with _ | A <;> rcases hB : a.b with _ | B <;> simp [hA, hB] at hb
      · exact ⟨_, rfl⟩
      · exact ⟨(A, B), by rw [initIneq, if_pos (h.ineq A B hA hB)]⟩
    have h4 : ∃ q, initIneq self.n a.Aeq a.beq = .ok q := by
      have hb := h.eq_both
      rcases hA : a.Aeq with _ | A <;> rcases hB : a.beq with _ | B <;> simp [hA, hB] at hb
      · exact ⟨_, rfl⟩
      · exact ⟨(A, B), by rw [initIneq, if_pos (h.eq A B hA hB)]⟩
    have h5 : ∃ q, initQuad self.n a.Ls a.ys a.rhos = .ok q := by
      have hb := h.quad_both
      rcases hA : a.Ls with _ | A <;> rcases hB : a.ys with _ | B <;> rcases hC : a.rhos with _ | C <;>
        simp [hA, hB, hC] at hb
      · exact ⟨_, rfl⟩
      · exact ⟨(A, B, C), by rw [initQuad, if_pos (h.quad A B C hA hB hC)]⟩
    obtain ⟨lb, h1⟩ := h1
    obtain ⟨ub, h2⟩ := h2
    obtain ⟨q3, h3⟩ := h3
    obtain ⟨q4, h4⟩ := h4
    obtain ⟨q5, h5⟩ := h5
    unfold mergeConstraints
    rw [h1, h2, h3, h4, h5]
    exact ⟨_, rfl⟩

/-! ### Classes -/

theorem base_wf_acc {b : Base} (h : b.WF) : b.acc.WF := by
  cases b with
  | linineq d =>
    obtain ⟨h, e1, e2, e3⟩ := h
    have : (Base.linineq d).acc = d := by
      cases d; simp_all [Base.acc]
    rw [this]; exact h
  | hull X d => exact h.1
  | linquad d => exact h
  | box l u => exact h
  | point x => exact h
  | normal m L c => exact h
  | unbounded n => exact h

theorem base_inside_iff (nnls : NNLS) (tol : ℝ) {b : Base} (hp : b.Plain) (x : Vec) :
    b.inside nnls tol x ↔ b.acc.inAll tol x := by
  cases b with
  | linineq d => 
    simp only [Base.inside, Base.acc, LQ.inAll]
    have := inQuad_nil [] [] tol x
    tauto
  | hull X d => exact absurd hp id
  | linquad d => rfl
  | box l u => 
    simp only [Base.inside, Base.acc, LQ.inAll]
    have h1 := inQuad_nil [] [] tol x
    have h2 := inIneq_nil [] tol x
    have h3 := inEq_nil [] tol x
    tauto
  | point x => exact absurd hp id
  | normal m L c =>
    simp only [Base.inside, LQ.inAll]
    have h1 : inBounds (Base.normal m L c).acc.lb (Base.normal m L c).acc.ub tol x := inBounds_inf _ _ _ _
    have h2 : inIneq (Base.normal m L c).acc.A (Base.normal m L c).acc.b tol x := inIneq_nil [] tol x
    have h3 : inEq (Base.normal m L c).acc.Aeq (Base.normal m L c).acc.beq tol x := inEq_nil [] tol x
    tauto
  | unbounded n =>
    simp only [Base.inside, LQ.inAll, Base.acc]
    have h0 := inBounds_inf n n tol x
    have h1 := inQuad_nil [] [] tol x
    have h2 := inIneq_nil [] tol x
    have h3 := inEq_nil [] tol x
    tauto

end Verif.Domain
