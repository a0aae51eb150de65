import Verif.Domain.CtorModel
import Verif.Domain.MembershipProps

/-!
# The constructors of linearly and quadratically constrained domains (C116)
-/

namespace Verif.Domain

open Verif

/-! ## Specification -/

/-- The bounds meant by an argument: a number is the bound of one coordinate. -/
def BoundArg.vals : BoundArg → List XR
  | .scalar x => [x]
  | .vec l => l

/-- The constraints `rows x <= rhs` meant by a matrix and a right hand side: one row with one number, or a matrix with as many rows as
the right hand side has entries. -/
inductive RowsMean : MatArg → RhsArg → List Vec → List ℝ → Prop where
  | row1 (l : Vec) (x : ℝ) : RowsMean (.vec l) (.scalar x) [l] [x]
  | row2 (l : Vec) (x : ℝ) : RowsMean (.vec l) (.vec [x]) [l] [x]
  | mat1 (c : ℕ) (r : Vec) (x : ℝ) : RowsMean (.mat c [r]) (.scalar x) [r] [x]
  | mat2 (c : ℕ) (rows : List Vec) (b : List ℝ) (h : rows.length = b.length) : RowsMean (.mat c rows) (.vec b) rows b

/-- The constraints meant by two optional arguments: none, or both given. -/
inductive RowsMean? : Option MatArg → Option RhsArg → Option (List Vec) → Option (List ℝ) → Prop where
  | none : RowsMean? none none none none
  | some {A b rows rhs} (h : RowsMean A b rows rhs) : RowsMean? (some A) (some b) (some rows) (some rhs)

/-- The constraints a user writes with the arguments. -/
structure Means (r : RawArgs) (a : Args) : Prop where
  lb : a.lb = r.lb.map BoundArg.vals
  ub : a.ub = r.ub.map BoundArg.vals
  ineq : RowsMean? r.A r.b a.A a.b
  eq : RowsMean? r.Aeq r.beq a.Aeq a.beq
  Ls : a.Ls = r.Ls
  ys : a.ys = r.ys
  rhos : a.rhos = r.rhos

/-- Arrays are rectangular. -/
structure RawArgs.Rect (r : RawArgs) : Prop where
  A : ∀ c rows, r.A = some (.mat c rows) → ∀ v ∈ rows, v.length = c
  Aeq : ∀ c rows, r.Aeq = some (.mat c rows) → ∀ v ∈ rows, v.length = c
  Ls : ∀ Ls, r.Ls = some Ls → ∀ L ∈ Ls, ∀ u ∈ L, ∀ v ∈ L, u.length = v.length

/-- The first of `lb`, `ub`, `A`, `A_eq`, `Ls` that is given shows the dimension `n`: a bound always does, a matrix if it has a row and is
not given as a single row. -/
def ShowsDim (r : RawArgs) (n : ℕ) : Prop :=
  (∃ l, r.lb = some l ∧ l.vals.length = n) ∨
  (r.lb = none ∧ ∃ u, r.ub = some u ∧ u.vals.length = n) ∨
  (r.lb = none ∧ r.ub = none ∧ ∃ rows, r.A = some (.mat n rows) ∧ rows ≠ []) ∨
  (r.lb = none ∧ r.ub = none ∧ r.A = none ∧ ∃ rows, r.Aeq = some (.mat n rows) ∧ rows ≠ []) ∨
  (r.lb = none ∧ r.ub = none ∧ r.A = none ∧ r.Aeq = none ∧ ∃ v L Ls, r.Ls = some ((v :: L) :: Ls) ∧ v.length = n)

/-! ## Lemmas -/

theorem boundArg_dim (l : BoundArg) : l.dim = l.vals.length := by cases l <;> rfl

theorem matArg_dim_iff (A : MatArg) (n : ℕ) : A.dim = .ok n ↔ ∃ rows, A = .mat n rows ∧ rows ≠ [] := by
  rcases A with (_ | ⟨_, _⟩) | ⟨c, _ | ⟨_, _⟩⟩ <;> simp [MatArg.dim]

theorem quadDim_iff (Ls : List (List Vec)) (n : ℕ) : quadDim Ls = .ok n ↔ ∃ v L Ls', Ls = (v :: L) :: Ls' ∧ v.length = n := by
  rcases Ls with _ | ⟨_ | ⟨_, _⟩, _⟩ <;> simp [quadDim]

theorem initDim_iff (r : RawArgs) (n : ℕ) : initDim r = .ok n ↔ ShowsDim r n := by
  unfold initDim ShowsDim
  rcases h1 : r.lb with _ | l
  · rcases h2 : r.ub with _ | u
    · rcases h3 : r.A with _ | A
      · rcases h4 : r.Aeq with _ | A
        · rcases h5 : r.Ls with _ | Ls
          · simp
          · simp [quadDim_iff]
        · simp [matArg_dim_iff]
      · simp [matArg_dim_iff]
    · simp [boundArg_dim]
  · simp [boundArg_dim]

theorem initBound_iff (n : ℕ) (d : XR) (o : Option BoundArg) (l : List XR) :
    initBound n d o = .ok l ↔ (o = none ∧ l = List.replicate n d) ∨ (∃ v, o.map BoundArg.vals = some v ∧ v.length = n ∧ l = v) := by
  rcases o with _ | x | v
  · simp [initBound, eq_comm]
  · simp only [initBound]
    split <;> simp_all [BoundArg.vals, eq_comm]
  · simp only [initBound]
    split
    · simp_all [BoundArg.vals, eq_comm]
    · rename_i hv
      simp only [reduceCtorEq, false_iff, not_or, not_and, not_exists, Option.map_some, Option.some.injEq, BoundArg.vals]
      exact ⟨fun h => absurd h (by simp), fun w e hw => absurd (e ▸ hw) hv⟩

theorem matRows_iff (n : ℕ) (A : MatArg) (bA : RhsArg) (rows : List Vec) (rhs : List ℝ)
    (hrect : ∀ c rs, A = .mat c rs → ∀ v ∈ rs, v.length = c) (hempty : ∀ c, A = .mat c [] → c = n) :
    (rhsVec bA = .ok rhs ∧ matRows n rhs A = .ok rows) ↔ RowsMean A bA rows rhs ∧ (∀ v ∈ rows, v.length = n) := by
  constructor
  · rintro ⟨h1, h2⟩
    rcases A with l | ⟨c, rs⟩
    · simp only [matRows] at h2
      split at h2
      · split at h2
        · rename_i hb hl
          injection h2 with h2
          subst h2
          rcases bA with x | v | _
          · injection h1 with h1; subst h1
            exact ⟨.row1 l x, by simpa using hl⟩
          · injection h1 with h1; subst h1
            obtain ⟨x, rfl⟩ := List.length_eq_one_iff.1 hb
            exact ⟨.row2 l x, by simpa using hl⟩
          · cases h1
        · cases h2
      · cases h2
    · simp only [matRows] at h2
      split at h2
      · rename_i hc
        split at h2
        · rename_i hb
          injection h2 with h2
          subst h2
          have hw := hrect c rs rfl
          rw [hc] at hw
          rcases bA with x | v | _
          · injection h1 with h1; subst h1
            obtain ⟨r, rfl⟩ := List.length_eq_one_iff.1 (show rs.length = 1 from hb)
            exact ⟨.mat1 c r x, hw⟩
          · injection h1 with h1; subst h1
            exact ⟨.mat2 c rs v hb, hw⟩
          · cases h1
        · cases h2
      · cases h2
  · rintro ⟨h, hw⟩
    cases h with
    | row1 l x =>
      have hl : l.length = n := hw l (by simp)
      exact ⟨rfl, by simp [matRows, hl]⟩
    | row2 l x =>
      have hl : l.length = n := hw l (by simp)
      exact ⟨rfl, by simp [matRows, hl]⟩
    | mat1 c r x =>
      have hl : r.length = n := hw r (by simp)
      have hc := hrect c [r] rfl r (by simp)
      exact ⟨rfl, by simp [matRows, ← hc, hl]⟩
    | mat2 c rows b hlen =>
      refine ⟨rfl, ?_⟩
      have hc : c = n := by
        rcases rows with _ | ⟨v, vs⟩
        · exact hempty c rfl
        · rw [← hrect c _ rfl v (by simp), hw v (by simp)]
      simp [matRows, hc, hlen]

theorem initRows_iff (n : ℕ) (A : Option MatArg) (b : Option RhsArg) (rows : List Vec) (rhs : List ℝ)
    (hrect : ∀ c rs, A = some (.mat c rs) → ∀ v ∈ rs, v.length = c) (hempty : ∀ c, A = some (.mat c []) → c = n) :
    initRows n A b = .ok (rows, rhs) ↔
      (A = none ∧ b = none ∧ rows = [] ∧ rhs = []) ∨
      (RowsMean? A b (some rows) (some rhs) ∧ ∀ v ∈ rows, v.length = n) := by
  rcases A with _ | A <;> rcases b with _ | b
  · simp only [initRows, true_and]
    constructor
    · intro h; injection h with h; injection h with h1 h2; exact Or.inl ⟨h1.symm, h2.symm⟩
    · rintro (⟨rfl, rfl⟩ | ⟨h, _⟩)
      · rfl
      · cases h
  · simp only [initRows, reduceCtorEq, false_and, and_false, false_or, false_iff]
    rintro ⟨h, _⟩; cases h
  · simp only [initRows, reduceCtorEq, false_and, false_or, false_iff]
    rintro ⟨h, _⟩; cases h
  · have key := matRows_iff n A b rows rhs (fun c rs e => hrect c rs (by rw [e])) (fun c e => hempty c (by rw [e]))
    simp only [reduceCtorEq, false_and, false_or]
    have h2 : initRows n (some A) (some b) = .ok (rows, rhs) ↔ rhsVec b = .ok rhs ∧ matRows n rhs A = .ok rows := by
      simp only [initRows]
      rcases h3 : rhsVec b with e | b'
      · constructor
        · intro h; cases h
        · rintro ⟨h, _⟩; cases h
      · rcases h4 : matRows n b' A with e | A'
        · constructor
          · intro h
            change (matRows n b' A >>= fun A => pure (A, b') : Except CErr (List Vec × List ℝ)) = _ at h
            rw [h4] at h; cases h
          · rintro ⟨h, h'⟩
            injection h with h; subst h
            rw [h4] at h'; cases h'
        · change (matRows n b' A >>= fun A => pure (A, b') : Except CErr (List Vec × List ℝ)) = _ ↔ _
          rw [h4]
          constructor
          · intro h; injection h with h; injection h with h1 h2; subst h1 h2; exact ⟨rfl, h4⟩
          · rintro ⟨h, h'⟩; injection h with h; subst h; rw [h4] at h'; injection h' with h'; subst h'; rfl
    rw [h2, key]
    constructor
    · rintro ⟨h, hw⟩; exact ⟨.some h, hw⟩
    · rintro ⟨h, hw⟩; cases h with | some h => exact ⟨h, hw⟩

theorem quadLoop_iff (n : ℕ) : ∀ (Ls : List (List Vec)) (ys : List Vec) (rhos : List ℝ), Ls.length = ys.length → ys.length = rhos.length →
    (∀ L ∈ Ls, ∀ u ∈ L, ∀ v ∈ L, u.length = v.length) →
    (quadLoop n Ls ys rhos = .ok () ↔
      (∀ L ∈ Ls, L ≠ [] ∧ ∀ r ∈ L, r.length = n) ∧ (∀ y ∈ ys, y.length = n) ∧ (∀ r ∈ rhos, 0 < r))
  | [], [], [], _, _, _ => by simp [quadLoop]
  | L :: Ls, y :: ys, rho :: rhos, h1, h2, h3 => by
    have ih := quadLoop_iff n Ls ys rhos (by simpa using h1) (by simpa using h2) (fun L hL => h3 L (List.mem_cons_of_mem _ hL))
    simp only [quadLoop, List.forall_mem_cons]
    rcases L with _ | ⟨r, L⟩
    · constructor
      · intro h; cases h
      · rintro ⟨⟨⟨h, _⟩, _⟩, _⟩; exact absurd rfl h
    · have hL := h3 _ List.mem_cons_self
      by_cases hc : r.length = n ∧ y.length = n ∧ 0 < rho
      · have : quadCheck n (r :: L) y rho = .ok () := by simp only [quadCheck]; rw [if_pos hc]
        rw [this]
        change quadLoop n Ls ys rhos = .ok () ↔ _
        rw [ih]
        constructor
        · rintro ⟨a, b, c⟩
          exact ⟨⟨⟨by simp, fun v hv => (hL v hv r List.mem_cons_self).trans hc.1⟩, a⟩, ⟨hc.2.1, b⟩, hc.2.2, c⟩
        · rintro ⟨⟨_, a⟩, ⟨_, b⟩, _, c⟩
          exact ⟨a, b, c⟩
      · have : quadCheck n (r :: L) y rho = .error (.err .assertion) := by simp only [quadCheck]; rw [if_neg hc]
        rw [this]
        constructor
        · intro h; cases h
        · rintro ⟨⟨⟨_, a⟩, _⟩, ⟨b, _⟩, c, _⟩
          exact absurd ⟨a r List.mem_cons_self, b, c⟩ hc
  | [], _ :: _, _, h1, _, _ => by simp at h1
  | _ :: _, [], _, h1, _, _ => by simp at h1
  | [], [], _ :: _, _, h2, _ => by simp at h2
  | _ :: _, _ :: _, [], _, h2, _ => by simp at h2

/-- What `initQuads` accepts. -/
def QuadOk (n : ℕ) (Ls : List (List Vec)) (ys : List Vec) (rhos : List ℝ) : Prop :=
  Ls.length = ys.length ∧ ys.length = rhos.length ∧
    (∀ L ∈ Ls, L ≠ [] ∧ ∀ r ∈ L, r.length = n) ∧ (∀ y ∈ ys, y.length = n) ∧ (∀ r ∈ rhos, 0 < r)

theorem initQuads_iff (n : ℕ) (Ls : Option (List (List Vec))) (ys : Option (List Vec)) (rhos : Option (List ℝ))
    (q : List (List Vec) × List Vec × List ℝ) (hrect : ∀ Ms, Ls = some Ms → ∀ L ∈ Ms, ∀ u ∈ L, ∀ v ∈ L, u.length = v.length) :
    initQuads n Ls ys rhos = .ok q ↔
      (Ls = none ∧ ys = none ∧ rhos = none ∧ q = ([], [], [])) ∨
      (Ls = some q.1 ∧ ys = some q.2.1 ∧ rhos = some q.2.2 ∧ QuadOk n q.1 q.2.1 q.2.2) := by
  rcases Ls with _ | Ls <;> rcases ys with _ | ys <;> rcases rhos with _ | rhos <;>
    simp only [initQuads, reduceCtorEq, false_and, and_false, or_false, false_or, true_and]
  · constructor
    · intro h; injection h with h; exact h.symm
    · rintro rfl; rfl
  · constructor
    · intro h
      split at h
      · rename_i hl
        have hq := quadLoop_iff n Ls ys rhos hl.1 hl.2 (hrect Ls rfl)
        rcases h3 : quadLoop n Ls ys rhos with e | u
        · rw [h3] at h; cases h
        · rw [h3] at h
          injection h with h
          subst h
          exact ⟨rfl, rfl, rfl, hl.1, hl.2, hq.1 h3⟩
      · cases h
    · rintro ⟨h1, h2, h3, h4⟩
      injection h1 with h1; injection h2 with h2; injection h3 with h3
      obtain ⟨q1, q2, q3⟩ := q
      dsimp only at h1 h2 h3 h4
      subst h1 h2 h3
      rw [if_pos ⟨h4.1, h4.2.1⟩, (quadLoop_iff n _ _ _ h4.1 h4.2.1 (hrect _ rfl)).2 h4.2.2]
      rfl

theorem rowsMean_len {A : Option MatArg} {b : Option RhsArg} {rows : List Vec} {rhs : List ℝ} (h : RowsMean? A b (some rows) (some rhs)) :
    rows.length = rhs.length := by
  cases h with
  | some h => cases h <;> first | rfl | assumption

/-- A matrix without rows has as many columns as the space has coordinates. -/
def EmptyCols (r : RawArgs) (n : ℕ) : Prop := (∀ c, r.A = some (.mat c []) → c = n) ∧ ∀ c, r.Aeq = some (.mat c []) → c = n

theorem mkLinQuad_eq_iff (r : RawArgs) (d : LQ) : mkLinQuad r = .ok d ↔
    initDim r = .ok d.n ∧ initBound d.n .ninf r.lb = .ok d.lb ∧ initBound d.n .pinf r.ub = .ok d.ub ∧
    initRows d.n r.A r.b = .ok (d.A, d.b) ∧ initRows d.n r.Aeq r.beq = .ok (d.Aeq, d.beq) ∧
    initQuads d.n r.Ls r.ys r.rhos = .ok (d.Ls, d.ys, d.rhos) := by
  constructor
  · intro h
    unfold mkLinQuad at h
    rcases h1 : initDim r with e | n
    · rw [h1] at h; cases h
    rw [h1] at h
    change (initBound n .ninf r.lb >>= _ : Except CErr LQ) = _ at h
    rcases h2 : initBound n .ninf r.lb with e | lb
    · rw [h2] at h; cases h
    rw [h2] at h
    change (initBound n .pinf r.ub >>= _ : Except CErr LQ) = _ at h
    rcases h3 : initBound n .pinf r.ub with e | ub
    · rw [h3] at h; cases h
    rw [h3] at h
    change (initRows n r.A r.b >>= _ : Except CErr LQ) = _ at h
    rcases h4 : initRows n r.A r.b with e | ⟨A, b⟩
    · rw [h4] at h; cases h
    rw [h4] at h
    change (initRows n r.Aeq r.beq >>= _ : Except CErr LQ) = _ at h
    rcases h5 : initRows n r.Aeq r.beq with e | ⟨Aeq, beq⟩
    · rw [h5] at h; cases h
    rw [h5] at h
    change (initQuads n r.Ls r.ys r.rhos >>= _ : Except CErr LQ) = _ at h
    rcases h6 : initQuads n r.Ls r.ys r.rhos with e | ⟨Ls, ys, rhos⟩
    · rw [h6] at h; cases h
    rw [h6] at h
    injection h with h
    subst h
    exact ⟨rfl, h2, h3, h4, h5, h6⟩
  · rintro ⟨h1, h2, h3, h4, h5, h6⟩
    unfold mkLinQuad
    rw [h1]
    change (initBound d.n .ninf r.lb >>= _ : Except CErr LQ) = _
    rw [h2]
    change (initBound d.n .pinf r.ub >>= _ : Except CErr LQ) = _
    rw [h3]
    change (initRows d.n r.A r.b >>= _ : Except CErr LQ) = _
    rw [h4]
    change (initRows d.n r.Aeq r.beq >>= _ : Except CErr LQ) = _
    rw [h5]
    change (initQuads d.n r.Ls r.ys r.rhos >>= _ : Except CErr LQ) = _
    rw [h6]
    rfl

theorem initRows_empty {n : ℕ} {A : Option MatArg} {b : Option RhsArg} {q : List Vec × List ℝ} (h : initRows n A b = .ok q) (c : ℕ)
    (e : A = some (.mat c [])) : c = n := by
  subst e
  rcases b with _ | b
  · cases h
  · simp only [initRows] at h
    rcases h1 : rhsVec b with e | b'
    · rw [h1] at h; cases h
    · rw [h1] at h
      change (matRows n b' (.mat c []) >>= _ : Except CErr _) = _ at h
      by_contra hne
      simp only [matRows, if_neg hne] at h
      cases h

/-! ## Theorems -/

/-- C116: an object returned by the constructor has the dimension shown by the arguments and consistent shapes, and its members are the
points that satisfy the constraints written. -/
theorem mkLinQuad_spec {r : RawArgs} (hr : r.Rect) {d : LQ} (h : mkLinQuad r = .ok d) :
    ShowsDim r d.n ∧ EmptyCols r d.n ∧ ∃ a, Means r a ∧ ArgsShape d.n a ∧ (ArgsOk a → d.WF) ∧
      ∀ (tol : ℝ) (x : Vec), d.inAll tol x ↔ SatArgs a tol x := by
  obtain ⟨h1, h2, h3, h4, h5, h6⟩ := (mkLinQuad_eq_iff r d).1 h
  have hE : EmptyCols r d.n := ⟨initRows_empty h4, initRows_empty h5⟩
  refine ⟨(initDim_iff r _).1 h1, hE, ?_⟩
  have k4 := (initRows_iff _ _ _ _ _ hr.A hE.1).1 h4
  have k5 := (initRows_iff _ _ _ _ _ hr.Aeq hE.2).1 h5
  have k6 := (initQuads_iff _ _ _ _ _ hr.Ls).1 h6
  have k2 := (initBound_iff _ _ _ _).1 h2
  have k3 := (initBound_iff _ _ _ _).1 h3
  have key4 : ∃ oA ob, RowsMean? r.A r.b oA ob ∧ oA.isSome = ob.isSome ∧ d.A = oA.getD [] ∧ d.b = ob.getD [] ∧
      (∀ v ∈ d.A, v.length = d.n) ∧ d.A.length = d.b.length := by
    rcases k4 with ⟨e1, e2, e3, e4⟩ | ⟨e1, e2⟩
    · exact ⟨none, none, by rw [e1, e2]; exact .none, rfl, e3, e4, by simp [e3], by simp [e3, e4]⟩
    · refine ⟨some d.A, some d.b, e1, rfl, rfl, rfl, e2, ?_⟩
      exact rowsMean_len e1
  have key5 : ∃ oA ob, RowsMean? r.Aeq r.beq oA ob ∧ oA.isSome = ob.isSome ∧ d.Aeq = oA.getD [] ∧ d.beq = ob.getD [] ∧
      (∀ v ∈ d.Aeq, v.length = d.n) ∧ d.Aeq.length = d.beq.length := by
    rcases k5 with ⟨e1, e2, e3, e4⟩ | ⟨e1, e2⟩
    · exact ⟨none, none, by rw [e1, e2]; exact .none, rfl, e3, e4, by simp [e3], by simp [e3, e4]⟩
    · refine ⟨some d.Aeq, some d.beq, e1, rfl, rfl, rfl, e2, ?_⟩
      exact rowsMean_len e1
  obtain ⟨oA, ob, m4, s4, a4, b4, w4, l4⟩ := key4
  obtain ⟨oE, of, m5, s5, a5, b5, w5, l5⟩ := key5
  have key6 : QuadOk d.n d.Ls d.ys d.rhos ∧ d.Ls = r.Ls.getD [] ∧ d.ys = r.ys.getD [] ∧ d.rhos = r.rhos.getD [] ∧
      (r.Ls.isSome = r.ys.isSome ∧ r.ys.isSome = r.rhos.isSome) := by
    rcases k6 with ⟨e1, e2, e3, e4⟩ | ⟨e1, e2, e3, e4⟩
    · injection e4 with e4 e5; injection e5 with e5 e6
      rw [e1, e2, e3, e4, e5, e6]
      exact ⟨⟨rfl, rfl, by simp, by simp, by simp⟩, rfl, rfl, rfl, rfl, rfl⟩
    · rw [e1, e2, e3]
      exact ⟨e4, rfl, rfl, rfl, rfl, rfl⟩
  obtain ⟨q6, L6, y6, p6, s6⟩ := key6
  have key2 : d.lb = (r.lb.map BoundArg.vals).getD (List.replicate d.n .ninf) ∧ d.lb.length = d.n := by
    rcases k2 with ⟨e1, e2⟩ | ⟨v, e1, e2, e3⟩
    · rw [e2, e1]; exact ⟨rfl, by simp⟩
    · rw [e1, e3]; exact ⟨rfl, e2⟩
  have key3 : d.ub = (r.ub.map BoundArg.vals).getD (List.replicate d.n .pinf) ∧ d.ub.length = d.n := by
    rcases k3 with ⟨e1, e2⟩ | ⟨v, e1, e2, e3⟩
    · rw [e2, e1]; exact ⟨rfl, by simp⟩
    · rw [e1, e3]; exact ⟨rfl, e2⟩
  refine ⟨{ A := oA, b := ob, lb := r.lb.map BoundArg.vals, ub := r.ub.map BoundArg.vals, Aeq := oE, beq := of, Ls := r.Ls, ys := r.ys,
            rhos := r.rhos }, ⟨rfl, rfl, m4, m5, rfl, rfl, rfl⟩, ?_, ?_, ?_⟩
  · refine ⟨fun l hl => ?_, fun u hu => ?_, s4, ?_, s5, ?_, s6, ?_⟩
    · have := key2; rw [show r.lb.map BoundArg.vals = some l from hl] at this; rw [← this.2, this.1]; rfl
    · have := key3; rw [show r.ub.map BoundArg.vals = some u from hu] at this; rw [← this.2, this.1]; rfl
    · intro A b hA hb
      dsimp only at hA hb
      rw [hA] at a4; rw [hb] at b4
      change d.A = A at a4; change d.b = b at b4
      rw [← a4, ← b4]; exact ⟨w4, l4⟩
    · intro A b hA hb
      dsimp only at hA hb
      rw [hA] at a5; rw [hb] at b5
      change d.Aeq = A at a5; change d.beq = b at b5
      rw [← a5, ← b5]; exact ⟨w5, l5⟩
    · intro Ls ys rhos e1 e2 e3
      dsimp only at e1 e2 e3
      rw [e1] at L6; rw [e2] at y6; rw [e3] at p6
      change d.Ls = Ls at L6; change d.ys = ys at y6; change d.rhos = rhos at p6
      rw [← L6, ← y6, ← p6]; exact q6
  · intro hok
    refine ⟨key2.2, key3.2, ?_, ?_, w4, l4, w5, l5, q6.1, q6.2.1, q6.2.2.1, q6.2.2.2.1, q6.2.2.2.2⟩
    · intro v hv
      rw [key2.1] at hv
      rcases e : r.lb.map BoundArg.vals with _ | l
      · rw [e] at hv
        rw [show v = .ninf from List.eq_of_mem_replicate hv]; trivial
      · rw [e] at hv; exact hok.lb l e v hv
    · intro v hv
      rw [key3.1] at hv
      rcases e : r.ub.map BoundArg.vals with _ | l
      · rw [e] at hv
        rw [show v = .pinf from List.eq_of_mem_replicate hv]; trivial
      · rw [e] at hv; exact hok.ub l e v hv
  · intro tol x
    unfold LQ.inAll
    rw [inBounds_iff, inIneq_iff, inEq_iff, inQuad_iff]
    have rep : ∀ (n i : ℕ) (v : XR) (t : ℝ), (∀ t, v ≠ .fin t) → (List.replicate n v)[i]? ≠ some (XR.fin t) := by
      intro n i v t hv h
      have := List.mem_of_getElem? h
      exact hv t (List.eq_of_mem_replicate this).symm
    constructor
    · rintro ⟨⟨c1, c2⟩, c3, c4, c5⟩
      constructor
      · intro l hl; rw [key2.1, show r.lb.map BoundArg.vals = some l from hl] at c1; exact c1
      · intro l hl; rw [key3.1, show r.ub.map BoundArg.vals = some l from hl] at c2; exact c2
      · intro A b hA hb; rw [a4, b4, show oA = some A from hA, show ob = some b from hb] at c3; exact c3
      · intro A b hA hb; rw [a5, b5, show oE = some A from hA, show of = some b from hb] at c4; exact c4
      · intro Ls ys rhos e1 e2 e3
        rw [L6, y6, p6, show r.Ls = some Ls from e1, show r.ys = some ys from e2, show r.rhos = some rhos from e3] at c5; exact c5
    · intro hs
      refine ⟨⟨?_, ?_⟩, ?_, ?_, ?_⟩
      · rw [key2.1]
        rcases e : r.lb.map BoundArg.vals with _ | l
        · intro i t xi hi _
          exact absurd hi (rep _ _ _ _ (by simp))
        · exact hs.lb l e
      · rw [key3.1]
        rcases e : r.ub.map BoundArg.vals with _ | l
        · intro i t xi hi _
          exact absurd hi (rep _ _ _ _ (by simp))
        · exact hs.ub l e
      · rw [a4, b4]
        rcases e : oA with _ | A
        · intro i row bi hi; simp at hi
        · rcases e' : ob with _ | b
          · intro i row bi _ hi; simp at hi
          · exact hs.ineq A b e e'
      · rw [a5, b5]
        rcases e : oE with _ | A
        · intro i row bi hi; simp at hi
        · rcases e' : of with _ | b
          · intro i row bi _ hi; simp at hi
          · exact hs.eq A b e e'
      · rw [L6, y6, p6]
        rcases e : r.Ls with _ | Ls
        · intro i L y rho hi; simp at hi
        · rcases e' : r.ys with _ | ys
          · intro i L y rho _ hi; simp at hi
          · rcases e'' : r.rhos with _ | rhos
            · intro i L y rho _ _ hi; simp at hi
            · exact hs.quad Ls ys rhos e e' e''

/-- C116: the constructor succeeds exactly if the arguments show a dimension and all shapes agree with it. -/
theorem mkLinQuad_ok_iff {r : RawArgs} (hr : r.Rect) :
    (∃ d, mkLinQuad r = .ok d) ↔ ∃ n a, ShowsDim r n ∧ EmptyCols r n ∧ Means r a ∧ ArgsShape n a := by
  constructor
  · rintro ⟨d, h⟩
    obtain ⟨h1, h2, a, h3, h4, _⟩ := mkLinQuad_spec hr h
    exact ⟨d.n, a, h1, h2, h3, h4⟩
  · rintro ⟨n, a, h1, h2, h3, h4⟩
    refine ⟨{ n := n, lb := a.lb.getD (List.replicate n .ninf), ub := a.ub.getD (List.replicate n .pinf), A := a.A.getD [],
              b := a.b.getD [], Aeq := a.Aeq.getD [], beq := a.beq.getD [], Ls := a.Ls.getD [], ys := a.ys.getD [],
              rhos := a.rhos.getD [] }, (mkLinQuad_eq_iff _ _).2 ⟨(initDim_iff r n).2 h1, ?_, ?_, ?_, ?_, ?_⟩⟩
    · rw [initBound_iff]
      rcases e : a.lb with _ | l
      · left
        rw [h3.lb] at e
        exact ⟨by simpa using e, rfl⟩
      · right
        exact ⟨l, by rw [← h3.lb, e], h4.lb l e, rfl⟩
    · rw [initBound_iff]
      rcases e : a.ub with _ | l
      · left
        rw [h3.ub] at e
        exact ⟨by simpa using e, rfl⟩
      · right
        exact ⟨l, by rw [← h3.ub, e], h4.ub l e, rfl⟩
    · rw [initRows_iff _ _ _ _ _ hr.A h2.1]
      have hm := h3.ineq
      have hsh := h4.ineq
      generalize a.A = oA at hm hsh ⊢
      generalize a.b = ob at hm hsh ⊢
      generalize r.A = rA at hm ⊢
      generalize r.b = rb at hm ⊢
      cases hm with
      | none => exact Or.inl ⟨rfl, rfl, rfl, rfl⟩
      | some h => exact Or.inr ⟨.some h, (hsh _ _ rfl rfl).1⟩
    · rw [initRows_iff _ _ _ _ _ hr.Aeq h2.2]
      have hm := h3.eq
      have hsh := h4.eq
      generalize a.Aeq = oA at hm hsh ⊢
      generalize a.beq = ob at hm hsh ⊢
      generalize r.Aeq = rA at hm ⊢
      generalize r.beq = rb at hm ⊢
      cases hm with
      | none => exact Or.inl ⟨rfl, rfl, rfl, rfl⟩
      | some h => exact Or.inr ⟨.some h, (hsh _ _ rfl rfl).1⟩
    · rw [initQuads_iff _ _ _ _ _ hr.Ls]
      have hq := h4.quad
      have hs := h4.quad_both
      rw [← h3.Ls, ← h3.ys, ← h3.rhos]
      rcases e1 : a.Ls with _ | Ls
      · rw [e1] at hs
        rcases e2 : a.ys with _ | ys
        · rw [e2] at hs
          rcases e3 : a.rhos with _ | rhos
          · exact Or.inl ⟨rfl, rfl, rfl, rfl⟩
          · rw [e3] at hs; simp at hs
        · rw [e2] at hs; simp at hs
      · rw [e1] at hs
        rcases e2 : a.ys with _ | ys
        · rw [e2] at hs; simp at hs
        · rw [e2] at hs
          rcases e3 : a.rhos with _ | rhos
          · rw [e3] at hs; simp at hs
          · exact Or.inr ⟨rfl, rfl, rfl, hq Ls ys rhos e1 e2 e3⟩

/-- C116: without any argument that shows a dimension the constructor raises the bare `Exception`. -/
theorem mkLinQuad_exception_iff (r : RawArgs) : mkLinQuad r = .error .exception ↔
    r.lb = none ∧ r.ub = none ∧ r.A = none ∧ r.Aeq = none ∧ r.Ls = none := by
  constructor
  · intro h
    have hd : initDim r = .error .exception := by
      rcases h1 : initDim r with e | n
      · unfold mkLinQuad at h
        rw [h1] at h
        injection h with h
        rw [h]
      · exfalso
        unfold mkLinQuad at h
        rw [h1] at h
        change (initBound n .ninf r.lb >>= _ : Except CErr LQ) = _ at h
        have nb : ∀ d o, initBound n d o ≠ .error .exception := by
          intro d o; rcases o with _ | x | v <;> simp only [initBound] <;> [skip; split; split] <;> simp
        have nr : ∀ A b, initRows n A b ≠ .error .exception := by
          intro A b hc
          rcases A with _ | A <;> rcases b with _ | b <;> simp only [initRows] at hc <;> try cases hc
          rcases e : rhsVec b with x | b'
          · rw [e] at hc
            injection hc with hc
            subst hc
            cases b <;> cases e
          · rw [e] at hc
            change (matRows n b' A >>= _ : Except CErr _) = _ at hc
            rcases e' : matRows n b' A with x | A'
            · rw [e'] at hc
              injection hc with hc
              subst hc
              rcases A with l | ⟨c, rs⟩ <;> simp only [matRows] at e' <;> split at e' <;> (try split at e') <;> cases e'
            · rw [e'] at hc; cases hc
        have nq : ∀ Ls ys rhos, quadLoop n Ls ys rhos ≠ .error .exception := by
          intro Ls
          induction Ls with
          | nil => intro ys rhos hc; simp [quadLoop] at hc
          | cons L Ls ih =>
            intro ys rhos hc
            rcases ys with _ | ⟨y, ys⟩
            · simp [quadLoop] at hc
            rcases rhos with _ | ⟨rho, rhos⟩
            · simp [quadLoop] at hc
            simp only [quadLoop] at hc
            rcases e : quadCheck n L y rho with x | u
            · rw [e] at hc
              injection hc with hc
              subst hc
              rcases L with _ | ⟨v, L⟩
              · cases e
              · simp only [quadCheck] at e
                split at e <;> cases e
            · rw [e] at hc
              exact ih ys rhos hc
        have nQ : ∀ oL oy op, initQuads n oL oy op ≠ .error .exception := by
          intro oL oy op hc
          rcases oL with _ | Ls <;> rcases oy with _ | ys <;> rcases op with _ | rhos <;> simp only [initQuads] at hc <;>
            first
            | cases hc; done
            | skip
          split at hc
          · rcases e : quadLoop n Ls ys rhos with x | u
            · rw [e] at hc
              injection hc with hc
              subst hc
              exact nq _ _ _ e
            · rw [e] at hc; cases hc
          · cases hc
        rcases h2 : initBound n .ninf r.lb with e | lb
        · rw [h2] at h; injection h with h; rw [h] at h2; exact nb _ _ h2
        rw [h2] at h
        change (initBound n .pinf r.ub >>= _ : Except CErr LQ) = _ at h
        rcases h3 : initBound n .pinf r.ub with e | ub
        · rw [h3] at h; injection h with h; rw [h] at h3; exact nb _ _ h3
        rw [h3] at h
        change (initRows n r.A r.b >>= _ : Except CErr LQ) = _ at h
        rcases h4 : initRows n r.A r.b with e | ⟨A, b⟩
        · rw [h4] at h; injection h with h; rw [h] at h4; exact nr _ _ h4
        rw [h4] at h
        change (initRows n r.Aeq r.beq >>= _ : Except CErr LQ) = _ at h
        rcases h5 : initRows n r.Aeq r.beq with e | ⟨Aeq, beq⟩
        · rw [h5] at h; injection h with h; rw [h] at h5; exact nr _ _ h5
        rw [h5] at h
        change (initQuads n r.Ls r.ys r.rhos >>= _ : Except CErr LQ) = _ at h
        rcases h6 : initQuads n r.Ls r.ys r.rhos with e | ⟨Ls, ys, rhos⟩
        · rw [h6] at h; injection h with h; rw [h] at h6; exact nQ _ _ _ h6
        rw [h6] at h; cases h
    have hm : ∀ A : MatArg, A.dim ≠ .error .exception := by
      rintro ((_ | ⟨_, _⟩) | ⟨c, _ | ⟨_, _⟩⟩) h <;> cases h
    unfold initDim at hd
    rcases e1 : r.lb with _ | l <;> rw [e1] at hd
    · rcases e2 : r.ub with _ | l <;> rw [e2] at hd
      · rcases e3 : r.A with _ | A <;> rw [e3] at hd
        · rcases e4 : r.Aeq with _ | A <;> rw [e4] at hd
          · rcases e5 : r.Ls with _ | Ls <;> rw [e5] at hd
            · exact ⟨rfl, rfl, rfl, rfl, rfl⟩
            · rcases Ls with _ | ⟨_ | ⟨_, _⟩, _⟩ <;> cases hd
          · exact absurd hd (hm A)
        · exact absurd hd (hm A)
      · cases hd
    · cases hd
  · rintro ⟨e1, e2, e3, e4, e5⟩
    unfold mkLinQuad initDim
    rw [e1, e2, e3, e4, e5]
    rfl

/-- C116 where the code fails: one inequality given as a row and a number (which the constructor means to accept) is refused unless a bound
is given as well. -/
theorem mkLinQuad_row_false (l : Vec) (hl : l ≠ []) (x : ℝ) :
    Means { A := some (.vec l), b := some (.scalar x) } { A := some [l], b := some [x] } ∧
    ArgsShape l.length { A := some [l], b := some [x] } ∧
    mkLinQuad { A := some (.vec l), b := some (.scalar x) } = .error (.err .typeError) ∧
    ∃ d, mkLinQuad { A := some (.vec l), b := some (.scalar x), lb := some (.vec (List.replicate l.length .ninf)) } = .ok d := by
  refine ⟨⟨rfl, rfl, .some (.row1 l x), .none, rfl, rfl, rfl⟩, ?_, ?_, ?_⟩
  · refine ⟨by simp, by simp, rfl, ?_, rfl, by simp, ⟨rfl, rfl⟩, by simp⟩
    intro A b hA hb
    cases hA; cases hb
    simp
  · obtain ⟨v, vs, rfl⟩ := List.exists_cons_of_ne_nil hl
    rfl
  · rw [mkLinQuad_ok_iff ⟨by simp, by simp, by simp⟩]
    refine ⟨l.length, { A := some [l], b := some [x], lb := some (List.replicate l.length .ninf) }, Or.inl ⟨_, rfl, by simp [BoundArg.vals]⟩,
      ⟨by simp, by simp⟩, ⟨rfl, rfl, .some (.row1 l x), .none, rfl, rfl, rfl⟩, ?_⟩
    refine ⟨?_, by simp, rfl, ?_, rfl, by simp, ⟨rfl, rfl⟩, by simp⟩
    · intro m hm; cases hm; simp
    · intro A b hA hb
      cases hA; cases hb
      simp

/-- C116 where the code fails: an empty list of inequalities on a space of known dimension is refused unless a bound is given as well. -/
theorem mkLinQuad_empty_false (n : ℕ) :
    Means { A := some (.mat n []), b := some (.vec []) } { A := some [], b := some [] } ∧
    ArgsShape n { A := some [], b := some [] } ∧
    mkLinQuad { A := some (.mat n []), b := some (.vec []) } = .error (.err .indexError) := by
  refine ⟨⟨rfl, rfl, .some (.mat2 n [] [] rfl), .none, rfl, rfl, rfl⟩, ?_, rfl⟩
  refine ⟨by simp, by simp, rfl, ?_, rfl, by simp, ⟨rfl, rfl⟩, by simp⟩
  intro A b hA hb
  cases hA; cases hb
  simp

/-- C116 where the code fails: the constructor accepts `+inf` as a lower bound, and then every number belongs to the domain. -/
theorem mkLinQuad_inf_false : ∃ d, mkLinQuad { lb := some (.scalar .pinf), ub := some (.scalar .pinf) } = .ok d ∧
    ∀ (tol x : ℝ), d.inAll tol [x] := by
  refine ⟨_, rfl, fun tol x => ?_⟩
  refine ⟨⟨?_, ?_⟩, ?_, ?_, ?_⟩
  · intro q hq r hr
    simp only [List.zip_cons_cons, List.zip_nil_right, List.mem_singleton] at hq
    subst hq; cases hr
  · intro q hq r hr
    simp only [List.zip_cons_cons, List.zip_nil_right, List.mem_singleton] at hq
    subst hq; cases hr
  · intro q hq; simp at hq
  · intro q hq; simp at hq
  · intro q hq; simp at hq

/-- A disk cut by a half plane, with a scalar right hand side. -/
def cutDisk : RawArgs :=
  { A := some (.mat 2 [[1, 1]]), b := some (.scalar 1), Ls := some [[[1, 0], [0, 1]]], ys := some [[0, 0]], rhos := some [1] }

/-- Its constraints. -/
def cutDiskArgs : Args := { A := some [[1, 1]], b := some [1], Ls := some [[[1, 0], [0, 1]]], ys := some [[0, 0]], rhos := some [1] }

example : ∃ d, mkLinQuad cutDisk = .ok d ∧ d.n = 2 := by
  have hok : ∃ d, mkLinQuad cutDisk = .ok d := by
    refine (mkLinQuad_ok_iff (r := cutDisk) ⟨by simp [cutDisk], by simp [cutDisk], by simp [cutDisk]⟩).2 ?_
    refine ⟨2, cutDiskArgs, Or.inr (Or.inr (Or.inl ⟨rfl, rfl, _, rfl, by simp⟩)), ⟨by simp [cutDisk], by simp [cutDisk]⟩,
      ⟨rfl, rfl, .some (.mat1 2 _ 1), .none, rfl, rfl, rfl⟩, ?_⟩
    refine ⟨by simp [cutDiskArgs], by simp [cutDiskArgs], rfl, ?_, rfl, by simp [cutDiskArgs], ⟨rfl, rfl⟩, ?_⟩
    · intro A b hA hb; cases hA; cases hb; simp
    · intro Ls ys rhos e1 e2 e3; cases e1; cases e2; cases e3; simp
  obtain ⟨d, hd⟩ := hok
  refine ⟨d, hd, ?_⟩
  have := ((mkLinQuad_eq_iff _ _).1 hd).1
  injection this with this
  exact this.symm

end Verif.Domain
