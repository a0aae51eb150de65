import Verif.Domain.SolverLemmas

/-!
# Properties C14, C15, C16: `corner`, `closest_point`, `constrained_least_squares`

The set described by a domain is `Dom.Holds` (no tolerances).
-/

namespace Verif.Domain

open Classical Verif

/-! ## What is assumed of the solver -/

/-- `z` minimizes `f` over the `n`-dimensional points of `F`. -/
def IsMinOver (n : ℕ) (F : Vec → Prop) (f : Vec → ℝ) (z : Vec) : Prop :=
  z.length = n ∧ F z ∧ ∀ w, w.length = n → F w → f z ≤ f w

/-- The answers of the solver are right (it may also give up). -/
structure ExactSolver (S : Solver) : Prop where
  infeasible : ∀ n F f, S n F f = .infeasible → ∀ z : Vec, z.length = n → ¬ F z
  unbounded : ∀ n F f, S n F f = .unbounded → ∀ B, ∃ z : Vec, z.length = n ∧ F z ∧ f z < B
  optimal : ∀ n F f z, S n F f = .optimal z → IsMinOver n F f z

/-- The solver moreover never gives up on an empty problem, an unbounded one, or one with a solution. -/
structure CompleteSolver (S : Solver) : Prop extends ExactSolver S where
  finds_infeasible : ∀ n F f, (∀ z : Vec, z.length = n → ¬ F z) → S n F f = .infeasible
  finds_unbounded : ∀ n F f, (∀ B, ∃ z : Vec, z.length = n ∧ F z ∧ f z < B) → S n F f = .unbounded
  finds_optimal : ∀ n F f z, IsMinOver n F f z → ∃ w, S n F f = .optimal w

/-- Complete solvers exist. -/
theorem completeSolver_exists : ∃ S, CompleteSolver S := by
  refine ⟨fun n F f => if ∀ z : Vec, z.length = n → ¬ F z then .infeasible
    else if ∀ B, ∃ z : Vec, z.length = n ∧ F z ∧ f z < B then .unbounded
    else if h : ∃ z, IsMinOver n F f z then .optimal h.choose else .other, ?_⟩
  have key : ∀ n F f z, IsMinOver n F f z → (¬ ∀ z : Vec, z.length = n → ¬ F z) ∧
      ¬ ∀ B, ∃ z : Vec, z.length = n ∧ F z ∧ f z < B := by
    rintro n F f z ⟨h1, h2, h3⟩
    refine ⟨fun h => h z h1 h2, fun h => ?_⟩
    obtain ⟨w, w1, w2, w3⟩ := h (f z)
    exact absurd (h3 w w1 w2) (not_le.2 w3)
  refine ⟨⟨?_, ?_, ?_⟩, ?_, ?_, ?_⟩
  · intro n F f h
    by_contra c
    simp only [if_neg c] at h
    split at h
    · cases h
    · split at h <;> cases h
  · intro n F f h
    by_contra c
    split at h
    · cases h
    · split at h <;> cases h
  · intro n F f z h
    split at h
    · cases h
    · split at h
      · cases h
      · split at h
        · rename_i h3
          cases h
          exact h3.choose_spec
        · cases h
  · intro n F f h
    exact if_pos h
  · intro n F f h
    have c : ¬ ∀ z : Vec, z.length = n → ¬ F z := by
      obtain ⟨z, z1, z2, _⟩ := h 0
      exact fun k => k z z1 z2
    simp only [if_neg c, if_pos h]
  · intro n F f z h
    obtain ⟨k1, k2⟩ := key n F f z h
    have h3 : ∃ z, IsMinOver n F f z := ⟨z, h⟩
    refine ⟨h3.choose, ?_⟩
    simp only [if_neg k1, if_neg k2]
    exact dif_pos h3

/-! ## The memory of emptiness -/

/-- If the object has recorded that it is empty, it is. -/
def FlagSound (D : Dom) (e : Option Bool) : Prop := e = some true → ∀ y, ¬ D.Holds y

theorem point_holds_iff (x y : Vec) : (Dom.base (.point x)).Holds y ↔ y = x := by
  constructor
  · rintro ⟨h1, h2, _⟩
    have hl : y.length = x.length := h1
    apply List.ext_getElem hl
    intro i h3 h4
    have a := h2.lb i x[i] y[i] (by simp [Base.acc, h4]) (by simp [h3])
    have b := h2.ub i x[i] y[i] (by simp [Base.acc, h4]) (by simp [h3])
    linarith
  · rintro rfl
    refine ⟨rfl, ⟨?_, ?_, by simp [Base.acc], by simp [Base.acc], by simp [Base.acc]⟩, by simp⟩
    · intro i r xi h1 h2
      simp only [Base.acc, List.getElem?_map, h2, Option.map_some, Option.some.injEq, XR.fin.injEq] at h1
      exact h1.symm.le
    · intro i r xi h1 h2
      simp only [Base.acc, List.getElem?_map, h2, Option.map_some, Option.some.injEq, XR.fin.injEq] at h1
      exact h1.le

section
variable {S : Solver} (hS : ExactSolver S) {fb : CornerOracle} (ho : OracleLen fb) {D : Dom} (hD : D.WF)
  (hg : D.Scaled fb)

include ho hD hg in
theorem empty_of_infeasible (h : ∀ z : Vec, z.length = D.len → ¬ D.feasNorm fb z) (y : Vec) : ¬ D.Holds y := by
  intro hy
  have hl := holds_length hy
  obtain ⟨i1, i2, i3, i4⟩ := normalize_inverse fb ho D hD y hl
  exact h _ i3 ((dom_feas_iff fb ho D hD hg y hl).2 hy)

include ho hD hg in
/-- A minimizer of the normalized problem gives a minimizer over the domain. -/
theorem min_transfer {f : Vec → ℝ} {g : Vec → ℝ}
    (hfg : ∀ z w : Vec, z.length = D.len → w.length = D.len →
      (f z ≤ f w → g (D.unnormalize fb z) ≤ g (D.unnormalize fb w)))
    {z : Vec} (h : IsMinOver D.len (D.feasNorm fb) f z) :
    D.Holds (D.unnormalize fb z) ∧ ∀ y, D.Holds y → g (D.unnormalize fb z) ≤ g y := by
  obtain ⟨h1, h2, h3⟩ := h
  refine ⟨(feas_unnormalize fb ho D hD hg z h1).1 h2, ?_⟩
  intro y hy
  have hl := holds_length hy
  obtain ⟨i1, i2, i3, i4⟩ := normalize_inverse fb ho D hD y hl
  have := hfg z (D.normalize fb y) h1 i3 (h3 _ i3 ((dom_feas_iff fb ho D hD hg y hl).2 hy))
  rwa [i1] at this

end

/-- The reply of `corner(p)` is right: a maximizer over the domain; `EmptyDomainException` only if the
domain is empty; `UnboundedDomainException` only if the maximum is infinite or the domain is the whole
space. -/
def CornerReply (D : Dom) (p : Vec) : Except Err Vec → Prop
  | .ok x => D.Holds x ∧ ∀ y, D.Holds y → Vec.dot p y ≤ Vec.dot p x
  | .error .emptyDomain => ∀ y, ¬ D.Holds y
  | .error .unboundedDomain => (∀ B, ∃ y, D.Holds y ∧ B < Vec.dot p y) ∨ ∀ y : Vec, y.length = D.len → D.Holds y
  | .error e => e = .valueError ∨ e = .attributeError ∨ e = .solverError

theorem base_noConstraints_feas {fb : CornerOracle} {d : Base} (h : d.noConstraints fb) (z : Vec) :
    d.feasNorm fb z := by
  have gen : ((∀ v ∈ d.lbNorm fb, ¬ v.isFinite) ∧ (∀ v ∈ d.ubNorm fb, ¬ v.isFinite) ∧
      d.acc.A = [] ∧ d.acc.Aeq = [] ∧ d.acc.Ls = []) → (d.normData fb).Holds z := by
    rintro ⟨h1, h2, h3, h4, h5⟩
    refine ⟨?_, ?_, ?_, ?_, ?_⟩
    · intro i r xi a _
      exact absurd trivial (h1 _ (List.mem_of_getElem? a))
    · intro i r xi a _
      exact absurd trivial (h2 _ (List.mem_of_getElem? a))
    · intro i row bi a _
      simp [Base.normData, h3, colScale] at a
    · intro i row bi a _
      simp [Base.normData, h4, colScale] at a
    · intro i L y rho a _ _
      simp [Base.normData, h5] at a
  cases d with
  | unbounded n => trivial
  | hull X q => exact absurd h (by simp [Base.noConstraints])
  | linquad q => exact gen h
  | linineq q => exact gen h
  | box l u => exact gen h
  | point p => exact gen h
  | normal m L c => exact gen h

theorem noConstraints_feas {fb : CornerOracle} {D : Dom} (h : D.noConstraints fb) (z : Vec) : D.feasNorm fb z := by
  cases D with
  | base d => exact base_noConstraints_feas h z
  | tensor ds =>
    intro q hq
    have : q.1 ∈ ds := by
      clear h
      suffices ∀ s, q ∈ slicesFrom s ds z → q.1 ∈ ds from this 0 hq
      clear hq
      induction ds with
      | nil => intro s hs; simp [slicesFrom] at hs
      | cons d ds ih =>
        intro s hs
        simp only [slicesFrom, List.mem_cons] at hs
        rcases hs with rfl | hs
        · simp
        · exact List.mem_cons_of_mem _ (ih _ hs)
    exact base_noConstraints_feas (h q.1 this) q.2

/-- The shape of `corner` for a domain that is neither a point nor a box. -/
theorem corner_eq {S : Solver} {fb : CornerOracle} {D : Dom} (hb : ∀ l u, D ≠ .base (.box l u))
    (hpt : ∀ x, D ≠ .base (.point x)) (e : Option Bool) (p : Vec) :
    D.corner S fb e p = if p.length ≠ D.len then (.error .valueError, e)
      else if e = some true then (.error .emptyDomain, e)
      else if D.hasUnbounded then (.error .attributeError, e)
      else match S D.len (D.feasNorm fb) (fun z => -(Vec.dot (Vec.mul (D.uslopes fb) p) z)) with
        | .infeasible => (.error .emptyDomain, e)
        | .unbounded => (.error .unboundedDomain, e)
        | .optimal z => if D.noConstraints fb then (.error .unboundedDomain, e)
            else (.ok (D.unnormalize fb z), some false)
        | .other => if D.noConstraints fb then (.error .unboundedDomain, e) else (.error .solverError, e) := by
  cases D with
  | tensor ds => rfl
  | base d =>
    cases d with
    | box l u => exact absurd rfl (hb l u)
    | point x => exact absurd rfl (hpt x)
    | _ => rfl

/-- **C14** (one call), the part that holds: for a domain whose normalization is right (`Dom.Scaled`)
and an exact solver, the reply of `corner(p)` is right, provided the object did not wrongly remember
to be empty. -/
theorem corner_reply_partial {S : Solver} (hS : ExactSolver S) {fb : CornerOracle} (ho : OracleLen fb) {D : Dom}
    (hD : D.WF) (hg : D.Scaled fb) (hb : ∀ l u, D ≠ .base (.box l u)) {e : Option Bool} (he : FlagSound D e)
    (p : Vec) : CornerReply D p (D.corner S fb e p).1 := by
  by_cases hpt : ∃ x, D = .base (.point x)
  · obtain ⟨x, rfl⟩ := hpt
    unfold Dom.corner
    split
    · exact .inl rfl
    · refine ⟨(point_holds_iff x x).2 rfl, fun y hy => ?_⟩
      rw [(point_holds_iff x y).1 hy]
  · push Not at hpt
    rw [corner_eq hb hpt]
    split
    · exact .inl rfl
    · split
      · rename_i _ h
        exact he h
      · split
        · exact .inr (.inl rfl)
        · rename_i hp _ hu
          have all : D.noConstraints fb → ∀ y : Vec, y.length = D.len → D.Holds y := fun h y hy =>
            (dom_feas_iff fb ho D hD hg y hy).1 (noConstraints_feas h _)
          split
          · rename_i h
            exact empty_of_infeasible ho hD hg (hS.infeasible _ _ _ h)
          · rename_i h
            left
            intro B
            obtain ⟨z, z1, z2, z3⟩ := hS.unbounded _ _ _ h (Vec.dot p (D.offset fb) - B)
            refine ⟨D.unnormalize fb z, (feas_unnormalize fb ho D hD hg z z1).1 z2, ?_⟩
            rw [dot_unnormalize ho hD hu p z z1]
            linarith
          · rename_i z h
            split
            · rename_i hn
              exact .inr (all hn)
            · have := min_transfer ho hD hg (g := fun x => -(Vec.dot p x)) ?_ (hS.optimal _ _ _ _ h)
              · refine ⟨this.1, fun y hy => ?_⟩
                have := this.2 y hy
                linarith
              · intro z w hz hw hzw
                rw [dot_unnormalize ho hD hu p z hz, dot_unnormalize ho hD hu p w hw]
                linarith
          · split
            · rename_i hn
              exact .inr (all hn)
            · exact .inr (.inr rfl)

/-- The reply of `closest_point(x0, L)` is right: the point itself if it is reported inside, otherwise
a point of the domain nearest to `x0`; `EmptyDomainException` only if the domain is empty. -/
def ClosestReply (D : Dom) (inside : Prop) (x0 : Vec) (L : List Vec) : Except Err Vec → Prop
  | .ok x => (inside ∧ x = x0) ∨ (D.Holds x ∧ ∀ y, D.Holds y →
      Vec.norm (Vec.mulVec L (Vec.sub x x0)) ≤ Vec.norm (Vec.mulVec L (Vec.sub y x0)))
  | .error .emptyDomain => ∀ y, ¬ D.Holds y
  | .error e => e = .valueError ∨ e = .attributeError ∨ e = .solverError

/-- The shape of `closest_point` for a domain that is neither a point nor unbounded. -/
theorem closest_eq {S : Solver} {nnls : NNLS} {TOL : ℝ} {fb : CornerOracle} {D : Dom}
    (hpt : ∀ x, D ≠ .base (.point x)) (hun : ∀ n, D ≠ .base (.unbounded n)) (e : Option Bool) (x0 : Vec)
    (L : Option (List Vec)) :
    D.closest S nnls TOL fb e x0 L =
      if x0.length ≠ D.len ∨ ∃ r ∈ L.getD [], r.length ≠ D.len then (.error .valueError, e)
      else if e = some true then (.error .emptyDomain, e)
      else if D.isInside nnls TOL x0 then (.ok x0, some false)
      else if D.hasUnbounded then (.error .attributeError, e)
      else match S D.len (D.feasNorm fb) (D.closestObj fb (L.getD (eyeRows D.len)) x0) with
        | .infeasible => (.error .emptyDomain, some true)
        | .optimal z => (.ok (D.unnormalize fb z), e)
        | .unbounded => (.error .solverError, e)
        | .other => (.error .solverError, e) := by
  cases D with
  | tensor ds => rfl
  | base d =>
    cases d with
    | unbounded n => exact absurd rfl (hun n)
    | point x => exact absurd rfl (hpt x)
    | _ => rfl

/-- **C15** (one call), the part that holds: for a domain whose normalization is right and an exact
solver, the reply of `closest_point` is right. -/
theorem closest_reply_partial {S : Solver} (hS : ExactSolver S) (nnls : NNLS) (TOL : ℝ) {fb : CornerOracle}
    (ho : OracleLen fb) {D : Dom} (hD : D.WF) (hg : D.Scaled fb) {e : Option Bool} (he : FlagSound D e)
    (x0 : Vec) (L : Option (List Vec)) :
    ClosestReply D (D.isInside nnls TOL x0) x0 (L.getD (eyeRows D.len)) (D.closest S nnls TOL fb e x0 L).1 := by
  by_cases hpt : ∃ x, D = .base (.point x)
  · obtain ⟨x, rfl⟩ := hpt
    unfold Dom.closest
    split
    · exact .inl rfl
    · refine .inr ⟨(point_holds_iff x x).2 rfl, fun y hy => ?_⟩
      rw [(point_holds_iff x y).1 hy]
  by_cases hun : ∃ n, D = .base (.unbounded n)
  · obtain ⟨n, rfl⟩ := hun
    unfold Dom.closest
    split
    · exact .inl rfl
    · exact .inr (.inl rfl)
  push Not at hpt hun
  rw [closest_eq hpt hun]
  split
  · exact .inl rfl
  · rename_i hsh
    push Not at hsh
    split
    · rename_i h
      exact he h
    · split
      · rename_i h
        exact .inl ⟨h, rfl⟩
      · split
        · exact .inr (.inl rfl)
        · rename_i hu
          split
          · rename_i h
            exact empty_of_infeasible ho hD hg (hS.infeasible _ _ _ h)
          · rename_i z h
            refine .inr (min_transfer ho hD hg
              (g := fun x => Vec.norm (Vec.mulVec (L.getD (eyeRows D.len)) (Vec.sub x x0))) ?_ (hS.optimal _ _ _ _ h))
            intro z w hz hw hzw
            rwa [closestObj_eq ho hD hu _ _ _ hsh.1 hz, closestObj_eq ho hD hu _ _ _ hsh.1 hw] at hzw
          · exact .inr (.inr rfl)
          · exact .inr (.inr rfl)

/-- The reply of `constrained_least_squares(A, b)` is a minimizer over the domain of the distance of
`A x - s` to `b`, where the documentation asks for `s = 0`. -/
def ClsReply (D : Dom) (A : List Vec) (b s : Vec) : Except Err Vec → Prop
  | .ok x => D.Holds x ∧ ∀ y, D.Holds y →
      Vec.norm (Vec.sub (Vec.sub (Vec.mulVec A x) s) b) ≤ Vec.norm (Vec.sub (Vec.sub (Vec.mulVec A y) s) b)
  | .error .emptyDomain => ∀ y, ¬ D.Holds y
  | .error e => e = .valueError ∨ e = .attributeError ∨ e = .solverError

/-- What `constrained_least_squares` computes: it minimizes `‖A (x - offset - center) - b‖`, where
`offset` is the constant part of `unnormalize` and `center` the center of the normalization; for a
domain that is not a tensor product both are the center, so the target is shifted by `2 A center`. -/
theorem cls_reply {S : Solver} (hS : ExactSolver S) {fb : CornerOracle}
    (ho : OracleLen fb) (fbD : List XR × List XR) {D : Dom} (hD : D.WF) (hg : D.Scaled fb) {e : Option Bool}
    (he : FlagSound D e) (A : List Vec) (b : Vec) :
    ClsReply D A b (Vec.add (Vec.mulVec A (D.offset fb)) (Vec.mulVec A (D.centerOf fb fbD)))
      (D.cls S fb fbD e A b).1 := by
  unfold Dom.cls
  split
  · exact .inl rfl
  · split
    · rename_i h
      exact he h
    · split
      · exact .inr (.inl rfl)
      · rename_i hu
        split
        · rename_i h
          exact empty_of_infeasible ho hD hg (hS.infeasible _ _ _ h)
        · rename_i h
          obtain ⟨z, _, _, z3⟩ := hS.unbounded _ _ _ h 0
          exact absurd z3 (not_lt.2 (Vec.norm_nonneg _))
        · rename_i z h
          refine min_transfer ho hD hg (g := fun x => Vec.norm (Vec.sub (Vec.sub (Vec.mulVec A x)
            (Vec.add (Vec.mulVec A (D.offset fb)) (Vec.mulVec A (D.centerOf fb fbD)))) b)) ?_ (hS.optimal _ _ _ _ h)
          intro z w hz hw hzw
          rwa [clsObj_eq ho hD hu _ _ _ _ hz, clsObj_eq ho hD hu _ _ _ _ hw] at hzw
        · exact .inr (.inr rfl)

/-- **C16**, the part that holds: if the center of the normalization is mapped to zero by `A` (for
instance because the domain is centered at the origin), `constrained_least_squares(A, b)` returns a
point of the domain minimizing `‖A x - b‖`. -/
theorem cls_reply_partial {S : Solver} (hS : ExactSolver S) {fb : CornerOracle}
    (ho : OracleLen fb) (fbD : List XR × List XR) {D : Dom} (hD : D.WF) (hg : D.Scaled fb) {e : Option Bool}
    (he : FlagSound D e) (A : List Vec) (b : Vec)
    (hc : Vec.add (Vec.mulVec A (D.offset fb)) (Vec.mulVec A (D.centerOf fb fbD)) = List.replicate A.length 0) :
    match (D.cls S fb fbD e A b).1 with
    | .ok x => D.Holds x ∧ ∀ y, D.Holds y →
        Vec.norm (Vec.sub (Vec.mulVec A x) b) ≤ Vec.norm (Vec.sub (Vec.mulVec A y) b)
    | .error .emptyDomain => ∀ y, ¬ D.Holds y
    | .error e => e = .valueError ∨ e = .attributeError ∨ e = .solverError := by
  have h := cls_reply hS ho fbD hD hg he A b
  have z : ∀ x, Vec.sub (Vec.mulVec A x) (List.replicate A.length 0) = Vec.mulVec A x := by
    intro x
    have : ∀ v : Vec, Vec.sub v (List.replicate v.length 0) = v := by
      intro v
      induction v with
      | nil => rfl
      | cons a v ih => simp [List.replicate_succ, ih]
    simpa using this (Vec.mulVec A x)
  rw [hc] at h
  unfold ClsReply at h
  simp only [z] at h
  exact h

/-! ## Any history of calls -/

/-- Whatever calls were made before, the object never wrongly remembers to be empty. -/
theorem flag_sound_history (nnls : NNLS) (TOL : ℝ) {fb : CornerOracle} (ho : OracleLen fb)
    (fbD : List XR × List XR) {D : Dom} (hD : D.WF) (hg : D.Scaled fb) (ks : List (Solver × SCall))
    (hks : ∀ k ∈ ks, ExactSolver k.1) (e : Option Bool) (he : FlagSound D e) :
    FlagSound D (D.afterCalls nnls TOL fb fbD e ks) := by
  induction ks generalizing e with
  | nil => exact he
  | cons k ks ih =>
    obtain ⟨S, k⟩ := k
    have hS : ExactSolver S := hks (S, k) (by simp)
    simp only [Dom.afterCalls]
    refine ih (fun k hk => hks k (by simp [hk])) _ ?_
    cases k with
    | corner p =>
      simp only [Dom.scall]
      by_cases hpt : ∃ x, D = .base (.point x)
      · obtain ⟨x, rfl⟩ := hpt
        unfold Dom.corner
        split <;> exact he
      by_cases hb : ∃ l u, D = .base (.box l u)
      · obtain ⟨l, u, rfl⟩ := hb
        unfold Dom.corner
        split <;> exact he
      push Not at hpt hb
      rw [corner_eq hb hpt]
      split
      · exact he
      · split
        · exact he
        · split
          · exact he
          · split
            · exact he
            · exact he
            · split
              · exact he
              · intro h; cases h
            · split <;> exact he
    | closest x0 L =>
      simp only [Dom.scall]
      by_cases hpt : ∃ x, D = .base (.point x)
      · obtain ⟨x, rfl⟩ := hpt
        unfold Dom.closest
        split <;> exact he
      by_cases hun : ∃ n, D = .base (.unbounded n)
      · obtain ⟨n, rfl⟩ := hun
        unfold Dom.closest
        split <;> exact he
      push Not at hpt hun
      rw [closest_eq hpt hun]
      split
      · exact he
      · split
        · exact he
        · split
          · intro h; cases h
          · split
            · exact he
            · split
              · rename_i h
                exact fun _ => empty_of_infeasible ho hD hg (hS.infeasible _ _ _ h)
              · exact he
              · exact he
              · exact he
    | cls A b =>
      simp only [Dom.scall]
      unfold Dom.cls
      split
      · exact he
      · split
        · exact he
        · split
          · exact he
          · split
            · rename_i h
              exact fun _ => empty_of_infeasible ho hD hg (hS.infeasible _ _ _ h)
            · intro h; cases h
            · intro h; cases h
            · exact he

/-- **C14** for any history: after any sequence of calls on a fresh object, `corner(p)` replies
correctly. -/
theorem corner_history_partial {S : Solver} (hS : ExactSolver S) (nnls : NNLS) (TOL : ℝ) {fb : CornerOracle}
    (ho : OracleLen fb) (fbD : List XR × List XR) {D : Dom} (hD : D.WF) (hg : D.Scaled fb)
    (hb : ∀ l u, D ≠ .base (.box l u)) (ks : List (Solver × SCall)) (hks : ∀ k ∈ ks, ExactSolver k.1) (p : Vec) :
    CornerReply D p (D.corner S fb (D.afterCalls nnls TOL fb fbD none ks) p).1 :=
  corner_reply_partial hS ho hD hg hb
    (flag_sound_history nnls TOL ho fbD hD hg ks hks none (fun h => by cases h)) p

/-- **C15** for any history. -/
theorem closest_history_partial {S : Solver} (hS : ExactSolver S) (nnls : NNLS) (TOL : ℝ) {fb : CornerOracle}
    (ho : OracleLen fb) (fbD : List XR × List XR) {D : Dom} (hD : D.WF) (hg : D.Scaled fb)
    (ks : List (Solver × SCall)) (hks : ∀ k ∈ ks, ExactSolver k.1) (x0 : Vec) (L : Option (List Vec)) :
    ClosestReply D (D.isInside nnls TOL x0) x0 (L.getD (eyeRows D.len))
      (D.closest S nnls TOL fb (D.afterCalls nnls TOL fb fbD none ks) x0 L).1 :=
  closest_reply_partial hS nnls TOL ho hD hg
    (flag_sound_history nnls TOL ho fbD hD hg ks hks none (fun h => by cases h)) x0 L

/-- **C15**, points already inside: after any history of calls, a point `x0` reported inside a nonempty
domain is returned unchanged, whatever the weighting matrix (of the right width). -/
theorem closest_inside (S : Solver) (nnls : NNLS) (TOL : ℝ) {fb : CornerOracle} (ho : OracleLen fb)
    (fbD : List XR × List XR) {D : Dom} (hD : D.WF) (hg : D.Scaled fb) (hu : ∀ n, D ≠ .base (.unbounded n))
    (ks : List (Solver × SCall)) (hks : ∀ k ∈ ks, ExactSolver k.1) (hne : ∃ y, D.Holds y) (x0 : Vec)
    (L : Option (List Vec)) (hL : ∀ r ∈ L.getD [], r.length = D.len) (hin : D.isInside nnls TOL x0) :
    (D.closest S nnls TOL fb (D.afterCalls nnls TOL fb fbD none ks) x0 L).1 = .ok x0 := by
  have hf := flag_sound_history nnls TOL ho fbD hD hg ks hks none (fun h => by cases h)
  have hsh : ¬ (x0.length ≠ D.len ∨ ∃ r ∈ L.getD [], r.length ≠ D.len) := by
    push Not; exact ⟨hin.1, hL⟩
  by_cases hpt : ∃ x, D = .base (.point x)
  · obtain ⟨x, rfl⟩ := hpt
    unfold Dom.closest
    rw [if_neg hsh]
    have : x0 = x := hin.2
    rw [this]
  push Not at hpt
  rw [closest_eq hpt hu, if_neg hsh, if_neg, if_pos hin]
  intro h
  obtain ⟨y, hy⟩ := hne
  exact hf h y hy

/-- **C14** completeness: with a complete solver, a domain with constraints (whose normalization is
right) returns a corner whenever the maximum is attained, raises `EmptyDomainException` when empty and
`UnboundedDomainException` when the maximum is infinite, after any history of calls. -/
theorem corner_complete_partial {S : Solver} (hS : CompleteSolver S) (nnls : NNLS) (TOL : ℝ) {fb : CornerOracle}
    (ho : OracleLen fb) (fbD : List XR × List XR) {D : Dom} (hD : D.WF) (hg : D.Scaled fb)
    (hb : ∀ l u, D ≠ .base (.box l u)) (hu : ¬ D.hasUnbounded) (hc : ¬ D.noConstraints fb)
    (ks : List (Solver × SCall)) (hks : ∀ k ∈ ks, ExactSolver k.1) (p : Vec) (hp : p.length = D.len) :
    ((∀ y, ¬ D.Holds y) → (D.corner S fb (D.afterCalls nnls TOL fb fbD none ks) p).1 = .error .emptyDomain) ∧
    ((∀ B, ∃ y, D.Holds y ∧ B < Vec.dot p y) →
      (D.corner S fb (D.afterCalls nnls TOL fb fbD none ks) p).1 = .error .unboundedDomain) ∧
    (∀ x, D.Holds x → (∀ y, D.Holds y → Vec.dot p y ≤ Vec.dot p x) →
      ∃ w, (D.corner S fb (D.afterCalls nnls TOL fb fbD none ks) p).1 = .ok w) := by
  have hf := flag_sound_history nnls TOL ho fbD hD hg ks hks none (fun h => by cases h)
  generalize D.afterCalls nnls TOL fb fbD none ks = e at hf
  by_cases hpt : ∃ x, D = .base (.point x)
  · obtain ⟨x, rfl⟩ := hpt
    have hx : (Dom.base (.point x)).Holds x := (point_holds_iff x x).2 rfl
    have e1 : (Dom.corner S fb (Dom.base (.point x)) e p).1 = .ok x := by
      unfold Dom.corner
      rw [if_neg (by simpa using hp)]
    refine ⟨fun h => absurd hx (h x), fun h => ?_, fun _ _ _ => ⟨x, e1⟩⟩
    obtain ⟨y, hy, hlt⟩ := h (Vec.dot p x)
    rw [(point_holds_iff x y).1 hy] at hlt
    exact absurd hlt (lt_irrefl _)
  push Not at hpt
  rw [corner_eq hb hpt, if_neg (by simpa using hp)]
  refine ⟨fun h => ?_, fun h => ?_, fun x hx hmax => ?_⟩
  · have := hS.finds_infeasible D.len (D.feasNorm fb) (fun z => -(Vec.dot (Vec.mul (D.uslopes fb) p) z))
      (fun z hz hf => h _ ((feas_unnormalize fb ho D hD hg z hz).1 hf))
    by_cases he : e = some true
    · rw [if_pos he]
    · rw [if_neg he, if_neg hu, this]
  · have he : e ≠ some true := fun he => by
      obtain ⟨y, hy, _⟩ := h 0
      exact hf he y hy
    have := hS.finds_unbounded D.len (D.feasNorm fb) (fun z => -(Vec.dot (Vec.mul (D.uslopes fb) p) z)) ?_
    · rw [if_neg he, if_neg hu, this]
    · intro B
      obtain ⟨y, hy, hlt⟩ := h (Vec.dot p (D.offset fb) - B)
      have hl := holds_length hy
      obtain ⟨i1, i2, i3, i4⟩ := normalize_inverse fb ho D hD y hl
      refine ⟨D.normalize fb y, i3, (dom_feas_iff fb ho D hD hg y hl).2 hy, ?_⟩
      rw [← i1, dot_unnormalize ho hD hu p _ i3] at hlt
      linarith
  · have he : e ≠ some true := fun he => hf he x hx
    have hl := holds_length hx
    obtain ⟨i1, i2, i3, i4⟩ := normalize_inverse fb ho D hD x hl
    obtain ⟨w, hw⟩ := hS.finds_optimal D.len (D.feasNorm fb) (fun z => -(Vec.dot (Vec.mul (D.uslopes fb) p) z))
      (D.normalize fb x) ⟨i3, (dom_feas_iff fb ho D hD hg x hl).2 hx, fun v hv hfv => by
        have := hmax _ ((feas_unnormalize fb ho D hD hg v hv).1 hfv)
        rw [dot_unnormalize ho hD hu p v hv, ← i1, dot_unnormalize ho hD hu p _ i3] at this
        linarith⟩
    refine ⟨D.unnormalize fb w, ?_⟩
    rw [if_neg he, if_neg hu, hw]
    exact congrArg Prod.fst (if_neg hc)

/-! ## The generic `is_empty` and `is_unbounded` -/

/-- **C71**: after any history of calls, `is_empty` of a domain (whose normalization is right) that
answers at all answers correctly. -/
theorem isEmpty_query_partial {S : Solver} (hS : ExactSolver S) (nnls : NNLS) (TOL : ℝ) {fb : CornerOracle}
    (ho : OracleLen fb) (fbD : List XR × List XR) {D : Dom} (hD : D.WF) (hg : D.Scaled fb)
    (hb : ∀ l u, D ≠ .base (.box l u)) (ks : List (Solver × SCall)) (hks : ∀ k ∈ ks, ExactSolver k.1) (b : Bool)
    (h : D.isEmptyQuery S fb (D.afterCalls nnls TOL fb fbD none ks) = .ok b) :
    b = true ↔ ∀ y, ¬ D.Holds y := by
  have hr := corner_history_partial hS nnls TOL ho fbD hD hg hb ks hks (List.replicate D.len 1)
  unfold Dom.isEmptyQuery at h
  split at h
  · rename_i x hx
    rw [hx] at hr
    cases h
    simp only [Bool.false_eq_true, false_iff, not_forall, not_not]
    exact ⟨x, hr.1⟩
  · rename_i hx
    rw [hx] at hr
    cases h
    exact iff_of_true rfl hr
  · rename_i hx
    rw [hx] at hr
    cases h
    simp only [Bool.false_eq_true, false_iff, not_forall, not_not]
    rcases hr with hr | hr
    · obtain ⟨y, hy, _⟩ := hr 0
      exact ⟨y, hy⟩
    · exact ⟨List.replicate D.len 0, hr _ (by simp)⟩
  · cases h

theorem unboundedLoop_spec {S : Solver} (hS : ExactSolver S) {fb : CornerOracle}
    (ho : OracleLen fb) {D : Dom} (hD : D.WF) (hg : D.Scaled fb)
    (hb : ∀ l u, D ≠ .base (.box l u)) (us : List Vec) (e : Option Bool) (he : FlagSound D e) (b : Bool)
    (h : unboundedLoop (D.corner S fb) e us = .ok b) :
    (b = true → (∃ u ∈ us, (∀ B, ∃ y, D.Holds y ∧ B < |Vec.dot u y|)) ∨ ∀ y : Vec, y.length = D.len → D.Holds y) ∧
    (b = false → (∀ y, ¬ D.Holds y) ∨ ∀ u ∈ us, ∃ K, ∀ y, D.Holds y → |Vec.dot u y| ≤ K) := by
  have step : ∀ e p, FlagSound D e → FlagSound D (D.corner S fb e p).2 := fun e p he =>
    flag_sound_history (fun _ _ => []) 0 ho ([], []) hD hg [(S, .corner p)]
      (by simpa using hS) e he
  induction us generalizing e with
  | nil => cases h; simp
  | cons u us ih =>
    have r1 := corner_reply_partial hS ho hD hg hb he u
    have s1 := step e u he
    simp only [unboundedLoop] at h
    have neg : ∀ y, Vec.dot (Vec.smul (-1) u) y = -(Vec.dot u y) := by
      intro y; rw [Vec.dot_comm, Vec.dot_smul_right, Vec.dot_comm]; ring
    split at h
    · rename_i hc
      rw [hc] at r1
      cases h
      refine ⟨fun _ => ?_, by simp⟩
      rcases r1 with r1 | r1
      · left
        refine ⟨u, by simp, fun B => ?_⟩
        obtain ⟨y, hy, hlt⟩ := r1 B
        exact ⟨y, hy, lt_of_lt_of_le hlt (le_abs_self _)⟩
      · exact .inr r1
    · rename_i hc
      rw [hc] at r1
      cases h
      exact ⟨by simp, fun _ => .inl r1⟩
    · cases h
    · rename_i x1 e1 hc
      rw [hc] at r1 s1
      have r2 := corner_reply_partial hS ho hD hg hb s1 (Vec.smul (-1) u)
      have s2 := step e1 (Vec.smul (-1) u) s1
      split at h
      · rename_i hc
        rw [hc] at r2
        cases h
        refine ⟨fun _ => ?_, by simp⟩
        rcases r2 with r2 | r2
        · left
          refine ⟨u, by simp, fun B => ?_⟩
          obtain ⟨y, hy, hlt⟩ := r2 B
          rw [neg] at hlt
          exact ⟨y, hy, lt_of_lt_of_le hlt (neg_le_abs _)⟩
        · exact .inr r2
      · rename_i hc
        rw [hc] at r2
        cases h
        exact ⟨by simp, fun _ => .inl r2⟩
      · cases h
      · rename_i x2 e2 hc
        rw [hc] at r2 s2
        obtain ⟨k1, k2⟩ := ih e2 s2 h
        refine ⟨fun hbt => ?_, fun hbf => ?_⟩
        · rcases k1 hbt with ⟨v, hv, hB⟩ | hall
          · exact .inl ⟨v, by simp [hv], hB⟩
          · exact .inr hall
        · rcases k2 hbf with hE | hK
          · exact .inl hE
          · right
            intro v hv
            rcases List.mem_cons.1 hv with rfl | hv
            · refine ⟨max (Vec.dot v x1) (-(Vec.dot v x2)), fun y hy => ?_⟩
              have a1 := r1.2 y hy
              have a2 := r2.2 y hy
              rw [neg, neg] at a2
              exact abs_le'.2 ⟨le_trans a1 (le_max_left _ _), le_trans a2 (le_max_right _ _)⟩
            · exact hK v hv

theorem sum_sq_le_of_bounds (us : List Vec) (P : Vec → Prop)
    (h : ∀ u ∈ us, ∃ K, ∀ y, P y → |Vec.dot u y| ≤ K) :
    ∃ K, ∀ y, P y → (us.map (fun u => Vec.dot u y ^ 2)).sum ≤ K := by
  induction us with
  | nil => exact ⟨0, fun y _ => by simp⟩
  | cons u us ih =>
    obtain ⟨K, hK⟩ := ih (fun v hv => h v (by simp [hv]))
    obtain ⟨M, hM⟩ := h u (by simp)
    refine ⟨M ^ 2 + K, fun y hy => ?_⟩
    simp only [List.map_cons, List.sum_cons]
    have := hM y hy
    have : Vec.dot u y ^ 2 ≤ M ^ 2 := by
      rw [← sq_abs]
      exact pow_le_pow_left₀ (abs_nonneg _) this 2
    linarith [hK y hy]

/-- **C71**: `is_unbounded` of a domain that is not a box (with the random orthogonal matrix `U`: the
Euclidean norm is preserved) that answers at all answers correctly, after any history of calls: the
domain is reported unbounded exactly when it contains points of arbitrarily large norm. -/
theorem isUnbounded_query_partial {S : Solver} (hS : ExactSolver S) (nnls : NNLS) (TOL : ℝ) {fb : CornerOracle}
    (ho : OracleLen fb) (fbD : List XR × List XR) {D : Dom} (hD : D.WF) (hg : D.Scaled fb)
    (hb : ∀ l u, D ≠ .base (.box l u)) (ks : List (Solver × SCall)) (hks : ∀ k ∈ ks, ExactSolver k.1)
    (U : List Vec) (hU : ∀ y : Vec, y.length = D.len → Vec.sumSq y = (U.map (fun u => Vec.dot u y ^ 2)).sum) (b : Bool)
    (h : D.isUnboundedQuery S fb (D.afterCalls nnls TOL fb fbD none ks) U = .ok b) :
    b = true ↔ ∀ R, ∃ y, D.Holds y ∧ R < Vec.norm y := by
  have hf := flag_sound_history nnls TOL ho fbD hD hg ks hks none (fun h => by cases h)
  unfold Dom.isUnboundedQuery at h
  split at h
  · cases h
  · rename_i hl
    obtain ⟨k1, k2⟩ := unboundedLoop_spec hS ho hD hg hb U _ hf b h
    have single : ∀ (us : List Vec) (y : Vec), ∀ u ∈ us, Vec.dot u y ^ 2 ≤ (us.map (fun u => Vec.dot u y ^ 2)).sum := by
      intro us y
      have nn : ∀ us : List Vec, 0 ≤ (us.map (fun u => Vec.dot u y ^ 2)).sum := fun us =>
        List.sum_nonneg (by simp only [List.mem_map]; rintro _ ⟨u, _, rfl⟩; positivity)
      induction us with
      | nil => simp
      | cons v vs ih =>
        intro u hu
        simp only [List.map_cons, List.sum_cons]
        rcases List.mem_cons.1 hu with rfl | hu
        · linarith [nn vs]
        · have := ih u hu
          nlinarith [sq_nonneg (Vec.dot v y)]
    constructor
    · intro hbt R
      rcases k1 hbt with ⟨u, hu, hB⟩ | hall
      · obtain ⟨y, hy, hlt⟩ := hB (|R|)
        refine ⟨y, hy, lt_of_le_of_lt (le_abs_self R) ?_⟩
        unfold Vec.norm
        refine Real.lt_sqrt_of_sq_lt ?_
        rw [hU y (holds_length hy)]
        refine lt_of_lt_of_le ?_ (single U y u hu)
        rw [← sq_abs (Vec.dot u y)]
        exact pow_lt_pow_left₀ hlt (abs_nonneg _) (by norm_num)
      · refine ⟨(|R| + 1) :: List.replicate (D.len - 1) 0, hall _ (by simp; omega), ?_⟩
        unfold Vec.norm
        refine lt_of_le_of_lt (le_abs_self R) (Real.lt_sqrt_of_sq_lt ?_)
        have : Vec.sumSq (List.replicate (D.len - 1) 0) = 0 := by
          generalize D.len - 1 = n
          induction n with
          | zero => rfl
          | succ n ih => simp [List.replicate_succ, ih]
        rw [Vec.sumSq_cons, this]
        nlinarith [abs_nonneg R]
    · intro hR
      cases b with
      | true => rfl
      | false =>
        exfalso
        rcases k2 rfl with hE | hK
        · obtain ⟨y, hy, _⟩ := hR 0
          exact hE y hy
        · obtain ⟨K, hK⟩ := sum_sq_le_of_bounds U D.Holds hK
          obtain ⟨y, hy, hlt⟩ := hR (Real.sqrt K)
          have := hK y hy
          rw [← hU y (holds_length hy)] at this
          exact absurd (Real.sqrt_le_sqrt this) (not_le.2 hlt)

/-- **C71 is false in one dimension**: `is_unbounded` raises ValueError (`ortho_group.rvs(1)`). -/
theorem isUnbounded_one_dim_false (S : Solver) (fb : CornerOracle) (D : Dom) (h : D.len = 1) (e : Option Bool)
    (U : List Vec) : D.isUnboundedQuery S fb e U = .error .valueError := by
  unfold Dom.isUnboundedQuery
  rw [if_pos (by omega)]

/-! ## Where the claims are false -/

/-- The one-dimensional domain `0 ≤ x ≤ 4`, `|x - 3| ≤ 1`. -/
noncomputable def offCenter : Dom := .base (.linquad ⟨1, [.fin 0], [.fin 4], [], [], [], [], [[[1]]], [[3]], [1]⟩)

theorem offCenter_wf : offCenter.WF := by
  show LQ.WF _
  constructor <;> simp [Base.acc, XR.okLower, XR.okUpper]

theorem offCenter_holds : offCenter.Holds [2] := by
  refine ⟨rfl, ?_, by simp⟩
  rw [holds_iff]
  refine ⟨?_, inIneq_nil _ _ _, fun _ _ => inEq_nil _ _ _, ?_⟩
  · show inBounds [.fin 0] [.fin 4] 0 [2]
    rw [inBounds_cons]
    refine ⟨⟨?_, ?_⟩, inBounds_nil _ _ _⟩ <;> intro r hr <;> cases hr <;> norm_num
  · intro p hp
    simp [Base.acc] at hp
    subst hp
    simp only [Vec.mulVec, List.map_cons, List.map_nil, Vec.sub_cons, Vec.sub_nil_left,
      Vec.dot_cons, Vec.dot_nil_left, Vec.sumSq_cons, Vec.sumSq_nil]
    rw [Real.sqrt_le_left (by norm_num)]; norm_num

/-- **C14 is false for off-center quadratic constraints** (`ys_norm`, euclidean.py 994-997): on the domain
`0 ≤ x ≤ 4`, `|x - 3| ≤ 1`, whose smallest point is `2`, `corner([-1])` never returns a point below `3`. -/
theorem corner_quadratic_false {S : Solver} (hS : ExactSolver S) (fb : CornerOracle) (ho : OracleLen fb)
    (e : Option Bool) (x : Vec) (h : (offCenter.corner S fb e [-1]).1 = .ok x) :
    offCenter.Holds [2] ∧ Vec.dot [-1] x ≤ -3 ∧ Vec.dot [-1] [2] = -2 := by
  refine ⟨offCenter_holds, ?_, by simp⟩
  obtain ⟨e1, e2, e3⟩ := linquad1_norm fb ho 0 4 3 1 (by norm_num)
  rw [corner_eq (by simp [offCenter]) (by simp [offCenter])] at h
  rw [if_neg (show ¬ ([-1] : Vec).length ≠ offCenter.len by simp [offCenter, Dom.len, Base.len, Base.acc])] at h
  split at h
  · cases h
  · split at h
    · cases h
    · split at h
      · cases h
      · cases h
      · rename_i z hz
        split at h
        · cases h
        · cases h
          obtain ⟨h1, h2, _⟩ := hS.optimal _ _ _ _ hz
          have h1 : z.length = 1 := h1
          obtain ⟨t, rfl⟩ := List.length_eq_one_iff.1 h1
          have q := ((holds_iff _ _).1 h2).2.2.2
          have q : inQuad ([[[1]]].map (colScale (Base.uslopes fb (.linquad ⟨1, [.fin 0], [.fin 4], [], [], [], [], [[[1]]], [[3]], [1]⟩))))
            ([[3]].map (fun y => Vec.sub y (Base.center fb (.linquad ⟨1, [.fin 0], [.fin 4], [], [], [], [], [[[1]]], [[3]], [1]⟩)))) [1] 0 [t] := q
          rw [e1, e3] at q
          have := q _ (by simp; rfl)
          simp only [colScale, Vec.mulVec, List.map_cons, List.map_nil, Vec.sub_cons, Vec.sub_nil_left, Vec.mul_cons,
            Vec.mul_nil_left, Vec.dot_cons, Vec.dot_nil_left, Vec.sumSq_cons, Vec.sumSq_nil] at this
          rw [Real.sqrt_le_left (by norm_num)] at this
          have hx : offCenter.unnormalize fb [t] = [2 * t + 2] := by
            show Vec.add (Vec.mul (Base.uslopes fb (.linquad ⟨1, [.fin 0], [.fin 4], [], [], [], [], [[[1]]], [[3]], [1]⟩)) [t])
              (Base.center fb (.linquad ⟨1, [.fin 0], [.fin 4], [], [], [], [], [[[1]]], [[3]], [1]⟩)) = _
            rw [e1, e3]
            simp; norm_num
          rw [hx]
          simp
          nlinarith
      · split at h <;> cases h

/-- The strip `0 ≤ x₁ ≤ 1` in the plane. -/
noncomputable def strip : Dom :=
  .base (.linquad ⟨2, [.fin 0, .ninf], [.fin 1, .pinf], [], [], [], [], [], [], []⟩)

theorem strip_wf : strip.WF := by
  show LQ.WF _
  constructor <;> simp [Base.acc, XR.okLower, XR.okUpper]

/-- **C14 is false for mixed finite and infinite bounds** (`lb_norm`, euclidean.py 955-967, becomes nan and is
dropped): on the strip `0 ≤ x₁ ≤ 1`, where the maximum of `x₁` is attained at `(1, 0)`, `corner([1, 0])` never
returns a point, and with a solver that finds optima it raises `UnboundedDomainException`. -/
theorem corner_mixed_bounds_false {S : Solver} (hS : CompleteSolver S) (fb : CornerOracle) (ho : OracleLen fb) :
    strip.Holds [1, 0] ∧ (∀ y, strip.Holds y → Vec.dot [1, 0] y ≤ Vec.dot [1, 0] [1, 0]) ∧
    (strip.corner S fb none [1, 0]).1 = .error .unboundedDomain := by
  have hH : ∀ y, strip.Holds y ↔ y.length = 2 ∧ inBounds [.fin 0, .ninf] [.fin 1, .pinf] 0 y := by
    intro y
    constructor
    · rintro ⟨h1, h2, _⟩
      exact ⟨h1, ((holds_iff _ _).1 h2).1⟩
    · rintro ⟨h1, h2⟩
      refine ⟨h1, (holds_iff _ _).2 ⟨h2, inIneq_nil _ _ _, fun _ _ => inEq_nil _ _ _, inQuad_nil _ _ _ _⟩, by simp⟩
  refine ⟨?_, ?_, ?_⟩
  · rw [hH]
    refine ⟨rfl, ?_⟩
    rw [inBounds_cons, inBounds_cons]
    refine ⟨⟨?_, ?_⟩, ⟨?_, ?_⟩, inBounds_nil _ _ _⟩ <;> intro r hr <;> cases hr <;> norm_num
  · intro y hy
    obtain ⟨h1, h2⟩ := (hH y).1 hy
    obtain ⟨a, b, rfl⟩ := List.length_eq_two.1 h1
    rw [inBounds_cons] at h2
    have := h2.1.2 1 rfl
    simp at this ⊢
    linarith
  · have nc : strip.noConstraints fb := by
      refine ⟨?_, ?_, rfl, rfl, rfl⟩
      · intro v hv hfin
        have := lbNorm_lost ho (d := .linquad ⟨2, [.fin 0, .ninf], [.fin 1, .pinf], [], [], [], [], [], [], []⟩) strip_wf (by simp [Base.acc]) v hv
        cases v <;> simp_all
      · intro v hv hfin
        have := ubNorm_lost ho (d := .linquad ⟨2, [.fin 0, .ninf], [.fin 1, .pinf], [], [], [], [], [], [], []⟩) strip_wf (by simp [Base.acc]) v hv
        cases v <;> simp_all
    have fe : ∀ z, strip.feasNorm fb z := noConstraints_feas nc
    rw [corner_eq (by simp [strip]) (by simp [strip])]
    rw [if_neg (show ¬ ([1, 0] : Vec).length ≠ strip.len by simp [strip, Dom.len, Base.len, Base.acc]),
      if_neg (by simp), if_neg (by simp [strip, Dom.hasUnbounded])]
    split
    · rename_i h
      exact absurd (fe (List.replicate strip.len 0)) (hS.infeasible _ _ _ h _ (by simp))
    · rfl
    · rw [if_pos nc]
    · rw [if_pos nc]

/-- **C16 is false**: on the box `1 ≤ x ≤ 3`, `constrained_least_squares([[1]], [0])` (minimize `|x|`) never
returns anything but `3`, although `1` is in the box and better; and it does return `3` with a solver that
finds optima. -/
theorem cls_false {S : Solver} (hS : CompleteSolver S) (fb : CornerOracle) (ho : OracleLen fb)
    (fbD : List XR × List XR) :
    ((Dom.base (.box [.fin 1] [.fin 3])).cls S fb fbD none [[1]] [0]).1 = .ok [3] ∧
    (Dom.base (.box [.fin 1] [.fin 3])).Holds [1] ∧
    Vec.norm (Vec.sub (Vec.mulVec [[1]] [1]) [0]) < Vec.norm (Vec.sub (Vec.mulVec [[1]] [3]) [0]) := by
  have hw : (Dom.base (.box [.fin 1] [.fin 3])).WF := by
    show LQ.WF _
    constructor <;> simp [Base.acc, XR.okLower, XR.okUpper]
  have hgood : NormGood fb (.box [.fin 1] [.fin 3]) := normGood_box fb ho [1] [3] (.cons (by norm_num) .nil)
  have hg : (Dom.base (.box [.fin 1] [.fin 3])).Scaled fb := hgood.toNormScaled
  have hH : ∀ y, (Dom.base (.box [.fin 1] [.fin 3])).Holds y ↔ y.length = 1 ∧ inBounds [.fin 1] [.fin 3] 0 y := by
    intro y
    constructor
    · rintro ⟨h1, h2, _⟩
      exact ⟨h1, ((holds_iff _ _).1 h2).1⟩
    · rintro ⟨h1, h2⟩
      refine ⟨h1, (holds_iff _ _).2 ⟨h2, inIneq_nil _ _ _, fun _ _ => inEq_nil _ _ _, inQuad_nil _ _ _ _⟩, by simp⟩
  have hB : ∀ t : ℝ, inBounds [.fin 1] [.fin 3] 0 [t] ↔ 1 ≤ t ∧ t ≤ 3 := by
    intro t
    rw [inBounds_cons]
    constructor
    · rintro ⟨⟨h1, h2⟩, _⟩
      have := h1 1 rfl
      have := h2 3 rfl
      constructor <;> linarith
    · rintro ⟨h1, h2⟩
      refine ⟨⟨?_, ?_⟩, inBounds_nil _ _ _⟩ <;> intro r hr <;> cases hr <;> linarith
  have hc : (Base.box [.fin 1] [.fin 3]).center fb = [2] := by
    obtain ⟨e1, e2⟩ := box_normBounds [1] [3] (.cons (by norm_num) .nil) (fb (.box [.fin 1] [.fin 3])).1
      (fb (.box [.fin 1] [.fin 3])).2 (by rw [(ho _).1]; rfl) (by rw [(ho _).2]; rfl)
    show center ((Base.box [.fin 1] [.fin 3]).normLb fb) ((Base.box [.fin 1] [.fin 3]).normUb fb) = _
    rw [show (Base.box [.fin 1] [.fin 3]).normLb fb = _ from e1, show (Base.box [.fin 1] [.fin 3]).normUb fb = _ from e2]
    simp [center, center1]; norm_num
  refine ⟨?_, (hH _).2 ⟨rfl, (hB 1).2 (by norm_num)⟩, ?_⟩
  · have hrep := cls_reply hS.toExactSolver ho fbD hw hg (e := none) (fun h => by cases h) [[1]] [0]
    have hsh : Vec.add (Vec.mulVec [[1]] ((Dom.base (.box [.fin 1] [.fin 3])).offset fb))
        (Vec.mulVec [[1]] ((Dom.base (.box [.fin 1] [.fin 3])).centerOf fb fbD)) = [4] := by
      show Vec.add (Vec.mulVec [[1]] ((Base.box [.fin 1] [.fin 3]).center fb))
        (Vec.mulVec [[1]] ((Base.box [.fin 1] [.fin 3]).center fb)) = _
      rw [hc]
      simp [Vec.mulVec]; norm_num
    rw [hsh] at hrep
    have hval : ∀ t : ℝ, Vec.norm (Vec.sub (Vec.sub (Vec.mulVec [[1]] [t]) [4]) [0]) = |t - 4| := by
      intro t
      simp [Vec.norm, Vec.mulVec, Real.sqrt_sq_eq_abs]
    have hok : ∃ x, ((Dom.base (.box [.fin 1] [.fin 3])).cls S fb fbD none [[1]] [0]).1 = .ok x := by
      have h3 : (Dom.base (.box [.fin 1] [.fin 3])).Holds [3] := (hH _).2 ⟨rfl, (hB 3).2 (by norm_num)⟩
      have hun : ¬ (Dom.base (.box [.fin 1] [.fin 3])).hasUnbounded := by simp [Dom.hasUnbounded]
      obtain ⟨i1, i2, i3, i4⟩ := normalize_inverse fb ho _ hw [3] rfl
      obtain ⟨w, hw'⟩ := hS.finds_optimal _ _ ((Dom.base (.box [.fin 1] [.fin 3])).clsObj fb fbD [[1]] [0]) _
        ⟨i3, (dom_feas_iff fb ho _ hw hg [3] rfl).2 h3, by
          intro v hv hfv
          rw [clsObj_eq ho hw hun _ _ _ _ i3, clsObj_eq ho hw hun _ _ _ _ hv, hsh, i1]
          have hh := (feas_unnormalize fb ho _ hw hg v hv).1 hfv
          obtain ⟨l, hb⟩ := (hH _).1 hh
          obtain ⟨t, ht⟩ := List.length_eq_one_iff.1 l
          rw [ht] at hb ⊢
          rw [hval, hval]
          have := (hB t).1 hb
          rw [abs_of_nonpos (by norm_num), abs_of_nonpos (by linarith)]
          linarith⟩
      refine ⟨(Dom.base (.box [.fin 1] [.fin 3])).unnormalize fb w, ?_⟩
      unfold Dom.cls
      rw [if_neg (by simp [Dom.len, Base.len, Base.acc]), if_neg (by simp), if_neg hun, hw']
    obtain ⟨x, hx⟩ := hok
    rw [hx] at hrep ⊢
    obtain ⟨r1, r2⟩ := hrep
    obtain ⟨l, hb⟩ := (hH _).1 r1
    obtain ⟨t, rfl⟩ := List.length_eq_one_iff.1 l
    have h3 := r2 [3] ((hH _).2 ⟨rfl, (hB 3).2 (by norm_num)⟩)
    rw [hval, hval] at h3
    have := (hB t).1 hb
    rw [abs_of_nonpos (by linarith), abs_of_nonpos (by norm_num)] at h3
    have : t = 3 := by linarith
    rw [this]
  · simp [Vec.norm, Vec.mulVec]

/-! ## The hypotheses are met -/

/-- A product of a box and a truncated normal domain has a right normalization, is not a box, and has
constraints. -/
example : (Dom.tensor [.box [.fin 0, .fin 1] [.fin 2, .fin 5], .normal [1, 2] [[1, 0], [3, 1]] (some 9)]).Scaled infOracle ∧
    (∀ l u, Dom.tensor [.box [.fin 0, .fin 1] [.fin 2, .fin 5], .normal [1, 2] [[1, 0], [3, 1]] (some 9)] ≠ .base (.box l u)) ∧
    ¬ (Dom.tensor [.box [.fin 0, .fin 1] [.fin 2, .fin 5], .normal [1, 2] [[1, 0], [3, 1]] (some 9)]).noConstraints infOracle := by
  refine ⟨?_, by simp, ?_⟩
  · intro d hd
    rcases List.mem_cons.1 hd with rfl | hd
    · exact (normGood_box infOracle infOracle_len [0, 1] [2, 5]
        (.cons (by norm_num) (.cons (by norm_num) .nil))).toNormScaled
    · rcases List.mem_cons.1 hd with rfl | hd
      · refine ⟨.inr ?_, .inr ?_, .inl ⟨_, _, _, rfl⟩, ?_⟩
        · intro v hv; simp [Base.acc] at hv; subst hv; simp
        · intro v hv; simp [Base.acc] at hv; subst hv; simp
        · intro i a b h1 _
          have : (Base.normal [1, 2] [[1, 0], [3, 1]] (some 9)).normLb infOracle = [.ninf, .ninf] := by
            simp [Base.normLb, Base.acc, normLb1, infOracle, Base.len, List.replicate]
          rw [this] at h1
          rcases i with _ | _ | i <;> simp at h1
      · cases hd
  · intro h
    have := h (.normal [1, 2] [[1, 0], [3, 1]] (some 9)) (by simp)
    simp [Base.noConstraints, Base.acc] at this

end Verif.Domain
