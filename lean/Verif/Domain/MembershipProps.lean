import Verif.Domain.TensorLemmas

/-!
# Properties C01, C02, C03, C04, C10, C11: constraints, intersection, batches, tensor products
-/

namespace Verif.Domain

open Classical Verif

/-! ## C01: `add_constraints` is intersection with the added constraints -/

theorem addConstraintsLQ_mem (nnls : NNLS) {self : LQ} (hs : self.WF) {a : Args} (ha : ArgsOk a) {R : Base}
    (h : addConstraintsLQ self a = .ok R) (tol : ℝ) (x : Vec) :
    (R.isInside nnls tol x ↔ (x.length = self.n ∧ self.inAll tol x) ∧ SatArgs a tol x) ∧
    R.WF ∧ R.Plain ∧ R.acc.n = self.n := by
  unfold addConstraintsLQ at h
  obtain ⟨d, hd, h⟩ := bind_ok h
  have hm := merge_inAll hs ha hd tol x
  obtain ⟨hwf, hn⟩ := merge_wf hs ha hd
  have key : R.WF ∧ R.Plain ∧ R.acc.n = self.n ∧ (R.acc.inAll tol x ↔ d.inAll tol x) := by
    split at h
    · rw [if_pos hwf.rhos_pos] at h
      cases h
      exact ⟨hwf, trivial, hn, Iff.rfl⟩
    · rename_i h0
      have hLs : d.Ls = [] := by
        rcases hd' : d.Ls with _ | ⟨a, as⟩
        · rfl
        · rw [hd'] at h0; simp at h0
      have hys : d.ys = [] := by
        have := hwf.Ls_len; rw [hLs] at this; exact List.eq_nil_of_length_eq_zero this.symm
      have hrh : d.rhos = [] := by
        have := hwf.ys_len; rw [hys] at this; exact List.eq_nil_of_length_eq_zero this.symm
      split at h
      · cases h
        refine ⟨⟨hwf, hLs, hys, hrh⟩, trivial, hn, ?_⟩
        simp only [Base.acc, LQ.inAll, hLs, hys, hrh]
      · rename_i h1
        push Not at h1
        cases h
        have hb : d.b = [] := List.eq_nil_of_length_eq_zero (by omega)
        have hbe : d.beq = [] := List.eq_nil_of_length_eq_zero (by omega)
        have hA : d.A = [] := by
          have := hwf.A_len; rw [hb] at this; exact List.eq_nil_of_length_eq_zero this
        have hAe : d.Aeq = [] := by
          have := hwf.Aeq_len; rw [hbe] at this; exact List.eq_nil_of_length_eq_zero this
        have hacc : (Base.box d.lb d.ub).acc = d := by
          have := hwf.lb_len
          cases d; simp_all [Base.acc]
        refine ⟨?_, trivial, ?_, ?_⟩
        · show (Base.box d.lb d.ub).acc.WF
          rw [hacc]; exact hwf
        · rw [hacc]; exact hn
        · rw [hacc]
  obtain ⟨k1, k2, k3, k4⟩ := key
  refine ⟨?_, k1, k2, k3⟩
  unfold Base.isInside Base.len
  rw [k3, base_inside_iff nnls tol k2 x, k4, hm, and_assoc]

/-- **C01** (every class except `PointDomain`, `ConvexHullDomain` and tensor products with quadratic
factors).  A point is inside `D.add_constraints(a)` exactly when it is inside `D` and satisfies every
constraint in `a`.  The result is again well formed and of the same dimension, so the statement
applies to any sequence of additions.  The two excluded classes are treated in
`add_constraints_hull` (same statement) and `add_constraints_point_partial`,
`add_constraints_point_false`; the tensor case in `tensor_export_drops_quadratics`. -/
theorem add_constraints_mem (nnls : NNLS) (D : Dom) (hD : D.WF) (hP : D.Plain) (a : Args) (ha : ArgsOk a)
    (R : Base) (h : D.addConstraints a = .ok R) :
    (∀ (tol : ℝ) (x : Vec), R.isInside nnls tol x ↔ D.isInside nnls tol x ∧ SatArgs a tol x) ∧
    R.WF ∧ R.Plain ∧ R.len = D.len := by
  have hacc := dom_wf_acc hD
  have key : addConstraintsLQ D.acc a = .ok R := by
    cases D with
    | base b =>
      cases b with
      | hull X d => exact absurd hP id
      | point x => exact absurd hP id
      | unbounded n => cases h
      | linquad d => exact h
      | linineq d => exact h
      | box l u => exact h
      | normal m L c => exact h
    | tensor ds => cases ds with
      | nil => cases h
      | cons d ds => exact h
  refine ⟨fun tol x => ?_, ?_⟩
  · rw [(addConstraintsLQ_mem nnls hacc ha key tol x).1, dom_isInside_iff nnls tol hD hP x]
  · obtain ⟨_, h1, h2, h3⟩ := addConstraintsLQ_mem nnls hacc ha key 0 []
    exact ⟨h1, h2, by rw [dom_len_acc]; exact h3⟩

/-- **C01**, totality: on a domain that has the method, `add_constraints` succeeds exactly when the
arguments have consistent shapes for the dimension of the domain. -/
theorem add_constraints_ok_iff (D : Dom) (hD : D.WF) (hU : ∀ n, D ≠ .base (.unbounded n)) (a : Args)
    (ha : ArgsOk a) : (∃ R, D.addConstraints a = .ok R) ↔ ArgsShape D.len a := by
  rw [dom_len_acc]
  have gen : ∀ self : LQ, self.WF → ((∃ R, addConstraintsLQ self a = .ok R) ↔ ArgsShape self.n a) := by
    intro self hs
    rw [← merge_ok_iff]
    constructor
    · rintro ⟨R, h⟩
      obtain ⟨d, hd, _⟩ := bind_ok h
      exact ⟨d, hd⟩
    · rintro ⟨d, hd⟩
      have hwf := (merge_wf hs ha hd).1
      unfold addConstraintsLQ
      rw [hd]
      show ∃ R, (if d.Ls.length > 0 then
        if ∀ r ∈ d.rhos, 0 < r then pure (.linquad d) else .error .assertion
        else if d.b.length > 0 ∨ d.beq.length > 0 then pure (.linineq d)
        else pure (.box d.lb d.ub) : Except Err Base) = .ok R
      rw [if_pos hwf.rhos_pos]
      split
      · exact ⟨_, rfl⟩
      · split
        · exact ⟨_, rfl⟩
        · exact ⟨_, rfl⟩
  cases D with
  | base b =>
    have hb := base_wf_acc hD
    cases b with
    | hull X d =>
      rw [← merge_ok_iff]
      constructor
      · rintro ⟨R, h⟩
        obtain ⟨d', hd, _⟩ := bind_ok h
        exact ⟨d', hd⟩
      · rintro ⟨d', hd⟩
        have hd0 : mergeConstraints d a = .ok d' := hd
        have hwf := (merge_wf hb ha hd0).1
        refine ⟨.hull X d', ?_⟩
        unfold Dom.addConstraints
        simp only [hd0]
        show (if ∀ r ∈ d'.rhos, 0 < r then pure (.hull X d') else .error .assertion : Except Err Base) = _
        rw [if_pos hwf.rhos_pos]; rfl
    | unbounded n => exact absurd rfl (hU n)
    | point x => exact gen _ hb
    | linquad d => exact gen _ hb
    | linineq d => exact gen _ hb
    | box l u => exact gen _ hb
    | normal m L c => exact gen _ hb
  | tensor ds => cases ds with
    | nil => exact absurd rfl hD.1
    | cons d ds => exact gen _ (dom_wf_acc hD)

/-- **C01** for convex hulls: the added constraints are intersected and the hull part is kept. -/
theorem add_constraints_hull (nnls : NNLS) (X : List Vec) (d : LQ) (hD : (Base.hull X d).WF) (a : Args)
    (ha : ArgsOk a) (R : Base) (h : (Dom.base (.hull X d)).addConstraints a = .ok R) :
    (∀ (tol : ℝ) (x : Vec), R.isInside nnls tol x ↔
      (Dom.base (.hull X d)).isInside nnls tol x ∧ SatArgs a tol x) ∧
    R.WF ∧ R.len = d.n := by
  unfold Dom.addConstraints at h
  obtain ⟨d', hd, h⟩ := bind_ok h
  obtain ⟨hwf, hn⟩ := merge_wf hD.1 ha hd
  rw [if_pos hwf.rhos_pos] at h
  cases h
  refine ⟨fun tol x => ?_, ⟨hwf, hD.2.1, fun r hr => by rw [hn]; exact hD.2.2 r hr⟩, hn⟩
  have hm := merge_inAll hD.1 ha hd tol x
  unfold LQ.inAll at hm
  simp only [Base.isInside, Base.inside, Dom.isInside, Dom.inside, Dom.len, Base.len, Base.acc, hn]
  rw [hm]
  tauto

/-- A two-dimensional example domain and argument set satisfying all hypotheses above: the box
`[0,1] × (-inf, 2]` with `x₀ + x₁ ≤ 3`, `x₀ = x₁` and `‖x‖ ≤ 1` added. -/
noncomputable def exBox : Dom := .base (.box [.fin 0, .ninf] [.fin 1, .fin 2])
/-- See `exBox`. -/
noncomputable def exArgs : Args :=
  { A := some [[1, 1]], b := some [3], Aeq := some [[1, -1]], beq := some [0],
    Ls := some [[[1, 0], [0, 1]]], ys := some [[0, 0]], rhos := some [1] }

theorem exBox_wf : exBox.WF := by
  show (Base.box _ _).acc.WF
  constructor <;> simp [Base.acc, XR.okLower, XR.okUpper]

theorem exArgs_ok : ArgsOk exArgs := by constructor <;> simp [exArgs]

theorem exArgs_shape : ArgsShape exBox.len exArgs := by
  constructor <;> simp [exArgs, exBox, Dom.len, Base.len, Base.acc]

example : ∃ R, exBox.addConstraints exArgs = .ok R :=
  (add_constraints_ok_iff exBox exBox_wf (by intro n h; cases h) exArgs exArgs_ok).2 exArgs_shape
example : exBox.Plain := trivial
/-- the hypotheses are not vacuous on members either: `(1/2,1/2)` is a member of the result -/
example (nnls : NNLS) (R : Base) (h : exBox.addConstraints exArgs = .ok R) : R.isInside nnls 0.1 [1/2, 1/2] := by
  rw [(add_constraints_mem nnls exBox exBox_wf trivial exArgs exArgs_ok R h).1]
  constructor
  · refine ⟨rfl, ?_⟩
    show inBounds _ _ _ _
    rw [inBounds_cons, inBounds_cons]
    refine ⟨⟨?_, ?_⟩, ⟨?_, ?_⟩, inBounds_nil _ _ _⟩ <;> intro r hr <;> cases hr <;> norm_num
  · obtain ⟨d, hd⟩ := (merge_ok_iff exBox.acc exArgs).2 exArgs_shape
    obtain ⟨lb, ub, A, b, Aeq, beq, Ls, ys, rhos, h1, h2, h3, h4, h5, -⟩ := merge_spec hd
    constructor
    · simp [exArgs]
    · simp [exArgs]
    · intro A b hA hb i row bi hr hbi
      simp only [exArgs, Option.some.injEq] at hA hb; subst hA; subst hb
      match i with
      | 0 => simp at hr hbi; subst hr; subst hbi; norm_num
      | i + 1 => simp at hr
    · intro A b hA hb i row bi hr hbi
      simp only [exArgs, Option.some.injEq] at hA hb; subst hA; subst hb
      match i with
      | 0 => simp at hr hbi; subst hr; subst hbi; norm_num
      | i + 1 => simp at hr
    · intro L y r hL hy hr i L' y' r' h1 h2 h3
      simp only [exArgs, Option.some.injEq] at hL hy hr; subst hL; subst hy; subst hr
      match i with
      | 0 =>
        simp at h1 h2 h3; subst h1; subst h2; subst h3
        simp only [Vec.norm, Vec.mulVec, List.map_cons, List.map_nil, Vec.sub_cons, Vec.sub_nil_left,
          Vec.dot_cons, Vec.dot_nil_left, Vec.sumSq_cons, Vec.sumSq_nil]
        rw [Real.sqrt_le_left (by norm_num)]; norm_num
      | i + 1 => simp at h1

/-- Membership in the box that `add_constraints` uses to represent a point. -/
theorem point_inAll (p : Vec) (tol : ℝ) (x : Vec) :
    inBounds (p.map XR.fin) (p.map XR.fin) tol x ↔
      ∀ (i : ℕ) (a b : ℝ), p[i]? = some a → x[i]? = some b → |b - a| ≤ tol := by
  rw [inBounds_iff]
  constructor
  · rintro ⟨h1, h2⟩ i a b ha hb
    have l := h1 i a b (by simp [ha]) hb
    have u := h2 i a b (by simp [ha]) hb
    rw [abs_le]; constructor <;> linarith
  · intro h
    constructor
    · intro i r xi hr hx
      simp only [List.getElem?_map, Option.map_eq_some_iff] at hr
      obtain ⟨a, ha, hr⟩ := hr
      cases hr
      have := (abs_le.1 (h i _ xi ha hx)).1; linarith
    · intro i r xi hr hx
      simp only [List.getElem?_map, Option.map_eq_some_iff] at hr
      obtain ⟨a, ha, hr⟩ := hr
      cases hr
      have := (abs_le.1 (h i _ xi ha hx)).2; linarith

/-- **C01** for `PointDomain`, what does hold: the result contains the points that satisfy the new
constraints and agree with the point up to the tolerance in every coordinate.  In particular the
claim holds for tolerance zero.  Missing for the full claim: `PointDomain.isinside` ignores the
tolerance (point.py 43-45) while the result honours it, see `add_constraints_point_false`. -/
theorem add_constraints_point_partial (nnls : NNLS) (p : Vec) (a : Args) (ha : ArgsOk a)
    (R : Base) (h : (Dom.base (.point p)).addConstraints a = .ok R) :
    (∀ (tol : ℝ) (x : Vec), R.isInside nnls tol x ↔
      (x.length = p.length ∧ ∀ (i : ℕ) (u v : ℝ), p[i]? = some u → x[i]? = some v → |v - u| ≤ tol) ∧
        SatArgs a tol x) ∧
    (∀ x : Vec, R.isInside nnls 0 x ↔ (Dom.base (.point p)).isInside nnls 0 x ∧ SatArgs a 0 x) := by
  have hw : (Base.point p).acc.WF := by
    constructor <;> simp [Base.acc, XR.okLower, XR.okUpper]
  have h1 : ∀ (tol : ℝ) (x : Vec), R.isInside nnls tol x ↔
      (x.length = p.length ∧ ∀ (i : ℕ) (u v : ℝ), p[i]? = some u → x[i]? = some v → |v - u| ≤ tol) ∧
        SatArgs a tol x := by
    intro tol x
    rw [(addConstraintsLQ_mem nnls hw ha h tol x).1]
    apply and_congr_left; intro _
    apply and_congr_right; intro _
    show inBounds (p.map XR.fin) (p.map XR.fin) tol x ∧ inIneq [] [] tol x ∧ inEq [] [] tol x ∧
      inQuad [] [] [] tol x ↔ _
    rw [point_inAll]
    have h1 := inQuad_nil [] [] tol x
    have h2 := inIneq_nil [] tol x
    have h3 := inEq_nil [] tol x
    tauto
  refine ⟨h1, fun x => ?_⟩
  rw [h1]
  apply and_congr_left; intro _
  show _ ↔ x.length = p.length ∧ x = p
  apply and_congr_right; intro hl
  constructor
  · intro hx
    apply List.ext_getElem? 
    intro i
    rcases hp : p[i]? with _ | u
    · rw [List.getElem?_eq_none_iff] at hp ⊢; omega
    · rcases hq : x[i]? with _ | v
      · rw [List.getElem?_eq_none_iff] at hq
        have := (List.getElem?_eq_some_iff.1 hp).1
        omega
      · have := hx i u v hp hq
        have : v - u = 0 := abs_eq_zero.1 (le_antisymm this (abs_nonneg _))
        congr 1; linarith
  · rintro rfl i u v hu hv
    rw [hu] at hv; cases hv; simp

/-- The hypothesis of `add_constraints_point_partial` is met, and **C01 is false as stated for
`PointDomain`**: with tolerance `1/10`, `PointDomain([0]).add_constraints()` contains `[1/20]`, which
`PointDomain([0])` does not. -/
theorem add_constraints_point_false (nnls : NNLS) :
    ∃ R, (Dom.base (.point [0])).addConstraints {} = .ok R ∧ R.isInside nnls (1/10) [1/20] ∧
      SatArgs {} (1/10) [1/20] ∧ ¬ (Dom.base (.point [0])).isInside nnls (1/10) [1/20] := by
  have hs : SatArgs {} (1/10) [1/20] := by constructor <;> simp
  refine ⟨.box [.fin 0] [.fin 0], ?_, ?_, hs, ?_⟩
  · simp [Dom.addConstraints, addConstraintsLQ, mergeConstraints, initLb, initUb, initIneq, initQuad,
      Base.acc, Bind.bind, Except.bind, Pure.pure, Except.pure, XR.max, XR.min]
  · refine ⟨rfl, ?_⟩
    show inBounds _ _ _ _
    rw [inBounds_cons]
    refine ⟨⟨?_, ?_⟩, inBounds_nil _ _ _⟩ <;> intro r hr <;> cases hr <;> norm_num
  · rintro ⟨_, h⟩
    have h : ([1/20] : Vec) = [0] := h
    simp at h

/-! ## C02, C03: intersection -/

theorem satArgs_toArgs (d : LQ) (tol : ℝ) (x : Vec) : SatArgs d.toArgs tol x ↔ d.inAll tol x := by
  unfold LQ.inAll
  rw [inBounds_iff, inIneq_iff, inEq_iff, inQuad_iff]
  constructor
  · intro h
    exact ⟨⟨h.lb _ rfl, h.ub _ rfl⟩, h.ineq _ _ rfl rfl, h.eq _ _ rfl rfl, h.quad _ _ _ rfl rfl rfl⟩
  · rintro ⟨⟨h1, h2⟩, h3, h4, h5⟩
    constructor
    · intro l hl; cases hl; exact h1
    · intro l hl; cases hl; exact h2
    · intro A b hA hb; cases hA; cases hb; exact h3
    · intro A b hA hb; cases hA; cases hb; exact h4
    · intro A b c hA hb hc; cases hA; cases hb; cases hc; exact h5

theorem argsOk_toArgs {d : LQ} (h : d.WF) : ArgsOk d.toArgs := by
  constructor
  · intro l hl; cases hl; exact h.lb_ok
  · intro l hl; cases hl; exact h.ub_ok

theorem andLQ_eq {a b : Dom} {R : Base} (h : andLQ a b = .ok R) : a.addConstraints b.acc.toArgs = .ok R := by
  unfold andLQ at h
  split at h
  · cases h
  · cases h
  · exact h

theorem andLQ_dim {a b : Dom} {R : Base} (hb : b.WF) (h : andLQ a b = .ok R) (ha : a.WF) : a.len = b.len := by
  have h := andLQ_eq h
  have hU : ∀ n, a ≠ .base (.unbounded n) := by
    rintro n rfl; cases h
  have := ((add_constraints_ok_iff a ha hU _ (argsOk_toArgs (dom_wf_acc hb))).1 ⟨R, h⟩).lb b.acc.lb rfl
  rw [dom_len_acc b, ← this, (dom_wf_acc hb).lb_len]

/-- **C02** for all classes except `PointDomain`, hulls as an operand, and tensor products with
quadratic factors: whenever `a & b` does not raise, its members are exactly the common members of
`a` and `b`; both operands then have the same dimension and the result is again a plain well-formed
domain of that dimension. -/
theorem and_mem (nnls : NNLS) (a b : Dom) (ha : a.WF) (hb : b.WF) (pa : a.Plain) (pb : b.Plain) (R : Base)
    (h : a.and b = .ok R) :
    (∀ (tol : ℝ) (x : Vec), R.isInside nnls tol x ↔ a.isInside nnls tol x ∧ b.isInside nnls tol x) ∧
    R.WF ∧ R.Plain ∧ R.len = a.len ∧ a.len = b.len := by
  have core : ∀ a b : Dom, a.WF → b.WF → a.Plain → b.Plain → andLQ a b = .ok R →
      (∀ (tol : ℝ) (x : Vec), R.isInside nnls tol x ↔ a.isInside nnls tol x ∧ b.isInside nnls tol x) ∧
      R.WF ∧ R.Plain ∧ R.len = a.len ∧ a.len = b.len := by
    intro a b ha hb pa pb h
    have hd := andLQ_dim hb h ha
    have h := andLQ_eq h
    obtain ⟨h1, h2, h3, h4⟩ := add_constraints_mem nnls a ha pa _ (argsOk_toArgs (dom_wf_acc hb)) R h
    refine ⟨fun tol x => ?_, h2, h3, h4, hd⟩
    rw [h1, satArgs_toArgs, dom_isInside_iff nnls tol hb pb]
    constructor
    · rintro ⟨u, v⟩
      exact ⟨u, by rw [← dom_len_acc, ← hd]; exact u.1, v⟩
    · rintro ⟨u, _, v⟩; exact ⟨u, v⟩
  unfold Dom.and at h
  split at h
  · exact core a b ha hb pa pb h
  · split at h
    · obtain ⟨h1, h2, h3, h4, h5⟩ := core b a hb ha pb pa h
      refine ⟨fun tol x => ?_, h2, h3, h4.trans h5, h5.symm⟩
      rw [h1]; exact and_comm
    · cases h

/-- **C02**, when `&` succeeds: if at least one operand is a linear-quadratic class instance and
neither is an unbounded domain, `a & b` succeeds exactly when the dimensions agree. -/
theorem and_ok_iff (a b : Dom) (ha : a.WF) (hb : b.WF) (hUa : ∀ n, a ≠ .base (.unbounded n))
    (hUb : ∀ n, b ≠ .base (.unbounded n)) (hc : a.isLinQuadClass = true ∨ b.isLinQuadClass = true) :
    (∃ R, a.and b = .ok R) ↔ a.len = b.len := by
  have core : ∀ a b : Dom, a.WF → b.WF → (∀ n, a ≠ .base (.unbounded n)) →
      (∀ n, b ≠ .base (.unbounded n)) → ((∃ R, andLQ a b = .ok R) ↔ a.len = b.len) := by
    intro a b ha hb hUa hUb
    have e : andLQ a b = a.addConstraints b.acc.toArgs := by
      unfold andLQ
      split
      · exact absurd rfl hb.1
      · rename_i n; exact absurd rfl (hUb n)
      · rfl
    rw [e, add_constraints_ok_iff a ha hUa _ (argsOk_toArgs (dom_wf_acc hb))]
    have w := dom_wf_acc hb
    rw [dom_len_acc b]
    constructor
    · intro h; rw [← w.lb_len, h.lb _ rfl]
    · intro h
      rw [h]
      constructor
      · intro l hl; cases hl; exact w.lb_len
      · intro l hl; cases hl; exact w.ub_len
      · rfl
      · intro A b hA hb; cases hA; cases hb; exact ⟨w.A_w, w.A_len⟩
      · rfl
      · intro A b hA hb; cases hA; cases hb; exact ⟨w.Aeq_w, w.Aeq_len⟩
      · exact ⟨rfl, rfl⟩
      · intro A b c hA hb hc; cases hA; cases hb; cases hc
        exact ⟨w.Ls_len, w.ys_len, w.Ls_w, w.ys_w, w.rhos_pos⟩
  unfold Dom.and
  split
  · exact core a b ha hb hUa hUb
  · rename_i h1
    rcases hc with hc | hc
    · exact absurd hc h1
    · rw [if_pos hc, core b a hb ha hUb hUa]; exact eq_comm

example : ∃ R, exBox.and exBox = .ok R :=
  (and_ok_iff _ _ exBox_wf exBox_wf (by intro n h; cases h) (by intro n h; cases h) (Or.inl rfl)).2 rfl

/-- **C02** with a convex hull on the left and a plain domain on the right: correct. -/
theorem hull_and_mem (nnls : NNLS) (X : List Vec) (d : LQ) (b : Dom) (ha : (Base.hull X d).WF) (hb : b.WF)
    (pb : b.Plain) (R : Base) (h : (Dom.base (.hull X d)).and b = .ok R) (tol : ℝ) (x : Vec) :
    R.isInside nnls tol x ↔ (Dom.base (.hull X d)).isInside nnls tol x ∧ b.isInside nnls tol x := by
  have h0 : andLQ (.base (.hull X d)) b = .ok R := h
  have hd := andLQ_dim (a := .base (.hull X d)) hb h0 ha
  obtain ⟨h1, -⟩ := add_constraints_hull nnls X d ha _ (argsOk_toArgs (dom_wf_acc hb)) R (andLQ_eq h0)
  rw [h1, satArgs_toArgs, dom_isInside_iff nnls tol hb pb]
  constructor
  · rintro ⟨u, v⟩
    exact ⟨u, by rw [← dom_len_acc, ← hd]; exact u.1, v⟩
  · rintro ⟨u, _, v⟩; exact ⟨u, v⟩

/-- **C02 is false as stated** when the right operand is a convex hull and the left one is not: the
hull is dropped, because `&` reads only `lb, ub, A, b, ...` of the right operand
(linquad.py 362-366).  Witness: `box [-10,10] & hull{0,1}` contains `-5`, although `-5` is not a
nonnegative combination of `0` and `1`, so the hull rejects it for every NNLS routine returning
nonnegative coefficients. -/
theorem and_hull_right_false (nnls : NNLS) (hn : ∀ A b, ∀ v ∈ nnls A b, 0 ≤ v) :
    ∃ (a b : Dom) (R : Base), a.WF ∧ b.WF ∧ a.and b = .ok R ∧
      R.isInside nnls 1 [-5] ∧ ¬ b.isInside nnls 1 [-5] := by
  let d : LQ := { n := 1, lb := [.ninf], ub := [.pinf], A := [], b := [], Aeq := [], beq := [],
                  Ls := [], ys := [], rhos := [] }
  refine ⟨.base (.box [.fin (-10)] [.fin 10]), .base (.hull [[0], [1]] d), .box [.fin (-10)] [.fin 10],
    ?_, ?_, ?_, ?_, ?_⟩
  · show (Base.box _ _).acc.WF
    constructor <;> simp [Base.acc, XR.okLower, XR.okUpper]
  · refine ⟨?_, by simp, by simp [d]⟩
    constructor <;> simp [d, XR.okLower, XR.okUpper]
  · simp [d, Dom.and, Dom.isLinQuadClass, andLQ, LQ.toArgs, Dom.acc, Dom.addConstraints, addConstraintsLQ,
      mergeConstraints, initLb, initUb, initIneq, initQuad,
      Base.acc, Bind.bind, Except.bind, Pure.pure, Except.pure, XR.max, XR.min]
  · refine ⟨rfl, ?_⟩
    show inBounds _ _ _ _
    rw [inBounds_cons]
    refine ⟨⟨?_, ?_⟩, inBounds_nil _ _ _⟩ <;> intro r hr <;> cases hr <;> norm_num
  · rintro ⟨_, h, -⟩
    set al := hullCoefficients nnls d.n [[0], [1]] [-5] with hal
    have hpos : ∀ v ∈ al, 0 ≤ v := hn _ _
    have hc : hullCombine d.n [[0], [1]] al = [Vec.dot [0, 1] al] := by
      simp [hullCombine, columns, d, List.range_succ]
    rw [hc] at h
    have hdot : 0 ≤ Vec.dot [0, 1] al := by
      match al, hpos with
      | [], _ => simp
      | [a], _ => simp
      | a :: b :: c, hp =>
        simp only [Vec.dot_cons, Vec.dot_nil_left]
        have : 0 ≤ b := hp b (by simp)
        linarith
    simp only [Vec.sub_cons, Vec.sub_nil_left, Vec.norm, Vec.sumSq_cons, Vec.sumSq_nil] at h
    rw [Real.sqrt_lt' (by norm_num)] at h
    nlinarith

/-- The assumption on the NNLS routine is met, e.g. by the routine returning no coefficients. -/
example : ∃ nnls : NNLS, ∀ A b, ∀ v ∈ nnls A b, 0 ≤ v := ⟨fun _ _ => [], by simp⟩

/-- **C03**, commutativity: `a & b` and `b & a` succeed together and have the same members. -/
theorem and_comm_mem (nnls : NNLS) (a b : Dom) (ha : a.WF) (hb : b.WF) (pa : a.Plain) (pb : b.Plain)
    (R S : Base) (h1 : a.and b = .ok R) (h2 : b.and a = .ok S) (tol : ℝ) (x : Vec) :
    R.isInside nnls tol x ↔ S.isInside nnls tol x := by
  rw [(and_mem nnls a b ha hb pa pb R h1).1, (and_mem nnls b a hb ha pb pa S h2).1]; exact and_comm

/-- **C03**, associativity. -/
theorem and_assoc_mem (nnls : NNLS) (a b c : Dom) (ha : a.WF) (hb : b.WF) (hc : c.WF) (pa : a.Plain)
    (pb : b.Plain) (pc : c.Plain) (R S R' S' : Base) (h1 : a.and b = .ok R) (h2 : (Dom.base R).and c = .ok S)
    (h3 : b.and c = .ok R') (h4 : a.and (.base R') = .ok S') (tol : ℝ) (x : Vec) :
    S.isInside nnls tol x ↔ S'.isInside nnls tol x := by
  obtain ⟨e1, w1, p1, -⟩ := and_mem nnls a b ha hb pa pb R h1
  obtain ⟨e3, w3, p3, -⟩ := and_mem nnls b c hb hc pb pc R' h3
  have e2 := (and_mem nnls (.base R) c w1 hc p1 pc S h2).1 tol x
  have e4 := (and_mem nnls a (.base R') ha w3 pa p3 S' h4).1 tol x
  rw [e2, e4]
  have a1 : (Dom.base R).isInside nnls tol x ↔ R.isInside nnls tol x := Iff.rfl
  have a2 : (Dom.base R').isInside nnls tol x ↔ R'.isInside nnls tol x := Iff.rfl
  rw [a1, a2, e1, e3]
  tauto

/-- **C03**, associativity of definedness: for linear-quadratic classes `(a & b) & c` is defined
exactly when `a & (b & c)` is, namely when the dimensions agree. -/
theorem and_assoc_defined (a b c : Dom) (ha : a.WF) (hb : b.WF) (hc : c.WF)
    (ca : a.isLinQuadClass = true) (cb : b.isLinQuadClass = true) (cc : c.isLinQuadClass = true)
    (pa : a.Plain) (pb : b.Plain) (pc : c.Plain) :
    (∃ R S, a.and b = .ok R ∧ (Dom.base R).and c = .ok S) ↔
    (∃ R S, b.and c = .ok R ∧ a.and (.base R) = .ok S) := by
  have hU : ∀ d : Dom, d.isLinQuadClass = true → ∀ n, d ≠ .base (.unbounded n) := by
    rintro d hd n rfl; cases hd
  have plainC : ∀ d e : Dom, ∀ R, d.isLinQuadClass = true → d.WF → e.WF → d.Plain → d.and e = .ok R →
      (Dom.base R).isLinQuadClass = true := by
    intro d e R hd wd we pd h
    have h0 : andLQ d e = .ok R := by unfold Dom.and at h; rw [if_pos hd] at h; exact h
    have h1 := andLQ_eq h0
    have key : addConstraintsLQ d.acc e.acc.toArgs = .ok R := by
      cases d with
      | base b =>
        cases b with
        | hull X d => exact absurd pd id
        | point x => exact absurd pd id
        | unbounded n => cases h1
        | linquad d => exact h1
        | linineq d => exact h1
        | box l u => exact h1
        | normal m L c => exact h1
      | tensor ds => cases hd
    unfold addConstraintsLQ at key
    obtain ⟨d', _, key⟩ := bind_ok key
    split at key
    · split at key
      · cases key; rfl
      · cases key
    · split at key <;> cases key <;> rfl
  have nn : NNLS := fun _ _ => []
  constructor
  · rintro ⟨R, S, h1, h2⟩
    obtain ⟨-, w1, p1, l1, l1'⟩ := and_mem nn a b ha hb pa pb R h1
    obtain ⟨-, w2, p2, l2, l2'⟩ := and_mem nn (.base R) c w1 hc p1 pc S h2
    have hbc : b.len = c.len := by
      rw [← l1', ← l1]; exact l2'
    obtain ⟨R', hR'⟩ := (and_ok_iff b c hb hc (hU _ cb) (hU _ cc) (Or.inl cb)).2 hbc
    obtain ⟨-, w3, p3, l3, l3'⟩ := and_mem nn b c hb hc pb pc R' hR'
    obtain ⟨S', hS'⟩ := (and_ok_iff a (.base R') ha w3 (hU _ ca)
      (hU _ (plainC b c R' cb hb hc pb hR')) (Or.inl ca)).2 (by rw [l1', ← l3]; rfl)
    exact ⟨R', S', hR', hS'⟩
  · rintro ⟨R', S', h1, h2⟩
    obtain ⟨-, w1, p1, l1, l1'⟩ := and_mem nn b c hb hc pb pc R' h1
    obtain ⟨-, w2, p2, l2, l2'⟩ := and_mem nn a (.base R') ha w1 pa p1 S' h2
    have hab : a.len = b.len := by rw [l2', ← l1]; rfl
    obtain ⟨R, hR⟩ := (and_ok_iff a b ha hb (hU _ ca) (hU _ cb) (Or.inl ca)).2 hab
    obtain ⟨-, w3, p3, l3, l3'⟩ := and_mem nn a b ha hb pa pb R hR
    have cR := plainC a b R ca ha hb pa hR
    obtain ⟨S, hS⟩ := (and_ok_iff (.base R) c w3 hc (hU _ cR) (hU _ cc) (Or.inl cR)).2
      (by rw [← l1', ← hab, ← l3]; rfl)
    exact ⟨R, S, hR, hS⟩

/-- **C03**, idempotence. -/
theorem and_self_mem (nnls : NNLS) (a : Dom) (ha : a.WF) (pa : a.Plain) (R : Base) (h : a.and a = .ok R)
    (tol : ℝ) (x : Vec) : R.isInside nnls tol x ↔ a.isInside nnls tol x := by
  rw [(and_mem nnls a a ha ha pa pa R h).1]; exact and_self_iff

/-- **C03**, unit: intersecting with a domain whose bounds are all infinite and which has no other
constraints changes nothing. -/
theorem and_infinite_mem (nnls : NNLS) (a : Dom) (ha : a.WF) (pa : a.Plain) (n : ℕ) (R : Base)
    (h : a.and (.base (.box (List.replicate n .ninf) (List.replicate n .pinf))) = .ok R) (tol : ℝ) (x : Vec) :
    R.isInside nnls tol x ↔ a.isInside nnls tol x := by
  have hw : (Dom.base (.box (List.replicate n .ninf) (List.replicate n .pinf))).WF := by
    show (Base.box _ _).acc.WF
    constructor <;> simp [Base.acc, XR.okLower, XR.okUpper]
  obtain ⟨h1, -, -, -, h5⟩ := and_mem nnls a _ ha hw pa trivial R h
  rw [h1]
  constructor
  · exact fun h => h.1
  · intro h
    refine ⟨h, ?_, inBounds_inf _ _ _ _⟩
    rw [← h5]; exact h.1

/-- **C03** fails for `UnboundedDomain` in the sense that `&` with it always raises
(linquad.py 363-368: it is neither a `LinQuadDomain` nor a tensor product). -/
theorem and_unbounded_raises (a : Dom) (n : ℕ) (R : Base) :
    a.and (.base (.unbounded n)) ≠ .ok R ∧ (Dom.base (.unbounded n)).and a ≠ .ok R := by
  constructor
  · unfold Dom.and
    split
    · intro h; cases h
    · intro h
      rw [if_neg (by simp [Dom.isLinQuadClass])] at h; cases h
  · unfold Dom.and
    rw [if_neg (by simp [Dom.isLinQuadClass])]
    split
    · intro h; cases h
    · intro h; cases h

/-! ## C04: batches -/

/-- **C04**: a batch answer has one entry per row; if every row has the common width `w`, each entry
is the answer for that row alone, whatever `w` is. -/
theorem isInside_batch (nnls : NNLS) (tol : ℝ) (D : Dom) (w : ℕ) (X : List Vec) (hX : ∀ r ∈ X, r.length = w) :
    (D.isInsideBatch nnls tol w X).length = X.length ∧
    ∀ (i : ℕ) (r : Vec), X[i]? = some r →
      ∃ P, (D.isInsideBatch nnls tol w X)[i]? = some P ∧ (P ↔ D.isInside nnls tol r) := by
  unfold Dom.isInsideBatch
  split
  · rename_i hw
    refine ⟨by simp, fun i r hi => ⟨False, by rw [List.getElem?_map, hi]; rfl, ?_⟩⟩
    have := hX r (List.mem_of_getElem? hi)
    simp only [Dom.isInside, false_iff, not_and]
    intro h; exact absurd (this.symm.trans h) hw
  · rename_i hw
    push Not at hw
    refine ⟨by simp, fun i r hi => ⟨D.inside nnls tol r, by simp [hi], ?_⟩⟩
    have := hX r (List.mem_of_getElem? hi)
    simp only [Dom.isInside, this, hw, true_and]

/-- **C04**: a point of the wrong length is never inside. -/
theorem isInside_wrong_length (nnls : NNLS) (tol : ℝ) (D : Dom) (x : Vec) (h : x.length ≠ D.len) :
    ¬ D.isInside nnls tol x := fun hx => h hx.1

example (nnls : NNLS) : ¬ exBox.isInside nnls 0 [1, 1, 1] := isInside_wrong_length nnls 0 exBox _ (by
  simp [exBox, Dom.len, Base.len, Base.acc])

/-! ## C10: tensor products -/

/-- **C10**: a tensor product contains the concatenation of pieces of the right sizes exactly when
each factor contains its piece; its length is the sum of the lengths. -/
theorem tensor_mem (nnls : NNLS) (tol : ℝ) (ds : List Base) (xs : List Vec)
    (h : List.Forall₂ (fun d x => x.length = d.len) ds xs) :
    (Dom.tensor ds).isInside nnls tol xs.flatten ↔ List.Forall₂ (fun d x => d.isInside nnls tol x) ds xs := by
  unfold Dom.isInside
  rw [tensor_inside_pieces nnls tol h]
  exact and_iff_right (pieces_flatten_length h)

/-- **C10**: every member of a tensor product is such a concatenation. -/
theorem tensor_mem_decompose (nnls : NNLS) (tol : ℝ) (ds : List Base) (x : Vec)
    (h : (Dom.tensor ds).isInside nnls tol x) :
    ∃ xs, x = xs.flatten ∧ List.Forall₂ (fun d x => d.isInside nnls tol x) ds xs := by
  obtain ⟨xs, h1, rfl⟩ := pieces_exist ds x h.1
  exact ⟨xs, rfl, (tensor_mem nnls tol ds xs h1).1 h⟩

/-- The factors of a domain: itself, or the factors of the product. -/
def Dom.factors : Dom → List Base
  | .base b => [b]
  | .tensor bs => bs

/-- **C10**, flattening: the constructor keeps exactly the factors of its arguments, in order. -/
theorem mkTensor_factors (ds : List Dom) : mkTensor ds = .tensor (ds.flatMap Dom.factors) := by
  unfold mkTensor
  congr 1
  have : ∀ acc : List Base, ds.foldl flattenStep acc = acc ++ ds.flatMap Dom.factors := by
    induction ds with
    | nil => simp
    | cons d ds ih =>
      intro acc
      rw [List.foldl_cons, ih]
      cases d <;> simp [Dom.factors, flattenStep]
  simpa using this []

/-- **C10**, flattening: nesting tensor products anywhere in the list of arguments gives the same
domain object as the flat list, and the length is the sum of lengths. -/
theorem mkTensor_nested (as bs cs : List Dom) :
    mkTensor (as ++ [mkTensor bs] ++ cs) = mkTensor (as ++ bs ++ cs) ∧
    (mkTensor as).len = (as.map Dom.len).sum := by
  constructor
  · simp [mkTensor_factors, Dom.factors]
  · rw [mkTensor_factors]
    simp only [Dom.len]
    induction as with
    | nil => rfl
    | cons d ds ih =>
      simp only [List.flatMap_cons, List.map_append, List.sum_append, ih, List.map_cons, List.sum_cons]
      cases d <;> simp [Dom.factors, Dom.len]

/-- Multiplication of domains `a * b` builds a two-argument tensor product, so `*` is associative
(euclidean.py 557-567). -/
theorem mul_assoc_tensor (a b c : Dom) :
    mkTensor [mkTensor [a, b], c] = mkTensor [a, mkTensor [b, c]] := by
  simp [mkTensor_factors, Dom.factors]

example : List.Forall₂ (fun (d : Base) (x : Vec) => x.length = d.len)
    [.box [.fin 0] [.fin 1], .unbounded 2] [[1/2], [7, 8]] := by
  refine .cons rfl (.cons rfl .nil)

/-! ## C11: constraints exported by tensor products -/

/-- **C11**, factors without quadratic constraints: the bounds and linear constraints exported by a
tensor product, read as one linear-inequality domain, have exactly its members. -/
theorem tensor_export_linear (nnls : NNLS) (tol : ℝ) (ds : List Base) (h : (Dom.tensor ds).WF)
    (hp : ∀ b ∈ ds, b.Plain ∧ b.acc.Ls = []) (x : Vec) :
    (Dom.base (.linineq (Dom.tensor ds).acc)).isInside nnls tol x ↔ (Dom.tensor ds).isInside nnls tol x := by
  rw [dom_isInside_iff nnls tol h hp x]
  simp only [Dom.isInside, Dom.len, Base.len, Dom.inside, Base.inside, Base.acc, LQ.inAll]
  have : inQuad (Dom.tensor ds).acc.Ls (Dom.tensor ds).acc.ys (Dom.tensor ds).acc.rhos tol x :=
    inQuad_nil _ _ _ _
  tauto

example : (Dom.tensor [.box [.fin 0] [.fin 1], .unbounded 2]).WF ∧
    ∀ b ∈ [Base.box [.fin 0] [.fin 1], .unbounded 2], b.Plain ∧ b.acc.Ls = [] := by
  refine ⟨⟨by simp, ?_⟩, ?_⟩
  · intro b hb
    simp at hb
    rcases hb with rfl | rfl <;> (show LQ.WF _) <;>
      constructor <;> simp [Base.acc, XR.okLower, XR.okUpper]
  · intro b hb
    simp at hb
    rcases hb with rfl | rfl <;> exact ⟨trivial, rfl⟩

/-- **C11 is false with quadratic factors**: a tensor product exports no `Ls`, so reading its
constraint properties as one linear-quadratic domain (as `&` does) loses the quadratic constraint.
Witness: the product of the disc-constrained line `|x| ≤ 1` and the box `[0,1]`, at `(5, 1/2)`; the
same point is inside `box & product`. -/
theorem tensor_export_drops_quadratics (nnls : NNLS) :
    ∃ (ds : List Base) (x : Vec) (B : Dom) (R : Base), (Dom.tensor ds).WF ∧ (∀ b ∈ ds, b.Plain) ∧ B.WF ∧
      (Dom.base (.linquad (Dom.tensor ds).acc)).isInside nnls 0 x ∧
      ¬ (Dom.tensor ds).isInside nnls 0 x ∧
      B.and (.tensor ds) = .ok R ∧ R.isInside nnls 0 x := by
  let d : LQ := { n := 1, lb := [.ninf], ub := [.pinf], A := [], b := [], Aeq := [], beq := [],
                  Ls := [[[1]]], ys := [[0]], rhos := [1] }
  refine ⟨[.linquad d, .box [.fin 0] [.fin 1]], [5, 1/2], .base (.box [.fin 0, .fin 0] [.fin 10, .fin 10]),
    .box [.fin 0, .fin 0] [.fin 10, .fin 1], ⟨by simp, ?_⟩, ?_, ?_, ?_, ?_, ?_, ?_⟩
  · intro b hb
    simp at hb
    rcases hb with rfl | rfl <;> (show LQ.WF _) <;>
      constructor <;> simp [d, Base.acc, XR.okLower, XR.okUpper]
  · intro b hb
    simp at hb
    rcases hb with rfl | rfl <;> trivial
  · show (Base.box _ _).acc.WF
    constructor <;> simp [Base.acc, XR.okLower, XR.okUpper]
  · refine ⟨rfl, ?_, ?_, ?_, ?_⟩
    · show inBounds [.ninf, .fin 0] [.pinf, .fin 1] _ _
      rw [inBounds_cons, inBounds_cons]
      refine ⟨⟨?_, ?_⟩, ⟨?_, ?_⟩, inBounds_nil _ _ _⟩ <;> intro r hr <;> cases hr <;> norm_num
    · exact inIneq_nil _ _ _
    · exact inEq_nil _ _ _
    · exact inQuad_nil _ _ _ _
  · intro h
    have h2 := (tensor_mem nnls 0 [.linquad d, .box [.fin 0] [.fin 1]] [[5], [1/2]]
      (.cons rfl (.cons rfl .nil))).1 h
    cases h2 with
    | cons h3 _ =>
      have h4 : inQuad [[[1]]] [[0]] [1] 0 [5] := h3.2.2.2.2
      have := h4 _ (by simp; rfl)
      simp only [Vec.mulVec, List.map_cons, List.map_nil, Vec.sub_cons, Vec.sub_nil_left,
        Vec.dot_cons, Vec.dot_nil_left, Vec.sumSq_cons, Vec.sumSq_nil] at this
      rw [Real.sqrt_le_left (by norm_num)] at this
      norm_num at this
  · have e1 : max (10:ℝ) 1 = 10 := by norm_num
    simp [d, Dom.and, Dom.isLinQuadClass, andLQ, LQ.toArgs, Dom.acc, Dom.addConstraints, addConstraintsLQ,
      mergeConstraints, initLb, initUb, initIneq, initQuad, tensorA, tensorAeq, padRows,
      Base.acc, Base.len, Bind.bind, Except.bind, Pure.pure, Except.pure, XR.max, XR.min]
  · refine ⟨rfl, ?_⟩
    show inBounds [.fin 0, .fin 0] [.fin 10, .fin 1] _ _
    rw [inBounds_cons, inBounds_cons]
    refine ⟨⟨?_, ?_⟩, ⟨?_, ?_⟩, inBounds_nil _ _ _⟩ <;> intro r hr <;> cases hr <;> norm_num

end Verif.Domain
