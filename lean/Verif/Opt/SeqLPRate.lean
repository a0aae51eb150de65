import Verif.Opt.SeqLPProps

/-!
# Sequential linear programming on linear problems (seqlp.py 19-275)

With an affine function the linearized problem is the problem itself, so `sequential_lp` should solve it. It does if the
start satisfies the bounds on the function; if not, the requirement that the objective decrease can make it return the start.
-/

namespace Verif.Opt

open Verif.Domain Verif.Lip Matrix

variable {m q : ℕ}

/-! ### Specification -/

/-- The constraints of the problem: the domain and the bounds on the values. -/
def LPFeas (D : Set (Pt m)) (lb ub : Option (Pt q)) (y : Pt m) (v : Pt q) : Prop :=
  y ∈ D ∧ (∀ l, lb = some l → ∀ i, l i ≤ v i) ∧ ∀ u, ub = some u → ∀ i, v i ≤ u i

/-- The constraints of the program for the step, seqlp.py 161-193. -/
def LPStep (D : Set (Pt m)) (lb ub : Option (Pt q)) (x : Pt m) (fx : Pt q) (J : Matrix (Fin q) (Fin m) ℝ) (d : Option ℝ) (p : Pt m) : Prop :=
  LPFeas D lb ub (x + p) (fx + J *ᵥ p) ∧ ∀ r, d = some r → nrm p ≤ r

/-- An exact solver: the step satisfies the constraints and its linearized objective is least. -/
def LPExact (a : LPArgs m q) (D : Set (Pt m)) : Prop := ∀ x fx J d p, a.solve x fx J d = .value p →
  LPStep D a.lb a.ub x fx J d p ∧ ∀ p', LPStep D a.lb a.ub x fx J d p' → ∀ o o', objfun a.norm (fx + J *ᵥ p) = .ok o →
    objfun a.norm (fx + J *ᵥ p') = .ok o' → o ≤ o'

/-- The linear problem: the objective of `A x + b` on `D`, with bounds on `A x + b`; a quiet call with straight trajectories and an exact
solver, which finds a step from every feasible point. -/
structure LinLP (a : LPArgs m q) (D : Set (Pt m)) (A : Matrix (Fin q) (Fin m) ℝ) (b : Pt q) : Prop where
  f : a.f = fun x => .ok (A *ᵥ x + b)
  jac : a.jac = fun _ => .ok A
  T : a.T = trajLinear
  quiet : a.verbose = false
  total : ∀ v : Pt q, ∃ o, objfun a.norm v = .ok o
  exact : LPExact a D
  solves : ∀ x, LPFeas D a.lb a.ub x (A *ᵥ x + b) → ∃ p, a.solve x (A *ᵥ x + b) A none = .value p

/-- The point is feasible and no feasible point has a smaller objective. -/
def LPOpt (a : LPArgs m q) (D : Set (Pt m)) (A : Matrix (Fin q) (Fin m) ℝ) (b : Pt q) (x : Pt m) : Prop :=
  LPFeas D a.lb a.ub x (A *ᵥ x + b) ∧ ∀ y, LPFeas D a.lb a.ub y (A *ᵥ y + b) → ∀ o o', objfun a.norm (A *ᵥ x + b) = .ok o →
    objfun a.norm (A *ᵥ y + b) = .ok o' → o ≤ o'

/-! ### Steps -/

/-- The state belongs to its point. -/
def LPGood (a : LPArgs m q) (A : Matrix (Fin q) (Fin m) ℝ) (b : Pt q) (s : LPState m q) : Prop :=
  s.fx = A *ᵥ s.x + b ∧ objfun a.norm s.fx = .ok s.obj

theorem lin_step (A : Matrix (Fin q) (Fin m) ℝ) (b : Pt q) (x p : Pt m) : A *ᵥ x + b + A *ᵥ p = A *ᵥ (x + p) + b := by
  rw [Matrix.mulVec_add]
  abel

/-- A step of the solver leads to a feasible point. -/
theorem lp_feas {a : LPArgs m q} {D : Set (Pt m)} {A : Matrix (Fin q) (Fin m) ℝ} {b : Pt q} (h : LinLP a D A b) {x p : Pt m} {d : Option ℝ}
    (hs : a.solve x (A *ᵥ x + b) A d = .value p) : LPFeas D a.lb a.ub (x + p) (A *ᵥ (x + p) + b) := by
  have := (h.exact _ _ _ _ _ hs).1.1
  rwa [lin_step] at this

/-- Without the trust region it leads to a solution. -/
theorem lp_opt {a : LPArgs m q} {D : Set (Pt m)} {A : Matrix (Fin q) (Fin m) ℝ} {b : Pt q} (h : LinLP a D A b) {x p : Pt m}
    (hs : a.solve x (A *ᵥ x + b) A none = .value p) : LPOpt a D A b (x + p) := by
  refine ⟨lp_feas h hs, fun y hy o o' ho ho' => ?_⟩
  have := (h.exact _ _ _ _ _ hs).2 (y - x) ⟨by rw [lin_step, add_sub_cancel]; exact hy, by intro r hr; cases hr⟩ o o'
  rw [lin_step, lin_step, add_sub_cancel] at this
  exact this ho ho'

theorem violation_zero {D : Set (Pt m)} {lb ub : Option (Pt q)} {y : Pt m} {v : Pt q} (h : LPFeas D lb ub y v) : violation lb ub v = 0 := by
  obtain ⟨-, h1, h2⟩ := h
  unfold violation
  have e1 : ∀ l : Pt q, (∀ i, l i ≤ v i) → ∑ i, (if l i ≤ v i then 0 else |v i - l i|) = (0 : ℝ) :=
    fun l hl => Finset.sum_eq_zero fun i _ => by rw [if_pos (hl i)]
  have e2 : ∀ u : Pt q, (∀ i, v i ≤ u i) → ∑ i, (if v i ≤ u i then 0 else |v i - u i|) = (0 : ℝ) :=
    fun u hu => Finset.sum_eq_zero fun i _ => by rw [if_pos (hu i)]
  cases lb with
  | none =>
    cases ub with
    | none => simp
    | some u => simp only; rw [e2 u (h2 u rfl), add_zero]
  | some l =>
    cases ub with
    | none => simp only; rw [e1 l (h1 l rfl), add_zero]
    | some u => simp only; rw [e1 l (h1 l rfl), e2 u (h2 u rfl), add_zero]

/-- From a solution no step is taken. -/
theorem lpTry_opt {a : LPArgs m q} {D : Set (Pt m)} {A : Matrix (Fin q) (Fin m) ℝ} {b : Pt q} (h : LinLP a D A b) (first : Bool) {s : LPState m q}
    (hg : LPGood a A b s) (ho : LPOpt a D A b s.x) : ∃ s' brk st, lpTry a A first s = .ok (s', brk, st) ∧ SamePoint s s' := by
  unfold lpTry
  cases hs : a.solve s.x s.fx A (if first then none else some s.delta) with
  | value p =>
    rw [hg.1] at hs
    simp only [h.T, trajLinear, h.f, one_smul]
    split
    · exact ⟨_, _, _, rfl, rfl, rfl, rfl⟩
    · obtain ⟨o, hob⟩ := h.total (A *ᵥ (s.x + p) + b)
      rw [hob]
      simp only
      have hle := ho.2 _ (lp_feas h hs) s.obj o (by rw [← hg.1]; exact hg.2) hob
      rw [if_neg (fun hc => absurd hc.1 (not_lt.2 hle))]
      exact ⟨_, _, _, rfl, rfl, rfl, rfl⟩
  | unbounded =>
    simp only
    split <;> exact ⟨_, _, _, rfl, rfl, rfl, rfl⟩
  | solverError =>
    simp only
    split <;> exact ⟨_, _, _, rfl, rfl, rfl, rfl⟩
  | other => exact ⟨_, _, _, rfl, rfl, rfl, rfl⟩

theorem lpGood_same {a : LPArgs m q} {A : Matrix (Fin q) (Fin m) ℝ} {b : Pt q} {s s' : LPState m q} (h : SamePoint s s') (hg : LPGood a A b s) :
    LPGood a A b s' := by
  obtain ⟨h1, h2, h3⟩ := h
  exact ⟨by rw [h1, h2]; exact hg.1, by rw [h2, h3]; exact hg.2⟩

theorem lpInner_opt {a : LPArgs m q} {D : Set (Pt m)} {A : Matrix (Fin q) (Fin m) ℝ} {b : Pt q} (h : LinLP a D A b) :
    ∀ (k : ℕ) (first : Bool) (s : LPState m q) (stop : Bool), LPGood a A b s → LPOpt a D A b s.x →
      ∃ s' st, lpInner a A k first s stop = .ok (s', st) ∧ SamePoint s s' := by
  intro k
  induction k with
  | zero =>
    intro first s stop hg ho
    obtain ⟨s', brk, st, e, hp⟩ := lpTry_opt h first hg ho
    exact ⟨s', true, by rw [lpInner, e], hp⟩
  | succ k ih =>
    intro first s stop hg ho
    obtain ⟨s1, brk, st, e, hp⟩ := lpTry_opt h first hg ho
    rw [lpInner, e]
    simp only
    by_cases hb : brk = true
    · exact ⟨s1, _, by rw [if_pos hb], hp⟩
    · rw [if_neg hb]
      obtain ⟨s', st', e', h1, h2, h3⟩ := ih false s1 (stop || st) (lpGood_same hp hg) (by rw [hp.1]; exact ho)
      exact ⟨s', st', e', h1.trans hp.1, h2.trans hp.2.1, h3.trans hp.2.2⟩

theorem lpLoop_opt {a : LPArgs m q} {D : Set (Pt m)} {A : Matrix (Fin q) (Fin m) ℝ} {b : Pt q} (h : LinLP a D A b) (hbt : a.btMax ≠ 0) :
    ∀ (N : ℕ) (s : LPState m q), LPGood a A b s → LPOpt a D A b s.x → ∃ s', lpLoop a N s A = .ok s' ∧ s'.x = s.x := by
  intro N
  induction N with
  | zero => exact fun s _ _ => ⟨s, rfl, rfl⟩
  | succ N ih =>
    intro s hg ho
    obtain ⟨s1, st, e, hp⟩ := lpInner_opt h (a.btMax - 1) true s false hg ho
    rw [lpLoop, if_neg hbt, e]
    simp only [h.jac, h.quiet]
    rw [if_neg (by simp)]
    by_cases hst : st = true
    · exact ⟨s1, by rw [if_pos hst], hp.1⟩
    · rw [if_neg hst]
      obtain ⟨s', e', h1⟩ := ih s1 (lpGood_same hp hg) (by rw [hp.1]; exact ho)
      exact ⟨s', e', h1.trans hp.1⟩

/-- **C164**: on a linear problem, from a start that satisfies the bounds on the function and is in the domain, the call returns a solution, or a
point that agrees with one to the relative tolerance `tol_dx` in every coordinate. For every objective, all bounds, and every number of iterations and trials (at
least one). Missing: starts that violate the bounds, for which it is false (`seqlp_infeasible_false`). -/
theorem seqlp_linear_partial (a : LPArgs m q) (D : Set (Pt m)) (A : Matrix (Fin q) (Fin m) ℝ) (b : Pt q) (h : LinLP a D A b) (hbt : a.btMax ≠ 0)
    (hN : 0 < a.maxiter) (x0 : Pt m) (h0 : LPFeas D a.lb a.ub x0 (A *ᵥ x0 + b)) :
    ∃ x, sequentialLP a x0 = .ok x ∧ ∃ z, LPOpt a D A b z ∧ (x = z ∨ ∀ i, |x i - z i| ≤ a.tolDx * |z i|) := by
  obtain ⟨o0, ho0⟩ := h.total (A *ᵥ x0 + b)
  set s0 : LPState m q := ⟨x0, A *ᵥ x0 + b, o0, 1, none, none⟩ with hs0
  have hg0 : LPGood a A b s0 := ⟨rfl, ho0⟩
  have hrun : ∀ s', lpLoop a a.maxiter s0 A = .ok s' → sequentialLP a x0 = .ok s'.x := by
    intro s' e
    unfold sequentialLP
    simp only [h.f, h.jac, ho0]
    rw [e]
  by_cases hopt : LPOpt a D A b x0
  · obtain ⟨s', e, hx⟩ := lpLoop_opt h hbt a.maxiter s0 hg0 hopt
    exact ⟨s'.x, hrun s' e, x0, hopt, Or.inl hx⟩
  obtain ⟨p, hp⟩ := h.solves x0 h0
  have hz := lp_opt h hp
  obtain ⟨oz, hoz⟩ := h.total (A *ᵥ (x0 + p) + b)
  have hlt : oz < o0 := by
    by_contra hc
    refine hopt ⟨h0, fun y hy o o' ho ho' => ?_⟩
    rw [ho0] at ho
    cases ho
    exact (not_lt.1 hc).trans (hz.2 y hy oz o' hoz ho')
  obtain ⟨N, hN'⟩ : ∃ N, a.maxiter = N + 1 := ⟨a.maxiter - 1, by omega⟩
  by_cases hsame : sameish a.tolDx x0 (x0 + p)
  · -- the step is below the tolerance
    have htry : lpTry a A true s0 = .ok ({ s0 with px := some p }, true, true) := by
      unfold lpTry
      simp only [hs0, if_true, hp, h.T, trajLinear, one_smul]
      rw [if_pos hsame]
    have hin : ∃ st, lpInner a A (a.btMax - 1) true s0 false = .ok ({ s0 with px := some p }, st) ∧ st = true := by
      cases hk : a.btMax - 1 with
      | zero => exact ⟨true, by rw [lpInner, htry], rfl⟩
      | succ k => exact ⟨_, by rw [lpInner, htry]; simp, rfl⟩
    obtain ⟨st, hin, hst⟩ := hin
    refine ⟨x0, hrun { s0 with px := some p } ?_, x0 + p, hz, Or.inr hsame⟩
    rw [hN', lpLoop, if_neg hbt, hin]
    simp only [h.jac, h.quiet]
    rw [if_neg (by simp), if_pos hst]
  · -- the step is taken
    set s1 : LPState m q := ⟨x0 + p, A *ᵥ (x0 + p) + b, oz, max 1 (nrm p), some p, some (violation a.lb a.ub (A *ᵥ (x0 + p) + b))⟩ with hs1
    have htry : ∃ st, lpTry a A true s0 = .ok (s1, true, st) := by
      refine ⟨decide (|oz - o0| < a.tolObj), ?_⟩
      unfold lpTry
      simp only [hs0, if_true, hp, h.T, h.f, trajLinear, one_smul, hoz]
      rw [if_neg hsame, if_pos ⟨hlt, by rw [violation_zero hz.1]; norm_num⟩]
    obtain ⟨st, htry⟩ := htry
    have hin : ∃ st', lpInner a A (a.btMax - 1) true s0 false = .ok (s1, st') := by
      cases hk : a.btMax - 1 with
      | zero => exact ⟨true, by rw [lpInner, htry]⟩
      | succ k => exact ⟨false || st, by rw [lpInner, htry]; simp⟩
    obtain ⟨st', hin⟩ := hin
    have hloop : ∃ s', lpLoop a a.maxiter s0 A = .ok s' ∧ s'.x = x0 + p := by
      rw [hN', lpLoop, if_neg hbt, hin]
      simp only [h.jac, h.quiet]
      rw [if_neg (by simp)]
      by_cases hst : st' = true
      · exact ⟨s1, by rw [if_pos hst], rfl⟩
      · rw [if_neg hst]
        obtain ⟨s', e, hx⟩ := lpLoop_opt h hbt N s1 ⟨rfl, hoz⟩ hz
        exact ⟨s', e, hx⟩
    obtain ⟨s', e, hx⟩ := hloop
    exact ⟨s'.x, hrun s' e, x0 + p, hz, Or.inl hx⟩

/-! ### Starts that violate the bounds -/

open Classical in
/-- The exact solver for: minimize `x` subject to `0 ≤ x` (the bound on the function). -/
noncomputable def boundSolve (x fx : Pt 1) (J : Matrix (Fin 1) (Fin 1) ℝ) (d : Option ℝ) : LPRes 1 :=
  if h : ∃ p, LPStep Set.univ (some 0) none x fx J d p ∧ ∀ p', LPStep Set.univ (some 0) none x fx J d p' → ∀ o o',
    objfun .none (fx + J *ᵥ p) = .ok o → objfun .none (fx + J *ᵥ p') = .ok o' → o ≤ o' then .value (Classical.choose h) else .other

/-- Minimize `x` subject to `f(x) = x ≥ 0`. -/
noncomputable def boundArgs1 (N bt : ℕ) : LPArgs 1 1 where
  f := fun x => .ok ((1 : Matrix (Fin 1) (Fin 1) ℝ) *ᵥ x + 0)
  jac := fun _ => .ok 1
  norm := .none
  T := trajLinear
  lb := some 0
  ub := none
  maxiter := N
  btMax := bt
  tolDx := 1 / 10 ^ 10
  tolObj := 1 / 10 ^ 10
  verbose := false
  solve := boundSolve

theorem obj_one (v : Pt 1) : objfun .none v = .ok (v 0) := by
  unfold objfun
  simp

theorem bound_linLP (N bt : ℕ) : LinLP (boundArgs1 N bt) Set.univ 1 0 := by
  refine ⟨rfl, rfl, rfl, rfl, fun v => ⟨_, obj_one v⟩, ?_, ?_⟩
  · intro x fx J d p hp
    simp only [boundArgs1, boundSolve] at hp
    split at hp
    · rename_i hex
      have e : Classical.choose hex = p := by simpa using hp
      have := Classical.choose_spec hex
      rw [e] at this
      exact this
    · cases hp
  · intro x _
    have hex : ∃ p, LPStep Set.univ (some 0) none x ((1 : Matrix (Fin 1) (Fin 1) ℝ) *ᵥ x + 0) 1 none p ∧
        ∀ p', LPStep Set.univ (some 0) none x ((1 : Matrix (Fin 1) (Fin 1) ℝ) *ᵥ x + 0) 1 none p' → ∀ o o',
        objfun .none ((1 : Matrix (Fin 1) (Fin 1) ℝ) *ᵥ x + 0 + 1 *ᵥ p) = .ok o →
        objfun .none ((1 : Matrix (Fin 1) (Fin 1) ℝ) *ᵥ x + 0 + 1 *ᵥ p') = .ok o' → o ≤ o' := by
      refine ⟨-x, ⟨⟨trivial, ?_, by intro u hu; cases hu⟩, by intro r hr; cases hr⟩, ?_⟩
      · intro l hl i
        cases hl
        simp
      · intro p' hp' o o' ho ho'
        rw [obj_one] at ho ho'
        cases ho
        cases ho'
        have := hp'.1.2.1 0 rfl 0
        simpa using this
    refine ⟨Classical.choose hex, ?_⟩
    simp only [boundArgs1, boundSolve]
    rw [dif_pos hex]

/-- The hypotheses of `seqlp_linear_partial` can be met: from `1` the solution `0` is found. -/
example : ∃ x, sequentialLP (boundArgs1 100 50) (q1 1) = .ok x ∧ |x 0| ≤ 0 := by
  obtain ⟨x, hx, z, hz, hxz⟩ := seqlp_linear_partial _ _ _ _ (bound_linLP 100 50) (by simp [boundArgs1]) (by simp [boundArgs1]) (q1 1)
    ⟨trivial, by intro l hl i; cases hl; simp [q1], by intro u hu; cases hu⟩
  have hz0 : z 0 = 0 := by
    have h1 := hz.1.2.1 0 rfl 0
    have h2 := hz.2 0 ⟨trivial, by intro l hl i; cases hl; simp, by intro u hu; cases hu⟩ (z 0) 0 (by simpa [boundArgs1] using obj_one z) (by simpa [boundArgs1] using obj_one (0 : Pt 1))
    simp at h1
    linarith
  refine ⟨x, hx, ?_⟩
  rcases hxz with rfl | h
  · rw [hz0, abs_zero]
  · have := h 0
    simpa [hz0] using this

/-- A step to a point with a larger objective is not taken. -/
theorem bound_try (N bt : ℕ) (first : Bool) {s : LPState 1 1} (hx : s.x = q1 (-1)) (hf : s.fx = q1 (-1)) (ho : s.obj = -1) :
    ∃ s' brk st, lpTry (boundArgs1 N bt) 1 first s = .ok (s', brk, st) ∧ SamePoint s s' := by
  have hl := bound_linLP N bt
  have hfx : s.fx = (1 : Matrix (Fin 1) (Fin 1) ℝ) *ᵥ s.x + 0 := by rw [hx, hf]; simp
  unfold lpTry
  cases hs : (boundArgs1 N bt).solve s.x s.fx 1 (if first then none else some s.delta) with
  | value p =>
    rw [hfx] at hs
    have h1 := (lp_feas hl hs).2.1 0 rfl 0
    simp only [hl.T, trajLinear, hl.f, one_smul]
    split
    · exact ⟨_, _, _, rfl, rfl, rfl, rfl⟩
    · have hob : objfun (boundArgs1 N bt).norm ((1 : Matrix (Fin 1) (Fin 1) ℝ) *ᵥ (s.x + p) + 0) = _ := obj_one _
      rw [hob]
      simp only
      rw [if_neg (fun hc => by
        have h2 := hc.1
        rw [ho] at h2
        have h3 : (0 : ℝ) ≤ ((1 : Matrix (Fin 1) (Fin 1) ℝ) *ᵥ (s.x + p) + 0) 0 := h1
        linarith)]
      exact ⟨_, _, _, rfl, rfl, rfl, rfl⟩
  | unbounded =>
    simp only
    split <;> exact ⟨_, _, _, rfl, rfl, rfl, rfl⟩
  | solverError =>
    simp only
    split <;> exact ⟨_, _, _, rfl, rfl, rfl, rfl⟩
  | other => exact ⟨_, _, _, rfl, rfl, rfl, rfl⟩

/-- **C164 is false**: minimize `x` subject to `x ≥ 0`, given as a bound on the function, from `-1`. The call returns `-1`, which violates
the bound by 1, whatever the number of iterations and trials, although the solver is exact and the problem has the solution `0`. -/
theorem seqlp_infeasible_false (N bt : ℕ) (hbt : bt ≠ 0) : sequentialLP (boundArgs1 N bt) (q1 (-1)) = .ok (q1 (-1)) ∧
    LPOpt (boundArgs1 N bt) Set.univ 1 0 (q1 0) := by
  constructor
  · have hin : ∀ (k : ℕ) (first : Bool) (s : LPState 1 1) (stop : Bool), s.x = q1 (-1) → s.fx = q1 (-1) → s.obj = -1 →
        ∃ s' st, lpInner (boundArgs1 N bt) 1 k first s stop = .ok (s', st) ∧ SamePoint s s' := by
      intro k
      induction k with
      | zero =>
        intro first s stop h1 h2 h3
        obtain ⟨s', brk, st, e, hp⟩ := bound_try N bt first h1 h2 h3
        exact ⟨s', true, by rw [lpInner, e], hp⟩
      | succ k ih =>
        intro first s stop h1 h2 h3
        obtain ⟨s1, brk, st, e, hp⟩ := bound_try N bt first h1 h2 h3
        rw [lpInner, e]
        simp only
        by_cases hb : brk = true
        · exact ⟨s1, _, by rw [if_pos hb], hp⟩
        · rw [if_neg hb]
          obtain ⟨s', st', e', g1, g2, g3⟩ := ih false s1 (stop || st) (hp.1.trans h1) (hp.2.1.trans h2) (hp.2.2.trans h3)
          exact ⟨s', st', e', g1.trans hp.1, g2.trans hp.2.1, g3.trans hp.2.2⟩
    have hloop : ∀ (K : ℕ) (s : LPState 1 1), s.x = q1 (-1) → s.fx = q1 (-1) → s.obj = -1 →
        ∃ s', lpLoop (boundArgs1 N bt) K s 1 = .ok s' ∧ s'.x = q1 (-1) := by
      intro K
      induction K with
      | zero => exact fun s h1 _ _ => ⟨s, rfl, h1⟩
      | succ K ih =>
        intro s h1 h2 h3
        obtain ⟨s1, st, e, hp⟩ := hin ((boundArgs1 N bt).btMax - 1) true s false h1 h2 h3
        have hj : (boundArgs1 N bt).jac s1.x = .ok 1 := rfl
        have hv : (boundArgs1 N bt).verbose = false := rfl
        rw [lpLoop, if_neg (show ¬ (boundArgs1 N bt).btMax = 0 from hbt), e]
        simp only [hj, hv]
        rw [if_neg (by simp)]
        by_cases hst : st = true
        · exact ⟨s1, by rw [if_pos hst], hp.1.trans h1⟩
        · rw [if_neg hst]
          exact ih s1 (hp.1.trans h1) (hp.2.1.trans h2) (hp.2.2.trans h3)
    have hf : (boundArgs1 N bt).f (q1 (-1)) = .ok (q1 (-1)) := by simp [boundArgs1]
    have hj : (boundArgs1 N bt).jac (q1 (-1)) = .ok 1 := rfl
    have ho : objfun (boundArgs1 N bt).norm (q1 (-1)) = .ok (-1) := obj_one _
    obtain ⟨s', e, hx⟩ := hloop N ⟨q1 (-1), q1 (-1), -1, 1, none, none⟩ rfl rfl rfl
    unfold sequentialLP
    simp only [hf, hj, ho]
    rw [show (boundArgs1 N bt).maxiter = N from rfl, e]
    simp only [hx]
  · refine ⟨⟨trivial, by intro l hl i; cases hl; simp [q1], by intro u hu; cases hu⟩, fun y hy o o' ho ho' => ?_⟩
    have h1 : objfun (boundArgs1 N bt).norm ((1 : Matrix (Fin 1) (Fin 1) ℝ) *ᵥ q1 0 + 0) = _ := obj_one _
    have h2 : objfun (boundArgs1 N bt).norm ((1 : Matrix (Fin 1) (Fin 1) ℝ) *ᵥ y + 0) = _ := obj_one _
    rw [h1] at ho
    rw [h2] at ho'
    cases ho
    cases ho'
    have := hy.2.1 0 rfl 0
    simpa [q1] using this

end Verif.Opt
