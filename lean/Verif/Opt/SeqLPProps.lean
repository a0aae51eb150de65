import Verif.Opt.SeqLPModel
import Verif.Lipschitz.BoundProps
import Verif.Geometry.GeoProps
import Mathlib.Analysis.Normed.Lp.PiLp

/-!
# Property C60: the sequential linear programming solver
-/

namespace Verif.Opt

open Verif.Domain Verif.Lip Matrix

variable {m q : ℕ}

/-- One accepted step. -/
structure LPAccept (a : LPArgs m q) (s s' : LPState m q) : Prop where
  step : ∃ p J d, a.solve s.x s.fx J d = .value p ∧ a.T s.x p 1 = .ok s'.x
  val : a.f s'.x = .ok s'.fx
  obj : objfun a.norm s'.fx = .ok s'.obj
  less : s'.obj < s.obj
  viol : |violation a.lb a.ub s'.fx| ≤ 1 / 10 ^ 10

/-- The state keeps its point. -/
def SamePoint (s s' : LPState m q) : Prop := s'.x = s.x ∧ s'.fx = s.fx ∧ s'.obj = s.obj

theorem lpTry_cases {a : LPArgs m q} {J : Matrix (Fin q) (Fin m) ℝ} {first : Bool} {s s' : LPState m q} {brk st : Bool}
    (h : lpTry a J first s = .ok (s', brk, st)) : SamePoint s s' ∨ LPAccept a s s' := by
  unfold lpTry at h
  split at h
  · split at h <;> cases h <;> exact Or.inl ⟨rfl, rfl, rfl⟩
  · split at h <;> cases h <;> exact Or.inl ⟨rfl, rfl, rfl⟩
  · cases h; exact Or.inl ⟨rfl, rfl, rfl⟩
  · rename_i p hp
    split at h
    · cases h
    · rename_i x hx
      split at h
      · cases h; exact Or.inl ⟨rfl, rfl, rfl⟩
      · split at h
        · cases h
        · rename_i fx hf
          split at h
          · cases h
          · rename_i ob ho
            split at h
            · rename_i hc
              cases h
              exact Or.inr ⟨⟨p, J, _, hp, hx⟩, hf, ho, hc.1, hc.2⟩
            · cases h; exact Or.inl ⟨rfl, rfl, rfl⟩

/-- What holds of the start and is kept by accepted steps holds of the result. -/
theorem lpLoop_induct (a : LPArgs m q) (P : Pt m → Pt q → ℝ → Prop)
    (hstep : ∀ s s' : LPState m q, P s.x s.fx s.obj → LPAccept a s s' → P s'.x s'.fx s'.obj)
    (k : ℕ) (s s' : LPState m q) (J : Matrix (Fin q) (Fin m) ℝ) (hs : P s.x s.fx s.obj) (h : lpLoop a k s J = .ok s') :
    P s'.x s'.fx s'.obj := by
  have one : ∀ {J : Matrix (Fin q) (Fin m) ℝ} {first : Bool} {s s' : LPState m q} {brk st : Bool}, P s.x s.fx s.obj →
      lpTry a J first s = .ok (s', brk, st) → P s'.x s'.fx s'.obj := by
    intro J first s s' brk st hP ht
    rcases lpTry_cases ht with ⟨e1, e2, e3⟩ | hacc
    · rw [e1, e2, e3]; exact hP
    · exact hstep s s' hP hacc
  have inner : ∀ (k : ℕ) {J : Matrix (Fin q) (Fin m) ℝ} {first stop stop' : Bool} {s s' : LPState m q}, P s.x s.fx s.obj →
      lpInner a J k first s stop = .ok (s', stop') → P s'.x s'.fx s'.obj := by
    intro k
    induction k with
    | zero =>
      intro J first stop stop' s s' hP hi
      unfold lpInner at hi
      split at hi
      · cases hi
      · rename_i s1 b1 b2 ht
        cases hi
        exact one hP ht
    | succ k ih =>
      intro J first stop stop' s s' hP hi
      unfold lpInner at hi
      split at hi
      · cases hi
      · rename_i s1 b1 b2 ht
        split at hi
        · cases hi; exact one hP ht
        · exact ih (one hP ht) hi
  induction k generalizing s J with
  | zero => simp only [lpLoop] at h; cases h; exact hs
  | succ k ih =>
    unfold lpLoop at h
    split at h
    · cases h
    · split at h
      · cases h
      · rename_i s1 stop hi
        have h1 := inner _ hs hi
        split at h
        · cases h
        · split at h
          · cases h
          · split at h
            · cases h; exact h1
            · exact ih s1 _ h1 h

theorem sequentialLP_ok {a : LPArgs m q} {x0 x : Pt m} (h : sequentialLP a x0 = .ok x) :
    ∃ fx obj J s, a.f x0 = .ok fx ∧ objfun a.norm fx = .ok obj ∧ lpLoop a a.maxiter ⟨x0, fx, obj, 1, none, none⟩ J = .ok s ∧ s.x = x := by
  unfold sequentialLP at h
  split at h
  · cases h
  · rename_i fx hf
    split at h
    · cases h
    · rename_i ob ho
      split at h
      · cases h
      · split at h
        · cases h
        · rename_i s hs
          cases h
          exact ⟨fx, ob, _, s, hf, ho, hs, rfl⟩

/-- **C60**, objective: the objective at the returned point is at most the one at the start. -/
theorem seqlp_decrease (a : LPArgs m q) (x0 x : Pt m) (h : sequentialLP a x0 = .ok x) :
    ∃ v0 v o0 o, a.f x0 = .ok v0 ∧ a.f x = .ok v ∧ objfun a.norm v0 = .ok o0 ∧ objfun a.norm v = .ok o ∧ o ≤ o0 := by
  obtain ⟨fx, ob, J, s, hf, ho, hs, rfl⟩ := sequentialLP_ok h
  have := lpLoop_induct a (fun x v o => a.f x = .ok v ∧ objfun a.norm v = .ok o ∧ o ≤ ob) ?_ _ _ s J ⟨hf, ho, le_rfl⟩ hs
  · exact ⟨fx, s.fx, ob, s.obj, hf, this.1, ho, this.2.1, this.2.2⟩
  · intro s s' h1 h2
    exact ⟨h2.val, h2.obj, h2.less.le.trans h1.2.2⟩

/-- The objective documented for each choice of `norm`: a norm of the vector, the sum of positive parts, or the only entry. -/
def IsObjective (n : SNorm) (v : Pt q) (o : ℝ) : Prop :=
  match n with
  | .one => o = ‖WithLp.toLp 1 v‖
  | .two => o = ‖WithLp.toLp 2 v‖
  | .inf => o = ‖v‖
  | .hinge => o = ∑ i, (v i)⁺
  | .none => ∃ h : q = 1, o = v ⟨0, by omega⟩

/-- **C60**: the objective function is the documented one. -/
theorem objfun_spec {n : SNorm} {v : Pt q} {o : ℝ} (h : objfun n v = .ok o) : IsObjective n v o := by
  unfold objfun at h
  cases n with
  | one =>
    cases h
    simp [IsObjective, PiLp.norm_eq_of_L1, Real.norm_eq_abs]
  | two =>
    cases h
    exact nrm_eq v
  | inf =>
    simp only at h
    split at h
    · rename_i hq
      cases h
      show _ = ‖v‖
      apply le_antisymm
      · exact Finset.sup'_le _ _ fun i _ => norm_le_pi_norm v i
      · have hnn : 0 ≤ Finset.univ.sup' ⟨⟨0, hq⟩, Finset.mem_univ _⟩ fun i => |v i| :=
          (abs_nonneg (v ⟨0, hq⟩)).trans (Finset.le_sup' (fun i => |v i|) (Finset.mem_univ _))
        rw [pi_norm_le_iff_of_nonneg hnn]
        exact fun i => Finset.le_sup' (fun i => |v i|) (Finset.mem_univ i)
    · cases h
  | hinge =>
    cases h
    rfl
  | none =>
    simp only at h
    split at h
    · rename_i hq
      cases h
      subst hq
      exact ⟨rfl, by simp⟩
    · cases h

/-- **C60**: the documented objective does not increase. -/
theorem seqlp_objective (a : LPArgs m q) (x0 x : Pt m) (h : sequentialLP a x0 = .ok x) :
    ∃ v0 v o0 o, a.f x0 = .ok v0 ∧ a.f x = .ok v ∧ IsObjective a.norm v0 o0 ∧ IsObjective a.norm v o ∧ o ≤ o0 := by
  obtain ⟨v0, v, o0, o, h1, h2, h3, h4, h5⟩ := seqlp_decrease a x0 x h
  exact ⟨v0, v, o0, o, h1, h2, objfun_spec h3, objfun_spec h4, h5⟩

theorem violation_bounds {lb ub : Option (Pt q)} {v : Pt q} {e : ℝ} (h : violation lb ub v ≤ e) :
    (∀ l, lb = some l → ∀ i, l i - e ≤ v i) ∧ (∀ u, ub = some u → ∀ i, v i ≤ u i + e) := by
  have hl : ∀ l : Pt q, 0 ≤ ∑ i, (if l i ≤ v i then 0 else |v i - l i|) := fun l =>
    Finset.sum_nonneg fun i _ => by split <;> positivity
  have hu : ∀ l : Pt q, 0 ≤ ∑ i, (if v i ≤ l i then 0 else |v i - l i|) := fun l =>
    Finset.sum_nonneg fun i _ => by split <;> positivity
  have h1 : ∀ (p : Fin q → ℝ), (∀ i, 0 ≤ p i) → ∀ i, p i ≤ ∑ i, p i := fun p hp i =>
    Finset.single_le_sum (fun j _ => hp j) (Finset.mem_univ i)
  unfold violation at h
  constructor
  · rintro l rfl i
    have h2 := h1 (fun i => if l i ≤ v i then 0 else |v i - l i|) (fun i => by split <;> positivity) i
    simp only at h h2
    have h3 : (if l i ≤ v i then 0 else |v i - l i|) ≤ e := by
      cases ub with
      | none => simp only at h; linarith
      | some u => simp only at h; have := hu u; linarith
    split at h3
    · linarith
    · have := neg_abs_le (v i - l i); linarith
  · rintro u rfl i
    have h2 := h1 (fun i => if v i ≤ u i then 0 else |v i - u i|) (fun i => by split <;> positivity) i
    simp only at h h2
    have h3 : (if v i ≤ u i then 0 else |v i - u i|) ≤ e := by
      cases lb with
      | none => simp only at h; linarith
      | some l => simp only at h; have := hl l; linarith
    split at h3
    · linarith
    · have := le_abs_self (v i - u i); linarith

/-- **C60**, bounds on `f`: if the start satisfies `lb <= f <= ub`, the result does up to `1e-10` (missing: exactly;
and the constraints other than `obj_lb`, `obj_ub`, for which it is false, `seqlp_constraint_false`). -/
theorem seqlp_bounds_partial (a : LPArgs m q) (x0 x : Pt m) (v0 : Pt q) (h0 : a.f x0 = .ok v0)
    (hl : ∀ l, a.lb = some l → ∀ i, l i ≤ v0 i) (hu : ∀ u, a.ub = some u → ∀ i, v0 i ≤ u i) (h : sequentialLP a x0 = .ok x) :
    ∃ v, a.f x = .ok v ∧ (∀ l, a.lb = some l → ∀ i, l i - 1 / 10 ^ 10 ≤ v i) ∧ (∀ u, a.ub = some u → ∀ i, v i ≤ u i + 1 / 10 ^ 10) := by
  obtain ⟨fx, ob, J, s, hf, ho, hs, rfl⟩ := sequentialLP_ok h
  rw [h0] at hf
  cases hf
  have := lpLoop_induct a (fun x v _ => a.f x = .ok v ∧ (∀ l, a.lb = some l → ∀ i, l i - 1 / 10 ^ 10 ≤ v i) ∧
    (∀ u, a.ub = some u → ∀ i, v i ≤ u i + 1 / 10 ^ 10)) ?_ _ _ s J ⟨h0, fun l e i => ?_, fun u e i => ?_⟩ hs
  · exact ⟨s.fx, this⟩
  · intro s s' _ h2
    exact ⟨h2.val, violation_bounds ((le_abs_self _).trans h2.viol)⟩
  · have := hl l e i
    have : (0:ℝ) ≤ 1 / 10 ^ 10 := by positivity
    linarith
  · have := hu u e i
    have : (0:ℝ) ≤ 1 / 10 ^ 10 := by positivity
    linarith

/-- **C60**, domain: with the linear trajectory, a solver that respects the domain constraints and a start inside, the
result is inside. -/
theorem seqlp_inside (a : LPArgs m q) (D : Set (Pt m)) (hT : a.T = trajLinear)
    (hsol : ∀ x fx J d p, a.solve x fx J d = .value p → x + p ∈ D) (x0 x : Pt m) (h0 : x0 ∈ D) (h : sequentialLP a x0 = .ok x) :
    x ∈ D := by
  obtain ⟨fx, ob, J, s, hf, ho, hs, rfl⟩ := sequentialLP_ok h
  refine lpLoop_induct a (fun x _ _ => x ∈ D) ?_ _ _ s J h0 hs
  intro s s' _ h2
  obtain ⟨p, J, d, hp, ht⟩ := h2.step
  rw [hT] at ht
  simp only [trajLinear, one_smul, Except.ok.injEq] at ht
  rw [← ht]
  exact hsol _ _ _ _ _ hp

/-! ## Constraints other than bounds on `f` are only linearized -/

/-- The point of the line with coordinate `t`. -/
def q1 (t : ℝ) : Pt 1 := fun _ => t

/-- Minimize `x` subject to `g(x) = x² <= 1`, one iteration from a start `x0`, with a solver that is exact for
the linearized problem at `x = -1/2`: minimize `x + p` subject to `1/4 - p <= 1`. -/
noncomputable def parabolaArgs (solve : Pt 1 → Pt 1 → Matrix (Fin 1) (Fin 1) ℝ → Option ℝ → LPRes 1) : LPArgs 1 1 where
  f := fun x => .ok x
  jac := fun _ => .ok 1
  norm := .none
  T := trajLinear
  lb := none
  ub := none
  maxiter := 1
  btMax := 50
  tolDx := 1 / 10 ^ 10
  tolObj := 1 / 10 ^ 10
  verbose := false
  solve := solve

/-- Specification of an exact answer to the linearized problem at `x` (objective `x + p`, constraint
`x² + 2 x p <= 1`) without trust region. -/
def LinOptimal (x : Pt 1) (p : Pt 1) : Prop :=
  x 0 ^ 2 + 2 * x 0 * p 0 ≤ 1 ∧ ∀ p' : Pt 1, x 0 ^ 2 + 2 * x 0 * p' 0 ≤ 1 → x 0 + p 0 ≤ x 0 + p' 0

/-- **C60 is false for the other constraints**: `x0 = -1/2` satisfies `x² <= 1`; for every solver that solves the
linearized problem exactly, the result is `-5/4`, which violates it. -/
theorem seqlp_constraint_false (solve : Pt 1 → Pt 1 → Matrix (Fin 1) (Fin 1) ℝ → Option ℝ → LPRes 1) (p : Pt 1)
    (hs : solve (q1 (-1 / 2)) (q1 (-1 / 2)) 1 none = .value p) (hp : LinOptimal (q1 (-1 / 2)) p) :
    (q1 (-1 / 2)) 0 ^ 2 ≤ 1 ∧ ∃ x, sequentialLP (parabolaArgs solve) (q1 (-1 / 2)) = .ok x ∧ ¬ x 0 ^ 2 ≤ 1 := by
  have hp0 : p = q1 (-3 / 4) := by
    obtain ⟨h1, h2⟩ := hp
    have h3 := h2 (q1 (-3 / 4)) (by norm_num [q1])
    funext i
    obtain rfl : i = 0 := Subsingleton.elim _ _
    simp only [q1] at h1 h3 ⊢
    linarith
  subst hp0
  refine ⟨by norm_num [q1], q1 (-5 / 4), ?_, by norm_num [q1]⟩
  have hT : (parabolaArgs solve).T (q1 (-1 / 2)) (q1 (-3 / 4)) 1 = .ok (q1 (-5 / 4)) := by
    show Except.ok _ = _
    congr 1
    funext i
    simp only [one_smul, Pi.add_apply, q1]
    norm_num
  have hobj : ∀ t, objfun .none (q1 t) = .ok t := fun t => by simp [objfun, q1]
  unfold sequentialLP
  have hf : ∀ x, (parabolaArgs solve).f x = .ok x := fun _ => rfl
  have hj : ∀ x, (parabolaArgs solve).jac x = .ok 1 := fun _ => rfl
  have hn : (parabolaArgs solve).norm = .none := rfl
  have hm : (parabolaArgs solve).maxiter = 1 := rfl
  have hb : (parabolaArgs solve).btMax = 50 := rfl
  simp only [hf, hn, hobj, hj, hm]
  have htry : lpTry (parabolaArgs solve) 1 true ⟨q1 (-1 / 2), q1 (-1 / 2), -1 / 2, 1, none, none⟩ =
      .ok (⟨q1 (-5 / 4), q1 (-5 / 4), -5 / 4, max 1 (nrm (q1 (-3 / 4))), some (q1 (-3 / 4)), some 0⟩, true, false) := by
    unfold lpTry
    have hs' : (parabolaArgs solve).solve (q1 (-1 / 2)) (q1 (-1 / 2)) 1 none = .value (q1 (-3 / 4)) := hs
    have hv : violation (parabolaArgs solve).lb (parabolaArgs solve).ub (q1 (-5 / 4)) = 0 := by simp [violation, parabolaArgs]
    simp only [if_true, hs', hT, hf, hn, hobj, hv]
    rw [if_neg, if_pos]
    · congr 3
      rw [decide_eq_false_iff_not]
      norm_num [parabolaArgs]
    · norm_num
    · intro hsame
      have := hsame 0
      norm_num [q1, parabolaArgs, abs_of_neg, abs_of_pos] at this
  unfold lpLoop
  rw [hb, if_neg (by norm_num)]
  simp only [show 50 - 1 = 48 + 1 from rfl, lpInner, htry, hj, if_true, Bool.false_or]
  rw [if_neg (by simp [parabolaArgs])]
  simp [lpLoop]

/-- Such solvers exist. -/
example : LinOptimal (q1 (-1 / 2)) (q1 (-3 / 4)) := by
  refine ⟨by norm_num [q1], fun p' h => ?_⟩
  simp only [q1] at h ⊢
  linarith

/-! ## Verbose runs can fail where quiet ones succeed -/

/-- **C60**, printing: if the first step moves no coordinate by more than the relative tolerance (for instance when started at the solution), a
quiet run returns the start but a verbose run raises, because the printed constraint violation was never computed. -/
theorem seqlp_verbose (a : LPArgs m q) (x0 : Pt m) (fx : Pt q) (ob : ℝ) (J : Matrix (Fin q) (Fin m) ℝ) (p : Pt m) (hm : 0 < a.maxiter)
    (hb : 1 < a.btMax) (hf : a.f x0 = .ok fx) (ho : objfun a.norm fx = .ok ob) (hj : a.jac x0 = .ok J)
    (hs : a.solve x0 fx J none = .value p) {x1 : Pt m} (hT : a.T x0 p 1 = .ok x1) (htol : ∀ i, |x0 i - x1 i| ≤ a.tolDx * |x1 i|) :
    sequentialLP a x0 = if a.verbose then .error (.err .nameError) else .ok x0 := by
  have htry : lpTry a J true ⟨x0, fx, ob, 1, none, none⟩ = .ok (⟨x0, fx, ob, 1, some p, none⟩, true, true) := by
    unfold lpTry
    simp only [if_true, hs, hT]
    rw [if_pos (show sameish a.tolDx x0 x1 from htol)]
  obtain ⟨k, hk⟩ : ∃ k, a.maxiter = k + 1 := ⟨a.maxiter - 1, by omega⟩
  obtain ⟨l, hl⟩ : ∃ l, a.btMax - 1 = l + 1 := ⟨a.btMax - 2, by omega⟩
  unfold sequentialLP
  simp only [hf, ho, hj, hk]
  unfold lpLoop
  rw [if_neg (by omega)]
  simp only [hl, lpInner, htry, if_true, hj, Bool.false_or]
  cases hv : a.verbose <;> simp

/-- A start at a solution: minimize `|x|` from `0`. -/
example : ∃ a : LPArgs 1 1, 0 < a.maxiter ∧ 1 < a.btMax ∧ a.f 0 = .ok 0 ∧ objfun a.norm (0 : Pt 1) = .ok 0 ∧ a.jac 0 = .ok 1 ∧
    a.solve 0 0 1 none = .value 0 ∧ a.T 0 0 1 = .ok 0 ∧ ∀ i, |(0 : Pt 1) i - (0 : Pt 1) i| ≤ a.tolDx * |(0 : Pt 1) i| :=
  ⟨⟨fun x => .ok x, fun _ => .ok 1, .two, trajLinear, none, none, 100, 50, 1 / 10 ^ 10, 1 / 10 ^ 10, true, fun x _ _ _ => .value (-x)⟩,
    by norm_num, by norm_num, rfl, by simp [objfun, nrm_zero], rfl, by simp, by simp [trajLinear], by simp⟩

/-- **C60**, a step that is taken: if the full step moves some coordinate by more than the relative tolerance, decreases the objective and keeps the
bounds, then a single iteration returns the end of the step. -/
theorem seqlp_accept (a : LPArgs m q) {x0 x1 : Pt m} {fx f1 : Pt q} {ob o1 : ℝ} {J J1 : Matrix (Fin q) (Fin m) ℝ} {p : Pt m} (hm : a.maxiter = 1)
    (hb : 0 < a.btMax) (hf : a.f x0 = .ok fx) (ho : objfun a.norm fx = .ok ob) (hj : a.jac x0 = .ok J) (hs : a.solve x0 fx J none = .value p)
    (hT : a.T x0 p 1 = .ok x1) (hmove : ∃ i, a.tolDx * |x1 i| < |x0 i - x1 i|) (hf1 : a.f x1 = .ok f1) (ho1 : objfun a.norm f1 = .ok o1) (hlt : o1 < ob)
    (hlb : ∀ l, a.lb = some l → ∀ i, l i ≤ f1 i) (hub : ∀ u, a.ub = some u → ∀ i, f1 i ≤ u i) (hj1 : a.jac x1 = .ok J1) : sequentialLP a x0 = .ok x1 := by
  have hv : violation a.lb a.ub f1 = 0 := by
    have h1 : ∀ o : Option (Pt q), (∀ l, o = some l → ∀ i, l i ≤ f1 i) →
        (match o with | some l => ∑ i, (if l i ≤ f1 i then 0 else |f1 i - l i|) | none => 0) = (0 : ℝ) := by
      intro o ho
      cases o with
      | none => rfl
      | some l => exact Finset.sum_eq_zero fun i _ => if_pos (ho l rfl i)
    have h2 : ∀ o : Option (Pt q), (∀ u, o = some u → ∀ i, f1 i ≤ u i) →
        (match o with | some u => ∑ i, (if f1 i ≤ u i then 0 else |f1 i - u i|) | none => 0) = (0 : ℝ) := by
      intro o ho
      cases o with
      | none => rfl
      | some l => exact Finset.sum_eq_zero fun i _ => if_pos (ho l rfl i)
    exact (congrArg₂ (· + ·) (h1 a.lb hlb) (h2 a.ub hub)).trans (add_zero 0)
  have htry : lpTry a J true ⟨x0, fx, ob, 1, none, none⟩ = .ok (⟨x1, f1, o1, max 1 (nrm p), some p, some (violation a.lb a.ub f1)⟩, true, decide (|o1 - ob| < a.tolObj)) := by
    unfold lpTry
    simp only [if_true, hs, hT]
    rw [if_neg fun h => by obtain ⟨i, hi⟩ := hmove; exact absurd (h i) (not_le.2 hi)]
    simp only [hf1, ho1]
    rw [if_pos ⟨hlt, by rw [hv, abs_zero]; positivity⟩]
  unfold sequentialLP
  simp only [hf, ho, hj, hm]
  unfold lpLoop
  rw [if_neg (by omega)]
  have hin : ∃ st, lpInner a J (a.btMax - 1) true ⟨x0, fx, ob, 1, none, none⟩ false =
      .ok (⟨x1, f1, o1, max 1 (nrm p), some p, some (violation a.lb a.ub f1)⟩, st) := by
    cases a.btMax - 1 with
    | zero => refine ⟨true, ?_⟩; simp only [lpInner, htry]
    | succ l => refine ⟨decide (|o1 - ob| < a.tolObj), ?_⟩; simp only [lpInner, htry, if_true, Bool.false_or]
  obtain ⟨st, hin⟩ := hin
  simp only [hin, hj1, reduceCtorEq, or_self, and_false, if_false]
  cases st <;> simp [lpLoop]

end Verif.Opt
