import Verif.Opt.GNModel

/-!
# Model of the sequential linear programming solver

Source: `/repo/psdr/seqlp.py`.

Simplifications: `f` and `jac` are single functions (the fall back to lists of functions on `TypeError`, 127-130, 134-137, is
not modelled); the convex program is solved by a parameter which sees the current point, the value and Jacobian of the
objective and the trust region radius (`none` while the trust region is off) and everything fixed (`obj_lb`, `obj_ub`, the other
constraints, the domain); `float` of a vector of length other than one raises `TypeError`; printing is dropped except for the
names it reads (271), and the Karush-Kuhn-Tucker norm, which is only printed, is dropped.
-/

namespace Verif.Opt

open Verif.Domain Verif.Lip Matrix

variable {m q : ℕ}

/-- The argument `norm`, seqlp.py 47. -/
inductive SNorm where
  | one | two | inf | none | hinge

/-- `objfun`, seqlp.py 78-83. For `inf` the vector must be non-empty (`ValueError` otherwise). -/
noncomputable def objfun (n : SNorm) (v : Pt q) : Except Exn ℝ :=
  match n with
  | .one => .ok (∑ i, |v i|)
  | .two => .ok (nrm v)
  | .inf => if h : 0 < q then .ok (Finset.univ.sup' ⟨⟨0, h⟩, Finset.mem_univ _⟩ fun i => |v i|) else .error (.err .valueError)
  | .hinge => .ok (∑ i, max (v i) 0)
  | .none => if q = 1 then .ok (∑ i, v i) else .error (.err .typeError)

/-- Outcome of the convex program, seqlp.py 195-207. -/
inductive LPRes (m : ℕ) where
  /-- status `optimal` or `optimal_inaccurate` -/
  | value (p : Pt m)
  /-- status `unbounded` or `unbounded_inaccurate` -/
  | unbounded
  | solverError
  /-- any other status -/
  | other

/-- The arguments of `sequential_lp`, seqlp.py 19-23. -/
structure LPArgs (m q : ℕ) where
  f : Pt m → Except Exn (Pt q)
  jac : Pt m → Except Exn (Matrix (Fin q) (Fin m) ℝ)
  norm : SNorm
  T : Traj m
  lb : Option (Pt q)
  ub : Option (Pt q)
  maxiter : ℕ
  btMax : ℕ
  tolDx : ℝ
  tolObj : ℝ
  verbose : Bool
  solve : Pt m → Pt q → Matrix (Fin q) (Fin m) ℝ → Option ℝ → LPRes m

/-- The variables of the loops; `px` and `viol` are `none` until they are first assigned. -/
structure LPState (m q : ℕ) where
  x : Pt m
  fx : Pt q
  obj : ℝ
  delta : ℝ
  px : Option (Pt m)
  viol : Option ℝ

/-- `constraint_violation`, seqlp.py 228-234. -/
noncomputable def violation (lb ub : Option (Pt q)) (v : Pt q) : ℝ :=
  (match lb with | some l => ∑ i, (if l i ≤ v i then 0 else |v i - l i|) | none => 0) +
  (match ub with | some u => ∑ i, (if v i ≤ u i then 0 else |v i - u i|) | none => 0)

/-- `np.all(np.isclose(x, x_new, rtol = tol_dx, atol = 0))`, seqlp.py 217. -/
def sameish (tol : ℝ) (x y : Pt m) : Prop := ∀ i, |x i - y i| ≤ tol * |y i|

open Classical in
/-- One pass of the inner loop, seqlp.py 186-250. The result is the new state, whether the loop is left by
`break`, and whether `stop` was set. -/
noncomputable def lpTry (a : LPArgs m q) (J : Matrix (Fin q) (Fin m) ℝ) (first : Bool) (s : LPState m q) :
    Except Exn (LPState m q × Bool × Bool) :=
  match a.solve s.x s.fx J (if first then none else some s.delta) with
  -- 205, 209-211 in the first pass; 249-251 later
  | .unbounded => if first then .ok (s, false, false) else .ok ({ s with px := some 0 }, false, true)
  | .solverError => if first then .ok (s, false, false) else .ok ({ s with px := some 0 }, false, true)
  | .other => .ok ({ s with px := some 0 }, false, true)
  | .value p =>
    match a.T s.x p 1 with
    | .error e => .error e
    | .ok x =>
      -- 217-219
      if sameish a.tolDx s.x x then .ok ({ s with px := some p }, true, true)
      else match a.f x with
        | .error e => .error e
        | .ok fx =>
          match objfun a.norm fx with
          | .error e => .error e
          | .ok obj =>
            -- 236-244
            if obj < s.obj ∧ |violation a.lb a.ub fx| ≤ 1 / 10 ^ 10 then
              .ok (⟨x, fx, obj, max 1 (nrm p), some p, some (violation a.lb a.ub fx)⟩, true, decide (|obj - s.obj| < a.tolObj))
            -- 246
            else .ok ({ s with delta := s.delta * (1 / 2), px := some p, viol := some (violation a.lb a.ub fx) }, false, false)

/-- The inner loop, seqlp.py 186-261: `k + 1` passes left. The flag is `stop`, which is also set if the last
pass is reached. -/
noncomputable def lpInner (a : LPArgs m q) (J : Matrix (Fin q) (Fin m) ℝ) : ℕ → Bool → LPState m q → Bool → Except Exn (LPState m q × Bool)
  | 0, first, s, _ =>
    match lpTry a J first s with
    | .error e => .error e
    | .ok (s', _, _) => .ok (s', true)
  | k + 1, first, s, stop =>
    match lpTry a J first s with
    | .error e => .error e
    | .ok (s', brk, st) => if brk then .ok (s', stop || st) else lpInner a J k false s' (stop || st)

/-- The main loop, seqlp.py 146-273: `k` iterations left. -/
noncomputable def lpLoop (a : LPArgs m q) : ℕ → LPState m q → Matrix (Fin q) (Fin m) ℝ → Except Exn (LPState m q)
  | 0, s, _ => .ok s
  | k + 1, s, J =>
    -- 260: without a pass the variable `it2` is unbound
    if a.btMax = 0 then .error (.err .nameError)
    else match lpInner a J (a.btMax - 1) true s false with
      | .error e => .error e
      | .ok (s', stop) =>
        match a.jac s'.x with
        | .error e => .error e
        | .ok J' =>
          -- 269-271: the printed names may be unbound
          if a.verbose ∧ (s'.px = none ∨ s'.viol = none) then .error (.err .nameError)
          else if stop then .ok s'
          else lpLoop a k s' J'

/-- `sequential_lp`, seqlp.py 19-275. -/
noncomputable def sequentialLP (a : LPArgs m q) (x0 : Pt m) : Except Exn (Pt m) :=
  match a.f x0 with
  | .error e => .error e
  | .ok fx =>
    match objfun a.norm fx with
    | .error e => .error e
    | .ok obj =>
      match a.jac x0 with
      | .error e => .error e
      | .ok J =>
        match lpLoop a a.maxiter ⟨x0, fx, obj, 1, none, none⟩ J with
        | .error e => .error e
        | .ok s => .ok s.x

end Verif.Opt
