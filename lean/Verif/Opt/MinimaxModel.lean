import Verif.Opt.GNModel

/-!
# Model of the minimax solver

Source: `/repo/psdr/minimax.py`.

Simplifications: the functions have at least one component and the points at least one coordinate (`np.max` of an
empty array raises); the convex program of each step is solved by a parameter, which sees everything that enters
the program (current point, values, level `t`, gradients, trust region radius); printing is dropped.
-/

namespace Verif.Opt

open Verif.Domain Verif.Lip Matrix

variable {m q : ℕ}

/-- `np.max` of the values. -/
noncomputable def vmax (v : Pt (q + 1)) : ℝ := Finset.univ.sup' ⟨0, Finset.mem_univ 0⟩ v

/-- Outcome of the convex program for the step, minimax.py 159-166. `value none` is an inaccurate status whose
variables have no value. -/
inductive StepRes (m : ℕ) where
  | solverError
  | infeasible
  | unbounded
  | value (v : Option (Pt m × ℝ))

/-- The arguments of `minimax`, minimax.py 14-17. `delta = none` for `trust_region = False`. -/
structure MMArgs (m q : ℕ) where
  f : Pt m → Except Exn (Pt (q + 1))
  grad : Pt m → Except Exn (Matrix (Fin (q + 1)) (Fin m) ℝ)
  isinside : Pt m → Bool
  T : Traj m
  c : ℝ
  maxiter : ℕ
  trust : Bool
  tolDx : ℝ
  tolDf : ℝ
  btMax : ℕ
  solve : Pt m → Pt (q + 1) → ℝ → Matrix (Fin (q + 1)) (Fin m) ℝ → Option ℝ → StepRes m

/-- The variables of the main loop (minimax.py 125-136); `delta` is `none` if there is no trust region. -/
structure MMState (m q : ℕ) where
  x : Pt m
  fx : Pt (q + 1)
  t : ℝ
  delta : Option ℝ

/-- The backtracking loop, minimax.py 176-203: `k + 1` trials left. The flag is `stop`. -/
noncomputable def mmBack (a : MMArgs m q) (s : MMState m q) (px : Pt m) (pt : ℝ) : ℕ → ℝ → Except Exn (MMState m q × Bool)
  | k, alpha =>
    match a.T s.x px alpha with
    | .error e => .error e
    | .ok x =>
      match a.f x with
      | .error e => .error e
      | .ok fx =>
        -- 184-186
        if ∀ i, |x i - s.x i| < a.tolDx then .ok (s, true)
        -- 188-193
        else if vmax fx ≤ s.t + a.c * alpha * pt then
          -- 202-203: the last trial also stops
          .ok (⟨x, fx, vmax fx, s.delta.map fun d => d * (2 * alpha)⟩, decide (k = 0))
        -- 196-198
        else if |alpha * pt| < a.tolDf then .ok (s, true)
        else match k with
          | 0 => .ok (s, true)
          | k' + 1 => mmBack a s px pt k' (alpha * (1 / 2))

/-- The main loop, minimax.py 138-209: `k` iterations left. -/
noncomputable def mmLoop (a : MMArgs m q) : ℕ → MMState m q → Except Exn (MMState m q)
  | 0, s => .ok s
  | k + 1, s =>
    match a.grad s.x with
    | .error e => .error e
    | .ok G =>
      match a.solve s.x s.fx s.t G s.delta with
      | .solverError => .ok s
      | .infeasible => .error (.err .infeasible)
      | .unbounded => .error (.err .unbounded)
      | .value none => .error (.err .typeError)
      | .value (some (px, pt)) =>
        if pt > 0 then .ok s
        else
          -- 178, 202: without a trial the variable `it2` is unbound
          if a.btMax = 0 then .error (.err .nameError)
          else match mmBack a s px pt (a.btMax - 1) 1 with
            | .error e => .error e
            | .ok (s', stop) => if stop then .ok s' else mmLoop a k s'

/-- `minimax`, minimax.py 14-210. -/
noncomputable def minimax (a : MMArgs m q) (x0 : Pt m) : Except Exn (Pt m) :=
  if ¬ a.isinside x0 then .error (.err .assertion)
  else match a.f x0 with
    | .error e => .error e
    | .ok fx =>
      match mmLoop a a.maxiter ⟨x0, fx, vmax fx, if a.trust then some 1 else none⟩ with
      | .error e => .error e
      | .ok s => .ok s.x

end Verif.Opt
