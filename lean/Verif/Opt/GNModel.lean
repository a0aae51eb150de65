import Verif.Domain.Model
import Verif.Lipschitz.BoundModel

/-!
# Model of the Gauss-Newton solver and its line search

Source: `/repo/psdr/gn.py`.

Simplifications: exact real arithmetic; the user's residual, Jacobian, trajectory, line search and
search direction solver are deterministic functions which can raise; printing is dropped, except for
the assignment to `normgrad` inside the printing section, which is kept.
-/

namespace Verif.Opt

open Verif.Domain Verif.Lip Matrix

/-- The exceptions that can pass through the solvers: the step rejection `BadStep` (gn.py 16-17), the
errors of the rest of the model, and the two raised by `gauss_newton` itself (gn.py 199, 265). -/
inductive Exn where
  | badStep
  | err (e : Err)
  | nonFinite
  | undetermined

variable {m M : ℕ}

/-- A residual function that can raise. -/
abbrev Resid (m M : ℕ) := Pt m → Except Exn (Pt M)

/-- A trajectory `T(x, p, alpha)` that can raise. -/
abbrev Traj (m : ℕ) := Pt m → Pt m → ℝ → Except Exn (Pt m)

/-- `trajectory_linear`, gn.py 20-21. -/
def trajLinear : Traj m := fun x p t => .ok (x + t • p)

/-- What a line search returns: the point, the step length, the residual there (gn.py 83). -/
structure LS (m M : ℕ) where
  x : Pt m
  alpha : ℝ
  fx : Pt M

/-- The loop of the line search, gn.py 64-75: `k` is the number of trials left, `bound alpha` the
Armijo bound. Returns the accepted step, if any, and the list of points at which the residual was
evaluated. Lines 72-73 swallow `BadStep`, from the trajectory or from the residual; everything else
propagates. -/
noncomputable def armijoLoop (f : Resid m M) (T : Traj m) (p x0 : Pt m) (bt : ℝ) (bound : ℝ → ℝ) :
    ℕ → ℝ → Except Exn (Option (LS m M) × List (Pt m))
  | 0, _ => .ok (none, [])
  | k + 1, alpha =>
    match T x0 p alpha with
    | .error .badStep => armijoLoop f T p x0 bt bound k (alpha * bt)
    | .error e => .error e
    | .ok x =>
      match f x with
      | .error .badStep => (armijoLoop f T p x0 bt bound k (alpha * bt)).map fun r => (r.1, x :: r.2)
      | .error e => .error e
      | .ok fx =>
        if nrm fx < bound alpha then .ok (some ⟨x, alpha, fx⟩, [x])
        else (armijoLoop f T p x0 bt bound k (alpha * bt)).map fun r => (r.1, x :: r.2)

/-- The options of `linesearch_armijo`, gn.py 24. -/
structure ArmijoOpt where
  bt : ℝ
  ftol : ℝ
  maxiter : ℕ

/-- The defaults of `linesearch_armijo`, gn.py 24. -/
noncomputable def armijoDefault : ArmijoOpt := ⟨1 / 2, 1 / 10000, 40⟩

/-- The residual at the start, unless it is passed, gn.py 59-60. -/
def startVal (f : Resid m M) (x0 : Pt m) : Option (Pt M) → Except Exn (Pt M)
  | some v => .ok v
  | none => f x0

/-- `linesearch_armijo`, gn.py 24-83, with the points of evaluation inside the loop. -/
noncomputable def armijo (o : ArmijoOpt) (f : Resid m M) (g p x0 : Pt m) (T : Traj m) (fx0 : Option (Pt M)) :
    Except Exn (LS m M × List (Pt m)) :=
  -- 54-55
  if ¬ g ⬝ᵥ p ≤ 0 then .error (.err .assertion)
  else
    match startVal f x0 fx0 with
    | .error e => .error e
    | .ok v =>
      match armijoLoop f T p x0 o.bt (fun alpha => nrm v + alpha * o.ftol * (g ⬝ᵥ p)) o.maxiter 1 with
      | .error e => .error e
      | .ok (some r, tr) => .ok (r, tr)
      -- 78-82
      | .ok (none, tr) => .ok (⟨x0, 0, v⟩, tr)

/-- A line search as called by `gauss_newton`: `linesearch(f, grad, dx, x, trajectory=trajectory)`, gn.py 206. -/
abbrev LineSearch (m M : ℕ) := Resid m M → Pt m → Pt m → Pt m → Traj m → Except Exn (LS m M)

/-- The default line search, gn.py 170-171. -/
noncomputable def armijoLS : LineSearch m M := fun f g p x0 T => (armijo armijoDefault f g p x0 T none).map (·.1)

/-- A solver for the search direction (gn.py 173-178): direction (`none` if it has a non-finite entry)
and singular values. -/
abbrev GNSolver (m M : ℕ) := Matrix (Fin M) (Fin m) ℝ → Pt M → Except Exn (Option (Pt m) × List ℝ)

/-- The arguments of `gauss_newton`, gn.py 86-87. -/
structure GNArgs (m M : ℕ) where
  f : Resid m M
  F : Pt m → Except Exn (Matrix (Fin M) (Fin m) ℝ)
  tol : ℝ
  tolDx : ℝ
  maxiter : ℤ
  ls : LineSearch m M
  verbose : ℤ
  T : Traj m
  solver : GNSolver m M

/-- The local variables of the main loop. -/
structure GNState (m M : ℕ) where
  x : Pt m
  fe : Pt M
  Fe : Matrix (Fin M) (Fin m) ℝ
  grad : Pt m
  fnew : Pt M
  normgrad : ℝ
  normdx : ℝ

/-- The direction used, gn.py 201-203. -/
noncomputable def gnDir (grad dx : Pt m) : Pt m := if grad ⬝ᵥ dx ≥ 0 then -grad else dx

/-- One pass of the main loop up to the termination tests, gn.py 192-230. The flag is
`residual_increased`. The access `s[-1]` of line 224 raises on an empty list of singular values. -/
noncomputable def gnStep (a : GNArgs m M) (s : GNState m M) : Except Exn (GNState m M × Bool) :=
  match a.solver s.Fe s.fe with
  | .error e => .error e
  | .ok (none, _) => .error .nonFinite
  | .ok (some dx0, sv) =>
    let dx := gnDir s.grad dx0
    match a.ls a.f s.grad dx s.x a.T with
    | .error e => .error e
    | .ok r =>
      let inc := decide (nrm r.fx ≥ nrm s.fe)
      let x := if inc then s.x else r.x
      let fe := if inc then s.fe else r.fx
      match a.F x with
      | .error e => .error e
      | .ok Fe =>
        let grad := Feᵀ *ᵥ r.fx
        if sv = [] then .error (.err .indexError)
        else .ok (⟨x, fe, Fe, grad, r.fx, if a.verbose ≥ 1 then nrm grad else s.normgrad, nrm dx⟩, inc)

/-- The main loop, gn.py 191-246: `k + 1` passes left. Returns the state and whether the loop ran out
of passes (`it == maxiter - 1` holds in the last pass even if it breaks). -/
noncomputable def gnLoop (a : GNArgs m M) (tol : ℝ) : ℕ → GNState m M → Except Exn (GNState m M × Bool)
  | 0, s =>
    match gnStep a s with
    | .error e => .error e
    | .ok (s', _) => .ok (s', true)
  | k + 1, s =>
    match gnStep a s with
    | .error e => .error e
    | .ok (s', inc) =>
      if s'.normgrad < tol then .ok (s', false)
      else if s'.normdx < a.tolDx then .ok (s', false)
      else if inc then .ok (s', false)
      else gnLoop a tol k s'

/-- The status code, gn.py 248-265. -/
noncomputable def gnInfo (a : GNArgs m M) (tol : ℝ) (s : GNState m M) (last : Bool) : Except Exn ℕ :=
  if s.normgrad ≤ tol then .ok 0
  else if s.normdx ≤ a.tolDx then .ok 1
  else if last then .ok 2
  else if nrm s.fnew ≥ nrm s.fe then .ok 3
  else .error .undetermined

/-- The effective tolerance, gn.py 188. -/
noncomputable def gnTol (tol ng : ℝ) : ℝ := max (tol * ng) (1 / 10 ^ 14)

/-- The state before the loop, gn.py 180-190. -/
noncomputable def gnStart (a : GNArgs m M) (x0 : Pt m) : Except Exn (GNState m M) :=
  match a.f x0 with
  | .error e => .error e
  | .ok fe =>
    match a.F x0 with
    | .error e => .error e
    | .ok Fe => .ok ⟨x0, fe, Fe, Feᵀ *ᵥ fe, fe, nrm (Feᵀ *ᵥ fe), 1⟩

/-- `gauss_newton`, gn.py 86-267. -/
noncomputable def gaussNewton (a : GNArgs m M) (x0 : Pt m) : Except Exn (Pt m × ℕ) :=
  if a.maxiter ≤ 0 then .ok (x0, 4)
  else
    match gnStart a x0 with
    | .error e => .error e
    | .ok s0 =>
      match gnLoop a (gnTol a.tol s0.normgrad) (a.maxiter.toNat - 1) s0 with
      | .error e => .error e
      | .ok (s, last) => (gnInfo a (gnTol a.tol s0.normgrad) s last).map fun i => (s.x, i)

end Verif.Opt
