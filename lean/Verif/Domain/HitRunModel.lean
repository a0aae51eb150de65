import Verif.Domain.SolverModel
import Verif.Domain.SweepModel

/-!
# Model of hit-and-run sampling

Sources: `/repo/psdr/domains/euclidean.py` 93-110 (`is_point`), 602-612 (`_sample`), 658-684
(`random_direction`), 827-854 (`_corner_center`), 856-906 (`_hit_and_run`), 926-939 (`A_aug`, `b_aug`);
`linineq.py` 61-126 (`chebyshev_center`).

All random choices are parameters, as are the answers of the solver, which may differ from call to call.
`none` means that the call has not returned (the loop of `random_direction` is still running after the
given draws).  Boxes and points have their own samplers and never get here.
-/

namespace Verif.Domain

open Classical Verif

/-- What a domain object remembers: `_hit_and_run_state`, `_empty` and the cached `is_point`. -/
structure HR where
  hit : Option Vec := none
  empty : Option Bool := none
  pt : Option Bool := none

/-- The rows of `A_aug` and entries of `b_aug`, euclidean.py 926-939 (bounds of infinite size are skipped). -/
noncomputable def augRows (q : LQ) : List (Vec × ℝ) :=
  q.A.zip q.b ++
  ((eyeRows q.n).zip q.lb).filterMap (fun r => if r.2.isFinite then some (Vec.smul (-1) r.1, -r.2.toReal) else none) ++
  ((eyeRows q.n).zip q.ub).filterMap (fun r => if r.2.isFinite then some (r.1, r.2.toReal) else none)

/-- The constraints of the linear program of `chebyshev_center`, linineq.py 95-104; the last variable is the
radius (no constraint makes it nonnegative). -/
def chebFeas (q : LQ) (z : Vec) : Prop :=
  (∀ r ∈ augRows q, Vec.dot r.1 (z.take q.n) + Vec.norm r.1 * z.getD q.n 0 ≤ r.2) ∧
  ∀ (i : ℕ) (row : Vec) (bi : ℝ), q.Aeq[i]? = some row → q.beq[i]? = some bi → Vec.dot row (z.take q.n) = bi

/-- `chebyshev_center()`, linineq.py 61-126 (`float(None)` raises TypeError when there is no solution). -/
noncomputable def chebLQ (S : Solver) (q : LQ) : Except Err Vec :=
  match S (q.n + 1) (chebFeas q) (fun z => -(z.getD q.n 0)) with
  | .optimal z => .ok (z.take q.n)
  | .other => .error .solverError
  | _ => .error .typeError

/-- `chebyshev_center()[0]`: linineq.py 61-126, inherited by boxes and points (box.py 11, point.py 8); convexhull.py 186-187;
other classes have no such method. -/
noncomputable def Dom.cheb (S : Solver) : Dom → Except Err Vec
  | .base (.linineq q) => chebLQ S q
  | .base (.box lb ub) => chebLQ S (Base.box lb ub).acc
  | .base (.point x) => chebLQ S (Base.point x).acc
  | .base (.hull _ _) => .error .notImplemented
  | _ => .error .attributeError

/-- The property `center`, linineq.py 136-142, inherited by boxes and points; other classes have none. -/
noncomputable def Dom.centerProp (S : Solver) : Dom → Except Err Vec
  | .base (.hull _ _) => .error .attributeError
  | D => D.cheb S

/-- `np.isclose(a, b)`. -/
noncomputable def isClose (a b : ℝ) : Bool := decide (|a - b| ≤ 1 / 10 ^ 8 + 1 / 10 ^ 5 * |b|)

/-- `np.all(np.isclose(x, y))`. -/
noncomputable def allClose (x y : Vec) : Bool := (List.zipWith isClose x y).all id

/-- The loop of `is_point`, euclidean.py 101-110: the answer and the new `_empty`. -/
noncomputable def pointLoop (corner : Option Bool → Vec → Except Err Vec × Option Bool) :
    Option Bool → List Vec → Except Err Bool × Option Bool
  | e, [] => (.ok true, e)
  | e, u :: us =>
    match corner e u with
    | (.error .unboundedDomain, e1) => (.ok false, e1)
    | (.error .emptyDomain, e1) => (.ok false, e1)
    | (.error r, e1) => (.error r, e1)
    | (.ok x1, e1) =>
      match corner e1 (Vec.smul (-1) u) with
      | (.error .unboundedDomain, e2) => (.ok false, e2)
      | (.error .emptyDomain, e2) => (.ok false, e2)
      | (.error r, e2) => (.error r, e2)
      | (.ok x2, e2) => if allClose x1 x2 then pointLoop corner e2 us else (.ok false, e2)

/-- The cached property `is_point`, euclidean.py 93-110; `U` are the rows of the random orthogonal matrix. -/
noncomputable def Dom.isPointQuery (S : Solver) (fb : CornerOracle) (D : Dom) (U : List Vec) (s : HR) : Except Err Bool × HR :=
  match s.pt with
  | some b => (.ok b, s)
  | none =>
    match pointLoop (D.corner S fb) s.empty U with
    | (.ok b, e) => (.ok b, { s with empty := e, pt := some b })
    | (.error r, e) => (.error r, { s with empty := e })

/-- `np.max(pdist(X))`. -/
noncomputable def spread (X : List Vec) : ℝ :=
  maxL (X.flatMap (fun x => X.map (fun y => Vec.norm (Vec.sub x y))))

/-- The loop of `_corner_center`, euclidean.py 836-843: iteration `i` over the columns `us`; `X` are the corners so
far. -/
noncomputable def cornerLoop (corner : Option Bool → Vec → Except Err Vec × Option Bool) :
    ℕ → Option Bool → List Vec → List Vec → Except Err (List Vec) × Option Bool
  | _, e, [], X => (.ok X, e)
  | i, e, u :: us, X =>
    match corner e u with
    | (.error r, e1) => (.error r, e1)
    | (.ok x1, e1) =>
      match corner e1 (Vec.smul (-1) u) with
      | (.error r, e2) => (.error r, e2)
      | (.ok x2, e2) =>
        let X' := X ++ [x1, x2]
        if 3 ≤ i ∧ isClose (spread X') 0 = false then (.ok X', e2)
        else cornerLoop corner (i + 1) e2 us X'

/-- `_corner_center()`, euclidean.py 827-854 (the attribute `_point` it sets is only read by box domains). -/
noncomputable def Dom.cornerCenter (S : Solver) (nnls : NNLS) (TOL : ℝ) (fb : CornerOracle) (D : Dom) (U : List Vec) (e : Option Bool) :
    Except Err Vec × Option Bool :=
  match cornerLoop (D.corner S fb) 0 e U [] with
  | (.error r, e1) => (.error r, e1)
  | (.ok X, e1) =>
    D.closest S nnls TOL fb e1 (Vec.smul (1 / (X.length : ℝ)) (comb D.len (List.replicate X.length 1) X)) none

/-- Initialization of the state from corners, euclidean.py 876-878. -/
noncomputable def Dom.hrCornerInit (S : Solver) (nnls : NNLS) (TOL : ℝ) (fb : CornerOracle) (D : Dom) (U : List Vec) (s : HR) :
    Except Err Vec × HR :=
  match D.cornerCenter S nnls TOL fb U s.empty with
  | (.ok x, e) => (.ok x, { s with hit := some x, empty := e })
  | (.error r, e) => (.error r, { s with empty := e })

/-- Initialization of the state, euclidean.py 862-879. -/
noncomputable def Dom.hrInit (S : Solver) (nnls : NNLS) (TOL : ℝ) (fb : CornerOracle) (D : Dom) (U : List Vec) (s : HR) :
    Except Err Vec × HR :=
  match s.hit with
  | some x => (.ok x, s)
  | none =>
    match D.cheb S with
    | .ok x => (.ok x, { s with hit := some x })
    | .error .attributeError => D.hrCornerInit S nnls TOL fb U s
    | .error .notImplemented => D.hrCornerInit S nnls TOL fb U s
    | .error r => (.error r, s)

/-- `random_direction(x)`, euclidean.py 672-684: the first of the random vectors `ps` that, orthogonalized, allows a
positive step; `none` if all of them fail (the loop goes on). -/
noncomputable def randomDirection (extent : Vec → Except Err XR) (Q : List Vec) : List Vec → Option (Except Err Vec)
  | [] => none
  | p :: ps =>
    match extent (projOut Q p) with
    | .error r => some (.error r)
    | .ok a => if XR.lt (.fin 0) a then some (.ok (projOut Q p)) else randomDirection extent Q ps

/-- The random choices of one iteration over directions. -/
structure HRStep where
  /-- random vectors drawn by `random_direction` -/
  ps : List Vec
  /-- the uniform random number -/
  w : ℝ

/-- `np.random.uniform(amin, amax)`; infinite ranges raise OverflowError. -/
noncomputable def unifAlpha (amin amax : XR) (w : ℝ) : Except Err ℝ :=
  match amin, amax with
  | .fin a, .fin b => .ok (a + (b - a) * w)
  | _, _ => .error .overflow

/-- The loop over directions, euclidean.py 891-902: the result of the call if a direction was accepted. -/
noncomputable def hrLoop (extent : Vec → Except Err XR) (closest : Vec → Except Err Vec × Option Bool) (Q : List Vec) (x0 : Vec) (s : HR) :
    List HRStep → Option (Option (Except Err Vec × HR))
  | [] => some none
  | st :: sts =>
    match randomDirection extent Q st.ps with
    | none => none
    | some (.error r) => some (some (.error r, s))
    | some (.ok p) =>
      let p := Vec.smul (1 / Vec.norm p) p
      match extent (Vec.smul (-1) p) with
      | .error r => some (some (.error r, s))
      | .ok am =>
        match extent p with
        | .error r => some (some (.error r, s))
        | .ok ap =>
          let amin := XR.smul (-1) am
          if XR.lt (.fin (1 / 10 ^ 7)) (XR.sub ap amin) then
            match unifAlpha amin ap st.w with
            | .error r => some (some (.error r, s))
            | .ok a =>
              match closest (Vec.step x0 a p) with
              | (.error r, e) => some (some (.error r, { s with empty := e }))
              | (.ok x, e) => some (some (.ok x, { s with hit := some x, empty := e }))
          else hrLoop extent closest Q x0 s sts

/-- The random choices and solver runs of one attempt. -/
structure HRAttempt where
  S : Solver
  Uc : List Vec
  Up : List Vec
  steps : List HRStep

/-- `_hit_and_run(_recurse)`, euclidean.py 856-906: a list of attempts (three at the public entry). -/
noncomputable def Dom.hitRun (nnls : NNLS) (TOL tol : ℝ) (he : HullExtent) (fb : CornerOracle) (Q : List Vec) (D : Dom) :
    List HRAttempt → HR → Option (Except Err Vec × HR)
  | [], s => some (.error .valueError, s)
  | a :: as, s =>
    match D.hrInit a.S nnls TOL fb a.Uc s with
    | (.error r, s1) => some (.error r, s1)
    | (.ok x0, s1) =>
      match D.isPointQuery a.S fb a.Up s1 with
      | (.error r, s2) => some (.error r, s2)
      | (.ok true, s2) => some (.ok x0, s2)
      | (.ok false, s2) =>
        match hrLoop (fun p => D.extent nnls TOL tol he x0 p) (fun y => D.closest a.S nnls TOL fb s2.empty y none) Q x0 s2 a.steps with
        | none => none
        | some (some r) => some r
        | some none => Dom.hitRun nnls TOL tol he fb Q D as { s2 with hit := none }

/-- A call on the object: hit-and-run, or one of the solver operations. -/
inductive HRCall where
  | hitRun (as : List HRAttempt)
  | op (S : Solver) (k : SCall)

/-- The points returned by the hit-and-run calls of a history, and the final state; `none` if some call does not
return. -/
noncomputable def Dom.hrRun (nnls : NNLS) (TOL tol : ℝ) (he : HullExtent) (fb : CornerOracle) (fbD : List XR × List XR) (Q : List Vec)
    (D : Dom) : HR → List HRCall → Option (List Vec × HR)
  | s, [] => some ([], s)
  | s, .op S k :: ks =>
    D.hrRun nnls TOL tol he fb fbD Q { s with empty := (D.scall S nnls TOL fb fbD s.empty k).2 } ks
  | s, .hitRun as :: ks =>
    match D.hitRun nnls TOL tol he fb Q as s with
    | none => none
    | some (.error _, s1) => D.hrRun nnls TOL tol he fb fbD Q s1 ks
    | some (.ok x, s1) => (D.hrRun nnls TOL tol he fb fbD Q s1 ks).map (fun r => (x :: r.1, r.2))

/-- Successive hit-and-run calls, euclidean.py 610. -/
noncomputable def Dom.hitMany (nnls : NNLS) (TOL tol : ℝ) (he : HullExtent) (fb : CornerOracle) (Q : List Vec) (D : Dom) :
    List (List HRAttempt) → HR → Option (Except Err (List Vec) × HR)
  | [], s => some (.ok [], s)
  | as :: ass, s =>
    match D.hitRun nnls TOL tol he fb Q as s with
    | none => none
    | some (.error r, s1) => some (.error r, s1)
    | some (.ok x, s1) =>
      match Dom.hitMany nnls TOL tol he fb Q D ass s1 with
      | none => none
      | some (.error r, s2) => some (.error r, s2)
      | some (.ok X, s2) => some (.ok (x :: X), s2)

/-- The default `_sample(draw)`, euclidean.py 602-612: `ass` has one list of attempts for each of the `3*draw` calls, `perm`
is the random permutation, `S` and `U` serve the query `is_point` and the property `center` (linineq.py 136-142; other
classes have no such property). -/
noncomputable def Dom.defaultSample (nnls : NNLS) (TOL tol : ℝ) (he : HullExtent) (fb : CornerOracle) (Q : List Vec) (D : Dom)
    (S : Solver) (U : List Vec) (ass : List (List HRAttempt)) (perm : List ℕ) (draw : ℕ) (s : HR) :
    Option (Except Err (List Vec) × HR) :=
  match D.isPointQuery S fb U s with
  | (.error r, s1) => some (.error r, s1)
  | (.ok true, s1) =>
    match D.centerProp S with
    | .error r => some (.error r, s1)
    | .ok c => some (.ok (List.replicate draw c), s1)
  | (.ok false, s1) =>
    match D.hitMany nnls TOL tol he fb Q ass s1 with
    | none => none
    | some (.error r, s2) => some (.error r, s2)
    | some (.ok X, s2) => some (.ok ((perm.take draw).map (fun i => X.getD i [])), s2)

end Verif.Domain
