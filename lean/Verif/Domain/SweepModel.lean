import Verif.Domain.ExtentModel
import Verif.Domain.Exact

/-!
# Model of `sweep` and `sample_grid`

Sources: `/repo/psdr/domains/euclidean.py` 387-442 (`sweep`), 615-635 (`sample_grid`), 816-824
(`_A_eq_basis`).

`x` and `p` are float arrays (for integer arrays `p -= ...` raises in numpy); random defaults for them are
arbitrary values of these arguments, except that a default `x` is not checked with `isinside`.
-/

namespace Verif

/-- The value of a finite float. -/
def XR.toReal : XR → ℝ
  | .fin r => r
  | _ => 0

end Verif

namespace Verif.Domain

open Classical Verif

/-- `np.linspace(a, b, n)`. -/
noncomputable def linspace (a b : ℝ) (n : ℕ) : List ℝ :=
  (List.range n).map (fun i : ℕ => a + (i : ℝ) * ((b - a) / ((n : ℝ) - 1)))

/-- `p - Qeq.dot(Qeq.T.dot(p))`; `Q` is the list of the columns of `Qeq`, euclidean.py 427, 682. -/
noncomputable def projOut (Q : List Vec) (p : Vec) : Vec :=
  Vec.sub p (comb p.length (Vec.mulVec Q p) Q)

/-- `x + a*p`; not a real vector if `a` is infinite. -/
noncomputable def stepX (x : Vec) (a : XR) (p : Vec) : Option Vec :=
  match a with
  | .fin a => some (Vec.step x a p)
  | _ => none

/-- What `sweep` returns: the points and the lengths (`none`: the array contains inf or nan). -/
structure SweepOut where
  X : Option (List Vec)
  y : Option (List ℝ)

/-- `d = (X[1] - X[0])/norm(X[1] - X[0]); y = X.dot(d)`, euclidean.py 439-440. -/
noncomputable def sweepDist (X : List Vec) : Option (List ℝ) :=
  match X with
  | x0 :: x1 :: _ =>
    if Vec.norm (Vec.sub x1 x0) = 0 then none
    else some (X.map (fun v => Vec.dot v (Vec.smul (1 / Vec.norm (Vec.sub x1 x0)) (Vec.sub x1 x0))))
  | _ => none

/-- The end of `sweep`, euclidean.py 435-441: negative `n` is rejected by `linspace`, `n ≤ 1` by `X[1]`. -/
noncomputable def sweepPoints (c1 c2 : Option Vec) (n : ℤ) : Except Err SweepOut :=
  if n < 0 then .error .valueError
  else if n ≤ 1 then .error .indexError
  else match c1, c2 with
    | some c1, some c2 =>
      .ok ⟨some ((linspace 0 1 n.toNat).map (fun a => Vec.lerp a c1 c2)),
        sweepDist ((linspace 0 1 n.toNat).map (fun a => Vec.lerp a c1 c2))⟩
    | _, _ => .ok ⟨none, none⟩

/-- `sweep(n, x, p, corner=False)`, euclidean.py 407-441.  `Q` are the columns of `_A_eq_basis`.  The
second component is the content of the caller's array `p` afterwards (`p -= ...` works in place). -/
noncomputable def Dom.sweep (nnls : NNLS) (TOL tol : ℝ) (he : HullExtent) (Q : List Vec) (D : Dom) (n : ℤ)
    (x p : Vec) : Except Err SweepOut × Vec :=
  if ¬ D.isInside nnls TOL x then (.error .assertion, p)
  else if p.length ≠ D.len then (.error .assertion, p)
  else
    (do
      let a1 ← D.extent nnls TOL tol he x (projOut Q p)
      let a2 ← D.extent nnls TOL tol he x (Vec.smul (-1) (projOut Q p))
      sweepPoints (stepX x a1 (projOut Q p)) (stepX x (XR.smul (-1) a2) (projOut Q p)) n,
     projOut Q p)

/-- `sweep(n, x, p, corner=True)`, euclidean.py 421-424; `corner` is the result of the method of that name. -/
noncomputable def Dom.sweepCorner (nnls : NNLS) (TOL : ℝ) (corner : Vec → Except Err Vec) (D : Dom) (n : ℤ)
    (x p : Vec) : Except Err SweepOut × Vec :=
  if ¬ D.isInside nnls TOL x then (.error .assertion, p)
  else if p.length ≠ D.len then (.error .assertion, p)
  else
    (do
      let c1 ← corner p
      let c2 ← corner (Vec.smul (-1) p)
      sweepPoints (some c1) (some c2) n,
     p)

/-- The rows of `np.vstack([X.flatten() for X in np.meshgrid(*xs, indexing='ij')]).T`: all choices of one
value per coordinate, the last coordinate varying fastest, euclidean.py 632-633. -/
def gridRows : List (List ℝ) → List Vec
  | [] => [[]]
  | xs :: rest => xs.flatMap (fun v => (gridRows rest).map (fun r => v :: r))

/-- `sample_grid(n)`, euclidean.py 630-635; negative `n` is rejected by `linspace`. -/
noncomputable def Dom.sampleGrid (nnls : NNLS) (TOL : ℝ) (D : Dom) (n : ℤ) : Except Err (List Vec) :=
  if ¬ ((∀ v ∈ D.acc.lb, v.isFinite) ∧ ∀ v ∈ D.acc.ub, v.isFinite) then .error .assertion
  else if n < 0 then .error .valueError
  else .ok ((gridRows (List.zipWith (fun l u => linspace l.toReal u.toReal n.toNat) D.acc.lb D.acc.ub)).filter
    (fun x => decide (D.isInside nnls TOL x)))

end Verif.Domain
