import Verif.Opt.MinimaxModel
import Verif.Domain.SweepModel

/-!
# Model of the uncertainty of a set

Source: `/repo/psdr/lipschitz.py` 408-478 (`uncertainty_domain`) and 526-581 (`shadow_uncertainty`).

Simplifications: the data are not empty (`q + 1` samples). The starting points (`maximin_coffeehouse` and `unique_points`, lines 455-459), membership in the domain
and the convex programs of `minimax` are parameters. Plots are dropped; the columns written to a file are returned.
-/

namespace Verif.Opt

open Verif Verif.Domain Verif.Lip Matrix

variable {m q k : ℕ}

/-- `LowerBound.eval(x)`, lipschitz.py 653-656. -/
noncomputable def lowF (L : Matrix (Fin k) (Fin m) ℝ) (data : Fin (q + 1) → Pt m × ℝ) (x : Pt m) : Pt (q + 1) :=
  fun i => (data i).2 - nrm (L *ᵥ x - L *ᵥ (data i).1)

/-- `UpperBound.eval(x)`, lipschitz.py 673-676. -/
noncomputable def upF (L : Matrix (Fin k) (Fin m) ℝ) (data : Fin (q + 1) → Pt m × ℝ) (x : Pt m) : Pt (q + 1) :=
  fun i => -((data i).2 + nrm (L *ᵥ x - L *ᵥ (data i).1))

/-- The calls of `minimax` in lines 469 and 473, with its default arguments (minimax.py 14-17) and `trust_region = False`. -/
noncomputable def boundArgs (F : Pt m → Pt (q + 1)) (L : Matrix (Fin k) (Fin m) ℝ) (data : Fin (q + 1) → Pt m × ℝ) (isinside : Pt m → Bool)
    (solve : Pt m → Pt (q + 1) → ℝ → Matrix (Fin (q + 1)) (Fin m) ℝ → Option ℝ → StepRes m) : MMArgs m q where
  f := fun x => .ok (F x)
  grad := fun x => .ok (Matrix.of fun i => boundGrad L (data i) x)
  isinside := isinside
  T := trajLinear
  c := 1 / 100
  maxiter := 100
  trust := false
  tolDx := 1 / 10 ^ 10
  tolDf := 1 / 10 ^ 10
  btMax := 30
  solve := solve

/-- The parameters of the search on a domain. -/
structure UncOracle (m q : ℕ) where
  isinside : Pt m → Bool
  start : Except Exn (List (Pt m))
  solveLo : Pt m → Pt (q + 1) → ℝ → Matrix (Fin (q + 1)) (Fin m) ℝ → Option ℝ → StepRes m
  solveUp : Pt m → Pt (q + 1) → ℝ → Matrix (Fin (q + 1)) (Fin m) ℝ → Option ℝ → StepRes m

/-- The loop over the starting points, lines 465-475. -/
noncomputable def uncLoop (L : Matrix (Fin k) (Fin m) ℝ) (data : Fin (q + 1) → Pt m × ℝ) (o : UncOracle m q) : List (Pt m) → Except Exn (List (ℝ × ℝ))
  | [] => .ok []
  | x0 :: X0 =>
    match minimax (boundArgs (lowF L data) L data o.isinside o.solveLo) x0 with
    | .error e => .error e
    | .ok x =>
      match minimax (boundArgs (upF L data) L data o.isinside o.solveUp) x0 with
      | .error e => .error e
      | .ok y =>
        match uncLoop L data o X0 with
        | .error e => .error e
        -- 470: max of the lower bounds; 474: min of the negative values
        | .ok l => .ok ((vmax (lowF L data x), -vmax (upF L data y)) :: l)

/-- `uncertainty_domain(X, fX, domain)`, lipschitz.py 408-478. -/
noncomputable def uncDomain (L : Matrix (Fin k) (Fin m) ℝ) (data : Fin (q + 1) → Pt m × ℝ) (o : UncOracle m q) : Except Exn (ℝ × ℝ) :=
  match o.start with
  | .error e => .error e
  | .ok X0 =>
    match uncLoop L data o X0 with
    | .error e => .error e
    -- 478: `np.min([])`
    | .ok [] => .error (.err .valueError)
    | .ok (b :: l) => .ok (minL ((b :: l).map Prod.fst), maxL ((b :: l).map Prod.snd))

/-- The interior rows of `shadow_uncertainty`, lines 567-569. -/
noncomputable def shadowRows (slice : ℝ → Except Exn (ℝ × ℝ)) : List ℝ → Except Exn (List (ℝ × ℝ × ℝ))
  | [] => .ok []
  | y :: ys =>
    match slice y with
    | .error e => .error e
    | .ok b =>
      match shadowRows slice ys with
      | .error e => .error e
      | .ok l => .ok ((y, b) :: l)

open Classical in
/-- The corners after they are ordered, lines 550-552. -/
noncomputable def firstCorner (u p p' : Pt m) : Pt m := if u ⬝ᵥ p > u ⬝ᵥ p' then p' else p
open Classical in
noncomputable def lastCorner (u p p' : Pt m) : Pt m := if u ⬝ᵥ p > u ⬝ᵥ p' then p else p'

/-- `shadow_uncertainty`, lines 536-579: `p` and `p'` are `domain.corner(u)` and `domain.corner(-u)`, `unc` is `uncertainty` at a point, `slice y` is
`uncertainty_domain` on the part of the domain with `u x = y`. The rows are the columns `y`, `lb`, `ub`. -/
noncomputable def shadowUnc (u p p' : Pt m) (unc : Pt m → ℝ × ℝ) (slice : ℝ → Except Exn (ℝ × ℝ)) (ngrid : ℕ) : Except Exn (List (ℝ × ℝ × ℝ)) :=
  -- 544-552
  let e1 := min (u ⬝ᵥ p) (u ⬝ᵥ p')
  let e2 := max (u ⬝ᵥ p) (u ⬝ᵥ p')
  match linspace e1 e2 ngrid with
  -- 559: `lbs[0]`
  | [] => .error (.err .indexError)
  -- 559-560: both assignments are to the same entry
  | [y] => .ok [(y, unc (lastCorner u p p'))]
  | y :: y' :: ys =>
    match shadowRows slice ((y' :: ys).dropLast) with
    | .error e => .error e
    | .ok l => .ok ((y, unc (firstCorner u p p')) :: l ++ [((y' :: ys).getLast (by simp), unc (lastCorner u p p'))])

end Verif.Opt
