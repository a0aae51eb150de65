import Verif.Geometry.VertexModel

/-!
# Model of `minimax_lloyd`

Source: `/repo/psdr/sample/minimax_lloyd.py` 58-141, for a call with `Xhat` given.  Without it the initial design comes from `maximin_coffeehouse` (C45) and
`maximin_block` (C93).

The Voronoi vertices (`_update_voronoi_full`: C91, `_update_voronoi_sample`: C92) and the convex solver are parameters; the random samples only reach the
former.  Printing is left out.
-/

namespace Verif.Samp

open Verif Verif.Domain Verif.Geo Matrix

variable {k m : ℕ}

/-- `_update_voronoi`: the vertices for a design, from the previous ones. -/
abbrev VorUpdate (m : ℕ) := List (Lip.Pt m) → List (Lip.Pt m) → Except Err (List (Lip.Pt m))

/-- `prob.solve(); x.value` for the vertices of a cell. -/
abbrev Circumcenter (m : ℕ) := List (Lip.Pt m) → Except Err (Lip.Pt m)

open Classical in
/-- `np.isclose(a, b)` with the default tolerances. -/
noncomputable def isclose (a b : ℝ) : Bool := decide (|a - b| ≤ 1 / 10 ^ 8 + 1 / 10 ^ 5 * |b|)

/-- `V[I]` with `I = np.isclose(D[k], d)` for the center `x`, minimax_lloyd.py 119. -/
noncomputable def cellOf (L : Matrix (Fin k) (Fin m) ℝ) (Xhat V : List (Lip.Pt m)) (x : Lip.Pt m) : List (Lip.Pt m) :=
  V.filter fun v => isclose (Lip.ldist L x v) (nearest L Xhat v)

/-- `for k in range(M): .. Xhat_new[k] = x.value`, minimax_lloyd.py 117-126, where `Xhat_new` starts with zeros and has as many rows as `Xhat`. -/
noncomputable def lloydCenters (circ : Circumcenter m) (L : Matrix (Fin k) (Fin m) ℝ) (Xhat V : List (Lip.Pt m)) : ℕ → List (Lip.Pt m) →
    Except Err (List (Lip.Pt m))
  | 0, xs => .ok (xs.map fun _ => 0)
  | _ + 1, [] => .error .indexError
  | M + 1, x :: xs =>
    match circ (cellOf L Xhat V x) with
    | .error e => .error e
    | .ok y =>
      match lloydCenters circ L Xhat V M xs with
      | .error e => .error e
      | .ok ys => .ok (y :: ys)

/-- `dx`, minimax_lloyd.py 129. -/
noncomputable def lloydMove (new old : List (Lip.Pt m)) : ℝ := maxL (List.zipWith (fun a b => Lip.nrm (a - b)) new old)

open Classical in
/-- The loop, minimax_lloyd.py 110-139. -/
noncomputable def lloydLoop (vor : VorUpdate m) (circ : Circumcenter m) (L : Matrix (Fin k) (Fin m) ℝ) (M : ℕ) (xtol : ℝ) : ℕ → List (Lip.Pt m) → List (Lip.Pt m) →
    Except Err (List (Lip.Pt m))
  | 0, Xhat, _ => .ok Xhat
  | fuel + 1, Xhat, V =>
    match vor Xhat V with
    | .error e => .error e
    | .ok V' =>
      match lloydCenters circ L Xhat V' M Xhat with
      | .error e => .error e
      | .ok Xnew => if lloydMove Xnew Xhat < xtol then .ok Xnew else lloydLoop vor circ L M xtol fuel Xnew V'

/-- `minimax_lloyd(domain, M, L, maxiter, Xhat, xtol = xtol)`: what is returned and what the caller's array `Xhat` holds afterwards
(`Xhat[:,:] = Xhat_new[:,:]`, minimax_lloyd.py 134).  `oneD` is the outcome of `minimax_design_1d` (C44), `V0` the random samples. -/
noncomputable def minimaxLloyd (oneD : Except Err (List (Lip.Pt m))) (vor : VorUpdate m) (circ : Circumcenter m) (L : Matrix (Fin k) (Fin m) ℝ) (M : ℕ) (xtol : ℝ)
    (maxiter : ℕ) (Xhat V0 : List (Lip.Pt m)) : Except Err (List (Lip.Pt m) × List (Lip.Pt m)) :=
  match oneD with
  | .ok X => .ok (X, Xhat)
  | .error .assertion =>
    match lloydLoop vor circ L M xtol maxiter Xhat V0 with
    | .error e => .error e
    | .ok X => .ok (X, X)
  | .error e => .error e

end Verif.Samp
