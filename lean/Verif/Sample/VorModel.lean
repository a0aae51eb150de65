import Verif.Sample.LloydModel
import Verif.Geometry.VsampleModel

/-!
# Model of the sampled Voronoi vertices of `minimax_lloyd`

Source: `/repo/psdr/sample/minimax_lloyd.py` 11-55, 72-81.  The normal draws are parameters.  `voronoi_vertex_sample` is that of
Geometry/VsampleModel with its default `randomize = True`.  The samples `X0` are not empty in the calls (10 len(domain) M draws, 87, 107).
-/

namespace Verif.Samp

open Verif Verif.Domain Verif.Geo Matrix

variable {k m : ℕ}

/-- `X[unique_points(X)]`, minimax_lloyd.py 36, 51. -/
noncomputable def dedup (V : List (Lip.Pt m)) : List (Lip.Pt m) := select V (uniquePoints V)

/-- The points near the node `x`, minimax_lloyd.py 45: normal draws (with the random directions of the later passes) scaled by `1e-7`. -/
noncomputable def nearStarts (x : Lip.Pt m) (draws : List (Lip.Pt m × (ℕ → Lip.Pt m))) : List (Lip.Pt m × (ℕ → Lip.Pt m)) :=
  draws.map fun p => (x + (1 / 10 ^ 7 : ℝ) • p.1, p.2)

/-- The points added by the loop over the nodes, minimax_lloyd.py 41-48, in order; `D` and `d` are those of the points `V` before the loop.
`draws j` are the `2*len(domain)` draws for the node with index `j`. -/
noncomputable def vorExtra (sort : SortBy m) (qr : QRcols m) (D : SDomain m) (L : Matrix (Fin k) (Fin m) ℝ) (Xhat V : List (Lip.Pt m))
    (draws : ℕ → List (Lip.Pt m × (ℕ → Lip.Pt m))) : ℕ → List (Lip.Pt m) → Except Err (List (Lip.Pt m))
  | _, [] => .ok []
  | j, x :: xs =>
    if (cellOf L Xhat V x).length < m then
      match vertexSample sort qr D L true Xhat (nearStarts x (draws j)) with
      | .error e => .error e
      | .ok W =>
        match vorExtra sort qr D L Xhat V draws (j + 1) xs with
        | .error e => .error e
        | .ok R => .ok (W ++ R)
    else vorExtra sort qr D L Xhat V draws (j + 1) xs

/-- `_update_voronoi_sample(domain, Xhat, X0, L, M0)`, minimax_lloyd.py 11-51. -/
noncomputable def vorSample (sort : SortBy m) (qr : QRcols m) (D : SDomain m) (L : Matrix (Fin k) (Fin m) ℝ) (draws : ℕ → List (Lip.Pt m × (ℕ → Lip.Pt m)))
    (Xhat : List (Lip.Pt m)) (X0 : List (Lip.Pt m × (ℕ → Lip.Pt m))) : Except Err (List (Lip.Pt m)) :=
  match vertexSample sort qr D L true Xhat X0 with
  | .error e => .error e
  | .ok V =>
    match vorExtra sort qr D L Xhat (dedup V) draws 0 Xhat with
    | .error e => .error e
    | .ok R => .ok (dedup (dedup V ++ R))

/-- Whether all vertices are computed, minimax_lloyd.py 72-81. -/
def useFull (m : ℕ) : Option Bool → Bool
  | none => decide (m < 3)
  | some b => b

end Verif.Samp
