import Verif.Geometry.VsampleModel

/-!
# Model of the block coordinate descent of `maximin_block`

Source: `/repo/psdr/sample/maximin.py` 30-125.  The case of a metric with one row is `maximinBlock1d` in `OneDModel`; here the metric `L` (after
`low_rank_L`, `LowRankModel`) has at least two rows.  The initial design is a parameter.
-/

namespace Verif.Samp

open Verif Verif.Domain Verif.Geo Matrix

variable {k m : ℕ}

/-- `np.linalg.norm(v, np.inf)`. -/
noncomputable def normInf (v : Lip.Pt m) : ℝ := (List.finRange m).foldl (fun s i => max s |v i|) 0

/-- One block update, maximin.py 103-115: point `i` is replaced by the result of `voronoi_vertex_sample` for the other points. -/
noncomputable def blockStep (sort : SortBy m) (qr : QRcols m) (D : SDomain m) (L : Matrix (Fin k) (Fin m) ℝ) (X : List (Lip.Pt m)) (i : ℕ) (move : ℝ) :
    Except Err (List (Lip.Pt m) × ℝ) :=
  match X[i]? with
  | none => .error .indexError
  | some x =>
    match vertexSample sort qr D L false (X.eraseIdx i) [(x, fun _ => 0)] with
    | .error e => .error e
    | .ok [y] => .ok (X.set i y, max move (normInf (L *ᵥ (x - y))))
    | .ok _ => .error .valueError

/-- The updates of one cycle, maximin.py 101-115. -/
noncomputable def blockSweep (sort : SortBy m) (qr : QRcols m) (D : SDomain m) (L : Matrix (Fin k) (Fin m) ℝ) : List ℕ → List (Lip.Pt m) × ℝ →
    Except Err (List (Lip.Pt m) × ℝ)
  | [], s => .ok s
  | i :: is, s =>
    match blockStep sort qr D L s.1 i s.2 with
    | .error e => .error e
    | .ok s' => blockSweep sort qr D L is s'

open Classical in
/-- The cycles, maximin.py 100-125. -/
noncomputable def blockLoop (sort : SortBy m) (qr : QRcols m) (D : SDomain m) (L : Matrix (Fin k) (Fin m) ℝ) (xtol : ℝ) : ℕ → List (Lip.Pt m) →
    Except Err (List (Lip.Pt m))
  | 0, X => .ok X
  | fuel + 1, X =>
    match blockSweep sort qr D L (List.range X.length) (X, 0) with
    | .error e => .error e
    | .ok s => if s.2 < xtol then .ok s.1 else blockLoop sort qr D L xtol fuel s.1

/-- `maximin_block(domain, Nsamp, L, xtol, maxiter, X0)`, maximin.py 89-125.  The mask has `Nsamp` entries and must fit `X`. -/
noncomputable def maximinBlock (sort : SortBy m) (qr : QRcols m) (D : SDomain m) (L : Matrix (Fin k) (Fin m) ℝ) (nsamp : ℕ) (xtol : ℝ) (maxiter : ℕ)
    (X0 : List (Lip.Pt m)) : Except Err (List (Lip.Pt m)) :=
  if X0.length ≠ nsamp ∧ nsamp ≠ 0 ∧ maxiter ≠ 0 then .error .indexError else
  if nsamp = 0 then .ok X0 else blockLoop sort qr D L xtol maxiter X0

end Verif.Samp
