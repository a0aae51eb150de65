import Verif.Basis.DtypeModel
import Verif.Sample.BlockModel
import Verif.Sample.LloydModel

/-!
# Model of the design routines started from arrays of integers or floats

Sources: `/repo/psdr/geometry/vertex.py` 187-306, `/repo/psdr/sample/maximin.py` 86-125, `/repo/psdr/sample/minimax_lloyd.py` 104-141.
The rules for the element types are those of `Basis/DtypeModel.lean`. The designs `Xhat` and the matrices are floats, so that the steps are.
-/

namespace Verif.Dtype

open Verif Verif.Domain Verif.Geo Verif.Samp Matrix

variable {k m : ℕ}

/-- `X0 += alpha.reshape(-1,1)*h`, vertex.py 306, given the new points. -/
def addStep : Kind → List (Lip.Pt m) → Except Err (List (Lip.Pt m))
  | .float, Y => .ok Y
  | .int, _ => .error .typeError

/-- The passes over all points, vertex.py 211-306; each point comes with its random directions. -/
noncomputable def vpassesD (kd : Kind) (sort : SortBy m) (qr : QRcols m) (D : SDomain m) (L : Matrix (Fin k) (Fin m) ℝ) (randomize : Bool)
    (Xhat : List (Lip.Pt m)) : ℕ → List (Lip.Pt m × (ℕ → Lip.Pt m)) → Except Err (List (Lip.Pt m))
  | 0, X => .ok (X.map Prod.fst)
  | n + 1, X =>
    match vpassesD kd sort qr D L randomize Xhat n X with
    | .error e => .error e
    | .ok Y =>
      match mapE (fun p : Lip.Pt m × (ℕ → Lip.Pt m) => vstep sort qr D L randomize Xhat n (p.2 n) p.1) (List.zip Y (X.map Prod.snd)) with
      | .error e => .error e
      | .ok Z => addStep kd Z

/-- `voronoi_vertex_sample(domain, Xhat, X0, L, randomize)`, vertex.py 121-314, for `X0` of either type (`np.array(X0)` keeps it). -/
noncomputable def vertexSampleD (kd : Kind) (sort : SortBy m) (qr : QRcols m) (D : SDomain m) (L : Matrix (Fin k) (Fin m) ℝ) (randomize : Bool)
    (Xhat : List (Lip.Pt m)) (X0 : List (Lip.Pt m × (ℕ → Lip.Pt m))) : Except Err (List (Lip.Pt m)) :=
  if D.quads ≠ 0 then .error .assertion else vpassesD kd sort qr D L randomize Xhat (passes D L randomize) X0

/-- Storing a point in a row. -/
noncomputable def storePt (kd : Kind) (x : Lip.Pt m) : Lip.Pt m := fun i => store kd (x i)

/-- One update, maximin.py 103-115: `X[i]` has the type of `X`, and `X[i] = x` stores the result. -/
noncomputable def blockStepD (kd : Kind) (sort : SortBy m) (qr : QRcols m) (D : SDomain m) (L : Matrix (Fin k) (Fin m) ℝ) (X : List (Lip.Pt m)) (i : ℕ)
    (move : ℝ) : Except Err (List (Lip.Pt m) × ℝ) :=
  match X[i]? with
  | none => .error .indexError
  | some x =>
    match vertexSampleD kd sort qr D L false (X.eraseIdx i) [(x, fun _ => 0)] with
    | .error e => .error e
    | .ok [y] => .ok (X.set i (storePt kd y), max move (normInf (L *ᵥ (x - y))))
    | .ok _ => .error .valueError

/-- The updates of one cycle, maximin.py 101-115. -/
noncomputable def blockSweepD (kd : Kind) (sort : SortBy m) (qr : QRcols m) (D : SDomain m) (L : Matrix (Fin k) (Fin m) ℝ) : List ℕ →
    List (Lip.Pt m) × ℝ → Except Err (List (Lip.Pt m) × ℝ)
  | [], s => .ok s
  | i :: is, s =>
    match blockStepD kd sort qr D L s.1 i s.2 with
    | .error e => .error e
    | .ok s' => blockSweepD kd sort qr D L is s'

open Classical in
/-- The cycles, maximin.py 100-125. -/
noncomputable def blockLoopD (kd : Kind) (sort : SortBy m) (qr : QRcols m) (D : SDomain m) (L : Matrix (Fin k) (Fin m) ℝ) (xtol : ℝ) : ℕ →
    List (Lip.Pt m) → Except Err (List (Lip.Pt m))
  | 0, X => .ok X
  | fuel + 1, X =>
    match blockSweepD kd sort qr D L (List.range X.length) (X, 0) with
    | .error e => .error e
    | .ok s => if s.2 < xtol then .ok s.1 else blockLoopD kd sort qr D L xtol fuel s.1

/-- `maximin_block(domain, Nsamp, L, xtol, maxiter, X0)`, maximin.py 89-125, with `X = np.array(X0)` of either type. -/
noncomputable def maximinBlockD (kd : Kind) (sort : SortBy m) (qr : QRcols m) (D : SDomain m) (L : Matrix (Fin k) (Fin m) ℝ) (nsamp : ℕ) (xtol : ℝ)
    (maxiter : ℕ) (X0 : List (Lip.Pt m)) : Except Err (List (Lip.Pt m)) :=
  if X0.length ≠ nsamp ∧ nsamp ≠ 0 ∧ maxiter ≠ 0 then .error .indexError else
  if nsamp = 0 then .ok X0 else blockLoopD kd sort qr D L xtol maxiter X0

open Classical in
/-- The loop of `minimax_lloyd`, minimax_lloyd.py 108-139: `Xhat_new = np.zeros_like(Xhat)` has the type of the design passed in. -/
noncomputable def lloydLoopD (kd : Kind) (vor : VorUpdate m) (circ : Circumcenter m) (L : Matrix (Fin k) (Fin m) ℝ) (M : ℕ) (xtol : ℝ) : ℕ →
    List (Lip.Pt m) → List (Lip.Pt m) → Except Err (List (Lip.Pt m))
  | 0, Xhat, _ => .ok Xhat
  | fuel + 1, Xhat, V =>
    match vor Xhat V with
    | .error e => .error e
    | .ok V' =>
      match lloydCenters circ L Xhat V' M Xhat with
      | .error e => .error e
      | .ok C =>
        if lloydMove (C.map (storePt kd)) Xhat < xtol then .ok (C.map (storePt kd)) else lloydLoopD kd vor circ L M xtol fuel (C.map (storePt kd)) V'

end Verif.Dtype
