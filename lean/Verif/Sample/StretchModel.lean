import Verif.Sample.SeqModel

/-!
# Model of stretched sampling

Source: `/repo/psdr/sample/stretch.py` 10-92 (`_maximin_block_candidate`, `stretch_sample_domain`, `stretch_sample`).

A domain is the one given together with a list of equality constraints `L y = L x` (what `add_constraints(A_eq = L, b_eq = L @ x)` means is the subject of C01).
The Voronoi vertices found (`initial_sample`, `voronoi_vertex_sample`: C98, C92), `domain.sample` and `domain.is_point` are parameters.  Exact real arithmetic;
printing is not modelled.
-/

namespace Verif.Samp

open Verif Verif.Domain Verif.Geo Matrix

variable {m : ℕ}

/-- What a call inside of `try` can do: return, raise one of the exceptions that are caught, or raise another one. -/
inductive Tried3 (α : Type) where
  | val (a : α)
  | caught
  | raised (e : Err)

/-- The variables `X` and `d` of the loop, stretch.py 40-50: at first `X` is the array of samples and `d` is not bound, after the first candidate `X` is a point. -/
inductive Cur (m : ℕ) where
  | rows (X : List (Lip.Pt m))
  | cand (x : Lip.Pt m) (d : ℝ)

/-- `X` as `np.atleast_2d` sees it. -/
def Cur.pts : Cur m → List (Lip.Pt m)
  | .rows X => X
  | .cand x _ => [x]

/-- `len(X)`: the number of rows, or the number of coordinates of a point. -/
def Cur.len : Cur m → ℕ
  | .rows X => X.length
  | .cand _ _ => m

/-- What is used of other modules. -/
structure StretchOracle (m : ℕ) where
  /-- `voronoi_vertex_sample(domain, Xf, initial_sample(domain, L, Nsamp), L, randomize = False)` -/
  verts : EqCons m → List (Lip.Pt m) → Metric m → ℕ → Tried3 (List (Lip.Pt m))
  /-- `domain.sample(1)` and then `domain.is_point` -/
  point : EqCons m → Tried3 Bool
  /-- `domain.sample(100)` -/
  sample : EqCons m → Except Err (List (Lip.Pt m))
  /-- `voronoi_vertex_sample(domain, Xf, X0)` -/
  final : EqCons m → List (Lip.Pt m) → List (Lip.Pt m) → Except Err (List (Lip.Pt m))

/-- `D = cdist(Xf, X, L)`, `d = np.min(D, axis = 0)`, `k = np.argmax(d)`, `X[k], d[k]`, stretch.py 18-21: `ValueError` for empty arrays. -/
noncomputable def farthest (L : Metric m) (Xf : List (Lip.Pt m)) : List (Lip.Pt m) → Except Err (Lip.Pt m × ℝ)
  | [] => .error .valueError
  | v :: V => if Xf = [] then .error .valueError else .ok (argmaxL (nearest L.2 Xf) v V, nearest L.2 Xf (argmaxL (nearest L.2 Xf) v V))

/-- `_maximin_block_candidate(domain, Xf, L)`, stretch.py 10-21. -/
noncomputable def blockCandidate (o : StretchOracle m) (C : EqCons m) (X : Cur m) (L : Metric m) : Tried3 (Lip.Pt m × ℝ) :=
  match o.verts C X.pts L (2 * X.len) with
  | .caught => .caught
  | .raised e => .raised e
  | .val V =>
    match farthest L X.pts V with
    | .error e => .raised e
    | .ok p => .val p

/-- An entry `[X, d, L, k]` of `xd`. -/
structure Entry (m : ℕ) where
  x : Lip.Pt m
  d : ℝ
  L : Metric m
  k : ℕ

/-- `xd.append(list([X, d, L, k]))`, stretch.py 51: `UnboundLocalError` if `d` was never assigned. -/
def entryOf (X : Cur m) (L : Metric m) (k : ℕ) : Except Err (Entry m) :=
  match X with
  | .rows _ => .error .nameError
  | .cand x d => .ok ⟨x, d, L, k⟩

/-- `X, d = ...` inside of `try`, stretch.py 47-50: nothing is assigned if the exception is caught. -/
def assign (X : Cur m) : Tried3 (Lip.Pt m × ℝ) → Cur m
  | .val p => .cand p.1 p.2
  | _ => X

/-- The loop `for k, L in enumerate(Ls)`, stretch.py 45-51. -/
noncomputable def stretchPass (o : StretchOracle m) (C : EqCons m) : Cur m → ℕ → List (Metric m) → Except Err (List (Entry m) × Cur m)
  | X, _, [] => .ok ([], X)
  | X, k, L :: Ls =>
    match blockCandidate o C X L with
    | .raised e => .error e
    | r =>
      match entryOf (assign X r) L k with
      | .error e => .error e
      | .ok a => (stretchPass o C (assign X r) (k + 1) Ls).map fun q => (a :: q.1, q.2)

/-- The loop `while len(Ls) > 0`, stretch.py 42-81; the first argument counts passes left (each removes one metric).  For an empty `xd` it stops. -/
noncomputable def stretchLoop (o : StretchOracle m) : ℕ → EqCons m → Cur m → List (Metric m) → Except Err (EqCons m)
  | 0, C, _, _ => .ok C
  | _ + 1, C, _, [] => .ok C
  | n + 1, C, X, L :: Ls =>
    match stretchPass o C X 0 (L :: Ls) with
    | .error e => .error e
    | .ok ([], _) => .ok C
    | .ok (a :: l, X') =>
      let b := argmaxL Entry.d a l
      match o.point (C ++ [(b.L, b.x)]) with
      | .raised e => .error e
      | .caught => .ok C
      | .val true => .ok (C ++ [(b.L, b.x)])
      | .val false => stretchLoop o n (C ++ [(b.L, b.x)]) X' ((L :: Ls).eraseIdx b.k)

/-- `stretch_sample_domain(domain, X, Ls)`, stretch.py 25-81: the constraints added. -/
noncomputable def stretchDomain (o : StretchOracle m) (X : List (Lip.Pt m)) (Ls : List (Metric m)) : Except Err (EqCons m) :=
  stretchLoop o Ls.length [] (.rows X) Ls

/-- `stretch_sample(domain, Xf, Ls)`, stretch.py 83-92. -/
noncomputable def stretchSample (o : StretchOracle m) (Xf : List (Lip.Pt m)) (Ls : List (Metric m)) : Except Err (Lip.Pt m) :=
  match stretchDomain o Xf Ls with
  | .error e => .error e
  | .ok C =>
    match o.sample C with
    | .error e => .error e
    | .ok X0 =>
      match o.final C Xf X0 with
      | .error e => .error e
      | .ok V => (farthest ⟨m, 1⟩ Xf V).map Prod.fst

end Verif.Samp
