import Verif.Lipschitz.FitModel
import Verif.Domain.Model

/-!
# Model of the active subspace

Source: `/repo/psdr/subspace.py` 282-360 (`ActiveSubspace`).

Gradients are a list of vectors, weights an optional list. `scipy.linalg.svd` (with full matrices) is a parameter. Exact
real arithmetic: the square root of a negative weight is `nan`, which `scipy.linalg.svd` rejects with `ValueError`.
-/

namespace Verif.Misc

open Verif Verif.Domain Verif.Lip Matrix

variable {m : ℕ}

/-- A full singular value decomposition of an `m` by `k` matrix, as returned by `scipy.linalg.svd`: `U`, the list `s`, and
`V = VT.T`. -/
structure FSvd (m k : ℕ) where
  U : Matrix (Fin m) (Fin m) ℝ
  s : List ℝ
  V : Matrix (Fin k) (Fin k) ℝ

/-- The rectangular matrix with `s` on its diagonal. -/
def sigmaMat (m k : ℕ) (s : List ℝ) : Matrix (Fin m) (Fin k) ℝ := Matrix.of fun i j => if (i : ℕ) = j then s.getD i 0 else 0

/-- What `scipy.linalg.svd` promises. -/
structure IsFSvd {k : ℕ} (A : Matrix (Fin m) (Fin k) ℝ) (d : FSvd m k) : Prop where
  orthU : d.Uᵀ * d.U = 1
  orthV : d.Vᵀ * d.V = 1
  len : d.s.length = min m k
  nonneg : ∀ x ∈ d.s, 0 ≤ x
  sorted : d.s.Pairwise (fun a b => b ≤ a)
  eq : A = d.U * sigmaMat m k d.s * d.Vᵀ

/-- The routine `scipy.linalg.svd`, for all shapes. -/
def SvdFn (m : ℕ) := ∀ k : ℕ, Matrix (Fin m) (Fin k) ℝ → FSvd m k

def SvdSpec (svd : SvdFn m) : Prop := ∀ k (A : Matrix (Fin m) (Fin k) ℝ), IsFSvd A (svd k A)

/-- `weights` defaults to `np.ones(N)/N`, subspace.py 327-328. -/
noncomputable def asWeights (grads : List (Pt m)) : Option (List ℝ) → List ℝ
  | none => List.replicate grads.length (1 / (grads.length : ℝ))
  | some w => w

/-- Broadcasting two lists of different lengths: one of them must have length one. -/
def asStretch : List ℝ → List (Pt m) → Option (List (ℝ × Pt m))
  | [a], gs => some (gs.map (fun g => (a, g)))
  | ws, [g] => some (ws.map (fun a => (a, g)))
  | _, _ => none

/-- The pairs of weight and gradient after broadcasting `np.sqrt(weights)*grads.T`, subspace.py 331: the lengths must agree or
one of them must be one. -/
def asPairs (grads : List (Pt m)) (w : List ℝ) : Option (List (ℝ × Pt m)) :=
  if w.length = grads.length then some (w.zip grads) else asStretch w grads

/-- The matrix `np.sqrt(weights)*grads.T`: one column for each pair. -/
noncomputable def asCols (ps : List (ℝ × Pt m)) : Matrix (Fin m) (Fin ps.length) ℝ := Matrix.of fun i j => Real.sqrt ps[j].1 * ps[j].2 i

/-- The attributes set by `fit`. -/
structure ASState (m : ℕ) where
  U : Matrix (Fin m) (Fin m) ℝ
  s : List ℝ
  C : Matrix (Fin m) (Fin m) ℝ

/-- `np.hstack([s, np.zeros(m - len(s))])`, subspace.py 333. -/
def padS (m : ℕ) (s : List ℝ) : List ℝ := s ++ List.replicate (m - s.length) 0

/-- subspace.py 331-334: the singular value decomposition and the matrix `C`; `U` before the sign fixing. -/
noncomputable def asRaw (svd : SvdFn m) (ps : List (ℝ × Pt m)) : ASState m :=
  let d := svd ps.length (asCols ps)
  let s := padS m d.s
  ⟨d.U, s, d.U * Matrix.diagonal (fun i : Fin m => s.getD i 0 ^ 2) * d.Uᵀ⟩

open Classical in
/-- `ActiveSubspace.fit(grads, weights)`, subspace.py 313-337. -/
noncomputable def asFit (svd : SvdFn m) (grads : List (Pt m)) (weights : Option (List ℝ)) : Except Err (ASState m) :=
  if grads = [] then .error .indexError
  else match asPairs grads (asWeights grads weights) with
    | none => .error .valueError
    | some ps =>
      if ∃ p ∈ ps, p.1 < 0 then .error .valueError
      else .ok { asRaw svd ps with U := fixGrads (asRaw svd ps).U grads }

/-- `ActiveSubspace.fit_function`, subspace.py 340-352: the quadrature rule of the domain and the gradient are parameters. -/
noncomputable def asFitFunction (svd : SvdFn m) (rule : ℕ → Except Err (List (Pt m) × List ℝ)) (grad : List (Pt m) → Except Err (List (Pt m)))
    (N : ℕ) : Except Err (ASState m) :=
  match rule N with
  | .error e => .error e
  | .ok (X, w) => match grad X with
    | .error e => .error e
    | .ok gs => asFit svd gs (some w)

end Verif.Misc
