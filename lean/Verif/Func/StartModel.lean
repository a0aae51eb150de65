import Verif.Func.VarproModel
import Verif.Misc.LocalModel

/-!
# Model of the initial subspace

Source: `/repo/psdr/initialization.py` 6-24 (`initialize_subspace`), `/repo/psdr/misc.py` 12-31 (`check_sample_inputs`).

Simplifications: exact real arithmetic; arrays of samples and gradients are two dimensional (every row has the same length), so that `shape[1]` exists even
without rows; the evaluations are flat; the decomposition of an empty array is empty (some versions of scipy raise).  `scipy.linalg.svd`, `scipy.linalg.lstsq` and the bandwidth for a perplexity are parameters; the random permutation
is a list of indices.
-/

namespace Verif.Func

open Verif.Domain Verif.Lip Verif.Misc Matrix

/-- A two dimensional array: the length of its rows and the rows. -/
abbrev Rows := Σ a : ℕ, List (Pt a)

/-- What `check_sample_inputs` returns: three arrays for the same dimension `m`. -/
structure Samples where
  m : ℕ
  X : List (Pt m)
  fX : List ℝ
  grads : List (Pt m)

/-- The gradients for samples with rows of length `a`, misc.py 21-24, 29-30. -/
def checkGrads (a : ℕ) : Option Rows → Except Err (List (Pt a))
  | none => .ok []
  | some ⟨b, G⟩ => if h : a = b then .ok (h ▸ G) else .error .assertion

/-- `check_sample_inputs(X, fX, grads)`, misc.py 12-31: samples without evaluations (or evaluations without samples) are dropped; with nothing left,
`grads.shape` raises `AttributeError` on `None`. -/
def checkInputs (X : Option Rows) (fX : Option (List ℝ)) (grads : Option Rows) : Except Err Samples :=
  match X, fX with
  | some ⟨a, X⟩, some f =>
    if X.length = f.length then (checkGrads a grads).map fun G => ⟨a, X, f, G⟩ else .error .assertion
  | _, _ =>
    match grads with
    | none => .error .attributeError
    | some ⟨b, G⟩ => .ok ⟨b, [], [], G⟩

/-- `X[I]` with `I = np.random.permutation(X.shape[0])[:k]`, initialization.py 16-17. -/
def pick {α : Type} (X : List α) (perm : List ℕ) (k : ℕ) : List α := (perm.take k).filterMap fun i => X[i]?

/-- The gradients used, initialization.py 14-20. -/
noncomputable def allGrads {m : ℕ} (ls : LstsqFn m) (pb : List ℝ → ℝ → Except Err ℝ) (X : List (Pt m)) (fX : List ℝ) (grads : List (Pt m)) (nGrads : ℕ)
    (perm : List ℕ) : Except Err (List (Pt m)) :=
  if grads.length < nGrads ∧ X.length ≥ m + 1 then
    (localLinearGrads ls pb X fX none none (some (pick X perm (nGrads - grads.length)))).map fun est => grads ++ est
  else .ok grads

/-- `all_grads.T`: the gradients are the columns. -/
def gradCols {m : ℕ} (G : List (Pt m)) : Matrix (Fin m) (Fin G.length) ℝ := Matrix.of fun i j => G[j] i

/-- The result: a matrix with `m` rows and `k` columns. -/
structure Basis0 where
  m : ℕ
  k : ℕ
  U : Matrix (Fin m) (Fin k) ℝ

/-- `initialize_subspace(X, fX, grads, n_grads)`, initialization.py 6-24.  (`ngrads` of line 12 is never used.) -/
noncomputable def initSubspace (svd : ∀ a b, Matrix (Fin a) (Fin b) ℝ → TSvd a b) (ls : ∀ m, LstsqFn m) (pb : List ℝ → ℝ → Except Err ℝ)
    (X : Option Rows) (fX : Option (List ℝ)) (grads : Option Rows) (nGrads : ℕ) (perm : List ℕ) : Except Err Basis0 :=
  match checkInputs X fX grads with
  | .error e => .error e
  | .ok s => (allGrads (ls s.m) pb s.X s.fX s.grads nGrads perm).map fun G => ⟨s.m, min s.m G.length, (svd s.m G.length (gradCols G)).Y⟩

end Verif.Func
