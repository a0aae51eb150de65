import Verif.Misc.ActiveModel
import Verif.Misc.LocalModel

/-!
# Model of the outer product gradient method

Source: `/repo/psdr/opg.py` 85-134 (`OuterProductGradient.fit`).

The least squares routine, the bandwidth routine, `scipy.linalg.svd` and `numpy.linalg.qr` are parameters. Exact real
arithmetic. A coordinate that is constant over the samples makes the standardization divide by zero; the `nan`s are then
rejected by `scipy.linalg.lstsq`. The model stops with `valueError` at once.
-/

namespace Verif.Misc

open Verif Verif.Domain Verif.Lip Matrix

variable {m : ℕ}

/-- `np.mean(X, axis = 0)`, opg.py 109. -/
noncomputable def colMean (X : List (Pt m)) : Pt m := fun i => (X.map (fun x => x i)).sum / X.length

/-- `np.std(X, axis = 0)` (the population standard deviation), opg.py 110. -/
noncomputable def colStd (X : List (Pt m)) : Pt m := fun i =>
  Real.sqrt ((X.map (fun x => (x i - colMean X i) ^ 2)).sum / X.length)

/-- One row of `(X - mean)/std`, opg.py 111. -/
noncomputable def stdRow (X : List (Pt m)) (x : Pt m) : Pt m := fun i => (x i - colMean X i) / colStd X i

/-- `Dinv2 = np.diag(std**(-0.5))`, opg.py 130. -/
noncomputable def dinv2 (sd : Pt m) : Matrix (Fin m) (Fin m) ℝ := Matrix.diagonal fun i => sd i ^ (-0.5 : ℝ)

/-- `numpy.linalg.qr` in mode `reduced` of a square matrix. -/
abbrev QrFn (m : ℕ) := Matrix (Fin m) (Fin m) ℝ → Matrix (Fin m) (Fin m) ℝ × Matrix (Fin m) (Fin m) ℝ

/-- What `numpy.linalg.qr` promises: an orthogonal factor and an upper triangular one. -/
def IsQr (A : Matrix (Fin m) (Fin m) ℝ) (d : Matrix (Fin m) (Fin m) ℝ × Matrix (Fin m) (Fin m) ℝ) : Prop :=
  A = d.1 * d.2 ∧ d.1ᵀ * d.1 = 1 ∧ ∀ i j, j < i → d.2 i j = 0

def QrOk (qr : QrFn m) : Prop := ∀ A, IsQr A (qr A)

/-- The routines called. -/
structure OpgEnv (m : ℕ) where
  svd : SvdFn m
  qr : QrFn m
  ls : LstsqFn m
  pb : List ℝ → ℝ → Except Err ℝ

/-- The change back to the original coordinates, opg.py 128-134. -/
noncomputable def opgBack (E : OpgEnv m) (G : List (Pt m)) (U : Matrix (Fin m) (Fin m) ℝ) : Option (Pt m) → Matrix (Fin m) (Fin m) ℝ
  | none => U
  | some sd => fixGrads (E.qr (dinv2 sd * U)).1 G

/-- opg.py 123-134 for the standardized (`sd = some std`) or original (`sd = none`) points: gradients, active
subspace and change back. -/
noncomputable def opgCore (E : OpgEnv m) (perp : Option ℝ) (bw : Option Bw) (Z : List (Pt m)) (fX : List ℝ)
    (sd : Option (Pt m)) : Except Err (Matrix (Fin m) (Fin m) ℝ) :=
  match localLinearGrads E.ls E.pb Z fX perp bw none with
  | .error e => .error e
  | .ok G => match asFit E.svd G none with
    | .error e => .error e
    | .ok r => .ok (opgBack E G r.U sd)

/-- opg.py 108-113. -/
noncomputable def opgStd (E : OpgEnv m) (standardize : Bool) (perp : Option ℝ) (bw : Option Bw) (X : List (Pt m))
    (fX : List ℝ) : Except Err (Matrix (Fin m) (Fin m) ℝ) :=
  if standardize then
    open Classical in if ∃ i, colStd X i = 0 then .error .valueError
    else opgCore E perp bw (X.map (stdRow X)) fX (some (colStd X))
  else opgCore E perp bw X fX none

/-- `self.bandwidth == 'xia'`, opg.py 116. -/
def isXia : Option Bw → Bool
  | some .xia => true
  | _ => false

/-- `OuterProductGradient(standardize, perplexity, bandwidth).fit(X, fX)`: the matrix `U` afterwards, opg.py 85-134. The
bandwidth computed at 116-120 is never used (it divides by zero without samples). -/
noncomputable def opgFit (E : OpgEnv m) (standardize : Bool) (perp : Option ℝ) (bw : Option Bw) (X : List (Pt m))
    (fX : List ℝ) : Except Err (Matrix (Fin m) (Fin m) ℝ) :=
  if fX.length = X.length then
    open Classical in if X = [] ∧ isXia bw then .error .zeroDivision
    else opgStd E standardize perp bw X fX
  else .error .assertion

end Verif.Misc
