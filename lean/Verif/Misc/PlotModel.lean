import Verif.Misc.PgfModel
import Verif.Func.PolyModel
import Verif.Domain.SweepModel

/-!
# Model of the shadow plots

Sources: `/repo/psdr/subspace.py` 51-128 (`SubspaceBasedDimensionReduction.shadow_plot`), 233-238; `/repo/psdr/ridge.py` 15-69
(`RidgeFunction.shadow_plot`).

What a plot does is the list of its effects in order: what is drawn and the files written; an exception does not undo the effects before it.
Simplifications: `ax` is present or `None` (an axis made for `'auto'` is present); labels, colors and sizes are left out; a table that
cannot be written completely leaves no file (in the code: an unfinished one); `X` is two dimensional; `fX` is one dimensional.
Of matplotlib it is modelled that `plot` and `scatter` raise `ValueError` on `None` and on lists of different lengths.
-/

namespace Verif.Misc

open Verif Verif.Domain Verif.Lip Verif.Func Matrix

/-- One effect. -/
inductive Fx where
  /-- `ax.plot(x, y, 'k.')` -/
  | dots (x y : List ℝ)
  /-- `ax.scatter(x, y, c = c)` -/
  | cloud (x y c : List ℝ)
  /-- `ax.plot(x, y, 'r-')` -/
  | curve (x y : List ℝ)
  /-- `ax.contour(x, y, z)`; `z` row by row -/
  | contour (x y z : List ℝ)
  /-- a file with its content -/
  | file (name text : Str)

/-- The effects and whether there was an exception. -/
abbrev Run := List Fx × Except Err Unit

/-- One after the other. -/
def Run.seq (a b : Run) : Run :=
  match a.2 with
  | .error _ => a
  | .ok _ => (a.1 ++ b.1, b.2)

/-- Raise. -/
def Run.raise (e : Err) : Run := ([], .error e)

/-- Do nothing. -/
def Run.done : Run := ([], .ok ())

/-- The argument `X`: absent, or `N` rows of `w` numbers, either an array or a list of lists. -/
inductive XArg where
  | none
  | rows (isArray : Bool) (w : ℕ) (l : List (Pt w))

/-- The argument `fX`. -/
inductive FArg where
  | none
  | vals (isArray : Bool) (l : List ℝ)

/-- The argument `U`: absent, a vector or a matrix. -/
inductive UArg where
  | none
  | vec (k : ℕ) (u : Pt k)
  | mat (k p : ℕ) (U : Matrix (Fin k) (Fin p) ℝ)

/-- What the plots read from the object. `hasLen` is false for objects without `_dimension` (`len(self)` raises `AttributeError`, subspace.py 234-235). -/
structure PlotObj (m p : ℕ) where
  hasLen : Bool
  X : List (Pt m)
  U : Matrix (Fin m) (Fin p) ℝ

variable {m p : ℕ}

/-- How numbers get into a file: a number as a float (`float(col[j])`, pgf.py 35), and floats as text. -/
structure Printer (V : Type) where
  fl : ℝ → V
  F : Fmt V

variable {V : Type}

/-- A table with the given columns written to a file, subspace.py 103-106, 119-123, ridge.py 38-41. -/
def tableFile (P : Printer V) (name : Str) (cols : List (Str × List ℝ)) : Run :=
  match (cols.foldlM (fun (t : Pgf V) c => t.add c.1 (c.2.map P.fl)) Pgf.empty).bind (fun t => t.write P.F) with
  | .error e => .raise e
  | .ok t => ([.file name t], .ok ())

/-- `if pgfname is not None: ...`. -/
def optFile (P : Printer V) (name : Option Str) (cols : List (Str × List ℝ)) : Run :=
  match name with
  | none => .done
  | some n => tableFile P n cols

/-- A drawing that needs as many values as samples; matplotlib raises `ValueError` otherwise. -/
def drawChecked (d : Fx) (nx ny : ℕ) : Run := if nx = ny then ([d], .ok ()) else .raise .valueError

/-- Column `j` of `U`, `IndexError` if there is none. -/
def colOf {k p : ℕ} (U : Matrix (Fin k) (Fin p) ℝ) (j : ℕ) : Except Err (Pt k) :=
  if h : j < p then .ok (fun i => U i ⟨j, h⟩) else .error .indexError

/-- The case `dim == 1`, subspace.py 96-106. -/
noncomputable def shadow1 (P : Printer V) (X : List (Pt m)) (fX : FArg) (U : Matrix (Fin m) (Fin p) ℝ) (ax : Bool) (name : Option Str) : Run :=
  if ax = false ∧ name = none then .done else
  match colOf U 0 with
  | .error e => .raise e
  | .ok u =>
    match fX with
    | .none => if ax then .raise .valueError else if X.length = 0 then optFile P name [("y".toList, []), ("fX".toList, [])] else .raise .typeError
    | .vals _ f =>
      (if ax then drawChecked (.dots (X.map (· ⬝ᵥ u)) f) X.length f.length else .done).seq
        (optFile P name [("y".toList, X.map (· ⬝ᵥ u)), ("fX".toList, f)])

/-- The case `dim == 2`, subspace.py 108-123; a list has no `flatten`. -/
noncomputable def shadow2 (P : Printer V) (X : List (Pt m)) (fX : FArg) (U : Matrix (Fin m) (Fin p) ℝ) (ax : Bool) (name : Option Str) : Run :=
  if ax = false ∧ name = none then .done else
  match colOf U 0, colOf U 1 with
  | .ok u, .ok v =>
    match fX with
    | .vals true f =>
      (if ax then drawChecked (.cloud (X.map (· ⬝ᵥ u)) (X.map (· ⬝ᵥ v)) f) X.length f.length else .done).seq
        (optFile P name [("y1".toList, X.map (· ⬝ᵥ u)), ("y2".toList, X.map (· ⬝ᵥ v)), ("fX".toList, f)])
    | _ => .raise .attributeError
  | _, _ => .raise .indexError

/-- The samples, subspace.py 80-85. -/
def pickX (obj : PlotObj m p) : XArg → Except Err (List (Pt m))
  | .none => .ok obj.X
  | .rows _ w l => if h : w = m then .ok (h ▸ l) else .error .assertion

/-- The directions, subspace.py 87-93. -/
def pickU (obj : PlotObj m p) : UArg → Except Err (Σ q : ℕ, Matrix (Fin m) (Fin q) ℝ)
  | .none => .ok ⟨p, obj.U⟩
  | .vec k u => if h : k = m then .ok ⟨1, Matrix.of fun i _ => u (Fin.cast h.symm i)⟩ else .error .valueError
  | .mat k q U => if h : k = m then .ok ⟨q, Matrix.of fun i j => U (Fin.cast h.symm i) j⟩ else .error .assertion

/-- `SubspaceBasedDimensionReduction.shadow_plot(X, fX, dim, U, ax, pgfname)`, subspace.py 51-128. -/
noncomputable def shadowPlot (P : Printer V) (obj : PlotObj m p) (X : XArg) (fX : FArg) (dim : ℕ) (U : UArg) (ax : Bool) (name : Option Str) : Run :=
  if obj.hasLen = false then .raise .attributeError else
  match pickX obj X with
  | .error e => .raise e
  | .ok X =>
    match pickU obj U with
    | .error e => .raise e
    | .ok ⟨_, U⟩ =>
      if dim = 1 then shadow1 P X fX U ax name
      else if dim = 2 then shadow2 P X fX U ax name
      else .raise .notImplemented

/-- `pgfname[:pgfname.rfind('.')] + '_response' + pgfname[pgfname.rfind('.'):]`, ridge.py 37; without a dot `rfind` returns `-1`. -/
def respName (s : Str) : Str :=
  let k := if '.' ∈ s then s.length - 1 - s.reverse.idxOf '.' else s.length - 1
  s.take k ++ "_response".toList ++ s.drop k

/-- The response curve, ridge.py 24-41; `ev` is `self.eval` at one point. -/
noncomputable def response1 (P : Printer V) (ev : Pt m → ℝ) (X : List (Pt m)) (u : Pt m) (ax : Bool) (name : Option Str) : Run :=
  if X.length = 0 then .raise .valueError else
  let Y := X.map (· ⬝ᵥ u)
  let xx := linspace (minL Y) (maxL Y) 500
  let yy := xx.map fun t => ev (t • u)
  (if ax then ([.curve xx yy], .ok ()) else .done : Run).seq (optFile P (name.map respName) [("x".toList, xx), ("fx".toList, yy)])

/-- The contours, ridge.py 44-63. -/
noncomputable def response2 (ev : Pt m → ℝ) (X : List (Pt m)) (u v : Pt m) (ax : Bool) : Run :=
  if X.length = 0 then .raise .valueError else
  let xx0 := linspace (minL (X.map (· ⬝ᵥ u))) (maxL (X.map (· ⬝ᵥ u))) 50
  let xx1 := linspace (minL (X.map (· ⬝ᵥ v))) (maxL (X.map (· ⬝ᵥ v))) 50
  if ax then ([.contour xx0 xx1 (xx1.flatMap fun t1 => xx0.map fun t0 => ev (t0 • u + t1 • v))], .ok ()) else .raise .attributeError

/-- The response surface, ridge.py 23-67: `X.T` needs an array. -/
noncomputable def response (P : Printer V) (obj : PlotObj m p) (ev : Pt m → ℝ) (X : XArg) (ax : Bool) (name : Option Str) : Run :=
  match X with
  | .rows true w l =>
    match pickX obj (.rows true w l) with
    | .error e => .raise e
    | .ok X =>
      match colOf obj.U 0, colOf obj.U 1 with
      | .ok u, .ok v => if p = 2 then response2 ev X u v ax else .raise .notImplemented
      | .ok u, .error _ => response1 P ev X u ax name
      | .error _, _ => .raise .notImplemented
  | _ => .raise .attributeError

/-- `RidgeFunction.shadow_plot(X, fX, dim, ax, pgfname)`, ridge.py 15-69. -/
noncomputable def ridgePlot (P : Printer V) (obj : PlotObj m p) (ev : Pt m → ℝ) (X : XArg) (fX : FArg) (dim : Option ℕ) (ax : Bool) (name : Option Str) : Run :=
  if (dim.getD p) ≠ p then .raise .assertion
  else (shadowPlot P obj X fX p .none ax name).seq (response P obj ev X ax name)

end Verif.Misc
