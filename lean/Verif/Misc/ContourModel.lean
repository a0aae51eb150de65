import Verif.Misc.PgfModel

/-!
# Model of writing contour plots

Source: `/repo/psdr/pgf.py` 54-104 (`save_contour`).

A contour set is the list of its collections and the list of its levels; a collection is the list of its
paths, a path what `path.iter_segments(simplify = True)` yields: points with codes.  (Simplifying a path is
done by matplotlib and not modelled.)  The conversions `'%15.15e'` and `'%15d'` and reading a number back
are parameters.  The result is the text of the file, if it was opened, and the exception, if any; what was
written before an exception stays in the file.
-/

namespace Verif.Misc.Contour

open Verif.Domain
open Verif.Misc

/-- The codes of `matplotlib.path.Path`: 1, 2, 79 and all others. -/
inductive Code where
  | moveto
  | lineto
  | closepoly
  | other
  deriving DecidableEq

/-- The formats of pgf.py 72-77. -/
inductive Format where
  | matlab
  | prepared
  | unknown
  deriving DecidableEq

variable {V : Type}

/-- The conversions: `'%15.15e' % v`, `'%15d' % n`, and reading them. -/
structure Conv (V : Type) where
  num : V → Str
  int : ℕ → Str
  prs : Str → Except Err V
  iprs : Str → Except Err ℕ

/-- A line with two cells. -/
def line2 (a b : Str) : Str := a ++ '\t' :: b ++ ['\n']

/-- `write_path_matlab`, pgf.py 61-66. -/
def writeMatlab (C : Conv V) (pts : List (V × V)) (z : V) : Str :=
  line2 (C.num z) (C.int pts.length) ++ (pts.map fun p => line2 (C.num p.1) (C.num p.2)).flatten

/-- `write_path`: 61-66, 68-70 (the names `x0`, `y0` do not exist). -/
def writePath (C : Conv V) : Format → List (V × V) → V → Except Err Str
  | .matlab, pts, z => .ok (writeMatlab C pts z)
  | _, _, _ => .error .nameError

/-- The loop over the segments of a path, pgf.py 85-102: what is written, and the vertices left over. -/
def pathLoop (C : Conv V) (f : Format) (z : V) :
    List ((V × V) × Code) → List (V × V) → Str × Except Err (List (V × V))
  | [], cur => ([], .ok cur)
  | (p, .moveto) :: r, cur =>
    match cur with
    | [] => pathLoop C f z r [p]
    | _ :: _ =>
      match writePath C f cur z with
      | .error e => ([], .error e)
      | .ok t => (t ++ (pathLoop C f z r [p]).1, (pathLoop C f z r [p]).2)
  | (p, .lineto) :: r, cur => pathLoop C f z r (cur ++ [p])
  | (_, .closepoly) :: r, cur =>
    match cur with
    | [] => ([], .error .indexError)
    | a :: _ => pathLoop C f z r (cur ++ [a])
  | (_, .other) :: r, cur => pathLoop C f z r cur

/-- Text written and how it ended. -/
abbrev Out := Str × Except Err Unit

/-- One after the other; the second only if the first did not raise. -/
def Out.andThen (a b : Out) : Out :=
  match a.2 with
  | .error e => (a.1, .error e)
  | .ok _ => (a.1 ++ b.1, b.2)

/-- One path, pgf.py 82-104. -/
def savePath (C : Conv V) (f : Format) (z : V) (path : List ((V × V) × Code)) : Out :=
  match pathLoop C f z path [] with
  | (t, .error e) => (t, .error e)
  | (t, .ok cur) =>
    match writePath C f cur z with
    | .error e => (t, .error e)
    | .ok s => (t ++ s, .ok ())

/-- All of a list, in order. -/
def seqAll {α : Type} (g : α → Out) : List α → Out
  | [] => ([], .ok ())
  | a :: r => (g a).andThen (seqAll g r)

/-- `save_contour`, pgf.py 54-104: the text of the file (`none`: not opened) and the outcome. -/
def save (C : Conv V) (f : Format) (collections : List (List (List ((V × V) × Code)))) (levels : List V) :
    Option Str × Except Err Unit :=
  match f with
  | .unknown => (none, .error .notImplemented)
  | _ =>
    let o := seqAll (fun cz => seqAll (savePath C f cz.2) cz.1) (collections.zip levels)
    (some o.1, o.2)

end Verif.Misc.Contour
