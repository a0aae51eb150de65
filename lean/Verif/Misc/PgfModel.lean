import Verif.Domain.Model

/-!
# Model of the PGF tables

Source: `/repo/psdr/pgf.py` 7-50.

Text is a list of characters. The conversion of a float to text (`"{}".format`, i.e. `repr`) and back (`float`) is a
parameter. Simplifications: the entries of the columns are floats already; the universal newline translation of text files is
not modelled (names with `\r` are excluded in the theorems); `deepcopy` is the identity on values.
-/

namespace Verif.Misc

open Verif.Domain

/-- Text. -/
abbrev Str := List Char

/-- The conversions of floats to and from text. -/
structure Fmt (V : Type) where
  fmt : V → Str
  prs : Str → Except Err V

/-- An object of class `PGF`, pgf.py 7-10. -/
structure Pgf (V : Type) where
  names : List Str
  cols : List (List V)

variable {V : Type}

/-- `PGF()`, pgf.py 8-10. -/
def Pgf.empty : Pgf V := ⟨[], []⟩

/-- `add`, pgf.py 12-17. -/
def Pgf.add (p : Pgf V) (name : Str) (col : List V) : Except Err (Pgf V) :=
  if 1 < p.cols.length ∧ ¬ (p.cols.headD []).length = col.length then .error .assertion
  else .ok ⟨p.names ++ [name], p.cols ++ [col]⟩

/-- `p[key]`, pgf.py 22-24: the first column of that name. -/
def Pgf.get (p : Pgf V) (key : Str) : Except Err (List V) :=
  if key ∈ p.names then
    match p.cols[p.names.idxOf key]? with
    | some c => .ok c
    | none => .error .indexError
  else .error .valueError

/-- The header line, pgf.py 29-31. -/
def header : List Str → Str
  | [] => ['\n']
  | n :: r => n ++ '\t' :: header r

/-- The cells of row `j`, pgf.py 34-36. -/
def rowText (F : Fmt V) (j : ℕ) : List (List V) → Except Err Str
  | [] => .ok ['\n']
  | c :: r =>
    match c[j]? with
    | none => .error .indexError
    | some v => (rowText F j r).map fun t => F.fmt v ++ '\t' :: t

/-- The rows from number `j` on, `k` of them, pgf.py 33-36. -/
def rowsText (F : Fmt V) (cols : List (List V)) : ℕ → ℕ → Except Err Str
  | 0, _ => .ok []
  | k + 1, j =>
    match rowText F j cols with
    | .error e => .error e
    | .ok t => (rowsText F cols k (j + 1)).map fun r => t ++ r

/-- `write`, pgf.py 26-38: the content of the file. -/
def Pgf.write (F : Fmt V) (p : Pgf V) : Except Err Str :=
  match p.cols with
  | [] => .error .indexError
  | c :: _ => (rowsText F p.cols c.length 0).map fun r => header p.names ++ r

/-- Iteration over the lines of a file, each with its line end. -/
def pyLines : Str → List Str
  | [] => []
  | c :: r =>
    if c = '\n' then ['\n'] :: pyLines r
    else match pyLines r with
      | [] => [[c]]
      | l :: ls => (c :: l) :: ls

/-- `line.replace('\t\n', '')`. -/
def replaceTN : Str → Str
  | [] => []
  | [c] => [c]
  | c :: d :: r => if c = '\t' ∧ d = '\n' then replaceTN r else c :: replaceTN (d :: r)

/-- `line.replace('\n', '')`. -/
def replaceN (s : Str) : Str := s.filter (· ≠ '\n')

/-- `line.split('\t')`. -/
def splitTab : Str → List Str
  | [] => [[]]
  | c :: r =>
    if c = '\t' then [] :: splitTab r
    else match splitTab r with
      | [] => [[c]]
      | l :: ls => (c :: l) :: ls

/-- The cells of a line, pgf.py 44, 46, 49. -/
def cells (line : Str) : List Str := splitTab (replaceN (replaceTN line))

/-- Appending the cells of one line to the columns, pgf.py 49-51. -/
def appendRow (F : Fmt V) : List (List V) → List Str → Except Err (List (List V))
  | cols, [] => .ok cols
  | [], _ :: _ => .error .indexError
  | c :: cs, s :: ss =>
    match F.prs s with
    | .error e => .error e
    | .ok v => (appendRow F cs ss).map fun r => (c ++ [v]) :: r

/-- Appending all lines after the first. -/
def appendRows (F : Fmt V) : List (List V) → List Str → Except Err (List (List V))
  | cols, [] => .ok cols
  | cols, l :: ls =>
    match appendRow F cols (cells l) with
    | .error e => .error e
    | .ok cols' => appendRows F cols' ls

/-- `read`, pgf.py 40-51: the new content of the object `p`. -/
def Pgf.read (F : Fmt V) (p : Pgf V) (text : Str) : Except Err (Pgf V) :=
  match pyLines text with
  | [] => .ok p
  | l :: ls => (appendRows F ((cells l).map fun _ => []) ls).map fun c => ⟨cells l, c⟩

end Verif.Misc
