import Verif.Base.Vec
import Verif.Basis.IndexModel

/-!
# Model of Vandermonde with Arnoldi

Source: `/repo/psdr/basis.py` 435-546 (`ArnoldiPolynomialBasis`), `/repo/psdr/vandermonde.py`.

Columns of `Q` are lists over the points, and `R` is a list of its columns: column `k` holds the `k + 1` entries
`R[0,k], …, R[k,k]` (in `vandermonde.py` the last one is stored in `H[k+1,k]`).  Exact reals; the points have real
entries (with an integer array as argument `arnoldi_X` would allocate an integer array, basis.py 492, which is not
modelled).
-/

namespace Verif.Basis

open Verif

/-- The columns `(i, j)` used for the columns `1, 2, …`, basis.py 473-475: `_update_vec(ids)` with the whole index set. -/
def plan (I : List (List ℕ)) : Option (List (ℕ × ℕ)) := I.tail.mapM (updateVec I)

/-- The same in vandermonde.py 51-63, where `_update_vec(idx[:k], ids)` gets the indices before `ids` only. -/
def planPrefix (I : List (List ℕ)) : Option (List (ℕ × ℕ)) :=
  (List.range' 1 (I.length - 1)).mapM (fun k => updateVec (I.take k) (I.getD k []))

/-- One pass of the orthogonalisation loop, basis.py 479-481 (`c = 1`) and vandermonde.py 66-68 (`c = M`). -/
noncomputable def mgsStep (c : ℝ) (s : List ℝ × Vec) (Qj : Vec) : List ℝ × Vec :=
  (s.1 ++ [Vec.dot Qj s.2 / c], Vec.sub s.2 (Vec.smul (Vec.dot Qj s.2 / c) Qj))

/-- The orthogonalisation loop. -/
noncomputable def mgs (c : ℝ) (Q : List Vec) (q : Vec) : List ℝ × Vec := Q.foldl (mgsStep c) ([], q)

/-- Orthogonalise, store the norm, and append the normalised column, basis.py 479-484, vandermonde.py 66-71. -/
noncomputable def finishCol (c : ℝ) (s : List Vec × List (List ℝ)) (q : Vec) : List Vec × List (List ℝ) :=
  (s.1 ++ [(mgs c s.1 q).2.map (fun t => t / (Vec.norm (mgs c s.1 q).2 / Real.sqrt c))],
   s.2 ++ [(mgs c s.1 q).1 ++ [Vec.norm (mgs c s.1 q).2 / Real.sqrt c]])

/-- One column, basis.py 474-484: `q = self.X[:,i] * Q[:,j]`. -/
noncomputable def colStep (c : ℝ) (X : List Vec) (s : List Vec × List (List ℝ)) (ij : ℕ × ℕ) : List Vec × List (List ℝ) :=
  finishCol c s (Vec.mul (X.map (fun x => x.getD ij.1 0)) (s.1.getD ij.2 []))

/-- `arnoldi`, basis.py 457-487 with `c = 1` (the first column is written out there: `1/√M` and `R[0,0] = √M`), and the loop
of `vandermonde_arnoldi`, vandermonde.py 51-71, with `c = M`. -/
noncomputable def arnoldi (c : ℝ) (X : List Vec) (P : List (ℕ × ℕ)) : List Vec × List (List ℝ) :=
  P.foldl (colStep c X) (finishCol c ([], []) (List.replicate X.length 1))

/-- The loop `w -= R[j,k]*W[:,j]` at one point, basis.py 505-506, vandermonde.py 118-119. -/
noncomputable def subLoop (h W : List ℝ) (w : ℝ) : ℝ := (List.zip h W).foldl (fun w p => w - p.1 * p.2) w

/-- One column of `arnoldi_X` at one point, basis.py 501-508. -/
noncomputable def evalStep (x : Vec) (W : List ℝ) (e : (ℕ × ℕ) × List ℝ) : List ℝ :=
  W ++ [subLoop e.2 W (x.getD e.1.1 0 * W.getD e.1.2 0) / e.2.getD W.length 0]

/-- The row of `arnoldi_X(X)` for one point, basis.py 489-510, and of `W` in `polyvalA`, vandermonde.py 108-120. -/
noncomputable def evalX (P : List (ℕ × ℕ)) (R : List (List ℝ)) (x : Vec) : List ℝ :=
  (List.zip P R.tail).foldl (evalStep x) [1 / (R.getD 0 []).getD 0 0]

/-- One column of `DV` at one point for one coordinate, basis.py 533-542. -/
noncomputable def derStep (x V : Vec) (ell : ℕ) (D : List ℝ) (e : (ℕ × ℕ) × List ℝ) : List ℝ :=
  D ++ [((if e.1.1 = ell then V.getD e.1.2 0 + x.getD e.1.1 0 * D.getD e.1.2 0 else x.getD e.1.1 0 * D.getD e.1.2 0)
    - Vec.dot D e.2) / e.2.getD D.length 0]

/-- `DV[point,:,ell]`, basis.py 520-544. -/
noncomputable def evalDV (P : List (ℕ × ℕ)) (R : List (List ℝ)) (x : Vec) (ell : ℕ) : List ℝ :=
  (List.zip P R.tail).foldl (derStep x (evalX P R x) ell) [0]

/-- The constructor of `ArnoldiPolynomialBasis(degree, X)`, basis.py 438-444. -/
noncomputable def arnoldiBasis (degree dim : ℕ) (X : List Vec) : Option (List Vec × List (List ℝ)) :=
  (plan (indexSet degree dim)).map (arnoldi 1 X)

/-- `vandermonde_arnoldi(X, p)`, vandermonde.py 18-71. -/
noncomputable def vandermondeArnoldi (X : List Vec) (p dim : ℕ) : Option (List Vec × List (List ℝ)) :=
  (planPrefix (indexSet p dim)).map (arnoldi X.length X)

/-- The search for the degree in `polyvalA`, vandermonde.py 97-103: the first `p` with `comb(m + p, p) ≥ len(d)`, looking at
`fuel` values. -/
def findDegree (m len : ℕ) : ℕ → ℕ → Option ℕ
  | 0, _ => none
  | fuel + 1, p => if len ≤ Nat.choose (m + p) p then some p else findDegree m len fuel (p + 1)

/-- `polyvalA(d, H, X)`, vandermonde.py 86-122, at one point; `none` where an exception is raised (the assertion
`len(idx) == N`), or where the search for the degree does not end within the given number of steps. -/
noncomputable def polyvalA (fuel : ℕ) (d : Vec) (H : List (List ℝ)) (x : Vec) : Option ℝ :=
  match findDegree x.length d.length fuel 0 with
  | none => none
  | some p =>
    if (indexSet p x.length).length = H.length then
      (planPrefix (indexSet p x.length)).map (fun P => Vec.dot (evalX P H x) d)
    else none

end Verif.Basis
