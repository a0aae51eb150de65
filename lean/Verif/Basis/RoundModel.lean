import Verif.Domain.RoundModel
import Verif.Basis.TensorModel

/-!
# Model of the tensor product bases in rounded arithmetic

Source: `/repo/psdr/basis.py` 138-144 (`_scale`), 185-193 (`V`), 218-242 (`VC`), `/repo/psdr/poly.py` 77-81 (`PolynomialFunction.eval`), and numpy's `polyvander`,
`legvander` and `chebvander`.  One row of the matrices (one point) is modelled.  The numbers and the library are those of `Verif.Domain.RoundModel`.
-/

namespace Verif.Round

open Verif Verif.Domain

/-- `_scale` for one coordinate, basis.py 142: `2*(x - lb)/(ub - lb) - 1`. -/
noncomputable def scaleF (F : FP) (l h x : ℝ) : ℝ := F.rd (F.rd (F.rd (2 * F.rd (x - l)) / F.rd (h - l)) - 1)

/-- `np.polynomial.polynomial.polyvander(x, n)[n]`: `v[0] = 1`, `v[1] = x`, `v[i] = v[i-1]*x`. -/
noncomputable def powF (F : FP) : ℕ → ℝ → ℝ
  | 0, _ => 1
  | 1, x => x
  | n + 2, x => F.rd (powF F (n + 1) x * x)

/-- `np.polynomial.chebyshev.chebvander(x, n)[n]`: `v[0] = 1`, `v[1] = x`, `x2 = 2*x`, `v[i] = v[i-1]*x2 - v[i-2]`. -/
noncomputable def chebF (F : FP) : ℕ → ℝ → ℝ
  | 0, _ => 1
  | 1, x => x
  | n + 2, x => F.rd (F.rd (chebF F (n + 1) x * F.rd (2 * x)) - chebF F n x)

/-- `np.polynomial.legendre.legvander(x, n)[n]`: `v[0] = 1`, `v[1] = x`, `v[i] = (v[i-1]*x*(2*i - 1) - v[i-2]*(i - 1))/i`. -/
noncomputable def legF (F : FP) : ℕ → ℝ → ℝ
  | 0, _ => 1
  | 1, x => x
  | n + 2, x => F.rd (F.rd (F.rd (F.rd (legF F (n + 1) x * x) * (2 * (n + 2) - 1)) - F.rd (legF F n x * (n + 1))) / (n + 2))

/-- `V[:,j] *= V_coordinate[k][:,alpha[k]]` for all `k`, basis.py 190-192 and 233-235: the product for one index. -/
noncomputable def colF (F : FP) (φ : ℕ → ℝ → ℝ) (x : Vec) (alpha : List ℕ) : ℝ :=
  (alpha.zip x).foldl (fun acc q => F.rd (acc * φ q.1 q.2)) 1

/-- One row of `V(X)`, basis.py 185-193, for the scaled coordinates `x`. -/
noncomputable def rowF (F : FP) (φ : ℕ → ℝ → ℝ) (idx : List (List ℕ)) (x : Vec) : Vec := idx.map (colF F φ x)

open Classical in
/-- Column `k` of one row of `VC(X, c)`, basis.py 226-238: `cs` are the rows of the coefficient matrix. -/
noncomputable def vcF (F : FP) (φ : ℕ → ℝ → ℝ) (idx : List (List ℕ)) (x : Vec) (cs : List Vec) (k : ℕ) : ℝ :=
  (idx.zip cs).foldl (fun out q => if Basis.anyNonzero q.2 then F.rd (out + F.rd (q.2.getD k 0 * colF F φ x q.1)) else out) 0

/-- `PolynomialFunction.eval` at one point, `V(X).dot(coef)`, poly.py 77-81. -/
noncomputable def evalF (F : FP) (lib : Lib) (φ : ℕ → ℝ → ℝ) (idx : List (List ℕ)) (x c : Vec) : Vec := lib.mv [rowF F φ idx x] c

end Verif.Round
