import Verif.Domain.Model
import Verif.Sample.LowRankModel

/-!
# Model of the intrinsic dimension and of the basis of forbidden directions

Source: `/repo/psdr/domains/euclidean.py` 444-447 (`intrinsic_dimension`), 815-824 (`_A_eq_basis`), 675-682 (the projection in `random_direction`);
`/repo/psdr/domains/convexhull.py` 305-326 (`_A_eq_basis` of hulls).

The basis computations work on points `Fin n → ℝ`; `scipy.linalg.orth`, `qr` and `svd` are parameters.
-/

namespace Verif.Domain

open Verif Matrix

/-- `intrinsic_dimension`, euclidean.py 444-447. -/
noncomputable def Dom.intrinsicDim (D : Dom) : ℤ := (D.len : ℤ) - D.acc.Aeq.length

variable {n p M : ℕ}

/-- `_A_eq_basis`, euclidean.py 815-824: `orth(A_eq.T)` as a list of columns, none without equality constraints. -/
def eqBasis (orth : List (Lip.Pt n) → List (Lip.Pt n)) (Aeq : List (Lip.Pt n)) : List (Lip.Pt n) := if Aeq.length = 0 then [] else orth Aeq

/-- `Xdiff`, convexhull.py 315-316. -/
noncomputable def hullDiff (X : Fin M → Lip.Pt n) : Matrix (Fin M) (Fin n) ℝ := Matrix.of fun i => X i - (1 / (M : ℝ)) • ∑ j, X j

/-- The rows `VT[~I]`, convexhull.py 317-324. -/
noncomputable def hullKept (d : Samp.Svd p n) : List (Lip.Pt n) := (Samp.keptIdx d).map fun i => d.VT i

/-- `_A_eq_basis` of a hull, convexhull.py 305-326; `d` is the singular value decomposition of `Xdiff`. -/
noncomputable def hullEqBasis (orth : List (Lip.Pt n) → List (Lip.Pt n)) (qr : List (Lip.Pt n) → Fin n → Lip.Pt n) (Aeq : List (Lip.Pt n)) (d : Samp.Svd p n) :
    List (Lip.Pt n) :=
  if 0 < p - (Samp.keptIdx d).length then
    orth (eqBasis orth Aeq ++ ((List.finRange n).drop (Samp.keptIdx d).length).map (qr (hullKept d)))
  else eqBasis orth Aeq

/-- `p - Qeq @ (Qeq.T @ p)`, euclidean.py 682. -/
noncomputable def projDir (Q : List (Lip.Pt n)) (v : Lip.Pt n) : Lip.Pt n := v - (Q.map fun q => (q ⬝ᵥ v) • q).sum

end Verif.Domain
