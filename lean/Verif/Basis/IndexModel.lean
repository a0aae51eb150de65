import Mathlib.Data.List.Basic
import Mathlib.Data.Int.Order.Basic

/-!
# Model of the total-degree index set

Source: `/repo/psdr/basis.py` 32-73, 449-455.
-/

namespace Verif.Basis

/-- `_full_index_set(n, d)`, basis.py 32-53, for `d ≥ 1` (for `d ≤ 0` the recursion does not end; the value here is
arbitrary).  The case `i = 0` is written separately in the code but has the same form. -/
def fullIndexSet (n : ℕ) : ℕ → List (List ℕ)
  | 0 => []
  | 1 => [[n]]
  | d + 2 => (List.range (n + 1)).flatMap (fun i => (fullIndexSet (n - i) (d + 1)).map (fun r => i :: r))

/-- `index_set(n, d)`, basis.py 55-73. -/
def indexSet (n d : ℕ) : List (List ℕ) :=
  (List.replicate d 0 :: (List.range' 1 n).flatMap (fun i => fullIndexSet i d)).map List.reverse

/-- `self.indices - ids` for one row, basis.py 451. -/
def diffRow (row ids : List ℕ) : List ℤ := List.zipWith (fun a b : ℕ => (a : ℤ) - (b : ℤ)) row ids

/-- The test on one row of `diff`, basis.py 453: the sum of absolute values is at most one and the smallest entry is
minus one. -/
def isParent (row ids : List ℕ) : Bool :=
  decide (((diffRow row ids).map Int.natAbs).sum ≤ 1) && ((diffRow row ids).min? == some (-1))

/-- `_update_vec(ids)`, basis.py 449-455: `(i, j)`; `none` where `np.max` of an empty array or `int` of several entries
raises. -/
def updateVec (indices : List (List ℕ)) (ids : List ℕ) : Option (ℕ × ℕ) :=
  match ((List.range indices.length).filter (fun j => isParent (indices.getD j []) ids)).getLast? with
  | none => none
  | some j =>
    match (List.range ids.length).filter (fun i => (diffRow (indices.getD j []) ids).getD i 0 == -1) with
    | [i] => some (i, j)
    | _ => none

end Verif.Basis
