import Mathlib.Data.Real.Basic
import Mathlib.Data.List.Sort
import Mathlib.Data.List.MinMax
import Mathlib.Order.Lex
import Verif.Domain.Model
import Verif.Lipschitz.BoundModel

/-!
# Model of Latin hypercube designs on box domains

Source: `/repo/psdr/sample/latin.py` 7-48 and 75-120.

Random permutations are arbitrary permutations, uniform numbers arbitrary reals: the theorems hold for every stream. The normalized
bounds are finite reals (a bounded box domain). Arithmetic is exact.
-/

namespace Verif.Samp

open Verif Verif.Domain

/-- Entry `k` of `np.linspace(lb, ub, N + 1)`. -/
noncomputable def linspaceAt (lb ub : ℝ) (N k : ℕ) : ℝ := lb + k * ((ub - lb) / N)

/-- Entry `k` of `(xi[1:] + xi[0:-1])/2`, latin.py 42 and 93-94. -/
noncomputable def midAt (lb ub : ℝ) (N k : ℕ) : ℝ := (linspaceAt lb ub N (k + 1) + linspaceAt lb ub N k) / 2

/-- The design with permutation `π i` in coordinate `i`: row `p`, column `i`; latin.py 46 and 112. -/
noncomputable def latinPoints {m N : ℕ} (lb ub : Fin m → ℝ) (π : Fin m → Fin N → Fin N) (p : Fin N) : Lip.Pt m :=
  fun i => midAt (lb i) (ub i) N (π i p)

/-- `_latin_hypercube_sample_box(domain, N)`, latin.py 36-46, with the permutations drawn by numpy. -/
noncomputable def latinBox {m N : ℕ} (lb ub : Fin m → ℝ) (draw : Fin m → Equiv.Perm (Fin N)) : Fin N → Lip.Pt m :=
  latinPoints lb ub (fun i => draw i)

/-- The entries of the distance matrix, `D = squareform(pdist(X)); D += np.max(D)*np.eye(N)`, latin.py 8-9. -/
noncomputable def scoreMat {m N : ℕ} (X : Fin N → Lip.Pt m) (i j : Fin N) : ℝ :=
  if i = j then maxL ((List.finRange N).flatMap (fun a => (List.finRange N).map (fun b => Lip.nrm (X a - X b)))) else Lip.nrm (X i - X j)

/-- `np.min(D, axis = 0)`, latin.py 10. -/
noncomputable def minDist {m N : ℕ} (X : Fin N → Lip.Pt m) (j : Fin N) : ℝ := minL ((List.finRange N).map (fun i => scoreMat X i j))

/-- `_score_maximin(X)`, latin.py 7-11. -/
noncomputable def score {m N : ℕ} (X : Fin N → Lip.Pt m) : List ℝ := ((List.finRange N).map (minDist X)).insertionSort (· ≤ ·)

/-- Python's comparison of tuples, `a > b` read as `b < a`. -/
def tupleLt : List ℝ → List ℝ → Prop
  | [], [] => False
  | [], _ :: _ => True
  | _ :: _, [] => False
  | a :: l, b :: k => a < b ∨ (a = b ∧ tupleLt l k)

/-- The draws of one iteration: the two rows and the uniform numbers. -/
structure LatinDraw (m N : ℕ) where
  i : Fin N
  j : Fin N
  ne : i ≠ j
  r : Fin m → ℝ

/-- `I = r >= min(max(r), 0.5)`, latin.py 106. -/
noncomputable def swapMask {m : ℕ} (r : Fin m → ℝ) (c : Fin m) : Prop := min (maxL ((List.finRange m).map r)) 0.5 ≤ r c

open Classical in
/-- The new permutations, latin.py 107-109: in the chosen coordinates the entries of rows `i` and `j` are exchanged. -/
noncomputable def swapPerms {m N : ℕ} (π : Fin m → Fin N → Fin N) (d : LatinDraw m N) : Fin m → Fin N → Fin N :=
  fun c p => if swapMask d.r c then (if p = d.j then π c d.i else if p = d.i then π c d.j else π c p) else π c p

/-- The state of the loop: the best permutations, design and score. -/
structure LatinState (m N : ℕ) where
  perms : Fin m → Fin N → Fin N
  X : Option (Fin N → Lip.Pt m)
  best : List ℝ

open Classical in
/-- One iteration, latin.py 101-118. -/
noncomputable def latinStep {m N : ℕ} (lb ub : Fin m → ℝ) (s : LatinState m N) (d : LatinDraw m N) : LatinState m N :=
  if tupleLt s.best (score (latinPoints lb ub (swapPerms s.perms d))) then
    ⟨swapPerms s.perms d, some (latinPoints lb ub (swapPerms s.perms d)), score (latinPoints lb ub (swapPerms s.perms d))⟩
  else s

/-- `_latin_hypercube_maximin_box(domain, N, maxiter)`, latin.py 75-120; the list of draws has `maxiter` entries. With fewer than
two points and at least one iteration the unpacking `i, j = ...` raises (latin.py 103). -/
noncomputable def latinMaximin {m N : ℕ} (lb ub : Fin m → ℝ) (init : Fin m → Equiv.Perm (Fin N)) (draws : List (LatinDraw m N)) :
    Option (Fin N → Lip.Pt m) :=
  (draws.foldl (latinStep lb ub) ⟨fun i => init i, none, List.replicate N 0⟩).X

end Verif.Samp
