import Verif.Domain.RoundModel
import Verif.Domain.SweepModel

/-!
# Model of grids, sweeps and Latin hypercube designs in rounded arithmetic

Source: `/repo/psdr/domains/euclidean.py` 435-437 (`sweep`), 630-635 (`sample_grid`), `/repo/psdr/sample/latin.py` 36-46, 88-94.

`np.linspace` is modelled as numpy computes it.  Its separate branch for a step of zero gives the same numbers when there is no underflow.
-/

namespace Verif.Round

open Verif Verif.Domain

/-- Entry `k` of `np.linspace(l, h, n)`: `arange(n)*step + l` with `step = (h - l)/(n - 1)`, except that the last entry is set to `h` if `n > 1`. -/
noncomputable def linAtF (F : FP) (l h : ℝ) (n k : ℕ) : ℝ :=
  if n ≤ 1 then F.rd (F.rd (k * F.rd (h - l)) + l)
  else if k = n - 1 then h
  else F.rd (F.rd (k * F.rd (F.rd (h - l) / ((n : ℝ) - 1))) + l)

/-- `np.linspace(l, h, n)`. -/
noncomputable def linF (F : FP) (l h : ℝ) (n : ℕ) : List ℝ := (List.range n).map (linAtF F l h n)

open Classical in
/-- `sample_grid(n)` of a box, euclidean.py 630-635, with the tolerance of the membership test. -/
noncomputable def gridF (F : FP) (tol : ℝ) (lb ub : List ℝ) (n : ℕ) : List Vec :=
  (gridRows (List.zipWith (fun l h => linF F l h n) lb ub)).filter fun x => decide (inBoundsF F (lb.map XR.fin) (ub.map XR.fin) tol x)

/-- Entry `k` of `(xi[1:]+xi[0:-1])/2.` for `xi = np.linspace(l, h, N + 1)`, latin.py 41-42 and 90-91. -/
noncomputable def midF (F : FP) (l h : ℝ) (N k : ℕ) : ℝ := F.rd (F.rd (linAtF F l h (N + 1) (k + 1) + linAtF F l h (N + 1) k) / 2)

/-- One coordinate of a sweep, euclidean.py 437: `(1-alpha)*c1 + alpha*c2` for the entry `k` of `np.linspace(0, 1, n)`. -/
noncomputable def sweepF (F : FP) (c1 c2 : ℝ) (n k : ℕ) : ℝ :=
  F.rd (F.rd (F.rd (1 - linAtF F 0 1 n k) * c1) + F.rd (linAtF F 0 1 n k * c2))

end Verif.Round
