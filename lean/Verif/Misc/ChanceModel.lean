import Verif.Geometry.GeoModel
import Verif.Base.Vec

/-!
# Model of the chance constraints

Source: `/repo/psdr/duu.py` 29-79 (`RidgeChanceConstraint`).  The module cannot be imported as it stands (line 2 imports
`EmptyDomain`, which `psdr.domains` does not define); what is modelled is what its functions say.  Exact reals.
Not modelled: `deterministic_failure_points_1d` (calls methods that do not exist).  The density estimates are in `DensityModel`.
-/

namespace Verif.Misc

open Verif Verif.Domain

/-- `np.percentile(y, 100*q)` with numpy's default linear interpolation: the virtual index `(N-1) q` between the sorted
samples; ValueError for `q` outside `[0, 1]`, IndexError for no samples. -/
noncomputable def percentile (y : List ℝ) (q : ℝ) : Except Err ℝ :=
  open Classical in
  if 0 ≤ q ∧ q ≤ 1 then
    if y = [] then .error .indexError
    else .ok ((Geo.sortR y).getD ⌊((y.length : ℝ) - 1) * q⌋₊ 0
      + ((Geo.sortR y).getD (min (⌊((y.length : ℝ) - 1) * q⌋₊ + 1) (y.length - 1)) 0 - (Geo.sortR y).getD ⌊((y.length : ℝ) - 1) * q⌋₊ 0)
        * (((y.length : ℝ) - 1) * q - ⌊((y.length : ℝ) - 1) * q⌋₊))
  else .error .valueError

/-- `U[-n:]` for the rows of `U`: with `n = 0` these are all rows. -/
def lastRows (U : List ℝ) (n : ℕ) : List ℝ := if n = 0 then U else U.drop (U.length - n)

/-- `sample_random_ridge(Nsamp)`, duu.py 63-70, for one ridge direction: the argument is ignored, ten thousand samples are
drawn.  `sample n` are the normalized samples drawn from the random domain of dimension `n_r`. -/
noncomputable def randomRidge (sample : ℕ → List Vec) (U : List ℝ) (nr : ℕ) (_Nsamp : ℕ) : List ℝ := (sample 10000).map (Vec.dot (lastRows U nr))

/-- `empirical_safety_factor_1d`, duu.py 72-79; every mode other than `'upper'` is the lower one. -/
noncomputable def safetyFactor (upper : Bool) (prob : ℝ) (y : List ℝ) : Except Err ℝ := if upper then percentile y (1 - prob) else percentile y prob

end Verif.Misc
