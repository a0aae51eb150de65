import Verif.Misc.ChanceModel
import Verif.Domain.SweepModel

/-!
# Model of the density estimates of uncertainty propagation

Source: `/repo/psdr/duu.py` 7-26 (`forward_propagation_pdf` and its file), 81-99 (`random_ridge_pdf` and its file).
`sklearn.neighbors.KernelDensity` with the linear kernel and its default tolerances (zero) is modelled by its definition, exact
reals; its logarithm followed by `np.exp` is the identity (`exp(-inf) = 0`).
-/

namespace Verif.Misc

open Verif Verif.Domain

/-- The linear kernel of scikit-learn, not normalized. -/
noncomputable def linKernel (h t : ℝ) : ℝ := open Classical in if |t| < h then 1 - |t| / h else 0

/-- `np.exp(kde.score_samples(x))` in one dimension, duu.py 18, 91. -/
noncomputable def kdeAt (h : ℝ) (y : List ℝ) (x : ℝ) : ℝ := (y.map fun s => linKernel h (x - s)).sum / (y.length * h)

/-- The bandwidth, duu.py 12-14, 85-87: a tenth of the distance of the quartiles. -/
noncomputable def bandwidth (p25 p75 : ℝ) : ℝ := (p75 - p25) / 10

/-- The curve through the estimated density, duu.py 12-19, 85-92, for the samples `y`: a bandwidth that is not positive raises
ValueError, and so does scoring no points. -/
noncomputable def densityCurve (y : List ℝ) (npoints : ℕ) : Except Err (List ℝ × List ℝ) :=
  match percentile y 0, percentile y (1 / 4), percentile y (3 / 4), percentile y 1 with
  | .ok p0, .ok p25, .ok p75, .ok p100 =>
    open Classical in
    if bandwidth p25 p75 ≤ 0 then .error .valueError
    else if npoints = 0 then .error .valueError
    else .ok (linspace p0 p100 npoints, (linspace p0 p100 npoints).map (kdeAt (bandwidth p25 p75) y))
  | .error e, _, _, _ => .error e
  | _, .error e, _, _ => .error e
  | _, _, .error e, _ => .error e
  | _, _, _, .error e => .error e

/-- `forward_propagation_pdf`, duu.py 7-19: `sample n` are samples of the random domain, `f` the response after normalization. -/
noncomputable def forwardPdf (sample : ℕ → List Vec) (normalize : Vec → Vec) (f : Vec → ℝ) (Nsamp npoints : ℕ) : Except Err (List ℝ × List ℝ) :=
  densityCurve ((sample Nsamp).map fun x => f (normalize x)) npoints

/-- `random_ridge_pdf`, duu.py 81-92. -/
noncomputable def randomRidgePdf (sample : ℕ → List Vec) (U : List ℝ) (nr : ℕ) (npoints Nsamp : ℕ) : Except Err (List ℝ × List ℝ) :=
  densityCurve (randomRidge sample U nr Nsamp) npoints

end Verif.Misc
