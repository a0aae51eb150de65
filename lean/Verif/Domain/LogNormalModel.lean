import Mathlib.Analysis.SpecialFunctions.Exp
import Verif.Domain.SampleModel

/-!
# Model of `LogNormalDomain`

Source: `/repo/psdr/domains/lognormal.py` 36-65.
-/

namespace Verif.Domain

open Classical Verif

/-- A `LogNormalDomain`, lognormal.py 36-58: the mean and standard deviation of the underlying normal domain (the
one-by-one Cholesky factor), its clip radius squared if truncated, and the bounds `norm_lb`, `norm_ub` of that
domain. -/
structure LogN where
  mean : ℝ
  sd : ℝ
  clip : Option ℝ
  nlb : ℝ
  nub : ℝ
  offset : ℝ
  scaling : ℝ

/-- The underlying `NormalDomain`, lognormal.py 38. -/
noncomputable def LogN.normal (d : LogN) : Base := .normal [d.mean] [[1 / d.sd]] d.clip

/-- `lb`, lognormal.py 51-55. -/
noncomputable def LogN.lb (d : LogN) : XR :=
  if d.clip.isSome then .fin (d.offset + d.scaling * Real.exp d.nlb) else .fin 0

/-- `ub`, lognormal.py 51-55. -/
noncomputable def LogN.ub (d : LogN) : XR :=
  if d.clip.isSome then .fin (d.offset + d.scaling * Real.exp d.nub) else .pinf

/-- `_sample`, lognormal.py 63-65. -/
noncomputable def LogN.sample (d : LogN) (fuel : ℕ) (r : Rand) (draw : ℕ) : Option (List Vec) :=
  (normalSample [d.mean] [[d.sd]] d.clip fuel r draw).map
    (fun X => X.map (fun x => x.map (fun y => d.offset + d.scaling * Real.exp y)))

end Verif.Domain
