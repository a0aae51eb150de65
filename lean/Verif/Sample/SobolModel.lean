import Verif.Base.Vec
import Verif.Domain.Model

/-!
# Model of Sobol sampling

Source: `/repo/psdr/sample/sobol.py` 8-59.

The low-discrepancy generator is an arbitrary sequence of points of the unit cube: `i4_sobol_generate(m, n, skip)` returns the `n`
consecutive points starting at position `skip`. Membership is an arbitrary test. The unbounded loop is run with fuel; `none` stands for
a loop which has not ended yet.
-/

namespace Verif.Samp

open Verif Verif.Domain

/-- `X = (ub - lb)*X_norm + lb`, sobol.py 51. -/
noncomputable def sobolScale (lb ub x : Vec) : Vec := Vec.add (Vec.mul (Vec.sub ub lb) x) lb

/-- The batch of `n` consecutive points starting at `skip`, scaled, sobol.py 47-51. -/
noncomputable def sobolBatch (seq : ℕ → Vec) (lb ub : Vec) (skip n : ℕ) : List Vec :=
  (List.range n).map (fun j => sobolScale lb ub (seq (skip + j)))

/-- The loop, sobol.py 45-57. -/
noncomputable def sobolLoop (seq : ℕ → Vec) (lb ub : Vec) (inside : Vec → Bool) (n : ℕ) : ℕ → ℕ → List Vec → Option (List Vec)
  | 0, _, _ => none
  | fuel + 1, skip, acc =>
    if n ≤ (acc ++ (sobolBatch seq lb ub skip n).filter inside).length then
      some ((acc ++ (sobolBatch seq lb ub skip n).filter inside).take n)
    else sobolLoop seq lb ub inside n fuel (skip + n) (acc ++ (sobolBatch seq lb ub skip n).filter inside)

/-- `sobol_sequence(domain, n)`, sobol.py 8-59. -/
noncomputable def sobolSequence (hasEq isRandom : Bool) (seq : ℕ → Vec) (lb ub : Vec) (inside : Vec → Bool) (fuel n : ℕ) :
    Except Err (Option (List Vec)) :=
  if hasEq then .error .assertion
  else if isRandom then .error .assertion
  else .ok (sobolLoop seq lb ub inside n fuel 1 [])

end Verif.Samp
