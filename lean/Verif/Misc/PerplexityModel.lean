import Verif.Misc.LocalModel
import Mathlib.Analysis.SpecialFunctions.Log.NegMulLog

/-!
# Model of the bandwidth with a given perplexity

Source: `/repo/psdr/local_linear.py` 15-107 (`_compute_p1`, `log_entropy`, `perplexity_bandwidth`).

The root finders `scipy.optimize.root_scalar` are one parameter; `none` is the `ValueError` raised when the signs at the ends of
the bracket agree. The cache of `_compute_p1` is not modelled (it does not change results). Exact real arithmetic.
-/

namespace Verif.Misc

open Verif Verif.Domain

/-- `scipy.optimize.root_scalar(f, bracket = [a, b])`. -/
abbrev RootFn := (ℝ → ℝ) → ℝ → ℝ → Option ℝ

/-- What bracketing root finders promise for continuous functions. -/
structure RootSpec (root : RootFn) : Prop where
  fail : ∀ f a b, 0 < f a * f b → root f a b = none
  sound : ∀ f a b r, root f a b = some r → f r = 0 ∧ min a b ≤ r ∧ r ≤ max a b
  total : ∀ f a b, Continuous f → f a * f b ≤ 0 → root f a b ≠ none

/-- The objective of `_compute_p1`, local_linear.py 24; `xlogy(x, x) = x log x`. -/
noncomputable def p1Fun (M : ℕ) (p : ℝ) (x : ℝ) : ℝ := x * Real.log M - x * Real.log x - Real.log (min (Real.sqrt (2 * M)) p)

open Classical in
/-- `_compute_p1(M, perplexity)`, local_linear.py 15-38; `np.isclose(·, 0)` is `|·| ≤ 1e-8`. -/
noncomputable def computeP1 (root : RootFn) (M : ℕ) (p : ℝ) : Except Err ℝ :=
  match root (p1Fun M p) 0 0.5 with
  | some x => .ok (1 - x / 2)
  | none =>
    if |p1Fun M p 0.5| ≤ 1 / 10 ^ 8 then .ok (1 - 0.5 / 2)
    else if |p1Fun M p 0| ≤ 1 / 10 ^ 8 then .ok (1 - 0 / 2)
    else .error .valueError

/-- `np.sum(np.exp(-beta*d))`. -/
noncomputable def sumP (β : ℝ) (d : List ℝ) : ℝ := (d.map (fun x => Real.exp (-β * x))).sum

/-- `log_entropy(beta, d)`, local_linear.py 41-46. -/
noncomputable def logEntropy (β : ℝ) (d : List ℝ) : ℝ :=
  β * (d.map (fun x => Real.exp (-β * x) * x / sumP β d)).sum + Real.log (sumP β d)

/-- The smallest positive entry, `np.min(d[d>0])`; `none` is the error for an empty array. -/
noncomputable def minPos (d : List ℝ) : Option ℝ := (d.filter (fun x => decide (0 < x))).min?

/-- The lower end of the bracket, local_linear.py 80; `d` are *squared* distances. -/
noncomputable def beta1 (M : ℕ) (p dM d1 : ℝ) : ℝ :=
  max (M * Real.log (M / p) / ((M - 1) * (dM - d1))) (Real.sqrt (Real.log (M / p) / (dM ^ 4 - d1 ^ 4)))

/-- The upper end of the bracket, local_linear.py 82. -/
noncomputable def beta2 (M : ℕ) (δ2 p1 : ℝ) : ℝ := 1 / δ2 * Real.log (p1 / (1 - p1) * (M - 1))

/-- `perplexity_bandwidth(d, perplexity)`, local_linear.py 49-107. -/
noncomputable def perpBandwidth (root : RootFn) (d : List ℝ) (p : ℝ) : Except Err ℝ :=
  match computeP1 root d.length p with
  | .error e => .error e
  | .ok p1 => match d.max? with
    | none => .error .valueError
    | some dM => match minPos d with
      | none => .error .valueError
      | some d1 => match minPos (d.map (fun x => x - d1)) with
        | none => .error .valueError
        | some δ2 => match root (fun β => logEntropy β d - Real.log p) (beta1 d.length p dM d1) (beta2 d.length δ2 p1) with
          | none => .error .valueError
          | some β => .ok β

end Verif.Misc
