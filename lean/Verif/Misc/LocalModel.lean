import Verif.Lipschitz.FitModel
import Verif.Domain.Model
import Mathlib.Analysis.SpecialFunctions.Exp
import Mathlib.Analysis.SpecialFunctions.Pow.Real

/-!
# Model of local linear models

Source: `/repo/psdr/local_linear.py` 110-208 (`local_linear`, `local_linear_grads`).

`scipy.linalg.lstsq` is a parameter (`none` for `LinAlgError`), and so is `perplexity_bandwidth` here; the latter is modelled in
`PerplexityModel`. Exact real arithmetic.
-/

namespace Verif.Misc

open Verif Verif.Domain Verif.Lip Matrix

variable {m : ℕ}

/-- The argument `bandwidth` when it is not `None`. -/
inductive Bw where
  | xia
  | val (b : ℝ)

/-- What the loop uses to find its bandwidth. -/
inductive Width where
  | perplexity (p : ℝ)
  | fixed (b : ℝ)

/-- The default perplexity `min(m+1, M)`, local_linear.py 165-166. -/
noncomputable def llPerp (M m : ℕ) : Option ℝ → Option Bw → Option ℝ
  | none, none => some ((min (m + 1) M : ℕ) : ℝ)
  | none, some _ => none
  | some p, _ => some p

/-- The checks and the bandwidth, local_linear.py 167-175. The heuristic named after Xia uses the number `M` of samples where
its source has the dimension. -/
noncomputable def llChoose (M : ℕ) : Option ℝ → Option Bw → Except Err Width
  | some p, _ => if 2 ≤ p ∧ p < M then .ok (.perplexity p) else .error .assertion
  | none, some (.val b) => .ok (.fixed b)
  | none, some .xia => if M = 0 then .error .zeroDivision else .ok (.fixed (2.34 * (M : ℝ) ^ (-(1 : ℝ) / (max M 3 + 6 : ℕ))))
  | none, none => .error .typeError

/-- local_linear.py 165-175. -/
noncomputable def llWidth (M m : ℕ) (perp : Option ℝ) (bw : Option Bw) : Except Err Width := llChoose M (llPerp M m perp bw) bw

/-- `cdist(X, xi, 'sqeuclidean')`, local_linear.py 187. -/
def sqDist (x y : Pt m) : ℝ := (x - y) ⬝ᵥ (x - y)

/-- A row of `Y = np.hstack([np.ones((M, 1)), X])`, local_linear.py 181. -/
def llRow (x : Pt m) : Pt (m + 1) := Fin.cons 1 x

/-- `sqrt_weights`, local_linear.py 195. -/
noncomputable def llWeight (β : ℝ) (xt x : Pt m) : ℝ := Real.exp (-0.5 * β * sqDist x xt)

/-- The weighted least squares problem `sqrt_weights*Y`, `sqrt_weights*fX`, local_linear.py 195-197. -/
noncomputable def llProblem (data : List (Pt m × ℝ)) (β : ℝ) (xt : Pt m) : List (Pt (m + 1) × ℝ) :=
  data.map (fun p => (llWeight β xt p.1 • llRow p.1, llWeight β xt p.1 * p.2))

/-- `scipy.linalg.lstsq`. -/
abbrev LstsqFn (m : ℕ) := List (Pt (m + 1) × ℝ) → Option (Pt (m + 1))

/-- The sum of squared residuals. -/
def resid {k : ℕ} (rows : List (Pt k × ℝ)) (a : Pt k) : ℝ := (rows.map (fun r => (r.1 ⬝ᵥ a - r.2) ^ 2)).sum

/-- What `scipy.linalg.lstsq` promises: the answer, if there is one, minimizes the residual. -/
def LstsqSpec (ls : LstsqFn m) : Prop := ∀ rows a, ls rows = some a → ∀ b, resid rows a ≤ resid rows b

/-- The bandwidth at one location, local_linear.py 188-191. -/
noncomputable def llBeta (pb : List ℝ → ℝ → Except Err ℝ) (X : List (Pt m)) (w : Width) (xt : Pt m) : Except Err ℝ :=
  match w with
  | .perplexity p => pb (X.map (fun x => sqDist x xt)) p
  | .fixed b => .ok (0.5 * b)

/-- The loop, local_linear.py 186-202; `A` has one row for each *sample*. -/
noncomputable def llLoop (ls : LstsqFn m) (pb : List ℝ → ℝ → Except Err ℝ) (data : List (Pt m × ℝ)) (w : Width) :
    List (Pt (m + 1)) → ℕ → List (Pt m) → Except Err (List (Pt (m + 1)))
  | A, _, [] => .ok A
  | A, i, xt :: rest =>
    match llBeta pb (data.map (·.1)) w xt with
    | .error e => .error e
    | .ok β =>
      if i < A.length then llLoop ls pb data w (A.set i ((ls (llProblem data β xt)).getD 0)) (i + 1) rest
      else .error .indexError

/-- `local_linear(X, fX, perplexity, bandwidth, Xt)`, local_linear.py 110-203. -/
noncomputable def localLinear (ls : LstsqFn m) (pb : List ℝ → ℝ → Except Err ℝ) (X : List (Pt m)) (fX : List ℝ) (perp : Option ℝ)
    (bw : Option Bw) (Xt : Option (List (Pt m))) : Except Err (List (Pt (m + 1))) :=
  if fX.length = X.length then
    match llWidth X.length m perp bw with
    | .error e => .error e
    | .ok w => llLoop ls pb (X.zip fX) w (List.replicate X.length 0) 0 (Xt.getD X)
  else .error .assertion

/-- `local_linear_grads`: `A[:,1:]`, local_linear.py 205-208. -/
noncomputable def localLinearGrads (ls : LstsqFn m) (pb : List ℝ → ℝ → Except Err ℝ) (X : List (Pt m)) (fX : List ℝ) (perp : Option ℝ)
    (bw : Option Bw) (Xt : Option (List (Pt m))) : Except Err (List (Pt m)) :=
  match localLinear ls pb X fX perp bw Xt with
  | .error e => .error e
  | .ok A => .ok (A.map Fin.tail)

end Verif.Misc
