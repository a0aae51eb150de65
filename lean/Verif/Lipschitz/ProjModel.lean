import Verif.Lipschitz.FitModel

/-!
# Model of `project_evals`, `project_grads` and `dist_grad_constraints_slow`

Source: `/repo/psdr/lipschitz_utils.py` 50-102, 151-212.  The `while True` loops are functions of an amount of fuel; `none` means that the fuel ran out.
`np.linalg.eigh` is a parameter; `dist_grad_constraints` is a parameter giving the smallest eigenvalue of `H - g gᵀ`.
-/

namespace Verif.Lip

open Verif Matrix

/-- A row of the data of `project_evals`: the difference `P[k]` and `lhs[k]`. -/
abbrev EvalRow (m : ℕ) := Pt m × ℝ

/-- `P` and `lhs`, lipschitz_utils.py 167-170; `np.triu_indices` has the order of `pairsOf`. -/
noncomputable def evalRows {m : ℕ} (data : List (Pt m × ℝ)) : List (EvalRow m) :=
  (pairsOf data).map (fun p => (p.1.1 - p.2.1, (p.1.2 - p.2.2) ^ 2))

/-- `update[k] = (lhs[k] - pHp[k])/pp2[k]**2`, lipschitz_utils.py 174. -/
noncomputable def updateOf {m : ℕ} (H : Matrix (Fin m) (Fin m) ℝ) (r : EvalRow m) : XR :=
  XR.div (r.2 - quad H r.1) ((r.1 ⬝ᵥ r.1) ^ 2)

open Classical in
/-- `np.argmax` and the value there: the first NaN if there is one, otherwise the first largest entry. -/
noncomputable def argmaxFrom {α : Type*} (f : α → XR) (best : α) : List α → α
  | [] => best
  | a :: l => if f best = .nan then best else if f a = .nan ∨ XR.lt (f best) (f a) then argmaxFrom f a l else argmaxFrom f best l

/-- The literal `1e-13`. -/
noncomputable def evalTol : ℝ := 1e-13

/-- The value of a positive finite update; other values never pass the test with a finite result. -/
noncomputable def finPart : XR → ℝ
  | .fin r => r
  | _ => 0

open Classical in
/-- The loop of `project_evals`, lipschitz_utils.py 172-179.  The list of rows is nonempty.  An infinite update (equal points, different values) puts
NaN into `H`; this is reported as an error. -/
noncomputable def projEvalsLoop {m : ℕ} (r : EvalRow m) (rs : List (EvalRow m)) : ℕ → Matrix (Fin m) (Fin m) ℝ → Option (Except LErr (Matrix (Fin m) (Fin m) ℝ))
  | 0, _ => none
  | fuel + 1, H =>
    if XR.lt (.fin evalTol) (updateOf H (argmaxFrom (updateOf H) r rs)) then
      if XR.isFinite (updateOf H (argmaxFrom (updateOf H) r rs)) then
        projEvalsLoop r rs fuel (H + finPart (updateOf H (argmaxFrom (updateOf H) r rs)) • outer (argmaxFrom (updateOf H) r rs).1)
      else some (.error .valueError)
    else some (.ok H)

/-- `project_evals(H, X, fX)`, lipschitz_utils.py 151-181. -/
noncomputable def projectEvals {m : ℕ} (fuel : ℕ) (H : Matrix (Fin m) (Fin m) ℝ) (data : List (Pt m × ℝ)) : Option (Except LErr (Matrix (Fin m) (Fin m) ℝ)) :=
  if data.length = 0 then some (.ok H) else
  match evalRows data with
  | [] => some (.error .valueError)
  | r :: rs => projEvalsLoop r rs fuel H

/-- `dist_grad_constraints(H, grads)[k]`: supposed to be the smallest eigenvalue of `H - g gᵀ`. -/
abbrev MinEigFn (m : ℕ) := Matrix (Fin m) (Fin m) ℝ → Pt m → ℝ

open Classical in
/-- `np.nanargmin` over the gradients. -/
noncomputable def argminFrom {α : Type*} (f : α → ℝ) (best : α) : List α → α
  | [] => best
  | a :: l => if f a < f best then argminFrom f a l else argminFrom f best l

/-- `H = np.outer(g, g) + V @ np.diag(np.maximum(0, ew)) @ V.T`, lipschitz_utils.py 209-210. -/
noncomputable def gradUpdate {m : ℕ} (eigh : EighFn m) (H : Matrix (Fin m) (Fin m) ℝ) (g : Pt m) : Matrix (Fin m) (Fin m) ℝ :=
  outer g + (eigh (H - outer g)).2 * (Matrix.diagonal (fun i => max 0 ((eigh (H - outer g)).1 i)) * (eigh (H - outer g)).2ᵀ)

open Classical in
/-- The loop of `project_grads`, lipschitz_utils.py 204-210. -/
noncomputable def projGradsLoop {m : ℕ} (eigh : EighFn m) (dist : MinEigFn m) (g : Pt m) (gs : List (Pt m)) : ℕ → Matrix (Fin m) (Fin m) ℝ → Option (Matrix (Fin m) (Fin m) ℝ)
  | 0, _ => none
  | fuel + 1, H =>
    if 0 ≤ dist H (argminFrom (dist H) g gs) then some H
    else projGradsLoop eigh dist g gs fuel (gradUpdate eigh H (argminFrom (dist H) g gs))

/-- `project_grads(H, grads)`, lipschitz_utils.py 184-212. -/
noncomputable def projectGrads {m : ℕ} (eigh : EighFn m) (dist : MinEigFn m) (fuel : ℕ) (H : Matrix (Fin m) (Fin m) ℝ) : List (Pt m) → Option (Matrix (Fin m) (Fin m) ℝ)
  | [] => some H
  | g :: gs => projGradsLoop eigh dist g gs fuel H

/-- The objective handed to the root finder by `dist_grad_constraints_slow`, lipschitz_utils.py 84-87: `ew` are the eigenvalues of `-H` and `u` is `U.T @ g`. -/
noncomputable def secular {m : ℕ} (ew u : Fin m → ℝ) (lam : ℝ) : ℝ := 1 + ∑ i, u i ^ 2 / (ew i - lam)

end Verif.Lip
