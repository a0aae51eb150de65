import Mathlib.LinearAlgebra.Matrix.DotProduct
import Mathlib.Analysis.InnerProductSpace.PiL2
import Verif.Base.XR

/-!
# Model of the bounds obtained from a Lipschitz matrix

Source: `/repo/psdr/lipschitz.py` 354-406 (`uncertainty`) and 647-685 (`LowerBound`, `UpperBound`).

Points are functions on `Fin m`, matrices are `Matrix`; exact reals.  Data is a list of pairs of a point and a value.
-/

namespace Verif.Lip

open Verif Matrix

/-- A point. -/
abbrev Pt (m : ℕ) := Fin m → ℝ

/-- The Euclidean norm, as computed by `cdist` and `np.linalg.norm`. -/
noncomputable def nrm {m : ℕ} (v : Pt m) : ℝ := Real.sqrt (v ⬝ᵥ v)

/-- `cdist` between the images of two points under `L`. -/
noncomputable def ldist {k m : ℕ} (L : Matrix (Fin k) (Fin m) ℝ) (x y : Pt m) : ℝ := nrm (L *ᵥ x - L *ᵥ y)

/-- One pass of the loop of `uncertainty`, lipschitz.py 398-401, for one test point. -/
noncomputable def boundStep {k m : ℕ} (L : Matrix (Fin k) (Fin m) ℝ) (x : Pt m) (b : XR × XR) (d : Pt m × ℝ) : XR × XR :=
  (XR.max b.1 (.fin (d.2 - ldist L d.1 x)), XR.min b.2 (.fin (d.2 + ldist L d.1 x)))

/-- `uncertainty(X, fX, Xtest)` at one test point, lipschitz.py 354-406. -/
noncomputable def uncertainty {k m : ℕ} (L : Matrix (Fin k) (Fin m) ℝ) (epsilon : Option ℝ) (data : List (Pt m × ℝ)) (x : Pt m) : XR × XR :=
  match epsilon with
  | none => data.foldl (boundStep L x) (.ninf, .pinf)
  | some e => (XR.sub (data.foldl (boundStep L x) (.ninf, .pinf)).1 (.fin e), XR.add (data.foldl (boundStep L x) (.ninf, .pinf)).2 (.fin e))

/-- `LowerBound.eval(x)`, lipschitz.py 653-656. -/
noncomputable def lowerEval {k m : ℕ} (L : Matrix (Fin k) (Fin m) ℝ) (data : List (Pt m × ℝ)) (x : Pt m) : List ℝ :=
  data.map (fun d => d.2 - nrm (L *ᵥ x - L *ᵥ d.1))

/-- `UpperBound.eval(x)`, lipschitz.py 673-676. -/
noncomputable def upperEval {k m : ℕ} (L : Matrix (Fin k) (Fin m) ℝ) (data : List (Pt m × ℝ)) (x : Pt m) : List ℝ :=
  data.map (fun d => -(d.2 + nrm (L *ᵥ x - L *ᵥ d.1)))

open Classical in
/-- One row of `LowerBound.grad(x)` and of `UpperBound.grad(x)`, lipschitz.py 658-665, 678-685. -/
noncomputable def boundGrad {k m : ℕ} (L : Matrix (Fin k) (Fin m) ℝ) (d : Pt m × ℝ) (x : Pt m) : Pt m :=
  if 0 < nrm (L *ᵥ x - L *ᵥ d.1) then Lᵀ *ᵥ (-((nrm (L *ᵥ x - L *ᵥ d.1))⁻¹ • (L *ᵥ x - L *ᵥ d.1))) else Lᵀ *ᵥ 0

end Verif.Lip
