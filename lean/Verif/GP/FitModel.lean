import Verif.GP.LikModel

/-!
# Model of `fit` as a method of an object

Source: `/repo/psdr/gp.py` 288-363. Without polynomial part (`degree = None`); the state of the object is what `eval` reads. The
optimizer is a parameter. Data of the right width, at least one sample.
-/

namespace Verif.GP

open Verif Verif.Lip Matrix

variable {m : ℕ}

/-- The structures of `L`, gp.py 65-71. -/
inductive Shape (m : ℕ) where
  | const
  | mult (L0 : Matrix (Fin m) (Fin m) ℝ)
  | diag
  | tril

/-- The starting parameter for the argument `L0`, gp.py 331-343 (`L0.flatten()[0]` for the scalar structures). -/
def startEll (s : Shape (m + 1)) (L0 : Matrix (Fin (m + 1)) (Fin (m + 1)) ℝ) : Ell (m + 1) :=
  match s with
  | .const => .const (L0 0 0)
  | .mult Lf => .mult Lf (L0 0 0)
  | .diag => .diag fun i => L0 i i
  | .tril => .tril fun i j => L0 i j

/-- What the object holds: `self.X` and, once fitted, `self.L` and `self.alpha`. -/
structure GPObj (m : ℕ) where
  X : List (Pt m)
  model : Option (Matrix (Fin m) (Fin m) ℝ × List ℝ)

/-- `fit(X, y)`, gp.py 313-363: `self.X` is set first (288-291); values of the wrong number make the linear algebra of the
objective raise ValueError (gp.py 196-201), which leaves `self.L` and `self.alpha` as they were. `none` is an error. -/
noncomputable def GPObj.fit (e : ∀ M, Eighs M 0) (τ : ℝ) (opt : List (Pt m) → List ℝ → Ell m) (o : GPObj m) (X : List (Pt m)) (y : List ℝ) :
    Option Unit × GPObj m :=
  if h : y.length = X.length then
    let f := gpFit (e X.length) τ (fun j => j.elim0) (fun i => X.get i) (fun i => y.get (i.cast h.symm)) (opt X y)
    (some (), ⟨X, some (f.L, List.ofFn f.α)⟩)
  else (none, ⟨X, o.model⟩)

/-- `eval` at one point, gp.py 365-375: raises if nothing was fitted (AttributeError) or the shapes do not match (ValueError). -/
noncomputable def GPObj.eval (o : GPObj m) (x : Pt m) : Option ℝ :=
  match o.model with
  | none => none
  | some (L, α) => if α.length = o.X.length then some ((List.zipWith (fun z a => kern (L *ᵥ x) (L *ᵥ z) * a) o.X α).sum) else none

end Verif.GP
