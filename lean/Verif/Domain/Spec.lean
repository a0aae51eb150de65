import Verif.Domain.Model

/-!
# Specification vocabulary for the domain properties

These definitions say, index by index, what a user means by "the point satisfies the constraint";
they do not use the model's checking functions.
-/

namespace Verif.Domain

open Verif

/-- The point `x` satisfies every constraint listed in the arguments `a`, up to the tolerance `tol`
(non-strict for bounds, inequalities and quadratics; strict for equalities). -/
structure SatArgs (a : Args) (tol : ℝ) (x : Vec) : Prop where
  lb : ∀ l, a.lb = some l → ∀ (i : ℕ) (r xi : ℝ), l[i]? = some (XR.fin r) → x[i]? = some xi → r - tol ≤ xi
  ub : ∀ u, a.ub = some u → ∀ (i : ℕ) (r xi : ℝ), u[i]? = some (XR.fin r) → x[i]? = some xi → xi ≤ r + tol
  ineq : ∀ A b, a.A = some A → a.b = some b →
    ∀ (i : ℕ) (row : Vec) (bi : ℝ), A[i]? = some row → b[i]? = some bi → Vec.dot row x ≤ bi + tol
  eq : ∀ A b, a.Aeq = some A → a.beq = some b →
    ∀ (i : ℕ) (row : Vec) (bi : ℝ), A[i]? = some row → b[i]? = some bi → |Vec.dot row x - bi| < tol
  quad : ∀ Ls ys rhos, a.Ls = some Ls → a.ys = some ys → a.rhos = some rhos →
    ∀ (i : ℕ) (L : List Vec) (y : Vec) (rho : ℝ), Ls[i]? = some L → ys[i]? = some y → rhos[i]? = some rho →
      Vec.norm (Vec.mulVec L (Vec.sub x y)) ≤ rho + tol

/-- The bounds in the arguments are legitimate: a lower bound is finite or `-inf`, an upper bound is
finite or `+inf`. -/
structure ArgsOk (a : Args) : Prop where
  lb : ∀ l, a.lb = some l → ∀ v ∈ l, v.okLower
  ub : ∀ u, a.ub = some u → ∀ v ∈ u, v.okUpper

/-- The arguments have consistent shapes for an `n`-dimensional domain. -/
structure ArgsShape (n : ℕ) (a : Args) : Prop where
  lb : ∀ l, a.lb = some l → l.length = n
  ub : ∀ u, a.ub = some u → u.length = n
  ineq_both : a.A.isSome = a.b.isSome
  ineq : ∀ A b, a.A = some A → a.b = some b → (∀ r ∈ A, r.length = n) ∧ A.length = b.length
  eq_both : a.Aeq.isSome = a.beq.isSome
  eq : ∀ A b, a.Aeq = some A → a.beq = some b → (∀ r ∈ A, r.length = n) ∧ A.length = b.length
  quad_both : a.Ls.isSome = a.ys.isSome ∧ a.ys.isSome = a.rhos.isSome
  quad : ∀ Ls ys rhos, a.Ls = some Ls → a.ys = some ys → a.rhos = some rhos →
    Ls.length = ys.length ∧ ys.length = rhos.length ∧
    (∀ L ∈ Ls, L ≠ [] ∧ ∀ r ∈ L, r.length = n) ∧ (∀ y ∈ ys, y.length = n) ∧ (∀ r ∈ rhos, 0 < r)

/-- Well-formed constraint data: what the constructors check (`mkLinQuad_wf`), plus legitimate
bounds. -/
structure LQ.WF (d : LQ) : Prop where
  lb_len : d.lb.length = d.n
  ub_len : d.ub.length = d.n
  lb_ok : ∀ v ∈ d.lb, v.okLower
  ub_ok : ∀ v ∈ d.ub, v.okUpper
  A_w : ∀ r ∈ d.A, r.length = d.n
  A_len : d.A.length = d.b.length
  Aeq_w : ∀ r ∈ d.Aeq, r.length = d.n
  Aeq_len : d.Aeq.length = d.beq.length
  Ls_len : d.Ls.length = d.ys.length
  ys_len : d.ys.length = d.rhos.length
  Ls_w : ∀ L ∈ d.Ls, L ≠ [] ∧ ∀ r ∈ L, r.length = d.n
  ys_w : ∀ y ∈ d.ys, y.length = d.n
  rhos_pos : ∀ r ∈ d.rhos, 0 < r

/-- Well-formed domain objects. -/
def Base.WF : Base → Prop
  | .linineq d => d.WF ∧ d.Ls = [] ∧ d.ys = [] ∧ d.rhos = []
  | .hull X d => d.WF ∧ X ≠ [] ∧ ∀ r ∈ X, r.length = d.n
  | b => b.acc.WF

/-- Well-formed domain objects; a tensor product has at least one factor. -/
def Dom.WF : Dom → Prop
  | .base b => b.WF
  | .tensor ds => ds ≠ [] ∧ ∀ b ∈ ds, b.WF

/-- The class decides membership by the constraint properties alone (every class but `PointDomain`,
which compares exactly, and `ConvexHullDomain`). -/
def Base.Plain : Base → Prop
  | .point _ => False
  | .hull _ _ => False
  | _ => True

/-- A plain domain; factors of tensor products must have no quadratic constraints (see
`tensor_export_drops_quadratics`). -/
def Dom.Plain : Dom → Prop
  | .base b => b.Plain
  | .tensor ds => ∀ b ∈ ds, b.Plain ∧ b.acc.Ls = []

end Verif.Domain
