import Verif.Domain.Model
import Mathlib.Order.Monotone.Basic

/-!
# Model of the membership test, of sampling in a box and of normalization in rounded arithmetic

Source: `/repo/psdr/domains/euclidean.py` 1081-1148, `/repo/psdr/domains/box.py` 59-75, `/repo/psdr/domains/linquad.py` 254-255.

The other models compute with exact real numbers.  Here every elementary operation is followed by a rounding `rd`, about which only what holds for every rounding mode
of IEEE arithmetic is assumed (`FP`): it is monotone, it leaves numbers of the format alone, and its relative error is at most `u`.  Overflow, underflow and
subnormal numbers are not modelled.  The order in which `np.dot` and `np.sum` add up is not known (it depends on the BLAS library): every order, with or without fused
multiply-add, is allowed (`DotTree`).
-/

namespace Verif.Round

open Verif Verif.Domain

/-- A rounding. -/
structure FP where
  rd : ℝ → ℝ
  u : ℝ
  u_nonneg : 0 ≤ u
  u_lt : u < 1
  err : ∀ t, |rd t - t| ≤ u * |t|
  mono : Monotone rd
  idem : ∀ t, rd (rd t) = rd t

/-- A number of the format. -/
def FP.Float (F : FP) (t : ℝ) : Prop := F.rd t = t

/-- One way of computing an inner product. -/
inductive DotTree where
  /-- a product, rounded -/
  | term (a x : ℝ)
  /-- a sum of two partial results, rounded -/
  | add (l r : DotTree)
  /-- fused multiply-add: a product is added to a partial result with one rounding -/
  | fma (l : DotTree) (a x : ℝ)

/-- The products added up. -/
def DotTree.terms : DotTree → List (ℝ × ℝ)
  | .term a x => [(a, x)]
  | .add l r => l.terms ++ r.terms
  | .fma l a x => l.terms ++ [(a, x)]

/-- The result in rounded arithmetic. -/
noncomputable def DotTree.eval (F : FP) : DotTree → ℝ
  | .term a x => F.rd (a * x)
  | .add l r => F.rd (l.eval F + r.eval F)
  | .fma l a x => F.rd (l.eval F + a * x)

/-- `v` is a possible result of `np.dot(a, x)` for one-dimensional arrays: all products are added up in some order. -/
def Computes (F : FP) (a x : Vec) (v : ℝ) : Prop :=
  (a.zip x = [] ∧ v = 0) ∨ ∃ t : DotTree, t.terms.Perm (a.zip x) ∧ v = t.eval F

/-- What the numerical library does: `A @ x`, and `np.sum(w**2)`. -/
structure Lib where
  mv : List Vec → Vec → Vec
  sq : Vec → ℝ

/-- The contract of the library: each entry of `A @ x` and each sum of squares is computed by rounded products and sums in some order. -/
structure Lib.Ok (F : FP) (lib : Lib) : Prop where
  mv : ∀ A x, List.Forall₂ (fun row v => Computes F row x v) A (lib.mv A x)
  sq : ∀ w, Computes F w w (lib.sq w)

/-- Elementwise difference, rounded. -/
noncomputable def subF (F : FP) (x y : Vec) : Vec := List.zipWith (fun a b => F.rd (a - b)) x y

/-- `_isinside_bounds`, euclidean.py 1116-1129. -/
def inBoundsF (F : FP) (lb ub : List XR) (tol : ℝ) (x : Vec) : Prop :=
  (∀ q ∈ lb.zip x, ∀ r, q.1 = XR.fin r → q.2 ≥ F.rd (r - tol)) ∧
  (∀ q ∈ ub.zip x, ∀ r, q.1 = XR.fin r → q.2 ≤ F.rd (r + tol))

/-- `_isinside_ineq`, euclidean.py 1131-1133. -/
def inIneqF (F : FP) (lib : Lib) (A : List Vec) (b : List ℝ) (tol : ℝ) (x : Vec) : Prop :=
  ∀ q ∈ (lib.mv A x).zip b, q.1 ≤ F.rd (q.2 + tol)

/-- `_isinside_eq`, euclidean.py 1135-1137. -/
def inEqF (F : FP) (lib : Lib) (Aeq : List Vec) (beq : List ℝ) (tol : ℝ) (x : Vec) : Prop :=
  ∀ q ∈ (lib.mv Aeq x).zip beq, |F.rd (q.1 - q.2)| < tol

/-- `_isinside_quad`, euclidean.py 1139-1148. -/
def inQuadF (F : FP) (lib : Lib) (Ls : List (List Vec)) (ys : List Vec) (rhos : List ℝ) (tol : ℝ) (x : Vec) : Prop :=
  ∀ q ∈ Ls.zip (ys.zip rhos), F.rd (Real.sqrt (lib.sq (lib.mv q.1 (subF F x q.2.1)))) ≤ F.rd (q.2.2 + tol)

/-- `LinQuadDomain._isinside`, linquad.py 254-255. -/
def insideF (F : FP) (lib : Lib) (d : LQ) (tol : ℝ) (x : Vec) : Prop :=
  inBoundsF F d.lb d.ub tol x ∧ inIneqF F lib d.A d.b tol x ∧ inEqF F lib d.Aeq d.beq tol x ∧ inQuadF F lib d.Ls d.ys d.rhos tol x

/-! ## Boxes -/

/-- One coordinate of `np.random.uniform(lb, ub)`, box.py 62, for the uniform number `t` of `[0, 1)`: numpy computes `lb + (ub - lb) * t`. -/
noncomputable def uniformF (F : FP) (l h t : ℝ) : ℝ := F.rd (l + F.rd (F.rd (h - l) * t))

/-- `BoxDomain._corner`, box.py 65-72, before the test. -/
noncomputable def cornerF : List ℝ → List ℝ → Vec → Vec
  | l :: ls, h :: hs, p :: ps => (if p ≥ 0 then h else l) :: cornerF ls hs ps
  | _, _, _ => []

/-! ## Normalization with finite bounds -/

/-- One entry of the diagonal of `_normalize_der`, euclidean.py 1081-1087. -/
noncomputable def nslopeF (F : FP) (l h : ℝ) : ℝ := if h ≠ l then F.rd (2 / F.rd (h - l)) else 1

/-- One entry of the diagonal of `_unnormalize_der`, euclidean.py 1089-1093. -/
noncomputable def uslopeF (F : FP) (l h : ℝ) : ℝ := if h ≠ l then F.rd (F.rd (h - l) / 2) else 1

/-- One entry of `_center`, euclidean.py 1095-1099. -/
noncomputable def centerF (F : FP) (l h : ℝ) : ℝ := F.rd (F.rd (l + h) / 2)

/-- `np.diag(s)`. -/
def diagF (s : Vec) : List Vec := (List.range s.length).map fun i => (List.range s.length).map fun j => if j = i then s.getD i 0 else 0

/-- `_normalize`, euclidean.py 1101-1105, for one point. -/
noncomputable def normalizeF (F : FP) (lib : Lib) (lb ub : Vec) (x : Vec) : Vec :=
  lib.mv (diagF (List.zipWith (nslopeF F) lb ub)) (subF F x (List.zipWith (centerF F) lb ub))

/-- `_unnormalize`, euclidean.py 1107-1111, for one point. -/
noncomputable def unnormalizeF (F : FP) (lib : Lib) (lb ub : Vec) (z : Vec) : Vec :=
  List.zipWith (fun a b => F.rd (a + b)) (lib.mv (diagF (List.zipWith (uslopeF F) lb ub)) z) (List.zipWith (centerF F) lb ub)

end Verif.Round
