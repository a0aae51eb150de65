import Verif.Misc.GaussModel
import Verif.Domain.Model
import Mathlib.Analysis.SpecialFunctions.Pow.Real

/-!
# Model of quadrature rules and volumes of domains

Source: `/repo/psdr/domains/euclidean.py` 686-812 (`quadrature_rule`, `volume`). The eigenvalue routine inside `gauss` is a
parameter; membership, samples and the queries of the domain are parameters, so that every class of domain is covered. `N`
is a natural number (`N = int(N)`; for negative `N` the power in line 728 is not a real number). Roundoff in `N**(1./m)` is
not modelled.
-/

namespace Verif.Misc

open Classical Verif.Lip Verif.Domain

/-- A symmetric eigenvalue routine for all sizes. -/
abbrev EighAll := ∀ n, EighFn (n + 1)

/-- All choices of one entry per list, the last varying fastest (`indexing = 'ij'`). -/
def cart {α : Type*} : List (List α) → List (List α)
  | [] => [[]]
  | xs :: rest => xs.flatMap (fun v => (cart rest).map (fun r => v :: r))

/-- Exchange the first two entries. -/
def swap01 {α : Type*} : List α → List α
  | a :: b :: l => b :: a :: l
  | l => l

/-- `np.hstack([X.reshape(-1,1) for X in np.meshgrid(*xs)])`, euclidean.py 752-754 and 757-758: with the default indexing of
`meshgrid` the second coordinate varies slowest. -/
def mesh {α : Type*} (xs : List (List α)) : List (List α) := (cart (swap01 xs)).map swap01

/-- `gauss(qs[i], norm_lb[i], norm_ub[i])`, euclidean.py 748 (one point for `qs[i] = 0`, quadrature.py 35). -/
noncomputable def axisX (eigh : EighAll) (q : ℕ) (a b : ℝ) : List ℝ := List.ofFn (gauss (q - 1) a b (eigh (q - 1))).1

noncomputable def axisW (eigh : EighAll) (q : ℕ) (a b : ℝ) : List ℝ := List.ofFn (gauss (q - 1) a b (eigh (q - 1))).2

/-- The domain as `quadrature_rule` sees it: `norm_lb`, `norm_ub`, `isinside`, `sample`, `volume`, `is_point`,
`is_unbounded`, `len(A_eq) > 0`, a truncated normal domain. -/
structure QDom where
  lo : Vec
  hi : Vec
  inside : Vec → Prop
  sample : ℕ → Except Err (List Vec)
  vol : ℝ
  isPoint : Bool
  isUnbounded : Bool
  hasEq : Bool
  truncNormal : Bool

/-- The local function `quad(qs)` with all `qs[i] = q`, euclidean.py 743-766. -/
noncomputable def quadPts (eigh : EighAll) (D : QDom) (q : ℕ) : List (Vec × ℝ) :=
  ((mesh (List.zipWith (axisX eigh q) D.lo D.hi)).zip ((mesh (List.zipWith (axisW eigh q) D.lo D.hi)).map List.prod)).filter
    (fun p => decide (D.inside p.1))

/-- The loop in euclidean.py 778-786; `none` if it is still running after the given number of rounds. -/
noncomputable def quadLoop (eigh : EighAll) (D : QDom) (N : ℕ) : ℕ → ℕ → List (Vec × ℝ) → Option (List (Vec × ℝ))
  | 0, _, _ => none
  | fuel + 1, q, R =>
    let new := quadPts eigh D (q + 1)
    if new.length ≤ N then quadLoop eigh D N fuel (q + 1) new else some R

/-- The Gauss branch, euclidean.py 741-788. -/
noncomputable def quadGauss (eigh : EighAll) (D : QDom) (N q fuel : ℕ) : Option (List (Vec × ℝ)) :=
  let R := quadPts eigh D q
  if q ^ D.lo.length = R.length then some R else quadLoop eigh D N fuel q R

/-- The Monte-Carlo branch, euclidean.py 790-799; `1./N` raises for `N = 0`. -/
noncomputable def quadMC (D : QDom) (N : ℕ) : Except Err (List Vec × List ℝ) :=
  if N = 0 then .error .zeroDivision
  else do
    let X ← D.sample N
    pure (X, List.replicate N (1 / (N : ℝ) * D.vol))

inductive QMethod where
  | auto
  | gauss
  | montecarlo
  | other
  deriving DecidableEq

/-- Line 728: `q = int(np.floor(N**(1./len(self))))`. -/
noncomputable def quadQ (N m : ℕ) : ℕ := ⌊(N : ℝ) ^ (1 / (m : ℝ))⌋₊

/-- Lines 729-739: the method that is used. -/
noncomputable def quadMethod (D : QDom) (N : ℕ) (method : QMethod) : QMethod :=
  let m1 := if method = .auto then (if 1 < quadQ N D.lo.length then QMethod.gauss else .montecarlo) else method
  let m2 := if D.isUnbounded then .montecarlo else m1
  if D.hasEq ∧ m2 = .gauss then .montecarlo else m2

/-- `quadrature_rule(N, method)`, euclidean.py 686-799: points and weights. The outer `none`: not finished after `fuel`
rounds of the loop; the inner `none`: the value `None` that is returned for other methods. -/
noncomputable def quadRule (eigh : EighAll) (D : QDom) (N : ℕ) (method : QMethod) (fuel : ℕ) :
    Option (Except Err (Option (List Vec × List ℝ))) :=
  if D.truncNormal then some (.error .notImplemented)
  else if D.isPoint then some ((D.sample 1).map fun X => some (X, [1]))
  else match quadMethod D N method with
    | .gauss => (quadGauss eigh D N (quadQ N D.lo.length) fuel).map fun R => .ok (some (R.map Prod.fst, R.map Prod.snd))
    | .montecarlo => some ((quadMC D N).map some)
    | _ => some (.ok none)

/-- `volume()` of a box, euclidean.py 803-805. -/
noncomputable def boxVolume (lb ub : Vec) : ℝ := (List.zipWith (fun l u => u - l) lb ub).prod

/-- `volume(N)` of another domain, euclidean.py 807-810, from the uniform samples of the normalization box. -/
noncomputable def mcVolume (lo hi : Vec) (inside : Vec → Prop) (Xt : List Vec) : ℝ :=
  boxVolume lo hi * (((Xt.filter fun x => decide (inside x)).length : ℝ) / Xt.length)

/-- What a rule assigns to a function. -/
noncomputable def applyRule (X : List Vec) (w : List ℝ) (f : Vec → ℝ) : ℝ := (List.zipWith (fun x c => c * f x) X w).sum

/-- A bounded box domain, as `BoxDomain(lb, ub)` presents itself. -/
noncomputable def boxQ (nnls : NNLS) (TOL : ℝ) (lb ub : Vec) (sample : ℕ → Except Err (List Vec)) (isPoint : Bool) : QDom where
  lo := lb
  hi := ub
  inside := fun x => (Dom.base (.box (lb.map XR.fin) (ub.map XR.fin))).isInside nnls TOL x
  sample := sample
  vol := boxVolume lb ub
  isPoint := isPoint
  isUnbounded := false
  hasEq := false
  truncNormal := false

end Verif.Misc
