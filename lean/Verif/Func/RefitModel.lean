import Verif.Func.ApproxModel
import Verif.Lipschitz.ApproxModel
import Verif.Lipschitz.FitModel
import Verif.Misc.ActiveModel

/-!
# Model of fitted objects as python objects: the attributes after a sequence of fits

Sources: `/repo/psdr/poly.py` 77-82, 148-171 (`PolynomialApproximation`); `/repo/psdr/polyridge.py` 50-60, 299-305, 396-443
(`PolynomialRidgeApproximation.fit_fixed_subspace`); `/repo/psdr/lipschitz_approx.py` 46-72 (`LipschitzApproximation`);
`/repo/psdr/lipschitz.py` 108-178, 610-643 (`LipschitzMatrix`, `LipschitzConstant`); `/repo/psdr/subspace.py` 225-231, 308-337
(`ActiveSubspace`).

The values computed by a successful fit are those of the models of these methods (`approxFit`, `finish`, `lipFit`, `constantFit`, `asFit`);
here attributes are assigned in the order of the code, and an exception keeps the assignments made before it.
-/

namespace Verif.Refit

open Verif Verif.Domain Verif.Basis Verif.Lip Matrix

/-- An object that is fitted to data: attributes, constructor, `fit` (the outcome and the new attributes), questions. -/
structure Est (σ D ε Q A : Type) where
  init : σ
  fit : D → σ → Except ε Unit × σ
  ask : σ → Q → A

/-- The attributes after a sequence of fits whose exceptions are caught. -/
def Est.after {σ D ε Q A : Type} (E : Est σ D ε Q A) (ds : List D) : σ := ds.foldl (fun s d => (E.fit d s).2) E.init

/-- What evaluation gives: an exception, `nan` (a basis scaled by zero), or a value. -/
inductive Ans where
  | raised
  | nan
  | val (r : ℝ)

/-! ## `PolynomialApproximation` -/

/-- Samples and values, possibly of different numbers. -/
structure PData (m : ℕ) where
  M : ℕ
  X : Fin M → Pt m
  fX : List ℝ

/-- The attributes `basis` (`some none`: scaled by zero) and `coef`. -/
structure PState (m N : ℕ) where
  basis : Option (Option (Func.BasisObj m N)) := none
  coef : Option (Pt N) := none

/-- `fit(X, fX)`, poly.py 148-171.  Without samples the scaling of a tensor basis raises in the constructor; otherwise the basis is assigned, and samples
that do not determine it give `nan`, which the solvers reject; unequal numbers are rejected by the solvers (cvxpy takes a single value for all samples: not
modelled). -/
noncomputable def polyFit (S : Func.FitSolver) (o : Func.ApproxOpts) {m : ℕ} (d : PData m) (s : PState m (indexSet o.degree m).length) :
    Except Err Unit × PState m (indexSet o.degree m).length :=
  if d.M = 0 ∧ o.basis ≠ .arnoldi then (.error .valueError, s)
  else match Func.basisFor o.basis o.degree d.X with
    | .error e => (.error e, { s with basis := some none })
    | .ok B =>
      if h : d.fX.length = d.M then
        match Func.linearFit S (Matrix.of fun i => B.V (d.X i)) (fun i => d.fX.get (Fin.cast h.symm i)) o.norm o.bound with
        | .error e => (.error e, { s with basis := some (some B) })
        | .ok c => (.ok (), { basis := some (some B), coef := some c })
      else (.error .valueError, { s with basis := some (some B) })

/-- `eval(x)`, poly.py 77-81. -/
def polyAsk {m N : ℕ} (s : PState m N) (x : Pt m) : Ans :=
  match s.basis, s.coef with
  | some (some B), some c => .val (Func.polyEval B c x)
  | some none, some _ => .nan
  | _, _ => .raised

noncomputable def polyEst (S : Func.FitSolver) (o : Func.ApproxOpts) (m : ℕ) : Est (PState m (indexSet o.degree m).length) (PData m) Err (Pt m) Ans :=
  ⟨{}, polyFit S o, polyAsk⟩

/-! ## `PolynomialRidgeApproximation.fit_fixed_subspace` -/

/-- Samples, values and the subspace (of the right shape). -/
structure RData (m n : ℕ) where
  M : ℕ
  X : Fin M → Pt m
  fX : List ℝ
  U : Matrix (Fin m) (Fin n) ℝ

/-- The attributes `basis`, `coef` and `_U`. -/
structure RState (m n N : ℕ) where
  basis : Option (Func.BasisObj n N) := none
  coef : Option (Pt N) := none
  U : Option (Matrix (Fin m) (Fin n) ℝ) := none

/-- The options of the object and the routines it uses. -/
structure RidgeEnv (n N : ℕ) where
  S : Func.FitSolver
  basisOf : (M : ℕ) → (Fin M → Pt n) → Func.BasisObj n N
  svdU : (M : ℕ) → (Fin M → Pt n) → Matrix (Fin n) (Fin n) ℝ
  norm : Func.PNorm
  bound : Func.Bound
  rotate : Bool

variable {m n N : ℕ}

/-- `_fit_coef`, polyridge.py 396-416: the basis is assigned before the solver runs; the solver rejects unequal numbers. -/
def coefStep (E : RidgeEnv n N) (d : RData m n) (U : Matrix (Fin m) (Fin n) ℝ) (s : RState m n N) : Except Err (Func.BasisObj n N × Pt N) × RState m n N :=
  (if h : d.fX.length = d.M then Func.fitCoef E.S (E.basisOf d.M) E.norm E.bound d.X (fun i => d.fX.get (Fin.cast h.symm i)) U else .error .valueError,
    { s with basis := some (E.basisOf d.M fun i => Func.projY U (d.X i)) })

/-- Step 1 of `_finish`, 425-434. -/
def rotateStep (E : RidgeEnv n N) (d : RData m n) (s : RState m n N) : Except Err (Matrix (Fin m) (Fin n) ℝ) × RState m n N :=
  if 1 < n ∧ E.rotate = true then
    match coefStep E d d.U { s with U := some d.U } with
    | (.error e, s1) => (.error e, s1)
    | (.ok bc, s1) =>
      let U1 := d.U * E.svdU d.M (fun i => Func.polyGrad bc.1 bc.2 (Func.projY d.U (d.X i)))
      (.ok U1, { s1 with coef := some bc.2, U := some U1 })
  else (.ok d.U, { s with U := some d.U })

/-- Step 2 of `_finish`, 437-440. -/
noncomputable def signStep (E : RidgeEnv n N) (d : RData m n) (U : Matrix (Fin m) (Fin n) ℝ) (s : RState m n N) :
    Except Err (Matrix (Fin m) (Fin n) ℝ) × RState m n N :=
  if E.rotate = true then
    match coefStep E d U s with
    | (.error e, s1) => (.error e, s1)
    | (.ok bc, s1) =>
      let U2 := U * Matrix.diagonal (fun k => Func.sgn (Func.meanGrad (fun i => Func.polyGrad bc.1 bc.2 (Func.projY d.U (d.X i))) k))
      (.ok U2, { s1 with coef := some bc.2, U := some U2 })
  else (.ok U, s)

/-- `fit_fixed_subspace(X, fX, U)`, polyridge.py 299-305, 418-443. -/
noncomputable def ridgeFit (E : RidgeEnv n N) (d : RData m n) (s : RState m n N) : Except Err Unit × RState m n N :=
  match rotateStep E d s with
  | (.error e, s1) => (.error e, s1)
  | (.ok U1, s1) =>
    match signStep E d U1 s1 with
    | (.error e, s2) => (.error e, s2)
    | (.ok U2, s2) =>
      match coefStep E d U2 s2 with
      | (.error e, s3) => (.error e, s3)
      | (.ok bc, s3) => (.ok (), { s3 with coef := some bc.2 })

/-- `eval(x)`, polyridge.py 50-60. -/
def ridgeAsk (s : RState m n N) (x : Pt m) : Ans :=
  match s.basis, s.coef, s.U with
  | some B, some c, some U => .val (Func.Ridge.eval ⟨B, c, U⟩ x)
  | _, _, _ => .raised

noncomputable def ridgeEst (E : RidgeEnv n N) (m : ℕ) : Est (RState m n N) (RData m n) Err (Pt m) Ans := ⟨{}, ridgeFit E, ridgeAsk⟩

/-! ## `LipschitzApproximation` -/

/-- The attributes `_X`, `_y` and `epsilon`. -/
structure LState (m : ℕ) where
  X : Option (List (Pt m)) := none
  y : Option (List ℝ) := none
  epsilon : Option ℝ := none

/-- Samples and values, possibly of different numbers. -/
structure LData (m : ℕ) where
  M : ℕ
  M' : ℕ
  X : Fin M → Pt m
  fX : Pt M'

open Classical in
/-- `fit(X, fX)`, lipschitz_approx.py 58-66: the samples are assigned before they are checked; if the solver fails, `_y` is `None`. -/
noncomputable def lipApproxFit {k m : ℕ} (sol : CompatSolver k m) (p : Func.PNorm) (L : Matrix (Fin k) (Fin m) ℝ) (inside : Pt m → Prop) (d : LData m) (s : LState m) :
    Except Err Unit × LState m :=
  let s1 := { s with X := some (List.ofFn d.X) }
  if ¬ ∀ i, inside (d.X i) then (.error .assertion, s1)
  else if h : d.M = d.M' then
    match sol p L d.X (d.fX ∘ Fin.cast h) with
    | none => (.error .typeError, { s1 with y := none })
    | some y =>
      if d.M = 0 then (.error .valueError, { s1 with y := some [] })
      else (.ok (), { s1 with y := some (List.ofFn y), epsilon := some (⨆ i, |y i - d.fX (Fin.cast h i)|) })
  else (.error .assertion, s1)

/-- `eval(x)`, lipschitz_approx.py 68-70: samples and values are paired by `zip` (lipschitz.py 398). -/
noncomputable def lipApproxAsk {k m : ℕ} (L : Matrix (Fin k) (Fin m) ℝ) (s : LState m) (x : Pt m) : Option XR :=
  match s.X, s.y, s.epsilon with
  | some X, some y, some e =>
    let u := uncertainty L (some e) (X.zip y) x
    some (XR.smul (1 / 2) (XR.add u.1 u.2))
  | _, _, _ => none

noncomputable def lipApproxEst {k m : ℕ} (sol : CompatSolver k m) (p : Func.PNorm) (L : Matrix (Fin k) (Fin m) ℝ) (inside : Pt m → Prop) :
    Est (LState m) (LData m) Err (Pt m) (Option XR) := ⟨{}, lipApproxFit sol p L inside, lipApproxAsk L⟩

/-! ## `LipschitzConstant` and `LipschitzMatrix` -/

/-- The arguments of `fit`; the dimension may change from fit to fit. -/
structure MData where
  m : ℕ
  X : Option (List (Pt m))
  fX : Option (List ℝ)
  grads : Option (List (Pt m))

/-- The attributes `_dimension` and `_L` of a `LipschitzConstant`. -/
structure CState where
  dim : ℕ := 1
  L : Option XR := none

/-- `LipschitzConstant.fit`, lipschitz.py 121-157, 619-631: the dimension is assigned first. -/
noncomputable def constFit (epsilon : Option ℝ) (d : MData) (s : CState) : Except LErr Unit × CState :=
  match Lip.initDim d.X d.grads with
  | .error e => (.error e, s)
  | .ok _ =>
    match Lip.constantFit epsilon d.X d.fX d.grads with
    | .error e => (.error e, { s with dim := d.m })
    | .ok L => (.ok (), ⟨d.m, some L⟩)

/-- The property `L`, lipschitz.py 637-639: the entry and the size of the multiple of the identity. -/
def constAsk (s : CState) (_ : Unit) : Option (XR × ℕ) := s.L.map fun L => (L, s.dim)

noncomputable def constEst (epsilon : Option ℝ) : Est CState MData LErr Unit (Option (XR × ℕ)) := ⟨{}, constFit epsilon, constAsk⟩

/-- The attributes `_dimension` and `_U`, `_H`, `_L` of a `LipschitzMatrix`. -/
structure MState where
  dim : Option ℕ := none
  att : Option (Σ m, LipFit m) := none

/-- `LipschitzMatrix.fit`, lipschitz.py 121-178. -/
noncomputable def matFit (build : ∀ m, Build m) (eigh : ∀ m, Lip.EighFn m) (epsilon : Option ℝ) (d : MData) (s : MState) : Except LErr Unit × MState :=
  match Lip.initDim d.X d.grads with
  | .error e => (.error e, s)
  | .ok _ =>
    match lipFit (build d.m) (eigh d.m) epsilon d.X d.fX d.grads with
    | .error e => (.error e, { s with dim := some d.m })
    | .ok f => (.ok (), ⟨some d.m, some ⟨d.m, f⟩⟩)

/-- Questions to a Lipschitz matrix: the properties `U`, `H`, `L`, and `len`. -/
inductive MQuery where
  | attributes
  | len

inductive MAns where
  | attributes (a : Option (Σ m, LipFit m))
  | len (n : Option ℕ)

def matAsk (s : MState) : MQuery → MAns
  | .attributes => .attributes s.att
  | .len => .len s.dim

noncomputable def matEst (build : ∀ m, Build m) (eigh : ∀ m, Lip.EighFn m) (epsilon : Option ℝ) : Est MState MData LErr MQuery MAns :=
  ⟨{}, matFit build eigh epsilon, matAsk⟩

/-! ## `ActiveSubspace` -/

structure AData where
  m : ℕ
  grads : List (Pt m)
  weights : Option (List ℝ)

/-- The attributes `_dimension`, `_grads` and `_U`, `_s`, `_C`. -/
structure AState where
  dim : Option ℕ := none
  grads : Option (Σ m, List (Pt m)) := none
  att : Option (Σ m, Misc.ASState m) := none

/-- `ActiveSubspace.fit(grads, weights)`, subspace.py 322-337. -/
noncomputable def asFit (svd : ∀ m, Misc.SvdFn m) (d : AData) (s : AState) : Except Err Unit × AState :=
  if d.grads = [] then (.error .indexError, s)
  else match Misc.asFit (svd d.m) d.grads d.weights with
    | .error e => (.error e, { s with dim := some d.m, grads := some ⟨d.m, d.grads⟩ })
    | .ok a => (.ok (), ⟨some d.m, some ⟨d.m, d.grads⟩, some ⟨d.m, a⟩⟩)

/-- The properties `U`, `singvals` and `C`, subspace.py 355-365. -/
def asAsk (s : AState) (_ : Unit) : Option (Σ m, Misc.ASState m) := s.att

noncomputable def asEst (svd : ∀ m, Misc.SvdFn m) : Est AState AData Err Unit (Option (Σ m, Misc.ASState m)) := ⟨{}, asFit svd, asAsk⟩

end Verif.Refit
