import Verif.Lipschitz.ParamModel

/-!
# Model of `LipschitzMatrix.fit`, `DiagonalLipschitzMatrix.fit`, `LipschitzConstant.fit` and the sign convention

Sources: `/repo/psdr/lipschitz.py` 108-178, 585-645; `/repo/psdr/subspace.py` 225-277.

The semidefinite solver (`build`) and `scipy.linalg.eigh` are parameters.  Points of the data and gradients have the right dimension by
construction.  An empty `X` stands for an array of shape `(0, m)`.
-/

namespace Verif.Lip

open Verif Matrix

/-- Exceptions. -/
inductive LErr where
  | exception | assertion | indexError | valueError | typeError | solver
  deriving DecidableEq

open Classical in
/-- `np.sign`. -/
noncomputable def npSign (x : ℝ) : ℝ := if 0 < x then 1 else if x < 0 then -1 else 0

/-- `U[:, k]`. -/
def ucol {m n : ℕ} (U : Matrix (Fin m) (Fin n) ℝ) (k : Fin n) : Pt m := fun i => U i k

open Classical in
/-- One term of the sum at subspace.py 266-270. -/
noncomputable def slope {m : ℕ} (u : Pt m) (p : (Pt m × ℝ) × (Pt m × ℝ)) : ℝ :=
  if 0 < |u ⬝ᵥ (p.1.1 - p.2.1)| then (p.1.2 - p.2.2) / (u ⬝ᵥ (p.1.1 - p.2.1)) else 0

/-- `sgn[k]` after the loops at subspace.py 264-270. -/
noncomputable def slopeSum {m : ℕ} (data : List (Pt m × ℝ)) (u : Pt m) : ℝ := ((pairsOf data).map (slope u)).sum

open Classical in
/-- `_fix_subspace_signs_samps`, subspace.py 263-274. -/
noncomputable def fixSamps {m n : ℕ} (U : Matrix (Fin m) (Fin n) ℝ) (data : List (Pt m × ℝ)) : Matrix (Fin m) (Fin n) ℝ :=
  U * Matrix.diagonal (fun k => npSign (if slopeSum data (ucol U k) = 0 then 1 else slopeSum data (ucol U k)))

/-- `np.mean(grads.dot(u))`. -/
noncomputable def meanGrad {m : ℕ} (grads : List (Pt m)) (u : Pt m) : ℝ := (grads.map (fun g => g ⬝ᵥ u)).sum / grads.length

/-- `_fix_subspace_signs_grads`, subspace.py 276-277. -/
noncomputable def fixGrads {m n : ℕ} (U : Matrix (Fin m) (Fin n) ℝ) (grads : List (Pt m)) : Matrix (Fin m) (Fin n) ℝ :=
  U * Matrix.diagonal (fun k => npSign (meanGrad grads (ucol U k)))

/-- `_fix_subspace_signs`, subspace.py 250-261. -/
noncomputable def fixSigns {m n : ℕ} (U : Matrix (Fin m) (Fin n) ℝ) (data : List (Pt m × ℝ)) (grads : List (Pt m)) : Matrix (Fin m) (Fin n) ℝ :=
  if grads.length > 0 then fixGrads U grads else fixSamps U data

/-- `_init_dim`, subspace.py 225-231. -/
def initDim {m : ℕ} (X : Option (List (Pt m))) (grads : Option (List (Pt m))) : Except LErr Unit :=
  match X with
  | some (_ :: _) => .ok ()
  | _ =>
    match grads with
    | some (_ :: _) => .ok ()
    | some [] => .error .indexError
    | none => .error .exception

/-- lipschitz.py 123-136. -/
def pairUp {m : ℕ} (X : Option (List (Pt m))) (fX : Option (List ℝ)) : Except LErr (List (Pt m × ℝ)) :=
  match X, fX with
  | some X, some fX => if fX.length = X.length then .ok (X.zip fX) else .error .assertion
  | none, none => .ok []
  | _, _ => .error .assertion

/-- The checks at the start of `fit`, lipschitz.py 121-141. -/
def prepare {m : ℕ} (X : Option (List (Pt m))) (fX : Option (List ℝ)) (grads : Option (List (Pt m))) :
    Except LErr (List (Pt m × ℝ) × List (Pt m)) :=
  match initDim X grads with
  | .error e => .error e
  | .ok _ =>
    match pairUp X fX with
    | .error e => .error e
    | .ok data => .ok (data, grads.getD [])

/-- Largest element of a nonempty list. -/
noncomputable def lmax (a : ℝ) (l : List ℝ) : ℝ := l.foldl max a
/-- Smallest element of a nonempty list. -/
noncomputable def lmin (a : ℝ) (l : List ℝ) : ℝ := l.foldl min a

/-- `scale1`, lipschitz.py 144-147. -/
noncomputable def scale1 {m : ℕ} : List (Pt m × ℝ) → ℝ
  | [] => 1
  | d :: data => lmax d.2 (data.map Prod.snd) - lmin d.2 (data.map Prod.snd)

/-- `scale2`, lipschitz.py 148-151. -/
noncomputable def scale2 {m : ℕ} : List (Pt m) → ℝ
  | [] => 1
  | g :: grads => lmax (nrm g) (grads.map nrm)

/-- `scale = max(scale1, scale2)`, lipschitz.py 152. -/
noncomputable def fitScale {m : ℕ} (data : List (Pt m × ℝ)) (grads : List (Pt m)) : ℝ := max (scale1 data) (scale2 grads)

/-- `fX/scale` paired with the points. -/
noncomputable def scaleData {m : ℕ} (s : ℝ) (data : List (Pt m × ℝ)) : List (Pt m × ℝ) := data.map (fun d => (d.1, d.2 / s))

/-- `grads/scale`. -/
noncomputable def scaleGrads {m : ℕ} (s : ℝ) (grads : List (Pt m)) : List (Pt m) := grads.map (fun g => s⁻¹ • g)

/-- What the solver of the semidefinite program returns. -/
abbrev Build (m : ℕ) := List (Pt m × ℝ) → List (Pt m) → ℝ → Option (Matrix (Fin m) (Fin m) ℝ)

/-- What `scipy.linalg.eigh` returns: eigenvalues in ascending order and eigenvectors. -/
abbrev EighFn (m : ℕ) := Matrix (Fin m) (Fin m) ℝ → (Fin m → ℝ) × Matrix (Fin m) (Fin m) ℝ

/-- The attributes `_U`, `_H`, `_L`. -/
structure LipFit (m : ℕ) where
  U : Matrix (Fin m) (Fin m) ℝ
  H : Matrix (Fin m) (Fin m) ℝ
  L : Matrix (Fin m) (Fin m) ℝ

/-- lipschitz.py 163-177, after the solver has returned `H`. -/
noncomputable def finishFit {m : ℕ} (eigh : EighFn m) (data : List (Pt m × ℝ)) (grads : List (Pt m)) (s : ℝ) (H : Matrix (Fin m) (Fin m) ℝ) : LipFit m :=
  let ew : Fin m → ℝ := fun i => (eigh H).1 i.rev
  let U0 : Matrix (Fin m) (Fin m) ℝ := Matrix.of (fun i j => (eigh H).2 i j.rev)
  let U := fixSigns U0 (scaleData s data) (scaleGrads s grads)
  { U := U
    H := s ^ 2 • (U * (Matrix.diagonal (fun i => max (ew i) 0) * Uᵀ))
    L := s • (U * (Matrix.diagonal (fun i => Real.sqrt (max (ew i) 0)) * Uᵀ)) }

open Classical in
/-- `LipschitzMatrix.fit`, lipschitz.py 108-178.  A zero scale makes the scaled data undefined (0/0); the solver then fails. -/
noncomputable def lipFit {m : ℕ} (build : Build m) (eigh : EighFn m) (epsilon : Option ℝ) (X : Option (List (Pt m))) (fX : Option (List ℝ))
    (grads : Option (List (Pt m))) : Except LErr (LipFit m) :=
  match prepare X fX grads with
  | .error e => .error e
  | .ok (data, g) =>
    if fitScale data g = 0 then .error .solver else
    match build (scaleData (fitScale data g) data) (scaleGrads (fitScale data g) g) (match epsilon with | some e => e / fitScale data g | none => 0) with
    | none => .error .solver
    | some H => .ok (finishFit eigh data g (fitScale data g) H)

/-- The builder chosen by the argument `method`, lipschitz.py 74-81. -/
inductive Method where
  | cvxopt | param | cvxpy
  deriving DecidableEq

open Classical in
/-- `DiagonalLipschitzMatrix.fit`, lipschitz.py 598-609: the builder is called with the keyword `structure`, which only the cvxopt builder has. -/
noncomputable def diagFit {m : ℕ} (method : Method) (build : Build m) (epsilon : Option ℝ) (X : Option (List (Pt m))) (fX : Option (List ℝ))
    (grads : Option (List (Pt m))) : Except LErr (Matrix (Fin m) (Fin m) ℝ × Matrix (Fin m) (Fin m) ℝ) :=
  match prepare X fX grads with
  | .error e => .error e
  | .ok (data, g) =>
    if method ≠ .cvxopt then .error .typeError else
    if fitScale data g = 0 then .error .solver else
    match build (scaleData (fitScale data g) data) (scaleGrads (fitScale data g) g) (match epsilon with | some e => e / fitScale data g | none => 0) with
    | none => .error .solver
    | some H =>
      .ok (fitScale data g ^ 2 • Matrix.diagonal (fun i => max (H i i) 0), fitScale data g • Matrix.diagonal (fun i => Real.sqrt (max (H i i) 0)))

/-- `(abs(fX[i] - fX[j]) - epsilon) / norm(X[i] - X[j])`, lipschitz.py 623. -/
noncomputable def ratio {m : ℕ} (e : XR) (p : (Pt m × ℝ) × (Pt m × ℝ)) : XR :=
  match XR.sub (.fin |p.1.2 - p.2.2|) e with
  | .fin a => XR.div a (nrm (p.1.1 - p.2.1))
  | r => r

/-- `np.max` of a nonempty list: NaN if an entry is NaN. -/
noncomputable def npMax (a : XR) (l : List XR) : XR := l.foldl XR.max a

open Classical in
/-- Python's `max(a, b)`: `b` only if `b > a`. -/
noncomputable def pyMax2 (a b : XR) : XR := if XR.lt a b then b else a

/-- The sample part of `LipschitzConstant._fit`, lipschitz.py 620-625. -/
noncomputable def constSamp {m : ℕ} (e : XR) (data : List (Pt m × ℝ)) : Except LErr XR :=
  if data.length > 0 then
    match (pairsOf data).map (ratio e) with
    | [] => .error .valueError
    | r :: rs => .ok (pyMax2 (.fin 0) (npMax r rs))
  else .ok (.fin 0)

/-- `LipschitzConstant._fit`, lipschitz.py 619-631: `fX` and `grads` are not scaled but `epsilon` is. -/
noncomputable def constFit {m : ℕ} (e : XR) (data : List (Pt m × ℝ)) (grads : List (Pt m)) : Except LErr XR :=
  match constSamp e data with
  | .error err => .error err
  | .ok L =>
    match grads with
    | [] => .ok L
    | g :: gs => .ok (pyMax2 L (.fin (lmax (nrm g) (gs.map nrm))))

/-- `LipschitzConstant.fit` and the entry `_L`. -/
noncomputable def constantFit {m : ℕ} (epsilon : Option ℝ) (X : Option (List (Pt m))) (fX : Option (List ℝ)) (grads : Option (List (Pt m))) :
    Except LErr XR :=
  match prepare X fX grads with
  | .error e => .error e
  | .ok (data, g) => constFit (match epsilon with | some e => XR.div e (fitScale data g) | none => .fin 0) data g

end Verif.Lip
