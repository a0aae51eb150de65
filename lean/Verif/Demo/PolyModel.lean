import Verif.Func.FunctionModel

/-!
# Model of the polynomial demo functions

Source: `/repo/psdr/demos/polynomial.py`.  Arrays given by the user are lists (of rows); `randn` is a parameter that returns the drawn vector.
The functions are evaluated through `Function` (Func/FunctionModel).
-/

namespace Verif.Demo

open Verif Verif.Domain Verif.Func

/-- `BoxDomain(-np.ones(m), np.ones(m))`, polynomial.py 31, 71. -/
def cube (m : ℕ) : Dom := .base (.box (List.replicate m (.fin (-1))) (List.replicate m (.fin 1)))

/-- The attributes of an `AffineFunction`. -/
structure AffFun where
  linear : Vec
  constant : ℝ
  dom : Dom

/-- `AffineFunction.__init__`, polynomial.py 15-31; `randn n` are `n` draws of the normal distribution. -/
noncomputable def affInit (randn : ℕ → Vec) (linear : Option Vec) (constant : Option ℝ) (dom : Option Dom) : AffFun :=
  let l := match linear with
    | some l => l
    | none => match dom with
      | some D => randn D.len
      | none => randn 5
  ⟨l, constant.getD 0, dom.getD (cube l.length)⟩

/-- `_func` at one row, polynomial.py 36-37. -/
noncomputable def AffFun.val (F : AffFun) (x : Vec) : ℝ := Vec.dot F.linear x + F.constant

/-- The `Function` of polynomial.py 34: one vectorized function with its gradient (36-40). -/
noncomputable def AffFun.fn (fb : CornerOracle) (F : AffFun) : Fn ℝ where
  funs := [⟨fun x _ => [F.val x], fun X _ => .flat (X.map F.val), fun _ _ => ([], []), fun _ _ => (.flat [], [])⟩]
  grads := some [⟨fun _ _ => [F.linear], fun X _ => X.map fun _ => F.linear⟩]
  fdGrad := false
  vectorized := true
  kw := fun _ => none
  returnGrad := false
  dom := F.dom
  fb := fb

/-- `fun(X)` for points of the length of the domain: `self.linear.dot(X.T)` raises ValueError if the lengths differ. -/
noncomputable def AffFun.eval (fb : CornerOracle) (F : AffFun) (X : In) : Except Err Arr :=
  if F.linear.length = F.dom.len then (F.fn fb).eval X fun _ => none else .error .valueError

/-- `fun.grad(X)`: the product with the derivative of the normalization (function.py 232) raises ValueError if the lengths differ. -/
noncomputable def AffFun.grad (fb : CornerOracle) (F : AffFun) (X : In) : Except Err Grad :=
  if F.linear.length = F.dom.len then (F.fn fb).grad (1 / 10 ^ 7) X fun _ => none else .error .valueError

/-- The attributes of a `QuadraticFunction`; `quad` by rows. -/
structure QuadFun where
  quad : List Vec
  linear : Vec
  constant : ℝ
  dom : Dom


/-- The dimension, polynomial.py 48-56. -/
noncomputable def quadDim (quad : Option (List Vec)) (linear : Option Vec) (dom : Option Dom) : ℕ :=
  match quad with
  | some Q => Q.length
  | none => match linear with
    | some l => l.length
    | none => match dom with
      | some D => D.len
      | none => 5

/-- `np.array(quad).reshape(m,m)` for `m` rows, polynomial.py 59: ValueError unless the rows have `m` entries. -/
def quadArr (m : ℕ) (quad : Option (List Vec)) : Except Err (List Vec) :=
  match quad with
  | some Q => if ∀ r ∈ Q, r.length = m then .ok Q else .error .valueError
  | none => .ok (eyeRows m)

/-- `np.array(linear).reshape(m)`, polynomial.py 63-66. -/
def linArr (m : ℕ) (linear : Option Vec) : Except Err Vec :=
  match linear with
  | some l => if l.length = m then .ok l else .error .valueError
  | none => .ok (List.replicate m 0)

/-- `QuadraticFunction.__init__`, polynomial.py 45-73. -/
noncomputable def quadInit (quad : Option (List Vec)) (linear : Option Vec) (constant : Option ℝ) (dom : Option Dom) : Except Err QuadFun :=
  match quadArr (quadDim quad linear dom) quad with
  | .error e => .error e
  | .ok Q => match linArr (quadDim quad linear dom) linear with
    | .error e => .error e
    | .ok l => .ok ⟨Q, l, constant.getD 0, dom.getD (cube l.length)⟩

/-- One row of `X.dot(self.quad)`: entry `j` is the product of the row with column `j`. -/
noncomputable def rowMul (x : Vec) (Q : List Vec) (m : ℕ) : Vec := (columns m Q).map fun c => Vec.dot x c

/-- `_func` at one row, polynomial.py 75-79. -/
noncomputable def QuadFun.val (F : QuadFun) (x : Vec) : ℝ :=
  (Vec.mul (rowMul x F.quad F.linear.length) x).sum + Vec.dot F.linear x + F.constant

/-- `_func_grad` at one row, polynomial.py 81-82. -/
noncomputable def QuadFun.der (F : QuadFun) (x : Vec) : Vec :=
  Vec.add (Vec.smul 2 (rowMul x F.quad F.linear.length)) F.linear

/-- The `Function` of polynomial.py 73. -/
noncomputable def QuadFun.fn (fb : CornerOracle) (F : QuadFun) : Fn ℝ where
  funs := [⟨fun x _ => [F.val x], fun X _ => .flat (X.map F.val), fun _ _ => ([], []), fun _ _ => (.flat [], [])⟩]
  grads := some [⟨fun x _ => [F.der x], fun X _ => X.map F.der⟩]
  fdGrad := false
  vectorized := true
  kw := fun _ => none
  returnGrad := false
  dom := F.dom
  fb := fb

/-- `fun(X)` for points of the length of the domain: `X.dot(self.quad)` raises ValueError if the lengths differ. -/
noncomputable def QuadFun.eval (fb : CornerOracle) (F : QuadFun) (X : In) : Except Err Arr :=
  if F.linear.length = F.dom.len then (F.fn fb).eval X fun _ => none else .error .valueError

/-- `fun.grad(X)`. -/
noncomputable def QuadFun.grad (fb : CornerOracle) (F : QuadFun) (X : In) : Except Err Grad :=
  if F.linear.length = F.dom.len then (F.fn fb).grad (1 / 10 ^ 7) X fun _ => none else .error .valueError

end Verif.Demo
