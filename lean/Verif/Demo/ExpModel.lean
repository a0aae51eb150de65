import Mathlib.Analysis.SpecialFunctions.Pow.Real
import Mathlib.Analysis.SpecialFunctions.Trigonometric.Basic
import Mathlib.Analysis.Complex.Trigonometric

/-!
# The demo functions as the expressions numpy evaluates

The definitions below the line "translated" are written by `tools/demoexp.py` from the syntax trees of
the python sources in /repo/psdr/demos; they are not edited by hand.  Local variables of the python
functions are replaced by their right-hand sides, `x3` of the gear box by its constant 17 (golinski.py
`expand_variables`), the beam parameters by their defaults (beam.py 6-12), `ell` and `mu0` by 1.  Reshaping
of the input (`atleast_2d`, `flatten`, the final `[0]`) is dropped: an expression is evaluated at one point.

`Exp.eval` is the meaning numpy gives an expression in exact arithmetic: `none` where numpy issues a
`RuntimeWarning` and returns `nan` or `inf`: division by zero, the logarithm of a number that is not
positive, the square root of a negative number, a fractional power of a number that is not positive, the
tangent where the cosine vanishes.  (`0 ** 0.5` is 0 in numpy; `eval` is stricter.)  Overflow of floating
point numbers is not modelled.
-/

namespace Verif.Demo

/-- Expressions in `n` variables as written in the demos. -/
inductive Exp (n : ℕ) : Type
  | c (r : ℝ)
  | x (i : Fin n)
  | add (a b : Exp n)
  | sub (a b : Exp n)
  | mul (a b : Exp n)
  | div (a b : Exp n)
  | neg (a : Exp n)
  | npow (a : Exp n) (k : ℕ)
  | rpow (a : Exp n) (r : ℝ)
  | sqrt (a : Exp n)
  | log (a : Exp n)
  | cos (a : Exp n)
  | sin (a : Exp n)
  | tan (a : Exp n)
  | tanh (a : Exp n)
  | sinh (a : Exp n)

namespace Exp

variable {n : ℕ}

noncomputable instance : Add (Exp n) := ⟨add⟩
noncomputable instance : Sub (Exp n) := ⟨sub⟩
noncomputable instance : Mul (Exp n) := ⟨mul⟩
noncomputable instance : Div (Exp n) := ⟨div⟩
noncomputable instance : Neg (Exp n) := ⟨neg⟩
noncomputable instance : Pow (Exp n) ℕ := ⟨npow⟩
noncomputable instance {k : ℕ} [OfNat ℝ k] : OfNat (Exp n) k := ⟨c (OfNat.ofNat k)⟩
noncomputable instance : OfScientific (Exp n) := ⟨fun m s e => c (OfScientific.ofScientific m s e)⟩

/-- `np.pi`. -/
noncomputable def pi : Exp n := c Real.pi

open Classical in
/-- Evaluation at a point; `none` where numpy returns `nan` or `inf`. -/
noncomputable def eval : Exp n → (Fin n → ℝ) → Option ℝ
  | c r, _ => some r
  | x i, v => some (v i)
  | add a b, v => (a.eval v).bind fun p => (b.eval v).bind fun q => some (p + q)
  | sub a b, v => (a.eval v).bind fun p => (b.eval v).bind fun q => some (p - q)
  | mul a b, v => (a.eval v).bind fun p => (b.eval v).bind fun q => some (p * q)
  | div a b, v => (a.eval v).bind fun p => (b.eval v).bind fun q => if q = 0 then none else some (p / q)
  | neg a, v => (a.eval v).bind fun p => some (-p)
  | npow a k, v => (a.eval v).bind fun p => some (p ^ k)
  | rpow a r, v => (a.eval v).bind fun p => if p ≤ 0 then none else some (p ^ r)
  | sqrt a, v => (a.eval v).bind fun p => if p < 0 then none else some (Real.sqrt p)
  | log a, v => (a.eval v).bind fun p => if p ≤ 0 then none else some (Real.log p)
  | cos a, v => (a.eval v).bind fun p => some (Real.cos p)
  | sin a, v => (a.eval v).bind fun p => some (Real.sin p)
  | tan a, v => (a.eval v).bind fun p => if Real.cos p = 0 then none else some (Real.tan p)
  | tanh a, v => (a.eval v).bind fun p => some (Real.tanh p)
  | sinh a, v => (a.eval v).bind fun p => some (Real.sinh p)

end Exp

/-- A list of expressions (`np.vstack([...]).T`, `np.array([...]).T`) at one point: one row of the array,
or `none` if an entry is not a number. -/
noncomputable def evalAll {n : ℕ} (l : List (Exp n)) (v : Fin n → ℝ) : Option (List ℝ) :=
  l.mapM fun e => e.eval v

open Exp (pi)

set_option linter.unusedVariables false
set_option maxHeartbeats 1600000

/-! ### Translated -/

/-- `otl_circuit`, otl_circuit.py 63-77. -/
noncomputable def otlE : Exp 6 :=
  (fun Rb1 Rb2 Rf Rc1 Rc2 beta : Exp 6 =>
    (12*Rb2/(Rb1 + Rb2) + 0.74)*beta*(Rc2 + 9)/(beta*(Rc2 + 9) + Rf) + 11.35*Rf/(beta*(Rc2 + 9) + Rf) + 0.74*Rf*beta*(Rc2 + 9)/((beta*(Rc2 + 9) + Rf)*Rc1)) (.x 0) (.x 1) (.x 2) (.x 3) (.x 4) (.x 5)

/-- `otl_circuit_grad`, otl_circuit.py 79-96. -/
noncomputable def otlGradE : List (Exp 6) :=
  (fun Rb1 Rb2 Rf Rc1 Rc2 beta : Exp 6 =>
    [(-12)*Rb2*beta*(Rc2 + 9)/((Rb1 + Rb2)^2*(Rf + beta*(Rc2 + 9))),
      12*Rb1*beta*(Rc2 + 9)/((Rb1 + Rb2)^2*(Rf + beta*(Rc2 + 9))),
      ((-11.35)*Rc1*Rf*(Rb1 + Rb2) - Rc1*beta*(0.74*Rb1 + 12.74*Rb2)*(Rc2 + 9) + 11.35*Rc1*(Rb1 + Rb2)*(Rf + beta*(Rc2 + 9)) - 0.74*Rf*beta*(Rb1 + Rb2)*(Rc2 + 9) + 0.74*beta*(Rb1 + Rb2)*(Rc2 + 9)*(Rf + beta*(Rc2 + 9)))/(Rc1*(Rb1 + Rb2)*(Rf + beta*(Rc2 + 9))^2),
      (-0.74)*Rf*beta*(Rc2 + 9)/(Rc1^2*(Rf + beta*(Rc2 + 9))),
      beta*((-11.35)*Rc1*Rf*(Rb1 + Rb2) - Rc1*beta*(0.74*Rb1 + 12.74*Rb2)*(Rc2 + 9) + Rc1*(0.74*Rb1 + 12.74*Rb2)*(Rf + beta*(Rc2 + 9)) - 0.74*Rf*beta*(Rb1 + Rb2)*(Rc2 + 9) + 0.74*Rf*(Rb1 + Rb2)*(Rf + beta*(Rc2 + 9)))/(Rc1*(Rb1 + Rb2)*(Rf + beta*(Rc2 + 9))^2),
      (Rc2 + 9)*((-11.35)*Rc1*Rf*(Rb1 + Rb2) - Rc1*beta*(0.74*Rb1 + 12.74*Rb2)*(Rc2 + 9) + Rc1*(0.74*Rb1 + 12.74*Rb2)*(Rf + beta*(Rc2 + 9)) - 0.74*Rf*beta*(Rb1 + Rb2)*(Rc2 + 9) + 0.74*Rf*(Rb1 + Rb2)*(Rf + beta*(Rc2 + 9)))/(Rc1*(Rb1 + Rb2)*(Rf + beta*(Rc2 + 9))^2)]) (.x 0) (.x 1) (.x 2) (.x 3) (.x 4) (.x 5)

/-- `borehole`, borehole.py 109-138. -/
noncomputable def boreholeE : Exp 8 :=
  (fun r_w r T_u H_u T_l H_l L K_w : Exp 8 =>
    2*pi*T_u*(H_u - H_l)/(Exp.log (r/r_w)*(1 + 2*L*T_u/(Exp.log (r/r_w)*r_w^2*K_w) + T_u/T_l))) (.x 0) (.x 1) (.x 2) (.x 3) (.x 4) (.x 5) (.x 6) (.x 7)

/-- `borehole_grad`, borehole.py 140-179. -/
noncomputable def boreholeGradE : List (Exp 8) :=
  (fun r_w r T_u H_u T_l H_l L K_w : Exp 8 =>
    [(-2)*pi*K_w*T_l*T_u*r_w*(H_l - H_u)*(K_w*T_l*r_w^2*Exp.log (r/r_w) + K_w*T_u*r_w^2*Exp.log (r/r_w) + 2*L*T_l*T_u*(2*Exp.log (r/r_w) - 1) + 2*L*T_l*T_u)/((K_w*T_l*r_w^2*Exp.log (r/r_w) + K_w*T_u*r_w^2*Exp.log (r/r_w) + 2*L*T_l*T_u)^2*Exp.log (r/r_w)),
      2*pi*K_w^2*T_l*T_u*r_w^4*(H_l - H_u)*(T_l + T_u)/(r*(K_w*T_l*r_w^2*Exp.log (r/r_w) + K_w*T_u*r_w^2*Exp.log (r/r_w) + 2*L*T_l*T_u)^2),
      2*pi*K_w*T_l*r_w^2*(H_l - H_u)*((-K_w)*T_l*r_w^2*Exp.log (r/r_w) - K_w*T_u*r_w^2*Exp.log (r/r_w) - 2*L*T_l*T_u + T_u*(K_w*r_w^2*Exp.log (r/r_w) + 2*L*T_l))/(K_w*T_l*r_w^2*Exp.log (r/r_w) + K_w*T_u*r_w^2*Exp.log (r/r_w) + 2*L*T_l*T_u)^2,
      2*pi*K_w*T_l*T_u*r_w^2/(K_w*T_l*r_w^2*Exp.log (r/r_w) + K_w*T_u*r_w^2*Exp.log (r/r_w) + 2*L*T_l*T_u),
      (-2)*pi*K_w^2*T_u^2*r_w^4*(H_l - H_u)*Exp.log (r/r_w)/(K_w*T_l*r_w^2*Exp.log (r/r_w) + K_w*T_u*r_w^2*Exp.log (r/r_w) + 2*L*T_l*T_u)^2,
      (-2)*pi*K_w*T_l*T_u*r_w^2/(K_w*T_l*r_w^2*Exp.log (r/r_w) + K_w*T_u*r_w^2*Exp.log (r/r_w) + 2*L*T_l*T_u),
      4*pi*K_w*T_l^2*T_u^2*r_w^2*(H_l - H_u)/(K_w*T_l*r_w^2*Exp.log (r/r_w) + K_w*T_u*r_w^2*Exp.log (r/r_w) + 2*L*T_l*T_u)^2,
      (-4)*pi*L*T_l^2*T_u^2*r_w^2*(H_l - H_u)/(K_w*T_l*r_w^2*Exp.log (r/r_w) + K_w*T_u*r_w^2*Exp.log (r/r_w) + 2*L*T_l*T_u)^2]) (.x 0) (.x 1) (.x 2) (.x 3) (.x 4) (.x 5) (.x 6) (.x 7)

/-- `robot_arm`, robot_arm.py 60-80. -/
noncomputable def armE : Exp 8 :=
  (fun th1 th2 th3 th4 L1 L2 L3 L4 : Exp 8 =>
    Exp.sqrt ((L1*Exp.cos th1 + L2*Exp.cos (th1 + th2) + L3*Exp.cos (th1 + th2 + th3) + L4*Exp.cos (th1 + th2 + th3 + th4))^2 + (L1*Exp.sin th1 + L2*Exp.sin (th1 + th2) + L3*Exp.sin (th1 + th2 + th3) + L4*Exp.sin (th1 + th2 + th3 + th4))^2)) (.x 0) (.x 1) (.x 2) (.x 3) (.x 4) (.x 5) (.x 6) (.x 7)

/-- `robot_arm_grad`, robot_arm.py 82-112. -/
noncomputable def armGradE : List (Exp 8) :=
  (fun th1 th2 th3 th4 L1 L2 L3 L4 : Exp 8 =>
    [0*th1,
      (-L1)*(L2*Exp.sin th2 + L3*Exp.sin (th2 + th3) + L4*Exp.sin (th2 + th3 + th4))/Exp.sqrt (L1^2 + 2*L1*L2*Exp.cos th2 + 2*L1*L3*Exp.cos (th2 + th3) + 2*L1*L4*Exp.cos (th2 + th3 + th4) + L2^2 + 2*L2*L3*Exp.cos th3 + 2*L2*L4*Exp.cos (th3 + th4) + L3^2 + 2*L3*L4*Exp.cos th4 + L4^2),
      (-(L1*L3*Exp.sin (th2 + th3) + L1*L4*Exp.sin (th2 + th3 + th4) + L2*L3*Exp.sin th3 + L2*L4*Exp.sin (th3 + th4)))/Exp.sqrt (L1^2 + 2*L1*L2*Exp.cos th2 + 2*L1*L3*Exp.cos (th2 + th3) + 2*L1*L4*Exp.cos (th2 + th3 + th4) + L2^2 + 2*L2*L3*Exp.cos th3 + 2*L2*L4*Exp.cos (th3 + th4) + L3^2 + 2*L3*L4*Exp.cos th4 + L4^2),
      (-L4)*(L1*Exp.sin (th2 + th3 + th4) + L2*Exp.sin (th3 + th4) + L3*Exp.sin th4)/Exp.sqrt (L1^2 + 2*L1*L2*Exp.cos th2 + 2*L1*L3*Exp.cos (th2 + th3) + 2*L1*L4*Exp.cos (th2 + th3 + th4) + L2^2 + 2*L2*L3*Exp.cos th3 + 2*L2*L4*Exp.cos (th3 + th4) + L3^2 + 2*L3*L4*Exp.cos th4 + L4^2),
      (L1 + L2*Exp.cos th2 + L3*Exp.cos (th2 + th3) + L4*Exp.cos (th2 + th3 + th4))/Exp.sqrt (L1^2 + 2*L1*L2*Exp.cos th2 + 2*L1*L3*Exp.cos (th2 + th3) + 2*L1*L4*Exp.cos (th2 + th3 + th4) + L2^2 + 2*L2*L3*Exp.cos th3 + 2*L2*L4*Exp.cos (th3 + th4) + L3^2 + 2*L3*L4*Exp.cos th4 + L4^2),
      (L1*Exp.cos th2 + L2 + L3*Exp.cos th3 + L4*Exp.cos (th3 + th4))/Exp.sqrt (L1^2 + 2*L1*L2*Exp.cos th2 + 2*L1*L3*Exp.cos (th2 + th3) + 2*L1*L4*Exp.cos (th2 + th3 + th4) + L2^2 + 2*L2*L3*Exp.cos th3 + 2*L2*L4*Exp.cos (th3 + th4) + L3^2 + 2*L3*L4*Exp.cos th4 + L4^2),
      (L1*Exp.cos (th2 + th3) + L2*Exp.cos th3 + L3 + L4*Exp.cos th4)/Exp.sqrt (L1^2 + 2*L1*L2*Exp.cos th2 + 2*L1*L3*Exp.cos (th2 + th3) + 2*L1*L4*Exp.cos (th2 + th3 + th4) + L2^2 + 2*L2*L3*Exp.cos th3 + 2*L2*L4*Exp.cos (th3 + th4) + L3^2 + 2*L3*L4*Exp.cos th4 + L4^2),
      (L1*Exp.cos (th2 + th3 + th4) + L2*Exp.cos (th3 + th4) + L3*Exp.cos th4 + L4)/Exp.sqrt (L1^2 + 2*L1*L2*Exp.cos th2 + 2*L1*L3*Exp.cos (th2 + th3) + 2*L1*L4*Exp.cos (th2 + th3 + th4) + L2^2 + 2*L2*L3*Exp.cos th3 + 2*L2*L4*Exp.cos (th3 + th4) + L3^2 + 2*L3*L4*Exp.cos th4 + L4^2)]) (.x 0) (.x 1) (.x 2) (.x 3) (.x 4) (.x 5) (.x 6) (.x 7)

/-- `piston`, piston.py 66-86. -/
noncomputable def pistonE : Exp 7 :=
  (fun M S V0 k P0 Ta T0 : Exp 7 =>
    2*pi*Exp.sqrt (M/(k + S^2*(P0*V0/T0)*(Ta/(S/(2*k)*(Exp.sqrt ((P0*S + 19.62*M - k*V0/S)^2 + 4*k*P0*V0/T0*Ta) - (P0*S + 19.62*M - k*V0/S)))^2)))) (.x 0) (.x 1) (.x 2) (.x 3) (.x 4) (.x 5) (.x 6)

/-- A subexpression that occurs repeatedly in `piston_grad`, piston.py 88-110. -/
noncomputable def pistonGradS0 : Exp 7 :=
  (fun M S V0 k P0 Ta T0 : Exp 7 =>
    4*P0*Ta*V0*k/T0 + (19.62*M + P0*S - V0*k/S)^2) (.x 0) (.x 1) (.x 2) (.x 3) (.x 4) (.x 5) (.x 6)

/-- A subexpression that occurs repeatedly in `piston_grad`, piston.py 88-110. -/
noncomputable def pistonGradS1 : Exp 7 :=
  (fun M S V0 k P0 Ta T0 : Exp 7 =>
    Exp.sqrt pistonGradS0) (.x 0) (.x 1) (.x 2) (.x 3) (.x 4) (.x 5) (.x 6)

/-- A subexpression that occurs repeatedly in `piston_grad`, piston.py 88-110. -/
noncomputable def pistonGradS2 : Exp 7 :=
  (fun M S V0 k P0 Ta T0 : Exp 7 =>
    (-19.62)*M - P0*S + pistonGradS1) (.x 0) (.x 1) (.x 2) (.x 3) (.x 4) (.x 5) (.x 6)

/-- A subexpression that occurs repeatedly in `piston_grad`, piston.py 88-110. -/
noncomputable def pistonGradS3 : Exp 7 :=
  (fun M S V0 k P0 Ta T0 : Exp 7 =>
    pistonGradS2 + V0*k/S) (.x 0) (.x 1) (.x 2) (.x 3) (.x 4) (.x 5) (.x 6)

/-- A subexpression that occurs repeatedly in `piston_grad`, piston.py 88-110. -/
noncomputable def pistonGradS4 : Exp 7 :=
  (fun M S V0 k P0 Ta T0 : Exp 7 =>
    4*P0*Ta*V0*k^2/(T0*pistonGradS3^2) + k) (.x 0) (.x 1) (.x 2) (.x 3) (.x 4) (.x 5) (.x 6)

/-- A subexpression that occurs repeatedly in `piston_grad`, piston.py 88-110. -/
noncomputable def pistonGradS5 : Exp 7 :=
  (fun M S V0 k P0 Ta T0 : Exp 7 =>
    Exp.sqrt (M/pistonGradS4)) (.x 0) (.x 1) (.x 2) (.x 3) (.x 4) (.x 5) (.x 6)

/-- `piston_grad`, piston.py 88-110. -/
noncomputable def pistonGradE : List (Exp 7) :=
  (fun M S V0 k P0 Ta T0 : Exp 7 =>
    [2*pi*pistonGradS5*pistonGradS4*((-2)*M*P0*Ta*V0*k^2*(39.24 - 2*(384.9444*M + 19.62*P0*S - 19.62*V0*k/S)/pistonGradS1)/(T0*pistonGradS4^2*pistonGradS3^3) + 1/(2*pistonGradS4))/M,
      (-4)*pi*P0*Ta*V0*k^2*pistonGradS5*(2*P0 - (2*P0 + 2*V0*k/S^2)*(19.62*M + P0*S - V0*k/S)/pistonGradS1 + 2*V0*k/S^2)/(T0*pistonGradS4*pistonGradS3^3),
      pi*pistonGradS5*((-4)*P0*Ta*V0*k^2*((-2)*(2*P0*Ta*k/T0 - k*(19.62*M + P0*S - V0*k/S)/S)/pistonGradS1 - 2*k/S)/(T0*pistonGradS3^3) - 4*P0*Ta*k^2/(T0*pistonGradS3^2))/pistonGradS4,
      pi*pistonGradS5*((-4)*P0*Ta*V0*k^2*((-2)*(2*P0*Ta*V0/T0 - V0*(19.62*M + P0*S - V0*k/S)/S)/pistonGradS1 - 2*V0/S)/(T0*pistonGradS3^3) - 8*P0*Ta*V0*k/(T0*pistonGradS3^2) - 1)/pistonGradS4,
      pi*pistonGradS5*((-4)*P0*Ta*V0*k^2*(2*S - 2*(S*(19.62*M + P0*S - V0*k/S) + 2*Ta*V0*k/T0)/pistonGradS1)/(T0*pistonGradS3^3) - 4*Ta*V0*k^2/(T0*pistonGradS3^2))/pistonGradS4,
      pi*pistonGradS5*(16*P0^2*Ta*V0^2*k^3/(T0^2*pistonGradS1*pistonGradS3^3) - 4*P0*V0*k^2/(T0*pistonGradS3^2))/pistonGradS4,
      pi*pistonGradS5*((-16)*P0^2*Ta^2*V0^2*k^3/(T0^3*pistonGradS1*pistonGradS3^3) + 4*P0*Ta*V0*k^2/(T0^2*pistonGradS3^2))/pistonGradS4]) (.x 0) (.x 1) (.x 2) (.x 3) (.x 4) (.x 5) (.x 6)

/-- `wing_weight`, wing_weight.py 64-84. -/
noncomputable def wingE : Exp 10 :=
  (fun Sw Wfw A Lam q lam tc Nz Wdg Wp : Exp 10 =>
    0.036*(Exp.rpow Sw 0.758)*(Exp.rpow Wfw 0.0035)*(Exp.rpow (A/(Exp.cos (Lam*(pi/180)))^2) 0.6)*(Exp.rpow q 0.006)*(Exp.rpow lam 0.04)*(Exp.rpow (100*tc/Exp.cos (Lam*(pi/180))) (-0.3))*(Exp.rpow (Nz*Wdg) 0.49) + Sw*Wp) (.x 0) (.x 1) (.x 2) (.x 3) (.x 4) (.x 5) (.x 6) (.x 7) (.x 8) (.x 9)

/-- `wing_weight_grad`, wing_weight.py 86-112. -/
noncomputable def wingGradE : List (Exp 10) :=
  (fun Sw Wfw A Lam q lam tc Nz Wdg Wp : Exp 10 =>
    [0.00685443569430334*(Exp.rpow Sw (-0.242))*(Exp.rpow Wfw 0.0035)*(Exp.rpow lam 0.04)*(Exp.rpow q 0.006)*(Exp.rpow (A/(Exp.cos (Lam*(pi/180)))^2) 0.6)*(Exp.rpow (Nz*Wdg) 0.49)*(Exp.rpow (tc/Exp.cos (Lam*(pi/180))) (-0.3)) + 1.0*Wp,
      3.16497690370207e-5*(Exp.rpow Sw 0.758)*(Exp.rpow Wfw (-0.9965))*(Exp.rpow lam 0.04)*(Exp.rpow q 0.006)*(Exp.rpow (A/(Exp.cos (Lam*(pi/180)))^2) 0.6)*(Exp.rpow (Nz*Wdg) 0.49)*(Exp.rpow (tc/Exp.cos (Lam*(pi/180))) (-0.3)),
      0.00542567469206069*(Exp.rpow Sw 0.758)*(Exp.rpow Wfw 0.0035)*(Exp.rpow lam 0.04)*(Exp.rpow q 0.006)*(Exp.rpow (A/(Exp.cos (Lam*(pi/180)))^2) 0.6)*(Exp.rpow (Nz*Wdg) 0.49)*(Exp.rpow (tc/Exp.cos (Lam*(pi/180))) (-0.3))/A,
      pi/180*0.00813851203809104*(Exp.rpow Sw 0.758)*(Exp.rpow Wfw 0.0035)*(Exp.rpow lam 0.04)*(Exp.rpow q 0.006)*(Exp.rpow (A/(Exp.cos (Lam*(pi/180)))^2) 0.6)*(Exp.rpow (Nz*Wdg) 0.49)*(Exp.rpow (tc/Exp.cos (Lam*(pi/180))) (-0.3))*Exp.tan (Lam*(pi/180)),
      5.42567469206069e-5*(Exp.rpow Sw 0.758)*(Exp.rpow Wfw 0.0035)*(Exp.rpow lam 0.04)*(Exp.rpow q (-0.994))*(Exp.rpow (A/(Exp.cos (Lam*(pi/180)))^2) 0.6)*(Exp.rpow (Nz*Wdg) 0.49)*(Exp.rpow (tc/Exp.cos (Lam*(pi/180))) (-0.3)),
      0.000361711646137379*(Exp.rpow Sw 0.758)*(Exp.rpow Wfw 0.0035)*(Exp.rpow lam (-0.96))*(Exp.rpow q 0.006)*(Exp.rpow (A/(Exp.cos (Lam*(pi/180)))^2) 0.6)*(Exp.rpow (Nz*Wdg) 0.49)*(Exp.rpow (tc/Exp.cos (Lam*(pi/180))) (-0.3)),
      (-0.00271283734603035)*(Exp.rpow Sw 0.758)*(Exp.rpow Wfw 0.0035)*(Exp.rpow lam 0.04)*(Exp.rpow q 0.006)*(Exp.rpow (A/(Exp.cos (Lam*(pi/180)))^2) 0.6)*(Exp.rpow (Nz*Wdg) 0.49)*(Exp.rpow (tc/Exp.cos (Lam*(pi/180))) (-0.3))/tc,
      0.0044309676651829*(Exp.rpow Sw 0.758)*(Exp.rpow Wfw 0.0035)*(Exp.rpow lam 0.04)*(Exp.rpow q 0.006)*(Exp.rpow (A/(Exp.cos (Lam*(pi/180)))^2) 0.6)*(Exp.rpow (Nz*Wdg) 0.49)*(Exp.rpow (tc/Exp.cos (Lam*(pi/180))) (-0.3))/Nz,
      0.0044309676651829*(Exp.rpow Sw 0.758)*(Exp.rpow Wfw 0.0035)*(Exp.rpow lam 0.04)*(Exp.rpow q 0.006)*(Exp.rpow (A/(Exp.cos (Lam*(pi/180)))^2) 0.6)*(Exp.rpow (Nz*Wdg) 0.49)*(Exp.rpow (tc/Exp.cos (Lam*(pi/180))) (-0.3))/Wdg,
      Sw]) (.x 0) (.x 1) (.x 2) (.x 3) (.x 4) (.x 5) (.x 6) (.x 7) (.x 8) (.x 9)

/-- `u_ave`, hartmann.py 44-54. -/
noncomputable def uAveE : Exp 4 :=
  (fun mu dpdx eta B0 : Exp 4 =>
    (-dpdx)*eta/B0^2*(1 - B0*1/Exp.sqrt (eta*mu)/Exp.tanh (B0*1/Exp.sqrt (eta*mu)))) (.x 0) (.x 1) (.x 2) (.x 3)

/-- `u_ave_grad`, hartmann.py 56-69. -/
noncomputable def uAveGradE : List (Exp 4) :=
  (fun mu dpdx eta B0 : Exp 4 =>
    [(-dpdx)*eta*((-B0^2)*1^2*1/(eta*mu)/(2*mu*(Exp.sinh (B0*1/Exp.sqrt (eta*mu)))^2) + B0*1/Exp.tanh (B0*1/Exp.sqrt (eta*mu))/(2*mu*Exp.sqrt (eta*mu)))/B0^2,
      (-eta)*((-B0)*1/Exp.tanh (B0*1/Exp.sqrt (eta*mu))/Exp.sqrt (eta*mu) + 1)/B0^2,
      (-dpdx)*eta*((-B0^2)*1^2*1/(eta*mu)/(2*eta*(Exp.sinh (B0*1/Exp.sqrt (eta*mu)))^2) + B0*1/Exp.tanh (B0*1/Exp.sqrt (eta*mu))/(2*eta*Exp.sqrt (eta*mu)))/B0^2 - dpdx*((-B0)*1/Exp.tanh (B0*1/Exp.sqrt (eta*mu))/Exp.sqrt (eta*mu) + 1)/B0^2,
      (-dpdx)*eta*(B0*1^2*(1/(eta*mu))/(Exp.sinh (B0*1/Exp.sqrt (eta*mu)))^2 - 1/Exp.tanh (B0*1/Exp.sqrt (eta*mu))/Exp.sqrt (eta*mu))/B0^2 + 2*dpdx*eta*((-B0)*1/Exp.tanh (B0*1/Exp.sqrt (eta*mu))/Exp.sqrt (eta*mu) + 1)/B0^3]) (.x 0) (.x 1) (.x 2) (.x 3)

/-- `Bind`, hartmann.py 72-81. -/
noncomputable def bindE : Exp 4 :=
  (fun mu dpdx eta B0 : Exp 4 =>
    dpdx*(1*1/(2*B0))*(1 - 2*Exp.sqrt (eta*mu)/(B0*1)*Exp.tanh (B0*1/(2*Exp.sqrt (eta*mu))))) (.x 0) (.x 1) (.x 2) (.x 3)

/-- `Bind_grad`, hartmann.py 84-98. -/
noncomputable def bindGradE : List (Exp 4) :=
  (fun mu dpdx eta B0 : Exp 4 =>
    [dpdx*1*1*(((-(Exp.tanh (B0*1/(2*Exp.sqrt (eta*mu))))^2) + 1)/(2*mu) - Exp.sqrt (eta*mu)*Exp.tanh (B0*1/(2*Exp.sqrt (eta*mu)))/(B0*1*mu))/(2*B0),
      1*1*(1 - 2*Exp.sqrt (eta*mu)*Exp.tanh (B0*1/(2*Exp.sqrt (eta*mu)))/(B0*1))/(2*B0),
      dpdx*1*1*(((-(Exp.tanh (B0*1/(2*Exp.sqrt (eta*mu))))^2) + 1)/(2*eta) - Exp.sqrt (eta*mu)*Exp.tanh (B0*1/(2*Exp.sqrt (eta*mu)))/(B0*1*eta))/(2*B0),
      dpdx*1*1*((-((-(Exp.tanh (B0*1/(2*Exp.sqrt (eta*mu))))^2) + 1))/B0 + 2*Exp.sqrt (eta*mu)*Exp.tanh (B0*1/(2*Exp.sqrt (eta*mu)))/(B0^2*1))/(2*B0) - dpdx*1*1*(1 - 2*Exp.sqrt (eta*mu)*Exp.tanh (B0*1/(2*Exp.sqrt (eta*mu)))/(B0*1))/(2*B0^2)]) (.x 0) (.x 1) (.x 2) (.x 3)

/-- `golinski_volume`, golinski.py 119-125. -/
noncomputable def golVolE : Exp 6 :=
  (fun x1 x2 x4 x5 x6 x7 : Exp 6 =>
    0.7854*x1*x2^2*(3.3333*17^2 + 14.9334*17 - 43.0934) - 1.5079*x1*(x6^2 + x7^2) + 7.477*(x6^3 + x7^3) + 0.7854*(x4*x6^2 + x5*x7^2)) (.x 0) (.x 1) (.x 2) (.x 3) (.x 4) (.x 5)

/-- `golinski_volume_grad`, golinski.py 128-138. -/
noncomputable def golVolGradE : List (Exp 6) :=
  (fun x1 x2 x4 x5 x6 x7 : Exp 6 =>
    [0.7854*x2^2*(3.3333*17^2 + 14.9334*17 - 43.0934) - 1.5079*x6^2 - 1.5079*x7^2,
      1.5708*x1*x2*(3.3333*17^2 + 14.9334*17 - 43.0934),
      0.7854*x6^2,
      0.7854*x7^2,
      (-3.0158)*x1*x6 + 1.5708*x4*x6 + 22.431*x6^2,
      (-3.0158)*x1*x7 + 1.5708*x5*x7 + 22.431*x7^2]) (.x 0) (.x 1) (.x 2) (.x 3) (.x 4) (.x 5)

/-- `golinski_constraint1`, golinski.py 141-145. -/
noncomputable def gol1E : Exp 6 :=
  (fun x1 x2 x4 x5 x6 x7 : Exp 6 =>
    27/(x1*x2^2*17) - 1) (.x 0) (.x 1) (.x 2) (.x 3) (.x 4) (.x 5)

/-- `golinski_constraint1_grad`, golinski.py 147-156. -/
noncomputable def gol1GradE : List (Exp 6) :=
  (fun x1 x2 x4 x5 x6 x7 : Exp 6 =>
    [(-27)/(x1^2*x2^2*17),
      (-54)/(x1*x2^3*17),
      0*x1,
      0*x1,
      0*x1,
      0*x1]) (.x 0) (.x 1) (.x 2) (.x 3) (.x 4) (.x 5)

/-- `golinski_constraint2`, golinski.py 158-162. -/
noncomputable def gol2E : Exp 6 :=
  (fun x1 x2 x4 x5 x6 x7 : Exp 6 =>
    397.5/(x1*x2^2*17^2) - 1) (.x 0) (.x 1) (.x 2) (.x 3) (.x 4) (.x 5)

/-- `golinski_constraint2_grad`, golinski.py 164-174. -/
noncomputable def gol2GradE : List (Exp 6) :=
  (fun x1 x2 x4 x5 x6 x7 : Exp 6 =>
    [(-397.5)/(x1^2*x2^2*17^2),
      (-795.0)/(x1*x2^3*17^2),
      0*x1,
      0*x1,
      0*x1,
      0*x1]) (.x 0) (.x 1) (.x 2) (.x 3) (.x 4) (.x 5)

/-- `golinski_constraint3`, golinski.py 176-180. -/
noncomputable def gol3E : Exp 6 :=
  (fun x1 x2 x4 x5 x6 x7 : Exp 6 =>
    1.93/(x2*17*x6^4)*x4^3 - 1) (.x 0) (.x 1) (.x 2) (.x 3) (.x 4) (.x 5)

/-- `golinski_constraint3_grad`, golinski.py 182-191. -/
noncomputable def gol3GradE : List (Exp 6) :=
  (fun x1 x2 x4 x5 x6 x7 : Exp 6 =>
    [0*x1,
      (-1.93)*x4^3/(x2^2*17*x6^4),
      5.79*x4^2/(x2*17*x6^4),
      0*x1,
      (-7.72)*x4^3/(x2*17*x6^5),
      0*x1]) (.x 0) (.x 1) (.x 2) (.x 3) (.x 4) (.x 5)

/-- `golinski_constraint4`, golinski.py 194-198. -/
noncomputable def gol4E : Exp 6 :=
  (fun x1 x2 x4 x5 x6 x7 : Exp 6 =>
    1.93/(x2*17*x7^4)*x5^3 - 1) (.x 0) (.x 1) (.x 2) (.x 3) (.x 4) (.x 5)

/-- `golinski_constraint4_grad`, golinski.py 200-209. -/
noncomputable def gol4GradE : List (Exp 6) :=
  (fun x1 x2 x4 x5 x6 x7 : Exp 6 =>
    [0*x1,
      (-1.93)*x5^3/(x2^2*17*x7^4),
      0*x1,
      5.79*x5^2/(x2*17*x7^4),
      0*x1,
      (-7.72)*x5^3/(x2*17*x7^5)]) (.x 0) (.x 1) (.x 2) (.x 3) (.x 4) (.x 5)

/-- `golinski_constraint5`, golinski.py 212-214. -/
noncomputable def gol5E : Exp 6 :=
  (fun x1 x2 x4 x5 x6 x7 : Exp 6 =>
    Exp.sqrt ((745*x4/x2/17)^2 + 16.9e6)/(110.0*x6^3) - 1) (.x 0) (.x 1) (.x 2) (.x 3) (.x 4) (.x 5)

/-- `golinski_constraint5_grad`, golinski.py 216-225. -/
noncomputable def gol5GradE : List (Exp 6) :=
  (fun x1 x2 x4 x5 x6 x7 : Exp 6 =>
    [0*x1,
      (-5045.68181818182)*x4^2/(x2^3*17^2*x6^3*Exp.sqrt (16900000.0 + 555025*x4^2/(x2^2*17^2))),
      5045.68181818182*x4/(x2^2*17^2*x6^3*Exp.sqrt (16900000.0 + 555025*x4^2/(x2^2*17^2))),
      0*x1,
      (-0.0272727272727273)*Exp.sqrt (16900000.0 + 555025*x4^2/(x2^2*17^2))/x6^4,
      0*x1]) (.x 0) (.x 1) (.x 2) (.x 3) (.x 4) (.x 5)

/-- `golinski_constraint6`, golinski.py 227-229. -/
noncomputable def gol6E : Exp 6 :=
  (fun x1 x2 x4 x5 x6 x7 : Exp 6 =>
    Exp.sqrt ((745*x5/x2/17)^2 + 157.5e6)/(85.0*x7^3) - 1) (.x 0) (.x 1) (.x 2) (.x 3) (.x 4) (.x 5)

/-- `golinski_constraint6_grad`, golinski.py 231-240. -/
noncomputable def gol6GradE : List (Exp 6) :=
  (fun x1 x2 x4 x5 x6 x7 : Exp 6 =>
    [0*x1,
      (-6529.70588235294)*x5^2/(x2^3*17^2*x7^3*Exp.sqrt (157500000.0 + 555025*x5^2/(x2^2*17^2))),
      0*x1,
      6529.70588235294*x5/(x2^2*17^2*x7^3*Exp.sqrt (157500000.0 + 555025*x5^2/(x2^2*17^2))),
      0*x1,
      (-0.0352941176470588)*Exp.sqrt (157500000.0 + 555025*x5^2/(x2^2*17^2))/x7^4]) (.x 0) (.x 1) (.x 2) (.x 3) (.x 4) (.x 5)

/-- `golinski_constraint7`, golinski.py 242-244. -/
noncomputable def gol7E : Exp 6 :=
  (fun x1 x2 x4 x5 x6 x7 : Exp 6 =>
    x2*17/40 - 1) (.x 0) (.x 1) (.x 2) (.x 3) (.x 4) (.x 5)

/-- `golinski_constraint7_grad`, golinski.py 246-255. -/
noncomputable def gol7GradE : List (Exp 6) :=
  (fun x1 x2 x4 x5 x6 x7 : Exp 6 =>
    [0*x1,
      17/40,
      0*x1,
      0*x1,
      0*x1,
      0*x1]) (.x 0) (.x 1) (.x 2) (.x 3) (.x 4) (.x 5)

/-- `golinski_constraint8`, golinski.py 257-259. -/
noncomputable def gol8E : Exp 6 :=
  (fun x1 x2 x4 x5 x6 x7 : Exp 6 =>
    5*x2/x1 - 1) (.x 0) (.x 1) (.x 2) (.x 3) (.x 4) (.x 5)

/-- `golinski_constraint8_grad`, golinski.py 261-270. -/
noncomputable def gol8GradE : List (Exp 6) :=
  (fun x1 x2 x4 x5 x6 x7 : Exp 6 =>
    [(-5)*x2/x1^2,
      5/x1,
      0*x1,
      0*x1,
      0*x1,
      0*x1]) (.x 0) (.x 1) (.x 2) (.x 3) (.x 4) (.x 5)

/-- `golinski_constraint9`, golinski.py 272-274. -/
noncomputable def gol9E : Exp 6 :=
  (fun x1 x2 x4 x5 x6 x7 : Exp 6 =>
    x1/(12*x2) - 1) (.x 0) (.x 1) (.x 2) (.x 3) (.x 4) (.x 5)

/-- `golinski_constraint9_grad`, golinski.py 276-285. -/
noncomputable def gol9GradE : List (Exp 6) :=
  (fun x1 x2 x4 x5 x6 x7 : Exp 6 =>
    [1/(12*x2),
      (-x1)/(12*x2^2),
      0*x1,
      0*x1,
      0*x1,
      0*x1]) (.x 0) (.x 1) (.x 2) (.x 3) (.x 4) (.x 5)

/-- `golinski_constraint24`, golinski.py 287-289. -/
noncomputable def gol24E : Exp 6 :=
  (fun x1 x2 x4 x5 x6 x7 : Exp 6 =>
    (1.5*x6 + 1.9)/x4 - 1) (.x 0) (.x 1) (.x 2) (.x 3) (.x 4) (.x 5)

/-- `golinski_constraint24_grad`, golinski.py 291-300. -/
noncomputable def gol24GradE : List (Exp 6) :=
  (fun x1 x2 x4 x5 x6 x7 : Exp 6 =>
    [0*x1,
      0*x1,
      (-(1.5*x6 + 1.9))/x4^2,
      0*x1,
      1.5/x4,
      0*x1]) (.x 0) (.x 1) (.x 2) (.x 3) (.x 4) (.x 5)

/-- `golinski_constraint25`, golinski.py 303-305. -/
noncomputable def gol25E : Exp 6 :=
  (fun x1 x2 x4 x5 x6 x7 : Exp 6 =>
    (1.1*x7 + 1.9)/x5 - 1) (.x 0) (.x 1) (.x 2) (.x 3) (.x 4) (.x 5)

/-- `golinski_constraint25_grad`, golinski.py 307-317. -/
noncomputable def gol25GradE : List (Exp 6) :=
  (fun x1 x2 x4 x5 x6 x7 : Exp 6 =>
    [0*x1,
      0*x1,
      0*x1,
      (-(1.1*x7 + 1.9))/x5^2,
      0*x1,
      1.1/x5]) (.x 0) (.x 1) (.x 2) (.x 3) (.x 4) (.x 5)

/-- `beam_area`, beam.py 103-109. -/
noncomputable def beamAreaE : Exp 2 :=
  (fun b h : Exp 2 =>
    b*h) (.x 0) (.x 1)

/-- `beam_area_grad`, beam.py 111-117. -/
noncomputable def beamAreaGradE : List (Exp 2) :=
  (fun b h : Exp 2 =>
    [h,
      b]) (.x 0) (.x 1)

/-- `beam_bending`, beam.py 120-134. -/
noncomputable def beamBendingE : Exp 2 :=
  (fun b h : Exp 2 =>
    6*5e3*1.5/(b*h^2)) (.x 0) (.x 1)

/-- `beam_bending_grad`, beam.py 136-145. -/
noncomputable def beamBendingGradE : List (Exp 2) :=
  (fun b h : Exp 2 =>
    [(-6)*5e3*1.5/(b^2*h^2),
      (-2)*6*5e3*1.5/(b*h^3)]) (.x 0) (.x 1)

/-- `beam_tip_deflect`, beam.py 148-158. -/
noncomputable def beamTipE : Exp 2 :=
  (fun b h : Exp 2 =>
    5e3*1.5^3/(3*216.62e9*(b*h^3/12))) (.x 0) (.x 1)

/-- `beam_tip_deflect_grad`, beam.py 160-172. -/
noncomputable def beamTipGradE : List (Exp 2) :=
  (fun b h : Exp 2 =>
    [(-4)*5e3*1.5^3/(216.62e9*b^2*h^3),
      (-12)*5e3*1.5^3/(216.62e9*b*h^4)]) (.x 0) (.x 1)

/-- `beam_bending_stress`, beam.py 174-184. -/
noncomputable def beamStressE : Exp 2 :=
  (fun b h : Exp 2 =>
    6*5e3*1.5/(b*h^2)) (.x 0) (.x 1)

/-- `beam_bending_stress_grad`, beam.py 186-198. -/
noncomputable def beamStressGradE : List (Exp 2) :=
  (fun b h : Exp 2 =>
    [(-6)*5e3*1.5/(b^2*h^2),
      (-12)*5e3*1.5/(b*h^3)]) (.x 0) (.x 1)

/-- `beam_shear_stress`, beam.py 201-211. -/
noncomputable def beamShearE : Exp 2 :=
  (fun b h : Exp 2 =>
    3*5e3/(2*b*h)) (.x 0) (.x 1)

/-- `beam_shear_stress_grad`, beam.py 213-225. -/
noncomputable def beamShearGradE : List (Exp 2) :=
  (fun b h : Exp 2 =>
    [(-3)*5e3/(2*b^2*h),
      (-3)*5e3/(2*b*h^2)]) (.x 0) (.x 1)

/-- `beam_area_ratio`, beam.py 227-236. -/
noncomputable def beamRatioE : Exp 2 :=
  (fun b h : Exp 2 =>
    h/b) (.x 0) (.x 1)

/-- `beam_area_ratio_grad`, beam.py 238-251. -/
noncomputable def beamRatioGradE : List (Exp 2) :=
  (fun b h : Exp 2 =>
    [(-h)/b^2,
      1/b]) (.x 0) (.x 1)

/-- `beam_twist_buckling`, beam.py 254-266. -/
noncomputable def beamTwistE : Exp 2 :=
  (fun b h : Exp 2 =>
    4/1.5^2*Exp.sqrt (86.65e9*((b^3*h + b*h^3)/12)*216.62e9*(b^3*h/12)/(1 - 0.27))) (.x 0) (.x 1)

/-- `beam_twist_buckling_grad`, beam.py 268-281. -/
noncomputable def beamTwistGradE : List (Exp 2) :=
  (fun b h : Exp 2 =>
    [2*Exp.sqrt 3*Exp.sqrt (216.62e9*86.65e9*b^3*h*(b^3*h/12 + b*h^3/12)/(1 - 0.27))*(1 - 0.27)*(216.62e9*86.65e9*b^3*h*(b^2*h/4 + h^3/12)/(2*(1 - 0.27)) + 3*216.62e9*86.65e9*b^2*h*(b^3*h/12 + b*h^3/12)/(2*(1 - 0.27)))/(3*216.62e9*86.65e9*1.5^2*b^3*h*(b^3*h/12 + b*h^3/12)),
      2*Exp.sqrt 3*Exp.sqrt (216.62e9*86.65e9*b^3*h*(b^3*h/12 + b*h^3/12)/(1 - 0.27))*(1 - 0.27)*(216.62e9*86.65e9*b^3*h*(b^3/12 + b*h^2/4)/(2*(1 - 0.27)) + 216.62e9*86.65e9*b^3*(b^3*h/12 + b*h^3/12)/(2*(1 - 0.27)))/(3*216.62e9*86.65e9*1.5^2*b^3*h*(b^3*h/12 + b*h^3/12))]) (.x 0) (.x 1)

end Verif.Demo
