import Verif.Demo.Grad
import Mathlib.Data.Matrix.Mul

/-!
# Demo functions with analytic gradients: OTL circuit, borehole, robot arm, piston, polynomials

Every function in `/repo/psdr/demos` takes an array with one input per row and computes every row by the
same formula; the models below are the formulas of one row (`Fin n → ℝ`), with exact real arithmetic.
-/

namespace Verif.Demo
open Real

/-- `otl_circuit`, /repo/psdr/demos/otl_circuit.py 63-77. -/
noncomputable def otl (x : Fin 6 → ℝ) : ℝ :=
  (12 * x 1 / (x 0 + x 1) + 0.74) * x 5 * (x 4 + 9) / (x 5 * (x 4 + 9) + x 2)
    + 11.35 * x 2 / (x 5 * (x 4 + 9) + x 2)
    + 0.74 * x 2 * x 5 * (x 4 + 9) / ((x 5 * (x 4 + 9) + x 2) * x 3)

/-- `otl_circuit_grad`, /repo/psdr/demos/otl_circuit.py 79-96. -/
noncomputable def otlGrad (x : Fin 6 → ℝ) : Fin 6 → ℝ :=
  let Rb1 := x 0
  let Rb2 := x 1
  let Rf := x 2
  let Rc1 := x 3
  let Rc2 := x 4
  let beta := x 5
  ![-12*Rb2*beta*(Rc2 + 9)/((Rb1 + Rb2)^2*(Rf + beta*(Rc2 + 9))),
    12*Rb1*beta*(Rc2 + 9)/((Rb1 + Rb2)^2*(Rf + beta*(Rc2 + 9))),
    (-11.35*Rc1*Rf*(Rb1 + Rb2) - Rc1*beta*(0.74*Rb1 + 12.74*Rb2)*(Rc2 + 9)
      + 11.35*Rc1*(Rb1 + Rb2)*(Rf + beta*(Rc2 + 9)) - 0.74*Rf*beta*(Rb1 + Rb2)*(Rc2 + 9)
      + 0.74*beta*(Rb1 + Rb2)*(Rc2 + 9)*(Rf + beta*(Rc2 + 9)))
      /(Rc1*(Rb1 + Rb2)*(Rf + beta*(Rc2 + 9))^2),
    -0.74*Rf*beta*(Rc2 + 9)/(Rc1^2*(Rf + beta*(Rc2 + 9))),
    beta*(-11.35*Rc1*Rf*(Rb1 + Rb2) - Rc1*beta*(0.74*Rb1 + 12.74*Rb2)*(Rc2 + 9)
      + Rc1*(0.74*Rb1 + 12.74*Rb2)*(Rf + beta*(Rc2 + 9)) - 0.74*Rf*beta*(Rb1 + Rb2)*(Rc2 + 9)
      + 0.74*Rf*(Rb1 + Rb2)*(Rf + beta*(Rc2 + 9)))/(Rc1*(Rb1 + Rb2)*(Rf + beta*(Rc2 + 9))^2),
    (Rc2 + 9)*(-11.35*Rc1*Rf*(Rb1 + Rb2) - Rc1*beta*(0.74*Rb1 + 12.74*Rb2)*(Rc2 + 9)
      + Rc1*(0.74*Rb1 + 12.74*Rb2)*(Rf + beta*(Rc2 + 9)) - 0.74*Rf*beta*(Rb1 + Rb2)*(Rc2 + 9)
      + 0.74*Rf*(Rb1 + Rb2)*(Rf + beta*(Rc2 + 9)))/(Rc1*(Rb1 + Rb2)*(Rf + beta*(Rc2 + 9))^2)]

/-- `build_otl_circuit_domain`, /repo/psdr/demos/otl_circuit.py 55-61: the lower corner. -/
noncomputable def otlLb : Fin 6 → ℝ := ![50, 25, 0.5, 1.2, 0.25, 50]
/-- `build_otl_circuit_domain`, /repo/psdr/demos/otl_circuit.py 55-61: the upper corner. -/
noncomputable def otlUb : Fin 6 → ℝ := ![150, 70, 3, 2.5, 1.2, 300]

/-- `borehole`, /repo/psdr/demos/borehole.py 109-138. -/
noncomputable def borehole (x : Fin 8 → ℝ) : ℝ :=
  2 * π * x 2 * (x 3 - x 5)
    / (log (x 1 / x 0) * (1 + 2 * x 6 * x 2 / (log (x 1 / x 0) * x 0 ^ 2 * x 7) + x 2 / x 4))

/-- `borehole_grad`, /repo/psdr/demos/borehole.py 140-179. -/
noncomputable def boreholeGrad (x : Fin 8 → ℝ) : Fin 8 → ℝ :=
  let r_w := x 0
  let r := x 1
  let T_u := x 2
  let H_u := x 3
  let T_l := x 4
  let H_l := x 5
  let L := x 6
  let K_w := x 7
  ![-2*π*K_w*T_l*T_u*r_w*(H_l - H_u)*(K_w*T_l*r_w^2*log (r/r_w) + K_w*T_u*r_w^2*log (r/r_w)
      + 2*L*T_l*T_u*(2*log (r/r_w) - 1) + 2*L*T_l*T_u)
      /((K_w*T_l*r_w^2*log (r/r_w) + K_w*T_u*r_w^2*log (r/r_w) + 2*L*T_l*T_u)^2*log (r/r_w)),
    2*π*K_w^2*T_l*T_u*r_w^4*(H_l - H_u)*(T_l + T_u)
      /(r*(K_w*T_l*r_w^2*log (r/r_w) + K_w*T_u*r_w^2*log (r/r_w) + 2*L*T_l*T_u)^2),
    2*π*K_w*T_l*r_w^2*(H_l - H_u)*(-K_w*T_l*r_w^2*log (r/r_w) - K_w*T_u*r_w^2*log (r/r_w)
      - 2*L*T_l*T_u + T_u*(K_w*r_w^2*log (r/r_w) + 2*L*T_l))
      /(K_w*T_l*r_w^2*log (r/r_w) + K_w*T_u*r_w^2*log (r/r_w) + 2*L*T_l*T_u)^2,
    2*π*K_w*T_l*T_u*r_w^2
      /(K_w*T_l*r_w^2*log (r/r_w) + K_w*T_u*r_w^2*log (r/r_w) + 2*L*T_l*T_u),
    -2*π*K_w^2*T_u^2*r_w^4*(H_l - H_u)*log (r/r_w)
      /(K_w*T_l*r_w^2*log (r/r_w) + K_w*T_u*r_w^2*log (r/r_w) + 2*L*T_l*T_u)^2,
    -2*π*K_w*T_l*T_u*r_w^2
      /(K_w*T_l*r_w^2*log (r/r_w) + K_w*T_u*r_w^2*log (r/r_w) + 2*L*T_l*T_u),
    4*π*K_w*T_l^2*T_u^2*r_w^2*(H_l - H_u)
      /(K_w*T_l*r_w^2*log (r/r_w) + K_w*T_u*r_w^2*log (r/r_w) + 2*L*T_l*T_u)^2,
    -4*π*L*T_l^2*T_u^2*r_w^2*(H_l - H_u)
      /(K_w*T_l*r_w^2*log (r/r_w) + K_w*T_u*r_w^2*log (r/r_w) + 2*L*T_l*T_u)^2]

/-- `build_borehole_domain`, /repo/psdr/demos/borehole.py 74-87: the lower corner. -/
noncomputable def boreholeLb : Fin 8 → ℝ := ![0.05, 100, 63070, 990, 63.1, 700, 1120, 9855]
/-- `build_borehole_domain`, /repo/psdr/demos/borehole.py 74-87: the upper corner. -/
noncomputable def boreholeUb : Fin 8 → ℝ := ![0.15, 50000, 115600, 1110, 116, 820, 1680, 12045]

/-- The horizontal coordinate `u` of the tip, /repo/psdr/demos/robot_arm.py 76. -/
noncomputable def armU (x : Fin 8 → ℝ) : ℝ :=
  x 4 * cos (x 0) + x 5 * cos (x 0 + x 1) + x 6 * cos (x 0 + x 1 + x 2)
    + x 7 * cos (x 0 + x 1 + x 2 + x 3)

/-- The vertical coordinate `v` of the tip, /repo/psdr/demos/robot_arm.py 77. -/
noncomputable def armV (x : Fin 8 → ℝ) : ℝ :=
  x 4 * sin (x 0) + x 5 * sin (x 0 + x 1) + x 6 * sin (x 0 + x 1 + x 2)
    + x 7 * sin (x 0 + x 1 + x 2 + x 3)

/-- `robot_arm`, /repo/psdr/demos/robot_arm.py 60-80. -/
noncomputable def arm (x : Fin 8 → ℝ) : ℝ := sqrt (armU x ^ 2 + armV x ^ 2)

/-- The radicand written out in `robot_arm_grad`, /repo/psdr/demos/robot_arm.py 104-110 (the same
expression in every row). -/
noncomputable def armRad (th2 th3 th4 L1 L2 L3 L4 : ℝ) : ℝ :=
  L1^2 + 2*L1*L2*cos th2 + 2*L1*L3*cos (th2 + th3) + 2*L1*L4*cos (th2 + th3 + th4) + L2^2
    + 2*L2*L3*cos th3 + 2*L2*L4*cos (th3 + th4) + L3^2 + 2*L3*L4*cos th4 + L4^2

/-- `robot_arm_grad`, /repo/psdr/demos/robot_arm.py 82-112. -/
noncomputable def armGrad (x : Fin 8 → ℝ) : Fin 8 → ℝ :=
  let th2 := x 1
  let th3 := x 2
  let th4 := x 3
  let L1 := x 4
  let L2 := x 5
  let L3 := x 6
  let L4 := x 7
  ![0 * x 0,
    -L1*(L2*sin th2 + L3*sin (th2 + th3) + L4*sin (th2 + th3 + th4))
      /sqrt (armRad th2 th3 th4 L1 L2 L3 L4),
    -(L1*L3*sin (th2 + th3) + L1*L4*sin (th2 + th3 + th4) + L2*L3*sin th3 + L2*L4*sin (th3 + th4))
      /sqrt (armRad th2 th3 th4 L1 L2 L3 L4),
    -L4*(L1*sin (th2 + th3 + th4) + L2*sin (th3 + th4) + L3*sin th4)
      /sqrt (armRad th2 th3 th4 L1 L2 L3 L4),
    (L1 + L2*cos th2 + L3*cos (th2 + th3) + L4*cos (th2 + th3 + th4))
      /sqrt (armRad th2 th3 th4 L1 L2 L3 L4),
    (L1*cos th2 + L2 + L3*cos th3 + L4*cos (th3 + th4))/sqrt (armRad th2 th3 th4 L1 L2 L3 L4),
    (L1*cos (th2 + th3) + L2*cos th3 + L3 + L4*cos th4)/sqrt (armRad th2 th3 th4 L1 L2 L3 L4),
    (L1*cos (th2 + th3 + th4) + L2*cos (th3 + th4) + L3*cos th4 + L4)
      /sqrt (armRad th2 th3 th4 L1 L2 L3 L4)]

/-- `AffineFunction._func`, /repo/psdr/demos/polynomial.py 35-36. -/
def affineFn {m : ℕ} (linear : Fin m → ℝ) (constant : ℝ) (x : Fin m → ℝ) : ℝ :=
  dotProduct linear x + constant

/-- `AffineFunction._func_grad`, /repo/psdr/demos/polynomial.py 38-39. -/
def affineGrad {m : ℕ} (linear : Fin m → ℝ) (_x : Fin m → ℝ) : Fin m → ℝ := linear

/-- `QuadraticFunction._func`, /repo/psdr/demos/polynomial.py 76-80. -/
def quadFn {m : ℕ} (Q : Matrix (Fin m) (Fin m) ℝ) (linear : Fin m → ℝ) (constant : ℝ)
    (x : Fin m → ℝ) : ℝ :=
  (∑ j, (Matrix.vecMul x Q) j * x j) + dotProduct linear x + constant

/-- `QuadraticFunction._func_grad`, /repo/psdr/demos/polynomial.py 82-83. -/
def quadGrad {m : ℕ} (Q : Matrix (Fin m) (Fin m) ℝ) (linear : Fin m → ℝ) (x : Fin m → ℝ) :
    Fin m → ℝ :=
  fun j => 2 * (Matrix.vecMul x Q) j + linear j

end Verif.Demo
