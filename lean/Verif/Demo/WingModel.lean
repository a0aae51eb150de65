import Verif.Demo.Grad

/-!
# Demo functions with analytic gradients: wing weight

One row of the input array at a time, exact real arithmetic; `**` with a non-integer exponent is the
real power.
-/

namespace Verif.Demo
open Real

/-- `wing_weight`, /repo/psdr/demos/wing_weight.py 64-84.  The variables are
`Sw, Wfw, A, Lam (degrees), q, lam, tc, Nz, Wdg, Wp`. -/
noncomputable def wing (x : Fin 10 → ℝ) : ℝ :=
  0.036*((x 0)^(0.758 : ℝ))*((x 1)^(0.0035 : ℝ))*(x 2/(cos (x 3*(π/180))^2))^(0.6 : ℝ)
    *((x 4)^(0.006 : ℝ))*((x 5)^(0.04 : ℝ))*(100*x 6/cos (x 3*(π/180)))^(-0.3 : ℝ)
    *(x 7*x 8)^(0.49 : ℝ) + x 0*x 9

/-- `wing_weight_grad`, /repo/psdr/demos/wing_weight.py 86-112. -/
noncomputable def wingGrad (x : Fin 10 → ℝ) : Fin 10 → ℝ :=
  let Sw := x 0; let Wfw := x 1; let A := x 2; let Lam := x 3*(π/180); let q := x 4; let lam := x 5
  let tc := x 6; let Nz := x 7; let Wdg := x 8; let Wp := x 9
  ![0.00685443569430334*Sw^(-0.242 : ℝ)*Wfw^(0.0035 : ℝ)*lam^(0.04 : ℝ)*q^(0.006 : ℝ)
      *(A/cos Lam^2)^(0.6 : ℝ)*(Nz*Wdg)^(0.49 : ℝ)*(tc/cos Lam)^(-0.3 : ℝ) + 1*Wp,
    3.16497690370207e-5*Sw^(0.758 : ℝ)*Wfw^(-0.9965 : ℝ)*lam^(0.04 : ℝ)*q^(0.006 : ℝ)
      *(A/cos Lam^2)^(0.6 : ℝ)*(Nz*Wdg)^(0.49 : ℝ)*(tc/cos Lam)^(-0.3 : ℝ),
    0.00542567469206069*Sw^(0.758 : ℝ)*Wfw^(0.0035 : ℝ)*lam^(0.04 : ℝ)*q^(0.006 : ℝ)
      *(A/cos Lam^2)^(0.6 : ℝ)*(Nz*Wdg)^(0.49 : ℝ)*(tc/cos Lam)^(-0.3 : ℝ)/A,
    (π/180)*0.00813851203809104*Sw^(0.758 : ℝ)*Wfw^(0.0035 : ℝ)*lam^(0.04 : ℝ)*q^(0.006 : ℝ)
      *(A/cos Lam^2)^(0.6 : ℝ)*(Nz*Wdg)^(0.49 : ℝ)*(tc/cos Lam)^(-0.3 : ℝ)*tan Lam,
    5.42567469206069e-5*Sw^(0.758 : ℝ)*Wfw^(0.0035 : ℝ)*lam^(0.04 : ℝ)*q^(-0.994 : ℝ)
      *(A/cos Lam^2)^(0.6 : ℝ)*(Nz*Wdg)^(0.49 : ℝ)*(tc/cos Lam)^(-0.3 : ℝ),
    0.000361711646137379*Sw^(0.758 : ℝ)*Wfw^(0.0035 : ℝ)*lam^(-0.96 : ℝ)*q^(0.006 : ℝ)
      *(A/cos Lam^2)^(0.6 : ℝ)*(Nz*Wdg)^(0.49 : ℝ)*(tc/cos Lam)^(-0.3 : ℝ),
    -0.00271283734603035*Sw^(0.758 : ℝ)*Wfw^(0.0035 : ℝ)*lam^(0.04 : ℝ)*q^(0.006 : ℝ)
      *(A/cos Lam^2)^(0.6 : ℝ)*(Nz*Wdg)^(0.49 : ℝ)*(tc/cos Lam)^(-0.3 : ℝ)/tc,
    0.0044309676651829*Sw^(0.758 : ℝ)*Wfw^(0.0035 : ℝ)*lam^(0.04 : ℝ)*q^(0.006 : ℝ)
      *(A/cos Lam^2)^(0.6 : ℝ)*(Nz*Wdg)^(0.49 : ℝ)*(tc/cos Lam)^(-0.3 : ℝ)/Nz,
    0.0044309676651829*Sw^(0.758 : ℝ)*Wfw^(0.0035 : ℝ)*lam^(0.04 : ℝ)*q^(0.006 : ℝ)
      *(A/cos Lam^2)^(0.6 : ℝ)*(Nz*Wdg)^(0.49 : ℝ)*(tc/cos Lam)^(-0.3 : ℝ)/Wdg,
    Sw]

/-- `build_wing_weight_domain`, /repo/psdr/demos/wing_weight.py 55-60: the lower corner. -/
noncomputable def wingLb : Fin 10 → ℝ := ![150, 220, 6, -10, 16, 0.5, 0.08, 2.5, 1700, 0.025]
/-- `build_wing_weight_domain`, /repo/psdr/demos/wing_weight.py 55-60: the upper corner. -/
noncomputable def wingUb : Fin 10 → ℝ := ![200, 300, 10, 10, 45, 1, 0.18, 6, 2500, 0.08]

end Verif.Demo
