import Verif.Demo.Grad

/-!
# Demo functions with analytic gradients: the piston and the Hartmann problem

One row of the input array at a time, exact real arithmetic.
-/

namespace Verif.Demo
open Real

/-- `A` of `piston`, /repo/psdr/demos/piston.py 82.  The variables are
`M, S, V0, k, P0, Ta, T0`. -/
noncomputable def pistonA (x : Fin 7 → ℝ) : ℝ :=
  x 4 * x 1 + 19.62 * x 0 - x 3 * x 2 / x 1

/-- `V` of `piston`, /repo/psdr/demos/piston.py 83. -/
noncomputable def pistonV (x : Fin 7 → ℝ) : ℝ :=
  x 1 / (2 * x 3) * (sqrt (pistonA x ^ 2 + 4 * x 3 * x 4 * x 2 / x 6 * x 5) - pistonA x)

/-- `piston`, /repo/psdr/demos/piston.py 66-86. -/
noncomputable def piston (x : Fin 7 → ℝ) : ℝ :=
  2 * π * sqrt (x 0 / (x 3 + x 1 ^ 2 * (x 4 * x 2 / x 6) * (x 5 / pistonV x ^ 2)))

/-- `piston_grad`, /repo/psdr/demos/piston.py 88-110.  The square root, the difference and the
denominator that the generated code repeats textually are named `R`, `D` and `Q` here. -/
noncomputable def pistonGrad (x : Fin 7 → ℝ) : Fin 7 → ℝ :=
  let M := x 0
  let S := x 1
  let V0 := x 2
  let k := x 3
  let P0 := x 4
  let Ta := x 5
  let T0 := x 6
  let R := sqrt (4*P0*Ta*V0*k/T0 + (19.62*M + P0*S - V0*k/S)^2)
  let D := -19.62*M - P0*S + R + V0*k/S
  let Q := 4*P0*Ta*V0*k^2/(T0*D^2) + k
  ![2*π*sqrt (M/Q)*Q*(-2*M*P0*Ta*V0*k^2*(39.24 - 2*(384.9444*M + 19.62*P0*S - 19.62*V0*k/S)/R)
        /(T0*Q^2*D^3) + 1/(2*Q))/M,
    -4*π*P0*Ta*V0*k^2*sqrt (M/Q)*(2*P0 - (2*P0 + 2*V0*k/S^2)*(19.62*M + P0*S - V0*k/S)/R
        + 2*V0*k/S^2)/(T0*Q*D^3),
    π*sqrt (M/Q)*(-4*P0*Ta*V0*k^2*(-2*(2*P0*Ta*k/T0 - k*(19.62*M + P0*S - V0*k/S)/S)/R - 2*k/S)
        /(T0*D^3) - 4*P0*Ta*k^2/(T0*D^2))/Q,
    π*sqrt (M/Q)*(-4*P0*Ta*V0*k^2*(-2*(2*P0*Ta*V0/T0 - V0*(19.62*M + P0*S - V0*k/S)/S)/R - 2*V0/S)
        /(T0*D^3) - 8*P0*Ta*V0*k/(T0*D^2) - 1)/Q,
    π*sqrt (M/Q)*(-4*P0*Ta*V0*k^2*(2*S - 2*(S*(19.62*M + P0*S - V0*k/S) + 2*Ta*V0*k/T0)/R)
        /(T0*D^3) - 4*Ta*V0*k^2/(T0*D^2))/Q,
    π*sqrt (M/Q)*(16*P0^2*Ta*V0^2*k^3/(T0^2*R*D^3) - 4*P0*V0*k^2/(T0*D^2))/Q,
    π*sqrt (M/Q)*(-16*P0^2*Ta^2*V0^2*k^3/(T0^3*R*D^3) + 4*P0*Ta*V0*k^2/(T0^2*D^2))/Q]

/-- `build_piston_domain`, /repo/psdr/demos/piston.py 58-63: the lower corner. -/
noncomputable def pistonLb : Fin 7 → ℝ := ![30, 0.005, 0.002, 1000, 90000, 290, 340]

/-- `u_ave`, /repo/psdr/demos/hartmann.py 44-54 (`ell = 1`).  The variables are
`mu, dpdx, eta, B0`. -/
noncomputable def uAve (x : Fin 4 → ℝ) : ℝ :=
  -x 1 * x 2 / x 3 ^ 2 *
    (1 - x 3 * 1 / sqrt (x 2 * x 0) / tanh (x 3 * 1 / sqrt (x 2 * x 0)))

/-- `u_ave_grad`, /repo/psdr/demos/hartmann.py 56-69. -/
noncomputable def uAveGrad (x : Fin 4 → ℝ) : Fin 4 → ℝ :=
  let mu := x 0
  let dpdx := x 1
  let eta := x 2
  let B0 := x 3
  let ell : ℝ := 1
  ![-dpdx*eta*(-B0^2*ell^2*1/(eta*mu)/(2*mu*sinh (B0*ell/sqrt (eta*mu))^2)
        + B0*ell/tanh (B0*ell/sqrt (eta*mu))/(2*mu*sqrt (eta*mu)))/B0^2,
    -eta*(-B0*ell/tanh (B0*ell/sqrt (eta*mu))/sqrt (eta*mu) + 1)/B0^2,
    -dpdx*eta*(-B0^2*ell^2*1/(eta*mu)/(2*eta*sinh (B0*ell/sqrt (eta*mu))^2)
        + B0*ell/tanh (B0*ell/sqrt (eta*mu))/(2*eta*sqrt (eta*mu)))/B0^2
      - dpdx*(-B0*ell/tanh (B0*ell/sqrt (eta*mu))/sqrt (eta*mu) + 1)/B0^2,
    -dpdx*eta*(B0*ell^2*(1/(eta*mu))/sinh (B0*ell/sqrt (eta*mu))^2
        - ell/tanh (B0*ell/sqrt (eta*mu))/sqrt (eta*mu))/B0^2
      + 2*dpdx*eta*(-B0*ell/tanh (B0*ell/sqrt (eta*mu))/sqrt (eta*mu) + 1)/B0^3]

/-- `Bind`, /repo/psdr/demos/hartmann.py 72-81 (`ell = mu0 = 1`). -/
noncomputable def bind (x : Fin 4 → ℝ) : ℝ :=
  x 1 * (1 * 1 / (2 * x 3)) *
    (1 - 2 * sqrt (x 2 * x 0) / (x 3 * 1) * tanh (x 3 * 1 / (2 * sqrt (x 2 * x 0))))

/-- `Bind_grad`, /repo/psdr/demos/hartmann.py 84-98. -/
noncomputable def bindGrad (x : Fin 4 → ℝ) : Fin 4 → ℝ :=
  let mu := x 0
  let dpdx := x 1
  let eta := x 2
  let B0 := x 3
  let ell : ℝ := 1
  let mu0 : ℝ := 1
  ![dpdx*ell*mu0*((-tanh (B0*ell/(2*sqrt (eta*mu)))^2 + 1)/(2*mu)
        - sqrt (eta*mu)*tanh (B0*ell/(2*sqrt (eta*mu)))/(B0*ell*mu))/(2*B0),
    ell*mu0*(1 - 2*sqrt (eta*mu)*tanh (B0*ell/(2*sqrt (eta*mu)))/(B0*ell))/(2*B0),
    dpdx*ell*mu0*((-tanh (B0*ell/(2*sqrt (eta*mu)))^2 + 1)/(2*eta)
        - sqrt (eta*mu)*tanh (B0*ell/(2*sqrt (eta*mu)))/(B0*ell*eta))/(2*B0),
    dpdx*ell*mu0*(-(-tanh (B0*ell/(2*sqrt (eta*mu)))^2 + 1)/B0
        + 2*sqrt (eta*mu)*tanh (B0*ell/(2*sqrt (eta*mu)))/(B0^2*ell))/(2*B0)
      - dpdx*ell*mu0*(1 - 2*sqrt (eta*mu)*tanh (B0*ell/(2*sqrt (eta*mu)))/(B0*ell))/(2*B0^2)]

/-- `build_hartmann_domain`, /repo/psdr/demos/hartmann.py 32-41: the lower corner. -/
noncomputable def hartmannLb : Fin 4 → ℝ := ![0.05, 0.5, 0.5, 0.1]

end Verif.Demo
