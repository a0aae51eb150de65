import Verif.Demo.Grad

/-!
# Demo functions with analytic gradients: Golinski gearbox and Nowacki beam

One row of the input array at a time, exact real arithmetic.  `expand_variables`
(/repo/psdr/demos/golinski.py 90-115) maps the six inputs to `x1, x2, x4, x5, x6, x7` and sets
`x3 = 17`; this is done here by indices.
-/

namespace Verif.Demo
open Real

/-- `expand_variables`, /repo/psdr/demos/golinski.py 90-115: the constant `x3`. -/
def gx3 : ℝ := 17

/-- `golinski_volume`, /repo/psdr/demos/golinski.py 119-125. -/
noncomputable def golVol (x : Fin 6 → ℝ) : ℝ :=
  0.7854*x 0*x 1^2*(3.3333*gx3^2 + 14.9334*gx3 - 43.0934)
    - 1.5079*x 0*(x 4^2 + x 5^2) + 7.477*(x 4^3 + x 5^3) + 0.7854*(x 2*x 4^2 + x 3*x 5^2)

/-- `golinski_volume_grad`, /repo/psdr/demos/golinski.py 128-138. -/
noncomputable def golVolGrad (x : Fin 6 → ℝ) : Fin 6 → ℝ :=
  let x1 := x 0; let x2 := x 1; let x3 := gx3; let x4 := x 2; let x5 := x 3; let x6 := x 4
  let x7 := x 5
  ![0.7854*x2^2*(3.3333*x3^2 + 14.9334*x3 - 43.0934) - 1.5079*x6^2 - 1.5079*x7^2,
    1.5708*x1*x2*(3.3333*x3^2 + 14.9334*x3 - 43.0934),
    0.7854*x6^2,
    0.7854*x7^2,
    -3.0158*x1*x6 + 1.5708*x4*x6 + 22.431*x6^2,
    -3.0158*x1*x7 + 1.5708*x5*x7 + 22.431*x7^2]

/-- `golinski_constraint1`, /repo/psdr/demos/golinski.py 141-145. -/
noncomputable def gol1 (x : Fin 6 → ℝ) : ℝ := 27/(x 0*x 1^2*gx3) - 1
/-- `golinski_constraint1_grad`, /repo/psdr/demos/golinski.py 147-156. -/
noncomputable def gol1Grad (x : Fin 6 → ℝ) : Fin 6 → ℝ :=
  ![-27/(x 0^2*x 1^2*gx3), -54/(x 0*x 1^3*gx3), 0*x 0, 0*x 0, 0*x 0, 0*x 0]

/-- `golinski_constraint2`, /repo/psdr/demos/golinski.py 158-162. -/
noncomputable def gol2 (x : Fin 6 → ℝ) : ℝ := 397.5/(x 0*x 1^2*gx3^2) - 1
/-- `golinski_constraint2_grad`, /repo/psdr/demos/golinski.py 164-174. -/
noncomputable def gol2Grad (x : Fin 6 → ℝ) : Fin 6 → ℝ :=
  ![-397.5/(x 0^2*x 1^2*gx3^2), -795/(x 0*x 1^3*gx3^2), 0*x 0, 0*x 0, 0*x 0, 0*x 0]

/-- `golinski_constraint3`, /repo/psdr/demos/golinski.py 176-180. -/
noncomputable def gol3 (x : Fin 6 → ℝ) : ℝ := 1.93/(x 1*gx3*x 4^4)*x 2^3 - 1
/-- `golinski_constraint3_grad`, /repo/psdr/demos/golinski.py 182-191. -/
noncomputable def gol3Grad (x : Fin 6 → ℝ) : Fin 6 → ℝ :=
  ![0*x 0, -1.93*x 2^3/(x 1^2*gx3*x 4^4), 5.79*x 2^2/(x 1*gx3*x 4^4), 0*x 0,
    -7.72*x 2^3/(x 1*gx3*x 4^5), 0*x 0]

/-- `golinski_constraint4`, /repo/psdr/demos/golinski.py 194-198. -/
noncomputable def gol4 (x : Fin 6 → ℝ) : ℝ := 1.93/(x 1*gx3*x 5^4)*x 3^3 - 1
/-- `golinski_constraint4_grad`, /repo/psdr/demos/golinski.py 200-209. -/
noncomputable def gol4Grad (x : Fin 6 → ℝ) : Fin 6 → ℝ :=
  ![0*x 0, -1.93*x 3^3/(x 1^2*gx3*x 5^4), 0*x 0, 5.79*x 3^2/(x 1*gx3*x 5^4), 0*x 0,
    -7.72*x 3^3/(x 1*gx3*x 5^5)]

/-- `golinski_constraint5`, /repo/psdr/demos/golinski.py 212-214. -/
noncomputable def gol5 (x : Fin 6 → ℝ) : ℝ :=
  sqrt ((745*x 2/x 1/gx3)^2 + 16900000)/(110*x 4^3) - 1
/-- `golinski_constraint5_grad`, /repo/psdr/demos/golinski.py 216-225. -/
noncomputable def gol5Grad (x : Fin 6 → ℝ) : Fin 6 → ℝ :=
  let x1 := x 0; let x2 := x 1; let x3 := gx3; let x4 := x 2; let x6 := x 4
  ![0*x1,
    -5045.68181818182*x4^2/(x2^3*x3^2*x6^3*sqrt (16900000 + 555025*x4^2/(x2^2*x3^2))),
    5045.68181818182*x4/(x2^2*x3^2*x6^3*sqrt (16900000 + 555025*x4^2/(x2^2*x3^2))),
    0*x1,
    -0.0272727272727273*sqrt (16900000 + 555025*x4^2/(x2^2*x3^2))/x6^4,
    0*x1]

/-- `golinski_constraint6`, /repo/psdr/demos/golinski.py 227-229. -/
noncomputable def gol6 (x : Fin 6 → ℝ) : ℝ :=
  sqrt ((745*x 3/x 1/gx3)^2 + 157500000)/(85*x 5^3) - 1
/-- `golinski_constraint6_grad`, /repo/psdr/demos/golinski.py 231-240. -/
noncomputable def gol6Grad (x : Fin 6 → ℝ) : Fin 6 → ℝ :=
  let x1 := x 0; let x2 := x 1; let x3 := gx3; let x5 := x 3; let x7 := x 5
  ![0*x1,
    -6529.70588235294*x5^2/(x2^3*x3^2*x7^3*sqrt (157500000 + 555025*x5^2/(x2^2*x3^2))),
    0*x1,
    6529.70588235294*x5/(x2^2*x3^2*x7^3*sqrt (157500000 + 555025*x5^2/(x2^2*x3^2))),
    0*x1,
    -0.0352941176470588*sqrt (157500000 + 555025*x5^2/(x2^2*x3^2))/x7^4]

/-- `golinski_constraint7`, /repo/psdr/demos/golinski.py 242-244. -/
noncomputable def gol7 (x : Fin 6 → ℝ) : ℝ := x 1*gx3/40 - 1
/-- `golinski_constraint7_grad`, /repo/psdr/demos/golinski.py 246-255. -/
noncomputable def gol7Grad (x : Fin 6 → ℝ) : Fin 6 → ℝ :=
  ![0*x 0, gx3/40, 0*x 0, 0*x 0, 0*x 0, 0*x 0]

/-- `golinski_constraint8`, /repo/psdr/demos/golinski.py 257-259. -/
noncomputable def gol8 (x : Fin 6 → ℝ) : ℝ := 5*x 1/x 0 - 1
/-- `golinski_constraint8_grad`, /repo/psdr/demos/golinski.py 261-270. -/
noncomputable def gol8Grad (x : Fin 6 → ℝ) : Fin 6 → ℝ :=
  ![-5*x 1/x 0^2, 5/x 0, 0*x 0, 0*x 0, 0*x 0, 0*x 0]

/-- `golinski_constraint9`, /repo/psdr/demos/golinski.py 272-274. -/
noncomputable def gol9 (x : Fin 6 → ℝ) : ℝ := x 0/(12*x 1) - 1
/-- `golinski_constraint9_grad`, /repo/psdr/demos/golinski.py 276-285. -/
noncomputable def gol9Grad (x : Fin 6 → ℝ) : Fin 6 → ℝ :=
  ![1/(12*x 1), -x 0/(12*x 1^2), 0*x 0, 0*x 0, 0*x 0, 0*x 0]

/-- `golinski_constraint24`, /repo/psdr/demos/golinski.py 287-289. -/
noncomputable def gol24 (x : Fin 6 → ℝ) : ℝ := (1.5*x 4 + 1.9)/x 2 - 1
/-- `golinski_constraint24_grad`, /repo/psdr/demos/golinski.py 291-300. -/
noncomputable def gol24Grad (x : Fin 6 → ℝ) : Fin 6 → ℝ :=
  ![0*x 0, 0*x 0, -(1.5*x 4 + 1.9)/x 2^2, 0*x 0, 1.5/x 2, 0*x 0]

/-- `golinski_constraint25`, /repo/psdr/demos/golinski.py 303-305. -/
noncomputable def gol25 (x : Fin 6 → ℝ) : ℝ := (1.1*x 5 + 1.9)/x 3 - 1
/-- `golinski_constraint25_grad`, /repo/psdr/demos/golinski.py 307-317. -/
noncomputable def gol25Grad (x : Fin 6 → ℝ) : Fin 6 → ℝ :=
  ![0*x 0, 0*x 0, 0*x 0, -(1.1*x 5 + 1.9)/x 3^2, 0*x 0, 1.1/x 3]

/-- `build_golinski_design_domain`, /repo/psdr/demos/golinski.py 320-328: the lower corner of the box. -/
noncomputable def golLb : Fin 6 → ℝ := ![2.6, 0.7, 7.3, 7.3, 2.9, 5.0]

/-! ### Nowacki beam -/

/-- The parameters of the beam problem with the names of the keyword arguments,
/repo/psdr/demos/beam.py 6-12. -/
structure Beam where
  F : ℝ
  L : ℝ
  E : ℝ
  nu : ℝ
  G : ℝ

/-- The defaults, /repo/psdr/demos/beam.py 6-12. -/
noncomputable def beamDefault : Beam := ⟨5000, 1.5, 216620000000, 0.27, 86650000000⟩

/-- `beam_area`, /repo/psdr/demos/beam.py 103-109 (variables breadth `b` and height `h`). -/
def beamArea (x : Fin 2 → ℝ) : ℝ := x 0 * x 1
/-- `beam_area_grad`, /repo/psdr/demos/beam.py 111-117. -/
def beamAreaGrad (x : Fin 2 → ℝ) : Fin 2 → ℝ := ![x 1, x 0]

/-- `beam_bending`, /repo/psdr/demos/beam.py 120-134. -/
noncomputable def beamBending (P : Beam) (x : Fin 2 → ℝ) : ℝ := 6*P.F*P.L/(x 0*x 1^2)
/-- `beam_bending_grad`, /repo/psdr/demos/beam.py 136-145. -/
noncomputable def beamBendingGrad (P : Beam) (x : Fin 2 → ℝ) : Fin 2 → ℝ :=
  ![-6*P.F*P.L/(x 0^2*x 1^2), -2*6*P.F*P.L/(x 0*x 1^3)]

/-- `beam_tip_deflect`, /repo/psdr/demos/beam.py 148-158. -/
noncomputable def beamTip (P : Beam) (x : Fin 2 → ℝ) : ℝ :=
  P.F*P.L^3/(3*P.E*(x 0*x 1^3/12))
/-- `beam_tip_deflect_grad`, /repo/psdr/demos/beam.py 160-172. -/
noncomputable def beamTipGrad (P : Beam) (x : Fin 2 → ℝ) : Fin 2 → ℝ :=
  ![-4*P.F*P.L^3/(P.E*x 0^2*x 1^3), -12*P.F*P.L^3/(P.E*x 0*x 1^4)]

/-- `beam_bending_stress`, /repo/psdr/demos/beam.py 174-184. -/
noncomputable def beamStress (P : Beam) (x : Fin 2 → ℝ) : ℝ := 6*P.F*P.L/(x 0*x 1^2)
/-- `beam_bending_stress_grad`, /repo/psdr/demos/beam.py 186-198. -/
noncomputable def beamStressGrad (P : Beam) (x : Fin 2 → ℝ) : Fin 2 → ℝ :=
  ![-6*P.F*P.L/(x 0^2*x 1^2), -12*P.F*P.L/(x 0*x 1^3)]

/-- `beam_shear_stress`, /repo/psdr/demos/beam.py 201-211. -/
noncomputable def beamShear (P : Beam) (x : Fin 2 → ℝ) : ℝ := 3*P.F/(2*x 0*x 1)
/-- `beam_shear_stress_grad`, /repo/psdr/demos/beam.py 213-225. -/
noncomputable def beamShearGrad (P : Beam) (x : Fin 2 → ℝ) : Fin 2 → ℝ :=
  ![-3*P.F/(2*x 0^2*x 1), -3*P.F/(2*x 0*x 1^2)]

/-- `beam_area_ratio`, /repo/psdr/demos/beam.py 227-236. -/
noncomputable def beamRatio (x : Fin 2 → ℝ) : ℝ := x 1/x 0
/-- `beam_area_ratio_grad`, /repo/psdr/demos/beam.py 238-251. -/
noncomputable def beamRatioGrad (x : Fin 2 → ℝ) : Fin 2 → ℝ := ![-x 1/x 0^2, 1/x 0]

/-- `beam_twist_buckling`, /repo/psdr/demos/beam.py 254-266. -/
noncomputable def beamTwist (P : Beam) (x : Fin 2 → ℝ) : ℝ :=
  (4/P.L^2)*sqrt (P.G*((x 0^3*x 1 + x 0*x 1^3)/12)*P.E*(x 0^3*x 1/12)/(1 - P.nu))
/-- `beam_twist_buckling_grad`, /repo/psdr/demos/beam.py 268-281. -/
noncomputable def beamTwistGrad (P : Beam) (x : Fin 2 → ℝ) : Fin 2 → ℝ :=
  let b := x 0; let h := x 1; let E := P.E; let G := P.G; let L := P.L; let nu := P.nu
  ![2*sqrt 3*sqrt (E*G*b^3*h*(b^3*h/12 + b*h^3/12)/(1 - nu))*(1 - nu)
      *(E*G*b^3*h*(b^2*h/4 + h^3/12)/(2*(1 - nu)) + 3*E*G*b^2*h*(b^3*h/12 + b*h^3/12)/(2*(1 - nu)))
      /(3*E*G*L^2*b^3*h*(b^3*h/12 + b*h^3/12)),
    2*sqrt 3*sqrt (E*G*b^3*h*(b^3*h/12 + b*h^3/12)/(1 - nu))*(1 - nu)
      *(E*G*b^3*h*(b^3/12 + b*h^2/4)/(2*(1 - nu)) + E*G*b^3*(b^3*h/12 + b*h^3/12)/(2*(1 - nu)))
      /(3*E*G*L^2*b^3*h*(b^3*h/12 + b*h^3/12))]

/-- `build_beam_domain`, /repo/psdr/demos/beam.py 94-101: the lower corner of the box. -/
noncomputable def beamLb : Fin 2 → ℝ := ![0.005, 0.02]

end Verif.Demo
