import Verif.Demo.WingProps
import Verif.Demo.NozzleWitness

/-!
# The hypotheses of the theorems on the demo functions are met
-/

namespace Verif.Demo

open Finset

/-- The middle of the design box of the piston: `piston_domain`, hence `piston_isGrad`. -/
example : pistonLb ≤ ![45, 0.0125, 0.006, 3000, 100000, 293, 350] := by
  intro i; fin_cases i <;> simp [pistonLb] <;> norm_num

/-- `hartmann_domain`, hence `uAve_isGrad` and `bind_isGrad`. -/
example : hartmannLb ≤ ![0.1, 2, 1, 0.5] := by
  intro i; fin_cases i <;> simp [hartmannLb] <;> norm_num

/-- `wing_domain_partial`: the box is not empty. -/
example : wingLb ≤ wingUb := by
  intro i; fin_cases i <;> simp [wingLb, wingUb] <;> norm_num

/-- `wing_partial` and `wing_trueGrad` at a point without sweep. -/
example : ApproxGrad (3 / 10 ^ 15) wing (fun j => if j = 3 then 0 else 1) (wingGrad fun j => if j = 3 then 0 else 1) := by
  refine wing_partial _ ?_ ?_ ?_ ?_ ?_ ?_ ?_ ?_ ?_ ?_ <;> simp

/-- `golinski_domain_partial`: the lower corner. -/
example : ApproxGrad (2 / 10 ^ 15) gol5 golLb (gol5Grad golLb) := (golinski_domain_partial golLb (le_refl _)).2.2.2.2.2.1

/-- `beam_domain`: the default material at the lower corner. -/
example : IsGrad (beamTwist beamDefault) beamLb (beamTwistGrad beamDefault beamLb) :=
  (beam_domain beamDefault beamLb (le_refl _) (by norm_num [beamDefault]) (by norm_num [beamDefault]) (by norm_num [beamDefault])
    (by norm_num [beamDefault])).2.2.2.2.2.2

/-- `bspline_iff` and `bspline_slopes`: a wall with a design satisfying its system. -/
example : ∃ S p, bspline smallWall = .ok S ∧ S.Holds p ∧ 0 < smallWall.delta ∧
    control smallWall.v smallWall.x p 0 < control smallWall.v smallWall.x p 1 := by
  obtain ⟨S, hS, p, hp, -⟩ := bspline_gap_false
  have hd : 0 < smallWall.delta := by norm_num [smallWall]
  exact ⟨S, p, hS, hp, hd, (bspline_slopes smallWall hS hd hp).1 1 (le_refl _) (by simp [Wall.nx, Wall.n, smallWall])⟩

/-- A wall with four control points and a throat required to be lowest, its neighbours sharing its height. -/
noncomputable def throatWall : Wall :=
  ⟨[0, 0.1, 0.2, 1, 0.3, 0.2, 0.2, 0.4], [1, 2, 3, 4, 5, 5, 5, 6], 1, .none, .none, .one (-1), .one 1, none, none, 0.2, true, none, none⟩

/-- `bspline_ok` and `bspline_throat_false` apply to it. -/
example : ∃ S, bspline throatWall = .ok S ∧ ∀ p, ¬ S.Holds p := by
  obtain ⟨S, hS⟩ := bspline_ok throatWall (by simp [Wall.nx, Wall.n, throatWall]) (by simp [Wall.nx, Wall.n, throatWall])
    (by simp [Wall.nx, Wall.n, throatWall]) (Or.inr (by simp [Wall.nx, Wall.n, throatWall])) (by simp [Wall.n, throatWall])
    trivial trivial trivial trivial
  exact ⟨S, hS, bspline_throat_false throatWall hS rfl (by simp [throatWall]) (by simp [Wall.nx, Wall.n, throatWall])
    (by simp [Wall.nx, Wall.n, throatWall])⟩

/-- `cleanup_iff` and `cleanup_all`: one row with a variable and one without. -/
example : ∃ S, cleanup [⟨1, [(fun _ => 2, 6), (fun _ => 0, 1)]⟩] = .ok S ∧ (S.Holds fun _ => 3) := by
  obtain ⟨S, hS⟩ := (cleanup_ok_iff [⟨1, [(fun _ => 2, 6), (fun _ => 0, 1)]⟩]).2 (by simp)
  refine ⟨S, hS, (cleanup_all hS ?_ _).2 ?_⟩
  · intro T hT r hr _
    rw [List.mem_singleton] at hT
    subst hT
    simp at hr
    rcases hr with rfl | rfl <;> norm_num
  · intro T hT
    rw [List.mem_singleton] at hT
    subst hT
    intro r hr
    simp at hr
    rcases hr with rfl | rfl <;> norm_num

end Verif.Demo
