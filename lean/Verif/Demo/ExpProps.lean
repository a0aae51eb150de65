import Verif.Demo.ExpLemmas
import Verif.Demo.OtlProps
import Verif.Demo.PistonModel
import Verif.Demo.GearModel
import Verif.Demo.WingModel

/-!
# C136: the demo problems are defined on their domains

For every point of the design domain the function and the gradient of a demo problem evaluate to real
numbers: no division by zero, no logarithm or root outside its range.  The expressions are the ones
translated from the python sources (`ExpModel`), so the same statements confirm that the functions studied
in C68 and C82 are the ones in the sources.
-/

namespace Verif.Demo

open Exp

local macro "vals" : tactic => `(tactic| simp only [val_c, val_x, val_add, val_sub, val_mul, val_div, val_neg,
  val_npow, val_rpow, val_sqrt, val_log, val_cos, val_sin, val_tan, val_tanh, val_sinh, val_pi, val_ofNat,
  val_ofScientific])

local macro "oks" : tactic => `(tactic| simp only [ok_c, ok_x, ok_add, ok_sub, ok_mul, ok_div, ok_neg,
  ok_npow, ok_rpow, ok_sqrt, ok_log, ok_cos, ok_sin, ok_tan, ok_tanh, ok_sinh, ok_pi, ok_ofNat,
  ok_ofScientific, val_c, val_x, val_add, val_sub, val_mul, val_div, val_neg,
  val_npow, val_rpow, val_sqrt, val_log, val_cos, val_sin, val_tan, val_tanh, val_sinh, val_pi, val_ofNat,
  val_ofScientific, and_true, true_and])

local macro "alls" : tactic => `(tactic| simp only [List.forall_mem_cons, List.not_mem_nil, IsEmpty.forall_iff,
  false_imp_iff, implies_true, and_true])

local macro "rows" : tactic => `(tactic| simp only [List.map_cons, List.map_nil])

/-- OTL circuit: function and gradient are defined and the voltage is positive on the domain (no upper
bounds needed). -/
theorem otl_eval (x : Fin 6 → ℝ) (hl : otlLb ≤ x) :
    otlE.eval x = some (otl x) ∧ evalAll otlGradE x = some (List.ofFn (otlGrad x)) ∧ 0 < otl x := by
  have h0 := hl 0
  have h1 := hl 1
  have h2 := hl 2
  have h3 := hl 3
  have h4 := hl 4
  have h5 := hl 5
  simp only [otlLb, Matrix.cons_val] at h0 h1 h2 h3 h4 h5
  have p0 : 0 < x 0 := lt_of_lt_of_le (by norm_num) h0
  have p1 : 0 < x 1 := lt_of_lt_of_le (by norm_num) h1
  have p2 : 0 < x 2 := lt_of_lt_of_le (by norm_num) h2
  have p3 : 0 < x 3 := lt_of_lt_of_le (by norm_num) h3
  have p4 : 0 < x 4 := lt_of_lt_of_le (by norm_num) h4
  have p5 : 0 < x 5 := lt_of_lt_of_le (by norm_num) h5
  refine ⟨?_, ?_, ?_⟩
  · refine (eval_eq_some_iff _ _ _).mpr ⟨?_, ?_⟩
    · unfold otlE; oks
      (repeat' apply And.intro) <;> positivity
    · unfold otlE otl; vals
  · refine (evalAll_eq_some_iff _ _ _).mpr ⟨?_, ?_⟩
    · unfold otlGradE; alls; oks
      (repeat' apply And.intro) <;> positivity
    · unfold otlGradE otlGrad; rows; vals
      simp [List.ofFn_succ]
  · unfold otl; positivity

/-- The borehole function and its gradient are defined, and the flow is positive, wherever the well is
narrower than the radius of influence, the material constants are positive and the upper aquifer has the
higher head. -/
theorem borehole_eval_of (x : Fin 8 → ℝ) (p0 : 0 < x 0) (h01 : x 0 < x 1) (p2 : 0 < x 2) (p4 : 0 < x 4)
    (h53 : x 5 < x 3) (p6 : 0 < x 6) (p7 : 0 < x 7) :
    boreholeE.eval x = some (borehole x) ∧
      evalAll boreholeGradE x = some (List.ofFn (boreholeGrad x)) ∧ 0 < borehole x := by
  have p1 : 0 < x 1 := p0.trans h01
  have hd : 0 < x 3 - x 5 := sub_pos.mpr h53
  have hl : 0 < Real.log (x 1 / x 0) := by
    refine Real.log_pos ?_
    rw [lt_div_iff₀ p0]
    linarith
  have hr : 0 < x 1 / x 0 := by positivity
  refine ⟨?_, ?_, ?_⟩
  · refine (eval_eq_some_iff _ _ _).mpr ⟨?_, ?_⟩
    · unfold boreholeE; oks
      generalize Real.log (x 1 / x 0) = l at *
      (repeat' apply And.intro) <;> positivity
    · unfold boreholeE borehole; vals
  · refine (evalAll_eq_some_iff _ _ _).mpr ⟨?_, ?_⟩
    · unfold boreholeGradE; alls; oks
      generalize Real.log (x 1 / x 0) = l at *
      (repeat' apply And.intro) <;> positivity
    · unfold boreholeGradE boreholeGrad; rows; vals
      simp [List.ofFn_succ]
  · unfold borehole
    generalize Real.log (x 1 / x 0) = l at *
    positivity

/-- Borehole function on its design box. -/
theorem borehole_eval (x : Fin 8 → ℝ) (hl : boreholeLb ≤ x) (hu : x ≤ boreholeUb) :
    boreholeE.eval x = some (borehole x) ∧
      evalAll boreholeGradE x = some (List.ofFn (boreholeGrad x)) ∧ 0 < borehole x := by
  have h0 := hl 0
  have h1 := hl 1
  have h2 := hl 2
  have h3 := hl 3
  have h4 := hl 4
  have h5 := hl 5
  have h6 := hl 6
  have h7 := hl 7
  simp only [boreholeLb, Matrix.cons_val] at h0 h1 h2 h3 h4 h5 h6 h7
  have p0 : 0 < x 0 := lt_of_lt_of_le (by norm_num) h0
  have p1 : 0 < x 1 := lt_of_lt_of_le (by norm_num) h1
  have p2 : 0 < x 2 := lt_of_lt_of_le (by norm_num) h2
  have p3 : 0 < x 3 := lt_of_lt_of_le (by norm_num) h3
  have p4 : 0 < x 4 := lt_of_lt_of_le (by norm_num) h4
  have p5 : 0 < x 5 := lt_of_lt_of_le (by norm_num) h5
  have p6 : 0 < x 6 := lt_of_lt_of_le (by norm_num) h6
  have p7 : 0 < x 7 := lt_of_lt_of_le (by norm_num) h7
  have u0 := hu 0
  have u5 := hu 5
  simp only [boreholeUb, Matrix.cons_val] at u0 u5
  norm_num at u0 u5 h1 h3
  exact borehole_eval_of x p0 (by linarith) p2 p4 (by linarith) p6 p7

/-- The uncertain borehole domain (borehole.py 89-107): the well radius is normal, not truncated, so every
real number is a possible radius; `r` is log-normal, hence positive; the other variables lie in their
ranges. -/
def BoreholeUncertain (x : Fin 8 → ℝ) : Prop :=
  0 < x 1 ∧ ∀ i : Fin 8, 2 ≤ i → boreholeLb i ≤ x i ∧ x i ≤ boreholeUb i

/-- On the uncertain domain the function is defined and positive while `0 < r_w < r` … -/
theorem borehole_uncertain_eval_partial (x : Fin 8 → ℝ) (h : BoreholeUncertain x) (p0 : 0 < x 0)
    (h01 : x 0 < x 1) :
    boreholeE.eval x = some (borehole x) ∧
      evalAll boreholeGradE x = some (List.ofFn (boreholeGrad x)) ∧ 0 < borehole x := by
  have h2 := (h.2 2 (by decide)).1
  have h3 := (h.2 3 (by decide)).1
  have h4 := (h.2 4 (by decide)).1
  have u5 := (h.2 5 (by decide)).2
  have h6 := (h.2 6 (by decide)).1
  have h7 := (h.2 7 (by decide)).1
  simp only [boreholeLb, boreholeUb, Matrix.cons_val] at h2 h3 h4 u5 h6 h7
  norm_num at h2 h3 h4 u5 h6 h7
  exact borehole_eval_of x p0 h01 (by linarith) (by linarith) (by linarith) (by linarith) (by linarith)

/-- … and undefined at every point with a radius that is not positive, or equal to `r`. -/
theorem borehole_uncertain_undefined (x : Fin 8 → ℝ) (h : BoreholeUncertain x) (h0 : x 0 ≤ 0 ∨ x 0 = x 1) :
    boreholeE.eval x = none ∧ evalAll boreholeGradE x = none := by
  have key : ¬ (0 < x 1 / x 0 ∧ Real.log (x 1 / x 0) ≠ 0) := by
    rintro ⟨ha, hb⟩
    rcases h0 with h0 | h0
    · exact absurd ha (not_lt.mpr (div_nonpos_of_nonneg_of_nonpos h.1.le h0))
    · rw [h0, div_self h.1.ne'] at hb
      exact hb Real.log_one
  constructor
  · rw [eval_eq_none_iff]
    unfold boreholeE; oks
    intro hc
    refine key ⟨by tauto, fun e => hc.2 ?_⟩
    rw [e, zero_mul]
  · rw [evalAll_eq_none_iff]
    by_contra hc
    push Not at hc
    unfold boreholeGradE at hc
    have h1 := (List.forall_mem_cons.mp hc).1
    revert h1
    oks
    intro h1
    refine key ⟨?_, fun e => h1.2.2 ?_⟩
    · tauto
    · rw [e, mul_zero]

/-- The uncertain domain of the borehole function contains points where it is not defined. -/
theorem borehole_uncertain_false : ∃ x, BoreholeUncertain x ∧ boreholeE.eval x = none := by
  refine ⟨fun i => if i = 0 then 0 else if i = 1 then 1 else boreholeLb i, ?_, ?_⟩
  rotate_left
  · refine (borehole_uncertain_undefined _ ?_ (Or.inl (by simp))).1
    refine ⟨by simp, fun i hi => ?_⟩
    have e0 : i ≠ 0 := by rintro rfl; exact absurd hi (by decide)
    have e1 : i ≠ 1 := by rintro rfl; exact absurd hi (by decide)
    simp only [e0, e1, if_false]
    refine ⟨le_refl _, ?_⟩
    fin_cases i <;> simp [boreholeLb, boreholeUb] <;> norm_num
  · refine ⟨by simp, fun i hi => ?_⟩
    have e0 : i ≠ 0 := by rintro rfl; exact absurd hi (by decide)
    have e1 : i ≠ 1 := by rintro rfl; exact absurd hi (by decide)
    simp only [e0, e1, if_false]
    refine ⟨le_refl _, ?_⟩
    fin_cases i <;> simp [boreholeLb, boreholeUb] <;> norm_num

/-- The arm function is defined everywhere; its gradient exactly where the arm does not end at the
origin. -/
theorem arm_eval (x : Fin 8 → ℝ) :
    armE.eval x = some (arm x) ∧ 0 ≤ arm x ∧
      (arm x ≠ 0 → evalAll armGradE x = some (List.ofFn (armGrad x))) ∧
      (arm x = 0 → evalAll armGradE x = none) := by
  have hr := armRad_eq x
  unfold armRad at hr
  have hn : 0 ≤ armU x ^ 2 + armV x ^ 2 := by positivity
  refine ⟨(eval_eq_some_iff _ _ _).mpr ⟨?_, ?_⟩, Real.sqrt_nonneg _, fun h => ?_, fun h => ?_⟩
  · unfold armE; oks
    positivity
  · unfold armE arm armU armV; vals
  · refine (evalAll_eq_some_iff _ _ _).mpr ⟨?_, ?_⟩
    · unfold armGradE; alls; oks
      rw [hr]
      exact ⟨⟨hn, h⟩, ⟨hn, h⟩, ⟨hn, h⟩, ⟨hn, h⟩, ⟨hn, h⟩, ⟨hn, h⟩, ⟨hn, h⟩⟩
    · unfold armGradE armGrad; rows; vals
      simp [List.ofFn_succ, armRad]
  · rw [evalAll_eq_none_iff]
    by_contra hc
    push Not at hc
    unfold armGradE at hc
    simp only [List.forall_mem_cons] at hc
    have h2 := hc.2.1
    revert h2
    oks
    rw [hr]
    exact fun h2 => h2.2 h

/-- A folded arm in the interior of the domain (all angles `π`, all lengths `1/2`): the gradient is not
defined. -/
theorem arm_grad_undefined_false : ∃ x : Fin 8 → ℝ,
    (∀ i, i.val < 4 → 0 < x i ∧ x i < 2 * Real.pi) ∧ (∀ i, 4 ≤ i.val → 0 < x i ∧ x i < 1) ∧
      evalAll armGradE x = none := by
  have hpi := Real.pi_pos
  refine ⟨fun i => if i.val < 4 then Real.pi else 1 / 2, fun i hi => ?_, fun i hi => ?_, ?_⟩
  · simp only [hi, if_true]
    constructor <;> linarith
  · simp only [not_lt.mpr hi, if_false]
    norm_num
  · refine (arm_eval _).2.2.2 ?_
    have c2 : Real.cos (Real.pi + Real.pi) = 1 := by rw [← two_mul]; exact Real.cos_two_pi
    have s2 : Real.sin (Real.pi + Real.pi) = 0 := by rw [← two_mul]; exact Real.sin_two_pi
    have c3 : Real.cos (Real.pi + Real.pi + Real.pi) = -1 := by rw [Real.cos_add_pi, c2]
    have s3 : Real.sin (Real.pi + Real.pi + Real.pi) = 0 := by rw [Real.sin_add_pi, s2, neg_zero]
    have c4 : Real.cos (Real.pi + Real.pi + Real.pi + Real.pi) = 1 := by
      rw [Real.cos_add_pi, c3, neg_neg]
    have s4 : Real.sin (Real.pi + Real.pi + Real.pi + Real.pi) = 0 := by
      rw [Real.sin_add_pi, s3, neg_zero]
    have hU : armU (fun i : Fin 8 => if i.val < 4 then Real.pi else 1 / 2) = 0 := by
      simp [armU, c2, c3, c4]
    have hV : armV (fun i : Fin 8 => if i.val < 4 then Real.pi else 1 / 2) = 0 := by
      simp [armV, s2, s3, s4]
    unfold arm
    rw [hU, hV]
    simp

/-- Piston: function and gradient are defined and the cycle time is positive. -/
theorem piston_eval (x : Fin 7 → ℝ) (hl : pistonLb ≤ x) :
    pistonE.eval x = some (piston x) ∧ evalAll pistonGradE x = some (List.ofFn (pistonGrad x)) ∧
      0 < piston x := by
  have h0 := hl 0
  have h1 := hl 1
  have h2 := hl 2
  have h3 := hl 3
  have h4 := hl 4
  have h5 := hl 5
  have h6 := hl 6
  simp only [pistonLb, Matrix.cons_val] at h0 h1 h2 h3 h4 h5 h6
  have p0 : 0 < x 0 := lt_of_lt_of_le (by norm_num) h0
  have p1 : 0 < x 1 := lt_of_lt_of_le (by norm_num) h1
  have p2 : 0 < x 2 := lt_of_lt_of_le (by norm_num) h2
  have p3 : 0 < x 3 := lt_of_lt_of_le (by norm_num) h3
  have p4 : 0 < x 4 := lt_of_lt_of_le (by norm_num) h4
  have p5 : 0 < x 5 := lt_of_lt_of_le (by norm_num) h5
  have p6 : 0 < x 6 := lt_of_lt_of_le (by norm_num) h6
  have hrad : 0 < 4 * x 4 * x 5 * x 2 * x 3 / x 6 + (19.62 * x 0 + x 4 * x 1 - x 2 * x 3 / x 1) ^ 2 := by
    positivity
  have hrad' : 0 < (x 4 * x 1 + 19.62 * x 0 - x 3 * x 2 / x 1) ^ 2 + 4 * x 3 * x 4 * x 2 / x 6 * x 5 := by
    positivity
  have hD' : 0 < Real.sqrt ((x 4 * x 1 + 19.62 * x 0 - x 3 * x 2 / x 1) ^ 2
      + 4 * x 3 * x 4 * x 2 / x 6 * x 5) - (x 4 * x 1 + 19.62 * x 0 - x 3 * x 2 / x 1) := by
    rw [sub_pos]
    refine Real.lt_sqrt_of_sq_lt ?_
    have : 0 < 4 * x 3 * x 4 * x 2 / x 6 * x 5 := by positivity
    linarith
  have hV : 0 < pistonV x := by
    unfold pistonV pistonA
    positivity
  refine ⟨?_, ?_, ?_⟩
  · refine (eval_eq_some_iff _ _ _).mpr ⟨?_, ?_⟩
    · unfold pistonE; oks
      set D := Real.sqrt ((x 4 * x 1 + 19.62 * x 0 - x 3 * x 2 / x 1) ^ 2
      + 4 * x 3 * x 4 * x 2 / x 6 * x 5) - (x 4 * x 1 + 19.62 * x 0 - x 3 * x 2 / x 1)
      (repeat' apply And.intro) <;> positivity
    · unfold pistonE piston pistonV pistonA; vals
  · have e0 : pistonGradS0.Ok x ∧ pistonGradS0.val x
        = 4 * x 4 * x 5 * x 2 * x 3 / x 6 + (19.62 * x 0 + x 4 * x 1 - x 2 * x 3 / x 1) ^ 2 := by
      unfold pistonGradS0; oks
      (repeat' apply And.intro) <;> positivity
    set R := Real.sqrt (4 * x 4 * x 5 * x 2 * x 3 / x 6
      + (19.62 * x 0 + x 4 * x 1 - x 2 * x 3 / x 1) ^ 2) with hR
    have pR : 0 < R := Real.sqrt_pos.2 hrad
    have e1 : pistonGradS1.Ok x ∧ pistonGradS1.val x = R := by
      unfold pistonGradS1; oks
      exact ⟨⟨e0.1, e0.2 ▸ hrad.le⟩, by rw [e0.2]⟩
    set D := -19.62 * x 0 - x 4 * x 1 + R + x 2 * x 3 / x 1 with hDd
    have pD : 0 < D := by
      have : D = Real.sqrt ((x 4 * x 1 + 19.62 * x 0 - x 3 * x 2 / x 1) ^ 2
          + 4 * x 3 * x 4 * x 2 / x 6 * x 5) - (x 4 * x 1 + 19.62 * x 0 - x 3 * x 2 / x 1) := by
        rw [hDd, hR, show 4 * x 4 * x 5 * x 2 * x 3 / x 6 + (19.62 * x 0 + x 4 * x 1 - x 2 * x 3 / x 1) ^ 2
          = (x 4 * x 1 + 19.62 * x 0 - x 3 * x 2 / x 1) ^ 2 + 4 * x 3 * x 4 * x 2 / x 6 * x 5 by ring]
        ring
      rw [this]; exact hD'
    have e3 : pistonGradS3.Ok x ∧ pistonGradS3.val x = D := by
      unfold pistonGradS3 pistonGradS2; oks
      exact ⟨⟨e1.1, p1.ne'⟩, by rw [e1.2]⟩
    set Q := 4 * x 4 * x 5 * x 2 * x 3 ^ 2 / (x 6 * D ^ 2) + x 3 with hQ
    have pQ : 0 < Q := by positivity
    have e4 : pistonGradS4.Ok x ∧ pistonGradS4.val x = Q := by
      unfold pistonGradS4; oks
      rw [e3.2]
      exact ⟨⟨e3.1, by positivity⟩, rfl⟩
    have e5 : pistonGradS5.Ok x ∧ pistonGradS5.val x = Real.sqrt (x 0 / Q) := by
      unfold pistonGradS5; oks
      rw [e4.2]
      exact ⟨⟨⟨e4.1, pQ.ne'⟩, by positivity⟩, rfl⟩
    have q0 := e0.1
    have q1 := e1.1
    have q3 := e3.1
    have q4 := e4.1
    have q5 := e5.1
    refine (evalAll_eq_some_iff _ _ _).mpr ⟨?_, ?_⟩
    · unfold pistonGradE; alls; oks
      rw [e1.2, e3.2, e4.2]
      clear_value R D Q
      simp only [q0, q1, q3, q4, q5, true_and, and_true]
      (repeat' apply And.intro) <;> positivity
    · unfold pistonGradE pistonGrad; rows; vals
      rw [e1.2, e3.2, e4.2, e5.2]
      simp only [List.ofFn_succ, List.ofFn_zero, Matrix.cons_val, ← hR, ← hDd, ← hQ, Fin.succ_zero_eq_one,
        Fin.succ_one_eq_two, Fin.reduceSucc]
  · unfold piston; positivity

/-- Hartmann problem: both quantities of interest and their gradients are defined. -/
theorem hartmann_eval (x : Fin 4 → ℝ) (hl : hartmannLb ≤ x) :
    uAveE.eval x = some (uAve x) ∧ evalAll uAveGradE x = some (List.ofFn (uAveGrad x)) ∧
    bindE.eval x = some (bind x) ∧ evalAll bindGradE x = some (List.ofFn (bindGrad x)) := by
  have h0 := hl 0
  have h1 := hl 1
  have h2 := hl 2
  have h3 := hl 3
  simp only [hartmannLb, Matrix.cons_val] at h0 h1 h2 h3
  have p0 : 0 < x 0 := lt_of_lt_of_le (by norm_num) h0
  have p1 : 0 < x 1 := lt_of_lt_of_le (by norm_num) h1
  have p2 : 0 < x 2 := lt_of_lt_of_le (by norm_num) h2
  have p3 : 0 < x 3 := lt_of_lt_of_le (by norm_num) h3
  have ht : 0 < Real.tanh (x 3 * 1 / Real.sqrt (x 2 * x 0)) := by
    rw [Real.tanh_eq_sinh_div_cosh]; positivity
  have hs : 0 < Real.sinh (x 3 * 1 / Real.sqrt (x 2 * x 0)) := Real.sinh_pos_iff.mpr (by positivity)
  refine ⟨?_, ?_, ?_, ?_⟩
  · refine (eval_eq_some_iff _ _ _).mpr ⟨?_, ?_⟩
    · unfold uAveE; oks
      all_goals (repeat' apply And.intro) <;> positivity
    · unfold uAveE uAve; vals
      all_goals norm_num
  · refine (evalAll_eq_some_iff _ _ _).mpr ⟨?_, ?_⟩
    · unfold uAveGradE; alls; oks
      all_goals (repeat' apply And.intro) <;> positivity
    · unfold uAveGradE uAveGrad; rows; vals
      simp [List.ofFn_succ]
      all_goals norm_num
  · refine (eval_eq_some_iff _ _ _).mpr ⟨?_, ?_⟩
    · unfold bindE; oks
      all_goals (repeat' apply And.intro) <;> positivity
    · unfold bindE bind; vals
      all_goals norm_num
  · refine (evalAll_eq_some_iff _ _ _).mpr ⟨?_, ?_⟩
    · unfold bindGradE; alls; oks
      all_goals (repeat' apply And.intro) <;> positivity
    · unfold bindGradE bindGrad; rows; vals
      simp [List.ofFn_succ]
      all_goals norm_num

/-- Golinski gear box: the volume, the eleven constraints and their gradients are defined. -/
theorem golinski_eval (x : Fin 6 → ℝ) (hl : golLb ≤ x) :
    golVolE.eval x = some (golVol x) ∧ evalAll golVolGradE x = some (List.ofFn (golVolGrad x)) ∧
    gol1E.eval x = some (gol1 x) ∧ evalAll gol1GradE x = some (List.ofFn (gol1Grad x)) ∧
    gol2E.eval x = some (gol2 x) ∧ evalAll gol2GradE x = some (List.ofFn (gol2Grad x)) ∧
    gol3E.eval x = some (gol3 x) ∧ evalAll gol3GradE x = some (List.ofFn (gol3Grad x)) ∧
    gol4E.eval x = some (gol4 x) ∧ evalAll gol4GradE x = some (List.ofFn (gol4Grad x)) ∧
    gol5E.eval x = some (gol5 x) ∧ evalAll gol5GradE x = some (List.ofFn (gol5Grad x)) ∧
    gol6E.eval x = some (gol6 x) ∧ evalAll gol6GradE x = some (List.ofFn (gol6Grad x)) ∧
    gol7E.eval x = some (gol7 x) ∧ evalAll gol7GradE x = some (List.ofFn (gol7Grad x)) ∧
    gol8E.eval x = some (gol8 x) ∧ evalAll gol8GradE x = some (List.ofFn (gol8Grad x)) ∧
    gol9E.eval x = some (gol9 x) ∧ evalAll gol9GradE x = some (List.ofFn (gol9Grad x)) ∧
    gol24E.eval x = some (gol24 x) ∧ evalAll gol24GradE x = some (List.ofFn (gol24Grad x)) ∧
    gol25E.eval x = some (gol25 x) ∧ evalAll gol25GradE x = some (List.ofFn (gol25Grad x)) := by
  have h0 := hl 0
  have h1 := hl 1
  have h2 := hl 2
  have h3 := hl 3
  have h4 := hl 4
  have h5 := hl 5
  simp only [golLb, Matrix.cons_val] at h0 h1 h2 h3 h4 h5
  have p0 : 0 < x 0 := lt_of_lt_of_le (by norm_num) h0
  have p1 : 0 < x 1 := lt_of_lt_of_le (by norm_num) h1
  have p2 : 0 < x 2 := lt_of_lt_of_le (by norm_num) h2
  have p3 : 0 < x 3 := lt_of_lt_of_le (by norm_num) h3
  have p4 : 0 < x 4 := lt_of_lt_of_le (by norm_num) h4
  have p5 : 0 < x 5 := lt_of_lt_of_le (by norm_num) h5
  refine ⟨?_, ?_, ?_, ?_, ?_, ?_, ?_, ?_, ?_, ?_, ?_, ?_, ?_, ?_, ?_, ?_, ?_, ?_, ?_, ?_, ?_, ?_, ?_, ?_⟩
  · refine (eval_eq_some_iff _ _ _).mpr ⟨?_, ?_⟩
    · unfold golVolE; oks
      all_goals (repeat' apply And.intro) <;> positivity
    · unfold golVolE golVol; vals; (try simp only [gx3])
      all_goals norm_num
  · refine (evalAll_eq_some_iff _ _ _).mpr ⟨?_, ?_⟩
    · unfold golVolGradE; alls; oks
      all_goals (repeat' apply And.intro) <;> positivity
    · unfold golVolGradE golVolGrad; rows; vals
      simp [List.ofFn_succ, gx3]
      all_goals norm_num
  · refine (eval_eq_some_iff _ _ _).mpr ⟨?_, ?_⟩
    · unfold gol1E; oks
      all_goals (repeat' apply And.intro) <;> positivity
    · unfold gol1E gol1; vals; (try simp only [gx3])
      all_goals norm_num
  · refine (evalAll_eq_some_iff _ _ _).mpr ⟨?_, ?_⟩
    · unfold gol1GradE; alls; oks
      all_goals (repeat' apply And.intro) <;> positivity
    · unfold gol1GradE gol1Grad; rows; vals
      simp [List.ofFn_succ, gx3]
      all_goals norm_num
  · refine (eval_eq_some_iff _ _ _).mpr ⟨?_, ?_⟩
    · unfold gol2E; oks
      all_goals (repeat' apply And.intro) <;> positivity
    · unfold gol2E gol2; vals; (try simp only [gx3])
      all_goals norm_num
  · refine (evalAll_eq_some_iff _ _ _).mpr ⟨?_, ?_⟩
    · unfold gol2GradE; alls; oks
      all_goals (repeat' apply And.intro) <;> positivity
    · unfold gol2GradE gol2Grad; rows; vals
      simp [List.ofFn_succ, gx3]
      all_goals norm_num
  · refine (eval_eq_some_iff _ _ _).mpr ⟨?_, ?_⟩
    · unfold gol3E; oks
      all_goals (repeat' apply And.intro) <;> positivity
    · unfold gol3E gol3; vals; (try simp only [gx3])
      all_goals norm_num
  · refine (evalAll_eq_some_iff _ _ _).mpr ⟨?_, ?_⟩
    · unfold gol3GradE; alls; oks
      all_goals (repeat' apply And.intro) <;> positivity
    · unfold gol3GradE gol3Grad; rows; vals
      simp [List.ofFn_succ, gx3]
      all_goals norm_num
  · refine (eval_eq_some_iff _ _ _).mpr ⟨?_, ?_⟩
    · unfold gol4E; oks
      all_goals (repeat' apply And.intro) <;> positivity
    · unfold gol4E gol4; vals; (try simp only [gx3])
      all_goals norm_num
  · refine (evalAll_eq_some_iff _ _ _).mpr ⟨?_, ?_⟩
    · unfold gol4GradE; alls; oks
      all_goals (repeat' apply And.intro) <;> positivity
    · unfold gol4GradE gol4Grad; rows; vals
      simp [List.ofFn_succ, gx3]
      all_goals norm_num
  · refine (eval_eq_some_iff _ _ _).mpr ⟨?_, ?_⟩
    · unfold gol5E; oks
      all_goals (repeat' apply And.intro) <;> positivity
    · unfold gol5E gol5; vals; (try simp only [gx3])
      all_goals norm_num
  · refine (evalAll_eq_some_iff _ _ _).mpr ⟨?_, ?_⟩
    · unfold gol5GradE; alls; oks
      all_goals (repeat' apply And.intro) <;> positivity
    · unfold gol5GradE gol5Grad; rows; vals
      simp [List.ofFn_succ, gx3]
      all_goals norm_num
  · refine (eval_eq_some_iff _ _ _).mpr ⟨?_, ?_⟩
    · unfold gol6E; oks
      all_goals (repeat' apply And.intro) <;> positivity
    · unfold gol6E gol6; vals; (try simp only [gx3])
      all_goals norm_num
  · refine (evalAll_eq_some_iff _ _ _).mpr ⟨?_, ?_⟩
    · unfold gol6GradE; alls; oks
      all_goals (repeat' apply And.intro) <;> positivity
    · unfold gol6GradE gol6Grad; rows; vals
      simp [List.ofFn_succ, gx3]
      all_goals norm_num
  · refine (eval_eq_some_iff _ _ _).mpr ⟨?_, ?_⟩
    · unfold gol7E; oks
      all_goals (repeat' apply And.intro) <;> positivity
    · unfold gol7E gol7; vals; (try simp only [gx3])
      all_goals norm_num
  · refine (evalAll_eq_some_iff _ _ _).mpr ⟨?_, ?_⟩
    · unfold gol7GradE; alls; oks
      all_goals (repeat' apply And.intro) <;> positivity
    · unfold gol7GradE gol7Grad; rows; vals
      simp [List.ofFn_succ, gx3]
      all_goals norm_num
  · refine (eval_eq_some_iff _ _ _).mpr ⟨?_, ?_⟩
    · unfold gol8E; oks
      all_goals (repeat' apply And.intro) <;> positivity
    · unfold gol8E gol8; vals; (try simp only [gx3])
      all_goals norm_num
  · refine (evalAll_eq_some_iff _ _ _).mpr ⟨?_, ?_⟩
    · unfold gol8GradE; alls; oks
      all_goals (repeat' apply And.intro) <;> positivity
    · unfold gol8GradE gol8Grad; rows; vals
      simp [List.ofFn_succ, gx3]
      all_goals norm_num
  · refine (eval_eq_some_iff _ _ _).mpr ⟨?_, ?_⟩
    · unfold gol9E; oks
      all_goals (repeat' apply And.intro) <;> positivity
    · unfold gol9E gol9; vals; (try simp only [gx3])
      all_goals norm_num
  · refine (evalAll_eq_some_iff _ _ _).mpr ⟨?_, ?_⟩
    · unfold gol9GradE; alls; oks
      all_goals (repeat' apply And.intro) <;> positivity
    · unfold gol9GradE gol9Grad; rows; vals
      simp [List.ofFn_succ, gx3]
      all_goals norm_num
  · refine (eval_eq_some_iff _ _ _).mpr ⟨?_, ?_⟩
    · unfold gol24E; oks
      all_goals (repeat' apply And.intro) <;> positivity
    · unfold gol24E gol24; vals; (try simp only [gx3])
      all_goals norm_num
  · refine (evalAll_eq_some_iff _ _ _).mpr ⟨?_, ?_⟩
    · unfold gol24GradE; alls; oks
      all_goals (repeat' apply And.intro) <;> positivity
    · unfold gol24GradE gol24Grad; rows; vals
      simp [List.ofFn_succ, gx3]
      all_goals norm_num
  · refine (eval_eq_some_iff _ _ _).mpr ⟨?_, ?_⟩
    · unfold gol25E; oks
      all_goals (repeat' apply And.intro) <;> positivity
    · unfold gol25E gol25; vals; (try simp only [gx3])
      all_goals norm_num
  · refine (evalAll_eq_some_iff _ _ _).mpr ⟨?_, ?_⟩
    · unfold gol25GradE; alls; oks
      all_goals (repeat' apply And.intro) <;> positivity
    · unfold gol25GradE gol25Grad; rows; vals
      simp [List.ofFn_succ, gx3]
      all_goals norm_num

/-- Nowacki beam: all seven quantities and their gradients are defined, and the quantities are positive. -/
theorem beam_eval (x : Fin 2 → ℝ) (hl : beamLb ≤ x) :
    beamAreaE.eval x = some (beamArea x) ∧ evalAll beamAreaGradE x = some (List.ofFn (beamAreaGrad x)) ∧ 0 < beamArea x ∧
    beamBendingE.eval x = some (beamBending beamDefault x) ∧ evalAll beamBendingGradE x = some (List.ofFn (beamBendingGrad beamDefault x)) ∧ 0 < beamBending beamDefault x ∧
    beamTipE.eval x = some (beamTip beamDefault x) ∧ evalAll beamTipGradE x = some (List.ofFn (beamTipGrad beamDefault x)) ∧ 0 < beamTip beamDefault x ∧
    beamStressE.eval x = some (beamStress beamDefault x) ∧ evalAll beamStressGradE x = some (List.ofFn (beamStressGrad beamDefault x)) ∧ 0 < beamStress beamDefault x ∧
    beamShearE.eval x = some (beamShear beamDefault x) ∧ evalAll beamShearGradE x = some (List.ofFn (beamShearGrad beamDefault x)) ∧ 0 < beamShear beamDefault x ∧
    beamRatioE.eval x = some (beamRatio x) ∧ evalAll beamRatioGradE x = some (List.ofFn (beamRatioGrad x)) ∧ 0 < beamRatio x ∧
    beamTwistE.eval x = some (beamTwist beamDefault x) ∧ evalAll beamTwistGradE x = some (List.ofFn (beamTwistGrad beamDefault x)) ∧ 0 < beamTwist beamDefault x := by
  have h0 := hl 0
  have h1 := hl 1
  simp only [beamLb, Matrix.cons_val] at h0 h1
  have p0 : 0 < x 0 := lt_of_lt_of_le (by norm_num) h0
  have p1 : 0 < x 1 := lt_of_lt_of_le (by norm_num) h1
  refine ⟨?_, ?_, ?_, ?_, ?_, ?_, ?_, ?_, ?_, ?_, ?_, ?_, ?_, ?_, ?_, ?_, ?_, ?_, ?_, ?_, ?_⟩
  · refine (eval_eq_some_iff _ _ _).mpr ⟨?_, ?_⟩
    · unfold beamAreaE; oks
      all_goals (repeat' apply And.intro) <;> positivity
    · unfold beamAreaE beamArea; vals; (try simp only [beamDefault])
      all_goals norm_num
  · refine (evalAll_eq_some_iff _ _ _).mpr ⟨?_, ?_⟩
    · unfold beamAreaGradE; alls; oks
      all_goals (repeat' apply And.intro) <;> positivity
    · unfold beamAreaGradE beamAreaGrad; rows; vals
      simp [List.ofFn_succ, beamDefault]
      all_goals norm_num
  · unfold beamArea; positivity
  · refine (eval_eq_some_iff _ _ _).mpr ⟨?_, ?_⟩
    · unfold beamBendingE; oks
      all_goals (repeat' apply And.intro) <;> positivity
    · unfold beamBendingE beamBending; vals; (try simp only [beamDefault])
      all_goals norm_num
  · refine (evalAll_eq_some_iff _ _ _).mpr ⟨?_, ?_⟩
    · unfold beamBendingGradE; alls; oks
      all_goals (repeat' apply And.intro) <;> positivity
    · unfold beamBendingGradE beamBendingGrad; rows; vals
      simp [List.ofFn_succ, beamDefault]
      all_goals norm_num
  · unfold beamBending beamDefault; positivity
  · refine (eval_eq_some_iff _ _ _).mpr ⟨?_, ?_⟩
    · unfold beamTipE; oks
      all_goals (repeat' apply And.intro) <;> positivity
    · unfold beamTipE beamTip; vals; (try simp only [beamDefault])
      all_goals norm_num
  · refine (evalAll_eq_some_iff _ _ _).mpr ⟨?_, ?_⟩
    · unfold beamTipGradE; alls; oks
      all_goals (repeat' apply And.intro) <;> positivity
    · unfold beamTipGradE beamTipGrad; rows; vals
      simp [List.ofFn_succ, beamDefault]
      all_goals norm_num
  · unfold beamTip beamDefault; positivity
  · refine (eval_eq_some_iff _ _ _).mpr ⟨?_, ?_⟩
    · unfold beamStressE; oks
      all_goals (repeat' apply And.intro) <;> positivity
    · unfold beamStressE beamStress; vals; (try simp only [beamDefault])
      all_goals norm_num
  · refine (evalAll_eq_some_iff _ _ _).mpr ⟨?_, ?_⟩
    · unfold beamStressGradE; alls; oks
      all_goals (repeat' apply And.intro) <;> positivity
    · unfold beamStressGradE beamStressGrad; rows; vals
      simp [List.ofFn_succ, beamDefault]
      all_goals norm_num
  · unfold beamStress beamDefault; positivity
  · refine (eval_eq_some_iff _ _ _).mpr ⟨?_, ?_⟩
    · unfold beamShearE; oks
      all_goals (repeat' apply And.intro) <;> positivity
    · unfold beamShearE beamShear; vals; (try simp only [beamDefault])
      all_goals norm_num
  · refine (evalAll_eq_some_iff _ _ _).mpr ⟨?_, ?_⟩
    · unfold beamShearGradE; alls; oks
      all_goals (repeat' apply And.intro) <;> positivity
    · unfold beamShearGradE beamShearGrad; rows; vals
      simp [List.ofFn_succ, beamDefault]
      all_goals norm_num
  · unfold beamShear beamDefault; positivity
  · refine (eval_eq_some_iff _ _ _).mpr ⟨?_, ?_⟩
    · unfold beamRatioE; oks
      all_goals (repeat' apply And.intro) <;> positivity
    · unfold beamRatioE beamRatio; vals; (try simp only [beamDefault])
      all_goals norm_num
  · refine (evalAll_eq_some_iff _ _ _).mpr ⟨?_, ?_⟩
    · unfold beamRatioGradE; alls; oks
      all_goals (repeat' apply And.intro) <;> positivity
    · unfold beamRatioGradE beamRatioGrad; rows; vals
      simp [List.ofFn_succ, beamDefault]
      all_goals norm_num
  · unfold beamRatio; positivity
  · refine (eval_eq_some_iff _ _ _).mpr ⟨?_, ?_⟩
    · unfold beamTwistE; oks
      all_goals (repeat' apply And.intro) <;> positivity
    · unfold beamTwistE beamTwist; vals; (try simp only [beamDefault])
      all_goals norm_num
  · refine (evalAll_eq_some_iff _ _ _).mpr ⟨?_, ?_⟩
    · unfold beamTwistGradE; alls; oks
      all_goals (repeat' apply And.intro) <;> positivity
    · unfold beamTwistGradE beamTwistGrad; rows; vals
      simp [List.ofFn_succ, beamDefault]
      all_goals norm_num
  · unfold beamTwist beamDefault; norm_num; positivity

/-- Wing weight: function and gradient are defined and the weight is positive. -/
theorem wing_eval (x : Fin 10 → ℝ) (hl : wingLb ≤ x) (hu : x ≤ wingUb) :
    wingE.eval x = some (wing x) ∧ evalAll wingGradE x = some (List.ofFn (wingGrad x)) ∧ 0 < wing x := by
  have h0 := hl 0
  have h1 := hl 1
  have h2 := hl 2
  have h4 := hl 4
  have h5 := hl 5
  have h6 := hl 6
  have h7 := hl 7
  have h8 := hl 8
  have h9 := hl 9
  simp only [wingLb, Matrix.cons_val] at h0 h1 h2 h4 h5 h6 h7 h8 h9
  have p0 : 0 < x 0 := lt_of_lt_of_le (by norm_num) h0
  have p1 : 0 < x 1 := lt_of_lt_of_le (by norm_num) h1
  have p2 : 0 < x 2 := lt_of_lt_of_le (by norm_num) h2
  have p4 : 0 < x 4 := lt_of_lt_of_le (by norm_num) h4
  have p5 : 0 < x 5 := lt_of_lt_of_le (by norm_num) h5
  have p6 : 0 < x 6 := lt_of_lt_of_le (by norm_num) h6
  have p7 : 0 < x 7 := lt_of_lt_of_le (by norm_num) h7
  have p8 : 0 < x 8 := lt_of_lt_of_le (by norm_num) h8
  have p9 : 0 < x 9 := lt_of_lt_of_le (by norm_num) h9
  have h3 := hl 3
  have u3 := hu 3
  simp only [wingLb, wingUb, Matrix.cons_val] at h3 u3
  have hpi := Real.pi_pos
  have hc : 0 < Real.cos (x 3 * (Real.pi / 180)) := by
    apply Real.cos_pos_of_mem_Ioo
    constructor <;> nlinarith
  refine ⟨?_, ?_, ?_⟩
  · refine (eval_eq_some_iff _ _ _).mpr ⟨?_, ?_⟩
    · unfold wingE; oks
      all_goals (repeat' apply And.intro) <;> positivity
    · unfold wingE wing; vals
      all_goals norm_num
  · refine (evalAll_eq_some_iff _ _ _).mpr ⟨?_, ?_⟩
    · unfold wingGradE; alls; oks
      all_goals (repeat' apply And.intro) <;> positivity
    · unfold wingGradE wingGrad; rows; vals
      simp [List.ofFn_succ]
      all_goals norm_num
  · unfold wing; positivity

/-! ### The hypotheses are met -/

/-- The corners of the boxes are points of the boxes. -/
example : ∃ x, wingLb ≤ x ∧ x ≤ wingUb := by
  refine ⟨wingLb, le_refl _, fun i => ?_⟩
  fin_cases i <;> simp [wingLb, wingUb] <;> norm_num

example : ∃ x, BoreholeUncertain x ∧ 0 < x 0 ∧ x 0 < x 1 := by
  refine ⟨boreholeLb, ⟨by simp [boreholeLb], fun i hi => ⟨le_refl _, ?_⟩⟩, ?_, ?_⟩
  · fin_cases i <;> simp [boreholeLb, boreholeUb] <;> norm_num
  · simp [boreholeLb]; norm_num
  · simp [boreholeLb]; norm_num

/-- Both cases of `arm_eval` occur. -/
example : arm ![0, 0, 0, 0, 1, 0, 0, 0] ≠ 0 ∧ arm (fun _ => 0) = 0 := by
  constructor <;> simp [arm, armU, armV]

/-- Evaluation can fail for each reason. -/
example : (1 / Exp.x 0 : Exp 1).eval (fun _ => 0) = none ∧ (Exp.log (Exp.x 0) : Exp 1).eval (fun _ => 0) = none
    ∧ (Exp.sqrt (Exp.x 0) : Exp 1).eval (fun _ => -1) = none ∧
    (Exp.rpow (Exp.x 0) 0.5 : Exp 1).eval (fun _ => -1) = none := by
  refine ⟨?_, ?_, ?_, ?_⟩ <;> rw [eval_eq_none_iff] <;> oks <;> norm_num

end Verif.Demo
