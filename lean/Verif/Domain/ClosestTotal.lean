import Verif.Domain.ClosestProps
import Verif.Domain.HitRunProps

/-!
# `closest_point` finds the closest point, twice the same, and continuously up to the tolerance (C179)
-/

namespace Verif.Domain

open Set

/-- Multiplication with `L` loses no direction. -/
def SeesAll (n : ℕ) (L : List Vec) : Prop := ∃ c > 0, ∀ v : Vec, v.length = n → ∀ a ∈ v, c * |a| ≤ Vec.norm (Vec.mulVec L v)

theorem abs_le_norm {v : Vec} {a : ℝ} (h : a ∈ v) : |a| ≤ Vec.norm v := by
  refine Real.abs_le_sqrt ?_
  induction v with
  | nil => simp at h
  | cons b v ih =>
    rw [Vec.sumSq_cons]
    rcases List.mem_cons.1 h with rfl | h
    · linarith [Vec.sumSq_nonneg v]
    · linarith [ih h, sq_nonneg b]

theorem seesAll_eye (n : ℕ) : SeesAll n (eyeRows n) :=
  ⟨1, one_pos, fun v hv a ha => by rw [mulVec_eye _ _ hv, one_mul]; exact abs_le_norm ha⟩

/-- Every nonempty domain has a nearest point. -/
theorem nearest_exists {D : Dom} (hw : D.WF) (hne : ∃ y, D.Holds y) {L : List Vec} (hL : SeesAll D.len L) {x0 : Vec} (h0 : x0.length = D.len) :
    ∃ x, IsNearest D L x0 x := by
  obtain ⟨y, hy⟩ := hne
  obtain ⟨c, hc, hL⟩ := hL
  have hyl := dom_holds_length hy
  have hof : ∀ z : Vec, (hz : z.length = D.len) → List.ofFn (fun i : Fin D.len => z.getD i 0) = z := by
    intro z hz
    apply List.ext_getElem
    · simp [hz]
    · intro i h1 h2
      simp [List.getElem?_eq_getElem h2]
  set g : (Fin D.len → ℝ) → ℝ := fun x => Vec.norm (Vec.mulVec L (Vec.sub (List.ofFn x) x0)) with hg
  have hcont : Continuous g := cont_quad L h0
  set K : Set (Fin D.len → ℝ) := {x | x ∈ D.pts ∧ g x ≤ g fun i => y.getD i 0} with hK
  have hyK : (fun i : Fin D.len => y.getD i 0) ∈ K := ⟨by show D.Holds _; rw [hof y hyl]; exact hy, le_rfl⟩
  have hcl : IsClosed K := (pts_closed hw).inter (isClosed_le hcont continuous_const)
  have hbd : Bornology.IsBounded K := by
    refine (Metric.isBounded_closedBall (x := fun i : Fin D.len => x0.getD i 0) (r := g (fun i => y.getD i 0) / c)).subset fun x hx => ?_
    have hr : 0 ≤ g (fun i => y.getD i 0) / c := div_nonneg (Vec.norm_nonneg _) hc.le
    rw [Metric.mem_closedBall, dist_pi_le_iff hr]
    intro i
    rw [Real.dist_eq, le_div_iff₀ hc, mul_comm]
    refine le_trans (hL (Vec.sub (List.ofFn x) x0) (by rw [Vec.length_sub]; simp [h0]) _ ?_) hx.2
    rw [ofFn_sub x h0]
    exact List.mem_ofFn.2 ⟨i, rfl⟩
  obtain ⟨x, hx, hmin⟩ := (Metric.isCompact_of_isClosed_isBounded hcl hbd).exists_isMinOn ⟨_, hyK⟩ hcont.continuousOn
  refine ⟨List.ofFn x, hx.1, fun z hz => ?_⟩
  have hzl := dom_holds_length hz
  show g x ≤ _
  have hgz : Vec.norm (Vec.mulVec L (Vec.sub z x0)) = g fun i => z.getD i 0 := by rw [hg]; simp only [hof z hzl]
  rw [hgz]
  by_cases hle : g (fun i => z.getD i 0) ≤ g fun i => y.getD i 0
  · exact hmin (show _ ∈ K from ⟨by show D.Holds _; rw [hof z hzl]; exact hz, hle⟩)
  · exact hx.2.trans (not_le.1 hle).le

/-- There is only one. -/
theorem nearest_unique_sees {D : Dom} {L : List Vec} (hL : SeesAll D.len L) {x0 x y : Vec} (hx0 : x0.length = D.len) (hx : IsNearest D L x0 x) (hy : IsNearest D L x0 y) : x = y := by
  have h := nearest_unique hx0 hx hy
  obtain ⟨c, hc, hL⟩ := hL
  have hxl := dom_holds_length hx.1
  have hyl := dom_holds_length hy.1
  apply List.ext_getElem (by omega)
  intro i h1 h2
  have := hL (Vec.sub x y) (by rw [Vec.length_sub]; omega) (x[i] - y[i]) (by
    have hi : i < (Vec.sub x y).length := by rw [Vec.length_sub]; omega
    have : (Vec.sub x y)[i] = x[i] - y[i] := by simp [Vec.sub]
    rw [← this]
    exact List.getElem_mem hi)
  rw [h] at this
  have h3 := abs_nonneg (x[i] - y[i])
  have : |x[i] - y[i]| = 0 := by nlinarith
  linarith [abs_eq_zero.1 this]

/-- **C179**: with a solver that does not give up, `closest_point` answers for every nonempty domain without an unbounded factor,
after any history of calls; the point is the nearest one, or the point itself if it is reported inside. -/
theorem closest_total {S : Solver} (hS : CompleteSolver S) (nnls : NNLS) (TOL : ℝ) {fb : CornerOracle} (ho : OracleLen fb) (fbD : List XR × List XR) {D : Dom}
    (hD : D.WF) (hg : D.Scaled fb) (hu : ¬ D.hasUnbounded) (hne : ∃ y, D.Holds y) (ks : List (Solver × SCall)) (hks : ∀ k ∈ ks, ExactSolver k.1) {x0 : Vec}
    (h0 : x0.length = D.len) {L : Option (List Vec)} (hLl : ∀ r ∈ L.getD [], r.length = D.len) (hL : SeesAll D.len (L.getD (eyeRows D.len))) :
    ∃ x, (D.closest S nnls TOL fb (D.afterCalls nnls TOL fb fbD none ks) x0 L).1 = .ok x ∧
      ((D.isInside nnls TOL x0 ∧ x = x0) ∨ IsNearest D (L.getD (eyeRows D.len)) x0 x) := by
  have hf := flag_sound_history nnls TOL ho fbD hD hg ks hks none (fun h => by cases h)
  have hrep := closest_history_partial hS.toExactSolver nnls TOL ho fbD hD hg ks hks x0 L
  suffices h : ∃ x, (D.closest S nnls TOL fb (D.afterCalls nnls TOL fb fbD none ks) x0 L).1 = .ok x by
    obtain ⟨x, hx⟩ := h
    rw [hx] at hrep
    exact ⟨x, hx, hrep⟩
  have hsh : ¬ (x0.length ≠ D.len ∨ ∃ r ∈ L.getD [], r.length ≠ D.len) := by
    push Not; exact ⟨h0, hLl⟩
  have hun : ∀ n, D ≠ .base (.unbounded n) := by
    rintro n rfl
    exact hu ⟨n, rfl⟩
  by_cases hpt : ∃ x, D = .base (.point x)
  · obtain ⟨x, rfl⟩ := hpt
    refine ⟨x, ?_⟩
    unfold Dom.closest
    rw [if_neg hsh]
  push Not at hpt
  rw [closest_eq hpt hun, if_neg hsh, if_neg (fun h => by obtain ⟨y, hy⟩ := hne; exact hf h y hy)]
  split
  · exact ⟨x0, rfl⟩
  obtain ⟨x, hx, hmin⟩ := nearest_exists hD hne hL h0
  have hxl := dom_holds_length hx
  obtain ⟨i1, i2, i3, i4⟩ := normalize_inverse fb ho D hD x hxl
  obtain ⟨w, hw⟩ := hS.finds_optimal D.len (D.feasNorm fb) (D.closestObj fb (L.getD (eyeRows D.len)) x0) (D.normalize fb x) ⟨i3, (dom_feas_iff fb ho D hD hg x hxl).2 hx,
    fun w hwl hw => by
      rw [closestObj_eq ho hD hu _ _ _ h0 i3, closestObj_eq ho hD hu _ _ _ h0 hwl, i1]
      exact hmin _ ((feas_unnormalize fb ho D hD hg w hwl).1 hw)⟩
  rw [hw]
  exact ⟨_, rfl⟩

/-- Asking again for the closest point of the answer gives the answer. -/
theorem closest_idempotent {S S' : Solver} (hS : ExactSolver S) {nnls : NNLS} (hn : SolvesConsistent nnls) {TOL : ℝ} (ht : 0 < TOL) {fb : CornerOracle} (ho : OracleLen fb)
    (fbD : List XR × List XR) {D : Dom} (hD : D.WF) (hg : D.Scaled fb) (hu : ∀ n, D ≠ .base (.unbounded n)) (hne : ∃ y, D.Holds y) (ks ks' : List (Solver × SCall))
    (hks : ∀ k ∈ ks, ExactSolver k.1) (hks' : ∀ k ∈ ks', ExactSolver k.1) {x0 x : Vec} {L L' : Option (List Vec)} (hL' : ∀ r ∈ L'.getD [], r.length = D.len)
    (h : (D.closest S nnls TOL fb (D.afterCalls nnls TOL fb fbD none ks) x0 L).1 = .ok x) :
    (D.closest S' nnls TOL fb (D.afterCalls nnls TOL fb fbD none ks') x L').1 = .ok x :=
  closest_inside S' nnls TOL ho fbD hD hg hu ks' hks' hne x L' hL'
    (closest_ok_inside hS nnls TOL ho hD hg hn ht (flag_sound_history nnls TOL ho fbD hD hg ks hks none (fun h => by cases h)) h)

theorem nearest_self {D : Dom} {L : List Vec} {x0 : Vec} (h : D.Holds x0) : IsNearest D L x0 x0 := by
  refine ⟨h, fun y _ => ?_⟩
  have : Vec.norm (Vec.mulVec L (Vec.sub x0 x0)) = 0 := by
    rw [mulVec_sub _ _ _ rfl]
    exact norm_sub_self _
  rw [this]
  exact Vec.norm_nonneg _

/-- **C179, partial**: answers are at most as far apart as the questions, after any histories and with any solvers, for points
that are not merely inside up to the tolerance. -/
theorem closest_stable_partial {S S' : Solver} (hS : ExactSolver S) (hS' : ExactSolver S') (nnls : NNLS) (TOL : ℝ) {fb : CornerOracle} (ho : OracleLen fb)
    (fbD : List XR × List XR) {D : Dom} (hD : D.WF) (hg : D.Scaled fb) (ks ks' : List (Solver × SCall)) (hks : ∀ k ∈ ks, ExactSolver k.1) (hks' : ∀ k ∈ ks', ExactSolver k.1)
    {x0 y0 x y : Vec} (hx0 : x0.length = D.len) (hy0 : y0.length = D.len) (ex : D.isInside nnls TOL x0 → D.Holds x0) (ey : D.isInside nnls TOL y0 → D.Holds y0)
    {L : Option (List Vec)} (hx : (D.closest S nnls TOL fb (D.afterCalls nnls TOL fb fbD none ks) x0 L).1 = .ok x)
    (hy : (D.closest S' nnls TOL fb (D.afterCalls nnls TOL fb fbD none ks') y0 L).1 = .ok y) :
    Vec.norm (Vec.mulVec (L.getD (eyeRows D.len)) (Vec.sub x y)) ≤ Vec.norm (Vec.mulVec (L.getD (eyeRows D.len)) (Vec.sub x0 y0)) := by
  have r1 := closest_history_partial hS nnls TOL ho fbD hD hg ks hks x0 L
  have r2 := closest_history_partial hS' nnls TOL ho fbD hD hg ks' hks' y0 L
  rw [hx] at r1
  rw [hy] at r2
  have n1 : IsNearest D (L.getD (eyeRows D.len)) x0 x := by
    rcases r1 with ⟨h1, rfl⟩ | h1
    · exact nearest_self (ex h1)
    · exact h1
  have n2 : IsNearest D (L.getD (eyeRows D.len)) y0 y := by
    rcases r2 with ⟨h1, rfl⟩ | h1
    · exact nearest_self (ey h1)
    · exact h1
  exact nearest_nonexpansive hx0 hy0 n1 n2

/-- Without that condition the answer jumps by the tolerance: points arbitrarily close to each other, one of them still inside up
to the tolerance, have answers a tolerance apart. -/
theorem closest_jump_false {S : Solver} (hS : CompleteSolver S) (nnls : NNLS) {TOL δ : ℝ} (ht : 0 < TOL) (hδ : 0 < δ) {fb : CornerOracle} (ho : OracleLen fb) :
    ((Dom.base (.box [.fin 0] [.fin 1])).closest S nnls TOL fb none [1 + TOL] none).1 = .ok [1 + TOL] ∧
      ((Dom.base (.box [.fin 0] [.fin 1])).closest S nnls TOL fb none [1 + TOL + δ] none).1 = .ok [1] := by
  have hw : (Dom.base (.box [.fin 0] [.fin 1])).WF := by
    show LQ.WF _
    constructor <;> simp [Base.acc, XR.okLower, XR.okUpper]
  have hgood : NormGood fb (.box [.fin 0] [.fin 1]) := normGood_box fb ho [0] [1] (.cons (by norm_num) .nil)
  have hg : (Dom.base (.box [.fin 0] [.fin 1])).Scaled fb := hgood.toNormScaled
  have hH : ∀ y, (Dom.base (.box [.fin 0] [.fin 1])).Holds y ↔ y.length = 1 ∧ inBounds [.fin 0] [.fin 1] 0 y := by
    intro y
    constructor
    · rintro ⟨h1, h2, _⟩
      exact ⟨h1, ((holds_iff _ _).1 h2).1⟩
    · rintro ⟨h1, h2⟩
      refine ⟨h1, (holds_iff _ _).2 ⟨h2, inIneq_nil _ _ _, fun _ _ => inEq_nil _ _ _, inQuad_nil _ _ _ _⟩, by simp⟩
  have hB : ∀ t tol : ℝ, inBounds [.fin 0] [.fin 1] tol [t] ↔ -tol ≤ t ∧ t ≤ 1 + tol := by
    intro t tol
    rw [inBounds_cons]
    constructor
    · rintro ⟨⟨h1, h2⟩, _⟩
      have := h1 0 rfl
      have := h2 1 rfl
      constructor <;> linarith
    · rintro ⟨h1, h2⟩
      refine ⟨⟨?_, ?_⟩, inBounds_nil _ _ _⟩ <;> intro r hr <;> cases hr <;> linarith
  have hI : ∀ t : ℝ, (Dom.base (.box [.fin 0] [.fin 1])).isInside nnls TOL [t] ↔ -TOL ≤ t ∧ t ≤ 1 + TOL := by
    intro t
    have hp : (Base.box [.fin 0] [.fin 1]).Plain := trivial
    rw [← hB]
    constructor
    · rintro ⟨_, h⟩
      exact ((base_inside_iff nnls TOL hp [t]).1 h).1
    · intro h
      exact ⟨rfl, (base_inside_iff nnls TOL hp [t]).2 ⟨h, inIneq_nil _ _ _, inEq_nil _ _ _, inQuad_nil _ _ _ _⟩⟩
  have hne : ∃ y, (Dom.base (.box [.fin 0] [.fin 1])).Holds y := ⟨[1], (hH _).2 ⟨rfl, (hB 1 0).2 (by norm_num)⟩⟩
  have hu : ¬ (Dom.base (.box [.fin 0] [.fin 1])).hasUnbounded := by simp [Dom.hasUnbounded]
  have hun : ∀ n, Dom.base (.box [.fin 0] [.fin 1]) ≠ .base (.unbounded n) := by intro n h; cases h
  constructor
  · exact closest_inside S nnls TOL ho ([], []) hw hg hun [] (by simp) hne _ none (by simp) ((hI _).2 ⟨by linarith, le_rfl⟩)
  · obtain ⟨x, hx, hx'⟩ := closest_total hS nnls TOL ho ([], []) hw hg hu hne [] (by simp) (x0 := [1 + TOL + δ]) rfl (L := none) (by simp) (seesAll_eye _)
    have hx2 : ((Dom.base (.box [.fin 0] [.fin 1])).closest S nnls TOL fb none [1 + TOL + δ] none).1 = .ok x := hx
    rw [hx2]
    have hnear : IsNearest (Dom.base (.box [.fin 0] [.fin 1])) (eyeRows (Dom.base (.box [.fin 0] [.fin 1])).len) [1 + TOL + δ] x := by
      rcases hx' with ⟨h1, _⟩ | h1
      · linarith [((hI _).1 h1).2]
      · exact h1
    have h1 : IsNearest (Dom.base (.box [.fin 0] [.fin 1])) (eyeRows (Dom.base (.box [.fin 0] [.fin 1])).len) [1 + TOL + δ] [1] := by
      refine ⟨(hH _).2 ⟨rfl, (hB 1 0).2 (by norm_num)⟩, fun y hy => ?_⟩
      obtain ⟨hl, hb⟩ := (hH y).1 hy
      obtain ⟨t, rfl⟩ := List.length_eq_one_iff.1 hl
      have hb' := (hB t 0).1 hb
      have e : ∀ a : ℝ, Vec.norm (Vec.mulVec (eyeRows (Dom.base (.box [.fin 0] [.fin 1])).len) (Vec.sub [a] [1 + TOL + δ])) = |a - (1 + TOL + δ)| := by
        intro a
        show Vec.norm (Vec.mulVec (eyeRows 1) (Vec.sub [a] [1 + TOL + δ])) = _
        rw [mulVec_eye 1 _ (by simp [Vec.sub])]
        simp [Vec.sub, Vec.sumSq, Vec.dot, ← sq, Vec.norm, Real.sqrt_sq_eq_abs]
      rw [e, e, abs_of_neg (by linarith), abs_of_neg (by linarith)]
      linarith
    rw [nearest_unique_eye rfl hnear h1]

example : ∃ S fb, CompleteSolver S ∧ OracleLen fb := ⟨_, infOracle, completeSolver_exists.choose_spec, infOracle_len⟩

end Verif.Domain
