import Verif.Opt.MinimaxProps
import Mathlib.Topology.Algebra.Module.FiniteDimension

/-!
# Minimax optimization of affine and of convex functions (minimax.py 14-210)

`minimax` linearizes the functions and solves for a step. With an exact solver: the largest of finitely many affine
functions is minimized over the domain, with or without the trust region; for convex functions with bounded curvature the
distance to the minimum shrinks by a constant factor in every pass until it is below an explicit bound.
-/

namespace Verif.Opt

open Verif.Domain Verif.Lip Matrix

variable {m q : ℕ}

/-! ### Specification -/

/-- The functions `φ` with Jacobian `Gr`, total, on a convex set `D`; straight trajectories; an exact solver for the steps that finds one
from every point of the set. -/
structure StepProblem (a : MMArgs m q) (D : Set (Pt m)) (φ : Pt m → Pt (q + 1)) (Gr : Pt m → Matrix (Fin (q + 1)) (Fin m) ℝ) : Prop where
  f : a.f = fun x => .ok (φ x)
  grad : a.grad = fun x => .ok (Gr x)
  T : a.T = trajLinear
  inside : ∀ x, a.isinside x = true ↔ x ∈ D
  convex : Convex ℝ D
  exact : StepExact a D
  solves : ∀ x ∈ D, ∀ d, (∀ r, d = some r → 0 < r) → ∃ px pt, a.solve x (φ x) (vmax (φ x)) (Gr x) d = .value (some (px, pt))

/-- The functions lie above their linearizations. -/
def AboveLin (D : Set (Pt m)) (φ : Pt m → Pt (q + 1)) (Gr : Pt m → Matrix (Fin (q + 1)) (Fin m) ℝ) : Prop :=
  ∀ x ∈ D, ∀ y ∈ D, ∀ i, φ x i + (Gr x *ᵥ (y - x)) i ≤ φ y i

/-- They exceed them by at most half the curvature times the squared distance. -/
def CurvLin (D : Set (Pt m)) (φ : Pt m → Pt (q + 1)) (Gr : Pt m → Matrix (Fin (q + 1)) (Fin m) ℝ) (H : ℝ) : Prop :=
  ∀ x ∈ D, ∀ y ∈ D, ∀ i, φ y i ≤ φ x i + (Gr x *ᵥ (y - x)) i + H / 2 * nrm (y - x) ^ 2

/-- The point minimizes the largest of the functions over the set. -/
def MaxMin (D : Set (Pt m)) (φ : Pt m → Pt (q + 1)) (x : Pt m) : Prop := x ∈ D ∧ ∀ y ∈ D, vmax (φ x) ≤ vmax (φ y)

/-- Set of diameter at most `R`. -/
def Within (D : Set (Pt m)) (R : ℝ) : Prop := ∀ x ∈ D, ∀ y ∈ D, nrm (y - x) ≤ R

/-! ### One pass -/

/-- The state belongs to its point, which is in the set. -/
def MMGood (D : Set (Pt m)) (φ : Pt m → Pt (q + 1)) (s : MMState m q) : Prop :=
  s.x ∈ D ∧ s.fx = φ s.x ∧ s.t = vmax (φ s.x) ∧ ∀ r, s.delta = some r → 0 < r

theorem mmBack_total {a : MMArgs m q} {D : Set (Pt m)} {φ : Pt m → Pt (q + 1)} {Gr : Pt m → Matrix (Fin (q + 1)) (Fin m) ℝ}
    (h : StepProblem a D φ Gr) (s : MMState m q) (px : Pt m) (pt : ℝ) (k : ℕ) (al : ℝ) : ∃ s' stop, mmBack a s px pt k al = .ok (s', stop) := by
  induction k generalizing al with
  | zero =>
    unfold mmBack
    simp only [h.T, h.f, trajLinear]
    split
    · exact ⟨_, _, rfl⟩
    split
    · exact ⟨_, _, rfl⟩
    split <;> exact ⟨_, _, rfl⟩
  | succ k ih =>
    unfold mmBack
    simp only [h.T, h.f, trajLinear]
    split
    · exact ⟨_, _, rfl⟩
    split
    · exact ⟨_, _, rfl⟩
    split
    · exact ⟨_, _, rfl⟩
    · exact ih _

/-- A step along a solution stays in the set. -/
theorem step_in {a : MMArgs m q} {D : Set (Pt m)} {φ : Pt m → Pt (q + 1)} {Gr : Pt m → Matrix (Fin (q + 1)) (Fin m) ℝ}
    (h : StepProblem a D φ Gr) {x px : Pt m} (hx : x ∈ D) (hp : x + px ∈ D) {al : ℝ} (h0 : 0 ≤ al) (h1 : al ≤ 1) : x + al • px ∈ D := by
  have := h.convex hx hp (sub_nonneg.2 h1) h0 (by ring)
  convert this using 1
  rw [sub_smul, smul_add, one_smul]
  abel

/-- After the backtracking the state is good again, and no worse. -/
theorem mmBack_good {a : MMArgs m q} {D : Set (Pt m)} {φ : Pt m → Pt (q + 1)} {Gr : Pt m → Matrix (Fin (q + 1)) (Fin m) ℝ}
    (h : StepProblem a D φ Gr) (hc : 0 ≤ a.c) {s s' : MMState m q} (hs : MMGood D φ s) {px : Pt m} {pt : ℝ} (hpt : pt ≤ 0) (hp : s.x + px ∈ D)
    {k : ℕ} {stop : Bool} (hb : mmBack a s px pt k 1 = .ok (s', stop)) : MMGood D φ s' ∧ s'.t ≤ s.t := by
  rcases mmBack_cases hb with rfl | ⟨j, -, h1, h2, h3, h4, h5⟩
  · exact ⟨hs, le_rfl⟩
  · rw [one_mul] at h1 h4 h5
    rw [h.T] at h1
    rw [h.f] at h2
    have hx : s'.x = s.x + (1 / 2 : ℝ) ^ j • px := (Except.ok.inj h1).symm
    have hf : s'.fx = φ s'.x := (Except.ok.inj h2).symm
    refine ⟨⟨?_, hf, by rw [h3, hf], ?_⟩, ?_⟩
    · rw [hx]
      exact step_in h hs.1 hp (by positivity) (pow_le_one₀ (by norm_num) (by norm_num))
    · intro r hr
      rw [h5] at hr
      cases hd : s.delta with
      | none => rw [hd] at hr; cases hr
      | some d =>
        rw [hd] at hr
        have : d * (2 * (1 / 2) ^ j) = r := Option.some.inj hr
        rw [← this]
        exact mul_pos (hs.2.2.2 d hd) (by positivity)
    · have : a.c * (1 / 2) ^ j * pt ≤ 0 := mul_nonpos_of_nonneg_of_nonpos (by positivity) hpt
      linarith

/-- The loop: it ends, and the result is no worse. -/
theorem mmLoop_total {a : MMArgs m q} {D : Set (Pt m)} {φ : Pt m → Pt (q + 1)} {Gr : Pt m → Matrix (Fin (q + 1)) (Fin m) ℝ}
    (h : StepProblem a D φ Gr) (hc : 0 ≤ a.c) (hbt : a.btMax ≠ 0) : ∀ (N : ℕ) (s : MMState m q), MMGood D φ s →
      ∃ s', mmLoop a N s = .ok s' ∧ MMGood D φ s' ∧ s'.t ≤ s.t := by
  intro N
  induction N with
  | zero => exact fun s hs => ⟨s, rfl, hs, le_rfl⟩
  | succ N ih =>
    intro s hs
    obtain ⟨px, pt, hsol⟩ := h.solves s.x hs.1 s.delta hs.2.2.2
    obtain ⟨s1, stop, hb⟩ := mmBack_total h s px pt (a.btMax - 1) 1
    have hfe := (h.exact _ _ _ _ _ _ _ hsol).1.dom
    unfold mmLoop
    simp only [h.grad, hs.2.1, hs.2.2.1, hsol]
    by_cases hpt : pt > 0
    · exact ⟨s, by rw [if_pos hpt], hs, hs.2.2.1.le⟩
    · obtain ⟨g1, g2⟩ := mmBack_good h hc hs (not_lt.1 hpt) hfe hb
      rw [hs.2.2.1] at g2
      rw [if_neg hpt, if_neg hbt, hb]
      simp only
      by_cases hst : stop = true
      · exact ⟨s1, by rw [if_pos hst], g1, g2⟩
      · obtain ⟨s', e, g3, g4⟩ := ih s1 g1
        exact ⟨s', by rw [if_neg hst]; exact e, g3, g4.trans g2⟩

/-- The predicted change bounds the distance to the minimum, over the points within the trust region. -/
theorem step_gap {a : MMArgs m q} {D : Set (Pt m)} {φ : Pt m → Pt (q + 1)} {Gr : Pt m → Matrix (Fin (q + 1)) (Fin m) ℝ}
    (h : StepProblem a D φ Gr) (hlow : AboveLin D φ Gr) {x px : Pt m} {pt : ℝ} {d : Option ℝ} (hx : x ∈ D)
    (hsol : a.solve x (φ x) (vmax (φ x)) (Gr x) d = .value (some (px, pt))) {y : Pt m} (hy : y ∈ D) (hd : ∀ r, d = some r → nrm (y - x) ≤ r) :
    vmax (φ x) + pt ≤ vmax (φ y) := by
  have := (h.exact _ _ _ _ _ _ _ hsol).2 (y - x) (vmax (φ y) - vmax (φ x)) ⟨fun i => ?_, hd, by rw [add_sub_cancel]; exact hy⟩
  · linarith
  · have h1 := hlow x hx y hy i
    have h2 := le_vmax (φ y) i
    linarith

/-! ### Affine functions -/

/-- With affine functions a full step achieves the predicted change. -/
theorem affine_full {a : MMArgs m q} {D : Set (Pt m)} {φ : Pt m → Pt (q + 1)} {Gr : Pt m → Matrix (Fin (q + 1)) (Fin m) ℝ}
    (h : StepProblem a D φ Gr) (hup : CurvLin D φ Gr 0) {x px : Pt m} {pt : ℝ} {d : Option ℝ} (hx : x ∈ D)
    (hsol : a.solve x (φ x) (vmax (φ x)) (Gr x) d = .value (some (px, pt))) : vmax (φ (x + px)) ≤ vmax (φ x) + pt := by
  have hfe := (h.exact _ _ _ _ _ _ _ hsol).1
  refine vmax_le fun i => ?_
  have h1 := hup x hx (x + px) hfe.dom i
  have h2 := hfe.lin i
  rw [add_sub_cancel_left] at h1
  linarith

/-- A minimizer over the part of the set within a radius that it does not reach is a minimizer over the set. -/
theorem local_global {D : Set (Pt m)} (hD : Convex ℝ D) {φ : Pt m → Pt (q + 1)} {Gr : Pt m → Matrix (Fin (q + 1)) (Fin m) ℝ}
    (hlow : AboveLin D φ Gr) (hup : CurvLin D φ Gr 0) {x z : Pt m} {r : ℝ} (hz : z ∈ D) (hr : nrm (z - x) < r)
    (hmin : ∀ y ∈ D, nrm (y - x) ≤ r → vmax (φ z) ≤ vmax (φ y)) : MaxMin D φ z := by
  refine ⟨hz, fun y hy => ?_⟩
  by_contra hlt
  push Not at hlt
  -- a point between `z` and `y`, close to `z`
  set e := r - nrm (z - x) with he
  have he0 : 0 < e := by rw [he]; linarith
  set n := nrm (y - z) with hn
  have hn0 : 0 ≤ n := nrm_nonneg _
  set θ : ℝ := min 1 (e / (n + 1)) with hθ
  have hθ0 : 0 < θ := lt_min one_pos (div_pos he0 (by linarith))
  have hθ1 : θ ≤ 1 := min_le_left _ _
  have hw : z + θ • (y - z) ∈ D := by
    have := hD hz hy (sub_nonneg.2 hθ1) hθ0.le (by ring)
    convert this using 1
    rw [smul_sub, sub_smul, one_smul]
    abel
  have hdist : nrm (z + θ • (y - z) - x) ≤ r := by
    have h1 : z + θ • (y - z) - x = (z - x) + θ • (y - z) := by abel
    rw [h1]
    refine (nrm_add_le _ _).trans ?_
    rw [Geo.nrm_smul, abs_of_pos hθ0, ← hn]
    have h2 : θ * n ≤ e := by
      calc θ * n ≤ e / (n + 1) * n := mul_le_mul_of_nonneg_right (min_le_right _ _) hn0
        _ ≤ e := by
          rw [div_mul_eq_mul_div, div_le_iff₀ (by linarith)]
          nlinarith
    linarith
  have h1 := hmin _ hw hdist
  have h2 : vmax (φ (z + θ • (y - z))) ≤ (1 - θ) * vmax (φ z) + θ * vmax (φ y) := by
    refine vmax_le fun i => ?_
    have h3 := hup z hz _ hw i
    have h4 := hlow z hz y hy i
    have h5 := le_vmax (φ z) i
    have h6 := le_vmax (φ y) i
    rw [add_sub_cancel_left, mulVec_smul, Pi.smul_apply, smul_eq_mul] at h3
    nlinarith [mul_le_mul_of_nonneg_left h4 hθ0.le, mul_le_mul_of_nonneg_left h6 hθ0.le, mul_le_mul_of_nonneg_left h5 (sub_nonneg.2 hθ1)]
  nlinarith

/-- The point is a minimizer, or closer to one than the tolerance, coordinate by coordinate. -/
def NearMin (D : Set (Pt m)) (φ : Pt m → Pt (q + 1)) (tol : ℝ) (x : Pt m) : Prop :=
  ∃ z, MaxMin D φ z ∧ (x = z ∨ ∀ i, |z i - x i| < tol)

theorem nrm_lt_of_abs_lt {v : Pt m} {e r : ℝ} (hr : 0 < r) (he : Real.sqrt m * e ≤ r) (h : ∀ i, |v i| < e) : nrm v < r := by
  rcases Nat.eq_zero_or_pos m with rfl | hm
  · have : nrm v = 0 := by
      rw [nrm, dotProduct]
      simp
    rw [this]
    exact hr
  · have hm' : (0 : ℝ) < m := by exact_mod_cast hm
    have he0 : 0 < e := lt_of_le_of_lt (abs_nonneg _) (h ⟨0, hm⟩)
    refine lt_of_lt_of_le ?_ he
    refine lt_of_pow_lt_pow_left₀ 2 (by positivity) ?_
    rw [nrm_sq, mul_pow, Real.sq_sqrt hm'.le, dotProduct]
    calc ∑ i, v i * v i < ∑ _i : Fin m, e ^ 2 := by
          refine Finset.sum_lt_sum_of_nonempty ⟨⟨0, hm⟩, Finset.mem_univ _⟩ fun i _ => ?_
          have := h i
          have h2 := abs_nonneg (v i)
          rw [← abs_mul_abs_self]
          nlinarith
      _ = m * e ^ 2 := by simp

/-- One pass: it ends near a minimizer, or takes the full step to a point that is best within the trust region. -/
theorem mmPass_affine {a : MMArgs m q} {D : Set (Pt m)} {φ : Pt m → Pt (q + 1)} {Gr : Pt m → Matrix (Fin (q + 1)) (Fin m) ℝ}
    (h : StepProblem a D φ Gr) (hlow : AboveLin D φ Gr) (hup : CurvLin D φ Gr 0) (hc : 0 ≤ a.c) (hc1 : a.c ≤ 1)
    (hbt : 2 ≤ a.btMax) (htol : Real.sqrt m * a.tolDx ≤ 1) (N : ℕ) (s : MMState m q) (hs : MMGood D φ s) (hr : ∀ r, s.delta = some r → 1 ≤ r) :
    (mmLoop a (N + 1) s = .ok s ∧ NearMin D φ a.tolDx s.x) ∨
    ∃ s1, mmLoop a (N + 1) s = mmLoop a N s1 ∧ MMGood D φ s1 ∧ (s1.delta = s.delta.map fun d => d * 2) ∧
      ∀ y ∈ D, (∀ r, s.delta = some r → nrm (y - s.x) ≤ r) → vmax (φ s1.x) ≤ vmax (φ y) := by
  obtain ⟨px, pt, hsol⟩ := h.solves s.x hs.1 s.delta hs.2.2.2
  have hfe := (h.exact _ _ _ _ _ _ _ hsol).1
  have hfull := affine_full h hup hs.1 hsol
  have hpt : pt ≤ 0 := step_nonpos a D h.exact hs.1 (fun r hr' => (hs.2.2.2 r hr').le) hsol
  have hx1 : s.x + (1 : ℝ) • px = s.x + px := by rw [one_smul]
  have hacc : vmax (φ (s.x + px)) ≤ vmax (φ s.x) + a.c * 1 * pt := by nlinarith
  have hmin : ∀ y ∈ D, (∀ r, s.delta = some r → nrm (y - s.x) ≤ r) → vmax (φ (s.x + px)) ≤ vmax (φ y) :=
    fun y hy hd => hfull.trans (step_gap h hlow hs.1 hsol hy hd)
  obtain ⟨b, hb⟩ : ∃ b, a.btMax = b + 2 := ⟨a.btMax - 2, by omega⟩
  by_cases htd : ∀ i, |(s.x + px) i - s.x i| < a.tolDx
  · -- the step is below the tolerance
    left
    refine ⟨?_, s.x + px, ?_, Or.inr htd⟩
    · unfold mmLoop
      simp only [h.grad, hs.2.1, hs.2.2.1, hsol]
      rw [if_neg (not_lt.2 hpt), if_neg (by omega), hb]
      unfold mmBack
      simp only [h.T, h.f, trajLinear, hx1]
      rw [if_pos htd]
      simp
    · cases hd : s.delta with
      | none => exact ⟨hfe.dom, fun y hy => hmin y hy (by rw [hd]; intro r hr'; cases hr')⟩
      | some r =>
        have h1 := hr r hd
        have hlt : nrm (s.x + px - s.x) < r := nrm_lt_of_abs_lt (by linarith) (htol.trans h1) htd
        exact local_global h.convex hlow hup hfe.dom hlt fun y hy hy' => hmin y hy (by
          rw [hd]
          intro r' hr'
          cases hr'
          exact hy')
  · -- the step is taken
    right
    have hback : mmBack a s px pt (a.btMax - 1) 1 =
        .ok (⟨s.x + px, φ (s.x + px), vmax (φ (s.x + px)), s.delta.map fun d => d * (2 * 1)⟩, false) := by
      rw [hb]
      unfold mmBack
      simp only [h.T, h.f, trajLinear, hx1]
      rw [if_neg htd, if_pos (by rw [hs.2.2.1]; exact hacc)]
      simp
    refine ⟨_, ?_, (mmBack_good h hc hs hpt hfe.dom hback).1, by simp, hmin⟩
    rw [mmLoop]
    simp only [h.grad, hs.2.1, hs.2.2.1, hsol]
    rw [if_neg (not_lt.2 hpt), if_neg (by omega), hback]
    simp

/-- At a minimizer the loop only moves to other minimizers. -/
theorem mmLoop_min {a : MMArgs m q} {D : Set (Pt m)} {φ : Pt m → Pt (q + 1)} {Gr : Pt m → Matrix (Fin (q + 1)) (Fin m) ℝ}
    (h : StepProblem a D φ Gr) (hc : 0 ≤ a.c) (hbt : a.btMax ≠ 0) (N : ℕ) (s : MMState m q) (hs : MMGood D φ s) (hm : MaxMin D φ s.x) :
    ∃ s', mmLoop a N s = .ok s' ∧ MaxMin D φ s'.x := by
  obtain ⟨s', e, g, hle⟩ := mmLoop_total h hc hbt N s hs
  refine ⟨s', e, g.1, fun y hy => ?_⟩
  rw [g.2.2.1, hs.2.2.1] at hle
  exact hle.trans (hm.2 y hy)

theorem mmLoop_affine {a : MMArgs m q} {D : Set (Pt m)} {φ : Pt m → Pt (q + 1)} {Gr : Pt m → Matrix (Fin (q + 1)) (Fin m) ℝ}
    (h : StepProblem a D φ Gr) (hlow : AboveLin D φ Gr) (hup : CurvLin D φ Gr 0) (hc : 0 ≤ a.c) (hc1 : a.c ≤ 1)
    (hbt : 2 ≤ a.btMax) (htol : Real.sqrt m * a.tolDx ≤ 1) : ∀ (N : ℕ) (s : MMState m q), MMGood D φ s →
      (∀ r, s.delta = some r → 1 ≤ r ∧ Within D (r * 2 ^ N)) → ∃ s', mmLoop a (N + 1) s = .ok s' ∧ NearMin D φ a.tolDx s'.x := by
  intro N
  induction N with
  | zero =>
    intro s hs hr
    rcases mmPass_affine h hlow hup hc hc1 hbt htol 0 s hs (fun r hr' => (hr r hr').1) with ⟨h1, h2⟩ | ⟨s1, h1, h2, -, h4⟩
    · exact ⟨s, h1, h2⟩
    · refine ⟨s1, by rw [h1]; rfl, s1.x, ⟨h2.1, fun y hy => h4 y hy fun r hr' => ?_⟩, Or.inl rfl⟩
      simpa using (hr r hr').2 s.x hs.1 y hy
  | succ N ih =>
    intro s hs hr
    rcases mmPass_affine h hlow hup hc hc1 hbt htol (N + 1) s hs (fun r hr' => (hr r hr').1) with ⟨h1, h2⟩ | ⟨s1, h1, h2, h3, -⟩
    · exact ⟨s, h1, h2⟩
    · rw [h1]
      refine ih s1 h2 fun r hr' => ?_
      rw [h3] at hr'
      cases hd : s.delta with
      | none => rw [hd] at hr'; cases hr'
      | some d =>
        rw [hd] at hr'
        have e : d * 2 = r := Option.some.inj hr'
        obtain ⟨g1, g2⟩ := hr d hd
        rw [← e]
        refine ⟨by linarith, ?_⟩
        rw [show d * 2 * 2 ^ N = d * 2 ^ (N + 1) by rw [pow_succ]; ring]
        exact g2

/-- **C163**: the largest of affine functions. The call returns a minimizer over the set, or a point closer to one than `tol_dx` in every
coordinate; without the trust region in any number of passes, with it if the set has diameter at most `2^(maxiter - 1)`. -/
theorem minimax_affine (a : MMArgs m q) (D : Set (Pt m)) (φ : Pt m → Pt (q + 1)) (Gr : Pt m → Matrix (Fin (q + 1)) (Fin m) ℝ)
    (h : StepProblem a D φ Gr) (hlow : AboveLin D φ Gr) (hup : CurvLin D φ Gr 0) (hc : 0 ≤ a.c) (hc1 : a.c ≤ 1) (hbt : 2 ≤ a.btMax)
    (htol : Real.sqrt m * a.tolDx ≤ 1) (hN : 0 < a.maxiter) (hR : a.trust = true → Within D (2 ^ (a.maxiter - 1))) (x0 : Pt m) (hx0 : x0 ∈ D) :
    ∃ x, minimax a x0 = .ok x ∧ NearMin D φ a.tolDx x := by
  obtain ⟨N, hN'⟩ : ∃ N, a.maxiter = N + 1 := ⟨a.maxiter - 1, by omega⟩
  have hgood : MMGood D φ ⟨x0, φ x0, vmax (φ x0), if a.trust then some 1 else none⟩ := by
    refine ⟨hx0, rfl, rfl, fun r hr => ?_⟩
    simp only at hr
    split at hr
    · cases hr; exact one_pos
    · cases hr
  obtain ⟨s', e, hn⟩ := mmLoop_affine h hlow hup hc hc1 hbt htol N _ hgood (fun r hr => by
    simp only at hr
    split at hr
    · cases hr
      rename_i ht
      have := hR ht
      rw [hN', Nat.add_sub_cancel] at this
      exact ⟨le_rfl, by rw [one_mul]; exact this⟩
    · cases hr)
  refine ⟨s'.x, ?_, hn⟩
  unfold minimax
  rw [if_neg (by simp [(h.inside x0).2 hx0]), h.f]
  simp only
  rw [hN', e]

/-! ### Convex functions -/

/-- A pass that predicts a decrease of more than `ε` takes a step of length at least `2^-J` and does not stop. -/
theorem mmBack_accept {a : MMArgs m q} {D : Set (Pt m)} {φ : Pt m → Pt (q + 1)} {Gr : Pt m → Matrix (Fin (q + 1)) (Fin m) ℝ}
    (h : StepProblem a D φ Gr) {H R K ε : ℝ} (hH : 0 ≤ H) (hup : CurvLin D φ Gr H) (hR : Within D R) (hK0 : 0 ≤ K)
    (hK : ∀ x ∈ D, ∀ p : Pt m, ∀ i, ∃ j, |(Gr x *ᵥ p) i| ≤ K * |p j|) (hε : 0 ≤ ε) (J : ℕ)
    (hJ : H * R ^ 2 ≤ 2 ^ (J + 1) * (1 - a.c) * ε) (hdx : K * (2 ^ J * a.tolDx) ≤ ε) (hdf : 2 ^ J * a.tolDf ≤ ε) (hc1 : a.c ≤ 1)
    {s : MMState m q} (hs : MMGood D φ s) {px : Pt m} {pt : ℝ}
    (hsol : a.solve s.x (φ s.x) (vmax (φ s.x)) (Gr s.x) s.delta = .value (some (px, pt))) (hpt : pt < -ε) :
    ∀ n i k : ℕ, i + n = J → n < k → ∃ j ≤ J, ∃ s', mmBack a s px pt k ((1 / 2) ^ i) = .ok (s', false) ∧ s'.t ≤ s.t + a.c * (1 / 2) ^ j * pt := by
  have hfe := (h.exact _ _ _ _ _ _ _ hsol).1
  have hpos : ∀ i : ℕ, (0 : ℝ) < (1 / 2) ^ i := fun i => by positivity
  have hle1 : ∀ i : ℕ, (1 / 2 : ℝ) ^ i ≤ 1 := fun i => pow_le_one₀ (by norm_num) (by norm_num)
  have hinv : ∀ i : ℕ, i ≤ J → 1 ≤ 2 ^ J * (1 / 2 : ℝ) ^ i := by
    intro i hi
    have : (2 : ℝ) ^ i * (1 / 2) ^ i = 1 := by rw [← mul_pow]; norm_num
    exact this.symm.le.trans (mul_le_mul_of_nonneg_right (pow_le_pow_right₀ (by norm_num) hi) (hpos i).le)
  -- the predicted change is at most the change along the step
  have hpk : ∀ w, (∀ j, |px j| ≤ w) → -pt ≤ K * w := by
    intro w hw
    obtain ⟨i, hi⟩ := vmax_mem (φ s.x)
    have h1 := hfe.lin i
    rw [hi] at h1
    obtain ⟨j, hj⟩ := hK s.x hs.1 px i
    have h2 := neg_abs_le ((Gr s.x *ᵥ px) i)
    have h3 := mul_le_mul_of_nonneg_left (hw j) hK0
    linarith
  intro n
  induction n with
  | zero => ?_
  | succ n ih => ?_
  all_goals
    intro i k hi hk
    have hxi : ∀ j, (s.x + (1 / 2 : ℝ) ^ i • px) j - s.x j = (1 / 2 : ℝ) ^ i * px j := fun j => by simp
    have htd : ¬ ∀ j, |(s.x + (1 / 2 : ℝ) ^ i • px) j - s.x j| < a.tolDx := by
      intro hall
      have hw : ∀ j, |px j| ≤ 2 ^ J * a.tolDx := by
        intro j
        have h1 := hall j
        rw [hxi, abs_mul, abs_of_pos (hpos i)] at h1
        have h2 := hinv i (by omega)
        have h3 := abs_nonneg (px j)
        calc |px j| ≤ (2 ^ J * (1 / 2 : ℝ) ^ i) * |px j| := le_mul_of_one_le_left h3 h2
          _ = 2 ^ J * ((1 / 2 : ℝ) ^ i * |px j|) := by ring
          _ ≤ 2 ^ J * a.tolDx := mul_le_mul_of_nonneg_left h1.le (by positivity)
      have := hpk _ hw
      linarith
    have htf : ¬ |(1 / 2 : ℝ) ^ i * pt| < a.tolDf := by
      intro hlt
      rw [abs_mul, abs_of_pos (hpos i), abs_of_neg (by linarith)] at hlt
      have h2 := hinv i (by omega)
      have : -pt ≤ 2 ^ J * a.tolDf := by
        calc -pt ≤ (2 ^ J * (1 / 2 : ℝ) ^ i) * -pt := le_mul_of_one_le_left (by linarith) h2
          _ = 2 ^ J * ((1 / 2 : ℝ) ^ i * -pt) := by ring
          _ ≤ 2 ^ J * a.tolDf := mul_le_mul_of_nonneg_left hlt.le (by positivity)
      linarith
    obtain ⟨k', rfl⟩ : ∃ k', k = k' + 1 := ⟨k - 1, by omega⟩
    by_cases hacc : vmax (φ (s.x + (1 / 2 : ℝ) ^ i • px)) ≤ s.t + a.c * (1 / 2) ^ i * pt
    · refine ⟨i, by omega, ⟨s.x + (1 / 2 : ℝ) ^ i • px, φ (s.x + (1 / 2 : ℝ) ^ i • px), vmax (φ (s.x + (1 / 2 : ℝ) ^ i • px)),
        s.delta.map fun d => d * (2 * (1 / 2) ^ i)⟩, ?_, hacc⟩
      unfold mmBack
      simp only [h.T, h.f, trajLinear]
      rw [if_neg htd, if_pos hacc]
      simp
  · -- the step is short enough
    exfalso
    apply hacc
    have hin := step_in h hs.1 hfe.dom (hpos i).le (hle1 i)
    rw [hs.2.2.1]
    refine vmax_le fun l => ?_
    have h1 := hup s.x hs.1 _ hin l
    have h2 := hfe.lin l
    have h3 := le_vmax (φ s.x) l
    rw [add_sub_cancel_left, mulVec_smul, Pi.smul_apply, smul_eq_mul, Geo.nrm_smul, abs_of_pos (hpos i), mul_pow] at h1
    have h4 : nrm px ≤ R := by
      have := hR s.x hs.1 _ hfe.dom
      rwa [add_sub_cancel_left] at this
    have h5 : nrm px ^ 2 ≤ R ^ 2 := pow_le_pow_left₀ (nrm_nonneg _) h4 2
    have h6 : H / 2 * (((1 / 2 : ℝ) ^ i) ^ 2 * nrm px ^ 2) ≤ (1 / 2 : ℝ) ^ i * ((1 - a.c) * ε) := by
      have hij : i = J := by omega
      have e1 : (2 : ℝ) ^ J * (1 / 2) ^ J = 1 := by rw [← mul_pow]; norm_num
      have h7 : H * nrm px ^ 2 ≤ 2 ^ (J + 1) * (1 - a.c) * ε := (mul_le_mul_of_nonneg_left h5 hH).trans hJ
      have h8 : H / 2 * (((1 / 2 : ℝ) ^ i) ^ 2 * nrm px ^ 2) = ((1 / 2 : ℝ) ^ i) ^ 2 / 2 * (H * nrm px ^ 2) := by ring
      rw [h8]
      refine (mul_le_mul_of_nonneg_left h7 (by positivity)).trans_eq ?_
      rw [hij, pow_succ (2 : ℝ) J]
      calc ((1 / 2 : ℝ) ^ J) ^ 2 / 2 * (2 ^ J * 2 * (1 - a.c) * ε) = (2 ^ J * (1 / 2) ^ J) * ((1 / 2) ^ J * ((1 - a.c) * ε)) := by ring
        _ = _ := by rw [e1, one_mul]
    have h7 : (1 / 2 : ℝ) ^ i * ((1 - a.c) * ε) ≤ (1 / 2 : ℝ) ^ i * ((1 - a.c) * -pt) :=
      mul_le_mul_of_nonneg_left (mul_le_mul_of_nonneg_left (by linarith) (by linarith)) (hpos i).le
    have h8 := mul_le_mul_of_nonneg_left h2 (hpos i).le
    have h9 := mul_le_mul_of_nonneg_left h3 (sub_nonneg.2 (hle1 i))
    nlinarith
  · obtain ⟨j, hj, s', e, hle⟩ := ih (i + 1) k' (by omega) (by omega)
    refine ⟨j, hj, s', ?_, hle⟩
    unfold mmBack
    simp only [h.T, h.f, trajLinear]
    rw [if_neg htd, if_neg hacc, if_neg htf, ← e, pow_succ]

theorem mmLoop_convex {a : MMArgs m q} {D : Set (Pt m)} {φ : Pt m → Pt (q + 1)} {Gr : Pt m → Matrix (Fin (q + 1)) (Fin m) ℝ}
    (h : StepProblem a D φ Gr) (hlow : AboveLin D φ Gr) {H R K ε : ℝ} (hH : 0 ≤ H) (hup : CurvLin D φ Gr H) (hR : Within D R) (hK0 : 0 ≤ K)
    (hK : ∀ x ∈ D, ∀ p : Pt m, ∀ i, ∃ j, |(Gr x *ᵥ p) i| ≤ K * |p j|) (hε : 0 ≤ ε) (J : ℕ) (hbt : J + 2 ≤ a.btMax)
    (hJ : H * R ^ 2 ≤ 2 ^ (J + 1) * (1 - a.c) * ε) (hdx : K * (2 ^ J * a.tolDx) ≤ ε) (hdf : 2 ^ J * a.tolDf ≤ ε) (hc : 0 ≤ a.c) (hc1 : a.c ≤ 1) :
    ∀ (N : ℕ) (s : MMState m q), MMGood D φ s → s.delta = none → ∃ s', mmLoop a N s = .ok s' ∧ MMGood D φ s' ∧
      ((∀ y ∈ D, s'.t ≤ vmax (φ y) + ε) ∨ ∀ y ∈ D, s'.t - vmax (φ y) ≤ (1 - a.c * (1 / 2) ^ J) ^ N * (s.t - vmax (φ y))) := by
  intro N
  induction N with
  | zero => exact fun s hs _ => ⟨s, rfl, hs, Or.inr fun y _ => by simp⟩
  | succ N ih =>
    intro s hs hd
    obtain ⟨px, pt, hsol⟩ := h.solves s.x hs.1 s.delta hs.2.2.2
    have hfe := (h.exact _ _ _ _ _ _ _ hsol).1
    have hgap : ∀ y ∈ D, s.t + pt ≤ vmax (φ y) := fun y hy => by
      rw [hs.2.2.1]
      exact step_gap h hlow hs.1 hsol hy (by rw [hd]; intro r hr; cases hr)
    by_cases hpt : pt < -ε
    · obtain ⟨j, hj, s1, e, hle⟩ := mmBack_accept h hH hup hR hK0 hK hε J hJ hdx hdf hc1 hs hsol hpt J 0 (a.btMax - 1) (by omega) (by omega)
      rw [pow_zero] at e
      obtain ⟨g1, -⟩ := mmBack_good h hc hs (by linarith) hfe.dom e
      have hd1 : s1.delta = none := by
        rcases mmBack_cases e with rfl | ⟨_, -, -, -, -, -, h5⟩
        · exact hd
        · rw [h5, hd]; rfl
      have heq : mmLoop a (N + 1) s = mmLoop a N s1 := by
        rw [mmLoop]
        simp only [h.grad, hs.2.1, hs.2.2.1, hsol]
        rw [if_neg (by linarith), if_neg (by omega), e]
        simp
      rw [heq]
      obtain ⟨s', e', g2, g3⟩ := ih s1 g1 hd1
      refine ⟨s', e', g2, g3.imp_right fun g3 y hy => ?_⟩
      have hρ : (0 : ℝ) ≤ 1 - a.c * (1 / 2) ^ J := by
        have : (1 / 2 : ℝ) ^ J ≤ 1 := pow_le_one₀ (by norm_num) (by norm_num)
        have h0 : (0 : ℝ) ≤ (1 / 2) ^ J := by positivity
        nlinarith
      refine (g3 y hy).trans ?_
      rw [pow_succ, mul_assoc]
      refine mul_le_mul_of_nonneg_left ?_ (pow_nonneg hρ N)
      have h1 : (1 / 2 : ℝ) ^ J ≤ (1 / 2) ^ j := pow_le_pow_of_le_one (by norm_num) (by norm_num) hj
      have h2 := hgap y hy
      have h3 : a.c * (1 / 2) ^ j * pt ≤ a.c * (1 / 2) ^ J * pt := by
        refine mul_le_mul_of_nonpos_right (mul_le_mul_of_nonneg_left h1 hc) (by linarith)
      have h4 : a.c * (1 / 2) ^ J * pt ≤ a.c * (1 / 2) ^ J * (vmax (φ y) - s.t) := mul_le_mul_of_nonneg_left (by linarith) (by positivity)
      linarith
    · obtain ⟨s', e, g, hle⟩ := mmLoop_total h hc (by omega) (N + 1) s hs
      refine ⟨s', e, g, Or.inl fun y hy => ?_⟩
      have := hgap y hy
      push Not at hpt
      linarith

/-- **C163**: convex functions with curvature at most `H` on a set of diameter at most `R`, without the trust region. If `J` halvings make the
step short enough for the curvature, and the tolerances are small enough, then the value at the returned point is within `ε` of the minimum, or the
distance to the minimum has shrunk by the factor `1 - c 2^-J` in every one of the passes. -/
theorem minimax_convex (a : MMArgs m q) (D : Set (Pt m)) (φ : Pt m → Pt (q + 1)) (Gr : Pt m → Matrix (Fin (q + 1)) (Fin m) ℝ)
    (h : StepProblem a D φ Gr) (hlow : AboveLin D φ Gr) (H R K ε : ℝ) (hH : 0 ≤ H) (hup : CurvLin D φ Gr H) (hR : Within D R) (hK0 : 0 ≤ K)
    (hK : ∀ x ∈ D, ∀ p : Pt m, ∀ i, ∃ j, |(Gr x *ᵥ p) i| ≤ K * |p j|) (hε : 0 ≤ ε) (J : ℕ) (hbt : J + 2 ≤ a.btMax)
    (hJ : H * R ^ 2 ≤ 2 ^ (J + 1) * (1 - a.c) * ε) (hdx : K * (2 ^ J * a.tolDx) ≤ ε) (hdf : 2 ^ J * a.tolDf ≤ ε) (hc : 0 ≤ a.c) (hc1 : a.c ≤ 1)
    (ht : a.trust = false) (x0 : Pt m) (hx0 : x0 ∈ D) :
    ∃ x, minimax a x0 = .ok x ∧ x ∈ D ∧ ((∀ y ∈ D, vmax (φ x) ≤ vmax (φ y) + ε) ∨
      ∀ y ∈ D, vmax (φ x) - vmax (φ y) ≤ (1 - a.c * (1 / 2) ^ J) ^ a.maxiter * (vmax (φ x0) - vmax (φ y))) := by
  obtain ⟨s', e, g, hle⟩ := mmLoop_convex h hlow hH hup hR hK0 hK hε J hbt hJ hdx hdf hc hc1 a.maxiter
    ⟨x0, φ x0, vmax (φ x0), none⟩ ⟨hx0, rfl, rfl, by intro r hr; cases hr⟩ rfl
  refine ⟨s'.x, ?_, g.1, ?_⟩
  · unfold minimax
    rw [if_neg (by simp [(h.inside x0).2 hx0]), h.f, ht]
    simp only [Bool.false_eq_true, if_false]
    rw [e]
  · rw [← g.2.2.1]
    exact hle

/-! ### Exact solvers exist -/

open Classical in
/-- The solver that returns a best step if there is one. -/
noncomputable def bestStep (D : Set (Pt m)) (x : Pt m) (fx : Pt (q + 1)) (t : ℝ) (G : Matrix (Fin (q + 1)) (Fin m) ℝ) (d : Option ℝ) : StepRes m :=
  if h : ∃ v : Pt m × ℝ, StepFeasible D x fx t G d v.1 v.2 ∧ ∀ p' pt', StepFeasible D x fx t G d p' pt' → v.2 ≤ pt'
  then .value (some (Classical.choose h)) else .solverError

theorem continuous_nrm : Continuous (nrm : Pt m → ℝ) := by
  unfold nrm dotProduct
  fun_prop

theorem continuous_vmax : Continuous (vmax : Pt (q + 1) → ℝ) := by
  have : (vmax : Pt (q + 1) → ℝ) = fun v => Finset.univ.sup' ⟨0, Finset.mem_univ 0⟩ (fun i => v i) := rfl
  rw [this]
  exact Continuous.finset_sup'_apply _ fun i _ => continuous_apply i

/-- On a compact convex set there is an exact solver that always finds a step; so the hypotheses of the theorems can be met for all functions. -/
theorem exists_stepProblem {D : Set (Pt m)} (hD : Convex ℝ D) (hcomp : IsCompact D) (φ : Pt m → Pt (q + 1))
    (Gr : Pt m → Matrix (Fin (q + 1)) (Fin m) ℝ) (c tolDx tolDf : ℝ) (maxiter btMax : ℕ) (trust : Bool) :
    ∃ a : MMArgs m q, StepProblem a D φ Gr ∧ a.c = c ∧ a.tolDx = tolDx ∧ a.tolDf = tolDf ∧ a.maxiter = maxiter ∧ a.btMax = btMax ∧ a.trust = trust := by
  classical
  refine ⟨⟨fun x => .ok (φ x), fun x => .ok (Gr x), fun x => decide (x ∈ D), trajLinear, c, maxiter, trust, tolDx, tolDf, btMax, bestStep D⟩,
    ⟨rfl, rfl, rfl, fun x => by simp, hD, ?_, ?_⟩, rfl, rfl, rfl, rfl, rfl, rfl⟩
  · intro x fx t G d px pt h
    simp only [bestStep] at h
    split at h
    · rename_i hex
      have e : Classical.choose hex = (px, pt) := by simpa using h
      have := Classical.choose_spec hex
      rw [e] at this
      exact this
    · cases h
  · intro x hx d hd
    set P : Set (Pt m) := {p | x + p ∈ D ∧ ∀ r, d = some r → nrm p ≤ r} with hP
    have hPc : IsCompact P := by
      have h1 : IsCompact ((fun p => x + p) ⁻¹' D) := by
        have : (fun p => x + p) ⁻¹' D = (fun y => -x + y) '' D := by
          ext p
          constructor
          · intro hp
            exact ⟨x + p, hp, by simp⟩
          · rintro ⟨y, hy, rfl⟩
            simpa using hy
        rw [this]
        exact hcomp.image (by fun_prop)
      refine h1.of_isClosed_subset ?_ fun p hp => hp.1
      have h2 : IsClosed {p : Pt m | ∀ r, d = some r → nrm p ≤ r} := by
        have : {p : Pt m | ∀ r, d = some r → nrm p ≤ r} = ⋂ r, ⋂ (_ : d = some r), {p | nrm p ≤ r} := by
          ext p
          simp
        rw [this]
        exact isClosed_iInter fun r => isClosed_iInter fun _ => isClosed_le continuous_nrm continuous_const
      exact h1.isClosed.inter h2
    have hne : P.Nonempty := ⟨0, by simpa using hx, fun r hr => by rw [nrm_zero]; exact (hd r hr).le⟩
    obtain ⟨p, hp, hmin⟩ := hPc.exists_isMinOn hne (f := fun p => vmax (φ x + Gr x *ᵥ p)) (by
      refine (continuous_vmax.comp ?_).continuousOn
      fun_prop)
    have hex : ∃ v : Pt m × ℝ, StepFeasible D x (φ x) (vmax (φ x)) (Gr x) d v.1 v.2 ∧
        ∀ p' pt', StepFeasible D x (φ x) (vmax (φ x)) (Gr x) d p' pt' → v.2 ≤ pt' := by
      refine ⟨(p, vmax (φ x + Gr x *ᵥ p) - vmax (φ x)), ⟨fun i => ?_, hp.2, hp.1⟩, fun p' pt' hf => ?_⟩
      · have := le_vmax (φ x + Gr x *ᵥ p) i
        rw [Pi.add_apply] at this
        simp only
        linarith
      · have h1 : vmax (φ x + Gr x *ᵥ p) ≤ vmax (φ x + Gr x *ᵥ p') := hmin (show p' ∈ P from ⟨hf.dom, hf.trust⟩)
        have h2 : vmax (φ x + Gr x *ᵥ p') ≤ vmax (φ x) + pt' := vmax_le fun i => hf.lin i
        simp only
        linarith
    refine ⟨(Classical.choose hex).1, (Classical.choose hex).2, ?_⟩
    simp only [bestStep]
    rw [dif_pos hex]

/-- The interval `[-1, 1]`. -/
def seg : Set (Pt 1) := {x | |x 0| ≤ 1}

theorem seg_eq : seg = Set.pi Set.univ fun _ => Set.Icc (-1 : ℝ) 1 := by
  ext x
  simp only [seg, Set.mem_setOf_eq, abs_le, Set.mem_pi, Set.mem_univ, forall_true_left, Set.mem_Icc]
  exact ⟨fun h i => by rw [Fin.eq_zero i]; exact h, fun h => h 0⟩

theorem seg_within : Within seg 2 := by
  intro x hx y hy
  have e : y - x = fun _ => y 0 - x 0 := by
    funext j
    rw [Fin.eq_zero j]
    rfl
  rw [e, Geo.nrm_one]
  have h1 := abs_le.1 (show |x 0| ≤ 1 from hx)
  have h2 := abs_le.1 (show |y 0| ≤ 1 from hy)
  exact abs_le.2 ⟨by linarith, by linarith⟩

theorem seg_convex : Convex ℝ seg := by
  rw [seg_eq]
  exact convex_pi fun _ _ => convex_Icc _ _

theorem seg_compact : IsCompact seg := by
  rw [seg_eq]
  exact isCompact_univ_pi fun _ => isCompact_Icc

/-- The hypotheses of `minimax_affine` are met by `x` on `[-1, 1]`, with the default options, trust region included: the call returns a point within
`tol_dx` of `-1`. -/
example : ∃ a : MMArgs 1 0, a.maxiter = 100 ∧ a.btMax = 30 ∧ a.trust = true ∧ ∃ x, minimax a 0 = .ok x ∧ |x 0 + 1| < 1 / 10 ^ 9 := by
  obtain ⟨a, h, h1, h2, h3, h4, h5, h6⟩ := exists_stepProblem (q := 0) seg_convex seg_compact (fun x => x) (fun _ => 1) (1 / 100) (1 / 10 ^ 10) (1 / 10 ^ 10) 100 30 true
  refine ⟨a, h4, h5, h6, ?_⟩
  obtain ⟨x, hx, z, hz, hxz⟩ := minimax_affine a seg _ _ h (fun x _ y _ i => by simp) (fun x _ y _ i => by simp) (by rw [h1]; norm_num)
    (by rw [h1]; norm_num) (by rw [h5]; norm_num) (by rw [h2]; norm_num) (by rw [h4]; norm_num) (by
      intro _ x hx y hy
      rw [h4]
      exact (seg_within x hx y hy).trans (by norm_num)) 0 (by simp [seg])
  refine ⟨x, hx, ?_⟩
  have hz1 : z 0 = -1 := by
    have h7 := hz.2 (fun _ => -1) (by simp [seg])
    have h8 : vmax z = z 0 := by
      obtain ⟨i, hi⟩ := vmax_mem z
      rw [hi, Fin.eq_zero i]
    have h9 : vmax (q := 0) (fun _ => (-1 : ℝ)) = -1 := by
      obtain ⟨i, hi⟩ := vmax_mem (q := 0) (fun _ => (-1 : ℝ))
      rw [hi]
    rw [h8, h9] at h7
    have := abs_le.1 (show |z 0| ≤ 1 from hz.1)
    linarith
  rcases hxz with rfl | hxz
  · rw [hz1]
    norm_num
  · have := hxz 0
    rw [hz1, h2, abs_sub_comm] at this
    have e : x 0 - -1 = x 0 + 1 := by ring
    rw [e] at this
    exact lt_of_lt_of_le this (by norm_num)

/-- The hypotheses of `minimax_convex` are met by `x²` on `[-1, 1]`: from `1`, with eight halvings allowed for, the value at the result is at most
`1/20` or `(1 - 2^-9)^100`. -/
example : ∃ a : MMArgs 1 0, a.maxiter = 100 ∧ ∃ x, minimax a (fun _ => 1) = .ok x ∧ (x 0 ^ 2 ≤ 1 / 20 ∨ x 0 ^ 2 ≤ (1 - 1 / 2 * (1 / 2) ^ 8) ^ 100) := by
  obtain ⟨a, h, h1, h2, h3, h4, h5, h6⟩ := exists_stepProblem (q := 0) seg_convex seg_compact (fun x _ => x 0 ^ 2) (fun x => Matrix.of fun _ _ => 2 * x 0)
    (1 / 2) (1 / 10 ^ 10) (1 / 10 ^ 10) 100 30 false
  have hv : ∀ t : ℝ, vmax (q := 0) (fun _ => t) = t := by
    intro t
    obtain ⟨i, hi⟩ := vmax_mem (q := 0) (fun _ => t)
    rw [hi]
  have hmul : ∀ (x p : Pt 1) (i : Fin 1), (Matrix.of (fun (_ _ : Fin 1) => 2 * x 0) *ᵥ p) i = 2 * x 0 * p 0 := by
    intro x p i
    simp [mulVec, dotProduct]
  have hsq : ∀ v : Pt 1, nrm v ^ 2 = v 0 ^ 2 := by
    intro v
    rw [nrm_sq]
    simp [dotProduct, sq]
  refine ⟨a, h4, ?_⟩
  obtain ⟨x, hx, -, hle⟩ := minimax_convex a seg _ _ h (fun x _ y _ i => by rw [hmul, Pi.sub_apply]; nlinarith [sq_nonneg (y 0 - x 0)]) 2 2 2 (1 / 20) (by norm_num)
    (fun x _ y _ i => by rw [hmul, hsq, Pi.sub_apply]; nlinarith) seg_within (by norm_num)
    (fun x hx p i => ⟨0, by
      rw [hmul, abs_mul, abs_mul, abs_two]
      have : |x 0| ≤ 1 := hx
      have := abs_nonneg (p 0)
      nlinarith⟩) (by norm_num) 8 (by rw [h5]; norm_num) (by rw [h1]; norm_num) (by rw [h2]; norm_num) (by rw [h3]; norm_num) (by rw [h1]; norm_num)
    (by rw [h1]; norm_num) h6 (fun _ => 1) (by simp [seg])
  refine ⟨x, hx, hle.imp (fun h7 => ?_) fun h7 => ?_⟩
  · have := h7 (fun _ => 0) (by simp [seg])
    rw [hv, hv] at this
    linarith
  · have := h7 (fun _ => 0) (by simp [seg])
    rw [hv, hv, hv, h1, h4] at this
    simpa using this

end Verif.Opt
