import Verif.Opt.MinimaxModel
import Verif.Lipschitz.BoundProps
import Verif.Geometry.GeoProps
import Mathlib.Analysis.Convex.Basic

/-!
# Property C59: the minimax solver
-/

namespace Verif.Opt

open Verif.Domain Verif.Lip Matrix

variable {m q : ℕ}

theorem le_vmax (v : Pt (q + 1)) (i : Fin (q + 1)) : v i ≤ vmax v := Finset.le_sup' v (Finset.mem_univ i)

theorem vmax_le {v : Pt (q + 1)} {t : ℝ} (h : ∀ i, v i ≤ t) : vmax v ≤ t := Finset.sup'_le _ _ fun i _ => h i

theorem vmax_mem (v : Pt (q + 1)) : ∃ i, vmax v = v i := by
  obtain ⟨i, -, h⟩ := Finset.exists_mem_eq_sup' ⟨0, Finset.mem_univ (0 : Fin (q + 1))⟩ v
  exact ⟨i, h⟩

theorem mmBack_cases {a : MMArgs m q} {s s' : MMState m q} {px : Pt m} {pt : ℝ} {k : ℕ} {al : ℝ} {stop : Bool}
    (h : mmBack a s px pt k al = .ok (s', stop)) :
    s' = s ∨ ∃ j ≤ k, a.T s.x px (al * (1 / 2) ^ j) = .ok s'.x ∧ a.f s'.x = .ok s'.fx ∧ s'.t = vmax s'.fx ∧
      s'.t ≤ s.t + a.c * (al * (1 / 2) ^ j) * pt ∧ s'.delta = s.delta.map fun d => d * (2 * (al * (1 / 2) ^ j)) := by
  induction k generalizing al with
  | zero =>
    unfold mmBack at h
    split at h
    · cases h
    · rename_i x hx
      split at h
      · cases h
      · rename_i fx hf
        split at h
        · cases h; exact Or.inl rfl
        · split at h
          · rename_i hle
            cases h
            exact Or.inr ⟨0, le_rfl, by simpa using hx, hf, rfl, by simpa using hle, by simp⟩
          · split at h
            · cases h; exact Or.inl rfl
            · cases h; exact Or.inl rfl
  | succ k ih =>
    unfold mmBack at h
    split at h
    · cases h
    · rename_i x hx
      split at h
      · cases h
      · rename_i fx hf
        split at h
        · cases h; exact Or.inl rfl
        · split at h
          · rename_i hle
            cases h
            exact Or.inr ⟨0, by omega, by simpa using hx, hf, rfl, by simpa using hle, by simp⟩
          · split at h
            · cases h; exact Or.inl rfl
            · rcases ih h with h | ⟨j, hj, b, c, d, e, g⟩
              · exact Or.inl h
              · have sh : al * (1 / 2) * (1 / 2) ^ j = al * (1 / 2) ^ (j + 1) := by ring
                rw [sh] at b e g
                exact Or.inr ⟨j + 1, by omega, b, c, d, e, g⟩

/-- C59: the radius of the trust region doubles after a full step and is halved for each further halving of the step; without a step it is unchanged. -/
theorem minimax_radius {a : MMArgs m q} {s s' : MMState m q} {px : Pt m} {pt : ℝ} {k : ℕ} {stop : Bool} (h : mmBack a s px pt k 1 = .ok (s', stop)) :
    s' = s ∨ ∃ j ≤ k, a.T s.x px ((1 / 2) ^ j) = .ok s'.x ∧ s'.delta = s.delta.map fun d => 2 * d / 2 ^ j := by
  refine (mmBack_cases h).imp_right fun ⟨j, hj, h1, _, _, _, h2⟩ => ⟨j, hj, by simpa using h1, ?_⟩
  rw [h2]
  refine congrArg (fun g => Option.map g s.delta) (funext fun d => ?_)
  rw [one_mul, one_div, inv_pow]; ring

/-- A property of the point that every accepted step keeps holds of the result. -/
theorem mmLoop_induct (a : MMArgs m q) (P : MMState m q → Prop)
    (hstep : ∀ s s' G px pt, P s → a.grad s.x = .ok G → a.solve s.x s.fx s.t G s.delta = .value (some (px, pt)) → pt ≤ 0 →
      (∃ j : ℕ, a.T s.x px ((1 / 2) ^ j) = .ok s'.x ∧ a.f s'.x = .ok s'.fx ∧ s'.t = vmax s'.fx ∧ s'.t ≤ s.t + a.c * (1 / 2) ^ j * pt) → P s')
    (k : ℕ) (s s' : MMState m q) (hs : P s) (h : mmLoop a k s = .ok s') : P s' := by
  induction k generalizing s with
  | zero => simp only [mmLoop] at h; cases h; exact hs
  | succ k ih =>
    unfold mmLoop at h
    split at h
    · cases h
    · rename_i G hG
      split at h
      · cases h; exact hs
      · cases h
      · cases h
      · cases h
      · rename_i px pt hsol
        split at h
        · cases h; exact hs
        · rename_i hpt
          split at h
          · cases h
          · split at h
            · cases h
            · rename_i s1 stop hb
              have h1 : P s1 := by
                rcases mmBack_cases hb with e | ⟨j, -, b, c, d, e, -⟩
                · rw [e]; exact hs
                · rw [one_mul] at b e
                  exact hstep s s1 G px pt hs hG hsol (not_lt.1 hpt) ⟨j, b, c, d, e⟩
              split at h
              · cases h; exact h1
              · exact ih s1 h1 h

theorem minimax_ok {a : MMArgs m q} {x0 x : Pt m} (h : minimax a x0 = .ok x) :
    a.isinside x0 = true ∧ ∃ fx s, a.f x0 = .ok fx ∧
      mmLoop a a.maxiter ⟨x0, fx, vmax fx, if a.trust then some 1 else none⟩ = .ok s ∧ s.x = x := by
  unfold minimax at h
  split at h
  · cases h
  · rename_i hi
    refine ⟨by simpa using hi, ?_⟩
    split at h
    · cases h
    · rename_i fx hf
      split at h
      · cases h
      · rename_i s hs
        cases h
        exact ⟨fx, s, hf, hs, rfl⟩

/-- **C59**, decrease: whatever the solver, trajectory, gradients and constraints, the largest component at the
returned point is at most the one at the start. -/
theorem minimax_decrease (a : MMArgs m q) (hc : 0 ≤ a.c) (x0 x : Pt m) (h : minimax a x0 = .ok x) :
    ∃ v0 v, a.f x0 = .ok v0 ∧ a.f x = .ok v ∧ ∀ i, ∃ j, v i ≤ v0 j := by
  obtain ⟨-, fx, s, hf, hs, rfl⟩ := minimax_ok h
  have := mmLoop_induct a (fun s => a.f s.x = .ok s.fx ∧ s.t = vmax s.fx ∧ s.t ≤ vmax fx) ?_ _ _ s ⟨hf, rfl, le_rfl⟩ hs
  · refine ⟨fx, s.fx, hf, this.1, fun i => ?_⟩
    obtain ⟨j, hj⟩ := vmax_mem fx
    refine ⟨j, ?_⟩
    calc s.fx i ≤ vmax s.fx := le_vmax _ _
      _ = s.t := this.2.1.symm
      _ ≤ vmax fx := this.2.2
      _ = fx j := hj
  · rintro s s' G px pt ⟨-, -, h3⟩ - - hpt ⟨j, -, h5, h6, h7⟩
    refine ⟨h5, h6, h7.trans (le_trans ?_ h3)⟩
    have : 0 ≤ a.c * (1 / 2) ^ j := by positivity
    nlinarith

/-- Specification of the solver: its step satisfies the constraints that the domain puts on `x + p`. -/
def StepInside (a : MMArgs m q) (D : Set (Pt m)) : Prop :=
  ∀ x fx t G d px pt, a.solve x fx t G d = .value (some (px, pt)) → x + px ∈ D

/-- **C59**, membership: with the linear trajectory and a convex domain the returned point is in the domain. -/
theorem minimax_inside (a : MMArgs m q) (D : Set (Pt m)) (hD : Convex ℝ D) (hin : ∀ x, a.isinside x = true → x ∈ D)
    (hT : a.T = trajLinear) (hsol : StepInside a D) (x0 x : Pt m) (h : minimax a x0 = .ok x) : x ∈ D := by
  obtain ⟨h0, fx, s, -, hs, rfl⟩ := minimax_ok h
  refine mmLoop_induct a (fun s => s.x ∈ D) ?_ _ _ s (hin _ h0) hs
  rintro s s' G px pt h1 - h3 - ⟨j, h5, -⟩
  rw [hT] at h5
  simp only [trajLinear, Except.ok.injEq] at h5
  rw [← h5]
  have h4 := hsol _ _ _ _ _ _ _ h3
  have hb : (0:ℝ) ≤ (1 / 2) ^ j := by positivity
  have hb1 : ((1:ℝ) / 2) ^ j ≤ 1 := pow_le_one₀ (by norm_num) (by norm_num)
  have : s.x + ((1:ℝ) / 2) ^ j • px = (1 - ((1:ℝ) / 2) ^ j) • s.x + ((1:ℝ) / 2) ^ j • (s.x + px) := by
    funext i
    simp only [Pi.add_apply, Pi.smul_apply, smul_eq_mul]
    ring
  rw [this]
  exact hD h1 h4 (by linarith) hb (by ring)

/-- Specification of an exact solver for the step (minimax.py 142-160): the linearized functions are below
`t + pt`, the step is within the trust region and leads into the domain, and `pt` is least possible. -/
structure StepFeasible (D : Set (Pt m)) (x : Pt m) (fx : Pt (q + 1)) (t : ℝ) (G : Matrix (Fin (q + 1)) (Fin m) ℝ) (d : Option ℝ)
    (p : Pt m) (pt : ℝ) : Prop where
  lin : ∀ i, fx i + (G *ᵥ p) i ≤ t + pt
  trust : ∀ r, d = some r → nrm p ≤ r
  dom : x + p ∈ D

def StepExact (a : MMArgs m q) (D : Set (Pt m)) : Prop :=
  ∀ x fx t G d px pt, a.solve x fx t G d = .value (some (px, pt)) →
    StepFeasible D x fx t G d px pt ∧ ∀ p' pt', StepFeasible D x fx t G d p' pt' → pt ≤ pt'

/-- With an exact solver the predicted change is never positive, so the branch "no progress" is not taken. -/
theorem step_nonpos (a : MMArgs m q) (D : Set (Pt m)) (hex : StepExact a D) {x : Pt m} {fx : Pt (q + 1)}
    {G : Matrix (Fin (q + 1)) (Fin m) ℝ} {d : Option ℝ} {px : Pt m} {pt : ℝ} (hx : x ∈ D) (hd : ∀ r, d = some r → 0 ≤ r)
    (h : a.solve x fx (vmax fx) G d = .value (some (px, pt))) : pt ≤ 0 := by
  refine (hex _ _ _ _ _ _ _ h).2 0 0 ⟨fun i => ?_, fun r hr => ?_, by simpa using hx⟩
  · simpa using le_vmax fx i
  · rw [nrm_zero]; exact hd r hr

/-- **C59**, optimality: for convex functions (with their gradients) on a convex domain, a step whose predicted
change is zero certifies that the current point minimizes the largest component over the whole domain. -/
theorem step_zero_optimal (a : MMArgs m q) (D : Set (Pt m)) (hD : Convex ℝ D) (hex : StepExact a D) {x : Pt m} {fx : Pt (q + 1)}
    {G : Matrix (Fin (q + 1)) (Fin m) ℝ} {d : Option ℝ} {px : Pt m} (hx : x ∈ D) (hd : ∀ r, d = some r → 0 < r)
    (h : a.solve x fx (vmax fx) G d = .value (some (px, 0))) (φ : Fin (q + 1) → Pt m → ℝ)
    (hφ : ∀ i y, y ∈ D → fx i + (G *ᵥ (y - x)) i ≤ φ i y) (y : Pt m) (hy : y ∈ D) : ∃ i, vmax fx ≤ φ i y := by
  by_contra hall
  push Not at hall
  -- a step of relative length `r` towards `y`
  obtain ⟨r, hr0, hr1, hrd⟩ : ∃ r : ℝ, 0 < r ∧ r ≤ 1 ∧ ∀ δ, d = some δ → r * nrm (y - x) ≤ δ := by
    cases d with
    | none => exact ⟨1, one_pos, le_rfl, by simp⟩
    | some δ =>
      have hδ := hd δ rfl
      have hn := nrm_nonneg (y - x)
      refine ⟨min 1 (δ / (nrm (y - x) + 1)), by positivity, min_le_left _ _, ?_⟩
      intro δ' e
      cases e
      calc min 1 (δ / (nrm (y - x) + 1)) * nrm (y - x) ≤ δ / (nrm (y - x) + 1) * nrm (y - x) :=
            mul_le_mul_of_nonneg_right (min_le_right _ _) hn
        _ ≤ δ := by
          rw [div_mul_eq_mul_div, div_le_iff₀ (by linarith)]
          nlinarith
  have hfe : ∃ pt' < 0, StepFeasible D x fx (vmax fx) G d (r • (y - x)) pt' := by
    have hne : (Finset.univ : Finset (Fin (q + 1))).Nonempty := ⟨0, Finset.mem_univ _⟩
    refine ⟨r * (Finset.univ.sup' hne (fun i => φ i y) - vmax fx), ?_, ⟨fun i => ?_, fun δ hδ => ?_, ?_⟩⟩
    · apply mul_neg_of_pos_of_neg hr0
      rw [sub_neg]
      exact (Finset.sup'_lt_iff hne).2 fun i _ => hall i
    · have h1 := hφ i y hy
      have h2 : φ i y ≤ Finset.univ.sup' hne (fun i => φ i y) := Finset.le_sup' (fun i => φ i y) (Finset.mem_univ i)
      have h3 := le_vmax fx i
      rw [Matrix.mulVec_smul, Pi.smul_apply, smul_eq_mul]
      nlinarith [mul_nonneg hr0.le (sub_nonneg.2 (h1.trans h2)), mul_nonneg (sub_nonneg.2 hr1) (sub_nonneg.2 h3)]
    · rw [Geo.nrm_smul, abs_of_pos hr0]
      exact hrd δ hδ
    · have : x + r • (y - x) = (1 - r) • x + r • y := by
        funext i
        simp only [Pi.add_apply, Pi.smul_apply, Pi.sub_apply, smul_eq_mul]
        ring
      rw [this]
      exact hD hx hy (by linarith) hr0.le (by ring)
  obtain ⟨pt', hneg, hfe⟩ := hfe
  exact absurd ((hex _ _ _ _ _ _ _ h).2 _ _ hfe) (not_le.2 hneg)

/-- The call fails at once if the start is outside. -/
theorem minimax_outside (a : MMArgs m q) (x0 : Pt m) (h : a.isinside x0 = false) : minimax a x0 = .error (.err .assertion) := by
  unfold minimax
  rw [if_pos (by simp [h])]

/-- A problem meeting the hypotheses: minimize `x` on `[0, ∞)` from `1`, with the exact step `-1`. -/
noncomputable def downArgs : MMArgs 1 0 where
  f := fun x => .ok x
  grad := fun _ => .ok 1
  isinside := fun x => @decide (0 ≤ x 0) (Classical.propDecidable _)
  T := trajLinear
  c := 1 / 100
  maxiter := 1
  trust := false
  tolDx := 0
  tolDf := 0
  btMax := 3
  solve := fun x _ t _ _ => .value (some (-x, -t))

example : StepInside downArgs {x | 0 ≤ x 0} ∧ Convex ℝ {x : Pt 1 | 0 ≤ x 0} ∧ (∀ x, downArgs.isinside x = true → x ∈ {x : Pt 1 | 0 ≤ x 0}) ∧
    minimax downArgs 1 = .ok 0 := by
  refine ⟨?_, ?_, ?_, ?_⟩
  · intro x fx t G d px pt h
    simp only [downArgs, StepRes.value.injEq, Option.some.injEq, Prod.mk.injEq] at h
    rw [← h.1]
    simp
  · intro x hx y hy a b ha hb _
    simp only [Set.mem_setOf_eq, Pi.add_apply, Pi.smul_apply, smul_eq_mul] at *
    positivity
  · intro x hx
    simpa [downArgs] using hx
  · have hv : ∀ v : Pt 1, vmax (q := 0) v = v 0 := fun v => by
      obtain ⟨i, hi⟩ := vmax_mem (q := 0) v
      rw [hi]
      congr
      exact Subsingleton.elim _ _
    have hi : downArgs.isinside 1 = true := by simp [downArgs]
    have hT : downArgs.T 1 (-1) 1 = .ok 0 := by simp [downArgs, trajLinear]
    have hf : ∀ x, downArgs.f x = .ok x := fun _ => rfl
    have hm : downArgs.maxiter = 1 := rfl
    have hb : downArgs.btMax = 3 := rfl
    unfold minimax
    rw [if_neg (by simp [hi]), hf]
    simp only [hm]
    unfold mmLoop
    have hg : downArgs.grad 1 = .ok 1 := rfl
    simp only [hg, hv]
    have hs : ∀ d, downArgs.solve (1 : Pt 1) (1 : Pt 1) ((1 : Pt 1) 0) 1 d = .value (some (-1, -((1 : Pt 1) 0))) := fun _ => rfl
    rw [hs]
    simp only [Pi.one_apply]
    rw [if_neg (by norm_num), hb, if_neg (by norm_num)]
    have : mmBack downArgs ⟨1, 1, 1, if downArgs.trust = true then some 1 else none⟩ (-1) (-1) (3 - 1) 1 = .ok (⟨0, 0, 0, none⟩, false) := by
      unfold mmBack
      simp only [hT, hf, hv]
      rw [if_neg (by simp [downArgs]), if_pos (by norm_num [downArgs])]
      simp [downArgs]
    rw [this]
    simp [mmLoop]

end Verif.Opt
