import Verif.Geometry.MiniballModel
import Verif.Lipschitz.BoundProps
import Mathlib.Analysis.Convex.Topology
import Mathlib.Analysis.Convex.Combination
import Mathlib.Topology.Order.Compact

/-!
# Property C89: the smallest enclosing ball
-/

namespace Verif.Geo

open Verif.Domain Verif.Lip Matrix

variable {k m M : ℕ}

/-- An exact solver: the objective is minimal at its answer. -/
def BallSolver.Exact (sol : BallSolver m) : Prop :=
  ∀ {k M : ℕ} (L : Matrix (Fin k) (Fin m) ℝ) (X : Fin M → Pt m) (x : Pt m), sol L X = some x → ∀ y, ballRadius L X x ≤ ballRadius L X y

theorem le_ballRadius (L : Matrix (Fin k) (Fin m) ℝ) (X : Fin M → Pt m) (x : Pt m) (i : Fin M) : lnorm L (x - X i) ≤ ballRadius L X x :=
  le_ciSup (f := fun i => nrm (L *ᵥ (x - X i))) (Set.finite_range _).bddAbove i

theorem ballRadius_le (hM : 0 < M) (L : Matrix (Fin k) (Fin m) ℝ) (X : Fin M → Pt m) (x : Pt m) (r : ℝ) (h : ∀ i, lnorm L (x - X i) ≤ r) :
    ballRadius L X x ≤ r := by
  haveI : Nonempty (Fin M) := ⟨⟨0, hM⟩⟩
  exact ciSup_le h

theorem ballRadius_attained (hM : 0 < M) (L : Matrix (Fin k) (Fin m) ℝ) (X : Fin M → Pt m) (x : Pt m) : ∃ i, ballRadius L X x = lnorm L (x - X i) := by
  haveI : Nonempty (Fin M) := ⟨⟨0, hM⟩⟩
  obtain ⟨i, hi⟩ := exists_eq_ciSup_of_finite (f := fun i => nrm (L *ᵥ (x - X i)))
  exact ⟨i, hi.symm⟩

theorem ballRadius_nonneg (L : Matrix (Fin k) (Fin m) ℝ) (X : Fin M → Pt m) (x : Pt m) : 0 ≤ ballRadius L X x :=
  Real.iSup_nonneg fun i => nrm_nonneg _

/-- **C89**: all points lie in the returned ball, and every ball containing them is at least as large. -/
theorem miniball_spec {sol : BallSolver m} (hs : sol.Exact) {X : Fin M → Pt m} {L : Option (Matrix (Fin m) (Fin m) ℝ)} {x : Pt m} {r : ℝ}
    (h : miniball sol X L = .ok (x, r)) :
    (∀ i, lnorm (L.getD 1) (x - X i) ≤ r) ∧ ∀ (y : Pt m) (r' : ℝ), (∀ i, lnorm (L.getD 1) (y - X i) ≤ r') → r ≤ r' := by
  unfold miniball at h
  split at h
  · cases h
  · rename_i hM
    split at h
    · cases h
    · rename_i x' hx
      cases h
      refine ⟨fun i => le_ballRadius _ _ _ i, fun y r' hy => ?_⟩
      exact (hs _ _ _ hx y).trans (ballRadius_le (Nat.pos_of_ne_zero hM) _ _ _ _ hy)

/-- The parallelogram identity for the metric. -/
theorem lnorm_mid (L : Matrix (Fin k) (Fin m) ℝ) (x y z : Pt m) :
    lnorm L ((1 / 2 : ℝ) • (x + y) - z) ^ 2 = (lnorm L (x - z) ^ 2 + lnorm L (y - z) ^ 2) / 2 - lnorm L (x - y) ^ 2 / 4 := by
  simp only [lnorm, nrm_sq]
  set a := L *ᵥ (x - z) with ha
  set b := L *ᵥ (y - z) with hb
  have e1 : L *ᵥ ((1 / 2 : ℝ) • (x + y) - z) = (1 / 2 : ℝ) • (a + b) := by
    rw [ha, hb, ← mulVec_add, ← mulVec_smul]
    congr 1
    funext i
    simp
    ring
  have e2 : L *ᵥ (x - y) = a - b := by
    rw [ha, hb, ← mulVec_sub]
    congr 1
    abel
  rw [e1, e2]
  clear_value a b
  simp only [smul_dotProduct, dotProduct_smul, add_dotProduct, dotProduct_add, sub_dotProduct, dotProduct_sub, smul_eq_mul]
  rw [dotProduct_comm b a]
  ring

/-- **C89**: the center is unique (in the metric): a ball of the same radius containing the points has the same center. -/
theorem miniball_unique {sol : BallSolver m} (hs : sol.Exact) {X : Fin M → Pt m} {L : Option (Matrix (Fin m) (Fin m) ℝ)} {x : Pt m} {r : ℝ}
    (h : miniball sol X L = .ok (x, r)) (y : Pt m) (hy : ∀ i, lnorm (L.getD 1) (y - X i) ≤ r) : lnorm (L.getD 1) (x - y) = 0 := by
  obtain ⟨h1, h2⟩ := miniball_spec hs h
  have hM : 0 < M := by
    unfold miniball at h
    split at h
    · cases h
    · exact Nat.pos_of_ne_zero ‹_›
  by_contra hne
  have hpos : 0 < lnorm (L.getD 1) (x - y) := lt_of_le_of_ne (nrm_nonneg _) (Ne.symm hne)
  set z := (1 / 2 : ℝ) • (x + y)
  obtain ⟨i, hi⟩ := ballRadius_attained hM (L.getD 1) X z
  have hr := h2 z (ballRadius (L.getD 1) X z) (le_ballRadius _ _ _)
  rw [hi] at hr
  have hm := lnorm_mid (L.getD 1) x y (X i)
  have a1 := h1 i
  have a2 := hy i
  have n1 : 0 ≤ lnorm (L.getD 1) (x - X i) := nrm_nonneg _
  have n2 : 0 ≤ lnorm (L.getD 1) (y - X i) := nrm_nonneg _
  have n0 : 0 ≤ r := n1.trans a1
  have b1 : lnorm (L.getD 1) (x - X i) ^ 2 ≤ r ^ 2 := pow_le_pow_left₀ n1 a1 2
  have b2 : lnorm (L.getD 1) (y - X i) ^ 2 ≤ r ^ 2 := pow_le_pow_left₀ n2 a2 2
  have b3 : r ^ 2 ≤ lnorm (L.getD 1) (z - X i) ^ 2 := pow_le_pow_left₀ n0 hr 2
  have b4 : 0 < lnorm (L.getD 1) (x - y) ^ 2 := by positivity
  rw [hm] at b3
  linarith

/-- The nearest point of the hull is closer to all points of the hull, strictly unless the distance is zero. -/
theorem hull_closer (hM : 0 < M) (L : Matrix (Fin k) (Fin m) ℝ) (X : Fin M → Pt m) (x : Pt m) :
    ∃ z ∈ convexHull ℝ (Set.range X), ∀ w ∈ convexHull ℝ (Set.range X), lnorm L (z - w) ^ 2 + lnorm L (x - z) ^ 2 ≤ lnorm L (x - w) ^ 2 := by
  set K := convexHull ℝ (Set.range X) with hK
  have hcomp : IsCompact K := (Set.finite_range X).isCompact_convexHull (𝕜 := ℝ)
  have hne : K.Nonempty := ⟨X ⟨0, hM⟩, subset_convexHull ℝ _ ⟨_, rfl⟩⟩
  have hcont : Continuous fun z : Pt m => (L *ᵥ (x - z)) ⬝ᵥ (L *ᵥ (x - z)) := by
    have : Continuous fun z : Pt m => L *ᵥ (x - z) := (Continuous.matrix_mulVec continuous_const (continuous_const.sub continuous_id))
    exact this.dotProduct this
  obtain ⟨z, hz, hmin⟩ := hcomp.exists_isMinOn hne hcont.continuousOn
  refine ⟨z, hz, fun w hw => ?_⟩
  simp only [lnorm, nrm_sq]
  set a := L *ᵥ (x - z) with ha
  set b := L *ᵥ (w - z) with hb
  have hstep : ∀ t : ℝ, 0 ≤ t → t ≤ 1 → a ⬝ᵥ a ≤ (a - t • b) ⬝ᵥ (a - t • b) := by
    intro t h0 h1
    have hmem : z + t • (w - z) ∈ K := (convex_convexHull ℝ _).add_smul_sub_mem hz hw ⟨h0, h1⟩
    have := hmin hmem
    simp only at this
    have e : L *ᵥ (x - (z + t • (w - z))) = a - t • b := by
      rw [ha, hb, ← mulVec_smul, ← mulVec_sub]
      congr 1
      abel
    rw [Set.mem_ofPred_eq, e] at this
    exact this
  have e1 : L *ᵥ (z - w) = -b := by rw [hb, ← mulVec_neg, neg_sub]
  have e2 : L *ᵥ (x - w) = a - b := by rw [ha, hb, ← mulVec_sub]; congr 1; abel
  rw [e1, e2]
  clear_value a b
  have hab : a ⬝ᵥ b ≤ 0 := by
    by_contra hpos
    have hpos := not_le.1 hpos
    have hbb := dotProduct_self_nonneg' b
    have hq : ∀ t : ℝ, 0 ≤ t → t ≤ 1 → 0 ≤ -2 * t * (a ⬝ᵥ b) + t ^ 2 * (b ⬝ᵥ b) := by
      intro t h0 h1
      have := hstep t h0 h1
      simp only [sub_dotProduct, dotProduct_sub, smul_dotProduct, dotProduct_smul, smul_eq_mul] at this
      rw [dotProduct_comm b a] at this
      nlinarith
    set s := a ⬝ᵥ b
    set q := b ⬝ᵥ b
    have ht : s / (q + s) ≤ 1 := by rw [div_le_one (by linarith)]; linarith
    have := hq (s / (q + s)) (by positivity) ht
    have hqs : 0 < q + s := by linarith
    have e : -2 * (s / (q + s)) * s + (s / (q + s)) ^ 2 * q = s ^ 2 / (q + s) ^ 2 * (-q - 2 * s) := by field_simp; ring
    rw [e] at this
    have h2 : 0 < s ^ 2 / (q + s) ^ 2 := by positivity
    nlinarith
  simp only [neg_dotProduct, dotProduct_neg, sub_dotProduct, dotProduct_sub]
  rw [dotProduct_comm b a]
  linarith

/-- **C89**: the center lies in the convex hull of the points (in the metric). -/
theorem miniball_hull {sol : BallSolver m} (hs : sol.Exact) {X : Fin M → Pt m} {L : Option (Matrix (Fin m) (Fin m) ℝ)} {x : Pt m} {r : ℝ}
    (h : miniball sol X L = .ok (x, r)) : ∃ z ∈ convexHull ℝ (Set.range X), lnorm (L.getD 1) (x - z) = 0 := by
  have hM : 0 < M := by
    unfold miniball at h
    split at h
    · cases h
    · exact Nat.pos_of_ne_zero ‹_›
  obtain ⟨z, hz, hc⟩ := hull_closer hM (L.getD 1) X x
  refine ⟨z, hz, miniball_unique hs h z fun i => ?_⟩
  obtain ⟨h1, -⟩ := miniball_spec hs h
  have := hc (X i) (subset_convexHull ℝ _ ⟨i, rfl⟩)
  refine le_trans ?_ (h1 i)
  exact (sq_le_sq₀ (a := lnorm (L.getD 1) (z - X i)) (b := lnorm (L.getD 1) (x - X i)) (nrm_nonneg _) (nrm_nonneg _)).1 (by linarith [sq_nonneg (lnorm (L.getD 1) (x - z))])

/-- **C89**: the radius is between half the diameter and the diameter. -/
theorem miniball_diameter {sol : BallSolver m} (hs : sol.Exact) {X : Fin M → Pt m} {L : Option (Matrix (Fin m) (Fin m) ℝ)} {x : Pt m} {r : ℝ}
    (h : miniball sol X L = .ok (x, r)) :
    (∀ i j, lnorm (L.getD 1) (X i - X j) ≤ 2 * r) ∧ ∃ i j, r ≤ lnorm (L.getD 1) (X i - X j) := by
  obtain ⟨h1, h2⟩ := miniball_spec hs h
  have hM : 0 < M := by
    unfold miniball at h
    split at h
    · cases h
    · exact Nat.pos_of_ne_zero ‹_›
  constructor
  · intro i j
    have := lnorm_triangle (L.getD 1) (X i) x (X j)
    rw [lnorm_comm (L.getD 1) (X i) x] at this
    linarith [h1 i, h1 j]
  · obtain ⟨j, hj⟩ := ballRadius_attained hM (L.getD 1) X (X ⟨0, hM⟩)
    refine ⟨⟨0, hM⟩, j, ?_⟩
    rw [← hj]
    exact h2 _ _ (le_ballRadius _ _ _)

/-- An optimal center exists for every metric. -/
theorem exists_center (hM : 0 < M) (L : Matrix (Fin k) (Fin m) ℝ) (X : Fin M → Pt m) : ∃ x, ∀ y, ballRadius L X x ≤ ballRadius L X y := by
  haveI : Nonempty (Fin M) := ⟨⟨0, hM⟩⟩
  set K := convexHull ℝ (Set.range X) with hK
  have hcomp : IsCompact K := (Set.finite_range X).isCompact_convexHull (𝕜 := ℝ)
  have hne : K.Nonempty := ⟨X ⟨0, hM⟩, subset_convexHull ℝ _ ⟨_, rfl⟩⟩
  have hcont : Continuous fun x : Pt m => ballRadius L X x := by
    have e : (fun x : Pt m => ballRadius L X x) = fun x => Finset.univ.sup' Finset.univ_nonempty fun i => nrm (L *ᵥ (x - X i)) := by
      funext x
      rw [Finset.sup'_univ_eq_ciSup]
      rfl
    rw [e]
    refine Continuous.finset_sup'_apply _ fun i _ => ?_
    have : Continuous fun z : Pt m => L *ᵥ (z - X i) := (Continuous.matrix_mulVec continuous_const (continuous_id.sub continuous_const))
    exact (this.dotProduct this).sqrt
  obtain ⟨x, hx, hmin⟩ := hcomp.exists_isMinOn hne hcont.continuousOn
  refine ⟨x, fun y => ?_⟩
  obtain ⟨z, hz, hc⟩ := hull_closer hM L X y
  refine le_trans (hmin hz) (ballRadius_le hM L X z _ fun i => ?_)
  have := hc (X i) (subset_convexHull ℝ _ ⟨i, rfl⟩)
  refine le_trans ?_ (le_ballRadius L X y i)
  exact (sq_le_sq₀ (a := lnorm L (z - X i)) (b := lnorm L (y - X i)) (nrm_nonneg _) (nrm_nonneg _)).1 (by linarith [sq_nonneg (lnorm L (y - z))])

/-- An exact solver that succeeds whenever there are points exists; then `miniball` succeeds. -/
theorem exists_ballSolver : ∃ sol : BallSolver m, sol.Exact ∧ ∀ {M : ℕ} (X : Fin M → Pt m) (L : Option (Matrix (Fin m) (Fin m) ℝ)),
    (∃ q, miniball sol X L = .ok q) ↔ 0 < M := by
  classical
  refine ⟨fun {k M} L X => if h : 0 < M then some (exists_center h L X).choose else none, ?_, ?_⟩
  · intro k M L X x h
    simp only at h
    split at h
    · rename_i hM
      cases h
      exact (exists_center hM L X).choose_spec
    · cases h
  · intro M X L
    unfold miniball
    rcases Nat.eq_zero_or_pos M with h | h
    · simp [h]
    · simp only [h.ne', if_false, h, dif_pos, iff_true]
      exact ⟨_, rfl⟩

/-- Two points: the center is the middle. -/
example : ∃ sol : BallSolver 1, sol.Exact ∧ ∃ x, miniball sol (![![0], ![2]] : Fin 2 → Pt 1) none = .ok (x, 1) ∧ x = ![1] := by
  obtain ⟨sol, hs, hok⟩ := exists_ballSolver (m := 1)
  obtain ⟨⟨x, r⟩, hq⟩ := (hok (![![0], ![2]] : Fin 2 → Pt 1) none).2 (by norm_num)
  obtain ⟨h1, h2⟩ := miniball_spec hs hq
  obtain ⟨h3, -⟩ := miniball_diameter hs hq
  have n : ∀ t : ℝ, lnorm (1 : Matrix (Fin 1) (Fin 1) ℝ) ![t] = |t| := by
    intro t
    simp [lnorm, nrm, dotProduct, Real.sqrt_mul_self_eq_abs]
  have hx : x = ![x 0] := by funext i; rw [Subsingleton.elim i 0]; rfl
  have d0 : x - ![0] = ![x 0] := by funext i; rw [Subsingleton.elim i 0]; simp
  have d1 : x - ![2] = ![x 0 - 2] := by funext i; rw [Subsingleton.elim i 0]; simp
  have a0 := h1 0
  have a1 := h1 1
  simp only [Option.getD_none, Matrix.cons_val_zero, Matrix.cons_val_one, d0, d1, n] at a0 a1
  have hr : r ≤ 1 := by
    refine h2 ![1] 1 fun i => ?_
    have e0 : (![1] : Pt 1) - ![0] = ![1] := by funext i; rw [Subsingleton.elim i 0]; simp
    have e1 : (![1] : Pt 1) - ![2] = ![-1] := by funext i; rw [Subsingleton.elim i 0]; simp; norm_num
    fin_cases i
    · simp only [Option.getD_none, Fin.zero_eta, Matrix.cons_val_zero, e0, n]; norm_num
    · show lnorm 1 ((![1] : Pt 1) - ![2]) ≤ 1
      rw [e1, n]; norm_num
  have b0 := abs_le.1 a0
  have b1 := abs_le.1 a1
  have hr1 : r = 1 := by linarith [b0.2, b1.1]
  have hx1 : x 0 = 1 := by linarith [b0.2, b1.1]
  refine ⟨sol, hs, x, ?_, ?_⟩
  · rw [hq, hr1]
  · rw [hx, hx1]

end Verif.Geo
