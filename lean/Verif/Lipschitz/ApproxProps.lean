import Verif.Lipschitz.ApproxModel
import Verif.Lipschitz.BoundProps
import Verif.Func.PolyProps
import Mathlib.Topology.Order.Compact
import Mathlib.Analysis.Normed.Group.Bounded
import Mathlib.Topology.MetricSpace.ProperSpace.Real

/-!
# Property C87: the Lipschitz approximation
-/

namespace Verif.Lip

open Verif Verif.Domain Verif.Func Matrix

variable {k m M : ℕ}

/-! ## Specification -/

/-- `y` could be the values of a function that is Lipschitz with respect to `L`. -/
def Compatible (L : Matrix (Fin k) (Fin m) ℝ) (X : Fin M → Pt m) (y : Pt M) : Prop := ∀ i j, |y i - y j| ≤ lnorm L (X i - X j)

/-- An exact solver: its answer is feasible and closest to the data. -/
def CompatSolver.Exact (sol : CompatSolver k m) : Prop :=
  ∀ {M : ℕ} (p : PNorm) (L : Matrix (Fin k) (Fin m) ℝ) (X : Fin M → Pt m) (fX y : Pt M), sol p L X fX = some y →
    CompatFeasible L X y ∧ ∀ y', CompatFeasible L X y' → pnorm p (y - fX) ≤ pnorm p (y' - fX)

/-! ## The constraints -/

theorem mem_trilPairs (i j : Fin M) : (i, j) ∈ trilPairs M ↔ (j : ℕ) ≤ (i : ℕ) + 1 := by
  simp [trilPairs]

/-- **C87**: the constraints passed to the solver are those of all pairs. -/
theorem compatFeasible_iff (L : Matrix (Fin k) (Fin m) ℝ) (X : Fin M → Pt m) (y : Pt M) : CompatFeasible L X y ↔ Compatible L X y := by
  constructor
  · intro h i j
    rcases le_total (j : ℕ) (i : ℕ) with hij | hij
    · exact h (i, j) ((mem_trilPairs i j).2 (by omega))
    · have := h (j, i) ((mem_trilPairs j i).2 (by omega))
      rw [abs_sub_comm, lnorm_comm]
      exact this
  · intro h p _
    exact h p.1 p.2

theorem Compatible.consistent {L : Matrix (Fin k) (Fin m) ℝ} {X : Fin M → Pt m} {y : Pt M} (h : Compatible L X y) :
    Consistent L 0 (List.ofFn fun i => (X i, y i)) := by
  intro d hd d' hd'
  rw [List.mem_ofFn'] at hd hd'
  obtain ⟨i, rfl⟩ := hd
  obtain ⟨j, rfl⟩ := hd'
  rw [add_zero]
  exact h i j

/-- The values of a Lipschitz function are compatible. -/
theorem IsLip.compatible {L : Matrix (Fin k) (Fin m) ℝ} {g : Pt m → ℝ} (hg : IsLip L g) (X : Fin M → Pt m) :
    Compatible L X (fun i => g (X i)) := fun i j => hg (X i) (X j)

theorem pnorm_zero (p : PNorm) : pnorm p (0 : Pt M) = 0 := by
  cases p <;> simp [pnorm, nrm_zero]

theorem pnorm_eq_zero {p : PNorm} (hp : p ≠ .other) {r : Pt M} (h : pnorm p r ≤ 0) : r = 0 := by
  cases p with
  | one =>
    have h0 : ∑ i, |r i| = 0 := le_antisymm h (Finset.sum_nonneg fun i _ => abs_nonneg _)
    funext i
    exact abs_eq_zero.1 ((Finset.sum_eq_zero_iff_of_nonneg fun i _ => abs_nonneg _).1 h0 i (Finset.mem_univ _))
  | two =>
    have h0 : nrm r = 0 := le_antisymm h (nrm_nonneg _)
    have h2 := nrm_sq r
    rw [h0] at h2
    exact dotProduct_self_eq_zero.1 (by linarith)
  | inf =>
    funext i
    have : |r i| ≤ ⨆ i, |r i| := le_ciSup (f := fun i => |r i|) (Set.finite_range _).bddAbove i
    exact abs_eq_zero.1 (le_antisymm (this.trans h) (abs_nonneg _))
  | other => exact absurd rfl hp

/-! ## What fit returns -/

/-- What a successful fit has established. -/
theorem approxFit_ok {sol : CompatSolver k m} (hs : sol.Exact) {p : PNorm} {L : Matrix (Fin k) (Fin m) ℝ} {inside : Pt m → Prop} {X : Fin M → Pt m}
    {fX : Pt M} {a : Approx m M} (h : approxFit sol p L inside X fX = .ok a) :
    0 < M ∧ a.X = X ∧ (∀ i, inside (X i)) ∧ a.epsilon = (⨆ i, |a.y i - fX i|) ∧ Compatible L X a.y ∧
      ∀ y, Compatible L X y → pnorm p (a.y - fX) ≤ pnorm p (y - fX) := by
  unfold approxFit at h
  split at h
  · cases h
  · rename_i hin
    rw [dif_pos rfl] at h
    split at h
    · cases h
    · rename_i y hy
      split at h
      · cases h
      · rename_i hM
        cases h
        obtain ⟨h1, h2⟩ := hs p L X _ y hy
        refine ⟨Nat.pos_of_ne_zero hM, rfl, not_not.1 hin, rfl, (compatFeasible_iff L X y).1 h1, fun y' hy' => ?_⟩
        exact h2 y' ((compatFeasible_iff L X y').2 hy')

/-- **C87**: when `fit` succeeds: there are samples, all are inside, there are as many values, and the solver succeeds. -/
theorem approxFit_ok_iff {M' : ℕ} (sol : CompatSolver k m) (p : PNorm) (L : Matrix (Fin k) (Fin m) ℝ) (inside : Pt m → Prop) (X : Fin M → Pt m)
    (fX : Pt M') : (∃ a, approxFit sol p L inside X fX = .ok a) ↔
      (∀ i, inside (X i)) ∧ 0 < M ∧ ∃ h : M = M', ∃ y, sol p L X (fX ∘ Fin.cast h) = some y := by
  unfold approxFit
  by_cases hin : ∀ i, inside (X i)
  · rw [if_neg (not_not.2 hin)]
    by_cases h : M = M'
    · rw [dif_pos h]
      constructor
      · rintro ⟨a, ha⟩
        split at ha
        · cases ha
        · rename_i y hy
          split at ha
          · cases ha
          · rename_i hM
            exact ⟨hin, Nat.pos_of_ne_zero hM, h, y, hy⟩
      · rintro ⟨-, hM, h2, y, hy⟩
        beta_reduce
        rw [hy]
        exact ⟨_, if_neg hM.ne'⟩
    · rw [dif_neg h]
      simp [h]
  · rw [if_pos hin]
    simp [hin]

/-- **C87**: data that are already compatible are not changed: the tolerance is zero. -/
theorem approxFit_compatible {sol : CompatSolver k m} (hs : sol.Exact) {p : PNorm} (hp : p ≠ .other) {L : Matrix (Fin k) (Fin m) ℝ}
    {inside : Pt m → Prop} {X : Fin M → Pt m} {fX : Pt M} {a : Approx m M} (h : approxFit sol p L inside X fX = .ok a)
    (hc : Compatible L X fX) : a.y = fX ∧ a.epsilon = 0 := by
  obtain ⟨hM, -, -, he, -, hopt⟩ := approxFit_ok hs h
  have h0 := hopt fX hc
  rw [sub_self, pnorm_zero] at h0
  have hy : a.y = fX := sub_eq_zero.1 (pnorm_eq_zero hp h0)
  refine ⟨hy, ?_⟩
  rw [he, hy]
  simp

/-- The value of the approximation is the middle of the bounds without tolerance. -/
theorem approxEval_eq (L : Matrix (Fin k) (Fin m) ℝ) (a : Approx m M) (hM : 0 < M) (x : Pt m) :
    approxEval L a x = .fin ((val (uncertainty L none (List.ofFn fun i => (a.X i, a.y i)) x).1 +
      val (uncertainty L none (List.ofFn fun i => (a.X i, a.y i)) x).2) / 2) := by
  have hne : (List.ofFn fun i => (a.X i, a.y i)) ≠ [] := by
    intro h
    have := congrArg List.length h
    simp at this
    omega
  obtain ⟨lo, hi, hf, -⟩ := fold_spec L x hne
  unfold approxEval uncertainty
  simp only [hf, XR.sub, XR.add, XR.smul, val]
  congr 1
  ring

/-- **C87**: at the samples the approximation takes the compatible values, so it is within the reported tolerance of the data. -/
theorem approx_interpolates {sol : CompatSolver k m} (hs : sol.Exact) {p : PNorm} {L : Matrix (Fin k) (Fin m) ℝ} {inside : Pt m → Prop}
    {X : Fin M → Pt m} {fX : Pt M} {a : Approx m M} (h : approxFit sol p L inside X fX = .ok a) (i : Fin M) :
    approxEval L a (X i) = .fin (a.y i) ∧ |a.y i - fX i| ≤ a.epsilon := by
  obtain ⟨hM, hX, -, he, hc, -⟩ := approxFit_ok hs h
  constructor
  · have ht := uncertainty_tight L none _ hc.consistent (X i, a.y i) (by rw [List.mem_ofFn']; exact ⟨i, rfl⟩)
    rw [approxEval_eq L a hM, hX, ht]
    simp [val]
  · rw [he]
    exact le_ciSup (f := fun i => |a.y i - fX i|) (Set.finite_range _).bddAbove i

/-- **C87**: the approximation is finite and Lipschitz with respect to `L`. -/
theorem approx_lipschitz {sol : CompatSolver k m} (hs : sol.Exact) {p : PNorm} {L : Matrix (Fin k) (Fin m) ℝ} {inside : Pt m → Prop}
    {X : Fin M → Pt m} {fX : Pt M} {a : Approx m M} (h : approxFit sol p L inside X fX = .ok a) :
    (∀ x, approxEval L a x = .fin (val (approxEval L a x))) ∧ IsLip L (fun x => val (approxEval L a x)) := by
  obtain ⟨hM, -⟩ := approxFit_ok hs h
  have hne : (List.ofFn fun i => (a.X i, a.y i)) ≠ [] := by
    intro h
    have := congrArg List.length h
    simp at this
    omega
  obtain ⟨-, l1, l2⟩ := uncertainty_lipschitz L none _ hne
  refine ⟨fun x => by rw [approxEval_eq L a hM]; rfl, fun x y => ?_⟩
  simp only [approxEval_eq L a hM, val]
  have h1 := abs_le.1 (l1 x y)
  have h2 := abs_le.1 (l2 x y)
  simp only [val] at h1 h2
  rw [abs_le]
  constructor <;> linarith [h1.1, h1.2, h2.1, h2.2]

/-- **C87**: in the norm of the fit no function that is Lipschitz with respect to `L` is closer to the data. -/
theorem approx_best {sol : CompatSolver k m} (hs : sol.Exact) {p : PNorm} {L : Matrix (Fin k) (Fin m) ℝ} {inside : Pt m → Prop}
    {X : Fin M → Pt m} {fX : Pt M} {a : Approx m M} (h : approxFit sol p L inside X fX = .ok a) (g : Pt m → ℝ) (hg : IsLip L g) :
    pnorm p ((fun i => val (approxEval L a (X i))) - fX) ≤ pnorm p ((fun i => g (X i)) - fX) := by
  obtain ⟨-, -, -, -, -, hopt⟩ := approxFit_ok hs h
  have e : (fun i => val (approxEval L a (X i))) = a.y := by
    funext i
    rw [(approx_interpolates hs h i).1]
    rfl
  rw [e]
  exact hopt _ (hg.compatible X)

/-- **C87**: among all predictions at `x` the value of the approximation has the least worst-case error over the Lipschitz functions
with the compatible values at the samples. -/
theorem approx_central {sol : CompatSolver k m} (hs : sol.Exact) {p : PNorm} {L : Matrix (Fin k) (Fin m) ℝ} {inside : Pt m → Prop}
    {X : Fin M → Pt m} {fX : Pt M} {a : Approx m M} (h : approxFit sol p L inside X fX = .ok a) (x : Pt m) :
    ∃ r, (∀ g, IsLip L g → (∀ i, g (X i) = a.y i) → |g x - val (approxEval L a x)| ≤ r) ∧
      ∀ v : ℝ, ∃ g, IsLip L g ∧ (∀ i, g (X i) = a.y i) ∧ r ≤ |g x - v| := by
  obtain ⟨hM, hX, -, he, hc, -⟩ := approxFit_ok hs h
  have hne : (List.ofFn fun i => (X i, a.y i)) ≠ [] := by
    intro h
    have := congrArg List.length h
    simp at this
    omega
  have hex := uncertainty_exact L _ hne hc.consistent x
  have hord := uncertainty_ordered L none _ (by simpa using hc.consistent) x
  obtain ⟨hfin, -, -⟩ := uncertainty_lipschitz L none _ hne
  obtain ⟨f1, f2⟩ := hfin x
  have hval : val (approxEval L a x) = (val (uncertainty L none (List.ofFn fun i => (X i, a.y i)) x).1 +
      val (uncertainty L none (List.ofFn fun i => (X i, a.y i)) x).2) / 2 := by
    rw [approxEval_eq L a hM, hX]; rfl
  rw [hval]
  rw [f1, f2] at hord
  set lo := val (uncertainty L none (List.ofFn fun i => (X i, a.y i)) x).1
  set hi := val (uncertainty L none (List.ofFn fun i => (X i, a.y i)) x).2
  have hle : lo ≤ hi := by
    rcases hord with h | h
    · exact le_of_lt h
    · exact le_of_eq h
  have hmatch : ∀ g : Pt m → ℝ, Matches g 0 (List.ofFn fun i => (X i, a.y i)) ↔ ∀ i, g (X i) = a.y i := by
    intro g
    constructor
    · intro hm i
      have := hm (X i, a.y i) (by rw [List.mem_ofFn']; exact ⟨i, rfl⟩)
      exact sub_eq_zero.1 (abs_eq_zero.1 (le_antisymm this (abs_nonneg _)))
    · intro hm d hd
      rw [List.mem_ofFn'] at hd
      obtain ⟨i, rfl⟩ := hd
      simp [hm i]
  refine ⟨(hi - lo) / 2, fun g hg hm => ?_, fun v => ?_⟩
  · obtain ⟨b1, b2⟩ := (hex (g x)).2 ⟨g, hg, (hmatch g).2 hm, rfl⟩
    rw [abs_le]
    constructor <;> linarith
  · by_cases hv : v ≤ (lo + hi) / 2
    · obtain ⟨g, hg, hm, e⟩ := (hex hi).1 ⟨hle, le_rfl⟩
      refine ⟨g, hg, (hmatch g).1 hm, ?_⟩
      rw [e]
      exact le_trans (by linarith) (le_abs_self _)
    · obtain ⟨g, hg, hm, e⟩ := (hex lo).1 ⟨le_rfl, hle⟩
      refine ⟨g, hg, (hmatch g).1 hm, ?_⟩
      rw [e]
      refine le_trans ?_ (neg_le_abs _)
      linarith [not_le.1 hv]

/-! ## The solver exists -/

theorem pnorm_inf_eq (r : Pt M) : pnorm .inf r = ‖r‖ := by
  apply le_antisymm
  · exact Real.iSup_le (fun i => norm_le_pi_norm r i) (norm_nonneg _)
  · show ‖r‖ ≤ ⨆ i, |r i|
    rw [pi_norm_le_iff_of_nonneg (Real.iSup_nonneg fun i => abs_nonneg _)]
    intro i
    exact le_ciSup (f := fun i => |r i|) (Set.finite_range _).bddAbove i

theorem pnorm_continuous (p : PNorm) : Continuous (pnorm p : Pt M → ℝ) := by
  cases p with
  | one => exact continuous_finsetSum _ fun i _ => (continuous_apply i).abs
  | two =>
    show Continuous fun r : Pt M => Real.sqrt (r ⬝ᵥ r)
    exact (continuous_finsetSum _ fun i _ => (continuous_apply i).mul (continuous_apply i)).sqrt
  | inf =>
    rw [show (pnorm .inf : Pt M → ℝ) = fun r => ‖r‖ from funext pnorm_inf_eq]
    exact continuous_norm
  | other => exact continuous_const

theorem abs_le_pnorm {p : PNorm} (hp : p ≠ .other) (r : Pt M) (i : Fin M) : |r i| ≤ pnorm p r := by
  cases p with
  | one => exact Finset.single_le_sum (f := fun i => |r i|) (fun i _ => abs_nonneg _) (Finset.mem_univ i)
  | two =>
    show |r i| ≤ Real.sqrt (r ⬝ᵥ r)
    rw [← Real.sqrt_sq_eq_abs]
    apply Real.sqrt_le_sqrt
    rw [pow_two]
    exact Finset.single_le_sum (f := fun i => r i * r i) (fun i _ => mul_self_nonneg _) (Finset.mem_univ i)
  | inf => exact le_ciSup (f := fun i => |r i|) (Set.finite_range _).bddAbove i
  | other => exact absurd rfl hp

/-- Closest compatible data exist. -/
theorem exists_compat {p : PNorm} (hp : p ≠ .other) (L : Matrix (Fin k) (Fin m) ℝ) (X : Fin M → Pt m) (fX : Pt M) :
    ∃ y, CompatFeasible L X y ∧ ∀ y', CompatFeasible L X y' → pnorm p (y - fX) ≤ pnorm p (y' - fX) := by
  set R := pnorm p (0 - fX) with hR
  have hK : IsCompact {y : Pt M | CompatFeasible L X y ∧ pnorm p (y - fX) ≤ R} := by
    apply Metric.isCompact_of_isClosed_isBounded
    · apply IsClosed.inter
      · have e : {y : Pt M | CompatFeasible L X y} = ⋂ q ∈ trilPairs M, {y : Pt M | |y q.1 - y q.2| ≤ nrm (L *ᵥ (X q.1 - X q.2))} := by
          ext y
          simp [CompatFeasible]
        change IsClosed {y : Pt M | CompatFeasible L X y}
        rw [e]
        refine isClosed_iInter fun q => isClosed_iInter fun _ => ?_
        have hcont : Continuous fun y : Pt M => |y q.1 - y q.2| := ((continuous_apply q.1).fun_sub (continuous_apply q.2)).abs
        exact isClosed_le hcont continuous_const
      · exact isClosed_le ((pnorm_continuous p).comp (continuous_id.sub continuous_const)) continuous_const
    · refine (Metric.isBounded_iff_subset_closedBall fX).2 ⟨R, fun y hy => ?_⟩
      rw [Metric.mem_closedBall, dist_eq_norm]
      have hR0 : 0 ≤ R := by
        rcases Nat.eq_zero_or_pos M with h | h
        · subst h
          rw [hR, Subsingleton.elim (0 - fX) 0, pnorm_zero]
        · exact (abs_nonneg _).trans (abs_le_pnorm hp (0 - fX) ⟨0, h⟩)
      rw [pi_norm_le_iff_of_nonneg hR0]
      intro i
      exact (abs_le_pnorm hp (y - fX) i).trans hy.2
  have h0 : CompatFeasible L X 0 := by
    intro q _
    simp only [Pi.zero_apply, sub_self, abs_zero]
    exact nrm_nonneg _
  obtain ⟨y, hy, hmin⟩ := hK.exists_isMinOn ⟨0, h0, le_rfl⟩ ((pnorm_continuous p).comp (continuous_id.sub continuous_const)).continuousOn
  refine ⟨y, hy.1, fun y' hy' => ?_⟩
  by_cases h : pnorm p (y' - fX) ≤ R
  · exact hmin ⟨hy', h⟩
  · exact hy.2.trans (not_le.1 h).le

/-- An exact solver that never fails exists. -/
theorem exists_compatSolver : ∃ sol : CompatSolver k m, sol.Exact ∧ ∀ {M : ℕ} (p : PNorm) (L : Matrix (Fin k) (Fin m) ℝ) (X : Fin M → Pt m) (fX : Pt M),
    p ≠ .other → ∃ y, sol p L X fX = some y := by
  classical
  refine ⟨fun {M} p L X fX => if h : p ≠ .other then some (exists_compat h L X fX).choose else none, ?_, ?_⟩
  · intro M p L X fX y h
    simp only at h
    split at h
    · rename_i hp
      cases h
      exact (exists_compat hp L X fX).choose_spec
    · cases h
  · intro M p L X fX hp
    exact ⟨_, dif_pos hp⟩

/-- Incompatible data: two different values at one point. The fit succeeds, takes one value there. -/
example : ∃ sol : CompatSolver 1 1, sol.Exact ∧ ∃ a, approxFit sol .two 1 (fun _ => True) (![![0], ![0]] : Fin 2 → Pt 1) (![0, 2] : Pt 2) = .ok a ∧
    a.y 0 = a.y 1 ∧ 1 ≤ a.epsilon := by
  obtain ⟨sol, hs, hex⟩ := exists_compatSolver (k := 1) (m := 1)
  obtain ⟨y, hy⟩ := hex .two 1 (![![0], ![0]] : Fin 2 → Pt 1) (![0, 2] : Pt 2) (by simp)
  obtain ⟨a, ha⟩ := (approxFit_ok_iff sol .two 1 (fun _ => True) (![![0], ![0]] : Fin 2 → Pt 1) (![0, 2] : Pt 2)).2
    ⟨fun _ => trivial, by norm_num, rfl, y, hy⟩
  refine ⟨sol, hs, a, ha, ?_, ?_⟩
  · obtain ⟨-, -, -, -, hc, -⟩ := approxFit_ok hs ha
    have := hc 0 1
    simp [lnorm, nrm_zero] at this
    linarith
  · obtain ⟨-, -, -, -, hc, -⟩ := approxFit_ok hs ha
    have h01 := hc 0 1
    have h0 := abs_le.1 (approx_interpolates hs ha 0).2
    have h1 := abs_le.1 (approx_interpolates hs ha 1).2
    simp [lnorm, nrm_zero] at h01 h0 h1
    linarith [h0.1, h0.2, h1.1, h1.2]

end Verif.Lip
