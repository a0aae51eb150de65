import Mathlib.Topology.Order.Compact
import Mathlib.Topology.Instances.Real.Lemmas
import Mathlib.Analysis.InnerProductSpace.PiL2
import Verif.Domain.ChebModel
import Verif.Lipschitz.ParamProps
import Verif.Lipschitz.ConstProps

/-!
# The Chebyshev centre (C115)
-/

namespace Verif.Domain

open Verif

variable {m : ℕ}

/-! ## Specification -/

/-- The bounds and inequality constraints. -/
def LinDom.ineq (D : LinDom m) (x : Lip.Pt m) : Prop :=
  (∀ i, ∀ l, D.lb i = .fin l → l ≤ x i) ∧ (∀ i, ∀ u, D.ub i = .fin u → x i ≤ u) ∧ ∀ p ∈ D.A, p.1 ⬝ᵥ x ≤ p.2

/-- The equality constraints. -/
def LinDom.eqs (D : LinDom m) (x : Lip.Pt m) : Prop := ∀ p ∈ D.Aeq, p.1 ⬝ᵥ x = p.2

/-- The points of the domain. -/
def LinDom.points (D : LinDom m) : Set (Lip.Pt m) := {x | D.ineq x ∧ D.eqs x}

/-- The constraints of the program: `A x + |A| r <= b`, `A_eq x = b_eq`. -/
def ChebFeasible (rows : List (Lip.Pt m × ℝ × ℝ)) (eqs : List (Lip.Pt m × ℝ)) (x : Lip.Pt m) (r : ℝ) : Prop :=
  (∀ p ∈ rows, p.1 ⬝ᵥ x + p.2.1 * r ≤ p.2.2) ∧ ∀ p ∈ eqs, p.1 ⬝ᵥ x = p.2

/-- What the solver of the linear program is trusted with: an answer is optimal, and there is an answer if there is an optimum. -/
def ChebSolver (lp : List (Lip.Pt m × ℝ × ℝ) → List (Lip.Pt m × ℝ) → Option (Lip.Pt m × ℝ)) : Prop :=
  ∀ rows eqs, (∀ x r, lp rows eqs = some (x, r) → ChebFeasible rows eqs x r ∧ ∀ y s, ChebFeasible rows eqs y s → s ≤ r) ∧
    (lp rows eqs = none → ¬ ∃ x r, ChebFeasible rows eqs x r ∧ ∀ y s, ChebFeasible rows eqs y s → s ≤ r)

open Classical in
theorem exists_chebSolver (m : ℕ) : ∃ lp : List (Lip.Pt m × ℝ × ℝ) → List (Lip.Pt m × ℝ) → Option (Lip.Pt m × ℝ), ChebSolver lp := by
  refine ⟨fun rows eqs => if h : ∃ xr : Lip.Pt m × ℝ, ChebFeasible rows eqs xr.1 xr.2 ∧ ∀ y s, ChebFeasible rows eqs y s → s ≤ xr.2
    then some h.choose else none, fun rows eqs => ⟨?_, ?_⟩⟩
  · intro x r hx
    dsimp only at hx
    split at hx
    · rename_i h
      have e := Option.some.inj hx
      have := h.choose_spec
      rw [e] at this
      exact this
    · cases hx
  · rintro hx ⟨x, r, h⟩
    dsimp only at hx
    split at hx
    · cases hx
    · rename_i h'; exact h' ⟨(x, r), h⟩

/-! ## Lemmas -/

/-- The augmented rows are the bounds and the inequality constraints. -/
theorem LinDom.aug_iff (D : LinDom m) (x : Lip.Pt m) : (∀ p ∈ D.aug, p.1 ⬝ᵥ x ≤ p.2) ↔ D.ineq x := by
  unfold LinDom.aug LinDom.ineq
  simp only [List.mem_append, List.mem_filterMap, List.mem_finRange, true_and]
  constructor
  · intro h
    refine ⟨fun i l e => ?_, fun i u e => ?_, fun p hp => h p (Or.inl (Or.inl hp))⟩
    · have := h (-Pi.single i 1, -l) (Or.inl (Or.inr ⟨i, by rw [e]; rfl⟩))
      simp only [neg_dotProduct, single_dotProduct, one_mul] at this
      linarith
    · have := h (Pi.single i 1, u) (Or.inr ⟨i, by rw [e]; rfl⟩)
      simpa only [single_dotProduct, one_mul] using this
  · rintro ⟨h1, h2, h3⟩ p ((hp | ⟨i, hi⟩) | ⟨i, hi⟩)
    · exact h3 p hp
    · rcases e : D.lb i with l | _ | _ | _ <;> rw [e] at hi <;> simp only [lbRow, Option.some.injEq, reduceCtorEq] at hi
      subst hi
      have := h1 i l e
      simp only [neg_dotProduct, single_dotProduct, one_mul]
      linarith
    · rcases e : D.ub i with u | _ | _ | _ <;> rw [e] at hi <;> simp only [ubRow, Option.some.injEq, reduceCtorEq] at hi
      subst hi
      simpa only [single_dotProduct, one_mul] using h2 i u e

theorem dot_le_nrm (a u : Lip.Pt m) : a ⬝ᵥ u ≤ Lip.nrm a * Lip.nrm u := by
  have h := real_inner_le_norm (WithLp.toLp 2 u) (WithLp.toLp 2 a)
  rw [EuclideanSpace.inner_toLp_toLp, ← Lip.nrm_eq, ← Lip.nrm_eq] at h
  simpa [mul_comm] using h

/-- A ball lies in a half space exactly if its centre satisfies the inequality with the radius times the norm added. -/
theorem ball_halfspace (a x : Lip.Pt m) (b : ℝ) {r : ℝ} (hr : 0 ≤ r) :
    (∀ u, Lip.nrm u ≤ r → a ⬝ᵥ (x + u) ≤ b) ↔ a ⬝ᵥ x + Lip.nrm a * r ≤ b := by
  constructor
  · intro h
    by_cases ha : a = 0
    · subst ha
      have := h 0 (by rw [Lip.nrm_zero]; exact hr)
      simp only [zero_dotProduct] at this
      rw [Lip.nrm_zero, zero_mul, add_zero, zero_dotProduct]
      exact this
    · have hp := Lip.nrm_pos_of_ne ha
      have hn : Lip.nrm ((r / Lip.nrm a) • a) ≤ r := by
        have hsq := Lip.nrm_sq ((r / Lip.nrm a) • a)
        rw [smul_dotProduct, dotProduct_smul, ← Lip.nrm_sq, smul_eq_mul, smul_eq_mul] at hsq
        have : Lip.nrm ((r / Lip.nrm a) • a) ^ 2 = r ^ 2 := by rw [hsq]; field_simp
        exact ((sq_eq_sq₀ (Lip.nrm_nonneg _) hr).1 this).le
      have := h _ hn
      rw [dotProduct_add, dotProduct_smul, ← Lip.nrm_sq, smul_eq_mul] at this
      have e : r / Lip.nrm a * Lip.nrm a ^ 2 = Lip.nrm a * r := by field_simp
      rw [e] at this
      exact this
  · intro h u hu
    rw [dotProduct_add]
    have h1 := dot_le_nrm a u
    have h2 := mul_le_mul_of_nonneg_left hu (Lip.nrm_nonneg a)
    linarith

/-- The rows given to the solver. -/
noncomputable def chebRows (D : LinDom m) : List (Lip.Pt m × ℝ × ℝ) := D.aug.map (fun p => (p.1, Lip.nrm p.1, p.2))

/-- For nonnegative radii the program asks for balls satisfying the inequalities with centre satisfying the equalities. -/
theorem cheb_feasible_iff (D : LinDom m) (x : Lip.Pt m) {r : ℝ} (hr : 0 ≤ r) :
    ChebFeasible (chebRows D) D.Aeq x r ↔ (∀ u, Lip.nrm u ≤ r → D.ineq (x + u)) ∧ D.eqs x := by
  unfold ChebFeasible chebRows LinDom.eqs
  refine and_congr ?_ Iff.rfl
  simp only [List.mem_map, forall_exists_index, and_imp, forall_apply_eq_imp_iff₂]
  constructor
  · intro h u hu
    rw [← LinDom.aug_iff]
    intro p hp
    exact (ball_halfspace p.1 x p.2 hr).2 (h p hp) u hu
  · intro h p hp
    refine (ball_halfspace p.1 x p.2 hr).1 fun u hu => ?_
    exact (LinDom.aug_iff D _).2 (h u hu) p hp

theorem cheb_ok {lp : List (Lip.Pt m × ℝ × ℝ) → List (Lip.Pt m × ℝ) → Option (Lip.Pt m × ℝ)} (hlp : ChebSolver lp) {D : LinDom m}
    {c : Lip.Pt m} {r : ℝ} (h : chebyshevCenter lp D = .ok (c, r)) :
    ChebFeasible (chebRows D) D.Aeq c r ∧ ∀ y s, ChebFeasible (chebRows D) D.Aeq y s → s ≤ r := by
  unfold chebyshevCenter at h
  split at h
  · cases h
  · rename_i xr e
    injection h with h
    subst h
    exact (hlp _ _).1 _ _ e

/-! ## Theorems -/

/-- C115: the ball of the radius returned around the centre returned satisfies all bounds and inequalities; the part of it that satisfies
the equality constraints (the whole ball if there are none) lies in the domain, the centre in particular. -/
theorem cheb_ball {lp : List (Lip.Pt m × ℝ × ℝ) → List (Lip.Pt m × ℝ) → Option (Lip.Pt m × ℝ)} (hlp : ChebSolver lp) {D : LinDom m}
    {c : Lip.Pt m} {r : ℝ} (h : chebyshevCenter lp D = .ok (c, r)) (hr : 0 ≤ r) :
    c ∈ D.points ∧ ∀ y, Lip.nrm (y - c) ≤ r → D.ineq y ∧ (D.eqs y → y ∈ D.points) := by
  obtain ⟨h1, _⟩ := cheb_ok hlp h
  obtain ⟨h2, h3⟩ := (cheb_feasible_iff D c hr).1 h1
  have key : ∀ y, Lip.nrm (y - c) ≤ r → D.ineq y := by
    intro y hy
    have := h2 (y - c) hy
    rwa [add_sub_cancel] at this
  refine ⟨⟨key c (by rw [sub_self, Lip.nrm_zero]; exact hr), h3⟩, fun y hy => ⟨key y hy, fun he => ⟨key y hy, he⟩⟩⟩

/-- C115: no larger ball centred in the domain satisfies the bounds and inequalities. -/
theorem cheb_max {lp : List (Lip.Pt m × ℝ × ℝ) → List (Lip.Pt m × ℝ) → Option (Lip.Pt m × ℝ)} (hlp : ChebSolver lp) {D : LinDom m}
    {c : Lip.Pt m} {r : ℝ} (h : chebyshevCenter lp D = .ok (c, r)) {y : Lip.Pt m} {s : ℝ} (hs : 0 ≤ s) (he : D.eqs y)
    (hy : ∀ z, Lip.nrm (z - y) ≤ s → D.ineq z) : s ≤ r := by
  obtain ⟨_, h1⟩ := cheb_ok hlp h
  refine h1 y s ((cheb_feasible_iff D y hs).2 ⟨fun u hu => hy (y + u) ?_, he⟩)
  rwa [add_sub_cancel_left]

/-- C115: the radius is nonnegative exactly if the domain has a point. -/
theorem cheb_nonempty_iff {lp : List (Lip.Pt m × ℝ × ℝ) → List (Lip.Pt m × ℝ) → Option (Lip.Pt m × ℝ)} (hlp : ChebSolver lp)
    {D : LinDom m} {c : Lip.Pt m} {r : ℝ} (h : chebyshevCenter lp D = .ok (c, r)) : 0 ≤ r ↔ D.points.Nonempty := by
  constructor
  · intro hr
    exact ⟨c, (cheb_ball hlp h hr).1⟩
  · rintro ⟨x, hx, he⟩
    refine cheb_max hlp h le_rfl he fun z hz => ?_
    have : z - x = 0 := by
      by_contra hne
      exact absurd hz (not_le.2 (Lip.nrm_pos_of_ne hne))
    rw [sub_eq_zero.1 this]
    exact hx

/-- C115: for a nonempty bounded domain with a row that is not zero the centre is found. -/
theorem cheb_bounded {lp : List (Lip.Pt m × ℝ × ℝ) → List (Lip.Pt m × ℝ) → Option (Lip.Pt m × ℝ)} (hlp : ChebSolver lp) {D : LinDom m}
    (hne : D.points.Nonempty) {R : ℝ} (hb : ∀ x ∈ D.points, Lip.nrm x ≤ R) (hrow : ∃ p ∈ D.aug, p.1 ≠ 0) :
    ∃ c r, chebyshevCenter lp D = .ok (c, r) ∧ 0 ≤ r := by
  suffices hopt : ∃ x r, ChebFeasible (chebRows D) D.Aeq x r ∧ ∀ y s, ChebFeasible (chebRows D) D.Aeq y s → s ≤ r by
    rcases e : lp (chebRows D) D.Aeq with _ | ⟨c, r⟩
    · exact absurd hopt ((hlp _ _).2 e)
    · have hc : chebyshevCenter lp D = .ok (c, r) := by
        unfold chebyshevCenter
        rw [show D.aug.map (fun p => (p.1, Lip.nrm p.1, p.2)) = chebRows D from rfl, e]
      exact ⟨c, r, hc, (cheb_nonempty_iff hlp hc).2 hne⟩
  obtain ⟨q, hq, hq0⟩ := hrow
  have hqn := Lip.nrm_pos_of_ne hq0
  let F : Set (Lip.Pt m × ℝ) := {xr | ChebFeasible (chebRows D) D.Aeq xr.1 xr.2 ∧ 0 ≤ xr.2}
  obtain ⟨x₀, hx₀, he₀⟩ := hne
  have hF0 : (x₀, (0 : ℝ)) ∈ F := by
    refine ⟨(cheb_feasible_iff D x₀ le_rfl).2 ⟨fun u hu => ?_, he₀⟩, le_rfl⟩
    have : u = 0 := by
      by_contra hne
      exact absurd hu (not_le.2 (Lip.nrm_pos_of_ne hne))
    rw [this, add_zero]
    exact hx₀
  have hclosed : IsClosed F := by
    have h1 : F = (⋂ p ∈ {p | p ∈ chebRows D}, {xr : Lip.Pt m × ℝ | p.1 ⬝ᵥ xr.1 + p.2.1 * xr.2 ≤ p.2.2}) ∩
        (⋂ p ∈ {p | p ∈ D.Aeq}, {xr : Lip.Pt m × ℝ | p.1 ⬝ᵥ xr.1 = p.2}) ∩ {xr | 0 ≤ xr.2} := by
      ext xr
      simp [F, ChebFeasible, and_assoc]
    rw [h1]
    refine ((isClosed_biInter fun p _ => ?_).inter (isClosed_biInter fun p _ => ?_)).inter ?_
    · refine isClosed_le ?_ continuous_const
      simp only [dotProduct]
      fun_prop
    · refine isClosed_eq ?_ continuous_const
      simp only [dotProduct]
      fun_prop
    · exact isClosed_le continuous_const continuous_snd
  have hmem : ∀ xr ∈ F, Lip.nrm xr.1 ≤ R ∧ xr.2 ≤ (q.2 + Lip.nrm q.1 * R) / Lip.nrm q.1 := by
    rintro ⟨x, r⟩ ⟨hf, hr⟩
    obtain ⟨h2, h3⟩ := (cheb_feasible_iff D x hr).1 hf
    have hxD : x ∈ D.points := ⟨by simpa using h2 0 (by rw [Lip.nrm_zero]; exact hr), h3⟩
    have hxR := hb x hxD
    refine ⟨hxR, ?_⟩
    have hrow := hf.1 (q.1, Lip.nrm q.1, q.2) (List.mem_map.2 ⟨q, hq, rfl⟩)
    have hd := dot_le_nrm q.1 (-x)
    rw [dotProduct_neg, Lip.nrm_neg] at hd
    have := mul_le_mul_of_nonneg_left hxR hqn.le
    rw [le_div_iff₀ hqn]
    dsimp only at hrow ⊢
    linarith
  have hcomp : IsCompact F := by
    refine Metric.isCompact_of_isClosed_isBounded hclosed ?_
    refine (Metric.isBounded_closedBall (x := (0 : Lip.Pt m × ℝ)) (r := max R ((q.2 + Lip.nrm q.1 * R) / Lip.nrm q.1))).subset ?_
    rintro ⟨x, r⟩ hxr
    obtain ⟨h1, h2⟩ := hmem _ hxr
    rw [mem_closedBall_zero_iff, Prod.norm_def]
    refine max_le ((?_ : ‖x‖ ≤ _).trans (le_max_left _ _)) ((?_ : ‖r‖ ≤ _).trans (le_max_right _ _))
    · refine le_trans ?_ h1
      refine (pi_norm_le_iff_of_nonneg (Lip.nrm_nonneg _)).2 fun i => ?_
      rw [Lip.nrm_eq]
      exact PiLp.norm_apply_le (p := 2) (WithLp.toLp 2 x) i
    · rw [Real.norm_eq_abs, abs_of_nonneg hxr.2]
      exact h2
  obtain ⟨⟨x, r⟩, hxr, hmax⟩ := hcomp.exists_isMaxOn ⟨_, hF0⟩ (f := fun xr : Lip.Pt m × ℝ => xr.2) continuous_snd.continuousOn
  refine ⟨x, r, hxr.1, fun y s hys => ?_⟩
  by_cases hs : 0 ≤ s
  · exact hmax (a := (y, s)) ⟨hys, hs⟩
  · exact (not_le.1 hs).le.trans hxr.2

/-- C115 where the code fails: an empty box is not noticed, a point outside it is returned. -/
theorem cheb_empty_false {lp : List (Lip.Pt 1 × ℝ × ℝ) → List (Lip.Pt 1 × ℝ) → Option (Lip.Pt 1 × ℝ)} (hlp : ChebSolver lp) :
    (⟨fun _ => .fin 1, fun _ => .fin 0, [], []⟩ : LinDom 1).points = ∅ ∧
    ∃ c r, chebyshevCenter lp ⟨fun _ => .fin 1, fun _ => .fin 0, [], []⟩ = .ok (c, r) ∧ r = -1 / 2 ∧ c 0 = 1 / 2 := by
  set D : LinDom 1 := ⟨fun _ => .fin 1, fun _ => .fin 0, [], []⟩ with hD
  have hempty : D.points = ∅ := by
    ext x
    simp only [Set.mem_empty_iff_false, iff_false]
    rintro ⟨⟨h1, h2, _⟩, _⟩
    have a := h1 0 1 rfl
    have b := h2 0 0 rfl
    linarith
  refine ⟨hempty, ?_⟩
  have hn1 : Lip.nrm (Pi.single (0 : Fin 1) (1 : ℝ)) = 1 := by
    have := Lip.nrm_sq (Pi.single (0 : Fin 1) (1 : ℝ))
    rw [single_dotProduct, one_mul, Pi.single_eq_same] at this
    exact (sq_eq_sq₀ (Lip.nrm_nonneg _) zero_le_one).1 (by rw [this, one_pow])
  have haug : D.aug = [(-Pi.single 0 1, -1), (Pi.single 0 1, 0)] := by
    simp [LinDom.aug, hD, lbRow, ubRow, List.finRange_succ]
  have hfeas : ∀ x r, ChebFeasible (chebRows D) D.Aeq x r ↔ 1 + r ≤ x 0 ∧ x 0 + r ≤ 0 := by
    intro x r
    unfold ChebFeasible chebRows
    rw [haug]
    simp only [List.map_cons, List.map_nil, List.mem_cons, List.not_mem_nil, or_false, forall_eq_or_imp, forall_eq, neg_dotProduct,
      single_dotProduct, one_mul, Lip.nrm_neg, hn1, hD, IsEmpty.forall_iff, implies_true, and_true]
    constructor
    · rintro ⟨a, b⟩; constructor <;> linarith
    · rintro ⟨a, b⟩; constructor <;> linarith
  have hopt : ∃ x r, ChebFeasible (chebRows D) D.Aeq x r ∧ ∀ y s, ChebFeasible (chebRows D) D.Aeq y s → s ≤ r := by
    refine ⟨fun _ => 1 / 2, -1 / 2, (hfeas _ _).2 ⟨by norm_num, by norm_num⟩, fun y s h => ?_⟩
    obtain ⟨a, b⟩ := (hfeas _ _).1 h
    linarith
  rcases e : lp (chebRows D) D.Aeq with _ | ⟨c, r⟩
  · exact absurd hopt ((hlp _ _).2 e)
  · have hc : chebyshevCenter lp D = .ok (c, r) := by
      unfold chebyshevCenter
      rw [show D.aug.map (fun p => (p.1, Lip.nrm p.1, p.2)) = chebRows D from rfl, e]
    obtain ⟨h1, h2⟩ := cheb_ok hlp hc
    obtain ⟨a, b⟩ := (hfeas _ _).1 h1
    have h3 := h2 (fun _ => 1 / 2) (-1 / 2) ((hfeas _ _).2 ⟨by norm_num, by norm_num⟩)
    exact ⟨c, r, hc, by linarith, by linarith⟩

/-- C115 where the code fails: for a single point given by equality constraints the radius is unbounded and `TypeError` is raised. -/
theorem cheb_point_false {lp : List (Lip.Pt 1 × ℝ × ℝ) → List (Lip.Pt 1 × ℝ) → Option (Lip.Pt 1 × ℝ)} (hlp : ChebSolver lp) :
    (⟨fun _ => .ninf, fun _ => .pinf, [], [(fun _ => 1, 0)]⟩ : LinDom 1).points = {0} ∧
    chebyshevCenter lp ⟨fun _ => .ninf, fun _ => .pinf, [], [(fun _ => 1, 0)]⟩ = .error .typeError := by
  set D : LinDom 1 := ⟨fun _ => .ninf, fun _ => .pinf, [], [(fun _ => 1, 0)]⟩ with hD
  have haug : D.aug = [] := by simp [LinDom.aug, hD, lbRow, ubRow]
  constructor
  · ext x
    simp only [LinDom.points, LinDom.ineq, LinDom.eqs, hD, Set.mem_ofPred_eq, reduceCtorEq, false_implies, implies_true, List.not_mem_nil,
      List.mem_singleton, forall_eq, true_and, Set.mem_singleton_iff, dotProduct, Fin.sum_univ_one, one_mul]
    constructor
    · intro h; funext i; rw [Fin.fin_one_eq_zero i]; exact h
    · intro h; rw [h]; rfl
  · rcases e : lp (chebRows D) D.Aeq with _ | ⟨c, r⟩
    · unfold chebyshevCenter
      rw [show D.aug.map (fun p => (p.1, Lip.nrm p.1, p.2)) = chebRows D from rfl, e]
    · obtain ⟨h1, h2⟩ := (hlp _ _).1 _ _ e
      have h3 : ChebFeasible (chebRows D) D.Aeq c (r + 1) := by
        refine ⟨?_, h1.2⟩
        unfold chebRows
        rw [haug]
        simp
      have := h2 _ _ h3
      linarith

/-- C115 where the code fails: with equality constraints the ball found need not be the largest ball of the domain (within the plane of the
equality constraints). On the diagonal of the square the largest ball has radius `sqrt 2`; the code returns `1`. -/
theorem cheb_equality_false {lp : List (Lip.Pt 2 × ℝ × ℝ) → List (Lip.Pt 2 × ℝ) → Option (Lip.Pt 2 × ℝ)} (hlp : ChebSolver lp)
    {c : Lip.Pt 2} {r : ℝ}
    (h : chebyshevCenter lp ⟨fun _ => .fin (-1), fun _ => .fin 1, [], [(![1, -1], 0)]⟩ = .ok (c, r)) :
    r ≤ 1 ∧ ∀ y, (⟨fun _ => .fin (-1), fun _ => .fin 1, [], [(![1, -1], 0)]⟩ : LinDom 2).eqs y → Lip.nrm y ^ 2 ≤ 2 →
      y ∈ (⟨fun _ => .fin (-1), fun _ => .fin 1, [], [(![1, -1], 0)]⟩ : LinDom 2).points := by
  constructor
  · by_cases hr : 0 ≤ r
    · obtain ⟨_, h2⟩ := cheb_ball hlp h hr
      have hn : ∀ t : ℝ, |t| = r → Lip.nrm (Pi.single (0 : Fin 2) t) ≤ r := by
        intro t ht
        have := Lip.nrm_sq (Pi.single (0 : Fin 2) t)
        rw [single_dotProduct, Pi.single_eq_same] at this
        refine ((sq_le_sq₀ (Lip.nrm_nonneg _) hr).1 ?_)
        rw [this, ← ht, sq_abs, sq]
      have a := (h2 (c + Pi.single 0 r) (by rw [add_sub_cancel_left]; exact hn r (abs_of_nonneg hr))).1.2.1 0 1 rfl
      have b := (h2 (c + Pi.single 0 (-r)) (by rw [add_sub_cancel_left]; exact hn (-r) (by rw [abs_neg, abs_of_nonneg hr]))).1.1 0 (-1) rfl
      simp only [Pi.add_apply, Pi.single_eq_same] at a b
      linarith
    · linarith
  · intro y he hy
    refine ⟨?_, he⟩
    have h0 := he (![1, -1], 0) (by simp)
    simp only [dotProduct, Fin.sum_univ_two, Matrix.cons_val_zero, Matrix.cons_val_one, one_mul] at h0
    rw [Lip.nrm_sq] at hy
    simp only [dotProduct, Fin.sum_univ_two] at hy
    have h01 : y 0 = y 1 := by linarith
    have hb : ∀ i, -1 ≤ y i ∧ y i ≤ 1 := by
      intro i
      fin_cases i
      · show -1 ≤ y 0 ∧ y 0 ≤ 1
        constructor <;> nlinarith
      · show -1 ≤ y 1 ∧ y 1 ≤ 1
        constructor <;> nlinarith
    refine ⟨fun i l hl => ?_, fun i u hu => ?_, by simp⟩
    · injection hl with hl; rw [← hl]; exact (hb i).1
    · injection hu with hu; rw [← hu]; exact (hb i).2

/-- The hypotheses of `cheb_bounded` are met by the unit interval. -/
example {lp : List (Lip.Pt 1 × ℝ × ℝ) → List (Lip.Pt 1 × ℝ) → Option (Lip.Pt 1 × ℝ)} (hlp : ChebSolver lp) :
    ∃ c r, chebyshevCenter lp ⟨fun _ => .fin 0, fun _ => .fin 1, [], []⟩ = .ok (c, r) ∧ 0 ≤ r := by
  refine cheb_bounded hlp (R := 1) ⟨fun _ => 0, ⟨?_, ?_, by simp⟩, by simp [LinDom.eqs]⟩ ?_ ?_
  · intro i l hl; injection hl with hl; rw [← hl]
  · intro i u hu; injection hu with hu; rw [← hu]; exact zero_le_one
  · rintro x ⟨⟨h1, h2, _⟩, _⟩
    have a := h1 0 0 rfl
    have b := h2 0 1 rfl
    refine (sq_le_sq₀ (Lip.nrm_nonneg _) zero_le_one).1 ?_
    rw [Lip.nrm_sq, dotProduct, Fin.sum_univ_one]
    nlinarith
  · refine ⟨(Pi.single 0 1, 1), ?_, ?_⟩
    · simp [LinDom.aug, ubRow, lbRow]
    · intro h0
      have := congrFun h0 0
      simp at this

end Verif.Domain
