import Verif.Sample.ClusterModel
import Verif.Geometry.GeoProps
import Verif.Geometry.VsampleProps
import Mathlib.Analysis.InnerProductSpace.Projection.Minimal
import Mathlib.Analysis.Convex.Topology
import Mathlib.Analysis.SpecialFunctions.Pow.Continuity
import Mathlib.Topology.Algebra.Module.FiniteDimension

/-!
# C94: `minimax_cluster`
-/

namespace Verif.Samp

open Verif Verif.Domain Verif.Geo Matrix

variable {k m : ℕ}

/-! ## Specification -/

/-- The objective of the solver for one cluster (its `q`-th power): the sum of the `q`-th powers of the distances to the points of the cluster. -/
noncomputable def cqSum (L : Matrix (Fin k) (Fin m) ℝ) (q : ℝ) (pts : List (Lip.Pt m)) (z : Lip.Pt m) : ℝ := (pts.map fun p => Lip.ldist L z p ^ q).sum

/-- Contract of the convex solver: a minimizer over the whole space; an empty cluster raises. -/
def CqCenter (L : Matrix (Fin k) (Fin m) ℝ) (q : ℝ) (center : Center m) : Prop :=
  ∀ pts x y, center pts x = .ok y → pts ≠ [] ∧ ∀ z, cqSum L q pts y ≤ cqSum L q pts z

/-- The next design: every center is replaced by the solution for the points nearest to it. -/
def Next (center : Center m) (L : Matrix (Fin k) (Fin m) ℝ) (X A B : List (Lip.Pt m)) : Prop := newCenters center X (assignment L X A) 0 A = .ok B

/-- The largest distance from a point of the discretization to the nearest center. -/
theorem scoreOf_spec (L : Matrix (Fin k) (Fin m) ℝ) {X A : List (Lip.Pt m)} (hX : X ≠ []) (hA : A ≠ []) :
    (∃ x ∈ X, ∃ a ∈ A, scoreOf L X A = Lip.ldist L a x ∧ ∀ b ∈ A, scoreOf L X A ≤ Lip.ldist L b x) ∧ ∀ x ∈ X, ∃ a ∈ A, Lip.ldist L a x ≤ scoreOf L X A := by
  constructor
  · obtain ⟨x, hx, e⟩ := fillOver_mem L A hX
    obtain ⟨a, ha, e2⟩ := nearest_mem L hA x
    refine ⟨x, hx, a, ha, e.trans e2, fun b hb => ?_⟩
    rw [scoreOf, e]; exact nearest_le L hb x
  · intro x hx
    obtain ⟨a, ha, e2⟩ := nearest_mem L hA x
    exact ⟨a, ha, by rw [← e2]; exact fillOver_le L A hx⟩

/-! ## The best design is returned -/

theorem keepBest_spec (L : Matrix (Fin k) (Fin m) ℝ) (X A : List (Lip.Pt m)) (best : List (Lip.Pt m) × Option ℝ) (hb : ∀ b, best.2 = some b → scoreOf L X best.1 = b) :
    (keepBest (scoreOf L X A) A best).2 = some (scoreOf L X (keepBest (scoreOf L X A) A best).1) ∧
    ((keepBest (scoreOf L X A) A best).1 = A ∨ (best.2 ≠ none ∧ (keepBest (scoreOf L X A) A best).1 = best.1)) ∧
    scoreOf L X (keepBest (scoreOf L X A) A best).1 ≤ scoreOf L X A ∧ ∀ b, best.2 = some b → scoreOf L X (keepBest (scoreOf L X A) A best).1 ≤ b := by
  obtain ⟨B, b⟩ := best
  cases b with
  | none => simp [keepBest]
  | some b =>
    have hb := hb b rfl
    simp only at hb
    simp only [keepBest]
    split_ifs with h
    · simp [h.le]
    · simp [hb, not_lt.1 h]

theorem clusterLoop_spec (center : Center m) (L : Matrix (Fin k) (Fin m) ℝ) (X : List (Lip.Pt m)) (xtol : ℝ) : ∀ (fuel : ℕ) (A : List (Lip.Pt m))
    (best : List (Lip.Pt m) × Option ℝ) (Iold : List ℕ) {R : List (Lip.Pt m)}, (∀ b, best.2 = some b → scoreOf L X best.1 = b) →
    clusterLoop center L X xtol (fuel + 1) A best Iold = .ok R → ∃ vis : List (List (Lip.Pt m)), vis.head? = some A ∧ vis.IsChain (Next center L X) ∧
      vis.length ≤ fuel + 1 ∧ (R ∈ vis ∨ (best.2 ≠ none ∧ R = best.1)) ∧ (∀ V ∈ vis, scoreOf L X R ≤ scoreOf L X V) ∧ (∀ b, best.2 = some b → scoreOf L X R ≤ b) := by
  have stop : ∀ (fuel : ℕ) (A : List (Lip.Pt m)) (best : List (Lip.Pt m) × Option ℝ) {R : List (Lip.Pt m)}, (∀ b, best.2 = some b → scoreOf L X best.1 = b) →
      R = (keepBest (scoreOf L X A) A best).1 → ∃ vis : List (List (Lip.Pt m)), vis.head? = some A ∧ vis.IsChain (Next center L X) ∧
      vis.length ≤ fuel + 1 ∧ (R ∈ vis ∨ (best.2 ≠ none ∧ R = best.1)) ∧ (∀ V ∈ vis, scoreOf L X R ≤ scoreOf L X V) ∧ (∀ b, best.2 = some b → scoreOf L X R ≤ b) := by
    rintro fuel A best R hb rfl
    obtain ⟨-, h2, h3, h4⟩ := keepBest_spec L X A best hb
    refine ⟨[A], rfl, List.isChain_singleton _, by simp, ?_, by simpa using h3, h4⟩
    rcases h2 with h2 | h2
    · left; rw [h2]; simp
    · right; exact h2
  intro fuel
  induction fuel with
  | zero =>
    intro A best Iold R hb h
    refine stop 0 A best hb ?_
    simp only [clusterLoop] at h
    split at h
    · simpa using h.symm
    · split at h
      · simp at h
      · split at h <;> simpa using h.symm
  | succ fuel ih =>
    intro A best Iold R hb h
    rw [clusterLoop] at h
    split at h
    · exact stop _ A best hb (by simpa using h.symm)
    · split at h
      · simp at h
      · rename_i B hB
        split at h
        · exact stop _ A best hb (by simpa using h.symm)
        · obtain ⟨g1, g2, g3, g4⟩ := keepBest_spec L X A best hb
          obtain ⟨vis, h1, h2, h3, h4, h5, h6⟩ := ih B _ _ (by intro b hb; rw [g1] at hb; exact Option.some.inj hb) h
          have h7 := h6 _ g1
          refine ⟨A :: vis, rfl, ?_, by simp; omega, ?_, ?_, fun b hb => h7.trans (g4 b hb)⟩
          · cases vis with
            | nil => simp at h1
            | cons v vs => simp only [List.head?_cons, Option.some.injEq] at h1; subst h1; exact List.isChain_cons_cons.2 ⟨hB, h2⟩
          · rcases h4 with h4 | h4
            · left; simp [h4]
            · rcases g2 with g2 | g2
              · left; rw [h4.2, g2]; simp
              · right; exact ⟨g2.1, h4.2.trans g2.2⟩
          · intro V hV
            rcases List.mem_cons.1 hV with rfl | hV
            · exact h7.trans g3
            · exact h5 V hV

/-- C94: the design returned is one of the designs visited, starting from the initial one and each made from its predecessor by the clustering step, and its
score is the smallest of their scores. -/
theorem cluster_best {center : Center m} {L : Matrix (Fin k) (Fin m) ℝ} {X : List (Lip.Pt m)} {xtol : ℝ} {maxiter : ℕ} (hm : 0 < maxiter)
    {A R : List (Lip.Pt m)} (h : minimaxCluster center L X xtol maxiter A = .ok R) : ∃ vis : List (List (Lip.Pt m)), vis.head? = some A ∧
      vis.IsChain (Next center L X) ∧ vis.length ≤ maxiter ∧ R ∈ vis ∧ ∀ V ∈ vis, scoreOf L X R ≤ scoreOf L X V := by
  rw [minimaxCluster] at h
  split_ifs at h
  obtain ⟨n, rfl⟩ : ∃ n, maxiter = n + 1 := ⟨maxiter - 1, by omega⟩
  obtain ⟨vis, h1, h2, h3, h4, h5, -⟩ := clusterLoop_spec center L X xtol n A (A, none) _ (by simp) h
  exact ⟨vis, h1, h2, h3, h4.resolve_right (by simp), h5⟩

/-- C94: the design returned is never worse than the initial one. -/
theorem cluster_improves {center : Center m} {L : Matrix (Fin k) (Fin m) ℝ} {X : List (Lip.Pt m)} {xtol : ℝ} {maxiter : ℕ}
    {A R : List (Lip.Pt m)} (h : minimaxCluster center L X xtol maxiter A = .ok R) : scoreOf L X R ≤ scoreOf L X A := by
  rcases Nat.eq_zero_or_pos maxiter with rfl | hm
  · simp only [minimaxCluster, ne_eq, not_true_eq_false, false_and, if_false, clusterLoop, Except.ok.injEq] at h
    rw [h]
  · obtain ⟨vis, h1, -, -, -, h5⟩ := cluster_best hm h
    exact h5 A (List.mem_of_mem_head? h1)

theorem newCenters_spec {center : Center m} {X : List (Lip.Pt m)} {I : List ℕ} : ∀ (A : List (Lip.Pt m)) (i : ℕ) {B : List (Lip.Pt m)},
    newCenters center X I i A = .ok B → B.length = A.length ∧ ∀ b ∈ B, ∃ j, ∃ a ∈ A, center (clusterOf X I j) a = .ok b
  | [], i, B, h => by simp only [newCenters, Except.ok.injEq] at h; subst h; simp
  | a :: A, i, B, h => by
    simp only [newCenters] at h
    split at h
    · simp at h
    · rename_i y hy
      split at h
      · simp at h
      · rename_i ys hys
        simp only [Except.ok.injEq] at h
        obtain ⟨h1, h2⟩ := newCenters_spec A (i + 1) hys
        subst h
        refine ⟨by simp [h1], fun b hb => ?_⟩
        rcases List.mem_cons.1 hb with rfl | hb
        · exact ⟨i, a, by simp, hy⟩
        · obtain ⟨j, c, hc, e⟩ := h2 b hb
          exact ⟨j, c, by simp [hc], e⟩

theorem mem_chain_induct {α : Type*} {R : α → α → Prop} {P : α → Prop} (hstep : ∀ a b, R a b → P a → P b) : ∀ (l : List α) {a : α}, l.head? = some a → P a →
    l.IsChain R → ∀ b ∈ l, P b
  | [], a, h, _, _, b, hb => by simp at hb
  | [c], a, h, hP, _, b, hb => by
    simp only [List.head?_cons, Option.some.injEq] at h
    rw [List.mem_singleton.1 hb, h]; exact hP
  | c :: d :: l, a, h, hP, hc, b, hb => by
    simp only [List.head?_cons, Option.some.injEq] at h
    subst h
    rw [List.isChain_cons_cons] at hc
    rcases List.mem_cons.1 hb with rfl | hb
    · exact hP
    · exact mem_chain_induct hstep (d :: l) rfl (hstep _ _ hc.1 hP) hc.2 b hb

/-- C94: the number of points never changes. -/
theorem cluster_length {center : Center m} {L : Matrix (Fin k) (Fin m) ℝ} {X : List (Lip.Pt m)} {xtol : ℝ} {maxiter : ℕ}
    {A R : List (Lip.Pt m)} (h : minimaxCluster center L X xtol maxiter A = .ok R) : R.length = A.length := by
  rcases Nat.eq_zero_or_pos maxiter with rfl | hm
  · simp only [minimaxCluster, ne_eq, not_true_eq_false, false_and, if_false, clusterLoop, Except.ok.injEq] at h
    rw [h]
  · obtain ⟨vis, h1, h2, -, h4, -⟩ := cluster_best hm h
    exact mem_chain_induct (P := fun V => V.length = A.length) (fun a b hab ha => (newCenters_spec a 0 hab).1.trans ha) vis h1 rfl h2 R h4

/-! ## Inside the domain -/

/-- A point outside a compact convex set has a point of the set that is closer to every point of the set. -/
theorem exists_closer {E : Type*} [NormedAddCommGroup E] [InnerProductSpace ℝ E] {C : Set E} (hC : IsCompact C) (hconv : Convex ℝ C) (hne : C.Nonempty) {x : E} (hx : x ∉ C) :
    ∃ p ∈ C, ∀ y ∈ C, ‖p - y‖ < ‖x - y‖ := by
  obtain ⟨p, hp, hmin⟩ := exists_norm_eq_iInf_of_complete_convex hne hC.isComplete hconv x
  refine ⟨p, hp, fun y hy => ?_⟩
  have hin := (norm_eq_iInf_iff_real_inner_le_zero hconv hp).1 hmin y hy
  have hpos : 0 < ‖x - p‖ := norm_pos_iff.2 (sub_ne_zero.2 fun e => hx (e ▸ hp))
  have e : x - y = (x - p) - (y - p) := by abel
  have h1 : ‖x - y‖ ^ 2 = ‖x - p‖ ^ 2 - 2 * inner ℝ (x - p) (y - p) + ‖y - p‖ ^ 2 := by rw [e, norm_sub_sq_real]
  have h2 : ‖p - y‖ ^ 2 < ‖x - y‖ ^ 2 := by
    rw [h1, norm_sub_rev p y]
    have := sq_pos_of_pos hpos
    linarith
  exact (sq_lt_sq₀ (norm_nonneg _) (norm_nonneg _)).1 h2

theorem sum_lt_of_lt {α : Type*} {f g : α → ℝ} : ∀ {l : List α}, l ≠ [] → (∀ a ∈ l, f a < g a) → (l.map f).sum < (l.map g).sum
  | [], h, _ => absurd rfl h
  | [a], _, h => by simpa using h a (by simp)
  | a :: b :: l, _, h => by
    have := sum_lt_of_lt (l := b :: l) (f := f) (g := g) (by simp) fun c hc => h c (List.mem_cons_of_mem _ hc)
    rw [List.map_cons (f := f), List.sum_cons, List.map_cons (f := g) (a := a), List.sum_cons]
    exact add_lt_add (h a (by simp)) this

/-- A minimizer lies in the convex hull of its cluster, if the metric separates points. -/
theorem cq_in_hull {L : Matrix (Fin k) (Fin m) ℝ} (hL : ∀ v, L *ᵥ v = 0 → v = 0) {q : ℝ} (hq : 0 < q) {pts : List (Lip.Pt m)} (hne : pts ≠ []) {y : Lip.Pt m}
    (hy : ∀ z, cqSum L q pts y ≤ cqSum L q pts z) : y ∈ convexHull ℝ {p | p ∈ pts} := by
  classical
  let φ : Lip.Pt m →ₗ[ℝ] EuclideanSpace ℝ (Fin k) := (WithLp.linearEquiv 2 ℝ (Fin k → ℝ)).symm.toLinearMap ∘ₗ L.mulVecLin
  have hφ : ∀ a b, ‖φ a - φ b‖ = Lip.ldist L a b := by
    intro a b
    rw [Lip.ldist, Lip.nrm_eq]; rfl
  have hcomp : IsCompact (convexHull ℝ {p | p ∈ pts}) := (Set.Finite.isCompact_convexHull (𝕜 := ℝ) (List.finite_toSet pts))
  have hcont : Continuous φ := LinearMap.continuous_of_finiteDimensional φ
  by_cases hin : φ y ∈ φ '' convexHull ℝ {p | p ∈ pts}
  · obtain ⟨z, hz, e⟩ := hin
    have : y = z := by
      have h0 : Lip.ldist L z y = 0 := by rw [← hφ, e, sub_self, norm_zero]
      rw [Lip.ldist, Lip.nrm_eq, norm_eq_zero] at h0
      have h1 : L *ᵥ z - L *ᵥ y = 0 := by
        have := congrArg WithLp.ofLp h0
        simpa using this
      rw [← Matrix.mulVec_sub] at h1
      exact (sub_eq_zero.1 (hL _ h1)).symm
    rw [this]; exact hz
  · exfalso
    obtain ⟨p, ⟨w, hw, rfl⟩, hcl⟩ := exists_closer (hcomp.image hcont) ((convex_convexHull ℝ _).linear_image φ)
      (by obtain ⟨a, ha⟩ := List.exists_mem_of_ne_nil _ hne; exact ⟨φ a, a, subset_convexHull ℝ _ ha, rfl⟩) hin
    refine absurd (hy w) (not_le.2 (sum_lt_of_lt hne fun a ha => ?_))
    refine Real.rpow_lt_rpow (ldist_nn ..) ?_ hq
    rw [← hφ, ← hφ]
    exact hcl _ ⟨a, subset_convexHull ℝ _ ha, rfl⟩

/-- C94: if the metric separates points, the design stays in every convex set that contains the discretization and the initial centers. -/
theorem cluster_inside {center : Center m} {L : Matrix (Fin k) (Fin m) ℝ} (hL : ∀ v, L *ᵥ v = 0 → v = 0) {q : ℝ} (hq : 0 < q) (hc : CqCenter L q center)
    {S : Set (Lip.Pt m)} (hS : Convex ℝ S) {X : List (Lip.Pt m)} (hX : ∀ x ∈ X, x ∈ S) {xtol : ℝ} {maxiter : ℕ} {A R : List (Lip.Pt m)} (hA : ∀ a ∈ A, a ∈ S)
    (h : minimaxCluster center L X xtol maxiter A = .ok R) : ∀ r ∈ R, r ∈ S := by
  rcases Nat.eq_zero_or_pos maxiter with rfl | hm
  · simp only [minimaxCluster, ne_eq, not_true_eq_false, false_and, if_false, clusterLoop, Except.ok.injEq] at h
    rwa [← h]
  · obtain ⟨vis, h1, h2, -, h4, -⟩ := cluster_best hm h
    refine mem_chain_induct (P := fun V => ∀ r ∈ V, r ∈ S) (fun a b hab ha r hr => ?_) vis h1 hA h2 R h4
    obtain ⟨j, c, -, e⟩ := (newCenters_spec a 0 hab).2 r hr
    obtain ⟨g1, g2⟩ := hc _ _ _ e
    refine convexHull_min ?_ hS (cq_in_hull hL hq g1 g2)
    intro p hp
    simp only [clusterOf, Set.mem_setOf_eq, List.mem_map, List.mem_filter] at hp
    obtain ⟨⟨a1, a2⟩, ⟨hm, -⟩, rfl⟩ := hp
    exact hX _ (List.of_mem_zip hm).1

/-! ## The solver exists -/

theorem cqSum_congr {L : Matrix (Fin k) (Fin m) ℝ} {q : ℝ} {pts : List (Lip.Pt m)} {y z : Lip.Pt m} (h : L *ᵥ y = L *ᵥ z) : cqSum L q pts y = cqSum L q pts z := by
  simp only [cqSum, Lip.ldist, h]

/-- Every nonempty cluster has a minimizer. -/
theorem exists_cq (L : Matrix (Fin k) (Fin m) ℝ) {q : ℝ} (hq : 0 < q) {pts : List (Lip.Pt m)} (hne : pts ≠ []) : ∃ y, ∀ z, cqSum L q pts y ≤ cqSum L q pts z := by
  classical
  let φ : Lip.Pt m →ₗ[ℝ] EuclideanSpace ℝ (Fin k) := (WithLp.linearEquiv 2 ℝ (Fin k → ℝ)).symm.toLinearMap ∘ₗ L.mulVecLin
  have hφ : ∀ a b, ‖φ a - φ b‖ = Lip.ldist L a b := by
    intro a b
    rw [Lip.ldist, Lip.nrm_eq]; rfl
  have hcomp : IsCompact (convexHull ℝ {p | p ∈ pts}) := (Set.Finite.isCompact_convexHull (𝕜 := ℝ) (List.finite_toSet pts))
  have hcont : Continuous φ := LinearMap.continuous_of_finiteDimensional φ
  have hCne : (convexHull ℝ {p | p ∈ pts}).Nonempty := by
    obtain ⟨a, ha⟩ := List.exists_mem_of_ne_nil _ hne; exact ⟨a, subset_convexHull ℝ _ ha⟩
  have hf : Continuous fun z => cqSum L q pts z := by
    have : ∀ l : List (Lip.Pt m), Continuous fun z => cqSum L q l z := by
      intro l
      induction l with
      | nil => simp only [cqSum, List.map_nil, List.sum_nil]; exact continuous_const
      | cons a l ih =>
        simp only [cqSum, List.map_cons, List.sum_cons] at ih ⊢
        refine Continuous.add ?_ ih
        refine Continuous.rpow_const ?_ fun _ => .inr hq.le
        simp_rw [← hφ]
        exact (hcont.sub continuous_const).norm
    exact this pts
  obtain ⟨y, -, hmin⟩ := hcomp.exists_isMinOn hCne hf.continuousOn
  refine ⟨y, fun z => ?_⟩
  by_cases hin : φ z ∈ φ '' convexHull ℝ {p | p ∈ pts}
  · obtain ⟨w, hw, e⟩ := hin
    refine (hmin hw).trans_eq (cqSum_congr ?_)
    exact (WithLp.linearEquiv 2 ℝ (Fin k → ℝ)).symm.injective e
  · obtain ⟨p, ⟨w, hw, rfl⟩, hcl⟩ := exists_closer (hcomp.image hcont) ((convex_convexHull ℝ _).linear_image φ) (hCne.image φ) hin
    refine (hmin hw).trans (sum_lt_of_lt hne fun a ha => ?_).le
    refine Real.rpow_lt_rpow (ldist_nn ..) ?_ hq
    rw [← hφ, ← hφ]
    exact hcl _ ⟨a, subset_convexHull ℝ _ ha, rfl⟩

/-- A solver that meets the contract and fails for empty clusters only; every returned center may be changed by a vector the metric does not see. -/
theorem exists_center (L : Matrix (Fin k) (Fin m) ℝ) {q : ℝ} (hq : 0 < q) (f : Lip.Pt m → Lip.Pt m) (hf : ∀ y, L *ᵥ f y = L *ᵥ y) : ∃ center : Center m,
    CqCenter L q center ∧ (∀ pts x, pts ≠ [] → ∃ y, center pts x = .ok y) ∧ ∀ pts x y, center pts x = .ok y → ∃ w, y = f w := by
  classical
  refine ⟨fun pts _ => if h : pts = [] then .error .valueError else .ok (f (exists_cq L hq h).choose), fun pts x y h => ?_, fun pts x h => ?_, fun pts x y h => ?_⟩
  · simp only at h
    split_ifs at h with h0
    simp only [Except.ok.injEq] at h
    subst h
    refine ⟨h0, fun z => ?_⟩
    rw [cqSum_congr (hf _)]
    exact (exists_cq L hq h0).choose_spec z
  · simp only [dif_neg h]; exact ⟨_, rfl⟩
  · simp only at h
    split_ifs at h with h0
    simp only [Except.ok.injEq] at h
    exact ⟨_, h.symm⟩

/-! ## Disagreements -/

/-- C94: with one center the loop stops before the first step, so the initial center is returned whatever the solver and the discretization. -/
theorem cluster_single_false (center : Center m) (L : Matrix (Fin k) (Fin m) ℝ) {X : List (Lip.Pt m)} (hX : X ≠ []) (xtol : ℝ) (maxiter : ℕ) (a : Lip.Pt m) :
    minimaxCluster center L X xtol maxiter [a] = .ok [a] := by
  cases maxiter with
  | zero => simp [minimaxCluster, clusterLoop]
  | succ n =>
    have hI : assignment L X [a] = X.map fun _ => 0 := by
      refine List.map_congr_left fun x _ => ?_
      simp [nearIdx, argminFrom]
    rw [minimaxCluster, if_neg (by simp [hX]), clusterLoop, hI, if_pos rfl]
    simp [keepBest]

theorem pow10 (t : ℝ) (h : |1 + t| ^ 10 + |1 - t| ^ 10 ≤ 2) : t = 0 := by
  have e : |1 + t| ^ 10 + |1 - t| ^ 10 = 2 + 90 * t ^ 2 + 420 * t ^ 4 + 420 * t ^ 6 + 90 * t ^ 8 + 2 * t ^ 10 := by
    rw [Even.pow_abs ⟨5, rfl⟩, Even.pow_abs ⟨5, rfl⟩]; ring
  have h2 : t ^ 2 = 0 := by
    have h4 : 0 ≤ t ^ 4 := by positivity
    have h6 : 0 ≤ t ^ 6 := by positivity
    have h8 : 0 ≤ t ^ 8 := by positivity
    have h10 : 0 ≤ t ^ 10 := by positivity
    have := sq_nonneg t
    nlinarith
  simpa using h2

/-- The minimizer for two points in a metric that sees the first coordinate is the midpoint there. -/
theorem cq_two {L : Matrix (Fin k) (Fin m) ℝ} {i : Fin m} (hL : ∀ a b, Lip.ldist L a b = |a i - b i|) {a b y : Lip.Pt m}
    (h : ∀ z, cqSum L 10 [a, b] y ≤ cqSum L 10 [a, b] z) : y i = (a i + b i) / 2 := by
  have h1 := h (fun j => (a j + b j) / 2)
  simp only [cqSum, List.map_cons, List.map_nil, List.sum_cons, List.sum_nil, add_zero, hL] at h1
  have hp : ∀ u : ℝ, u ^ (10 : ℝ) = u ^ 10 := fun u => by rw [← Real.rpow_natCast]; norm_num
  rw [hp, hp, hp, hp] at h1
  by_cases hab : a i = b i
  · rw [hab, add_self_div_two, sub_self, abs_zero] at h1
    have h0 : |y i - b i| ^ 10 = 0 := by
      have : 0 ≤ |y i - b i| ^ 10 := by positivity
      norm_num at h1
      linarith
    have : y i - b i = 0 := by simpa using h0
    rw [hab]; linarith
  · set d := (b i - a i) / 2 with hd
    have hd0 : d ≠ 0 := by rw [hd]; intro h; apply hab; linarith
    set t := (y i - (a i + b i) / 2) / d with ht
    have hy : y i = (a i + b i) / 2 + t * d := by rw [ht, div_mul_cancel₀ _ hd0]; ring
    have e1 : |y i - a i| = |d| * |1 + t| := by rw [← abs_mul, hy]; congr 1; rw [hd]; ring
    have e2 : |y i - b i| = |d| * |1 - t| := by rw [← abs_mul, hy, ← abs_neg]; congr 1; rw [hd]; ring
    have e3 : |(a i + b i) / 2 - a i| = |d| := by congr 1; rw [hd]; ring
    have e4 : |(a i + b i) / 2 - b i| = |d| := by rw [← abs_neg]; congr 1; rw [hd]; ring
    rw [e1, e2, e3, e4, mul_pow, mul_pow, ← mul_add, ← two_mul, mul_comm (2 : ℝ)] at h1
    have hdp : 0 < |d| ^ 10 := by positivity
    have := pow10 t (le_of_mul_le_mul_left h1 hdp)
    rw [hy, this]; ring

theorem ldist_one1 (a b : Lip.Pt 1) : Lip.ldist (1 : Matrix (Fin 1) (Fin 1) ℝ) a b = |a 0 - b 0| := by
  have := ldist1 1 a b
  rwa [one_smul, one_mul] at this

/-- The discretization and the initial centers of the witness for the movement test. -/
def dxX : List (Lip.Pt 1) := [pt1 0, pt1 (-2), pt1 10, pt1 8]
def dxA : List (Lip.Pt 1) := [pt1 0, pt1 10]

theorem argmin_two (d : ℕ → ℝ) : argminFrom d 0 (List.range 2) = if d 1 < d 0 then 1 else 0 := by
  simp [List.range_succ, argminFrom]

/-- C94: the movement is computed without absolute values, so a step that moves every center by `-1` counts as converged: the initial design is returned,
although the next design has half its score. -/
theorem cluster_dx_false {center : Center 1} (hc : CqCenter (1 : Matrix (Fin 1) (Fin 1) ℝ) 10 center) (ht : ∀ pts x, pts ≠ [] → ∃ y, center pts x = .ok y) :
    minimaxCluster center (1 : Matrix (Fin 1) (Fin 1) ℝ) dxX (1 / 10 ^ 5) 50 dxA = .ok dxA ∧
      ∃ B, Next center (1 : Matrix (Fin 1) (Fin 1) ℝ) dxX dxA B ∧ scoreOf (1 : Matrix (Fin 1) (Fin 1) ℝ) dxX B = 1 ∧
        scoreOf (1 : Matrix (Fin 1) (Fin 1) ℝ) dxX dxA = 2 := by
  have hI : assignment (1 : Matrix (Fin 1) (Fin 1) ℝ) dxX dxA = [0, 0, 1, 1] := by
    have hn : ∀ x : ℝ, nearIdx (1 : Matrix (Fin 1) (Fin 1) ℝ) dxA (pt1 x) = if |10 - x| < |0 - x| then 1 else 0 := by
      intro x
      rw [nearIdx, show dxA.length = 2 from rfl, argmin_two]
      simp [dxA, ldist_one1, pt1]
    simp only [assignment, dxX, List.map_cons, List.map_nil, hn]
    norm_num [abs_of_pos, abs_of_neg]
  have hc0 : clusterOf dxX [0, 0, 1, 1] 0 = [pt1 0, pt1 (-2)] := by simp [clusterOf, dxX]
  have hc1 : clusterOf dxX [0, 0, 1, 1] 1 = [pt1 10, pt1 8] := by simp [clusterOf, dxX]
  obtain ⟨y0, e0⟩ := ht [pt1 0, pt1 (-2)] (pt1 0) (by simp)
  obtain ⟨y1, e1⟩ := ht [pt1 10, pt1 8] (pt1 10) (by simp)
  have h0 : y0 = pt1 (-1) := by
    funext i; rw [Subsingleton.elim i 0, cq_two ldist_one1 (hc _ _ _ e0).2]; simp only [pt1]; norm_num
  have h1 : y1 = pt1 9 := by
    funext i; rw [Subsingleton.elim i 0, cq_two ldist_one1 (hc _ _ _ e1).2]; simp only [pt1]; norm_num
  have hnext : newCenters center dxX [0, 0, 1, 1] 0 dxA = .ok [pt1 (-1), pt1 9] := by
    simp only [dxA, newCenters, hc0, hc1, e0, e1, h0, h1]
  have hmove : movement [pt1 (-1), pt1 9] dxA = -1 := by
    simp only [movement, dxA, List.zipWith_cons_cons, List.zipWith_nil_right, List.finRange_succ, List.finRange_zero, List.map_nil, List.map_cons, List.flatten_cons,
      List.flatten_nil, pt1, List.nil_append, List.cons_append]
    have := maxL_spec (l := [(-1 - 0 : ℝ), 9 - 10]) (by simp)
    have h := this.1
    simp only [List.mem_cons, List.not_mem_nil, or_false] at h
    rcases h with h | h <;> rw [h] <;> norm_num
  have hscore : ∀ a b v : ℝ, (∃ x ∈ [(0 : ℝ), -2, 10, 8], min |a - x| |b - x| = v) → (∀ x ∈ [(0 : ℝ), -2, 10, 8], min |a - x| |b - x| ≤ v) →
      scoreOf (1 : Matrix (Fin 1) (Fin 1) ℝ) dxX [pt1 a, pt1 b] = v := by
    intro a b v ⟨x, hx, hxv⟩ hle
    have hn : ∀ x : ℝ, nearest (1 : Matrix (Fin 1) (Fin 1) ℝ) [pt1 a, pt1 b] (pt1 x) = min |a - x| |b - x| := by
      intro x
      have h1 := nearest_le (1 : Matrix (Fin 1) (Fin 1) ℝ) (by simp : pt1 a ∈ [pt1 a, pt1 b]) (pt1 x)
      have h2 := nearest_le (1 : Matrix (Fin 1) (Fin 1) ℝ) (by simp : pt1 b ∈ [pt1 a, pt1 b]) (pt1 x)
      obtain ⟨c, hc, e⟩ := nearest_mem (1 : Matrix (Fin 1) (Fin 1) ℝ) (X := [pt1 a, pt1 b]) (by simp) (pt1 x)
      rw [ldist_one1] at h1 h2
      refine le_antisymm (le_min h1 h2) ?_
      simp only [List.mem_cons, List.not_mem_nil, or_false] at hc
      rcases hc with rfl | rfl
      · rw [e, ldist_one1]; exact min_le_left _ _
      · rw [e, ldist_one1]; exact min_le_right _ _
    have hX : dxX = [(0 : ℝ), -2, 10, 8].map pt1 := rfl
    refine le_antisymm ?_ ?_
    · obtain ⟨z, hz, e⟩ := fillOver_mem (1 : Matrix (Fin 1) (Fin 1) ℝ) [pt1 a, pt1 b] (V := dxX) (by simp [dxX])
      rw [scoreOf, e]
      rw [hX] at hz
      obtain ⟨w, hw, rfl⟩ := List.mem_map.1 hz
      rw [hn]; exact hle w hw
    · rw [← hxv, ← hn]
      exact fillOver_le _ _ (by rw [hX]; exact List.mem_map_of_mem hx)
  refine ⟨?_, [pt1 (-1), pt1 9], by rw [Next, hI]; exact hnext, ?_, ?_⟩
  · rw [minimaxCluster, if_neg (by simp [dxX, dxA]), clusterLoop, hI, if_neg (by simp [dxX]), hnext]
    simp only
    rw [hmove, if_pos (by norm_num)]
    rfl
  · refine hscore _ _ _ ⟨0, by simp, ?_⟩ ?_
    · norm_num [abs_of_pos, abs_of_neg]
    · intro x hx
      simp only [List.mem_cons, List.not_mem_nil, or_false] at hx
      rcases hx with rfl | rfl | rfl | rfl <;> norm_num [abs_of_pos, abs_of_neg]
  · refine hscore _ _ _ ⟨-2, by simp, ?_⟩ ?_
    · norm_num [abs_of_pos, abs_of_neg]
    · intro x hx
      simp only [List.mem_cons, List.not_mem_nil, or_false] at hx
      rcases hx with rfl | rfl | rfl | rfl <;> norm_num [abs_of_pos, abs_of_neg]

theorem score_two {L : Matrix (Fin k) (Fin m) ℝ} {i : Fin m} (hL : ∀ a b, Lip.ldist L a b = |a i - b i|) {X : List (Lip.Pt m)} {a b : Lip.Pt m} {v : ℝ}
    (h1 : ∃ x ∈ X, min |a i - x i| |b i - x i| = v) (h2 : ∀ x ∈ X, min |a i - x i| |b i - x i| ≤ v) : scoreOf L X [a, b] = v := by
  have hn : ∀ x : Lip.Pt m, nearest L [a, b] x = min |a i - x i| |b i - x i| := by
    intro x
    have h1 := nearest_le L (by simp : a ∈ [a, b]) x
    have h2 := nearest_le L (by simp : b ∈ [a, b]) x
    obtain ⟨c, hc, e⟩ := nearest_mem L (X := [a, b]) (by simp) x
    rw [hL] at h1 h2
    refine le_antisymm (le_min h1 h2) ?_
    simp only [List.mem_cons, List.not_mem_nil, or_false] at hc
    rcases hc with rfl | rfl
    · rw [e, hL]; exact min_le_left _ _
    · rw [e, hL]; exact min_le_right _ _
  obtain ⟨x, hx, hxv⟩ := h1
  refine le_antisymm ?_ ?_
  · obtain ⟨z, hz, e⟩ := fillOver_mem L [a, b] (V := X) (List.ne_nil_of_mem hx)
    rw [scoreOf, e, hn]; exact h2 z hz
  · rw [← hxv, ← hn]
    exact fillOver_le _ _ hx

/-- The discretization and the initial centers of the witness for a metric of rank one. -/
def rkX : List (Lip.Pt 2) := [![0, 0], ![1, 0], ![3, 0], ![4, 0]]
def rkA : List (Lip.Pt 2) := [![0, 0], ![4, 0]]

theorem ldist_row (a b : Lip.Pt 2) : Lip.ldist !![1, 0] a b = |a 0 - b 0| := by
  rw [Lip.ldist, Lip.nrm]
  simp only [dotProduct, Fin.sum_univ_one, Pi.sub_apply, Matrix.mulVec, Fin.sum_univ_two]
  simp [Real.sqrt_mul_self_eq_abs]

/-- C94: with a metric that does not separate points there is an exact solver for which the design leaves the domain, here the rectangle `[0,4] × [-1,1]`. -/
theorem cluster_outside_false : ∃ center : Center 2, CqCenter !![1, 0] 10 center ∧ ∃ R, minimaxCluster center !![1, 0] rkX (1 / 10 ^ 5) 50 rkA = .ok R ∧
    (∀ x ∈ rkX ++ rkA, 0 ≤ x 0 ∧ x 0 ≤ 4 ∧ |x 1| ≤ 1) ∧ ∃ r ∈ R, r 1 = 100 := by
  obtain ⟨center, hc, ht, hf⟩ := exists_center (L := !![1, 0]) (q := 10) (by norm_num) (fun y : Lip.Pt 2 => ![y 0, 100]) (by
    intro y; funext i; fin_cases i; simp [Matrix.mulVec, dotProduct])
  refine ⟨center, hc, ?_⟩
  have hI : ∀ u v : ℝ, |0 - u| < 1 → |v - 4| < 1 → ∀ u' v', assignment !![1, 0] rkX [![u, u'], ![v, v']] = [0, 0, 1, 1] := by
    intro u v hu hv u' v'
    have hn : ∀ x : Lip.Pt 2, nearIdx !![1, 0] [![u, u'], ![v, v']] x = if |v - x 0| < |u - x 0| then 1 else 0 := by
      intro x
      rw [nearIdx, show [![u, u'], ![v, v']].length = 2 from rfl, argmin_two]
      simp [ldist_row]
    simp only [assignment, rkX, List.map_cons, List.map_nil, hn]
    rw [abs_lt] at hu hv
    have h3 : ∀ x : ℝ, (x = 0 ∨ x = 1) → ¬|v - x| < |u - x| := by
      rintro x (rfl | rfl)
      · rw [not_lt, abs_of_pos (by linarith : 0 < v - 0), abs_le]; constructor <;> linarith
      · rw [not_lt, abs_of_pos (by linarith : 0 < v - 1), abs_le]; constructor <;> linarith
    have h4 : ∀ x : ℝ, (x = 3 ∨ x = 4) → |v - x| < |u - x| := by
      rintro x (rfl | rfl)
      · rw [abs_of_neg (by linarith : u - 3 < 0), abs_lt]; constructor <;> linarith
      · rw [abs_of_neg (by linarith : u - 4 < 0), abs_lt]; constructor <;> linarith
    have h30 := h3 0 (.inl rfl)
    rw [sub_zero, sub_zero] at h30
    simp [h30, h3 1 (.inr rfl), h4 3 (.inl rfl), h4 4 (.inr rfl), not_lt.1 h30]
  have hc0 : clusterOf rkX [0, 0, 1, 1] 0 = [![0, 0], ![1, 0]] := by simp [clusterOf, rkX]
  have hc1 : clusterOf rkX [0, 0, 1, 1] 1 = [![3, 0], ![4, 0]] := by simp [clusterOf, rkX]
  obtain ⟨y0, e0⟩ := ht [![0, 0], ![1, 0]] ![0, 0] (by simp)
  obtain ⟨y1, e1⟩ := ht [![3, 0], ![4, 0]] ![4, 0] (by simp)
  have h0 : y0 = ![1 / 2, 100] := by
    have h1 := cq_two ldist_row (hc _ _ _ e0).2
    obtain ⟨w, rfl⟩ := hf _ _ _ e0
    simp at h1
    rw [h1]; norm_num
  have h1 : y1 = ![7 / 2, 100] := by
    have h1 := cq_two ldist_row (hc _ _ _ e1).2
    obtain ⟨w, rfl⟩ := hf _ _ _ e1
    simp at h1
    rw [h1]; norm_num
  have hnext : newCenters center rkX [0, 0, 1, 1] 0 rkA = .ok [![1 / 2, 100], ![7 / 2, 100]] := by
    simp only [rkA, newCenters, hc0, hc1, e0, e1, h0, h1]
  have hmove : ¬movement [![1 / 2, 100], ![7 / 2, 100]] rkA < 1 / 10 ^ 5 := by
    have := (maxL_spec (l := (List.zipWith (fun a b : Lip.Pt 2 => (List.finRange 2).map fun i => a i - b i) [![1 / 2, 100], ![7 / 2, 100]] rkA).flatten)
      (by simp [rkA, List.finRange_succ])).2 100 (by simp [rkA, List.finRange_succ])
    rw [movement, not_lt]
    refine le_trans ?_ this
    norm_num
  have s1 : scoreOf !![1, 0] rkX rkA = 1 := by
    refine score_two ldist_row ⟨![1, 0], by simp [rkX], ?_⟩ ?_
    · norm_num [abs_of_pos, abs_of_neg]
    · intro x hx
      simp only [rkX, List.mem_cons, List.not_mem_nil, or_false] at hx
      rcases hx with rfl | rfl | rfl | rfl <;> norm_num [abs_of_pos, abs_of_neg]
  have s2 : scoreOf !![1, 0] rkX [![1 / 2, 100], ![7 / 2, 100]] = 1 / 2 := by
    refine score_two ldist_row ⟨![1, 0], by simp [rkX], ?_⟩ ?_
    · norm_num [abs_of_pos, abs_of_neg]
    · intro x hx
      simp only [rkX, List.mem_cons, List.not_mem_nil, or_false] at hx
      rcases hx with rfl | rfl | rfl | rfl <;> norm_num [abs_of_pos, abs_of_neg]
  refine ⟨[![1 / 2, 100], ![7 / 2, 100]], ?_, ?_, ![1 / 2, 100], by simp, by simp⟩
  · rw [minimaxCluster, if_neg (by simp [rkX, rkA]), clusterLoop, show rkA = [![0, 0], ![4, 0]] from rfl, hI 0 4 (by norm_num) (by norm_num), if_neg (by simp [rkX])]
    rw [show [![0, 0], ![4, 0]] = rkA from rfl, hnext]
    simp only
    rw [if_neg hmove, clusterLoop, hI (1 / 2) (7 / 2) (by norm_num [abs_of_neg]) (by norm_num [abs_of_neg]), if_pos rfl, s1, s2]
    simp only [keepBest]
    rw [if_pos (by norm_num)]
  · intro x hx
    simp only [rkX, rkA, List.cons_append, List.nil_append, List.mem_cons, List.not_mem_nil, or_false] at hx
    rcases hx with rfl | rfl | rfl | rfl | rfl | rfl <;> norm_num

/-- The contract of the solver can be met for every metric. -/
example (L : Matrix (Fin k) (Fin m) ℝ) : ∃ center : Center m, CqCenter L 10 center ∧ ∀ pts x, pts ≠ [] → ∃ y, center pts x = .ok y := by
  obtain ⟨c, h1, h2, -⟩ := exists_center L (q := 10) (by norm_num) id fun _ => rfl
  exact ⟨c, h1, h2⟩

end Verif.Samp
