import Verif.Lipschitz.ParamModel
import Verif.Lipschitz.BoundProps
import Mathlib.LinearAlgebra.Matrix.Symmetric
import Mathlib.Tactic.Linarith
import Mathlib.Tactic.FieldSimp

/-!
# C35: the parametrization reaches every symmetric matrix exactly once
-/

namespace Verif.Lip

open Verif Matrix

variable {m : ℕ}

theorem mem_basisPairs (p : Fin m × Fin m) : p ∈ basisPairs m ↔ p.1 ≤ p.2 := by
  obtain ⟨i, j⟩ := p
  simp only [basisPairs, List.mem_flatMap, List.mem_finRange, true_and, List.mem_cons, List.mem_map, List.mem_filter, decide_eq_true_eq, Prod.mk.injEq]
  constructor
  · rintro ⟨a, (⟨rfl, rfl⟩ | ⟨b, h, rfl, rfl⟩)⟩
    · exact le_refl _
    · exact h.le
  · intro h
    rcases h.eq_or_lt with h | h
    · exact ⟨i, Or.inl ⟨rfl, h.symm⟩⟩
    · exact ⟨i, Or.inr ⟨j, h, rfl, rfl⟩⟩

theorem nodup_basisPairs (m : ℕ) : (basisPairs m).Nodup := by
  unfold basisPairs
  rw [List.nodup_flatMap]
  constructor
  · intro i _
    rw [List.nodup_cons]
    constructor
    · simp
    · exact ((List.nodup_finRange m).filter _).map (fun a b h => (Prod.mk.inj h).2)
  · refine (List.nodup_finRange m).imp ?_
    intro i j hij
    intro p hp hq
    have h1 : p.1 = i := by
      rcases List.mem_cons.1 hp with rfl | hp
      · rfl
      · obtain ⟨b, -, rfl⟩ := List.mem_map.1 hp; rfl
    have h2 : p.1 = j := by
      rcases List.mem_cons.1 hq with rfl | hq
      · rfl
      · obtain ⟨b, -, rfl⟩ := List.mem_map.1 hq; rfl
    exact hij (h1.symm.trans h2)

/-- Coefficients listed in the order of the basis come from a function of the pair. -/
theorem exists_coeff {β : Type*} [DecidableEq β] (l : List β) (hl : l.Nodup) (alpha : List ℝ) (h : alpha.length = l.length) :
    ∃ a : β → ℝ, alpha = l.map a := by
  induction l generalizing alpha with
  | nil => exact ⟨fun _ => 0, by simpa using h⟩
  | cons b l ih =>
    cases alpha with
    | nil => simp at h
    | cons x alpha =>
      rw [List.nodup_cons] at hl
      obtain ⟨a, rfl⟩ := ih hl.2 alpha (by simpa using h)
      refine ⟨fun c => if c = b then x else a c, ?_⟩
      simp only [List.map_cons, if_true]
      congr 1
      apply List.map_congr_left
      intro c hc
      rw [if_neg]
      rintro rfl
      exact hl.1 hc

theorem zipWith_map_map {β γ : Type*} (f : ℝ → β → γ) (l : List α) (a : α → ℝ) (b : α → β) :
    List.zipWith f (l.map a) (l.map b) = l.map (fun x => f (a x) (b x)) := by
  induction l with
  | nil => rfl
  | cons x l ih => simp [ih]

theorem combine_map (a : Fin m × Fin m → ℝ) :
    combine (Es m) ((basisPairs m).map a) = ∑ p ∈ (basisPairs m).toFinset, a p • basisMat p := by
  unfold combine Es
  rw [zipWith_map_map, List.sum_toFinset _ (nodup_basisPairs m)]

theorem trace_outer (v : Pt m) : Matrix.trace (outer v) = v ⬝ᵥ v := rfl

theorem unitVec_dot (i : Fin m) (v : Pt m) : unitVec i ⬝ᵥ v = v i := by
  simp [unitVec, dotProduct]

theorem trace_basisMat (p : Fin m × Fin m) : Matrix.trace (basisMat p) = 1 := by
  unfold basisMat
  split
  · rw [trace_outer, unitVec_dot]; simp [unitVec]
  · rename_i h
    rw [Matrix.trace_smul, trace_outer, add_dotProduct, unitVec_dot, unitVec_dot]
    simp only [unitVec, Pi.add_apply, if_true, if_neg h, if_neg (Ne.symm h), smul_eq_mul]
    norm_num

theorem basisMat_apply (p : Fin m × Fin m) (k l : Fin m) (hp : p.1 ≤ p.2) (hkl : k < l) : basisMat p k l = if p = (k, l) then 1 / 2 else 0 := by
  obtain ⟨i, j⟩ := p
  simp only at hp
  unfold basisMat outer unitVec
  by_cases hij : i = j
  · subst hij
    simp only [if_true, Matrix.of_apply, Prod.mk.injEq]
    have : ¬ (k = i ∧ l = i) := by rintro ⟨rfl, rfl⟩; exact lt_irrefl _ hkl
    have h2 : ¬ (i = k ∧ i = l) := by rintro ⟨rfl, rfl⟩; exact lt_irrefl _ hkl
    rw [if_neg h2]
    by_cases h : k = i
    · have : l ≠ i := fun e => this ⟨h, e⟩
      simp [this]
    · simp [h]
  · have hlt : i < j := lt_of_le_of_ne hp hij
    simp only [if_neg hij, Matrix.smul_apply, Matrix.of_apply, Pi.add_apply, smul_eq_mul, Prod.mk.injEq]
    by_cases h1 : k = i
    · by_cases h2 : l = j
      · subst h1 h2
        simp [hlt.ne, hlt.ne']
      · have h3 : l ≠ i := by rintro rfl; exact lt_irrefl _ (h1 ▸ hkl)
        have : ¬ (i = k ∧ j = l) := fun e => h2 e.2.symm
        simp [h2, h3, this]
    · have : ¬ (i = k ∧ j = l) := fun e => h1 e.1.symm
      rw [if_neg this]
      by_cases h2 : k = j
      · have h3 : l ≠ i := by rintro rfl; subst h2; exact absurd hlt hkl.not_gt
        have h4 : l ≠ j := by rintro rfl; subst h2; exact lt_irrefl _ hkl
        simp [h3, h4]
      · simp [h1, h2]

theorem basisMat_symm (p : Fin m × Fin m) : (basisMat p)ᵀ = basisMat p := by
  have : ∀ v : Pt m, (outer v)ᵀ = outer v := by
    intro v; ext i j; simp [outer, mul_comm]
  unfold basisMat
  split
  · exact this _
  · rw [Matrix.transpose_smul, this]

theorem basisMat_diag_diag (i k : Fin m) : basisMat (i, i) k k = if i = k then 1 else 0 := by
  unfold basisMat outer unitVec
  simp only [if_true, Matrix.of_apply]
  by_cases h : k = i
  · simp [h]
  · simp [h, Ne.symm h]

theorem combine_symm (a : Fin m × Fin m → ℝ) : (combine (Es m) ((basisPairs m).map a))ᵀ = combine (Es m) ((basisPairs m).map a) := by
  rw [combine_map, Matrix.transpose_sum]
  refine Finset.sum_congr rfl (fun p _ => ?_)
  rw [Matrix.transpose_smul, basisMat_symm]

theorem combine_off (a : Fin m × Fin m → ℝ) (k l : Fin m) (h : k < l) : combine (Es m) ((basisPairs m).map a) k l = a (k, l) / 2 := by
  rw [combine_map, Matrix.sum_apply]
  rw [Finset.sum_eq_single (k, l)]
  · rw [Matrix.smul_apply, basisMat_apply _ _ _ h.le h, if_pos rfl, smul_eq_mul]; ring
  · intro p hp hne
    rw [Matrix.smul_apply, basisMat_apply _ _ _ ((mem_basisPairs p).1 (List.mem_toFinset.1 hp)) h, if_neg hne, smul_zero]
  · intro hn
    exact absurd (List.mem_toFinset.2 ((mem_basisPairs (k, l)).2 h.le)) hn

/-- The diagonal entries: the diagonal coefficient plus a part depending on the off-diagonal coefficients. -/
theorem combine_diag (a : Fin m × Fin m → ℝ) (k : Fin m) :
    combine (Es m) ((basisPairs m).map a) k k = a (k, k) + ∑ p ∈ (basisPairs m).toFinset.filter (fun p => p.1 ≠ p.2), a p * basisMat p k k := by
  rw [combine_map, Matrix.sum_apply, ← Finset.sum_filter_add_sum_filter_not _ (fun p : Fin m × Fin m => p.1 = p.2)]
  congr 1
  rw [Finset.sum_eq_single (k, k)]
  · rw [Matrix.smul_apply, basisMat_diag_diag, if_pos rfl, smul_eq_mul, mul_one]
  · rintro ⟨i, j⟩ hp hne
    obtain ⟨-, h⟩ := Finset.mem_filter.1 hp
    simp only at h
    subst h
    rw [Matrix.smul_apply, basisMat_diag_diag, if_neg, smul_zero]
    rintro rfl; exact hne rfl
  · intro hn
    refine absurd ?_ hn
    exact Finset.mem_filter.2 ⟨List.mem_toFinset.2 ((mem_basisPairs (k, k)).2 le_rfl), rfl⟩

/-- **C35**: every symmetric matrix is `sum alpha_i E_i` for exactly one coefficient vector. -/
theorem param_bijective (H : Matrix (Fin m) (Fin m) ℝ) (hH : Hᵀ = H) :
    ∃! alpha : List ℝ, alpha.length = (Es m).length ∧ combine (Es m) alpha = H := by
  have hex : ∀ alpha : List ℝ, alpha.length = (Es m).length → ∃ a, alpha = (basisPairs m).map a := by
    intro alpha h
    exact exists_coeff _ (nodup_basisPairs m) alpha (by rw [h, Es, List.length_map])
  -- the coefficients
  set off : Fin m × Fin m → ℝ := fun p => 2 * H p.1 p.2 with hoff
  set dg : Fin m → ℝ := fun k => H k k - ∑ p ∈ (basisPairs m).toFinset.filter (fun p => p.1 ≠ p.2), off p * basisMat p k k with hdg
  set a0 : Fin m × Fin m → ℝ := fun p => if p.1 = p.2 then dg p.1 else off p with ha0
  have hsum : ∀ (a : Fin m × Fin m → ℝ) (k : Fin m), (∀ p ∈ basisPairs m, p.1 ≠ p.2 → a p = off p) →
      ∑ p ∈ (basisPairs m).toFinset.filter (fun p => p.1 ≠ p.2), a p * basisMat p k k =
      ∑ p ∈ (basisPairs m).toFinset.filter (fun p => p.1 ≠ p.2), off p * basisMat p k k := by
    intro a k h
    refine Finset.sum_congr rfl (fun p hp => ?_)
    obtain ⟨h1, h2⟩ := Finset.mem_filter.1 hp
    rw [h p (List.mem_toFinset.1 h1) h2]
  refine ⟨(basisPairs m).map a0, ⟨by rw [List.length_map, Es, List.length_map], ?_⟩, ?_⟩
  · have hoffe : ∀ k l, k < l → combine (Es m) ((basisPairs m).map a0) k l = H k l := by
      intro k l h
      rw [combine_off _ _ _ h, ha0]
      simp only [if_neg h.ne, hoff]; ring
    ext k l
    rcases lt_trichotomy k l with h | h | h
    · exact hoffe k l h
    · subst h
      rw [combine_diag, hsum a0 k (fun p _ hp => by simp [ha0, hp])]
      simp only [ha0, hdg, if_true]; ring
    · have h1 := congrFun (congrFun (combine_symm a0) k) l
      rw [Matrix.transpose_apply] at h1
      have h2 := congrFun (congrFun hH k) l
      rw [Matrix.transpose_apply] at h2
      rw [← h1, ← h2]
      exact hoffe l k h
  · rintro alpha ⟨hl, hc⟩
    obtain ⟨a, rfl⟩ := hex alpha hl
    have hao : ∀ p ∈ basisPairs m, p.1 ≠ p.2 → a p = off p := by
      rintro ⟨k, l⟩ hp hne
      have hlt : k < l := lt_of_le_of_ne ((mem_basisPairs _).1 hp) hne
      have := combine_off a k l hlt
      rw [hc] at this
      simp only [hoff]; linarith
    apply List.map_congr_left
    rintro ⟨k, l⟩ hp
    by_cases hne : k = l
    · subst hne
      have := combine_diag a k
      rw [hc, hsum a k hao] at this
      simp only [ha0, hdg, if_true]; linarith
    · rw [hao (k, l) hp hne]; simp [ha0, hne]

/-- **C35**: only symmetric matrices are reached, so the map is a bijection onto the symmetric matrices. -/
theorem param_symmetric (alpha : List ℝ) (h : alpha.length = (Es m).length) : (combine (Es m) alpha)ᵀ = combine (Es m) alpha := by
  obtain ⟨a, rfl⟩ := exists_coeff _ (nodup_basisPairs m) alpha (by rw [h, Es, List.length_map])
  exact combine_symm a

/-- **C35**: the number of coefficients is `m (m + 1) / 2`. -/
theorem param_count (m : ℕ) : 2 * (Es m).length = m * (m + 1) := by
  have h1 : (Es m).length = (basisPairs m).toFinset.card := by
    rw [Es, List.length_map, List.toFinset_card_of_nodup (nodup_basisPairs m)]
  have h2 : (basisPairs m).toFinset = Finset.univ.filter (fun p : Fin m × Fin m => p.1 ≤ p.2) := by
    ext p; simp [mem_basisPairs]
  have h3 : (Finset.univ.filter (fun p : Fin m × Fin m => p.1 ≤ p.2)).card + (Finset.univ.filter (fun p : Fin m × Fin m => ¬ p.1 ≤ p.2)).card = m * m := by
    rw [Finset.card_filter_add_card_filter_not]; simp
  have h4 : (Finset.univ.filter (fun p : Fin m × Fin m => p.1 ≤ p.2)).card = (Finset.univ.filter (fun p : Fin m × Fin m => ¬ p.1 ≤ p.2)).card + m := by
    have h5 : (Finset.univ.filter (fun p : Fin m × Fin m => ¬ p.1 ≤ p.2)).card = (Finset.univ.filter (fun p : Fin m × Fin m => p.1 < p.2)).card :=
      Finset.card_bij (fun p _ => (p.2, p.1)) (by simp) (by rintro ⟨a, b⟩ _ ⟨c, d⟩ _ h; simp at h; simp [h]) (by rintro ⟨a, b⟩ h; exact ⟨(b, a), by simpa using h, rfl⟩)
    have h6 : (Finset.univ.filter (fun p : Fin m × Fin m => p.1 = p.2)).card = m := by
      have : Finset.univ.filter (fun p : Fin m × Fin m => p.1 = p.2) = Finset.univ.image (fun i : Fin m => (i, i)) := by
        ext ⟨a, b⟩; simp
      rw [this, Finset.card_image_of_injective _ (fun a b h => (Prod.mk.inj h).1)]; simp
    have h7 : Finset.univ.filter (fun p : Fin m × Fin m => p.1 ≤ p.2) =
        Finset.univ.filter (fun p : Fin m × Fin m => p.1 < p.2) ∪ Finset.univ.filter (fun p : Fin m × Fin m => p.1 = p.2) := by
      ext ⟨a, b⟩
      simp [le_iff_lt_or_eq]
    have h8 : Disjoint (Finset.univ.filter (fun p : Fin m × Fin m => p.1 < p.2)) (Finset.univ.filter (fun p : Fin m × Fin m => p.1 = p.2)) := by
      rw [Finset.disjoint_filter]
      rintro ⟨a, b⟩ _ h e
      exact absurd e (ne_of_lt h)
    have h9 := Finset.card_union_of_disjoint h8
    rw [← h7] at h9
    omega
  rw [h1, h2]
  nlinarith

/-- **C35**: both linear objectives given to the solvers are the trace of the matrix. -/
theorem param_objective (alpha : List ℝ) (h : alpha.length = (Es m).length) :
    alpha.sum = Matrix.trace (combine (Es m) alpha) ∧ cvxoptObjective (Es m) alpha = Matrix.trace (combine (Es m) alpha) := by
  have key : ∀ (E : List (Matrix (Fin m) (Fin m) ℝ)) (alpha : List ℝ), cvxoptObjective E alpha = Matrix.trace (combine E alpha) := by
    intro E
    induction E with
    | nil => intro alpha; simp [cvxoptObjective, combine]
    | cons M E ih =>
      intro alpha
      cases alpha with
      | nil => simp [cvxoptObjective, combine]
      | cons x alpha =>
        have := ih alpha
        unfold cvxoptObjective combine at *
        simp only [List.zipWith_cons_cons, List.sum_cons, Matrix.trace_add, Matrix.trace_smul, smul_eq_mul, this]
  refine ⟨?_, key _ _⟩
  rw [← key]
  have : ∀ (E : List (Matrix (Fin m) (Fin m) ℝ)) (alpha : List ℝ), alpha.length = E.length → (∀ M ∈ E, Matrix.trace M = 1) → alpha.sum = cvxoptObjective E alpha := by
    intro E
    induction E with
    | nil => intro alpha h _; rw [List.length_nil, List.length_eq_zero_iff] at h; subst h; rfl
    | cons M E ih =>
      intro alpha h ht
      cases alpha with
      | nil => simp at h
      | cons x alpha =>
        have := ih alpha (by simpa using h) (fun M hM => ht M (by simp [hM]))
        unfold cvxoptObjective at *
        rw [List.zipWith_cons_cons, List.sum_cons, List.sum_cons, this, ht M (by simp), mul_one]
  refine this _ _ h ?_
  intro M hM
  obtain ⟨p, -, rfl⟩ := List.mem_map.1 hM
  exact trace_basisMat p

/-! ## The three builders have the same feasible set -/

theorem quad_combine (E : List (Matrix (Fin m) (Fin m) ℝ)) (alpha : List ℝ) (x : Pt m) :
    quad (combine E alpha) x = (List.zipWith (fun a M => a * quad M x) alpha E).sum := by
  induction E generalizing alpha with
  | nil => simp [combine, quad]
  | cons M E ih =>
    cases alpha with
    | nil => simp [combine, quad]
    | cons a alpha =>
      have := ih alpha
      unfold combine at *
      rw [List.zipWith_cons_cons, List.sum_cons, List.zipWith_cons_cons, List.sum_cons, ← this]
      simp only [quad, add_mulVec, smul_mulVec, dotProduct_add, dotProduct_smul, smul_eq_mul]

theorem quad_smul (A : Matrix (Fin m) (Fin m) ℝ) (c : ℝ) (x : Pt m) : quad A (c • x) = c ^ 2 * quad A x := by
  simp only [quad, mulVec_smul, dotProduct_smul, smul_dotProduct, smul_eq_mul]; ring

theorem quad_neg (A : Matrix (Fin m) (Fin m) ℝ) (x : Pt m) : quad (-A) x = -quad A x := by
  simp [quad, neg_mulVec]

theorem quad_zero (x : Pt m) : quad (0 : Matrix (Fin m) (Fin m) ℝ) x = 0 := by simp [quad]

theorem slack2_nonneg (e a b : ℝ) : 0 ≤ slack2 e a b := sq_nonneg _

theorem slack2_pos_iff (e a b : ℝ) : 0 < slack2 e a b ↔ e < |a - b| := by
  unfold slack2
  constructor
  · intro h
    by_contra hc
    rw [max_eq_right (by linarith)] at h
    simp at h
  · intro h
    have : 0 < max (|a - b| - e) 0 := lt_max_of_lt_left (by linarith)
    positivity

theorem nrm_pos_of_ne {x : Pt m} (h : x ≠ 0) : 0 < nrm x := by
  refine lt_of_le_of_ne (nrm_nonneg _) (fun h0 => h ?_)
  have : x ⬝ᵥ x = 0 := by rw [← nrm_sq, ← h0]; norm_num
  exact dotProduct_self_eq_zero.1 this

theorem pairsOf_mem {α : Type*} {l : List α} {p : α × α} (h : p ∈ pairsOf l) : p.1 ∈ l ∧ p.2 ∈ l := by
  induction l with
  | nil => simp [pairsOf] at h
  | cons a l ih =>
    rw [pairsOf, List.mem_append] at h
    rcases h with h | h
    · obtain ⟨b, hb, rfl⟩ := List.mem_map.1 h
      simp [hb]
    · have := ih h
      simp [this]

/-- Distinct input points. -/
def DistinctPts (data : List (Pt m × ℝ)) : Prop := ∀ p ∈ pairsOf data, p.1.1 ≠ p.2.1

/-- **C35**: on coefficient vectors, the explicit builder has exactly the constraints of the direct formulation. -/
theorem builders_agree_param (data : List (Pt m × ℝ)) (grads : List (Pt m)) (epsilon : ℝ) (alpha : List ℝ) (hl : alpha.length = (Es m).length) :
    ParamFeasible data grads epsilon alpha ↔ CvxpyFeasible data grads epsilon (combine (Es m) alpha) := by
  unfold ParamFeasible CvxpyFeasible
  constructor
  · rintro ⟨h1, h2, h3⟩
    refine ⟨param_symmetric alpha hl, h1, fun p hp hpos => ?_, h2⟩
    rw [quad_combine]; exact h3 p hp hpos.ne'
  · rintro ⟨-, h1, h3, h2⟩
    refine ⟨h1, h2, fun p hp hpos => ?_⟩
    rw [← quad_combine]; exact h3 p hp (lt_of_le_of_ne (slack2_nonneg _ _ _) (Ne.symm hpos))

/-- **C35**: for distinct points the normalized constraints given to cvxopt are those of the direct formulation. -/
theorem builders_agree_cvxopt (data : List (Pt m × ℝ)) (hd : DistinctPts data) (grads : List (Pt m)) (epsilon : ℝ) (alpha : List ℝ)
    (hl : alpha.length = (Es m).length) :
    CvxoptFeasible (Es m) data grads epsilon alpha ↔ CvxpyFeasible data grads epsilon (combine (Es m) alpha) := by
  have hneg : ∀ (x : Pt m), (List.zipWith (fun a M => a * -quad M x) alpha (Es m)).sum = -quad (combine (Es m) alpha) x := by
    intro x
    rw [quad_combine]
    generalize Es m = E
    clear hl
    induction E generalizing alpha with
    | nil => simp
    | cons M E ih =>
      cases alpha with
      | nil => simp
      | cons a alpha =>
        rw [List.zipWith_cons_cons, List.sum_cons, List.zipWith_cons_cons, List.sum_cons, ih]
        ring
  have hrow : ∀ p ∈ pairsOf data, ((List.zipWith (fun a M => a * -quad M ((nrm (p.1.1 - p.2.1))⁻¹ • (p.1.1 - p.2.1))) alpha (Es m)).sum ≤
      -(slack2 epsilon p.1.2 p.2.2 / nrm (p.1.1 - p.2.1) ^ 2) ↔ slack2 epsilon p.1.2 p.2.2 ≤ quad (combine (Es m) alpha) (p.1.1 - p.2.1)) := by
    intro p hp
    have hpos : 0 < nrm (p.1.1 - p.2.1) := nrm_pos_of_ne (sub_ne_zero.2 (hd p hp))
    rw [hneg, quad_smul, neg_le_neg_iff, inv_pow, ← div_eq_inv_mul, div_le_div_iff_of_pos_right (by positivity)]
  unfold CvxoptFeasible CvxpyFeasible LoewnerLe
  constructor
  · rintro ⟨h1, h2, h3⟩
    refine ⟨param_symmetric alpha hl, fun x => ?_, fun p hp hpos => (hrow p hp).1 (h1 p hp ((slack2_pos_iff _ _ _).1 hpos)), fun g hg x => ?_⟩
    · have := h2 x; rw [quad_neg, quad_zero] at this; rw [quad_zero]; linarith
    · have := h3 g hg x; rw [quad_neg, quad_neg] at this; linarith
  · rintro ⟨-, h1, h2, h3⟩
    refine ⟨fun p hp hgt => (hrow p hp).2 (h2 p hp ((slack2_pos_iff _ _ _).2 hgt)), fun x => ?_, fun g hg x => ?_⟩
    · have := h1 x; rw [quad_zero] at this; rw [quad_neg, quad_zero]; linarith
    · have := h3 g hg x; rw [quad_neg, quad_neg]; linarith

/-- With structure 'diag' the matrices reached are exactly the diagonal ones, with the coefficients on the diagonal. -/
theorem param_diag (a : Pt m) : combine (EsDiag m) (List.ofFn a) = Matrix.diagonal a := by
  unfold combine EsDiag
  rw [List.ofFn_eq_map, zipWith_map_map]
  ext k l
  have hs : ∀ l' : List (Fin m), ((l'.map (fun i => a i • outer (unitVec i))).sum : Matrix (Fin m) (Fin m) ℝ) k l =
      (l'.map (fun i => a i * (outer (unitVec i) k l))).sum := by
    intro l'
    induction l' with
    | nil => simp
    | cons i l' ih => simp [ih]
  rw [hs]
  have : ∑ i : Fin m, a i * (outer (unitVec i) k l) = ((List.finRange m).map (fun i => a i * (outer (unitVec i) k l))).sum := by
    rw [← List.sum_toFinset _ (List.nodup_finRange m)]
    simp
  rw [← this]
  simp only [outer, unitVec, Matrix.of_apply, Matrix.diagonal_apply]
  by_cases h : k = l
  · subst h; simp
  · rw [if_neg h]
    refine Finset.sum_eq_zero (fun i _ => ?_)
    by_cases h1 : k = i
    · have : l ≠ i := fun e => h (h1.trans e.symm)
      simp [this]
    · simp [h1]

example : (Matrix.of ![![1, 2], ![2, 5]] : Matrix (Fin 2) (Fin 2) ℝ)ᵀ = Matrix.of ![![1, 2], ![2, 5]] := by
  ext i j; fin_cases i <;> fin_cases j <;> rfl

end Verif.Lip
