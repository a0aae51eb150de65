import Verif.GP.Props
import Mathlib.Algebra.QuadraticDiscriminant
import Mathlib.Data.Fin.Tuple.Basic
import Mathlib.Algebra.BigOperators.Fin

/-!
# The predicted variance as an error bound (C160)

`gp(X, return_cov = True)` (gp.py 365-387) returns beside the mean a variance computed from the kernel of the samples alone. Here: the
variance is the worst case of the squared prediction error among functions of unit energy in the space of the kernel, up to the nugget; it
vanishes at the samples only, does not grow with the data, and tends to one away from them.
-/

namespace Verif.GP

open Verif Verif.Lip Matrix

variable {m M N q : ℕ}

/-! ## Specification -/

/-- A finite combination of kernels centred at `z`. -/
noncomputable def combo (L : Matrix (Fin m) (Fin m) ℝ) (c : Fin N → ℝ) (z : Fin N → Pt m) (x : Pt m) : ℝ :=
  ∑ j, c j * kern (L *ᵥ x) (L *ᵥ z j)

/-- The energy of such a combination: the square of its norm in the space of the kernel. -/
noncomputable def energy (L : Matrix (Fin m) (Fin m) ℝ) (c : Fin N → ℝ) (z : Fin N → Pt m) : ℝ :=
  ∑ i, ∑ j, c i * c j * kern (L *ᵥ z i) (L *ᵥ z j)

/-- The squared worst case error, over functions of unit energy, of predicting the value at `x` by the sum of `w i` times the value
at `X i`. -/
noncomputable def miss2 (L : Matrix (Fin m) (Fin m) ℝ) (X : Fin M → Pt m) (x : Pt m) (w : Fin M → ℝ) : ℝ :=
  1 - 2 * ∑ i, w i * kern (L *ᵥ x) (L *ᵥ X i) + ∑ i, ∑ j, w i * w j * kern (L *ᵥ X i) (L *ᵥ X j)

/-! ## The kernel as an inner product -/

/-- The pairing of two combinations. -/
noncomputable def pair (c : Fin N → ℝ) (Z : Fin N → Pt m) (d : Fin M → ℝ) (W : Fin M → Pt m) : ℝ := ∑ i, ∑ j, c i * d j * kern (Z i) (W j)

theorem pair_self (c : Fin N → ℝ) (Z : Fin N → Pt m) : pair c Z c Z = c ⬝ᵥ (kernMat Z *ᵥ c) := by
  simp only [pair, dotProduct, mulVec, kernMat, Matrix.of_apply, Finset.mul_sum]
  refine Finset.sum_congr rfl fun i _ => Finset.sum_congr rfl fun j _ => by ring

theorem pair_nonneg (c : Fin N → ℝ) (Z : Fin N → Pt m) : 0 ≤ pair c Z c Z := by
  rw [pair_self]; exact kern_nonneg Z c

theorem pair_comm (c : Fin N → ℝ) (Z : Fin N → Pt m) (d : Fin M → ℝ) (W : Fin M → Pt m) : pair c Z d W = pair d W c Z := by
  unfold pair
  rw [Finset.sum_comm]
  refine Finset.sum_congr rfl fun i _ => Finset.sum_congr rfl fun j _ => ?_
  rw [kern_symm]; ring

theorem pair_append (c : Fin N → ℝ) (Z : Fin N → Pt m) (d : Fin M → ℝ) (W : Fin M → Pt m) (t : ℝ) :
    pair (Fin.append c fun j => t * d j) (Fin.append Z W) (Fin.append c fun j => t * d j) (Fin.append Z W) =
      pair d W d W * (t * t) + 2 * pair c Z d W * t + pair c Z c Z := by
  have h := pair_comm c Z d W
  have h1 : ∑ i, ∑ j, c i * (t * d j) * kern (Z i) (W j) = t * pair c Z d W := by
    simp only [pair, Finset.mul_sum]
    exact Finset.sum_congr rfl fun i _ => Finset.sum_congr rfl fun j _ => by ring
  have h2 : ∑ i, ∑ j, t * d i * c j * kern (W i) (Z j) = t * pair d W c Z := by
    simp only [pair, Finset.mul_sum]
    exact Finset.sum_congr rfl fun i _ => Finset.sum_congr rfl fun j _ => by ring
  have h3 : ∑ i, ∑ j, t * d i * (t * d j) * kern (W i) (W j) = t * t * pair d W d W := by
    simp only [pair, Finset.mul_sum]
    exact Finset.sum_congr rfl fun i _ => Finset.sum_congr rfl fun j _ => by ring
  rw [pair]
  simp only [Fin.sum_univ_add, Fin.append_left, Fin.append_right, Finset.sum_add_distrib]
  rw [h1, h2, h3, ← h]
  unfold pair
  ring

/-- Cauchy and Schwarz for the kernel. -/
theorem pair_cauchy (c : Fin N → ℝ) (Z : Fin N → Pt m) (d : Fin M → ℝ) (W : Fin M → Pt m) :
    pair c Z d W ^ 2 ≤ pair c Z c Z * pair d W d W := by
  have h := discrim_le_zero (a := pair d W d W) (b := 2 * pair c Z d W) (c := pair c Z c Z) fun t => by
    rw [← pair_append]; exact pair_nonneg _ _
  unfold discrim at h
  nlinarith

/-- The prediction rule as a combination of kernels. -/
theorem pair_rule (L : Matrix (Fin m) (Fin m) ℝ) (X : Fin M → Pt m) (x : Pt m) (w : Fin M → ℝ) :
    pair (Fin.cons 1 fun i => - w i : Fin (M + 1) → ℝ) (Fin.cons (L *ᵥ x) (images L X) : Fin (M + 1) → Pt m) (Fin.cons 1 fun i => - w i)
      (Fin.cons (L *ᵥ x) (images L X)) = miss2 L X x w := by
  simp only [pair, Fin.sum_univ_succ, Fin.cons_zero, Fin.cons_succ, kern_self, images, miss2]
  have e1 : ∀ i, -w i * 1 * kern (L *ᵥ X i) (L *ᵥ x) = - (w i * kern (L *ᵥ x) (L *ᵥ X i)) := fun i => by rw [kern_symm]; ring
  have e2 : ∀ i, 1 * -w i * kern (L *ᵥ x) (L *ᵥ X i) = - (w i * kern (L *ᵥ x) (L *ᵥ X i)) := fun i => by ring
  have e3 : ∀ i j, -w i * -w j * kern (L *ᵥ X i) (L *ᵥ X j) = w i * w j * kern (L *ᵥ X i) (L *ᵥ X j) := fun i j => by ring
  simp only [e1, e2, e3, Finset.sum_add_distrib, Finset.sum_neg_distrib]
  ring

theorem pair_value (L : Matrix (Fin m) (Fin m) ℝ) (c : Fin N → ℝ) (z : Fin N → Pt m) (X : Fin M → Pt m) (x : Pt m) (w : Fin M → ℝ) :
    pair (Fin.cons 1 fun i => - w i : Fin (M + 1) → ℝ) (Fin.cons (L *ᵥ x) (images L X) : Fin (M + 1) → Pt m) c (images L z) =
      combo L c z x - ∑ i, w i * combo L c z (X i) := by
  simp only [pair, Fin.sum_univ_succ, Fin.cons_zero, Fin.cons_succ, images, combo, Finset.mul_sum]
  rw [sub_eq_add_neg, ← Finset.sum_neg_distrib]
  congr 1
  · exact Finset.sum_congr rfl fun j _ => by ring
  · refine Finset.sum_congr rfl fun i _ => ?_
    rw [← Finset.sum_neg_distrib]
    exact Finset.sum_congr rfl fun j _ => by ring

theorem energy_nonneg (L : Matrix (Fin m) (Fin m) ℝ) (c : Fin N → ℝ) (z : Fin N → Pt m) : 0 ≤ energy L c z := pair_nonneg c (images L z)

theorem miss2_nonneg (L : Matrix (Fin m) (Fin m) ℝ) (X : Fin M → Pt m) (x : Pt m) (w : Fin M → ℝ) : 0 ≤ miss2 L X x w := by
  rw [← pair_rule]; exact pair_nonneg _ _

/-- Every linear rule errs by at most the square root of the energy times the worst case error. -/
theorem rule_error (L : Matrix (Fin m) (Fin m) ℝ) (c : Fin N → ℝ) (z : Fin N → Pt m) (X : Fin M → Pt m) (x : Pt m) (w : Fin M → ℝ) :
    (combo L c z x - ∑ i, w i * combo L c z (X i)) ^ 2 ≤ energy L c z * miss2 L X x w := by
  rw [← pair_value, ← pair_rule, mul_comm]
  exact pair_cauchy _ _ _ _

/-! ## Coordinates along the eigenvectors -/

theorem IsEig.dot {ι : Type} [Fintype ι] [DecidableEq ι] {A : Matrix ι ι ℝ} {d : Eig ι} (h : IsEig A d) (u w : ι → ℝ) :
    u ⬝ᵥ w = ∑ l, (d.2ᵀ *ᵥ u) l * (d.2ᵀ *ᵥ w) l := by
  have : u ⬝ᵥ w = (d.2ᵀ *ᵥ u) ⬝ᵥ (d.2ᵀ *ᵥ w) := by
    rw [dotProduct_mulVec, vecMul_transpose, mulVec_mulVec, h.right, one_mulVec]
  rw [this]; rfl

theorem eig_nonneg {Y : Fin M → Pt m} {d : Eig (Fin M)} (h : IsEig (kernMat Y) d) (l : Fin M) : 0 ≤ d.1 l := by
  rw [← (h.value l).1]; exact kern_nonneg _ _

/-- The kernels of the samples at a point. -/
noncomputable def kvec (L : Matrix (Fin m) (Fin m) ℝ) (X : Fin M → Pt m) (x : Pt m) : Fin M → ℝ := fun i => kern (L *ᵥ x) (L *ᵥ X i)

theorem miss2_eig (L : Matrix (Fin m) (Fin m) ℝ) (X : Fin M → Pt m) (x : Pt m) (w : Fin M → ℝ) {d : Eig (Fin M)} (h : IsEig (kernMat (images L X)) d) :
    miss2 L X x w = 1 + ∑ l, (d.1 l * (d.2ᵀ *ᵥ w) l ^ 2 - 2 * (d.2ᵀ *ᵥ w) l * (d.2ᵀ *ᵥ kvec L X x) l) := by
  have h1 : ∑ i, w i * kern (L *ᵥ x) (L *ᵥ X i) = w ⬝ᵥ kvec L X x := rfl
  have h2 : ∑ i, ∑ j, w i * w j * kern (L *ᵥ X i) (L *ᵥ X j) = w ⬝ᵥ (kernMat (images L X) *ᵥ w) := pair_self w (images L X)
  rw [miss2, h1, h2, h.dot, h.dot, Finset.sum_sub_distrib, Finset.mul_sum]
  have h3 : ∀ l, (d.2ᵀ *ᵥ w) l * (d.2ᵀ *ᵥ (kernMat (images L X) *ᵥ w)) l = d.1 l * (d.2ᵀ *ᵥ w) l ^ 2 := fun l => by
    rw [h.apply]; ring
  simp only [h3]
  have h4 : ∀ l, 2 * ((d.2ᵀ *ᵥ w) l * (d.2ᵀ *ᵥ kvec L X x) l) = 2 * (d.2ᵀ *ᵥ w) l * (d.2ᵀ *ᵥ kvec L X x) l := fun l => by ring
  simp only [h4]
  ring

open Classical in
theorem var_eig (e : Eighs M q) (he : EighsSpec e) (X : Fin M → Pt m) (f : GPFit m M q) (x : Pt m) :
    gpVar e X f x = 1 - ∑ l, if keptVar (e.small (kernMat (images f.L X))) l then
      1 / (e.small (kernMat (images f.L X))).1 l * ((e.small (kernMat (images f.L X))).2ᵀ *ᵥ kvec f.L X x) l ^ 2 else 0 := by
  rw [gp_var_raw e he]
  unfold rawVar
  simp only
  rw [specSolve_quad (he.small _ (kernMat_symm _))]
  rfl

theorem keptVar_pos {d : Eig (Fin M)} {l : Fin M} (h : keptVar d l) : 0 < d.1 l := lt_trans (by have := eps_pos; linarith) h

/-! ## The variance and linear rules -/

/-- **The variance is the squared worst case error of a linear rule**: it never understates the best one. -/
theorem gp_var_attained (e : Eighs M q) (he : EighsSpec e) (X : Fin M → Pt m) (f : GPFit m M q) (x : Pt m) :
    ∃ w, gpVar e X f x = miss2 f.L X x w := by
  classical
  have hs := he.small _ (kernMat_symm (images f.L X))
  refine ⟨specSolve (e.small (kernMat (images f.L X))) (keptVar (e.small (kernMat (images f.L X)))) (kvec f.L X x), ?_⟩
  rw [var_eig e he, miss2_eig _ _ _ _ hs, sub_eq_add_neg, ← Finset.sum_neg_distrib]
  congr 1
  refine Finset.sum_congr rfl fun l _ => ?_
  rw [specSolve_coord hs]
  by_cases hl : keptVar (e.small (kernMat (images f.L X))) l
  · have := (keptVar_pos hl).ne'
    simp only [if_pos hl]
    field_simp
    ring
  · simp only [if_neg hl]; ring

/-- **The variance is the least squared worst case error of all linear rules** when no eigenvalue of the kernel is dropped. -/
theorem gp_var_least_partial (e : Eighs M q) (he : EighsSpec e) (X : Fin M → Pt m) (f : GPFit m M q)
    (hk : ∀ l, 500 * eps < (e.small (kernMat (images f.L X))).1 l) (x : Pt m) (w : Fin M → ℝ) : gpVar e X f x ≤ miss2 f.L X x w := by
  classical
  have hs := he.small _ (kernMat_symm (images f.L X))
  rw [var_eig e he, miss2_eig _ _ _ _ hs, sub_eq_add_neg, ← Finset.sum_neg_distrib]
  refine add_le_add le_rfl (Finset.sum_le_sum fun l _ => ?_)
  have hl : keptVar (e.small (kernMat (images f.L X))) l := hk l
  have hp := keptVar_pos hl
  rw [if_pos hl]
  set t := (e.small (kernMat (images f.L X))).1 l
  set u := ((e.small (kernMat (images f.L X))).2ᵀ *ᵥ w) l
  set k := ((e.small (kernMat (images f.L X))).2ᵀ *ᵥ kvec f.L X x) l
  have h1 : t * u ^ 2 - 2 * u * k - -(1 / t * k ^ 2) = t * (u - k / t) ^ 2 := by field_simp; ring
  have h2 : 0 ≤ t * (u - k / t) ^ 2 := by positivity
  linarith

/-! ## The error bound -/

/-- The mean is a linear rule in the values, whose worst case is the variance up to the nugget. -/
theorem mean_rule (e : Eighs M 0) (he : EighsSpec e) (τ : ℝ) (hτ : 0 < τ) (ψ : Fin 0 → Pt m → ℝ) (X : Fin M → Pt m) (y : Fin M → ℝ) (f : GPFit m M 0)
    (hm : (kernMat (images f.L X) + τ • (1 : Matrix (Fin M) (Fin M) ℝ)) *ᵥ f.α = y) (x : Pt m) :
    ∃ w, gpMean ψ X f x = ∑ i, w i * y i ∧
      miss2 f.L X x w ≤ gpVar e X f x + (τ / (500 * eps + τ)) ^ 2 * (1 - gpVar e X f x) := by
  classical
  have hs := he.small _ (kernMat_symm (images f.L X))
  set d := e.small (kernMat (images f.L X)) with hd
  set k := kvec f.L X x with hkv
  set w : Fin M → ℝ := d.2 *ᵥ fun l => 1 / (d.1 l + τ) * (d.2ᵀ *ᵥ k) l with hw
  have hwl : ∀ l, (d.2ᵀ *ᵥ w) l = 1 / (d.1 l + τ) * (d.2ᵀ *ᵥ k) l := fun l => by
    rw [hw, mulVec_mulVec, hs.1, one_mulVec]
  have hnn := fun l => eig_nonneg hs l
  refine ⟨w, ?_, ?_⟩
  · -- the two sides along the eigenvectors
    have h1 : gpMean ψ X f x = k ⬝ᵥ f.α := by
      simp [gpMean, dotProduct, hkv, kvec]
    have h2 : ∀ l, (d.2ᵀ *ᵥ y) l = (d.1 l + τ) * (d.2ᵀ *ᵥ f.α) l := fun l => by
      rw [← hm, add_mulVec, mulVec_add, Pi.add_apply, smul_mulVec, one_mulVec, mulVec_smul, Pi.smul_apply, smul_eq_mul, hs.apply]
      ring
    rw [h1, hs.dot]
    change _ = w ⬝ᵥ y
    rw [hs.dot]
    refine Finset.sum_congr rfl fun l _ => ?_
    have h3 : d.1 l + τ ≠ 0 := by have := hnn l; positivity
    change (d.2ᵀ *ᵥ k) l * (d.2ᵀ *ᵥ f.α) l = (d.2ᵀ *ᵥ w) l * (d.2ᵀ *ᵥ y) l
    rw [h2, hwl]
    field_simp
  · have hvar := var_eig e he X f x
    rw [miss2_eig _ _ _ _ hs]
    set S : ℝ := ∑ l, if keptVar d l then 1 / d.1 l * (d.2ᵀ *ᵥ k) l ^ 2 else 0 with hS
    have hvar' : gpVar e X f x = 1 - S := hvar
    rw [hvar']
    set ρ := τ / (500 * eps + τ) with hρ
    have h1 : ∑ l, (d.1 l * (d.2ᵀ *ᵥ w) l ^ 2 - 2 * (d.2ᵀ *ᵥ w) l * (d.2ᵀ *ᵥ k) l) ≤ -S + ρ ^ 2 * S := by
      rw [hS, Finset.mul_sum, ← Finset.sum_neg_distrib, ← Finset.sum_add_distrib]
      refine Finset.sum_le_sum fun l _ => ?_
      rw [hwl]
      set t := d.1 l with ht
      set c := (d.2ᵀ *ᵥ k) l
      have ht0 : 0 ≤ t := hnn l
      have htτ : 0 < t + τ := by positivity
      by_cases hl : keptVar d l
      · have hp : 0 < t := keptVar_pos hl
        have hl' : 500 * eps < t := hl
        simp only [if_pos hl]
        have h2 : t * (1 / (t + τ) * c) ^ 2 - 2 * (1 / (t + τ) * c) * c = -(1 / t * c ^ 2) + (τ / (t + τ)) ^ 2 * (1 / t * c ^ 2) := by
          field_simp; ring
        rw [h2]
        have h3 : (τ / (t + τ)) ^ 2 ≤ ρ ^ 2 := by
          have he := eps_pos
          have h4 : τ / (t + τ) ≤ ρ := div_le_div_of_nonneg_left hτ.le (by positivity) (by linarith)
          exact pow_le_pow_left₀ (by positivity) h4 2
        have h5 : 0 ≤ 1 / t * c ^ 2 := by positivity
        nlinarith [mul_le_mul_of_nonneg_right h3 h5]
      · simp only [if_neg hl]
        have h2 : t * (1 / (t + τ) * c) ^ 2 - 2 * (1 / (t + τ) * c) * c = - (c ^ 2 * (t + 2 * τ) / (t + τ) ^ 2) := by
          field_simp; ring
        rw [h2]
        have h3 : 0 ≤ c ^ 2 * (t + 2 * τ) / (t + τ) ^ 2 := by positivity
        linarith
    linarith

/-- The coefficients of a fit that matches the data, without a polynomial part. -/
theorem coef_of_matches {τ : ℝ} {ψ : Fin 0 → Pt m → ℝ} {X : Fin M → Pt m} {y : Fin M → ℝ} {f : GPFit m M 0} (h : MatchesData τ ψ X y f) :
    (kernMat (images f.L X) + τ • (1 : Matrix (Fin M) (Fin M) ℝ)) *ᵥ f.α = y := by
  funext i
  have h1 := h.1 i
  simp only [gpMean, Finset.univ_eq_empty, Finset.sum_empty, add_zero] at h1
  rw [add_mulVec, smul_mulVec, one_mulVec]
  simp only [Pi.add_apply, Pi.smul_apply, smul_eq_mul, mulVec, dotProduct, kernMat, images, Matrix.of_apply]
  linarith

/-- The values of a combination of kernels are matched, for coinciding samples and singular transformations as well. -/
theorem combo_matches (e : Eighs M 0) (he : EighsSpec e) (τ : ℝ) (hτ : defaultNugget ≤ τ) (ψ : Fin 0 → Pt m → ℝ) (X : Fin M → Pt m) (ell : Ell m)
    (c : Fin N → ℝ) (z : Fin N → Pt m) :
    MatchesData τ ψ X (fun i => combo (makeL ell) c z (X i)) (gpFit e τ ψ X (fun i => combo (makeL ell) c z (X i)) ell) := by
  refine (gp_matches_iff e he τ ψ X _ ell).2 fun k hk => ?_
  set d := e.big (gpA τ (kernMat (images (makeL ell) X)) (vmat ψ X)) with hd
  have h : IsEig _ d := he.big _ (gpA_symm τ (images (makeL ell) X) (vmat ψ X))
  obtain ⟨h1, h2⟩ := h.value k
  set u : Fin M → ℝ := fun i => d.2 (Sum.inl i) k with hu
  have hn : ∑ i, u i * u i = 1 := by simpa [dotProduct, Fintype.sum_sum_type] using h2
  have hval : d.1 k = u ⬝ᵥ (kernMat (images (makeL ell) X) *ᵥ u) + τ := by
    rw [← h1]
    simp only [dotProduct, Fintype.sum_sum_type, gpA_inl, Finset.univ_eq_empty, Finset.sum_empty, add_zero, mul_add, Finset.sum_add_distrib]
    congr 1
    have : ∀ i : Fin M, d.2 (Sum.inl i) k * (τ * d.2 (Sum.inl i) k) = τ * (u i * u i) := fun i => by rw [hu]; ring
    rw [Finset.sum_congr rfl fun i _ => this i, ← Finset.mul_sum, hn, mul_one]
  have h0 := kern_nonneg (images (makeL ell) X) u
  have hz : pair u (images (makeL ell) X) u (images (makeL ell) X) = 0 := by
    rw [pair_self]
    have := le_trans (le_abs_self _) hk
    unfold defaultNugget at hτ
    linarith
  have hc := pair_cauchy u (images (makeL ell) X) c (images (makeL ell) z)
  rw [hz, zero_mul] at hc
  have hc0 : pair u (images (makeL ell) X) c (images (makeL ell) z) = 0 := by
    have := le_antisymm hc (sq_nonneg _)
    exact pow_eq_zero_iff (two_ne_zero) |>.1 this
  have h3 : (d.2ᵀ *ᵥ gpB fun i => combo (makeL ell) c z (X i)) k = pair u (images (makeL ell) X) c (images (makeL ell) z) := by
    simp only [mulVec, dotProduct, Fintype.sum_sum_type, gpB, Sum.elim_inl, Finset.univ_eq_empty, Finset.sum_empty, add_zero, transpose_apply, pair, combo,
      images, Finset.mul_sum]
    exact Finset.sum_congr rfl fun i _ => Finset.sum_congr rfl fun j _ => by rw [hu]; ring
  rw [h3, hc0]

/-- **C160, the error bound.**  Without polynomial part, for every set of samples, every length scale and every point: the squared error of the mean
for a function in the space of the kernel is at most its energy times the variance, enlarged on account of the nugget. -/
theorem gp_error (e : Eighs M 0) (he : EighsSpec e) (τ : ℝ) (hτ : defaultNugget ≤ τ) (ψ : Fin 0 → Pt m → ℝ) (X : Fin M → Pt m) (ell : Ell m)
    (c : Fin N → ℝ) (z : Fin N → Pt m) (x : Pt m) :
    let f := gpFit e τ ψ X (fun i => combo (makeL ell) c z (X i)) ell
    (combo (makeL ell) c z x - gpMean ψ X f x) ^ 2 ≤
      energy (makeL ell) c z * (gpVar e X f x + (τ / (500 * eps + τ)) ^ 2 * (1 - gpVar e X f x)) := by
  intro f
  have hτ0 : 0 < τ := lt_of_lt_of_le (by unfold defaultNugget; have := eps_pos; linarith) hτ
  obtain ⟨w, h1, h2⟩ := mean_rule e he τ hτ0 ψ X _ f (coef_of_matches (combo_matches e he τ hτ ψ X ell c z)) x
  rw [h1]
  exact (rule_error (makeL ell) c z X x w).trans (mul_le_mul_of_nonneg_left h2 (energy_nonneg _ _ _))

/-- With the default nugget the enlargement is about one in ten thousand. -/
theorem gp_error_default (e : Eighs M 0) (he : EighsSpec e) (ψ : Fin 0 → Pt m → ℝ) (X : Fin M → Pt m) (ell : Ell m)
    (c : Fin N → ℝ) (z : Fin N → Pt m) (x : Pt m) :
    let f := gpFit e defaultNugget ψ X (fun i => combo (makeL ell) c z (X i)) ell
    (combo (makeL ell) c z x - gpMean ψ X f x) ^ 2 ≤ energy (makeL ell) c z * (gpVar e X f x + (1 / 101) ^ 2) := by
  intro f
  refine (gp_error e he defaultNugget le_rfl ψ X ell c z x).trans (mul_le_mul_of_nonneg_left ?_ (energy_nonneg _ _ _))
  have h1 : defaultNugget / (500 * eps + defaultNugget) = 1 / 101 := by
    unfold defaultNugget
    have := eps_pos.ne'
    field_simp
    norm_num
  rw [h1]
  have := (gp_var_range e he X f x).1
  change gpVar e X f x + (1 / 101) ^ 2 * (1 - gpVar e X f x) ≤ gpVar e X f x + (1 / 101) ^ 2
  nlinarith

/-- **The bound is attained**: at every point there is a function that vanishes at the samples, so that the mean is zero, whose energy and whose
value at the point are the variance. -/
theorem gp_error_sharp (e : Eighs M q) (he : EighsSpec e) (X : Fin M → Pt m) (f : GPFit m M q)
    (hk : ∀ l, 500 * eps < (e.small (kernMat (images f.L X))).1 l) (x : Pt m) :
    ∃ (c : Fin (M + 1) → ℝ) (z : Fin (M + 1) → Pt m), (∀ i, combo f.L c z (X i) = 0) ∧ combo f.L c z x = gpVar e X f x ∧
      energy f.L c z = gpVar e X f x := by
  classical
  have hs := he.small _ (kernMat_symm (images f.L X))
  set d := e.small (kernMat (images f.L X)) with hd
  set w := specSolve d (keptVar d) (kvec f.L X x) with hw
  have hsolve : kernMat (images f.L X) *ᵥ w = kvec f.L X x :=
    (specSolve_iff hs (keptVar _) (fun l hl => (keptVar_pos hl).ne') _).2 fun l hl => absurd (hk l) hl
  refine ⟨Fin.cons 1 fun i => - w i, Fin.cons x X, fun i => ?_, ?_, ?_⟩
  · have h1 := congrFun hsolve i
    simp only [mulVec, dotProduct, kernMat, images, Matrix.of_apply, kvec] at h1
    simp only [combo, Fin.sum_univ_succ, Fin.cons_zero, Fin.cons_succ]
    rw [kern_symm, ← h1, one_mul, ← Finset.sum_add_distrib]
    exact Finset.sum_eq_zero fun j _ => by ring
  · rw [gp_var_raw e he]
    simp only [combo, Fin.sum_univ_succ, Fin.cons_zero, Fin.cons_succ, kern_self, rawVar, dotProduct]
    rw [sub_eq_add_neg, ← Finset.sum_neg_distrib, one_mul]
    congr 1
    exact Finset.sum_congr rfl fun j _ => by rw [hw]; simp only [hd]; unfold kvec; ring
  · have h1 : energy f.L (Fin.cons 1 fun i => - w i : Fin (M + 1) → ℝ) (Fin.cons x X : Fin (M + 1) → Pt m) = miss2 f.L X x w := by
      rw [← pair_rule]
      have h2 : (Fin.cons (f.L *ᵥ x) (images f.L X) : Fin (M + 1) → Pt m) = images f.L (Fin.cons x X) := by
        funext j
        refine Fin.cases ?_ (fun j => ?_) j <;> rfl
      rw [h2]; rfl
    rw [h1, miss2_eig _ _ _ _ hs, var_eig e he, sub_eq_add_neg, ← Finset.sum_neg_distrib]
    congr 1
    refine Finset.sum_congr rfl fun l _ => ?_
    have hl : keptVar d l := hk l
    have := (keptVar_pos hl).ne'
    have h3 : (d.2ᵀ *ᵥ w) l = 1 / d.1 l * (d.2ᵀ *ᵥ kvec f.L X x) l := by rw [hw, specSolve_coord hs, if_pos hl]
    rw [if_pos hl]
    change d.1 l * (d.2ᵀ *ᵥ w) l ^ 2 - 2 * (d.2ᵀ *ᵥ w) l * (d.2ᵀ *ᵥ kvec f.L X x) l = -(1 / d.1 l * (d.2ᵀ *ᵥ kvec f.L X x) l ^ 2)
    rw [h3]
    field_simp
    ring

/-! ## More data -/

theorem miss2_push (L : Matrix (Fin m) (Fin m) ℝ) (X : Fin M → Pt m) (X' : Fin N → Pt m) (σ : Fin M → Fin N) (hσ : ∀ i, X' (σ i) = X i) (x : Pt m)
    (w : Fin M → ℝ) : miss2 L X' x (fun j => ∑ i, if σ i = j then w i else 0) = miss2 L X x w := by
  have key : ∀ g : Fin N → ℝ, ∑ j, (∑ i, if σ i = j then w i else 0) * g j = ∑ i, w i * g (σ i) := by
    intro g
    simp only [Finset.sum_mul]
    rw [Finset.sum_comm]
    refine Finset.sum_congr rfl fun i _ => ?_
    simp only [ite_mul, zero_mul, Finset.sum_ite_eq, Finset.mem_univ, if_true]
  unfold miss2
  congr 1
  · rw [key]; simp only [hσ]
  · have h1 : ∀ a b : Fin N, (∑ i, if σ i = a then w i else 0) * (∑ i, if σ i = b then w i else 0) * kern (L *ᵥ X' a) (L *ᵥ X' b) =
        (∑ i, if σ i = a then w i else 0) * ((∑ i, if σ i = b then w i else 0) * kern (L *ᵥ X' a) (L *ᵥ X' b)) := fun a b => by ring
    simp only [h1, ← Finset.mul_sum]
    simp only [key]
    simp only [hσ, Finset.mul_sum]
    exact Finset.sum_congr rfl fun i _ => Finset.sum_congr rfl fun j _ => by ring

/-- **More samples never enlarge the variance**, at any point, for the same length scale, when no eigenvalue of the larger kernel is dropped. -/
theorem gp_var_mono_partial (e : Eighs M q) (he : EighsSpec e) (e' : Eighs N q) (he' : EighsSpec e') (X : Fin M → Pt m) (X' : Fin N → Pt m)
    (hX : ∀ i, ∃ j, X' j = X i) (f : GPFit m M q) (f' : GPFit m N q) (hL : f'.L = f.L)
    (hk : ∀ l, 500 * eps < (e'.small (kernMat (images f'.L X'))).1 l) (x : Pt m) : gpVar e' X' f' x ≤ gpVar e X f x := by
  obtain ⟨w, hw⟩ := gp_var_attained e he X f x
  choose σ hσ using hX
  rw [hw, ← miss2_push f.L X X' σ hσ x w, ← hL]
  exact gp_var_least_partial e' he' X' f' hk x _

/-! ## Where the variance vanishes -/

theorem images_injective_of_kept {e : Eighs M q} (he : EighsSpec e) {X : Fin M → Pt m} {L : Matrix (Fin m) (Fin m) ℝ}
    (hk : ∀ l, 500 * eps < (e.small (kernMat (images L X))).1 l) : Function.Injective (images L X) := by
  classical
  intro i j hij
  by_contra hne
  have hs := he.small _ (kernMat_symm (images L X))
  have h0 : kernMat (images L X) *ᵥ (Pi.single i 1 - Pi.single j 1) = 0 := by
    funext a
    rw [mulVec_sub, mulVec_single_one, mulVec_single_one]
    simp only [Pi.sub_apply, Matrix.col_apply, kernMat, Matrix.of_apply, hij, sub_self, Pi.zero_apply]
  have h1 : (Pi.single i 1 - Pi.single j 1 : Fin M → ℝ) = 0 := by
    refine hs.ext fun l => ?_
    have h2 := hs.apply (Pi.single i 1 - Pi.single j 1) l
    rw [h0, mulVec_zero, Pi.zero_apply] at h2
    rw [mulVec_zero, Pi.zero_apply]
    have := eps_pos
    exact (mul_eq_zero.1 h2.symm).resolve_left (by have := hk l; linarith)
  have h3 := congrFun h1 i
  simp [Pi.single_apply, hne] at h3

/-- **The variance is zero at the samples and nowhere else**, when no eigenvalue of the kernel is dropped. -/
theorem gp_var_zero_iff_partial (e : Eighs M q) (he : EighsSpec e) (X : Fin M → Pt m) (f : GPFit m M q)
    (hk : ∀ l, 500 * eps < (e.small (kernMat (images f.L X))).1 l) (x : Pt m) : gpVar e X f x = 0 ↔ ∃ i, f.L *ᵥ x = f.L *ᵥ X i := by
  constructor
  · intro h
    by_contra hne
    have hne' : ∀ i, f.L *ᵥ x ≠ f.L *ᵥ X i := fun i hi => hne ⟨i, hi⟩
    obtain ⟨w, hw⟩ := gp_var_attained e he X f x
    rw [h, ← pair_rule, pair_self] at hw
    have hinj : Function.Injective (Fin.cons (f.L *ᵥ x) (images f.L X) : Fin (M + 1) → Pt m) := by
      rw [Fin.cons_injective_iff]
      exact ⟨fun ⟨i, hi⟩ => hne' i hi.symm, images_injective_of_kept he hk⟩
    have := kern_pos _ hinj (Fin.cons 1 fun i => - w i) fun h0 => by simpa using congrFun h0 0
    exact absurd hw this.ne
  · rintro ⟨i, hi⟩
    have h1 := gp_var_sample_partial e he X f hk i
    rw [← h1]
    unfold gpVar rawVar
    simp only [hi]

/-! ## Far from the samples -/

/-- **Far from the samples** the mean is the polynomial part and the variance is one, exponentially close in the squared distance. -/
theorem gp_far (e : Eighs M q) (he : EighsSpec e) (ψ : Fin q → Pt m → ℝ) (X : Fin M → Pt m) (f : GPFit m M q) (x : Pt m) (r : ℝ)
    (hr : ∀ i, r ≤ sqd (f.L *ᵥ x) (f.L *ᵥ X i)) :
    |gpMean ψ X f x - ∑ j, ψ j x * f.β j| ≤ Real.exp (-r / 2) * ∑ i, |f.α i| ∧
      1 - gpVar e X f x ≤ M * Real.exp (-r) / (500 * eps) := by
  classical
  have hkern : ∀ i, kern (f.L *ᵥ x) (f.L *ᵥ X i) ≤ Real.exp (-r / 2) := fun i => by
    unfold kern
    exact Real.exp_le_exp.2 (by have := hr i; linarith)
  have hk0 : ∀ i, 0 < kern (f.L *ᵥ x) (f.L *ᵥ X i) := fun i => Real.exp_pos _
  constructor
  · have h1 : gpMean ψ X f x - ∑ j, ψ j x * f.β j = ∑ i, kern (f.L *ᵥ x) (f.L *ᵥ X i) * f.α i := by unfold gpMean; ring
    rw [h1, Finset.mul_sum]
    refine (Finset.abs_sum_le_sum_abs _ _).trans (Finset.sum_le_sum fun i _ => ?_)
    rw [abs_mul, abs_of_pos (hk0 i)]
    exact mul_le_mul_of_nonneg_right (hkern i) (abs_nonneg _)
  · have hs := he.small _ (kernMat_symm (images f.L X))
    rw [var_eig e he]
    set d := e.small (kernMat (images f.L X)) with hd
    have hep := eps_pos
    have h1 : ∑ l, (if keptVar d l then 1 / d.1 l * (d.2ᵀ *ᵥ kvec f.L X x) l ^ 2 else 0) ≤
        ∑ l, 1 / (500 * eps) * (d.2ᵀ *ᵥ kvec f.L X x) l ^ 2 := by
      refine Finset.sum_le_sum fun l _ => ?_
      split_ifs with hl
      · refine mul_le_mul_of_nonneg_right ?_ (sq_nonneg _)
        exact one_div_le_one_div_of_le (by positivity) (le_of_lt hl)
      · positivity
    have h2 : ∑ l, (d.2ᵀ *ᵥ kvec f.L X x) l ^ 2 = ∑ i, kvec f.L X x i ^ 2 := by
      have := hs.dot (kvec f.L X x) (kvec f.L X x)
      simp only [dotProduct, ← sq] at this
      exact this.symm
    have h3 : ∑ i, kvec f.L X x i ^ 2 ≤ ∑ _i : Fin M, Real.exp (-r) := by
      refine Finset.sum_le_sum fun i _ => ?_
      have : Real.exp (-r) = Real.exp (-r / 2) ^ 2 := by rw [← Real.exp_nat_mul]; congr 1; push_cast; ring
      rw [this]
      exact pow_le_pow_left₀ (hk0 i).le (hkern i) 2
    rw [Finset.sum_const, Finset.card_univ, Fintype.card_fin, nsmul_eq_mul] at h3
    rw [← Finset.mul_sum, h2] at h1
    have h4 : 1 / (500 * eps) * ∑ i, kvec f.L X x i ^ 2 ≤ 1 / (500 * eps) * (M * Real.exp (-r)) := mul_le_mul_of_nonneg_left h3 (by positivity)
    have h5 : 1 / (500 * eps) * (M * Real.exp (-r)) = M * Real.exp (-r) / (500 * eps) := by ring
    linarith

/-! ## Witnesses -/

/-- **Without the enlargement the bound is false**: for one sample of a kernel centred there, the variance at the sample is zero, yet the mean is not
the value. -/
theorem gp_error_false (e : Eighs 1 0) (he : EighsSpec e) (τ : ℝ) (hτ : defaultNugget ≤ τ) (ψ : Fin 0 → Pt m → ℝ) (X : Fin 1 → Pt m) (ell : Ell m) :
    let f := gpFit e τ ψ X (fun i => combo (makeL ell) (fun _ : Fin 1 => 1) X (X i)) ell
    gpVar e X f (X 0) = 0 ∧ gpMean ψ X f (X 0) = 1 / (1 + τ) ∧
      energy (makeL ell) (fun _ : Fin 1 => 1) X * gpVar e X f (X 0) < (combo (makeL ell) (fun _ : Fin 1 => 1) X (X 0) - gpMean ψ X f (X 0)) ^ 2 := by
  intro f
  have hτ0 : 0 < τ := lt_of_lt_of_le (by unfold defaultNugget; have := eps_pos; linarith) hτ
  have hs := he.small _ (kernMat_symm (images f.L X))
  have hv : gpVar e X f (X 0) = 0 := by
    refine gp_var_sample_partial e he X f (fun l => ?_) 0
    obtain ⟨h1, h2⟩ := hs.value l
    have hK : ∀ i j, kernMat (images f.L X) i j = 1 := fun i j => by
      rw [Subsingleton.elim i 0, Subsingleton.elim j 0]; exact kern_self _
    simp only [mulVec, dotProduct, Fin.sum_univ_one, hK, one_mul] at h1 h2
    rw [← h1, h2]
    unfold eps; norm_num
  have hm := combo_matches e he τ hτ ψ X ell (fun _ : Fin 1 => 1) X
  have hc := congrFun (coef_of_matches hm) 0
  have hc1 : combo (makeL ell) (fun _ : Fin 1 => 1) X (X 0) = 1 := by simp [combo, kern_self]
  have hα : (1 + τ) * f.α 0 = 1 := by
    rw [hc1, add_mulVec, smul_mulVec, one_mulVec] at hc
    simp only [Pi.add_apply, Pi.smul_apply, smul_eq_mul, mulVec, dotProduct, Fin.sum_univ_one, kernMat, Matrix.of_apply, kern_self] at hc
    change 1 * f.α 0 + τ * f.α 0 = 1 at hc
    linarith
  have hmean : gpMean ψ X f (X 0) = 1 / (1 + τ) := by
    have h1 : gpMean ψ X f (X 0) = f.α 0 := by simp [gpMean, kern_self]
    rw [h1]
    field_simp
    linarith
  refine ⟨hv, hmean, ?_⟩
  rw [hv, hmean, hc1, mul_zero]
  have : (1 : ℝ) - 1 / (1 + τ) = τ / (1 + τ) := by field_simp; ring
  rw [this]
  positivity

/-- **With eigenvalues dropped, more samples enlarge the variance**: a second sample close to the first makes the variance at the first one positive,
for every exact routine. -/
theorem gp_var_mono_false (e : Eighs 1 0) (he : EighsSpec e) (e' : Eighs 2 0) (he' : EighsSpec e') (h : ℝ) (h0 : h ≠ 0) (hh : h ^ 2 ≤ 1000 * eps)
    (f : GPFit 1 1 0) (f' : GPFit 1 2 0) (hf : f.L = 1) (hf' : f'.L = 1) :
    gpVar e (fun _ => ![0]) f ![0] = 0 ∧ gpVar e' ![![0], ![h]] f' ![0] = (1 - Real.exp (-h ^ 2 / 2)) / 2 ∧
      0 < gpVar e' ![![0], ![h]] f' ![0] := by
  classical
  have hs := he.small _ (kernMat_symm (images f.L fun _ : Fin 1 => (![0] : Pt 1)))
  have hv : gpVar e (fun _ => ![0]) f ![0] = 0 := by
    refine gp_var_sample_partial e he (fun _ => ![0]) f (fun l => ?_) 0
    obtain ⟨h1, h2⟩ := hs.value l
    have hK : ∀ i j, kernMat (images f.L fun _ : Fin 1 => (![0] : Pt 1)) i j = 1 := fun i j => kern_self _
    simp only [mulVec, dotProduct, Fin.sum_univ_one, hK, one_mul] at h1 h2
    rw [← h1, h2]
    unfold eps; norm_num
  set η := 1 - Real.exp (-h ^ 2 / 2) with hη
  have hh2 : 0 < h ^ 2 := by positivity
  have hη0 : 0 < η := by
    have : Real.exp (-h ^ 2 / 2) < 1 := by
      rw [← Real.exp_zero]; exact Real.exp_lt_exp.2 (by linarith)
    linarith
  have hη1 : η ≤ 500 * eps := by
    have := Real.add_one_le_exp (-h ^ 2 / 2)
    linarith
  have hη2 : η < 1 := by have := Real.exp_pos (-h ^ 2 / 2); linarith
  have hkern : kern ![(0 : ℝ)] ![h] = 1 - η := by
    simp only [kern, sqd, Fin.sum_univ_one, cons_val_zero, hη]
    rw [sub_sub_cancel]
    congr 1
    ring
  have hkern' : kern ![h] ![(0 : ℝ)] = 1 - η := by rw [kern_symm, hkern]
  set X' : Fin 2 → Pt 1 := ![![0], ![h]] with hX'
  have hs' := he'.small _ (kernMat_symm (images f'.L X'))
  set d := e'.small (kernMat (images f'.L X')) with hd
  have hK : kernMat (images f'.L X') = !![1, 1 - η; 1 - η, 1] := by
    ext i j
    fin_cases i <;> fin_cases j <;> simp [kernMat, images, hf', hX', kern_self, hkern, hkern']
  have hkv : kvec f'.L X' ![0] = ![1, 1 - η] := by
    funext i
    fin_cases i <;> simp [kvec, hf', hX', kern_self, hkern]
  -- the eigenvectors
  have hp : kernMat (images f'.L X') *ᵥ ![1, 1] = (2 - η) • ![1, 1] := by
    rw [hK]; ext i; fin_cases i <;> simp [mulVec, dotProduct, Fin.sum_univ_two] <;> ring
  have hn : kernMat (images f'.L X') *ᵥ ![1, -1] = η • ![1, -1] := by
    rw [hK]; ext i; fin_cases i <;> simp [mulVec, dotProduct, Fin.sum_univ_two] <;> ring
  have hpl : ∀ l, (d.1 l - (2 - η)) * (d.2ᵀ *ᵥ ![1, 1]) l = 0 := fun l => by
    have := hs'.apply ![1, 1] l
    rw [hp, mulVec_smul, Pi.smul_apply, smul_eq_mul] at this
    linarith
  have hnl : ∀ l, (d.1 l - η) * (d.2ᵀ *ᵥ ![1, -1]) l = 0 := fun l => by
    have := hs'.apply ![1, -1] l
    rw [hn, mulVec_smul, Pi.smul_apply, smul_eq_mul] at this
    linarith
  have hepl : 500 * eps < 1 := by unfold eps; norm_num
  have hk2 : (![1, 1 - η] : Fin 2 → ℝ) = ((2 - η) / 2) • ![1, 1] + (η / 2) • ![1, -1] := by
    ext i; fin_cases i <;> simp <;> ring
  have hvar : gpVar e' X' f' ![0] = η / 2 := by
    rw [var_eig e' he', hkv]
    have hsum : (∑ l, if keptVar d l then 1 / d.1 l * (d.2ᵀ *ᵥ ![1, 1 - η]) l ^ 2 else 0) =
        ∑ l, (2 - η) / 4 * ((d.2ᵀ *ᵥ ![1, 1]) l * (d.2ᵀ *ᵥ ![1, 1]) l) := by
      refine Finset.sum_congr rfl fun l _ => ?_
      have hkl : (d.2ᵀ *ᵥ ![1, 1 - η]) l = (2 - η) / 2 * (d.2ᵀ *ᵥ ![1, 1]) l + η / 2 * (d.2ᵀ *ᵥ ![1, -1]) l := by
        rw [hk2, mulVec_add, mulVec_smul, mulVec_smul]; rfl
      by_cases hl : keptVar d l
      · have hl' : 500 * eps < d.1 l := hl
        have h1 : (d.2ᵀ *ᵥ ![1, -1]) l = 0 := (mul_eq_zero.1 (hnl l)).resolve_left (by intro h; linarith)
        rw [if_pos hl, hkl, h1]
        rcases mul_eq_zero.1 (hpl l) with h2 | h2
        · have h3 : d.1 l = 2 - η := by linarith
          rw [h3]
          have : (2 - η) ≠ 0 := by intro h; linarith
          field_simp
          ring
        · rw [h2]; ring
      · have hl' : d.1 l ≤ 500 * eps := not_lt.1 hl
        have h1 : (d.2ᵀ *ᵥ ![1, 1]) l = 0 := (mul_eq_zero.1 (hpl l)).resolve_left (by intro h; linarith)
        rw [if_neg hl, h1]; ring
    have h4 : ∑ l, (d.2ᵀ *ᵥ ![1, 1]) l * (d.2ᵀ *ᵥ ![1, 1]) l = 2 := by
      rw [← hs'.dot]; simp [dotProduct, Fin.sum_univ_two]; norm_num
    change 1 - (∑ l, if keptVar d l then 1 / d.1 l * (d.2ᵀ *ᵥ ![1, 1 - η]) l ^ 2 else 0) = η / 2
    rw [hsum, ← Finset.mul_sum, h4]
    ring
  exact ⟨hv, hvar, by rw [hvar]; linarith⟩

/-- The hypotheses of `gp_error` are met by a sum of two kernels at three samples, two of them equal. -/
example (e : Eighs 3 0) (he : EighsSpec e) (x : Pt 1) :
    let X : Fin 3 → Pt 1 := ![![0], ![0], ![1]]
    let f := gpFit e defaultNugget (fun j => j.elim0) X (fun i => combo (makeL (.const 0)) ![1, -2] ![![0], ![3]] (X i)) (.const 0)
    (combo (makeL (.const 0)) ![1, -2] ![![0], ![3]] x - gpMean (fun j => j.elim0) X f x) ^ 2 ≤
      energy (makeL (.const 0)) ![1, -2] ![![0], ![3]] * (gpVar e X f x + (1 / 101) ^ 2) :=
  gp_error_default e he _ _ (.const 0) _ _ x

/-- Samples with no eigenvalue dropped: 0 and 3. -/
example (e : Eighs 2 0) (he : EighsSpec e) (l : Fin 2) : 500 * eps < (e.small (kernMat (images 1 ![![(0 : ℝ)], ![3]]))).1 l := by
  have hs := he.small _ (kernMat_symm (images 1 ![![(0 : ℝ)], ![3]]))
  obtain ⟨h1, h2⟩ := hs.value l
  set κ := Real.exp (-(9 / 2)) with hκ
  have hκ0 : 0 < κ := Real.exp_pos _
  have hκ1 : κ ≤ 1 / 2 := by
    rw [hκ, Real.exp_neg]
    have := Real.add_one_le_exp (9 / 2 : ℝ)
    rw [inv_eq_one_div]
    exact one_div_le_one_div_of_le (by norm_num) (by linarith)
  have hK : kernMat (images 1 ![![(0 : ℝ)], ![3]]) = !![1, κ; κ, 1] := by
    ext i j
    fin_cases i <;> fin_cases j <;> simp [kernMat, images, kern, sqd, hκ] <;> norm_num
  rw [hK] at h1 ⊢
  simp only [mulVec, dotProduct, Fin.sum_univ_two, Matrix.of_apply, cons_val_zero, cons_val_one, cons_val', cons_val_fin_one] at h1
  simp only [dotProduct, Fin.sum_univ_two] at h2
  rw [hK] at h2
  set u := (e.small !![1, κ; κ, 1]).2 0 l
  set v := (e.small !![1, κ; κ, 1]).2 1 l
  have h3 : 500 * eps < 1 / 2 := by unfold eps; norm_num
  nlinarith [mul_nonneg hκ0.le (sq_nonneg (u + v))]

/-- Spacings for `gp_var_mono_false` exist. -/
example : ∃ h : ℝ, h ≠ 0 ∧ h ^ 2 ≤ 1000 * eps := ⟨eps, eps_pos.ne', by unfold eps; norm_num⟩

end Verif.GP
