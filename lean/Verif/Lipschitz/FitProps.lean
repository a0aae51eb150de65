import Verif.Lipschitz.SignProps

/-!
# C36: the fitted Lipschitz matrix
-/

namespace Verif.Lip

open Verif Matrix

variable {m : ℕ}

/-- `scipy.linalg.eigh` diagonalizes symmetric matrices. -/
def EighSpec (eigh : EighFn m) : Prop := ∀ H : Matrix (Fin m) (Fin m) ℝ, Hᵀ = H →
  (eigh H).2ᵀ * (eigh H).2 = 1 ∧ H = (eigh H).2 * Matrix.diagonal (eigh H).1 * (eigh H).2ᵀ

/-- The solver returns symmetric matrices that satisfy the constraints it was given. -/
def BuildSpec (build : Build m) : Prop := ∀ data grads e H, build data grads e = some H → CvxpyFeasible data grads e H

/-! ## Algebra -/

theorem quad_gram (A : Matrix (Fin k) (Fin m) ℝ) (x : Pt m) : quad (Aᵀ * A) x = nrm (A *ᵥ x) ^ 2 := by
  rw [nrm_sq, quad, ← Matrix.mulVec_mulVec, Matrix.mulVec_transpose, dotProduct_comm, ← Matrix.dotProduct_mulVec]

theorem quad_outer (g x : Pt m) : quad (outer g) x = (g ⬝ᵥ x) ^ 2 := by
  have : outer g *ᵥ x = (g ⬝ᵥ x) • g := by
    ext i
    simp only [outer, Matrix.mulVec, dotProduct, Matrix.of_apply, Pi.smul_apply, smul_eq_mul, Finset.sum_mul]
    exact Finset.sum_congr rfl (fun j _ => by ring)
  rw [quad, this, dotProduct_smul, smul_eq_mul, dotProduct_comm x g]; ring

theorem quad_diag (U : Matrix (Fin m) (Fin n) ℝ) (d : Fin n → ℝ) (x : Pt m) :
    quad (U * (Matrix.diagonal d * Uᵀ)) x = ∑ k, d k * (ucol U k ⬝ᵥ x) ^ 2 := by
  have h : ∀ k, (Uᵀ *ᵥ x) k = ucol U k ⬝ᵥ x := fun k => rfl
  rw [quad, ← Matrix.mulVec_mulVec, ← Matrix.mulVec_mulVec, Matrix.dotProduct_mulVec, ← Matrix.mulVec_transpose]
  simp only [dotProduct, Matrix.mulVec_diagonal, h]
  exact Finset.sum_congr rfl (fun k _ => by ring)

/-- Squaring the coefficients: `(U √D Uᵀ)ᵀ (U √D Uᵀ) = U D Uᵀ` when the columns of `U` are orthogonal and each has length zero or one. -/
theorem gram_sqrt (U : Matrix (Fin m) (Fin n) ℝ) (e : Fin n → ℝ) (hU : Uᵀ * U = Matrix.diagonal e) (he : ∀ k, e k = 0 ∨ e k = 1)
    (hz : ∀ k, e k = 0 → ucol U k = 0) (d : Fin n → ℝ) (hd : ∀ k, 0 ≤ d k) :
    (U * (Matrix.diagonal (fun i => Real.sqrt (d i)) * Uᵀ))ᵀ * (U * (Matrix.diagonal (fun i => Real.sqrt (d i)) * Uᵀ)) =
      U * (Matrix.diagonal d * Uᵀ) := by
  have h1 : (U * (Matrix.diagonal (fun i => Real.sqrt (d i)) * Uᵀ))ᵀ = U * (Matrix.diagonal (fun i => Real.sqrt (d i)) * Uᵀ) := by
    rw [Matrix.transpose_mul, Matrix.transpose_mul, Matrix.transpose_transpose, Matrix.diagonal_transpose, Matrix.mul_assoc]
  rw [h1]
  have h2 : U * (Matrix.diagonal (fun i => Real.sqrt (d i)) * Uᵀ) * (U * (Matrix.diagonal (fun i => Real.sqrt (d i)) * Uᵀ)) =
      U * (Matrix.diagonal (fun i => Real.sqrt (d i)) * (Uᵀ * U) * Matrix.diagonal (fun i => Real.sqrt (d i))) * Uᵀ := by
    simp only [Matrix.mul_assoc]
  rw [h2, hU, Matrix.diagonal_mul_diagonal, Matrix.diagonal_mul_diagonal]
  have h3 : U * Matrix.diagonal (fun i => Real.sqrt (d i) * e i * Real.sqrt (d i)) = U * Matrix.diagonal d := by
    ext i k
    rw [Matrix.mul_diagonal, Matrix.mul_diagonal]
    rcases he k with h | h
    · have := congrFun (hz k h) i
      simp only [ucol, Pi.zero_apply] at this
      rw [this]; ring
    · rw [h, mul_one, Real.mul_self_sqrt (hd k)]
  rw [h3, Matrix.mul_assoc]

/-- Signs of the columns of the reversed eigenvector matrix. -/
theorem fixSigns_form (U : Matrix (Fin m) (Fin n) ℝ) (data : List (Pt m × ℝ)) (grads : List (Pt m)) :
    ∃ s : Fin n → ℝ, fixSigns U data grads = U * Matrix.diagonal s ∧ (∀ k, s k = 0 ∨ s k * s k = 1) ∧
      ((grads = [] ∨ ∀ k, meanGrad grads (ucol U k) ≠ 0) → ∀ k, s k * s k = 1) := by
  unfold fixSigns
  split
  · rename_i hl
    refine ⟨_, rfl, fun k => ?_, fun h k => ?_⟩
    · rcases eq_or_ne (meanGrad grads (ucol U k)) 0 with h | h
      · left; simp [h, npSign]
      · right; exact npSign_sq h
    · rcases h with rfl | h
      · simp at hl
      · exact npSign_sq (h k)
  · have hne : ∀ k, (if slopeSum data (ucol U k) = 0 then (1 : ℝ) else slopeSum data (ucol U k)) ≠ 0 := by
      intro k; split
      · norm_num
      · assumption
    exact ⟨_, rfl, fun k => Or.inr (npSign_sq (hne k)), fun _ k => npSign_sq (hne k)⟩

theorem rev_orthonormal (V : Matrix (Fin m) (Fin m) ℝ) (hV : Vᵀ * V = 1) :
    (Matrix.of (fun i j : Fin m => V i j.rev))ᵀ * Matrix.of (fun i j : Fin m => V i j.rev) = 1 := by
  ext i j
  have := congrFun (congrFun hV i.rev) j.rev
  simp only [Matrix.mul_apply, Matrix.transpose_apply, Matrix.of_apply, Matrix.one_apply] at this ⊢
  rw [this]
  simp [Fin.rev_inj]

theorem rev_form (V : Matrix (Fin m) (Fin m) ℝ) (d : Fin m → ℝ) :
    V * Matrix.diagonal d * Vᵀ = Matrix.of (fun i j : Fin m => V i j.rev) * (Matrix.diagonal (fun i => d i.rev) * (Matrix.of (fun i j : Fin m => V i j.rev))ᵀ) := by
  rw [← Matrix.mul_assoc]
  ext i j
  rw [Matrix.mul_apply, Matrix.mul_apply]
  simp only [Matrix.mul_diagonal, Matrix.transpose_apply, Matrix.of_apply]
  exact (Equiv.sum_comp Fin.revPerm (fun x => V i x * d x * V j x)).symm

/-! ## C36 -/

/-- The conditions under which `fit` returns. -/
theorem lipFit_ok {build : Build m} {eigh : EighFn m} {eps : Option ℝ} {X : Option (List (Pt m))} {fX : Option (List ℝ)} {grads : Option (List (Pt m))}
    {r : LipFit m} (h : lipFit build eigh eps X fX grads = .ok r) :
    ∃ data g H, prepare X fX grads = .ok (data, g) ∧ fitScale data g ≠ 0 ∧
      build (scaleData (fitScale data g) data) (scaleGrads (fitScale data g) g) (eps.getD 0 / fitScale data g) = some H ∧
      r = finishFit eigh data g (fitScale data g) H := by
  unfold lipFit at h
  split at h
  · cases h
  · rename_i data g hp
    split at h
    · cases h
    · rename_i hs
      split at h
      · cases h
      · rename_i H hb
        refine ⟨data, g, H, hp, hs, ?_, (Except.ok.inj h).symm⟩
        cases eps with
        | none => simpa using hb
        | some e => exact hb

/-- The matrices built from the solver's answer, with the clipped eigenvalues. -/
theorem finishFit_gram (eigh : EighFn m) (he : EighSpec eigh) (data : List (Pt m × ℝ)) (g : List (Pt m)) (s : ℝ) (H : Matrix (Fin m) (Fin m) ℝ)
    (hH : Hᵀ = H) : (finishFit eigh data g s H).Lᵀ * (finishFit eigh data g s H).L = (finishFit eigh data g s H).H := by
  obtain ⟨h1, -⟩ := he H hH
  obtain ⟨σ, hσ, h01, -⟩ := fixSigns_form (Matrix.of (fun i j : Fin m => (eigh H).2 i j.rev)) (scaleData s data) (scaleGrads s g)
  simp only [finishFit]
  rw [hσ, Matrix.transpose_smul, Matrix.smul_mul, Matrix.mul_smul, smul_smul]
  rw [gram_sqrt _ (fun k => σ k * σ k)]
  · rw [pow_two]
  · rw [Matrix.transpose_mul, Matrix.diagonal_transpose, Matrix.mul_assoc, ← Matrix.mul_assoc (Matrix.transpose _), rev_orthonormal _ h1, Matrix.one_mul,
      Matrix.diagonal_mul_diagonal]
  · intro k
    rcases h01 k with h | h
    · left; rw [h, mul_zero]
    · exact Or.inr h
  · intro k h
    rw [ucol_mul_diagonal, mul_self_eq_zero.1 h, zero_smul]
  · intro k; exact le_max_right _ _

/-- **C36**: after `fit`, `Lᵀ L = H`, and `L` and `H` are symmetric. -/
theorem fit_gram {build : Build m} (hb : BuildSpec build) {eigh : EighFn m} (he : EighSpec eigh) {eps : Option ℝ} {X : Option (List (Pt m))}
    {fX : Option (List ℝ)} {grads : Option (List (Pt m))} {r : LipFit m} (h : lipFit build eigh eps X fX grads = .ok r) :
    r.Lᵀ * r.L = r.H ∧ r.Lᵀ = r.L ∧ r.Hᵀ = r.H ∧ ∀ x, quad r.H x = lnorm r.L x ^ 2 := by
  obtain ⟨data, g, H, -, -, hbd, rfl⟩ := lipFit_ok h
  have hH := (hb _ _ _ _ hbd).1
  have h1 := finishFit_gram eigh he data g (fitScale data g) H hH
  refine ⟨h1, ?_, ?_, fun x => ?_⟩
  · simp only [finishFit]
    rw [Matrix.transpose_smul, Matrix.transpose_mul, Matrix.transpose_mul, Matrix.transpose_transpose, Matrix.diagonal_transpose, Matrix.mul_assoc]
  · simp only [finishFit]
    rw [Matrix.transpose_smul, Matrix.transpose_mul, Matrix.transpose_mul, Matrix.transpose_transpose, Matrix.diagonal_transpose, Matrix.mul_assoc]
  · rw [← h1, quad_gram]; rfl

/-- The quadratic form of `H` dominates the rescaled form of the solver's answer when every sign is nonzero. -/
theorem finishFit_dom (eigh : EighFn m) (he : EighSpec eigh) (data : List (Pt m × ℝ)) (g : List (Pt m)) (s : ℝ) (H : Matrix (Fin m) (Fin m) ℝ)
    (hH : Hᵀ = H) (hsg : g = [] ∨ ∀ k, meanGrad (scaleGrads s g) (ucol (eigh H).2 k) ≠ 0) (x : Pt m) :
    s ^ 2 * quad H x ≤ quad (finishFit eigh data g s H).H x := by
  obtain ⟨h1, h2⟩ := he H hH
  obtain ⟨σ, hσ, -, h11⟩ := fixSigns_form (Matrix.of (fun i j : Fin m => (eigh H).2 i j.rev)) (scaleData s data) (scaleGrads s g)
  have hs1 : ∀ k, σ k * σ k = 1 := by
    apply h11
    rcases hsg with rfl | h
    · left; rfl
    · right; intro k
      exact h k.rev
  simp only [finishFit]
  rw [hσ]
  have hq : ∀ (A : Matrix (Fin m) (Fin m) ℝ) (c : ℝ), quad (c • A) x = c * quad A x := by
    intro A c; simp [quad, smul_mulVec, dotProduct_smul]
  rw [hq, quad_diag]
  conv_lhs => rw [h2, rev_form, quad_diag]
  refine mul_le_mul_of_nonneg_left (Finset.sum_le_sum (fun k _ => ?_)) (sq_nonneg _)
  rw [ucol_mul_diagonal, smul_dotProduct, smul_eq_mul, mul_pow, pow_two (σ k), hs1, one_mul]
  exact mul_le_mul_of_nonneg_right (le_max_left _ _) (sq_nonneg _)

theorem pairsOf_map {α β : Type*} (f : α → β) (l : List α) : pairsOf (l.map f) = (pairsOf l).map (fun p => (f p.1, f p.2)) := by
  induction l with
  | nil => rfl
  | cons a l ih => simp [pairsOf, ih, Function.comp_def]

theorem foldl_max_ge (l : List ℝ) (a : ℝ) : a ≤ l.foldl max a := by
  induction l generalizing a with
  | nil => exact le_refl _
  | cons b l ih => exact (le_max_left _ _).trans (ih _)

theorem lmax_spec (a : ℝ) (l : List ℝ) : lmax a l ∈ a :: l ∧ ∀ x ∈ a :: l, x ≤ lmax a l := by
  unfold lmax
  induction l generalizing a with
  | nil => simp
  | cons b l ih =>
    obtain ⟨h1, h2⟩ := ih (max a b)
    constructor
    · rcases List.mem_cons.1 h1 with h | h
      · rcases max_choice a b with h3 | h3
        · rw [List.foldl_cons, h, h3]; simp
        · rw [List.foldl_cons, h, h3]; simp
      · rw [List.foldl_cons]; simp [h]
    · intro x hx
      rw [List.foldl_cons]
      rcases List.mem_cons.1 hx with rfl | hx
      · exact (le_max_left _ _).trans (h2 _ List.mem_cons_self)
      · rcases List.mem_cons.1 hx with rfl | hx
        · exact (le_max_right _ _).trans (h2 _ List.mem_cons_self)
        · exact h2 x (by simp [hx])

theorem scale2_nonneg (g : List (Pt m)) : 0 ≤ scale2 g := by
  cases g with
  | nil => exact zero_le_one
  | cons a g => exact (nrm_nonneg a).trans ((lmax_spec _ _).2 _ (by simp))

theorem fitScale_nonneg (data : List (Pt m × ℝ)) (g : List (Pt m)) : 0 ≤ fitScale data g := (scale2_nonneg g).trans (le_max_right _ _)

/-- `L` is consistent with a gradient: the linear function with that gradient is Lipschitz with respect to `L`. -/
def GradConsistent (L : Matrix (Fin k) (Fin m) ℝ) (g : Pt m) : Prop := ∀ v, |g ⬝ᵥ v| ≤ lnorm L v

/-- Constraints for the scaled data and a matrix dominating the rescaled one give consistency with the original data. -/
theorem consistent_of_dom {s e : ℝ} (hs : 0 < s) (he : 0 ≤ e) {data : List (Pt m × ℝ)} {g : List (Pt m)} {H : Matrix (Fin m) (Fin m) ℝ}
    (hf1 : ∀ p ∈ pairsOf (scaleData s data), 0 < slack2 (e / s) p.1.2 p.2.2 → slack2 (e / s) p.1.2 p.2.2 ≤ quad H (p.1.1 - p.2.1))
    (hf2 : ∀ h ∈ scaleGrads s g, LoewnerLe (outer h) H)
    {L : Matrix (Fin k) (Fin m) ℝ} (hdom : ∀ x, s ^ 2 * quad H x ≤ lnorm L x ^ 2) :
    Consistent L e data ∧ ∀ h ∈ g, GradConsistent L h := by
  have hln : ∀ x, 0 ≤ lnorm L x := fun x => nrm_nonneg _
  have hpair : ∀ p ∈ pairsOf data, |p.1.2 - p.2.2| ≤ lnorm L (p.1.1 - p.2.1) + e := by
    intro p hp
    have hmem : ((p.1.1, p.1.2 / s), (p.2.1, p.2.2 / s)) ∈ pairsOf (scaleData s data) := by
      rw [scaleData, pairsOf_map]
      exact List.mem_map.2 ⟨p, hp, rfl⟩
    by_cases hgt : e / s < |p.1.2 / s - p.2.2 / s|
    · have h1 := hf1 _ hmem ((slack2_pos_iff _ _ _).2 hgt)
      have h2 := hdom (p.1.1 - p.2.1)
      have habs : |p.1.2 / s - p.2.2 / s| = |p.1.2 - p.2.2| / s := by rw [← sub_div, abs_div, abs_of_pos hs]
      simp only [slack2, habs] at h1
      have hq : |p.1.2 - p.2.2| / s - e / s = (|p.1.2 - p.2.2| - e) / s := by ring
      rw [hq] at h1
      have hpos : 0 < |p.1.2 - p.2.2| - e := by
        rw [habs] at hgt
        have := (div_lt_div_iff_of_pos_right hs).1 hgt
        linarith
      rw [max_eq_left (div_nonneg hpos.le hs.le), div_pow] at h1
      have h3 : (|p.1.2 - p.2.2| - e) ^ 2 ≤ lnorm L (p.1.1 - p.2.1) ^ 2 := by
        refine le_trans ?_ h2
        have := mul_le_mul_of_nonneg_left h1 (sq_nonneg s)
        rwa [mul_div_cancel₀ _ (pow_ne_zero 2 hs.ne')] at this
      have := abs_le_of_sq_le_sq' h3 (hln _)
      linarith [this.2]
    · have habs : |p.1.2 / s - p.2.2 / s| = |p.1.2 - p.2.2| / s := by rw [← sub_div, abs_div, abs_of_pos hs]
      rw [habs, not_lt, div_le_div_iff_of_pos_right hs] at hgt
      linarith [hln (p.1.1 - p.2.1)]
  constructor
  · intro d hd d' hd'
    rcases pairsOf_cases hd hd' with rfl | h | h
    · rw [sub_self, abs_zero]; linarith [hln (d.1 - d.1)]
    · exact hpair _ h
    · have := hpair _ h
      rw [abs_sub_comm, lnorm_comm]; exact this
  · intro h hh v
    have h1 := hf2 (s⁻¹ • h) (List.mem_map.2 ⟨h, hh, rfl⟩) v
    rw [quad_outer, smul_dotProduct, smul_eq_mul, mul_pow, inv_pow] at h1
    have h2 := hdom v
    have h3 : (h ⬝ᵥ v) ^ 2 ≤ lnorm L v ^ 2 := by
      refine le_trans ?_ h2
      have := mul_le_mul_of_nonneg_left h1 (sq_nonneg s)
      rwa [mul_inv_cancel_left₀ (pow_ne_zero 2 hs.ne')] at this
    exact abs_le_of_sq_le_sq h3 (hln v)

/-- **C36**, when no eigenvector is orthogonal to the mean gradient (in particular when no gradients are given): the fitted `L` is consistent,
up to `epsilon`, with every pair of samples and with every gradient, in the original units.  Missing: see `fit_consistent_false`. -/
theorem fit_consistent_partial {build : Build m} (hb : BuildSpec build) {eigh : EighFn m} (he : EighSpec eigh) {eps : Option ℝ} (heps : 0 ≤ eps.getD 0)
    {X : Option (List (Pt m))} {fX : Option (List ℝ)} {grads : Option (List (Pt m))} {r : LipFit m} (h : lipFit build eigh eps X fX grads = .ok r)
    {data : List (Pt m × ℝ)} {g : List (Pt m)} (hp : prepare X fX grads = .ok (data, g))
    (hsg : g = [] ∨ ∀ H, Hᵀ = H → ∀ k, meanGrad (scaleGrads (fitScale data g) g) (ucol (eigh H).2 k) ≠ 0) :
    Consistent r.L (eps.getD 0) data ∧ ∀ h ∈ g, GradConsistent r.L h := by
  obtain ⟨data', g', H, hp', hs, hbd, rfl⟩ := lipFit_ok h
  rw [hp] at hp'
  obtain ⟨rfl, rfl⟩ := Prod.mk.inj (Except.ok.inj hp')
  have hfeas := hb _ _ _ _ hbd
  have hpos : 0 < fitScale data g := lt_of_le_of_ne (fitScale_nonneg _ _) (Ne.symm hs)
  refine consistent_of_dom hpos heps (H := H) hfeas.2.2.1 hfeas.2.2.2 (fun x => ?_)
  have hg := (fit_gram hb he h).2.2.2 x
  rw [← hg]
  exact finishFit_dom eigh he data g _ H hfeas.1 (hsg.imp id (fun h => h H hfeas.1)) x

/-- **C36 is false in general**: for the gradients `1` and `-1` in one dimension, the fitted matrix is zero whatever feasible matrix the
solver returns. -/
theorem fit_consistent_false (build : Build 1) (eigh : EighFn 1) (r : LipFit 1)
    (h : lipFit build eigh none none none (some [![1], ![-1]]) = .ok r) : r.L = 0 ∧ r.H = 0 ∧ ¬ ∀ g ∈ [![1], ![-1]], GradConsistent r.L g := by
  obtain ⟨data, g, H, hp, hs, hbd, rfl⟩ := lipFit_ok h
  have h0 : prepare (m := 1) none none (some [![1], ![-1]]) = .ok ([], [![1], ![-1]]) := rfl
  rw [h0] at hp
  obtain ⟨rfl, rfl⟩ := Prod.mk.inj (Except.ok.inj hp)
  have hU : ∀ U : Matrix (Fin 1) (Fin 1) ℝ, fixSigns U (scaleData (fitScale [] [![1], ![-1]]) []) (scaleGrads (fitScale [] [![1], ![-1]]) [![1], ![-1]]) = 0 := by
    intro U
    unfold fixSigns
    rw [if_pos (by simp [scaleGrads])]
    unfold fixGrads
    have : ∀ k, meanGrad (scaleGrads (fitScale [] [![1], ![-1]]) [![1], ![-1]]) (ucol U k) = 0 := by
      intro k
      simp [meanGrad, scaleGrads, dotProduct]
    simp only [this, npSign, lt_irrefl, if_false]
    ext i j; simp [Matrix.mul_diagonal]
  have hL : (finishFit eigh [] [![1], ![-1]] (fitScale [] [![1], ![-1]]) H).L = 0 := by
    simp only [finishFit, hU, Matrix.zero_mul, smul_zero]
  refine ⟨hL, ?_, ?_⟩
  · simp only [finishFit, hU, Matrix.zero_mul, smul_zero]
  · intro hc
    have := hc ![1] (by simp) ![1]
    rw [hL] at this
    simp [lnorm, nrm, dotProduct] at this
    norm_num at this

/-- **C36** for `DiagonalLipschitzMatrix`: `Lᵀ L = H` and consistency, with or without gradients. -/
theorem diagFit_spec {method : Method} {build : Build m} (hb : ∀ data grads e H, build data grads e = some H →
      CvxpyFeasible data grads e H ∧ ∃ d, H = Matrix.diagonal d) {eps : Option ℝ} (heps : 0 ≤ eps.getD 0)
    {X : Option (List (Pt m))} {fX : Option (List ℝ)} {grads : Option (List (Pt m))} {H L : Matrix (Fin m) (Fin m) ℝ}
    (h : diagFit method build eps X fX grads = .ok (H, L)) {data : List (Pt m × ℝ)} {g : List (Pt m)} (hp : prepare X fX grads = .ok (data, g)) :
    Lᵀ * L = H ∧ (∃ d, L = Matrix.diagonal d ∧ ∀ i, 0 ≤ d i) ∧ Consistent L (eps.getD 0) data ∧ ∀ h ∈ g, GradConsistent L h := by
  unfold diagFit at h
  rw [hp] at h
  simp only at h
  split at h
  · cases h
  · split at h
    · cases h
    · rename_i hs
      split at h
      · cases h
      · rename_i H0 hbd
        have hpos : 0 < fitScale data g := lt_of_le_of_ne (fitScale_nonneg _ _) (Ne.symm hs)
        obtain ⟨hHe, hLe⟩ := Prod.mk.inj (Except.ok.inj h)
        have hbd' : build (scaleData (fitScale data g) data) (scaleGrads (fitScale data g) g) (eps.getD 0 / fitScale data g) = some H0 := by
          cases eps with
          | none => simpa using hbd
          | some e => exact hbd
        obtain ⟨hfeas, d, hd⟩ := hb _ _ _ _ hbd'
        have hgram : Lᵀ * L = H := by
          rw [← hHe, ← hLe, Matrix.transpose_smul, Matrix.diagonal_transpose, Matrix.smul_mul, Matrix.mul_smul, smul_smul, Matrix.diagonal_mul_diagonal, pow_two]
          congr 2
          funext i
          exact Real.mul_self_sqrt (le_max_right _ _)
        refine ⟨hgram, ⟨fun i => fitScale data g * Real.sqrt (max (H0 i i) 0), ?_, fun i => mul_nonneg hpos.le (Real.sqrt_nonneg _)⟩, ?_⟩
        · rw [← hLe, ← Matrix.diagonal_smul]; rfl
        · refine consistent_of_dom hpos heps (H := H0) hfeas.2.2.1 hfeas.2.2.2 (fun x => ?_)
          have hq : lnorm L x ^ 2 = quad H x := by rw [← hgram, quad_gram]; rfl
          rw [hq, ← hHe]
          have hsm : ∀ (A : Matrix (Fin m) (Fin m) ℝ) (c : ℝ), quad (c • A) x = c * quad A x := by
            intro A c; simp [quad, smul_mulVec, dotProduct_smul]
          rw [hsm]
          refine mul_le_mul_of_nonneg_left ?_ (sq_nonneg _)
          rw [hd]
          simp only [quad, dotProduct, Matrix.mulVec_diagonal, Matrix.diagonal_apply_eq]
          refine Finset.sum_le_sum (fun i _ => ?_)
          nlinarith [le_max_left (d i) 0, mul_self_nonneg (x i), mul_le_mul_of_nonneg_right (le_max_left (d i) 0) (mul_self_nonneg (x i))]

/-- `DiagonalLipschitzMatrix` with a builder other than cvxopt always raises. -/
theorem diagFit_method {method : Method} (hm : method ≠ .cvxopt) (build : Build m) (eps : Option ℝ) (X : Option (List (Pt m))) (fX : Option (List ℝ))
    (grads : Option (List (Pt m))) (r) : diagFit method build eps X fX grads ≠ .ok r := by
  unfold diagFit
  split
  · simp
  · rw [if_pos hm]; simp

/-- When `prepare` succeeds. -/
theorem prepare_ok_iff (X : Option (List (Pt m))) (fX : Option (List ℝ)) (grads : Option (List (Pt m))) :
    (∃ r, prepare X fX grads = .ok r) ↔
      ((∃ x xs, X = some (x :: xs)) ∨ (∃ g gs, grads = some (g :: gs))) ∧ ((X = none ∧ fX = none) ∨ ∃ x f, X = some x ∧ fX = some f ∧ f.length = x.length) := by
  have h1 : (∃ u, initDim X grads = .ok u) ↔ ((∃ x xs, X = some (x :: xs)) ∨ (∃ g gs, grads = some (g :: gs))) := by
    rcases X with _ | _ | ⟨x, xs⟩ <;> rcases grads with _ | _ | ⟨g, gs⟩ <;> simp [initDim]
  have h2 : (∃ u, pairUp X fX = .ok u) ↔ ((X = none ∧ fX = none) ∨ ∃ x f, X = some x ∧ fX = some f ∧ f.length = x.length) := by
    rcases X with _ | x <;> rcases fX with _ | f <;> simp [pairUp]
    by_cases h : f.length = x.length <;> simp [h]
  rw [← h1, ← h2]
  unfold prepare
  cases initDim X grads with
  | error e => simp
  | ok u => cases pairUp X fX with
    | error e => simp
    | ok d => simp

/-- `fit` returns exactly when the data is usable, the scale is nonzero and the solver answers. -/
theorem lipFit_ok_iff (build : Build m) (eigh : EighFn m) (eps : Option ℝ) (X : Option (List (Pt m))) (fX : Option (List ℝ)) (grads : Option (List (Pt m))) :
    (∃ r, lipFit build eigh eps X fX grads = .ok r) ↔ ∃ data g, prepare X fX grads = .ok (data, g) ∧ fitScale data g ≠ 0 ∧
      ∃ H, build (scaleData (fitScale data g) data) (scaleGrads (fitScale data g) g) (eps.getD 0 / fitScale data g) = some H := by
  constructor
  · rintro ⟨r, h⟩
    obtain ⟨data, g, H, h1, h2, h3, -⟩ := lipFit_ok h
    exact ⟨data, g, h1, h2, H, h3⟩
  · rintro ⟨data, g, h1, h2, H, h3⟩
    refine ⟨finishFit eigh data g (fitScale data g) H, ?_⟩
    unfold lipFit
    rw [h1]
    simp only
    rw [if_neg h2]
    cases eps with
    | none => simp only [Option.getD_none, zero_div] at h3; rw [h3]
    | some e => simp only [Option.getD_some] at h3; rw [h3]

/-- The scale is zero exactly when gradients are given, all of them vanish, and all samples (if any) agree. -/
theorem fitScale_zero_iff (data : List (Pt m × ℝ)) (g : List (Pt m)) :
    fitScale data g = 0 ↔ g ≠ [] ∧ (∀ h ∈ g, h = 0) ∧ data ≠ [] ∧ ∀ d ∈ data, ∀ d' ∈ data, d.2 = d'.2 := by
  have hlmin : ∀ (a : ℝ) (l : List ℝ), lmin a l ∈ a :: l ∧ ∀ x ∈ a :: l, lmin a l ≤ x := by
    intro a l
    unfold lmin
    induction l generalizing a with
    | nil => simp
    | cons b l ih =>
      obtain ⟨h1, h2⟩ := ih (min a b)
      constructor
      · rcases List.mem_cons.1 h1 with h | h
        · rcases min_choice a b with h3 | h3
          · rw [List.foldl_cons, h, h3]; simp
          · rw [List.foldl_cons, h, h3]; simp
        · rw [List.foldl_cons]; simp [h]
      · intro x hx
        rw [List.foldl_cons]
        rcases List.mem_cons.1 hx with rfl | hx
        · exact (h2 _ List.mem_cons_self).trans (min_le_left _ _)
        · rcases List.mem_cons.1 hx with rfl | hx
          · exact (h2 _ List.mem_cons_self).trans (min_le_right _ _)
          · exact h2 x (by simp [hx])
  have h1 : 0 ≤ scale1 data ∧ (scale1 data = 0 ↔ data ≠ [] ∧ ∀ d ∈ data, ∀ d' ∈ data, d.2 = d'.2) := by
    cases data with
    | nil => simp [scale1]
    | cons a l =>
      have hM := lmax_spec a.2 (l.map Prod.snd)
      have hm := hlmin a.2 (l.map Prod.snd)
      have e : a.2 :: l.map Prod.snd = (a :: l).map Prod.snd := rfl
      rw [e] at hM hm
      have hle : lmin a.2 (l.map Prod.snd) ≤ lmax a.2 (l.map Prod.snd) := hm.2 _ hM.1
      refine ⟨by simp only [scale1]; linarith, ?_⟩
      simp only [scale1]
      constructor
      · intro h
        refine ⟨by simp, fun d hd d' hd' => ?_⟩
        have a1 := hM.2 _ (List.mem_map_of_mem (f := Prod.snd) hd)
        have a2 := hM.2 _ (List.mem_map_of_mem (f := Prod.snd) hd')
        have a3 := hm.2 _ (List.mem_map_of_mem (f := Prod.snd) hd)
        have a4 := hm.2 _ (List.mem_map_of_mem (f := Prod.snd) hd')
        linarith
      · rintro ⟨-, h⟩
        obtain ⟨d, hd, e1⟩ := List.mem_map.1 hM.1
        obtain ⟨d', hd', e2⟩ := List.mem_map.1 hm.1
        rw [← e1, ← e2, h d hd d' hd', sub_self]
  have h2 : scale2 g = 0 ↔ g ≠ [] ∧ ∀ h ∈ g, h = 0 := by
    cases g with
    | nil => simp [scale2]
    | cons a l =>
      have hM := lmax_spec (nrm a) (l.map nrm)
      have e : nrm a :: l.map nrm = (a :: l).map nrm := rfl
      rw [e] at hM
      simp only [scale2]
      constructor
      · intro h
        refine ⟨by simp, fun x hx => ?_⟩
        by_contra hne
        have := hM.2 _ (List.mem_map_of_mem (f := nrm) hx)
        linarith [nrm_pos_of_ne hne]
      · rintro ⟨-, h⟩
        obtain ⟨d, hd, e1⟩ := List.mem_map.1 hM.1
        rw [← e1, h d hd, nrm_zero]
  have h3 : fitScale data g = 0 ↔ scale1 data = 0 ∧ scale2 g = 0 := by
    unfold fitScale
    constructor
    · intro h
      have a := le_max_left (scale1 data) (scale2 g)
      have b := le_max_right (scale1 data) (scale2 g)
      exact ⟨le_antisymm (by linarith) h1.1, le_antisymm (by linarith) (scale2_nonneg g)⟩
    · rintro ⟨a, b⟩; rw [a, b, max_self]
  rw [h3, h1.2, h2]
  tauto

/-- After a fit without gradients and without `epsilon` the uncertainty bounds are ordered everywhere and equal the samples at the samples. -/
theorem fit_then_uncertainty {build : Build m} (hb : BuildSpec build) {eigh : EighFn m} (he : EighSpec eigh) {X : List (Pt m)} {fX : List ℝ} {r : LipFit m}
    (h : lipFit build eigh none (some X) (some fX) none = .ok r) :
    (∀ x, XR.le (uncertainty r.L none (X.zip fX) x).1 (uncertainty r.L none (X.zip fX) x).2) ∧
    ∀ d ∈ X.zip fX, uncertainty r.L none (X.zip fX) d.1 = (.fin d.2, .fin d.2) := by
  obtain ⟨data, g, H, hp, -, -, -⟩ := lipFit_ok h
  have hdata : data = X.zip fX ∧ g = [] := by
    unfold prepare at hp
    split at hp
    · cases hp
    · simp only [pairUp] at hp
      by_cases hl : fX.length = X.length
      · rw [if_pos hl] at hp
        obtain ⟨rfl, rfl⟩ := Prod.mk.inj (Except.ok.inj hp)
        exact ⟨rfl, rfl⟩
      · rw [if_neg hl] at hp; cases hp
  obtain ⟨rfl, rfl⟩ := hdata
  have hc := (fit_consistent_partial hb he (eps := none) (le_refl _) h hp (Or.inl rfl)).1
  simp only [Option.getD_none] at hc
  refine ⟨fun x => uncertainty_ordered r.L none _ (by simpa using hc) x, fun d hd => ?_⟩
  have := uncertainty_tight r.L none _ hc d hd
  simpa using this

end Verif.Lip
