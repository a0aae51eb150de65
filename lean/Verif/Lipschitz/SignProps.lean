import Verif.Lipschitz.FitModel
import Verif.Lipschitz.ParamProps

/-!
# C38: fixing the signs of a subspace basis
-/

namespace Verif.Lip

open Verif Matrix

variable {m n : ℕ}

theorem npSign_sq {x : ℝ} (h : x ≠ 0) : npSign x * npSign x = 1 := by
  unfold npSign
  rcases lt_trichotomy x 0 with h1 | h1 | h1
  · rw [if_neg h1.not_gt, if_pos h1]; norm_num
  · exact absurd h1 h
  · rw [if_pos h1]; norm_num

theorem npSign_cases (x : ℝ) : (0 < x ∧ npSign x = 1) ∨ (x < 0 ∧ npSign x = -1) ∨ (x = 0 ∧ npSign x = 0) := by
  unfold npSign
  rcases lt_trichotomy x 0 with h1 | h1 | h1
  · right; left; rw [if_neg h1.not_gt, if_pos h1]; exact ⟨h1, rfl⟩
  · right; right; subst h1; simp
  · left; rw [if_pos h1]; exact ⟨h1, rfl⟩

theorem ucol_mul_diagonal (U : Matrix (Fin m) (Fin n) ℝ) (s : Fin n → ℝ) (k : Fin n) : ucol (U * Matrix.diagonal s) k = s k • ucol U k := by
  ext i; simp [ucol, Matrix.mul_diagonal, mul_comm]

theorem slope_smul_neg (u : Pt m) (p : (Pt m × ℝ) × (Pt m × ℝ)) : slope (-u) p = -slope u p := by
  unfold slope
  rw [neg_dotProduct, abs_neg]
  split
  · rw [div_neg]
  · simp

theorem slopeSum_neg (data : List (Pt m × ℝ)) (u : Pt m) : slopeSum data (-u) = -slopeSum data u := by
  unfold slopeSum
  induction pairsOf data with
  | nil => simp
  | cons p l ih => rw [List.map_cons, List.sum_cons, List.map_cons, List.sum_cons, ih, slope_smul_neg]; ring

theorem meanGrad_smul (grads : List (Pt m)) (u : Pt m) (c : ℝ) : meanGrad grads (c • u) = c * meanGrad grads u := by
  unfold meanGrad
  rw [mul_div_assoc']
  congr 1
  induction grads with
  | nil => simp
  | cons g l ih => rw [List.map_cons, List.sum_cons, List.map_cons, List.sum_cons, ih, dotProduct_smul, smul_eq_mul]; ring

/-- Multiplying the columns by signs keeps orthonormality and the orthogonal projector on the span. -/
theorem flip_orthonormal (U : Matrix (Fin m) (Fin n) ℝ) (s : Fin n → ℝ) (hs : ∀ k, s k * s k = 1) :
    (Uᵀ * U = 1 → (U * Matrix.diagonal s)ᵀ * (U * Matrix.diagonal s) = 1) ∧
    (U * Matrix.diagonal s) * (U * Matrix.diagonal s)ᵀ = U * Uᵀ := by
  have hd : Matrix.diagonal s * Matrix.diagonal s = 1 := by
    rw [Matrix.diagonal_mul_diagonal]
    simp only [hs]
    exact Matrix.diagonal_one
  constructor
  · intro hU
    rw [Matrix.transpose_mul, Matrix.diagonal_transpose, Matrix.mul_assoc, ← Matrix.mul_assoc Uᵀ, hU, Matrix.one_mul, hd]
  · rw [Matrix.transpose_mul, Matrix.diagonal_transpose, Matrix.mul_assoc, ← Matrix.mul_assoc (Matrix.diagonal s), hd, Matrix.one_mul]

/-- **C38** for samples: each column is kept or negated, the columns stay orthonormal and span the same space, and the average slope of the
data along each column is nonnegative. -/
theorem fixSamps_spec (U : Matrix (Fin m) (Fin n) ℝ) (data : List (Pt m × ℝ)) :
    (∀ k, ucol (fixSamps U data) k = ucol U k ∨ ucol (fixSamps U data) k = -ucol U k) ∧
    (Uᵀ * U = 1 → (fixSamps U data)ᵀ * fixSamps U data = 1) ∧ fixSamps U data * (fixSamps U data)ᵀ = U * Uᵀ ∧
    (∀ k, 0 ≤ slopeSum data (ucol (fixSamps U data) k)) := by
  have hne : ∀ k, (if slopeSum data (ucol U k) = 0 then (1 : ℝ) else slopeSum data (ucol U k)) ≠ 0 := by
    intro k; split
    · norm_num
    · assumption
  have hf := flip_orthonormal U (fun k => npSign (if slopeSum data (ucol U k) = 0 then (1 : ℝ) else slopeSum data (ucol U k))) (fun k => npSign_sq (hne k))
  have hcol : ∀ k, (ucol (fixSamps U data) k = ucol U k ∧ 0 ≤ slopeSum data (ucol U k)) ∨
      (ucol (fixSamps U data) k = -ucol U k ∧ slopeSum data (ucol U k) < 0) := by
    intro k
    unfold fixSamps
    rw [ucol_mul_diagonal]
    by_cases h0 : slopeSum data (ucol U k) = 0
    · left
      rw [if_pos h0]
      rcases npSign_cases 1 with ⟨-, h⟩ | ⟨h, -⟩ | ⟨h, -⟩
      · rw [h, one_smul]; exact ⟨rfl, h0.ge⟩
      · norm_num at h
      · norm_num at h
    · rw [if_neg h0]
      rcases npSign_cases (slopeSum data (ucol U k)) with ⟨h1, h⟩ | ⟨h1, h⟩ | ⟨h1, -⟩
      · left; rw [h, one_smul]; exact ⟨rfl, h1.le⟩
      · right; rw [h, neg_one_smul]; exact ⟨rfl, h1⟩
      · exact absurd h1 h0
  refine ⟨fun k => ?_, hf.1, hf.2, fun k => ?_⟩
  · rcases hcol k with h | h
    · exact Or.inl h.1
    · exact Or.inr h.1
  · rcases hcol k with h | h
    · rw [h.1]; exact h.2
    · rw [h.1, slopeSum_neg]; linarith [h.2]

theorem pairsOf_cases {α : Type*} {l : List α} {a b : α} (ha : a ∈ l) (hb : b ∈ l) : a = b ∨ (a, b) ∈ pairsOf l ∨ (b, a) ∈ pairsOf l := by
  induction l with
  | nil => simp at ha
  | cons c l ih =>
    rw [pairsOf]
    rcases List.mem_cons.1 ha with rfl | ha
    · rcases List.mem_cons.1 hb with rfl | hb
      · exact Or.inl rfl
      · right; left; exact List.mem_append_left _ (List.mem_map.2 ⟨b, hb, rfl⟩)
    · rcases List.mem_cons.1 hb with h | hb
      · subst h; right; right; exact List.mem_append_left _ (List.mem_map.2 ⟨a, by assumption, rfl⟩)
      · rcases ih ha hb with h | h | h
        · exact Or.inl h
        · right; left; exact List.mem_append_right _ h
        · right; right; exact List.mem_append_right _ h

theorem slope_div (u : Pt m) (p q : Pt m × ℝ) : slope u (p, q) = (p.2 - q.2) / (u ⬝ᵥ (p.1 - q.1)) := by
  unfold slope
  split
  · rfl
  · rename_i h
    have : u ⬝ᵥ (p.1 - q.1) = 0 := by simpa using h
    rw [this, div_zero]

theorem slope_symm (u : Pt m) (p q : Pt m × ℝ) : slope u (p, q) = slope u (q, p) := by
  rw [slope_div, slope_div, ← neg_sub q.2 p.2, ← neg_sub q.1 p.1, dotProduct_neg, neg_div_neg_eq]

/-- The slopes over all ordered pairs. -/
theorem slopeSum_pairs (u : Pt m) (data : List (Pt m × ℝ)) :
    (data.map fun p => (data.map fun q => (p.2 - q.2) / (u ⬝ᵥ (p.1 - q.1))).sum).sum = 2 * slopeSum data u := by
  have key : ∀ l : List (Pt m × ℝ), (l.map fun p => (l.map fun q => slope u (p, q)).sum).sum = 2 * slopeSum l u := by
    intro l
    induction l with
    | nil => simp [slopeSum, pairsOf]
    | cons a l ih =>
      have h0 : slope u (a, a) = 0 := by rw [slope_div, sub_self, zero_div]
      have h1 : (l.map fun p => slope u (p, a) + (l.map fun q => slope u (p, q)).sum).sum =
          (l.map fun q => slope u (a, q)).sum + (l.map fun p => (l.map fun q => slope u (p, q)).sum).sum := by
        rw [List.sum_map_add]
        congr 2
        exact List.map_congr_left fun q _ => slope_symm u q a
      simp only [List.map_cons, List.sum_cons, h0, zero_add, h1, ih]
      simp only [slopeSum, pairsOf, List.map_append, List.map_map, List.sum_append, Function.comp_def]
      ring
  rw [← key data]
  simp only [slope_div]

/-- **C38** for samples: along each column the divided differences of the data over all pairs of samples have a nonnegative sum. -/
theorem fixSamps_slopes (U : Matrix (Fin m) (Fin n) ℝ) (data : List (Pt m × ℝ)) (k : Fin n) :
    0 ≤ (data.map fun p => (data.map fun q => (p.2 - q.2) / (ucol (fixSamps U data) k ⬝ᵥ (p.1 - q.1))).sum).sum := by
  rw [slopeSum_pairs]
  exact mul_nonneg (by norm_num) ((fixSamps_spec U data).2.2.2 k)

/-- **C38** for samples: a direction along which the data increase is kept, and one along which they decrease (somewhere strictly) is negated. -/
theorem fixSamps_monotone (U : Matrix (Fin m) (Fin n) ℝ) (data : List (Pt m × ℝ)) (k : Fin n) :
    ((∀ p ∈ data, ∀ q ∈ data, 0 ≤ (p.2 - q.2) * (ucol U k ⬝ᵥ (p.1 - q.1))) → ucol (fixSamps U data) k = ucol U k) ∧
    ((∀ p ∈ data, ∀ q ∈ data, (p.2 - q.2) * (ucol U k ⬝ᵥ (p.1 - q.1)) ≤ 0) →
      (∃ p ∈ data, ∃ q ∈ data, (p.2 - q.2) * (ucol U k ⬝ᵥ (p.1 - q.1)) < 0) → ucol (fixSamps U data) k = -ucol U k) := by
  have sgn : ∀ a b : ℝ, a / b = a * b * (b⁻¹) ^ 2 := fun a b => by
    rcases eq_or_ne b 0 with rfl | h
    · simp
    · field_simp
  constructor
  · intro h
    have hs : 0 ≤ slopeSum data (ucol U k) := by
      refine List.sum_nonneg fun y hy => ?_
      obtain ⟨⟨p, q⟩, hp, rfl⟩ := List.mem_map.1 hy
      rw [slope_div, sgn]
      exact mul_nonneg (h p (pairsOf_mem hp).1 q (pairsOf_mem hp).2) (sq_nonneg _)
    unfold fixSamps
    rw [ucol_mul_diagonal]
    have : npSign (if slopeSum data (ucol U k) = 0 then (1 : ℝ) else slopeSum data (ucol U k)) = 1 := by
      rw [npSign, if_pos]
      split
      · norm_num
      · exact lt_of_le_of_ne hs (Ne.symm (by assumption))
    rw [this, one_smul]
  · rintro h ⟨p, hp, q, hq, hpq⟩
    have hnp : ∀ y ∈ (pairsOf data).map (slope (ucol U k)), y ≤ 0 := fun y hy => by
      obtain ⟨⟨p, q⟩, hp, rfl⟩ := List.mem_map.1 hy
      rw [slope_div, sgn]
      exact mul_nonpos_of_nonpos_of_nonneg (h p (pairsOf_mem hp).1 q (pairsOf_mem hp).2) (sq_nonneg _)
    have hlt : slope (ucol U k) (p, q) < 0 := by
      rw [slope_div, sgn]
      refine mul_neg_of_neg_of_pos hpq (lt_of_le_of_ne (sq_nonneg _) (Ne.symm (pow_ne_zero 2 ?_)))
      intro h0
      rw [inv_eq_zero] at h0
      rw [h0, mul_zero] at hpq; exact lt_irrefl _ hpq
    have hmem : slope (ucol U k) (p, q) ∈ (pairsOf data).map (slope (ucol U k)) := by
      rcases pairsOf_cases hp hq with rfl | h1 | h1
      · rw [sub_self, zero_mul] at hpq; exact absurd hpq (lt_irrefl _)
      · exact List.mem_map_of_mem h1
      · rw [slope_symm]; exact List.mem_map_of_mem h1
    have hs : slopeSum data (ucol U k) < 0 := by
      have : slopeSum data (ucol U k) ≤ slope (ucol U k) (p, q) := by
        rw [slopeSum]
        generalize (pairsOf data).map (slope (ucol U k)) = l at hnp hmem
        induction l with
        | nil => simp at hmem
        | cons a l ih =>
          rw [List.sum_cons]
          have h0 : ∀ y ∈ l, y ≤ 0 := fun y hy => hnp y (by simp [hy])
          rcases List.mem_cons.1 hmem with e | e
          · have : l.sum ≤ 0 := by
              clear ih hmem e hnp
              induction l with
              | nil => simp
              | cons b l ih2 => rw [List.sum_cons]; linarith [h0 b (by simp), ih2 fun y hy => h0 y (by simp [hy])]
            linarith
          · linarith [hnp a (by simp), ih h0 e]
      linarith
    unfold fixSamps
    rw [ucol_mul_diagonal]
    have : npSign (if slopeSum data (ucol U k) = 0 then (1 : ℝ) else slopeSum data (ucol U k)) = -1 := by
      rw [if_neg hs.ne, npSign, if_neg (not_lt.2 hs.le), if_pos hs]
    rw [this, neg_one_smul]

/-- Data that increase along the first coordinate. -/
example : ∀ p ∈ [((![0, 0] : Pt 2), (0 : ℝ)), (![1, 0], 3)], ∀ q ∈ [((![0, 0] : Pt 2), (0 : ℝ)), (![1, 0], 3)],
    0 ≤ (p.2 - q.2) * (ucol (1 : Matrix (Fin 2) (Fin 2) ℝ) 0 ⬝ᵥ (p.1 - q.1)) := by
  simp [ucol, dotProduct, Fin.sum_univ_two]

/-- **C38** for gradients: the mean derivative along each column is nonnegative. -/
theorem fixGrads_mean (U : Matrix (Fin m) (Fin n) ℝ) (grads : List (Pt m)) (k : Fin n) : 0 ≤ meanGrad grads (ucol (fixGrads U grads) k) := by
  unfold fixGrads
  rw [ucol_mul_diagonal, meanGrad_smul]
  rcases npSign_cases (meanGrad grads (ucol U k)) with ⟨h1, h⟩ | ⟨h1, h⟩ | ⟨h1, h⟩
  · rw [h]; linarith
  · rw [h]; linarith
  · rw [h]; linarith

/-- **C38** for gradients, when no column is orthogonal to the mean gradient.  Missing: a column orthogonal to the mean gradient is replaced by
zero, see `fixGrads_false`. -/
theorem fixGrads_partial (U : Matrix (Fin m) (Fin n) ℝ) (grads : List (Pt m)) (h : ∀ k, meanGrad grads (ucol U k) ≠ 0) :
    (∀ k, ucol (fixGrads U grads) k = ucol U k ∨ ucol (fixGrads U grads) k = -ucol U k) ∧
    (Uᵀ * U = 1 → (fixGrads U grads)ᵀ * fixGrads U grads = 1) ∧ fixGrads U grads * (fixGrads U grads)ᵀ = U * Uᵀ := by
  have hf := flip_orthonormal U (fun k => npSign (meanGrad grads (ucol U k))) (fun k => npSign_sq (h k))
  refine ⟨fun k => ?_, hf.1, hf.2⟩
  unfold fixGrads
  rw [ucol_mul_diagonal]
  rcases npSign_cases (meanGrad grads (ucol U k)) with ⟨h1, h2⟩ | ⟨h1, h2⟩ | ⟨h1, h2⟩
  · left; rw [h2, one_smul]
  · right; rw [h2, neg_one_smul]
  · exact absurd h1 (h k)

/-- The condition of `fixGrads_partial` is necessary: the result is orthonormal exactly if no column is orthogonal to the mean gradient. -/
theorem fixGrads_orthonormal_iff (U : Matrix (Fin m) (Fin n) ℝ) (hU : Uᵀ * U = 1) (grads : List (Pt m)) :
    (fixGrads U grads)ᵀ * fixGrads U grads = 1 ↔ ∀ k, meanGrad grads (ucol U k) ≠ 0 := by
  refine ⟨fun h k h0 => ?_, fun h => (fixGrads_partial U grads h).2.1 hU⟩
  have h1 := congrFun (congrFun h k) k
  rw [Matrix.one_apply_eq, Matrix.mul_apply] at h1
  have h2 : ∀ i, fixGrads U grads i k = 0 := by
    intro i
    have := congrFun (ucol_mul_diagonal U (fun k => npSign (meanGrad grads (ucol U k))) k) i
    rw [h0] at this
    simp only [npSign, lt_irrefl, if_false, zero_smul, Pi.zero_apply] at this
    exact this
  simp only [Matrix.transpose_apply, h2, mul_zero, Finset.sum_const_zero] at h1
  norm_num at h1

/-- **C38 is false for gradients**: with gradients `(1, 0)` and `(1, 0)` the second coordinate direction is replaced by zero. -/
theorem fixGrads_false : ∃ (U : Matrix (Fin 2) (Fin 2) ℝ) (grads : List (Pt 2)), Uᵀ * U = 1 ∧ grads ≠ [] ∧
    (fixGrads U grads)ᵀ * fixGrads U grads ≠ 1 := by
  refine ⟨1, [![1, 0], ![1, 0]], by simp, by simp, ?_⟩
  rw [Ne, fixGrads_orthonormal_iff _ (by simp)]
  intro h
  refine h 1 ?_
  simp [meanGrad, ucol, dotProduct, Fin.sum_univ_two]

example : ∀ k, meanGrad [![1, 2], ![1, -1]] (ucol (1 : Matrix (Fin 2) (Fin 2) ℝ) k) ≠ 0 := by
  refine Fin.forall_fin_two.2 ⟨?_, ?_⟩
  · simp [meanGrad, ucol, dotProduct, Fin.sum_univ_two]
  · simp [meanGrad, ucol, dotProduct, Fin.sum_univ_two]; norm_num

end Verif.Lip
