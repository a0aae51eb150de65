import Verif.Misc.ActiveProps
import Verif.Misc.SvdExists
import Mathlib.Data.List.GetD

/-!
# The active subspace is the optimal subspace (C80)
-/

namespace Verif.Misc

open Verif Verif.Lip Matrix

variable {m n : ℕ}

/-- The weighted squared length of the projections of the gradients onto the span of the (orthonormal) columns of `Q`. -/
def captured (ps : List (ℝ × Pt m)) (Q : Matrix (Fin m) (Fin n) ℝ) : ℝ := (ps.map (fun p => p.1 * ((Qᵀ *ᵥ p.2) ⬝ᵥ (Qᵀ *ᵥ p.2)))).sum

theorem captured_eq (ps : List (ℝ × Pt m)) (Q : Matrix (Fin m) (Fin n) ℝ) :
    captured ps Q = ∑ j, ucol Q j ⬝ᵥ (outerSum ps *ᵥ ucol Q j) := by
  simp only [outerSum_quad]
  unfold captured
  induction ps with
  | nil => simp
  | cons p ps ih =>
    simp only [List.map_cons, List.sum_cons, Finset.sum_add_distrib, ih]
    congr 1
    rw [← Finset.mul_sum]
    congr 1
    simp only [dotProduct, pow_two]
    refine Finset.sum_congr rfl fun j _ => ?_
    have : (Qᵀ *ᵥ p.2) j = ∑ i, p.2 i * ucol Q j i := by
      simp only [Matrix.mulVec, dotProduct, Matrix.transpose_apply, ucol]
      exact Finset.sum_congr rfl fun i _ => mul_comm _ _
    rw [this]

/-- The linear programming step behind Ky Fan's theorem. -/
theorem weighted_le_head (a c : Fin m → ℝ) (ha : Antitone a) (h0 : ∀ k, 0 ≤ c k) (h1 : ∀ k, c k ≤ 1) (hs : ∑ k, c k = n) :
    ∑ k, a k * c k ≤ ∑ k : Fin m, if (k : ℕ) < n then a k else 0 := by
  have hnm : n ≤ m := by
    have : (n : ℝ) ≤ m := by
      rw [← hs]
      calc ∑ k, c k ≤ ∑ _k : Fin m, (1:ℝ) := Finset.sum_le_sum fun k _ => h1 k
        _ = m := by simp
    exact_mod_cast this
  rcases Nat.eq_zero_or_pos n with rfl | hn
  · have hz : ∀ k, c k = 0 := by
      intro k
      have := (Finset.sum_eq_zero_iff_of_nonneg (fun k _ => h0 k)).1 (by simpa using hs)
      exact this k (Finset.mem_univ _)
    simp [hz]
  · set t := a ⟨n - 1, by omega⟩
    have key : ∀ k : Fin m, (a k - t) * c k ≤ if (k : ℕ) < n then a k - t else 0 := by
      intro k
      split
      · rename_i hk
        have : 0 ≤ a k - t := sub_nonneg.2 (ha (by rw [Fin.le_def]; simp only; omega))
        nlinarith [h1 k]
      · rename_i hk
        have : a k - t ≤ 0 := sub_nonpos.2 (ha (by rw [Fin.le_def]; simp only; omega))
        nlinarith [h0 k]
    have hcount : ∑ k : Fin m, (if (k : ℕ) < n then t else 0) = n * t := by
      rw [← Finset.sum_filter, Finset.sum_const, nsmul_eq_mul]
      congr 2
      have : (Finset.univ.filter (fun k : Fin m => (k : ℕ) < n)) = Finset.univ.map (Fin.castLEEmb hnm) := by
        ext k
        simp only [Finset.mem_filter, Finset.mem_univ, true_and, Finset.mem_map]
        constructor
        · intro h; exact ⟨⟨k, h⟩, Fin.ext rfl⟩
        · rintro ⟨j, rfl⟩; exact j.2
      rw [this, Finset.card_map, Finset.card_univ, Fintype.card_fin]
    have hsum := Finset.sum_le_sum (s := Finset.univ) fun k (_ : k ∈ Finset.univ) => key k
    have e1 : ∑ k, (a k - t) * c k = ∑ k, a k * c k - t * n := by
      rw [← hs, Finset.mul_sum, ← Finset.sum_sub_distrib]
      exact Finset.sum_congr rfl fun k _ => by ring
    have e2 : ∑ k : Fin m, (if (k : ℕ) < n then a k - t else 0) = (∑ k : Fin m, if (k : ℕ) < n then a k else 0) - n * t := by
      rw [← hcount, ← Finset.sum_sub_distrib]
      exact Finset.sum_congr rfl fun k _ => by split <;> ring
    rw [e1, e2] at hsum
    linarith

/-- Ky Fan's maximum principle. -/
theorem kyFan (U : Matrix (Fin m) (Fin m) ℝ) (hU : Uᵀ * U = 1) (a : Fin m → ℝ) (ha : Antitone a) (Q : Matrix (Fin m) (Fin n) ℝ)
    (hQ : Qᵀ * Q = 1) : ∑ j, ucol Q j ⬝ᵥ ((U * Matrix.diagonal a * Uᵀ) *ᵥ ucol Q j) ≤ ∑ k : Fin m, if (k : ℕ) < n then a k else 0 := by
  have hU' : U * Uᵀ = 1 := mul_eq_one_comm.1 hU
  set W : Matrix (Fin m) (Fin n) ℝ := Uᵀ * Q with hW
  have hWW : Wᵀ * W = 1 := by
    rw [hW, Matrix.transpose_mul, Matrix.transpose_transpose]
    calc Qᵀ * U * (Uᵀ * Q) = Qᵀ * (U * Uᵀ) * Q := by simp only [Matrix.mul_assoc]
      _ = 1 := by rw [hU', Matrix.mul_one, hQ]
  have hterm : ∀ j, ucol Q j ⬝ᵥ ((U * Matrix.diagonal a * Uᵀ) *ᵥ ucol Q j) = ∑ k, a k * W k j ^ 2 := by
    intro j
    have e : (Uᵀ *ᵥ ucol Q j) = fun k => W k j := by
      funext k
      rw [hW, Matrix.mul_apply]
      rfl
    rw [← Matrix.mulVec_mulVec, ← Matrix.mulVec_mulVec, e, Matrix.dotProduct_mulVec, ← Matrix.mulVec_transpose, e]
    simp only [dotProduct, Matrix.mulVec_diagonal]
    exact Finset.sum_congr rfl fun k _ => by ring
  simp only [hterm]
  rw [Finset.sum_comm]
  have : ∀ k, ∑ j, a k * W k j ^ 2 = a k * ∑ j, W k j ^ 2 := fun k => (Finset.mul_sum _ _ _).symm
  simp only [this]
  refine weighted_le_head a (fun k => ∑ j, W k j ^ 2) ha (fun k => Finset.sum_nonneg fun j _ => sq_nonneg _) ?_ ?_
  · intro k
    set P := W * Wᵀ with hP
    have hPP : P * P = P := by
      rw [hP]
      calc W * Wᵀ * (W * Wᵀ) = W * (Wᵀ * W) * Wᵀ := by simp only [Matrix.mul_assoc]
        _ = _ := by rw [hWW, Matrix.mul_one]
    have hPs : ∀ i j, P i j = P j i := by
      intro i j
      rw [hP, Matrix.mul_apply, Matrix.mul_apply]
      exact Finset.sum_congr rfl fun l _ => by simp [mul_comm]
    have hkk : P k k = ∑ j, W k j ^ 2 := by
      rw [hP, Matrix.mul_apply]
      exact Finset.sum_congr rfl fun l _ => by simp [pow_two]
    have h2 : P k k = ∑ j, P k j ^ 2 := by
      conv_lhs => rw [← hPP]
      rw [Matrix.mul_apply]
      exact Finset.sum_congr rfl fun l _ => by rw [hPs l k, pow_two]
    have h3 : P k k ^ 2 ≤ P k k := by
      conv_rhs => rw [h2]
      exact Finset.single_le_sum (f := fun j => P k j ^ 2) (fun j _ => sq_nonneg _) (Finset.mem_univ k)
    rw [← hkk]
    nlinarith [sq_nonneg (P k k)]
  · rw [Finset.sum_comm]
    have : ∀ j, ∑ k, W k j ^ 2 = 1 := by
      intro j
      have := congrFun (congrFun hWW j) j
      rw [Matrix.mul_apply, Matrix.one_apply_eq] at this
      rw [← this]
      exact Finset.sum_congr rfl fun k _ => by simp [pow_two]
    simp [this]

theorem padS_getD (m : ℕ) (s : List ℝ) (i : ℕ) : (padS m s).getD i 0 = s.getD i 0 := by
  unfold padS
  rcases Nat.lt_or_ge i s.length with h | h
  · simp [List.getD_eq_getElem?_getD, List.getElem?_append_left h]
  · simp [List.getD_eq_getElem?_getD, List.getElem?_append_right h, List.getElem?_eq_none_iff.2 h, List.getElem?_replicate]
    split <;> rfl

/-- The singular values: one for each coordinate, nonnegative and decreasing. -/
theorem asRaw_s (svd : SvdFn m) (hsvd : SvdSpec svd) (ps : List (ℝ × Pt m)) : (asRaw svd ps).s.length = m ∧ (∀ x ∈ (asRaw svd ps).s, 0 ≤ x) ∧
    Antitone (fun k : Fin m => (asRaw svd ps).s.getD k 0) := by
  have hd := hsvd ps.length (asCols ps)
  refine ⟨?_, ?_, ?_⟩
  · simp only [asRaw, padS, List.length_append, List.length_replicate, hd.len]
    omega
  · intro x hx
    simp only [asRaw, padS, List.mem_append, List.mem_replicate] at hx
    rcases hx with h | ⟨_, rfl⟩
    · exact hd.nonneg x h
    · exact le_refl _
  · intro i j hij
    simp only [asRaw, padS_getD]
    set s := (svd ps.length (asCols ps)).s
    rcases Nat.lt_or_ge j s.length with hj | hj
    · have hi : (i : ℕ) < s.length := lt_of_le_of_lt hij hj
      simp only [List.getD_eq_getElem _ _ hj, List.getD_eq_getElem _ _ hi]
      rcases hij.eq_or_lt with e | e
      · subst e; exact le_refl _
      · exact List.pairwise_iff_getElem.1 hd.sorted i j hi hj e
    · have : s.getD j 0 = 0 := by rw [List.getD_eq_getElem?_getD, List.getElem?_eq_none_iff.2 hj]; rfl
      simp only [this]
      rcases Nat.lt_or_ge i s.length with hi | hi
      · rw [List.getD_eq_getElem _ _ hi]
        exact hd.nonneg _ (List.getElem_mem hi)
      · rw [List.getD_eq_getElem?_getD, List.getElem?_eq_none_iff.2 hi]
        exact le_refl _

theorem asRaw_col (svd : SvdFn m) (hsvd : SvdSpec svd) (ps : List (ℝ × Pt m)) (k : Fin m) :
    (asRaw svd ps).C *ᵥ ucol (asRaw svd ps).U k = ((asRaw svd ps).s.getD k 0 ^ 2) • ucol (asRaw svd ps).U k := by
  have hd := hsvd ps.length (asCols ps)
  have hU : (asRaw svd ps).Uᵀ * (asRaw svd ps).U = 1 := hd.orthU
  have hC : (asRaw svd ps).C = (asRaw svd ps).U * Matrix.diagonal (fun i : Fin m => (asRaw svd ps).s.getD i 0 ^ 2) * (asRaw svd ps).Uᵀ := rfl
  have e : (asRaw svd ps).Uᵀ *ᵥ ucol (asRaw svd ps).U k = Pi.single k 1 := by
    funext i
    have := congrFun (congrFun hU i) k
    rw [Matrix.mul_apply] at this
    rw [Pi.single_apply, ← Matrix.one_apply, ← this]
    rfl
  rw [hC, ← Matrix.mulVec_mulVec, ← Matrix.mulVec_mulVec, e]
  funext i
  simp only [Matrix.diagonal_mulVec_single, Matrix.mulVec_single, Pi.smul_apply, smul_eq_mul, ucol, mul_one]
  simp [mul_comm]

/-- **C80**: every reported direction is an eigenvector of `C` for the square of its singular value (also after the signs are
fixed), and the singular values are nonnegative, decreasing, and as many as there are coordinates. -/
theorem asFit_eigen (svd : SvdFn m) (hsvd : SvdSpec svd) (grads : List (Pt m)) (weights : Option (List ℝ)) (r : ASState m)
    (h : asFit svd grads weights = .ok r) : r.s.length = m ∧ (∀ x ∈ r.s, 0 ≤ x) ∧ Antitone (fun k : Fin m => r.s.getD k 0) ∧
      ∀ k : Fin m, r.C *ᵥ ucol r.U k = (r.s.getD k 0 ^ 2) • ucol r.U k := by
  obtain ⟨ps, _, _, _, rfl⟩ := asFit_ok svd grads weights r h
  obtain ⟨h1, h2, h3⟩ := asRaw_s svd hsvd ps
  refine ⟨h1, h2, h3, fun k => ?_⟩
  simp only [fixGrads]
  rw [ucol_mul_diagonal, Matrix.mulVec_smul, asRaw_col svd hsvd ps k, smul_comm]

/-- **C80**: no subspace of dimension `n` captures more of the gradients than the sum of the `n` largest squared singular values. -/
theorem asFit_bound (svd : SvdFn m) (hsvd : SvdSpec svd) (grads : List (Pt m)) (w : List ℝ) (hw : w.length = grads.length) (r : ASState m)
    (h : asFit svd grads (some w) = .ok r) (Q : Matrix (Fin m) (Fin n) ℝ) (hQ : Qᵀ * Q = 1) :
    captured (w.zip grads) Q ≤ ∑ k : Fin m, if (k : ℕ) < n then r.s.getD k 0 ^ 2 else 0 := by
  have hC : r.C = outerSum (w.zip grads) := asFit_C svd hsvd grads w hw r h
  obtain ⟨ps, _, hps, _, rfl⟩ := asFit_ok svd grads (some w) r h
  obtain ⟨h1, h2, h3⟩ := asRaw_s svd hsvd ps
  rw [captured_eq, ← hC]
  refine kyFan _ (hsvd ps.length (asCols ps)).orthU (fun k => (asRaw svd ps).s.getD k 0 ^ 2) ?_ Q hQ
  intro i j hij
  have := h3 hij
  have hn : 0 ≤ (asRaw svd ps).s.getD j 0 := by
    rw [List.getD_eq_getElem _ _ (by rw [h1]; exact j.2)]
    exact h2 _ (List.getElem_mem _)
  simp only
  simp only at this
  nlinarith

/-- The first `n` columns. -/
def headCols (U : Matrix (Fin m) (Fin m) ℝ) (hn : n ≤ m) : Matrix (Fin m) (Fin n) ℝ := U.submatrix id (Fin.castLE hn)

/-- **C80, partial**: the first `n` reported directions are orthonormal and capture the most, provided the mean gradient has a
nonzero component along every reported direction. Without this proviso a direction is replaced by the zero vector, see
`asFit_zero_false`. -/
theorem asFit_optimal_partial (svd : SvdFn m) (hsvd : SvdSpec svd) (grads : List (Pt m)) (w : List ℝ) (hw : w.length = grads.length) (r : ASState m)
    (h : asFit svd grads (some w) = .ok r) (hz : ∀ k, ucol r.U k ≠ 0) (hn : n ≤ m) :
    (headCols r.U hn)ᵀ * headCols r.U hn = 1 ∧ captured (w.zip grads) (headCols r.U hn) = (∑ k : Fin m, if (k : ℕ) < n then r.s.getD k 0 ^ 2 else 0) ∧
      ∀ Q : Matrix (Fin m) (Fin n) ℝ, Qᵀ * Q = 1 → captured (w.zip grads) Q ≤ captured (w.zip grads) (headCols r.U hn) := by
  have hC : r.C = outerSum (w.zip grads) := asFit_C svd hsvd grads w hw r h
  have heig := asFit_eigen svd hsvd grads (some w) r h
  have hb := fun Q hQ => asFit_bound (n := n) svd hsvd grads w hw r h Q hQ
  obtain ⟨ps, _, hps, _, hr⟩ := asFit_ok svd grads (some w) r h
  have hU : r.Uᵀ * r.U = 1 := by
    subst hr
    refine (fixGrads_orthonormal_iff _ (hsvd ps.length (asCols ps)).orthU grads).2 ?_
    intro k hk
    refine hz k ?_
    simp only [fixGrads]
    rw [ucol_mul_diagonal]
    have : npSign (meanGrad grads (ucol (asRaw svd ps).U k)) = 0 := by
      have hk' : meanGrad grads (ucol (asRaw svd ps).U k) = 0 := hk
      rw [hk']
      simp [npSign]
    rw [this, zero_smul]
  have h1 : (headCols r.U hn)ᵀ * headCols r.U hn = 1 := by
    ext i j
    have := congrFun (congrFun hU (Fin.castLE hn i)) (Fin.castLE hn j)
    rw [Matrix.mul_apply] at this ⊢
    simp only [headCols, Matrix.transpose_apply, Matrix.submatrix_apply, id] at this ⊢
    rw [this, Matrix.one_apply, Matrix.one_apply]
    simp
  have h2 : captured (w.zip grads) (headCols r.U hn) = ∑ k : Fin m, if (k : ℕ) < n then r.s.getD k 0 ^ 2 else 0 := by
    rw [captured_eq, ← hC]
    have hcol : ∀ j, ucol (headCols r.U hn) j = ucol r.U (Fin.castLE hn j) := fun j => rfl
    simp only [hcol, heig.2.2.2, dotProduct_smul, smul_eq_mul]
    have hone : ∀ k, ucol r.U k ⬝ᵥ ucol r.U k = 1 := by
      intro k
      have := congrFun (congrFun hU k) k
      rw [Matrix.mul_apply, Matrix.one_apply_eq] at this
      rw [← this]
      rfl
    simp only [hone, mul_one]
    rw [← Finset.sum_filter]
    have : (Finset.univ.filter (fun k : Fin m => (k : ℕ) < n)) = Finset.univ.map (Fin.castLEEmb hn) := by
      ext k
      simp only [Finset.mem_filter, Finset.mem_univ, true_and, Finset.mem_map]
      constructor
      · intro h; exact ⟨⟨k, h⟩, Fin.ext rfl⟩
      · rintro ⟨j, rfl⟩; exact j.2
    rw [this, Finset.sum_map]
    rfl
  exact ⟨h1, h2, fun Q hQ => h2 ▸ hb Q hQ⟩

theorem sum_dot (grads : List (Pt m)) (u : Pt m) : (grads.map (fun g => g ⬝ᵥ u)).sum = grads.sum ⬝ᵥ u := by
  induction grads with
  | nil => simp
  | cons g gs ih => simp [ih, add_dotProduct]

/-- If the gradients sum to zero then `fit` reports the zero matrix for the directions, for every singular value decomposition. -/
theorem asFit_zero (svd : SvdFn m) (grads : List (Pt m)) (weights : Option (List ℝ)) (r : ASState m)
    (h : asFit svd grads weights = .ok r) (h0 : grads.sum = 0) : r.U = 0 := by
  obtain ⟨ps, _, _, _, rfl⟩ := asFit_ok svd grads weights r h
  have hm : ∀ u : Pt m, meanGrad grads u = 0 := by
    intro u
    rw [meanGrad, sum_dot, h0, zero_dotProduct, zero_div]
  have : ∀ k, npSign (meanGrad grads (ucol (asRaw svd ps).U k)) = 0 := fun k => by rw [hm]; simp [npSign]
  simp only [fixGrads, this]
  simp

/-- **C80 is false in general**: for the gradients `(1, 0)` and `(-1, 0)` (as for `f(x) = x₁²/2` sampled at `x₁ = 1` and `x₁ = -1`)
the call succeeds, `C` is not zero, but the reported directions are all zero, whatever the singular value decomposition. -/
theorem asFit_zero_false (svd : SvdFn 2) (hsvd : SvdSpec svd) : ∃ r, asFit svd [![1, 0], ![-1, 0]] none = .ok r ∧ r.U = 0 ∧ r.C = !![1, 0; 0, 0] := by
  obtain ⟨r, hr⟩ : ∃ r, asFit svd [![1, 0], ![-1, 0]] none = .ok r := by
    have := (asFit_ok_iff svd [![1, 0], ![-1, 0]] [1 / 2, 1 / 2]).2 ⟨by simp, by intro a ha; simp at ha; rw [ha]; norm_num, by simp⟩
    obtain ⟨r, h⟩ := this
    refine ⟨r, ?_⟩
    rw [← h]
    unfold asFit
    simp [asWeights]
  refine ⟨r, hr, asFit_zero svd _ _ r hr (by funext i; fin_cases i <;> simp), ?_⟩
  rw [asFit_C_default svd hsvd _ r hr]
  ext i j
  fin_cases i <;> fin_cases j <;> simp [vecMulVec_apply]
  norm_num

/-- The hypotheses are met: a successful fit with no zero direction. -/
example : ∃ (svd : SvdFn 1) (r : ASState 1), SvdSpec svd ∧ asFit svd [![2], ![1]] (some [1, 3]) = .ok r ∧ ∀ k, ucol r.U k ≠ 0 := by
  obtain ⟨svd, hs⟩ := exists_svd 1
  obtain ⟨r, hr⟩ := (asFit_ok_iff svd [![2], ![1]] [1, 3]).2 ⟨by simp, by intro a ha; simp at ha; rcases ha with rfl | rfl <;> norm_num, by simp⟩
  refine ⟨svd, r, hs, hr, fun k hk => ?_⟩
  obtain ⟨ps, _, _, _, rfl⟩ := asFit_ok svd _ _ r hr
  have hU := (hs ps.length (asCols ps)).orthU
  simp only [fixGrads, ucol_mul_diagonal] at hk
  set U := (asRaw svd ps).U with hUdef
  have hU' : Uᵀ * U = 1 := hU
  have h00 := congrFun (congrFun hU' 0) 0
  rw [Matrix.mul_apply] at h00
  simp at h00
  obtain rfl : k = 0 := Subsingleton.elim _ _
  have hu : U 0 0 ≠ 0 := by intro e; rw [e] at h00; norm_num at h00
  have hk0 := congrFun hk 0
  simp only [Pi.smul_apply, ucol, smul_eq_mul, Pi.zero_apply, mul_eq_zero, hu, or_false] at hk0
  have hm : meanGrad [![2], ![1]] (ucol U 0) = 3 / 2 * U 0 0 := by simp [meanGrad, dotProduct, ucol]; ring
  have := npSign_sq (x := meanGrad [![2], ![1]] (ucol U 0)) (by rw [hm]; exact mul_ne_zero (by norm_num) hu)
  rw [hk0] at this
  norm_num at this

end Verif.Misc
