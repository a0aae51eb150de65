import Verif.Misc.ActiveSym
import Verif.Func.VarproDeriv
import Verif.Func.VarproRun
import Verif.Func.RidgeProps
import Mathlib.LinearAlgebra.Matrix.Rank

/-!
# C134: active subspaces of ridge functions

If the gradients lie in a subspace, the reported directions lie in it too, and there are no more nonzero singular values than its dimension; and the
gradients are combinations of the reported directions.
-/

namespace Verif.Misc

open Verif Verif.Lip Matrix

variable {m k : ℕ}

theorem outerSum_mulVec_eq (ps : List (ℝ × Pt m)) (x : Pt m) : outerSum ps *ᵥ x = (ps.map fun p => (p.1 * (p.2 ⬝ᵥ x)) • p.2).sum := by
  unfold outerSum
  induction ps with
  | nil => simp
  | cons p ps ih =>
    simp only [List.map_cons, List.sum_cons, Matrix.add_mulVec] at ih ⊢
    rw [ih, Matrix.smul_mulVec, Matrix.vecMulVec_mulVec]
    congr 1
    funext i
    simp [mul_assoc, mul_comm (p.2 ⬝ᵥ x)]

theorem outerSum_range (ps : List (ℝ × Pt m)) (A : Matrix (Fin m) (Fin k) ℝ) (h : ∀ p ∈ ps, p.1 ≠ 0 → ∃ v, p.2 = A *ᵥ v) (x : Pt m) :
    ∃ v, outerSum ps *ᵥ x = A *ᵥ v := by
  rw [outerSum_mulVec_eq]
  induction ps with
  | nil => exact ⟨0, by simp⟩
  | cons p ps ih =>
    obtain ⟨v, hv⟩ := ih fun q hq => h q (List.mem_cons_of_mem _ hq)
    rw [List.map_cons, List.sum_cons, hv]
    by_cases h0 : p.1 = 0
    · exact ⟨v, by rw [h0]; simp⟩
    · obtain ⟨u, hu⟩ := h p List.mem_cons_self h0
      refine ⟨(p.1 * (p.2 ⬝ᵥ x)) • u + v, ?_⟩
      rw [Matrix.mulVec_add, Matrix.mulVec_smul, ← hu]

theorem raw_range (svd : SvdFn m) (hsvd : SvdSpec svd) (ps : List (ℝ × Pt m)) (hp : ∀ p ∈ ps, 0 ≤ p.1) (A : Matrix (Fin m) (Fin k) ℝ)
    (h : ∀ p ∈ ps, p.1 ≠ 0 → ∃ v, p.2 = A *ᵥ v) (j : Fin m) (hj : (asRaw svd ps).s.getD j 0 ≠ 0) : ∃ v, ucol (asRaw svd ps).U j = A *ᵥ v := by
  obtain ⟨v, hv⟩ := outerSum_range ps A h (ucol (asRaw svd ps).U j)
  rw [← asRaw_C svd hsvd ps hp, asRaw_col svd hsvd ps j] at hv
  refine ⟨((asRaw svd ps).s.getD j 0 ^ 2)⁻¹ • v, ?_⟩
  rw [Matrix.mulVec_smul, ← hv, smul_smul, inv_mul_cancel₀ (pow_ne_zero 2 hj), one_smul]

/-- The pairs of weight and gradient that a successful call uses. -/
theorem asFit_pairs {svd : SvdFn m} {grads : List (Pt m)} {w : List ℝ} {r : ASState m} (hw : w.length = grads.length) (h : asFit svd grads (some w) = .ok r) :
    (∀ p ∈ w.zip grads, 0 ≤ p.1) ∧ r = { asRaw svd (w.zip grads) with U := fixGrads (asRaw svd (w.zip grads)).U grads } := by
  obtain ⟨ps, _, e1, h3, e⟩ := asFit_ok svd grads (some w) r h
  change asPairs grads w = some ps at e1
  rw [asPairs, if_pos hw, Option.some.injEq] at e1
  subst e1
  exact ⟨h3, e⟩

/-- **C134**: if every gradient that has a positive weight lies in the range of `A`, so does every reported direction with a nonzero singular value. -/
theorem asFit_range (svd : SvdFn m) (hsvd : SvdSpec svd) (grads : List (Pt m)) (w : List ℝ) (hw : w.length = grads.length) (r : ASState m)
    (h : asFit svd grads (some w) = .ok r) (A : Matrix (Fin m) (Fin k) ℝ) (hA : ∀ p ∈ w.zip grads, 0 < p.1 → ∃ v, p.2 = A *ᵥ v) (j : Fin m)
    (hj : r.s.getD j 0 ≠ 0) : ∃ v, ucol r.U j = A *ᵥ v := by
  obtain ⟨h3, rfl⟩ := asFit_pairs hw h
  obtain ⟨v, hv⟩ := raw_range svd hsvd _ h3 A (fun p hp h0 => hA p hp (lt_of_le_of_ne (h3 p hp) (Ne.symm h0))) j hj
  exact ⟨npSign (meanGrad grads (ucol (asRaw svd (w.zip grads)).U j)) • v, by
    change ucol (fixGrads _ grads) j = _
    rw [fixGrads, ucol_mul_diagonal, Matrix.mulVec_smul, hv]⟩

/-- **C134**: then there are at most as many nonzero singular values as `A` has columns. -/
theorem asFit_rank (svd : SvdFn m) (hsvd : SvdSpec svd) (grads : List (Pt m)) (w : List ℝ) (hw : w.length = grads.length) (r : ASState m)
    (h : asFit svd grads (some w) = .ok r) (A : Matrix (Fin m) (Fin k) ℝ) (hA : ∀ p ∈ w.zip grads, 0 < p.1 → ∃ v, p.2 = A *ᵥ v) (j : Fin m)
    (hj : k ≤ j) : r.s.getD j 0 = 0 := by
  obtain ⟨h3, rfl⟩ := asFit_pairs hw h
  change (asRaw svd (w.zip grads)).s.getD j 0 = 0
  by_contra hne
  obtain ⟨hl, hn, ha⟩ := asRaw_s svd hsvd (w.zip grads)
  have hpos : ∀ i : Fin m, i ≤ j → (asRaw svd (w.zip grads)).s.getD i 0 ≠ 0 := by
    intro i hi h0
    have h1 : (asRaw svd (w.zip grads)).s.getD j 0 ≤ (asRaw svd (w.zip grads)).s.getD i 0 := ha hi
    have h2 : 0 ≤ (asRaw svd (w.zip grads)).s.getD j 0 := by
      rw [List.getD_eq_getElem _ _ (by rw [hl]; exact j.2)]; exact hn _ (List.getElem_mem _)
    exact hne (le_antisymm (h1.trans h0.le) h2)
  have hU : (asRaw svd (w.zip grads)).Uᵀ * (asRaw svd (w.zip grads)).U = 1 := (hsvd _ (asCols (w.zip grads))).orthU
  have hc : ∀ i : Fin m, i ≤ j → ∃ v, ucol (asRaw svd (w.zip grads)).U i = A *ᵥ v := fun i hi =>
    raw_range svd hsvd _ h3 A (fun p hp h0 => hA p hp (lt_of_le_of_ne (h3 p hp) (Ne.symm h0))) i (hpos i hi)
  choose V hV using hc
  have hle : (j : ℕ) + 1 ≤ m := j.2
  let B : Matrix (Fin k) (Fin (j + 1)) ℝ := Matrix.of fun a i => V (Fin.castLE hle i) (by rw [Fin.le_def]; simp; omega) a
  have hB : headCols (asRaw svd (w.zip grads)).U hle = A * B := by
    ext a i
    have := congrFun (hV (Fin.castLE hle i) (by rw [Fin.le_def]; simp; omega)) a
    exact this
  have hH : (headCols (asRaw svd (w.zip grads)).U hle)ᵀ * headCols (asRaw svd (w.zip grads)).U hle = 1 := by
    ext a b
    have := ucol_dot _ hU (Fin.castLE hle a) (Fin.castLE hle b)
    rw [Matrix.mul_apply, Matrix.one_apply]
    refine Eq.trans this ?_
    simp
  have hr : (1 : Matrix (Fin (j + 1)) (Fin (j + 1)) ℝ).rank ≤ k := by
    rw [← hH]
    refine (Matrix.rank_mul_le_right _ _).trans ?_
    rw [hB]
    refine (Matrix.rank_mul_le_left _ _).trans ?_
    simpa using A.rank_le_width
  rw [Matrix.rank_one, Fintype.card_fin] at hr
  omega

/-- **C134**: conversely every gradient with a positive weight is the combination of the reported directions with nonzero singular values, unless one of these
was replaced by zero by the choice of the signs. -/
theorem asFit_span_partial (svd : SvdFn m) (hsvd : SvdSpec svd) (grads : List (Pt m)) (w : List ℝ) (hw : w.length = grads.length) (r : ASState m)
    (h : asFit svd grads (some w) = .ok r) (hz : ∀ j : Fin m, r.s.getD j 0 ≠ 0 → ucol r.U j ≠ 0) (p : ℝ × Pt m) (hp : p ∈ w.zip grads) (h0 : 0 < p.1) :
    p.2 = ∑ j : Fin m, if r.s.getD j 0 ≠ 0 then (ucol r.U j ⬝ᵥ p.2) • ucol r.U j else 0 := by
  have hnull := asFit_null svd hsvd grads w hw r h
  obtain ⟨h3, rfl⟩ := asFit_pairs hw h
  have hU : (asRaw svd (w.zip grads)).Uᵀ * (asRaw svd (w.zip grads)).U = 1 := (hsvd _ (asCols (w.zip grads))).orthU
  have hU' : (asRaw svd (w.zip grads)).U * (asRaw svd (w.zip grads)).Uᵀ = 1 := mul_eq_one_comm.1 hU
  have e : p.2 = ∑ j : Fin m, (ucol (asRaw svd (w.zip grads)).U j ⬝ᵥ p.2) • ucol (asRaw svd (w.zip grads)).U j := by
    conv_lhs => rw [← Matrix.one_mulVec p.2, ← hU', ← Matrix.mulVec_mulVec]
    funext i
    rw [Finset.sum_apply, Matrix.mulVec, dotProduct]
    refine Finset.sum_congr rfl fun j _ => ?_
    rw [mul_comm]
    rfl
  refine e.trans (Finset.sum_congr rfl fun j _ => ?_)
  change _ = if (asRaw svd (w.zip grads)).s.getD j 0 ≠ 0 then (ucol (fixGrads (asRaw svd (w.zip grads)).U grads) j ⬝ᵥ p.2) •
    ucol (fixGrads (asRaw svd (w.zip grads)).U grads) j else 0
  by_cases hj : (asRaw svd (w.zip grads)).s.getD j 0 = 0
  · rw [if_neg (not_not.2 hj)]
    have h1 := (hnull (ucol (asRaw svd (w.zip grads)).U j)).1 (by
      change (asRaw svd (w.zip grads)).C *ᵥ _ = 0
      rw [asRaw_col svd hsvd, hj]
      simp) p hp h0
    rw [dotProduct_comm, h1, zero_smul]
  · rw [if_pos hj]
    have h1 := hz j hj
    change ucol (fixGrads (asRaw svd (w.zip grads)).U grads) j ≠ 0 at h1
    rw [fixGrads, ucol_mul_diagonal] at h1 ⊢
    have h2 : meanGrad grads (ucol (asRaw svd (w.zip grads)).U j) ≠ 0 := by
      intro h2
      rw [h2, sign_of_zero, zero_smul] at h1
      exact h1 rfl
    rw [smul_dotProduct, smul_eq_mul, smul_smul, mul_right_comm, npSign_sq h2, one_mul]

/-- A vector orthogonal to everything that `A` is orthogonal to lies in the range of `A`. -/
theorem range_of_orth (A : Matrix (Fin m) (Fin k) ℝ) (g : Pt m) (h : ∀ d, Aᵀ *ᵥ d = 0 → g ⬝ᵥ d = 0) : ∃ v, g = A *ᵥ v := by
  obtain ⟨v, hv⟩ := Func.exists_lsq A g
  have h1 := Func.IsLsq.normal hv
  have h2 := h _ h1
  refine ⟨v, ?_⟩
  have h3 : (g - A *ᵥ v) ⬝ᵥ (g - A *ᵥ v) = 0 := by
    rw [sub_dotProduct, h2, zero_sub, neg_eq_zero, dotProduct_comm, Matrix.dotProduct_mulVec, ← Matrix.mulVec_transpose, h1, zero_dotProduct]
  exact sub_eq_zero.1 (dotProduct_self_eq_zero.1 h3)

/-- **C134**: a function of `Aᵀ x` has its gradients in the range of `A`, whatever the profile (it need not be differentiable). -/
theorem ridge_gradient (A : Matrix (Fin m) (Fin k) ℝ) (p : Pt k → ℝ) (x g : Pt m) (h : Func.IsGrad (fun y => p (Aᵀ *ᵥ y)) x g) : ∃ v, g = A *ᵥ v := by
  refine range_of_orth A g fun d hd => ?_
  have h1 : HasDerivAt (fun t : ℝ => x + t • d) d 0 := by
    simpa using ((hasDerivAt_id (0 : ℝ)).smul_const d).const_add x
  have h2 : HasDerivAt (fun t : ℝ => p (Aᵀ *ᵥ (x + t • d))) (g ⬝ᵥ d) 0 := by
    have h' : HasFDerivAt (fun y => p (Aᵀ *ᵥ y)) (Func.dotL g) (x + (0 : ℝ) • d) := by simpa [Func.IsGrad] using h
    exact h'.comp_hasDerivAt (0 : ℝ) h1
  have h3 : (fun t : ℝ => p (Aᵀ *ᵥ (x + t • d))) = fun _ => p (Aᵀ *ᵥ x) := by
    funext t
    rw [Matrix.mulVec_add, Matrix.mulVec_smul, hd, smul_zero, add_zero]
  rw [h3] at h2
  exact h2.unique (hasDerivAt_const 0 _)

/-- **C134**: for every function of `Aᵀ x` with `A` of `k` columns, every quadrature rule and every number of samples: `fit_function` reports at most `k` nonzero
singular values, and the directions that go with them lie in the range of `A`. -/
theorem asFitFunction_rank (svd : SvdFn m) (hsvd : SvdSpec svd) (rule : ℕ → Except Domain.Err (List (Pt m) × List ℝ)) (N : ℕ) (X : List (Pt m)) (w : List ℝ)
    (hrule : rule N = .ok (X, w)) (hlen : w.length = X.length) (A : Matrix (Fin m) (Fin k) ℝ) (p : Pt k → ℝ) (g : Pt m → Pt m)
    (hg : ∀ x ∈ X, Func.IsGrad (fun y => p (Aᵀ *ᵥ y)) x (g x)) (r : ASState m) (h : asFitFunction svd rule (fun X => .ok (X.map g)) N = .ok r) (j : Fin m) :
    (k ≤ j → r.s.getD j 0 = 0) ∧ (r.s.getD j 0 ≠ 0 → ∃ v, ucol r.U j = A *ᵥ v) := by
  rw [asFitFunction, hrule] at h
  have hw : w.length = (X.map g).length := by rw [List.length_map, hlen]
  have hA : ∀ q ∈ w.zip (X.map g), 0 < q.1 → ∃ v, q.2 = A *ᵥ v := by
    intro q hq _
    obtain ⟨x, hx, e⟩ := List.mem_map.1 (List.of_mem_zip hq).2
    rw [← e]
    exact ridge_gradient A p x _ (hg x hx)
  exact ⟨asFit_rank svd hsvd _ w hw r h A hA j, asFit_range svd hsvd _ w hw r h A hA j⟩

end Verif.Misc
