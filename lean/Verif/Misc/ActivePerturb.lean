import Verif.Misc.ActiveRidge
import Verif.Misc.OpgProps
import Verif.Misc.LocalRate
import Mathlib.Analysis.Matrix.Normed

/-!
# C165: active subspaces tolerate errors in the gradients

Two calls of `ActiveSubspace.fit` with the same weights and different gradients (say, exact ones and estimated ones).  The
size of the error is the weighted root mean square of the differences of the gradients.  Everything is about the model of
`/repo/psdr/subspace.py` 313-337 (`asFit`, ActiveModel) and of `/repo/psdr/opg.py` 85-134 (`opgFit`, OpgModel).
-/

namespace Verif.Misc

open Verif Verif.Domain Verif.Lip Matrix

variable {m n : ℕ}

/-- The weighted sum of the squared lengths of the differences of two lists of gradients. -/
def gradErr (w : List ℝ) (gs gs' : List (Pt m)) : ℝ :=
  ((w.zip (gs.zip gs')).map fun p => p.1 * ((p.2.1 - p.2.2) ⬝ᵥ (p.2.1 - p.2.2))).sum

/-- The weighted sum of the squared lengths of gradients. -/
def gradSize (w : List ℝ) (gs : List (Pt m)) : ℝ := ((w.zip gs).map fun p => p.1 * (p.2 ⬝ᵥ p.2)).sum

/-- The triangle inequality for weighted lists of vectors. -/
theorem wnorm_triangle {α : Type} (t : List α) (w : α → ℝ) (hw : ∀ p ∈ t, 0 ≤ w p) (a b : α → Pt n) :
    Real.sqrt ((t.map fun p => w p * (a p ⬝ᵥ a p)).sum) ≤ Real.sqrt ((t.map fun p => w p * (b p ⬝ᵥ b p)).sum) +
      Real.sqrt ((t.map fun p => w p * ((a p - b p) ⬝ᵥ (a p - b p))).sum) := by
  let E : (α → Pt n) → EuclideanSpace ℝ (Fin t.length × Fin n) := fun c => WithLp.toLp 2 fun q => Real.sqrt (w t[q.1]) * c t[q.1] q.2
  have hE : ∀ c, ‖E c‖ = Real.sqrt ((t.map fun p => w p * (c p ⬝ᵥ c p)).sum) := by
    intro c
    rw [EuclideanSpace.norm_eq]
    congr 1
    rw [← Fin.sum_univ_fun_getElem, Fintype.sum_prod_type]
    refine Finset.sum_congr rfl fun i _ => ?_
    rw [dotProduct, Finset.mul_sum]
    refine Finset.sum_congr rfl fun j _ => ?_
    show ‖Real.sqrt (w t[(i : ℕ)]) * c t[(i : ℕ)] j‖ ^ 2 = _
    rw [Real.norm_eq_abs, sq_abs, mul_pow, Real.sq_sqrt (hw _ (List.getElem_mem _))]
    ring
  have hs : E a - E b = E (fun p => a p - b p) := by
    ext q
    show Real.sqrt (w t[q.1]) * a t[q.1] q.2 - Real.sqrt (w t[q.1]) * b t[q.1] q.2 = Real.sqrt (w t[q.1]) * (a t[q.1] q.2 - b t[q.1] q.2)
    ring
  rw [← hE, ← hE, ← hE (fun p => a p - b p), ← hs]
  have := norm_add_le (E b) (E a - E b)
  rwa [add_sub_cancel] at this

/-- Orthonormal columns shorten vectors. -/
theorem bessel (Q : Matrix (Fin m) (Fin n) ℝ) (hQ : Qᵀ * Q = 1) (v : Pt m) : (Qᵀ *ᵥ v) ⬝ᵥ (Qᵀ *ᵥ v) ≤ v ⬝ᵥ v := by
  set c := Qᵀ *ᵥ v with hc
  have h1 : (Q *ᵥ c) ⬝ᵥ (Q *ᵥ c) = c ⬝ᵥ c := by
    rw [Matrix.dotProduct_mulVec, ← Matrix.mulVec_transpose, Matrix.mulVec_mulVec, hQ, Matrix.one_mulVec]
  have h2 : v ⬝ᵥ (Q *ᵥ c) = c ⬝ᵥ c := by
    rw [Matrix.dotProduct_mulVec, ← Matrix.mulVec_transpose]
  have h3 : 0 ≤ (v - Q *ᵥ c) ⬝ᵥ (v - Q *ᵥ c) := by
    rw [dotProduct]; exact Finset.sum_nonneg fun i _ => mul_self_nonneg _
  rw [sub_dotProduct, dotProduct_sub, dotProduct_sub, h1, h2, dotProduct_comm (Q *ᵥ c) v, h2] at h3
  linarith

theorem zip_left {w : List ℝ} {gs gs' : List (Pt m)} (h : w.length = gs.length) (h' : w.length = gs'.length) :
    w.zip gs = (w.zip (gs.zip gs')).map fun p => (p.1, p.2.1) := by
  induction w generalizing gs gs' with
  | nil => simp
  | cons a w ih =>
    cases gs with
    | nil => simp at h
    | cons g gs => cases gs' with
      | nil => simp at h'
      | cons g' gs' =>
        simp only [List.zip_cons_cons, List.map_cons]
        rw [ih (by simpa using h) (by simpa using h')]

theorem zip_right {w : List ℝ} {gs gs' : List (Pt m)} (h : w.length = gs.length) (h' : w.length = gs'.length) :
    w.zip gs' = (w.zip (gs.zip gs')).map fun p => (p.1, p.2.2) := by
  induction w generalizing gs gs' with
  | nil => simp
  | cons a w ih =>
    cases gs with
    | nil => simp at h
    | cons g gs => cases gs' with
      | nil => simp at h'
      | cons g' gs' =>
        simp only [List.zip_cons_cons, List.map_cons]
        rw [ih (by simpa using h) (by simpa using h')]

theorem zip_weight {w : List ℝ} (hw : ∀ a ∈ w, 0 ≤ a) (gs gs' : List (Pt m)) : ∀ p ∈ w.zip (gs.zip gs'), 0 ≤ p.1 :=
  fun _ hp => hw _ (List.of_mem_zip hp).1

theorem gradErr_comm (w : List ℝ) (gs gs' : List (Pt m)) : gradErr w gs gs' = gradErr w gs' gs := by
  unfold gradErr
  induction w generalizing gs gs' with
  | nil => simp
  | cons a w ih =>
    cases gs with
    | nil => simp
    | cons g gs => cases gs' with
      | nil => simp
      | cons g' gs' =>
        simp only [List.zip_cons_cons, List.map_cons, List.sum_cons]
        rw [ih, ← neg_sub g g', neg_dotProduct, dotProduct_neg, neg_neg]

/-- What a subspace captures changes by no more than the error of the gradients. -/
theorem captured_perturb {w : List ℝ} (hw : ∀ a ∈ w, 0 ≤ a) {gs gs' : List (Pt m)} (h : w.length = gs.length) (h' : w.length = gs'.length)
    (Q : Matrix (Fin m) (Fin n) ℝ) (hQ : Qᵀ * Q = 1) :
    Real.sqrt (captured (w.zip gs) Q) ≤ Real.sqrt (captured (w.zip gs') Q) + Real.sqrt (gradErr w gs gs') := by
  have ht := wnorm_triangle (w.zip (gs.zip gs')) (fun p => p.1) (zip_weight hw gs gs') (fun p => Qᵀ *ᵥ p.2.1) (fun p => Qᵀ *ᵥ p.2.2)
  have e1 : captured (w.zip gs) Q = ((w.zip (gs.zip gs')).map fun p => p.1 * ((Qᵀ *ᵥ p.2.1) ⬝ᵥ (Qᵀ *ᵥ p.2.1))).sum := by
    rw [captured, zip_left h h', List.map_map]; rfl
  have e2 : captured (w.zip gs') Q = ((w.zip (gs.zip gs')).map fun p => p.1 * ((Qᵀ *ᵥ p.2.2) ⬝ᵥ (Qᵀ *ᵥ p.2.2))).sum := by
    rw [captured, zip_right h h', List.map_map]; rfl
  rw [e1, e2]
  refine ht.trans (add_le_add le_rfl (Real.sqrt_le_sqrt ?_))
  refine List.sum_le_sum fun p hp => ?_
  rw [← Matrix.mulVec_sub]
  exact mul_le_mul_of_nonneg_left (bessel Q hQ _) (zip_weight hw gs gs' p hp)

/-- **C165**: the leading directions found from inexact gradients capture nearly as much of the exact gradients as any directions: the
loss is at most twice the error of the gradients. -/
theorem asFit_near (svd : SvdFn m) (hsvd : SvdSpec svd) (w : List ℝ) (gs gs' : List (Pt m)) (h : w.length = gs.length) (h' : w.length = gs'.length)
    (r' : ASState m) (hr' : asFit svd gs' (some w) = .ok r') (hz : ∀ k, ucol r'.U k ≠ 0) (hn : n ≤ m) (Q : Matrix (Fin m) (Fin n) ℝ) (hQ : Qᵀ * Q = 1) :
    (headCols r'.U hn)ᵀ * headCols r'.U hn = 1 ∧
      Real.sqrt (captured (w.zip gs) Q) - 2 * Real.sqrt (gradErr w gs gs') ≤ Real.sqrt (captured (w.zip gs) (headCols r'.U hn)) := by
  have hw : ∀ a ∈ w, 0 ≤ a := ((asFit_ok_iff svd gs' w).1 ⟨r', hr'⟩).2.1
  obtain ⟨ho, -, hbest⟩ := asFit_optimal_partial svd hsvd gs' w h' r' hr' hz hn
  have h1 := captured_perturb hw h h' Q hQ
  have h2 := Real.sqrt_le_sqrt (hbest Q hQ)
  have h3 := captured_perturb hw h' h _ ho
  rw [gradErr_comm] at h3
  exact ⟨ho, by linarith⟩

/-- The quadratic form of a diagonalized matrix. -/
theorem quad_diag (U : Matrix (Fin m) (Fin m) ℝ) (a : Fin m → ℝ) (v : Pt m) :
    v ⬝ᵥ ((U * Matrix.diagonal a * Uᵀ) *ᵥ v) = ∑ k, a k * (Uᵀ *ᵥ v) k ^ 2 := by
  rw [← Matrix.mulVec_mulVec, ← Matrix.mulVec_mulVec, Matrix.dotProduct_mulVec, ← Matrix.mulVec_transpose]
  simp only [dotProduct, Matrix.mulVec_diagonal]
  exact Finset.sum_congr rfl fun k _ => by ring

/-- A unit vector spanned by the first `k + 1` columns of one orthogonal matrix and orthogonal to the first `k` columns of another. -/
theorem exists_between (U U' : Matrix (Fin m) (Fin m) ℝ) (hU' : U'ᵀ * U' = 1) (k : Fin m) :
    ∃ v : Pt m, v ⬝ᵥ v = 1 ∧ (∀ i, i < k → (Uᵀ *ᵥ v) i = 0) ∧ ∀ i, k < i → (U'ᵀ *ᵥ v) i = 0 := by
  let M : Matrix (Fin m) (Fin m) ℝ := Matrix.of fun i j => if i < k then (Uᵀ * U') i j else if i = k then 0 else (1 : Matrix (Fin m) (Fin m) ℝ) i j
  have hdet : M.det = 0 := Matrix.det_eq_zero_of_row_eq_zero k fun j => by simp [M]
  obtain ⟨e, he, hM⟩ := Matrix.exists_mulVec_eq_zero_iff.2 hdet
  have hpos : 0 < e ⬝ᵥ e := by
    rcases (show 0 ≤ e ⬝ᵥ e by rw [dotProduct]; exact Finset.sum_nonneg fun i _ => mul_self_nonneg _).eq_or_lt with h | h
    · exact absurd (dotProduct_self_eq_zero.1 h.symm) he
    · exact h
  have h1 : ∀ i, i < k → (Uᵀ *ᵥ (U' *ᵥ e)) i = 0 := by
    intro i hi
    have := congrFun hM i
    rw [Matrix.mulVec_mulVec]
    simp only [Matrix.mulVec, M, Matrix.of_apply, if_pos hi, Pi.zero_apply] at this ⊢
    exact this
  have h2 : ∀ i, k < i → e i = 0 := by
    intro i hi
    have := congrFun hM i
    have e2 : (M *ᵥ e) i = ((1 : Matrix (Fin m) (Fin m) ℝ) *ᵥ e) i := by
      simp only [Matrix.mulVec, M, Matrix.of_apply, if_neg (not_lt.2 hi.le), if_neg hi.ne']
    rwa [e2, Matrix.one_mulVec] at this
  have h3 : U'ᵀ *ᵥ (U' *ᵥ e) = e := by rw [Matrix.mulVec_mulVec, hU', Matrix.one_mulVec]
  refine ⟨(1 / Real.sqrt (e ⬝ᵥ e)) • (U' *ᵥ e), ?_, fun i hi => ?_, fun i hi => ?_⟩
  · rw [smul_dotProduct, dotProduct_smul, Matrix.dotProduct_mulVec (U' *ᵥ e), ← Matrix.mulVec_transpose, h3, smul_eq_mul, smul_eq_mul]
    have := Real.mul_self_sqrt hpos.le
    have h0 := (Real.sqrt_pos.2 hpos).ne'
    field_simp
    rw [sq, this]
  · rw [Matrix.mulVec_smul, Pi.smul_apply, h1 i hi, smul_zero]
  · rw [Matrix.mulVec_smul, h3, Pi.smul_apply, h2 i hi, smul_zero]

theorem orth_length (U : Matrix (Fin m) (Fin m) ℝ) (hU : Uᵀ * U = 1) (v : Pt m) : ∑ k, (Uᵀ *ᵥ v) k ^ 2 = v ⬝ᵥ v := by
  have hU' : U * Uᵀ = 1 := mul_eq_one_comm.1 hU
  have : (Uᵀ *ᵥ v) ⬝ᵥ (Uᵀ *ᵥ v) = v ⬝ᵥ v := by
    rw [Matrix.dotProduct_mulVec, ← Matrix.mulVec_transpose, Matrix.transpose_transpose, Matrix.mulVec_mulVec, hU', Matrix.one_mulVec]
  rw [← this, dotProduct]
  exact Finset.sum_congr rfl fun k _ => sq _

/-- What a call leaves: the matrix of the gradients diagonalized by an orthogonal matrix whose columns are reported up to factors of size at most one. -/
theorem asFit_diag (svd : SvdFn m) (hsvd : SvdSpec svd) (gs : List (Pt m)) (w : List ℝ) (hw : w.length = gs.length) (r : ASState m)
    (h : asFit svd gs (some w) = .ok r) : ∃ U : Matrix (Fin m) (Fin m) ℝ, Uᵀ * U = 1 ∧
      outerSum (w.zip gs) = U * Matrix.diagonal (fun i : Fin m => r.s.getD i 0 ^ 2) * Uᵀ ∧ ∀ k, ∃ c : ℝ, |c| ≤ 1 ∧ ucol r.U k = c • ucol U k := by
  have hC : r.C = outerSum (w.zip gs) := asFit_C svd hsvd gs w hw r h
  obtain ⟨ps, _, _, _, rfl⟩ := asFit_ok svd gs (some w) r h
  refine ⟨(asRaw svd ps).U, (hsvd ps.length (asCols ps)).orthU, hC.symm, fun k => ?_⟩
  simp only [fixGrads]
  rw [ucol_mul_diagonal]
  refine ⟨_, ?_, rfl⟩
  unfold npSign
  split_ifs <;> simp

theorem asFit_values_le (svd : SvdFn m) (hsvd : SvdSpec svd) (w : List ℝ) (gs gs' : List (Pt m)) (h : w.length = gs.length) (h' : w.length = gs'.length)
    (r r' : ASState m) (hr : asFit svd gs (some w) = .ok r) (hr' : asFit svd gs' (some w) = .ok r') (k : Fin m) :
    r'.s.getD k 0 ≤ r.s.getD k 0 + Real.sqrt (gradErr w gs gs') := by
  have hw : ∀ a ∈ w, 0 ≤ a := ((asFit_ok_iff svd gs' w).1 ⟨r', hr'⟩).2.1
  obtain ⟨U, hU, hC, -⟩ := asFit_diag svd hsvd gs w h r hr
  obtain ⟨U', hU', hC', -⟩ := asFit_diag svd hsvd gs' w h' r' hr'
  obtain ⟨hl, hnn, hanti, -⟩ := asFit_eigen svd hsvd gs (some w) r hr
  obtain ⟨hl', hnn', hanti', -⟩ := asFit_eigen svd hsvd gs' (some w) r' hr'
  have hpos : ∀ j : Fin m, 0 ≤ r.s.getD j 0 := fun j => by
    rw [List.getD_eq_getElem _ _ (by rw [hl]; exact j.2)]; exact hnn _ (List.getElem_mem _)
  have hpos' : ∀ j : Fin m, 0 ≤ r'.s.getD j 0 := fun j => by
    rw [List.getD_eq_getElem _ _ (by rw [hl']; exact j.2)]; exact hnn' _ (List.getElem_mem _)
  obtain ⟨v, hv, h1, h2⟩ := exists_between U U' hU' k
  let Q : Matrix (Fin m) (Fin 1) ℝ := Matrix.of fun i _ => v i
  have hQc : ∀ j, ucol Q j = v := fun j => rfl
  have hQ : Qᵀ * Q = 1 := by
    ext i j
    rw [Matrix.mul_apply, Subsingleton.elim j i, Matrix.one_apply_eq, ← hv]
    rfl
  have hc : captured (w.zip gs) Q = v ⬝ᵥ (outerSum (w.zip gs) *ᵥ v) := by rw [captured_eq]; simp [hQc]
  have hc' : captured (w.zip gs') Q = v ⬝ᵥ (outerSum (w.zip gs') *ᵥ v) := by rw [captured_eq]; simp [hQc]
  have lo : r'.s.getD k 0 ^ 2 ≤ captured (w.zip gs') Q := by
    rw [hc', hC', quad_diag]
    calc r'.s.getD k 0 ^ 2 = ∑ i, r'.s.getD k 0 ^ 2 * (U'ᵀ *ᵥ v) i ^ 2 := by rw [← Finset.mul_sum, orth_length U' hU', hv, mul_one]
      _ ≤ _ := Finset.sum_le_sum fun i _ => by
        rcases lt_or_ge k i with hi | hi
        · rw [h2 i hi]; simp
        · exact mul_le_mul_of_nonneg_right (pow_le_pow_left₀ (hpos' k) (hanti' hi) 2) (sq_nonneg _)
  have hi : captured (w.zip gs) Q ≤ r.s.getD k 0 ^ 2 := by
    rw [hc, hC, quad_diag]
    calc _ ≤ ∑ i, r.s.getD k 0 ^ 2 * (Uᵀ *ᵥ v) i ^ 2 := Finset.sum_le_sum fun i _ => by
          rcases lt_or_ge i k with hi | hi
          · rw [h1 i hi]; simp
          · exact mul_le_mul_of_nonneg_right (pow_le_pow_left₀ (hpos i) (hanti hi) 2) (sq_nonneg _)
      _ = _ := by rw [← Finset.mul_sum, orth_length U hU, hv, mul_one]
  have h3 := captured_perturb hw h' h Q hQ
  rw [gradErr_comm] at h3
  have h4 : r'.s.getD k 0 ≤ Real.sqrt (captured (w.zip gs') Q) := Real.le_sqrt_of_sq_le lo
  have h5 : Real.sqrt (captured (w.zip gs) Q) ≤ r.s.getD k 0 := Real.sqrt_le_iff.2 ⟨hpos k, hi⟩
  linarith

/-- **C165**: the singular values reported for inexact gradients differ from those of the exact gradients by no more than the error of the gradients. -/
theorem asFit_values (svd : SvdFn m) (hsvd : SvdSpec svd) (w : List ℝ) (gs gs' : List (Pt m)) (h : w.length = gs.length) (h' : w.length = gs'.length)
    (r r' : ASState m) (hr : asFit svd gs (some w) = .ok r) (hr' : asFit svd gs' (some w) = .ok r') (k : Fin m) :
    |r.s.getD k 0 - r'.s.getD k 0| ≤ Real.sqrt (gradErr w gs gs') := by
  have h1 := asFit_values_le svd hsvd w gs gs' h h' r r' hr hr' k
  have h2 := asFit_values_le svd hsvd w gs' gs h' h r' r hr' hr k
  rw [gradErr_comm] at h2
  exact abs_le.2 ⟨by linarith, by linarith⟩

/-- How far the span of the first `n` columns of `U'` is tilted out of the span of the first `n` columns of `U`: the sum of the squares of the components
of the former along the remaining columns of `U` (for orthonormal columns, the sum of the squared sines of the angles between the two subspaces). -/
def tilt (n : ℕ) (U U' : Matrix (Fin m) (Fin m) ℝ) : ℝ :=
  ∑ k : Fin m, ∑ j : Fin m, if n ≤ (k : ℕ) ∧ (j : ℕ) < n then (ucol U k ⬝ᵥ ucol U' j) ^ 2 else 0

open scoped Matrix.Norms.Frobenius in
theorem fro_sq {a b : ℕ} (A : Matrix (Fin a) (Fin b) ℝ) : ‖A‖ ^ 2 = ∑ i, ∑ j, A i j ^ 2 := by
  rw [Matrix.frobenius_norm_def, ← Real.sqrt_eq_rpow, Real.sq_sqrt (by positivity)]
  simp

theorem sum_sq_trace {a b : ℕ} (A : Matrix (Fin a) (Fin b) ℝ) : ∑ i, ∑ j, A i j ^ 2 = Matrix.trace (A * Aᵀ) := by
  simp only [Matrix.trace, Matrix.diag_apply, Matrix.mul_apply, Matrix.transpose_apply, sq]

/-- Rotations do not change the sum of the squares of the entries. -/
theorem sum_sq_orth (U U' E : Matrix (Fin m) (Fin m) ℝ) (hU : Uᵀ * U = 1) (hU' : U'ᵀ * U' = 1) :
    ∑ i, ∑ j, (Uᵀ * E * U') i j ^ 2 = ∑ i, ∑ j, E i j ^ 2 := by
  have h1 : U * Uᵀ = 1 := mul_eq_one_comm.1 hU
  have h2 : U' * U'ᵀ = 1 := mul_eq_one_comm.1 hU'
  rw [sum_sq_trace, sum_sq_trace]
  have : Uᵀ * E * U' * (Uᵀ * E * U')ᵀ = Uᵀ * (E * Eᵀ * U) := by
    simp only [Matrix.transpose_mul, Matrix.transpose_transpose]
    calc Uᵀ * E * U' * (U'ᵀ * (Eᵀ * U)) = Uᵀ * E * (U' * U'ᵀ) * (Eᵀ * U) := by simp only [Matrix.mul_assoc]
      _ = _ := by rw [h2, Matrix.mul_one]; simp only [Matrix.mul_assoc]
  rw [this, Matrix.trace_mul_comm, Matrix.mul_assoc, h1, Matrix.mul_one]

open scoped Matrix.Norms.Frobenius in
theorem gram_diff {a b : ℕ} (A A' : Matrix (Fin a) (Fin b) ℝ) : ∑ i, ∑ j, (A' * A'ᵀ - A * Aᵀ) i j ^ 2 ≤
    ((Real.sqrt (∑ i, ∑ j, A i j ^ 2) + Real.sqrt (∑ i, ∑ j, A' i j ^ 2)) * Real.sqrt (∑ i, ∑ j, (A - A') i j ^ 2)) ^ 2 := by
  have e3 : A' * A'ᵀ - A * Aᵀ = A' * (A' - A)ᵀ + (A' - A) * Aᵀ := by
    rw [Matrix.transpose_sub, Matrix.mul_sub, Matrix.sub_mul]; abel
  rw [← fro_sq, ← fro_sq, ← fro_sq, ← fro_sq, Real.sqrt_sq (norm_nonneg _), Real.sqrt_sq (norm_nonneg _), Real.sqrt_sq (norm_nonneg _), e3]
  refine pow_le_pow_left₀ (norm_nonneg _) ?_ 2
  calc _ ≤ ‖A' * (A' - A)ᵀ‖ + ‖(A' - A) * Aᵀ‖ := norm_add_le _ _
    _ ≤ ‖A'‖ * ‖(A' - A)ᵀ‖ + ‖A' - A‖ * ‖Aᵀ‖ := add_le_add (Matrix.frobenius_norm_mul _ _) (Matrix.frobenius_norm_mul _ _)
    _ = _ := by rw [Matrix.frobenius_norm_transpose, Matrix.frobenius_norm_transpose, norm_sub_rev A' A]; ring

/-- The matrix with a column for each member of a weighted list. -/
noncomputable def wcols {α : Type} (t : List α) (w : α → ℝ) (c : α → Pt m) : Matrix (Fin m) (Fin t.length) ℝ :=
  Matrix.of fun i j => Real.sqrt (w t[(j : ℕ)]) * c t[(j : ℕ)] i

theorem wcols_size {α : Type} (t : List α) (w : α → ℝ) (hp : ∀ p ∈ t, 0 ≤ w p) (c : α → Pt m) :
    ∑ i, ∑ j, wcols t w c i j ^ 2 = (t.map fun p => w p * (c p ⬝ᵥ c p)).sum := by
  rw [Finset.sum_comm, ← Fin.sum_univ_fun_getElem]
  refine Finset.sum_congr rfl fun j _ => ?_
  rw [dotProduct, Finset.mul_sum]
  refine Finset.sum_congr rfl fun i _ => ?_
  simp only [wcols, Matrix.of_apply]
  rw [mul_pow, Real.sq_sqrt (hp _ (List.getElem_mem _))]
  ring

theorem wcols_gram {α : Type} (t : List α) (w : α → ℝ) (hp : ∀ p ∈ t, 0 ≤ w p) (c : α → Pt m) :
    outerSum (t.map fun p => (w p, c p)) = wcols t w c * (wcols t w c)ᵀ := by
  ext i j
  rw [Matrix.mul_apply]
  have e : ∀ l : List α, outerSum (l.map fun p => (w p, c p)) i j = (l.map fun p => w p * (c p i * c p j)).sum := by
    intro l
    induction l with
    | nil => simp [outerSum]
    | cons p l ih =>
      rw [List.map_cons, List.map_cons, List.sum_cons, ← ih]
      simp [outerSum, Matrix.vecMulVec_apply]
  rw [e, ← Fin.sum_univ_fun_getElem]
  refine Finset.sum_congr rfl fun k _ => ?_
  simp only [wcols, Matrix.of_apply, Matrix.transpose_apply]
  have := Real.mul_self_sqrt (hp _ (List.getElem_mem (l := t) k.2))
  calc _ = (Real.sqrt (w t[(k : ℕ)]) * Real.sqrt (w t[(k : ℕ)])) * (c t[(k : ℕ)] i * c t[(k : ℕ)] j) := by rw [this]
    _ = _ := by ring

/-- The difference of two matrices of weighted outer products. -/
theorem outerSum_diff {w : List ℝ} (hw : ∀ a ∈ w, 0 ≤ a) {gs gs' : List (Pt m)} (h : w.length = gs.length) (h' : w.length = gs'.length) :
    ∑ i, ∑ j, (outerSum (w.zip gs') - outerSum (w.zip gs)) i j ^ 2 ≤
      ((Real.sqrt (gradSize w gs) + Real.sqrt (gradSize w gs')) * Real.sqrt (gradErr w gs gs')) ^ 2 := by
  have hp := zip_weight hw gs gs'
  have key := gram_diff (wcols (w.zip (gs.zip gs')) (fun p => p.1) fun p => p.2.1) (wcols (w.zip (gs.zip gs')) (fun p => p.1) fun p => p.2.2)
  have hs : wcols (w.zip (gs.zip gs')) (fun p => p.1) (fun p => p.2.1) - wcols (w.zip (gs.zip gs')) (fun p => p.1) (fun p => p.2.2) =
      wcols (w.zip (gs.zip gs')) (fun p => p.1) (fun p => p.2.1 - p.2.2) := by
    ext i j
    simp only [wcols, Matrix.sub_apply, Matrix.of_apply, Pi.sub_apply]
    ring
  rw [hs, wcols_size _ _ hp, wcols_size _ _ hp, wcols_size _ _ hp, ← wcols_gram _ _ hp, ← wcols_gram _ _ hp, ← zip_left h h', ← zip_right h h'] at key
  have e1 : gradSize w gs = ((w.zip (gs.zip gs')).map fun p => p.1 * (p.2.1 ⬝ᵥ p.2.1)).sum := by rw [gradSize, zip_left h h', List.map_map]; rfl
  have e2 : gradSize w gs' = ((w.zip (gs.zip gs')).map fun p => p.1 * (p.2.2 ⬝ᵥ p.2.2)).sum := by rw [gradSize, zip_right h h', List.map_map]; rfl
  rw [e1, e2]
  exact key

/-- **C165**: the subspace of the first `n` directions found from inexact gradients is tilted against that of the exact gradients by at most the error of
the gradients relative to the gap between the singular values. -/
theorem asFit_tilt (svd : SvdFn m) (hsvd : SvdSpec svd) (w : List ℝ) (gs gs' : List (Pt m)) (h : w.length = gs.length) (h' : w.length = gs'.length)
    (r r' : ASState m) (hr : asFit svd gs (some w) = .ok r) (hr' : asFit svd gs' (some w) = .ok r') (n : ℕ) (hgap : r.s.getD (n + 1) 0 ≤ r'.s.getD n 0) :
    (r'.s.getD n 0 ^ 2 - r.s.getD (n + 1) 0 ^ 2) * Real.sqrt (tilt (n + 1) r.U r'.U) ≤
      (Real.sqrt (gradSize w gs) + Real.sqrt (gradSize w gs')) * Real.sqrt (gradErr w gs gs') := by
  have hw : ∀ a ∈ w, 0 ≤ a := ((asFit_ok_iff svd gs' w).1 ⟨r', hr'⟩).2.1
  obtain ⟨U, hU, hC, hcol⟩ := asFit_diag svd hsvd gs w h r hr
  obtain ⟨U', hU', hC', hcol'⟩ := asFit_diag svd hsvd gs' w h' r' hr'
  obtain ⟨hl, hnn, hanti, -⟩ := asFit_eigen svd hsvd gs (some w) r hr
  obtain ⟨hl', hnn', hanti', -⟩ := asFit_eigen svd hsvd gs' (some w) r' hr'
  have hpos : ∀ j : ℕ, 0 ≤ r.s.getD j 0 := fun j => by
    rcases lt_or_ge j r.s.length with hj | hj
    · rw [List.getD_eq_getElem _ _ hj]; exact hnn _ (List.getElem_mem _)
    · rw [List.getD_eq_default _ _ hj]
  set a := r'.s.getD n 0 with ha
  set b := r.s.getD (n + 1) 0 with hb
  have hb0 : 0 ≤ b := hpos _
  have hg : 0 ≤ a ^ 2 - b ^ 2 := by nlinarith
  set E := outerSum (w.zip gs') - outerSum (w.zip gs) with hE
  have hent : ∀ k j, (Uᵀ * E * U') k j = (r'.s.getD j 0 ^ 2 - r.s.getD k 0 ^ 2) * (ucol U k ⬝ᵥ ucol U' j) := by
    intro k j
    have hm : Uᵀ * E * U' = Uᵀ * U' * Matrix.diagonal (fun i : Fin m => r'.s.getD i 0 ^ 2) - Matrix.diagonal (fun i : Fin m => r.s.getD i 0 ^ 2) * (Uᵀ * U') := by
      rw [hE, hC, hC', Matrix.mul_sub, Matrix.sub_mul]
      congr 1
      · calc _ = Uᵀ * U' * Matrix.diagonal (fun i : Fin m => r'.s.getD i 0 ^ 2) * (U'ᵀ * U') := by simp only [Matrix.mul_assoc]
          _ = _ := by rw [hU', Matrix.mul_one]
      · calc _ = (Uᵀ * U) * Matrix.diagonal (fun i : Fin m => r.s.getD i 0 ^ 2) * (Uᵀ * U') := by simp only [Matrix.mul_assoc]
          _ = _ := by rw [hU, Matrix.one_mul]
    have hd : (Uᵀ * U') k j = ucol U k ⬝ᵥ ucol U' j := rfl
    rw [hm, Matrix.sub_apply, Matrix.mul_diagonal, Matrix.diagonal_mul, hd]
    ring
  have hterm : ∀ k j : Fin m, (a ^ 2 - b ^ 2) ^ 2 * (if n + 1 ≤ (k : ℕ) ∧ (j : ℕ) < n + 1 then (ucol r.U k ⬝ᵥ ucol r'.U j) ^ 2 else 0) ≤ (Uᵀ * E * U') k j ^ 2 := by
    intro k j
    split_ifs with hkj
    · obtain ⟨c, hc, hck⟩ := hcol k
      obtain ⟨c', hc', hcj⟩ := hcol' j
      have h1 : (ucol r.U k ⬝ᵥ ucol r'.U j) ^ 2 ≤ (ucol U k ⬝ᵥ ucol U' j) ^ 2 := by
        rw [hck, hcj, smul_dotProduct, dotProduct_smul, smul_eq_mul, smul_eq_mul, ← mul_assoc, mul_pow]
        have : (c * c') ^ 2 ≤ 1 := by
          rw [← sq_abs, abs_mul]
          have := mul_le_one₀ hc (abs_nonneg _) hc'
          exact pow_le_one₀ (by positivity) this
        exact mul_le_of_le_one_left (sq_nonneg _) this
      have h2 : a ≤ r'.s.getD j 0 := by
        have hn : n < m := by omega
        exact hanti' (a := j) (b := ⟨n, hn⟩) (by rw [Fin.le_def]; simp only; omega)
      have h3 : r.s.getD k 0 ≤ b := by
        have hn : n + 1 < m := by omega
        exact hanti (a := ⟨n + 1, hn⟩) (b := k) (by rw [Fin.le_def]; exact hkj.1)
      have h4 : a ^ 2 - b ^ 2 ≤ r'.s.getD j 0 ^ 2 - r.s.getD k 0 ^ 2 := by
        have := hpos k
        nlinarith
      rw [hent, mul_pow]
      exact mul_le_mul (pow_le_pow_left₀ hg h4 2) h1 (sq_nonneg _) (sq_nonneg _)
    · rw [mul_zero]; positivity
  have hsum : (a ^ 2 - b ^ 2) ^ 2 * tilt (n + 1) r.U r'.U ≤ ((Real.sqrt (gradSize w gs) + Real.sqrt (gradSize w gs')) * Real.sqrt (gradErr w gs gs')) ^ 2 := by
    refine le_trans ?_ (outerSum_diff hw h h')
    rw [← sum_sq_orth U U' _ hU hU', tilt, Finset.mul_sum]
    refine Finset.sum_le_sum fun k _ => ?_
    rw [Finset.mul_sum]
    exact Finset.sum_le_sum fun j _ => hterm k j
  have h5 := Real.sqrt_le_sqrt hsum
  rw [Real.sqrt_mul (sq_nonneg _), Real.sqrt_sq hg, Real.sqrt_sq (by positivity)] at h5
  exact h5

/-- **C165**: as the errors of the gradients vanish, the subspace of the first `n + 1` directions converges, provided the singular values
have a gap there. -/
theorem asFit_tilt_vanishes (svd : SvdFn m) (hsvd : SvdSpec svd) (w : List ℝ) (gs : List (Pt m)) (h : w.length = gs.length) (r : ASState m)
    (hr : asFit svd gs (some w) = .ok r) (n : ℕ) (hgap : r.s.getD (n + 1) 0 < r.s.getD n 0) (ε : ℝ) (hε : 0 < ε) :
    ∃ δ > 0, ∀ (gs' : List (Pt m)) (r' : ASState m), w.length = gs'.length → gradErr w gs gs' ≤ δ → asFit svd gs' (some w) = .ok r' →
      tilt (n + 1) r.U r'.U ≤ ε := by
  have hw : ∀ a ∈ w, 0 ≤ a := ((asFit_ok_iff svd gs w).1 ⟨r, hr⟩).2.1
  obtain ⟨hl, hnn, -, -⟩ := asFit_eigen svd hsvd gs (some w) r hr
  have hpos : ∀ j : ℕ, 0 ≤ r.s.getD j 0 := fun j => by
    rcases lt_or_ge j r.s.length with hj | hj
    · rw [List.getD_eq_getElem _ _ hj]; exact hnn _ (List.getElem_mem _)
    · rw [List.getD_eq_default _ _ hj]
  set a := r.s.getD n 0 with ha
  set b := r.s.getD (n + 1) 0 with hb
  have hb0 : 0 ≤ b := hpos _
  have hnm : n < m := by
    by_contra hc
    have : a = 0 := by rw [ha, List.getD_eq_default _ _ (by omega)]
    linarith
  set S := Real.sqrt (gradSize w gs) with hS
  have hS0 : 0 ≤ S := Real.sqrt_nonneg _
  -- half of the gap remains
  set g := ((a + b) / 2) ^ 2 - b ^ 2 with hg
  have hg0 : 0 < g := by rw [hg]; nlinarith
  set d := min ((a - b) / 2) (min 1 (g * Real.sqrt ε / (2 * S + 1))) with hd
  have hd0 : 0 < d := by
    rw [hd]
    refine lt_min (by linarith) (lt_min one_pos ?_)
    have := Real.sqrt_pos.2 hε
    positivity
  refine ⟨d ^ 2, by positivity, fun gs' r' h' herr hr' => ?_⟩
  have he : Real.sqrt (gradErr w gs gs') ≤ d := Real.sqrt_le_iff.2 ⟨hd0.le, herr⟩
  have he0 := Real.sqrt_nonneg (gradErr w gs gs')
  have hval := abs_le.1 (asFit_values svd hsvd w gs gs' h h' r r' hr hr' ⟨n, hnm⟩)
  simp only at hval
  have hd1 : d ≤ (a - b) / 2 := min_le_left _ _
  have hd2 : d ≤ 1 := (min_le_right _ _).trans (min_le_left _ _)
  have hd3 : d ≤ g * Real.sqrt ε / (2 * S + 1) := (min_le_right _ _).trans (min_le_right _ _)
  have ha' : (a + b) / 2 ≤ r'.s.getD n 0 := by linarith [hval.2]
  have htilt := asFit_tilt svd hsvd w gs gs' h h' r r' hr hr' n (by linarith)
  have hS' : Real.sqrt (gradSize w gs') ≤ S + d := by
    have ht := wnorm_triangle (w.zip (gs'.zip gs)) (fun p => p.1) (zip_weight hw gs' gs) (fun p => p.2.1) (fun p => p.2.2)
    have e1 : gradSize w gs' = ((w.zip (gs'.zip gs)).map fun p => p.1 * (p.2.1 ⬝ᵥ p.2.1)).sum := by rw [gradSize, zip_left h' h, List.map_map]; rfl
    have e2 : gradSize w gs = ((w.zip (gs'.zip gs)).map fun p => p.1 * (p.2.2 ⬝ᵥ p.2.2)).sum := by rw [gradSize, zip_right h' h, List.map_map]; rfl
    rw [← e1, ← e2] at ht
    have e3 : ((w.zip (gs'.zip gs)).map fun p => p.1 * ((p.2.1 - p.2.2) ⬝ᵥ (p.2.1 - p.2.2))).sum = gradErr w gs gs' := gradErr_comm w gs' gs
    rw [e3] at ht
    linarith
  have hT0 := Real.sqrt_nonneg (tilt (n + 1) r.U r'.U)
  have h1 : g * Real.sqrt (tilt (n + 1) r.U r'.U) ≤ (2 * S + 1) * d := by
    calc g * Real.sqrt (tilt (n + 1) r.U r'.U) ≤ (r'.s.getD n 0 ^ 2 - b ^ 2) * Real.sqrt (tilt (n + 1) r.U r'.U) := by
          refine mul_le_mul_of_nonneg_right ?_ hT0
          rw [hg]
          have : ((a + b) / 2) ^ 2 ≤ r'.s.getD n 0 ^ 2 := pow_le_pow_left₀ (by linarith) ha' 2
          linarith
      _ ≤ _ := htilt
      _ ≤ (2 * S + 1) * d := mul_le_mul (by linarith) he he0 (by linarith)
  have h2 : (2 * S + 1) * d ≤ g * Real.sqrt ε := by
    rw [le_div_iff₀ (by linarith)] at hd3
    linarith
  have h3 : Real.sqrt (tilt (n + 1) r.U r'.U) ≤ Real.sqrt ε := le_of_mul_le_mul_left (h1.trans h2) hg0
  exact (Real.sqrt_le_sqrt_iff hε.le).1 h3

/-- The first direction of two gradients along the axes, one of them longer. -/
theorem asFit_axes (svd : SvdFn 2) (hsvd : SvdSpec svd) (a b : ℝ) (hb : 0 < b) (hab : b < a) (r : ASState 2)
    (hr : asFit svd [![a, 0], ![0, b]] (some [1, 1]) = .ok r) : ucol r.U 0 = ![1, 0] := by
  have hC : r.C = outerSum ([1, 1].zip [![a, 0], ![0, b]]) := asFit_C svd hsvd _ [1, 1] rfl r hr
  obtain ⟨ps, _, _, _, rfl⟩ := asFit_ok svd _ _ r hr
  have hU : (asRaw svd ps).Uᵀ * (asRaw svd ps).U = 1 := (hsvd ps.length (asCols ps)).orthU
  have heig := asRaw_col svd hsvd ps 0
  have hbound := asFit_bound (n := 1) svd hsvd _ [1, 1] rfl _ hr (Matrix.of fun i _ => ![1, 0] i) (by ext i j; fin_cases i; fin_cases j; simp [Matrix.mul_apply])
  have hCm : (asRaw svd ps).C = !![a ^ 2, 0; 0, b ^ 2] := by
    show (asRaw svd ps).C = _
    rw [show (asRaw svd ps).C = _ from hC]
    ext i j
    fin_cases i <;> fin_cases j <;> simp [outerSum, Matrix.vecMulVec_apply, sq]
  set s := (asRaw svd ps).s.getD 0 0 with hs
  have hsa : a ^ 2 ≤ s ^ 2 := by
    have : captured ([1, 1].zip [![a, 0], ![0, b]]) (Matrix.of fun i (_ : Fin 1) => ![1, 0] i : Matrix (Fin 2) (Fin 1) ℝ) = a ^ 2 := by
      simp [captured, Matrix.mulVec, dotProduct, sq]
    rw [this] at hbound
    simpa [Fin.sum_univ_two, hs] using hbound
  set u := ucol (asRaw svd ps).U 0 with hu
  have hunit : u 0 ^ 2 + u 1 ^ 2 = 1 := by
    have := congrFun (congrFun hU 0) 0
    rw [Matrix.mul_apply, Fin.sum_univ_two, Matrix.one_apply_eq] at this
    rw [sq, sq]; exact this
  have h1 : u 1 = 0 := by
    have := congrFun heig 1
    rw [hCm] at this
    simp [Matrix.mulVec, dotProduct, Fin.sum_univ_two] at this
    rcases this with h | h
    · exfalso
      have : s ^ 2 = b ^ 2 := by simpa [hs, List.getD_eq_getElem?_getD] using h.symm
      nlinarith
    · exact h
  have h0 : u 0 = 1 ∨ u 0 = -1 := by
    rw [h1] at hunit
    exact mul_self_eq_one_iff.1 (by linarith [sq (u 0)])
  simp only [fixGrads]
  rw [ucol_mul_diagonal, ← hu]
  have hmg : meanGrad [![a, 0], ![0, b]] u = a * u 0 / 2 := by
    simp [meanGrad, dotProduct, Fin.sum_univ_two, h1]
  rw [hmg]
  rcases h0 with h0 | h0
  · have : npSign (a * u 0 / 2) = 1 := by rw [h0, npSign, if_pos (by linarith)]
    rw [this, one_smul]
    funext i; fin_cases i <;> simp [h0, h1]
  · have : npSign (a * u 0 / 2) = -1 := by rw [h0, npSign, if_neg (by linarith), if_pos (by linarith)]
    rw [this]
    funext i; fin_cases i <;> simp [h0, h1]

/-- The first direction of two gradients along the axes, the second one longer. -/
theorem asFit_axes' (svd : SvdFn 2) (hsvd : SvdSpec svd) (a b : ℝ) (ha : 0 < a) (hab : a < b) (r : ASState 2)
    (hr : asFit svd [![a, 0], ![0, b]] (some [1, 1]) = .ok r) : ucol r.U 0 = ![0, 1] := by
  have hC : r.C = outerSum ([1, 1].zip [![a, 0], ![0, b]]) := asFit_C svd hsvd _ [1, 1] rfl r hr
  obtain ⟨ps, _, _, _, rfl⟩ := asFit_ok svd _ _ r hr
  have hU : (asRaw svd ps).Uᵀ * (asRaw svd ps).U = 1 := (hsvd ps.length (asCols ps)).orthU
  have heig := asRaw_col svd hsvd ps 0
  have hbound := asFit_bound (n := 1) svd hsvd _ [1, 1] rfl _ hr (Matrix.of fun i _ => ![0, 1] i) (by ext i j; fin_cases i; fin_cases j; simp [Matrix.mul_apply])
  have hCm : (asRaw svd ps).C = !![a ^ 2, 0; 0, b ^ 2] := by
    show (asRaw svd ps).C = _
    rw [show (asRaw svd ps).C = _ from hC]
    ext i j
    fin_cases i <;> fin_cases j <;> simp [outerSum, Matrix.vecMulVec_apply, sq]
  set s := (asRaw svd ps).s.getD 0 0 with hs
  have hsa : b ^ 2 ≤ s ^ 2 := by
    have : captured ([1, 1].zip [![a, 0], ![0, b]]) (Matrix.of fun i (_ : Fin 1) => ![0, 1] i : Matrix (Fin 2) (Fin 1) ℝ) = b ^ 2 := by
      simp [captured, Matrix.mulVec, dotProduct, sq]
    rw [this] at hbound
    simpa [Fin.sum_univ_two, hs] using hbound
  set u := ucol (asRaw svd ps).U 0 with hu
  have hunit : u 0 ^ 2 + u 1 ^ 2 = 1 := by
    have := congrFun (congrFun hU 0) 0
    rw [Matrix.mul_apply, Fin.sum_univ_two, Matrix.one_apply_eq] at this
    rw [sq, sq]; exact this
  have h1 : u 0 = 0 := by
    have := congrFun heig 0
    rw [hCm] at this
    simp [Matrix.mulVec, dotProduct, Fin.sum_univ_two] at this
    rcases this with h | h
    · exfalso
      have : s ^ 2 = a ^ 2 := by simpa [hs, List.getD_eq_getElem?_getD] using h.symm
      nlinarith
    · exact h
  have h0 : u 1 = 1 ∨ u 1 = -1 := by
    rw [h1] at hunit
    exact mul_self_eq_one_iff.1 (by linarith [sq (u 1)])
  simp only [fixGrads]
  rw [ucol_mul_diagonal, ← hu]
  have hmg : meanGrad [![a, 0], ![0, b]] u = b * u 1 / 2 := by
    simp [meanGrad, dotProduct, Fin.sum_univ_two, h1]
  rw [hmg]
  rcases h0 with h0 | h0
  · have : npSign (b * u 1 / 2) = 1 := by rw [h0, npSign, if_pos (by linarith)]
    rw [this, one_smul]
    funext i; fin_cases i <;> simp [h0, h1]
  · have : npSign (b * u 1 / 2) = -1 := by rw [h0, npSign, if_neg (by linarith), if_pos (by linarith)]
    rw [this]
    funext i; fin_cases i <;> simp [h0, h1]

/-- **C165 where the gap is needed**: with singular values that are nearly equal, gradients that differ as little as one likes have orthogonal first directions. -/
theorem asFit_gap_false (svd : SvdFn 2) (hsvd : SvdSpec svd) (δ : ℝ) (hδ : 0 < δ) : ∃ (gs gs' : List (Pt 2)) (r r' : ASState 2),
    asFit svd gs (some [1, 1]) = .ok r ∧ asFit svd gs' (some [1, 1]) = .ok r' ∧ gradErr [1, 1] gs gs' ≤ δ ∧ ucol r.U 0 = ![1, 0] ∧ ucol r'.U 0 = ![0, 1] := by
  have hok : ∀ a b : ℝ, ∃ r, asFit svd [![a, 0], ![0, b]] (some [1, 1]) = .ok r := fun a b =>
    (asFit_ok_iff svd _ _).2 ⟨by simp, by simp, Or.inl rfl⟩
  set e := Real.sqrt (δ / 2) with he
  have he0 : 0 < e := Real.sqrt_pos.2 (by linarith)
  obtain ⟨r, hr⟩ := hok (1 + e) 1
  obtain ⟨r', hr'⟩ := hok 1 (1 + e)
  refine ⟨_, _, r, r', hr, hr', ?_, asFit_axes svd hsvd _ _ one_pos (by linarith) r hr, asFit_axes' svd hsvd _ _ one_pos (by linarith) r' hr'⟩
  have : e * e = δ / 2 := Real.mul_self_sqrt (by linarith)
  simp [gradErr, dotProduct, Fin.sum_univ_two]
  linarith

/-- At a location among the samples the call for all samples does what the call for the location does. -/
theorem localLinear_single (ls : LstsqFn m) (pb : List ℝ → ℝ → Except Err ℝ) (X : List (Pt m)) (fX : List ℝ) (perp : Option ℝ) (bw : Option Bw)
    (A : List (Pt (m + 1))) (h : localLinear ls pb X fX perp bw none = .ok A) (i : ℕ) (hi : i < X.length) :
    ∃ B, localLinear ls pb X fX perp bw (some [X[i]]) = .ok B ∧ B[0]? = A[i]? := by
  obtain ⟨hl, w, hw, h⟩ := localLinear_ok ls pb X fX perp bw none A h
  obtain ⟨-, -, -, h4⟩ := llLoop_spec ls pb _ w _ _ _ _ h
  obtain ⟨β, hβ, hA⟩ := h4 i hi
  simp only [Option.getD_none, Nat.zero_add] at hβ hA
  have hpos : 0 < X.length := by omega
  refine ⟨(List.replicate X.length 0).set 0 ((ls (llProblem (X.zip fX) β X[i])).getD 0), ?_, ?_⟩
  · rw [localLinear, if_pos hl, hw]
    simp only [Option.getD_some, llLoop, hβ, List.length_replicate, if_pos hpos]
  · rw [hA, List.getElem?_set_self (by simpa using hpos)]

/-- Moving points does not change whether they span. -/
theorem span_shift (D : List (Pt m)) (hD : affineSpan ℝ {x | x ∈ D} = ⊤) (v : Pt m) : affineSpan ℝ {x | x ∈ D.map fun d => d - v} = ⊤ := by
  have := (AffineEquiv.span_eq_top_iff (AffineEquiv.constVAdd ℝ (Pt m) (-v))).1 hD
  rw [← this]
  congr 1
  ext x
  simp only [Set.mem_setOf_eq, List.mem_map, Set.mem_image, AffineEquiv.constVAdd_apply, vadd_eq_add]
  constructor
  · rintro ⟨d, hd, rfl⟩; exact ⟨d, hd, by abel⟩
  · rintro ⟨d, hd, rfl⟩; exact ⟨d, hd, by abel⟩

/-- Samples: a shape `D` scaled by `h` about `x0`. -/
def shaped (D : List (Pt m)) (x0 : Pt m) (h : ℝ) : List (Pt m) := D.map fun d => x0 + h • d

/-- Error bounds at single locations (C161) give one bound for the estimated gradients at all samples. -/
theorem grads_rate (perp : Option ℝ) (bw : ℝ → Option Bw) (P : (List ℝ → ℝ → Except Err ℝ) → Prop)
    (hrate : ∀ D : List (Pt m), affineSpan ℝ {x | x ∈ D} = ⊤ → ∃ C ≥ 0, ∀ (ls : LstsqFn m), LstsqSpec ls → ∀ pb, P pb →
      ∀ (f : Pt m → ℝ) (xt g : Pt m) (K h : ℝ), 0 < h → CurvedBy f xt g K (D.map fun d => xt + h • d) → ∀ A,
      localLinear ls pb (D.map fun d => xt + h • d) ((D.map fun d => xt + h • d).map f) perp (bw h) (some [xt]) = .ok A →
      (∃ a, A[0]? = some a ∧ (Fin.tail a - g) ⬝ᵥ (Fin.tail a - g) ≤ C * (K * h) ^ 2) ∨ (A[0]? = some 0 ∧ ∃ rows, ls rows = none))
    (D : List (Pt m)) (hD : affineSpan ℝ {x | x ∈ D} = ⊤) :
    ∃ C ≥ 0, ∀ (ls : LstsqFn m), LstsqSpec ls → (∀ rows, ls rows ≠ none) → ∀ pb, P pb → ∀ (f : Pt m → ℝ) (g : Pt m → Pt m) (x0 : Pt m) (K h : ℝ), 0 < h →
      (∀ x ∈ shaped D x0 h, CurvedBy f x (g x) K (shaped D x0 h)) → ∀ G,
      localLinearGrads ls pb (shaped D x0 h) ((shaped D x0 h).map f) perp (bw h) none = .ok G →
      G.length = (shaped D x0 h).length ∧ ∀ (i : ℕ) (hi : i < (shaped D x0 h).length) (hG : i < G.length),
        (G[i] - g (shaped D x0 h)[i]) ⬝ᵥ (G[i] - g (shaped D x0 h)[i]) ≤ C * (K * h) ^ 2 := by
  choose C hC0 hC using fun d : Pt m => hrate (D.map fun e => e - d) (span_shift D hD d)
  have hmem : ∀ d ∈ D, C d ≤ (D.map C).sum := by
    intro d hd
    exact List.single_le_sum (fun c hc => by obtain ⟨e, _, rfl⟩ := List.mem_map.1 hc; exact hC0 e) _ (List.mem_map_of_mem hd)
  refine ⟨(D.map C).sum, List.sum_nonneg fun c hc => by obtain ⟨e, _, rfl⟩ := List.mem_map.1 hc; exact hC0 e, ?_⟩
  intro ls hls htot pb hpb f g x0 K h hh hf G hG
  unfold localLinearGrads at hG
  split at hG
  · cases hG
  rename_i A hA
  cases hG
  have hlen := (localLinear_length ls pb _ _ _ _ none A hA).1
  refine ⟨by rw [List.length_map, hlen], fun i hi hGi => ?_⟩
  have hiD : i < D.length := by simpa [shaped] using hi
  have hxi : (shaped D x0 h)[i] = x0 + h • D[i] := by simp [shaped]
  have hshape : (D.map fun e => e - D[i]).map (fun d => (x0 + h • D[i]) + h • d) = shaped D x0 h := by
    rw [List.map_map, shaped]
    refine List.map_congr_left fun d _ => ?_
    simp only [Function.comp, smul_sub]
    abel
  obtain ⟨B, hB, hB0⟩ := localLinear_single ls pb _ _ _ _ A hA i hi
  have hcur := hf _ (List.getElem_mem hi)
  rw [hxi] at hB hcur ⊢
  have hfin := hC D[i] ls hls pb hpb f (x0 + h • D[i]) (g (x0 + h • D[i])) K h hh (by rw [hshape]; exact hcur) B (by rw [hshape]; exact hB)
  rcases hfin with ⟨a, ha, hle⟩ | ⟨-, rows, hrows⟩
  · have hAi : A[i]'(by simpa using hGi) = a := by
      have := hB0.symm.trans ha
      rw [List.getElem?_eq_getElem (by simpa using hGi)] at this
      exact Option.some.inj this
    rw [List.getElem_map, hAi]
    exact hle.trans (mul_le_mul_of_nonneg_right (hmem _ (List.getElem_mem hiD)) (sq_nonneg _))
  · exact absurd hrows (htot rows)

/-- Equal weights. -/
noncomputable def evenly (N : ℕ) : List ℝ := List.replicate N (1 / (N : ℝ))

theorem gradErr_even (gs gs' : List (Pt m)) (hl : gs.length = gs'.length) (e : ℝ) (he : 0 ≤ e)
    (h : ∀ (i : ℕ) (hi : i < gs.length) (hi' : i < gs'.length), (gs'[i] - gs[i]) ⬝ᵥ (gs'[i] - gs[i]) ≤ e) : gradErr (evenly gs.length) gs gs' ≤ e := by
  have key : ∀ c : ℝ, 0 ≤ c → ∀ (gs gs' : List (Pt m)), gs.length = gs'.length →
      (∀ (i : ℕ) (hi : i < gs.length) (hi' : i < gs'.length), (gs'[i] - gs[i]) ⬝ᵥ (gs'[i] - gs[i]) ≤ e) →
      gradErr (List.replicate gs.length c) gs gs' ≤ gs.length * (c * e) := by
    intro c hc gs
    induction gs with
    | nil => intro gs' _ _; simp [gradErr]
    | cons g gs ih =>
      intro gs' hl h
      cases gs' with
      | nil => simp at hl
      | cons g' gs' =>
        have h0 := h 0 (by simp) (by simp)
        have h1 := ih gs' (by simpa using hl) fun i hi hi' =>
          h (i + 1) (by simpa using hi) (by simpa using hi')
        simp only [List.getElem_cons_zero] at h0
        rw [← neg_sub g g', neg_dotProduct, dotProduct_neg, neg_neg] at h0
        simp only [gradErr, List.length_cons, List.replicate_succ, List.zip_cons_cons, List.map_cons, List.sum_cons, Nat.cast_add, Nat.cast_one] at h1 ⊢
        nlinarith [mul_le_mul_of_nonneg_left h0 hc]
  rcases Nat.eq_zero_or_pos gs.length with h0 | h0
  · rw [List.length_eq_zero_iff] at h0
    subst h0
    simpa [gradErr, evenly] using he
  · have := key (1 / (gs.length : ℝ)) (by positivity) gs gs' hl h
    have hN : (0 : ℝ) < gs.length := by exact_mod_cast h0
    rw [evenly]
    calc _ ≤ _ := this
      _ = e := by field_simp

theorem opg_near (perp : Option ℝ) (bw : ℝ → Option Bw) (P : (List ℝ → ℝ → Except Err ℝ) → Prop)
    (hrate : ∀ D : List (Pt m), affineSpan ℝ {x | x ∈ D} = ⊤ → ∃ C ≥ 0, ∀ (ls : LstsqFn m), LstsqSpec ls → ∀ pb, P pb →
      ∀ (f : Pt m → ℝ) (xt g : Pt m) (K h : ℝ), 0 < h → CurvedBy f xt g K (D.map fun d => xt + h • d) → ∀ A,
      localLinear ls pb (D.map fun d => xt + h • d) ((D.map fun d => xt + h • d).map f) perp (bw h) (some [xt]) = .ok A →
      (∃ a, A[0]? = some a ∧ (Fin.tail a - g) ⬝ᵥ (Fin.tail a - g) ≤ C * (K * h) ^ 2) ∨ (A[0]? = some 0 ∧ ∃ rows, ls rows = none))
    (D : List (Pt m)) (hD : affineSpan ℝ {x | x ∈ D} = ⊤) :
    ∃ C ≥ 0, ∀ (E : OpgEnv m), SvdSpec E.svd → LstsqSpec E.ls → (∀ rows, E.ls rows ≠ none) → P E.pb →
      ∀ (f : Pt m → ℝ) (g : Pt m → Pt m) (x0 : Pt m) (K h : ℝ), 0 ≤ K → 0 < h →
      (∀ x ∈ shaped D x0 h, CurvedBy f x (g x) K (shaped D x0 h)) → ∀ U,
      opgFit E false perp (bw h) (shaped D x0 h) ((shaped D x0 h).map f) = .ok U → (∀ k, ucol U k ≠ 0) → ∀ (n : ℕ) (hn : n ≤ m),
      (headCols U hn)ᵀ * headCols U hn = 1 ∧ ∀ Q : Matrix (Fin m) (Fin n) ℝ, Qᵀ * Q = 1 →
        Real.sqrt (captured ((evenly D.length).zip ((shaped D x0 h).map g)) Q) - C * (K * h) ≤
          Real.sqrt (captured ((evenly D.length).zip ((shaped D x0 h).map g)) (headCols U hn)) := by
  obtain ⟨C, hC0, hC⟩ := grads_rate perp bw P hrate D hD
  refine ⟨2 * Real.sqrt C, by positivity, fun E hsvd hls htot hP f g x0 K h hK hh hf U hU hz n hn => ?_⟩
  obtain ⟨_, hU⟩ := opgFit_ok hU
  simp only [opgStd, Bool.false_eq_true, if_false] at hU
  obtain ⟨G, r, hG, hr, rfl⟩ := opgCore_ok hU
  simp only [opgBack] at hz ⊢
  obtain ⟨hlen, herr⟩ := hC E.ls hls htot E.pb hP f g x0 K h hh hf G hG
  have hlD : (shaped D x0 h).length = D.length := by simp [shaped]
  have hlg : ((shaped D x0 h).map g).length = D.length := by rw [List.length_map, hlD]
  have hGl : G.length = D.length := hlen.trans hlD
  have hr' : asFit E.svd G (some (evenly D.length)) = .ok r := by
    rw [← hr, ← hGl]; rfl
  have hle : gradErr (evenly D.length) ((shaped D x0 h).map g) G ≤ C * (K * h) ^ 2 := by
    rw [← hlg]
    refine gradErr_even _ _ (by rw [hlg, hGl]) _ (by positivity) fun i hi hi' => ?_
    rw [List.getElem_map]
    exact herr i (by rw [hlD, ← hGl]; exact hi') hi'
  have hsq : Real.sqrt (gradErr (evenly D.length) ((shaped D x0 h).map g) G) ≤ Real.sqrt C * (K * h) := by
    refine (Real.sqrt_le_sqrt hle).trans (le_of_eq ?_)
    rw [Real.sqrt_mul hC0, Real.sqrt_sq (by positivity)]
  have hev : (evenly D.length).length = D.length := List.length_replicate
  have hno := fun Q hQ => asFit_near (n := n) E.svd hsvd (evenly D.length) ((shaped D x0 h).map g) G (by rw [hev, hlg]) (by rw [hev, hGl]) r hr' hz hn Q hQ
  have ho := (asFit_optimal_partial E.svd hsvd G (evenly D.length) (by rw [hev, hGl]) r hr' hz hn).1
  exact ⟨ho, fun Q hQ => by linarith [(hno Q hQ).2]⟩

/-- **C165, outer product gradients with a fixed bandwidth**: without standardization, the first `n` directions reported from samples of a smooth function
capture as much of the exact gradients at the samples as any `n` orthonormal directions, up to a constant times the curvature times the spread of the samples. -/
theorem opg_near_fixed (D : List (Pt m)) (hD : affineSpan ℝ {x | x ∈ D} = ⊤) (b : ℝ) :
    ∃ C ≥ 0, ∀ (E : OpgEnv m), SvdSpec E.svd → LstsqSpec E.ls → (∀ rows, E.ls rows ≠ none) →
      ∀ (f : Pt m → ℝ) (g : Pt m → Pt m) (x0 : Pt m) (K h : ℝ), 0 ≤ K → 0 < h →
      (∀ x ∈ shaped D x0 h, CurvedBy f x (g x) K (shaped D x0 h)) → ∀ U,
      opgFit E false none (some (.val (b / h ^ 2))) (shaped D x0 h) ((shaped D x0 h).map f) = .ok U → (∀ k, ucol U k ≠ 0) → ∀ (n : ℕ) (hn : n ≤ m),
      (headCols U hn)ᵀ * headCols U hn = 1 ∧ ∀ Q : Matrix (Fin m) (Fin n) ℝ, Qᵀ * Q = 1 →
        Real.sqrt (captured ((evenly D.length).zip ((shaped D x0 h).map g)) Q) - C * (K * h) ≤
          Real.sqrt (captured ((evenly D.length).zip ((shaped D x0 h).map g)) (headCols U hn)) := by
  obtain ⟨C, hC0, hC⟩ := opg_near none (fun h => some (.val (b / h ^ 2))) (fun _ => True) (fun D hD => by
    obtain ⟨C, hC0, hC⟩ := localLinear_rate D hD b
    exact ⟨C, hC0, fun ls hls pb _ => hC ls hls pb⟩) D hD
  exact ⟨C, hC0, fun E h1 h2 h3 => hC E h1 h2 h3 trivial⟩

/-- **C165, outer product gradients with a perplexity.** -/
theorem opg_near_perplexity (D : List (Pt m)) (hD : affineSpan ℝ {x | x ∈ D} = ⊤) (p : ℝ) :
    ∃ C ≥ 0, ∀ (E : OpgEnv m) (root : RootFn), SvdSpec E.svd → LstsqSpec E.ls → (∀ rows, E.ls rows ≠ none) → RootSpec root → E.pb = perpBandwidth root →
      ∀ (f : Pt m → ℝ) (g : Pt m → Pt m) (x0 : Pt m) (K h : ℝ), 0 ≤ K → 0 < h →
      (∀ x ∈ shaped D x0 h, CurvedBy f x (g x) K (shaped D x0 h)) → ∀ U,
      opgFit E false (some p) none (shaped D x0 h) ((shaped D x0 h).map f) = .ok U → (∀ k, ucol U k ≠ 0) → ∀ (n : ℕ) (hn : n ≤ m),
      (headCols U hn)ᵀ * headCols U hn = 1 ∧ ∀ Q : Matrix (Fin m) (Fin n) ℝ, Qᵀ * Q = 1 →
        Real.sqrt (captured ((evenly D.length).zip ((shaped D x0 h).map g)) Q) - C * (K * h) ≤
          Real.sqrt (captured ((evenly D.length).zip ((shaped D x0 h).map g)) (headCols U hn)) := by
  obtain ⟨C, hC0, hC⟩ := opg_near (some p) (fun _ => none) (fun pb => ∃ root, RootSpec root ∧ pb = perpBandwidth root) (fun D hD => by
    obtain ⟨C, hC0, hC⟩ := localLinear_rate_perplexity D hD p
    refine ⟨C, hC0, fun ls hls pb hpb => ?_⟩
    obtain ⟨root, hr, rfl⟩ := hpb
    exact hC ls hls root hr) D hD
  exact ⟨C, hC0, fun E root h1 h2 h3 h4 h5 => hC E h1 h2 h3 ⟨root, h4, h5⟩⟩

/-- Without arguments the perplexity is the number of coordinates plus one, or the number of samples if that is smaller. -/
theorem opg_default (E : OpgEnv m) (std : Bool) (X : List (Pt m)) (fX : List ℝ) :
    opgFit E std none none X fX = opgFit E std (some ((min (m + 1) X.length : ℕ) : ℝ)) none X fX := by
  have h : ∀ Z : List (Pt m), Z.length = X.length → ∀ sd, opgCore E none none Z fX sd = opgCore E (some ((min (m + 1) X.length : ℕ) : ℝ)) none Z fX sd := by
    intro Z hZ sd
    unfold opgCore localLinearGrads localLinear
    rw [hZ]
    rfl
  unfold opgFit opgStd
  rw [h X rfl, h _ (by rw [List.length_map])]

/-- A fit whose singular values have a gap, as `asFit_tilt_vanishes` asks. -/
example (svd : SvdFn 2) (hsvd : SvdSpec svd) : ∃ r, asFit svd [![2, 0], ![0, 1]] (some [1, 1]) = .ok r ∧ r.s.getD 1 0 < r.s.getD 0 0 := by
  obtain ⟨r, hr⟩ := (asFit_ok_iff svd [![2, 0], ![0, 1]] [1, 1]).2 ⟨by simp, by simp, Or.inl rfl⟩
  refine ⟨r, hr, ?_⟩
  obtain ⟨U, hU, hC, -⟩ := asFit_diag svd hsvd _ [1, 1] rfl r hr
  have hbound := asFit_bound (n := 1) svd hsvd _ [1, 1] rfl _ hr (Matrix.of fun i _ => ![1, 0] i) (by ext i j; fin_cases i; fin_cases j; simp [Matrix.mul_apply])
  have h4 : (4 : ℝ) ≤ r.s.getD 0 0 ^ 2 := by
    have : captured ([1, 1].zip [![2, 0], ![0, 1]]) (Matrix.of fun i (_ : Fin 1) => ![1, 0] i : Matrix (Fin 2) (Fin 1) ℝ) = 4 := by
      simp [captured, Matrix.mulVec, dotProduct]; norm_num
    rw [this] at hbound
    simpa [Fin.sum_univ_two] using hbound
  have ht : Matrix.trace (outerSum ([1, 1].zip [![2, 0], ![0, 1]]) : Matrix (Fin 2) (Fin 2) ℝ) = r.s.getD 0 0 ^ 2 + r.s.getD 1 0 ^ 2 := by
    rw [hC, Matrix.trace_mul_comm, ← Matrix.mul_assoc, hU, Matrix.one_mul, Matrix.trace_diagonal, Fin.sum_univ_two]
    rfl
  have h5 : Matrix.trace (outerSum ([1, 1].zip [![2, 0], ![0, 1]]) : Matrix (Fin 2) (Fin 2) ℝ) = 5 := by
    simp [Matrix.trace, outerSum, Matrix.vecMulVec_apply, Fin.sum_univ_two]; norm_num
  rw [h5] at ht
  obtain ⟨hl, hnn, -, -⟩ := asFit_eigen svd hsvd _ _ r hr
  have hp : 0 ≤ r.s.getD 0 0 := by
    rw [List.getD_eq_getElem _ _ (by rw [hl]; norm_num)]; exact hnn _ (List.getElem_mem _)
  nlinarith

/-- With a given bandwidth and without standardization a call on samples with their values succeeds. -/
theorem opg_plain_ok (E : OpgEnv m) (X : List (Pt m)) (hX : X ≠ []) (fX : List ℝ) (hf : fX.length = X.length) (b : ℝ) :
    ∃ U, opgFit E false none (some (.val b)) X fX = .ok U := by
  obtain ⟨A, hA⟩ := (localLinear_ok_iff E.ls E.pb X fX b none).2 ⟨hf, by simp⟩
  have hl := (localLinear_length E.ls E.pb X fX _ _ _ A hA).1
  have hne : A.map Fin.tail ≠ [] := by
    intro h
    rw [List.map_eq_nil_iff] at h
    subst h
    exact hX (List.length_eq_zero_iff.1 hl.symm)
  obtain ⟨r, hr⟩ := (asFit_ok_iff E.svd (A.map Fin.tail) (evenly (A.map Fin.tail).length)).2 ⟨hne, by
    intro a ha
    rw [evenly, List.mem_replicate] at ha
    rw [ha.2]; positivity, Or.inl (by rw [evenly, List.length_replicate])⟩
  have hr' : asFit E.svd (A.map Fin.tail) none = .ok r := hr
  refine ⟨r.U, ?_⟩
  rw [opgFit, if_pos hf, if_neg (by simp [hX]), opgStd, if_neg (by simp)]
  simp only [opgCore, localLinearGrads, hA, hr', opgBack]

/-- A call that meets the hypotheses of `opg_near_fixed`. -/
example (E : OpgEnv 1) (hsvd : SvdSpec E.svd) (hls : LstsqSpec E.ls) (htot : ∀ rows, E.ls rows ≠ none) :
    (∃ U, opgFit E false none (some (.val (1 / 1 ^ 2))) (shaped [![0], ![1]] 0 1) ((shaped [![0], ![1]] 0 1).map fun x => 0 + x ⬝ᵥ ![2]) = .ok U ∧
      ∀ k, ucol U k ≠ 0) ∧ affineSpan ℝ {x | x ∈ ([![0], ![1]] : List (Pt 1))} = ⊤ ∧
      ∀ x ∈ shaped ([![0], ![1]] : List (Pt 1)) 0 1, CurvedBy (fun x => 0 + x ⬝ᵥ ![2]) x ![2] 0 (shaped [![0], ![1]] 0 1) := by
  have hspan : affineSpan ℝ {x | x ∈ ([![0], ![1]] : List (Pt 1))} = ⊤ := by
    rw [eq_top_iff]
    intro x _
    have h0 : (![0] : Pt 1) ∈ affineSpan ℝ {x | x ∈ ([![0], ![1]] : List (Pt 1))} := subset_affineSpan ℝ _ (by simp)
    have h1 : (![1] : Pt 1) ∈ affineSpan ℝ {x | x ∈ ([![0], ![1]] : List (Pt 1))} := subset_affineSpan ℝ _ (by simp)
    have h2 := AffineSubspace.smul_vsub_vadd_mem _ (x 0) h1 h0 h0
    convert h2 using 1
    funext i
    fin_cases i
    simp
  have hsh : shaped ([![0], ![1]] : List (Pt 1)) 0 1 = [![0], ![1]] := by simp [shaped]
  refine ⟨?_, hspan, ?_⟩
  · rw [hsh]
    obtain ⟨U, hU⟩ := opg_plain_ok E [![0], ![1]] (by simp) (([![0], ![1]] : List (Pt 1)).map fun x => 0 + x ⬝ᵥ ![2]) (by simp) (1 / 1 ^ 2)
    refine ⟨U, hU, fun k => ?_⟩
    obtain ⟨t, ht, hc⟩ := opg_plain (m := 0) E hsvd hls htot none _ _ hspan 0 ![2] (by simp) U hU
    rw [Subsingleton.elim k 0, hc]
    intro h
    have := congrFun h 0
    simp at this
    exact ht.ne' this
  · intro x _ y _
    simp only [sub_dotProduct]
    norm_num

end Verif.Misc
