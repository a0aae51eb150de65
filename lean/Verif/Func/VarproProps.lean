import Verif.Func.VarproModel
import Verif.Func.FinishProps
import Verif.Misc.OpgProps
import Mathlib.Analysis.Calculus.Deriv.Mul
import Mathlib.Analysis.Calculus.Deriv.Comp
import Mathlib.LinearAlgebra.Matrix.Adjugate
import Mathlib.Topology.Instances.Matrix
import Mathlib.Tactic.LinearCombination

/-!
# Properties C85, C86: the search over subspaces stays on orthonormal matrices and uses the right derivative
-/

namespace Verif.Func

open Verif.Domain Verif.Lip Matrix Filter Topology

variable {M m n N : ℕ}

/-! ## The routines assumed exist -/

/-- A thin singular value decomposition exists for every matrix. -/
theorem exists_tsvd {a b : ℕ} (A : Matrix (Fin a) (Fin b) ℝ) : ∃ d : TSvd a b, IsTSvd A d := by
  obtain ⟨d, hd⟩ := Misc.exists_fsvd A
  have ha : min a b ≤ a := min_le_left a b
  have hb : min a b ≤ b := min_le_right a b
  refine ⟨⟨d.U.submatrix id (Fin.castLE ha), fun i => d.s.getD i 0, (d.V.submatrix id (Fin.castLE hb))ᵀ⟩, ?_, ?_, ?_, ?_, ?_⟩
  · ext i j
    have := congrFun (congrFun hd.orthU (Fin.castLE ha i)) (Fin.castLE ha j)
    rw [Matrix.mul_apply] at this ⊢
    simp only [Matrix.transpose_apply, Matrix.submatrix_apply, id] at this ⊢
    rw [this, Matrix.one_apply, Matrix.one_apply]
    simp [Fin.ext_iff]
  · ext i j
    have := congrFun (congrFun hd.orthV (Fin.castLE hb i)) (Fin.castLE hb j)
    rw [Matrix.mul_apply] at this ⊢
    simp only [Matrix.transpose_apply, Matrix.submatrix_apply, id] at this ⊢
    rw [this, Matrix.one_apply, Matrix.one_apply]
    simp [Fin.ext_iff]
  · intro i
    have hi : (i : ℕ) < d.s.length := by rw [hd.len]; exact i.2
    show 0 ≤ d.s.getD i 0
    rw [List.getD_eq_getElem _ _ hi]
    exact hd.nonneg _ (List.getElem_mem hi)
  · intro i j hij
    have hi : (i : ℕ) < d.s.length := by rw [hd.len]; exact i.2
    have hj : (j : ℕ) < d.s.length := by rw [hd.len]; exact j.2
    show d.s.getD j 0 ≤ d.s.getD i 0
    rw [List.getD_eq_getElem _ _ hi, List.getD_eq_getElem _ _ hj]
    rcases eq_or_lt_of_le hij with h | h
    · subst h; exact le_rfl
    · exact List.pairwise_iff_getElem.1 hd.sorted _ _ hi hj h
  · conv_lhs => rw [hd.eq]
    ext i j
    simp only [Matrix.mul_apply, Matrix.transpose_apply, Matrix.submatrix_apply, id, Misc.sigmaMat, Matrix.of_apply,
      mul_ite, mul_zero]
    have h1 : ∀ y : Fin b, (∑ x : Fin a, if (x : ℕ) = y then d.U i x * d.s.getD x 0 else 0) * d.V j y =
        if h : (y : ℕ) < min a b then d.U i (Fin.castLE ha ⟨y, h⟩) * d.s.getD y 0 * d.V j y else 0 := by
      intro y
      by_cases h : (y : ℕ) < a
      · have hm : (y : ℕ) < min a b := lt_min h y.2
        rw [dif_pos hm, Finset.sum_eq_single (⟨y, h⟩ : Fin a)]
        · simp
        · intro x _ hx
          rw [if_neg]
          intro e; exact hx (Fin.ext e)
        · simp
      · rw [dif_neg (fun hm => h (lt_of_lt_of_le hm (min_le_left _ _))), Finset.sum_eq_zero, zero_mul]
        intro x _
        rw [if_neg]
        intro e; exact h (e ▸ x.2)
    simp only [h1]
    symm
    refine Finset.sum_of_injOn (Fin.castLE hb) (fun x _ y _ h => Fin.castLE_injective hb h) (by simp) ?_ ?_
    · intro y _ hy
      rw [dif_neg]
      intro h
      exact hy ⟨⟨y, h⟩, by simp, by ext; simp⟩
    · intro x _
      rw [dif_pos (by simpa using x.2)]
      congr 1
      rw [Finset.sum_eq_single x]
      · rw [Matrix.diagonal_apply_eq]; rfl
      · intro y _ hy
        rw [Matrix.diagonal_apply_ne _ hy, mul_zero]
      · simp

/-- A reduced QR factorization exists for every matrix with at least as many rows as columns. -/
theorem exists_rqr (hn : n ≤ m) (A : Matrix (Fin m) (Fin n) ℝ) : ∃ d, IsRQr A d := by
  obtain ⟨qr, hqr⟩ := Misc.exists_qr m
  obtain ⟨h1, h2, h3⟩ := hqr (Matrix.of fun i j => if h : (j : ℕ) < n then A i ⟨j, h⟩ else 0)
  generalize qr (Matrix.of fun i j => if h : (j : ℕ) < n then A i ⟨j, h⟩ else 0) = d at h1 h2 h3
  refine ⟨(d.1.submatrix id (Fin.castLE hn), d.2.submatrix (Fin.castLE hn) (Fin.castLE hn)), ?_, ?_, ?_⟩
  · ext i j
    have := congrFun (congrFun h2 (Fin.castLE hn i)) (Fin.castLE hn j)
    rw [Matrix.mul_apply] at this ⊢
    simp only [Matrix.transpose_apply, Matrix.submatrix_apply, id] at this ⊢
    rw [this, Matrix.one_apply, Matrix.one_apply]
    simp [Fin.ext_iff]
  · intro i j hij
    exact h3 _ _ hij
  · ext i j
    have := congrFun (congrFun h1 i) (Fin.castLE hn j)
    simp only [Matrix.of_apply, Fin.val_castLE, j.2, dif_pos, Fin.eta] at this
    rw [this, Matrix.mul_apply, Matrix.mul_apply]
    symm
    refine Finset.sum_of_injOn (Fin.castLE hn) (fun x _ y _ h => Fin.castLE_injective hn h) (by simp) ?_ ?_
    · intro y _ hy
      rw [h3, mul_zero]
      by_contra hlt
      have : (y : ℕ) < n := by
        have h4 : ¬ ((j : ℕ) < y) := fun h => hlt (by rw [Fin.lt_def]; exact h)
        have := j.2
        omega
      exact hy ⟨⟨y, this⟩, by simp, by ext; simp⟩
    · intro x _
      rfl

/-! ## `orth` -/

/-- **C85**: `orth` leaves a matrix with orthonormal columns as it is, for every QR routine. -/
theorem orth_fix {A : Matrix (Fin m) (Fin n) ℝ} (hA : Aᵀ * A = 1) {d : Matrix (Fin m) (Fin n) ℝ × Matrix (Fin n) (Fin n) ℝ}
    (hd : IsRQr A d) : orthStep d = A := by
  obtain ⟨h1, h2, h3⟩ := hd
  have hR : d.2ᵀ * d.2 = 1 := by
    calc d.2ᵀ * d.2 = d.2ᵀ * (d.1ᵀ * d.1) * d.2 := by rw [h1, Matrix.mul_one]
      _ = (d.1 * d.2)ᵀ * (d.1 * d.2) := by rw [Matrix.transpose_mul]; simp only [Matrix.mul_assoc]
      _ = 1 := by rw [← h3, hA]
  have hR' : d.2 * d.2ᵀ = 1 := mul_eq_one_comm.1 hR
  -- the rows above are zero off the diagonal, from the last to the first
  have hent : ∀ i j, ∑ k, d.2 i k * d.2 j k = if i = j then 1 else 0 := by
    intro i j
    have := congrFun (congrFun hR' i) j
    rwa [Matrix.mul_apply, Matrix.one_apply] at this
  have hcol : ∀ i j, ∑ k, d.2 k i * d.2 k j = if i = j then 1 else 0 := by
    intro i j
    have := congrFun (congrFun hR i) j
    rwa [Matrix.mul_apply, Matrix.one_apply] at this
  have key : ∀ c : ℕ, ∀ i : Fin n, (i : ℕ) ≤ c → (∀ j, i < j → d.2 i j = 0) := by
    intro c
    induction c with
    | zero =>
      intro i hi j hij
      have h0 : (i : ℕ) = 0 := by omega
      have hii : d.2 i i * d.2 i i = 1 := by
        have := hcol i i
        rw [if_pos rfl, Finset.sum_eq_single i] at this
        · exact this
        · intro k _ hk
          rw [h2 k i (by rw [Fin.lt_def]; have : (k : ℕ) ≠ i := fun e => hk (Fin.ext e); omega), zero_mul]
        · simp
      have := hcol i j
      rw [if_neg hij.ne, Finset.sum_eq_single i] at this
      · rcases mul_eq_zero.1 this with h | h
        · rw [h] at hii; simp at hii
        · exact h
      · intro k _ hk
        rw [h2 k i (by rw [Fin.lt_def]; have : (k : ℕ) ≠ i := fun e => hk (Fin.ext e); omega), zero_mul]
      · simp
    | succ c ih =>
      intro i hi j hij
      have hz : ∀ k, k ≠ i → d.2 k i = 0 := by
        intro k hk
        rcases lt_or_gt_of_ne hk with h | h
        · exact ih k (by rw [Fin.lt_def] at h; omega) i h
        · exact h2 k i h
      have hii : d.2 i i * d.2 i i = 1 := by
        have := hcol i i
        rw [if_pos rfl, Finset.sum_eq_single i] at this
        · exact this
        · intro k _ hk
          rw [hz k hk, zero_mul]
        · simp
      have := hcol i j
      rw [if_neg hij.ne, Finset.sum_eq_single i] at this
      · rcases mul_eq_zero.1 this with h | h
        · rw [h] at hii; simp at hii
        · exact h
      · intro k _ hk
        rw [hz k hk, zero_mul]
      · simp
  have hdiag : d.2 = Matrix.diagonal (fun i => d.2 i i) := by
    ext i j
    rcases lt_trichotomy i j with h | h | h
    · rw [Matrix.diagonal_apply_ne _ h.ne, key n i i.2.le j h]
    · subst h; rw [Matrix.diagonal_apply_eq]
    · rw [Matrix.diagonal_apply_ne _ h.ne', h2 i j h]
  have hsq : ∀ i, d.2 i i * d.2 i i = 1 := by
    intro i
    have := hcol i i
    rw [if_pos rfl, Finset.sum_eq_single i] at this
    · exact this
    · intro k _ hk
      rw [hdiag, Matrix.diagonal_apply_ne _ hk, zero_mul]
    · simp
  have hs : (fun i => sgn (d.2 i i)) = fun i => d.2 i i := by
    funext i
    rcases mul_self_eq_one_iff.1 (hsq i) with h | h <;> rw [h] <;> norm_num [sgn]
  unfold orthStep
  rw [hs, ← hdiag, ← h3]

/-- **C85**: `orth` returns orthonormal columns spanning the same space whenever the columns are independent; more
precisely exactly if no diagonal entry of the triangular factor vanishes. -/
theorem orth_orthonormal_iff {A : Matrix (Fin m) (Fin n) ℝ} {d : Matrix (Fin m) (Fin n) ℝ × Matrix (Fin n) (Fin n) ℝ}
    (hd : IsRQr A d) : (orthStep d)ᵀ * orthStep d = 1 ↔ ∀ i, d.2 i i ≠ 0 := by
  unfold orthStep
  rw [Matrix.transpose_mul, Matrix.mul_assoc, ← Matrix.mul_assoc d.1ᵀ, hd.orth, Matrix.one_mul, Matrix.diagonal_transpose,
    Matrix.diagonal_mul_diagonal]
  simp only [sgn_sq]
  constructor
  · intro e k hk
    have := congrFun (congrFun e k) k
    simp [hk] at this
  · intro hk
    rw [← Matrix.diagonal_one]
    congr 1
    funext k
    rw [if_neg (hk k)]

/-- The diagonal entries do not vanish exactly if the columns are linearly independent. -/
theorem rqr_diag_iff {A : Matrix (Fin m) (Fin n) ℝ} {d : Matrix (Fin m) (Fin n) ℝ × Matrix (Fin n) (Fin n) ℝ}
    (hd : IsRQr A d) : (∀ i, d.2 i i ≠ 0) ↔ ∀ v, A *ᵥ v = 0 → v = 0 := by
  have hdet : d.2.det = ∏ i, d.2 i i := Matrix.det_of_isUpperTriangular (fun i j h => hd.upper i j h)
  have hA : ∀ v, A *ᵥ v = 0 ↔ d.2 *ᵥ v = 0 := by
    intro v
    constructor
    · intro h
      have : d.1ᵀ *ᵥ (A *ᵥ v) = 0 := by rw [h, mulVec_zero]
      rwa [hd.eq, mulVec_mulVec, ← Matrix.mul_assoc, hd.orth, Matrix.one_mul] at this
    · intro h
      rw [hd.eq, ← mulVec_mulVec, h, mulVec_zero]
  rw [show (∀ i, d.2 i i ≠ 0) ↔ d.2.det ≠ 0 by rw [hdet, Finset.prod_ne_zero_iff]; simp]
  constructor
  · intro h v hv
    exact Matrix.eq_zero_of_mulVec_eq_zero h ((hA v).1 hv)
  · intro h h0
    obtain ⟨v, hv, hv0⟩ := Matrix.exists_mulVec_eq_zero_iff.2 h0
    exact hv (h v ((hA v).2 hv0))

/-- **C85**: `orth` returns orthonormal columns exactly for matrices with independent columns. -/
theorem orth_orthonormal {A : Matrix (Fin m) (Fin n) ℝ} {d : Matrix (Fin m) (Fin n) ℝ × Matrix (Fin n) (Fin n) ℝ}
    (hd : IsRQr A d) : (orthStep d)ᵀ * orthStep d = 1 ↔ ∀ v, A *ᵥ v = 0 → v = 0 :=
  (orth_orthonormal_iff hd).trans (rqr_diag_iff hd)

/-- **C85**: for independent columns the space spanned is kept: `A = orth(A) T` with `T` upper triangular and positive on
the diagonal ("keep directions"). -/
theorem orth_span {A : Matrix (Fin m) (Fin n) ℝ} {d : Matrix (Fin m) (Fin n) ℝ × Matrix (Fin n) (Fin n) ℝ}
    (hd : IsRQr A d) (hA : ∀ v, A *ᵥ v = 0 → v = 0) :
    ∃ T : Matrix (Fin n) (Fin n) ℝ, A = orthStep d * T ∧ (∀ i j, j < i → T i j = 0) ∧ ∀ i, 0 < T i i := by
  have hne := (rqr_diag_iff hd).2 hA
  refine ⟨Matrix.diagonal (fun i => sgn (d.2 i i)) * d.2, ?_, ?_, ?_⟩
  · unfold orthStep
    rw [Matrix.mul_assoc, ← Matrix.mul_assoc (Matrix.diagonal _), Matrix.diagonal_mul_diagonal]
    have : (fun i => sgn (d.2 i i) * sgn (d.2 i i)) = fun _ => 1 := by
      funext i; rw [sgn_sq, if_neg (hne i)]
    rw [this, Matrix.diagonal_one, Matrix.one_mul, ← hd.eq]
  · intro i j h
    rw [Matrix.diagonal_mul, hd.upper i j h, mul_zero]
  · intro i
    rw [Matrix.diagonal_mul]
    unfold sgn
    rcases lt_or_gt_of_ne (hne i) with h | h
    · rw [if_neg (not_lt.2 h.le), if_pos h]; linarith
    · rw [if_pos h]; linarith

/-! ## The trajectory -/

/-- The direction of a tangent vector's decomposition is orthogonal to `U`, except where the singular value is zero. -/
theorem tangent_cols {U Delta : Matrix (Fin m) (Fin n) ℝ} (ht : Uᵀ * Delta = 0) {d : TSvd m n} (hd : IsTSvd Delta d) (i : Fin n)
    (j : Fin (min m n)) : (Uᵀ * d.Y) i j * d.s j = 0 := by
  have h : Uᵀ * d.Y * Matrix.diagonal d.s = 0 := by
    calc Uᵀ * d.Y * Matrix.diagonal d.s = Uᵀ * (d.Y * Matrix.diagonal d.s * d.ZT) * d.ZTᵀ := by
          simp only [Matrix.mul_assoc]; rw [hd.orthZ, Matrix.mul_one]
      _ = 0 := by rw [← hd.eq, ht, Matrix.zero_mul]
  have := congrFun (congrFun h i) j
  rwa [Matrix.mul_diagonal] at this

/-- **C85**: along a tangent direction the geodesic keeps orthonormal columns, for all step lengths. -/
theorem geodesic_orthonormal {U Delta : Matrix (Fin m) (Fin n) ℝ} (hU : Uᵀ * U = 1) (ht : Uᵀ * Delta = 0) {d : TSvd m n}
    (hd : IsTSvd Delta d) (t : ℝ) : (geodesic U d t)ᵀ * geodesic U d t = 1 := by
  unfold geodesic
  set C := Matrix.diagonal fun i => Real.cos (d.s i * t) with hC
  set S := Matrix.diagonal fun i => Real.sin (d.s i * t) with hS
  have hcross : Uᵀ * d.Y * S = 0 := by
    ext i j
    rw [hS, Matrix.mul_diagonal, Matrix.zero_apply]
    rcases mul_eq_zero.1 (tangent_cols ht hd i j) with h | h
    · rw [h, zero_mul]
    · rw [h, zero_mul, Real.sin_zero, mul_zero]
  have hcross' : S * (d.Yᵀ * U) = 0 := by
    have := congrArg Matrix.transpose hcross
    rwa [Matrix.transpose_mul, Matrix.transpose_mul, Matrix.transpose_transpose, Matrix.transpose_zero, hS, Matrix.diagonal_transpose,
      ← hS] at this
  have hCt : Cᵀ = C := by rw [hC, Matrix.diagonal_transpose]
  have hSt : Sᵀ = S := by rw [hS, Matrix.diagonal_transpose]
  rw [Matrix.transpose_add, Matrix.transpose_mul, Matrix.transpose_mul, Matrix.transpose_mul, Matrix.transpose_transpose, hCt, hSt, Matrix.add_mul,
    Matrix.mul_add, Matrix.mul_add]
  have e1 : C * (d.ZT * Uᵀ) * (U * d.ZTᵀ * C) = C * C := by
    calc _ = C * (d.ZT * ((Uᵀ * U) * (d.ZTᵀ * C))) := by simp only [Matrix.mul_assoc]
      _ = C * ((d.ZT * d.ZTᵀ) * C) := by rw [hU, Matrix.one_mul]; simp only [Matrix.mul_assoc]
      _ = C * C := by rw [hd.orthZ, Matrix.one_mul]
  have e2 : C * (d.ZT * Uᵀ) * (d.Y * S) = 0 := by
    calc _ = C * (d.ZT * (Uᵀ * d.Y * S)) := by simp only [Matrix.mul_assoc]
      _ = 0 := by rw [hcross, Matrix.mul_zero, Matrix.mul_zero]
  have e3 : S * d.Yᵀ * (U * d.ZTᵀ * C) = 0 := by
    calc _ = S * (d.Yᵀ * U) * (d.ZTᵀ * C) := by simp only [Matrix.mul_assoc]
      _ = 0 := by rw [hcross', Matrix.zero_mul]
  have e4 : S * d.Yᵀ * (d.Y * S) = S * S := by
    calc _ = S * ((d.Yᵀ * d.Y) * S) := by simp only [Matrix.mul_assoc]
      _ = S * S := by rw [hd.orthY, Matrix.one_mul]
  rw [e1, e2, e3, e4, add_zero, zero_add, hC, hS, Matrix.diagonal_mul_diagonal, Matrix.diagonal_mul_diagonal, Matrix.diagonal_add,
    ← Matrix.diagonal_one]
  congr 1
  funext i
  have := Real.sin_sq_add_cos_sq (d.s i * t)
  nlinarith

/-- **C85**: so the final `orth` of the trajectory changes nothing, and the trajectory returns orthonormal columns. -/
theorem grassmann_orthonormal (svd : Matrix (Fin m) (Fin n) ℝ → TSvd m n) (hsvd : ∀ A, IsTSvd A (svd A))
    (qr : Matrix (Fin m) (Fin (min m n)) ℝ → Matrix (Fin m) (Fin (min m n)) ℝ × Matrix (Fin (min m n)) (Fin (min m n)) ℝ)
    (hqr : ∀ A, IsRQr A (qr A)) {U Delta : Matrix (Fin m) (Fin n) ℝ} (hU : Uᵀ * U = 1) (ht : Uᵀ * Delta = 0) (t : ℝ) :
    grassmann svd qr U Delta t = geodesic U (svd Delta) t ∧ (grassmann svd qr U Delta t)ᵀ * grassmann svd qr U Delta t = 1 := by
  have h := geodesic_orthonormal hU ht (hsvd Delta) t
  have e : grassmann svd qr U Delta t = geodesic U (svd Delta) t := orth_fix h (hqr _)
  exact ⟨e, by rw [e]; exact h⟩

/-- Orthonormal columns need at least as many rows. -/
theorem le_of_orthonormal {U : Matrix (Fin m) (Fin n) ℝ} (hU : Uᵀ * U = 1) : n ≤ m := by
  have h := Matrix.rank_mul_le_right Uᵀ U
  rw [hU, Matrix.rank_one, Fintype.card_fin] at h
  exact h.trans ((Matrix.rank_le_height U))

theorem tsvd_ZZ (hn : n ≤ m) {Delta : Matrix (Fin m) (Fin n) ℝ} {d : TSvd m n} (hd : IsTSvd Delta d) : d.ZTᵀ * d.ZT = 1 := by
  have e : Fin (min m n) ≃ Fin n := finCongr (min_eq_right hn)
  exact (Matrix.mul_eq_one_comm_of_equiv e).1 hd.orthZ

/-- **C85**: the trajectory starts at the given subspace with the given velocity: up to the fixed rotation `ZT` it is `U` at
`t = 0`, with derivative `Delta`. -/
theorem geodesic_velocity {U Delta : Matrix (Fin m) (Fin n) ℝ} (hU : Uᵀ * U = 1) {d : TSvd m n} (hd : IsTSvd Delta d) :
    geodesic U d 0 * d.ZT = U ∧ ∀ k l, HasDerivAt (fun t => (geodesic U d t * d.ZT) k l) (Delta k l) 0 := by
  have hZ := tsvd_ZZ (le_of_orthonormal hU) hd
  constructor
  · unfold geodesic
    simp only [mul_zero, Real.cos_zero, Real.sin_zero, Matrix.diagonal_one, Matrix.mul_one]
    rw [show (Matrix.diagonal fun _ : Fin (min m n) => (0 : ℝ)) = 0 from Matrix.diagonal_zero, Matrix.mul_zero, add_zero, Matrix.mul_assoc, hZ,
      Matrix.mul_one]
  · intro k l
    have hval : (fun t => (geodesic U d t * d.ZT) k l) = fun t => ∑ i, ((U * d.ZTᵀ) k i * Real.cos (d.s i * t) + d.Y k i * Real.sin (d.s i * t)) * d.ZT i l := by
      funext t
      rw [Matrix.mul_apply]
      refine Finset.sum_congr rfl fun i _ => ?_
      unfold geodesic
      rw [Matrix.add_apply, Matrix.mul_diagonal, Matrix.mul_diagonal]
    rw [hval]
    have hder : HasDerivAt (fun t => ∑ i, ((U * d.ZTᵀ) k i * Real.cos (d.s i * t) + d.Y k i * Real.sin (d.s i * t)) * d.ZT i l)
        (∑ i, ((U * d.ZTᵀ) k i * (-Real.sin (d.s i * 0) * (d.s i * 1)) + d.Y k i * (Real.cos (d.s i * 0) * (d.s i * 1))) * d.ZT i l) 0 := by
      refine HasDerivAt.fun_sum fun i _ => HasDerivAt.mul_const ?_ _
      have hi : HasDerivAt (fun t : ℝ => d.s i * t) (d.s i * 1) 0 := (hasDerivAt_id (0 : ℝ)).const_mul _
      exact (hi.cos.const_mul _).add (hi.sin.const_mul _)
    refine hder.congr_deriv ?_
    simp only [mul_zero, Real.sin_zero, Real.cos_zero, neg_zero, zero_mul, mul_one, one_mul, zero_add]
    conv_rhs => rw [hd.eq]
    rw [Matrix.mul_apply]
    refine Finset.sum_congr rfl fun i _ => ?_
    rw [Matrix.mul_diagonal]

/-! ## The search direction -/

theorem tsvd_row {q : ℕ} {J : Matrix (Fin M) (Fin q) ℝ} {d : TSvd M q} (hd : IsTSvd J d) (i : Fin (min M q)) (v : Pt q) :
    d.s i * (d.ZT i ⬝ᵥ v) = (fun a => d.Y a i) ⬝ᵥ (J *ᵥ v) := by
  have h : Matrix.diagonal d.s * d.ZT = d.Yᵀ * J := by
    conv_rhs => rw [hd.eq]
    rw [← Matrix.mul_assoc, ← Matrix.mul_assoc, hd.orthY, Matrix.one_mul]
  have h2 : (Matrix.diagonal d.s * d.ZT) *ᵥ v = (d.Yᵀ * J) *ᵥ v := by rw [h]
  have := congrFun h2 i
  rw [← mulVec_mulVec, ← mulVec_mulVec, mulVec_diagonal] at this
  exact this

/-- The vector `flat` of a matrix product pairs like a trace. -/
theorem flat_dot (A : Matrix (Fin m) (Fin n) ℝ) (v : Pt (m * n)) : v ⬝ᵥ flat A = ∑ k, ∑ l, unflat v k l * A k l := by
  rw [dotProduct, ← Equiv.sum_comp finProdFinEquiv, Fintype.sum_prod_type]
  refine Finset.sum_congr rfl fun k _ => Finset.sum_congr rfl fun l _ => ?_
  simp [flat, unflat]

/-- **C85**: if the Jacobian does not see changes inside the subspace (see `varpro_null`), and the singular values kept are
positive, the search direction is tangent: `Uᵀ Delta = 0`. -/
theorem gnDirection_tangent {J : Matrix (Fin M) (Fin (m * n)) ℝ} {d : TSvd M (m * n)} (hd : IsTSvd J d) (r : Pt M)
    (U : Matrix (Fin m) (Fin n) ℝ) (hnull : ∀ W : Matrix (Fin n) (Fin n) ℝ, J *ᵥ flat (U * W) = 0)
    (hpos : ∀ i, keepIdx n (min M (m * n)) i → 0 < d.s i) : Uᵀ * unflat (gnDirection n d r) = 0 := by
  have hperp : ∀ W : Matrix (Fin n) (Fin n) ℝ, gnDirection n d r ⬝ᵥ flat (U * W) = 0 := by
    intro W
    unfold gnDirection
    rw [neg_dotProduct, sum_dotProduct, Finset.sum_eq_zero, neg_zero]
    intro i _
    split
    · next h =>
      have := tsvd_row hd i (flat (U * W))
      rw [hnull W, dotProduct_zero] at this
      rw [smul_dotProduct, (mul_eq_zero.1 this).resolve_left (hpos i h).ne', smul_zero]
    · rw [zero_dotProduct]
  ext a b
  have h := hperp (Matrix.single a b 1)
  rw [flat_dot] at h
  rw [Matrix.zero_apply, Matrix.mul_apply, ← h]
  refine Finset.sum_congr rfl fun k _ => ?_
  rw [Finset.sum_eq_single b]
  · rw [Matrix.mul_single_apply_same, Matrix.transpose_apply]; ring
  · intro l _ hl
    rw [Matrix.mul_single_apply_of_ne _ _ _ _ _ hl, mul_zero]
  · simp

/-- The image of the direction: minus the projection of the residual onto the kept left singular vectors. -/
theorem gnDirection_image {q : ℕ} {J : Matrix (Fin M) (Fin q) ℝ} {d : TSvd M q} (hd : IsTSvd J d) (r : Pt M)
    (hpos : ∀ i, keepIdx n (min M q) i → 0 < d.s i) :
    J *ᵥ gnDirection n d r = -(∑ i : Fin (min M q), if keepIdx n (min M q) i then ((fun a => d.Y a i) ⬝ᵥ r) • (fun a => d.Y a i) else 0) := by
  have hz : ∀ i, J *ᵥ d.ZT i = d.s i • fun a => d.Y a i := by
    intro i
    have h : J * d.ZTᵀ = d.Y * Matrix.diagonal d.s := by
      conv_lhs => rw [hd.eq]
      rw [Matrix.mul_assoc, hd.orthZ, Matrix.mul_one]
    funext a
    have := congrFun (congrFun h a) i
    rw [Matrix.mul_diagonal, Matrix.mul_apply] at this
    simp only [Pi.smul_apply, smul_eq_mul]
    rw [mul_comm, ← this]
    rfl
  unfold gnDirection
  rw [mulVec_neg]
  congr 1
  rw [mulVec_sum]
  refine Finset.sum_congr rfl fun i _ => ?_
  split
  · next h =>
    rw [mulVec_smul, hz, smul_smul]
    congr 1
    field_simp [(hpos i h).ne']
  · exact mulVec_zero _

/-- **C85**: the direction has no component along the `n²` last right singular vectors, and along the others the component is
`-(yᵢᵀ r)/sᵢ`. -/
theorem gnDirection_components {q : ℕ} {J : Matrix (Fin M) (Fin q) ℝ} {d : TSvd M q} (hd : IsTSvd J d) (r : Pt M) (hn : 0 < n) (i : Fin (min M q)) :
    d.ZT i ⬝ᵥ gnDirection n d r = if (i : ℕ) < min M q - n ^ 2 then -((fun a => d.Y a i) ⬝ᵥ r) / d.s i else 0 := by
  have hZ : ∀ j, d.ZT i ⬝ᵥ d.ZT j = if i = j then 1 else 0 := by
    intro j
    have := congrFun (congrFun hd.orthZ i) j
    rwa [Matrix.mul_apply, Matrix.one_apply] at this
  unfold gnDirection
  rw [dotProduct_neg, dotProduct_sum, Finset.sum_eq_single i]
  · have hk : keepIdx n (min M q) i ↔ (i : ℕ) < min M q - n ^ 2 := by unfold keepIdx; omega
    by_cases h : keepIdx n (min M q) i
    · rw [if_pos h, if_pos (hk.1 h), dotProduct_smul, hZ, if_pos rfl, smul_eq_mul]; ring
    · rw [if_neg h, if_neg (fun h' => h (hk.2 h')), dotProduct_zero, neg_zero]
  · intro j _ hj
    split
    · rw [dotProduct_smul, hZ, if_neg (Ne.symm hj), smul_zero]
    · exact dotProduct_zero _
  · simp

/-- **C85**: `gn_solver` reports the singular values except the `n²` last ones. -/
theorem varproSolver_values (svd : Matrix (Fin M) (Fin (m * n)) ℝ → TSvd M (m * n)) (hn : 0 < n) (J : Matrix (Fin M) (Fin (m * n)) ℝ) (r : Pt M)
    {o : Option (Pt (m * n))} {s : List ℝ} (h : varproSolver svd J r = .ok (o, s)) : s = (List.ofFn (svd J).s).take (min M (m * n) - n ^ 2) := by
  unfold varproSolver at h
  obtain ⟨-, rfl⟩ := Prod.mk.inj (Except.ok.inj h)
  rw [List.ofFn_eq_map, ← List.map_take]
  congr 1
  have hk : ∀ i : Fin (min M (m * n)), keepIdx n (min M (m * n)) i ↔ (i : ℕ) < min M (m * n) - n ^ 2 := fun i => by unfold keepIdx; omega
  generalize min M (m * n) = p at hk ⊢
  have gen : ∀ (l : List (Fin p)) (a : ℕ), l.map Fin.val = List.range' a l.length → l.filter (fun i => decide (keepIdx n p i)) = l.take (p - n ^ 2 - a) := by
    intro l
    induction l with
    | nil => intro a _; simp
    | cons x l ih =>
      intro a hl
      rw [List.map_cons, List.length_cons, List.range'_succ] at hl
      obtain ⟨hx, hl⟩ := List.cons.inj hl
      rw [List.filter_cons, ih _ hl]
      by_cases h : keepIdx n p x
      · have := (hk x).1 h
        rw [if_pos (by simpa using h), show p - n ^ 2 - a = (p - n ^ 2 - (a + 1)) + 1 by omega, List.take_succ_cons]
      · have : ¬ ((x : ℕ) < p - n ^ 2) := fun h' => h ((hk x).2 h')
        rw [if_neg (by simpa using h), show p - n ^ 2 - a = 0 by omega, show p - n ^ 2 - (a + 1) = 0 by omega]
        simp
  have := gen (List.finRange p) 0 (by rw [List.map_coe_finRange_eq_range, List.length_finRange, List.range_eq_range'])
  rw [Nat.sub_zero] at this
  rw [← this]

/-- **C85**: the direction is one of descent for the linearized sum of squares: `rᵀ J Delta = -|P r|² ≤ 0`. -/
theorem gnDirection_descent {q : ℕ} {J : Matrix (Fin M) (Fin q) ℝ} {d : TSvd M q} (hd : IsTSvd J d) (r : Pt M)
    (hpos : ∀ i, keepIdx n (min M q) i → 0 < d.s i) : r ⬝ᵥ (J *ᵥ gnDirection n d r) ≤ 0 := by
  rw [gnDirection_image hd r hpos, dotProduct_neg, dotProduct_sum, neg_nonpos]
  refine Finset.sum_nonneg fun i _ => ?_
  split
  · rw [dotProduct_smul, smul_eq_mul, dotProduct_comm r]
    exact mul_self_nonneg _
  · rw [dotProduct_zero]

/-- **C85**: if the singular values dropped are zero (the Jacobian has rank `mn - n²`), the direction solves the linearized
least squares problem: no other direction makes `|J p + r|` smaller. -/
theorem gnDirection_optimal {q : ℕ} {J : Matrix (Fin M) (Fin q) ℝ} {d : TSvd M q} (hd : IsTSvd J d) (r : Pt M)
    (hpos : ∀ i, keepIdx n (min M q) i → 0 < d.s i) (hzero : ∀ i, ¬ keepIdx n (min M q) i → d.s i = 0) (p : Pt q) :
    (J *ᵥ gnDirection n d r + r) ⬝ᵥ (J *ᵥ gnDirection n d r + r) ≤ (J *ᵥ p + r) ⬝ᵥ (J *ᵥ p + r) := by
  set e := J *ᵥ gnDirection n d r + r with he
  -- the residual is orthogonal to the range
  have hort : ∀ v, e ⬝ᵥ (J *ᵥ v) = 0 := by
    intro v
    have hJv : J *ᵥ v = ∑ i, (d.s i * (d.ZT i ⬝ᵥ v)) • fun a => d.Y a i := by
      funext a
      conv_lhs => rw [hd.eq]
      rw [← mulVec_mulVec, ← mulVec_mulVec]
      simp only [mulVec, dotProduct, Finset.sum_apply, Pi.smul_apply, smul_eq_mul]
      refine Finset.sum_congr rfl fun i _ => ?_
      rw [Finset.sum_eq_single i]
      · rw [Matrix.diagonal_apply_eq]; ring
      · intro j _ hj; rw [Matrix.diagonal_apply_ne _ hj.symm, zero_mul]
      · simp
    rw [hJv, dotProduct_sum]
    refine Finset.sum_eq_zero fun i _ => ?_
    rw [dotProduct_smul]
    by_cases h : keepIdx n (min M q) i
    · have hYY : ∀ j, (fun a => d.Y a j) ⬝ᵥ (fun a => d.Y a i) = if j = i then 1 else 0 := by
        intro j
        have := congrFun (congrFun hd.orthY j) i
        rwa [Matrix.mul_apply, Matrix.one_apply] at this
      have : e ⬝ᵥ (fun a => d.Y a i) = 0 := by
        rw [he, gnDirection_image hd r hpos, add_dotProduct, neg_dotProduct, sum_dotProduct, Finset.sum_eq_single i]
        · rw [if_pos h, smul_dotProduct, hYY, if_pos rfl, smul_eq_mul, mul_one, dotProduct_comm r]; ring
        · intro j _ hj
          split
          · rw [smul_dotProduct, hYY, if_neg hj, smul_zero]
          · rw [zero_dotProduct]
        · simp
      rw [this, smul_zero]
    · rw [hzero i h, zero_mul, zero_smul]
  have hsplit : J *ᵥ p + r = e + J *ᵥ (p - gnDirection n d r) := by
    rw [he, mulVec_sub]; abel
  clear_value e
  rw [hsplit, add_dotProduct, dotProduct_add, dotProduct_add, hort, dotProduct_comm (J *ᵥ (p - gnDirection n d r)) e, hort]
  have := dotProduct_self_nonneg' (J *ᵥ (p - gnDirection n d r))
  linarith

end Verif.Func
