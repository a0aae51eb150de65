import Mathlib.LinearAlgebra.Matrix.Block
import Mathlib.LinearAlgebra.Matrix.NonsingularInverse
import Verif.Lipschitz.PartialModel
import Verif.Lipschitz.FitExists

/-!
# C70: the partial Lipschitz matrix
-/

namespace Verif.Lip

open Verif Matrix

variable {m r : ℕ}

/-- `np.linalg.qr(U, mode = 'complete')`: `Q` is orthogonal and `U = Q R` with `R` upper triangular. -/
def QrSpec (U : Matrix (Fin m) (Fin r) ℝ) (Q : Matrix (Fin m) (Fin m) ℝ) : Prop :=
  Qᵀ * Q = 1 ∧ ∃ R : Matrix (Fin m) (Fin r) ℝ, U = Q * R ∧ ∀ i j, j.1 < i.1 → R i j = 0

/-- An upper triangular matrix with orthonormal columns is diagonal with entries `±1`. -/
theorem upper_orthonormal (hr : r ≤ m) (R : Matrix (Fin m) (Fin r) ℝ) (hR : ∀ i j, j.1 < i.1 → R i j = 0) (ho : Rᵀ * R = 1) :
    ∀ i j, R i j = 0 ∨ (i.1 = j.1 ∧ R i j * R i j = 1) := by
  -- the square block
  set S : Matrix (Fin r) (Fin r) ℝ := Matrix.of (fun i j => R (Fin.castLE hr i) j) with hS
  have hrow : ∀ (i : Fin m) (j : Fin r), r ≤ i.1 → R i j = 0 := fun i j h => hR i j (by have := j.2; omega)
  have hsum : ∀ f : Fin m → ℝ, (∀ i, r ≤ i.1 → f i = 0) → ∑ i, f i = ∑ i : Fin r, f (Fin.castLE hr i) := by
    intro f hf
    have h1 : ∑ i : Fin r, f (Fin.castLE hr i) = ∑ i ∈ Finset.univ.map (Fin.castLEEmb hr), f i := by
      rw [Finset.sum_map]; rfl
    rw [h1]
    symm
    refine Finset.sum_subset (Finset.subset_univ _) (fun i _ hi => hf i ?_)
    by_contra hlt
    push Not at hlt
    exact hi (Finset.mem_map.2 ⟨⟨i.1, hlt⟩, Finset.mem_univ _, by ext; rfl⟩)
  have hSo : Sᵀ * S = 1 := by
    ext i j
    have := congrFun (congrFun ho i) j
    rw [Matrix.mul_apply] at this ⊢
    rw [← this]
    symm
    refine hsum (fun k => Rᵀ i k * R k j) (fun k hk => ?_)
    rw [hrow k j hk, mul_zero]
  have hinv : S⁻¹ = Sᵀ := Matrix.inv_eq_left_inv hSo
  have hdet : IsUnit S.det := Matrix.isUnit_det_of_left_inverse hSo
  have hup : S.BlockTriangular id := by
    intro i j hij
    exact hR _ _ hij
  letI := Matrix.invertibleOfIsUnitDet S hdet
  have hlow : (Sᵀ).BlockTriangular id := by
    have := Matrix.blockTriangular_inv_of_blockTriangular hup
    rwa [hinv] at this
  have hdiag : ∀ i j : Fin r, i ≠ j → S i j = 0 := by
    intro i j hne
    rcases lt_or_gt_of_ne hne with h | h
    · exact hlow (show id i < id j from h)
    · exact hup (show id j < id i from h)
  intro i j
  by_cases hi : i.1 < r
  · have e : R i j = S ⟨i.1, hi⟩ j := rfl
    by_cases hij : i.1 = j.1
    · right
      refine ⟨hij, ?_⟩
      have hj : (⟨i.1, hi⟩ : Fin r) = j := Fin.ext hij
      rw [e, hj]
      have := congrFun (congrFun hSo j) j
      rw [Matrix.mul_apply, Matrix.one_apply_eq, Finset.sum_eq_single j] at this
      · exact this
      · intro k _ hk
        rw [hdiag k j hk, mul_zero]
      · simp
    · left
      rw [e]
      exact hdiag _ _ (fun h => hij (by rw [← h]))
  · left; exact hrow i j (not_lt.1 hi)

/-- **C70**: for orthonormal `U`, diagonal `J` with nonnegative entries and nonnegative `alpha`, the properties satisfy `Lᵀ L = H`. -/
theorem partial_gram (hr : r ≤ m) (U : Matrix (Fin m) (Fin r) ℝ) (hU : Uᵀ * U = 1) (d : Fin r → ℝ) (hd : ∀ i, 0 ≤ d i) (alpha : ℝ) (ha : 0 ≤ alpha)
    (Q : Matrix (Fin m) (Fin m) ℝ) (hQ : QrSpec U Q) :
    (partialL Q (Matrix.diagonal d) alpha)ᵀ * partialL Q (Matrix.diagonal d) alpha = partialH U (Matrix.diagonal d) alpha := by
  obtain ⟨hQ1, R, hUR, hR⟩ := hQ
  have hQ2 : Q * Qᵀ = 1 := mul_eq_one_comm.1 hQ1
  have hRo : Rᵀ * R = 1 := by
    rw [← hU, hUR, Matrix.transpose_mul, Matrix.mul_assoc, ← Matrix.mul_assoc Qᵀ, hQ1, Matrix.one_mul]
  have hRd := upper_orthonormal hr R hR hRo
  have hcol : ∀ j : Fin r, R (Fin.castLE hr j) j * R (Fin.castLE hr j) j = 1 := by
    intro j
    have := congrFun (congrFun hRo j) j
    rw [Matrix.mul_apply, Matrix.one_apply_eq, Finset.sum_eq_single (Fin.castLE hr j)] at this
    · exact this
    · intro k _ hk
      rcases hRd k j with h | ⟨h, -⟩
      · rw [h, mul_zero]
      · exact absurd (Fin.ext h) hk
    · simp
  have hjj : ∀ i : Fin m, 0 ≤ jjDiag (Matrix.diagonal d) alpha i := by
    intro i
    unfold jjDiag
    split
    · rw [Matrix.diagonal_apply_eq]; exact hd _
    · exact ha
  -- the left side is `Q diag(jj) Qᵀ`
  have hleft : (partialL Q (Matrix.diagonal d) alpha)ᵀ * partialL Q (Matrix.diagonal d) alpha = Q * Matrix.diagonal (jjDiag (m := m) (Matrix.diagonal d) alpha) * Qᵀ := by
    have := gram_sqrt Q (fun _ => 1) (by rw [hQ1]; exact Matrix.diagonal_one.symm) (fun _ => Or.inr rfl) (fun k h => absurd h one_ne_zero)
      (jjDiag (m := m) (Matrix.diagonal d) alpha) hjj
    unfold partialL
    rw [Matrix.mul_assoc Q (Matrix.diagonal _) Qᵀ, Matrix.mul_assoc Q (Matrix.diagonal _) Qᵀ]
    exact this
  have hRR : ∀ (c : Fin r → ℝ), R * Matrix.diagonal c * Rᵀ = Matrix.diagonal (fun i : Fin m => if h : i.1 < r then c ⟨i.1, h⟩ else 0) := by
    intro c
    ext i j
    rw [Matrix.mul_apply, Matrix.diagonal_apply]
    simp only [Matrix.mul_diagonal, Matrix.transpose_apply]
    by_cases hi : i.1 < r
    · rw [Finset.sum_eq_single ⟨i.1, hi⟩]
      · by_cases hij : i = j
        · subst hij
          rw [if_pos rfl, dif_pos hi]
          have := hcol ⟨i.1, hi⟩
          have e : Fin.castLE hr ⟨i.1, hi⟩ = i := Fin.ext rfl
          rw [e] at this
          linear_combination c ⟨i.1, hi⟩ * this
        · rw [if_neg hij]
          rcases hRd j ⟨i.1, hi⟩ with h | ⟨h, -⟩
          · rw [h, mul_zero]
          · exact absurd (Fin.ext h.symm) hij
      · intro k _ hk
        rcases hRd i k with h | ⟨h, -⟩
        · rw [h, zero_mul, zero_mul]
        · exact absurd (Fin.ext h.symm) hk
      · simp
    · rw [Finset.sum_eq_zero]
      · by_cases hij : i = j
        · rw [if_pos hij, dif_neg hi]
        · rw [if_neg hij]
      · intro k _
        rcases hRd i k with h | ⟨h, -⟩
        · rw [h, zero_mul, zero_mul]
        · exact absurd (h ▸ k.2) hi
  have h1 : U * Matrix.diagonal d * Uᵀ = Q * Matrix.diagonal (fun i : Fin m => if h : i.1 < r then d ⟨i.1, h⟩ else 0) * Qᵀ := by
    rw [← hRR d, hUR, Matrix.transpose_mul]
    simp only [Matrix.mul_assoc]
  have h2 : (1 : Matrix (Fin m) (Fin m) ℝ) - U * Uᵀ = Q * Matrix.diagonal (fun i : Fin m => if i.1 < r then 0 else 1) * Qᵀ := by
    have h3 : U * Uᵀ = Q * Matrix.diagonal (fun i : Fin m => if i.1 < r then 1 else 0) * Qᵀ := by
      have := hRR (fun _ => 1)
      rw [show Matrix.diagonal (fun _ : Fin r => (1 : ℝ)) = 1 from Matrix.diagonal_one, Matrix.mul_one] at this
      have e : (fun i : Fin m => if h : i.1 < r then (fun _ : Fin r => (1 : ℝ)) ⟨i.1, h⟩ else 0) = fun i : Fin m => if i.1 < r then (1 : ℝ) else 0 := by
        funext i; simp
      rw [e] at this
      rw [← this, hUR, Matrix.transpose_mul]
      simp only [Matrix.mul_assoc]
    rw [h3, ← hQ2, ← Matrix.sub_mul]
    nth_rewrite 1 [← Matrix.mul_one Q]
    rw [← Matrix.mul_sub, ← Matrix.diagonal_one, Matrix.diagonal_sub]
    congr 3
    funext i
    split <;> simp
  rw [hleft, partialH, h1, h2, ← Matrix.smul_mul, ← Matrix.mul_smul, ← Matrix.add_mul, ← Matrix.mul_add, ← Matrix.diagonal_smul, Matrix.diagonal_add]
  congr 3
  funext i
  simp only [jjDiag, Pi.smul_apply, smul_eq_mul]
  by_cases hi : i.1 < r
  · simp [hi]
  · simp [hi]

/-- **C70**, when no rotated direction is orthogonal to the mean gradient: the rotation, ordering, sign change and rescaling at the end of `fit` keep the
matrix, up to the scaling: `H = scale² (U₀ J₀ U₀ᵀ + alpha₀ (I - U₀ U₀ᵀ))`.  The directions stay orthonormal. -/
theorem finishPartial_partial (eigh : EighFn r) (he : EighSpec eigh) (data : List (Pt m × ℝ)) (grads : List (Pt m)) (s : ℝ) (U : Matrix (Fin m) (Fin r) ℝ)
    (J : Matrix (Fin r) (Fin r) ℝ) (hJ : Jᵀ = J) (alpha : ℝ)
    (hsg : grads = [] ∨ ∀ k, meanGrad (scaleGrads s grads) (ucol (U * (eigh J).2) k) ≠ 0) :
    partialH (finishPartial eigh data grads s U J alpha).1 (finishPartial eigh data grads s U J alpha).2.1 (finishPartial eigh data grads s U J alpha).2.2 =
      s ^ 2 • partialH U J alpha ∧
    (Uᵀ * U = 1 → (finishPartial eigh data grads s U J alpha).1ᵀ * (finishPartial eigh data grads s U J alpha).1 = 1) := by
  obtain ⟨h1, h2⟩ := he J hJ
  set V := (eigh J).2 with hV
  set W : Matrix (Fin r) (Fin r) ℝ := Matrix.of (fun i j => V i j.rev) with hW
  have hWo : Wᵀ * W = 1 := rev_orthonormal V h1
  have hWW : W * Wᵀ = 1 := mul_eq_one_comm.1 hWo
  have hJW : J = W * (Matrix.diagonal (fun i => (eigh J).1 i.rev) * Wᵀ) := by
    conv_lhs => rw [h2]
    exact rev_form V (eigh J).1
  obtain ⟨σ, hσ, -, h11⟩ := fixSigns_form (U * W) (scaleData s data) (scaleGrads s grads)
  have hs1 : ∀ k, σ k * σ k = 1 := by
    apply h11
    rcases hsg with rfl | h
    · left; rfl
    · right
      intro k
      have : ucol (U * W) k = ucol (U * V) k.rev := by
        funext i
        simp only [ucol, Matrix.mul_apply, hW, Matrix.of_apply]
      rw [this]
      exact h k.rev
  have hss : Matrix.diagonal σ * Matrix.diagonal σ = 1 := by
    rw [Matrix.diagonal_mul_diagonal]; simp only [hs1]; exact Matrix.diagonal_one
  have hproj : (U * W * Matrix.diagonal σ) * (U * W * Matrix.diagonal σ)ᵀ = U * Uᵀ := by
    rw [(flip_orthonormal (U * W) σ hs1).2, Matrix.transpose_mul, Matrix.mul_assoc, ← Matrix.mul_assoc W, hWW, Matrix.one_mul]
  have hform : ∀ d : Fin r → ℝ, (U * W * Matrix.diagonal σ) * Matrix.diagonal d * (U * W * Matrix.diagonal σ)ᵀ = U * (W * (Matrix.diagonal d * Wᵀ)) * Uᵀ := by
    intro d
    have hc : Matrix.diagonal σ * Matrix.diagonal d * Matrix.diagonal σ = Matrix.diagonal d := by
      rw [Matrix.diagonal_mul_diagonal, Matrix.diagonal_mul_diagonal]
      congr 1
      funext k
      linear_combination d k * hs1 k
    rw [Matrix.transpose_mul, Matrix.diagonal_transpose, Matrix.transpose_mul]
    calc U * W * Matrix.diagonal σ * Matrix.diagonal d * (Matrix.diagonal σ * (Wᵀ * Uᵀ))
        = U * W * (Matrix.diagonal σ * Matrix.diagonal d * Matrix.diagonal σ) * (Wᵀ * Uᵀ) := by simp only [Matrix.mul_assoc]
      _ = U * (W * (Matrix.diagonal d * Wᵀ)) * Uᵀ := by rw [hc]; simp only [Matrix.mul_assoc]
  have e1 : (finishPartial eigh data grads s U J alpha).1 = U * W * Matrix.diagonal σ := hσ
  constructor
  · rw [e1]
    simp only [finishPartial, partialH]
    rw [hproj, Matrix.mul_smul, Matrix.smul_mul, hform, ← hJW, smul_add, smul_smul]
  · intro hU
    rw [e1]
    refine (flip_orthonormal (U * W) σ hs1).1 ?_
    rw [Matrix.transpose_mul, Matrix.mul_assoc, ← Matrix.mul_assoc Uᵀ, hU, Matrix.one_mul, hWo]

theorem quad_partialH (U : Matrix (Fin m) (Fin r) ℝ) (J : Matrix (Fin r) (Fin r) ℝ) (alpha : ℝ) (y : Pt m) :
    quad (partialH U J alpha) y = quad J (Uᵀ *ᵥ y) + alpha * (y ⬝ᵥ y - (Uᵀ *ᵥ y) ⬝ᵥ (Uᵀ *ᵥ y)) := by
  have h1 : y ⬝ᵥ ((U * J * Uᵀ) *ᵥ y) = (Uᵀ *ᵥ y) ⬝ᵥ (J *ᵥ (Uᵀ *ᵥ y)) := by
    rw [Matrix.mul_assoc, ← Matrix.mulVec_mulVec, ← Matrix.mulVec_mulVec, Matrix.dotProduct_mulVec y, ← Matrix.mulVec_transpose]
  have h2 : y ⬝ᵥ ((U * Uᵀ) *ᵥ y) = (Uᵀ *ᵥ y) ⬝ᵥ (Uᵀ *ᵥ y) := by
    rw [← Matrix.mulVec_mulVec, Matrix.dotProduct_mulVec y, ← Matrix.mulVec_transpose]
  simp only [quad, partialH, Matrix.add_mulVec, Matrix.smul_mulVec, Matrix.sub_mulVec, Matrix.one_mulVec, dotProduct_add, dotProduct_smul, dotProduct_sub, h1, h2,
    smul_eq_mul]

/-- **C70**: feasibility in `_fixed_U` for the scaled data makes any `L` with `Lᵀ L = scale² (U J Uᵀ + alpha (I - U Uᵀ))` consistent with the original data. -/
theorem partial_consistent {s e : ℝ} (hs : 0 < s) (he : 0 ≤ e) {data : List (Pt m × ℝ)} {grads : List (Pt m)} {U : Matrix (Fin m) (Fin r) ℝ}
    {J : Matrix (Fin r) (Fin r) ℝ} {alpha : ℝ} (hf : FixedUFeasible (scaleData s data) (scaleGrads s grads) (e / s) U J alpha)
    {L : Matrix (Fin k) (Fin m) ℝ} (hL : Lᵀ * L = s ^ 2 • partialH U J alpha) : Consistent L e data ∧ ∀ g ∈ grads, GradConsistent L g := by
  obtain ⟨-, -, -, -, h1, h2⟩ := hf
  refine consistent_of_dom hs he (H := partialH U J alpha) (fun p hp hpos => ?_) h2 (fun x => ?_)
  · rw [quad_partialH]
    refine le_trans ?_ (h1 p hp)
    have := (slack2_pos_iff _ _ _).1 hpos
    rw [slack2, max_eq_left (by linarith)]
  · have : lnorm L x ^ 2 = quad (Lᵀ * L) x := by rw [quad_gram]; rfl
    rw [this, hL]
    simp [quad, Matrix.smul_mulVec, dotProduct_smul]

/-- The constraints of `_fixed_U` are stricter than those of the Lipschitz matrix when `epsilon` is given: for two samples with equal values and
`epsilon = 1` the zero matrix is consistent but not feasible, because `(|f_i - f_j| - epsilon)²` is used also when `|f_i - f_j| < epsilon`. -/
theorem fixedU_epsilon_false : ∃ (data : List (Pt 1 × ℝ)) (U : Matrix (Fin 1) (Fin 1) ℝ), Uᵀ * U = 1 ∧ Consistent (0 : Matrix (Fin 1) (Fin 1) ℝ) 1 data ∧
    ¬ FixedUFeasible data [] 1 U 0 0 := by
  refine ⟨[(![0], 0), (![1], 0)], 1, by simp, fun d hd d' hd' => ?_, fun h => ?_⟩
  · simp only [List.mem_cons, List.not_mem_nil, or_false] at hd hd'
    rcases hd with rfl | rfl <;> rcases hd' with rfl | rfl <;> simp [lnorm, nrm]
  · have := h.2.2.2.2.1 ((![0], 0), (![1], 0)) (by simp [pairsOf])
    norm_num [quad] at this

/-! ## The optimizer -/

/-- **C70**: the step along the geodesic keeps the columns orthonormal. -/
theorem geodesic_orthonormal (U Y : Matrix (Fin m) (Fin r) ℝ) (s : Fin r → ℝ) (ZT : Matrix (Fin r) (Fin r) ℝ) (hU : Uᵀ * U = 1) (hY : Yᵀ * Y = 1)
    (hZ : ZTᵀ * ZT = 1) (hperp : Uᵀ * (Y * Matrix.diagonal s * ZT) = 0) (t : ℝ) : (geodesic U Y s ZT t)ᵀ * geodesic U Y s ZT t = 1 := by
  have hZZ : ZT * ZTᵀ = 1 := mul_eq_one_comm.1 hZ
  have h1 : Uᵀ * Y * Matrix.diagonal s = 0 := by
    have : Uᵀ * (Y * Matrix.diagonal s * ZT) * ZTᵀ = 0 := by rw [hperp, Matrix.zero_mul]
    simp only [Matrix.mul_assoc, hZZ, Matrix.mul_one] at this
    rw [Matrix.mul_assoc]; exact this
  have h2 : Uᵀ * Y * Matrix.diagonal (fun i => Real.sin (s i * t)) = 0 := by
    ext i j
    have := congrFun (congrFun h1 i) j
    rw [Matrix.mul_diagonal] at this ⊢
    rw [Matrix.zero_apply] at this ⊢
    rcases mul_eq_zero.1 this with h | h
    · rw [h, zero_mul]
    · rw [h, zero_mul, Real.sin_zero, mul_zero]
  set C := Matrix.diagonal (fun i => Real.cos (s i * t)) with hC
  set S := Matrix.diagonal (fun i => Real.sin (s i * t)) with hS
  have h2' : S * (Yᵀ * U) = 0 := by
    have := congrArg Matrix.transpose h2
    rw [Matrix.transpose_mul, Matrix.transpose_mul, Matrix.transpose_transpose, Matrix.transpose_zero, hS, Matrix.diagonal_transpose] at this
    exact this
  have hCS : C * C + S * S = 1 := by
    rw [hC, hS, Matrix.diagonal_mul_diagonal, Matrix.diagonal_mul_diagonal, Matrix.diagonal_add, ← Matrix.diagonal_one]
    congr 1
    funext i
    have := Real.cos_sq_add_sin_sq (s i * t)
    simp only [pow_two] at this
    exact this
  have hCt : Cᵀ = C := Matrix.diagonal_transpose _
  have hSt : Sᵀ = S := Matrix.diagonal_transpose _
  have e : geodesic U Y s ZT t = (U * ZTᵀ * C + Y * S) * ZT := by
    unfold geodesic
    rw [Matrix.add_mul]
    simp only [Matrix.mul_assoc, hC, hS]
  have hmid : (U * ZTᵀ * C + Y * S)ᵀ * (U * ZTᵀ * C + Y * S) = 1 := by
    have a1 : (U * ZTᵀ * C)ᵀ * (U * ZTᵀ * C) = C * C := by
      rw [Matrix.transpose_mul, Matrix.transpose_mul, Matrix.transpose_transpose, hCt]
      calc C * (ZT * Uᵀ) * (U * ZTᵀ * C) = C * (ZT * (Uᵀ * U) * ZTᵀ) * C := by simp only [Matrix.mul_assoc]
        _ = C * C := by rw [hU, Matrix.mul_one, hZZ, Matrix.mul_one]
    have a2 : (Y * S)ᵀ * (Y * S) = S * S := by
      rw [Matrix.transpose_mul, hSt]
      calc S * Yᵀ * (Y * S) = S * (Yᵀ * Y) * S := by simp only [Matrix.mul_assoc]
        _ = S * S := by rw [hY, Matrix.mul_one]
    have a3 : (U * ZTᵀ * C)ᵀ * (Y * S) = 0 := by
      rw [Matrix.transpose_mul, Matrix.transpose_mul, Matrix.transpose_transpose]
      calc Cᵀ * (ZT * Uᵀ) * (Y * S) = Cᵀ * ZT * (Uᵀ * Y * S) := by simp only [Matrix.mul_assoc]
        _ = 0 := by rw [h2, Matrix.mul_zero]
    have a4 : (Y * S)ᵀ * (U * ZTᵀ * C) = 0 := by
      rw [Matrix.transpose_mul, hSt]
      calc S * Yᵀ * (U * ZTᵀ * C) = S * (Yᵀ * U) * (ZTᵀ * C) := by simp only [Matrix.mul_assoc]
        _ = 0 := by rw [h2', Matrix.zero_mul]
    rw [Matrix.transpose_add, Matrix.add_mul, Matrix.mul_add, Matrix.mul_add, a1, a2, a3, a4, add_zero, zero_add, hCS]
  rw [e, Matrix.transpose_mul, Matrix.mul_assoc, ← Matrix.mul_assoc ((U * ZTᵀ * C + Y * S)ᵀ), hmid, Matrix.one_mul, hZ]

/-- An iterate whose `J` and `alpha` are the answer of the solver for its subspace. -/
def Solved (S : PartialSolver m r) (it : Iter m r) : Prop := it.2 = S.fixedU it.1

theorem backtrack_inv (S : PartialSolver m r) (U dU : Matrix (Fin m) (Fin r) ℝ) (obj : ℝ) (P : Matrix (Fin m) (Fin r) ℝ → Prop)
    (hg : ∀ t, P (geodesic U (S.svd dU).1 (S.svd dU).2.1 (S.svd dU).2.2 t)) (n : ℕ) (t : ℝ) (last : Iter m r) (hlast : Solved S last ∧ P last.1) :
    Solved S (backtrack S U dU obj n t last) ∧ P (backtrack S U dU obj n t last).1 := by
  induction n generalizing t last with
  | zero => exact hlast
  | succ n ih =>
    rw [backtrack]
    simp only
    split
    · exact ⟨rfl, hg t⟩
    · exact ih _ _ ⟨rfl, hg t⟩

theorem optLoop_monotone (S : PartialSolver m r) : ∀ (n : ℕ) (it : Iter m r) (obj : ℝ), Solved S it → partialObj m it.2.1 it.2.2 = obj → ∀ res, optLoop S n it obj = .ok res →
    partialObj m res.2.1 res.2.2 ≤ obj ∧ Solved S res := by
  intro n
  induction n with
  | zero => intro it obj hs ho res h; rw [optLoop] at h; obtain rfl := Except.ok.inj h; exact ⟨ho.le, hs⟩
  | succ n ih =>
    intro it obj hs ho res h
    rw [optLoop] at h
    split at h
    · cases h
    · rename_i dU hd
      have hb := (backtrack_inv S it.1 dU obj (fun _ => True) (fun _ => trivial) 10 1 it ⟨hs, trivial⟩).1
      split at h
      · obtain rfl := Except.ok.inj h; exact ⟨ho.le, hs⟩
      · simp only at h
        split at h
        · obtain rfl := Except.ok.inj h; exact ⟨ho.le, hs⟩
        · rename_i hle
          split at h
          · obtain rfl := Except.ok.inj h; exact ⟨not_lt.1 hle, hb⟩
          · obtain ⟨a, b⟩ := ih _ _ hb rfl res h
            exact ⟨a.trans (not_lt.1 hle), b⟩

/-- **C70**: the objective of what `_optimize` returns is never above that of the starting subspace, and the returned `J`, `alpha` are the solver's answer for
the returned subspace, for every behaviour of the solvers. -/
theorem optimizeU_monotone (S : PartialSolver m r) (maxiter : ℕ) (U0 : Matrix (Fin m) (Fin r) ℝ) (res : Iter m r) (h : optimizeU S maxiter U0 = .ok res) :
    partialObj m res.2.1 res.2.2 ≤ partialObj m (S.fixedU U0).1 (S.fixedU U0).2 ∧ Solved S res := by
  exact optLoop_monotone S maxiter (U0, S.fixedU U0) _ rfl rfl res h

/-- **C70**: if the starting subspace is orthonormal and the solver's directions are orthogonal to the subspace (its constraint), the returned subspace is
orthonormal. -/
theorem optimizeU_orthonormal (S : PartialSolver m r) (hsvd : ∀ A, (S.svd A).1ᵀ * (S.svd A).1 = 1 ∧ (S.svd A).2.2ᵀ * (S.svd A).2.2 = 1 ∧
      A = (S.svd A).1 * Matrix.diagonal (S.svd A).2.1 * (S.svd A).2.2) (hdes : ∀ U J a dU, S.descent U J a = some dU → Uᵀ * dU = 0)
    (maxiter : ℕ) (U0 : Matrix (Fin m) (Fin r) ℝ) (hU0 : U0ᵀ * U0 = 1) (res : Iter m r) (h : optimizeU S maxiter U0 = .ok res) : res.1ᵀ * res.1 = 1 := by
  have key : ∀ (n : ℕ) (it : Iter m r) (obj : ℝ), Solved S it → it.1ᵀ * it.1 = 1 → ∀ res, optLoop S n it obj = .ok res → res.1ᵀ * res.1 = 1 := by
    intro n
    induction n with
    | zero => intro it obj _ ho res h; rw [optLoop] at h; obtain rfl := Except.ok.inj h; exact ho
    | succ n ih =>
      intro it obj hs ho res h
      rw [optLoop] at h
      split at h
      · cases h
      · rename_i dU hd
        obtain ⟨v1, v2, v3⟩ := hsvd dU
        have hperp := hdes _ _ _ _ hd
        have hb := backtrack_inv S it.1 dU obj (fun V => Vᵀ * V = 1)
          (fun t => geodesic_orthonormal _ _ _ _ ho v1 v2 (by rw [← v3]; exact hperp) t) 10 1 it ⟨hs, ho⟩
        split at h
        · obtain rfl := Except.ok.inj h; exact ho
        · simp only at h
          split at h
          · obtain rfl := Except.ok.inj h; exact ho
          · split at h
            · obtain rfl := Except.ok.inj h; exact hb.2
            · exact ih _ _ hb.1 hb.2 res h
  exact key maxiter (U0, S.fixedU U0) _ rfl hU0 res h

/-- **C70**: the objective of the optimizer is the trace of the matrix. -/
theorem partialObj_trace (U : Matrix (Fin m) (Fin r) ℝ) (hU : Uᵀ * U = 1) (J : Matrix (Fin r) (Fin r) ℝ) (alpha : ℝ) :
    partialObj m J alpha = Matrix.trace (partialH U J alpha) := by
  unfold partialObj partialH
  rw [Matrix.trace_add, Matrix.trace_smul, Matrix.trace_sub, Matrix.trace_one, Matrix.trace_mul_cycle, hU, Matrix.one_mul, Matrix.trace_mul_comm U, hU,
    Matrix.trace_one, Fintype.card_fin, Fintype.card_fin, smul_eq_mul, mul_comm]

/-- The `j`-th trial of the line search: the step `10^{-j}` along the geodesic, with the solver's answer there. -/
noncomputable def lineTrial (S : PartialSolver m r) (U dU : Matrix (Fin m) (Fin r) ℝ) (t : ℝ) : Iter m r :=
  (geodesic U (S.svd dU).1 (S.svd dU).2.1 (S.svd dU).2.2 t, S.fixedU (geodesic U (S.svd dU).1 (S.svd dU).2.1 (S.svd dU).2.2 t))

theorem backtrack_first (S : PartialSolver m r) (U dU : Matrix (Fin m) (Fin r) ℝ) (obj : ℝ) :
    ∀ (n : ℕ) (t : ℝ) (last : Iter m r) (j : ℕ), j < n → partialObj m (lineTrial S U dU (t * (1 / 10) ^ j)).2.1 (lineTrial S U dU (t * (1 / 10) ^ j)).2.2 < obj →
      (∀ i, i < j → obj ≤ partialObj m (lineTrial S U dU (t * (1 / 10) ^ i)).2.1 (lineTrial S U dU (t * (1 / 10) ^ i)).2.2) →
      backtrack S U dU obj n t last = lineTrial S U dU (t * (1 / 10) ^ j) := by
  intro n
  induction n with
  | zero => intro t last j hj; omega
  | succ n ih =>
    intro t last j hj hlt hle
    rw [backtrack]
    change (if partialObj m (lineTrial S U dU t).2.1 (lineTrial S U dU t).2.2 < obj then lineTrial S U dU t
      else backtrack S U dU obj n (t * (1 / 10)) (lineTrial S U dU t)) = _
    cases j with
    | zero =>
      rw [pow_zero, mul_one] at hlt ⊢
      rw [if_pos hlt]
    | succ j =>
      have h0 := hle 0 (by omega)
      rw [pow_zero, mul_one] at h0
      rw [if_neg (not_lt.2 h0)]
      have e : ∀ i : ℕ, t * (1 / 10) * (1 / 10) ^ i = t * (1 / 10) ^ (i + 1) := fun i => by rw [pow_succ']; ring
      have := ih (t * (1 / 10)) (lineTrial S U dU t) j (by omega) (by rw [e]; exact hlt) (fun i hi => by rw [e]; exact hle (i + 1) (by omega))
      rw [e] at this
      exact this

/-- **C70**: if the descent direction is not too short and one of the steps `1, 1/10, ..., 10^{-9}` along it has a smaller objective, then the result of
`_optimize` has an objective at most that of the first such step, so it is strictly better than the start. -/
theorem optimizeU_progress (S : PartialSolver m r) (maxiter : ℕ) (hmax : 1 ≤ maxiter) (U0 : Matrix (Fin m) (Fin r) ℝ) (res : Iter m r)
    (h : optimizeU S maxiter U0 = .ok res) {dU : Matrix (Fin m) (Fin r) ℝ} (hd : S.descent U0 (S.fixedU U0).1 (S.fixedU U0).2 = some dU) (hn : S.tolDx ≤ S.norm dU)
    {j : ℕ} (hj : j < 10) (hlt : partialObj m (lineTrial S U0 dU ((1 / 10) ^ j)).2.1 (lineTrial S U0 dU ((1 / 10) ^ j)).2.2 < partialObj m (S.fixedU U0).1 (S.fixedU U0).2)
    (hle : ∀ i, i < j → partialObj m (S.fixedU U0).1 (S.fixedU U0).2 ≤ partialObj m (lineTrial S U0 dU ((1 / 10) ^ i)).2.1 (lineTrial S U0 dU ((1 / 10) ^ i)).2.2) :
    partialObj m res.2.1 res.2.2 ≤ partialObj m (lineTrial S U0 dU ((1 / 10) ^ j)).2.1 (lineTrial S U0 dU ((1 / 10) ^ j)).2.2 := by
  obtain ⟨n, rfl⟩ : ∃ n, maxiter = n + 1 := ⟨maxiter - 1, by omega⟩
  unfold optimizeU at h
  rw [optLoop, hd] at h
  simp only at h
  rw [if_neg (not_lt.2 hn)] at h
  have hb := backtrack_first S U0 dU (partialObj m (S.fixedU U0).1 (S.fixedU U0).2) 10 1 (U0, S.fixedU U0) j hj (by rw [one_mul]; exact hlt)
    (fun i hi => by rw [one_mul]; exact hle i hi)
  rw [one_mul] at hb
  rw [hb, if_neg (not_lt.2 hlt.le)] at h
  split at h
  · obtain rfl := Except.ok.inj h; exact le_rfl
  · exact (optLoop_monotone S n (lineTrial S U0 dU ((1 / 10) ^ j)) _ rfl rfl res h).1

/-- A quarter turn takes the first axis to the second; the objective below depends on the first coordinate of the direction. -/
example : ∃ (S : PartialSolver 2 1) (dU : Matrix (Fin 2) (Fin 1) ℝ) (res : Iter 2 1), optimizeU S 1 !![1; 0] = .ok res ∧
    S.descent !![1; 0] (S.fixedU !![1; 0]).1 (S.fixedU !![1; 0]).2 = some dU ∧ S.tolDx ≤ S.norm dU ∧
    partialObj 2 (lineTrial S !![1; 0] dU ((1 / 10) ^ 0)).2.1 (lineTrial S !![1; 0] dU ((1 / 10) ^ 0)).2.2 <
      partialObj 2 (S.fixedU !![1; 0]).1 (S.fixedU !![1; 0]).2 := by
  let S : PartialSolver 2 1 := ⟨fun U => (0, (U 0 0) ^ 2), fun _ _ _ => some !![0; Real.pi / 2],
    fun _ => (!![0; 1], (fun _ => Real.pi / 2), 1), fun _ => Real.pi / 2, 0, 0⟩
  have hlt : partialObj 2 (lineTrial S !![1; 0] !![0; Real.pi / 2] ((1 / 10) ^ 0)).2.1 (lineTrial S !![1; 0] !![0; Real.pi / 2] ((1 / 10) ^ 0)).2.2 <
      partialObj 2 (S.fixedU !![1; 0]).1 (S.fixedU !![1; 0]).2 := by
    simp [S, lineTrial, partialObj, geodesic, Matrix.mul_apply]
  have hok : ∃ res, optimizeU S 1 !![1; 0] = .ok res := by
    unfold optimizeU
    rw [optLoop]
    simp only [S]
    split
    · exact ⟨_, rfl⟩
    · split
      · exact ⟨_, rfl⟩
      · split <;> exact ⟨_, rfl⟩
  obtain ⟨res, h⟩ := hok
  exact ⟨S, !![0; Real.pi / 2], res, h, rfl, by simp only [S]; positivity, hlt⟩

example : QrSpec (!![1; 0] : Matrix (Fin 2) (Fin 1) ℝ) 1 := by
  refine ⟨by simp, !![1; 0], by simp, ?_⟩
  intro i j h
  fin_cases j
  fin_cases i
  · simp at h
  · rfl

end Verif.Lip
