import Verif.Misc.ActiveModel
import Verif.Lipschitz.FitExists
import Mathlib.Analysis.InnerProductSpace.PiL2
import Mathlib.Data.Fin.Tuple.Sort

/-!
# A routine meeting the specification of `scipy.linalg.svd` exists

So the hypotheses `SvdSpec svd` of the theorems on active subspaces are never vacuous.
-/

namespace Verif.Misc

open Verif Verif.Lip Matrix

variable {m : ℕ}

/-- A symmetric matrix has a spectral decomposition with decreasing eigenvalues. -/
theorem exists_sorted_eigh (H : Matrix (Fin m) (Fin m) ℝ) (hH : Hᵀ = H) :
    ∃ (U : Matrix (Fin m) (Fin m) ℝ) (d : Fin m → ℝ), Uᵀ * U = 1 ∧ H = U * Matrix.diagonal d * Uᵀ ∧ Antitone d := by
  obtain ⟨eigh, he⟩ := exists_eigh m
  obtain ⟨h1, h2⟩ := he H hH
  set Q := (eigh H).2
  set e := (eigh H).1
  set σ := Tuple.sort (fun i => - e i)
  have hmono := Tuple.monotone_sort (fun i => - e i)
  refine ⟨Q.submatrix id σ, fun i => e (σ i), ?_, ?_, ?_⟩
  · ext i j
    have := congrFun (congrFun h1 (σ i)) (σ j)
    rw [Matrix.mul_apply] at this ⊢
    simp only [Matrix.transpose_apply, Matrix.submatrix_apply, id] at this ⊢
    rw [this, Matrix.one_apply, Matrix.one_apply]
    simp
  · conv_lhs => rw [h2]
    ext i j
    rw [Matrix.mul_apply, Matrix.mul_apply]
    simp only [Matrix.mul_diagonal, Matrix.transpose_apply, Matrix.submatrix_apply, id]
    exact (Equiv.sum_comp σ (fun x => Q i x * e x * Q j x)).symm
  · intro i j hij
    have := hmono hij
    simpa [σ] using this

theorem toLp_inner {k : ℕ} (v w : Fin k → ℝ) : inner ℝ (WithLp.toLp 2 v) (WithLp.toLp 2 w) = v ⬝ᵥ w := by
  rw [EuclideanSpace.inner_toLp_toLp]
  simp [dotProduct_comm]

theorem exists_fsvd {k : ℕ} (A : Matrix (Fin m) (Fin k) ℝ) : ∃ d : FSvd m k, IsFSvd A d := by
  have hsym : (A * Aᵀ)ᵀ = A * Aᵀ := by rw [Matrix.transpose_mul, Matrix.transpose_transpose]
  obtain ⟨U, lam, hU, hA, hanti⟩ := exists_sorted_eigh (A * Aᵀ) hsym
  have hU' : U * Uᵀ = 1 := mul_eq_one_comm.1 hU
  -- the rows of `B = Uᵀ A` are orthogonal with squared lengths `lam`
  set B : Matrix (Fin m) (Fin k) ℝ := Uᵀ * A with hB
  have hBB : B * Bᵀ = Matrix.diagonal lam := by
    have : B * Bᵀ = Uᵀ * (A * Aᵀ) * U := by rw [hB]; simp only [Matrix.transpose_mul, Matrix.transpose_transpose, Matrix.mul_assoc]
    rw [this, hA]
    calc Uᵀ * (U * Matrix.diagonal lam * Uᵀ) * U = (Uᵀ * U) * Matrix.diagonal lam * (Uᵀ * U) := by simp only [Matrix.mul_assoc]
      _ = _ := by rw [hU, Matrix.one_mul, Matrix.mul_one]
  have hrow : ∀ i j, B i ⬝ᵥ B j = if i = j then lam i else 0 := by
    intro i j
    have := congrFun (congrFun hBB i) j
    rw [Matrix.mul_apply, Matrix.diagonal_apply] at this
    rw [← this]
    rfl
  have hlam : ∀ i, 0 ≤ lam i := by
    intro i
    have := hrow i i
    rw [if_pos rfl] at this
    rw [← this]
    exact dotProduct_self_nonneg' _
  have hzero : ∀ i, lam i = 0 → B i = 0 := by
    intro i hi
    have := hrow i i
    rw [if_pos rfl, hi] at this
    exact dotProduct_self_eq_zero.1 this
  -- normalized rows
  let w : Fin m → Fin k → ℝ := fun i => (Real.sqrt (lam i))⁻¹ • B i
  have hw : ∀ i j, 0 < lam i → 0 < lam j → w i ⬝ᵥ w j = if i = j then 1 else 0 := by
    intro i j hi hj
    simp only [w, smul_dotProduct, dotProduct_smul, hrow, smul_eq_mul]
    split
    · rename_i e
      subst e
      have := Real.mul_self_sqrt hi.le
      have hp := Real.sqrt_pos.2 hi
      field_simp
      linarith
    · simp
  have hon : Orthonormal ℝ (fun i : {i : Fin m // 0 < lam i} => WithLp.toLp 2 (w i.1)) := by
    rw [orthonormal_iff_ite]
    intro i j
    rw [toLp_inner, hw i.1 j.1 i.2 j.2]
    simp [Subtype.ext_iff]
  -- positive values sit in the first `k` places
  have hpos : ∀ i : Fin m, 0 < lam i → (i : ℕ) < k := by
    intro i hi
    have h1 : ∀ j : Fin (i + 1), 0 < lam ⟨j, by omega⟩ := fun j => lt_of_lt_of_le hi (hanti (show (⟨j, by omega⟩ : Fin m) ≤ i by
      rw [Fin.le_def]; simp only; omega))
    have h2 := hon.comp (fun j : Fin (i + 1) => (⟨⟨j, by omega⟩, h1 j⟩ : {i : Fin m // 0 < lam i})) (by
      intro a b hab
      simp only [Subtype.mk.injEq, Fin.mk.injEq] at hab
      exact Fin.ext hab)
    have := h2.linearIndependent.fintype_card_le_finrank
    simp at this
    omega
  -- extension to a basis
  let v : Fin k → EuclideanSpace ℝ (Fin k) := fun j => if h : (j : ℕ) < m then WithLp.toLp 2 (w ⟨j, h⟩) else 0
  let S : Set (Fin k) := {j | ∃ h : (j : ℕ) < m, 0 < lam ⟨j, h⟩}
  have hS : Orthonormal ℝ (S.domRestrict v) := by
    have := hon.comp (fun j : S => (⟨⟨j.1, j.2.choose⟩, j.2.choose_spec⟩ : {i : Fin m // 0 < lam i})) (by
      intro a b hab
      simp only [Subtype.mk.injEq, Fin.mk.injEq] at hab
      exact Subtype.ext (Fin.ext hab))
    convert this using 1
    funext j
    have hj := j.2.choose
    simp only [Set.domRestrict_apply, v, Function.comp]
    rw [dif_pos hj]
  obtain ⟨b, hb⟩ := hS.exists_orthonormalBasis_extension_of_card_eq (by simp)
  let V : Matrix (Fin k) (Fin k) ℝ := Matrix.of fun a j => (b j).ofLp a
  have hV : Vᵀ * V = 1 := by
    ext i j
    have := orthonormal_iff_ite.1 b.orthonormal i j
    rw [Matrix.mul_apply, Matrix.one_apply, ← this]
    have e : inner ℝ (b i) (b j) = (b i).ofLp ⬝ᵥ (b j).ofLp := toLp_inner _ _
    rw [e]
    rfl
  have hV' : V * Vᵀ = 1 := mul_eq_one_comm.1 hV
  let s : List ℝ := (List.finRange (min m k)).map (fun i : Fin (min m k) => Real.sqrt (lam ⟨i, lt_of_lt_of_le i.2 (min_le_left _ _)⟩))
  have hs : ∀ i : Fin m, (i : ℕ) < k → s.getD i 0 = Real.sqrt (lam i) := by
    intro i hik
    have : (i : ℕ) < min m k := by omega
    rw [List.getD_eq_getElem?_getD, List.getElem?_eq_getElem (by simpa [s] using this)]
    simp [s]
  have hBV : B * V = sigmaMat m k s := by
    ext i j
    rw [Matrix.mul_apply]
    have e0 : ∑ a, B i a * V a j = B i ⬝ᵥ (b j).ofLp := rfl
    rw [e0]
    simp only [sigmaMat, Matrix.of_apply]
    rcases (hlam i).eq_or_lt with h0 | h0
    · rw [hzero i h0.symm, zero_dotProduct]
      split
      · rename_i e
        rw [hs i (by omega), ← h0, Real.sqrt_zero]
      · rfl
    · have hik := hpos i h0
      have hbi : (b ⟨i, hik⟩).ofLp = w i := by
        rw [hb ⟨i, hik⟩ ⟨i.2, h0⟩]
        simp [v]
      have hBi : B i = Real.sqrt (lam i) • (b ⟨i, hik⟩).ofLp := by
        rw [hbi]
        simp only [w, smul_smul]
        rw [mul_inv_cancel₀ (Real.sqrt_pos.2 h0).ne', one_smul]
      have hij := orthonormal_iff_ite.1 b.orthonormal ⟨i, hik⟩ j
      have e : inner ℝ (b ⟨i, hik⟩) (b j) = (b ⟨i, hik⟩).ofLp ⬝ᵥ (b j).ofLp := toLp_inner _ _
      rw [e] at hij
      rw [hBi, smul_dotProduct, hij, hs i hik]
      by_cases hc : (i : ℕ) = j
      · rw [if_pos hc, if_pos (Fin.ext hc)]; simp
      · rw [if_neg hc, if_neg (fun e => hc (congrArg Fin.val e))]; simp
  refine ⟨⟨U, s, V⟩, hU, hV, by simp [s], ?_, ?_, ?_⟩
  · intro x hx
    obtain ⟨i, _, rfl⟩ := List.mem_map.1 hx
    exact Real.sqrt_nonneg _
  · simp only [s]
    rw [List.pairwise_map]
    refine (List.pairwise_lt_finRange _).imp ?_
    intro a b hab
    exact Real.sqrt_le_sqrt (hanti (show (⟨a, _⟩ : Fin m) ≤ ⟨b, _⟩ from hab.le))
  · show A = U * sigmaMat m k s * Vᵀ
    rw [← hBV, hB]
    calc A = (U * Uᵀ) * A * (V * Vᵀ) := by rw [hU', hV', Matrix.one_mul, Matrix.mul_one]
      _ = _ := by simp only [Matrix.mul_assoc]

theorem exists_svd (m : ℕ) : ∃ svd : SvdFn m, SvdSpec svd := by
  have h := fun (k : ℕ) (A : Matrix (Fin m) (Fin k) ℝ) => exists_fsvd A
  choose svd hs using h
  exact ⟨svd, hs⟩

end Verif.Misc
