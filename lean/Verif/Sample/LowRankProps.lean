import Mathlib.LinearAlgebra.Matrix.DotProduct
import Mathlib.LinearAlgebra.Matrix.NonsingularInverse
import Mathlib.Tactic.FinCases
import Verif.Sample.LowRankModel
import Verif.Lipschitz.BoundProps

/-!
# C48: reducing `L` keeps the metric
-/

namespace Verif.Samp

open Verif Matrix

variable {k m p : ℕ}

theorem dot_mulVec_gram {n : ℕ} (A : Matrix (Fin n) (Fin m) ℝ) (x : Lip.Pt m) : (A *ᵥ x) ⬝ᵥ (A *ᵥ x) = x ⬝ᵥ ((Aᵀ * A) *ᵥ x) := by
  rw [← Matrix.mulVec_mulVec, Matrix.dotProduct_mulVec x Aᵀ, Matrix.vecMul_transpose]

/-- The squared length of `L x` in terms of the singular value decomposition. -/
theorem svd_sq {L : Matrix (Fin k) (Fin m) ℝ} {d : Svd p m} (h : IsSvd L d) (x : Lip.Pt m) :
    Lip.nrm (L *ᵥ x) ^ 2 = ∑ i, d.s i ^ 2 * (d.VT *ᵥ x) i ^ 2 := by
  obtain ⟨⟨U, hU, hL⟩, _, _, _⟩ := h
  have e : L *ᵥ x = U *ᵥ (Matrix.diagonal d.s *ᵥ (d.VT *ᵥ x)) := by rw [hL, Matrix.mulVec_mulVec, Matrix.mulVec_mulVec, Matrix.mul_assoc]
  rw [Lip.nrm_sq, e, dot_mulVec_gram, hU, Matrix.one_mulVec, dotProduct]
  refine Finset.sum_congr rfl fun i _ => ?_
  rw [Matrix.mulVec_diagonal]; ring

theorem sum_get_filter {n : ℕ} (P : Fin n → Prop) [DecidablePred P] (f : Fin n → ℝ) :
    ∑ a : Fin ((List.finRange n).filter (fun i => decide (P i))).length, f (((List.finRange n).filter (fun i => decide (P i)))[a]) = ∑ i, if P i then f i else 0 := by
  have e1 : ∑ a : Fin ((List.finRange n).filter (fun i => decide (P i))).length, f (((List.finRange n).filter (fun i => decide (P i)))[a])
      = (((List.finRange n).filter (fun i => decide (P i))).map f).sum := by
    rw [← List.sum_ofFn]
    congr 1
    refine List.ext_getElem (by simp) fun i h1 h2 => ?_
    simp
  rw [e1]
  have e2 : ∀ l : List (Fin n), ((l.filter (fun i => decide (P i))).map f).sum = (l.map (fun i => if P i then f i else 0)).sum := by
    intro l
    induction l with
    | nil => simp
    | cons a l ih =>
      by_cases h : P a
      · rw [List.filter_cons_of_pos (by simpa using h), List.map_cons, List.sum_cons, List.map_cons, List.sum_cons, if_pos h, ih]
      · rw [List.filter_cons_of_neg (by simpa using h), List.map_cons, List.sum_cons, if_neg h, ih, zero_add]
  rw [e2]
  have := List.sum_ofFn (f := fun i => if P i then f i else 0)
  rw [List.ofFn_eq_map] at this
  exact this

open Classical in
/-- The squared length after the reduction: only the kept singular values count. -/
theorem reduced_sq (d : Svd p m) (x : Lip.Pt m) :
    Lip.nrm (reducedL d (keptIdx d) *ᵥ x) ^ 2 = ∑ i, if ¬ |d.s i - 0| ≤ svTol then d.s i ^ 2 * (d.VT *ᵥ x) i ^ 2 else 0 := by
  rw [Lip.nrm_sq, dotProduct, ← sum_get_filter (fun i => ¬ |d.s i - 0| ≤ svTol) (fun i => d.s i ^ 2 * (d.VT *ᵥ x) i ^ 2)]
  have e : ∀ a : Fin (keptIdx d).length, (reducedL d (keptIdx d) *ᵥ x) a = d.s (keptIdx d)[a] * (d.VT *ᵥ x) (keptIdx d)[a] := by
    intro a
    simp only [Matrix.mulVec, dotProduct, reducedL]
    rw [Finset.mul_sum]
    exact Finset.sum_congr rfl fun j _ => by ring
  refine Finset.sum_congr rfl fun a _ => ?_
  rw [e a]
  show _ = d.s (keptIdx d)[a] ^ 2 * (d.VT *ᵥ x) (keptIdx d)[a] ^ 2
  ring

theorem svTol_pos : 0 < svTol := by unfold svTol; positivity

theorem row_bound {d : Svd p m} (h : d.VT * d.VTᵀ = 1) (x : Lip.Pt m) : ∑ i, (d.VT *ᵥ x) i ^ 2 ≤ x ⬝ᵥ x := by
  have hz := Lip.dotProduct_self_nonneg' (x - d.VTᵀ *ᵥ (d.VT *ᵥ x))
  rw [sub_dotProduct, dotProduct_sub, dotProduct_sub] at hz
  have e1 : (d.VTᵀ *ᵥ (d.VT *ᵥ x)) ⬝ᵥ x = (d.VT *ᵥ x) ⬝ᵥ (d.VT *ᵥ x) := by
    rw [Matrix.mulVec_transpose, ← Matrix.dotProduct_mulVec]
  have e2 : (d.VTᵀ *ᵥ (d.VT *ᵥ x)) ⬝ᵥ (d.VTᵀ *ᵥ (d.VT *ᵥ x)) = (d.VT *ᵥ x) ⬝ᵥ (d.VT *ᵥ x) := by
    rw [dot_mulVec_gram, Matrix.transpose_transpose, h, Matrix.one_mulVec]
  rw [dotProduct_comm x (d.VTᵀ *ᵥ _), e1, e2] at hz
  have : ∑ i, (d.VT *ᵥ x) i ^ 2 = (d.VT *ᵥ x) ⬝ᵥ (d.VT *ᵥ x) := by
    rw [dotProduct]; exact Finset.sum_congr rfl fun i _ => pow_two _
  rw [this]; linarith

theorem lowRankL_cases (L : Matrix (Fin k) (Fin m) ℝ) (d : Svd p m) : lowRankL L d = ⟨k, L⟩ ∨ lowRankL L d = ⟨_, reducedL d (keptIdx d)⟩ := by
  unfold lowRankL
  split
  · exact .inl rfl
  · exact .inr rfl

/-- C48: in general the reduction shortens no vector by more than the tolerance allows: the squared length loses at most
`(10⁻⁸)²` times the squared length of `x`. -/
theorem lowRank_close {L : Matrix (Fin k) (Fin m) ℝ} {d : Svd p m} (h : IsSvd L d) (x : Lip.Pt m) :
    Lip.nrm ((lowRankL L d).2 *ᵥ x) ^ 2 ≤ Lip.nrm (L *ᵥ x) ^ 2 ∧
      Lip.nrm (L *ᵥ x) ^ 2 ≤ Lip.nrm ((lowRankL L d).2 *ᵥ x) ^ 2 + svTol ^ 2 * Lip.nrm x ^ 2 := by
  classical
  rcases lowRankL_cases L d with e | e <;> rw [e]
  · exact ⟨le_refl _, by nlinarith [sq_nonneg svTol, sq_nonneg (Lip.nrm x)]⟩
  · simp only
    rw [reduced_sq, svd_sq h]
    constructor
    · refine Finset.sum_le_sum fun i _ => ?_
      split
      · exact le_refl _
      · positivity
    · rw [Lip.nrm_sq x]
      have hb := row_bound h.2.1 x
      calc ∑ i, d.s i ^ 2 * (d.VT *ᵥ x) i ^ 2
          ≤ ∑ i, ((if ¬ |d.s i - 0| ≤ svTol then d.s i ^ 2 * (d.VT *ᵥ x) i ^ 2 else 0) + svTol ^ 2 * (d.VT *ᵥ x) i ^ 2) := by
            refine Finset.sum_le_sum fun i _ => ?_
            split
            · nlinarith [mul_nonneg (sq_nonneg svTol) (sq_nonneg ((d.VT *ᵥ x) i))]
            · rename_i hc
              rw [not_not, sub_zero] at hc
              have : d.s i ^ 2 ≤ svTol ^ 2 := sq_le_sq' (by linarith [neg_abs_le (d.s i)]) ((le_abs_self _).trans hc)
              nlinarith [sq_nonneg ((d.VT *ᵥ x) i)]
        _ = (∑ i, if ¬ |d.s i - 0| ≤ svTol then d.s i ^ 2 * (d.VT *ᵥ x) i ^ 2 else 0) + svTol ^ 2 * ∑ i, (d.VT *ᵥ x) i ^ 2 := by
            rw [Finset.sum_add_distrib, Finset.mul_sum]
        _ ≤ _ := by nlinarith [sq_nonneg svTol]

/-- C48: the metric is kept exactly when the singular values treated as zero are zero. -/
theorem lowRank_metric_partial {L : Matrix (Fin k) (Fin m) ℝ} {d : Svd p m} (h : IsSvd L d) (hz : ∀ i, d.s i ≤ svTol → d.s i = 0) (x : Lip.Pt m) :
    Lip.nrm ((lowRankL L d).2 *ᵥ x) = Lip.nrm (L *ᵥ x) := by
  classical
  have hsq : Lip.nrm ((lowRankL L d).2 *ᵥ x) ^ 2 = Lip.nrm (L *ᵥ x) ^ 2 := by
    rcases lowRankL_cases L d with e | e <;> rw [e]
    · simp only
      rw [reduced_sq, svd_sq h]
      refine Finset.sum_congr rfl fun i _ => ?_
      split
      · rfl
      · rename_i hc
        rw [not_not, sub_zero] at hc
        rw [hz i ((le_abs_self _).trans hc)]; ring
  have h1 := Lip.nrm_nonneg ((lowRankL L d).2 *ᵥ x)
  have h2 := Lip.nrm_nonneg (L *ᵥ x)
  nlinarith

theorem keptIdx_mem (d : Svd p m) (i : Fin p) : i ∈ keptIdx d ↔ svTol < |d.s i| := by
  unfold keptIdx
  rw [List.mem_filter]
  simp

/-- C48: when is `L` itself returned? Exactly when all its singular values are within the tolerance of zero (in particular never for a
matrix that has full row rank in the numerical sense). -/
theorem lowRank_same_iff {L : Matrix (Fin k) (Fin m) ℝ} {d : Svd p m} (h : IsSvd L d) : (∀ i ∈ keptIdx d, i.val ≠ 0) ↔ ∀ i, d.s i ≤ svTol := by
  constructor
  · intro hk i
    by_contra hlt
    have h0 : (⟨0, by have := i.2; omega⟩ : Fin p) ∈ keptIdx d := by
      rw [keptIdx_mem]
      have := h.2.2.2 ⟨0, by have := i.2; omega⟩ i (Fin.mk_le_of_le_val (Nat.zero_le _))
      exact (by linarith : svTol < _).trans_le (le_abs_self _)
    exact hk _ h0 rfl
  · intro hs i hi
    rw [keptIdx_mem, abs_of_nonneg (h.2.2.1 i)] at hi
    linarith [hs i]

/-- C48: otherwise the result has full row rank: its rows are orthogonal and nonzero. -/
theorem lowRank_rows {L : Matrix (Fin k) (Fin m) ℝ} {d : Svd p m} (h : IsSvd L d) :
    reducedL d (keptIdx d) * (reducedL d (keptIdx d))ᵀ = Matrix.diagonal (fun a => d.s (keptIdx d)[a] ^ 2) ∧ ∀ a : Fin (keptIdx d).length, 0 < d.s (keptIdx d)[a] := by
  have hpos : ∀ a : Fin (keptIdx d).length, 0 < d.s (keptIdx d)[a] := by
    intro a
    have := (keptIdx_mem d _).1 (List.getElem_mem a.2 : (keptIdx d)[a.1] ∈ keptIdx d)
    rw [abs_of_nonneg (h.2.2.1 _)] at this
    exact svTol_pos.trans this
  refine ⟨?_, hpos⟩
  ext a b
  rw [Matrix.mul_apply, Matrix.diagonal_apply]
  have e : ∑ j, reducedL d (keptIdx d) a j * (reducedL d (keptIdx d))ᵀ j b = d.s (keptIdx d)[a] * d.s (keptIdx d)[b] * (d.VT * d.VTᵀ) (keptIdx d)[a] (keptIdx d)[b] := by
    rw [Matrix.mul_apply, Finset.mul_sum]
    refine Finset.sum_congr rfl fun j _ => ?_
    simp only [reducedL, Matrix.transpose_apply]; ring
  rw [e, h.2.1, Matrix.one_apply]
  have hnd : (keptIdx d).Nodup := (List.nodup_finRange p).filter _
  by_cases hab : a = b
  · subst hab; simp [pow_two]
  · rw [if_neg hab, if_neg, mul_zero]
    intro he
    exact hab (Fin.ext ((List.Nodup.getElem_inj_iff hnd).1 he))

theorem lowRank_independent {L : Matrix (Fin k) (Fin m) ℝ} {d : Svd p m} (h : IsSvd L d) : LinearIndependent ℝ (fun a => reducedL d (keptIdx d) a) := by
  obtain ⟨h1, h2⟩ := lowRank_rows h
  rw [Fintype.linearIndependent_iff]
  intro g hg a
  have e : (reducedL d (keptIdx d))ᵀ *ᵥ g = 0 := by
    funext j
    have := congrFun hg j
    simp only [Finset.sum_apply, Pi.smul_apply, smul_eq_mul] at this
    rw [Matrix.mulVec, dotProduct, ← this]
    exact Finset.sum_congr rfl fun i _ => by rw [Matrix.transpose_apply]; ring
  have e2 : (reducedL d (keptIdx d) * (reducedL d (keptIdx d))ᵀ) *ᵥ g = 0 := by rw [← Matrix.mulVec_mulVec, e, Matrix.mulVec_zero]
  rw [h1] at e2
  have := congrFun e2 a
  rw [Matrix.mulVec_diagonal] at this
  have hp := h2 a
  have : d.s (keptIdx d)[a] ^ 2 * g a = 0 := this
  rcases mul_eq_zero.1 this with h | h
  · nlinarith
  · exact h

/-- The decomposition of `diag(1, 10⁻⁹)`. -/
noncomputable def tinySvd : Svd 2 2 := ⟨![1, 1 / 10 ^ 9], 1⟩

theorem tinySvd_isSvd : IsSvd (Matrix.diagonal ![1, 1 / 10 ^ 9] : Matrix (Fin 2) (Fin 2) ℝ) tinySvd := by
  refine ⟨⟨1, by simp, by simp [tinySvd]⟩, by simp [tinySvd], ?_, ?_⟩
  · exact Fin.forall_fin_two.2 ⟨by norm_num [tinySvd], by norm_num [tinySvd]⟩
  · intro i j hij
    fin_cases i <;> fin_cases j <;> first | (norm_num [tinySvd]; done) | (exact absurd hij (by decide))

/-- C48, disagreement: singular values below `10⁻⁸` are dropped, so the metric is not kept exactly. -/
theorem lowRank_metric_false : ∃ x : Lip.Pt 2, Lip.nrm ((lowRankL (Matrix.diagonal ![1, 1 / 10 ^ 9]) tinySvd).2 *ᵥ x) ≠ Lip.nrm ((Matrix.diagonal ![1, 1 / 10 ^ 9] : Matrix (Fin 2) (Fin 2) ℝ) *ᵥ x) := by
  classical
  refine ⟨![0, 1], fun he => ?_⟩
  have hk : ¬ ∀ i ∈ keptIdx tinySvd, i.val ≠ 0 := by
    rw [lowRank_same_iff tinySvd_isSvd]
    intro h
    have := h 0
    norm_num [tinySvd, svTol] at this
  have e1 : Lip.nrm ((lowRankL (Matrix.diagonal ![1, 1 / 10 ^ 9]) tinySvd).2 *ᵥ ![0, 1]) ^ 2 = 0 := by
    unfold lowRankL
    rw [if_neg hk]
    simp only
    rw [reduced_sq, Fin.sum_univ_two]
    have : |tinySvd.s 1 - 0| ≤ svTol := by
      rw [sub_zero, abs_of_nonneg] <;> norm_num [tinySvd, svTol]
    rw [if_neg (not_not.2 this)]
    norm_num [tinySvd]
  rw [he, svd_sq tinySvd_isSvd, Fin.sum_univ_two] at e1
  norm_num [tinySvd] at e1

example : ∀ i, (⟨![2, 0], 1⟩ : Svd 2 2).s i ≤ svTol → (⟨![2, 0], 1⟩ : Svd 2 2).s i = 0 :=
  Fin.forall_fin_two.2 ⟨fun h => by norm_num [svTol] at h, fun _ => by simp⟩

end Verif.Samp
