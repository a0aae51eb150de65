import Verif.Misc.ActiveModel
import Verif.Lipschitz.SignProps
import Verif.Lipschitz.FitProps

/-!
# Properties of the active subspace (C64, C80)
-/

namespace Verif.Misc

open Verif Verif.Lip Matrix

variable {m : ℕ}

/-- The weighted sum of outer products of gradients: the matrix of the documentation. -/
def outerSum (ps : List (ℝ × Pt m)) : Matrix (Fin m) (Fin m) ℝ := (ps.map (fun p => p.1 • vecMulVec p.2 p.2)).sum

theorem sigma_sq (k : ℕ) (s : List ℝ) (hs : s.length = min m k) :
    sigmaMat m k s * (sigmaMat m k s)ᵀ = Matrix.diagonal (fun i : Fin m => (padS m s).getD i 0 ^ 2) := by
  have hp : ∀ i : ℕ, (padS m s).getD i 0 = s.getD i 0 := by
    intro i
    unfold padS
    rcases Nat.lt_or_ge i s.length with h | h
    · simp [List.getD_eq_getElem?_getD, List.getElem?_append_left h]
    · simp [List.getD_eq_getElem?_getD, List.getElem?_append_right h, List.getElem?_eq_none_iff.2 h, List.getElem?_replicate]
      split <;> rfl
  ext i j
  rw [Matrix.mul_apply]
  simp only [sigmaMat, Matrix.of_apply, Matrix.transpose_apply, Matrix.diagonal_apply, hp]
  by_cases hij : i = j
  · subst hij
    simp only [if_true]
    by_cases hik : (i : ℕ) < k
    · rw [Finset.sum_eq_single ⟨i, hik⟩]
      · simp [pow_two]
      · intro b _ hb
        rw [if_neg (fun e => hb (Fin.ext e.symm)), zero_mul]
      · simp
    · rw [List.getD_eq_getElem?_getD, List.getElem?_eq_none_iff.2 (by omega)]
      simp
  · rw [if_neg hij]
    refine Finset.sum_eq_zero fun a _ => ?_
    by_cases h1 : (i : ℕ) = a
    · rw [if_neg (show ¬ (j : ℕ) = a by intro e; exact hij (Fin.ext (h1.trans e.symm))), mul_zero]
    · rw [if_neg h1, zero_mul]

theorem asCols_gram (ps : List (ℝ × Pt m)) (h : ∀ p ∈ ps, 0 ≤ p.1) : asCols ps * (asCols ps)ᵀ = outerSum ps := by
  ext i j
  have : outerSum ps i j = (ps.map (fun p => p.1 * (p.2 i * p.2 j))).sum := by
    unfold outerSum
    clear h
    induction ps with
    | nil => simp
    | cons p ps ih => simp only [List.map_cons, List.sum_cons, Matrix.add_apply, ih, Matrix.smul_apply, vecMulVec_apply, smul_eq_mul]
  rw [this, Matrix.mul_apply, ← List.sum_ofFn]
  congr 1
  apply List.ext_getElem
  · simp
  · intro a h1 h2
    have ha : a < ps.length := by simpa using h1
    simp only [List.getElem_ofFn, List.getElem_map, asCols, Matrix.of_apply, Matrix.transpose_apply, Fin.getElem_fin]
    have := Real.mul_self_sqrt (h _ (List.getElem_mem ha))
    calc _ = (Real.sqrt ps[a].1 * Real.sqrt ps[a].1) * (ps[a].2 i * ps[a].2 j) := by ring
      _ = _ := by rw [this]

theorem asRaw_C (svd : SvdFn m) (hsvd : SvdSpec svd) (ps : List (ℝ × Pt m)) (h : ∀ p ∈ ps, 0 ≤ p.1) : (asRaw svd ps).C = outerSum ps := by
  have hd := hsvd ps.length (asCols ps)
  rw [← asCols_gram ps h]
  simp only [asRaw]
  rw [← sigma_sq _ _ hd.len]
  conv_rhs => rw [hd.eq]
  simp only [Matrix.transpose_mul, Matrix.transpose_transpose, Matrix.mul_assoc]
  rw [← Matrix.mul_assoc (svd ps.length (asCols ps)).Vᵀ, hd.orthV, Matrix.one_mul]

/-- What a successful call means. -/
theorem asFit_ok (svd : SvdFn m) (grads : List (Pt m)) (weights : Option (List ℝ)) (r : ASState m) (h : asFit svd grads weights = .ok r) :
    ∃ ps, grads ≠ [] ∧ asPairs grads (asWeights grads weights) = some ps ∧ (∀ p ∈ ps, 0 ≤ p.1) ∧
      r = { asRaw svd ps with U := fixGrads (asRaw svd ps).U grads } := by
  unfold asFit at h
  split at h
  · cases h
  · rename_i hg
    split at h
    · cases h
    · rename_i ps hps
      split at h
      · cases h
      · rename_i hn
        push Not at hn
        cases h
        exact ⟨ps, hg, hps, hn, rfl⟩

/-- **C64**: `C` is the weighted sum of gradient outer products, whatever the singular value decomposition. -/
theorem asFit_C (svd : SvdFn m) (hsvd : SvdSpec svd) (grads : List (Pt m)) (w : List ℝ) (hw : w.length = grads.length) (r : ASState m)
    (h : asFit svd grads (some w) = .ok r) : r.C = ((w.zip grads).map (fun p => p.1 • vecMulVec p.2 p.2)).sum := by
  obtain ⟨ps, _, h2, h3, rfl⟩ := asFit_ok svd grads (some w) r h
  change asPairs grads w = some ps at h2
  simp only [asPairs, if_pos hw, Option.some.injEq] at h2
  subst h2
  exact asRaw_C svd hsvd _ h3

/-- The default is the plain mean of the outer products. -/
theorem asFit_C_default (svd : SvdFn m) (hsvd : SvdSpec svd) (grads : List (Pt m)) (r : ASState m)
    (h : asFit svd grads none = .ok r) : r.C = (1 / (grads.length : ℝ)) • (grads.map (fun g => vecMulVec g g)).sum := by
  obtain ⟨ps, _, h2, h3, rfl⟩ := asFit_ok svd grads none r h
  have hw : (asWeights grads none).length = grads.length := by simp [asWeights]
  simp only [asPairs, if_pos hw, Option.some.injEq] at h2
  subst h2
  show (asRaw svd _).C = _
  rw [asRaw_C svd hsvd _ h3]
  unfold outerSum asWeights
  generalize 1 / (grads.length : ℝ) = a
  clear h h3 hw
  rename_i hne
  clear hne
  induction grads with
  | nil => simp
  | cons g gs ih =>
    simp only [List.length_cons, List.replicate_succ, List.zip_cons_cons, List.map_cons, List.sum_cons, smul_add]
    rw [ih]

/-- A call succeeds exactly when there is a gradient, the weights can be broadcast and none is negative. -/
theorem asFit_ok_iff (svd : SvdFn m) (grads : List (Pt m)) (w : List ℝ) : (∃ r, asFit svd grads (some w) = .ok r) ↔
    grads ≠ [] ∧ (∀ a ∈ w, 0 ≤ a) ∧ (w.length = grads.length ∨ w.length = 1 ∨ grads.length = 1) := by
  constructor
  · rintro ⟨r, h⟩
    obtain ⟨ps, h1, h2, h3, -⟩ := asFit_ok svd grads (some w) r h
    refine ⟨h1, ?_⟩
    change asPairs grads w = some ps at h2
    unfold asPairs at h2
    split at h2
    · rename_i hl
      cases h2
      refine ⟨fun a ha => ?_, Or.inl hl⟩
      obtain ⟨i, hi, rfl⟩ := List.getElem_of_mem ha
      exact h3 (w[i], grads[i]) (List.mem_iff_getElem.2 ⟨i, by simp; omega, by simp⟩)
    · unfold asStretch at h2
      split at h2
      · cases h2
        refine ⟨fun a ha => ?_, Or.inr (Or.inl (by simp))⟩
        obtain ⟨g, hg⟩ := List.exists_mem_of_ne_nil _ h1
        rw [List.mem_singleton] at ha
        subst ha
        exact h3 _ (List.mem_map.2 ⟨g, hg, rfl⟩)
      · cases h2
        exact ⟨fun a ha => h3 _ (List.mem_map.2 ⟨a, ha, rfl⟩), Or.inr (Or.inr (by simp))⟩
      · cases h2
  · rintro ⟨h1, h2, h3⟩
    have key : ∀ ps, asPairs grads w = some ps → (∀ p ∈ ps, 0 ≤ p.1) → ∃ r, asFit svd grads (some w) = .ok r := by
      intro ps hps hp
      refine ⟨{ asRaw svd ps with U := fixGrads (asRaw svd ps).U grads }, ?_⟩
      unfold asFit
      rw [if_neg h1]
      simp only [asWeights, hps]
      rw [if_neg]
      push Not
      exact hp
    unfold asPairs at key
    by_cases hl : w.length = grads.length
    · exact key (w.zip grads) (by rw [if_pos hl]) (fun p hp => h2 _ (List.of_mem_zip hp).1)
    · rcases h3 with h3 | h3 | h3
      · exact absurd h3 hl
      · obtain ⟨a, rfl⟩ := List.length_eq_one_iff.1 h3
        refine key (grads.map (fun g => (a, g))) (by rw [if_neg hl, asStretch]) ?_
        intro p hp
        obtain ⟨g, _, rfl⟩ := List.mem_map.1 hp
        exact h2 a (by simp)
      · obtain ⟨g, rfl⟩ := List.length_eq_one_iff.1 h3
        refine key (w.map (fun a => (a, g))) ?_ ?_
        · rw [if_neg hl]
          unfold asStretch
          split
          · simp at hl
          · rename_i e1 e2; cases e2; rfl
          · rename_i hh; exact absurd rfl (hh g)
        · intro p hp
          obtain ⟨a, ha, rfl⟩ := List.mem_map.1 hp
          exact h2 a ha

theorem outerSum_symm (ps : List (ℝ × Pt m)) : (outerSum ps)ᵀ = outerSum ps := by
  unfold outerSum
  induction ps with
  | nil => simp
  | cons p ps ih =>
    simp only [List.map_cons, List.sum_cons, Matrix.transpose_add, Matrix.transpose_smul, ih]
    congr 2
    ext i j
    simp [vecMulVec_apply, mul_comm]

theorem outerSum_quad (ps : List (ℝ × Pt m)) (x : Pt m) : x ⬝ᵥ (outerSum ps *ᵥ x) = (ps.map (fun p => p.1 * (p.2 ⬝ᵥ x) ^ 2)).sum := by
  unfold outerSum
  induction ps with
  | nil => simp
  | cons p ps ih =>
    simp only [List.map_cons, List.sum_cons, Matrix.add_mulVec, dotProduct_add, ih]
    congr 1
    rw [Matrix.smul_mulVec, vecMulVec_mulVec]
    simp only [dotProduct_smul, smul_eq_mul, op_smul_eq_smul]
    rw [dotProduct_comm x p.2]
    ring

/-- **C64**: the quadratic form of `C` is the weighted sum of squared directional derivatives; so `C` is symmetric and positive
semidefinite. -/
theorem asFit_quad (svd : SvdFn m) (hsvd : SvdSpec svd) (grads : List (Pt m)) (w : List ℝ) (hw : w.length = grads.length) (r : ASState m)
    (h : asFit svd grads (some w) = .ok r) : r.Cᵀ = r.C ∧ (∀ x : Pt m, x ⬝ᵥ (r.C *ᵥ x) = ((w.zip grads).map (fun p => p.1 * (p.2 ⬝ᵥ x) ^ 2)).sum) ∧
      ∀ x : Pt m, 0 ≤ x ⬝ᵥ (r.C *ᵥ x) := by
  have hC : r.C = outerSum (w.zip grads) := asFit_C svd hsvd grads w hw r h
  have hnn := ((asFit_ok_iff svd grads w).1 ⟨r, h⟩).2.1
  refine ⟨by rw [hC, outerSum_symm], fun x => by rw [hC, outerSum_quad], fun x => ?_⟩
  rw [hC, outerSum_quad]
  refine List.sum_nonneg fun a ha => ?_
  obtain ⟨p, hp, rfl⟩ := List.mem_map.1 ha
  exact mul_nonneg (hnn _ (List.of_mem_zip hp).1) (sq_nonneg _)

/-- **C64**: the null space of `C` is the set of directions orthogonal to every gradient with positive weight. -/
theorem asFit_null (svd : SvdFn m) (hsvd : SvdSpec svd) (grads : List (Pt m)) (w : List ℝ) (hw : w.length = grads.length) (r : ASState m)
    (h : asFit svd grads (some w) = .ok r) (x : Pt m) :
    r.C *ᵥ x = 0 ↔ ∀ p ∈ w.zip grads, 0 < p.1 → p.2 ⬝ᵥ x = 0 := by
  have hC : r.C = outerSum (w.zip grads) := asFit_C svd hsvd grads w hw r h
  have hnn := ((asFit_ok_iff svd grads w).1 ⟨r, h⟩).2.1
  have hps : ∀ p ∈ w.zip grads, 0 ≤ p.1 := fun p hp => hnn _ (List.of_mem_zip hp).1
  rw [hC]
  constructor
  · intro h0 p hp hpos
    have hq := outerSum_quad (w.zip grads) x
    rw [h0, dotProduct_zero] at hq
    have hall : ∀ a ∈ (w.zip grads).map (fun p => p.1 * (p.2 ⬝ᵥ x) ^ 2), 0 ≤ a := by
      intro a ha
      obtain ⟨p, hp, rfl⟩ := List.mem_map.1 ha
      exact mul_nonneg (hps p hp) (sq_nonneg _)
    have := List.single_le_sum hall _ (List.mem_map.2 ⟨p, hp, rfl⟩)
    rw [← hq] at this
    have h2 : (p.2 ⬝ᵥ x) ^ 2 ≤ 0 := by
      by_contra hc
      push Not at hc
      have := mul_pos hpos hc
      linarith
    nlinarith [sq_nonneg (p.2 ⬝ᵥ x)]
  · intro h0
    unfold outerSum
    have key : ∀ ps : List (ℝ × Pt m), (∀ p ∈ ps, 0 ≤ p.1) → (∀ p ∈ ps, 0 < p.1 → p.2 ⬝ᵥ x = 0) →
        (ps.map (fun p => p.1 • vecMulVec p.2 p.2)).sum *ᵥ x = 0 := by
      intro ps
      induction ps with
      | nil => intros; simp
      | cons p ps ih =>
        intro hn hz
        simp only [List.map_cons, List.sum_cons, Matrix.add_mulVec]
        rw [ih (fun q hq => hn q (List.mem_cons_of_mem _ hq)) (fun q hq => hz q (List.mem_cons_of_mem _ hq)), add_zero,
          Matrix.smul_mulVec, vecMulVec_mulVec]
        rcases (hn p (List.mem_cons_self ..)).eq_or_lt with e | e
        · rw [← e, zero_smul]
        · rw [hz p (List.mem_cons_self ..) e]; simp
    exact key _ hps h0

end Verif.Misc
