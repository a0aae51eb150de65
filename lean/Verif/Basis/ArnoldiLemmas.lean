import Mathlib.Analysis.Calculus.Deriv.Add
import Mathlib.Analysis.Calculus.Deriv.Mul
import Mathlib.Algebra.MvPolynomial.Degrees
import Mathlib.Tactic.Linarith
import Verif.Basis.ArnoldiModel
import Verif.Basis.IndexProps

/-!
# Lemmas on the Arnoldi construction
-/

namespace Verif.Basis

open Verif

/-! ## The orthogonalisation loop -/

/-- Orthogonal columns with squared norm `c`. -/
def Ortho (c : ℝ) (Q : List Vec) : Prop := Q.Pairwise (fun a b => Vec.dot a b = 0) ∧ ∀ a ∈ Q, Vec.dot a a = c

theorem mgs_snoc (c : ℝ) (Q : List Vec) (b q : Vec) : mgs c (Q ++ [b]) q = mgsStep c (mgs c Q q) b := by
  simp [mgs, List.foldl_append]

theorem subLoop_snoc {h W : List ℝ} (hl : h.length = W.length) (a b w : ℝ) :
    subLoop (h ++ [a]) (W ++ [b]) w = subLoop h W w - a * b := by
  unfold subLoop
  rw [List.zip_append hl, List.foldl_append]
  rfl

theorem subLoop_extra {h W : List ℝ} (hl : h.length = W.length) (e : List ℝ) (w : ℝ) :
    subLoop (h ++ e) W w = subLoop h W w := by
  unfold subLoop
  have : List.zip (h ++ e) W = List.zip h W := by
    have := List.zip_append hl (r₁ := e) (r₂ := [])
    simpa using this
  rw [this]

theorem subLoop_eq (h W : List ℝ) (w : ℝ) : subLoop h W w = w - Vec.dot h W := by
  induction h generalizing W w with
  | nil => simp [subLoop]
  | cons a h ih =>
    cases W with
    | nil => simp [subLoop]
    | cons b W =>
      have := ih W (w - a * b)
      simp only [subLoop, List.zip_cons_cons, List.foldl_cons] at this ⊢
      rw [this, Vec.dot_cons]; ring

theorem sub_getD {x y : Vec} (h : x.length = y.length) (r : ℕ) : (Vec.sub x y).getD r 0 = x.getD r 0 - y.getD r 0 := by
  unfold Vec.sub
  simp only [List.getD_eq_getElem?_getD, List.getElem?_zipWith]
  by_cases hr : r < x.length
  · rw [List.getElem?_eq_getElem hr, List.getElem?_eq_getElem (by omega : r < y.length)]; rfl
  · rw [List.getElem?_eq_none (by omega : x.length ≤ r), List.getElem?_eq_none (by omega : y.length ≤ r)]; simp

theorem smul_getD (c : ℝ) (x : Vec) (r : ℕ) : (Vec.smul c x).getD r 0 = c * x.getD r 0 := by
  unfold Vec.smul
  simp only [List.getD_eq_getElem?_getD, List.getElem?_map]
  cases x[r]? <;> simp

theorem mul_getD {x y : Vec} (h : x.length = y.length) (r : ℕ) : (Vec.mul x y).getD r 0 = x.getD r 0 * y.getD r 0 := by
  unfold Vec.mul
  simp only [List.getD_eq_getElem?_getD, List.getElem?_zipWith]
  by_cases hr : r < x.length
  · rw [List.getElem?_eq_getElem hr, List.getElem?_eq_getElem (by omega : r < y.length)]; rfl
  · rw [List.getElem?_eq_none (by omega : x.length ≤ r), List.getElem?_eq_none (by omega : y.length ≤ r)]; simp

theorem mgs_spec {M : ℕ} (c : ℝ) (Q : List Vec) (q : Vec) (hQ : ∀ b ∈ Q, b.length = M) (hq : q.length = M) :
    (mgs c Q q).1.length = Q.length ∧ (mgs c Q q).2.length = M ∧
      ∀ r, (mgs c Q q).2.getD r 0 = subLoop (mgs c Q q).1 (Q.map (fun b => b.getD r 0)) (q.getD r 0) := by
  induction Q using List.reverseRecOn with
  | nil => simp [mgs, hq, subLoop]
  | append_singleton Q b ih =>
    obtain ⟨i1, i2, i3⟩ := ih (fun b hb => hQ b (by simp [hb]))
    have hb := hQ b (by simp)
    rw [mgs_snoc]
    refine ⟨by simp [mgsStep, i1], by simp [mgsStep, Vec.length_sub, i2, hb], fun r => ?_⟩
    simp only [mgsStep, List.map_append, List.map_cons, List.map_nil]
    rw [subLoop_snoc (by simp [i1]), ← i3, sub_getD (by simp [i2, hb]), smul_getD]

theorem mgs_orth {M : ℕ} {c : ℝ} (hc : c ≠ 0) (Q : List Vec) (q : Vec) (hQ : ∀ b ∈ Q, b.length = M) (hq : q.length = M)
    (ho : Ortho c Q) : ∀ a ∈ Q, Vec.dot a (mgs c Q q).2 = 0 := by
  induction Q using List.reverseRecOn with
  | nil => simp
  | append_singleton Q b ih =>
    have hQ' : ∀ b ∈ Q, b.length = M := fun b hb => hQ b (by simp [hb])
    obtain ⟨hp, hn⟩ := ho
    obtain ⟨hp1, -, hp2⟩ := List.pairwise_append.1 hp
    have ih := ih hQ' ⟨hp1, fun a ha => hn a (by simp [ha])⟩
    have hb := hQ b (by simp)
    intro a ha
    rw [mgs_snoc]
    simp only [mgsStep]
    rw [Vec.dot_sub_right _ _ _ (by simp [(mgs_spec c Q q hQ' hq).2.1, hb]), Vec.dot_smul_right]
    rcases List.mem_append.1 ha with ha | ha
    · rw [ih a ha, hp2 a ha b (by simp)]; simp
    · have hab := List.mem_singleton.1 ha
      rw [hab, hn b (by simp)]
      field_simp
      ring

theorem map_div_eq (x : Vec) (n : ℝ) : x.map (fun t => t / n) = Vec.smul (1 / n) x := by
  unfold Vec.smul
  apply List.map_congr_left
  intro t _
  ring

/-! ## The construction -/

/-- No division by zero: every diagonal entry of `R` is nonzero. -/
def NoBreakdown (R : List (List ℝ)) : Prop := ∀ k, k < R.length → (R.getD k []).getD k 0 ≠ 0

theorem arnoldi_snoc (c : ℝ) (X : List Vec) (P : List (ℕ × ℕ)) (ij : ℕ × ℕ) :
    arnoldi c X (P ++ [ij]) = colStep c X (arnoldi c X P) ij := by
  simp [arnoldi, List.foldl_append]

theorem evalX_snoc {P : List (ℕ × ℕ)} {R : List (List ℝ)} (h : R.length = P.length + 1) (ij : ℕ × ℕ) (r : List ℝ) (x : Vec) :
    evalX (P ++ [ij]) (R ++ [r]) x = evalStep x (evalX P R x) (ij, r) := by
  obtain ⟨a, R, rfl⟩ : ∃ a R', R = a :: R' := by
    cases R with
    | nil => simp at h
    | cons a R => exact ⟨a, R, rfl⟩
  unfold evalX
  simp only [List.cons_append, List.tail_cons]
  rw [List.zip_append (by simpa using h.symm), List.foldl_append]
  simp

theorem evalX_length {P : List (ℕ × ℕ)} {R : List (List ℝ)} (h : R.length = P.length + 1) (x : Vec) :
    (evalX P R x).length = P.length + 1 := by
  induction P using List.reverseRecOn generalizing R with
  | nil => simp [evalX]
  | append_singleton P ij ih =>
    obtain ⟨R, r, rfl⟩ : ∃ R' r, R = R' ++ [r] := by
      have : R ≠ [] := by intro h'; simp [h'] at h
      exact ⟨R.dropLast, R.getLast this, (List.dropLast_append_getLast this).symm⟩
    have hR : R.length = P.length + 1 := by simpa using h
    rw [evalX_snoc hR]
    simp [evalStep, ih hR]

theorem getD_append_left {α : Type} {l l' : List α} {k : ℕ} {d : α} (h : k < l.length) : (l ++ l').getD k d = l.getD k d := by
  simp [List.getD_eq_getElem?_getD, List.getElem?_append_left h]

theorem getD_snoc_last {α : Type} (l : List α) (a d : α) : (l ++ [a]).getD l.length d = a := by
  simp

theorem getD_map_col (Q : List Vec) (j r : ℕ) : (Q.map (fun b => b.getD r 0)).getD j 0 = (Q.getD j []).getD r 0 := by
  simp only [List.getD_eq_getElem?_getD, List.getElem?_map]
  cases Q[j]? <;> simp

theorem getD_length_of {Q : List Vec} {M : ℕ} (hQ : ∀ b ∈ Q, b.length = M) {j : ℕ} (hj : j < Q.length) : (Q.getD j []).length = M := by
  rw [List.getD_eq_getElem?_getD, List.getElem?_eq_getElem hj]
  exact hQ _ (List.getElem_mem hj)

theorem finishCol_nil (c : ℝ) (q : Vec) : finishCol c ([], []) q =
    ([q.map (fun t => t / (Vec.norm q / Real.sqrt c))], [[Vec.norm q / Real.sqrt c]]) := by
  simp [finishCol, mgs]

theorem ortho_snoc {M : ℕ} {c : ℝ} (hc : 0 < c) {Q : List Vec} {q : Vec} (hQ : ∀ b ∈ Q, b.length = M) (hq : q.length = M)
    (ho : Ortho c Q) (hn : Vec.norm (mgs c Q q).2 / Real.sqrt c ≠ 0) :
    Ortho c (Q ++ [(mgs c Q q).2.map (fun t => t / (Vec.norm (mgs c Q q).2 / Real.sqrt c))]) := by
  have hz := mgs_orth hc.ne' Q q hQ hq ho
  rw [map_div_eq]
  generalize (mgs c Q q).2 = v at *
  obtain ⟨h1, h2⟩ := ho
  constructor
  · rw [List.pairwise_append]
    refine ⟨h1, by simp, fun a ha b hb => ?_⟩
    rw [List.mem_singleton.1 hb, Vec.dot_smul_right, hz a ha, mul_zero]
  · intro a ha
    rcases List.mem_append.1 ha with ha | ha
    · exact h2 a ha
    · rw [List.mem_singleton.1 ha, Vec.dot_smul_right, Vec.dot_comm, Vec.dot_smul_right, ← Vec.sumSq_eq_dot]
      have hnn : Vec.norm v ^ 2 = Vec.sumSq v := Real.sq_sqrt (Vec.sumSq_nonneg v)
      have hcc : Real.sqrt c ^ 2 = c := Real.sq_sqrt hc.le
      have hs : Real.sqrt c ≠ 0 := (Real.sqrt_pos.2 hc).ne'
      have hv : Vec.norm v ≠ 0 := fun h => hn (by simp [h])
      rw [← hnn]
      field_simp
      linarith

/-- The plan only refers to earlier columns. -/
def PlanOk (P : List (ℕ × ℕ)) : Prop := ∀ k (h : k < P.length), P[k].2 ≤ k

theorem planOk_snoc {P : List (ℕ × ℕ)} {ij : ℕ × ℕ} (h : PlanOk (P ++ [ij])) : PlanOk P ∧ ij.2 ≤ P.length := by
  constructor
  · intro k hk
    have := h k (by simp; omega)
    rwa [List.getElem_append_left hk] at this
  · have := h P.length (by simp)
    rw [List.getElem_append_right (le_refl _)] at this
    simpa using this

theorem arnoldi_shape (c : ℝ) (X : List Vec) (P : List (ℕ × ℕ)) (hP : PlanOk P) :
    (arnoldi c X P).1.length = P.length + 1 ∧ (arnoldi c X P).2.length = P.length + 1 ∧
    (∀ q ∈ (arnoldi c X P).1, q.length = X.length) ∧
    ∀ k, k < P.length + 1 → ((arnoldi c X P).2.getD k []).length = k + 1 := by
  induction P using List.reverseRecOn with
  | nil => 
    simp only [arnoldi, List.foldl_nil, finishCol_nil]
    refine ⟨rfl, rfl, by simp, fun k hk => ?_⟩
    obtain rfl : k = 0 := by simpa using hk
    simp
  | append_singleton P ij ih =>
    obtain ⟨hP1, hj⟩ := planOk_snoc hP
    obtain ⟨i1, i2, i3, i4⟩ := ih hP1
    rw [arnoldi_snoc]
    have hq : (Vec.mul (X.map (fun x => x.getD ij.1 0)) ((arnoldi c X P).1.getD ij.2 [])).length = X.length := by
      rw [Vec.length_mul, getD_length_of i3 (by omega)]; simp
    obtain ⟨m1, m2, -⟩ := mgs_spec c (arnoldi c X P).1 _ i3 hq
    refine ⟨by simp [colStep, finishCol, i1], by simp [colStep, finishCol, i2], ?_, ?_⟩
    · intro q hq'
      simp only [colStep, finishCol] at hq'
      rcases List.mem_append.1 hq' with h | h
      · exact i3 q h
      · rw [List.mem_singleton.1 h, List.length_map, m2]
    · intro k hk
      simp only [colStep, finishCol]
      by_cases hk' : k < P.length + 1
      · rw [getD_append_left (by omega)]
        exact i4 k hk'
      · obtain rfl : k = (arnoldi c X P).2.length := by simp at hk; omega
        rw [getD_snoc_last]
        rw [List.length_append, m1, i1, i2]; rfl

theorem noBreakdown_snoc {R : List (List ℝ)} {r : List ℝ} (h : NoBreakdown (R ++ [r])) : NoBreakdown R ∧ r.getD R.length 0 ≠ 0 := by
  constructor
  · intro k hk
    have := h k (by simp; omega)
    rwa [getD_append_left hk] at this
  · have := h R.length (by simp)
    rwa [getD_snoc_last] at this

theorem arnoldi_ortho {c : ℝ} (hc : 0 < c) (X : List Vec) (P : List (ℕ × ℕ)) (hP : PlanOk P) (hb : NoBreakdown (arnoldi c X P).2) :
    Ortho c (arnoldi c X P).1 := by
  induction P using List.reverseRecOn with
  | nil =>
    have := ortho_snoc hc (M := X.length) (Q := []) (q := List.replicate X.length 1) (by simp) (by simp) ⟨by simp, by simp⟩
    apply this
    have := hb 0 (by simp [arnoldi, finishCol])
    simpa [arnoldi, finishCol_nil, mgs] using this
  | append_singleton P ij ih =>
    obtain ⟨hP1, hj⟩ := planOk_snoc hP
    obtain ⟨i1, i2, i3, i4⟩ := arnoldi_shape c X P hP1
    rw [arnoldi_snoc] at hb ⊢
    simp only [colStep, finishCol] at hb
    obtain ⟨hb1, hb2⟩ := noBreakdown_snoc hb
    have hq : (Vec.mul (X.map (fun x => x.getD ij.1 0)) ((arnoldi c X P).1.getD ij.2 [])).length = X.length := by
      rw [Vec.length_mul, getD_length_of i3 (by omega)]; simp
    apply ortho_snoc hc i3 hq (ih hP1 hb1)
    obtain ⟨m1, m2, -⟩ := mgs_spec c (arnoldi c X P).1 _ i3 hq
    rw [i2, ← i1, ← m1, getD_snoc_last] at hb2
    exact hb2

/-- Evaluating with the stored coefficients at the construction points gives the rows of `Q`. -/
theorem arnoldi_eval (c : ℝ) (X : List Vec) (P : List (ℕ × ℕ)) (hP : PlanOk P) (r : ℕ) (hr : r < X.length) :
    evalX P (arnoldi c X P).2 X[r] = (arnoldi c X P).1.map (fun q => q.getD r 0) := by
  induction P using List.reverseRecOn with
  | nil =>
    simp [arnoldi, finishCol_nil, evalX, hr]
  | append_singleton P ij ih =>
    obtain ⟨hP1, hj⟩ := planOk_snoc hP
    obtain ⟨i1, i2, i3, i4⟩ := arnoldi_shape c X P hP1
    have ih := ih hP1
    rw [arnoldi_snoc]
    have hq : (Vec.mul (X.map (fun x => x.getD ij.1 0)) ((arnoldi c X P).1.getD ij.2 [])).length = X.length := by
      rw [Vec.length_mul, getD_length_of i3 (by omega)]; simp
    obtain ⟨m1, m2, m3⟩ := mgs_spec c (arnoldi c X P).1 _ i3 hq
    simp only [colStep, finishCol]
    rw [evalX_snoc i2, ih]
    simp only [evalStep, List.map_append, List.map_cons, List.map_nil]
    congr 1
    rw [subLoop_extra (by rw [m1, List.length_map])]
    congr 1
    rw [List.length_map, ← m1, getD_snoc_last, map_div_eq, smul_getD, m3, mul_getD (by rw [getD_length_of i3 (by omega)]; simp),
      getD_map_col]
    have : (X.map (fun x => x.getD ij.1 0)).getD r 0 = X[r].getD ij.1 0 := by
      simp [List.getD_eq_getElem?_getD, List.getElem?_map, hr]
    rw [this]
    ring

end Verif.Basis
