import Verif.Lipschitz.CoordModel
import Verif.Lipschitz.FitProps
import Mathlib.Data.Fin.Tuple.Sort

/-!
# C90: important coordinates of a diagonal Lipschitz matrix
-/

namespace Verif.Lip

open Verif Matrix

variable {m : ℕ}

/-- Contract of `np.argsort`: the entries in the given order do not decrease. -/
def Argsort.Sorts (sort : Argsort m) : Prop := ∀ v : Fin m → ℝ, Monotone fun j => v (sort v j)

/-- Orderings exist. -/
theorem exists_argsort : ∃ sort : Argsort m, sort.Sorts := ⟨fun v => Tuple.sort v, fun v => Tuple.monotone_sort v⟩

/-- The columns of `U` are distinct coordinate directions. -/
def IsCoordMatrix (U : Matrix (Fin m) (Fin m) ℝ) : Prop := ∃ σ : Equiv.Perm (Fin m), ∀ i j, U i j = if i = σ j then 1 else 0

/-- `U` orders the directions by their importance for `L`: `‖L u_0‖ ≥ ‖L u_1‖ ≥ ...`. -/
def Ordered (L U : Matrix (Fin m) (Fin m) ℝ) : Prop := ∀ i j, i ≤ j → nrm (L *ᵥ ucol U j) ≤ nrm (L *ᵥ ucol U i)

theorem coordU_coord (sort : Argsort m) (score : Pt m) : IsCoordMatrix (coordU sort score) :=
  ⟨sort fun i => -score i, fun i j => by simp [coordU, Matrix.one_apply]⟩

/-- **C90**: coordinate directions are orthonormal, in rows and columns. -/
theorem coord_orthonormal {U : Matrix (Fin m) (Fin m) ℝ} (h : IsCoordMatrix U) : Uᵀ * U = 1 ∧ U * Uᵀ = 1 := by
  obtain ⟨σ, h⟩ := h
  have e : Uᵀ * U = 1 := by
    ext i j
    rw [Matrix.mul_apply, Matrix.one_apply]
    simp only [transpose_apply, h]
    simp [eq_comm]
  exact ⟨e, mul_eq_one_comm.1 e⟩

theorem diag_ucol (d : Pt m) (U : Matrix (Fin m) (Fin m) ℝ) (σ : Equiv.Perm (Fin m)) (h : ∀ i j, U i j = if i = σ j then 1 else 0) (j : Fin m) :
    nrm (Matrix.diagonal d *ᵥ ucol U j) = |d (σ j)| := by
  have e : Matrix.diagonal d *ᵥ ucol U j = Pi.single (σ j) (d (σ j)) := by
    funext i
    rw [mulVec_diagonal, ucol, h]
    by_cases hi : i = σ j
    · subst hi; simp
    · simp [hi]
  have h2 := nrm_sq (Matrix.diagonal d *ᵥ ucol U j)
  rw [e, single_dotProduct, Pi.single_eq_same] at h2
  rw [e, ← abs_of_nonneg (nrm_nonneg (Pi.single (σ j) (d (σ j)))), ← sq_eq_sq_iff_abs_eq_abs, h2, sq]

/-- A fitted matrix is diagonal with nonnegative entries. -/
theorem diagFit_diag {method : Method} {build : Build m} {eps : Option ℝ} {X : Option (List (Pt m))} {fX : Option (List ℝ)} {grads : Option (List (Pt m))}
    {H L : Matrix (Fin m) (Fin m) ℝ} (h : diagFit method build eps X fX grads = .ok (H, L)) :
    ∃ d : Pt m, (∀ i, 0 ≤ d i) ∧ L = Matrix.diagonal d := by
  unfold diagFit at h
  split at h
  · cases h
  · split at h
    · cases h
    · split at h
      · cases h
      · split at h
        · cases h
        · cases h
          refine ⟨_, fun i => ?_, (Matrix.diagonal_smul _ _).symm⟩
          exact mul_nonneg (fitScale_nonneg _ _) (Real.sqrt_nonneg _)

/-- The directions computed from the diagonal of a nonnegative diagonal matrix are in order of importance. -/
theorem coordU_ordered {sort : Argsort m} (hs : sort.Sorts) {d : Pt m} (hd : ∀ i, 0 ≤ d i) :
    Ordered (Matrix.diagonal d) (coordU sort fun i => (Matrix.diagonal d) i i) := by
  intro i j hij
  have e : ∀ i j, (coordU sort fun i => (Matrix.diagonal d) i i) i j = if i = (sort fun i => -d i) j then 1 else 0 := by
    intro i j
    simp [coordU, Matrix.one_apply]
  rw [diag_ucol d _ _ e, diag_ucol d _ _ e, abs_of_nonneg (hd _), abs_of_nonneg (hd _)]
  have := hs (fun i => -d i) hij
  simp only at this
  linarith

section run

variable (sort : Argsort m) (method : Method) (build : Build m) (eps : Option ℝ)

theorem diagRun_append (s : DiagObj m) (a b : List (DiagOp m)) :
    diagRun sort method build eps s (a ++ b) =
      ((diagRun sort method build eps (diagRun sort method build eps s a).1 b).1,
        (diagRun sort method build eps s a).2 ++ (diagRun sort method build eps (diagRun sort method build eps s a).1 b).2) := by
  induction a generalizing s with
  | nil => simp [diagRun]
  | cons op a ih => simp [diagRun, ih]

theorem diagRun_length (s : DiagObj m) (a : List (DiagOp m)) : (diagRun sort method build eps s a).2.length = a.length := by
  induction a generalizing s with
  | nil => rfl
  | cons op a ih => simp [diagRun, ih]

/-- The result of the last call. -/
noncomputable def answer (L : Option (Matrix (Fin m) (Fin m) ℝ)) (ops : List (DiagOp m)) (op : DiagOp m) : DiagOut m :=
  (diagStep sort method build eps (diagRun sort method build eps (diagInit L) ops).1 op).2

/-- The answer is what the program prints last. -/
theorem answer_eq (L : Option (Matrix (Fin m) (Fin m) ℝ)) (ops : List (DiagOp m)) (op : DiagOp m) :
    (diagRun sort method build eps (diagInit L) (ops ++ [op])).2.getLast? = some (answer sort method build eps L ops op) := by
  rw [diagRun_append]
  simp [diagRun, answer]

theorem diagStep_U {s : DiagObj m} {op : DiagOp m} {U : Matrix (Fin m) (Fin m) ℝ} (h : s.U = some U) : (diagStep sort method build eps s op).1.U = some U := by
  cases op with
  | fit X fX grads =>
    simp only [diagStep]
    split <;> exact h
  | getU =>
    simp only [diagStep]
    rw [h]
    exact h
  | getL => simp only [diagStep]; split <;> exact h
  | getScore => simp only [diagStep]; split <;> exact h

theorem diagRun_U {s : DiagObj m} (ops : List (DiagOp m)) {U : Matrix (Fin m) (Fin m) ℝ} (h : s.U = some U) :
    (diagRun sort method build eps s ops).1.U = some U := by
  induction ops generalizing s with
  | nil => exact h
  | cons op ops ih => exact ih (diagStep_U sort method build eps h)

theorem diagStep_coord {s : DiagObj m} (h : ∀ U, s.U = some U → IsCoordMatrix U) (op : DiagOp m) :
    ∀ U, (diagStep sort method build eps s op).1.U = some U → IsCoordMatrix U := by
  cases op with
  | fit X fX grads =>
    simp only [diagStep]
    split <;> exact h
  | getU =>
    simp only [diagStep]
    split
    · exact h
    · split
      · exact h
      · intro U hU
        cases hU
        exact coordU_coord _ _
  | getL => simp only [diagStep]; split <;> exact h
  | getScore => simp only [diagStep]; split <;> exact h

/-- **C90**: whatever calls were made before, the directions returned are distinct coordinate directions. -/
theorem diag_U_coord (L : Option (Matrix (Fin m) (Fin m) ℝ)) (ops : List (DiagOp m)) {U : Matrix (Fin m) (Fin m) ℝ}
    (h : answer sort method build eps L ops .getU = .mat U) : IsCoordMatrix U := by
  have key : ∀ (ops : List (DiagOp m)) (s : DiagObj m), (∀ U, s.U = some U → IsCoordMatrix U) →
      ∀ U, (diagRun sort method build eps s ops).1.U = some U → IsCoordMatrix U := by
    intro ops
    induction ops with
    | nil => exact fun s h => h
    | cons op ops ih => exact fun s h => ih _ (diagStep_coord sort method build eps h op)
  simp only [answer, diagStep] at h
  split at h
  · rename_i U' hU
    cases h
    exact key ops _ (fun U hU => by cases hU) _ hU
  · split at h
    · cases h
    · cases h
      exact coordU_coord _ _

/-- No cached directions as long as nobody asked for them. -/
theorem diagRun_noU {s : DiagObj m} (hs : s.U = none) (ops : List (DiagOp m)) (h : DiagOp.getU ∉ ops) : (diagRun sort method build eps s ops).1.U = none := by
  induction ops generalizing s with
  | nil => exact hs
  | cons op ops ih =>
    rw [List.mem_cons, not_or] at h
    refine ih ?_ h.2
    cases op with
    | fit X fX grads =>
      simp only [diagStep]
      split <;> exact hs
    | getU => exact absurd rfl h.1
    | getL => simp only [diagStep]; split <;> exact hs
    | getScore => simp only [diagStep]; split <;> exact hs

/-- The directions are asked for the first time, just after a fit that succeeded: they are ordered by importance for the fitted matrix.
Full property (false, `diag_U_stale_false`): the same for every request after a fit. -/
theorem diag_U_partial (hs : sort.Sorts) (L0 : Option (Matrix (Fin m) (Fin m) ℝ)) (ops : List (DiagOp m)) (hops : DiagOp.getU ∉ ops)
    (X : Option (List (Pt m))) (fX : Option (List ℝ)) (grads : Option (List (Pt m))) {H L : Matrix (Fin m) (Fin m) ℝ}
    (h : diagFit method build eps X fX grads = .ok (H, L)) :
    answer sort method build eps L0 (ops ++ [.fit X fX grads]) .getL = .mat L ∧
    ∃ U, answer sort method build eps L0 (ops ++ [.fit X fX grads]) .getU = .mat U ∧ IsCoordMatrix U ∧ Ordered L U := by
  obtain ⟨d, hd, rfl⟩ := diagFit_diag h
  have h0 := diagRun_noU sort method build eps (s := diagInit L0) rfl ops hops
  set s := (diagRun sort method build eps (diagInit L0) ops).1 with hsd
  have e : (diagRun sort method build eps (diagInit L0) (ops ++ [.fit X fX grads])).1 =
      { s with L := some (Matrix.diagonal d), score := some fun i => (Matrix.diagonal d) i i } := by
    rw [diagRun_append]
    simp only [diagRun, ← hsd, diagStep, h]
  constructor
  · unfold answer
    rw [e]
    rfl
  · refine ⟨coordU sort fun i => (Matrix.diagonal d) i i, ?_, coordU_coord _ _, coordU_ordered hs hd⟩
    unfold answer
    rw [e]
    simp only [diagStep, h0]

/-- **C90**, failure: once directions were returned, they are returned for ever, whatever is fitted later. -/
theorem diag_U_stale (L0 : Option (Matrix (Fin m) (Fin m) ℝ)) (ops later : List (DiagOp m)) {U : Matrix (Fin m) (Fin m) ℝ}
    (h : answer sort method build eps L0 ops .getU = .mat U) : answer sort method build eps L0 (ops ++ .getU :: later) .getU = .mat U := by
  unfold answer at h ⊢
  rw [diagRun_append]
  set s := (diagRun sort method build eps (diagInit L0) ops).1
  have hU : (diagStep sort method build eps s .getU).1.U = some U := by
    simp only [diagStep] at h ⊢
    split at h
    · rename_i U' hU'
      cases h
      rw [hU']
    · rename_i hn
      split at h
      · cases h
      · rename_i sc hsc
        cases h
        rfl
  have := diagRun_U sort method build eps later hU
  simp only [diagRun]
  conv_lhs => rw [diagStep]
  simp only [this]

/-- **C90**, failure: before a successful fit there are no directions, even if the matrix was given to the constructor. -/
theorem diag_U_unfitted (L0 : Option (Matrix (Fin m) (Fin m) ℝ)) (ops : List (DiagOp m))
    (h : ∀ X fX grads, DiagOp.fit X fX grads ∈ ops → ∀ r, diagFit method build eps X fX grads ≠ .ok r) :
    answer sort method build eps L0 ops .getU = .attributeError := by
  have key : ∀ (ops : List (DiagOp m)) (s : DiagObj m), s.U = none → s.score = none →
      (∀ X fX grads, DiagOp.fit X fX grads ∈ ops → ∀ r, diagFit method build eps X fX grads ≠ .ok r) →
      (diagRun sort method build eps s ops).1.U = none ∧ (diagRun sort method build eps s ops).1.score = none := by
    intro ops
    induction ops with
    | nil => exact fun s h1 h2 _ => ⟨h1, h2⟩
    | cons op ops ih =>
      intro s h1 h2 hf
      have hs : (diagStep sort method build eps s op).1.U = none ∧ (diagStep sort method build eps s op).1.score = none := by
        cases op with
        | fit X fX grads =>
          simp only [diagStep]
          split
          · exact ⟨h1, h2⟩
          · rename_i hok
            exact absurd hok (hf _ _ _ List.mem_cons_self _)
        | getU =>
          simp only [diagStep]
          rw [h1, h2]
          exact ⟨h1, h2⟩
        | getL => simp only [diagStep]; split <;> exact ⟨h1, h2⟩
        | getScore => simp only [diagStep]; split <;> exact ⟨h1, h2⟩
      exact ih _ hs.1 hs.2 fun X fX g hm => hf X fX g (List.mem_cons_of_mem _ hm)
  obtain ⟨h1, h2⟩ := key ops (diagInit L0) rfl rfl h
  simp only [answer, diagStep]
  rw [h1, h2]

/-- **C90**: before a successful fit the matrix returned is the diagonal part of the one given to the constructor, and there is none if none was given. -/
theorem diag_L_given (L0 : Option (Matrix (Fin m) (Fin m) ℝ)) (ops : List (DiagOp m))
    (h : ∀ X fX grads, DiagOp.fit X fX grads ∈ ops → ∀ r, diagFit method build eps X fX grads ≠ .ok r) :
    (∀ A, L0 = some A → ∃ D : Matrix (Fin m) (Fin m) ℝ, answer sort method build eps L0 ops .getL = .mat D ∧ ∀ i j, D i j = if i = j then A i j else 0) ∧
    (L0 = none → answer sort method build eps L0 ops .getL = .attributeError) := by
  have key : ∀ (ops : List (DiagOp m)) (s : DiagObj m),
      (∀ X fX grads, DiagOp.fit X fX grads ∈ ops → ∀ r, diagFit method build eps X fX grads ≠ .ok r) →
      (diagRun sort method build eps s ops).1.L = s.L := by
    intro ops
    induction ops with
    | nil => exact fun s _ => rfl
    | cons op ops ih =>
      intro s hf
      have hs : (diagStep sort method build eps s op).1.L = s.L := by
        cases op with
        | fit X fX grads =>
          simp only [diagStep]
          split
          · rfl
          · rename_i hok
            exact absurd hok (hf _ _ _ List.mem_cons_self _)
        | getU =>
          simp only [diagStep]
          split
          · rfl
          · split <;> rfl
        | getL => simp only [diagStep]; split <;> rfl
        | getScore => simp only [diagStep]; split <;> rfl
      exact (ih _ fun X fX g hm => hf X fX g (List.mem_cons_of_mem _ hm)).trans hs
  have hk := key ops (diagInit L0) h
  constructor
  · rintro A rfl
    refine ⟨Matrix.diagonal fun i => A i i, ?_, fun i j => ?_⟩
    · simp only [answer, diagStep]
      rw [hk]
      rfl
    · rw [Matrix.diagonal_apply]
      split
      · rename_i e; rw [e]
      · rfl
  · rintro rfl
    simp only [answer, diagStep]
    rw [hk]
    rfl

end run

/-- Two fits of an object with two coordinates: the first finds only the first coordinate important, the second only the second. -/
theorem diag_U_stale_false {sort : Argsort 2} (hs : sort.Sorts) (build : Build 2) (X1 X2 : Option (List (Pt 2))) (f1 f2 : Option (List ℝ))
    (g1 g2 : Option (List (Pt 2))) {H1 L1 H2 L2 : Matrix (Fin 2) (Fin 2) ℝ} (h1 : diagFit .cvxopt build none X1 f1 g1 = .ok (H1, L1))
    (h2 : diagFit .cvxopt build none X2 f2 g2 = .ok (H2, L2)) (hl1 : L1 1 1 < L1 0 0) (hl2 : L2 0 0 < L2 1 1) :
    ∃ U, answer sort .cvxopt build none none [.fit X1 f1 g1, .getU, .fit X2 f2 g2] .getU = .mat U ∧
      answer sort .cvxopt build none none [.fit X1 f1 g1, .getU, .fit X2 f2 g2] .getL = .mat L2 ∧ ¬ Ordered L2 U := by
  obtain ⟨-, U, hU, ⟨σ, hσ⟩, ho⟩ := diag_U_partial sort .cvxopt build none hs none [] (by simp) X1 f1 g1 h1
  refine ⟨U, ?_, ?_, ?_⟩
  · exact diag_U_stale sort .cvxopt build none none [.fit X1 f1 g1] [.fit X2 f2 g2] hU
  · simp only [answer, diagRun, diagStep, h2]
  · obtain ⟨d1, hd1, rfl⟩ := diagFit_diag h1
    obtain ⟨d2, hd2, rfl⟩ := diagFit_diag h2
    rw [Matrix.diagonal_apply_eq, Matrix.diagonal_apply_eq] at hl1 hl2
    intro ho2
    have a := ho 0 1 (by decide)
    have b := ho2 0 1 (by decide)
    rw [diag_ucol _ _ _ hσ, diag_ucol _ _ _ hσ, abs_of_nonneg (hd1 _), abs_of_nonneg (hd1 _)] at a
    rw [diag_ucol _ _ _ hσ, diag_ucol _ _ _ hσ, abs_of_nonneg (hd2 _), abs_of_nonneg (hd2 _)] at b
    have hne : σ 0 ≠ σ 1 := fun e => by simpa using σ.injective e
    rcases (show σ 0 = 0 ∨ σ 0 = 1 by omega) with h0 | h0 <;> rcases (show σ 1 = 0 ∨ σ 1 = 1 by omega) with h1 | h1
    · exact hne (h0.trans h1.symm)
    · rw [h0, h1] at b
      linarith
    · rw [h0, h1] at a
      linarith
    · exact hne (h0.trans h1.symm)

/-- Non-vacuity: gradients along the first, then along the second coordinate, with a solver that returns the optimum for such data. -/
example : ∃ (build : Build 2) (H1 L1 H2 L2 : Matrix (Fin 2) (Fin 2) ℝ),
    diagFit .cvxopt build none none none (some [![2, 0]]) = .ok (H1, L1) ∧ diagFit .cvxopt build none none none (some [![0, 2]]) = .ok (H2, L2) ∧
    L1 1 1 < L1 0 0 ∧ L2 0 0 < L2 1 1 := by
  have hs : ∀ g : Pt 2, g ⬝ᵥ g = 4 → fitScale [] [g] = 2 := by
    intro g hg
    have h2 : nrm g = 2 := by
      rw [nrm, hg, show (4 : ℝ) = 2 ^ 2 by norm_num, Real.sqrt_sq (by norm_num)]
    simp [fitScale, scale1, scale2, lmax, h2]
  have key : ∀ g : Pt 2, g ⬝ᵥ g = 4 → diagFit .cvxopt (fun _ g _ => some (Matrix.diagonal fun i => ((g.headD 0) i) ^ 2)) none none none (some [g]) =
      .ok ((2 : ℝ) ^ 2 • Matrix.diagonal (fun i => max ((g i / 2) ^ 2) 0), (2 : ℝ) • Matrix.diagonal (fun i => Real.sqrt (max ((g i / 2) ^ 2) 0))) := by
    intro g hg
    simp [diagFit, prepare, initDim, pairUp, hs g hg, scaleGrads, div_eq_inv_mul]
  refine ⟨_, _, _, _, _, key ![2, 0] (by norm_num [vec2_dotProduct]), key ![0, 2] (by norm_num [vec2_dotProduct]), ?_, ?_⟩ <;> simp

end Verif.Lip
