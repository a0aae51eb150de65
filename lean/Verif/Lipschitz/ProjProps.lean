import Verif.Lipschitz.ProjModel
import Verif.Lipschitz.FitExists

/-!
# C33, C34, C75: projections onto the constraints
-/

namespace Verif.Lip

open Verif Matrix

variable {m : ℕ}

/-! ## C33 -/

theorem quad_add (A B : Matrix (Fin m) (Fin m) ℝ) (x : Pt m) : quad (A + B) x = quad A x + quad B x := by
  simp [quad, add_mulVec, dotProduct_add]

theorem quad_smul_mat (c : ℝ) (A : Matrix (Fin m) (Fin m) ℝ) (x : Pt m) : quad (c • A) x = c * quad A x := by
  simp [quad, smul_mulVec, dotProduct_smul]

theorem outer_transpose (v : Pt m) : (outer v)ᵀ = outer v := by
  ext i j; simp [outer, mul_comm]

/-- One update: the matrix grows, symmetry is kept, and the treated constraint becomes an equality. -/
theorem eval_update (H : Matrix (Fin m) (Fin m) ℝ) (p : Pt m) (hp : p ≠ 0) (lhs u : ℝ) (hu : u = (lhs - quad H p) / (p ⬝ᵥ p) ^ 2) (hpos : 0 ≤ u) :
    LoewnerLe H (H + u • outer p) ∧ (Hᵀ = H → (H + u • outer p)ᵀ = H + u • outer p) ∧ quad (H + u • outer p) p = lhs := by
  refine ⟨fun x => ?_, fun h => ?_, ?_⟩
  · rw [quad_add, quad_smul_mat, quad_outer]
    have := mul_nonneg hpos (sq_nonneg (p ⬝ᵥ x))
    linarith
  · rw [Matrix.transpose_add, Matrix.transpose_smul, outer_transpose, h]
  · have : p ⬝ᵥ p ≠ 0 := fun h => hp (dotProduct_self_eq_zero.1 h)
    rw [quad_add, quad_smul_mat, quad_outer, hu, div_mul_cancel₀ _ (pow_ne_zero 2 this)]
    ring

theorem argmaxFrom_mem {α : Type*} (f : α → XR) (b : α) (l : List α) : argmaxFrom f b l ∈ b :: l := by
  induction l generalizing b with
  | nil => simp [argmaxFrom]
  | cons a l ih =>
    rw [argmaxFrom]
    split
    · simp
    · split
      · exact List.mem_cons_of_mem _ (ih a)
      · rcases List.mem_cons.1 (ih b) with h | h
        · rw [h]; simp
        · exact List.mem_cons_of_mem _ (List.mem_cons_of_mem _ h)

/-- With finite values the entry found by `argmax` is the largest. -/
theorem argmaxFrom_max {α : Type*} (f : α → XR) (v : α → ℝ) (b : α) (l : List α) (h : ∀ a ∈ b :: l, f a = .fin (v a)) :
    ∀ a ∈ b :: l, v a ≤ v (argmaxFrom f b l) := by
  induction l generalizing b with
  | nil => intro a ha; rw [List.mem_singleton.1 ha]; simp [argmaxFrom]
  | cons c l ih =>
    have hb := h b (by simp)
    have hc := h c (by simp)
    intro a ha
    rw [argmaxFrom, if_neg (by rw [hb]; simp)]
    by_cases hlt : v b < v c
    · rw [if_pos (Or.inr (by rw [hb, hc]; exact hlt))]
      have hi := ih c (fun a ha => h a (List.mem_cons_of_mem _ ha))
      rcases List.mem_cons.1 ha with rfl | ha
      · exact hlt.le.trans (hi c (by simp))
      · exact hi a ha
    · rw [if_neg (by rw [hb, hc]; simp [XR.lt]; exact not_lt.1 hlt)]
      have hi := ih b (fun a ha => by
        rcases List.mem_cons.1 ha with rfl | ha
        · exact hb
        · exact h a (List.mem_cons_of_mem _ (List.mem_cons_of_mem _ ha)))
      rcases List.mem_cons.1 ha with rfl | ha
      · exact hi a (by simp)
      · rcases List.mem_cons.1 ha with rfl | ha
        · exact (not_lt.1 hlt).trans (hi b (by simp))
        · exact hi a (List.mem_cons_of_mem _ ha)

/-- All rows come from distinct points. -/
def RowsOk (l : List (EvalRow m)) : Prop := ∀ r ∈ l, r.1 ≠ 0

theorem updateOf_fin {H : Matrix (Fin m) (Fin m) ℝ} {r : EvalRow m} (h : r.1 ≠ 0) : updateOf H r = .fin ((r.2 - quad H r.1) / (r.1 ⬝ᵥ r.1) ^ 2) := by
  have : (r.1 ⬝ᵥ r.1) ^ 2 ≠ 0 := pow_ne_zero 2 (fun e => h (dotProduct_self_eq_zero.1 e))
  rw [updateOf, XR.div, if_neg this]

/-- The invariant of the loop, for any amount of fuel: whatever is returned is symmetric, dominates the starting matrix and satisfies every constraint up to
the tolerance used by the stopping test. -/
theorem projEvalsLoop_spec (r : EvalRow m) (rs : List (EvalRow m)) (hr : RowsOk (r :: rs)) (fuel : ℕ) (H : Matrix (Fin m) (Fin m) ℝ) (hH : Hᵀ = H) :
    ∀ res, projEvalsLoop r rs fuel H = some res →
      ∃ H', res = .ok H' ∧ H'ᵀ = H' ∧ LoewnerLe H H' ∧ ∀ q ∈ r :: rs, q.2 - quad H' q.1 ≤ evalTol * (q.1 ⬝ᵥ q.1) ^ 2 := by
  induction fuel generalizing H with
  | zero => intro res h; rw [projEvalsLoop] at h; cases h
  | succ fuel ih =>
    intro res h
    have hk := argmaxFrom_mem (updateOf H) r rs
    have hmax := argmaxFrom_max (updateOf H) (fun r => (r.2 - quad H r.1) / (r.1 ⬝ᵥ r.1) ^ 2) r rs (fun a ha => updateOf_fin (hr a ha))
    set k := argmaxFrom (updateOf H) r rs with hkdef
    have hu := updateOf_fin (H := H) (hr k hk)
    rw [projEvalsLoop, ← hkdef, hu] at h
    by_cases hlt : evalTol < (k.2 - quad H k.1) / (k.1 ⬝ᵥ k.1) ^ 2
    · rw [if_pos (show XR.lt (.fin evalTol) (.fin _) from hlt), if_pos (by trivial)] at h
      have htol : 0 < evalTol := by unfold evalTol; norm_num
      obtain ⟨u1, u2, -⟩ := eval_update H k.1 (hr k hk) k.2 _ rfl (htol.trans hlt).le
      obtain ⟨H', e, s1, s2, s3⟩ := ih _ (u2 hH) res h
      exact ⟨H', e, s1, fun x => (u1 x).trans (s2 x), s3⟩
    · rw [if_neg (show ¬ XR.lt (.fin evalTol) (.fin _) from hlt)] at h
      refine ⟨H, (Option.some.inj h).symm, hH, fun x => le_refl _, fun q hq => ?_⟩
      have h1 := (hmax q hq).trans (not_lt.1 hlt)
      have hpos : 0 < (q.1 ⬝ᵥ q.1) ^ 2 := by
        have : q.1 ⬝ᵥ q.1 ≠ 0 := fun e => hr q hq (dotProduct_self_eq_zero.1 e)
        positivity
      exact (div_le_iff₀ hpos).1 h1

/-- Termination: each constraint is treated at most once, so the loop ends after at most one pass per constraint. -/
theorem projEvalsLoop_terminates (r : EvalRow m) (rs : List (EvalRow m)) (hr : RowsOk (r :: rs)) (fuel : ℕ) (H : Matrix (Fin m) (Fin m) ℝ)
    (hf : ((r :: rs).filter (fun q => decide (quad H q.1 < q.2))).length < fuel) : ∃ res, projEvalsLoop r rs fuel H = some res := by
  classical
  induction fuel generalizing H with
  | zero => omega
  | succ fuel ih =>
    have hk := argmaxFrom_mem (updateOf H) r rs
    rw [projEvalsLoop]
    set k := argmaxFrom (updateOf H) r rs with hkdef
    have hu := updateOf_fin (H := H) (hr k hk)
    rw [hu]
    by_cases hlt : evalTol < (k.2 - quad H k.1) / (k.1 ⬝ᵥ k.1) ^ 2
    · rw [if_pos (show XR.lt (.fin evalTol) (.fin _) from hlt), if_pos (by trivial)]
      have htol : 0 < evalTol := by unfold evalTol; norm_num
      obtain ⟨u1, -, u3⟩ := eval_update H k.1 (hr k hk) k.2 _ rfl (htol.trans hlt).le
      apply ih
      have hviol : quad H k.1 < k.2 := by
        have hpos : 0 < (k.1 ⬝ᵥ k.1) ^ 2 := by
          have : k.1 ⬝ᵥ k.1 ≠ 0 := fun e => hr k hk (dotProduct_self_eq_zero.1 e)
          positivity
        have := (div_pos_iff_of_pos_right hpos).1 (htol.trans hlt)
        linarith
      simp only [finPart]
      set H' := H + ((k.2 - quad H k.1) / (k.1 ⬝ᵥ k.1) ^ 2) • outer k.1 with hH'
      -- the violated constraints of `H'` are among those of `H`, without `k`
      have hsub : ∀ l : List (EvalRow m), (l.filter (fun q => decide (quad H' q.1 < q.2))).length ≤ (l.filter (fun q => decide (quad H q.1 < q.2))).length := by
        intro l
        induction l with
        | nil => simp
        | cons q l ihl =>
          simp only [List.filter_cons]
          by_cases h1 : quad H' q.1 < q.2
          · have h2 : quad H q.1 < q.2 := lt_of_le_of_lt (u1 q.1) h1
            simp only [h1, h2, decide_true, if_true, List.length_cons]; omega
          · by_cases h2 : quad H q.1 < q.2
            · simp only [h1, h2, decide_true, decide_false, if_true, Bool.false_eq_true, if_false, List.length_cons]; omega
            · simp only [h1, h2, decide_false, Bool.false_eq_true, if_false]; exact ihl
      have hstrict : ∀ l : List (EvalRow m), k ∈ l → (l.filter (fun q => decide (quad H' q.1 < q.2))).length < (l.filter (fun q => decide (quad H q.1 < q.2))).length := by
        intro l
        induction l with
        | nil => simp
        | cons q l ihl =>
          intro hmem
          rcases List.mem_cons.1 hmem with rfl | hmem
          · have h1 : ¬ quad H' k.1 < k.2 := by rw [u3]; exact lt_irrefl _
            simp only [List.filter_cons, h1, hviol, decide_true, decide_false, if_true, Bool.false_eq_true, if_false, List.length_cons]
            have := hsub l
            omega
          · have hl := ihl hmem
            simp only [List.filter_cons]
            by_cases h1 : quad H' q.1 < q.2
            · have h2 : quad H q.1 < q.2 := lt_of_le_of_lt (u1 q.1) h1
              simp only [h1, h2, decide_true, if_true, List.length_cons]; omega
            · by_cases h2 : quad H q.1 < q.2
              · simp only [h1, h2, decide_true, decide_false, if_true, Bool.false_eq_true, if_false, List.length_cons]; omega
              · simp only [h1, h2, decide_false, Bool.false_eq_true, if_false]; exact hl
      exact lt_of_lt_of_le (hstrict (r :: rs) hk) (by omega)
    · rw [if_neg (show ¬ XR.lt (.fin evalTol) (.fin _) from hlt)]
      exact ⟨_, rfl⟩

theorem evalRows_ok {data : List (Pt m × ℝ)} (hd : DistinctPts data) : RowsOk (evalRows data) := by
  intro r hr
  obtain ⟨p, hp, rfl⟩ := List.mem_map.1 hr
  exact sub_ne_zero.2 (hd p hp)

/-- **C33** for distinct points and at least two samples: `project_evals` ends after at most one update per pair, and its result is symmetric, dominates the
starting matrix (so it is positive semidefinite if that was) and satisfies every evaluation constraint up to the tolerance of its stopping test.
Missing: repeated points (`projectEvals_false`) and a single sample (`projectEvals_single`). -/
theorem projectEvals_partial (H : Matrix (Fin m) (Fin m) ℝ) (hH : Hᵀ = H) (data : List (Pt m × ℝ)) (hd : DistinctPts data) (h1 : data.length ≠ 1) :
    (∀ fuel, (pairsOf data).length < fuel → ∃ res, projectEvals fuel H data = some res) ∧
    ∀ fuel res, projectEvals fuel H data = some res → ∃ H', res = .ok H' ∧ H'ᵀ = H' ∧ LoewnerLe H H' ∧
      ∀ p ∈ pairsOf data, (p.1.2 - p.2.2) ^ 2 ≤ quad H' (p.1.1 - p.2.1) + evalTol * ((p.1.1 - p.2.1) ⬝ᵥ (p.1.1 - p.2.1)) ^ 2 := by
  have hok := evalRows_ok hd
  cases hdata : data with
  | nil =>
    refine ⟨fun fuel _ => ⟨.ok H, by simp [projectEvals]⟩, fun fuel res h => ?_⟩
    simp only [projectEvals, List.length_nil, if_true] at h
    exact ⟨H, (Option.some.inj h).symm, hH, fun x => le_refl _, by simp [pairsOf]⟩
  | cons a l =>
    rw [← hdata]
    have hne : evalRows data ≠ [] := by
      rw [hdata] at h1 ⊢
      cases l with
      | nil => simp at h1
      | cons b l => simp [evalRows, pairsOf]
    obtain ⟨r, rs, hrs⟩ := List.exists_cons_of_ne_nil hne
    rw [hrs] at hok
    have hlen : data.length ≠ 0 := by rw [hdata]; simp
    constructor
    · intro fuel hf
      unfold projectEvals
      rw [if_neg hlen, hrs]
      refine projEvalsLoop_terminates r rs hok fuel H ?_
      refine lt_of_le_of_lt (List.length_filter_le _ _) ?_
      rw [← hrs, evalRows, List.length_map]; exact hf
    · intro fuel res h
      unfold projectEvals at h
      rw [if_neg hlen, hrs] at h
      obtain ⟨H', e, s1, s2, s3⟩ := projEvalsLoop_spec r rs hok fuel H hH res h
      refine ⟨H', e, s1, s2, fun p hp => ?_⟩
      have := s3 (p.1.1 - p.2.1, (p.1.2 - p.2.2) ^ 2) (by rw [← hrs]; exact List.mem_map.2 ⟨p, hp, rfl⟩)
      simp only at this
      linarith

/-- A single sample raises (`argmax` of an empty sequence). -/
theorem projectEvals_single (fuel : ℕ) (H : Matrix (Fin m) (Fin m) ℝ) (d : Pt m × ℝ) : projectEvals fuel H [d] = some (.error .valueError) := by
  simp [projectEvals, evalRows, pairsOf]

/-- **C33 is false for repeated points**: a repeated sample stops the loop at once, and the starting matrix is returned although it violates a constraint. -/
theorem projectEvals_false : ∃ data : List (Pt 1 × ℝ), (∀ fuel, projectEvals (fuel + 1) 0 data = some (.ok 0)) ∧
    ∃ p ∈ pairsOf data, quad 0 (p.1.1 - p.2.1) + 1 < (p.1.2 - p.2.2) ^ 2 := by
  refine ⟨[(![0], 0), (![0], 0), (![1], 5)], fun fuel => ?_, ((![0], 0), (![1], 5)), by simp [pairsOf], ?_⟩
  · have h0 : updateOf (m := 1) 0 (![0] - ![0], (0 - 0) ^ 2) = .nan := by
      simp [updateOf, XR.div, quad]
    have hk : ∀ rs, argmaxFrom (updateOf (m := 1) 0) (![0] - ![0], (0 - 0) ^ 2) rs = (![0] - ![0], (0 - 0) ^ 2) := by
      intro rs
      cases rs with
      | nil => rfl
      | cons a l => rw [argmaxFrom, if_pos h0]
    unfold projectEvals
    rw [if_neg (by simp)]
    simp only [evalRows, pairsOf, List.map, List.cons_append, List.nil_append, List.append_nil]
    rw [projEvalsLoop, hk, h0, if_neg (show ¬ XR.lt (.fin evalTol) .nan from fun h => h)]
  · rw [quad_zero]; norm_num

/-! ## C34 -/

/-- `dist_grad_constraints` gives the smallest eigenvalue of `H - g gᵀ`: the largest `c` with `c ‖x‖² ≤ xᵀ (H - g gᵀ) x` for all `x`. -/
def MinEigSpec (dist : MinEigFn m) : Prop := ∀ H g, Hᵀ = H → ∀ c, c ≤ dist H g ↔ ∀ x, c * (x ⬝ᵥ x) ≤ quad (H - outer g) x

theorem quad_sub (A B : Matrix (Fin m) (Fin m) ℝ) (x : Pt m) : quad (A - B) x = quad A x - quad B x := by
  simp [quad, sub_mulVec, dotProduct_sub]

/-- One update: the new matrix is symmetric, dominates the old one, and dominates `g gᵀ`. -/
theorem grad_update {eigh : EighFn m} (he : EighSpec eigh) (H : Matrix (Fin m) (Fin m) ℝ) (hH : Hᵀ = H) (g : Pt m) :
    (gradUpdate eigh H g)ᵀ = gradUpdate eigh H g ∧ LoewnerLe H (gradUpdate eigh H g) ∧ LoewnerLe (outer g) (gradUpdate eigh H g) := by
  have hs : (H - outer g)ᵀ = H - outer g := by rw [Matrix.transpose_sub, hH, outer_transpose]
  obtain ⟨-, h2⟩ := he _ hs
  refine ⟨?_, fun x => ?_, fun x => ?_⟩
  · unfold gradUpdate
    rw [Matrix.transpose_add, outer_transpose, Matrix.transpose_mul, Matrix.transpose_mul, Matrix.transpose_transpose, Matrix.diagonal_transpose, Matrix.mul_assoc]
  · have h3 : quad H x = quad (outer g) x + quad (H - outer g) x := by rw [quad_sub]; ring
    rw [h3]
    unfold gradUpdate
    rw [quad_add, quad_diag]
    conv_lhs => rw [h2, Matrix.mul_assoc, quad_diag]
    have : ∑ k, (eigh (H - outer g)).1 k * (ucol (eigh (H - outer g)).2 k ⬝ᵥ x) ^ 2 ≤
        ∑ k, max 0 ((eigh (H - outer g)).1 k) * (ucol (eigh (H - outer g)).2 k ⬝ᵥ x) ^ 2 :=
      Finset.sum_le_sum (fun k _ => mul_le_mul_of_nonneg_right (le_max_right _ _) (sq_nonneg _))
    linarith
  · unfold gradUpdate
    rw [quad_add, quad_diag]
    have : 0 ≤ ∑ k, max 0 ((eigh (H - outer g)).1 k) * (ucol (eigh (H - outer g)).2 k ⬝ᵥ x) ^ 2 :=
      Finset.sum_nonneg (fun k _ => mul_nonneg (le_max_left _ _) (sq_nonneg _))
    linarith

theorem argminFrom_mem {α : Type*} (f : α → ℝ) (b : α) (l : List α) : argminFrom f b l ∈ b :: l := by
  induction l generalizing b with
  | nil => simp [argminFrom]
  | cons a l ih =>
    rw [argminFrom]
    split
    · exact List.mem_cons_of_mem _ (ih a)
    · rcases List.mem_cons.1 (ih b) with h | h
      · rw [h]; simp
      · exact List.mem_cons_of_mem _ (List.mem_cons_of_mem _ h)

theorem argminFrom_min {α : Type*} (f : α → ℝ) (b : α) (l : List α) : ∀ a ∈ b :: l, f (argminFrom f b l) ≤ f a := by
  induction l generalizing b with
  | nil => intro a ha; rw [List.mem_singleton.1 ha]; simp [argminFrom]
  | cons c l ih =>
    intro a ha
    rw [argminFrom]
    split
    · rename_i hlt
      rcases List.mem_cons.1 ha with rfl | ha
      · exact (ih c c (by simp)).trans hlt.le
      · exact ih c a ha
    · rename_i hlt
      rcases List.mem_cons.1 ha with rfl | ha
      · exact ih a a (by simp)
      · rcases List.mem_cons.1 ha with rfl | ha
        · exact (ih b b (by simp)).trans (not_lt.1 hlt)
        · exact ih b a (List.mem_cons_of_mem _ ha)

theorem minEig_nonneg {dist : MinEigFn m} (hd : MinEigSpec dist) {H : Matrix (Fin m) (Fin m) ℝ} (hH : Hᵀ = H) (g : Pt m) :
    0 ≤ dist H g ↔ LoewnerLe (outer g) H := by
  rw [hd H g hH 0]
  simp only [zero_mul, quad_sub, sub_nonneg]
  rfl

/-- **C34**: whatever `project_grads` returns, after any number of passes, is symmetric, dominates the starting matrix and dominates `g gᵀ` for every gradient. -/
theorem projectGrads_spec {eigh : EighFn m} (he : EighSpec eigh) {dist : MinEigFn m} (hd : MinEigSpec dist) (fuel : ℕ) (H : Matrix (Fin m) (Fin m) ℝ)
    (hH : Hᵀ = H) (grads : List (Pt m)) (H' : Matrix (Fin m) (Fin m) ℝ) (h : projectGrads eigh dist fuel H grads = some H') :
    H'ᵀ = H' ∧ LoewnerLe H H' ∧ ∀ g ∈ grads, LoewnerLe (outer g) H' := by
  cases grads with
  | nil =>
    rw [projectGrads] at h
    obtain rfl := Option.some.inj h
    exact ⟨hH, fun x => le_refl _, by simp⟩
  | cons g gs =>
    rw [projectGrads] at h
    induction fuel generalizing H with
    | zero => rw [projGradsLoop] at h; cases h
    | succ fuel ih =>
      rw [projGradsLoop] at h
      split at h
      · rename_i hge
        obtain rfl := Option.some.inj h
        refine ⟨hH, fun x => le_refl _, fun a ha => ?_⟩
        exact (minEig_nonneg hd hH a).1 (hge.trans (argminFrom_min (dist H) g gs a ha))
      · obtain ⟨u1, u2, -⟩ := grad_update he H hH (argminFrom (dist H) g gs)
        obtain ⟨a, b, c⟩ := ih _ u1 h
        exact ⟨a, fun x => (u2 x).trans (b x), c⟩

/-- **C34**: `project_grads` ends after at most one update per gradient. -/
theorem projectGrads_terminates {eigh : EighFn m} (he : EighSpec eigh) {dist : MinEigFn m} (hd : MinEigSpec dist) (fuel : ℕ) (H : Matrix (Fin m) (Fin m) ℝ)
    (hH : Hᵀ = H) (grads : List (Pt m)) (hf : grads.length < fuel) : ∃ H', projectGrads eigh dist fuel H grads = some H' := by
  classical
  cases grads with
  | nil => exact ⟨H, rfl⟩
  | cons g gs =>
    have key : ∀ (fuel : ℕ) (H : Matrix (Fin m) (Fin m) ℝ), Hᵀ = H → ((g :: gs).filter (fun a => decide (¬ LoewnerLe (outer a) H))).length < fuel →
        ∃ H', projGradsLoop eigh dist g gs fuel H = some H' := by
      intro fuel
      induction fuel with
      | zero => intro H _ h; omega
      | succ fuel ih =>
        intro H hH hfl
        rw [projGradsLoop]
        have hk := argminFrom_mem (dist H) g gs
        set k := argminFrom (dist H) g gs with hkdef
        split
        · exact ⟨_, rfl⟩
        · rename_i hneg
          obtain ⟨u1, u2, u3⟩ := grad_update he H hH k
          have hviol : ¬ LoewnerLe (outer k) H := fun h => hneg ((minEig_nonneg hd hH k).2 h)
          apply ih _ u1
          set H' := gradUpdate eigh H k with hH'
          have hmono : ∀ a, ¬ LoewnerLe (outer a) H' → ¬ LoewnerLe (outer a) H := fun a h h' => h (fun x => (h' x).trans (u2 x))
          have hsub : ∀ l : List (Pt m), (l.filter (fun a => decide (¬ LoewnerLe (outer a) H'))).length ≤ (l.filter (fun a => decide (¬ LoewnerLe (outer a) H))).length := by
            intro l
            induction l with
            | nil => simp
            | cons q l ihl =>
              simp only [List.filter_cons]
              by_cases h1 : LoewnerLe (outer q) H'
              · by_cases h2 : LoewnerLe (outer q) H <;> simp [h1, h2] <;> simp only [decide_not] at ihl <;> omega
              · have h2 := hmono q h1
                simp [h1, h2]; simp only [decide_not] at ihl; omega
          have hstrict : ∀ l : List (Pt m), k ∈ l → (l.filter (fun a => decide (¬ LoewnerLe (outer a) H'))).length < (l.filter (fun a => decide (¬ LoewnerLe (outer a) H))).length := by
            intro l
            induction l with
            | nil => simp
            | cons q l ihl =>
              intro hmem
              rcases List.mem_cons.1 hmem with rfl | hmem
              · have := hsub l
                simp only [List.filter_cons]
                simp [u3, hviol]; simp only [decide_not] at this; omega
              · have hl := ihl hmem
                simp only [List.filter_cons]
                by_cases h1 : LoewnerLe (outer q) H'
                · by_cases h2 : LoewnerLe (outer q) H <;> simp [h1, h2] <;> simp only [decide_not] at hl <;> omega
                · have h2 := hmono q h1
                  simp [h1, h2]; simp only [decide_not] at hl; omega
          have := hstrict (g :: gs) hk
          omega
    rw [projectGrads]
    exact key fuel H hH (lt_of_le_of_lt (List.length_filter_le _ _) hf)

/-! ## C75: the secular equation -/

/-- **C75**: let `-H = U diag(ew) Uᵀ` with `U` orthogonal and `u = Uᵀ g`.  A root of the secular function to the right of all `ew` is the negative of the
smallest eigenvalue of `H - g gᵀ`: the largest number `c` with `c ‖x‖² ≤ xᵀ (H - g gᵀ) x`, attained by an eigenvector. -/
theorem secular_root (H : Matrix (Fin m) (Fin m) ℝ) (g : Pt m) (U : Matrix (Fin m) (Fin m) ℝ) (ew : Fin m → ℝ) (hU : Uᵀ * U = 1)
    (hH : -H = U * Matrix.diagonal ew * Uᵀ) (lam : ℝ) (hl : ∀ i, ew i < lam) (hroot : secular ew (Uᵀ *ᵥ g) lam = 0) :
    (∀ x, -lam * (x ⬝ᵥ x) ≤ quad (H - outer g) x) ∧ ∃ x, x ≠ 0 ∧ (H - outer g) *ᵥ x = -lam • x := by
  have hUU : U * Uᵀ = 1 := mul_eq_one_comm.1 hU
  set u := Uᵀ *ᵥ g with hu
  have hpos : ∀ i, 0 < lam - ew i := fun i => by linarith [hl i]
  have hroot' : ∑ i, u i ^ 2 / (lam - ew i) = 1 := by
    have : ∑ i, u i ^ 2 / (ew i - lam) = -∑ i, u i ^ 2 / (lam - ew i) := by
      rw [← Finset.sum_neg_distrib]
      refine Finset.sum_congr rfl (fun i _ => ?_)
      rw [← neg_sub lam (ew i), div_neg]
    rw [secular, this] at hroot
    linarith
  have hHx : ∀ x, quad H x = -∑ k, ew k * (ucol U k ⬝ᵥ x) ^ 2 := by
    intro x
    have h1 : quad (-H) x = ∑ k, ew k * (ucol U k ⬝ᵥ x) ^ 2 := by rw [hH, Matrix.mul_assoc, quad_diag]
    rw [quad_neg] at h1
    linarith
  have hxx : ∀ x : Pt m, x ⬝ᵥ x = ∑ k, (ucol U k ⬝ᵥ x) ^ 2 := by
    intro x
    have := quad_diag U (fun _ => 1) x
    rw [show Matrix.diagonal (fun _ : Fin m => (1 : ℝ)) = 1 from Matrix.diagonal_one, Matrix.one_mul, hUU] at this
    simpa [quad] using this
  have hgx : ∀ x, g ⬝ᵥ x = ∑ k, u k * (ucol U k ⬝ᵥ x) := by
    intro x
    have h1 : g ⬝ᵥ x = u ⬝ᵥ (Uᵀ *ᵥ x) := by
      rw [hu, Matrix.dotProduct_mulVec, Matrix.vecMul_transpose, Matrix.mulVec_mulVec, hUU, Matrix.one_mulVec]
    rw [h1]; rfl
  constructor
  · intro x
    rw [quad_sub, quad_outer, hHx, hxx, hgx]
    set y : Fin m → ℝ := fun k => ucol U k ⬝ᵥ x with hy
    have hcs := Finset.sum_mul_sq_le_sq_mul_sq Finset.univ (fun i => u i / Real.sqrt (lam - ew i)) (fun i => Real.sqrt (lam - ew i) * y i)
    have e1 : ∑ i, u i / Real.sqrt (lam - ew i) * (Real.sqrt (lam - ew i) * y i) = ∑ i, u i * y i := by
      refine Finset.sum_congr rfl (fun i _ => ?_)
      have := (Real.sqrt_pos.2 (hpos i)).ne'
      field_simp
    have e2 : ∑ i, (u i / Real.sqrt (lam - ew i)) ^ 2 = 1 := by
      rw [← hroot']
      refine Finset.sum_congr rfl (fun i _ => ?_)
      rw [div_pow, Real.sq_sqrt (hpos i).le]
    have e3 : ∑ i, (Real.sqrt (lam - ew i) * y i) ^ 2 = lam * ∑ i, y i ^ 2 - ∑ i, ew i * y i ^ 2 := by
      rw [Finset.mul_sum, ← Finset.sum_sub_distrib]
      refine Finset.sum_congr rfl (fun i _ => ?_)
      rw [mul_pow, Real.sq_sqrt (hpos i).le]; ring
    rw [e1, e2, e3, one_mul] at hcs
    linarith
  · refine ⟨U *ᵥ (fun i => u i / (lam - ew i)), fun h0 => ?_, ?_⟩
    · have h1 : (fun i => u i / (lam - ew i)) = 0 := by
        have := congrArg (fun v => Uᵀ *ᵥ v) h0
        simpa [Matrix.mulVec_mulVec, hU] using this
      have h2 : ∀ i, u i = 0 := by
        intro i
        have := congrFun h1 i
        simp only [Pi.zero_apply, div_eq_zero_iff] at this
        rcases this with h | h
        · exact h
        · exact absurd h (hpos i).ne'
      simp [h2] at hroot'
    · have hHm : H = -(U * Matrix.diagonal ew * Uᵀ) := by rw [← hH, neg_neg]
      have hgU : g = U *ᵥ u := by rw [hu, Matrix.mulVec_mulVec, hUU, Matrix.one_mulVec]
      have ho : outer g *ᵥ (U *ᵥ fun i => u i / (lam - ew i)) = g := by
        have h1 : g ⬝ᵥ (U *ᵥ fun i => u i / (lam - ew i)) = 1 := by
          rw [Matrix.dotProduct_mulVec, ← Matrix.mulVec_transpose, ← hu, ← hroot', dotProduct]
          exact Finset.sum_congr rfl (fun i _ => by ring)
        ext i
        have h2 : (outer g *ᵥ (U *ᵥ fun i => u i / (lam - ew i))) i = g i * (g ⬝ᵥ (U *ᵥ fun i => u i / (lam - ew i))) := by
          simp only [outer, Matrix.mulVec, dotProduct, Matrix.of_apply, Finset.mul_sum]
          refine Finset.sum_congr rfl (fun j _ => ?_)
          refine Finset.sum_congr rfl (fun j _ => ?_)
          ring
        rw [h2, h1, mul_one]
      rw [Matrix.sub_mulVec, ho]
      conv_lhs => rw [hHm]
      have hUv : ∀ v : Pt m, (U * Matrix.diagonal ew * Uᵀ) *ᵥ (U *ᵥ v) = U *ᵥ (Matrix.diagonal ew *ᵥ v) := by
        intro v
        rw [Matrix.mulVec_mulVec, Matrix.mulVec_mulVec, Matrix.mul_assoc, hU, Matrix.mul_one]
      rw [Matrix.neg_mulVec, hUv]
      conv_lhs => rw [hgU]
      rw [← Matrix.mulVec_neg, ← Matrix.mulVec_sub, ← Matrix.mulVec_smul]
      congr 1
      ext i
      simp only [Pi.sub_apply, Pi.neg_apply, Matrix.mulVec_diagonal, Pi.smul_apply, smul_eq_mul]
      have := (hpos i).ne'
      field_simp
      ring

/-- A root of the secular equation gives the value assumed of `dist_grad_constraints` in `MinEigSpec`. -/
theorem minEig_of_root (H : Matrix (Fin m) (Fin m) ℝ) (g : Pt m) (lam : ℝ) (h1 : ∀ x, -lam * (x ⬝ᵥ x) ≤ quad (H - outer g) x)
    (h2 : ∃ x, x ≠ 0 ∧ (H - outer g) *ᵥ x = -lam • x) : ∀ c, c ≤ -lam ↔ ∀ x, c * (x ⬝ᵥ x) ≤ quad (H - outer g) x := by
  intro c
  constructor
  · intro h x
    exact (mul_le_mul_of_nonneg_right h (dotProduct_self_nonneg' x)).trans (h1 x)
  · intro h
    obtain ⟨x, hx, he⟩ := h2
    have := h x
    rw [quad, he, dotProduct_smul, smul_eq_mul] at this
    have hpos : 0 < x ⬝ᵥ x := lt_of_le_of_ne (dotProduct_self_nonneg' x) (fun h => hx (dotProduct_self_eq_zero.1 h.symm))
    exact le_of_mul_le_mul_right this hpos

/-- The secular function is strictly increasing to the right of all `ew` (where `u ≠ 0`), so it has at most one root there. -/
theorem secular_root_unique (ew u : Fin m → ℝ) (l1 l2 : ℝ) (h1 : ∀ i, ew i < l1) (h2 : l1 < l2) (r1 : secular ew u l1 = 0) : 0 < secular ew u l2 := by
  have hle : ∀ i, u i ^ 2 / (ew i - l1) ≤ u i ^ 2 / (ew i - l2) := by
    intro i
    have a : 0 < l1 - ew i := by linarith [h1 i]
    have b : 0 < l2 - ew i := by linarith [h1 i]
    rw [← neg_sub l1, ← neg_sub l2, div_neg, div_neg, neg_le_neg_iff]
    exact div_le_div_of_nonneg_left (sq_nonneg _) a (by linarith)
  have hex : ∃ i, u i ≠ 0 := by
    by_contra hc
    push Not at hc
    simp [secular, hc] at r1
  obtain ⟨i, hi⟩ := hex
  have hlt : ∑ i, u i ^ 2 / (ew i - l1) < ∑ i, u i ^ 2 / (ew i - l2) := by
    refine Finset.sum_lt_sum (fun i _ => hle i) ⟨i, Finset.mem_univ _, ?_⟩
    have a : 0 < l1 - ew i := by linarith [h1 i]
    have b : 0 < l2 - ew i := by linarith [h1 i]
    have c : 0 < u i ^ 2 := by positivity
    rw [← neg_sub l1, ← neg_sub l2, div_neg, div_neg, neg_lt_neg_iff]
    exact div_lt_div_of_pos_left c a (by linarith)
  unfold secular at *
  linarith

/-- There is a function with the property assumed of `dist_grad_constraints`. -/
theorem exists_minEig (m : ℕ) : ∃ dist : MinEigFn (m + 1), MinEigSpec dist := by
  obtain ⟨eigh, he⟩ := exists_eigh (m + 1)
  refine ⟨fun H g => Finset.univ.inf' Finset.univ_nonempty (eigh (H - outer g)).1, fun H g hH c => ?_⟩
  have hs : (H - outer g)ᵀ = H - outer g := by rw [Matrix.transpose_sub, hH, outer_transpose]
  obtain ⟨h1, h2⟩ := he _ hs
  set U := (eigh (H - outer g)).2
  set ew := (eigh (H - outer g)).1
  have hUU : U * Uᵀ = 1 := mul_eq_one_comm.1 h1
  have hq : ∀ x, quad (H - outer g) x = ∑ k, ew k * (ucol U k ⬝ᵥ x) ^ 2 := by
    intro x; rw [h2, Matrix.mul_assoc, quad_diag]
  have hxx : ∀ x : Pt (m + 1), x ⬝ᵥ x = ∑ k, (ucol U k ⬝ᵥ x) ^ 2 := by
    intro x
    have := quad_diag U (fun _ => 1) x
    rw [show Matrix.diagonal (fun _ : Fin (m + 1) => (1 : ℝ)) = 1 from Matrix.diagonal_one, Matrix.one_mul, hUU] at this
    simpa [quad] using this
  rw [Finset.le_inf'_iff]
  constructor
  · intro h x
    rw [hq, hxx, Finset.mul_sum]
    exact Finset.sum_le_sum (fun k hk => mul_le_mul_of_nonneg_right (h k hk) (sq_nonneg _))
  · intro h k _
    have := h (ucol U k)
    rw [hq, hxx] at this
    have hk : ∀ j, ucol U j ⬝ᵥ ucol U k = if j = k then 1 else 0 := by
      intro j
      have := congrFun (congrFun h1 j) k
      rw [Matrix.mul_apply, Matrix.one_apply] at this
      exact this
    simp only [hk] at this
    simpa using this

example : ∃ (ew u : Fin 2 → ℝ) (lam : ℝ), (∀ i, ew i < lam) ∧ secular ew u lam = 0 :=
  ⟨![-2, -1], ![0, 2], 3, by intro i; fin_cases i <;> norm_num, by simp [secular, Fin.sum_univ_two]; norm_num⟩

end Verif.Lip
