import Verif.Sample.BlockModel
import Verif.Geometry.VsampleProps

/-!
# C93: `maximin_block`
-/

namespace Verif.Samp

open Verif Verif.Domain Verif.Geo Matrix

variable {k m : ℕ}

/-! ## Specification -/

/-- Any two points of the design are at least `δ` apart. -/
def Apart (L : Matrix (Fin k) (Fin m) ℝ) (δ : ℝ) (X : List (Lip.Pt m)) : Prop :=
  ∀ i j (hi : i < X.length) (hj : j < X.length), i ≠ j → δ ≤ Lip.ldist L X[i] X[j]

/-- Moving point `i` of the design `X` approaches no other point at a positive rate below the tolerance of `voronoi_vertex_sample`. -/
def FastUpdate (sort : SortBy m) (qr : QRcols m) (D : SDomain m) (L : Matrix (Fin k) (Fin m) ℝ) (X : List (Lip.Pt m)) (i : ℕ) : Prop :=
  ∀ x, X[i]? = some x → FastRun sort qr D L (X.eraseIdx i) (fun _ => 0) (passes D L false) x

/-- The same along the updates of a cycle. -/
def FastSweep (sort : SortBy m) (qr : QRcols m) (D : SDomain m) (L : Matrix (Fin k) (Fin m) ℝ) : List ℕ → List (Lip.Pt m) → Prop
  | [], _ => True
  | i :: is, X => FastUpdate sort qr D L X i ∧ ∀ X' mv mv', blockStep sort qr D L X i mv = .ok (X', mv') → FastSweep sort qr D L is X'

/-- The same along all cycles. -/
def FastLoop (sort : SortBy m) (qr : QRcols m) (D : SDomain m) (L : Matrix (Fin k) (Fin m) ℝ) : ℕ → List (Lip.Pt m) → Prop
  | 0, _ => True
  | n + 1, X => FastSweep sort qr D L (List.range X.length) X ∧
      ∀ s, blockSweep sort qr D L (List.range X.length) (X, 0) = .ok s → FastLoop sort qr D L n s.1

/-! ## One update -/

theorem vertexSample_one {sort : SortBy m} {qr : QRcols m} {D : SDomain m} {L : Matrix (Fin k) (Fin m) ℝ} {r : Bool} {Xh : List (Lip.Pt m)}
    {p : Lip.Pt m × (ℕ → Lip.Pt m)} {V : List (Lip.Pt m)} (h : vertexSample sort qr D L r Xh [p] = .ok V) : ∃ y, V = [y] := by
  rw [vertexSample] at h
  split at h
  · simp at h
  · have := mapE_ok h
    cases this with
    | cons h1 h2 => cases h2; exact ⟨_, rfl⟩

theorem blockStep_ok {sort : SortBy m} {qr : QRcols m} {D : SDomain m} {L : Matrix (Fin k) (Fin m) ℝ} {X X' : List (Lip.Pt m)} {i : ℕ} {mv mv' : ℝ}
    (h : blockStep sort qr D L X i mv = .ok (X', mv')) : ∃ x y, X[i]? = some x ∧ vertexSample sort qr D L false (X.eraseIdx i) [(x, fun _ => 0)] = .ok [y] ∧
      X' = X.set i y ∧ mv' = max mv (normInf (L *ᵥ (x - y))) := by
  simp only [blockStep] at h
  split at h
  · simp at h
  · rename_i x hx
    split at h
    · simp at h
    · rename_i y hy
      simp only [Except.ok.injEq, Prod.mk.injEq] at h
      exact ⟨x, y, hx, hy, h.1.symm, h.2.symm⟩
    · simp at h

theorem blockStep_length {sort : SortBy m} {qr : QRcols m} {D : SDomain m} {L : Matrix (Fin k) (Fin m) ℝ} {X X' : List (Lip.Pt m)} {i : ℕ} {mv mv' : ℝ}
    (h : blockStep sort qr D L X i mv = .ok (X', mv')) : X'.length = X.length := by
  obtain ⟨x, y, -, -, rfl, -⟩ := blockStep_ok h
  simp

theorem blockStep_inside {sort : SortBy m} {qr : QRcols m} (hq : qr.Exact) {D : SDomain m} {beq : Lip.Pt m → ℝ} {L : Matrix (Fin k) (Fin m) ℝ}
    {X X' : List (Lip.Pt m)} {i : ℕ} {mv mv' : ℝ} (hX : ∀ x ∈ X, Feasible D beq x) (h : blockStep sort qr D L X i mv = .ok (X', mv')) :
    ∀ x ∈ X', Feasible D beq x := by
  obtain ⟨x, y, hx, hy, rfl, -⟩ := blockStep_ok h
  intro z hz
  rcases List.mem_or_eq_of_mem_set hz with hz | rfl
  · exact hX z hz
  · have := vertexSample_inside hq hy
    cases this with
    | cons h1 _ => exact h1 beq (hX x (List.mem_of_getElem? hx))

/-- C93: an update never brings two points closer than the closest pair was, if no point is approached slowly. -/
theorem blockStep_apart {sort : SortBy m} (hs : sort.Sorts) {qr : QRcols m} (hq : qr.Exact) {D : SDomain m} {L : Matrix (Fin k) (Fin m) ℝ} {δ : ℝ}
    {X X' : List (Lip.Pt m)} {i : ℕ} {mv mv' : ℝ} (hf : FastUpdate sort qr D L X i) (hX : Apart L δ X) (h : blockStep sort qr D L X i mv = .ok (X', mv')) :
    Apart L δ X' := by
  obtain ⟨x, y, hx, hy, rfl, -⟩ := blockStep_ok h
  have hn := vertexSample_nearest_partial hs hq hy (by
    intro p hp
    rw [List.mem_singleton.1 hp]; exact hf x hx)
  have hn : nearest L (X.eraseIdx i) x ≤ nearest L (X.eraseIdx i) y := by
    cases hn with
    | cons h1 _ => exact h1
  obtain ⟨hil, hxe⟩ := List.getElem?_eq_some_iff.1 hx
  have hmem : ∀ j (hj : j < X.length), j ≠ i → X[j] ∈ X.eraseIdx i := fun j hj hji => List.mem_eraseIdx_iff_getElem.2 ⟨j, hj, hji, rfl⟩
  have key : ∀ j (hj : j < X.length), j ≠ i → δ ≤ Lip.ldist L X[j] y := by
    intro j hj hji
    refine le_trans ?_ (nearest_le L (hmem j hj hji) y)
    refine le_trans ?_ hn
    obtain ⟨z, hz, e⟩ := nearest_mem L (List.ne_nil_of_mem (hmem j hj hji)) x
    obtain ⟨l, hl, hli, rfl⟩ := List.mem_eraseIdx_iff_getElem.1 hz
    rw [e, ← hxe]
    exact hX l i hl hil hli
  intro a b ha hb hab
  rw [List.length_set] at ha hb
  simp only [List.getElem_set]
  split_ifs with h1 h2 h2
  · exact absurd (h1.symm.trans h2) hab
  · rw [Lip.ldist_comm]; exact key b hb (Ne.symm h2)
  · exact key a ha (Ne.symm h1)
  · exact hX a b ha hb hab

/-! ## Cycles -/

theorem blockSweep_spec {sort : SortBy m} {qr : QRcols m} (hq : qr.Exact) {D : SDomain m} {beq : Lip.Pt m → ℝ} {L : Matrix (Fin k) (Fin m) ℝ} :
    ∀ (is : List ℕ) {s s' : List (Lip.Pt m) × ℝ}, (∀ x ∈ s.1, Feasible D beq x) → blockSweep sort qr D L is s = .ok s' →
      (∀ x ∈ s'.1, Feasible D beq x) ∧ s'.1.length = s.1.length
  | [], s, s', hX, h => by simp only [blockSweep, Except.ok.injEq] at h; subst h; exact ⟨hX, rfl⟩
  | i :: is, s, s', hX, h => by
    simp only [blockSweep] at h
    split at h
    · simp at h
    · rename_i s1 h1
      obtain ⟨h2, h3⟩ := blockSweep_spec hq is (blockStep_inside (mv' := s1.2) hq hX h1) h
      exact ⟨h2, h3.trans (blockStep_length (mv' := s1.2) h1)⟩

theorem blockSweep_apart {sort : SortBy m} (hs : sort.Sorts) {qr : QRcols m} (hq : qr.Exact) {D : SDomain m} {L : Matrix (Fin k) (Fin m) ℝ} {δ : ℝ} :
    ∀ (is : List ℕ) {s s' : List (Lip.Pt m) × ℝ}, FastSweep sort qr D L is s.1 → Apart L δ s.1 → blockSweep sort qr D L is s = .ok s' → Apart L δ s'.1
  | [], s, s', _, hX, h => by simp only [blockSweep, Except.ok.injEq] at h; subst h; exact hX
  | i :: is, s, s', hf, hX, h => by
    simp only [blockSweep] at h
    split at h
    · simp at h
    · rename_i s1 h1
      exact blockSweep_apart hs hq is (hf.2 s1.1 s.2 s1.2 h1) (blockStep_apart (mv' := s1.2) hs hq hf.1 hX h1) h

theorem blockLoop_spec {sort : SortBy m} {qr : QRcols m} (hq : qr.Exact) {D : SDomain m} {beq : Lip.Pt m → ℝ} {L : Matrix (Fin k) (Fin m) ℝ} {xtol : ℝ} :
    ∀ (fuel : ℕ) {X X' : List (Lip.Pt m)}, (∀ x ∈ X, Feasible D beq x) → blockLoop sort qr D L xtol fuel X = .ok X' →
      (∀ x ∈ X', Feasible D beq x) ∧ X'.length = X.length
  | 0, X, X', hX, h => by simp only [blockLoop, Except.ok.injEq] at h; subst h; exact ⟨hX, rfl⟩
  | n + 1, X, X', hX, h => by
    simp only [blockLoop] at h
    split at h
    · simp at h
    · rename_i s1 h1
      obtain ⟨h2, h3⟩ := blockSweep_spec (s := (X, 0)) hq _ hX h1
      split_ifs at h
      · simp only [Except.ok.injEq] at h; subst h; exact ⟨h2, h3⟩
      · obtain ⟨h4, h5⟩ := blockLoop_spec hq n h2 h
        exact ⟨h4, h5.trans h3⟩

theorem blockLoop_apart {sort : SortBy m} (hs : sort.Sorts) {qr : QRcols m} (hq : qr.Exact) {D : SDomain m} {L : Matrix (Fin k) (Fin m) ℝ} {δ xtol : ℝ} :
    ∀ (fuel : ℕ) {X X' : List (Lip.Pt m)}, FastLoop sort qr D L fuel X → Apart L δ X → blockLoop sort qr D L xtol fuel X = .ok X' → Apart L δ X'
  | 0, X, X', _, hX, h => by simp only [blockLoop, Except.ok.injEq] at h; subst h; exact hX
  | n + 1, X, X', hf, hX, h => by
    simp only [blockLoop] at h
    split at h
    · simp at h
    · rename_i s1 h1
      have h2 := blockSweep_apart (s := (X, 0)) hs hq _ hf.1 hX h1
      split_ifs at h
      · simp only [Except.ok.injEq] at h; subst h; exact h2
      · exact blockLoop_apart hs hq n (hf.2 s1 h1) h2 h

/-! ## The function -/

/-- C93: the design has the requested number of points, all in the domain if the initial points are. -/
theorem maximinBlock_inside {sort : SortBy m} {qr : QRcols m} (hq : qr.Exact) {D : SDomain m} {beq : Lip.Pt m → ℝ} {L : Matrix (Fin k) (Fin m) ℝ} {nsamp : ℕ}
    {xtol : ℝ} {maxiter : ℕ} {X0 X : List (Lip.Pt m)} (hX : ∀ x ∈ X0, Feasible D beq x) (hl : X0.length = nsamp)
    (h : maximinBlock sort qr D L nsamp xtol maxiter X0 = .ok X) : X.length = nsamp ∧ ∀ x ∈ X, Feasible D beq x := by
  rw [maximinBlock, if_neg (by tauto)] at h
  split_ifs at h with h0
  · simp only [Except.ok.injEq] at h; subst h; exact ⟨hl, hX⟩
  · obtain ⟨h1, h2⟩ := blockLoop_spec hq _ hX h
    exact ⟨h2.trans hl, h1⟩

/-- C93: the smallest distance between two points of the design never gets below the one of the initial design, if no update approaches a point at a positive
rate below `1e-8`.  Missing: slow approaches (`fillEstimate_small_false`). -/
theorem maximinBlock_apart_partial {sort : SortBy m} (hs : sort.Sorts) {qr : QRcols m} (hq : qr.Exact) {D : SDomain m} {L : Matrix (Fin k) (Fin m) ℝ} {δ : ℝ}
    {nsamp : ℕ} {xtol : ℝ} {maxiter : ℕ} {X0 X : List (Lip.Pt m)} (hf : FastLoop sort qr D L maxiter X0) (hX : Apart L δ X0)
    (h : maximinBlock sort qr D L nsamp xtol maxiter X0 = .ok X) : Apart L δ X := by
  rw [maximinBlock] at h
  split_ifs at h with h1 h0
  · simp only [Except.ok.injEq] at h; subst h; exact hX
  · exact blockLoop_apart hs hq _ hf hX h

/-! ## Which calls succeed -/

theorem blockStep_ok_iff {sort : SortBy m} (hs : sort.Sorts) (qr : QRcols m) (D : SDomain m) (L : Matrix (Fin k) (Fin m) ℝ) (X : List (Lip.Pt m)) {i : ℕ}
    (hi : i < X.length) (mv : ℝ) : (∃ s, blockStep sort qr D L X i mv = .ok s) ↔ D.quads = 0 ∧ (passes D L false = 0 ∨ (2 ≤ X.length ∧ D.aug ≠ [])) := by
  have he : X.eraseIdx i ≠ [] ↔ 2 ≤ X.length := by
    rw [← List.length_pos_iff, List.length_eraseIdx_of_lt hi]; omega
  have := vertexSample_ok_iff hs qr D L false (X.eraseIdx i) [(X[i], fun _ => 0)]
  rw [he] at this
  simp only [List.cons_ne_nil, false_or] at this
  rw [← this]
  simp only [blockStep, List.getElem?_eq_getElem hi]
  constructor
  · rintro ⟨s, h⟩
    split at h
    · simp at h
    · rename_i y hy; exact ⟨_, hy⟩
    · simp at h
  · rintro ⟨V, h⟩
    obtain ⟨y, rfl⟩ := vertexSample_one h
    rw [h]; exact ⟨_, rfl⟩

theorem blockSweep_ok_iff {sort : SortBy m} (hs : sort.Sorts) (qr : QRcols m) (D : SDomain m) (L : Matrix (Fin k) (Fin m) ℝ) :
    ∀ (is : List ℕ) (s : List (Lip.Pt m) × ℝ), (∀ i ∈ is, i < s.1.length) → ((∃ s', blockSweep sort qr D L is s = .ok s') ↔
      is = [] ∨ (D.quads = 0 ∧ (passes D L false = 0 ∨ (2 ≤ s.1.length ∧ D.aug ≠ []))))
  | [], s, _ => by simp [blockSweep]
  | i :: is, s, hi => by
    have h1 := blockStep_ok_iff hs qr D L s.1 (hi i (by simp)) s.2
    simp only [blockSweep, List.cons_ne_nil, false_or]
    rw [← h1]
    split
    · rename_i e he
      rw [he]
    · rename_i s1 hs1
      have hl := blockStep_length (mv' := s1.2) hs1
      have ih := blockSweep_ok_iff hs qr D L is s1 (by rw [hl]; exact fun j hj => hi j (by simp [hj]))
      rw [hl, ← h1] at ih
      rw [ih]
      constructor
      · intro _; exact ⟨s1, hs1⟩
      · intro h; exact .inr h

theorem blockLoop_ok_iff {sort : SortBy m} (hs : sort.Sorts) (qr : QRcols m) (D : SDomain m) (L : Matrix (Fin k) (Fin m) ℝ) (xtol : ℝ) :
    ∀ (n : ℕ) (X : List (Lip.Pt m)), X ≠ [] → ((∃ X', blockLoop sort qr D L xtol n X = .ok X') ↔
      n = 0 ∨ (D.quads = 0 ∧ (passes D L false = 0 ∨ (2 ≤ X.length ∧ D.aug ≠ []))))
  | 0, X, _ => by simp [blockLoop]
  | n + 1, X, hX => by
    have h1 := blockSweep_ok_iff hs qr D L (List.range X.length) (X, 0) (by simp)
    have hr : List.range X.length ≠ [] := by simpa using hX
    simp only [hr, false_or] at h1
    simp only [blockLoop, Nat.add_eq_zero_iff, one_ne_zero, and_false, false_or]
    rw [← h1]
    split
    · rename_i e he
      rw [he]; simp
    · rename_i s1 hs1
      constructor
      · intro _; exact ⟨s1, hs1⟩
      · intro h
        split_ifs
        · exact ⟨_, rfl⟩
        · have hl : s1.1.length = X.length := by
            have hL : ∀ (is : List ℕ) {s s' : List (Lip.Pt m) × ℝ}, blockSweep sort qr D L is s = .ok s' → s'.1.length = s.1.length := by
              intro is
              induction is with
              | nil => intro s s' h; simp only [blockSweep, Except.ok.injEq] at h; rw [h]
              | cons i is ih =>
                intro s s' h
                simp only [blockSweep] at h
                split at h
                · simp at h
                · rename_i s2 h2
                  exact (ih h).trans (blockStep_length (mv' := s2.2) h2)
            exact hL _ hs1
          rw [blockLoop_ok_iff hs qr D L xtol n s1.1 (by rw [← List.length_pos_iff, hl]; exact List.length_pos_iff.2 hX), hl]
          exact .inr (h1.1 h)

/-- C93: for a positive number of cycles and points the call succeeds exactly if the design has the right length, the domain has no quadratic constraint, and
(unless there is nothing to do) there are at least two points and one linear inequality. -/
theorem maximinBlock_ok_iff {sort : SortBy m} (hs : sort.Sorts) (qr : QRcols m) (D : SDomain m) (L : Matrix (Fin k) (Fin m) ℝ) {nsamp : ℕ} (hn : 0 < nsamp)
    (xtol : ℝ) {maxiter : ℕ} (hm : 0 < maxiter) (X0 : List (Lip.Pt m)) : (∃ X, maximinBlock sort qr D L nsamp xtol maxiter X0 = .ok X) ↔
      X0.length = nsamp ∧ D.quads = 0 ∧ (passes D L false = 0 ∨ (2 ≤ nsamp ∧ D.aug ≠ [])) := by
  rw [maximinBlock]
  by_cases hl : X0.length = nsamp
  · rw [if_neg (by tauto), if_neg hn.ne', blockLoop_ok_iff hs qr D L xtol _ _ (by rw [← List.length_pos_iff, hl]; exact hn), hl]
    simp [hm.ne']
  · rw [if_pos ⟨hl, hn.ne', hm.ne'⟩]
    simp [hl]

/-- C93: a one-point design raises, for every domain, metric of positive rank and starting point. -/
theorem maximinBlock_single_false {sort : SortBy m} (hs : sort.Sorts) (qr : QRcols m) (D : SDomain m) (L : Matrix (Fin k) (Fin m) ℝ) (hp : passes D L false ≠ 0)
    (xtol : ℝ) {maxiter : ℕ} (hm : 0 < maxiter) (x : Lip.Pt m) : ∃ e, maximinBlock sort qr D L 1 xtol maxiter [x] = .error e := by
  have := maximinBlock_ok_iff hs qr D L one_pos xtol hm [x]
  rcases h : maximinBlock sort qr D L 1 xtol maxiter [x] with e | X
  · exact ⟨e, rfl⟩
  · have := (this.1 ⟨X, h⟩).2.2
    omega

/-- The hypotheses can be met: on a square every call with two points succeeds. -/
example {sort : SortBy 2} (hs : sort.Sorts) (qr : QRcols 2) (L : Matrix (Fin 2) (Fin 2) ℝ) (x y : Lip.Pt 2) : ∃ X,
    maximinBlock sort qr ⟨[(![1, 0], 1), (![-1, 0], 1), (![0, 1], 1), (![0, -1], 1)], [], 0⟩ L 2 (1 / 10 ^ 6) 500 [x, y] = .ok X :=
  (maximinBlock_ok_iff hs qr _ L two_pos _ (by norm_num) _).2 ⟨rfl, rfl, .inr ⟨le_rfl, by simp⟩⟩

end Verif.Samp
