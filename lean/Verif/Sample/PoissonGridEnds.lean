import Verif.Sample.PoissonProps
import Verif.Sample.ProjectionProps

/-!
# C42: the grid variant of Poisson disk sampling ends

`poisson_disk_sample_grid` (poisson.py 61-147): each pass adds a point or retires one.  Also: the cell points of the projection design are those of
`_voronoi_cell_point`.
-/

namespace Verif.Samp

open Verif.Domain Matrix

variable {k m : ℕ}

/-- The run is over once there have been enough passes. -/
theorem gridRun_ends {L : Matrix (Fin k) (Fin m) ℝ} (hk : 0 < k) {inside : Lip.Pt m → Prop} {r : ℝ} (hr : 0 < r) {lo hi : Fin k → ℝ}
    (hlo : ∀ x, inside x → ∀ i, lo i ≤ (L *ᵥ x) i) (M : ℕ)
    (hM : ∀ X : List (Lip.Pt m), (∀ x ∈ X, inside x) → Separated L r X → X.length ≤ M) (ds : List (DiskDraw m))
    (s : GridState k m) (h : GridInv L inside r lo hi s) (hl : 2 * (M - s.X.length) + nActive s.active ≤ ds.length) :
    gridRun L inside r (mkGrid r lo hi) ds s ≠ .ok none := by
  induction ds generalizing s with
  | nil =>
    rw [gridRun]
    have : activeIdx s.active = [] := by
      refine List.length_eq_zero_iff.1 ?_
      unfold nActive at hl; simp at hl; simp [hl.2]
    rw [if_pos this]; simp
  | cons d ds ih =>
    rw [gridRun]
    by_cases hne : activeIdx s.active = []
    · rw [if_pos hne]; simp
    · rw [if_neg hne]
      cases hs : gridStep L inside r (mkGrid r lo hi) s d with
      | error e => simp
      | ok s' =>
        simp only
        unfold gridStep at hs
        rw [List.length_cons] at hl
        cases hf : firstTrial L (gridOk L inside r (mkGrid r lo hi) s) (s.X.getD (d.pick (activeIdx s.active)) 0) d.trials with
        | none =>
          rw [hf] at hs
          cases hs
          have := nActive_set (d.pick_mem _ hne)
          refine ih _ ⟨by simpa using h.1, h.2⟩ ?_
          simp only
          omega
        | some xc =>
          rw [hf] at hs
          have hinv := gridAccept_inv hk hr hlo h (firstTrial_some hf).1 hs
          have hb := hM _ hinv.2.1 hinv.2.2.1
          refine ih _ hinv ?_
          simp only [gridAccept] at hs
          cases hw : gridWrite (mkGrid r lo hi) s.cells (gridCoord L (mkGrid r lo hi) xc) (s.X.length + 1) with
          | error e => rw [hw] at hs; cases hs
          | ok cells =>
            rw [hw] at hs
            cases hs
            simp only [List.length_append, List.length_singleton] at hb ⊢
            rw [nActive_append]
            omega

/-- Points below the upper bounds are inside the grid. -/
theorem gridCoord_lt (L : Matrix (Fin k) (Fin m) ℝ) (hk : 0 < k) {r : ℝ} (hr : 0 < r) (lo hi : Fin k → ℝ) (x : Lip.Pt m) (i : Fin k)
    (h : (L *ᵥ x) i < hi i) : gridCoord L (mkGrid r lo hi) x i < (mkGrid r lo hi).dims i := by
  have hsz : 0 < r / Real.sqrt k := div_pos hr (Real.sqrt_pos.2 (Nat.cast_pos.2 hk))
  refine Int.floor_lt.2 (lt_of_lt_of_le ?_ (Int.le_ceil _))
  exact div_lt_div_of_pos_right (by simpa [mkGrid] using h) hsz

theorem gridWrite_succeeds {G : Grid k} (cells : (Fin k → ℤ) → ℕ) {idx : Fin k → ℤ} (n : ℕ) (h0 : ∀ i, 0 ≤ idx i) (h1 : ∀ i, idx i < G.dims i) :
    ∃ c, gridWrite G cells idx n = .ok c := by
  unfold gridWrite address
  rw [if_pos fun i => ⟨by have := h0 i; have := h1 i; omega, h1 i⟩]
  exact ⟨_, rfl⟩

theorem gridRun_succeeds {L : Matrix (Fin k) (Fin m) ℝ} (hk : 0 < k) {inside : Lip.Pt m → Prop} {r : ℝ} (hr : 0 < r) {lo hi : Fin k → ℝ}
    (hlo : ∀ x, inside x → ∀ i, lo i ≤ (L *ᵥ x) i) (hhi : ∀ x, inside x → ∀ i, (L *ᵥ x) i < hi i) (ds : List (DiskDraw m))
    (s : GridState k m) : ∃ o, gridRun L inside r (mkGrid r lo hi) ds s = .ok o := by
  induction ds generalizing s with
  | nil =>
    rw [gridRun]
    split <;> exact ⟨_, rfl⟩
  | cons d ds ih =>
    rw [gridRun]
    split
    · exact ⟨_, rfl⟩
    · have hs : ∃ s', gridStep L inside r (mkGrid r lo hi) s d = .ok s' := by
        unfold gridStep
        cases hf : firstTrial L (gridOk L inside r (mkGrid r lo hi) s) (s.X.getD (d.pick (activeIdx s.active)) 0) d.trials with
        | none => exact ⟨_, rfl⟩
        | some xc =>
          have hin := (firstTrial_some hf).1.1
          obtain ⟨c, hc⟩ := gridWrite_succeeds (G := mkGrid r lo hi) s.cells (s.X.length + 1) (gridCoord_nonneg L hr lo hi xc (hlo xc hin))
            (fun i => gridCoord_lt L hk hr lo hi xc i (hhi xc hin i))
          simp only [gridAccept, hc]
          exact ⟨_, rfl⟩
      obtain ⟨s', hs'⟩ := hs
      rw [hs']
      exact ih s'

/-- C42: the grid variant is over (with a sample or an `IndexError`) after at most `2 M` passes, if separated sets inside the domain have at most `M` points. -/
theorem poissonGrid_terminates {L : Matrix (Fin k) (Fin m) ℝ} (hk : 0 < k) {inside : Lip.Pt m → Prop} {r : ℝ} (hr : 0 < r) {lo hi : Fin k → ℝ}
    (hlo : ∀ x, inside x → ∀ i, lo i ≤ (L *ᵥ x) i) {x0 : Lip.Pt m} (h0 : inside x0) (M : ℕ)
    (hM : ∀ X : List (Lip.Pt m), (∀ x ∈ X, inside x) → Separated L r X → X.length ≤ M) {ds : List (DiskDraw m)} (hl : 2 * M ≤ ds.length) :
    poissonGrid L inside r lo hi x0 ds ≠ .ok none := by
  unfold poissonGrid
  cases hw : gridWrite (mkGrid r lo hi) (fun _ => 0) (gridCoord L (mkGrid r lo hi) x0) 1 with
  | error e => simp
  | ok cells =>
    have hnn := gridCoord_nonneg L hr lo hi x0 (hlo x0 h0)
    obtain ⟨w1, w2, _⟩ := gridWrite_ok hnn hw
    refine gridRun_ends hk hr hlo M hM ds ⟨[x0], [true], cells⟩ ⟨rfl, fun x hx => ?_, List.pairwise_singleton _ _, fun j hj => ?_, fun x hx i => ?_⟩ ?_
    · rw [List.mem_singleton.1 hx]; exact h0
    · have : j = 0 := by simp at hj; omega
      subst this
      simpa using w2
    · rw [List.mem_singleton.1 hx]; exact ⟨hnn i, w1 i⟩
    · have h1 : 1 ≤ M := hM [x0] (fun x hx => by rw [List.mem_singleton.1 hx]; exact h0) (List.pairwise_singleton _ _)
      have : nActive [true] = 1 := rfl
      simp only [List.length_singleton, this]
      omega

/-- C42: if no point of the domain attains the upper bound of a row of `L`, the grid variant returns a sample: separated points of the domain. -/
theorem poissonGrid_returns {L : Matrix (Fin k) (Fin m) ℝ} (hk : 0 < k) {inside : Lip.Pt m → Prop} {r : ℝ} (hr : 0 < r) {lo hi : Fin k → ℝ}
    (hlo : ∀ x, inside x → ∀ i, lo i ≤ (L *ᵥ x) i) (hhi : ∀ x, inside x → ∀ i, (L *ᵥ x) i < hi i) {x0 : Lip.Pt m} (h0 : inside x0) (M : ℕ)
    (hM : ∀ X : List (Lip.Pt m), (∀ x ∈ X, inside x) → Separated L r X → X.length ≤ M) {ds : List (DiskDraw m)} (hl : 2 * M ≤ ds.length) :
    ∃ X, poissonGrid L inside r lo hi x0 ds = .ok (some X) ∧ (∀ x ∈ X, inside x) ∧ Separated L r X := by
  have hok : ∃ o, poissonGrid L inside r lo hi x0 ds = .ok o := by
    obtain ⟨c, hc⟩ := gridWrite_succeeds (G := mkGrid r lo hi) (fun _ => 0) 1 (gridCoord_nonneg L hr lo hi x0 (hlo x0 h0))
      (fun i => gridCoord_lt L hk hr lo hi x0 i (hhi x0 h0 i))
    unfold poissonGrid
    rw [hc]
    exact gridRun_succeeds hk hr hlo hhi ds _
  obtain ⟨o, ho⟩ := hok
  rcases o with _ | X
  · exact absurd ho (poissonGrid_terminates hk hr hlo h0 M hM hl)
  · exact ⟨X, ho, poissonGrid_separated hk hr hlo h0 ds X ho⟩

/-- The half open unit interval with any first sample and enough passes. -/
example (x0 : Lip.Pt 1) (h0 : 0 ≤ x0 0 ∧ x0 0 < 1) (ds : List (DiskDraw 1)) :
    ∃ M : ℕ, 2 * M ≤ ds.length → ∃ X, poissonGrid (1 : Matrix (Fin 1) (Fin 1) ℝ) (fun x => 0 ≤ x 0 ∧ x 0 < 1) 1 (fun _ => 0) (fun _ => 1) x0 ds = .ok (some X) := by
  obtain ⟨M, hM⟩ := packing_bound (1 : Matrix (Fin 1) (Fin 1) ℝ) (fun x => 0 ≤ x 0 ∧ x 0 < 1) one_pos 1 (by
    intro x hx i
    have : i = 0 := Subsingleton.elim _ _
    subst this
    rw [one_mulVec, abs_le]
    constructor <;> linarith [hx.1, hx.2])
  refine ⟨M, fun hl => ?_⟩
  obtain ⟨X, hX, -⟩ := poissonGrid_returns one_pos one_pos (lo := fun _ => 0) (hi := fun _ => 1) (fun x hx i => by rw [one_mulVec, Subsingleton.elim i 0]; exact hx.1)
    (fun x hx i => by rw [one_mulVec, Subsingleton.elim i 0]; exact hx.2) h0 M hM hl
  exact ⟨X, hX⟩

/-! ## The projection design -/

/-- C112: a pass of the projection design asks `_voronoi_cell_point` for each cell: it raises `ValueError` iff one of the calls does, and otherwise its points are
theirs. -/
theorem buildStep_cells {K M : ℕ} (cls : List (Lip.Pt m × ℝ) → (Lip.Pt m → ℝ) → Option (Lip.Pt m)) (P : Proj m K M) (s : PState m M) (σ : Assign)
    {d : Fin M → Fin K → Fin M} (hd : designOf K M (readPerms M (solutionOf (K * M ^ 2) σ)) = some d) :
    (buildStep cls P s σ = .error .value ↔ ∃ j, cellPoint cls P (d j) = .error .value) ∧
      ((∀ j, cellPoint cls P (d j) ≠ .error .value) → (∀ j, cellPoint cls P (d j) = .ok (cellPoints cls P d j)) ∧ ∃ s', buildStep cls P s σ = .ok s') := by
  have hc : ∀ j, cellPoint cls P (d j) = .error .value ↔ cellRows P (d j) = [] := fun j => by
    unfold cellPoint
    split <;> simp_all
  unfold buildStep
  rw [hd]
  simp only [hc, ne_eq]
  refine ⟨?_, fun h => ⟨fun j => by rw [cellPoint, if_neg (h j)]; rfl, ?_⟩⟩
  · by_cases h : ∃ j, cellRows P (d j) = []
    · rw [if_pos h]; exact ⟨fun _ => h, fun _ => rfl⟩
    · rw [if_neg h]; exact ⟨fun hh => (by cases hh), fun hh => absurd hh h⟩
  · rw [if_neg (not_exists.2 h)]
    exact ⟨_, rfl⟩

end Verif.Samp
