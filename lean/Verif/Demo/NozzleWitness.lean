import Verif.Demo.NozzleProps
import Mathlib.Tactic.FinCases
import Mathlib.Tactic.IntervalCases

/-!
# The constraints of the nozzle wall: when they are built, what is lost by cleaning up (C117)
-/

namespace Verif.Demo

open Finset

/-- The limit is a number, absent, or a list of the right length. -/
def LimOk (nseg : ℕ) : Lim → Prop
  | .each l => l.length = nseg
  | _ => True

theorem bounds_of_ok {nseg : ℕ} {l : Lim} (h : LimOk nseg l) : ∃ o, l.bounds nseg = .ok o := by
  cases l with
  | none => exact ⟨_, rfl⟩
  | one s => exact ⟨_, rfl⟩
  | each m => exact ⟨some m, if_pos h⟩

theorem emit_of_ok {n : ℕ} {done new : List Con} (h1 : InCols n new) (h2 : done.length + new.length ≤ 100) :
    emit n done new = .ok (done ++ new) := if_pos ⟨h1, h2⟩

theorem rangeFrom_length (a b : ℕ) : (rangeFrom a b).length = b - a := by simp [rangeFrom]

theorem slopeLo_length (nx a b : ℕ) (o : Option (List ℝ)) : (slopeLo nx a b o).length ≤ b - a := by
  cases o <;> simp [slopeLo]

theorem slopeHi_length (nx a b : ℕ) (o : Option (List ℝ)) : (slopeHi nx a b o).length ≤ b - a := by
  cases o <;> simp [slopeHi]

theorem slopeLo_cols {n nx a b : ℕ} (o : Option (List ℝ)) (h : b + nx ≤ n) : InCols n (slopeLo nx a b o) := by
  rcases o with _ | l
  · intro k hk; simp [slopeLo] at hk
  · unfold InCols
    simp only [slopeLo, List.forall_mem_map, List.mem_range, List.forall_mem_cons, List.not_mem_nil, false_implies, implies_true, and_true]
    intro j hj
    omega

theorem slopeHi_cols {n nx a b : ℕ} (o : Option (List ℝ)) (h : b + nx ≤ n) : InCols n (slopeHi nx a b o) := by
  rcases o with _ | l
  · intro k hk; simp [slopeHi] at hk
  · unfold InCols
    simp only [slopeHi, List.forall_mem_map, List.mem_range, List.forall_mem_cons, List.not_mem_nil, false_implies, implies_true, and_true]
    intro j hj
    omega

/-- C117: for up to 16 control points with a throat inside, the right number of slope limits and a variable number for every entry the system is built. -/
theorem bspline_ok (W : Wall) (hn : W.n = 2 * W.nx) (h1 : 1 ≤ W.nx) (h16 : W.nx ≤ 16) (ht : W.throat = 0 ∨ W.throat + 3 ≤ W.nx)
    (hv : W.n ≤ W.v.length) (l1 : LimOk (W.throat - 1) W.preLo) (l2 : LimOk (W.throat - 1) W.preHi)
    (l3 : LimOk (W.nx - 1 - (W.throat + 2)) W.postLo) (l4 : LimOk (W.nx - 1 - (W.throat + 2)) W.postHi) : ∃ S, bspline W = .ok S := by
  have hif : ∀ l, LimOk (W.throat - 1) l → ∃ o, (ifThroat W.throat l).bounds (W.throat - 1) = .ok o := by
    intro l hl
    unfold ifThroat
    split
    · exact bounds_of_ok hl
    · exact ⟨_, rfl⟩
  obtain ⟨o1, b1⟩ := hif _ l1
  obtain ⟨o2, b2⟩ := hif _ l2
  obtain ⟨o3, b3⟩ := bounds_of_ok l3
  obtain ⟨o4, b4⟩ := bounds_of_ok l4
  have c1 : InCols W.n W.cross := by
    unfold InCols Wall.cross
    simp only [List.forall_mem_append, List.forall_mem_map, mem_rangeFrom]
    refine ⟨⟨?_, ?_⟩, ?_⟩
    · cases W.xleft <;> simp; omega
    · intro i hi; simp; omega
    · cases W.xright <;> simp; omega
  have n1 : W.cross.length ≤ W.nx + 1 := by
    unfold Wall.cross
    simp only [List.length_append, List.length_map, rangeFrom_length]
    cases W.xleft <;> cases W.xright <;> simp <;> omega
  have c2 : InCols W.n W.width := by
    unfold InCols Wall.width
    split
    · simp only [List.forall_mem_cons, List.not_mem_nil, false_implies, implies_true, and_true]
      omega
    · simp
  have n2 : W.width.length ≤ 2 := by
    unfold Wall.width
    split <;> simp
  have c3 : InCols W.n W.low := by
    unfold InCols Wall.low
    split
    · simp only [List.forall_mem_cons, List.forall_mem_map, mem_rangeFrom]
      refine ⟨by simp; omega, fun i hi => by simp; omega⟩
    · simp
  have n3 : W.low.length ≤ W.nx := by
    unfold Wall.low
    split
    · simp [rangeFrom_length]; omega
    · simp
  have c4 : InCols W.n W.radii := by
    unfold InCols Wall.radii
    simp only [List.forall_mem_append]
    constructor
    · cases W.minThroat
      · simp
      · simp only [List.forall_mem_map, mem_rangeFrom, List.forall_mem_cons, List.not_mem_nil, false_implies, implies_true, and_true]
        exact fun i hi => hi.2
    · cases W.maxThroat
      · simp
      · simp only [List.forall_mem_map, mem_rangeFrom, List.forall_mem_cons, List.not_mem_nil, false_implies, implies_true, and_true]
        exact fun i hi => hi.2
  have n4 : W.radii.length ≤ 2 * W.nx := by
    unfold Wall.radii
    cases W.minThroat <;> cases W.maxThroat <;> simp [rangeFrom_length] <;> omega
  have n5 := slopeLo_length W.nx 1 W.throat o1
  have n6 := slopeHi_length W.nx 1 W.throat o2
  have n7 := slopeLo_length W.nx (W.throat + 3) W.nx o3
  have n8 := slopeHi_length W.nx (W.throat + 3) W.nx o4
  have c5 := slopeLo_cols (n := W.n) (nx := W.nx) (a := 1) (b := W.throat) o1 (by omega)
  have c6 := slopeHi_cols (n := W.n) (nx := W.nx) (a := 1) (b := W.throat) o2 (by omega)
  have c7 := slopeLo_cols (n := W.n) (nx := W.nx) (a := W.throat + 3) (b := W.nx) o3 (by omega)
  have c8 := slopeHi_cols (n := W.n) (nx := W.nx) (a := W.throat + 3) (b := W.nx) o4 (by omega)
  have hcons : ∃ cs, W.cons = .ok cs := by
    unfold Wall.cons
    simp only [nozBind_ok_iff]
    refine ⟨_, _, emit_of_ok c1 (by simp; omega), _, emit_of_ok c2 (by simp; omega), _, emit_of_ok c3 (by simp; omega), _,
      emit_of_ok c4 (by simp; omega), _, b1, _, emit_of_ok c5 (by simp; omega), _, b2, _, emit_of_ok c6 (by simp; omega), _, b3, _,
      emit_of_ok c7 (by simp; omega), _, b4, emit_of_ok c8 (by simp; omega)⟩
  obtain ⟨cs, hcs⟩ := hcons
  obtain ⟨S, hS⟩ := (eliminate_ok_iff W.n W.v W.x cs).2 ⟨by intro e; rw [e] at hv; simp at hv; omega, hv, fun i hi _ => hi⟩
  exact ⟨S, (nozBind_ok_iff _ _ _).2 ⟨cs, hcs, hS⟩⟩

/-- A wall with three control points and no throat. -/
noncomputable def smallWall : Wall :=
  ⟨[0, 0.05, 0.3, 0, 0, 0], [1, 2, 3, 4, 5, 6], 0, .none, .none, .none, .none, none, none, 0.2, false, none, none⟩

/-- C117 where the code fails: without a throat the first two gaps are compared with `0.05` instead of `delta`. -/
theorem bspline_gap_false : ∃ S, bspline smallWall = .ok S ∧ ∃ p : ℕ → ℝ, S.Holds p ∧
    control smallWall.v smallWall.x p 1 - control smallWall.v smallWall.x p 0 < smallWall.delta := by
  obtain ⟨S, hS⟩ := bspline_ok smallWall rfl (by decide) (by decide) (Or.inl rfl) le_rfl trivial trivial trivial trivial
  refine ⟨S, hS, fun k => smallWall.x.getD k 0, ?_, ?_⟩
  · have hw : ∀ i, i < 6 → control smallWall.v smallWall.x (fun k => smallWall.x.getD k 0) i = smallWall.x.getD i 0 := by
      intro i hi
      interval_cases i <;> simp [control, smallWall]
    have hnx : smallWall.nx = 3 := rfl
    rw [bspline_iff _ hS]
    have ho : ∀ i, 1 ≤ i → i < smallWall.nx → control smallWall.v smallWall.x (fun k => smallWall.x.getD k 0) (i - 1)
        + smallWall.gap i ≤ control smallWall.v smallWall.x (fun k => smallWall.x.getD k 0) i := by
      intro i h1 h2
      rw [hnx] at h2
      rw [hw i (by omega), hw (i - 1) (by omega)]
      interval_cases i <;> norm_num [smallWall, Wall.gap]
    refine ⟨by simp [smallWall], ((order_iff _ _).1 ho).1, ((order_iff _ _).1 ho).2, by simp [smallWall], by simp [smallWall], by simp [smallWall], by simp [smallWall],
      by simp [smallWall], by simp [smallWall], by simp [smallWall], by simp [smallWall], ?_, ?_⟩
    · intro i h1 h2; rw [hnx] at h2; exact absurd h1 (by simp [smallWall]; omega)
    · intro i h1 h2; rw [hnx] at h2; exact absurd h1 (by simp [smallWall]; omega)
  · norm_num [control, smallWall]

/-- C117 where the code fails: with the throat required to be lowest, and built as documented (the points next to the throat share its
y-variable), no design satisfies the system. -/
theorem bspline_throat_false (W : Wall) {S : LinSys} (h : bspline W = .ok S) (hl : W.lowest = true) (ht : W.throat ≠ 0)
    (hv : W.v.getD (W.nx + W.throat) 0 = W.v.getD (W.nx + W.throat - 1) 0) (hv0 : W.v.getD (W.nx + W.throat) 0 ≠ 0) (p : ℕ → ℝ) :
    ¬ S.Holds p := by
  intro hp
  have hw := ((bspline_iff W h p).1 hp).lowLeft hl ht
  have e : control W.v W.x p (W.nx + W.throat) = control W.v W.x p (W.nx + W.throat - 1) := by
    unfold control
    rw [← hv, if_neg hv0, if_neg hv0]
  rw [e] at hw
  norm_num at hw

/-- C117: cleaning up keeps exactly the rows with a variable. -/
theorem cleanup_iff {Ss : List LinSys} {S : LinSys} (h : cleanup Ss = .ok S) (p : ℕ → ℝ) :
    S.Holds p ↔ ∀ T ∈ Ss, ∀ r ∈ T.rows, (∃ k, k < T.cols ∧ r.1 k ≠ 0) → ∑ k ∈ range T.cols, r.1 k * p k ≤ r.2 := by
  unfold cleanup at h
  split at h
  · cases h
  injection h with h
  subst h
  unfold LinSys.Holds
  have hcols : ∀ T ∈ Ss, T.cols ≤ maxVar (Ss.map LinSys.cols) := fun T hT => le_maxVar (List.mem_map_of_mem hT)
  have hsum : ∀ T ∈ Ss, ∀ r : (ℕ → ℝ) × ℝ, ∑ k ∈ range (maxVar (Ss.map LinSys.cols)), (if k < T.cols then r.1 k else 0) * p k =
      ∑ k ∈ range T.cols, r.1 k * p k := by
    intro T hT r
    rw [← Finset.sum_subset (Finset.range_subset_range.2 (hcols T hT))]
    · refine Finset.sum_congr rfl fun k hk => ?_
      rw [if_pos (mem_range.1 hk)]
    · intro k _ hk
      rw [if_neg (by simpa using hk), zero_mul]
  simp only [List.mem_filter, List.mem_flatMap, List.mem_map, decide_eq_true_eq]
  constructor
  · rintro hh T hT r hr ⟨k, hk, hk0⟩
    have := hh (fun k => if k < T.cols then r.1 k else 0, r.2) ⟨⟨T, hT, r, hr, rfl⟩, k, lt_of_lt_of_le hk (hcols T hT), by
      dsimp only; rw [if_pos hk]; exact hk0⟩
    rw [hsum T hT r] at this
    exact this
  · rintro hh r ⟨⟨T, hT, q, hq, rfl⟩, k, hk, hk0⟩
    dsimp only at hk0 ⊢
    rw [hsum T hT q]
    refine hh T hT q hq ⟨k, ?_, ?_⟩
    · by_contra hc
      rw [if_neg hc] at hk0; exact hk0 rfl
    · intro e; rw [e] at hk0; simp at hk0

/-- C117: after cleaning up, the designs are those satisfying all systems, if every row without a variable is satisfied (its right hand
side is nonnegative). -/
theorem cleanup_all {Ss : List LinSys} {S : LinSys} (h : cleanup Ss = .ok S)
    (h0 : ∀ T ∈ Ss, ∀ r ∈ T.rows, (∀ k, k < T.cols → r.1 k = 0) → 0 ≤ r.2) (p : ℕ → ℝ) : S.Holds p ↔ ∀ T ∈ Ss, T.Holds p := by
  rw [cleanup_iff h]
  refine forall₂_congr fun T hT => ⟨fun hh r hr => ?_, fun hh r hr _ => hh r hr⟩
  by_cases hk : ∃ k, k < T.cols ∧ r.1 k ≠ 0
  · exact hh r hr hk
  · have hz : ∀ k, k < T.cols → r.1 k = 0 := by
      intro k hk'; by_contra hc; exact hk ⟨k, hk', hc⟩
    rw [Finset.sum_eq_zero fun k hk' => by rw [hz k (mem_range.1 hk'), zero_mul]]
    exact h0 T hT r hr hz

theorem cleanup_ok_iff (Ss : List LinSys) : (∃ S, cleanup Ss = .ok S) ↔ Ss ≠ [] := by
  unfold cleanup
  by_cases h : Ss = []
  · rw [if_pos h]
    constructor
    · rintro ⟨S, hS⟩; cases hS
    · intro h'; exact absurd h h'
  · rw [if_neg h]
    exact ⟨fun _ => h, fun _ => ⟨_, rfl⟩⟩

/-- The centreline of the shipped design domain, `/repo/psdr/demos/_multif_domains3d.py` 62-63 and 122-123. -/
noncomputable def centerline : Wall :=
  ⟨[0, 0, 0.3, 0.575, 1.15, 1.7262, 2, 2.33702, 2.33702, 0.099908, 0.099908, 0.099908, 0.12, 0.14, 0.17, 0.19, 0.19, 0.19],
   [0, 0, 0, 1, 2, 3, 0, 0, 0, 0, 0, 0, 4, 5, 6, 0, 0, 0], 0, .one (-0.3), .one 0.3, .one (-0.3), .one 0.3, none, some 2.3, 0.2, false,
   some (-0.05), some 0.1⟩

/-- C117 where the code fails: no design satisfies the centreline constraints of the shipped demo (two fixed control points coincide); the
shipped domain is not empty only because cleaning up drops the violated rows. -/
theorem centerline_infeasible : ∃ S, bspline centerline = .ok S ∧ (∀ p, ¬ S.Holds p) ∧
    ∃ T, cleanup [S] = .ok T ∧ ∀ r ∈ T.rows, ∃ k, k < T.cols ∧ r.1 k ≠ 0 := by
  obtain ⟨S, hS⟩ := bspline_ok centerline rfl (by decide) (by decide) (Or.inl rfl) le_rfl trivial trivial trivial trivial
  refine ⟨S, hS, fun p hp => ?_, ?_⟩
  · have hw := ((bspline_iff _ hS p).1 hp).order 1 le_rfl (by decide)
    norm_num [control, centerline, Wall.gap] at hw
  · obtain ⟨T, hT⟩ := (cleanup_ok_iff [S]).2 (by simp)
    refine ⟨T, hT, ?_⟩
    unfold cleanup at hT
    rw [if_neg (by simp)] at hT
    injection hT with hT
    subst hT
    intro r hr
    simp only [List.mem_filter, decide_eq_true_eq] at hr
    exact hr.2

end Verif.Demo
