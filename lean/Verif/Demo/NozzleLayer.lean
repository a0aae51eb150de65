import Verif.Demo.NozzleWitness

/-!
# The constraints of layers, stringers and baffles of the nozzle demo (C118)
-/

namespace Verif.Demo

open Finset

/-! ## Specification -/

/-- The conditions on the quantities of a layer other than the order of the y-coordinates: `w i` is `x_i`, `w (nx + j)` is `y_j`, and the
thickness at `(x_i, y_j)` is `w (K.zi i j)`. -/
structure LayerOk (K : Layer) (w : ℕ → ℝ) : Prop where
  left : ∀ a, K.xleft = some a → a + K.deltax ≤ w 0
  order : ∀ i, 1 ≤ i → i < K.x.length → w (i - 1) + K.deltax ≤ w i
  right : ∀ b, K.xright = some b → w (K.x.length - 1) + K.deltax ≤ b
  lo : ∀ i, 1 ≤ i → i < K.x.length → ∀ j, j < K.y.length → K.slopeMin * (w i - w (i - 1)) ≤ w (K.zi i j) - w (K.zi (i - 1) j)
  hi : ∀ i, 1 ≤ i → i < K.x.length → ∀ j, j < K.y.length → w (K.zi i j) - w (K.zi (i - 1) j) ≤ K.slopeMax * (w i - w (i - 1))
  around : ∀ d, K.deltaz = some d → ∀ i, i < K.x.length → |w (K.zi i 0) - w (K.zi i (K.y.length - 1))| ≤ d
  next : ∀ d, K.deltaz = some d → ∀ i, i < K.x.length → ∀ j, 1 ≤ j → j < K.y.length → |w (K.zi i j) - w (K.zi i (j - 1))| ≤ d

/-- The documented condition on the y-coordinates: neighbours are at least `deltay` apart. -/
def YOrder (K : Layer) (w : ℕ → ℝ) : Prop :=
  ∀ d, K.deltay = some d → ∀ j, 1 ≤ j → j < K.y.length → w (K.x.length + j - 1) + d ≤ w (K.x.length + j)

/-- The condition in the code: shifted by one, beginning with the last x-coordinate and without the last y-coordinate. -/
def YShifted (K : Layer) (w : ℕ → ℝ) : Prop :=
  ∀ d, K.deltay = some d → ∀ j, j + 1 < K.y.length → w (K.x.length + j - 1) + d ≤ w (K.x.length + j)

/-! ## Lemmas -/

theorem crossX_iff (K : Layer) {n : ℕ} (w : ℕ → ℝ) (h : InCols n K.crossX) :
    (∀ k ∈ K.crossX, k.Sat n w) ↔ (∀ a, K.xleft = some a → a + K.deltax ≤ w 0) ∧
      (∀ i, 1 ≤ i → i < K.x.length → w (i - 1) + K.deltax ≤ w i) ∧ (∀ b, K.xright = some b → w (K.x.length - 1) + K.deltax ≤ b) := by
  unfold InCols at h
  unfold Layer.crossX at h ⊢
  simp only [List.mem_append, or_imp, forall_and] at h ⊢
  obtain ⟨⟨h1, h2⟩, h3⟩ := h
  rw [and_assoc]
  refine and_congr ?_ (and_congr ?_ ?_)
  · rcases e : K.xleft with _ | a
    · simp
    · rw [e] at h1
      simp only [List.mem_singleton, forall_eq, Option.some.injEq] at h1 ⊢
      rw [sat1 w _ _ h1, forall_eq']
      constructor <;> intro h <;> linarith
  · simp only [List.forall_mem_map, mem_rangeFrom, and_imp] at h2 ⊢
    refine forall_congr' fun i => forall₂_congr fun hi1 hi2 => ?_
    rw [sat2 w _ _ _ (h2 i hi1 hi2 (i, -1) (by simp)) (h2 i hi1 hi2 (i - 1, 1) (by simp)) (by omega)]
    constructor <;> intro h <;> linarith
  · rcases e : K.xright with _ | b
    · simp
    · rw [e] at h3
      simp only [List.mem_singleton, forall_eq, Option.some.injEq] at h3 ⊢
      rw [sat1 w _ _ h3, forall_eq']
      constructor <;> intro h <;> linarith

theorem crossY_iff (K : Layer) {n : ℕ} (w : ℕ → ℝ) (hx : 0 < K.x.length) (h : InCols n K.crossY) :
    (∀ k ∈ K.crossY, k.Sat n w) ↔ YShifted K w := by
  unfold InCols at h
  unfold Layer.crossY at h ⊢
  unfold YShifted
  rcases e : K.deltay with _ | d
  · simp
  · rw [e] at h
    simp only [List.forall_mem_map, mem_rangeFrom, and_imp, Option.some.injEq, forall_eq'] at h ⊢
    constructor
    · intro a j hj
      have := a (K.x.length + j) (by omega) (by omega)
      have hh := h (K.x.length + j) (by omega) (by omega)
      rw [sat2 w _ _ _ (hh (K.x.length + j, -1) (by simp)) (hh (K.x.length + j - 1, 1) (by simp)) (by omega)] at this
      linarith
    · intro a i h1 h2
      have := a (i - K.x.length) (by omega)
      rw [show K.x.length + (i - K.x.length) = i by omega] at this
      have hh := h i h1 h2
      rw [sat2 w _ _ _ (hh (i, -1) (by simp)) (hh (i - 1, 1) (by simp)) (by omega)]
      linarith

theorem zi_pred (K : Layer) {i : ℕ} (hi : 1 ≤ i) (j : ℕ) : K.zi i j - 1 = K.zi (i - 1) j := by
  unfold Layer.zi
  omega

theorem lo_iff (K : Layer) {n : ℕ} (w : ℕ → ℝ) (h : InCols n K.lo) :
    (∀ k ∈ K.lo, k.Sat n w) ↔
      ∀ i, 1 ≤ i → i < K.x.length → ∀ j, j < K.y.length → K.slopeMin * (w i - w (i - 1)) ≤ w (K.zi i j) - w (K.zi (i - 1) j) := by
  unfold InCols at h
  unfold Layer.lo at h ⊢
  simp only [List.forall_mem_flatMap, List.forall_mem_map, mem_rangeFrom, List.mem_range, and_imp] at h ⊢
  refine forall_congr' fun i => forall₂_congr fun h1 h2 => forall₂_congr fun j hj => ?_
  have hh := h i h1 h2 j hj
  simp only [List.forall_mem_cons] at hh
  rw [sat4 w _ _ _ _ _ hh.1 hh.2.1 hh.2.2.1 hh.2.2.2.1 (by
    have hz : K.x.length + K.y.length + i ≤ K.zi i j := by unfold Layer.zi; nlinarith [Nat.zero_le (j * K.x.length)]
    simp only [List.nodup_cons, List.mem_cons, List.not_mem_nil, or_false, not_or, not_false_eq_true, List.nodup_nil, and_true]
    omega), zi_pred K h1]
  constructor <;> intro h <;> linarith

theorem hi_iff (K : Layer) {n : ℕ} (w : ℕ → ℝ) (h : InCols n K.hi) :
    (∀ k ∈ K.hi, k.Sat n w) ↔
      ∀ i, 1 ≤ i → i < K.x.length → ∀ j, j < K.y.length → w (K.zi i j) - w (K.zi (i - 1) j) ≤ K.slopeMax * (w i - w (i - 1)) := by
  unfold InCols at h
  unfold Layer.hi at h ⊢
  simp only [List.forall_mem_flatMap, List.forall_mem_map, mem_rangeFrom, List.mem_range, and_imp] at h ⊢
  refine forall_congr' fun i => forall₂_congr fun h1 h2 => forall₂_congr fun j hj => ?_
  have hh := h i h1 h2 j hj
  simp only [List.forall_mem_cons] at hh
  rw [sat4 w _ _ _ _ _ hh.1 hh.2.1 hh.2.2.1 hh.2.2.2.1 (by
    have hz : K.x.length + K.y.length + i ≤ K.zi i j := by unfold Layer.zi; nlinarith [Nat.zero_le (j * K.x.length)]
    simp only [List.nodup_cons, List.mem_cons, List.not_mem_nil, or_false, not_or, not_false_eq_true, List.nodup_nil, and_true]
    omega), zi_pred K h1]
  constructor <;> intro h <;> linarith

theorem zi_inj (K : Layer) {i j k : ℕ} (hx : 0 < K.x.length) (h : K.zi i j = K.zi i k) : j = k := by
  unfold Layer.zi at h
  have : j * K.x.length = k * K.x.length := by omega
  exact Nat.eq_of_mul_eq_mul_right hx this

theorem thick_iff (K : Layer) {n : ℕ} (w : ℕ → ℝ) (h : InCols n K.thick) (hy : K.deltaz = none ∨ K.y.length ≠ 1)
    (hn : n = K.x.length + K.y.length + K.x.length * K.y.length) :
    (∀ k ∈ K.thick, k.Sat n w) ↔
      (∀ d, K.deltaz = some d → ∀ i, i < K.x.length → |w (K.zi i 0) - w (K.zi i (K.y.length - 1))| ≤ d) ∧
      (∀ d, K.deltaz = some d → ∀ i, i < K.x.length → ∀ j, 1 ≤ j → j < K.y.length → |w (K.zi i j) - w (K.zi i (j - 1))| ≤ d) := by
  unfold InCols at h
  unfold Layer.thick at h ⊢
  rcases e : K.deltaz with _ | d
  · simp
  rw [e] at h
  have hy : K.y.length ≠ 1 := hy.resolve_left (by rw [e]; simp)
  simp only [List.forall_mem_flatMap, List.forall_mem_append, List.forall_mem_cons, List.mem_range, mem_rangeFrom, and_imp,
    List.not_mem_nil, false_implies, implies_true, and_true, Option.some.injEq, forall_eq'] at h ⊢
  rw [← forall_and]
  refine forall_congr' fun i => ?_
  rw [← forall_and]
  refine forall_congr' fun hi => ?_
  obtain ⟨⟨⟨a1, a2⟩, a3, a4⟩, a5⟩ := h i hi
  refine and_congr ?_ ?_
  · by_cases h0 : K.y.length = 0
    · exfalso
      rw [h0] at hn
      unfold Layer.zi at a1
      omega
    · have hne : K.zi i 0 ≠ K.zi i (K.y.length - 1) := fun hc => by
        have := zi_inj K (by omega) hc
        omega
      rw [sat2 w _ _ _ a1 a2 hne, sat2 w _ _ _ a1 a2 hne, abs_le]
      constructor
      · rintro ⟨b1, b2⟩; constructor <;> linarith
      · rintro ⟨b1, b2⟩; constructor <;> linarith
  · refine forall_congr' fun j => forall₂_congr fun h1 h2 => ?_
    obtain ⟨⟨c1, c2⟩, c3, c4⟩ := a5 j h1 h2
    have hne : K.zi i j ≠ K.zi i (j - 1) := fun hc => by
      have := zi_inj K (by omega) hc
      omega
    rw [sat2 w _ _ _ c1 c2 hne, sat2 w _ _ _ c1 c2 hne, abs_le]
    constructor
    · rintro ⟨b1, b2⟩; constructor <;> linarith
    · rintro ⟨b1, b2⟩; constructor <;> linarith

/-! ## Theorems -/

theorem layer_cons {K : Layer} {S : LinSys} (h : piecewiseBilinearAxial K = .ok S) :
    K.z.length = K.x.length * K.y.length ∧ K.v.length = K.x.length + K.y.length + K.z.length ∧
    (InCols K.v.length K.crossX ∧ InCols K.v.length K.crossY ∧ InCols K.v.length K.lo ∧ InCols K.v.length K.hi ∧
      InCols K.v.length K.thick) ∧
    (K.crossX ++ K.crossY ++ K.lo ++ K.hi ++ K.thick).length ≤ 100 ∧
    eliminate K.v.length K.v (K.x ++ K.y ++ K.z) (K.crossX ++ K.crossY ++ K.lo ++ K.hi ++ K.thick) = .ok S := by
  unfold piecewiseBilinearAxial at h
  split at h
  · cases h
  · rename_i hc
    rw [not_or, not_not, not_not] at hc
    change (emit _ _ _ >>= _) = _ at h
    simp only [nozBind_ok_iff] at h
    obtain ⟨r1, h1, r2, h2, r3, h3, r4, h4, r5, h5, h6⟩ := h
    obtain ⟨e1, i1, _⟩ := emit_ok h1
    obtain ⟨e2, i2, _⟩ := emit_ok h2
    obtain ⟨e3, i3, _⟩ := emit_ok h3
    obtain ⟨e4, i4, _⟩ := emit_ok h4
    obtain ⟨e5, i5, l5⟩ := emit_ok h5
    rw [List.nil_append] at e1
    subst e1; subst e2; subst e3; subst e4; subst e5
    exact ⟨hc.1, hc.2, ⟨i1, i2, i3, i4, i5⟩, by rw [List.length_append]; exact l5, h6⟩

/-- C118: the rows of a layer hold exactly if the layer satisfies the documented conditions, except that the condition on the y-coordinates is
the shifted one. -/
theorem layer_iff (K : Layer) {S : LinSys} (h : piecewiseBilinearAxial K = .ok S) (hx : 0 < K.x.length)
    (hy : K.deltaz = none ∨ K.y.length ≠ 1) (p : ℕ → ℝ) :
    S.Holds p ↔ LayerOk K (control K.v (K.x ++ K.y ++ K.z) p) ∧ YShifted K (control K.v (K.x ++ K.y ++ K.z) p) := by
  obtain ⟨hz, hv, ⟨i1, i2, i3, i4, i5⟩, -, he⟩ := layer_cons h
  rw [eliminate_ok he]
  simp only [List.forall_mem_append]
  rw [crossX_iff K _ i1, crossY_iff K _ hx i2, lo_iff K _ i3, hi_iff K _ i4, thick_iff K _ i5 hy (by rw [hv, hz])]
  constructor
  · rintro ⟨⟨⟨⟨⟨a, b, c⟩, d⟩, e⟩, f⟩, g1, g2⟩
    exact ⟨⟨a, b, c, e, f, g1, g2⟩, d⟩
  · rintro ⟨⟨a, b, c, e, f, g1, g2⟩, d⟩
    exact ⟨⟨⟨⟨⟨a, b, c⟩, d⟩, e⟩, f⟩, g1, g2⟩

/-- C118: without a spacing of the y-coordinates the rows hold exactly if the documented conditions hold. -/
theorem layer_plain_iff (K : Layer) {S : LinSys} (h : piecewiseBilinearAxial K = .ok S) (hx : 0 < K.x.length)
    (hy : K.deltaz = none ∨ K.y.length ≠ 1) (hd : K.deltay = none) (p : ℕ → ℝ) :
    S.Holds p ↔ LayerOk K (control K.v (K.x ++ K.y ++ K.z) p) ∧ YOrder K (control K.v (K.x ++ K.y ++ K.z) p) := by
  rw [layer_iff K h hx hy]
  simp [YShifted, YOrder, hd]

/-- The number of rows of a layer. -/
def Layer.rowCount (K : Layer) : ℕ :=
  (if K.xleft.isSome then 1 else 0) + (K.x.length - 1) + (if K.xright.isSome then 1 else 0) +
  (if K.deltay.isSome then K.y.length - 1 else 0) + 2 * ((K.x.length - 1) * K.y.length) +
  (if K.deltaz.isSome then 2 * (K.x.length * K.y.length) else 0)

/-- C118: which layers are accepted: the lengths fit, and there are at most 100 rows. -/
theorem layer_ok_iff (K : Layer) (hx : 0 < K.x.length) (hy : 0 < K.y.length) :
    (∃ S, piecewiseBilinearAxial K = .ok S) ↔
      K.z.length = K.x.length * K.y.length ∧ K.v.length = K.x.length + K.y.length + K.z.length ∧ K.rowCount ≤ 100 := by
  have hl : (K.crossX ++ K.crossY ++ K.lo ++ K.hi ++ K.thick).length = K.rowCount := by
    have a1 : K.crossX.length = (if K.xleft.isSome then 1 else 0) + (K.x.length - 1) + (if K.xright.isSome then 1 else 0) := by
      unfold Layer.crossX
      cases K.xleft <;> cases K.xright <;> simp [rangeFrom_length] <;> omega
    have a2 : K.crossY.length = if K.deltay.isSome then K.y.length - 1 else 0 := by
      unfold Layer.crossY
      cases K.deltay <;> simp [rangeFrom_length]
      omega
    have a3 : K.lo.length = (K.x.length - 1) * K.y.length := by
      simp [Layer.lo, rangeFrom_length]
    have a4 : K.hi.length = (K.x.length - 1) * K.y.length := by
      simp [Layer.hi, rangeFrom_length]
    have a5 : K.thick.length = if K.deltaz.isSome then 2 * (K.x.length * K.y.length) else 0 := by
      unfold Layer.thick
      cases K.deltaz
      · simp
      · simp [rangeFrom_length]
        obtain ⟨k, hk⟩ := Nat.exists_eq_add_of_lt hy
        rw [hk, show 0 + k + 1 - 1 = k by omega]
        ring
    rw [List.length_append, List.length_append, List.length_append, List.length_append, a1, a2, a3, a4, a5]
    unfold Layer.rowCount
    ring
  constructor
  · rintro ⟨S, h⟩
    obtain ⟨hz, hv, -, hr, -⟩ := layer_cons h
    exact ⟨hz, hv, hl ▸ hr⟩
  · rintro ⟨hz, hv, hr⟩
    have hv' : K.v.length = K.x.length + K.y.length + K.x.length * K.y.length := by rw [hv, hz]
    have hzi : ∀ i j, i < K.x.length → j < K.y.length → K.zi i j < K.v.length := by
      intro i j hi hj
      unfold Layer.zi
      have : (j + 1) * K.x.length ≤ K.y.length * K.x.length := Nat.mul_le_mul_right _ hj
      rw [hv']
      nlinarith
    have i1 : InCols K.v.length K.crossX := by
      unfold InCols Layer.crossX
      simp only [List.forall_mem_append, List.forall_mem_map, mem_rangeFrom]
      refine ⟨⟨?_, ?_⟩, ?_⟩
      · cases K.xleft <;> simp; omega
      · intro i hi; simp; omega
      · cases K.xright <;> simp; omega
    have i2 : InCols K.v.length K.crossY := by
      unfold InCols Layer.crossY
      cases K.deltay
      · simp
      · simp only [List.forall_mem_map, mem_rangeFrom]
        intro i hi; simp; omega
    have i3 : InCols K.v.length K.lo := by
      unfold InCols Layer.lo
      simp only [List.forall_mem_flatMap, List.forall_mem_map, mem_rangeFrom, List.mem_range]
      intro i hi j hj
      have := hzi i j hi.2 hj
      simp; omega
    have i4 : InCols K.v.length K.hi := by
      unfold InCols Layer.hi
      simp only [List.forall_mem_flatMap, List.forall_mem_map, mem_rangeFrom, List.mem_range]
      intro i hi j hj
      have := hzi i j hi.2 hj
      simp; omega
    have i5 : InCols K.v.length K.thick := by
      unfold InCols Layer.thick
      cases K.deltaz
      · simp
      · simp only [List.forall_mem_flatMap, List.forall_mem_append, List.forall_mem_cons, List.mem_range, mem_rangeFrom, and_imp,
          List.not_mem_nil, false_implies, implies_true, and_true]
        intro i hi
        have h0 := hzi i 0 hi hy
        have h1 := hzi i (K.y.length - 1) hi (by omega)
        refine ⟨⟨⟨h0, h1⟩, h0, h1⟩, fun j hj1 hj2 => ?_⟩
        have h2 := hzi i j hi hj2
        have h3 := hzi i (j - 1) hi (by omega)
        exact ⟨⟨h2, h3⟩, h2, h3⟩
    rw [← hl] at hr
    simp only [List.length_append] at hr
    obtain ⟨S, hS⟩ := (eliminate_ok_iff K.v.length K.v (K.x ++ K.y ++ K.z) (K.crossX ++ K.crossY ++ K.lo ++ K.hi ++ K.thick)).2
      ⟨by intro hc; rw [hc] at hv; simp at hv; omega, le_rfl, fun i hi _ => by simp only [List.length_append]; omega⟩
    refine ⟨S, ?_⟩
    unfold piecewiseBilinearAxial
    rw [if_neg (by rw [not_or, not_not, not_not]; exact ⟨hz, hv⟩)]
    change (emit _ _ _ >>= _) = _
    simp only [nozBind_ok_iff]
    exact ⟨_, emit_of_ok i1 (by simp only [List.length_append, List.length_nil]; omega), _,
      emit_of_ok i2 (by simp only [List.length_append, List.length_nil]; omega), _,
      emit_of_ok i3 (by simp only [List.length_append, List.length_nil]; omega), _,
      emit_of_ok i4 (by simp only [List.length_append, List.length_nil]; omega), _,
      emit_of_ok i5 (by simp only [List.length_append, List.length_nil]; omega), hS⟩

/-- C118: a layer with wrong numbers of values raises `RuntimeError`. -/
theorem layer_runtime (K : Layer) (h : K.z.length ≠ K.x.length * K.y.length ∨ K.v.length ≠ K.x.length + K.y.length + K.z.length) :
    piecewiseBilinearAxial K = .error .runtimeError := by
  unfold piecewiseBilinearAxial
  rw [if_pos h]
  rfl

/-- One x-coordinate and two or three y-coordinates, all of them design variables. -/
noncomputable def yLayer (y : List ℝ) : Layer :=
  ⟨[0], y, y.map (fun _ => 0), List.map (· + 1) (List.range (1 + y.length + y.length)), -1, 1, none, none, 0.01, some 60, none⟩

theorem yLayer_ok (y : List ℝ) (h0 : 0 < y.length) (h : y.length ≤ 50) : ∃ S, piecewiseBilinearAxial (yLayer y) = .ok S :=
  (layer_ok_iff _ (by simp [yLayer]) h0).2 ⟨by simp [yLayer], by simp [yLayer], by simp [yLayer, Layer.rowCount]; omega⟩

/-- The values of the quantities of a layer, as a design. -/
theorem yLayer_iff (y : List ℝ) {S : LinSys} (hS : piecewiseBilinearAxial (yLayer y) = .ok S) (p : ℕ → ℝ) :
    S.Holds p ↔ ∀ j, j + 1 < y.length → p j + 60 ≤ p (1 + j) := by
  have hw : ∀ i, i < 1 + y.length + y.length → control (yLayer y).v ((yLayer y).x ++ (yLayer y).y ++ (yLayer y).z) p i = p i := by
    intro i hi
    have : (yLayer y).v.getD i 0 = i + 1 := by
      simp [yLayer, List.getD_eq_getElem?_getD, List.getElem?_range, hi]
    unfold control
    rw [this, if_neg (by omega), Nat.add_sub_cancel]
  rw [layer_iff _ hS (by simp [yLayer]) (Or.inl rfl)]
  constructor
  · rintro ⟨-, h⟩ j hj
    have := h 60 rfl j hj
    rw [show (yLayer y).x.length = 1 from rfl, hw _ (by omega), hw _ (by omega), show 1 + j - 1 = j by omega] at this
    exact this
  · intro h
    refine ⟨⟨by simp [yLayer], ?_, by simp [yLayer], ?_, ?_, by simp [yLayer], by simp [yLayer]⟩, ?_⟩
    · intro i h1 h2; simp [yLayer] at h2; omega
    · intro i h1 h2; simp [yLayer] at h2; omega
    · intro i h1 h2; simp [yLayer] at h2; omega
    · intro d hd j hj
      have hj' : j + 1 < y.length := hj
      have := h j hj'
      rw [show (yLayer y).x.length = 1 from rfl, hw _ (by omega), hw _ (by omega), show 1 + j - 1 = j by omega]
      have hd' : (60 : ℝ) = d := by simpa [yLayer] using hd
      rw [← hd']
      exact this

/-- C118 where the code fails: y-coordinates that cross are accepted, and y-coordinates far enough apart are rejected because the first of
them is compared with the last x-coordinate. -/
theorem layer_y_false :
    (∃ S, piecewiseBilinearAxial (yLayer [60, 0]) = .ok S ∧ ∃ p : ℕ → ℝ, S.Holds p ∧ p 2 < p 1) ∧
    (∃ S, piecewiseBilinearAxial (yLayer [0, 90]) = .ok S ∧ ∃ p : ℕ → ℝ, p 1 + 60 ≤ p 2 ∧ ¬ S.Holds p) := by
  constructor
  · obtain ⟨S, hS⟩ := yLayer_ok [60, 0] (by simp) (by simp)
    refine ⟨S, hS, fun k => if k = 1 then 60 else 0, ?_, by norm_num⟩
    rw [yLayer_iff _ hS]
    intro j hj
    have : j = 0 := by simp at hj; omega
    subst this
    norm_num
  · obtain ⟨S, hS⟩ := yLayer_ok [0, 90] (by simp) (by simp)
    refine ⟨S, hS, fun k => if k = 2 then 90 else 0, by norm_num, ?_⟩
    rw [yLayer_iff _ hS]
    intro h
    have := h 0 (by simp)
    norm_num at this

/-- C118 where the code fails: with one y-coordinate the two entries of a row fall together, and `deltaz` bounds the thickness itself. -/
theorem layer_single_false (K : Layer) {S : LinSys} (h : piecewiseBilinearAxial K = .ok S) (hy : K.y.length = 1) {d : ℝ}
    (hd : K.deltaz = some d) {p : ℕ → ℝ} (hp : S.Holds p) {i : ℕ} (hi : i < K.x.length) :
    |control K.v (K.x ++ K.y ++ K.z) p (K.x.length + 1 + i)| ≤ d := by
  obtain ⟨hz, hv, ⟨-, -, -, -, -⟩, -, he⟩ := layer_cons h
  rw [eliminate_ok he] at hp
  simp only [List.forall_mem_append] at hp
  have ht := hp.2
  unfold Layer.thick at ht
  rw [hd] at ht
  simp only [List.forall_mem_flatMap, List.forall_mem_append, List.forall_mem_cons, List.mem_range] at ht
  obtain ⟨⟨h1, h2, -⟩, -⟩ := ht i hi
  have e0 : K.zi i 0 = K.x.length + 1 + i := by simp [Layer.zi, hy]
  have e1 : K.zi i (K.y.length - 1) = K.x.length + 1 + i := by simp [Layer.zi, hy]
  have hlt : K.x.length + 1 + i < K.v.length := by rw [hv, hz, hy]; omega
  rw [e0, e1] at h1 h2
  have key : ∀ a b c : ℝ, Con.Sat K.v.length (control K.v (K.x ++ K.y ++ K.z) p) ⟨[(K.x.length + 1 + i, a), (K.x.length + 1 + i, b)], c⟩ →
      b * control K.v (K.x ++ K.y ++ K.z) p (K.x.length + 1 + i) ≤ c := by
    intro a b c hs
    rw [← sat1 _ b c hlt]
    unfold Con.Sat Con.row at hs ⊢
    simpa using hs
  have k1 := key _ _ _ h1
  have k2 := key _ _ _ h2
  rw [abs_le]
  constructor <;> linarith

/-- C118: the rows for baffles hold exactly if neighbouring baffles are between the smallest and the largest distance apart. -/
theorem baffles_iff (x t : List ℝ) (v : List ℕ) (lo hi : ℝ) {S : LinSys} (h : baffles x t v lo hi = .ok S) (p : ℕ → ℝ) :
    S.Holds p ↔ ∀ i, 1 ≤ i → i < x.length →
      lo ≤ control v (x ++ t) p i - control v (x ++ t) p (i - 1) ∧ control v (x ++ t) p i - control v (x ++ t) p (i - 1) ≤ hi := by
  unfold baffles at h
  split at h
  · rename_i hc
    rw [eliminate_ok h]
    unfold baffleCons at hc ⊢
    simp only [List.forall_mem_flatMap, mem_rangeFrom, and_imp, List.forall_mem_cons, List.not_mem_nil, false_implies, implies_true,
      and_true] at hc ⊢
    refine forall_congr' fun i => forall₂_congr fun h1 h2 => ?_
    obtain ⟨⟨c1, c2⟩, -⟩ := hc i h1 h2
    rw [sat2 _ _ _ _ c1 c2 (by omega), sat2 _ _ _ _ c1 c2 (by omega)]
    constructor
    · rintro ⟨a, b⟩; constructor <;> linarith
    · rintro ⟨a, b⟩; constructor <;> linarith
  · cases h

/-- C118: which baffles are accepted. -/
theorem baffles_ok_iff (x t : List ℝ) (v : List ℕ) (lo hi : ℝ) :
    (∃ S, baffles x t v lo hi = .ok S) ↔ v ≠ [] ∧ (2 ≤ x.length → x.length ≤ v.length) ∧
      ∀ i, i < v.length → v.getD i 0 = 0 → i < x.length + t.length := by
  have hc : (∀ k ∈ baffleCons x.length lo hi, ∀ q ∈ k.entries, q.1 < v.length) ↔ (2 ≤ x.length → x.length ≤ v.length) := by
    unfold baffleCons
    simp only [List.forall_mem_flatMap, mem_rangeFrom, and_imp, List.forall_mem_cons, List.not_mem_nil, false_implies, implies_true,
      and_true]
    constructor
    · intro h h2
      have := (h (x.length - 1) (by omega) (by omega)).1.1
      omega
    · intro h i h1 h2
      have := h (by omega)
      omega
  unfold baffles
  split
  · rename_i h
    rw [eliminate_ok_iff]
    simp only [le_refl, true_and, List.length_append]
    exact ⟨fun ⟨a, b⟩ => ⟨a, hc.1 h, b⟩, fun ⟨a, _, b⟩ => ⟨a, b⟩⟩
  · rename_i h
    constructor
    · rintro ⟨S, hS⟩; cases hS
    · rintro ⟨_, b, _⟩; exact absurd (hc.2 b) h

/-- Non-vacuity: three baffles half a unit apart, all of them variables. -/
example : ∃ S, baffles [0, 0.5, 1] [0.1, 0.1, 0.1] [1, 2, 3, 0, 0, 0] 0.2 0.6 = .ok S ∧ S.Holds (fun k => k / 2) := by
  obtain ⟨S, hS⟩ := (baffles_ok_iff [0, 0.5, 1] [0.1, 0.1, 0.1] [1, 2, 3, 0, 0, 0] 0.2 0.6).2 ⟨by simp, by simp, fun i hi _ => by
    simp at hi ⊢; omega⟩
  refine ⟨S, hS, ?_⟩
  rw [baffles_iff _ _ _ _ _ hS]
  intro i h1 h2
  simp at h2
  interval_cases i <;> norm_num [control]

end Verif.Demo
