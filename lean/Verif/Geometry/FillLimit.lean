import Verif.Geometry.VsampleProps
import Verif.Lipschitz.LimitProps

/-!
# C184: estimated fill distances as the number of starting points grows

`fill_distance_estimate(domain, Xhat, L, X0)`, fill.py 32-88, with starting points `X0` drawn from the domain.
-/

namespace Verif.Geo

open Verif Verif.Domain Matrix Filter MeasureTheory ProbabilityTheory Topology

variable {k m : ℕ}

/-! ## Specification -/

/-- `c` is the fill distance of the samples: the least upper bound of the distances from points of the domain to the nearest sample. -/
def IsFillDistance (D : SDomain m) (beq : Lip.Pt m → ℝ) (L : Matrix (Fin k) (Fin m) ℝ) (Xhat : List (Lip.Pt m)) (c : ℝ) : Prop :=
  IsLUB {d | ∃ v, Feasible D beq v ∧ d = nearest L Xhat v} c

/-- Arbitrarily close to the fill distance there are points of the domain around which every start meets no sample slowly. -/
def FastNearWorst (sort : SortBy m) (qr : QRcols m) (D : SDomain m) (beq : Lip.Pt m → ℝ) (L : Matrix (Fin k) (Fin m) ℝ) (Xhat : List (Lip.Pt m)) (c : ℝ) : Prop :=
  ∀ ε > 0, ∃ a, Feasible D beq a ∧ c - ε < nearest L Xhat a ∧ ∃ U : Set (Lip.Pt m), IsOpen U ∧ a ∈ U ∧
    ∀ x ∈ U, Feasible D beq x → FastRun sort qr D L Xhat (fun _ => 0) (passes D L false) x

/-! ## Proofs -/

theorem continuous_ldist (L : Matrix (Fin k) (Fin m) ℝ) (a : Lip.Pt m) : Continuous fun x => Lip.ldist L x a := by
  unfold Lip.ldist
  exact Lip.continuous_nrm.comp ((L.mulVecLin.continuous_of_finiteDimensional).sub continuous_const)

theorem nearest_close (L : Matrix (Fin k) (Fin m) ℝ) {X : List (Lip.Pt m)} (hX : X ≠ []) (v z : Lip.Pt m) :
    nearest L X z ≤ nearest L X v + Lip.ldist L v z := by
  obtain ⟨x, hx, e⟩ := nearest_mem L hX v
  rw [e]
  exact (nearest_le L hx z).trans (Lip.ldist_triangle L x v z)

/-- A starting point whose passes meet no sample slowly bounds the estimate from below, whatever the other starting points do. -/
theorem fillEstimate_ge {sort : SortBy m} (hs : sort.Sorts) {qr : QRcols m} (hq : qr.Exact) {D : SDomain m} {L : Matrix (Fin k) (Fin m) ℝ}
    {Xhat X0 : List (Lip.Pt m)} {d : ℝ} (h : fillEstimate sort qr D L Xhat X0 = .ok d) {x : Lip.Pt m} (hx : x ∈ X0)
    (hf : FastRun sort qr D L Xhat (fun _ => 0) (passes D L false) x) : nearest L Xhat x ≤ d := by
  simp only [fillEstimate] at h
  split at h
  · simp at h
  · simp at h
  · rename_i V hV hok
    simp only [Except.ok.injEq] at h
    rw [vertexSample] at hok
    split at hok
    · simp at hok
    · obtain ⟨v, hv, e⟩ := forall₂_left (mapE_ok hok) _ (List.mem_map_of_mem hx)
      rw [← h]
      exact (vpasses_nearest hs hq _ hf e).trans (fillOver_le L Xhat hv)

/-- **C184**: if the starting points fill the domain, the estimated fill distances converge to the fill distance, provided that starts near the points
furthest from the samples meet no sample slowly. -/
theorem fillEstimate_limit {sort : SortBy m} (hs : sort.Sorts) {qr : QRcols m} (hq : qr.Exact) {D : SDomain m} {beq : Lip.Pt m → ℝ}
    {L : Matrix (Fin k) (Fin m) ℝ} {Xhat : List (Lip.Pt m)} (hX : Xhat ≠ []) {c : ℝ} (hc : IsFillDistance D beq L Xhat c)
    (hf : FastNearWorst sort qr D beq L Xhat c) {x : ℕ → Lip.Pt m} (hx : Lip.Fills x {v | Feasible D beq v}) {d : ℕ → ℝ}
    (hd : ∀ N, fillEstimate sort qr D L Xhat (Lip.firstPts x (N + 1)) = .ok (d N)) : Tendsto d atTop (𝓝 c) := by
  have hin : ∀ N, ∀ y ∈ Lip.firstPts x N, Feasible D beq y := by
    intro N y hy
    simp only [Lip.firstPts, List.mem_map] at hy
    obtain ⟨i, -, rfl⟩ := hy
    exact hx.inside i
  rw [Metric.tendsto_atTop]
  intro ε hε
  obtain ⟨a, ha, hac, U, hU, haU, hfast⟩ := hf (ε / 2) (half_pos hε)
  have hO : IsOpen (U ∩ {z | Lip.ldist L z a < ε / 2}) := hU.inter (isOpen_lt (continuous_ldist L a) continuous_const)
  obtain ⟨z, ⟨hzU, hz⟩, ⟨i, rfl⟩⟩ := mem_closure_iff.1 (hx.dense ha) _ hO ⟨haU, by simpa [Lip.ldist_self] using half_pos hε⟩
  refine ⟨i, fun N hN => ?_⟩
  have hlow := fillEstimate_ge hs hq (hd N) (x := x i) (by
    simp only [Lip.firstPts, List.mem_map, List.mem_range]; exact ⟨i, by omega, rfl⟩) (hfast _ hzU (hx.inside i))
  obtain ⟨v, hv, e⟩ := fillEstimate_lower hq (beq := beq) (hin (N + 1)) (hd N)
  have hup : d N ≤ c := hc.1 ⟨v, hv, e⟩
  have h3 := nearest_close L hX (x i) a
  have hz' : Lip.ldist L (x i) a < ε / 2 := hz
  rw [Real.dist_eq, abs_lt]
  constructor <;> linarith

/-- **C184**: with independent starting points from a law on the domain that charges every neighbourhood of its points, the estimated fill distances
converge almost surely to the fill distance, provided that starts near the points furthest from the samples meet no sample slowly. -/
theorem fillEstimate_almost_sure {Ω : Type*} [MeasurableSpace Ω] {μ : Measure Ω} [IsProbabilityMeasure μ] {X : ℕ → Ω → Lip.Pt m} {P : Measure (Lip.Pt m)}
    [IsProbabilityMeasure P] (hX : Misc.Iid μ X P) {sort : SortBy m} (hs : sort.Sorts) {qr : QRcols m} (hq : qr.Exact) {D : SDomain m}
    {beq : Lip.Pt m → ℝ} (hS : ∀ᵐ y ∂P, Feasible D beq y) (hpos : ∀ a, Feasible D beq a → ∀ U : Set (Lip.Pt m), IsOpen U → a ∈ U → P U ≠ 0)
    {L : Matrix (Fin k) (Fin m) ℝ} {Xhat : List (Lip.Pt m)} (hne : Xhat ≠ []) {c : ℝ} (hc : IsFillDistance D beq L Xhat c)
    (hf : FastNearWorst sort qr D beq L Xhat c) (hq0 : D.quads = 0) (haug : D.aug ≠ []) :
    ∀ᵐ ω ∂μ, ∃ d : ℕ → ℝ, (∀ N, fillEstimate sort qr D L Xhat (Lip.firstPts (fun i => X i ω) (N + 1)) = .ok (d N)) ∧ Tendsto d atTop (𝓝 c) := by
  filter_upwards [Lip.iid_fills hX (S := {v | Feasible D beq v}) hS hpos] with ω hω
  have hok : ∀ N, ∃ d, fillEstimate sort qr D L Xhat (Lip.firstPts (fun i => X i ω) (N + 1)) = .ok d := by
    intro N
    obtain ⟨V, hV⟩ := (vertexSample_ok_iff hs qr D L false Xhat
      ((Lip.firstPts (fun i => X i ω) (N + 1)).map fun x => (x, fun _ => 0))).2 ⟨hq0, .inr (.inr ⟨hne, haug⟩)⟩
    have hV' := hV
    rw [vertexSample, if_neg (by simpa using hq0)] at hV'
    have hl := (mapE_ok hV').length_eq
    rcases V with _ | ⟨v, V⟩
    · simp [Lip.firstPts] at hl
    · exact ⟨fillOver L Xhat (v :: V), by rw [fillEstimate, hV]⟩
  choose d hd using hok
  exact ⟨d, hd, fillEstimate_limit hs hq hne hc hf hω hd⟩

/-! ## A case that meets the hypotheses -/

/-- With one sample no pass meets a sample slowly. -/
theorem fastRun_single (sort : SortBy m) (qr : QRcols m) (D : SDomain m) (L : Matrix (Fin k) (Fin m) ℝ) (a : Lip.Pt m) (rnd : ℕ → Lip.Pt m) (n : ℕ)
    (x : Lip.Pt m) : FastRun sort qr D L [a] rnd n x := by
  intro i _ y _ near rest hp _ z hz
  have h1 : near ∈ [a] := hp.mem_iff.1 (by simp)
  rw [List.mem_singleton.1 h1, List.mem_singleton.1 hz]
  simp [closing]

theorem segment_fill (beq : Lip.Pt 1 → ℝ) : IsFillDistance segment beq (1 : Matrix (Fin 1) (Fin 1) ℝ) [pt1 0] 1 := by
  have hn : ∀ v, nearest (1 : Matrix (Fin 1) (Fin 1) ℝ) [pt1 0] v = |v 0| := fun v => by
    obtain ⟨x, hx, e⟩ := nearest_mem (1 : Matrix (Fin 1) (Fin 1) ℝ) (X := [pt1 0]) (by simp) v
    have := ldist1 1 x v
    rw [one_smul] at this
    rw [e, this, List.mem_singleton.1 hx]
    simp [pt1]
  refine IsGreatest.isLUB ⟨⟨pt1 1, (segment_feasible beq _).2 (by norm_num [pt1]), by rw [hn]; simp [pt1]⟩, ?_⟩
  rintro d ⟨v, hv, rfl⟩
  rw [hn, abs_le]
  exact (segment_feasible beq v).1 hv

theorem segment_fast (sort : SortBy 1) (qr : QRcols 1) (beq : Lip.Pt 1 → ℝ) :
    FastNearWorst sort qr segment beq (1 : Matrix (Fin 1) (Fin 1) ℝ) [pt1 0] 1 := by
  intro ε hε
  obtain ⟨d, ⟨v, hv, rfl⟩, hlt, -⟩ := (segment_fill beq).exists_between (show 1 - ε < 1 by linarith)
  exact ⟨v, hv, hlt, Set.univ, isOpen_univ, trivial, fun x _ _ => fastRun_single sort qr segment 1 (pt1 0) _ _ x⟩

/-- The hypotheses of `fillEstimate_almost_sure` can be met: uniform starting points on `[-1, 1]` and the sample `0`; the estimates converge to `1`. -/
theorem fillEstimate_segment {sort : SortBy 1} (hs : sort.Sorts) {qr : QRcols 1} (hq : qr.Exact) {Ω : Type*} [MeasurableSpace Ω] {μ : Measure Ω}
    [IsProbabilityMeasure μ] {X : ℕ → Ω → Lip.Pt 1} (hX : Misc.Iid μ X (cond volume {v | Feasible segment (fun _ => 0) v})) :
    ∀ᵐ ω ∂μ, ∃ d : ℕ → ℝ, (∀ N, fillEstimate sort qr segment (1 : Matrix (Fin 1) (Fin 1) ℝ) [pt1 0] (Lip.firstPts (fun i => X i ω) (N + 1)) = .ok (d N)) ∧
      Tendsto d atTop (𝓝 1) := by
  have hSe : {v : Lip.Pt 1 | Feasible segment (fun _ => 0) v} = Set.Icc (pt1 (-1)) (pt1 1) := by
    ext v
    simp only [Set.mem_setOf_eq, segment_feasible, Set.mem_Icc, Pi.le_def, pt1, Fin.forall_fin_one]
  have hvol : volume (Set.Icc (pt1 (-1)) (pt1 1)) = 2 := by
    rw [Real.volume_Icc_pi]; simp [pt1]; norm_num
  have hi : (interior (Set.Icc (pt1 (-1)) (pt1 1))).Nonempty := by
    refine ⟨pt1 0, mem_interior.2 ⟨{v | -1 < v 0 ∧ v 0 < 1}, fun v hv => ?_, ?_, by simp [pt1]⟩⟩
    · simp only [Set.mem_Icc, Pi.le_def, pt1, Fin.forall_fin_one]; exact ⟨hv.1.le, hv.2.le⟩
    · exact (isOpen_lt continuous_const (continuous_apply 0)).inter (isOpen_lt (continuous_apply 0) continuous_const)
  haveI : IsProbabilityMeasure (cond volume {v : Lip.Pt 1 | Feasible segment (fun _ => 0) v}) := by
    rw [hSe]; exact cond_isProbabilityMeasure_of_finite (by rw [hvol]; simp) (by rw [hvol]; simp)
  refine fillEstimate_almost_sure (beq := fun _ => 0) hX hs hq ?_ ?_ (by simp) (segment_fill _) (segment_fast sort qr _) rfl (by simp [segment])
  · have : MeasurableSet {v : Lip.Pt 1 | Feasible segment (fun _ => 0) v} := by rw [hSe]; exact measurableSet_Icc
    exact ae_cond_mem this
  · intro a ha U hU haU
    have hc : Convex ℝ {v : Lip.Pt 1 | Feasible segment (fun _ => 0) v} := by rw [hSe]; exact convex_Icc _ _
    exact Lip.uniform_charges hc (by rw [hSe]; exact hi) (by rw [hSe, hvol]; simp) ha hU haU

/-! ## Without the provision -/

/-- Coordinates of the pass from a point of `[-1, 1]` with the metric `1e-4` and the samples `-1` and `1`: every result is near a sample. -/
theorem tiny_step {sort : SortBy 1} (hs : sort.Sorts) {qr : QRcols 1} (hq : qr.Exact) {x y : Lip.Pt 1} (hx : -1 ≤ x 0 ∧ x 0 ≤ 1)
    (h : vstep sort qr segment ((1 / 10 ^ 4 : ℝ) • (1 : Matrix (Fin 1) (Fin 1) ℝ)) false [pt1 (-1), pt1 1] 0 0 x = .ok y) :
    ∃ s ∈ [pt1 (-1), pt1 1], |s 0 - y 0| ≤ 1 / 100 := by
  set L := (1 / 10 ^ 4 : ℝ) • (1 : Matrix (Fin 1) (Fin 1) ℝ) with hL
  have hmul : ∀ v : Lip.Pt 1, L *ᵥ v = (1 / 10 ^ 4 : ℝ) • v := fun v => by rw [hL, Matrix.smul_mulVec, Matrix.one_mulVec]
  have hgram : ∀ v : Lip.Pt 1, (Lᵀ * L) *ᵥ v = (1 / 10 ^ 8 : ℝ) • v := fun v => by
    rw [hL, Matrix.transpose_smul, Matrix.transpose_one, Matrix.smul_mul, Matrix.one_mul, smul_smul, Matrix.smul_mulVec, Matrix.one_mulVec]; norm_num
  obtain ⟨h1, h2⟩ := hs (fun y => Lip.ldist L x y) [pt1 (-1), pt1 1]
  rcases e : sort (fun y => Lip.ldist L x y) [pt1 (-1), pt1 1] with _ | ⟨near, rest⟩
  · rw [e] at h1; simp at h1
  rw [e] at h1 h2
  have hn : near ∈ [pt1 (-1), pt1 1] := h1.mem_iff.1 (by simp)
  have hclose : ∀ z ∈ [pt1 (-1), pt1 1], |x 0 - near 0| ≤ |x 0 - z 0| := by
    intro z hz
    rcases List.mem_cons.1 (h1.mem_iff.2 hz) with rfl | hz
    · exact le_rfl
    · have := (List.pairwise_cons.1 h2).1 _ hz
      rw [hL, ldist1, ldist1, abs_mul, abs_mul] at this
      exact le_of_mul_le_mul_left this (by norm_num)
  obtain ⟨s, hs1, rfl⟩ : ∃ s : ℝ, (s = -1 ∨ s = 1) ∧ near = pt1 s := by
    simp only [List.mem_cons, List.not_mem_nil, or_false] at hn
    rcases hn with rfl | rfl
    · exact ⟨-1, .inl rfl, rfl⟩
    · exact ⟨1, .inr rfl, rfl⟩
  simp only [vstep] at h
  rw [e] at h
  simp only at h
  rw [if_neg (by simp [segment])] at h
  simp only [Except.ok.injEq] at h
  set cols := nullCols segment L 0 (pt1 s) rest x with hcols
  set g := (Lᵀ * L) *ᵥ (x - pt1 s) with hg
  have hg0 : g 0 = 1 / 10 ^ 8 * (x 0 - s) := by rw [hg, hgram]; simp [pt1]
  have stay : (stepLength segment L [pt1 (-1), pt1 1] (pt1 s) x (direction qr false 0 cols g) • direction qr false 0 cols g) 0 = 0 →
      |pt1 s 0 - x 0| ≤ 1 / 100 → ∃ s ∈ [pt1 (-1), pt1 1], |s 0 - y 0| ≤ 1 / 100 := by
    intro h0 hle
    refine ⟨pt1 s, hn, ?_⟩
    rw [← h, Pi.add_apply, h0, add_zero]; exact hle
  have hx2 : ∀ z : ℝ, |x 0 - s| ≤ 2 := fun _ => by rw [abs_le]; rcases hs1 with rfl | rfl <;> constructor <;> linarith [hx.1, hx.2]
  by_cases hc : cols = []
  · have hdir : direction qr false 0 cols g = g := by rw [direction, if_pos hc]
    rw [hdir] at h stay
    have hplane : ∀ z : ℝ, |z| ≤ 1 → planeStep L (pt1 s) (pt1 z) x g = none := by
      intro z hz
      simp only [planeStep, hmul]
      rw [if_pos]
      simp only [dotProduct, Fin.sum_univ_one, Pi.smul_apply, Pi.sub_apply, pt1, smul_eq_mul, atol, hg0]
      have hzs : |z - s| ≤ 2 := by
        rw [abs_le] at hz ⊢; rcases hs1 with rfl | rfl <;> constructor <;> linarith [hz.1, hz.2]
      have : 1 / 10 ^ 4 * (z - s) * (1 / 10 ^ 4 * (1 / 10 ^ 8 * (x 0 - s))) = 1 / 10 ^ 16 * ((z - s) * (x 0 - s)) := by ring
      rw [this, abs_mul, abs_mul]
      have h4 : |z - s| * |x 0 - s| ≤ 2 * 2 := mul_le_mul hzs (hx2 0) (abs_nonneg _) (by norm_num)
      rw [abs_of_pos (show (0 : ℝ) < 1 / 10 ^ 16 by norm_num)]
      calc 1 / 10 ^ 16 * (|z - s| * |x 0 - s|) ≤ 1 / 10 ^ 16 * (2 * 2) := mul_le_mul_of_nonneg_left h4 (by norm_num)
        _ ≤ 1 / 10 ^ 8 := by norm_num
    have hst : stepLength segment L [pt1 (-1), pt1 1] (pt1 s) x g = (minStep (wallStep (fun _ => 1, 1) x g) (wallStep (fun _ => -1, 1) x g)).getD 0 := by
      simp only [stepLength, segment, List.map_cons, List.map_nil, List.foldl_cons, List.foldl_nil, hplane (-1) (by norm_num), hplane 1 (by norm_num)]
      rfl
    by_cases hsm : |x 0 - s| < 1 / 100
    · have hz : ∀ i, |g i| < 1 / 10 ^ 10 := by
        intro i
        rw [Subsingleton.elim i 0, hg0, abs_mul, abs_of_pos (show (0 : ℝ) < 1 / 10 ^ 8 by norm_num)]
        calc 1 / 10 ^ 8 * |x 0 - s| < 1 / 10 ^ 8 * (1 / 100) := mul_lt_mul_of_pos_left hsm (by norm_num)
          _ = 1 / 10 ^ 10 := by norm_num
      refine stay ?_ ?_
      · rw [hst]
        simp only [wallStep, if_pos hz]
        simp [minStep]
      · rw [abs_sub_comm]; exact hsm.le
    · have hz : ¬∀ i, |g i| < 1 / 10 ^ 10 := by
        intro hz
        have := hz 0
        rw [hg0, abs_mul, abs_of_pos (show (0 : ℝ) < 1 / 10 ^ 8 by norm_num)] at this
        apply hsm
        by_contra hge
        have h5 : 1 / 10 ^ 8 * (1 / 100) ≤ 1 / 10 ^ 8 * |x 0 - s| := mul_le_mul_of_nonneg_left (not_lt.1 hge) (by norm_num)
        norm_num at this h5
        linarith
      have hnc : x 0 < 1 ∧ -1 < x 0 := by
        rw [hcols] at hc
        simp only [nullCols, segment, List.nil_append, List.take_zero, List.filter_nil, List.map_nil, List.append_nil, List.map_eq_nil_iff, List.filter_eq_nil_iff,
          List.mem_cons, List.not_mem_nil, or_false, forall_eq_or_imp, forall_eq, decide_eq_true_eq, isClose, atol, dotProduct, Fin.sum_univ_one] at hc
        refine ⟨lt_of_le_of_ne hx.2 fun e => hc.1 ?_, lt_of_le_of_ne hx.1 fun e => hc.2 ?_⟩
        · rw [e]; norm_num
        · rw [← e]; norm_num
      have hw : ∀ a : ℝ, wallStep (fun _ => a, 1) x g =
          if a * g 0 = 0 then none else if (1 - a * x 0) / (a * g 0) ≤ 0 then none else some ((1 - a * x 0) / (a * g 0)) := by
        intro a
        simp only [wallStep, if_neg hz, dotProduct, Fin.sum_univ_one]
      have hy : y 0 = x 0 + stepLength segment L [pt1 (-1), pt1 1] (pt1 s) x g * g 0 := by rw [← h]; rfl
      rw [hst, hw, hw] at hy
      rcases hs1 with rfl | rfl
      · have gp : 0 < g 0 := by rw [hg0]; exact mul_pos (by norm_num) (by linarith [hnc.2])
        rw [if_neg (by simpa using gp.ne'), if_neg (not_le.2 (div_pos (by linarith [hnc.1]) (by linarith))), if_neg (by simpa using gp.ne'),
          if_pos (div_nonpos_of_nonneg_of_nonpos (by linarith [hnc.2]) (by linarith))] at hy
        simp only [minStep, Option.getD_some] at hy
        refine ⟨pt1 1, by simp, ?_⟩
        have : y 0 = 1 := by rw [hy]; field_simp; ring
        rw [this]; norm_num [pt1]
      · have gp : g 0 < 0 := by rw [hg0]; exact mul_neg_of_pos_of_neg (by norm_num) (by linarith [hnc.1])
        rw [if_neg (by simpa using gp.ne), if_pos (div_nonpos_of_nonneg_of_nonpos (by linarith [hnc.1]) (by linarith)), if_neg (by simpa using gp.ne),
          if_neg (not_le.2 (div_pos (by linarith [hnc.2]) (by linarith)))] at hy
        simp only [minStep, Option.getD_some] at hy
        refine ⟨pt1 (-1), by simp, ?_⟩
        have : y 0 = -1 := by rw [hy]; have := gp.ne; field_simp; ring
        rw [this]; norm_num [pt1]
  · obtain ⟨c, hcm⟩ := List.exists_mem_of_ne_nil _ hc
    obtain ⟨q1, q2, q3⟩ := hq cols
    have ho := projOut_span q1 q2 g (q3 c hcm)
    have hdir : direction qr false 0 cols g = projOut (qr cols) g := by rw [direction, if_neg hc, if_neg (by simp)]
    rw [hcols] at hcm
    simp only [nullCols, segment, List.nil_append, List.take_zero, List.filter_nil, List.map_nil, List.append_nil, List.mem_map, List.mem_filter,
      List.mem_cons, List.not_mem_nil, or_false, decide_eq_true_eq, isClose, atol] at hcm
    obtain ⟨r, ⟨hr, hcl⟩, rfl⟩ := hcm
    have hzero : projOut (qr cols) g 0 = 0 ∧ |x 0 - s| ≤ 1 / 100 := by
      rcases hr with rfl | rfl
      · simp only [dotProduct, Fin.sum_univ_one, one_mul] at ho hcl
        refine ⟨ho, (hclose (pt1 1) (by simp)).trans ?_⟩
        refine (of_decide_eq_true hcl).trans ?_
        norm_num
      · simp only [dotProduct, Fin.sum_univ_one, neg_mul, one_mul, neg_eq_zero] at ho hcl
        refine ⟨ho, (hclose (pt1 (-1)) (by simp)).trans ?_⟩
        have e2 : |x 0 - pt1 (-1) 0| = |-x 0 - 1| := by rw [← abs_neg]; congr 1; simp only [pt1]; ring
        rw [e2]
        refine (of_decide_eq_true hcl).trans ?_
        norm_num
    refine stay ?_ ?_
    · rw [hdir, Pi.smul_apply, hzero.1, smul_zero]
    · rw [abs_sub_comm]; exact hzero.2

/-- **C184**, without the provision: with the metric `1e-4` on `[-1, 1]` and the samples `-1` and `1` every start is moved next to a sample, so no number of
starting points brings the estimate above `1e-6`, while the fill distance is `1e-4`. -/
theorem fillEstimate_limit_false {sort : SortBy 1} (hs : sort.Sorts) {qr : QRcols 1} (hq : qr.Exact) (beq : Lip.Pt 1 → ℝ) :
    (∀ X0 : List (Lip.Pt 1), (∀ x ∈ X0, Feasible segment beq x) → ∀ d,
      fillEstimate sort qr segment ((1 / 10 ^ 4 : ℝ) • (1 : Matrix (Fin 1) (Fin 1) ℝ)) [pt1 (-1), pt1 1] X0 = .ok d → d ≤ 1 / 10 ^ 6) ∧
      IsFillDistance segment beq ((1 / 10 ^ 4 : ℝ) • (1 : Matrix (Fin 1) (Fin 1) ℝ)) [pt1 (-1), pt1 1] (1 / 10 ^ 4) := by
  have hp := passes1 (show (1 / 10 ^ 4 : ℝ) ≠ 0 by norm_num) false
  constructor
  · intro X0 hX d h
    simp only [fillEstimate] at h
    split at h
    · simp at h
    · simp at h
    · rename_i V hV hok
      simp only [Except.ok.injEq] at h
      obtain ⟨v, hv, e⟩ := fillOver_mem ((1 / 10 ^ 4 : ℝ) • (1 : Matrix (Fin 1) (Fin 1) ℝ)) [pt1 (-1), pt1 1] (V := V) (fun e => hV (by rw [e]))
      rw [vertexSample, if_neg (by simp [segment]), hp] at hok
      obtain ⟨p, hpm, ep⟩ := forall₂_right (mapE_ok hok) v hv
      obtain ⟨x, hx, rfl⟩ := List.mem_map.1 hpm
      simp only [vpasses] at ep
      obtain ⟨z, hz, hle⟩ := tiny_step hs hq ((segment_feasible beq x).1 (hX x hx)) ep
      rw [← h, e]
      refine (nearest_le _ hz v).trans ?_
      rw [ldist1, abs_mul, abs_of_pos (show (0 : ℝ) < 1 / 10 ^ 4 by norm_num)]
      calc 1 / 10 ^ 4 * |z 0 - v 0| ≤ 1 / 10 ^ 4 * (1 / 100) := mul_le_mul_of_nonneg_left hle (by norm_num)
        _ = 1 / 10 ^ 6 := by norm_num
  · refine IsGreatest.isLUB ⟨⟨pt1 0, (segment_feasible beq _).2 (by norm_num [pt1]), ?_⟩, ?_⟩
    · obtain ⟨z, hz, e⟩ := nearest_mem ((1 / 10 ^ 4 : ℝ) • (1 : Matrix (Fin 1) (Fin 1) ℝ)) (X := [pt1 (-1), pt1 1]) (by simp) (pt1 0)
      rw [e, ldist1]
      simp only [List.mem_cons, List.not_mem_nil, or_false] at hz
      rcases hz with rfl | rfl
      · simp only [pt1]; rw [abs_of_neg (by norm_num)]; norm_num
      · simp only [pt1]; rw [abs_of_pos (by norm_num)]; norm_num
    · rintro d ⟨v, hv, rfl⟩
      have hv := (segment_feasible beq v).1 hv
      obtain ⟨z, hz, hle⟩ : ∃ z ∈ [pt1 (-1), pt1 1], |z 0 - v 0| ≤ 1 := by
        rcases le_total (v 0) 0 with h0 | h0
        · exact ⟨pt1 (-1), by simp, by simp only [pt1]; rw [abs_le]; constructor <;> linarith [hv.1]⟩
        · exact ⟨pt1 1, by simp, by simp only [pt1]; rw [abs_le]; constructor <;> linarith [hv.2]⟩
      refine (nearest_le _ hz v).trans ?_
      rw [ldist1, abs_mul, abs_of_pos (show (0 : ℝ) < 1 / 10 ^ 4 by norm_num)]
      calc 1 / 10 ^ 4 * |z 0 - v 0| ≤ 1 / 10 ^ 4 * 1 := mul_le_mul_of_nonneg_left hle (by norm_num)
        _ = 1 / 10 ^ 4 := by norm_num

end Verif.Geo
