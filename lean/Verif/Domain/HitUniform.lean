import Verif.Domain.HitLaw
import Mathlib.Analysis.Convex.Measure
import Mathlib.MeasureTheory.Measure.Haar.OfBasis
import Mathlib.MeasureTheory.Measure.Lebesgue.EqHaar
import Mathlib.Probability.Kernel.Composition.MeasureComp

/-!
# Hit-and-run keeps the uniform distribution of linear and quadratic domains, and does not start from it (C119)
-/

namespace Verif.Domain

open MeasureTheory Set Classical
open scoped ENNReal

/-! ## The set described by a domain -/

theorem cont_dot {n : ℕ} (row : Vec) : Continuous (fun x : Fin n → ℝ => Vec.dot row (List.ofFn x)) := by
  induction n generalizing row with
  | zero => simp only [List.ofFn_zero]; exact continuous_const
  | succ n ih =>
    cases row with
    | nil => simp only [Vec.dot_nil_left]; exact continuous_const
    | cons a row =>
      simp only [List.ofFn_succ, Vec.dot, List.zipWith_cons_cons, List.sum_cons]
      refine (continuous_const.mul (continuous_apply 0)).add ?_
      exact (ih row).comp (continuous_pi fun i => continuous_apply i.succ)

theorem ofFn_sub {n : ℕ} (x : Fin n → ℝ) {y : Vec} (hy : y.length = n) :
    Vec.sub (List.ofFn x) y = List.ofFn (fun i => x i - y.getD i 0) := by
  unfold Vec.sub
  apply List.ext_getElem
  · simp [hy]
  · intro i h1 h2
    simp only [List.length_zipWith, List.length_ofFn] at h1
    have : i < y.length := by omega
    simp [List.getElem?_eq_getElem this]

theorem cont_quad {n : ℕ} (L : List Vec) {y : Vec} (hy : y.length = n) :
    Continuous (fun x : Fin n → ℝ => Vec.norm (Vec.mulVec L (Vec.sub (List.ofFn x) y))) := by
  unfold Vec.norm
  refine Real.continuous_sqrt.comp ?_
  have hc : ∀ row : Vec, Continuous (fun x : Fin n → ℝ => Vec.dot row (Vec.sub (List.ofFn x) y)) := by
    intro row
    simp only [ofFn_sub _ hy]
    exact (cont_dot row).comp (continuous_pi fun i => (continuous_apply i).sub continuous_const)
  unfold Vec.sumSq Vec.mulVec
  induction L with
  | nil => simp only [List.map_nil, List.sum_nil]; exact continuous_const
  | cons r L ih =>
    simp only [List.map_cons, List.sum_cons]
    refine Continuous.add ?_ ih
    have := hc r
    fun_prop

/-- The set of points satisfying linear and quadratic constraints is closed. -/
theorem lq_closed {q : LQ} (hw : q.WF) : IsClosed {x : Fin q.n → ℝ | q.Holds (List.ofFn x)} := by
  have e : {x : Fin q.n → ℝ | q.Holds (List.ofFn x)} =
      (⋂ (i : Fin q.n) (r : ℝ) (_ : q.lb[(i : ℕ)]? = some (XR.fin r)), {x : Fin q.n → ℝ | r ≤ x i}) ∩
      (⋂ (i : Fin q.n) (r : ℝ) (_ : q.ub[(i : ℕ)]? = some (XR.fin r)), {x : Fin q.n → ℝ | x i ≤ r}) ∩
      (⋂ (i : ℕ) (row : Vec) (bi : ℝ) (_ : q.A[i]? = some row) (_ : q.b[i]? = some bi), {x : Fin q.n → ℝ | Vec.dot row (List.ofFn x) ≤ bi}) ∩
      (⋂ (i : ℕ) (row : Vec) (bi : ℝ) (_ : q.Aeq[i]? = some row) (_ : q.beq[i]? = some bi),
        {x : Fin q.n → ℝ | Vec.dot row (List.ofFn x) = bi}) ∩
      (⋂ (i : ℕ) (L : List Vec) (y : Vec) (rho : ℝ) (_ : q.Ls[i]? = some L) (_ : q.ys[i]? = some y) (_ : q.rhos[i]? = some rho),
        {x : Fin q.n → ℝ | Vec.norm (Vec.mulVec L (Vec.sub (List.ofFn x) y)) ≤ rho}) := by
    ext x
    simp only [mem_ofPred_eq, mem_inter_iff, mem_iInter]
    constructor
    · intro h
      refine ⟨⟨⟨⟨fun i r hr => ?_, fun i r hr => ?_⟩, h.ineq⟩, h.eq⟩, h.quad⟩
      · exact h.lb i r (x i) hr (by simp)
      · exact h.ub i r (x i) hr (by simp)
    · rintro ⟨⟨⟨⟨h1, h2⟩, h3⟩, h4⟩, h5⟩
      refine ⟨fun i r xi hr hx => ?_, fun i r xi hr hx => ?_, h3, h4, h5⟩
      · rw [List.getElem?_ofFn] at hx
        split at hx
        · rename_i hi
          cases hx
          exact h1 ⟨i, hi⟩ r hr
        · cases hx
      · rw [List.getElem?_ofFn] at hx
        split at hx
        · rename_i hi
          cases hx
          exact h2 ⟨i, hi⟩ r hr
        · cases hx
  rw [e]
  refine (((IsClosed.inter ?_ ?_).inter ?_).inter ?_).inter ?_
  · exact isClosed_iInter fun i => isClosed_iInter fun r => isClosed_iInter fun _ => isClosed_le continuous_const (continuous_apply i)
  · exact isClosed_iInter fun i => isClosed_iInter fun r => isClosed_iInter fun _ => isClosed_le (continuous_apply i) continuous_const
  · exact isClosed_iInter fun i => isClosed_iInter fun r => isClosed_iInter fun _ => isClosed_iInter fun _ => isClosed_iInter fun _ =>
      isClosed_le (cont_dot _) continuous_const
  · exact isClosed_iInter fun i => isClosed_iInter fun r => isClosed_iInter fun _ => isClosed_iInter fun _ => isClosed_iInter fun _ =>
      isClosed_eq (cont_dot _) continuous_const
  · refine isClosed_iInter fun i => isClosed_iInter fun L => isClosed_iInter fun y => isClosed_iInter fun rho => isClosed_iInter fun _ =>
      isClosed_iInter fun hy => isClosed_iInter fun _ => isClosed_le (cont_quad _ ?_) continuous_const
    exact hw.ys_w y (List.mem_of_getElem? hy)

theorem pts_convex (D : Dom) : Convex ℝ D.pts := by
  intro x hx y hy a b ha hb hab
  have := dom_holds_convex hx hy hb (by linarith : b ≤ 1)
  have e : Vec.lerp b (List.ofFn x) (List.ofFn y) = List.ofFn (a • x + b • y) := by
    unfold Vec.lerp Vec.add Vec.smul
    rw [show 1 - b = a by linarith]
    apply List.ext_getElem
    · simp
    · intro i h1 h2
      simp
  rw [e] at this
  exact this

/-- A domain given by linear and quadratic inequalities. -/
structure Smooth (d : Base) : Prop where
  kind : (∃ q, d = .linquad q) ∨ ∃ q, d = .linineq q
  noeq : d.acc.Aeq = []

theorem smooth_acc {d : Base} (hd : Smooth d) (hw : d.WF) : d.acc.WF ∧ d.acc.n = d.len := by
  rcases hd.kind with ⟨q, rfl⟩ | ⟨q, rfl⟩
  · exact ⟨hw, rfl⟩
  · exact ⟨base_wf_acc hw, rfl⟩

theorem smooth_pts {d : Base} (hd : Smooth d) (x : Fin (Dom.base d).len → ℝ) : x ∈ (Dom.base d).pts ↔ d.acc.Holds (List.ofFn x) := by
  constructor
  · intro h; exact h.2.1
  · intro h
    refine ⟨List.length_ofFn, h, fun X q e => ?_⟩
    rcases hd.kind with ⟨q', rfl⟩ | ⟨q', rfl⟩ <;> cases e

theorem smooth_closed {d : Base} (hd : Smooth d) (hw : d.WF) : IsClosed (Dom.base d).pts := by
  obtain ⟨h1, h2⟩ := smooth_acc hd hw
  have : (Dom.base d).pts = {x : Fin d.acc.n → ℝ | d.acc.Holds (List.ofFn x)} := by
    ext x
    exact smooth_pts hd x
  rw [this]
  exact lq_closed h1

theorem moves_of_interior {n : ℕ} {K : Set (Fin n → ℝ)} {x : Fin n → ℝ} (hx : x ∈ interior K) (v : Fin n → ℝ) :
    ∃ t : ℝ, 0 < t ∧ x + t • v ∈ K := by
  have hc : Continuous (fun t : ℝ => x + t • v) := by fun_prop
  have h0 : (fun t : ℝ => x + t • v) ⁻¹' interior K ∈ nhds (0 : ℝ) := by
    apply hc.continuousAt.preimage_mem_nhds
    simp only [zero_smul, add_zero]
    exact isOpen_interior.mem_nhds hx
  obtain ⟨ε, he, hb⟩ := Metric.mem_nhds_iff.1 h0
  refine ⟨ε / 2, by positivity, interior_subset (hb ?_)⟩
  simp only [Metric.mem_ball, Real.dist_eq, sub_zero]
  rw [abs_of_pos (by positivity)]
  linarith

/-- Points in the interior can be moved along every direction, and extents are exact there. -/
theorem movable_of_interior {tol : ℝ} {d : Base} (hd : Smooth d) (hw : d.WF) {x : Fin (Dom.base d).len → ℝ} (hx : x ∈ interior (Dom.base d).pts)
    (v : Fin (Dom.base d).len → ℝ) : Movable tol (Dom.base d) v x := by
  have hxK := interior_subset hx
  have hxH := (smooth_pts hd x).1 hxK
  obtain ⟨hwa, hlen⟩ := smooth_acc hd hw
  refine ⟨fun c hc => ⟨?_, Or.inl ?_, ?_⟩, fun c hc => ⟨?_, ?_⟩, moves_of_interior hx v⟩
  · intro i row bi hr hb he
    by_contra hcon
    push Not at hcon
    obtain ⟨t, ht, hm⟩ := moves_of_interior hx (c • v)
    have := ((smooth_pts hd _).1 hm).ineq i row bi hr hb
    rw [← ofFn_step, Vec.dot_step _ _ _ _ (by simp), he] at this
    nlinarith
  · intro row hrow
    rw [hd.noeq] at hrow
    cases hrow
  · intro X q e
    rcases hd.kind with ⟨q', rfl⟩ | ⟨q', rfl⟩ <;> cases e
  · intro i L y rho hL hy hr
    have hle := hxH.quad i L y rho hL hy hr
    refine lt_of_le_of_ne hle fun heq => ?_
    have hyl : y.length = (Dom.base d).len := by
      show y.length = d.len
      rw [← hlen]; exact hwa.ys_w y (List.mem_of_getElem? hy)
    have hrho : 0 < rho := hwa.rhos_pos rho (List.mem_of_getElem? hr)
    obtain ⟨t, ht, hm⟩ := moves_of_interior hx (fun i => x i - y.getD i 0)
    have h2 := ((smooth_pts hd _).1 hm).quad i L y rho hL hy hr
    have e : Vec.sub (List.ofFn (x + t • fun i => x i - y.getD i 0)) y = Vec.smul (1 + t) (Vec.sub (List.ofFn x) y) := by
      rw [ofFn_sub _ hyl, ofFn_sub _ hyl, ofFn_smul]
      congr 1
      funext i
      simp only [Pi.add_apply, Pi.smul_apply, smul_eq_mul]
      ring
    have em : Vec.mulVec L (Vec.smul (1 + t) (Vec.sub (List.ofFn x) y)) = Vec.smul (1 + t) (Vec.mulVec L (Vec.sub (List.ofFn x) y)) := by
      unfold Vec.mulVec Vec.smul
      simp only [List.map_map]
      congr 1
      funext r
      exact Vec.dot_smul_right r (1 + t) _
    rw [e, em, norm_smul_vec, heq, abs_of_pos (by linarith)] at h2
    nlinarith
  · intro c' e
    rcases hd.kind with ⟨q', rfl⟩ | ⟨q', rfl⟩ <;> cases e

theorem chord_finite {n : ℕ} {K : Set (Fin n → ℝ)} (hK : Bornology.IsBounded K) {u : Fin n → ℝ} (hu : u ≠ 0) (x : Fin n → ℝ) :
    chord K u x < ∞ := by
  obtain ⟨R, hR⟩ := hK.exists_norm_le
  have hpos : 0 < ‖u‖ := norm_pos_iff.2 hu
  unfold chord
  refine lt_of_le_of_lt (measure_mono (t := Icc (-((R + ‖x‖) / ‖u‖)) ((R + ‖x‖) / ‖u‖)) fun t ht => ?_) measure_Icc_lt_top
  have h1 := hR _ ht
  have h2 : ‖t • u‖ ≤ R + ‖x‖ := by
    calc ‖t • u‖ = ‖(x + t • u) - x‖ := by rw [add_sub_cancel_left]
      _ ≤ ‖x + t • u‖ + ‖x‖ := norm_sub_le _ _
      _ ≤ R + ‖x‖ := by linarith
  rw [norm_smul, Real.norm_eq_abs] at h2
  have : |t| ≤ (R + ‖x‖) / ‖u‖ := by rwa [le_div_iff₀ hpos]
  exact abs_le.1 this

/-! ## One call -/

/-- The direction of a random vector. -/
noncomputable def dirOf {n : ℕ} (v : Fin n → ℝ) : Fin n → ℝ := (1 / Vec.norm (List.ofFn v)) • v

theorem measurable_dirOf {n : ℕ} : Measurable (dirOf : (Fin n → ℝ) → Fin n → ℝ) := by
  have h : Measurable (fun v : Fin n → ℝ => Vec.norm (List.ofFn v)) := by
    unfold Vec.norm Vec.sumSq
    simp only [List.map_ofFn, List.sum_ofFn, Function.comp]
    fun_prop
  unfold dirOf
  exact Measurable.smul (measurable_const.div h) measurable_id

theorem norm_ofFn_pos {n : ℕ} {v : Fin n → ℝ} (hv0 : v ≠ 0) : 0 < Vec.norm (List.ofFn v) := by
  unfold Vec.norm Vec.sumSq
  apply Real.sqrt_pos.2
  obtain ⟨i, hi⟩ := Function.ne_iff.1 hv0
  simp only [List.map_ofFn, List.sum_ofFn]
  refine Finset.sum_pos' (fun j _ => ?_) ⟨i, Finset.mem_univ _, ?_⟩
  · simp only [Function.comp]; positivity
  · simp only [Function.comp]
    have : v i ≠ 0 := hi
    positivity

theorem dirOf_ne {n : ℕ} {v : Fin n → ℝ} (hv0 : v ≠ 0) : dirOf v ≠ 0 := by
  have := norm_ofFn_pos hv0
  unfold dirOf
  exact smul_ne_zero (by positivity) hv0

section
variable {nnls : NNLS} (hn : SolvesConsistent nnls) {TOL tol : ℝ} (ht : 0 < TOL) (htol : 0 < tol) {he : HullExtent}
  (hh : HullExtentExact he) (fb : CornerOracle) {d : Base} (hd : Smooth d) (hw : d.WF) (hb : Bornology.IsBounded (Dom.base d).pts)
  {S : Solver} {e : Option Bool} (hemp : e ≠ some true)
include hn ht htol hh hd hw hb hemp

theorem hit_out_smooth {v x : Fin (Dom.base d).len → ℝ} (hv0 : v ≠ 0) (hx : x ∈ interior (Dom.base d).pts) :
    ∃ lo hi : ℝ, (∀ t : ℝ, x + t • dirOf v ∈ (Dom.base d).pts ↔ lo ≤ t ∧ t ≤ hi) ∧
      ∀ w ∈ Icc (0 : ℝ) 1, (Dom.base d).hitFrom nnls TOL tol he fb [] S e (List.ofFn v) w x =
        if 1 / 10 ^ 7 < hi - lo then some (List.ofFn (x + (lo + (hi - lo) * w) • dirOf v)) else none := by
  refine hit_out hn ht htol hh fb (D := .base d) hw ?_ (by simp) ?_ hemp (projOut_nil _) hv0 (interior_subset hx)
    (movable_of_interior hd hw hx v) (chord_finite hb (dirOf_ne hv0) x)
  · rcases hd.kind with ⟨q, rfl⟩ | ⟨q, rfl⟩ <;> simp [Dom.hasUnbounded]
  · intro c h
    rcases hd.kind with ⟨q, rfl⟩ | ⟨q, rfl⟩ <;> cases h

end

/-- The probability that a call of `_hit_and_run` on a domain standing at `x` draws the vector `v`, accepts it and moves into `B`, given that
`v` is drawn (the random number of the unit interval remains random). -/
noncomputable def hitProb (nnls : NNLS) (TOL tol : ℝ) (he : HullExtent) (fb : CornerOracle) (D : Dom) (S : Solver) (e : Option Bool)
    (B : Set (Fin D.len → ℝ)) (v x : Fin D.len → ℝ) : ℝ≥0∞ :=
  volume {w : ℝ | w ∈ Icc (0 : ℝ) 1 ∧ ∃ y ∈ B, D.hitFrom nnls TOL tol he fb [] S e (List.ofFn v) w x = some (List.ofFn y)}

/-- The chord of the domain through `x` in the direction of `v` is longer than `1e-7`, so that `v` is accepted. -/
def Dom.Long (D : Dom) (v x : Fin D.len → ℝ) : Prop := ENNReal.ofReal (1 / 10 ^ 7) < chord D.pts (dirOf v) x

/-- `hitProb` in terms of chords. -/
noncomputable def hitMass (D : Dom) (B : Set (Fin D.len → ℝ)) (v x : Fin D.len → ℝ) : ℝ≥0∞ :=
  if D.Long v x then (chord D.pts (dirOf v) x)⁻¹ * volume {t : ℝ | x + t • dirOf v ∈ D.pts ∩ B} else 0

theorem hitMass_le_one (D : Dom) (B : Set (Fin D.len → ℝ)) (v x : Fin D.len → ℝ) : hitMass D B v x ≤ 1 := by
  unfold hitMass
  split
  · refine le_trans (mul_le_mul_right (measure_mono fun t ht => ?_) _) (ENNReal.inv_mul_le_one (chord D.pts (dirOf v) x))
    exact ht.1
  · exact zero_le_one

theorem measurable_section {n : ℕ} {C : Set (Fin n → ℝ)} (hC : MeasurableSet C) :
    Measurable (fun q : (Fin n → ℝ) × (Fin n → ℝ) => volume {t : ℝ | q.2 + t • dirOf q.1 ∈ C}) := by
  have hm : Measurable (fun r : ((Fin n → ℝ) × (Fin n → ℝ)) × ℝ => r.1.2 + r.2 • dirOf r.1.1) :=
    (measurable_snd.comp measurable_fst).add (measurable_snd.smul (measurable_dirOf.comp (measurable_fst.comp measurable_fst)))
  exact measurable_measure_prodMk_left (ν := (volume : Measure ℝ)) (hm hC)

theorem measurable_long {D : Dom} (hK : MeasurableSet D.pts) : MeasurableSet {q : (Fin D.len → ℝ) × (Fin D.len → ℝ) | D.Long q.1 q.2} :=
  measurable_section hK measurableSet_Ioi

theorem measurable_hitMass {D : Dom} (hK : MeasurableSet D.pts) {B : Set (Fin D.len → ℝ)} (hB : MeasurableSet B) :
    Measurable (fun q : (Fin D.len → ℝ) × (Fin D.len → ℝ) => hitMass D B q.1 q.2) := by
  unfold hitMass
  exact Measurable.ite (measurable_long hK) ((measurable_section hK).inv.mul (measurable_section (hK.inter hB))) measurable_const

section
variable {nnls : NNLS} (hn : SolvesConsistent nnls) {TOL tol : ℝ} (ht : 0 < TOL) (htol : 0 < tol) {he : HullExtent}
  (hh : HullExtentExact he) (fb : CornerOracle) {d : Base} (hd : Smooth d) (hw : d.WF) (hb : Bornology.IsBounded (Dom.base d).pts)
  {S : Solver} {e : Option Bool} (hemp : e ≠ some true)
include hn ht htol hh hd hw hb hemp

theorem hitProb_eq {v x : Fin (Dom.base d).len → ℝ} (hv0 : v ≠ 0) (hx : x ∈ interior (Dom.base d).pts)
    {B : Set (Fin (Dom.base d).len → ℝ)} (hB : MeasurableSet B) :
    hitProb nnls TOL tol he fb (.base d) S e B v x = hitMass (.base d) B v x := by
  obtain ⟨lo, hi, hline, hout⟩ := hit_out_smooth hn ht htol hh fb hd hw hb (S := S) hemp hv0 hx
  have hset : {t : ℝ | x + t • dirOf v ∈ (Dom.base d).pts} = Icc lo hi := by ext t; exact hline t
  have hch : chord (Dom.base d).pts (dirOf v) x = ENNReal.ofReal (hi - lo) := by
    unfold chord
    rw [hset, Real.volume_Icc]
  have hiff : (Dom.base d).Long v x ↔ 1 / 10 ^ 7 < hi - lo := by
    unfold Dom.Long
    rw [hch, ENNReal.ofReal_lt_ofReal_iff_of_nonneg (by norm_num)]
  unfold hitProb hitMass
  by_cases hl : 1 / 10 ^ 7 < hi - lo
  · rw [if_pos (hiff.2 hl), ← chord_draw hB (by norm_num at hl; linarith) hline]
    congr 1
    ext w
    simp only [mem_ofPred_eq]
    refine and_congr_right fun hw => ?_
    rw [hout w hw, if_pos hl]
    constructor
    · rintro ⟨y, hy, he⟩
      rw [Option.some.injEq, List.ofFn_inj] at he
      rw [he]; exact hy
    · intro h
      exact ⟨_, h, rfl⟩
  · rw [if_neg (fun h => hl (hiff.1 h))]
    have : {w : ℝ | w ∈ Icc (0 : ℝ) 1 ∧ ∃ y ∈ B, (Dom.base d).hitFrom nnls TOL tol he fb [] S e (List.ofFn v) w x = some (List.ofFn y)} = ∅ := by
      ext w
      simp only [mem_ofPred_eq, mem_empty_iff_false, iff_false]
      rintro ⟨hw, y, _, he⟩
      rw [hout w hw, if_neg hl] at he
      cases he
    rw [this, measure_empty]

omit hn ht htol hh hb hemp in
theorem ae_interior : ∀ᵐ x ∂(volume : Measure (Fin (Dom.base d).len → ℝ)), x ∈ (Dom.base d).pts → x ∈ interior (Dom.base d).pts := by
  have h := (pts_convex (Dom.base d)).addHaar_frontier (volume : Measure (Fin (Dom.base d).len → ℝ))
  rw [measure_eq_zero_iff_ae_notMem] at h
  filter_upwards [h] with x hx hK
  by_contra hni
  exact hx ⟨subset_closure hK, hni⟩

/-- C119. If the point where the sampler stands is uniformly distributed over the domain then so is the next point, for every vector drawn,
over the part of the domain where that vector is accepted. -/
theorem hitRun_uniform {v : Fin (Dom.base d).len → ℝ} (hv0 : v ≠ 0) {B : Set (Fin (Dom.base d).len → ℝ)} (hB : MeasurableSet B) :
    ∫⁻ x in (Dom.base d).pts, hitProb nnls TOL tol he fb (.base d) S e B v x = volume {x | x ∈ (Dom.base d).pts ∧ x ∈ B ∧ (Dom.base d).Long v x} := by
  refine hitRun_law hn ht htol hh fb (D := .base d) hw ?_ (by simp) ?_ hemp (projOut_nil _) hv0 (μ := volume) ?_
    (smooth_closed hd hw).measurableSet ?_ ?_ hB
  · rcases hd.kind with ⟨q, rfl⟩ | ⟨q, rfl⟩ <;> simp [Dom.hasUnbounded]
  · intro c h
    rcases hd.kind with ⟨q, rfl⟩ | ⟨q, rfl⟩ <;> cases h
  · intro t
    exact measurePreserving_add_right volume (t • v)
  · filter_upwards [ae_interior hd hw] with x hx hK
    exact movable_of_interior hd hw (hx hK) v
  · exact Filter.Eventually.of_forall fun x _ => chord_finite hb (dirOf_ne hv0) x

end

/-! ## Many calls -/

/-- `F x` is the law of the point returned by a call of `_hit_and_run` on a domain standing at `x`: the vectors drawn have the law `ν`; the
part of `F x` stemming from calls accepting the first vector drawn is given by `hitProb`, nothing is said about the remaining calls. -/
structure HitKernel (nnls : NNLS) (TOL tol : ℝ) (he : HullExtent) (fb : CornerOracle) (D : Dom) (S : Solver) (e : Option Bool)
    (ν : Measure (Fin D.len → ℝ)) (F : ProbabilityTheory.Kernel (Fin D.len → ℝ) (Fin D.len → ℝ)) : Prop where
  markov : ProbabilityTheory.IsMarkovKernel F
  first : ∀ x ∈ interior D.pts, ∀ B, MeasurableSet B → ∫⁻ v, hitProb nnls TOL tol he fb D S e B v x ∂ν ≤ F x B

/-- The volume of the domain times the probability that the first vector drawn at a uniformly distributed point is not accepted. -/
noncomputable def Dom.redraw (D : Dom) (ν : Measure (Fin D.len → ℝ)) : ℝ≥0∞ := ∫⁻ x in D.pts, ν {v | ¬ D.Long v x}

section
variable {nnls : NNLS} (hn : SolvesConsistent nnls) {TOL tol : ℝ} (ht : 0 < TOL) (htol : 0 < tol) {he : HullExtent}
  (hh : HullExtentExact he) (fb : CornerOracle) {d : Base} (hd : Smooth d) (hw : d.WF) (hb : Bornology.IsBounded (Dom.base d).pts)
  {S : Solver} {e : Option Bool} (hemp : e ≠ some true) {ν : Measure (Fin (Dom.base d).len → ℝ)} [IsProbabilityMeasure ν] (hν : ν {0} = 0)
include hn ht htol hh hd hw hb hemp hν

/-- C119. Random vectors: starting from the uniform distribution, the calls accepting the first vector end in `B` with the probability that a
uniformly distributed point is in `B` and the vector is accepted there. -/
theorem hitRun_first_law {B : Set (Fin (Dom.base d).len → ℝ)} (hB : MeasurableSet B) :
    ∫⁻ x in (Dom.base d).pts, (∫⁻ v, hitProb nnls TOL tol he fb (.base d) S e B v x ∂ν) =
      ∫⁻ x in (Dom.base d).pts ∩ B, ν {v | (Dom.base d).Long v x} := by
  have hK := (smooth_closed hd hw).measurableSet
  have hν' : ∀ᵐ v ∂ν, v ≠ 0 := by
    rw [measure_eq_zero_iff_ae_notMem] at hν
    exact hν
  have hL := measurable_long (D := .base d) hK
  calc ∫⁻ x in (Dom.base d).pts, (∫⁻ v, hitProb nnls TOL tol he fb (.base d) S e B v x ∂ν)
      = ∫⁻ x in (Dom.base d).pts, (∫⁻ v, hitMass (.base d) B v x ∂ν) := by
        apply lintegral_congr_ae
        rw [Filter.EventuallyEq, ae_restrict_iff' hK]
        filter_upwards [ae_interior hd hw] with x hx hxK
        apply lintegral_congr_ae
        filter_upwards [hν'] with v hv
        exact hitProb_eq hn ht htol hh fb hd hw hb hemp hv (hx hxK) hB
    _ = ∫⁻ v, (∫⁻ x in (Dom.base d).pts, hitMass (.base d) B v x) ∂ν :=
        lintegral_lintegral_swap ((measurable_hitMass hK hB).comp measurable_swap).aemeasurable
    _ = ∫⁻ v, (∫⁻ x in (Dom.base d).pts ∩ B, {q : (Fin (Dom.base d).len → ℝ) × _ | (Dom.base d).Long q.1 q.2}.indicator 1 (v, x)) ∂ν := by
        apply lintegral_congr_ae
        filter_upwards [hν'] with v hv
        have h1 := hitRun_uniform hn ht htol hh fb hd hw hb (S := S) hemp hv hB
        have h2 : ∫⁻ x in (Dom.base d).pts, hitMass (.base d) B v x =
            ∫⁻ x in (Dom.base d).pts, hitProb nnls TOL tol he fb (.base d) S e B v x := by
          apply lintegral_congr_ae
          rw [Filter.EventuallyEq, ae_restrict_iff' hK]
          filter_upwards [ae_interior hd hw] with x hx hxK
          exact (hitProb_eq hn ht htol hh fb hd hw hb hemp hv (hx hxK) hB).symm
        rw [h2, h1]
        have hs : MeasurableSet {x | (Dom.base d).Long v x} := hL.preimage (measurable_prodMk_left (x := v))
        have h3 : ∀ x, {q : (Fin (Dom.base d).len → ℝ) × (Fin (Dom.base d).len → ℝ) | (Dom.base d).Long q.1 q.2}.indicator (1 : (Fin (Dom.base d).len → ℝ) × (Fin (Dom.base d).len → ℝ) → ℝ≥0∞) (v, x) =
            {x | (Dom.base d).Long v x}.indicator 1 x := by
          intro x
          simp only [indicator_apply, mem_ofPred_eq, Pi.one_apply]
        simp only [h3]
        rw [lintegral_indicator_one hs, Measure.restrict_apply hs]
        congr 1
        ext x
        simp only [mem_ofPred_eq, mem_inter_iff]
        tauto
    _ = ∫⁻ x in (Dom.base d).pts ∩ B, (∫⁻ v, {q : (Fin (Dom.base d).len → ℝ) × _ | (Dom.base d).Long q.1 q.2}.indicator 1 (v, x) ∂ν) :=
        lintegral_lintegral_swap (measurable_one.indicator hL).aemeasurable
    _ = ∫⁻ x in (Dom.base d).pts ∩ B, ν {v | (Dom.base d).Long v x} := by
        congr 1
        funext x
        have hs : MeasurableSet {v | (Dom.base d).Long v x} := hL.preimage (measurable_prodMk_right (y := x))
        rw [← lintegral_indicator_one hs]
        congr 1

/-- C119. Calls starting from the uniform distribution: after `k` calls the probability of every set differs from the uniform one by at
most `k` times the probability that the first vector drawn by a call has to be redrawn. -/
theorem hitRun_near {F : ProbabilityTheory.Kernel (Fin (Dom.base d).len → ℝ) (Fin (Dom.base d).len → ℝ)}
    (hF : HitKernel nnls TOL tol he fb (.base d) S e ν F) {ρ : ℕ → Measure (Fin (Dom.base d).len → ℝ)}
    (h0 : ρ 0 = volume.restrict (Dom.base d).pts) (hs : ∀ k, ρ (k + 1) = (ρ k).bind F) (k : ℕ) (B : Set (Fin (Dom.base d).len → ℝ)) :
    ρ k B ≤ volume.restrict (Dom.base d).pts B + k * (Dom.base d).redraw ν ∧
      volume.restrict (Dom.base d).pts B ≤ ρ k B + k * (Dom.base d).redraw ν := by
  have := hF.markov
  have hK := (smooth_closed hd hw).measurableSet
  have hL := measurable_long (D := .base d) hK
  set U := (volume : Measure (Fin (Dom.base d).len → ℝ)).restrict (Dom.base d).pts with hU
  have hfin : IsFiniteMeasure U := ⟨by rw [hU, Measure.restrict_apply_univ]; exact hb.measure_lt_top⟩
  have ha : Measurable (fun x => ν {v | (Dom.base d).Long v x}) := measurable_measure_prodMk_right hL
  have ha1 : ∀ x, ν {v | (Dom.base d).Long v x} ≤ 1 := fun x => prob_le_one
  set A := U.withDensity (fun x => ν {v | (Dom.base d).Long v x}) with hA
  have hAU : A ≤ U := by
    calc A ≤ U.withDensity 1 := withDensity_mono (Filter.Eventually.of_forall ha1)
      _ = U := withDensity_one
  have hAfin : IsFiniteMeasure A := isFiniteMeasure_of_le U hAU
  have hUF : A ≤ U.bind F := by
    refine Measure.le_iff.2 fun B hB => ?_
    rw [Measure.bind_apply hB F.measurable.aemeasurable, hA, withDensity_apply _ hB, hU, Measure.restrict_restrict hB, inter_comm,
      ← hitRun_first_law hn ht htol hh fb hd hw hb hemp hν hB (S := S) (e := e)]
    apply lintegral_mono_ae
    rw [ae_restrict_iff' hK]
    filter_upwards [ae_interior hd hw] with x hx hxK
    exact hF.first x (hx hxK) B hB
  have hmass : ∀ m : Measure (Fin (Dom.base d).len → ℝ), (m.bind F) univ = m univ := by
    intro m
    rw [Measure.bind_apply MeasurableSet.univ F.measurable.aemeasurable]
    simp
  have hUFfin : IsFiniteMeasure (U.bind F) := ⟨by rw [hmass]; exact measure_lt_top U univ⟩
  have hδ : A univ + (Dom.base d).redraw ν = U univ := by
    rw [hA, withDensity_apply _ MeasurableSet.univ, Measure.restrict_univ]
    unfold Dom.redraw
    rw [← lintegral_add_left ha]
    have : ∀ x, ν {v | (Dom.base d).Long v x} + ν {v | ¬ (Dom.base d).Long v x} = 1 := by
      intro x
      have hs : MeasurableSet {v | (Dom.base d).Long v x} := hL.preimage (measurable_prodMk_right (y := x))
      rw [← prob_add_prob_compl (μ := ν) hs]
      rfl
    simp only [this, lintegral_one]
  have hAne : A univ ≠ ∞ := (measure_lt_top A univ).ne
  have hsub : ∀ M : Measure (Fin (Dom.base d).len → ℝ), IsFiniteMeasure M → A ≤ M → M univ = U univ → (M - A) univ = (Dom.base d).redraw ν := by
    intro M hM hle hmu
    have h1 : (M - A) univ + A univ = M univ := by
      rw [← Measure.add_apply, Measure.sub_add_cancel_of_le hle]
    rw [hmu, ← hδ, add_comm] at h1
    exact (ENNReal.add_right_inj hAne).1 h1
  have hbadd : ∀ m m' : Measure (Fin (Dom.base d).len → ℝ), (m + m').bind F = m.bind F + m'.bind F := by
    intro m m'
    ext B hB
    rw [Measure.add_apply, Measure.bind_apply hB F.measurable.aemeasurable, Measure.bind_apply hB F.measurable.aemeasurable,
      Measure.bind_apply hB F.measurable.aemeasurable, lintegral_add_measure]
  have key : ∀ k : ℕ, ∃ p q : Measure (Fin (Dom.base d).len → ℝ), ρ k + p = U + q ∧ p univ ≤ k * (Dom.base d).redraw ν ∧
      q univ ≤ k * (Dom.base d).redraw ν := by
    intro k
    induction k with
    | zero => exact ⟨0, 0, by rw [h0], by simp, by simp⟩
    | succ k ih =>
      obtain ⟨p, q, hpq, hp, hq⟩ := ih
      refine ⟨p.bind F + (U - A), q.bind F + (U.bind F - A), ?_, ?_, ?_⟩
      · have e1 : U - A + A = U := Measure.sub_add_cancel_of_le hAU
        have e2 : U.bind F - A + A = U.bind F := Measure.sub_add_cancel_of_le hUF
        calc ρ (k + 1) + (p.bind F + (U - A)) = (ρ k + p).bind F + (U - A) := by rw [hs, hbadd, add_assoc]
          _ = U.bind F + q.bind F + (U - A) := by rw [hpq, hbadd]
          _ = (U.bind F - A + A) + q.bind F + (U - A) := by rw [e2]
          _ = (U - A + A) + (q.bind F + (U.bind F - A)) := by ac_rfl
          _ = U + (q.bind F + (U.bind F - A)) := by rw [e1]
      · rw [Measure.add_apply, hmass, hsub U hfin hAU rfl]
        push_cast
        rw [add_mul, one_mul]
        gcongr
      · rw [Measure.add_apply, hmass, hsub _ hUFfin hUF (hmass U)]
        push_cast
        rw [add_mul, one_mul]
        gcongr
  obtain ⟨p, q, hpq, hp, hq⟩ := key k
  have h1 : ρ k B + p B = U B + q B := by rw [← Measure.add_apply, hpq, Measure.add_apply]
  constructor
  · calc ρ k B ≤ ρ k B + p B := le_self_add
      _ = U B + q B := h1
      _ ≤ U B + k * (Dom.base d).redraw ν := by gcongr; exact (measure_mono (subset_univ B)).trans hq
  · calc U B ≤ U B + q B := le_self_add
      _ = ρ k B + p B := h1.symm
      _ ≤ ρ k B + k * (Dom.base d).redraw ν := by gcongr; exact (measure_mono (subset_univ B)).trans hp

set_option maxHeartbeats 1000000 in
/-- There are such kernels. -/
theorem hitKernel_exists : ∃ F, HitKernel nnls TOL tol he fb (.base d) S e ν F := by
  have hK := (smooth_closed hd hw).measurableSet
  have hν' : ∀ᵐ v ∂ν, v ≠ 0 := by
    rw [measure_eq_zero_iff_ae_notMem] at hν
    exact hν
  let line : (Fin (Dom.base d).len → ℝ) → (Fin (Dom.base d).len → ℝ) → ℝ → (Fin (Dom.base d).len → ℝ) := fun v x t => x + t • dirOf v
  have hline : ∀ v x, Measurable (line v x) := fun v x => by fun_prop
  let κ : (Fin (Dom.base d).len → ℝ) → (Fin (Dom.base d).len → ℝ) → Measure (Fin (Dom.base d).len → ℝ) := fun x v =>
    (if (Dom.base d).Long v x then (chord (Dom.base d).pts (dirOf v) x)⁻¹ else 0) •
      (((volume : Measure ℝ).restrict (line v x ⁻¹' (Dom.base d).pts)).map (line v x))
  have hκ : ∀ x v B, MeasurableSet B → κ x v B = hitMass (.base d) B v x := by
    intro x v B hB
    simp only [κ, Measure.smul_apply, smul_eq_mul]
    rw [Measure.map_apply (hline v x) hB, Measure.restrict_apply (hline v x hB)]
    unfold hitMass
    have : line v x ⁻¹' B ∩ line v x ⁻¹' (Dom.base d).pts = {t : ℝ | x + t • dirOf v ∈ (Dom.base d).pts ∩ B} := by
      ext t
      simp only [mem_inter_iff, mem_preimage, mem_ofPred_eq, line]
      tauto
    rw [this]
    split <;> simp
  have hκm : ∀ x, Measurable (κ x) := by
    intro x
    refine Measure.measurable_of_measurable_coe _ fun B hB => ?_
    simp only [hκ _ _ B hB]
    exact (measurable_hitMass (D := .base d) hK hB).comp (measurable_prodMk_right (y := x))
  have hbind : ∀ x B, MeasurableSet B → (ν.bind (κ x)) B = ∫⁻ v, hitMass (.base d) B v x ∂ν := by
    intro x B hB
    rw [Measure.bind_apply hB (hκm x).aemeasurable]
    simp only [hκ _ _ B hB]
  have hle : ∀ x, (ν.bind (κ x)) univ ≤ 1 := by
    intro x
    rw [hbind x univ MeasurableSet.univ]
    calc ∫⁻ v, hitMass (.base d) univ v x ∂ν ≤ ∫⁻ v, 1 ∂ν := by
          apply lintegral_mono
          intro v
          exact hitMass_le_one _ _ v x
      _ = 1 := by rw [lintegral_one, measure_univ]
  have hm : ∀ B, MeasurableSet B → Measurable (fun x => (ν.bind (κ x)) B) := by
    intro B hB
    simp only [hbind _ B hB]
    exact (measurable_hitMass (D := .base d) hK hB).lintegral_prod_left'
  let F : ProbabilityTheory.Kernel (Fin (Dom.base d).len → ℝ) (Fin (Dom.base d).len → ℝ) :=
    { toFun := fun x => ν.bind (κ x) + (1 - (ν.bind (κ x)) univ) • Measure.dirac x
      measurable' := by
        refine Measure.measurable_of_measurable_coe _ fun B hB => ?_
        simp only [Measure.add_apply, Measure.smul_apply, smul_eq_mul]
        refine (hm B hB).add ((measurable_const.sub (hm univ MeasurableSet.univ)).mul ?_)
        exact (Measure.measurable_coe hB).comp Measure.measurable_dirac }
  have hFx : ∀ x, F x = ν.bind (κ x) + (1 - (ν.bind (κ x)) univ) • Measure.dirac x := fun x => rfl
  refine ⟨F, ⟨⟨fun x => ⟨?_⟩⟩, fun x hx B hB => ?_⟩⟩
  · rw [hFx, Measure.add_apply, Measure.smul_apply, measure_univ (μ := Measure.dirac x), smul_eq_mul, mul_one]
    exact add_tsub_cancel_of_le (hle x)
  · rw [hFx, Measure.add_apply, hbind x B hB]
    refine le_trans (le_of_eq ?_) le_self_add
    apply lintegral_congr_ae
    filter_upwards [hν'] with v hv
    exact hitProb_eq hn ht htol hh fb hd hw hb hemp hv hx hB

end

/-! ## The first call -/

section
variable {nnls : NNLS} (hn : SolvesConsistent nnls) {TOL tol : ℝ} (ht : 0 < TOL) (htol : 0 < tol) {he : HullExtent}
  (hh : HullExtentExact he) (fb : CornerOracle) {d : Base} (hd : Smooth d) (hw : d.WF) (hb : Bornology.IsBounded (Dom.base d).pts)
  {S : Solver} {e : Option Bool} (hemp : e ≠ some true)
include hn ht htol hh hd hw hb hemp

/-- The domain shrunk towards one of its points is hit with probability `ε`: that of its chords, whatever the dimension. -/
theorem hitRun_shrunk {v c : Fin (Dom.base d).len → ℝ} (hv0 : v ≠ 0) (hc : c ∈ interior (Dom.base d).pts) (hl : (Dom.base d).Long v c)
    {ε : ℝ} (h0 : 0 < ε) (h1 : ε ≤ 1) :
    hitProb nnls TOL tol he fb (.base d) S e (AffineMap.homothety c ε '' (Dom.base d).pts) v c = ENNReal.ofReal ε := by
  have hcl := smooth_closed hd hw
  have hmem : ∀ y, y ∈ AffineMap.homothety c ε '' (Dom.base d).pts ↔ c + ε⁻¹ • (y - c) ∈ (Dom.base d).pts := by
    intro y
    constructor
    · rintro ⟨z, hz, rfl⟩
      have : c + ε⁻¹ • (AffineMap.homothety c ε z - c) = z := by
        rw [AffineMap.homothety_apply, vsub_eq_sub, vadd_eq_add, add_sub_cancel_right, smul_smul, inv_mul_cancel₀ h0.ne', one_smul]
        abel
      rw [this]; exact hz
    · intro h
      refine ⟨_, h, ?_⟩
      rw [AffineMap.homothety_apply, vsub_eq_sub, vadd_eq_add, add_sub_cancel_left, smul_smul, mul_inv_cancel₀ h0.ne', one_smul]
      abel
  have hB : MeasurableSet (AffineMap.homothety c ε '' (Dom.base d).pts) := by
    have e1 : AffineMap.homothety c ε '' (Dom.base d).pts = (fun y => c + ε⁻¹ • (y - c)) ⁻¹' (Dom.base d).pts := by
      ext y
      exact hmem y
    rw [e1]
    exact (hcl.preimage (by fun_prop)).measurableSet
  rw [hitProb_eq hn ht htol hh fb hd hw hb hemp hv0 hc hB]
  unfold hitMass
  rw [if_pos hl]
  have hset : {t : ℝ | c + t • dirOf v ∈ (Dom.base d).pts ∩ AffineMap.homothety c ε '' (Dom.base d).pts} =
      (fun t => ε⁻¹ * t) ⁻¹' {t : ℝ | c + t • dirOf v ∈ (Dom.base d).pts} := by
    ext t
    simp only [mem_ofPred_eq, mem_inter_iff, hmem, mem_preimage, add_sub_cancel_left, smul_smul]
    refine ⟨fun h => h.2, fun h => ⟨?_, h⟩⟩
    have := (pts_convex (Dom.base d)) (interior_subset hc) h (by linarith : (0 : ℝ) ≤ 1 - ε) h0.le (by ring)
    convert this using 1
    rw [smul_add, smul_smul, ← mul_assoc, mul_inv_cancel₀ h0.ne', one_mul, ← add_assoc, ← add_smul]
    simp
  rw [hset, Real.volume_preimage_mul_left (by positivity), inv_inv, abs_of_pos h0]
  show (chord (Dom.base d).pts (dirOf v) c)⁻¹ * (ENNReal.ofReal ε * chord (Dom.base d).pts (dirOf v) c) = _
  have hpos : chord (Dom.base d).pts (dirOf v) c ≠ 0 := (pos_of_gt hl).ne'
  have hne : chord (Dom.base d).pts (dirOf v) c ≠ ∞ := (chord_finite hb (dirOf_ne hv0) c).ne
  rw [mul_comm (ENNReal.ofReal ε), ← mul_assoc, ENNReal.inv_mul_cancel hpos hne, one_mul]

/-- C119. `sample()` of a fresh domain is not uniformly distributed if the dimension is at least two: all calls begin with a state which is a fixed
point `c` (the Chebyshev center), and one of the three points among which `sample()` chooses is the one found from `c`. There is a set `B` such
that, for every vector drawn, a third of the probability of moving from `c` into `B` exceeds the share of `B` in the volume of the domain. -/
theorem hitRun_fresh_false (hdim : 2 ≤ d.len) {c : Fin (Dom.base d).len → ℝ} (hc : c ∈ interior (Dom.base d).pts) :
    ∃ B ⊆ (Dom.base d).pts, ∀ v, v ≠ 0 → (Dom.base d).Long v c →
      volume B / volume (Dom.base d).pts < hitProb nnls TOL tol he fb (.base d) S e B v c / 3 := by
  refine ⟨AffineMap.homothety c (1 / 4 : ℝ) '' (Dom.base d).pts, ?_, fun v hv hl => ?_⟩
  · rintro y ⟨z, hz, rfl⟩
    have := (pts_convex (Dom.base d)) (interior_subset hc) hz (by norm_num : (0 : ℝ) ≤ 3 / 4) (by norm_num : (0 : ℝ) ≤ 1 / 4) (by norm_num)
    convert this using 1
    rw [AffineMap.homothety_apply, vsub_eq_sub, vadd_eq_add]
    funext i
    simp only [Pi.add_apply, Pi.smul_apply, Pi.sub_apply, smul_eq_mul]
    ring
  · rw [hitRun_shrunk hn ht htol hh fb hd hw hb hemp hv hc hl (by norm_num) (by norm_num), Measure.addHaar_image_homothety]
    have hfin : volume (Dom.base d).pts ≠ ∞ := hb.measure_lt_top.ne
    have hpos : volume (Dom.base d).pts ≠ 0 := by
      have := isOpen_interior.measure_pos (volume : Measure (Fin (Dom.base d).len → ℝ)) ⟨c, hc⟩
      exact (this.trans_le (measure_mono interior_subset)).ne'
    rw [mul_div_assoc, ENNReal.div_self hpos hfin, mul_one, Module.finrank_fin_fun, show (3 : ℝ≥0∞) = ENNReal.ofReal 3 by simp,
      ← ENNReal.ofReal_div_of_pos (by norm_num)]
    rw [ENNReal.ofReal_lt_ofReal_iff (by norm_num), abs_of_pos (by positivity)]
    have : (1 / 4 : ℝ) ^ (Dom.base d).len ≤ (1 / 4) ^ 2 := pow_le_pow_of_le_one (by norm_num) (by norm_num) hdim
    norm_num at this ⊢
    linarith

end

/-! ## Example: a triangle -/

/-- The triangle `0 ≤ x, 0 ≤ y, x + y ≤ 1`. -/
noncomputable def triLQ : LQ := ⟨2, [.fin 0, .fin 0], [.fin 1, .fin 1], [[1, 1]], [1], [], [], [], [], []⟩

theorem tri_pts (x : Fin (Dom.base (.linineq triLQ)).len → ℝ) :
    x ∈ (Dom.base (.linineq triLQ)).pts ↔ 0 ≤ x (0 : Fin 2) ∧ 0 ≤ x (1 : Fin 2) ∧ x (0 : Fin 2) ≤ 1 ∧ x (1 : Fin 2) ≤ 1 ∧ x (0 : Fin 2) + x (1 : Fin 2) ≤ 1 := by
  have hx : List.ofFn x = [x (0 : Fin 2), x (1 : Fin 2)] := by
    have h2 : ∀ y : Fin 2 → ℝ, List.ofFn y = [y 0, y 1] := fun y => by simp [List.ofFn_succ]
    exact h2 x
  constructor
  · rintro ⟨-, h, -⟩
    rw [hx] at h
    have h1 := h.lb 0 0 (x (0 : Fin 2)) rfl rfl
    have h2 := h.lb 1 0 (x (1 : Fin 2)) rfl rfl
    have h3 := h.ub 0 1 (x (0 : Fin 2)) rfl rfl
    have h4 := h.ub 1 1 (x (1 : Fin 2)) rfl rfl
    have h5 := h.ineq 0 [1, 1] 1 rfl rfl
    simp [Vec.dot] at h5
    exact ⟨h1, h2, h3, h4, h5⟩
  · rintro ⟨h1, h2, h3, h4, h5⟩
    refine ⟨List.length_ofFn, ?_, fun X q e => by cases e⟩
    rw [hx]
    refine ⟨?_, ?_, ?_, ?_, ?_⟩
    · intro i r xi hr hxi
      match i with
      | 0 => cases hr; cases hxi; exact h1
      | 1 => cases hr; cases hxi; exact h2
      | (k + 2) => cases hr
    · intro i r xi hr hxi
      match i with
      | 0 => cases hr; cases hxi; exact h3
      | 1 => cases hr; cases hxi; exact h4
      | (k + 2) => cases hr
    · intro i row bi hr hbi
      match i with
      | 0 => cases hr; cases hbi; simpa [Vec.dot] using h5
      | (k + 1) => cases hr
    · intro i row bi hr; cases hr
    · intro i L y rho hr; cases hr

example : Smooth (.linineq triLQ) := ⟨Or.inr ⟨_, rfl⟩, rfl⟩

example : (Base.linineq triLQ).WF := by
  refine ⟨⟨rfl, rfl, ?_, ?_, ?_, rfl, ?_, rfl, rfl, rfl, ?_, ?_, ?_⟩, rfl, rfl, rfl⟩ <;> simp [triLQ, XR.okLower, XR.okUpper]

example : Bornology.IsBounded (Dom.base (.linineq triLQ)).pts := by
  refine (Metric.isBounded_closedBall (x := (0 : Fin (Dom.base (.linineq triLQ)).len → ℝ)) (r := 1)).subset fun x hx => ?_
  obtain ⟨h1, h2, h3, h4, -⟩ := (tri_pts x).1 hx
  rw [mem_closedBall_zero_iff, pi_norm_le_iff_of_nonneg zero_le_one]
  have : ∀ i : Fin 2, ‖x i‖ ≤ 1 := by
    intro i
    rw [Real.norm_eq_abs]
    fin_cases i
    · exact abs_le.2 ⟨by simp only [Fin.zero_eta]; linarith, h3⟩
    · exact abs_le.2 ⟨by simp only [Fin.mk_one]; linarith, h4⟩
  exact this

/-- An interior point, and the horizontal chord through it is long. -/
example : ∃ c v : Fin (Dom.base (.linineq triLQ)).len → ℝ, c ∈ interior (Dom.base (.linineq triLQ)).pts ∧ v ≠ 0 ∧
    (Dom.base (.linineq triLQ)).Long v c := by
  refine ⟨(![1 / 4, 1 / 4] : Fin 2 → ℝ), (![1, 0] : Fin 2 → ℝ), ?_, ?_, ?_⟩
  · refine mem_interior_iff_mem_nhds.2 (Metric.mem_nhds_iff.2 ?_)
    refine ⟨1 / 8, by norm_num, fun x hx => (tri_pts x).2 ?_⟩
    have hx := (dist_pi_lt_iff (by norm_num)).1 (Metric.mem_ball.1 hx)
    have h0 : -(1 / 8) < x (0 : Fin 2) - 1 / 4 ∧ x (0 : Fin 2) - 1 / 4 < 1 / 8 := abs_lt.1 (hx (0 : Fin 2))
    have h1 : -(1 / 8) < x (1 : Fin 2) - 1 / 4 ∧ x (1 : Fin 2) - 1 / 4 < 1 / 8 := abs_lt.1 (hx (1 : Fin 2))
    refine ⟨?_, ?_, ?_, ?_, ?_⟩ <;> linarith [h0.1, h0.2, h1.1, h1.2]
  · intro h
    have : (1 : ℝ) = 0 := congrFun h (0 : Fin 2)
    norm_num at this
  · unfold Dom.Long chord
    have hd : dirOf (![1, 0] : Fin 2 → ℝ) = ![1, 0] := by
      unfold dirOf
      have : Vec.norm (List.ofFn (![1, 0] : Fin 2 → ℝ)) = 1 := by simp [Vec.norm, Vec.sumSq, List.ofFn_succ]
      rw [this]; simp
    have hsub : Icc (0 : ℝ) (1 / 4) ⊆ {t : ℝ | (![1 / 4, 1 / 4] : Fin 2 → ℝ) + t • dirOf (![1, 0] : Fin 2 → ℝ) ∈
        (Dom.base (.linineq triLQ)).pts} := by
      intro t ht
      rw [mem_ofPred_eq, hd]
      refine (tri_pts _).2 ?_
      have h1 := ht.1
      have h2 := ht.2
      simp
      refine ⟨?_, ?_, ?_, ?_⟩ <;> linarith
    refine lt_of_lt_of_le ?_ (measure_mono hsub)
    rw [Real.volume_Icc, ENNReal.ofReal_lt_ofReal_iff (by norm_num)]
    norm_num

end Verif.Domain
