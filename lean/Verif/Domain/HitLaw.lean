import Verif.Domain.HitRunProps
import Verif.Domain.ChordLaw
import Mathlib.MeasureTheory.Constructions.BorelSpace.Basic
import Mathlib.Topology.Algebra.Module.Basic

/-!
# The law of hit-and-run samples (C119)

If the point where the sampler stands is uniformly distributed over the domain, so is the next point (for every direction drawn, over the
part of the domain in which that direction is accepted).
-/

namespace Verif.Domain

open MeasureTheory Set Classical
open scoped ENNReal

/-! ## Specification -/

/-- The domain as a set of points. -/
def Dom.pts (D : Dom) : Set (Fin D.len → ℝ) := {x | D.Holds (List.ofFn x)}

/-- One call of `_hit_and_run` on a domain standing at `x`, which is not a point: a random vector `p` and a random number `w` of the unit
interval are drawn; `none` if the call does not accept the vector. -/
noncomputable def Dom.hitFrom (nnls : NNLS) (TOL tol : ℝ) (he : HullExtent) (fb : CornerOracle) (Q : List Vec) (D : Dom) (S : Solver)
    (e : Option Bool) (p : Vec) (w : ℝ) (x : Fin D.len → ℝ) : Option Vec :=
  match D.hitRun nnls TOL tol he fb Q [⟨S, [], [], [⟨[p], w⟩]⟩] ⟨some (List.ofFn x), e, some false⟩ with
  | some (.ok y, _) => some y
  | _ => none

/-- Conditions under which the extents along `v` are exact at `x` (see C08, C09), and `x` can move along `v`. -/
structure Movable (tol : ℝ) (D : Dom) (v x : Fin D.len → ℝ) : Prop where
  safe : ∀ c : ℝ, c ≠ 0 → D.AllFactors (StepSafe tol) (List.ofFn x) (List.ofFn (c • v))
  interior : ∀ c : ℝ, c ≠ 0 → D.AllFactors StepInterior (List.ofFn x) (List.ofFn (c • v))
  moves : ∃ t : ℝ, 0 < t ∧ x + t • v ∈ D.pts

/-! ## Lemmas -/

theorem ofFn_step {n : ℕ} (x p : Fin n → ℝ) (t : ℝ) : Vec.step (List.ofFn x) t (List.ofFn p) = List.ofFn (x + t • p) := by
  unfold Vec.step Vec.add Vec.smul
  apply List.ext_getElem
  · simp
  · intro i h1 h2
    simp

theorem ofFn_smul {n : ℕ} (p : Fin n → ℝ) (t : ℝ) : Vec.smul t (List.ofFn p) = List.ofFn (t • p) := by
  unfold Vec.smul
  apply List.ext_getElem
  · simp
  · intro i h1 h2
    simp

section
variable {nnls : NNLS} (hn : SolvesConsistent nnls) {TOL tol : ℝ} (ht : 0 < TOL) (htol : 0 < tol) {he : HullExtent}
  (hh : HullExtentExact he) (fb : CornerOracle) {Q : List Vec} {D : Dom} (hD : D.WF) (hu : ¬ D.hasUnbounded) (hne : D ≠ .tensor [])
  (hpt : ∀ c, D ≠ .base (.point c))
include hn ht htol hh hD hu hne

/-- The extent in the direction `c v` is a number, and tells how far the line stays in the domain. -/
theorem dir_extent {v x : Fin D.len → ℝ} (hx : x ∈ D.pts) (hm : Movable tol D v x) {c : ℝ} (hc : c ≠ 0)
    (hfin : ∃ t, 0 ≤ t ∧ x + (t * c) • v ∉ D.pts) :
    ∃ a : ℝ, 0 ≤ a ∧ D.extent nnls TOL tol he (List.ofFn x) (List.ofFn (c • v)) = .ok (.fin a) ∧
      ∀ t, 0 ≤ t → (x + (t * c) • v ∈ D.pts ↔ t ≤ a) := by
  have hin := dom_holds_isInside_all hn ht hD (show D.Holds (List.ofFn x) from hx)
  have hlen : (List.ofFn (c • v)).length = D.len := by simp
  obtain ⟨al, hal⟩ := (extent_ok_iff nnls (TOL := TOL) (tol := tol) he D (List.ofFn x) (List.ofFn (c • v)) hlen).2 ⟨hin, by
    cases D with
    | base d => exact fun n h => hu ⟨n, h⟩
    | tensor ds => exact ⟨fun h => hne (by rw [h]), fun d hd n h => hu ⟨d, hd, n, h⟩⟩⟩
  have hraw := hal
  rw [extent_eq_raw nnls he _ hin] at hraw
  obtain ⟨s1, s2⟩ := extent_spec htol hh D hD _ _ hlen hx al hraw
  have key : ∀ t, 0 ≤ t → (x + (t * c) • v ∈ D.pts ↔ XR.le (.fin t) al) := by
    intro t h0
    have e : Vec.step (List.ofFn x) t (List.ofFn (c • v)) = List.ofFn (x + (t * c) • v) := by rw [ofFn_step, smul_smul]
    constructor
    · intro h
      exact s2 t h0 (hm.interior c hc) (by rw [e]; exact h)
    · intro h
      have := s1 t h0 (hm.safe c hc) h
      rw [e] at this
      exact this
  have h0 := (key 0 le_rfl).1 (by rw [zero_mul, zero_smul, add_zero]; exact hx)
  cases al with
  | fin a =>
    have hle : ∀ t : ℝ, XR.le (.fin t) (.fin a) ↔ t ≤ a := by
      intro t
      unfold XR.le XR.lt XR.eq
      exact le_iff_lt_or_eq.symm
    exact ⟨a, (hle 0).1 h0, hal, fun t h => (key t h).trans (hle t)⟩
  | pinf =>
    obtain ⟨t, h1, h2⟩ := hfin
    exact absurd ((key t h1).2 (Or.inl trivial)) h2
  | ninf => rcases h0 with h0 | h0 <;> cases h0
  | nan => rcases h0 with h0 | h0 <;> cases h0

include hpt in
/-- What one call returns. -/
theorem hit_out {S : Solver} {e : Option Bool} (hemp : e ≠ some true) {p : Vec} {v x : Fin D.len → ℝ} (hv : projOut Q p = List.ofFn v)
    (hv0 : v ≠ 0) (hx : x ∈ D.pts) (hm : Movable tol D v x) (hfin : chord D.pts ((1 / Vec.norm (List.ofFn v)) • v) x < ∞) :
    ∃ lo hi : ℝ, (∀ t : ℝ, x + t • ((1 / Vec.norm (List.ofFn v)) • v) ∈ D.pts ↔ lo ≤ t ∧ t ≤ hi) ∧
      ∀ w ∈ Icc (0 : ℝ) 1, D.hitFrom nnls TOL tol he fb Q S e p w x =
        if 1 / 10 ^ 7 < hi - lo then some (List.ofFn (x + (lo + (hi - lo) * w) • ((1 / Vec.norm (List.ofFn v)) • v))) else none := by
  set c := 1 / Vec.norm (List.ofFn v) with hcdef
  have hnv : 0 < Vec.norm (List.ofFn v) := by
    unfold Vec.norm Vec.sumSq
    apply Real.sqrt_pos.2
    obtain ⟨i, hi⟩ := Function.ne_iff.1 hv0
    simp only [List.map_ofFn, List.sum_ofFn]
    refine Finset.sum_pos' (fun j _ => ?_) ⟨i, Finset.mem_univ _, ?_⟩
    · simp only [Function.comp]; positivity
    · simp only [Function.comp]
      have : v i ≠ 0 := hi
      positivity
  have hc : 0 < c := by positivity
  -- the line leaves the domain on both sides
  have hout : ∀ s : ℝ, s ≠ 0 → ∃ t, 0 ≤ t ∧ x + (t * s) • v ∉ D.pts := by
    intro s hs
    by_contra hcon
    push Not at hcon
    apply hfin.ne
    rw [eq_top_iff]
    unfold chord
    rcases lt_or_gt_of_ne hs with h | h
    · calc (∞ : ℝ≥0∞) = volume (Iic (0 : ℝ)) := by rw [Real.volume_Iic]
        _ ≤ _ := measure_mono fun t ht => by
          have h1 : 0 ≤ t * c / s := div_nonneg_of_nonpos (mul_nonpos_of_nonpos_of_nonneg ht hc.le) h.le
          have := hcon _ h1
          rw [div_mul_cancel₀ _ hs] at this
          simpa only [mem_ofPred_eq, smul_smul] using this
    · calc (∞ : ℝ≥0∞) = volume (Ici (0 : ℝ)) := by rw [Real.volume_Ici]
        _ ≤ _ := measure_mono fun t ht => by
          have h1 : 0 ≤ t * c / s := div_nonneg (mul_nonneg ht hc.le) h.le
          have := hcon _ h1
          rw [div_mul_cancel₀ _ hs] at this
          simpa only [mem_ofPred_eq, smul_smul] using this
  obtain ⟨a0, h0, e0, k0⟩ := dir_extent hn ht htol hh hD hu hne hx hm one_ne_zero (hout 1 one_ne_zero)
  obtain ⟨a1, h1, e1, k1⟩ := dir_extent hn ht htol hh hD hu hne hx hm hc.ne' (hout c hc.ne')
  obtain ⟨a2, h2, e2, k2⟩ := dir_extent hn ht htol hh hD hu hne hx hm (neg_ne_zero.2 hc.ne') (hout (-c) (neg_ne_zero.2 hc.ne'))
  have hline : ∀ t : ℝ, x + t • (c • v) ∈ D.pts ↔ -a2 ≤ t ∧ t ≤ a1 := by
    intro t
    rw [smul_smul]
    rcases le_total 0 t with h | h
    · rw [k1 t h]
      exact ⟨fun a => ⟨by linarith, a⟩, fun a => a.2⟩
    · have := k2 (-t) (by linarith)
      rw [neg_mul_neg] at this
      rw [this]
      exact ⟨fun a => ⟨by linarith, by linarith⟩, fun a => by linarith [a.1]⟩
  refine ⟨-a2, a1, hline, fun w hw => ?_⟩
  have hpos : 0 < a0 := by
    obtain ⟨t, t0, htm⟩ := hm.moves
    have := (k0 t t0.le).1 (by rw [mul_one]; exact htm)
    linarith
  rw [one_smul] at e0
  have hdir : randomDirection (fun p => D.extent nnls TOL tol he (List.ofFn x) p) Q [p] = some (.ok (List.ofFn v)) := by
    unfold randomDirection
    rw [hv, e0]
    exact if_pos hpos
  have hsm : Vec.smul (1 / Vec.norm (List.ofFn v)) (List.ofFn v) = List.ofFn (c • v) := by rw [ofFn_smul]
  have hsn : Vec.smul (-1) (List.ofFn (c • v)) = List.ofFn (-c • v) := by rw [ofFn_smul, smul_smul]; simp
  have hlt : XR.lt (.fin (1 / 10 ^ 7)) (XR.sub (.fin a1) (XR.smul (-1) (.fin a2))) ↔ 1 / 10 ^ 7 < a1 - -a2 := by
    simp [XR.smul, XR.sub, XR.lt]
  have hloop : hrLoop (fun p => D.extent nnls TOL tol he (List.ofFn x) p) (fun y => D.closest S nnls TOL fb e y none) Q (List.ofFn x)
      ⟨some (List.ofFn x), e, some false⟩ [⟨[p], w⟩] =
      if 1 / 10 ^ 7 < a1 - -a2 then
        some (some (.ok (List.ofFn (x + (-a2 + (a1 - -a2) * w) • (c • v))),
          ⟨some (List.ofFn (x + (-a2 + (a1 - -a2) * w) • (c • v))), some false, some false⟩))
      else some none := by
    unfold hrLoop
    rw [hdir]
    dsimp only
    rw [hsm, hsn, e2, e1]
    dsimp only
    rw [if_congr hlt rfl rfl]
    split
    · rename_i hlong
      have hin : x + (-a2 + (a1 - -a2) * w) • (c • v) ∈ D.pts := by
        rw [hline]
        obtain ⟨w0, w1⟩ := hw
        constructor
        · nlinarith
        · nlinarith
      have hins := dom_holds_isInside_all hn ht hD (show D.Holds _ from hin)
      have hcl : D.closest S nnls TOL fb e (List.ofFn (x + (-a2 + (a1 - -a2) * w) • (c • v))) none =
          (.ok (List.ofFn (x + (-a2 + (a1 - -a2) * w) • (c • v))), some false) := by
        unfold Dom.closest
        rw [if_neg (by simp)]
        split
        · rename_i c' ; exact absurd rfl (hpt c')
        · exact absurd ⟨_, rfl⟩ hu
        · rw [if_neg hemp, if_pos hins]
      have hun : unifAlpha (XR.smul (-1) (.fin a2)) (.fin a1) w = .ok (-a2 + (a1 - -a2) * w) := by
        simp [unifAlpha, XR.smul]
      rw [hun]
      dsimp only
      rw [ofFn_step, hcl]
    · simp [hrLoop]
  unfold Dom.hitFrom Dom.hitRun Dom.hrInit Dom.isPointQuery
  dsimp only
  rw [hloop]
  by_cases hl : 1 / 10 ^ 7 < a1 - -a2
  · simp only [if_pos hl]
  · simp only [if_neg hl, Dom.hitRun]

include hpt in
/-- C119: whatever vector is drawn, the next point is distributed over the points at which the vector is accepted (those with a chord longer
than `1e-7`) as the current one: uniformly, if the current one is uniformly distributed over the domain. `μ` is any measure that
does not change when everything is moved along the direction (Lebesgue measure, or that of an affine subspace containing the
direction). -/
theorem hitRun_law {S : Solver} {e : Option Bool} (hemp : e ≠ some true) {p : Vec} {v : Fin D.len → ℝ} (hv : projOut Q p = List.ofFn v)
    (hv0 : v ≠ 0) {μ : Measure (Fin D.len → ℝ)} [SFinite μ] (hμ : ∀ t : ℝ, MeasurePreserving (fun x => x + t • v) μ μ)
    (hK : MeasurableSet D.pts) (hae : ∀ᵐ x ∂μ, x ∈ D.pts → Movable tol D v x)
    (hfin : ∀ᵐ x ∂μ, x ∈ D.pts → chord D.pts ((1 / Vec.norm (List.ofFn v)) • v) x < ∞)
    {B : Set (Fin D.len → ℝ)} (hB : MeasurableSet B) :
    ∫⁻ x in D.pts, volume {w : ℝ | w ∈ Icc (0 : ℝ) 1 ∧ ∃ y ∈ B, D.hitFrom nnls TOL tol he fb Q S e p w x = some (List.ofFn y)} ∂μ =
      μ {x | x ∈ D.pts ∧ x ∈ B ∧ ENNReal.ofReal (1 / 10 ^ 7) < chord D.pts ((1 / Vec.norm (List.ofFn v)) • v) x} := by
  have hμ' : ∀ t : ℝ, MeasurePreserving (fun x => x + t • ((1 / Vec.norm (List.ofFn v)) • v)) μ μ := by
    intro t
    simp only [smul_smul]
    exact hμ _
  rw [← chord_mean hμ' hK hB (ENNReal.ofReal (1 / 10 ^ 7)) hfin, ← lintegral_indicator hK]
  apply lintegral_congr_ae
  filter_upwards [hae, hfin] with x hm hf
  by_cases hx : x ∈ D.pts
  · obtain ⟨lo, hi, hline, hout⟩ := hit_out hn ht htol hh fb hD hu hne hpt (S := S) hemp hv hv0 hx (hm hx) (hf hx)
    have hle : lo ≤ 0 ∧ 0 ≤ hi := (hline 0).1 (by rw [zero_smul, add_zero]; exact hx)
    have hset : {t : ℝ | x + t • ((1 / Vec.norm (List.ofFn v)) • v) ∈ D.pts} = Icc lo hi := by ext t; exact hline t
    have hch : chord D.pts ((1 / Vec.norm (List.ofFn v)) • v) x = ENNReal.ofReal (hi - lo) := by
      unfold chord
      rw [hset, Real.volume_Icc]
    have hiff : ENNReal.ofReal (1 / 10 ^ 7) < chord D.pts ((1 / Vec.norm (List.ofFn v)) • v) x ↔ 1 / 10 ^ 7 < hi - lo := by
      rw [hch, ENNReal.ofReal_lt_ofReal_iff_of_nonneg (by norm_num)]
    rw [indicator_of_mem hx]
    by_cases hl : 1 / 10 ^ 7 < hi - lo
    · rw [if_pos ⟨hx, hiff.2 hl⟩, ← chord_draw hB (by norm_num at hl; linarith) hline]
      congr 1
      ext w
      simp only [mem_ofPred_eq]
      refine and_congr_right fun hw => ?_
      rw [hout w hw, if_pos hl]
      constructor
      · rintro ⟨y, hy, he⟩
        rw [Option.some.injEq, List.ofFn_inj] at he
        rw [he]; exact hy
      · intro h
        exact ⟨_, h, rfl⟩
    · rw [if_neg (fun h => hl (hiff.1 h.2))]
      have : {w : ℝ | w ∈ Icc (0 : ℝ) 1 ∧ ∃ y ∈ B, D.hitFrom nnls TOL tol he fb Q S e p w x = some (List.ofFn y)} = ∅ := by
        ext w
        simp only [mem_ofPred_eq, mem_empty_iff_false, iff_false, not_and, not_exists]
        intro hw y _
        rw [hout w hw, if_neg hl]
        simp
      rw [this, measure_empty]
  · rw [indicator_of_notMem hx, if_neg (fun h => hx h.1)]

end

end Verif.Domain
