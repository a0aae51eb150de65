import Verif.Domain.RoundNorm
import Verif.Domain.RoundExtentModel

/-!
# Moving inside a box in rounded arithmetic
-/

namespace Verif.Round

open Verif Verif.Domain

variable {F : FP}

theorem rd_pos {t : ℝ} (h : 0 < t) : 0 < F.rd t := lt_of_le_of_ne (rd_nonneg h.le) (Ne.symm (rd_ne_zero h.ne'))

theorem rd_nonpos {t : ℝ} (h : t ≤ 0) : F.rd t ≤ 0 := by
  have := F.mono h
  rwa [rd_zero] at this

/-- The extent is at most every positive quotient. -/
theorem extentF_le {cs : List Coord} {alpha : ℝ} (h : extentF F cs = some alpha) {c : Coord} (hc : c ∈ cs) {y : ℝ} (hy : y ∈ quotientsF F c) (h0 : 0 < y) : alpha ≤ y := by
  classical
  unfold extentF at h
  split_ifs at h with h1 h2
  · obtain rfl : 0 = alpha := by simpa using h
    exact h0.le
  · obtain rfl : 0 = alpha := by simpa using h
    exact h0.le
  · rw [List.min?_eq_some_iff] at h
    exact h.2 y (by simpa using ⟨⟨c, hc, hy⟩, h0⟩)

/-- The extent is not negative; it is zero on a face with a direction that leaves, and positive otherwise. -/
theorem extentF_nonneg {cs : List Coord} {alpha : ℝ} (h : extentF F cs = some alpha) :
    0 ≤ alpha ∧ (alpha = 0 ↔ ∃ c ∈ cs, (c.l = c.x ∧ c.p < 0) ∨ (c.h = c.x ∧ c.p > 0)) := by
  classical
  unfold extentF at h
  split_ifs at h with h1 h2
  · obtain rfl : 0 = alpha := by simpa using h
    obtain ⟨c, hc, hc'⟩ := h1
    exact ⟨le_rfl, fun _ => ⟨c, hc, Or.inl hc'⟩, fun _ => rfl⟩
  · obtain rfl : 0 = alpha := by simpa using h
    obtain ⟨c, hc, hc'⟩ := h2
    exact ⟨le_rfl, fun _ => ⟨c, hc, Or.inr hc'⟩, fun _ => rfl⟩
  · rw [List.min?_eq_some_iff] at h
    have h0 : 0 < alpha := by simpa using (List.mem_filter.1 h.1).2
    refine ⟨h0.le, fun e => absurd e h0.ne', ?_⟩
    rintro ⟨c, hc, hc' | hc'⟩
    · exact absurd ⟨c, hc, hc'⟩ h1
    · exact absurd ⟨c, hc, hc'⟩ h2

/-- Moving up towards a bound. -/
theorem move_up {h x p alpha : ℝ} (hp : 0 < p) (hx : x ≤ h) (ha : 0 ≤ alpha) (hle : alpha ≤ F.rd (F.rd (h - x) / p)) :
    0 ≤ F.rd (alpha * p) ∧ x + F.rd (alpha * p) ≤ h + ((1 + F.u) ^ 3 - 1) * (h - x) := by
  have hu := F.u_nonneg
  refine ⟨rd_nonneg (by positivity), ?_⟩
  have a1 := abs_rd_le (F := F) (h - x)
  have a2 := abs_rd_le (F := F) (F.rd (h - x) / p)
  have a3 := abs_rd_le (F := F) (alpha * p)
  rw [abs_of_nonneg (show 0 ≤ h - x by linarith)] at a1
  rw [abs_div, abs_of_pos hp] at a2
  rw [abs_of_nonneg (show 0 ≤ alpha * p by positivity)] at a3
  have b1 : |F.rd (h - x)| / p ≤ (1 + F.u) * (h - x) / p := by gcongr
  have b2 : alpha * p ≤ (1 + F.u) ^ 2 * (h - x) := by
    have : alpha ≤ (1 + F.u) * ((1 + F.u) * (h - x) / p) := by
      refine (hle.trans (le_abs_self _)).trans (a2.trans ?_)
      gcongr
    calc alpha * p ≤ (1 + F.u) * ((1 + F.u) * (h - x) / p) * p := by gcongr
      _ = (1 + F.u) ^ 2 * (h - x) := by field_simp
  have b3 : F.rd (alpha * p) ≤ (1 + F.u) ^ 3 * (h - x) := by
    refine (le_abs_self _).trans (a3.trans ?_)
    calc (1 + F.u) * (alpha * p) ≤ (1 + F.u) * ((1 + F.u) ^ 2 * (h - x)) := by gcongr
      _ = _ := by ring
  linarith

/-- Moving down towards a bound. -/
theorem move_down {l x p alpha : ℝ} (hp : p < 0) (hx : l ≤ x) (ha : 0 ≤ alpha) (hle : alpha ≤ F.rd (F.rd (l - x) / p)) :
    F.rd (alpha * p) ≤ 0 ∧ l - ((1 + F.u) ^ 3 - 1) * (x - l) ≤ x + F.rd (alpha * p) := by
  have hu := F.u_nonneg
  refine ⟨rd_nonpos (mul_nonpos_of_nonneg_of_nonpos ha hp.le), ?_⟩
  have a1 := abs_rd_le (F := F) (l - x)
  have a2 := abs_rd_le (F := F) (F.rd (l - x) / p)
  have a3 := abs_rd_le (F := F) (alpha * p)
  rw [abs_of_nonpos (show l - x ≤ 0 by linarith)] at a1
  rw [abs_div, abs_of_neg hp] at a2
  rw [abs_of_nonpos (mul_nonpos_of_nonneg_of_nonpos ha hp.le)] at a3
  have np : 0 < -p := by linarith
  have b1 : |F.rd (l - x)| / -p ≤ (1 + F.u) * -(l - x) / -p := by gcongr
  have b2 : alpha * -p ≤ (1 + F.u) ^ 2 * (x - l) := by
    have : alpha ≤ (1 + F.u) * ((1 + F.u) * -(l - x) / -p) := by
      refine (hle.trans (le_abs_self _)).trans (a2.trans ?_)
      gcongr
    calc alpha * -p ≤ (1 + F.u) * ((1 + F.u) * -(l - x) / -p) * -p := by gcongr
      _ = (1 + F.u) ^ 2 * (x - l) := by
        rw [mul_assoc, div_mul_cancel₀ _ np.ne']
        ring
  have b3 : -F.rd (alpha * p) ≤ (1 + F.u) ^ 3 * (x - l) := by
    refine (neg_le_abs _).trans (a3.trans ?_)
    calc (1 + F.u) * -(alpha * p) = (1 + F.u) * (alpha * -p) := by ring
      _ ≤ (1 + F.u) * ((1 + F.u) ^ 2 * (x - l)) := by gcongr
      _ = _ := by ring
  linarith

/-- **A move by at most the extent stays inside** the box as tested by `isinside`: from every point of the box, in every direction, with every tolerance above three
roundings of the width. -/
theorem extent_move_inside {cs : List Coord} {alpha : ℝ} (h : extentF F cs = some alpha) {tol : ℝ} (ht : 0 ≤ tol)
    (hfl : ∀ c ∈ cs, F.Float c.l ∧ F.Float c.h ∧ F.Float c.x) (hin : ∀ c ∈ cs, c.l ≤ c.x ∧ c.x ≤ c.h) (hw : ∀ c ∈ cs, ((1 + F.u) ^ 3 - 1) * (c.h - c.l) ≤ tol)
    {beta : ℝ} (hb : 0 ≤ beta) (hba : beta ≤ alpha) :
    inBoundsF F (cs.map fun c => XR.fin c.l) (cs.map fun c => XR.fin c.h) tol (cs.map (moveF F beta)) := by
  have hu := F.u_nonneg
  have g0 : 0 ≤ (1 + F.u) ^ 3 - 1 := sub_nonneg.2 (one_le_pow_u _)
  have key : ∀ c ∈ cs, F.rd (c.l - tol) ≤ moveF F beta c ∧ moveF F beta c ≤ F.rd (c.h + tol) := by
    intro c hc
    obtain ⟨fl, fh, fx⟩ := hfl c hc
    obtain ⟨il, ih⟩ := hin c hc
    have w := hw c hc
    have w1 : ((1 + F.u) ^ 3 - 1) * (c.h - c.x) ≤ tol := (mul_le_mul_of_nonneg_left (by linarith) g0).trans w
    have w2 : ((1 + F.u) ^ 3 - 1) * (c.x - c.l) ≤ tol := (mul_le_mul_of_nonneg_left (by linarith) g0).trans w
    have still : beta * c.p = 0 → F.rd (c.l - tol) ≤ moveF F beta c ∧ moveF F beta c ≤ F.rd (c.h + tol) := by
      intro e
      rw [moveF, e, rd_zero, add_zero]
      exact ⟨F.mono (by linarith), F.mono (by linarith)⟩
    rcases lt_trichotomy c.p 0 with hp | hp | hp
    · by_cases hx : c.l = c.x
      · have : alpha = 0 := (extentF_nonneg h).2.2 ⟨c, hc, Or.inl ⟨hx, hp⟩⟩
        exact still (by rw [show beta = 0 by linarith, zero_mul])
      · have hlt : c.l < c.x := lt_of_le_of_ne il hx
        have hy : 0 < F.rd (F.rd (c.l - c.x) / c.p) := by
          apply rd_pos
          apply div_pos_of_neg_of_neg _ hp
          exact lt_of_le_of_ne (rd_nonpos (by linarith)) (rd_ne_zero (by linarith))
        have := extentF_le h hc (by simp [quotientsF, hp.ne]) hy
        obtain ⟨m1, m2⟩ := move_down hp il hb (hba.trans this)
        exact ⟨F.mono (by linarith), F.mono (by linarith)⟩
    · exact still (by rw [hp, mul_zero])
    · by_cases hx : c.h = c.x
      · have : alpha = 0 := (extentF_nonneg h).2.2 ⟨c, hc, Or.inr ⟨hx, hp⟩⟩
        exact still (by rw [show beta = 0 by linarith, zero_mul])
      · have hlt : c.x < c.h := lt_of_le_of_ne ih (Ne.symm hx)
        have hy : 0 < F.rd (F.rd (c.h - c.x) / c.p) := by
          apply rd_pos
          exact div_pos (rd_pos (by linarith)) hp
        have := extentF_le h hc (by simp [quotientsF, hp.ne']) hy
        obtain ⟨m1, m2⟩ := move_up hp ih hb (hba.trans this)
        exact ⟨F.mono (by linarith), F.mono (by linarith)⟩
  constructor
  · intro q hq r hr
    rw [List.zip_map', List.mem_map] at hq
    obtain ⟨c, hc, rfl⟩ := hq
    obtain rfl : c.l = r := by simpa using hr
    exact (key c hc).1
  · intro q hq r hr
    rw [List.zip_map', List.mem_map] at hq
    obtain ⟨c, hc, rfl⟩ := hq
    obtain rfl : c.h = r := by simpa using hr
    exact (key c hc).2

/-- There is an extent unless the direction is zero: from a point of the box, in a direction which is not zero, the result is finite. -/
theorem extentF_some {cs : List Coord} (hin : ∀ c ∈ cs, c.l ≤ c.x ∧ c.x ≤ c.h) : (∃ alpha, extentF F cs = some alpha) ↔ ∃ c ∈ cs, c.p ≠ 0 := by
  classical
  unfold extentF
  split_ifs with h1 h2
  · obtain ⟨c, hc, hc'⟩ := h1
    exact ⟨fun _ => ⟨c, hc, hc'.2.ne⟩, fun _ => ⟨0, rfl⟩⟩
  · obtain ⟨c, hc, hc'⟩ := h2
    exact ⟨fun _ => ⟨c, hc, hc'.2.ne'⟩, fun _ => ⟨0, rfl⟩⟩
  · constructor
    · rintro ⟨alpha, h⟩
      rw [List.min?_eq_some_iff] at h
      obtain ⟨hm, -⟩ := List.mem_filter.1 h.1
      obtain ⟨c, hc, hq⟩ := List.mem_flatMap.1 hm
      refine ⟨c, hc, fun e => ?_⟩
      simp [quotientsF, e] at hq
    · rintro ⟨c, hc, hp⟩
      obtain ⟨il, ih⟩ := hin c hc
      rw [← Option.isSome_iff_exists, List.isSome_min?_iff]
      intro hnil
      have : ∃ y ∈ quotientsF F c, 0 < y := by
        rcases lt_or_gt_of_ne hp with hp' | hp'
        · have hlt : c.l < c.x := lt_of_le_of_ne il fun e => h1 ⟨c, hc, e, hp'⟩
          refine ⟨F.rd (F.rd (c.l - c.x) / c.p), by simp [quotientsF, hp], rd_pos (div_pos_of_neg_of_neg ?_ hp')⟩
          exact lt_of_le_of_ne (rd_nonpos (by linarith)) (rd_ne_zero (by linarith))
        · have hlt : c.x < c.h := lt_of_le_of_ne ih fun e => h2 ⟨c, hc, e.symm, hp'⟩
          exact ⟨F.rd (F.rd (c.h - c.x) / c.p), by simp [quotientsF, hp], rd_pos (div_pos (rd_pos (by linarith)) hp')⟩
      obtain ⟨y, hy, h0⟩ := this
      have : y ∈ ((cs.flatMap (quotientsF F)).filter (fun y => 0 < y)) := List.mem_filter.2 ⟨List.mem_flatMap.2 ⟨c, hc, hy⟩, by simpa using h0⟩
      rw [hnil] at this
      simp at this

/-- The hypotheses can be met: in the square `[0, 1]^2`, from `(0, 1)` in direction `(1, -1)`, in double precision with the tolerance `1e-6`. -/
example : ∃ alpha, extentF double [⟨0, 1, 0, 1⟩, ⟨0, 1, 1, -1⟩] = some alpha ∧ ∀ beta, 0 ≤ beta → beta ≤ alpha →
    inBoundsF double [XR.fin 0, XR.fin 0] [XR.fin 1, XR.fin 1] (1 / 10 ^ 6) ([⟨0, 1, 0, 1⟩, ⟨0, 1, 1, -1⟩].map (moveF double beta)) := by
  obtain ⟨alpha, h⟩ := (extentF_some (F := double) (cs := [⟨0, 1, 0, 1⟩, ⟨0, 1, 1, -1⟩]) (by simp)).2 ⟨⟨0, 1, 0, 1⟩, by simp, by simp⟩
  refine ⟨alpha, h, fun beta hb hba => ?_⟩
  have f0 : double.Float 0 := rd_zero
  have f1 : double.Float 1 := by
    change double.rd 1 = 1
    simpa using double_int 1 (by norm_num)
  exact extent_move_inside h (by norm_num) (by simp [f0, f1]) (by simp) (by simp [double_u]; norm_num) hb hba

end Verif.Round
