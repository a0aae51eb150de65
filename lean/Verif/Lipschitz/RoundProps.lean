import Verif.Lipschitz.RoundModel
import Verif.Domain.RoundProps
import Verif.Domain.RoundNorm
import Verif.Domain.SolverLemmas

/-!
# Uncertainty intervals in rounded arithmetic
-/

namespace Verif.Round

open Verif Verif.Domain

variable {F : FP} {lib : Lib}

/-! ## Specification -/

/-- The distance of two points in the metric of the matrix. -/
noncomputable def lipDist (L : List Vec) (x y : Vec) : ℝ := Vec.norm (Vec.mulVec L (Vec.sub x y))

/-- The size of the numbers which enter the computed distance: the lengths of `|L| |x| + |L| |y|`. -/
noncomputable def distScale (L : List Vec) (x y : Vec) : ℝ := Vec.norm (L.map fun row => absSum (row.zip x) + absSum (row.zip y))

/-- `e` covers the rounding errors of one bound with datum `(y, f)` at `x`: those of the distance, and that of adding the distance to the value. -/
def Covers (F : FP) (L : List Vec) (x y : Vec) (f e : ℝ) : Prop :=
  ((1 + F.u) ^ (x.length + L.length + 3) - 1) * (|f| + distScale L y x) ≤ e

/-! ## Distances -/

theorem rows_near {L : List Vec} {x y a b : Vec} (ha : Transformed F L x a) (hb : Transformed F L y b) (hl : x.length = y.length) :
    List.Forall₂ (fun p c => |p.1 - p.2| ≤ ((1 + F.u) ^ (x.length + 1) - 1) * c) ((subF F a b).zip (Vec.mulVec L (Vec.sub x y)))
      (L.map fun row => absSum (row.zip x) + absSum (row.zip y)) ∧ (subF F a b).length = (Vec.mulVec L (Vec.sub x y)).length ∧ (subF F a b).length = L.length := by
  rw [Domain.mulVec_sub L x y hl]
  unfold Transformed at ha hb
  induction L generalizing a b with
  | nil =>
    cases ha
    simp [subF, Vec.mulVec]
  | cons row L ih =>
    cases ha with
    | @cons _ s _ a h1 h2 =>
      cases hb with
      | @cons _ t _ b k1 k2 =>
        obtain ⟨i1, i2, i3⟩ := ih h2 k2
        refine ⟨?_, by simpa [subF, Vec.mulVec, Vec.sub] using i2, by simpa [subF] using i3⟩
        refine List.Forall₂.cons ?_ i1
        have e1 := h1.err (n := x.length) le_rfl
        have e2 := k1.err (n := x.length) hl.ge
        have n1 := absSum_nonneg (row.zip x)
        have n2 := absSum_nonneg (row.zip y)
        have s1 : |Vec.dot row x - Vec.dot row y| ≤ absSum (row.zip x) + absSum (row.zip y) := by
          have t1 : |Vec.dot row x| ≤ absSum (row.zip x) := by rw [← exactSum_zip]; exact abs_exactSum_le _
          have t2 : |Vec.dot row y| ≤ absSum (row.zip y) := by rw [← exactSum_zip]; exact abs_exactSum_le _
          exact (abs_sub _ _).trans (by linarith)
        have s2 : |(s - t) - (Vec.dot row x - Vec.dot row y)| ≤ ((1 + F.u) ^ x.length - 1) * (absSum (row.zip x) + absSum (row.zip y)) := by
          rw [show (s - t) - (Vec.dot row x - Vec.dot row y) = (s - Vec.dot row x) - (t - Vec.dot row y) by ring]
          refine (abs_sub _ _).trans ?_
          linarith
        have := rd_step (F := F) s2 s1
        rwa [show (1 + ((1 + F.u) ^ x.length - 1)) * (1 + F.u) = (1 + F.u) ^ (x.length + 1) by ring] at this

theorem lipDist_le_scale (L : List Vec) (x y : Vec) (hl : x.length = y.length) : lipDist L x y ≤ distScale L x y := by
  rw [lipDist, Domain.mulVec_sub L x y hl]
  have h : List.Forall₂ (fun p c => |p.1 - p.2| ≤ 1 * c) ((Vec.sub (Vec.mulVec L x) (Vec.mulVec L y)).zip (L.map fun _ => (0 : ℝ)))
      (L.map fun row => absSum (row.zip x) + absSum (row.zip y)) := by
    induction L with
    | nil => simp [Vec.mulVec]
    | cons row L ih =>
      refine List.Forall₂.cons ?_ ih
      have t1 : |Vec.dot row x| ≤ absSum (row.zip x) := by rw [← exactSum_zip]; exact abs_exactSum_le _
      have t2 : |Vec.dot row y| ≤ absSum (row.zip y) := by rw [← exactSum_zip]; exact abs_exactSum_le _
      simp only [sub_zero, one_mul]
      exact (abs_sub _ _).trans (by linarith)
  have := norm_near zero_le_one h (by simp [Vec.sub, Vec.mulVec])
  have z : Vec.norm (L.map fun _ => (0 : ℝ)) = 0 := by
    clear this h
    induction L with
    | nil => simp [Vec.norm]
    | cons row L ih => rw [List.map_cons, norm_cons, ih]; simp
  rw [z, zero_add, one_mul] at this
  exact this

/-- **Error of a computed distance.** -/
theorem distF_err (hlib : lib.Ok F) {L : List Vec} {x y a b : Vec} (ha : Transformed F L x a) (hb : Transformed F L y b) (hl : x.length = y.length) :
    |distF F lib a b - lipDist L x y| ≤ ((1 + F.u) ^ (x.length + L.length + 2) - 1) * distScale L x y := by
  obtain ⟨h1, h2, h3⟩ := rows_near ha hb hl
  set w := subF F a b with hw
  set n := x.length
  set N := distScale L x y with hN
  have g1 : 0 ≤ (1 + F.u) ^ (n + 1) - 1 := sub_nonneg.2 (one_le_pow_u _)
  have gk : 0 ≤ (1 + F.u) ^ L.length - 1 := sub_nonneg.2 (one_le_pow_u _)
  have a1 : Vec.norm w ≤ lipDist L x y + ((1 + F.u) ^ (n + 1) - 1) * N := norm_near g1 h1 h2
  have h1' : List.Forall₂ (fun p c => |p.1 - p.2| ≤ ((1 + F.u) ^ (n + 1) - 1) * c) ((Vec.mulVec L (Vec.sub x y)).zip w)
      (L.map fun row => absSum (row.zip x) + absSum (row.zip y)) := by
    rw [← List.zip_swap, List.forall₂_map_left_iff]
    exact h1.imp fun p c hp => by rw [Prod.fst_swap, Prod.snd_swap, abs_sub_comm]; exact hp
  have a2 : lipDist L x y ≤ Vec.norm w + ((1 + F.u) ^ (n + 1) - 1) * N := norm_near g1 h1' h2.symm
  have a3 : lipDist L x y ≤ N := lipDist_le_scale L x y hl
  have a0 : 0 ≤ lipDist L x y := Vec.norm_nonneg _
  have a4 := sq_near (hlib.sq w) h3.le
  have a5 : |Real.sqrt (lib.sq w) - lipDist L x y| ≤ ((1 + F.u) ^ (n + L.length + 1) - 1) * N := by
    have : |Real.sqrt (lib.sq w) - lipDist L x y| ≤ |Real.sqrt (lib.sq w) - Vec.norm w| + |Vec.norm w - lipDist L x y| := by
      simpa using abs_add_le (Real.sqrt (lib.sq w) - Vec.norm w) (Vec.norm w - lipDist L x y)
    have b1 : |Vec.norm w - lipDist L x y| ≤ ((1 + F.u) ^ (n + 1) - 1) * N := abs_le.2 ⟨by linarith, by linarith⟩
    have b2 : Vec.norm w ≤ (1 + F.u) ^ (n + 1) * N := by linarith
    have b3 := mul_le_mul_of_nonneg_left b2 gk
    have e : (1 + F.u) ^ (n + L.length + 1) = (1 + F.u) ^ L.length * (1 + F.u) ^ (n + 1) := by rw [← pow_add]; congr 1; omega
    rw [e]
    nlinarith
  have := rd_step (F := F) a5 (by rwa [abs_of_nonneg a0])
  rwa [show (1 + ((1 + F.u) ^ (n + L.length + 1) - 1)) * (1 + F.u) = (1 + F.u) ^ (n + L.length + 2) by ring] at this

/-- One bound. -/
theorem bound_err (hlib : lib.Ok F) {L : List Vec} {x y a b : Vec} {f e : ℝ} (hb : Transformed F L y b) (ha : Transformed F L x a) (hl : x.length = y.length)
    (hc : Covers F L x y f e) : |F.rd (f - distF F lib b a) - (f - lipDist L y x)| ≤ e ∧ |F.rd (f + distF F lib b a) - (f + lipDist L y x)| ≤ e := by
  have h := distF_err hlib hb ha hl.symm
  rw [← hl] at h
  have a0 : 0 ≤ lipDist L y x := Vec.norm_nonneg _
  have a3 := lipDist_le_scale L y x hl.symm
  have n0 : 0 ≤ distScale L y x := a0.trans a3
  set G := (1 + F.u) ^ (x.length + L.length + 2) - 1 with hG
  have g0 : 0 ≤ G := sub_nonneg.2 (one_le_pow_u _)
  have h' : |distF F lib b a - lipDist L y x| ≤ G * (|f| + distScale L y x) := h.trans (mul_le_mul_of_nonneg_left (by linarith [abs_nonneg f]) g0)
  have e1 : (1 + G) * (1 + F.u) - 1 = (1 + F.u) ^ (x.length + L.length + 3) - 1 := by rw [hG]; ring
  constructor
  · have := rd_step (F := F) (v := f - distF F lib b a) (w := f - lipDist L y x) (G := G) (S := |f| + distScale L y x)
      (by rw [show f - distF F lib b a - (f - lipDist L y x) = -(distF F lib b a - lipDist L y x) by ring, abs_neg]; exact h')
      ((abs_sub _ _).trans (by rw [abs_of_nonneg a0]; linarith))
    rw [e1] at this
    exact this.trans hc
  · have := rd_step (F := F) (v := f + distF F lib b a) (w := f + lipDist L y x) (G := G) (S := |f| + distScale L y x)
      (by rw [show f + distF F lib b a - (f + lipDist L y x) = distF F lib b a - lipDist L y x by ring]; exact h')
      ((abs_add_le _ _).trans (by rw [abs_of_nonneg a0]; linarith))
    rw [e1] at this
    exact this.trans hc

/-! ## The intervals -/

/-- The data: points, values, and transformed points. -/
structure Datum where
  y : Vec
  f : ℝ
  v : Vec

/-- **The computed interval is the exact one up to rounding**: the lower bound is, up to `e`, the largest of the `f - ‖L(x - y)‖`, the upper bound the smallest of the
`f + ‖L(x - y)‖`. -/
theorem interval_near (hlib : lib.Ok F) {L : List Vec} {x a : Vec} {e : ℝ} {ds : List Datum} (hne : ds ≠ []) (ha : Transformed F L x a)
    (hd : ∀ d ∈ ds, Transformed F L d.y d.v ∧ x.length = d.y.length ∧ Covers F L x d.y d.f e) :
    ∃ lo hi, intervalF F lib none (ds.map fun d => (d.v, d.f)) a = (some lo, some hi) ∧
      (∀ d ∈ ds, d.f - lipDist L d.y x ≤ lo + e) ∧ (∃ d ∈ ds, lo ≤ d.f - lipDist L d.y x + e) ∧
      (∀ d ∈ ds, hi - e ≤ d.f + lipDist L d.y x) ∧ (∃ d ∈ ds, d.f + lipDist L d.y x - e ≤ hi) := by
  have err := fun d hd' => bound_err hlib (hd d hd').1 ha (hd d hd').2.1 (hd d hd').2.2
  obtain ⟨lo, hlo⟩ : ∃ lo, lowerF F lib (ds.map fun d => (d.v, d.f)) a = some lo := by
    rw [← Option.isSome_iff_exists, lowerF, List.isSome_max?_iff]; simpa using hne
  obtain ⟨hi, hhi⟩ : ∃ hi, upperF F lib (ds.map fun d => (d.v, d.f)) a = some hi := by
    rw [← Option.isSome_iff_exists, upperF, List.isSome_min?_iff]; simpa using hne
  refine ⟨lo, hi, by rw [intervalF, hlo, hhi], ?_⟩
  rw [lowerF, List.map_map, List.max?_eq_some_iff] at hlo
  rw [upperF, List.map_map, List.min?_eq_some_iff] at hhi
  refine ⟨?_, ?_, ?_, ?_⟩
  · intro d hd'
    have h1 := hlo.2 _ (List.mem_map_of_mem hd')
    have h2 := abs_le.1 (err d hd').1
    simp only [Function.comp] at h1
    linarith [h2.1]
  · obtain ⟨d, hd', rfl⟩ := List.mem_map.1 hlo.1
    have h2 := abs_le.1 (err d hd').1
    refine ⟨d, hd', ?_⟩
    simp only [Function.comp]
    linarith [h2.2]
  · intro d hd'
    have h1 := hhi.2 _ (List.mem_map_of_mem hd')
    have h2 := abs_le.1 (err d hd').2
    simp only [Function.comp] at h1
    linarith [h2.2]
  · obtain ⟨d, hd', rfl⟩ := List.mem_map.1 hhi.1
    have h2 := abs_le.1 (err d hd').2
    refine ⟨d, hd', ?_⟩
    simp only [Function.comp]
    linarith [h2.1]

/-- **The value of the function lies in the computed interval up to rounding**, for every function which satisfies the Lipschitz condition at the data; in particular
the ends are in order up to rounding. -/
theorem interval_contains (hlib : lib.Ok F) {L : List Vec} {x a : Vec} {e : ℝ} {ds : List Datum} (hne : ds ≠ []) (ha : Transformed F L x a)
    (hd : ∀ d ∈ ds, Transformed F L d.y d.v ∧ x.length = d.y.length ∧ Covers F L x d.y d.f e) {g : ℝ} (hg : ∀ d ∈ ds, |g - d.f| ≤ lipDist L d.y x) :
    ∃ lo hi, intervalF F lib none (ds.map fun d => (d.v, d.f)) a = (some lo, some hi) ∧ lo - e ≤ g ∧ g ≤ hi + e ∧ lo ≤ hi + 2 * e := by
  obtain ⟨lo, hi, h, -, ⟨d, hd1, h1⟩, -, ⟨d', hd2, h2⟩⟩ := interval_near hlib hne ha hd
  have k1 := abs_le.1 (hg d hd1)
  have k2 := abs_le.1 (hg d' hd2)
  exact ⟨lo, hi, h, by linarith [k1.1], by linarith [k2.2], by linarith [k1.1, k2.2]⟩

/-- With a noise level the ends are moved by it, with one more rounding. -/
theorem interval_noise {eps : ℝ} {data : List (Vec × ℝ)} {t : Vec} {lo hi : ℝ} (h : intervalF F lib none data t = (some lo, some hi)) :
    ∃ lo' hi', intervalF F lib (some eps) data t = (some lo', some hi') ∧ |lo' - (lo - eps)| ≤ F.u * |lo - eps| ∧ |hi' - (hi + eps)| ≤ F.u * |hi + eps| := by
  simp only [intervalF, Prod.mk.injEq] at h ⊢
  exact ⟨_, _, ⟨by rw [h.1]; rfl, by rw [h.2]; rfl⟩, F.err _, F.err _⟩

theorem subF_self (a : Vec) : ∀ t ∈ subF F a a, t = 0 := by
  induction a with
  | nil => simp [subF]
  | cons b a ih =>
    intro t ht
    simp only [subF, List.zipWith_cons_cons, List.mem_cons, sub_self, rd_zero] at ht
    exact ht.elim id (ih t)

theorem sub_self_norm (a : Vec) : ∀ p ∈ (subF F a a).zip (subF F a a), p.1 * p.2 = 0 := by
  intro p hp
  rw [subF_self a p.1 (List.of_mem_zip hp).1, zero_mul]

/-- **At a data point** whose transformed point is the same number for number, the bounds pass the value: the interval contains nothing else (it is the value, or its ends
are in the wrong order). -/
theorem interval_at_data (hlib : lib.Ok F) {ds : List Datum} {d : Datum} (hd : d ∈ ds) (hf : F.Float d.f) :
    ∃ lo hi, intervalF F lib none (ds.map fun d => (d.v, d.f)) d.v = (some lo, some hi) ∧ d.f ≤ lo ∧ hi ≤ d.f := by
  have z : distF F lib d.v d.v = 0 := by
    have : lib.sq (subF F d.v d.v) = 0 := by
      rcases hlib.sq (subF F d.v d.v) with ⟨_, h⟩ | ⟨t, ht, h⟩
      · exact h
      · rw [h]
        exact t.eval_zero fun p hp => sub_self_norm d.v p (ht.mem_iff.1 hp)
    rw [distF, this, Real.sqrt_zero, rd_zero]
  obtain ⟨lo, hlo⟩ : ∃ lo, lowerF F lib (ds.map fun d => (d.v, d.f)) d.v = some lo := by
    rw [← Option.isSome_iff_exists, lowerF, List.isSome_max?_iff]; simpa using List.ne_nil_of_mem hd
  obtain ⟨hi, hhi⟩ : ∃ hi, upperF F lib (ds.map fun d => (d.v, d.f)) d.v = some hi := by
    rw [← Option.isSome_iff_exists, upperF, List.isSome_min?_iff]; simpa using List.ne_nil_of_mem hd
  refine ⟨lo, hi, by rw [intervalF, hlo, hhi], ?_, ?_⟩
  · rw [lowerF, List.map_map, List.max?_eq_some_iff] at hlo
    have h1 := hlo.2 _ (List.mem_map_of_mem hd)
    simp only [Function.comp, z, sub_zero] at h1
    rwa [show F.rd d.f = d.f from hf] at h1
  · rw [upperF, List.map_map, List.min?_eq_some_iff] at hhi
    have h1 := hhi.2 _ (List.mem_map_of_mem hd)
    simp only [Function.comp, z, add_zero] at h1
    rwa [show F.rd d.f = d.f from hf] at h1

/-! ## The ends can be out of order -/

theorem double_half {t : ℝ} (h1 : 1 / 2 ≤ t) (h2 : t < 1) {k : ℤ} (hk : (k : ℝ) - 1 / 2 ≤ t * 2 ^ 53) (hk' : t * 2 ^ 53 < k + 1 / 2) : double.rd t = k / 2 ^ 53 := by
  have hpos : 0 < t := by linarith
  have hl : Int.log 2 t = -1 := log_of (by norm_num; linarith) (by norm_num; linarith)
  change rdBin nearest 53 _ = _
  rw [rdBin, if_neg hpos.ne', scale, abs_of_pos hpos, hl]
  have e : (2 : ℝ) ^ (((53 : ℕ) : ℤ) - 1 - -1) = 2 ^ 53 := by norm_num
  have : nearest.ρ (t * 2 ^ (((53 : ℕ) : ℤ) - 1 - -1)) = k := by
    change round _ = _
    rw [e, round_eq, Int.floor_eq_iff]
    constructor <;> linarith
  rw [this, e]

/-- **The ends of the interval can be in the wrong order** although the data come from a function with the Lipschitz condition: in double precision, for `f(x) = x` with data
at `0` and `1` and the right Lipschitz matrix, at `x = 7 / 2^55`. -/
theorem interval_order_false : ∃ x : ℝ, ∃ lo hi, double.Float x ∧ (∀ y : ℝ, y = 0 ∨ y = 1 → |x - y| ≤ lipDist [[1]] [y] [x]) ∧
    intervalF double (seqLib double) none [((seqLib double).mv [[1]] [0], 0), ((seqLib double).mv [[1]] [1], 1)] ((seqLib double).mv [[1]] [x]) = (some lo, some hi) ∧
    hi < lo := by
  have fx : double.rd (7 / 2 ^ 55) = 7 / 2 ^ 55 := by
    have := double_fix 7 (-55) (by norm_num)
    norm_num at this ⊢
    exact this
  have fx' : double.rd (-(7 / 2 ^ 55)) = -(7 / 2 ^ 55) := by
    have := double_fix (-7) (-55) (by norm_num)
    norm_num at this ⊢
    exact this
  have fxx : double.rd (-(7 / 2 ^ 55) * -(7 / 2 ^ 55)) = (7 / 2 ^ 55) ^ 2 := by
    have := double_fix 49 (-110) (by norm_num)
    norm_num at this ⊢
    exact this
  have f1 : double.rd 1 = 1 := by simpa using double_int 1 (by norm_num)
  have f0 : double.rd 0 = 0 := rd_zero
  have mv : ∀ t : ℝ, (seqLib double).mv [[1]] [t] = [double.rd t] := by
    intro t
    simp [seqLib, seqDot, seqTree, DotTree.eval]
  have sq : ∀ t : ℝ, (seqLib double).sq [t] = double.rd (t * t) := by
    intro t
    simp [seqLib, seqDot, seqTree, DotTree.eval]
  have d0 : distF double (seqLib double) [0] [7 / 2 ^ 55] = 7 / 2 ^ 55 := by
    rw [distF, show subF double [0] [7 / 2 ^ 55] = [-(7 / 2 ^ 55)] by simp only [subF, List.zipWith_cons_cons, List.zipWith_nil_left, zero_sub, fx'], sq, fxx,
      Real.sqrt_sq (by norm_num), fx]
  have r1 : double.rd (1 - 7 / 2 ^ 55) = 1 - 2 / 2 ^ 53 := by
    rw [double_half (k := 2 ^ 53 - 2) (by norm_num) (by norm_num) (by norm_num) (by norm_num)]
    norm_num
  have r2 : double.rd ((1 - 2 / 2 ^ 53) * (1 - 2 / 2 ^ 53)) = 1 - 4 / 2 ^ 53 := by
    rw [double_half (k := 2 ^ 53 - 4) (by norm_num) (by norm_num) (by norm_num) (by norm_num)]
    norm_num
  have s1 : (2 ^ 53 - 5 / 2) / 2 ^ 53 ≤ Real.sqrt (1 - 4 / 2 ^ 53) := Real.le_sqrt_of_sq_le (by norm_num)
  have s2 : Real.sqrt (1 - 4 / 2 ^ 53) < (2 ^ 53 - 3 / 2) / 2 ^ 53 := by
    rw [Real.sqrt_lt' (by norm_num)]
    norm_num
  have r3 : double.rd (Real.sqrt (1 - 4 / 2 ^ 53)) = 1 - 2 / 2 ^ 53 := by
    rw [double_half (k := 2 ^ 53 - 2) (by norm_num at s1 ⊢; linarith) (by norm_num at s2 ⊢; linarith) (by norm_num at s1 ⊢; linarith) (by norm_num at s2 ⊢; linarith)]
    norm_num
  have d1 : distF double (seqLib double) [1] [7 / 2 ^ 55] = 1 - 2 / 2 ^ 53 := by
    rw [distF, show subF double [1] [7 / 2 ^ 55] = [1 - 2 / 2 ^ 53] by simp only [subF, List.zipWith_cons_cons, List.zipWith_nil_left, r1], sq, r2, r3]
  have b1 : double.rd (1 - (1 - 2 / 2 ^ 53)) = 1 / 2 ^ 52 := by
    have := double_fix 1 (-52) (by norm_num)
    norm_num at this ⊢
    exact this
  obtain ⟨lo, hlo⟩ : ∃ lo, lowerF double (seqLib double) [([0], 0), ([1], 1)] [7 / 2 ^ 55] = some lo := by
    rw [← Option.isSome_iff_exists, lowerF, List.isSome_max?_iff]; simp
  obtain ⟨hi, hhi⟩ : ∃ hi, upperF double (seqLib double) [([0], 0), ([1], 1)] [7 / 2 ^ 55] = some hi := by
    rw [← Option.isSome_iff_exists, upperF, List.isSome_min?_iff]; simp
  refine ⟨7 / 2 ^ 55, lo, hi, fx, ?_, by rw [mv, mv, mv, f0, f1, fx, intervalF, hlo, hhi], ?_⟩
  · intro y _
    rw [lipDist, show Vec.mulVec [[1]] (Vec.sub [y] [7 / 2 ^ 55]) = [y - 7 / 2 ^ 55] by simp [Vec.mulVec, Vec.sub, Vec.dot], Vec.norm,
      show Vec.sumSq [y - 7 / 2 ^ 55] = (y - 7 / 2 ^ 55) ^ 2 by simp [Vec.sumSq, Vec.dot, sq], Real.sqrt_sq_eq_abs, abs_sub_comm]
  · rw [lowerF, List.max?_eq_some_iff] at hlo
    rw [upperF, List.min?_eq_some_iff] at hhi
    have h1 := hlo.2 (1 / 2 ^ 52) (by simp only [List.map_cons, List.map_nil, d1, b1]; simp)
    have h2 := hhi.2 (7 / 2 ^ 55) (by simp only [List.map_cons, List.map_nil, d0, zero_add, fx]; simp)
    refine lt_of_le_of_lt h2 (lt_of_lt_of_le ?_ h1)
    norm_num

/-- The hypotheses can be met: `L = [[2]]`, one datum at `3` with value `1`, tested at `5`, in double precision. -/
example : ∃ e, ∃ lo hi, intervalF double (seqLib double) none [(seqLib double |>.mv [[2]] [3], 1)] ((seqLib double).mv [[2]] [5]) = (some lo, some hi) ∧
    lo - e ≤ 2 ∧ 2 ≤ hi + e ∧ lo ≤ hi + 2 * e := by
  refine ⟨((1 + double.u) ^ (1 + 1 + 3) - 1) * (|1| + distScale [[2]] [3] [5]), interval_contains (seqLib_ok double) (L := [[2]]) (x := [5]) (ds := [⟨[3], 1, (seqLib double).mv [[2]] [3]⟩]) (by simp)
    ((seqLib_ok double).mv _ _) ?_ ?_⟩
  · intro d hd
    obtain rfl : d = _ := by simpa using hd
    exact ⟨(seqLib_ok double).mv _ _, rfl, le_rfl⟩
  · intro d hd
    obtain rfl : d = _ := by simpa using hd
    have : lipDist [[2]] [3] [5] = 4 := by
      rw [lipDist, show Vec.mulVec [[2]] (Vec.sub [3] [5]) = [-4] by norm_num [Vec.mulVec, Vec.sub, Vec.dot], Vec.norm]
      rw [show Vec.sumSq [-4] = 4 ^ 2 by norm_num [Vec.sumSq, Vec.dot], Real.sqrt_sq (by norm_num)]
    simp only [this]
    norm_num

end Verif.Round
