import Verif.Domain.RoundProps
import Verif.Domain.RoundExists

/-!
# Boxes and normalization in rounded arithmetic; what goes wrong for large numbers
-/

namespace Verif.Round

open Verif Verif.Domain

variable {F : FP} {lib : Lib}

/-! ## A library: left to right -/

/-- The inner product from left to right. -/
def seqTree : ℝ × ℝ → List (ℝ × ℝ) → DotTree
  | p, l => l.foldl (fun t q => .add t (.term q.1 q.2)) (.term p.1 p.2)

theorem foldl_terms (t : DotTree) (l : List (ℝ × ℝ)) : (l.foldl (fun t q => DotTree.add t (.term q.1 q.2)) t).terms = t.terms ++ l := by
  induction l generalizing t with
  | nil => simp
  | cons q l ih => rw [List.foldl_cons, ih]; simp [DotTree.terms]

/-- The inner product of the library. -/
noncomputable def seqDot (F : FP) (a x : Vec) : ℝ :=
  match a.zip x with
  | [] => 0
  | p :: l => (seqTree p l).eval F

theorem seqDot_computes (F : FP) (a x : Vec) : Computes F a x (seqDot F a x) := by
  unfold seqDot Computes
  cases h : a.zip x with
  | nil => simp
  | cons p l => exact Or.inr ⟨seqTree p l, by rw [seqTree, foldl_terms]; simp [DotTree.terms], rfl⟩

/-- A library which adds from left to right. -/
noncomputable def seqLib (F : FP) : Lib := ⟨fun A x => A.map fun row => seqDot F row x, fun w => seqDot F w w⟩

theorem seqLib_ok (F : FP) : (seqLib F).Ok F := by
  refine ⟨fun A x => ?_, fun w => seqDot_computes F w w⟩
  induction A with
  | nil => exact List.Forall₂.nil
  | cons row A ih => exact List.Forall₂.cons (seqDot_computes F row x) ih

/-! ## Boxes -/

/-- A sample of a box is never below the lower bound, and above the upper bound at most by the rounding errors in the width. -/
theorem uniformF_mem {l h t : ℝ} (hl : F.Float l) (hlh : l ≤ h) (h0 : 0 ≤ t) (h1 : t ≤ 1) :
    l ≤ uniformF F l h t ∧ ∀ s : ℝ, ((1 + F.u) ^ 2 - 1) * (h - l) ≤ s → uniformF F l h t ≤ F.rd (h + s) := by
  have hu := F.u_nonneg
  have w0 : 0 ≤ h - l := by linarith
  have a1 : 0 ≤ F.rd (h - l) := rd_nonneg w0
  have a2 : F.rd (h - l) ≤ (1 + F.u) * (h - l) := by
    have := abs_rd_le (F := F) (h - l)
    rwa [abs_of_nonneg a1, abs_of_nonneg w0] at this
  have b1 : 0 ≤ F.rd (F.rd (h - l) * t) := rd_nonneg (mul_nonneg a1 h0)
  have b2 : F.rd (F.rd (h - l) * t) ≤ (1 + F.u) * (F.rd (h - l) * t) := by
    have := abs_rd_le (F := F) (F.rd (h - l) * t)
    rwa [abs_of_nonneg b1, abs_of_nonneg (mul_nonneg a1 h0)] at this
  constructor
  · have := F.mono (show l ≤ l + F.rd (F.rd (h - l) * t) by linarith)
    rwa [hl] at this
  · intro s hs
    apply F.mono
    have b3 : F.rd (h - l) * t ≤ (1 + F.u) * (h - l) := (mul_le_of_le_one_right a1 h1).trans a2
    have b4 : (1 + F.u) * (F.rd (h - l) * t) ≤ (1 + F.u) * ((1 + F.u) * (h - l)) := mul_le_mul_of_nonneg_left b3 (by linarith)
    nlinarith

/-- **Samples of a box pass the box's own test** in rounded arithmetic, as long as the rounding errors in the widths stay below the tolerance. -/
theorem box_sample_inside {lb ub ts : Vec} {tol : ℝ} (ht : 0 ≤ tol) (hl : ∀ l ∈ lb, F.Float l) (hlh : ∀ p ∈ lb.zip ub, p.1 ≤ p.2 ∧ ((1 + F.u) ^ 2 - 1) * (p.2 - p.1) ≤ tol)
    (hts : ∀ t ∈ ts, 0 ≤ t ∧ t ≤ 1) :
    inBoundsF F (lb.map XR.fin) (ub.map XR.fin) tol (List.zipWith (fun p t => uniformF F p.1 p.2 t) (lb.zip ub) ts) := by
  constructor
  · intro q hq r hr
    induction lb generalizing ub ts with
    | nil => simp at hq
    | cons l lb ih =>
      cases ub with
      | nil => simp at hq
      | cons h ub =>
        cases ts with
        | nil => simp at hq
        | cons t ts =>
          simp only [List.map_cons, List.zip_cons_cons, List.zipWith_cons_cons, List.mem_cons] at hq
          rcases hq with rfl | hq
          · obtain rfl : l = r := by simpa using hr
            obtain ⟨h1, h2⟩ := hts t (by simp)
            have h3 := (uniformF_mem (F := F) (hl l (by simp)) (hlh (l, h) (by simp)).1 h1 h2).1
            have h4 := F.mono (show l - tol ≤ l by linarith)
            rw [hl l (by simp)] at h4
            exact h4.trans h3
          · exact ih (fun a ha => hl a (by simp [ha])) (fun p hp => hlh p (by simp [hp])) (fun a ha => hts a (by simp [ha])) hq
  · intro q hq r hr
    induction lb generalizing ub ts with
    | nil => simp at hq
    | cons l lb ih =>
      cases ub with
      | nil => simp at hq
      | cons h ub =>
        cases ts with
        | nil => simp at hq
        | cons t ts =>
          simp only [List.map_cons, List.zip_cons_cons, List.zipWith_cons_cons, List.mem_cons] at hq
          rcases hq with rfl | hq
          · obtain rfl : h = r := by simpa using hr
            obtain ⟨h1, h2⟩ := hts t (by simp)
            obtain ⟨h5, h6⟩ := hlh (l, h) (by simp)
            exact (uniformF_mem (F := F) (hl l (by simp)) h5 h1 h2).2 tol h6
          · exact ih (fun a ha => hl a (by simp [ha])) (fun p hp => hlh p (by simp [hp])) (fun a ha => hts a (by simp [ha])) hq

/-- **Corners of a nonempty box pass the test** in rounded arithmetic, for all magnitudes: `corner` does not take the box to be empty. -/
theorem box_corner_inside {lb ub p : Vec} {tol : ℝ} (ht : 0 ≤ tol) (hl : ∀ l ∈ lb, F.Float l) (hu : ∀ h ∈ ub, F.Float h) (hlh : ∀ q ∈ lb.zip ub, q.1 ≤ q.2) :
    inBoundsF F (lb.map XR.fin) (ub.map XR.fin) tol (cornerF lb ub p) := by
  have key : ∀ x, (∀ t ∈ x, F.Float t) → inBounds (lb.map XR.fin) (ub.map XR.fin) tol x → inBoundsF F (lb.map XR.fin) (ub.map XR.fin) tol x :=
    fun x hx h => inBounds_inBoundsF hx h
  apply key
  · clear key hlh
    induction lb generalizing ub p with
    | nil => simp [cornerF]
    | cons l lb ih =>
      cases ub with
      | nil => simp [cornerF]
      | cons h ub =>
        cases p with
        | nil => simp [cornerF]
        | cons a p =>
          intro t htm
          simp only [cornerF, List.mem_cons] at htm
          rcases htm with rfl | htm
          · split_ifs
            · exact hu h (by simp)
            · exact hl l (by simp)
          · exact ih (fun a ha => hl a (by simp [ha])) (fun a ha => hu a (by simp [ha])) t htm
  · clear key hl hu
    constructor
    · intro q hq r hr
      induction lb generalizing ub p with
      | nil => simp at hq
      | cons l lb ih =>
        cases ub with
        | nil => simp [cornerF] at hq
        | cons h ub =>
          cases p with
          | nil => simp [cornerF] at hq
          | cons a p =>
            simp only [List.map_cons, cornerF, List.zip_cons_cons, List.mem_cons] at hq
            rcases hq with rfl | hq
            · obtain rfl : l = r := by simpa using hr
              have := hlh (l, h) (by simp)
              dsimp only at this ⊢
              split_ifs <;> linarith
            · exact ih (fun p hp => hlh p (by simp [hp])) hq
    · intro q hq r hr
      induction lb generalizing ub p with
      | nil => simp [cornerF] at hq
      | cons l lb ih =>
        cases ub with
        | nil => simp at hq
        | cons h ub =>
          cases p with
          | nil => simp [cornerF] at hq
          | cons a p =>
            simp only [List.map_cons, cornerF, List.zip_cons_cons, List.mem_cons] at hq
            rcases hq with rfl | hq
            · obtain rfl : h = r := by simpa using hr
              have := hlh (l, h) (by simp)
              dsimp only at this ⊢
              split_ifs <;> linarith
            · exact ih (fun p hp => hlh p (by simp [hp])) hq

/-! ## Normalization -/

/-- A diagonal matrix multiplies each entry with one rounding, whatever the order of summation. -/
theorem mv_diag (hlib : lib.Ok F) (s y : Vec) (h : s.length = y.length) : lib.mv (diagF s) y = List.zipWith (fun a b => F.rd (a * b)) s y := by
  have hw := hlib.mv (diagF s) y
  have hlen : (lib.mv (diagF s) y).length = s.length := by rw [← hw.length_eq]; simp [diagF]
  apply List.ext_getElem
  · simp [hlen, h]
  · intro i h1 h2
    have his : i < s.length := by rw [hlen] at h1; exact h1
    have hiy : i < y.length := by omega
    have hc := (List.forall₂_iff_get.1 hw).2 i (by simp [diagF, his]) h1
    simp only [List.get_eq_getElem] at hc
    have hrow : (diagF s)[i]'(by simp [diagF, his]) = (List.range s.length).map fun j => if j = i then s[i] else 0 := by
      simp [diagF, his]
    rw [hrow] at hc
    rw [List.getElem_zipWith]
    have hz : ((List.range s.length).map fun j => if j = i then s[i] else 0).zip y =
        ((List.range i).map fun j => ((0 : ℝ), y.getD j 0)) ++ (s[i], y[i]) :: ((List.range (s.length - (i + 1))).map fun j => ((0 : ℝ), y.getD (i + 1 + j) 0)) := by
      apply List.ext_getElem
      · simp; omega
      · intro j hj1 hj2
        have hj : j < s.length := by simp at hj1; omega
        have hjy : j < y.length := by omega
        rw [List.getElem_zip, List.getElem_map, List.getElem_range]
        rcases lt_trichotomy j i with hji | rfl | hji
        · rw [List.getElem_append_left (by simpa using hji)]
          simp [hji.ne, hjy]
        · rw [List.getElem_append_right (by simp)]
          simp
        · rw [List.getElem_append_right (by simp; omega)]
          simp only [List.length_map, List.length_range]
          obtain ⟨k, rfl⟩ : ∃ k, j = i + 1 + k := ⟨j - (i + 1), by omega⟩
          simp only [show i + 1 + k - i = k + 1 by omega, List.getElem_cons_succ, List.getElem_map, List.getElem_range]
          rw [if_neg (by omega)]
          simp [hjy]
    rcases hc with ⟨h0, _⟩ | ⟨t, ht, hv⟩
    · rw [hz] at h0; simp at h0
    · rw [hv]
      rw [hz] at ht
      apply DotTree.eval_single t _ _ _ _ ht
      intro p hp
      simp only [List.mem_append, List.mem_map] at hp
      rcases hp with ⟨j, _, rfl⟩ | ⟨j, _, rfl⟩ <;> simp

theorem normalizeF_eq (hlib : lib.Ok F) {lb ub x : Vec} (h1 : lb.length = x.length) (h2 : ub.length = x.length) :
    normalizeF F lib lb ub x = List.zipWith (fun a b => F.rd (a * b)) (List.zipWith (nslopeF F) lb ub) (subF F x (List.zipWith (centerF F) lb ub)) := by
  rw [normalizeF, mv_diag hlib]
  simp [subF, h1, h2]

theorem unnormalizeF_eq (hlib : lib.Ok F) {lb ub z : Vec} (h1 : lb.length = z.length) (h2 : ub.length = z.length) :
    unnormalizeF F lib lb ub z = List.zipWith (fun a b => F.rd (a + b)) (List.zipWith (fun a b => F.rd (a * b)) (List.zipWith (uslopeF F) lb ub) z)
      (List.zipWith (centerF F) lb ub) := by
  rw [unnormalizeF, mv_diag hlib]
  simp [h1, h2]

/-- Chained relative errors. -/
theorem rel_step {v w : ℝ} {k : ℕ} (h : |v - w| ≤ ((1 + F.u) ^ k - 1) * |w|) : |F.rd v - w| ≤ ((1 + F.u) ^ (k + 1) - 1) * |w| := by
  have := rd_step (F := F) h (le_refl _)
  rwa [show (1 + ((1 + F.u) ^ k - 1)) * (1 + F.u) = (1 + F.u) ^ (k + 1) by ring] at this

theorem rel_mul {v w c d : ℝ} {j k : ℕ} (h : |v - w| ≤ ((1 + F.u) ^ j - 1) * |w|) (h' : |c - d| ≤ ((1 + F.u) ^ k - 1) * |d|) :
    |c * v - d * w| ≤ ((1 + F.u) ^ (k + j) - 1) * |d * w| := by
  have e : c * v - d * w = (c - d) * (v - w) + (c - d) * w + d * (v - w) := by ring
  rw [e]
  refine (abs_add_le _ _).trans ?_
  have h1 : |(c - d) * (v - w) + (c - d) * w| ≤ |c - d| * |v - w| + |c - d| * |w| := by
    refine (abs_add_le _ _).trans ?_
    rw [abs_mul, abs_mul]
  rw [abs_mul d (v - w), abs_mul d w]
  have g1 : 0 ≤ (1 + F.u) ^ j - 1 := sub_nonneg.2 (one_le_pow_u _)
  have g2 : 0 ≤ (1 + F.u) ^ k - 1 := sub_nonneg.2 (one_le_pow_u _)
  have a1 : |c - d| * |v - w| ≤ (((1 + F.u) ^ k - 1) * |d|) * (((1 + F.u) ^ j - 1) * |w|) :=
    mul_le_mul h' h (abs_nonneg _) (mul_nonneg g2 (abs_nonneg _))
  have a2 : |c - d| * |w| ≤ (((1 + F.u) ^ k - 1) * |d|) * |w| := mul_le_mul_of_nonneg_right h' (abs_nonneg _)
  have a3 : |d| * |v - w| ≤ |d| * (((1 + F.u) ^ j - 1) * |w|) := mul_le_mul_of_nonneg_left h (abs_nonneg _)
  rw [pow_add]
  nlinarith

theorem rd_ne_zero {t : ℝ} (h : t ≠ 0) : F.rd t ≠ 0 := by
  intro e
  have := F.err t
  rw [e, zero_sub, abs_neg] at this
  nlinarith [abs_pos.2 h, F.u_lt]

/-- One coordinate of the round trip. -/
theorem roundtrip1 (l h x : ℝ) :
    |F.rd (F.rd (uslopeF F l h * F.rd (nslopeF F l h * F.rd (x - centerF F l h))) + centerF F l h) - x| ≤
      ((1 + F.u) ^ 6 - 1) * |x - centerF F l h| + F.u * |x| := by
  have h0 := F.u_nonneg
  generalize centerF F l h = c
  have base : |F.rd (x - c) - (x - c)| ≤ ((1 + F.u) ^ 1 - 1) * |x - c| := by simpa using F.err (x - c)
  have key : |F.rd (uslopeF F l h * F.rd (nslopeF F l h * F.rd (x - c))) - (x - c)| ≤ ((1 + F.u) ^ 5 - 1) * |x - c| := by
    by_cases hlh : h = l
    · simp only [uslopeF, nslopeF, hlh, ne_eq, not_true_eq_false, if_false, one_mul, F.idem]
      refine base.trans (mul_le_mul_of_nonneg_right (sub_le_sub_right (pow_u_mono (by norm_num)) 1) (abs_nonneg _))
    · have hD : F.rd (h - l) ≠ 0 := rd_ne_zero (sub_ne_zero.2 hlh)
      simp only [uslopeF, nslopeF, hlh, ne_eq, not_false_eq_true, if_true]
      have e1 : |F.rd (2 / F.rd (h - l)) - 2 / F.rd (h - l)| ≤ ((1 + F.u) ^ 1 - 1) * |2 / F.rd (h - l)| := by simpa using F.err (2 / F.rd (h - l))
      have e2 : |F.rd (F.rd (h - l) / 2) - F.rd (h - l) / 2| ≤ ((1 + F.u) ^ 1 - 1) * |F.rd (h - l) / 2| := by simpa using F.err (F.rd (h - l) / 2)
      have s1 := rel_step (rel_mul base e1)
      have s2 := rel_step (rel_mul s1 e2)
      rw [show F.rd (h - l) / 2 * (2 / F.rd (h - l) * (x - c)) = x - c by field_simp] at s2
      exact s2
  have h1 : |(F.rd (uslopeF F l h * F.rd (nslopeF F l h * F.rd (x - c))) + c) - x| ≤ ((1 + F.u) ^ 5 - 1) * |x - c| := by
    rw [show F.rd (uslopeF F l h * F.rd (nslopeF F l h * F.rd (x - c))) + c - x = F.rd (uslopeF F l h * F.rd (nslopeF F l h * F.rd (x - c))) - (x - c) by ring]
    exact key
  generalize F.rd (uslopeF F l h * F.rd (nslopeF F l h * F.rd (x - c))) + c = v at h1 ⊢
  have h2 := F.err v
  have h3 : |v| ≤ |v - x| + |x| := by simpa using abs_add_le (v - x) x
  have h4 : |F.rd v - x| ≤ |F.rd v - v| + |v - x| := by simpa using abs_add_le (F.rd v - v) (v - x)
  have h5 : F.u * |v| ≤ F.u * (((1 + F.u) ^ 5 - 1) * |x - c| + |x|) := mul_le_mul_of_nonneg_left (by linarith) h0
  have h6 : 0 ≤ F.u * |x - c| := mul_nonneg h0 (abs_nonneg _)
  nlinarith

/-- **The normalization round trip in rounded arithmetic.**  Every coordinate comes back up to a few roundings relative to its size and its distance from the centre that was
used, for all bounds (also equal ones): the errors in the centre and in the width cancel. -/
theorem roundtripF (hlib : lib.Ok F) {lb ub x : Vec} (h1 : lb.length = x.length) (h2 : ub.length = x.length) :
    (unnormalizeF F lib lb ub (normalizeF F lib lb ub x)).length = x.length ∧
    ∀ (i : ℕ) (y xi l h : ℝ), (unnormalizeF F lib lb ub (normalizeF F lib lb ub x))[i]? = some y → x[i]? = some xi → lb[i]? = some l → ub[i]? = some h →
      |y - xi| ≤ ((1 + F.u) ^ 6 - 1) * |xi - centerF F l h| + F.u * |xi| := by
  have hz : (normalizeF F lib lb ub x).length = x.length := by rw [normalizeF_eq hlib h1 h2]; simp [subF, h1, h2]
  rw [unnormalizeF_eq hlib (by omega) (by omega), normalizeF_eq hlib h1 h2]
  refine ⟨by simp [subF, h1, h2], ?_⟩
  intro i y xi l h hy hx hl hh
  have e : y = F.rd (F.rd (uslopeF F l h * F.rd (nslopeF F l h * F.rd (xi - centerF F l h))) + centerF F l h) := by
    simp only [List.getElem?_zipWith, subF, hx, hl, hh, Option.some.injEq] at hy
    exact hy.symm
  rw [e]
  exact roundtrip1 l h xi

/-- **Normalized coordinates of points of a box** exceed one at most by a factor which depends on how far the box is from the origin compared with its width. -/
theorem normalizeF_range {l h x : ℝ} (hlh : l < h) (h1 : l ≤ x) (h2 : x ≤ h) :
    |F.rd (nslopeF F l h * F.rd (x - centerF F l h))| ≤
      (1 + F.u) ^ 3 / (1 - F.u) * (1 + ((1 + F.u) ^ 2 - 1) * ((|l| + |h|) / (h - l))) := by
  have h0 := F.u_nonneg
  have hu1 : 0 < 1 - F.u := by linarith [F.u_lt]
  have w : 0 < h - l := by linarith
  have c0 : |F.rd (l + h) / 2 - (l + h) / 2| ≤ ((1 + F.u) ^ 1 - 1) * ((|l| + |h|) / 2) := by
    have a := F.err (l + h)
    have b := abs_add_le l h
    rw [← sub_div, abs_div, abs_of_pos (show (0 : ℝ) < 2 by norm_num), pow_one]
    have : F.u * |l + h| ≤ F.u * (|l| + |h|) := mul_le_mul_of_nonneg_left b h0
    linarith
  have c1 : |centerF F l h - (l + h) / 2| ≤ ((1 + F.u) ^ 2 - 1) * ((|l| + |h|) / 2) := by
    have b : |(l + h) / 2| ≤ (|l| + |h|) / 2 := by
      rw [abs_div, abs_of_pos (show (0 : ℝ) < 2 by norm_num)]
      linarith [abs_add_le l h]
    have := rd_step (F := F) c0 b
    rwa [show (1 + ((1 + F.u) ^ 1 - 1)) * (1 + F.u) = (1 + F.u) ^ 2 by ring] at this
  have c2 : |x - centerF F l h| ≤ (h - l) / 2 + ((1 + F.u) ^ 2 - 1) * ((|l| + |h|) / 2) := by
    have : |x - centerF F l h| ≤ |x - (l + h) / 2| + |centerF F l h - (l + h) / 2| := by
      rw [abs_sub_comm (centerF F l h)]
      simpa using abs_add_le (x - (l + h) / 2) ((l + h) / 2 - centerF F l h)
    have b : |x - (l + h) / 2| ≤ (h - l) / 2 := abs_le.2 ⟨by linarith, by linarith⟩
    linarith
  have d1 : (1 - F.u) * (h - l) ≤ F.rd (h - l) := by
    have := (abs_le.1 (F.err (h - l))).1
    rw [abs_of_pos w] at this
    linarith
  have d2 : 0 < F.rd (h - l) := lt_of_lt_of_le (by positivity) d1
  have s1 : |nslopeF F l h| ≤ (1 + F.u) * (2 / ((1 - F.u) * (h - l))) := by
    rw [nslopeF, if_pos hlh.ne']
    refine (abs_rd_le _).trans ?_
    rw [abs_of_pos (show 0 < 2 / F.rd (h - l) by positivity)]
    gcongr
  have s2 : |F.rd (x - centerF F l h)| ≤ (1 + F.u) * ((h - l) / 2 + ((1 + F.u) ^ 2 - 1) * ((|l| + |h|) / 2)) :=
    (abs_rd_le _).trans (mul_le_mul_of_nonneg_left c2 (by linarith))
  calc |F.rd (nslopeF F l h * F.rd (x - centerF F l h))| ≤ (1 + F.u) * (|nslopeF F l h| * |F.rd (x - centerF F l h)|) := by
        rw [← abs_mul]; exact abs_rd_le _
    _ ≤ (1 + F.u) * (((1 + F.u) * (2 / ((1 - F.u) * (h - l)))) * ((1 + F.u) * ((h - l) / 2 + ((1 + F.u) ^ 2 - 1) * ((|l| + |h|) / 2)))) := by
        apply mul_le_mul_of_nonneg_left _ (by linarith)
        exact mul_le_mul s1 s2 (abs_nonneg _) (by positivity)
    _ = _ := by field_simp

/-! ## Large numbers -/

theorem double_fix (k e : ℤ) (hk : |k| ≤ 2 ^ 53) : double.rd ((k : ℝ) * 2 ^ e) = (k : ℝ) * 2 ^ e := rdBin_fix nearest (by norm_num) k e hk

theorem double_int (k : ℤ) (hk : |k| ≤ 2 ^ 53) : double.rd (k : ℝ) = k := by simpa using double_fix k 0 hk

theorem log_of {t : ℝ} {e : ℤ} (h1 : (2 : ℝ) ^ e ≤ t) (h2 : t < 2 ^ (e + 1)) : Int.log 2 t = e := by
  have ht : 0 < t := lt_of_lt_of_le (by positivity) h1
  apply le_antisymm
  · have := (Int.lt_zpow_iff_log_lt (b := 2) (by norm_num) ht).1 (by exact_mod_cast h2)
    omega
  · exact (Int.zpow_le_iff_le_log (b := 2) (by norm_num) ht).1 (by exact_mod_cast h1)

/-- `2^60 + 1` is rounded to `2^60`. -/
theorem double_lost : double.rd (2 ^ 60 + 1) = 2 ^ 60 := by
  have hl : Int.log 2 (2 ^ 60 + 1 : ℝ) = 60 := log_of (by norm_num) (by norm_num)
  change rdBin nearest 53 _ = _
  rw [rdBin, if_neg (by positivity), scale, abs_of_pos (by positivity), hl]
  have : nearest.ρ ((2 ^ 60 + 1 : ℝ) * 2 ^ ((53 : ℕ) - 1 - 60 : ℤ)) = 2 ^ 52 := by
    change round _ = _
    rw [round_eq, Int.floor_eq_iff]
    norm_num
  rw [this]
  norm_num

/-- `2^61 + 256` is rounded to `2^61 + 512`. -/
theorem double_tie : double.rd (2 ^ 61 + 256) = 2 ^ 61 + 512 := by
  have hl : Int.log 2 (2 ^ 61 + 256 : ℝ) = 61 := log_of (by norm_num) (by norm_num)
  change rdBin nearest 53 _ = _
  rw [rdBin, if_neg (by positivity), scale, abs_of_pos (by positivity), hl]
  have : nearest.ρ ((2 ^ 61 + 256 : ℝ) * 2 ^ ((53 : ℕ) - 1 - 61 : ℤ)) = 2 ^ 52 + 1 := by
    change round _ = _
    rw [round_eq, Int.floor_eq_iff]
    norm_num
  rw [this]
  norm_num

/-- **Where it fails: membership.**  In double precision the point `(2^60, 1, -2^60)` satisfies the equation `x_1 + x_2 + x_3 = 1` exactly, but `isinside` rejects it. -/
theorem insideF_rejects_false : Vec.dot [1, 1, 1] [2 ^ 60, 1, -2 ^ 60] = 1 ∧
    ¬ inEqF double (seqLib double) [[1, 1, 1]] [1] (1 / 10 ^ 5) [2 ^ 60, 1, -2 ^ 60] := by
  constructor
  · norm_num [Vec.dot]
  · intro h
    have e1 : double.rd (2 ^ 60 : ℝ) = 2 ^ 60 := by
      have := double_fix 1 60 (by norm_num)
      norm_num at this ⊢
      exact this
    have e2 : double.rd (1 : ℝ) = 1 := by simpa using double_int 1 (by norm_num)
    have e3 : double.rd (-2 ^ 60 : ℝ) = -2 ^ 60 := by
      have := double_fix (-1) 60 (by norm_num)
      norm_num at this ⊢
      exact this
    have e4 : double.rd (-1 : ℝ) = -1 := by simpa using double_int (-1) (by norm_num)
    have hv : seqDot double [1, 1, 1] [2 ^ 60, 1, -2 ^ 60] = 0 := by
      simp only [seqDot, List.zip_cons_cons, List.zip_nil_right, seqTree, List.foldl_cons, List.foldl_nil, DotTree.eval, one_mul]
      rw [e1, e2, e3, double_lost]
      simp [rd_zero]
    have := h (0, 1) (by simp [seqLib, hv])
    simp only [zero_sub, e4] at this
    norm_num at this

/-- **Where it fails: normalization.**  For the box from `2^60` to the next double but `256` above, the centre is rounded to the upper bound: the lower bound is normalized
to `-2`, not `-1`. -/
theorem normalizeF_false : double.Float (2 ^ 60) ∧ double.Float (2 ^ 60 + 256) ∧
    normalizeF double (seqLib double) [2 ^ 60] [2 ^ 60 + 256] [2 ^ 60] = [-2] := by
  have f1 : double.rd (2 ^ 60 : ℝ) = 2 ^ 60 := by
    have := double_fix 1 60 (by norm_num)
    norm_num at this ⊢
    exact this
  have f2 : double.rd (2 ^ 60 + 256 : ℝ) = 2 ^ 60 + 256 := by
    have := double_fix (2 ^ 52 + 1) 8 (by norm_num)
    norm_num at this ⊢
    exact this
  refine ⟨f1, f2, ?_⟩
  rw [normalizeF_eq (seqLib_ok double) (lb := [2 ^ 60]) (ub := [2 ^ 60 + 256]) (x := [2 ^ 60]) rfl rfl]
  have c : centerF double (2 ^ 60) (2 ^ 60 + 256) = 2 ^ 60 + 256 := by
    rw [centerF, show (2 : ℝ) ^ 60 + (2 ^ 60 + 256) = 2 ^ 61 + 256 by norm_num, double_tie, show ((2 : ℝ) ^ 61 + 512) / 2 = 2 ^ 60 + 256 by norm_num, f2]
  have w : double.rd (256 : ℝ) = 256 := by simpa using double_int 256 (by norm_num)
  have w' : double.rd (-256 : ℝ) = -256 := by simpa using double_int (-256) (by norm_num)
  have s : nslopeF double (2 ^ 60) (2 ^ 60 + 256) = 1 / 128 := by
    rw [nslopeF, if_pos (by norm_num), show (2 : ℝ) ^ 60 + 256 - 2 ^ 60 = 256 by norm_num, w]
    have := double_fix 1 (-7) (by norm_num)
    norm_num at this ⊢
    exact this
  have z : double.rd (-2 : ℝ) = -2 := by simpa using double_int (-2) (by norm_num)
  simp only [List.zipWith_cons_cons, List.zipWith_nil_right, subF, c, s]
  rw [show (2 : ℝ) ^ 60 - (2 ^ 60 + 256) = -256 by norm_num, w', show (1 / 128 : ℝ) * -256 = -2 by norm_num, z]

/-! ## The hypotheses can be met -/

/-- The unit disk in the plane, in double precision at the point `(1/2, 1/2)`. -/
example : Slack double ⟨2, [.ninf, .fin 0], [.fin 1, .pinf], [[1, 1]], [1], [[1, -1]], [0], [[[1, 0], [0, 1]]], [[0, 0]], [1]⟩ (1 / 10 ^ 5) (1 / 10 ^ 6) [1 / 2, 1 / 2] := by
  apply slack_default (by rw [double_u])
  · intro r h
    simp at h
    norm_num [h]
  · intro r h
    simp at h
    norm_num [h]
  · simp [absSum]
    norm_num
  · simp [absSum]
    norm_num
  · simp [absSum, Vec.norm, Vec.sumSq]
    refine ⟨?_, by norm_num⟩
    have : Real.sqrt (1 / 2) ≤ 1 := Real.sqrt_le_one.2 (by norm_num)
    ring_nf at this ⊢
    linarith
  · simp

example : inBoundsF double ([0].map XR.fin) ([1].map XR.fin) (1 / 10 ^ 5) [uniformF double 0 1 (1 / 2)] :=
  box_sample_inside (F := double) (lb := [0]) (ub := [1]) (ts := [1 / 2]) (by norm_num) (by simp [FP.Float, rd_zero])
    (by simp [double_u]; norm_num) (by simp; norm_num)

end Verif.Round
