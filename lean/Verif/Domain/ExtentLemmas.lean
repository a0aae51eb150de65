import Verif.Domain.Exact
import Verif.Domain.ExtentModel

/-! # Lemmas about `extent` -/

namespace Verif.Domain

open Classical Verif

theorem le_fin_iff (t a : ℝ) : XR.le (.fin t) (.fin a) ↔ t ≤ a := by
  simp only [XR.le, XR.lt, XR.eq]; exact le_iff_lt_or_eq.symm

theorem le_pinf (t : ℝ) : XR.le (.fin t) .pinf := Or.inl trivial

theorem pyMin_spec {a b : XR} (ha : a.okUpper) (hb : b.okUpper) :
    (XR.pyMin a b).okUpper ∧ ∀ t, XR.le (.fin t) (XR.pyMin a b) ↔ XR.le (.fin t) a ∧ XR.le (.fin t) b := by
  cases a <;> cases b <;> simp [XR.okUpper] at ha hb
  · rename_i a b
    unfold XR.pyMin
    by_cases h : XR.lt (.fin b) (.fin a)
    · rw [if_pos h]
      have h : b < a := h
      refine ⟨trivial, fun t => ?_⟩
      simp only [le_fin_iff]; constructor
      · intro h; constructor <;> linarith
      · exact fun h => h.2
    · rw [if_neg h]
      have h : ¬ b < a := h
      refine ⟨trivial, fun t => ?_⟩
      simp only [le_fin_iff]; constructor
      · intro h; constructor <;> linarith
      · exact fun h => h.1
  · simp [XR.pyMin, XR.lt, le_pinf]; trivial
  · simp [XR.pyMin, XR.lt, le_pinf]; trivial
  · simp [XR.pyMin, XR.lt, le_pinf]; trivial

theorem foldl_pyMin_spec {l : List XR} (hl : ∀ y ∈ l, y.okUpper) {a : XR} (ha : a.okUpper) :
    (l.foldl XR.pyMin a).okUpper ∧
    ∀ t, XR.le (.fin t) (l.foldl XR.pyMin a) ↔ XR.le (.fin t) a ∧ ∀ y ∈ l, XR.le (.fin t) y := by
  induction l generalizing a with
  | nil => simp [ha]
  | cons b l ih =>
    obtain ⟨h1, h2⟩ := pyMin_spec ha (hl b (by simp))
    obtain ⟨h3, h4⟩ := ih (fun y hy => hl y (by simp [hy])) h1
    refine ⟨h3, fun t => ?_⟩
    simp only [List.foldl_cons, List.forall_mem_cons]
    rw [h4, h2, and_assoc]

theorem okUpper_of_pos {y : XR} (h : XR.lt (.fin 0) y) : y.okUpper := by
  cases y <;> simp [XR.lt, XR.okUpper] at *

theorem posMin_spec {a : XR} (ha : a.okUpper) (ys : List XR) :
    (posMin a ys).okUpper ∧ ∀ t, XR.le (.fin t) (posMin a ys) ↔
      XR.le (.fin t) a ∧ ∀ y ∈ ys, XR.lt (.fin 0) y → XR.le (.fin t) y := by
  unfold posMin
  have := foldl_pyMin_spec (l := ys.filter (fun y => decide (XR.lt (.fin 0) y)))
    (fun y hy => okUpper_of_pos (by simpa using (List.mem_filter.1 hy).2)) ha
  refine ⟨this.1, fun t => ?_⟩
  rw [this.2]
  simp only [List.mem_filter, decide_eq_true_eq, and_imp]

theorem forall_zip_step (P : XR → ℝ → Prop) (bd : List XR) (x p : Vec) (t : ℝ) :
    (∀ q ∈ bd.zip (Vec.step x t p), P q.1 q.2) ↔ ∀ q ∈ bd.zip (x.zip p), P q.1 (q.2.1 + t * q.2.2) := by
  unfold Vec.step Vec.add Vec.smul
  induction bd generalizing x p with
  | nil => simp
  | cons b bd ih => cases x with
    | nil => simp
    | cons a x => cases p with
      | nil => simp
      | cons c p =>
        simp only [List.map_cons, List.zipWith_cons_cons, List.zip_cons_cons, List.forall_mem_cons]
        rw [ih]

theorem forall_zip_fst (P : XR → ℝ → Prop) (bd : List XR) (x p : Vec) (hl : x.length = p.length)
    (h : ∀ q ∈ bd.zip x, P q.1 q.2) : ∀ q ∈ bd.zip (x.zip p), P q.1 q.2.1 := by
  induction bd generalizing x p with
  | nil => simp
  | cons b bd ih => cases x with
    | nil => simp
    | cons a x => cases p with
      | nil => simp at hl
      | cons c p =>
        simp only [List.zip_cons_cons, List.forall_mem_cons] at h ⊢
        exact ⟨h.1, ih x p (by simpa using hl) h.2⟩

/-- The bounds extent is exact. -/
theorem extentBounds_spec {lb ub : List XR} (hlb : ∀ v ∈ lb, v.okLower) (hub : ∀ v ∈ ub, v.okUpper) {x p : Vec}
    (hl : x.length = p.length) (hx : inBounds lb ub 0 x) :
    (extentBounds lb ub x p).okUpper ∧
    ∀ t, 0 ≤ t → (XR.le (.fin t) (extentBounds lb ub x p) ↔ inBounds lb ub 0 (Vec.step x t p)) := by
  have hL := forall_zip_fst (fun l v => ∀ r, l = XR.fin r → v ≥ r - 0) lb x p hl hx.1
  have hU := forall_zip_fst (fun l v => ∀ r, l = XR.fin r → v ≤ r + 0) ub x p hl hx.2
  have e : ∀ t, inBounds lb ub 0 (Vec.step x t p) ↔
      (∀ q ∈ lb.zip (x.zip p), ∀ r, q.1 = XR.fin r → q.2.1 + t * q.2.2 ≥ r - 0) ∧
      (∀ q ∈ ub.zip (x.zip p), ∀ r, q.1 = XR.fin r → q.2.1 + t * q.2.2 ≤ r + 0) := by
    intro t
    unfold inBounds
    rw [forall_zip_step (fun l v => ∀ r, l = XR.fin r → v ≥ r - 0),
      forall_zip_step (fun l v => ∀ r, l = XR.fin r → v ≤ r + 0)]
  unfold extentBounds
  split
  · rename_i h
    obtain ⟨q, hq, h1, h2⟩ := h
    refine ⟨trivial, fun t ht => ?_⟩
    rw [le_fin_iff, e]
    constructor
    · intro h0
      have : t = 0 := le_antisymm h0 ht
      subst this
      simp only [zero_mul, add_zero]
      exact ⟨hL, fun q hq r hr => by simpa using hU q hq r hr⟩
    · intro h
      rcases q with ⟨l, a, b⟩
      cases l <;> simp only [XR.eq] at h1
      subst h1
      have := h.1 _ hq _ rfl
      simp only at this h2
      nlinarith
  · rename_i hn1
    split
    · rename_i h
      obtain ⟨q, hq, h1, h2⟩ := h
      refine ⟨trivial, fun t ht => ?_⟩
      rw [le_fin_iff, e]
      constructor
      · intro h0
        have : t = 0 := le_antisymm h0 ht
        subst this
        simp only [zero_mul, add_zero]
        exact ⟨hL, fun q hq r hr => by simpa using hU q hq r hr⟩
      · intro h
        rcases q with ⟨l, a, b⟩
        cases l <;> simp only [XR.eq] at h1
        subst h1
        have := h.2 _ hq _ rfl
        simp only at this h2
        nlinarith
    · rename_i hn2
      push Not at hn1 hn2
      obtain ⟨o1, s1⟩ := posMin_spec (a := .pinf) trivial (boundQuotients ub x p)
      obtain ⟨o2, s2⟩ := posMin_spec o1 (boundQuotients lb x p)
      refine ⟨o2, fun t ht => ?_⟩
      rw [s2, s1, e]
      simp only [le_pinf, true_and]
      unfold boundQuotients
      simp only [List.forall_mem_map, List.mem_filter, decide_eq_true_eq, and_imp]
      rw [and_comm]
      apply and_congr
      · apply forall_congr'; rintro ⟨l, a, b⟩
        apply forall_congr'; intro hq
        have okl := hlb l (List.of_mem_zip hq).1
        have hin := hL _ hq
        have hnb := hn1 _ hq
        simp only at hin hnb ⊢
        cases l with
        | fin r =>
          have hin := hin r rfl
          simp only [XR.eq] at hnb
          simp only [XR.sub, XR.divNZ, XR.lt, le_fin_iff]
          constructor
          · rintro h r' hr'
            cases hr'
            rcases lt_trichotomy b 0 with hb | hb | hb
            · have hlt : r < a := lt_of_le_of_ne (by linarith) (fun h => absurd hb (not_lt.2 (hnb h)))
              have hpos : 0 < (r - a) / b := div_pos_of_neg_of_neg (by linarith) hb
              have := h hb.ne hpos
              rw [le_div_iff_of_neg hb] at this
              linarith
            · subst hb; linarith
            · nlinarith
          · intro h hb hpos
            have := h r rfl
            rcases lt_or_gt_of_ne hb with hb | hb
            · rw [le_div_iff_of_neg hb]; linarith
            · exfalso
              rw [lt_div_iff₀ hb] at hpos; linarith
        | ninf =>
          constructor
          · intro _ r hr; cases hr
          · intro _ hb hpos
            simp only [XR.sub, XR.divNZ] at hpos ⊢
            split at hpos
            · exact absurd hpos (by simp [XR.lt])
            · rename_i h; rw [if_neg h]; exact le_pinf t
        | pinf => simp [XR.okLower] at okl
        | nan => simp [XR.okLower] at okl
      · apply forall_congr'; rintro ⟨l, a, b⟩
        apply forall_congr'; intro hq
        have okl := hub l (List.of_mem_zip hq).1
        have hin := hU _ hq
        have hnb := hn2 _ hq
        simp only at hin hnb ⊢
        cases l with
        | fin r =>
          have hin := hin r rfl
          simp only [XR.eq] at hnb
          simp only [XR.sub, XR.divNZ, XR.lt, le_fin_iff]
          constructor
          · rintro h r' hr'
            cases hr'
            rcases lt_trichotomy b 0 with hb | hb | hb
            · nlinarith
            · subst hb; linarith
            · have hlt : a < r := lt_of_le_of_ne (by linarith) (fun h => absurd hb (not_lt.2 (hnb h.symm)))
              have hpos : 0 < (r - a) / b := div_pos (by linarith) hb
              have := h hb.ne' hpos
              rw [le_div_iff₀ hb] at this
              linarith
          · intro h hb hpos
            have := h r rfl
            rcases lt_or_gt_of_ne hb with hb | hb
            · exfalso
              rw [lt_div_iff_of_neg hb] at hpos; linarith
            · rw [le_div_iff₀ hb]; linarith
        | pinf =>
          constructor
          · intro _ r hr; cases hr
          · intro _ hb hpos
            simp only [XR.sub, XR.divNZ] at hpos ⊢
            split at hpos
            · rename_i h; rw [if_pos h]; exact le_pinf t
            · exact absurd hpos (by simp [XR.lt])
        | ninf => simp [XR.okUpper] at okl
        | nan => simp [XR.okUpper] at okl

theorem div_pos_le {s d t : ℝ} (hs : 0 ≤ s) (ht : 0 ≤ t) :
    (s - t * d ≥ 0 → XR.lt (.fin 0) (XR.div s d) → XR.le (.fin t) (XR.div s d)) ∧
    ((s = 0 → d ≤ 0) → (XR.lt (.fin 0) (XR.div s d) → XR.le (.fin t) (XR.div s d)) → s - t * d ≥ 0) := by
  unfold XR.div
  by_cases hd : d = 0
  · subst hd
    constructor
    · intro _ hpos
      simp only [if_true] at hpos ⊢
      by_cases h0 : s = 0
      · rw [if_pos h0] at hpos; simp [XR.lt] at hpos
      · rw [if_neg h0] at hpos ⊢
        by_cases h1 : 0 < s
        · rw [if_pos h1]; exact le_pinf t
        · rw [if_neg h1] at hpos; simp [XR.lt] at hpos
    · intro _ _; simpa using hs
  · simp only [if_neg hd, XR.lt, le_fin_iff]
    constructor
    · intro h hpos
      rcases lt_or_gt_of_ne hd with hd | hd
      · rw [lt_div_iff_of_neg hd] at hpos; linarith
      · rw [le_div_iff₀ hd]; linarith
    · intro hact h
      rcases lt_or_gt_of_ne hd with hd | hd
      · nlinarith
      · have hs' : 0 < s := lt_of_le_of_ne hs (fun h => absurd (hact h.symm) (not_le.2 hd))
        have := h (div_pos hs' hd)
        rw [le_div_iff₀ hd] at this; linarith

theorem extentIneq_spec (A : List Vec) (b : List ℝ) {x p : Vec} (hl : x.length = p.length) (hx : inIneq A b 0 x) :
    (extentIneq A b x p).okUpper ∧ ∀ t, 0 ≤ t →
      (inIneq A b 0 (Vec.step x t p) → XR.le (.fin t) (extentIneq A b x p)) ∧
      ((∀ q ∈ A.zip b, Vec.dot q.1 x = q.2 → Vec.dot q.1 p ≤ 0) →
        XR.le (.fin t) (extentIneq A b x p) → inIneq A b 0 (Vec.step x t p)) := by
  have conv : ∀ z, inIneq A b 0 z ↔ ∀ q ∈ A.zip b, Vec.dot q.1 z ≤ q.2 := by
    intro z
    rw [inIneq_iff, forall_mem_zip A b (fun q => Vec.dot q.1 z ≤ q.2)]
    simp
  rw [conv] at hx
  unfold extentIneq
  obtain ⟨o, s⟩ := posMin_spec (a := .pinf) trivial
    ((A.zip b).map (fun q => XR.div (q.2 - Vec.dot q.1 x) (Vec.dot q.1 p)))
  refine ⟨o, fun t ht => ?_⟩
  rw [s, conv]
  simp only [le_pinf, true_and, List.forall_mem_map]
  constructor
  · intro h q hq
    have k := (div_pos_le (s := q.2 - Vec.dot q.1 x) (d := Vec.dot q.1 p) (by linarith [hx q hq]) ht).1
    apply k
    have := h q hq
    rw [Vec.dot_step _ _ _ _ hl] at this
    linarith
  · intro hact h q hq
    have k := (div_pos_le (s := q.2 - Vec.dot q.1 x) (d := Vec.dot q.1 p) (by linarith [hx q hq]) ht).2
      (fun h0 => hact q hq (by linarith)) (h q hq)
    rw [Vec.dot_step _ _ _ _ hl]
    linarith

theorem quad_roots {a b c t : ℝ} (ha : 0 ≤ a) (hab : a = 0 → b = 0) (hc : c ≤ 0) (ht : 0 ≤ t) :
    ((∀ r ∈ realRoots a b c, r ≥ 0 → t ≤ r) → a * t ^ 2 + b * t + c ≤ 0) ∧
    (c < 0 → a * t ^ 2 + b * t + c ≤ 0 → ∀ r ∈ realRoots a b c, r ≥ 0 → t ≤ r) := by
  unfold realRoots
  by_cases h0 : a = 0
  · subst h0
    have hb := hab rfl
    subst hb
    simp [hc]
  · have hap : 0 < a := lt_of_le_of_ne ha (Ne.symm h0)
    have hdisc : b ^ 2 ≤ b ^ 2 - 4 * a * c := by nlinarith
    have hd0 : 0 ≤ b ^ 2 - 4 * a * c := by nlinarith [sq_nonneg b]
    set s := Real.sqrt (b ^ 2 - 4 * a * c) with hs
    have hs2 : s ^ 2 = b ^ 2 - 4 * a * c := Real.sq_sqrt hd0
    have hs0 : 0 ≤ s := Real.sqrt_nonneg _
    have hsb : |b| ≤ s := abs_le_of_sq_le_sq (by rw [hs2]; exact hdisc) hs0
    obtain ⟨hb1, hb2⟩ := abs_le.1 hsb
    simp only [ne_eq, h0, not_false_eq_true, if_true, hd0, List.forall_mem_cons,
      List.not_mem_nil, false_implies, implies_true, and_true]
    have h2a : 0 < 2 * a := by linarith
    constructor
    · rintro ⟨h1, -⟩
      have : t ≤ (-b + s) / (2 * a) := h1 (div_nonneg (by linarith) h2a.le)
      rw [le_div_iff₀ h2a] at this
      -- 4a (a t² + b t + c) = (2 a t + b)² - s² ≤ 0
      have k1 : 2 * a * t + b ≤ s := by linarith
      have k2 : -s ≤ 2 * a * t + b := by nlinarith
      have k3 : (2 * a * t + b) ^ 2 ≤ s ^ 2 := by nlinarith
      nlinarith
    · intro hc' h
      have k3 : (2 * a * t + b) ^ 2 ≤ s ^ 2 := by nlinarith
      have k1 : 2 * a * t + b ≤ s := (abs_le.1 (abs_le_of_sq_le_sq k3 hs0)).2
      constructor
      · intro _
        rw [le_div_iff₀ h2a]; linarith
      · intro hr
        exfalso
        have hsb' : |b| < s := abs_lt_of_sq_lt_sq (by rw [hs2]; nlinarith) hs0
        have := (abs_lt.1 hsb').1
        rw [ge_iff_le, le_div_iff₀ h2a] at hr
        linarith

theorem sumSq_eq_zero {v : Vec} (h : Vec.sumSq v = 0) : ∀ w, Vec.dot v w = 0 := by
  intro w
  have := Vec.dot_sq_le v w
  rw [h, zero_mul] at this
  nlinarith [sq_nonneg (Vec.dot v w)]

theorem quadStep_spec {x p : Vec} (hl : x.length = p.length) {al : XR} (hal : al.okUpper) (L : List Vec) (y : Vec)
    (rho : ℝ) (hr : 0 < rho) (hx : Vec.norm (Vec.mulVec L (Vec.sub x y)) ≤ rho) (hy : x.length = y.length) :
    (quadStep x p al (L, y, rho)).okUpper ∧ ∀ t, 0 ≤ t →
      (XR.le (.fin t) (quadStep x p al (L, y, rho)) → XR.le (.fin t) al ∧
        Vec.norm (Vec.mulVec L (Vec.sub (Vec.step x t p) y)) ≤ rho) ∧
      (Vec.norm (Vec.mulVec L (Vec.sub x y)) < rho → XR.le (.fin t) al →
        Vec.norm (Vec.mulVec L (Vec.sub (Vec.step x t p) y)) ≤ rho →
        XR.le (.fin t) (quadStep x p al (L, y, rho))) := by
  set Lp := Vec.mulVec L p with hLp
  set Lxy := Vec.mulVec L (Vec.sub x y) with hLxy
  set a := Vec.dot Lp Lp with ha
  set b := 2 * Vec.dot Lp Lxy with hb
  set c := Vec.dot Lxy Lxy - rho ^ 2 with hc
  have hfold : quadStep x p al (L, y, rho) =
      (((realRoots a b c).filter (fun r => decide (r ≥ 0))).map XR.fin).foldl XR.pyMin al := by
    rw [List.foldl_map]; rfl
  obtain ⟨o, s⟩ := foldl_pyMin_spec (l := ((realRoots a b c).filter (fun r => decide (r ≥ 0))).map XR.fin)
    (by intro y hy; obtain ⟨r, _, rfl⟩ := List.mem_map.1 hy; trivial) hal
  rw [hfold]
  refine ⟨o, fun t ht => ?_⟩
  rw [s]
  have e : Vec.mulVec L (Vec.sub (Vec.step x t p) y) = Vec.step Lxy t Lp := by
    rw [Vec.step_sub, Vec.mulVec_step _ _ _ _ (by simp [Vec.length_sub, ← hy, hl])]
  have en : ∀ v : Vec, Vec.norm v ≤ rho ↔ Vec.sumSq v ≤ rho ^ 2 := by
    intro v; exact Real.sqrt_le_left hr.le
  have es : Vec.sumSq (Vec.step Lxy t Lp) - rho ^ 2 = a * t ^ 2 + b * t + c := by
    rw [Vec.sumSq_step _ _ _ (by simp [hLp, hLxy]), ha, hb, hc, Vec.sumSq_eq_dot, Vec.sumSq_eq_dot]; ring
  have ha0 : 0 ≤ a := by rw [ha, ← Vec.sumSq_eq_dot]; exact Vec.sumSq_nonneg _
  have hab : a = 0 → b = 0 := by
    intro h; rw [hb, sumSq_eq_zero (by rw [Vec.sumSq_eq_dot]; exact h)]; simp
  have hc0 : c ≤ 0 := by
    have := (en Lxy).1 hx
    rw [Vec.sumSq_eq_dot] at this; rw [hc]; linarith
  obtain ⟨q1, q2⟩ := quad_roots ha0 hab hc0 ht
  simp only [List.forall_mem_map, List.mem_filter, decide_eq_true_eq, and_imp, le_fin_iff]
  rw [e, en]
  constructor
  · intro h1 h2
    refine ⟨h1, ?_⟩
    have := q1 h2
    linarith
  · intro hlt h1 h2
    refine ⟨h1, q2 ?_ (by linarith)⟩
    have : Vec.sumSq Lxy < rho ^ 2 := (Real.sqrt_lt' hr).1 hlt
    rw [Vec.sumSq_eq_dot] at this; rw [hc]; linarith

theorem extentQuad_spec {x p : Vec} (hl : x.length = p.length) (qs : List (List Vec × Vec × ℝ))
    (hr : ∀ q ∈ qs, 0 < q.2.2) (hy : ∀ q ∈ qs, x.length = q.2.1.length)
    (hx : ∀ q ∈ qs, Vec.norm (Vec.mulVec q.1 (Vec.sub x q.2.1)) ≤ q.2.2) {al : XR} (hal : al.okUpper) :
    (qs.foldl (quadStep x p) al).okUpper ∧ ∀ t, 0 ≤ t →
      (XR.le (.fin t) (qs.foldl (quadStep x p) al) → XR.le (.fin t) al ∧
        ∀ q ∈ qs, Vec.norm (Vec.mulVec q.1 (Vec.sub (Vec.step x t p) q.2.1)) ≤ q.2.2) ∧
      ((∀ q ∈ qs, Vec.norm (Vec.mulVec q.1 (Vec.sub x q.2.1)) < q.2.2) → XR.le (.fin t) al →
        (∀ q ∈ qs, Vec.norm (Vec.mulVec q.1 (Vec.sub (Vec.step x t p) q.2.1)) ≤ q.2.2) →
        XR.le (.fin t) (qs.foldl (quadStep x p) al)) := by
  induction qs generalizing al with
  | nil => simp [hal]
  | cons q qs ih =>
    rcases q with ⟨L, y, rho⟩
    obtain ⟨o1, s1⟩ := quadStep_spec hl hal L y rho (hr (L, y, rho) (by simp))
      (hx (L, y, rho) (by simp)) (hy (L, y, rho) (by simp))
    obtain ⟨o2, s2⟩ := ih (fun q h => hr q (by simp [h])) (fun q h => hy q (by simp [h]))
      (fun q h => hx q (by simp [h])) o1
    refine ⟨o2, fun t ht => ?_⟩
    simp only [List.foldl_cons, List.forall_mem_cons]
    constructor
    · intro h
      obtain ⟨k1, k2⟩ := (s2 t ht).1 h
      obtain ⟨k3, k4⟩ := (s1 t ht).1 k1
      exact ⟨k3, k4, k2⟩
    · rintro ⟨h1, h2⟩ h3 ⟨h4, h5⟩
      exact (s2 t ht).2 h2 ((s1 t ht).2 h1 h3 h4) h5

end Verif.Domain
