import Verif.Domain.VolumeModel
import Verif.Domain.HitUniform
import Mathlib.Probability.Moments.Variance
import Mathlib.MeasureTheory.Integral.Pi

/-!
# C120: `volume`
-/

namespace Verif.Domain

open MeasureTheory Set Classical ProbabilityTheory
open scoped ENNReal

/-! ## Specification -/

/-- The points accepted by `isinside` (with its tolerance). -/
def Dom.accepted (nnls : NNLS) (tol : ℝ) (D : Dom) : Set (Fin D.len → ℝ) := {x | D.isInside nnls tol (List.ofFn x)}

/-- A list of finite numbers. -/
def finX {n : ℕ} (a : Fin n → ℝ) : List XR := List.ofFn (fun i => XR.fin (a i))

/-- `N` independent rows of random numbers, uniformly distributed in the unit cube. -/
noncomputable def cubeLaw (N n : ℕ) : Measure (Fin N → Fin n → ℝ) :=
  Measure.pi (fun _ : Fin N => (volume : Measure (Fin n → ℝ)).restrict (Icc 0 1))

/-- The rows as lists. -/
def rowsOf {N n : ℕ} (u : Fin N → Fin n → ℝ) : List Vec := List.ofFn (fun j => List.ofFn (u j))

/-- The value of a quadrature rule. -/
def ruleSum (X : List Vec) (w : Vec) (f : Vec → ℝ) : ℝ := (List.zipWith (fun x a => a * f x) X w).sum

/-! ## Lemmas -/

/-- The point of the box `lo, hi` belonging to a row of random numbers. -/
def boxPt {n : ℕ} (lo hi u : Fin n → ℝ) : Fin n → ℝ := fun i => lo i + (hi i - lo i) * u i

theorem uniformRow_ofFn {n : ℕ} (lo hi u : Fin n → ℝ) : uniformRow (finX lo) (finX hi) (List.ofFn u) = List.ofFn (boxPt lo hi u) := by
  unfold uniformRow finX boxPt
  apply List.ext_getElem
  · simp
  · intro i h1 h2
    simp [realOf]

theorem prodX_foldl {n : ℕ} (w : Fin n → ℝ) (a : ℝ) : (List.ofFn (fun i => XR.fin (w i))).foldl mulX (.fin a) = .fin (a * ∏ i, w i) := by
  induction n generalizing a with
  | zero => simp
  | succ n ih =>
    rw [List.ofFn_succ, List.foldl_cons, mulX, ih, Fin.prod_univ_succ, mul_assoc]

theorem prodX_width {n : ℕ} (lo hi : Fin n → ℝ) : prodX (List.zipWith XR.sub (finX hi) (finX lo)) = .fin (∏ i, (hi i - lo i)) := by
  have : List.zipWith XR.sub (finX hi) (finX lo) = List.ofFn (fun i => XR.fin (hi i - lo i)) := by
    unfold finX
    apply List.ext_getElem
    · simp
    · intro i h1 h2
      simp [XR.sub]
  rw [this, prodX, prodX_foldl, one_mul]

theorem filter_ofFn_length {N : ℕ} {α : Type} (f : Fin N → α) (P : α → Prop) :
    (((List.ofFn f).filter fun x => P x).length : ℝ) = ∑ j, if P (f j) then (1 : ℝ) else 0 := by
  induction N with
  | zero => simp
  | succ N ih =>
    rw [List.ofFn_succ, Fin.sum_univ_succ, ← ih (fun i => f i.succ)]
    by_cases h : P (f 0)
    · rw [List.filter_cons_of_pos (by simpa using h), if_pos h]
      push_cast
      simp [add_comm]
    · rw [List.filter_cons_of_neg (by simpa using h), if_neg h, zero_add]

/-! ## Boxes -/

/-- The volume computed for boxes with finite bounds. -/
theorem volume_box_value (nnls : NNLS) (tol : ℝ) (nlb nub : List XR) {D : Dom} (hb : D.isBox) {n : ℕ} {lo hi : Fin n → ℝ} (hl : D.acc.lb = finX lo)
    (hu : D.acc.ub = finX hi) (U : List Vec) : D.volume nnls tol nlb nub U = .ok (.fin (∏ i, (hi i - lo i))) := by
  rw [Dom.volume, if_pos hb, hl, hu, prodX_width]

theorem base_box_holds {d : Base} (hb : d.isBox) (x : Vec) : d.Holds x ↔ x.length = d.len ∧ inBounds d.acc.lb d.acc.ub 0 x := by
  have hh : ∀ X q, d ≠ .hull X q := by
    rintro X q rfl
    exact hb
  have hc : d.acc.Ls = [] ∧ d.acc.b = [] ∧ d.acc.beq = [] := by
    cases d <;> first | exact hb | exact hb.elim
  obtain ⟨h1, h2, h3⟩ := hc
  rw [Base.Holds, holds_iff, h1, h2, h3]
  refine and_congr_right fun _ => ⟨fun h => h.1.1, fun h => ⟨⟨h, ?_, ?_, ?_⟩, fun X q e => absurd e (hh X q)⟩⟩
  · intro q hq; simp at hq
  · intro t ht q hq; simp at hq
  · intro q hq; simp at hq

theorem base_bounds_length {d : Base} (hw : d.WF) : d.acc.lb.length = d.len ∧ d.acc.ub.length = d.len :=
  ⟨(base_wf_acc hw).lb_len, (base_wf_acc hw).ub_len⟩

theorem inBounds_append {l1 l2 u1 u2 : List XR} {x y : Vec} (h1 : l1.length = x.length) (h2 : u1.length = x.length) :
    inBounds (l1 ++ l2) (u1 ++ u2) 0 (x ++ y) ↔ inBounds l1 u1 0 x ∧ inBounds l2 u2 0 y := by
  simp only [inBounds, List.zip_append h1, List.zip_append h2, List.mem_append]
  constructor
  · rintro ⟨a, b⟩
    exact ⟨⟨fun q hq => a q (.inl hq), fun q hq => b q (.inl hq)⟩, fun q hq => a q (.inr hq), fun q hq => b q (.inr hq)⟩
  · rintro ⟨⟨a, b⟩, c, d⟩
    exact ⟨fun q hq => hq.elim (a q) (c q), fun q hq => hq.elim (b q) (d q)⟩

theorem tensor_box_holds {ds : List Base} (hb : ∀ d ∈ ds, d.isBox) (hw : ∀ d ∈ ds, d.WF) (x : Vec) :
    (∃ xs : List Vec, x = xs.flatten ∧ List.Forall₂ Base.Holds ds xs) ↔
      x.length = (ds.map Base.len).sum ∧ inBounds (ds.flatMap fun d => d.acc.lb) (ds.flatMap fun d => d.acc.ub) 0 x := by
  induction ds generalizing x with
  | nil =>
    simp only [List.forall₂_nil_left_iff, exists_eq_right, List.flatten_nil, List.map_nil, List.sum_nil, List.flatMap_nil, List.length_eq_zero_iff]
    refine ⟨fun h => ⟨h, ?_⟩, fun h => h.1⟩
    simp [inBounds]
  | cons d ds ih =>
    have ih' := ih (fun d' hd' => hb d' (List.mem_cons_of_mem _ hd')) (fun d' hd' => hw d' (List.mem_cons_of_mem _ hd'))
    have hd := base_box_holds (hb d List.mem_cons_self)
    obtain ⟨hl, hu⟩ := base_bounds_length (hw d List.mem_cons_self)
    simp only [List.flatMap_cons, List.map_cons, List.sum_cons]
    constructor
    · rintro ⟨xs, rfl, hxs⟩
      obtain ⟨y, ys, hy, hys, rfl⟩ := List.forall₂_cons_left_iff.1 hxs
      obtain ⟨g1, g2⟩ := (hd y).1 hy
      obtain ⟨g3, g4⟩ := (ih' ys.flatten).1 ⟨ys, rfl, hys⟩
      rw [List.flatten_cons, List.length_append, g1, g3]
      exact ⟨rfl, (inBounds_append (hl.trans g1.symm) (hu.trans g1.symm)).2 ⟨g2, g4⟩⟩
    · rintro ⟨h1, h2⟩
      have hlen : (x.take d.len).length = d.len := by
        rw [List.length_take, h1]; omega
      rw [← List.take_append_drop d.len x, inBounds_append (hl.trans hlen.symm) (hu.trans hlen.symm)] at h2
      obtain ⟨ys, e, hys⟩ := (ih' (x.drop d.len)).2 ⟨by rw [List.length_drop, h1]; omega, h2.2⟩
      exact ⟨x.take d.len :: ys, by rw [List.flatten_cons, ← e, List.take_append_drop], .cons ((hd _).2 ⟨hlen, h2.1⟩) hys⟩

theorem dom_box_holds {D : Dom} (hb : D.isBox) (hw : D.WF) (x : Vec) : D.Holds x ↔ x.length = D.len ∧ inBounds D.acc.lb D.acc.ub 0 x := by
  cases D with
  | base d => exact base_box_holds hb x
  | tensor ds => exact tensor_box_holds hb hw.2 x

/-- C120: boxes and products of boxes. The result is the volume of the set described. -/
theorem volume_box (nnls : NNLS) (tol : ℝ) (nlb nub : List XR) {D : Dom} (hb : D.isBox) (hw : D.WF) {lo hi : Fin D.len → ℝ} (hl : D.acc.lb = finX lo)
    (hu : D.acc.ub = finX hi) (hle : ∀ i, lo i ≤ hi i) (U : List Vec) : ∃ v : ℝ, D.volume nnls tol nlb nub U = .ok (.fin v) ∧
      0 ≤ v ∧ ENNReal.ofReal v = MeasureTheory.volume D.pts := by
  refine ⟨_, volume_box_value nnls tol nlb nub hb hl hu U, Finset.prod_nonneg fun i _ => sub_nonneg.2 (hle i), ?_⟩
  have hset : D.pts = Icc lo hi := by
    ext x
    have : x ∈ D.pts ↔ D.Holds (List.ofFn x) := Iff.rfl
    rw [this, dom_box_holds hb hw, inBounds_iff, hl, hu, mem_Icc, Pi.le_def, Pi.le_def]
    simp only [finX, List.length_ofFn, true_and, sub_zero, add_zero, List.getElem?_ofFn]
    constructor
    · rintro ⟨h1, h2⟩
      exact ⟨fun i => h1 i _ _ (dif_pos i.2) (dif_pos i.2), fun i => h2 i _ _ (dif_pos i.2) (dif_pos i.2)⟩
    · rintro ⟨h1, h2⟩
      constructor
      · intro i r xi e1 e2
        by_cases h : i < D.len
        · rw [dif_pos h] at e1 e2
          cases e1; cases e2
          exact h1 _
        · rw [dif_neg h] at e2; cases e2
      · intro i r xi e1 e2
        by_cases h : i < D.len
        · rw [dif_pos h] at e1 e2
          cases e1; cases e2
          exact h2 _
        · rw [dif_neg h] at e2; cases e2
  rw [hset, Real.volume_Icc_pi, ENNReal.ofReal_prod_of_nonneg fun i _ => sub_nonneg.2 (hle i)]

theorem getD_of_lt {α : Type} {l : List α} {i : ℕ} (h : i < l.length) {a : α} : l.getD i a = l[i] := by
  rw [List.getD_eq_getElem?_getD, List.getElem?_eq_getElem h]; rfl

/-- A width of a box: finite and non-negative, or infinite. -/
def goodW : XR → Prop
  | .fin a => 0 ≤ a
  | .pinf => True
  | _ => False

theorem foldl_nan (l : List XR) : l.foldl mulX .nan = .nan := by
  induction l with
  | nil => rfl
  | cons a l ih => rw [List.foldl_cons, show mulX .nan a = .nan by cases a <;> rfl, ih]

theorem foldl_pinf {l : List XR} (h : ∀ w ∈ l, goodW w) : l.foldl mulX .pinf = if XR.fin 0 ∈ l then .nan else .pinf := by
  induction l with
  | nil => simp
  | cons a l ih =>
    have ih' := ih fun w hw => h w (List.mem_cons_of_mem _ hw)
    have ha := h a List.mem_cons_self
    rw [List.foldl_cons]
    cases a with
    | fin a =>
      have ha' : 0 ≤ a := ha
      by_cases h0 : a = 0
      · rw [mulX, if_pos h0, foldl_nan, if_pos (by rw [h0]; exact List.mem_cons_self)]
      · rw [mulX, if_neg h0, if_pos (lt_of_le_of_ne ha' (Ne.symm h0)), ih']
        simp [Ne.symm h0]
    | pinf => rw [mulX, ih']; simp
    | ninf => exact ha.elim
    | nan => exact ha.elim

theorem foldl_fin {l : List XR} (h : ∀ w ∈ l, goodW w) {a : ℝ} (ha : 0 ≤ a) (hp : XR.pinf ∈ l) :
    l.foldl mulX (.fin a) = if a = 0 ∨ XR.fin 0 ∈ l then .nan else .pinf := by
  induction l generalizing a with
  | nil => cases hp
  | cons b l ih =>
    have hl := fun w hw => h w (List.mem_cons_of_mem b hw)
    have hb := h b List.mem_cons_self
    rw [List.foldl_cons]
    cases b with
    | fin b =>
      have hb' : 0 ≤ b := hb
      rw [mulX, ih hl (mul_nonneg ha hb') (by simpa using hp)]
      congr 1
      simp [mul_eq_zero, or_assoc, eq_comm]
    | pinf =>
      by_cases h0 : a = 0
      · rw [mulX, if_pos h0, foldl_nan, if_pos (Or.inl h0)]
      · rw [mulX, if_neg h0, if_pos (lt_of_le_of_ne ha (Ne.symm h0)), foldl_pinf hl]
        simp [h0]
    | ninf => exact hb.elim
    | nan => exact hb.elim

/-- The numbers between two bounds. -/
def ivl (l u : XR) : Set ℝ := {t | (∀ r, l = .fin r → r ≤ t) ∧ ∀ r, u = .fin r → t ≤ r}

theorem ivl_volume {l u : XR} (hl : l.okLower) (hu : u.okUpper) :
    volume (ivl l u) = match XR.sub u l with | .fin a => ENNReal.ofReal a | _ => ⊤ := by
  cases l with
  | fin a =>
    cases u with
    | fin b =>
      have : ivl (.fin a) (.fin b) = Icc a b := by ext t; simp [ivl]
      rw [this, Real.volume_Icc]; rfl
    | pinf =>
      have : ivl (.fin a) .pinf = Ici a := by ext t; simp [ivl]
      rw [this, Real.volume_Ici]; rfl
    | ninf => exact hu.elim
    | nan => exact hu.elim
  | ninf =>
    cases u with
    | fin b =>
      have : ivl .ninf (.fin b) = Iic b := by ext t; simp [ivl]
      rw [this, Real.volume_Iic]; rfl
    | pinf =>
      have : ivl .ninf .pinf = univ := by ext t; simp [ivl]
      rw [this, Real.volume_univ]; rfl
    | ninf => exact hu.elim
    | nan => exact hu.elim
  | pinf => exact hl.elim
  | nan => exact hl.elim

theorem box_pts_pi {D : Dom} (hb : D.isBox) (hw : D.WF) : D.pts = Set.pi univ (fun i : Fin D.len => ivl (D.acc.lb.getD i .nan) (D.acc.ub.getD i .nan)) := by
  ext x
  have : x ∈ D.pts ↔ D.Holds (List.ofFn x) := Iff.rfl
  rw [this, dom_box_holds hb hw, inBounds_iff]
  simp only [List.length_ofFn, true_and, sub_zero, add_zero, List.getElem?_ofFn, mem_univ_pi]
  have key : ∀ (l : List XR) (i : ℕ) (r : ℝ), l.getD i .nan = .fin r ↔ l[i]? = some (.fin r) := by
    intro l i r
    rw [List.getD_eq_getElem?_getD]
    cases l[i]? <;> simp
  constructor
  · rintro ⟨h1, h2⟩ i
    exact ⟨fun r hr => h1 i r _ ((key _ _ _).1 hr) (dif_pos i.2), fun r hr => h2 i r _ ((key _ _ _).1 hr) (dif_pos i.2)⟩
  · intro h
    constructor
    · intro i r xi e1 e2
      by_cases hi : i < D.len
      · rw [dif_pos hi] at e2
        cases e2
        exact (h ⟨i, hi⟩).1 r ((key _ _ _).2 e1)
      · rw [dif_neg hi] at e2; cases e2
    · intro i r xi e1 e2
      by_cases hi : i < D.len
      · rw [dif_pos hi] at e2
        cases e2
        exact (h ⟨i, hi⟩).2 r ((key _ _ _).2 e1)
      · rw [dif_neg hi] at e2; cases e2

theorem flatMap_bounds {ds : List Base} (hw : ∀ d ∈ ds, d.WF) : (ds.flatMap fun d => d.acc.lb).length = (ds.map Base.len).sum ∧
    (ds.flatMap fun d => d.acc.ub).length = (ds.map Base.len).sum := by
  induction ds with
  | nil => simp
  | cons d ds ih =>
    obtain ⟨h1, h2⟩ := ih fun d' hd' => hw d' (List.mem_cons_of_mem _ hd')
    obtain ⟨h3, h4⟩ := base_bounds_length (hw d List.mem_cons_self)
    simp only [List.flatMap_cons, List.length_append, List.map_cons, List.sum_cons]
    omega

theorem dom_bounds_length {D : Dom} (hw : D.WF) : D.acc.lb.length = D.len ∧ D.acc.ub.length = D.len := by
  cases D with
  | base d => exact base_bounds_length hw
  | tensor ds => exact flatMap_bounds hw.2

theorem dom_bounds_ok {D : Dom} (hw : D.WF) : (∀ v ∈ D.acc.lb, v.okLower) ∧ ∀ v ∈ D.acc.ub, v.okUpper := by
  cases D with
  | base d => exact ⟨(base_wf_acc hw).lb_ok, (base_wf_acc hw).ub_ok⟩
  | tensor ds =>
    constructor
    · intro v hv
      obtain ⟨d, hd, hv'⟩ := List.mem_flatMap.1 hv
      exact (base_wf_acc (hw.2 d hd)).lb_ok v hv'
    · intro v hv
      obtain ⟨d, hd, hv'⟩ := List.mem_flatMap.1 hv
      exact (base_wf_acc (hw.2 d hd)).ub_ok v hv'

/-- C120: boxes with an infinite bound. The result is infinite, as is the volume, unless some width is zero: then the volume is zero and the result is
not a number. -/
theorem volume_box_inf (nnls : NNLS) (tol : ℝ) (nlb nub : List XR) {D : Dom} (hb : D.isBox) (hw : D.WF)
    (hne : ∃ y, D.Holds y) (hinf : ∃ i : ℕ, i < D.len ∧ (D.acc.lb[i]? = some .ninf ∨ D.acc.ub[i]? = some .pinf)) (U : List Vec) :
    (D.volume nnls tol nlb nub U = .ok .pinf ∧ MeasureTheory.volume D.pts = ⊤) ∨
    (D.volume nnls tol nlb nub U = .ok .nan ∧ MeasureTheory.volume D.pts = 0 ∧ ∃ (i : ℕ) (r : ℝ), D.acc.lb[i]? = some (.fin r) ∧ D.acc.ub[i]? = some (.fin r)) := by
  obtain ⟨ll, lu⟩ := dom_bounds_length hw
  obtain ⟨ol, ou⟩ := dom_bounds_ok hw
  set W := List.zipWith XR.sub D.acc.ub D.acc.lb with hWdef
  have hlen : W.length = D.len := by rw [hWdef, List.length_zipWith]; omega
  have hget : ∀ i : Fin D.len, W[(i : ℕ)]? = some (XR.sub (D.acc.ub.getD i .nan) (D.acc.lb.getD i .nan)) := by
    intro i
    have h1 : (i : ℕ) < D.acc.ub.length := by omega
    have h2 : (i : ℕ) < D.acc.lb.length := by omega
    rw [hWdef, List.getElem?_zipWith, List.getElem?_eq_getElem h1, List.getElem?_eq_getElem h2, getD_of_lt h1, getD_of_lt h2]
  have hokl : ∀ i : Fin D.len, (D.acc.lb.getD i .nan).okLower := fun i => by
    have h2 : (i : ℕ) < D.acc.lb.length := by omega
    rw [getD_of_lt h2]; exact ol _ (List.getElem_mem h2)
  have hoku : ∀ i : Fin D.len, (D.acc.ub.getD i .nan).okUpper := fun i => by
    have h2 : (i : ℕ) < D.acc.ub.length := by omega
    rw [getD_of_lt h2]; exact ou _ (List.getElem_mem h2)
  have hpi := box_pts_pi hb hw
  obtain ⟨y, hy⟩ := hne
  have hyl : y.length = D.len := holds_length hy
  have hyin : (fun i : Fin D.len => y.getD i 0) ∈ D.pts := by
    show D.Holds _
    have : List.ofFn (fun i : Fin D.len => y.getD i 0) = y := by
      apply List.ext_getElem
      · simp [hyl]
      · intro i h1 h2
        rw [List.getElem_ofFn]
        exact getD_of_lt h2
    rw [this]; exact hy
  have hgood' : ∀ i : Fin D.len, goodW (XR.sub (D.acc.ub.getD i .nan) (D.acc.lb.getD i .nan)) := by
    intro i
    rw [hpi, mem_univ_pi] at hyin
    have hi := hyin i
    have h1 := hokl i
    have h2 := hoku i
    revert hi h1 h2
    generalize D.acc.ub.getD i .nan = u
    generalize D.acc.lb.getD i .nan = l
    intro hi h1 h2
    cases l with
    | fin a =>
      cases u with
      | fin b =>
        have e1 := hi.1 a rfl
        have e2 := hi.2 b rfl
        show 0 ≤ b - a
        linarith
      | pinf => trivial
      | ninf => exact h2.elim
      | nan => exact h2.elim
    | ninf =>
      cases u with
      | fin b => trivial
      | pinf => trivial
      | ninf => exact h2.elim
      | nan => exact h2.elim
    | pinf => exact h1.elim
    | nan => exact h1.elim
  have hmem : ∀ w, w ∈ W ↔ ∃ i : Fin D.len, XR.sub (D.acc.ub.getD i .nan) (D.acc.lb.getD i .nan) = w := by
    intro w
    rw [List.mem_iff_getElem?]
    constructor
    · rintro ⟨i, hi⟩
      have hi' : i < D.len := by
        have := (List.getElem?_eq_some_iff.1 hi).1
        omega
      have := hget ⟨i, hi'⟩
      rw [show ((⟨i, hi'⟩ : Fin D.len) : ℕ) = i from rfl] at this
      rw [hi] at this
      exact ⟨⟨i, hi'⟩, (Option.some.inj this).symm⟩
    · rintro ⟨i, hi⟩
      exact ⟨i, by rw [hget i, hi]⟩
  have hgood : ∀ w ∈ W, goodW w := by
    intro w hw'
    obtain ⟨i, rfl⟩ := (hmem w).1 hw'
    exact hgood' i
  have hpinf : XR.pinf ∈ W := by
    obtain ⟨i, hi, h⟩ := hinf
    rw [hmem]
    refine ⟨⟨i, hi⟩, ?_⟩
    have h1 := hokl ⟨i, hi⟩
    have h2 := hoku ⟨i, hi⟩
    rcases h with h | h
    · have e : D.acc.lb.getD i .nan = .ninf := by rw [List.getD_eq_getElem?_getD, h]; rfl
      show XR.sub (D.acc.ub.getD i .nan) (D.acc.lb.getD i .nan) = _
      rw [e]
      change (D.acc.ub.getD i .nan).okUpper at h2
      revert h2
      generalize D.acc.ub.getD i .nan = u
      intro h2
      cases u <;> first | rfl | exact h2.elim
    · have e : D.acc.ub.getD i .nan = .pinf := by rw [List.getD_eq_getElem?_getD, h]; rfl
      show XR.sub (D.acc.ub.getD i .nan) (D.acc.lb.getD i .nan) = _
      rw [e]
      change (D.acc.lb.getD i .nan).okLower at h1
      revert h1
      generalize D.acc.lb.getD i .nan = l
      intro h1
      cases l <;> first | rfl | exact h1.elim
  have hval : D.volume nnls tol nlb nub U = .ok (if XR.fin 0 ∈ W then .nan else .pinf) := by
    rw [Dom.volume, if_pos hb, prodX, foldl_fin hgood zero_le_one hpinf]
    simp
  have hvol : MeasureTheory.volume D.pts = ∏ i : Fin D.len, volume (ivl (D.acc.lb.getD i .nan) (D.acc.ub.getD i .nan)) := by
    rw [hpi, volume_pi_pi]
  by_cases h0 : XR.fin 0 ∈ W
  · right
    rw [hval, if_pos h0]
    obtain ⟨i, hi⟩ := (hmem _).1 h0
    refine ⟨rfl, ?_, i, ?_⟩
    · rw [hvol]
      refine Finset.prod_eq_zero (Finset.mem_univ i) ?_
      rw [ivl_volume (hokl i) (hoku i), hi]
      simp
    · have h1 : (i : ℕ) < D.acc.ub.length := by omega
      have h2 : (i : ℕ) < D.acc.lb.length := by omega
      rw [getD_of_lt h1, getD_of_lt h2] at hi
      rw [List.getElem?_eq_getElem h1, List.getElem?_eq_getElem h2]
      revert hi
      generalize D.acc.ub[(i : ℕ)] = u
      generalize D.acc.lb[(i : ℕ)] = l
      intro hi
      cases u <;> cases l <;> simp [XR.sub] at hi
      rename_i a b
      exact ⟨b, rfl, by rw [show a = b by linarith]⟩
  · left
    rw [hval, if_neg h0]
    refine ⟨rfl, ?_⟩
    rw [hvol]
    obtain ⟨i, hi⟩ := (hmem _).1 hpinf
    rw [← Finset.mul_prod_erase _ _ (Finset.mem_univ i), ivl_volume (hokl i) (hoku i), hi]
    refine ENNReal.top_mul ?_
    rw [Finset.prod_ne_zero_iff]
    intro j _
    rw [ivl_volume (hokl j) (hoku j)]
    have hg := hgood' j
    have hn : XR.sub (D.acc.ub.getD j .nan) (D.acc.lb.getD j .nan) ≠ .fin 0 := fun e => h0 ((hmem _).2 ⟨j, e⟩)
    revert hg hn
    generalize XR.sub (D.acc.ub.getD j .nan) (D.acc.lb.getD j .nan) = w
    intro hg hn
    cases w with
    | fin a =>
      have hg' : 0 ≤ a := hg
      have : a ≠ 0 := fun e => hn (by rw [e])
      simp only [ne_eq, ENNReal.ofReal_eq_zero, not_le]
      exact lt_of_le_of_ne hg' this.symm
    | pinf => simp
    | ninf => exact hg.elim
    | nan => exact hg.elim

/-! ## Monte Carlo -/

/-- The estimate. -/
noncomputable def volEst {n : ℕ} (S : Set (Fin n → ℝ)) (lo hi : Fin n → ℝ) {N : ℕ} (u : Fin N → Fin n → ℝ) : ℝ :=
  (∏ i, (hi i - lo i)) * ((∑ j, if boxPt lo hi (u j) ∈ S then (1 : ℝ) else 0) / N)

theorem volume_mc_value (nnls : NNLS) (tol : ℝ) {D : Dom} (hb : ¬ D.isBox) (lo hi : Fin D.len → ℝ) {N : ℕ} (hN : 0 < N) (u : Fin N → Fin D.len → ℝ) :
    D.volume nnls tol (finX lo) (finX hi) (rowsOf u) = .ok (.fin (volEst (D.accepted nnls tol) lo hi u)) := by
  have hf : ¬ ∃ q ∈ (finX lo).zip (finX hi), ¬ (q.1.isFinite ∧ q.2.isFinite) := by
    rintro ⟨q, hq, hn⟩
    refine hn ⟨?_, ?_⟩
    · obtain ⟨i, hi⟩ := (List.mem_ofFn' _ _).1 (List.of_mem_zip hq).1
      rw [← hi]; trivial
    · obtain ⟨i, hi⟩ := (List.mem_ofFn' _ _).1 (List.of_mem_zip hq).2
      rw [← hi]; trivial
  have hne : rowsOf u ≠ [] := by
    intro h
    have := congrArg List.length h
    simp [rowsOf] at this
    omega
  have hmap : (rowsOf u).map (uniformRow (finX lo) (finX hi)) = List.ofFn (fun j => List.ofFn (boxPt lo hi (u j))) := by
    rw [rowsOf, List.map_ofFn]
    congr 1
    funext j
    exact uniformRow_ofFn lo hi (u j)
  rw [Dom.volume, if_neg hb, if_neg hf, if_neg hne, prodX_width, hmap, filter_ofFn_length, mulX, volEst]
  simp only [rowsOf, Dom.accepted, List.length_ofFn, mem_ofPred_eq]
  congr!

/-- C120: infinite normalization bounds raise. -/
theorem volume_ok_iff (nnls : NNLS) (tol : ℝ) (nlb nub : List XR) (D : Dom) (U : List Vec) :
    (∃ v, D.volume nnls tol nlb nub U = .ok v) ↔ D.isBox ∨ ∀ q ∈ nlb.zip nub, q.1.isFinite ∧ q.2.isFinite := by
  unfold Dom.volume
  by_cases hb : D.isBox
  · simp [hb]
  · rw [if_neg hb]
    by_cases hf : ∃ q ∈ nlb.zip nub, ¬ (q.1.isFinite ∧ q.2.isFinite)
    · rw [if_pos hf]
      constructor
      · rintro ⟨v, hv⟩; cases hv
      · rintro (h | h)
        · exact absurd h hb
        · obtain ⟨q, hq, hn⟩ := hf
          exact absurd (h q hq) hn
    · rw [if_neg hf]
      push Not at hf
      exact ⟨fun _ => .inr hf, fun _ => ⟨_, rfl⟩⟩

theorem boxPt_measure {n : ℕ} {lo hi : Fin n → ℝ} (hle : ∀ i, lo i ≤ hi i) {S : Set (Fin n → ℝ)} (hS : MeasurableSet S) :
    ENNReal.ofReal (∏ i, (hi i - lo i)) * ((volume : Measure (Fin n → ℝ)).restrict (Icc 0 1)) {u | boxPt lo hi u ∈ S} = volume (S ∩ Icc lo hi) := by
  have hmeas : Measurable (boxPt lo hi) := by
    unfold boxPt
    fun_prop
  rw [Measure.restrict_apply (show MeasurableSet {u | boxPt lo hi u ∈ S} from hmeas hS)]
  by_cases h0 : ∏ i, (hi i - lo i) = 0
  · rw [h0, ENNReal.ofReal_zero, zero_mul]
    symm
    refine measure_mono_null inter_subset_right ?_
    rw [Real.volume_Icc_pi, ← ENNReal.ofReal_prod_of_nonneg fun i _ => sub_nonneg.2 (hle i), h0, ENNReal.ofReal_zero]
  · have hlt : ∀ i, 0 < hi i - lo i := fun i => lt_of_le_of_ne (sub_nonneg.2 (hle i)) fun e => h0 (Finset.prod_eq_zero (Finset.mem_univ i) e.symm)
    have hset : {u | boxPt lo hi u ∈ S} ∩ Icc 0 1 = (Matrix.toLin' (Matrix.diagonal fun i => hi i - lo i)) ⁻¹' ((fun x => lo + x) ⁻¹' (S ∩ Icc lo hi)) := by
      ext u
      have e : lo + Matrix.toLin' (Matrix.diagonal fun i => hi i - lo i) u = boxPt lo hi u := by
        funext i
        simp [boxPt, Matrix.mulVec_diagonal]
      simp only [mem_inter_iff, mem_ofPred_eq, mem_preimage, e]
      refine and_congr_right fun _ => ?_
      simp only [mem_Icc, Pi.le_def, boxPt]
      constructor
      · rintro ⟨h1, h2⟩
        refine ⟨fun i => ?_, fun i => ?_⟩
        · have := h1 i; have := hlt i
          simp only [Pi.zero_apply] at *
          nlinarith
        · have := h2 i; have := hlt i
          simp only [Pi.one_apply] at *
          nlinarith
      · rintro ⟨h1, h2⟩
        refine ⟨fun i => ?_, fun i => ?_⟩
        · have a := h1 i; have b := hlt i
          simp only [Pi.zero_apply]
          by_contra hc
          push Not at hc
          nlinarith
        · have a := h2 i; have b := hlt i
          simp only [Pi.one_apply]
          by_contra hc
          push Not at hc
          nlinarith
    have hdet : LinearMap.det (Matrix.toLin' (Matrix.diagonal fun i => hi i - lo i)) = ∏ i, (hi i - lo i) := by
      rw [LinearMap.det_toLin', Matrix.det_diagonal]
    have hpos : 0 < ∏ i, (hi i - lo i) := Finset.prod_pos fun i _ => hlt i
    rw [hset, Measure.addHaar_preimage_linearMap _ (by rw [hdet]; exact h0), hdet, measure_preimage_add, ← mul_assoc,
      ← ENNReal.ofReal_mul hpos.le, abs_of_pos (inv_pos.2 hpos), mul_inv_cancel₀ h0, ENNReal.ofReal_one, one_mul]

instance cubeProb (n : ℕ) : IsProbabilityMeasure ((volume : Measure (Fin n → ℝ)).restrict (Icc 0 1)) := by
  refine ⟨?_⟩
  rw [Measure.restrict_apply_univ, Real.volume_Icc_pi]
  simp

instance cubeLawProb (N n : ℕ) : IsProbabilityMeasure (cubeLaw N n) := by
  unfold cubeLaw; infer_instance

/-- The relative volume. -/
theorem boxPt_prob {n : ℕ} {lo hi : Fin n → ℝ} (hle : ∀ i, lo i ≤ hi i) {S : Set (Fin n → ℝ)} (hS : MeasurableSet S) :
    (∏ i, (hi i - lo i)) * (((volume : Measure (Fin n → ℝ)).restrict (Icc 0 1)).real {u | boxPt lo hi u ∈ S}) = volume.real (S ∩ Icc lo hi) := by
  rw [measureReal_def, measureReal_def, ← boxPt_measure hle hS, ENNReal.toReal_mul,
    ENNReal.toReal_ofReal (Finset.prod_nonneg fun i _ => sub_nonneg.2 (hle i))]

/-- One draw. -/
noncomputable def hitOne {n : ℕ} (S : Set (Fin n → ℝ)) (lo hi : Fin n → ℝ) (u : Fin n → ℝ) : ℝ := if boxPt lo hi u ∈ S then 1 else 0

theorem hitOne_eq {n : ℕ} (S : Set (Fin n → ℝ)) (lo hi : Fin n → ℝ) : hitOne S lo hi = indicator {u | boxPt lo hi u ∈ S} 1 := by
  funext u
  by_cases h : boxPt lo hi u ∈ S
  · rw [hitOne, if_pos h, indicator_of_mem (show u ∈ {u | boxPt lo hi u ∈ S} from h)]; rfl
  · rw [hitOne, if_neg h, indicator_of_notMem (show u ∉ {u | boxPt lo hi u ∈ S} from h)]

theorem hit_measurable {n : ℕ} {S : Set (Fin n → ℝ)} (hS : MeasurableSet S) (lo hi : Fin n → ℝ) : MeasurableSet {u | boxPt lo hi u ∈ S} := by
  have hmeas : Measurable (boxPt lo hi) := by
    unfold boxPt
    fun_prop
  exact hmeas hS

theorem hitOne_memLp {n : ℕ} {S : Set (Fin n → ℝ)} (hS : MeasurableSet S) (lo hi : Fin n → ℝ) (p : ℝ≥0∞) :
    MemLp (hitOne S lo hi) p ((volume : Measure (Fin n → ℝ)).restrict (Icc 0 1)) := by
  rw [hitOne_eq]
  exact (memLp_const (1 : ℝ)).indicator (hit_measurable hS lo hi)

theorem hitOne_mean {n : ℕ} {S : Set (Fin n → ℝ)} (hS : MeasurableSet S) (lo hi : Fin n → ℝ) :
    ∫ u, hitOne S lo hi u ∂((volume : Measure (Fin n → ℝ)).restrict (Icc 0 1)) = ((volume : Measure (Fin n → ℝ)).restrict (Icc 0 1)).real {u | boxPt lo hi u ∈ S} := by
  rw [hitOne_eq]
  exact integral_indicator_one (hit_measurable hS lo hi)

theorem hitOne_variance {n : ℕ} {S : Set (Fin n → ℝ)} (hS : MeasurableSet S) (lo hi : Fin n → ℝ) :
    variance (hitOne S lo hi) ((volume : Measure (Fin n → ℝ)).restrict (Icc 0 1)) =
      ((volume : Measure (Fin n → ℝ)).restrict (Icc 0 1)).real {u | boxPt lo hi u ∈ S} *
        (1 - ((volume : Measure (Fin n → ℝ)).restrict (Icc 0 1)).real {u | boxPt lo hi u ∈ S}) := by
  rw [variance_eq_sub (hitOne_memLp hS lo hi 2)]
  have hsq : hitOne S lo hi ^ 2 = hitOne S lo hi := by
    funext u
    simp only [Pi.pow_apply, hitOne]
    split <;> norm_num
  rw [hsq, hitOne_mean hS]
  ring

theorem volEst_eq {n : ℕ} (S : Set (Fin n → ℝ)) (lo hi : Fin n → ℝ) {N : ℕ} :
    (volEst S lo hi : (Fin N → Fin n → ℝ) → ℝ) = fun u => ((∏ i, (hi i - lo i)) / N) * (∑ j, fun v : Fin N → Fin n → ℝ => hitOne S lo hi (v j)) u := by
  funext u
  rw [Finset.sum_apply, volEst]
  simp only [hitOne]
  ring

theorem volEst_memLp {n : ℕ} {S : Set (Fin n → ℝ)} (hS : MeasurableSet S) (lo hi : Fin n → ℝ) {N : ℕ} :
    MemLp (volEst S lo hi) 2 (cubeLaw N n) := by
  rw [volEst_eq]
  refine MemLp.const_mul ?_ _
  refine memLp_finset_sum' _ fun j _ => ?_
  exact (hitOne_memLp hS lo hi 2).comp_measurePreserving (measurePreserving_eval _ j)

theorem volEst_mean {n : ℕ} {S : Set (Fin n → ℝ)} (hS : MeasurableSet S) {lo hi : Fin n → ℝ} (hle : ∀ i, lo i ≤ hi i) {N : ℕ} (hN : 0 < N) :
    ∫ u, volEst S lo hi u ∂(cubeLaw N n) = volume.real (S ∩ Icc lo hi) := by
  have hone : ∀ j : Fin N, ∫ u, hitOne S lo hi (u j) ∂(cubeLaw N n) = ((volume : Measure (Fin n → ℝ)).restrict (Icc 0 1)).real {u | boxPt lo hi u ∈ S} := by
    intro j
    rw [← hitOne_mean hS lo hi]
    have hmp := measurePreserving_eval (fun _ : Fin N => (volume : Measure (Fin n → ℝ)).restrict (Icc 0 1)) j
    have := integral_map (μ := cubeLaw N n) (φ := fun u : Fin N → Fin n → ℝ => u j) (f := hitOne S lo hi) (measurable_pi_apply j).aemeasurable
      (by rw [show Measure.map (fun u : Fin N → Fin n → ℝ => u j) (cubeLaw N n) = _ from hmp.map_eq]; exact (hitOne_memLp hS lo hi 2).1)
    rw [← this, show Measure.map (fun u : Fin N → Fin n → ℝ => u j) (cubeLaw N n) = _ from hmp.map_eq]
  rw [volEst_eq, integral_const_mul]
  simp only [Finset.sum_apply]
  rw [integral_finset_sum]
  · simp only [hone, Finset.sum_const, Finset.card_univ, Fintype.card_fin, nsmul_eq_mul]
    rw [← boxPt_prob hle hS]
    have : (N : ℝ) ≠ 0 := by positivity
    field_simp
  · intro j _
    exact ((hitOne_memLp hS lo hi 1).comp_measurePreserving (measurePreserving_eval _ j)).integrable le_rfl

theorem volEst_variance {n : ℕ} {S : Set (Fin n → ℝ)} (hS : MeasurableSet S) {lo hi : Fin n → ℝ} (hle : ∀ i, lo i ≤ hi i) {N : ℕ} (hN : 0 < N) :
    variance (volEst S lo hi) (cubeLaw N n) = volume.real (S ∩ Icc lo hi) * ((∏ i, (hi i - lo i)) - volume.real (S ∩ Icc lo hi)) / N := by
  rw [volEst_eq, variance_const_mul, cubeLaw, variance_sum_pi (X := fun _ => hitOne S lo hi) (fun _ => hitOne_memLp hS lo hi 2)]
  simp only [hitOne_variance hS, Finset.sum_const, Finset.card_univ, Fintype.card_fin, nsmul_eq_mul]
  rw [← boxPt_prob hle hS]
  have : (N : ℝ) ≠ 0 := by positivity
  field_simp

/-- C120: the estimate as a function of the random numbers: its mean is the volume of the accepted points of the normalization box, its variance
is that of a proportion, and the probability of a deviation is bounded. -/
theorem volume_law (nnls : NNLS) (tol : ℝ) {D : Dom} (hb : ¬ D.isBox) {lo hi : Fin D.len → ℝ} (hle : ∀ i, lo i ≤ hi i)
    (hS : MeasurableSet (D.accepted nnls tol)) {N : ℕ} (hN : 0 < N) :
    ∃ est : (Fin N → Fin D.len → ℝ) → ℝ, (∀ u, D.volume nnls tol (finX lo) (finX hi) (rowsOf u) = .ok (.fin (est u))) ∧
      ∫ u, est u ∂(cubeLaw N D.len) = volume.real (D.accepted nnls tol ∩ Icc lo hi) ∧
      variance est (cubeLaw N D.len) = volume.real (D.accepted nnls tol ∩ Icc lo hi) * ((∏ i, (hi i - lo i)) - volume.real (D.accepted nnls tol ∩ Icc lo hi)) / N ∧
      ∀ c > 0, cubeLaw N D.len {u | c ≤ |est u - volume.real (D.accepted nnls tol ∩ Icc lo hi)|} ≤
        ENNReal.ofReal (volume.real (D.accepted nnls tol ∩ Icc lo hi) * ((∏ i, (hi i - lo i)) - volume.real (D.accepted nnls tol ∩ Icc lo hi)) / N / c ^ 2) := by
  refine ⟨volEst (D.accepted nnls tol) lo hi, fun u => volume_mc_value nnls tol hb lo hi hN u, volEst_mean hS hle hN, volEst_variance hS hle hN, fun c hc => ?_⟩
  have h := meas_ge_le_variance_div_sq (volEst_memLp hS lo hi (N := N)) hc
  rw [volEst_variance hS hle hN, volEst_mean hS hle hN] at h
  exact h

/-- C120: with more random numbers the estimate converges in probability. -/
theorem volume_consistent (nnls : NNLS) (tol : ℝ) {D : Dom} (hb : ¬ D.isBox) {lo hi : Fin D.len → ℝ} (hle : ∀ i, lo i ≤ hi i)
    (hS : MeasurableSet (D.accepted nnls tol)) {c : ℝ} (hc : 0 < c) :
    Filter.Tendsto (fun N => cubeLaw N D.len {u | ¬ ∃ v, D.volume nnls tol (finX lo) (finX hi) (rowsOf u) = .ok (.fin v) ∧
      |v - volume.real (D.accepted nnls tol ∩ Icc lo hi)| < c}) Filter.atTop (nhds 0) := by
  set K := volume.real (D.accepted nnls tol ∩ Icc lo hi) * ((∏ i, (hi i - lo i)) - volume.real (D.accepted nnls tol ∩ Icc lo hi)) with hK
  have hlim : Filter.Tendsto (fun N : ℕ => ENNReal.ofReal (K / N / c ^ 2)) Filter.atTop (nhds 0) := by
    rw [← ENNReal.ofReal_zero]
    refine ENNReal.tendsto_ofReal ?_
    have := (tendsto_const_div_atTop_nhds_zero_nat K).div_const (c ^ 2)
    simpa using this
  refine tendsto_of_tendsto_of_tendsto_of_le_of_le' tendsto_const_nhds hlim (Filter.Eventually.of_forall fun _ => zero_le) ?_
  filter_upwards [Filter.eventually_gt_atTop 0] with N hN
  obtain ⟨est, h1, -, -, h4⟩ := volume_law nnls tol hb hle hS hN
  refine le_trans (measure_mono ?_) (h4 c hc)
  intro u hu
  have hu' : ¬ ∃ v, D.volume nnls tol (finX lo) (finX hi) (rowsOf u) = .ok (.fin v) ∧
      |v - volume.real (D.accepted nnls tol ∩ Icc lo hi)| < c := hu
  show c ≤ _
  by_contra hn
  exact hu' ⟨est u, h1 u, not_le.1 hn⟩

/-! ## The accepted set -/

theorem plain_accepted {d : Base} (hp : d.Plain) (nnls : NNLS) (tol : ℝ) (x : Fin (Dom.base d).len → ℝ) :
    x ∈ (Dom.base d).accepted nnls tol ↔ d.acc.inAll tol (List.ofFn x) := by
  have : x ∈ (Dom.base d).accepted nnls tol ↔ (List.ofFn x).length = d.len ∧ d.inside nnls tol (List.ofFn x) := Iff.rfl
  rw [this, base_inside_iff nnls tol hp]
  exact and_iff_right List.length_ofFn

/-- The accepted points of linear and quadratic constraints form a measurable set. -/
theorem inAll_measurable {q : LQ} (hw : q.WF) (tol : ℝ) {n : ℕ} (hn : q.n = n) : MeasurableSet {x : Fin n → ℝ | q.inAll tol (List.ofFn x)} := by
  have e : {x : Fin n → ℝ | q.inAll tol (List.ofFn x)} =
      (⋂ (i : Fin n), {x : Fin n → ℝ | ∀ r, q.lb[(i : ℕ)]? = some (XR.fin r) → r - tol ≤ x i}) ∩
      (⋂ (i : Fin n), {x : Fin n → ℝ | ∀ r, q.ub[(i : ℕ)]? = some (XR.fin r) → x i ≤ r + tol}) ∩
      (⋂ (i : ℕ), {x : Fin n → ℝ | ∀ row bi, q.A[i]? = some row → q.b[i]? = some bi → Vec.dot row (List.ofFn x) ≤ bi + tol}) ∩
      (⋂ (i : ℕ), {x : Fin n → ℝ | ∀ row bi, q.Aeq[i]? = some row → q.beq[i]? = some bi → |Vec.dot row (List.ofFn x) - bi| < tol}) ∩
      (⋂ (i : ℕ), {x : Fin n → ℝ | ∀ L y rho, q.Ls[i]? = some L → q.ys[i]? = some y → q.rhos[i]? = some rho →
        Vec.norm (Vec.mulVec L (Vec.sub (List.ofFn x) y)) ≤ rho + tol}) := by
    ext x
    simp only [LQ.inAll, inBounds_iff, inIneq_iff, inEq_iff, inQuad_iff, mem_ofPred_eq, mem_inter_iff, mem_iInter]
    constructor
    · rintro ⟨⟨h1, h2⟩, h3, h4, h5⟩
      exact ⟨⟨⟨⟨fun i r hr => h1 i r (x i) hr (by simp), fun i r hr => h2 i r (x i) hr (by simp)⟩, h3⟩, h4⟩, h5⟩
    · rintro ⟨⟨⟨⟨h1, h2⟩, h3⟩, h4⟩, h5⟩
      refine ⟨⟨fun i r xi hr hx => ?_, fun i r xi hr hx => ?_⟩, h3, h4, h5⟩
      · rw [List.getElem?_ofFn] at hx
        split at hx
        · rename_i hi
          cases hx
          exact h1 ⟨i, hi⟩ r hr
        · cases hx
      · rw [List.getElem?_ofFn] at hx
        split at hx
        · rename_i hi
          cases hx
          exact h2 ⟨i, hi⟩ r hr
        · cases hx
  rw [e]
  refine (((MeasurableSet.inter ?_ ?_).inter ?_).inter ?_).inter ?_
  · refine MeasurableSet.iInter fun i => IsClosed.measurableSet ?_
    simp only [ofPred_forall]
    exact isClosed_iInter fun r => isClosed_iInter fun _ => isClosed_le continuous_const (continuous_apply i)
  · refine MeasurableSet.iInter fun i => IsClosed.measurableSet ?_
    simp only [ofPred_forall]
    exact isClosed_iInter fun r => isClosed_iInter fun _ => isClosed_le (continuous_apply i) continuous_const
  · refine MeasurableSet.iInter fun i => IsClosed.measurableSet ?_
    simp only [ofPred_forall]
    exact isClosed_iInter fun r => isClosed_iInter fun _ => isClosed_iInter fun _ => isClosed_iInter fun _ => isClosed_le (cont_dot _) continuous_const
  · refine MeasurableSet.iInter fun i => ?_
    cases ha : q.Aeq[i]? with
    | none => simp
    | some row =>
      cases hb : q.beq[i]? with
      | none => simp
      | some bi =>
        have : {x : Fin n → ℝ | ∀ row' bi', some row = some row' → some bi = some bi' → |Vec.dot row' (List.ofFn x) - bi'| < tol} =
            {x : Fin n → ℝ | |Vec.dot row (List.ofFn x) - bi| < tol} := by
          ext x
          simp
        rw [this]
        exact (isOpen_lt ((cont_dot row).sub continuous_const).abs continuous_const).measurableSet
  · refine MeasurableSet.iInter fun i => IsClosed.measurableSet ?_
    simp only [ofPred_forall]
    refine isClosed_iInter fun L => isClosed_iInter fun y => isClosed_iInter fun rho => isClosed_iInter fun _ =>
      isClosed_iInter fun hy => isClosed_iInter fun _ => isClosed_le (cont_quad _ ?_) continuous_const
    exact (hw.ys_w y (List.mem_of_getElem? hy)).trans hn

/-- The accepted set of a domain given by linear and quadratic constraints is measurable. -/
theorem accepted_measurable (nnls : NNLS) (tol : ℝ) {d : Base} (hp : d.Plain) (hw : d.WF) : MeasurableSet ((Dom.base d).accepted nnls tol) := by
  have : (Dom.base d).accepted nnls tol = {x | d.acc.inAll tol (List.ofFn x)} := by
    ext x
    exact plain_accepted hp nnls tol x
  rw [this]
  exact inAll_measurable (base_wf_acc hw) tol rfl

theorem inAll_mono {q : LQ} {s t : ℝ} (h : s ≤ t) {x : Vec} (hx : q.inAll s x) : q.inAll t x := by
  obtain ⟨h1, h2, h3, h4⟩ := hx
  refine ⟨inBounds_mono h h1, inIneq_mono h h2, ?_, inQuad_mono h h4⟩
  rw [inEq_iff] at *
  exact fun i r bi a b => lt_of_lt_of_le (h3 i r bi a b) h

theorem inAll_all {q : LQ} {x : Vec} (h : ∀ tol > 0, q.inAll tol x) : q.Holds x := by
  have key : ∀ a b : ℝ, (∀ tol > 0, a ≤ b + tol) → a ≤ b := fun a b hab => le_of_forall_pos_le_add hab
  refine ⟨fun i r xi hr hx => key _ _ fun t ht => ?_, fun i r xi hr hx => key _ _ fun t ht => ?_, fun i row bi hr hb => key _ _ fun t ht => ?_, ?_,
    fun i L y rho h1 h2 h3 => key _ _ fun t ht => ?_⟩
  · linarith [((inBounds_iff _ _ _ _).1 (h t ht).1).1 i r xi hr hx]
  · exact ((inBounds_iff _ _ _ _).1 (h t ht).1).2 i r xi hr hx
  · exact (inIneq_iff _ _ _ _).1 (h t ht).2.1 i row bi hr hb
  · intro i row bi hr hb
    by_contra hne
    have hpos : 0 < |Vec.dot row x - bi| := abs_pos.2 (sub_ne_zero.2 hne)
    exact lt_irrefl _ ((inEq_iff _ _ _ _).1 (h _ hpos).2.2.1 i row bi hr hb)
  · exact (inQuad_iff _ _ _ _ _).1 (h t ht).2.2.2 i L y rho h1 h2 h3

/-- A plain domain is not a hull: its set is given by the constraints. -/
theorem plain_pts {d : Base} (hp : d.Plain) (x : Fin (Dom.base d).len → ℝ) : x ∈ (Dom.base d).pts ↔ d.acc.Holds (List.ofFn x) := by
  constructor
  · intro h; exact h.2.1
  · intro h
    refine ⟨List.length_ofFn, h, fun X q e => ?_⟩
    subst e
    exact hp.elim

/-- C120: the mean is at least the volume of the set, if the normalization box contains the set. -/
theorem volume_above (nnls : NNLS) {tol : ℝ} (ht : 0 < tol) {d : Base} (hp : d.Plain) {lo hi : Fin (Dom.base d).len → ℝ}
    (hbox : (Dom.base d).pts ⊆ Icc lo hi) : volume.real (Dom.base d).pts ≤ volume.real ((Dom.base d).accepted nnls tol ∩ Icc lo hi) := by
  refine measureReal_mono ?_ ?_
  · intro x hx
    exact ⟨(plain_accepted hp nnls tol x).2 (holds_inAll ((plain_pts hp x).1 hx) ht), hbox hx⟩
  · exact ne_top_of_le_ne_top (isCompact_Icc.measure_lt_top).ne (measure_mono inter_subset_right)

/-- C120: as the tolerance goes to zero the mean converges to the volume of the set. -/
theorem volume_limit (nnls : NNLS) {d : Base} (hp : d.Plain) (hw : d.WF) {lo hi : Fin (Dom.base d).len → ℝ}
    (hbox : (Dom.base d).pts ⊆ Icc lo hi) :
    Filter.Tendsto (fun tol => volume.real ((Dom.base d).accepted nnls tol ∩ Icc lo hi)) (nhdsWithin 0 (Ioi 0)) (nhds (volume.real (Dom.base d).pts)) := by
  have hI : ⋂ t > (0 : ℝ), ((Dom.base d).accepted nnls t ∩ Icc lo hi) = (Dom.base d).pts := by
    ext x
    simp only [mem_iInter, mem_inter_iff]
    constructor
    · intro h
      rw [plain_pts hp]
      exact inAll_all fun t ht => (plain_accepted hp nnls t x).1 (h t ht).1
    · intro hx t ht
      exact ⟨(plain_accepted hp nnls t x).2 (holds_inAll ((plain_pts hp x).1 hx) ht), hbox hx⟩
  have hfin : ∀ t, volume ((Dom.base d).accepted nnls t ∩ Icc lo hi) ≠ ⊤ := fun t =>
    ne_top_of_le_ne_top (isCompact_Icc.measure_lt_top).ne (measure_mono inter_subset_right)
  have h := tendsto_measure_biInter_gt (μ := (volume : Measure (Fin (Dom.base d).len → ℝ))) (s := fun t => (Dom.base d).accepted nnls t ∩ Icc lo hi) (a := (0 : ℝ))
    (fun t _ => ((accepted_measurable nnls t hp hw).inter measurableSet_Icc).nullMeasurableSet)
    (fun i j _ hij x hx => ⟨(plain_accepted hp nnls j x).2 (inAll_mono hij ((plain_accepted hp nnls i x).1 hx.1)), hx.2⟩) ⟨1, one_pos, hfin 1⟩
  rw [hI] at h
  have hpf : volume (Dom.base d).pts ≠ ⊤ := ne_top_of_le_ne_top (isCompact_Icc.measure_lt_top).ne (measure_mono hbox)
  exact (ENNReal.tendsto_toReal hpf).comp h

/-! ## Monte Carlo quadrature -/

theorem boxPt_map {n : ℕ} {lo hi : Fin n → ℝ} (hle : ∀ i, lo i ≤ hi i) :
    ENNReal.ofReal (∏ i, (hi i - lo i)) • Measure.map (boxPt lo hi) ((volume : Measure (Fin n → ℝ)).restrict (Icc 0 1)) = volume.restrict (Icc lo hi) := by
  have hmeas : Measurable (boxPt lo hi) := by
    unfold boxPt
    fun_prop
  ext S hS
  rw [Measure.smul_apply, Measure.map_apply hmeas hS, Measure.restrict_apply hS, smul_eq_mul]
  exact boxPt_measure hle hS

theorem mc_mean {n : ℕ} {lo hi : Fin n → ℝ} (hle : ∀ i, lo i ≤ hi i) {N : ℕ} (hN : 0 < N) {f : (Fin n → ℝ) → ℝ} (hf : IntegrableOn f (Icc lo hi) volume)
    (hfm : Measurable f) : ∫ u : Fin N → Fin n → ℝ, ∑ j : Fin N, (mcWeights (∏ i, (hi i - lo i)) N).getD j 0 * f (boxPt lo hi (u j)) ∂(cubeLaw N n) = ∫ x in Icc lo hi, f x := by
  set W := ∏ i, (hi i - lo i) with hW
  have hW0 : 0 ≤ W := Finset.prod_nonneg fun i _ => sub_nonneg.2 (hle i)
  have hmeas : Measurable (boxPt lo hi) := by
    unfold boxPt
    fun_prop
  have hw : ∀ j : Fin N, (mcWeights W N).getD j 0 = 1 / (N : ℝ) * W := by
    intro j
    simp [mcWeights, List.getD]
  have hNr : (N : ℝ) ≠ 0 := by positivity
  rcases hW0.eq_or_lt with h0 | hpos
  · have hz : volume (Icc lo hi) = 0 := by
      rw [Real.volume_Icc_pi, ← ENNReal.ofReal_prod_of_nonneg fun i _ => sub_nonneg.2 (hle i), ← hW, ← h0, ENNReal.ofReal_zero]
    rw [Measure.restrict_eq_zero.2 hz]
    simp only [hw]
    rw [← h0]
    simp
  · have hmap := boxPt_map hle
    rw [← hW] at hmap
    have hone : ∫ v, f (boxPt lo hi v) ∂((volume : Measure (Fin n → ℝ)).restrict (Icc 0 1)) = W⁻¹ * ∫ x in Icc lo hi, f x := by
      rw [← hmap, integral_smul_measure, integral_map hmeas.aemeasurable hfm.aestronglyMeasurable, ENNReal.toReal_ofReal hW0, smul_eq_mul,
        ← mul_assoc, inv_mul_cancel₀ hpos.ne', one_mul]
    have hint : Integrable (fun v => f (boxPt lo hi v)) ((volume : Measure (Fin n → ℝ)).restrict (Icc 0 1)) := by
      have h1 : Integrable f (ENNReal.ofReal W • Measure.map (boxPt lo hi) ((volume : Measure (Fin n → ℝ)).restrict (Icc 0 1))) := by
        rw [hmap]; exact hf
      have h2 := (integrable_smul_measure (by simpa using hpos) ENNReal.ofReal_ne_top).1 h1
      exact (integrable_map_measure hfm.aestronglyMeasurable hmeas.aemeasurable).1 h2
    have hmp := fun j : Fin N => measurePreserving_eval (fun _ : Fin N => (volume : Measure (Fin n → ℝ)).restrict (Icc 0 1)) j
    have hj : ∀ j : Fin N, ∫ u, f (boxPt lo hi (u j)) ∂(cubeLaw N n) = W⁻¹ * ∫ x in Icc lo hi, f x := by
      intro j
      rw [← hone, ← (hmp j).map_eq]
      rw [integral_map (measurable_pi_apply j).aemeasurable (hfm.comp hmeas).aestronglyMeasurable]
      rfl
    rw [integral_finset_sum]
    · simp only [hw, integral_const_mul, hj, Finset.sum_const, Finset.card_univ, Fintype.card_fin, nsmul_eq_mul]
      field_simp
    · intro j _
      refine Integrable.const_mul ?_ _
      exact (hmp j).integrable_comp_of_integrable hint

/-- C120: the Monte Carlo rule of a box, `quadrature_rule(N, method = 'montecarlo')` with points sampled uniformly in the box and the weights
of the code: its value is the integral on average. -/
theorem mc_unbiased (nnls : NNLS) (tol : ℝ) (nlb nub : List XR) {D : Dom} (hb : D.isBox) {lo hi : Fin D.len → ℝ} (hl : D.acc.lb = finX lo)
    (hu : D.acc.ub = finX hi) (hle : ∀ i, lo i ≤ hi i) {N : ℕ} (hN : 0 < N) {f : Vec → ℝ} (hfm : Measurable fun x : Fin D.len → ℝ => f (List.ofFn x))
    (hf : IntegrableOn (fun x : Fin D.len → ℝ => f (List.ofFn x)) (Icc lo hi) volume) (U : List Vec) :
    ∃ v : ℝ, D.volume nnls tol nlb nub U = .ok (.fin v) ∧
      ∫ u, ruleSum ((rowsOf u).map (uniformRow D.acc.lb D.acc.ub)) (mcWeights v N) f ∂(cubeLaw N D.len) = ∫ x in Icc lo hi, f (List.ofFn x) := by
  refine ⟨_, volume_box_value nnls tol nlb nub hb hl hu U, ?_⟩
  rw [← mc_mean hle hN hf hfm]
  congr 1
  funext u
  have hmap : (rowsOf u).map (uniformRow (finX lo) (finX hi)) = List.ofFn (fun j => List.ofFn (boxPt lo hi (u j))) := by
    rw [rowsOf, List.map_ofFn]
    congr 1
    funext j
    exact uniformRow_ofFn lo hi (u j)
  rw [hl, hu, hmap, ruleSum, ← List.sum_ofFn]
  congr 1
  apply List.ext_getElem
  · simp [mcWeights]
  · intro i h1 h2
    simp only [List.length_ofFn] at h2
    simp [mcWeights, h2]

/-- C120: the weights add up to the volume. -/
theorem mcWeights_sum (vol : ℝ) {N : ℕ} (hN : 0 < N) : (mcWeights vol N).length = N ∧ (mcWeights vol N).sum = vol := by
  have : (N : ℝ) ≠ 0 := by positivity
  refine ⟨by simp [mcWeights], ?_⟩
  rw [mcWeights, List.sum_replicate, nsmul_eq_mul]
  field_simp

/-! ## Examples and limits -/

theorem tri_wf : (Base.linineq triLQ).WF := by
  refine ⟨⟨rfl, rfl, ?_, ?_, ?_, rfl, ?_, rfl, rfl, rfl, ?_, ?_, ?_⟩, rfl, rfl, rfl⟩ <;> simp [triLQ, XR.okLower, XR.okUpper]

theorem tri_plain : (Base.linineq triLQ).Plain := trivial

theorem tri_notBox : ¬ (Dom.base (.linineq triLQ)).isBox := by
  rintro ⟨-, h, -⟩
  cases h

/-- The triangle lies in the unit square, and touches its sides: the normalization box is the unit square. -/
theorem tri_box : (Dom.base (.linineq triLQ)).pts ⊆ Icc (fun _ => 0) (fun _ => 1) := by
  intro x hx
  obtain ⟨h1, h2, h3, h4, -⟩ := (tri_pts x).1 hx
  have hs : ∀ P : ℝ → Prop, P (x (0 : Fin 2)) → P (x (1 : Fin 2)) → ∀ i : Fin (Dom.base (.linineq triLQ)).len, P (x i) := by
    intro P a b i
    have : ∀ i : Fin 2, P (x i) := fun i => by fin_cases i <;> assumption
    exact this i
  exact ⟨fun i => hs (fun t => 0 ≤ t) h1 h2 i, fun i => hs (fun t => t ≤ 1) h3 h4 i⟩

example (nnls : NNLS) : MeasurableSet ((Dom.base (.linineq triLQ)).accepted nnls 1e-7) := accepted_measurable nnls _ tri_plain tri_wf

/-- C120: the tolerance of `isinside` makes the estimate too large on average: the points just outside count. -/
theorem volume_bias_false : ¬ ∀ (nnls : NNLS) (tol : ℝ) (d : Base) (lo hi : Fin (Dom.base d).len → ℝ), 0 < tol → d.Plain → d.WF →
    ¬ (Dom.base d).isBox → (∀ i, lo i ≤ hi i) → (Dom.base d).pts ⊆ Icc lo hi → ∀ (N : ℕ), 0 < N → ∀ est : (Fin N → Fin (Dom.base d).len → ℝ) → ℝ,
      (∀ u, (Dom.base d).volume nnls tol (finX lo) (finX hi) (rowsOf u) = .ok (.fin (est u))) →
      ∫ u, est u ∂(cubeLaw N (Dom.base d).len) = volume.real (Dom.base d).pts := by
  intro h
  let nnls : NNLS := fun _ _ => []
  obtain ⟨est, h1, h2, -, -⟩ := volume_law nnls 1 tri_notBox (lo := fun _ => 0) (hi := fun _ => 1) (fun _ => zero_le_one)
    (accepted_measurable nnls 1 tri_plain tri_wf) one_pos
  have h3 := h nnls 1 _ _ _ one_pos tri_plain tri_wf tri_notBox (fun _ => zero_le_one) tri_box 1 one_pos est h1
  rw [h2] at h3
  have hlist : ∀ x : Fin (Dom.base (.linineq triLQ)).len → ℝ, List.ofFn x = [x (0 : Fin 2), x (1 : Fin 2)] := fun x => by
    have h2 : ∀ y : Fin 2 → ℝ, List.ofFn y = [y 0, y 1] := fun y => by simp [List.ofFn_succ]
    exact h2 x
  have hall : (Dom.base (.linineq triLQ)).accepted nnls 1 ∩ Icc (fun _ => 0) (fun _ => 1) = Icc (fun _ => 0) (fun _ => 1) := by
    refine inter_eq_right.2 fun x hx => ?_
    rw [plain_accepted tri_plain, hlist]
    have a0 : 0 ≤ x (0 : Fin 2) := hx.1 (0 : Fin 2)
    have a1 : 0 ≤ x (1 : Fin 2) := hx.1 (1 : Fin 2)
    have b0 : x (0 : Fin 2) ≤ 1 := hx.2 (0 : Fin 2)
    have b1 : x (1 : Fin 2) ≤ 1 := hx.2 (1 : Fin 2)
    refine ⟨⟨?_, ?_⟩, ?_, ?_, ?_⟩ <;> simp [Base.acc, triLQ, inIneq, inEq, inQuad, Vec.mulVec, Vec.dot] <;> first | linarith | (constructor <;> linarith)
  rw [hall] at h3
  have hsub : (Dom.base (.linineq triLQ)).pts ⊆ Icc (fun _ => 0) (fun _ => 1) \ Icc (fun _ => 3 / 4) (fun _ => 1) := by
    intro x hx
    refine ⟨tri_box hx, fun hc => ?_⟩
    have c0 : 3 / 4 ≤ x (0 : Fin 2) := hc.1 (0 : Fin 2)
    have c1 : 3 / 4 ≤ x (1 : Fin 2) := hc.1 (1 : Fin 2)
    have := ((tri_pts x).1 hx).2.2.2.2
    linarith
  have hv : ∀ a : ℝ, volume (Icc (fun _ => a) (fun _ => 1) : Set (Fin (Dom.base (.linineq triLQ)).len → ℝ)) = ENNReal.ofReal (1 - a) ^ 2 := by
    intro a
    have : volume (Icc (fun _ => a) (fun _ => 1) : Set (Fin 2 → ℝ)) = ENNReal.ofReal (1 - a) ^ 2 := by
      rw [Real.volume_Icc_pi]; simp
    exact this
  have hm : volume.real (Dom.base (.linineq triLQ)).pts ≤ volume.real (Icc (fun _ => 0) (fun _ => 1) \ Icc (fun _ => 3 / 4) (fun _ => 1) : Set (Fin (Dom.base (.linineq triLQ)).len → ℝ)) :=
    measureReal_mono hsub (ne_top_of_le_ne_top (isCompact_Icc.measure_lt_top).ne (measure_mono diff_subset))
  rw [measureReal_diff (Icc_subset_Icc (fun _ => by norm_num) le_rfl) measurableSet_Icc (isCompact_Icc.measure_lt_top).ne, ← h3] at hm
  simp only [measureReal_def, hv] at hm
  rw [← ENNReal.ofReal_pow (by norm_num), ← ENNReal.ofReal_pow (by norm_num), ENNReal.toReal_ofReal (by norm_num), ENNReal.toReal_ofReal (by norm_num)] at hm
  norm_num at hm

/-- A box of finite bounds. -/
example (nnls : NNLS) (U : List Vec) : (Dom.base (.box [.fin 1, .fin 0] [.fin 3, .fin 5])).volume nnls 1e-7 [] [] U = .ok (.fin 10) := by
  have := volume_box_value nnls 1e-7 [] [] (D := .base (.box [.fin 1, .fin 0] [.fin 3, .fin 5])) ⟨rfl, rfl, rfl⟩ (lo := ![1, 0]) (hi := ![3, 5]) rfl rfl U
  rw [this]
  norm_num [Fin.prod_univ_two]

/-- C120: a box that is flat in one direction and infinite in another. -/
theorem volume_flat (nnls : NNLS) (tol : ℝ) (U : List Vec) :
    (Dom.base (.box [.fin 0, .ninf] [.fin 0, .pinf])).volume nnls tol [] [] U = .ok .nan := by
  have hb : (Dom.base (.box [.fin 0, .ninf] [.fin 0, .pinf])).isBox := ⟨rfl, rfl, rfl⟩
  rw [Dom.volume, if_pos hb]
  show Except.ok (mulX (mulX (.fin 1) (.fin (0 - 0))) .pinf) = _
  simp [mulX]

end Verif.Domain
