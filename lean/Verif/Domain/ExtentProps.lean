import Verif.Domain.ExtentLemmas
import Verif.Domain.NormExact

/-!
# Properties C08 and C09: `extent`

`x + t p` is `Vec.step x t p`; the set described by a domain is `Dom.Holds`.
-/

namespace Verif.Domain

open Classical Verif

/-! ## Convex hulls: the solver -/

/-- What is assumed of the solver behind the extent of a convex hull domain (convexhull.py 68-97): it
returns the largest `β` such that `x_norm + β p_norm` is a convex combination of the normalized points
(only asked for starting points of the domain).  The other constraints of the domain are imposed on
the *starting point* only, convexhull.py 82, and therefore do not appear. -/
def HullExtentExact (he : HullExtent) : Prop :=
  ∀ X q x p, (Base.hull X q).WF → p.length = q.n → (Base.hull X q).Holds x →
    (he X q x p).okUpper ∧ ∀ t, 0 ≤ t →
      (XR.le (.fin t) (he X q x p) ↔
        InHull q.n (X.map (normalize (hullNormLb q.n X) (hullNormUb q.n X)))
          (Vec.step (normalize (hullNormLb q.n X) (hullNormUb q.n X) x) t
            (Vec.sub (normalize (hullNormLb q.n X) (hullNormUb q.n X) (Vec.add x p))
              (normalize (hullNormLb q.n X) (hullNormUb q.n X) x))))

theorem comb_affine (n : ℕ) (s c al : Vec) (X : List Vec) (hs : s.length = n) (hc : c.length = n)
    (hX : ∀ r ∈ X, r.length = n) (hal : al.length = X.length) :
    comb n al (X.map (fun x => Vec.mul s (Vec.sub x c))) =
      Vec.mul s (Vec.sub (comb n al X) (Vec.smul al.sum c)) := by
  induction X generalizing al with
  | nil =>
    have : al = [] := List.eq_nil_of_length_eq_zero hal
    subst this
    simp only [comb, List.sum_nil]
    clear hX hal
    induction s generalizing c n with
    | nil => simp at hs; subst hs; simp
    | cons a s ih => cases c with
      | nil => simp at hs hc; omega
      | cons b c => cases n with
        | zero => simp at hs
        | succ n =>
          simp only [List.replicate_succ, Vec.smul_cons, Vec.sub_cons, Vec.mul_cons]
          rw [← ih n c (by simpa using hs) (by simpa using hc)]
          congr 1; ring
  | cons x X ih => cases al with
    | nil => simp at hal
    | cons a al =>
      simp only [List.map_cons, comb, List.sum_cons]
      rw [ih al (fun r hr => hX r (by simp [hr])) (by simpa using hal)]
      have hw : (comb n al X).length = n := comb_length n al X (fun r hr => hX r (by simp [hr]))
      generalize comb n al X = w at hw
      have hx := hX x (by simp)
      generalize al.sum = S
      clear hX hal ih
      induction s generalizing c x w n with
      | nil => simp
      | cons e s ih => cases c with
        | nil => simp at hs hc; omega
        | cons b c => cases x with
          | nil => simp at hs hx; omega
          | cons y x => cases w with
            | nil => simp at hs hw; omega
            | cons v w => cases n with
              | zero => simp at hs
              | succ n =>
                simp only [Vec.smul_cons, Vec.sub_cons, Vec.mul_cons, Vec.add_cons]
                rw [ih n c (by simpa using hs) (by simpa using hc) x w (by simpa using hw) (by simpa using hx)]
                congr 1; ring

theorem smul_one (c : Vec) : Vec.smul 1 c = c := by simp [Vec.smul]

theorem comb_normalize (n : ℕ) (nl nu : List XR) (h1 : nl.length = n) (h2 : nu.length = n) (al : Vec) (X : List Vec)
    (hX : ∀ r ∈ X, r.length = n) (hal : al.length = X.length) (hs : al.sum = 1) :
    comb n al (X.map (normalize nl nu)) = normalize nl nu (comb n al X) := by
  have := comb_affine n (nslopes nl nu) (center nl nu) al X (by simp [nslopes, h1, h2])
    (by simp [center, h1, h2]) hX hal
  rw [hs, smul_one] at this
  exact this

theorem normalize_inj {nl nu : List XR} {n : ℕ} (h1 : nl.length = n) (h2 : nu.length = n) {x y : Vec}
    (hx : x.length = n) (hy : y.length = n) (h : normalize nl nu x = normalize nl nu y) : x = y := by
  have k := fun z hz => vec_inv_left (slopes_inv nl nu) (center nl nu) z
    (by simp [center, uslopes, h1, h2]) (by simp only [uslopes, List.length_zipWith, h1, h2]; simpa using hz)
  rw [← k x hx, ← k y hy]
  unfold normalize at h
  rw [h]

theorem inHull_normalize {n : ℕ} {nl nu : List XR} (h1 : nl.length = n) (h2 : nu.length = n) {X : List Vec}
    (hX : ∀ r ∈ X, r.length = n) {z : Vec} (hz : z.length = n) :
    InHull n (X.map (normalize nl nu)) (normalize nl nu z) ↔ InHull n X z := by
  constructor
  · rintro ⟨al, a1, a2, a3, a4⟩
    rw [List.length_map] at a1
    refine ⟨al, a1, a2, a3, ?_⟩
    rw [comb_normalize n nl nu h1 h2 al X hX a1 a3] at a4
    exact normalize_inj h1 h2 (comb_length n al X hX) hz a4
  · rintro ⟨al, a1, a2, a3, rfl⟩
    exact ⟨al, by simpa using a1, a2, a3, comb_normalize n nl nu h1 h2 al X hX a1 a3⟩

theorem normalize_step {n : ℕ} {nl nu : List XR} (h1 : nl.length = n) (h2 : nu.length = n) {x p : Vec}
    (hx : x.length = n) (hp : p.length = n) (t : ℝ) :
    Vec.step (normalize nl nu x) t (Vec.sub (normalize nl nu (Vec.add x p)) (normalize nl nu x)) =
      normalize nl nu (Vec.step x t p) := by
  unfold normalize
  have ls : (nslopes nl nu).length = n := by simp [nslopes, h1, h2]
  have lc : (center nl nu).length = n := by simp [center, h1, h2]
  generalize nslopes nl nu = s at ls
  generalize center nl nu = c at lc
  clear h1 h2
  unfold Vec.step
  induction s generalizing c x p n with
  | nil => simp
  | cons a s ih => cases c with
    | nil => simp at ls lc; omega
    | cons b c => cases x with
      | nil => simp at ls hx; omega
      | cons e x => cases p with
        | nil => simp at ls hp; omega
        | cons f p => cases n with
          | zero => simp at ls
          | succ n =>
            simp only [Vec.add_cons, Vec.sub_cons, Vec.mul_cons, Vec.smul_cons]
            rw [ih (n := n) (x := x) (p := p) (by simpa using hx) (by simpa using hp) (by simpa using ls) c (by simpa using lc)]
            congr 1; ring

/-- With an exact solver, the extent of a convex hull domain is exact *for the hull*: other
constraints of the domain do not limit it. -/
theorem hull_extent_iff {he : HullExtent} (hh : HullExtentExact he) {X : List Vec} {q : LQ}
    (hw : (Base.hull X q).WF) {x p : Vec} (hp : p.length = q.n) (hx : (Base.hull X q).Holds x) {t : ℝ} (ht : 0 ≤ t) :
    XR.le (.fin t) (he X q x p) ↔ InHull q.n X (Vec.step x t p) := by
  have l1 : (hullNormLb q.n X).length = q.n := by simp [hullNormLb, columns_length]
  have l2 : (hullNormUb q.n X).length = q.n := by simp [hullNormUb, columns_length]
  have hxl : x.length = q.n := hx.1
  rw [(hh X q x p hw hp hx).2 t ht, normalize_step l1 l2 hxl hp,
    inHull_normalize l1 l2 hw.2.2 (by rw [Vec.length_step]; omega)]

/-! ## One factor -/

/-- Conditions under which the computed extent is a safe step. -/
structure StepSafe (tol : ℝ) (d : Base) (x p : Vec) : Prop where
  /-- no active linear inequality gets violated in the direction `p` -/
  active : ∀ (i : ℕ) (row : Vec) (bi : ℝ), d.acc.A[i]? = some row → d.acc.b[i]? = some bi →
    Vec.dot row x = bi → Vec.dot row p ≤ 0
  /-- the direction respects the equality constraints exactly, or violates them by at least the
  tolerance of a class that checks this -/
  eqdir : (∀ row ∈ d.acc.Aeq, Vec.dot row p = 0) ∨
    ((∃ q, d = .linquad q) ∧ ∃ row ∈ d.acc.Aeq, tol ≤ |Vec.dot row p|)
  /-- a convex hull has no constraints beyond the hull -/
  hull : ∀ X q, d = .hull X q → ∀ z, z.length = q.n → q.Holds z

/-- Conditions under which the computed extent is the largest possible step. -/
structure StepInterior (d : Base) (x p : Vec) : Prop where
  /-- quadratic constraints hold strictly -/
  quad : ∀ (i : ℕ) (L : List Vec) (y : Vec) (rho : ℝ), d.acc.Ls[i]? = some L → d.acc.ys[i]? = some y →
    d.acc.rhos[i]? = some rho → Vec.norm (Vec.mulVec L (Vec.sub x y)) < rho
  /-- for a point domain, the direction is not zero -/
  point : ∀ c, d = .point c → ∃ v ∈ p, v ≠ 0

theorem zip3_mem {q : LQ} {e : List Vec × Vec × ℝ} (h : e ∈ q.Ls.zip (q.ys.zip q.rhos)) :
    ∃ i : ℕ, q.Ls[i]? = some e.1 ∧ q.ys[i]? = some e.2.1 ∧ q.rhos[i]? = some e.2.2 := by
  obtain ⟨i, hi⟩ := List.mem_iff_getElem?.1 h
  rw [List.getElem?_zip_eq_some] at hi
  obtain ⟨h1, h2⟩ := hi
  rw [List.getElem?_zip_eq_some] at h2
  exact ⟨i, h1, h2.1, h2.2⟩

theorem mem_zip3 {q : LQ} {i : ℕ} {L : List Vec} {y : Vec} {rho : ℝ} (h1 : q.Ls[i]? = some L)
    (h2 : q.ys[i]? = some y) (h3 : q.rhos[i]? = some rho) : (L, y, rho) ∈ q.Ls.zip (q.ys.zip q.rhos) := by
  apply List.mem_of_getElem? (i := i)
  rw [List.getElem?_zip_eq_some]
  refine ⟨h1, ?_⟩
  rw [List.getElem?_zip_eq_some]
  exact ⟨h2, h3⟩

theorem lq_extent_spec {q : LQ} (hw : q.WF) {x p : Vec} (hxn : x.length = q.n) (hpn : p.length = q.n)
    (hx : q.Holds x) :
    let e := XR.pyMin (XR.pyMin (extentBounds q.lb q.ub x p) (extentIneq q.A q.b x p))
      (extentQuad q.Ls q.ys q.rhos x p)
    e.okUpper ∧ ∀ t, 0 ≤ t →
      ((∀ (i : ℕ) (row : Vec) (bi : ℝ), q.A[i]? = some row → q.b[i]? = some bi →
          Vec.dot row x = bi → Vec.dot row p ≤ 0) → (∀ row ∈ q.Aeq, Vec.dot row p = 0) →
        XR.le (.fin t) e → q.Holds (Vec.step x t p)) ∧
      ((∀ (i : ℕ) (L : List Vec) (y : Vec) (rho : ℝ), q.Ls[i]? = some L → q.ys[i]? = some y →
          q.rhos[i]? = some rho → Vec.norm (Vec.mulVec L (Vec.sub x y)) < rho) →
        q.Holds (Vec.step x t p) → XR.le (.fin t) e) := by
  intro e
  have hl : x.length = p.length := by omega
  obtain ⟨h1, h2, h3, h4⟩ := (holds_iff q x).1 hx
  obtain ⟨ob, sb⟩ := extentBounds_spec hw.lb_ok hw.ub_ok hl h1
  obtain ⟨oi, si⟩ := extentIneq_spec q.A q.b hl h2
  have hq : ∀ e ∈ q.Ls.zip (q.ys.zip q.rhos), 0 < e.2.2 ∧ x.length = e.2.1.length ∧
      Vec.norm (Vec.mulVec e.1 (Vec.sub x e.2.1)) ≤ e.2.2 := by
    intro e he
    obtain ⟨i, a1, a2, a3⟩ := zip3_mem he
    exact ⟨hw.rhos_pos _ (List.mem_of_getElem? a3), by rw [hw.ys_w _ (List.mem_of_getElem? a2), hxn],
      hx.quad i _ _ _ a1 a2 a3⟩
  obtain ⟨oq, sq⟩ := extentQuad_spec hl (q.Ls.zip (q.ys.zip q.rhos)) (fun e he => (hq e he).1)
    (fun e he => (hq e he).2.1) (fun e he => (hq e he).2.2) (al := .pinf) trivial
  obtain ⟨o1, s1⟩ := pyMin_spec ob oi
  obtain ⟨o2, s2⟩ := pyMin_spec o1 oq
  refine ⟨o2, fun t ht => ?_⟩
  have key : XR.le (.fin t) e ↔ (XR.le (.fin t) (extentBounds q.lb q.ub x p) ∧
      XR.le (.fin t) (extentIneq q.A q.b x p)) ∧ XR.le (.fin t) (extentQuad q.Ls q.ys q.rhos x p) := by
    have a := s2 t
    rw [s1] at a
    exact a
  rw [key]
  constructor
  · rintro hact heq ⟨⟨k1, k2⟩, k3⟩
    rw [holds_iff]
    refine ⟨(sb t ht).1 k1, (si t ht).2 ?_ k2, ?_, ?_⟩
    · rw [forall_mem_zip q.A q.b (fun e => Vec.dot e.1 x = e.2 → Vec.dot e.1 p ≤ 0)]
      exact hact
    · intro tol htol
      have := h3 tol htol
      rw [inEq_iff] at this ⊢
      intro i row bi hr hb
      rw [Vec.dot_step _ _ _ _ hl, heq row (List.mem_of_getElem? hr), mul_zero, add_zero]
      exact this i row bi hr hb
    · rw [inQuad_iff]
      intro i L y rho a1 a2 a3
      have := ((sq t ht).1 k3).2 (L, y, rho) (mem_zip3 a1 a2 a3)
      rw [add_zero]; exact this
  · intro hstr hs
    obtain ⟨g1, g2, -, -⟩ := (holds_iff q _).1 hs
    refine ⟨⟨(sb t ht).2 g1, (si t ht).1 g2⟩, ?_⟩
    refine (sq t ht).2 ?_ (le_pinf t) ?_
    · intro e he
      obtain ⟨i, a1, a2, a3⟩ := zip3_mem he
      exact hstr i _ _ _ a1 a2 a3
    · intro e he
      obtain ⟨i, a1, a2, a3⟩ := zip3_mem he
      exact hs.quad i _ _ _ a1 a2 a3

theorem pyMin_pinf_right {a : XR} (ha : a.okUpper) : XR.pyMin a .pinf = a := by
  cases a <;> simp [XR.okUpper, XR.pyMin, XR.lt] at *

theorem step_zero {x p : Vec} (h : x.length = p.length) : Vec.step x 0 p = x := by
  unfold Vec.step
  induction x generalizing p with
  | nil => simp
  | cons a x ih => cases p with
    | nil => simp at h
    | cons b p => simp only [Vec.smul_cons, Vec.add_cons, zero_mul, add_zero]; rw [ih (by simpa using h)]

theorem not_dirOk {tol : ℝ} {Aeq : List Vec} {p : Vec} (h : ¬ dirOk tol Aeq p) :
    ∃ row ∈ Aeq, tol ≤ |Vec.dot row p| := by
  unfold dirOk at h
  push Not at h
  obtain ⟨-, v, hv, hle⟩ := h
  unfold Vec.mulVec at hv
  obtain ⟨row, hr, rfl⟩ := List.mem_map.1 hv
  exact ⟨row, hr, hle⟩

theorem extentLQ_spec {tol : ℝ} (htol : 0 < tol) {q : LQ} (hw : q.WF) {x p : Vec} (hxn : x.length = q.n)
    (hpn : p.length = q.n) (hx : q.Holds x) :
    (extentLQ tol q x p).okUpper ∧ ∀ t, 0 ≤ t →
      ((∀ (i : ℕ) (row : Vec) (bi : ℝ), q.A[i]? = some row → q.b[i]? = some bi →
          Vec.dot row x = bi → Vec.dot row p ≤ 0) →
        ((∀ row ∈ q.Aeq, Vec.dot row p = 0) ∨ ∃ row ∈ q.Aeq, tol ≤ |Vec.dot row p|) →
        XR.le (.fin t) (extentLQ tol q x p) → q.Holds (Vec.step x t p)) ∧
      ((∀ (i : ℕ) (L : List Vec) (y : Vec) (rho : ℝ), q.Ls[i]? = some L → q.ys[i]? = some y →
          q.rhos[i]? = some rho → Vec.norm (Vec.mulVec L (Vec.sub x y)) < rho) →
        q.Holds (Vec.step x t p) → XR.le (.fin t) (extentLQ tol q x p)) := by
  have hl : x.length = p.length := by omega
  obtain ⟨o, s⟩ := lq_extent_spec hw hxn hpn hx
  unfold extentLQ
  by_cases hd : dirOk tol q.Aeq p
  · rw [if_pos hd]
    refine ⟨o, fun t ht => ⟨fun h1 h2 => (s t ht).1 h1 ?_, (s t ht).2⟩⟩
    rcases h2 with h2 | ⟨row, hr, hle⟩
    · exact h2
    · exfalso
      rcases hd with h0 | h0
      · rw [List.length_eq_zero_iff] at h0; rw [h0] at hr; simp at hr
      · have := h0 (Vec.dot row p) (by unfold Vec.mulVec; exact List.mem_map.2 ⟨row, hr, rfl⟩)
        linarith
  · rw [if_neg hd]
    refine ⟨trivial, fun t ht => ⟨fun _ _ h0 => ?_, fun _ hs => ?_⟩⟩
    · rw [le_fin_iff] at h0
      have : t = 0 := le_antisymm h0 ht
      subst this
      rw [step_zero hl]; exact hx
    · rw [le_fin_iff]
      obtain ⟨row, hr, hle⟩ := not_dirOk hd
      obtain ⟨i, hi⟩ := List.mem_iff_getElem?.1 hr
      have hb : ∃ bi, q.beq[i]? = some bi := by
        have := (List.getElem?_eq_some_iff.1 hi).1
        exact ⟨_, List.getElem?_eq_getElem (by have := hw.Aeq_len; omega)⟩
      obtain ⟨bi, hb⟩ := hb
      have e1 := hs.eq i row bi hi hb
      have e2 := hx.eq i row bi hi hb
      rw [Vec.dot_step _ _ _ _ hl] at e1
      have h0 : t * Vec.dot row p = 0 := by linarith
      rcases mul_eq_zero.1 h0 with h0 | h0
      · linarith
      · rw [h0, abs_zero] at hle; linarith

/-- The extent of one factor. -/
theorem base_extent_spec {tol : ℝ} (htol : 0 < tol) {he : HullExtent} (hh : HullExtentExact he) {d : Base} (hw : d.WF)
    {x p : Vec} (hp : p.length = d.len) (hx : d.Holds x) {al : XR} (h : d.extent tol he x p = .ok al) :
    al.okUpper ∧ ∀ t, 0 ≤ t →
      (StepSafe tol d x p → XR.le (.fin t) al → d.Holds (Vec.step x t p)) ∧
      (StepInterior d x p → d.Holds (Vec.step x t p) → XR.le (.fin t) al) := by
  have hl : x.length = p.length := by rw [hp]; exact hx.1
  have hlen : ∀ t, (Vec.step x t p).length = d.len := by intro t; rw [Vec.length_step, hl, hp]; simp
  have hwa := base_wf_acc hw
  cases d with
  | linquad q =>
    cases h
    obtain ⟨o, s⟩ := extentLQ_spec htol hw hx.1 hp hx.2.1
    refine ⟨o, fun t ht => ⟨fun hs hle => ?_, fun hi hst => (s t ht).2 hi.quad hst.2.1⟩⟩
    refine ⟨hlen t, (s t ht).1 hs.active ?_ hle, by simp⟩
    exact hs.eqdir.imp id (fun h => h.2)
  | linineq q =>
    cases h
    obtain ⟨o, s⟩ := lq_extent_spec hwa hx.1 hp hx.2.1
    have e : extentQuad (Base.linineq q).acc.Ls (Base.linineq q).acc.ys (Base.linineq q).acc.rhos x p = .pinf := rfl
    simp only [e] at o s
    obtain ⟨h1, h2, h3, h4⟩ := (holds_iff _ x).1 hx.2.1
    obtain ⟨ob, sb⟩ := extentBounds_spec hwa.lb_ok hwa.ub_ok hl h1
    obtain ⟨oi, si⟩ := extentIneq_spec (Base.linineq q).acc.A (Base.linineq q).acc.b hl h2
    obtain ⟨o1, s1⟩ := pyMin_spec ob oi
    rw [pyMin_pinf_right o1] at o s
    refine ⟨o, fun t ht => ⟨fun hs hle => ?_, fun hi hst => (s t ht).2 hi.quad hst.2.1⟩⟩
    refine ⟨hlen t, (s t ht).1 hs.active ?_ hle, by simp⟩
    rcases hs.eqdir with h | ⟨⟨q', hq'⟩, _⟩
    · exact h
    · cases hq'
  | box lb ub =>
    cases h
    obtain ⟨h1, h2, h3, h4⟩ := (holds_iff _ x).1 hx.2.1
    obtain ⟨ob, sb⟩ := extentBounds_spec hwa.lb_ok hwa.ub_ok hl h1
    refine ⟨ob, fun t ht => ⟨fun hs hle => ?_, fun hi hst => ?_⟩⟩
    · refine ⟨hlen t, ?_, by simp⟩
      rw [holds_iff]
      exact ⟨(sb t ht).1 hle, inIneq_nil _ _ _, fun _ _ => inEq_nil _ _ _, inQuad_nil _ _ _ _⟩
    · exact (sb t ht).2 ((holds_iff _ _).1 hst.2.1).1
  | point c =>
    cases h
    refine ⟨trivial, fun t ht => ⟨fun hs hle => ?_, fun hi hst => ?_⟩⟩
    · rw [le_fin_iff] at hle
      have : t = 0 := le_antisymm hle ht
      subst this
      rw [step_zero hl]; exact hx
    · rw [le_fin_iff]
      obtain ⟨v, hv, hv0⟩ := hi.point c rfl
      obtain ⟨i, hpi⟩ := List.mem_iff_getElem?.1 hv
      have hlt := (List.getElem?_eq_some_iff.1 hpi).1
      obtain ⟨xi, hxi⟩ : ∃ xi, x[i]? = some xi := ⟨_, List.getElem?_eq_getElem (by omega)⟩
      have hxl : x.length = c.length := hx.1
      obtain ⟨ci, hci⟩ : ∃ ci, c[i]? = some ci := ⟨_, List.getElem?_eq_getElem (by omega)⟩
      have hb : (c.map XR.fin)[i]? = some (.fin ci) := by rw [List.getElem?_map, hci]; rfl
      have a1 := hx.2.1.lb i ci xi hb hxi
      have a2 := hx.2.1.ub i ci xi hb hxi
      have b1 := hst.2.1.lb i ci _ hb (Vec.getElem?_step' hxi hpi)
      have b2 := hst.2.1.ub i ci _ hb (Vec.getElem?_step' hxi hpi)
      have h0 : t * v = 0 := by linarith
      rcases mul_eq_zero.1 h0 with h0 | h0
      · linarith
      · exact absurd h0 hv0
  | normal m L c =>
    cases h
    obtain ⟨o, s⟩ := extentLQ_spec htol hwa hx.1 hp hx.2.1
    refine ⟨o, fun t ht => ⟨fun hs hle => ?_, fun hi hst => (s t ht).2 hi.quad hst.2.1⟩⟩
    refine ⟨hlen t, (s t ht).1 hs.active ?_ hle, by simp⟩
    exact hs.eqdir.imp id (fun h => h.2)
  | hull X q =>
    cases h
    refine ⟨(hh X q x p hw hp hx).1, fun t ht => ⟨fun hs hle => ?_, fun hi hst => ?_⟩⟩
    · refine ⟨hlen t, hs.hull X q rfl _ (hlen t), ?_⟩
      intro X' q' e
      cases e
      exact (hull_extent_iff hh hw hp hx ht).1 hle
    · exact (hull_extent_iff hh hw hp hx ht).2 (hst.2.2 X q rfl)
  | unbounded n => cases h

/-! ## Domains -/

/-- Corresponding slices of a point and a direction satisfy `R`, factor by factor. -/
def Dom.AllFactors (D : Dom) (R : Base → Vec → Vec → Prop) (x p : Vec) : Prop :=
  match D with
  | .base d => R d x p
  | .tensor ds => ∃ xs ps, x = xs.flatten ∧ p = ps.flatten ∧ Pieces ds xs ∧ Pieces ds ps ∧
      ∀ (i : ℕ) d xi pi, ds[i]? = some d → xs[i]? = some xi → ps[i]? = some pi → R d xi pi

theorem step_append (t : ℝ) (a b c d : Vec) (h : a.length = c.length) :
    Vec.step (a ++ b) t (c ++ d) = Vec.step a t c ++ Vec.step b t d := by
  unfold Vec.step Vec.add Vec.smul
  rw [List.map_append, List.zipWith_append (by simp [h])]

theorem step_flatten {ds : List Base} {xs ps : List Vec} (hx : Pieces ds xs) (hp : Pieces ds ps) (t : ℝ) :
    Vec.step xs.flatten t ps.flatten = (List.zipWith (fun x p => Vec.step x t p) xs ps).flatten ∧
    Pieces ds (List.zipWith (fun x p => Vec.step x t p) xs ps) := by
  induction hx generalizing ps with
  | nil => cases hp; exact ⟨by simp [Vec.step], .nil⟩
  | @cons d x ds xs hx _ ih => cases hp with
    | @cons _ p _ ps hp hps =>
      obtain ⟨h1, h2⟩ := ih hps
      refine ⟨?_, .cons ?_ h2⟩
      · simp only [List.flatten_cons, List.zipWith_cons_cons]
        rw [step_append _ _ _ _ _ (by rw [hx, hp]), h1]
      · rw [Vec.length_step, hx, hp]; simp

theorem holds_flatten_iff {ds : List Base} {xs : List Vec} (h : Pieces ds xs) :
    (Dom.tensor ds).Holds xs.flatten ↔ List.Forall₂ Base.Holds ds xs := by
  constructor
  · rintro ⟨ws, e, hw⟩
    have hw' : Pieces ds ws := hw.imp (fun _ _ h => h.1)
    rw [flatten_inj_pieces h hw' e]; exact hw
  · intro hw; exact ⟨xs, rfl, hw⟩

theorem tensor_extent_mapM {tol : ℝ} {he : HullExtent} {ds : List Base} {xs ps : List Vec} (hx : Pieces ds xs)
    (hp : Pieces ds ps) {al : List XR}
    (h : ((ds.zip xs).zip (ds.zip ps)).mapM (fun q => q.1.1.extent tol he q.1.2 q.2.2) = .ok al) :
    al.length = ds.length ∧ ∀ (i : ℕ) d x p a, ds[i]? = some d → xs[i]? = some x → ps[i]? = some p →
      al[i]? = some a → d.extent tol he x p = .ok a := by
  induction hx generalizing ps al with
  | nil => cases hp; simp [pure, Except.pure] at h; subst h; simp
  | @cons d x ds xs hx _ ih => cases hp with
    | @cons _ p _ ps hp hps =>
      simp only [List.zip_cons_cons, List.mapM_cons] at h
      obtain ⟨a, h1, h⟩ := bind_ok h
      obtain ⟨al', h2, h⟩ := bind_ok h
      cases h
      obtain ⟨l, k⟩ := ih hps h2
      refine ⟨by simp [l], ?_⟩
      intro i d' x' p' a' e1 e2 e3 e4
      cases i with
      | zero => simp at e1 e2 e3 e4; subst e1 e2 e3 e4; exact h1
      | succ i => exact k i d' x' p' a' e1 e2 e3 e4

/-- **C08** (and the upper half of C09), for every domain: let `x` be a point of the domain, and let
`extent(x, p)` return `α`.

* If no active linear inequality is increasing along `p`, the direction respects (or clearly
  violates) the equality constraints, and hulls carry no further constraints, then `x + t p` is in the
  domain for every `0 ≤ t ≤ α`.
* If quadratic constraints hold strictly at `x` (and the direction is not zero for a point domain),
  then every `t ≥ 0` for which `x + t p` is in the domain satisfies `t ≤ α`. -/
theorem extent_spec {tol : ℝ} (htol : 0 < tol) {he : HullExtent} (hh : HullExtentExact he) (D : Dom) (hD : D.WF)
    (x p : Vec) (hp : p.length = D.len) (hx : D.Holds x) (al : XR) (h : D.extentRaw tol he x p = .ok al) :
    (∀ t, 0 ≤ t → D.AllFactors (StepSafe tol) x p → XR.le (.fin t) al → D.Holds (Vec.step x t p)) ∧
    (∀ t, 0 ≤ t → D.AllFactors StepInterior x p → D.Holds (Vec.step x t p) → XR.le (.fin t) al) := by
  cases D with
  | base d =>
    obtain ⟨_, s⟩ := base_extent_spec htol hh hD hp hx h
    exact ⟨fun t ht => (s t ht).1, fun t ht => (s t ht).2⟩
  | tensor ds =>
    obtain ⟨xs, rfl, hxs⟩ := hx
    have hX : Pieces ds xs := hxs.imp (fun _ _ h => h.1)
    obtain ⟨ps, hP, rfl⟩ := pieces_exist ds p hp
    have ex := slicesFrom_eq ds xs [] hX
    have ep := slicesFrom_eq ds ps [] hP
    simp only [List.length_nil, List.nil_append] at ex ep
    simp only [Dom.extentRaw, ex, ep] at h
    obtain ⟨als, h1, h2⟩ := bind_ok h
    obtain ⟨hlen, hi⟩ := tensor_extent_mapM hX hP h1
    -- each factor
    have lx := hX.length_eq
    have lp := hP.length_eq
    have spec : ∀ (i : ℕ) d xi pi a, ds[i]? = some d → xs[i]? = some xi → ps[i]? = some pi → als[i]? = some a →
        a.okUpper ∧ ∀ t, 0 ≤ t →
          (StepSafe tol d xi pi → XR.le (.fin t) a → d.Holds (Vec.step xi t pi)) ∧
          (StepInterior d xi pi → d.Holds (Vec.step xi t pi) → XR.le (.fin t) a) := by
      intro i d xi pi a e1 e2 e3 e4
      have hHi : d.Holds xi := by
        rw [List.forall₂_iff_get] at hxs
        obtain ⟨b1, rfl⟩ := List.getElem?_eq_some_iff.1 e1
        obtain ⟨b2, rfl⟩ := List.getElem?_eq_some_iff.1 e2
        exact hxs.2 i b1 b2
      have hpi : pi.length = d.len := by
        unfold Pieces at hP
        rw [List.forall₂_iff_get] at hP
        obtain ⟨b1, rfl⟩ := List.getElem?_eq_some_iff.1 e1
        obtain ⟨b2, rfl⟩ := List.getElem?_eq_some_iff.1 e3
        exact hP.2 i b1 b2
      exact base_extent_spec htol hh (hD.2 d (List.mem_of_getElem? e1)) hpi hHi (hi i d xi pi a e1 e2 e3 e4)
    have getAll : ∀ (i : ℕ), i < ds.length → ∃ d xi pi a, ds[i]? = some d ∧ xs[i]? = some xi ∧ ps[i]? = some pi ∧
        als[i]? = some a := fun i hi =>
      ⟨_, _, _, _, List.getElem?_eq_getElem hi, List.getElem?_eq_getElem (by omega),
        List.getElem?_eq_getElem (by omega), List.getElem?_eq_getElem (by omega)⟩
    have hok : ∀ a ∈ als, a.okUpper := by
      intro a ha
      obtain ⟨i, hia⟩ := List.mem_iff_getElem?.1 ha
      obtain ⟨d, xi, pi, a', f1, f2, f3, f4⟩ := getAll i (by have := (List.getElem?_eq_some_iff.1 hia).1; omega)
      rw [hia] at f4; cases f4
      exact (spec i d xi pi a f1 f2 f3 hia).1
    have hmin : ∀ t, XR.le (.fin t) al ↔ ∀ a ∈ als, XR.le (.fin t) a := by
      cases als with
      | nil => cases h2
      | cons a as =>
        cases h2
        intro t
        rw [(foldl_pyMin_spec (fun y hy => hok y (by simp [hy])) (hok a (by simp))).2 t, List.forall_mem_cons]
    have split : ∀ R, (Dom.tensor ds).AllFactors R xs.flatten ps.flatten →
        ∀ (i : ℕ) d xi pi, ds[i]? = some d → xs[i]? = some xi → ps[i]? = some pi → R d xi pi := by
      rintro R ⟨xs', ps', e1, e2, p1, p2, hR⟩
      rw [flatten_inj_pieces hX p1 e1, flatten_inj_pieces hP p2 e2]; exact hR
    have hstep : ∀ t, (Dom.tensor ds).Holds (Vec.step xs.flatten t ps.flatten) ↔
        ∀ (i : ℕ) d xi pi, ds[i]? = some d → xs[i]? = some xi → ps[i]? = some pi → d.Holds (Vec.step xi t pi) := by
      intro t
      obtain ⟨e, hp'⟩ := step_flatten hX hP t
      rw [e, holds_flatten_iff hp', List.forall₂_iff_get]
      constructor
      · rintro ⟨_, k⟩ i d xi pi f1 f2 f3
        obtain ⟨b1, rfl⟩ := List.getElem?_eq_some_iff.1 f1
        obtain ⟨b2, rfl⟩ := List.getElem?_eq_some_iff.1 f2
        obtain ⟨b3, rfl⟩ := List.getElem?_eq_some_iff.1 f3
        have := k i b1 (by simp; omega)
        simpa using this
      · intro k
        refine ⟨by simp; omega, fun i b1 b2 => ?_⟩
        have := k i _ _ _ (List.getElem?_eq_getElem b1) (List.getElem?_eq_getElem (show i < xs.length by omega))
          (List.getElem?_eq_getElem (show i < ps.length by omega))
        simpa using this
    constructor
    · intro t ht hR hle
      rw [hstep]
      intro i d xi pi f1 f2 f3
      obtain ⟨_, _, _, a, _, _, _, f4⟩ := getAll i (List.getElem?_eq_some_iff.1 f1).1
      exact ((spec i d xi pi a f1 f2 f3 f4).2 t ht).1 (split _ hR i d xi pi f1 f2 f3)
        ((hmin t).1 hle a (List.mem_of_getElem? f4))
    · intro t ht hR hst
      rw [hstep] at hst
      rw [hmin]
      intro a ha
      obtain ⟨i, f4⟩ := List.mem_iff_getElem?.1 ha
      obtain ⟨d, xi, pi, a', f1, f2, f3, f4'⟩ := getAll i (by have := (List.getElem?_eq_some_iff.1 f4).1; omega)
      exact ((spec i d xi pi a f1 f2 f3 f4).2 t ht).2 (split _ hR i d xi pi f1 f2 f3) (hst i d xi pi f1 f2 f3)

/-- `extent` of a point that is exactly in the domain (and not in a hull, whose membership test uses
another solver) returns exactly when `_extent` does: the membership assertion passes. -/
theorem extent_eq_raw (nnls : NNLS) {TOL tol : ℝ} (he : HullExtent) {D : Dom}
    {x : Vec} (p : Vec) (hin : D.isInside nnls TOL x) :
    D.extent nnls TOL tol he x p = D.extentRaw tol he x p := by
  unfold Dom.extent
  rw [if_neg (by push Not; exact hin.1), if_neg (by push Not; exact hin)]

/-- **C08, partial.**  The statement asks for membership of `x + α p` for every point that passes
`isinside`, every direction and every class.  Proved for starting points that satisfy the
constraints exactly, when additionally `StepSafe` holds; each exclusion is necessary:
`extent_bound_tolerance_false`, `extent_active_ineq_false`, `extent_equality_false`,
`extent_hull_false`. -/
theorem extent_sound_partial (nnls : NNLS) {TOL tol : ℝ} (htol : 0 < tol) {he : HullExtent}
    (hh : HullExtentExact he) (D : Dom) (hD : D.WF) (x p : Vec) (hp : p.length = D.len) (hx : D.Holds x)
    (al : XR) (h : D.extent nnls TOL tol he x p = .ok al) (hs : D.AllFactors (StepSafe tol) x p)
    (t : ℝ) (ht : 0 ≤ t) (hle : XR.le (.fin t) al) : D.Holds (Vec.step x t p) := by
  unfold Dom.extent at h
  split at h
  · cases h
  split at h
  · cases h
  exact (extent_spec htol hh D hD x p hp hx al h).1 t ht hs hle

/-- **C09, partial.**  No longer step than the returned extent stays in the domain.  The case where a
quadratic constraint is active at `x` is excluded (`extent_quad_boundary_false`), as is a zero
direction in a point domain (`extent_point_zero_false`). -/
theorem extent_maximal_partial (nnls : NNLS) {TOL tol : ℝ} (htol : 0 < tol) {he : HullExtent}
    (hh : HullExtentExact he) (D : Dom) (hD : D.WF) (x p : Vec) (hp : p.length = D.len) (hx : D.Holds x)
    (al : XR) (h : D.extent nnls TOL tol he x p = .ok al) (hs : D.AllFactors StepInterior x p)
    (t : ℝ) (ht : 0 ≤ t) (hst : D.Holds (Vec.step x t p)) : XR.le (.fin t) al := by
  unfold Dom.extent at h
  split at h
  · cases h
  split at h
  · cases h
  exact (extent_spec htol hh D hD x p hp hx al h).2 t ht hs hst

/-- **C08/C09 for boxes**, no side condition on the direction: from every point of the box, `x + t p`
is in the box exactly for the `t ≥ 0` up to the returned extent. -/
theorem box_extent_exact (nnls : NNLS) {TOL tol : ℝ} (he : HullExtent) (lb ub : List XR)
    (hw : (Base.box lb ub).WF) (x p : Vec) (hp : p.length = lb.length) (hx : (Base.box lb ub).Holds x)
    (al : XR) (h : (Dom.base (.box lb ub)).extent nnls TOL tol he x p = .ok al) (t : ℝ) (ht : 0 ≤ t) :
    XR.le (.fin t) al ↔ (Base.box lb ub).Holds (Vec.step x t p) := by
  unfold Dom.extent at h
  split at h
  · cases h
  split at h
  · cases h
  cases h
  have hl : x.length = p.length := by rw [hp]; exact hx.1
  obtain ⟨_, sb⟩ := extentBounds_spec (x := x) (p := p) hw.lb_ok hw.ub_ok hl ((holds_iff _ x).1 hx.2.1).1
  have sb := sb t ht
  rw [show extentBounds (Base.box lb ub).acc.lb (Base.box lb ub).acc.ub x p = extentBounds lb ub x p from rfl] at sb
  rw [sb]
  constructor
  · intro k
    refine ⟨by rw [Vec.length_step, hl, hp]; simp [Base.len, Base.acc], ?_, by simp⟩
    rw [holds_iff]
    exact ⟨k, inIneq_nil _ _ _, fun _ _ => inEq_nil _ _ _, inQuad_nil _ _ _ _⟩
  · intro k
    exact ((holds_iff _ _).1 k.2.1).1

/-- `extent` raises exactly for a starting point of the wrong length or outside the domain, for
domains with an `UnboundedDomain` factor and for the empty product. -/
theorem extent_ok_iff (nnls : NNLS) {TOL tol : ℝ} (he : HullExtent) (D : Dom) (x p : Vec) (hp : p.length = D.len) :
    (∃ al, D.extent nnls TOL tol he x p = .ok al) ↔
      D.isInside nnls TOL x ∧ (match D with
        | .base d => ∀ n, d ≠ .unbounded n
        | .tensor ds => ds ≠ [] ∧ ∀ d ∈ ds, ∀ n, d ≠ .unbounded n) := by
  have base_ok : ∀ (d : Base) (x p : Vec), (∃ al, d.extent tol he x p = .ok al) ↔ ∀ n, d ≠ .unbounded n := by
    intro d x p
    cases d <;> simp [Base.extent]
  have hm : ∀ (ds : List Base) (xs ps : List Vec), Pieces ds xs → Pieces ds ps →
      ((∃ al, ((ds.zip xs).zip (ds.zip ps)).mapM (fun q => q.1.1.extent tol he q.1.2 q.2.2) = .ok al) ↔
        ∀ d ∈ ds, ∀ n, d ≠ .unbounded n) := by
    intro ds xs ps hx hp
    induction hx generalizing ps with
    | nil => cases hp; simp [pure, Except.pure]
    | @cons d x ds xs hx _ ih => cases hp with
      | @cons _ p _ ps hp hps =>
        simp only [List.zip_cons_cons, List.mapM_cons, List.forall_mem_cons]
        rw [← ih ps hps, ← base_ok d x p]
        constructor
        · rintro ⟨al, h⟩
          obtain ⟨a, h1, h⟩ := bind_ok h
          obtain ⟨al', h2, h⟩ := bind_ok h
          exact ⟨⟨a, h1⟩, ⟨al', h2⟩⟩
        · rintro ⟨⟨a, h1⟩, ⟨al', h2⟩⟩
          exact ⟨a :: al', by rw [h1]; simp only [bind, Except.bind]; rw [h2]; rfl⟩
  by_cases hin : D.isInside nnls TOL x
  · have e : D.extent nnls TOL tol he x p = D.extentRaw tol he x p := by
      unfold Dom.extent
      rw [if_neg (by push Not; exact hin.1), if_neg (by push Not; exact hin)]
    rw [e]
    simp only [hin, true_and]
    cases D with
    | base d => exact base_ok d x p
    | tensor ds =>
      obtain ⟨xs, hX, rfl⟩ := pieces_exist ds x hin.1
      obtain ⟨ps, hP, rfl⟩ := pieces_exist ds p hp
      have ex := slicesFrom_eq ds xs [] hX
      have ep := slicesFrom_eq ds ps [] hP
      simp only [List.length_nil, List.nil_append] at ex ep
      simp only [Dom.extentRaw, ex, ep]
      rw [← hm ds xs ps hX hP]
      constructor
      · rintro ⟨al, h⟩
        obtain ⟨als, h1, h2⟩ := bind_ok h
        refine ⟨?_, als, h1⟩
        rintro rfl
        cases hX; cases hP
        simp [pure, Except.pure] at h1
        subst h1
        cases h2
      · rintro ⟨hne, als, h1⟩
        obtain ⟨hlen, -⟩ := tensor_extent_mapM hX hP h1
        rw [h1]
        cases als with
        | nil => exact absurd (List.eq_nil_of_length_eq_zero hlen.symm) hne
        | cons a as => exact ⟨_, rfl⟩
  · simp only [hin, false_and, iff_false]
    rintro ⟨al, h⟩
    unfold Dom.extent at h
    split at h
    · cases h
    cases h

theorem posMin_cons_pos {a y : XR} (ys : List XR) (h : XR.lt (.fin 0) y) :
    posMin a (y :: ys) = posMin (XR.pyMin a y) ys := by
  unfold posMin
  rw [List.filter_cons_of_pos (by rw [decide_eq_true_eq]; exact h), List.foldl_cons]

theorem posMin_cons_neg {a y : XR} (ys : List XR) (h : ¬ XR.lt (.fin 0) y) :
    posMin a (y :: ys) = posMin a ys := by
  unfold posMin
  rw [List.filter_cons_of_neg (by rw [decide_eq_true_eq]; exact h)]

theorem posMin_nil {a : XR} : posMin a [] = a := rfl

/-! ## Where the statements fail -/

/-- A point within the tolerance below the lower bound, moving outward: the extent is infinite. -/
theorem extent_bound_tolerance_false (nnls : NNLS) (TOL tol : ℝ) (hT : 0 < TOL) (he : HullExtent) :
    let D := Dom.base (.box [.fin 0] [.fin 1])
    D.isInside nnls TOL [-TOL / 2] ∧ D.extent nnls TOL tol he [-TOL / 2] [-1] = .ok .pinf ∧
      ¬ D.isInside nnls TOL (Vec.step [-TOL / 2] TOL [-1]) := by
  intro D
  have h1 : D.isInside nnls TOL [-TOL / 2] := by
    refine ⟨rfl, ?_⟩
    change inBounds _ _ _ _
    rw [inBounds_iff]
    constructor <;> intro i r xi h1 h2 <;> cases i <;> simp at h1 h2 <;> subst h1 h2 <;> linarith
  refine ⟨h1, ?_, ?_⟩
  · rw [extent_eq_raw nnls he _ h1]
    have hne : ¬ (0 : ℝ) = -TOL / 2 := by linarith
    have q1 : ¬ (0 < (1 - -TOL / 2) / (-1 : ℝ)) := by
      rw [div_neg, div_one]; linarith
    have q2 : ¬ (0 < (0 - -TOL / 2) / (-1 : ℝ)) := by
      rw [div_neg, div_one]; linarith
    have a0 : extentBounds [.fin 0] [.fin 1] [-TOL / 2] [-1] = .pinf := by
      unfold extentBounds
      rw [if_neg, if_neg]
      · have e1 : boundQuotients [.fin 1] [-TOL / 2] [-1] = [.fin ((1 - -TOL / 2) / (-1))] := by
          simp [boundQuotients, XR.sub, XR.divNZ]
        have e2 : boundQuotients [.fin 0] [-TOL / 2] [-1] = [.fin ((0 - -TOL / 2) / (-1))] := by
          simp [boundQuotients, XR.sub, XR.divNZ]
        rw [e1, e2]
        have f : ∀ v : ℝ, ¬ 0 < v → ∀ a, posMin a [.fin v] = a := by
          intro v hv a
          rw [posMin_cons_neg _ (by simpa [XR.lt] using not_lt.1 hv), posMin_nil]
        rw [f _ q1, f _ q2]
      · simp only [List.zip_cons_cons, List.zip_nil_right, List.mem_singleton, exists_eq_left]
        rintro ⟨-, h⟩; norm_num at h
      · simp [XR.eq, hne]
    change Except.ok _ = _
    rw [a0]
  · rintro ⟨-, h⟩
    change inBounds _ _ _ _ at h
    rw [inBounds_iff] at h
    have := h.1 0 0 (-TOL / 2 + TOL * -1) rfl rfl
    linarith

/-- An active linear inequality does not stop an outward step: for `x ≤ 0` as a row of `A`, the extent
from `0` in direction `1` is infinite. -/
theorem extent_active_ineq_false (nnls : NNLS) (TOL tol : ℝ) (hT : 0 < TOL) (he : HullExtent) :
    let D := Dom.base (.linineq ⟨1, [.fin (-1)], [.pinf], [[1]], [0], [], [], [], [], []⟩)
    D.Holds [0] ∧ D.extent nnls TOL tol he [0] [1] = .ok .pinf ∧
      ¬ D.isInside nnls TOL (Vec.step [0] (2 * TOL) [1]) := by
  intro D
  have hH : D.Holds [0] := by
    refine ⟨rfl, ⟨?_, ?_, ?_, ?_, ?_⟩, by simp⟩
    · intro i r xi h1 h2; cases i <;> simp [Base.acc] at h1 h2; subst h1 h2; norm_num
    · intro i r xi h1 h2; cases i <;> simp [Base.acc] at h1 h2
    · intro i r xi h1 h2; cases i <;> simp [Base.acc] at h1 h2; subst h1 h2; simp [Vec.dot]
    · intro i r xi h1 h2; simp [Base.acc] at h1
    · intro i L y rho h1 h2; simp [Base.acc] at h1
  have hI : D.isInside nnls TOL [0] := by
    refine ⟨rfl, ?_⟩
    obtain ⟨a, b, c, d⟩ := holds_inAll hH.2.1 hT
    exact ⟨a, b, c⟩
  refine ⟨hH, ?_, ?_⟩
  · rw [extent_eq_raw nnls he _ hI]
    simp only [D, Dom.extentRaw, Base.extent]
    have a1 : extentBounds [.fin (-1)] [.pinf] [0] [1] = .pinf := by
      unfold extentBounds
      rw [if_neg, if_neg]
      · have e1 : boundQuotients [.pinf] [0] [1] = [.pinf] := by
          simp [boundQuotients, XR.sub, XR.divNZ]
        have e2 : boundQuotients [.fin (-1)] [0] [1] = [.fin (-1)] := by
          simp [boundQuotients, XR.sub, XR.divNZ]
        rw [e1, e2]
        rw [posMin_cons_pos (y := .pinf) _ trivial, posMin_nil, posMin_cons_neg (y := .fin (-1)) _ (by simp [XR.lt]), posMin_nil]
        simp [XR.pyMin, XR.lt]
      · simp [XR.eq]
      · simp [XR.eq]
    have a2 : extentIneq [[1]] [0] [0] [1] = .pinf := by
      unfold extentIneq posMin
      have : ([([1] : Vec)].zip [(0 : ℝ)]).map (fun q => XR.div (q.2 - Vec.dot q.1 [0]) (Vec.dot q.1 [1])) = [.fin 0] := by
        simp [Vec.dot, XR.div]
      rw [this, List.filter_cons_of_neg (by simp [XR.lt])]
      rfl
    rw [a1, a2]
    simp [XR.pyMin, XR.lt]
  · rintro ⟨-, h⟩
    have h := h.2.1
    rw [inIneq_iff] at h
    have := h 0 [1] 0 rfl rfl
    simp [Vec.step, Vec.dot] at this
    linarith

/-- `LinIneqDomain` ignores its equality constraints when computing the extent: on the segment
`x₁ = x₂` of the square `[-1,1]²`, the extent from `0` in direction `e₁` is `1`, and `e₁` is not in the
domain. -/
theorem extent_equality_false (nnls : NNLS) (TOL tol : ℝ) (hT : 0 < TOL) (hT1 : TOL ≤ 1) (he : HullExtent) :
    let D := Dom.base (.linineq ⟨2, [.fin (-1), .fin (-1)], [.fin 1, .fin 1], [], [], [[1, -1]], [0], [], [], []⟩)
    D.Holds [0, 0] ∧ D.extent nnls TOL tol he [0, 0] [1, 0] = .ok (.fin 1) ∧
      ¬ D.isInside nnls TOL (Vec.step [0, 0] 1 [1, 0]) := by
  intro D
  have hH : D.Holds [0, 0] := by
    refine ⟨rfl, ⟨?_, ?_, ?_, ?_, ?_⟩, by simp⟩
    · intro i r xi h1 h2; rcases i with _ | _ | i <;> simp [Base.acc] at h1 h2 <;> subst h1 h2 <;> norm_num
    · intro i r xi h1 h2; rcases i with _ | _ | i <;> simp [Base.acc] at h1 h2 <;> subst h1 h2 <;> norm_num
    · intro i r xi h1 h2; simp [Base.acc] at h1
    · intro i r xi h1 h2; cases i <;> simp [Base.acc] at h1 h2; subst h1 h2; simp [Vec.dot]
    · intro i L y rho h1 h2; simp [Base.acc] at h1
  have hI : D.isInside nnls TOL [0, 0] := by
    refine ⟨rfl, ?_⟩
    obtain ⟨a, b, c, d⟩ := holds_inAll hH.2.1 hT
    exact ⟨a, b, c⟩
  refine ⟨hH, ?_, ?_⟩
  · rw [extent_eq_raw nnls he _ hI]
    simp only [D, Dom.extentRaw, Base.extent]
    have a1 : extentBounds [.fin (-1), .fin (-1)] [.fin 1, .fin 1] [0, 0] [1, 0] = .fin 1 := by
      unfold extentBounds
      rw [if_neg, if_neg]
      · have e1 : boundQuotients [.fin 1, .fin 1] [0, 0] [1, 0] = [.fin 1] := by
          simp [boundQuotients, XR.sub, XR.divNZ]
        have e2 : boundQuotients [.fin (-1), .fin (-1)] [0, 0] [1, 0] = [.fin (-1)] := by
          simp [boundQuotients, XR.sub, XR.divNZ]
        rw [e1, e2]
        rw [posMin_cons_pos (y := .fin 1) _ (by simp [XR.lt]), posMin_nil, posMin_cons_neg (y := .fin (-1)) _ (by simp [XR.lt]), posMin_nil]
        simp [XR.pyMin, XR.lt]
      · simp [XR.eq]
      · simp [XR.eq]
    have a2 : extentIneq [] [] [0, 0] [1, 0] = .pinf := rfl
    rw [a1, a2]
    simp [XR.pyMin, XR.lt]
  · rintro ⟨-, h⟩
    have h := h.2.2
    rw [inEq_iff] at h
    have := h 0 [1, -1] 0 rfl rfl
    simp [Vec.step, Vec.dot] at this
    linarith

/-- From the boundary of the unit ball, moving straight through the ball, the extent is `0` although
steps up to `2` stay inside. -/
theorem extent_quad_boundary_false (nnls : NNLS) (TOL tol : ℝ) (hT : 0 < TOL) (he : HullExtent) :
    let D := Dom.base (.linquad ⟨1, [.ninf], [.pinf], [], [], [], [], [[[1]]], [[0]], [1]⟩)
    D.Holds [1] ∧ D.extent nnls TOL tol he [1] [-1] = .ok (.fin 0) ∧ D.Holds (Vec.step [1] 2 [-1]) := by
  intro D
  have hH : ∀ v : ℝ, |v| ≤ 1 → D.Holds [v] := by
    intro v hv
    refine ⟨rfl, ⟨?_, ?_, ?_, ?_, ?_⟩, by simp⟩
    · intro i r xi h1 h2; cases i <;> simp [Base.acc] at h1 h2
    · intro i r xi h1 h2; cases i <;> simp [Base.acc] at h1 h2
    · intro i r xi h1 h2; simp [Base.acc] at h1
    · intro i r xi h1 h2; simp [Base.acc] at h1
    · intro i L y rho h1 h2 h3
      cases i <;> simp [Base.acc] at h1 h2 h3
      subst h1 h2 h3
      have : Vec.norm (Vec.mulVec [[1]] (Vec.sub [v] [0])) = |v| := by
        simp [Vec.norm, Vec.mulVec, Vec.dot, Vec.sumSq, Vec.sub, Real.sqrt_sq_eq_abs]
      rw [this]; exact hv
  have h1 := hH 1 (by norm_num)
  refine ⟨h1, ?_, ?_⟩
  · have hI : D.isInside nnls TOL [1] := ⟨rfl, holds_inAll h1.2.1 hT⟩
    rw [extent_eq_raw nnls he _ hI]
    --_inAll h1.2.1 hT⟩]
    simp only [D, Dom.extentRaw, Base.extent, extentLQ]
    rw [if_pos (show dirOk tol [] [-1] from Or.inl rfl)]
    have a1 : extentBounds [.ninf] [.pinf] [1] [-1] = .pinf := by
      unfold extentBounds
      rw [if_neg, if_neg]
      · have e1 : boundQuotients [.pinf] [1] [-1] = [.ninf] := by
          simp [boundQuotients, XR.sub, XR.divNZ]
        have e2 : boundQuotients [.ninf] [1] [-1] = [.pinf] := by
          simp [boundQuotients, XR.sub, XR.divNZ]
        rw [e1, e2]
        rw [posMin_cons_neg (y := .ninf) _ (by simp [XR.lt]), posMin_nil, posMin_cons_pos (y := .pinf) _ trivial, posMin_nil]
        simp [XR.pyMin, XR.lt]
      · simp [XR.eq]
      · simp [XR.eq]
    have a2 : extentIneq [] [] [1] [-1] = .pinf := rfl
    have a3 : extentQuad [[[1]]] [[0]] [1] [1] [-1] = .fin 0 := by
      unfold extentQuad
      simp only [List.zip_cons_cons, List.zip_nil_right, List.foldl_cons, List.foldl_nil, quadStep]
      have hr : realRoots 1 (-2) 0 = [2, 0] := by
        unfold realRoots
        rw [if_pos (by norm_num), if_pos (by norm_num)]
        have : Real.sqrt ((-2) ^ 2 - 4 * 1 * 0) = 2 := by
          rw [show ((-2 : ℝ) ^ 2 - 4 * 1 * 0) = 2 ^ 2 by norm_num, Real.sqrt_sq (by norm_num)]
        rw [this]; norm_num
      have e : realRoots (Vec.dot (Vec.mulVec [[1]] [-1]) (Vec.mulVec [[1]] [-1]))
          (2 * Vec.dot (Vec.mulVec [[1]] [-1]) (Vec.mulVec [[1]] (Vec.sub [1] [0])))
          (Vec.dot (Vec.mulVec [[1]] (Vec.sub [1] [0])) (Vec.mulVec [[1]] (Vec.sub [1] [0])) - 1 ^ 2) = [2, 0] := by
        rw [← hr]
        congr 1 <;> simp [Vec.mulVec, Vec.dot, Vec.sub]
      rw [e, List.filter_cons_of_pos (by norm_num), List.filter_cons_of_pos (by norm_num)]
      simp [XR.pyMin, XR.lt]
    rw [a1, a2, a3]
    simp [XR.pyMin, XR.lt]
  · have : Vec.step [1] 2 [-1] = [(-1 : ℝ)] := by
      simp [Vec.step, Vec.add, Vec.smul]; norm_num
    rw [this]
    exact hH (-1) (by norm_num)

/-- A zero direction in a point domain: the extent is `0` although every step stays. -/
theorem extent_point_zero_false (nnls : NNLS) (TOL tol : ℝ) (he : HullExtent) (t : ℝ) :
    let D := Dom.base (.point [3])
    D.extent nnls TOL tol he [3] [0] = .ok (.fin 0) ∧ D.Holds (Vec.step [3] t [0]) := by
  intro D
  refine ⟨?_, ?_⟩
  · have hI : D.isInside nnls TOL [3] := ⟨rfl, rfl⟩
    rw [extent_eq_raw nnls he _ hI]; rfl
  · have : Vec.step [3] t [0] = [(3 : ℝ)] := by simp [Vec.step, Vec.add, Vec.smul]
    rw [this]
    refine ⟨rfl, ⟨?_, ?_, ?_, ?_, ?_⟩, by simp⟩
    · intro i r xi h1 h2; cases i <;> simp [Base.acc] at h1 h2; subst h1 h2; exact le_refl _
    · intro i r xi h1 h2; cases i <;> simp [Base.acc] at h1 h2; subst h1 h2; exact le_refl _
    · intro i r xi h1 h2; simp [Base.acc] at h1
    · intro i r xi h1 h2; simp [Base.acc] at h1
    · intro i L y rho h1 h2; simp [Base.acc] at h1

/-- The extent of a convex hull ignores the other constraints of the domain: for the hull of `0` and
`10` with upper bound `1`, from `1/2` in direction `1` the extent is at least `9`. -/
theorem extent_hull_false {he : HullExtent} (hh : HullExtentExact he) :
    let d := Base.hull [[0], [10]] ⟨1, [.ninf], [.fin 1], [], [], [], [], [], [], []⟩
    d.Holds [1 / 2] ∧ (∃ al, d.extent 0 he [1 / 2] [1] = .ok al ∧ XR.le (.fin 9) al) ∧
      ¬ d.Holds (Vec.step [1 / 2] 9 [1]) := by
  intro d
  have hH : d.Holds [1 / 2] := by
    refine ⟨rfl, ⟨?_, ?_, ?_, ?_, ?_⟩, ?_⟩
    · intro i r xi h1 h2; cases i <;> simp [d, Base.acc] at h1 h2
    · intro i r xi h1 h2; cases i <;> simp [d, Base.acc] at h1 h2; subst h1 h2; norm_num
    · intro i r xi h1 h2; simp [d, Base.acc] at h1
    · intro i r xi h1 h2; simp [d, Base.acc] at h1
    · intro i L y rho h1 h2; simp [d, Base.acc] at h1
    · intro X q e
      simp only [d, Base.hull.injEq] at e
      obtain ⟨rfl, rfl⟩ := e
      refine ⟨[19 / 20, 1 / 20], rfl, ?_, by norm_num, ?_⟩
      · intro a ha; simp at ha; rcases ha with rfl | rfl <;> norm_num
      · simp [comb, Vec.add, Vec.smul]; norm_num
  refine ⟨hH, ⟨_, rfl, ?_⟩, ?_⟩
  · refine (hull_extent_iff hh ?_ rfl hH (by norm_num)).2 ?_
    · refine ⟨⟨rfl, rfl, ?_, ?_, ?_, rfl, ?_, rfl, rfl, rfl, ?_, ?_, ?_⟩, by simp, by simp⟩ <;> simp [XR.okLower, XR.okUpper]
    · refine ⟨[1 / 20, 19 / 20], rfl, ?_, by norm_num, ?_⟩
      · intro a ha; simp at ha; rcases ha with rfl | rfl <;> norm_num
      · simp [comb, Vec.add, Vec.smul, Vec.step]; norm_num
  · rintro ⟨-, h, -⟩
    have := h.ub 0 1 (1 / 2 + 9 * 1) rfl rfl
    norm_num at this

/-! ## The hypotheses are satisfiable -/

/-- An interior point of the product of an interval and a disc satisfies all hypotheses, for every
direction. -/
example (tol a b c : ℝ) : (Dom.tensor [.box [.fin 0] [.fin 1], .linquad ⟨2, [.ninf, .ninf], [.pinf, .pinf],
      [[1, 0]], [1], [], [], [[[1, 0], [0, 1]]], [[0, 0]], [1]⟩]).AllFactors (StepSafe tol) [1 / 2, 0, 0] [a, b, c] ∧
    (Dom.tensor [.box [.fin 0] [.fin 1], .linquad ⟨2, [.ninf, .ninf], [.pinf, .pinf],
      [[1, 0]], [1], [], [], [[[1, 0], [0, 1]]], [[0, 0]], [1]⟩]).AllFactors StepInterior [1 / 2, 0, 0] [a, b, c] := by
  constructor
  · refine ⟨[[1 / 2], [0, 0]], [[a], [b, c]], rfl, rfl, .cons rfl (.cons rfl .nil), .cons rfl (.cons rfl .nil), ?_⟩
    intro i d xi pi h1 h2 h3
    rcases i with _ | _ | i <;> simp at h1 h2 h3 <;> subst h1 h2 h3
    · exact ⟨by simp [Base.acc], by simp [Base.acc], by simp⟩
    · refine ⟨?_, by simp [Base.acc], by simp⟩
      intro i row bi h1 h2 h3
      rcases i with _ | i <;> simp [Base.acc] at h1 h2
      subst h1 h2
      simp [Vec.dot] at h3
  · refine ⟨[[1 / 2], [0, 0]], [[a], [b, c]], rfl, rfl, .cons rfl (.cons rfl .nil), .cons rfl (.cons rfl .nil), ?_⟩
    intro i d xi pi h1 h2 h3
    rcases i with _ | _ | i <;> simp at h1 h2 h3 <;> subst h1 h2 h3
    · exact ⟨by simp [Base.acc], by simp⟩
    · refine ⟨?_, by simp⟩
      intro i L y rho h1 h2 h3
      rcases i with _ | i <;> simp [Base.acc] at h1 h2 h3
      subst h1 h2 h3
      simp [Vec.norm, Vec.mulVec, Vec.dot, Vec.sumSq, Vec.sub]

end Verif.Domain
