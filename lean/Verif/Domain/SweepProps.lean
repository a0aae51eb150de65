import Verif.Domain.SweepModel
import Verif.Domain.ExtentProps

/-!
# Property C17: `sweep`
-/

namespace Verif.Domain

open Classical Verif

/-! ## Extents are not negative -/

theorem quadStep_nonneg {x p : Vec} {al : XR} (hal : al.okUpper) (h : XR.le (.fin 0) al) (q : List Vec × Vec × ℝ) :
    (quadStep x p al q).okUpper ∧ XR.le (.fin 0) (quadStep x p al q) := by
  unfold quadStep
  simp only
  generalize realRoots _ _ _ = rs
  induction rs generalizing al with
  | nil => exact ⟨hal, h⟩
  | cons r rs ih =>
    by_cases hr : r ≥ 0
    · rw [List.filter_cons_of_pos (by rw [decide_eq_true_eq]; exact hr), List.foldl_cons]
      obtain ⟨o, s⟩ := pyMin_spec hal (b := .fin r) trivial
      exact ih o ((s 0).2 ⟨h, (le_fin_iff _ _).2 hr⟩)
    · rw [List.filter_cons_of_neg (by rw [decide_eq_true_eq]; exact hr)]
      exact ih hal h

theorem extentQuad_nonneg (Ls : List (List Vec)) (ys : List Vec) (rhos : List ℝ) (x p : Vec) :
    (extentQuad Ls ys rhos x p).okUpper ∧ XR.le (.fin 0) (extentQuad Ls ys rhos x p) := by
  unfold extentQuad
  generalize Ls.zip (ys.zip rhos) = qs
  suffices ∀ al : XR, al.okUpper → XR.le (.fin 0) al →
      (qs.foldl (quadStep x p) al).okUpper ∧ XR.le (.fin 0) (qs.foldl (quadStep x p) al) from
    this .pinf trivial (le_pinf 0)
  induction qs with
  | nil => exact fun al h1 h2 => ⟨h1, h2⟩
  | cons q qs ih =>
    intro al h1 h2
    obtain ⟨a, b⟩ := quadStep_nonneg (x := x) (p := p) h1 h2 q
    exact ih _ a b

theorem step_zero' {x p : Vec} (h : x.length = p.length) : Vec.step x 0 p = x := by
  unfold Vec.step
  induction x generalizing p with
  | nil => simp
  | cons a x ih => cases p with
    | nil => simp at h
    | cons b p => simp only [Vec.smul_cons, Vec.add_cons]; rw [ih (by simpa using h)]; simp

theorem base_extent_nonneg {tol : ℝ} {he : HullExtent} (hh : HullExtentExact he) {d : Base} (hw : d.WF)
    {x p : Vec} (hp : p.length = d.len) (hx : d.Holds x) {al : XR} (h : d.extent tol he x p = .ok al) :
    al.okUpper ∧ XR.le (.fin 0) al := by
  have hl : x.length = p.length := by rw [hp]; exact hx.1
  have hwa := base_wf_acc hw
  obtain ⟨h1, h2, h3, h4⟩ := (holds_iff _ x).1 hx.2.1
  obtain ⟨ob, sb⟩ := extentBounds_spec hwa.lb_ok hwa.ub_ok hl h1
  obtain ⟨oi, si⟩ := extentIneq_spec d.acc.A d.acc.b hl h2
  have kb : XR.le (.fin 0) (extentBounds d.acc.lb d.acc.ub x p) := by
    rw [sb 0 le_rfl, step_zero' hl]; exact h1
  have ki : XR.le (.fin 0) (extentIneq d.acc.A d.acc.b x p) := by
    apply (si 0 le_rfl).1; rw [step_zero' hl]; exact h2
  obtain ⟨oq, kq⟩ := extentQuad_nonneg d.acc.Ls d.acc.ys d.acc.rhos x p
  obtain ⟨o1, s1⟩ := pyMin_spec ob oi
  obtain ⟨o2, s2⟩ := pyMin_spec o1 oq
  have k1 := (s1 0).2 ⟨kb, ki⟩
  have k2 := (s2 0).2 ⟨k1, kq⟩
  have hLQ : (extentLQ tol d.acc x p).okUpper ∧ XR.le (.fin 0) (extentLQ tol d.acc x p) := by
    unfold extentLQ
    split
    · exact ⟨o2, k2⟩
    · exact ⟨trivial, (le_fin_iff _ _).2 le_rfl⟩
  cases d with
  | linquad q => cases h; exact hLQ
  | linineq q => cases h; exact ⟨o1, k1⟩
  | box lb ub => cases h; exact ⟨ob, kb⟩
  | point c => cases h; exact ⟨trivial, (le_fin_iff _ _).2 le_rfl⟩
  | normal m L c => cases h; exact hLQ
  | hull X q =>
    cases h
    refine ⟨(hh X q x p hw hp hx).1, (hull_extent_iff hh hw hp hx le_rfl).2 ?_⟩
    rw [step_zero' hl]; exact hx.2.2 X q rfl
  | unbounded n => cases h

/-- The extent is a number `≥ 0` or `+inf`. -/
theorem extent_nonneg (nnls : NNLS) {TOL tol : ℝ} {he : HullExtent} (hh : HullExtentExact he) (D : Dom) (hD : D.WF)
    (x p : Vec) (hp : p.length = D.len) (hx : D.Holds x) (al : XR) (h : D.extent nnls TOL tol he x p = .ok al) :
    al = .pinf ∨ ∃ a, 0 ≤ a ∧ al = .fin a := by
  suffices al.okUpper ∧ XR.le (.fin 0) al by
    obtain ⟨h1, h2⟩ := this
    cases al with
    | fin a => exact .inr ⟨a, (le_fin_iff _ _).1 h2, rfl⟩
    | pinf => exact .inl rfl
    | ninf => cases h1
    | nan => cases h1
  unfold Dom.extent at h
  split at h
  · cases h
  split at h
  · cases h
  rename_i hin1 hin2
  cases D with
  | base d => exact base_extent_nonneg hh hD hp hx h
  | tensor ds =>
    obtain ⟨xs, rfl, hxs⟩ := hx
    have hX : Pieces ds xs := hxs.imp (fun _ _ h => h.1)
    obtain ⟨ps, hP, rfl⟩ := pieces_exist ds p hp
    have ex := slicesFrom_eq ds xs [] hX
    have ep := slicesFrom_eq ds ps [] hP
    simp only [List.length_nil, List.nil_append] at ex ep
    simp only [Dom.extentRaw, ex, ep] at h
    obtain ⟨als, h1, h2⟩ := bind_ok h
    have all : ∀ a ∈ als, a.okUpper ∧ XR.le (.fin 0) a := by
      have hW := hD.2
      clear h2 h ex ep hX hp hD hin1 hin2
      induction hxs generalizing ps als with
      | nil => cases hP; simp [pure, Except.pure] at h1; subst h1; simp
      | @cons d x ds xs hx _ ih => cases hP with
        | @cons _ p _ ps hp hps =>
          simp only [List.zip_cons_cons, List.mapM_cons] at h1
          obtain ⟨a, h3, h⟩ := bind_ok h1
          obtain ⟨al', h2, h⟩ := bind_ok h
          cases h
          intro a' ha'
          rcases List.mem_cons.1 ha' with rfl | ha'
          · exact base_extent_nonneg hh (hW d (by simp)) hp hx h3
          · exact ih ps hps al' h2 (fun d hd => hW d (by simp [hd])) a' ha'
    cases als with
    | nil => cases h2
    | cons a as =>
      cases h2
      obtain ⟨o, s⟩ := foldl_pyMin_spec (l := as) (fun y hy => (all y (by simp [hy])).1) (all a (by simp)).1
      exact ⟨o, (s 0).2 ⟨(all a (by simp)).2, fun y hy => (all y (by simp [hy])).2⟩⟩

/-! ## Specification -/

/-- What is assumed of `scipy.linalg.orth`: the columns are orthonormal and span the rows of `A_eq`. -/
structure EqBasis (n : ℕ) (Aeq Q : List Vec) : Prop where
  width : ∀ q ∈ Q, q.length = n
  ortho : ∀ (i j : ℕ) (a b : Vec), Q[i]? = some a → Q[j]? = some b → Vec.dot a b = if i = j then 1 else 0
  span : ∀ row ∈ Aeq, ∃ c : Vec, c.length = Q.length ∧ row = comb n c Q

/-! ## The projection -/

theorem length_projOut {n : ℕ} {Q : List Vec} (hQ : ∀ q ∈ Q, q.length = n) {p : Vec} (hp : p.length = n) :
    (projOut Q p).length = n := by
  unfold projOut
  rw [Vec.length_sub, hp, comb_length n _ _ hQ]; simp

theorem dot_comb_right (n : ℕ) (c : Vec) (Q : List Vec) (hQ : ∀ q ∈ Q, q.length = n) (hc : c.length = Q.length) (v : Vec) :
    Vec.dot v (comb n c Q) = Vec.dot c (Q.map (fun q => Vec.dot v q)) := by
  induction Q generalizing c with
  | nil =>
    have : c = [] := List.eq_nil_of_length_eq_zero hc
    subst this
    simp only [comb, List.map_nil, Vec.dot_nil_left]
    rw [Vec.dot_comm, Vec.dot_replicate_zero]
  | cons q Q ih => cases c with
    | nil => simp at hc
    | cons a c =>
      simp only [comb, List.map_cons, Vec.dot_cons]
      rw [Vec.dot_add_right _ _ _ (by rw [Vec.length_smul, hQ q (by simp), comb_length n _ _ (fun r hr => hQ r (by simp [hr]))]),
        Vec.dot_smul_right, ih c (fun r hr => hQ r (by simp [hr])) (by simpa using hc)]

/-- The projected direction is orthogonal to every basis vector. -/
theorem dot_basis_projOut {n : ℕ} {Aeq Q : List Vec} (h : EqBasis n Aeq Q) {p : Vec} (hp : p.length = n) :
    ∀ q ∈ Q, Vec.dot q (projOut Q p) = 0 := by
  intro q hq
  obtain ⟨j, hj⟩ := List.mem_iff_getElem?.1 hq
  unfold projOut
  rw [hp, Vec.dot_sub_right _ _ _ (by rw [hp, comb_length n _ _ h.width]),
    dot_comb_right n _ Q h.width (by simp)]
  suffices ∀ (s : ℕ) (R : List Vec), (∀ i a, R[i]? = some a → Vec.dot q a = if s + i = j then 1 else 0) →
      (∀ i a, R[i]? = some a → s + i = j → a = q) →
      Vec.dot (Vec.mulVec R p) (R.map (fun r => Vec.dot q r)) = if s ≤ j ∧ j < s + R.length then Vec.dot q p else 0 by
    have hjl := (List.getElem?_eq_some_iff.1 hj).1
    rw [this 0 Q (fun i a ha => ?_) (fun i a ha e => ?_), if_pos ⟨by omega, by omega⟩, sub_self]
    · rw [h.ortho j i q a hj ha]; simp only [Nat.zero_add, eq_comm]
    · rw [Nat.zero_add] at e; subst e; rw [hj] at ha; exact (Option.some.inj ha).symm
  intro s R
  induction R generalizing s with
  | nil => intro _ _; simp; 
  | cons r R ih =>
    intro h1 h2
    have e0 := h1 0 r (by simp)
    have i1 := ih (s + 1) (fun i a ha => by rw [h1 (i + 1) a (by simpa using ha)]; congr 1; simp; omega)
      (fun i a ha e => h2 (i + 1) a (by simpa using ha) (by omega))
    simp only [Vec.mulVec, List.map_cons, Vec.dot_cons] at i1 ⊢
    rw [i1, e0]
    by_cases hs : s = j
    · subst hs
      have : r = q := h2 0 r (by simp) (by omega)
      subst this
      rw [if_pos (by omega), if_neg (by omega), if_pos ⟨le_rfl, by simp⟩]; ring
    · rw [if_neg (by omega)]
      by_cases c : s + 1 ≤ j ∧ j < s + 1 + R.length
      · rw [if_pos c, if_pos ⟨by omega, by simp; omega⟩]; ring
      · rw [if_neg c, if_neg (by simp; omega)]; ring

/-- The projected direction respects every equality constraint. -/
theorem dot_row_projOut {n : ℕ} {Aeq Q : List Vec} (h : EqBasis n Aeq Q) {p : Vec} (hp : p.length = n) :
    ∀ row ∈ Aeq, Vec.dot row (projOut Q p) = 0 := by
  intro row hr
  obtain ⟨c, hc, rfl⟩ := h.span row hr
  rw [Vec.dot_comm, dot_comb_right n c Q h.width hc]
  have hz : ∀ r ∈ Q, Vec.dot (projOut Q p) r = 0 := fun r hr => by
    rw [Vec.dot_comm]; exact dot_basis_projOut h hp r hr
  clear h hr
  generalize projOut Q p = w at hz
  induction Q generalizing c with
  | nil => simp
  | cons q Q ih => cases c with
    | nil => simp
    | cons a c =>
      simp only [List.map_cons, Vec.dot_cons]
      rw [hz q (by simp), ih c (by simpa using hc) (fun r hr => hz r (by simp [hr]))]; ring

/-- The projected direction respects the equality constraints of every factor. -/
theorem tensorAeq_dir {ds : List Base} {ps : List Vec} (h : Pieces ds ps) (hw : ∀ b ∈ ds, b.acc.WF) (pre : Vec)
    (total : ℕ) (hz : ∀ row ∈ tensorAeq pre.length total ds, Vec.dot row (pre ++ ps.flatten) = 0) :
    ∀ (i : ℕ) d pi, ds[i]? = some d → ps[i]? = some pi → ∀ row ∈ d.acc.Aeq, Vec.dot row pi = 0 := by
  induction h generalizing pre with
  | nil => intro i d pi h; simp at h
  | @cons d p ds ps hp hps ih =>
    intro i d' pi e1 e2
    cases i with
    | zero =>
      simp at e1 e2; subst e1 e2
      have hA : ∀ r ∈ d.acc.Aeq, r.length = p.length := fun r hr => by
        rw [hp, (hw d (by simp)).Aeq_w r hr]; rfl
      have := mulVec_pad d.acc.Aeq pre.length total d.len pre p ps.flatten rfl hA
      intro row hr
      have hm : Vec.dot row p ∈ Vec.mulVec d.acc.Aeq p := List.mem_map.2 ⟨row, hr, rfl⟩
      rw [← this] at hm
      obtain ⟨r', hr', e⟩ := List.mem_map.1 hm
      rw [← e]
      have := hz r' (by simp only [tensorAeq, List.mem_append]; exact .inl hr')
      simpa using this
    | succ i =>
      refine ih (fun b hb => hw b (by simp [hb])) (pre ++ p) ?_ i d' pi (by simpa using e1) (by simpa using e2)
      intro row hr
      have := hz row (by
        simp only [tensorAeq, List.mem_append]; right
        rw [List.length_append, hp] at hr; exact hr)
      simpa using this

theorem holds_length' {D : Dom} {x : Vec} (h : D.Holds x) : x.length = D.len := by
  cases D with
  | base d => exact h.1
  | tensor ds =>
    obtain ⟨xs, rfl, hx⟩ := h
    exact pieces_flatten_length (hx.imp (fun _ _ h => h.1))

/-! ## Conditions -/

/-- Conditions under which sweeping is safe: the direction does not leave an active linear inequality, and a
hull has no further constraints (the necessity of both is shown by witnesses). -/
structure SweepSafe (d : Base) (x p : Vec) : Prop where
  active : ∀ (i : ℕ) (row : Vec) (bi : ℝ), d.acc.A[i]? = some row → d.acc.b[i]? = some bi →
    Vec.dot row x = bi → Vec.dot row p = 0
  hull : ∀ X q, d = .hull X q → ∀ z, z.length = q.n → q.Holds z

theorem stepSafe_of_sweepSafe {tol : ℝ} {d : Base} {x p : Vec} (h : SweepSafe d x p)
    (he : ∀ row ∈ d.acc.Aeq, Vec.dot row p = 0) : StepSafe tol d x p ∧ StepSafe tol d x (Vec.smul (-1) p) := by
  refine ⟨⟨fun i row bi a b c => (h.active i row bi a b c).le, .inl he, h.hull⟩,
    ⟨fun i row bi a b c => ?_, .inl fun row hr => ?_, h.hull⟩⟩
  · rw [Vec.dot_smul_right, h.active i row bi a b c]; simp
  · rw [Vec.dot_smul_right, he row hr]; simp

theorem smul_append (c : ℝ) (a b : Vec) : Vec.smul c (a ++ b) = Vec.smul c a ++ Vec.smul c b := by simp [Vec.smul]

theorem smul_flatten (c : ℝ) (ps : List Vec) : Vec.smul c ps.flatten = (ps.map (Vec.smul c)).flatten := by
  induction ps with
  | nil => rfl
  | cons p ps ih => simp only [List.flatten_cons, List.map_cons, smul_append, ih]

theorem dom_stepSafe {tol : ℝ} {D : Dom} (hD : D.WF) {Q : List Vec} (hQ : EqBasis D.len D.acc.Aeq Q) {x p : Vec}
    (hp : p.length = D.len) (h : D.AllFactors SweepSafe x (projOut Q p)) :
    D.AllFactors (StepSafe tol) x (projOut Q p) ∧ D.AllFactors (StepSafe tol) x (Vec.smul (-1) (projOut Q p)) := by
  have hz := dot_row_projOut hQ hp
  cases D with
  | base d => exact stepSafe_of_sweepSafe h hz
  | tensor ds =>
    obtain ⟨xs, ps, e1, e2, p1, p2, hs⟩ := h
    rw [e2] at hz ⊢
    have hd := tensorAeq_dir p2 (fun b hb => base_wf_acc (hD.2 b hb)) [] (ds.map Base.len).sum
      (fun row hr => by rw [List.nil_append]; exact hz row hr)
    refine ⟨⟨xs, ps, e1, rfl, p1, p2, fun i d xi pi f1 f2 f3 =>
        (stepSafe_of_sweepSafe (hs i d xi pi f1 f2 f3) (hd i d pi f1 f3)).1⟩,
      ⟨xs, ps.map (Vec.smul (-1)), e1, smul_flatten _ _, p1, ?_, ?_⟩⟩
    · unfold Pieces at p2 ⊢
      rw [List.forall₂_map_right_iff]
      exact p2.imp (fun _ _ h => by rw [Vec.length_smul]; exact h)
    · intro i d xi pi f1 f2 f3
      rw [List.getElem?_map, Option.map_eq_some_iff] at f3
      obtain ⟨pi', f3, rfl⟩ := f3
      exact (stepSafe_of_sweepSafe (hs i d xi pi' f1 f2 f3) (hd i d pi' f1 f3)).2

/-! ## The points -/

theorem linspace_length (a b : ℝ) (n : ℕ) : (linspace a b n).length = n := by simp [linspace]

theorem linspace_get (a b : ℝ) (n i : ℕ) (h : i < n) :
    (linspace a b n)[i]? = some (a + (i : ℝ) * ((b - a) / ((n : ℝ) - 1))) := by
  unfold linspace
  rw [List.getElem?_map, List.getElem?_range h]; rfl

theorem linspace_mem {a b : ℝ} {n : ℕ} {v : ℝ} :
    v ∈ linspace a b n ↔ ∃ i < n, v = a + (i : ℝ) * ((b - a) / ((n : ℝ) - 1)) := by
  simp only [linspace, List.mem_map, List.mem_range]
  constructor
  · rintro ⟨i, h, rfl⟩; exact ⟨i, h, rfl⟩
  · rintro ⟨i, h, rfl⟩; exact ⟨i, h, rfl⟩

/-- The fraction `i/(n-1)` lies between zero and one. -/
theorem frac_mem {n i : ℕ} (hn : 2 ≤ n) (hi : i < n) :
    0 ≤ (i : ℝ) / ((n : ℝ) - 1) ∧ (i : ℝ) / ((n : ℝ) - 1) ≤ 1 := by
  have h2 : (2 : ℝ) ≤ n := by exact_mod_cast hn
  have hi' : (i : ℝ) + 1 ≤ n := by exact_mod_cast hi
  have hpos : (0 : ℝ) < n - 1 := by linarith
  refine ⟨div_nonneg (Nat.cast_nonneg i) hpos.le, ?_⟩
  rw [div_le_one hpos]; linarith

theorem lerp_step (x p : Vec) (a s t : ℝ) :
    Vec.lerp a (Vec.step x s p) (Vec.step x t p) = Vec.step x ((1 - a) * s + a * t) p := by
  unfold Vec.lerp Vec.step
  induction x generalizing p with
  | nil => simp
  | cons x xs ih => cases p with
    | nil => simp
    | cons q ps =>
      simp only [Vec.smul_cons, Vec.add_cons]
      rw [ih ps]; congr 1; ring

theorem step_neg (x p : Vec) (t : ℝ) : Vec.step x t (Vec.smul (-1) p) = Vec.step x (-1 * t) p := by
  unfold Vec.step
  congr 1
  unfold Vec.smul
  rw [List.map_map]
  apply List.map_congr_left
  intro a _; simp

theorem sub_lerp (c1 c2 : Vec) (s t : ℝ) :
    Vec.sub (Vec.lerp s c1 c2) (Vec.lerp t c1 c2) = Vec.smul (s - t) (Vec.sub c2 c1) := by
  unfold Vec.lerp
  induction c1 generalizing c2 with
  | nil => simp
  | cons x xs ih => cases c2 with
    | nil => simp
    | cons q ps =>
      simp only [Vec.smul_cons, Vec.add_cons, Vec.sub_cons]
      rw [ih ps]; congr 1; ring

theorem lerp_zero {c1 c2 : Vec} (h : c1.length = c2.length) : Vec.lerp 0 c1 c2 = c1 := by
  unfold Vec.lerp
  induction c1 generalizing c2 with
  | nil => simp
  | cons x xs ih => cases c2 with
    | nil => simp at h
    | cons q ps =>
      simp only [Vec.smul_cons, Vec.add_cons]
      rw [ih (by simpa using h)]; congr 1; ring

theorem lerp_one {c1 c2 : Vec} (h : c1.length = c2.length) : Vec.lerp 1 c1 c2 = c2 := by
  unfold Vec.lerp
  induction c1 generalizing c2 with
  | nil => cases c2 with
    | nil => simp
    | cons => simp at h
  | cons x xs ih => cases c2 with
    | nil => simp at h
    | cons q ps =>
      simp only [Vec.smul_cons, Vec.add_cons]
      rw [ih (by simpa using h)]; congr 1; ring

theorem sumSq_smul (c : ℝ) (v : Vec) : Vec.sumSq (Vec.smul c v) = c ^ 2 * Vec.sumSq v := by
  induction v with
  | nil => simp
  | cons a v ih => simp only [Vec.smul_cons, Vec.sumSq_cons, ih]; ring

theorem norm_smul_vec (c : ℝ) (v : Vec) : Vec.norm (Vec.smul c v) = |c| * Vec.norm v := by
  unfold Vec.norm
  rw [sumSq_smul, Real.sqrt_mul (sq_nonneg c), Real.sqrt_sq_eq_abs]

theorem norm_sq_eq (v : Vec) : Vec.norm v ^ 2 = Vec.sumSq v := Real.sq_sqrt (Vec.sumSq_nonneg v)

/-- The points between `c1` and `c2` returned by the last lines of `sweep`, and the lengths along them. -/
theorem line_points (c1 c2 : Vec) (hl : c1.length = c2.length) (n : ℕ) (hn : 2 ≤ n) :
    let X := (linspace 0 1 n).map (fun a => Vec.lerp a c1 c2)
    X.length = n ∧ X[0]? = some c1 ∧ X[n - 1]? = some c2 ∧
    (∀ i < n, X[i]? = some (Vec.lerp ((i : ℝ) / ((n : ℝ) - 1)) c1 c2)) ∧
    ∀ y, sweepDist X = some y → y.length = n ∧ ∃ y0, y[0]? = some y0 ∧
      ∀ (i : ℕ) v yi, X[i]? = some v → y[i]? = some yi → yi - y0 = Vec.norm (Vec.sub v c1) := by
  intro X
  have h2 : (2 : ℝ) ≤ n := by exact_mod_cast hn
  have hget : ∀ i < n, X[i]? = some (Vec.lerp ((i : ℝ) / ((n : ℝ) - 1)) c1 c2) := by
    intro i hi
    simp only [X]
    rw [List.getElem?_map, linspace_get 0 1 n i hi, Option.map_some]
    congr 2; ring
  have h0 : X[0]? = some c1 := by rw [hget 0 (by omega)]; simp [lerp_zero hl]
  have hlast : X[n - 1]? = some c2 := by
    rw [hget (n - 1) (by omega), Nat.cast_sub (by omega), Nat.cast_one, div_self (by linarith), lerp_one hl]
  have hlen : X.length = n := by simp [X, linspace_length]
  refine ⟨hlen, h0, hlast, hget, ?_⟩
  intro y hy
  have h1 := hget 1 (by omega)
  clear_value X
  match X, h0, h1, hlen, hget, hy with
  | a :: b :: Y, h0, h1, hlen, hget, hy =>
    simp at h0 h1
    subst h0
    simp only [sweepDist] at hy
    split at hy
    · cases hy
    rename_i hne
    cases hy
    refine ⟨by simpa using hlen, _, rfl, ?_⟩
    have hb : Vec.sub b a = Vec.smul (1 / ((n : ℝ) - 1)) (Vec.sub c2 a) := by
      rw [h1]
      have := sub_lerp a c2 (((n : ℝ) - 1)⁻¹) 0
      rw [lerp_zero hl, sub_zero] at this
      rw [this, one_div]
    generalize he : Vec.sub c2 a = e at hb
    intro i v yi hv hyi
    rw [List.getElem?_map, hv, Option.map_some] at hyi
    cases hyi
    have hi : i < n := by rw [← hlen]; exact (List.getElem?_eq_some_iff.1 hv).1
    have hv' := hget i hi
    rw [hv] at hv'
    have hva : Vec.sub v a = Vec.smul ((i : ℝ) / ((n : ℝ) - 1)) e := by
      have := sub_lerp a c2 ((i : ℝ) / ((n : ℝ) - 1)) 0
      rw [lerp_zero hl, sub_zero, he] at this
      rw [Option.some.inj hv', this]
    have hvl : v.length = a.length := by
      rw [Option.some.inj hv', Vec.length_lerp, ← hl]; simp
    show Vec.dot v _ - Vec.dot a _ = _
    rw [Vec.dot_comm v, Vec.dot_comm a, ← Vec.dot_sub_right _ _ _ hvl, hva, hb, norm_smul_vec, norm_smul_vec,
      Vec.dot_smul_right, Vec.dot_comm, Vec.dot_smul_right, Vec.dot_smul_right, ← Vec.sumSq_eq_dot, ← norm_sq_eq]
    rw [hb, norm_smul_vec] at hne
    have hpos : (0 : ℝ) < n - 1 := by linarith
    have hfr := (frac_mem hn hi).1
    rw [abs_of_nonneg hfr, abs_of_nonneg (by positivity)] at *
    have hne' : Vec.norm e ≠ 0 := fun h => hne (by rw [h]; ring)
    field_simp

/-! ## C17 -/

/-- **C17**, the points.  For every domain and every starting point in it, if `sweep` returns, then `n ≥ 2`
and, with `p'` the direction projected onto the equality constraints, either an extent is infinite (and the
arrays are not finite), or both extents `a1` (along `p'`) and `a2` (along `-p'`) are finite and there are `n`
evenly spaced points on the line through `x`, the first being `x + a1 p'`, the last `x - a2 p'`. -/
theorem sweep_points (nnls : NNLS) {TOL tol : ℝ} {he : HullExtent} (hh : HullExtentExact he) {Q : List Vec}
    {D : Dom} (hD : D.WF) (hQ : ∀ q ∈ Q, q.length = D.len) {n : ℤ} {x p : Vec} (hx : D.Holds x) {out : SweepOut}
    (h : (D.sweep nnls TOL tol he Q n x p).1 = .ok out) :
    2 ≤ n ∧ p.length = D.len ∧ ∃ al1 al2, D.extent nnls TOL tol he x (projOut Q p) = .ok al1 ∧
      D.extent nnls TOL tol he x (Vec.smul (-1) (projOut Q p)) = .ok al2 ∧
      (((al1 = .pinf ∨ al2 = .pinf) ∧ out.X = none ∧ out.y = none) ∨
       ∃ a1 a2 X, 0 ≤ a1 ∧ 0 ≤ a2 ∧ al1 = .fin a1 ∧ al2 = .fin a2 ∧ out.X = some X ∧ X.length = n.toNat ∧
        X[0]? = some (Vec.step x a1 (projOut Q p)) ∧ X[n.toNat - 1]? = some (Vec.step x (-a2) (projOut Q p)) ∧
        ∀ i < n.toNat, X[i]? = some (Vec.step x (a1 - (i : ℝ) / ((n.toNat : ℝ) - 1) * (a1 + a2)) (projOut Q p))) := by
  unfold Dom.sweep at h
  split at h
  · cases h
  split at h
  · cases h
  rename_i hin hpl
  have hp : p.length = D.len := not_not.1 hpl
  have hpl' := length_projOut hQ hp
  have hpl2 : (Vec.smul (-1) (projOut Q p)).length = D.len := by rw [Vec.length_smul, hpl']
  have hxl := hin
  obtain ⟨al1, e1, h⟩ := bind_ok h
  obtain ⟨al2, e2, h⟩ := bind_ok h
  unfold sweepPoints at h
  split at h
  · cases h
  split at h
  · cases h
  rename_i hn0 hn1
  have hn : 2 ≤ n := by omega
  refine ⟨hn, hp, al1, al2, e1, e2, ?_⟩
  rcases extent_nonneg nnls hh D hD x _ hpl' hx al1 e1 with rfl | ⟨a1, p1, rfl⟩
  · left; simp only [stepX] at h; cases h; exact ⟨.inl rfl, rfl, rfl⟩
  rcases extent_nonneg nnls hh D hD x _ hpl2 hx al2 e2 with rfl | ⟨a2, p2, rfl⟩
  · left
    have : XR.smul (-1) .pinf = .ninf := by simp [XR.smul]
    rw [this] at h
    simp only [stepX] at h; cases h; exact ⟨.inr rfl, rfl, rfl⟩
  right
  simp only [stepX, XR.smul] at h
  cases h
  have hl : (Vec.step x a1 (projOut Q p)).length = (Vec.step x (-1 * a2) (projOut Q p)).length := by
    simp [Vec.length_step]
  obtain ⟨l1, l2, l3, l4, -⟩ := line_points _ _ hl n.toNat (by omega)
  refine ⟨a1, a2, _, p1, p2, rfl, rfl, rfl, l1, l2, ?_, ?_⟩
  · rw [l3]; congr 2; ring
  · intro i hi
    rw [l4 i hi, lerp_step]; congr 2; ring

/-- **C17**, the second array: the differences of the returned lengths are the distances from the first
point. -/
theorem sweep_lengths (nnls : NNLS) {TOL tol : ℝ} {he : HullExtent} {Q : List Vec} {D : Dom} {n : ℤ} {x p : Vec}
    {out : SweepOut} (h : (D.sweep nnls TOL tol he Q n x p).1 = .ok out) {X : List Vec} {y : List ℝ}
    (hX : out.X = some X) (hy : out.y = some y) :
    y.length = X.length ∧ ∃ x0 y0, X[0]? = some x0 ∧ y[0]? = some y0 ∧
      ∀ (i : ℕ) v yi, X[i]? = some v → y[i]? = some yi → yi - y0 = Vec.norm (Vec.sub v x0) := by
  unfold Dom.sweep at h
  split at h
  · cases h
  split at h
  · cases h
  obtain ⟨al1, e1, h⟩ := bind_ok h
  obtain ⟨al2, e2, h⟩ := bind_ok h
  unfold sweepPoints at h
  split at h
  · cases h
  split at h
  · cases h
  split at h
  · rename_i c1 c2 k1 k2
    cases h
    have hl : c1.length = c2.length := by
      unfold stepX at k1 k2
      split at k1
      · split at k2
        · cases k1; cases k2; simp [Vec.length_step]
        · cases k2
      · cases k1
    obtain ⟨l1, l2, l3, l4, l5⟩ := line_points c1 c2 hl n.toNat (by omega)
    cases hX
    obtain ⟨m1, y0, m2, m3⟩ := l5 y hy
    exact ⟨by rw [m1, l1], c1, y0, l2, m2, m3⟩
  · cases h; cases hX

/-- **C17, partial**, membership: every returned point is in the domain, if the direction does not leave an
active linear inequality and hulls carry no further constraints.  Equality constraints need no hypothesis: the
direction is projected.  Both exclusions are necessary (`sweep_active_ineq_false`, `extent_hull_false`). -/
theorem sweep_inside_partial (nnls : NNLS) {TOL tol : ℝ} (htol : 0 < tol) {he : HullExtent} (hh : HullExtentExact he)
    {Q : List Vec} {D : Dom} (hD : D.WF) (hQ : EqBasis D.len D.acc.Aeq Q) {n : ℤ} {x p : Vec} (hx : D.Holds x)
    (hs : D.AllFactors SweepSafe x (projOut Q p)) {out : SweepOut}
    (h : (D.sweep nnls TOL tol he Q n x p).1 = .ok out) {X : List Vec} (hX : out.X = some X) :
    ∀ v ∈ X, D.Holds v := by
  obtain ⟨hn, hp, al1, al2, e1, e2, hr⟩ := sweep_points nnls hh hD hQ.width hx h
  rcases hr with ⟨_, k, _⟩ | ⟨a1, a2, X', p1, p2, rfl, rfl, k, k1, k2, k3, k4⟩
  · rw [k] at hX; cases hX
  rw [k] at hX
  cases hX
  have hpl' := length_projOut hQ.width hp
  have hpl2 : (Vec.smul (-1) (projOut Q p)).length = D.len := by rw [Vec.length_smul, hpl']
  obtain ⟨s1, s2⟩ := dom_stepSafe (tol := tol) hD hQ hp hs
  have g1 := fun t ht hle => extent_sound_partial nnls htol hh D hD x _ hpl' hx _ e1 s1 t ht hle
  have g2 := fun t ht hle => extent_sound_partial nnls htol hh D hD x _ hpl2 hx _ e2 s2 t ht hle
  intro v hv
  obtain ⟨i, hi⟩ := List.mem_iff_getElem?.1 hv
  have hil : i < n.toNat := by rw [← k1]; exact (List.getElem?_eq_some_iff.1 hi).1
  have := k4 i hil
  rw [hi] at this
  rw [Option.some.inj this]
  obtain ⟨f0, f1⟩ := frac_mem (n := n.toNat) (by omega) hil
  generalize (i : ℝ) / ((n.toNat : ℝ) - 1) = s at f0 f1
  rcases le_total 0 (a1 - s * (a1 + a2)) with c | c
  · exact g1 _ c ((le_fin_iff _ _).2 (by nlinarith))
  · have := g2 (-(a1 - s * (a1 + a2))) (by linarith) ((le_fin_iff _ _).2 (by nlinarith))
    rw [step_neg] at this
    convert this using 2; ring

/-- **C17 for boxes**, no side condition: every returned point is in the box. -/
theorem sweep_box_inside (nnls : NNLS) {TOL tol : ℝ} (he : HullExtent) (lb ub : List XR)
    (hw : (Base.box lb ub).WF) {n : ℤ} {x p : Vec} (hx : (Base.box lb ub).Holds x) {out : SweepOut}
    (hh : HullExtentExact he)
    (h : ((Dom.base (.box lb ub)).sweep nnls TOL tol he [] n x p).1 = .ok out) {X : List Vec} (hX : out.X = some X) :
    ∀ v ∈ X, (Base.box lb ub).Holds v := by
  have hD : (Dom.base (.box lb ub)).WF := hw
  obtain ⟨hn, hp, al1, al2, e1, e2, hr⟩ := sweep_points nnls hh hD (Q := []) (by simp) hx h
  rcases hr with ⟨_, k, _⟩ | ⟨a1, a2, X', p1, p2, rfl, rfl, k, k1, k2, k3, k4⟩
  · rw [k] at hX; cases hX
  rw [k] at hX
  cases hX
  have hpl' : (projOut [] p).length = lb.length := length_projOut (by simp) hp
  have hpl2 : (Vec.smul (-1) (projOut [] p)).length = lb.length := by rw [Vec.length_smul, hpl']
  have g1 := fun t ht => box_extent_exact nnls he lb ub hw x _ hpl' hx _ e1 t ht
  have g2 := fun t ht => box_extent_exact nnls he lb ub hw x _ hpl2 hx _ e2 t ht
  intro v hv
  obtain ⟨i, hi⟩ := List.mem_iff_getElem?.1 hv
  have hil : i < n.toNat := by rw [← k1]; exact (List.getElem?_eq_some_iff.1 hi).1
  have := k4 i hil
  rw [hi] at this
  rw [Option.some.inj this]
  obtain ⟨f0, f1⟩ := frac_mem (n := n.toNat) (by omega) hil
  generalize (i : ℝ) / ((n.toNat : ℝ) - 1) = s at f0 f1
  rcases le_total 0 (a1 - s * (a1 + a2)) with c | c
  · exact (g1 _ c).1 ((le_fin_iff _ _).2 (by nlinarith))
  · have := (g2 (-(a1 - s * (a1 + a2))) (by linarith)).1 ((le_fin_iff _ _).2 (by nlinarith))
    rw [step_neg] at this
    convert this using 2; ring

/-- **C17** with `corner=True`: if the two corners are points of the domain, so is every returned point; the
first and last are the two corners; the caller's direction is unchanged. -/
theorem sweepCorner_inside (nnls : NNLS) {TOL : ℝ} {corner : Vec → Except Err Vec} {D : Dom}
    {n : ℤ} {x p : Vec} (hc : ∀ q c, corner q = .ok c → D.Holds c) {out : SweepOut}
    (h : (D.sweepCorner nnls TOL corner n x p).1 = .ok out) :
    (D.sweepCorner nnls TOL corner n x p).2 = p ∧ 2 ≤ n ∧
    ∃ X c1 c2, out.X = some X ∧ X.length = n.toNat ∧ corner p = .ok c1 ∧ corner (Vec.smul (-1) p) = .ok c2 ∧
      X[0]? = some c1 ∧ X[n.toNat - 1]? = some c2 ∧ ∀ v ∈ X, D.Holds v := by
  unfold Dom.sweepCorner at h ⊢
  split at h
  · cases h
  split at h
  · cases h
  rename_i hin hpl
  rw [if_neg hin, if_neg hpl]
  obtain ⟨c1, e1, h⟩ := bind_ok h
  obtain ⟨c2, e2, h⟩ := bind_ok h
  unfold sweepPoints at h
  split at h
  · cases h
  split at h
  · cases h
  cases h
  have h1 := hc _ _ e1
  have h2 := hc _ _ e2
  have hl : c1.length = c2.length := by rw [holds_length' h1, holds_length' h2]
  obtain ⟨l1, l2, l3, l4, -⟩ := line_points c1 c2 hl n.toNat (by omega)
  refine ⟨rfl, by omega, _, c1, c2, rfl, l1, e1, e2, l2, l3, ?_⟩
  intro v hv
  obtain ⟨i, hi⟩ := List.mem_iff_getElem?.1 hv
  have hil : i < n.toNat := by rw [← l1]; exact (List.getElem?_eq_some_iff.1 hi).1
  have := l4 i hil
  rw [hi] at this
  rw [Option.some.inj this]
  obtain ⟨f0, f1⟩ := frac_mem (n := n.toNat) (by omega) hil
  exact dom_holds_convex h1 h2 f0 f1

/-- The classes on which `extent` is defined. -/
def Dom.ExtentDefined : Dom → Prop
  | .base d => ∀ n, d ≠ .unbounded n
  | .tensor ds => ds ≠ [] ∧ ∀ d ∈ ds, ∀ n, d ≠ .unbounded n

theorem extent_ok_iff' (nnls : NNLS) {TOL tol : ℝ} (he : HullExtent) (D : Dom) (x p : Vec) (hp : p.length = D.len) :
    (∃ al, D.extent nnls TOL tol he x p = .ok al) ↔ D.isInside nnls TOL x ∧ D.ExtentDefined := by
  have := extent_ok_iff nnls (TOL := TOL) (tol := tol) he D x p hp
  cases D <;> exact this

/-- `sweep` raises exactly for a starting point outside the domain, a direction of the wrong length, fewer
than two points, and domains on which `extent` raises. -/
theorem sweep_ok_iff (nnls : NNLS) {TOL tol : ℝ} (he : HullExtent) {Q : List Vec} {D : Dom}
    (hQ : ∀ q ∈ Q, q.length = D.len) (n : ℤ) (x p : Vec) :
    (∃ out, (D.sweep nnls TOL tol he Q n x p).1 = .ok out) ↔
      D.isInside nnls TOL x ∧ p.length = D.len ∧ 2 ≤ n ∧ D.ExtentDefined := by
  have hsp : ∀ c1 c2, (∃ out, sweepPoints c1 c2 n = .ok out) ↔ 2 ≤ n := by
    intro c1 c2
    unfold sweepPoints
    by_cases a : n < 0
    · rw [if_pos a]; simp; omega
    · rw [if_neg a]
      by_cases b : n ≤ 1
      · rw [if_pos b]; simp; omega
      · rw [if_neg b]
        refine ⟨fun _ => by omega, fun _ => ?_⟩
        split <;> exact ⟨_, rfl⟩
  unfold Dom.sweep
  by_cases hin : D.isInside nnls TOL x
  swap
  · rw [if_pos hin]; simp [hin]
  rw [if_neg (not_not.2 hin)]
  by_cases hp : p.length = D.len
  swap
  · rw [if_pos hp]; simp [hp]
  rw [if_neg (not_not.2 hp)]
  have hpl' := length_projOut hQ hp
  have hpl2 : (Vec.smul (-1) (projOut Q p)).length = D.len := by rw [Vec.length_smul, hpl']
  have k1 := extent_ok_iff' nnls (TOL := TOL) (tol := tol) he D x _ hpl'
  have k2 := extent_ok_iff' nnls (TOL := TOL) (tol := tol) he D x _ hpl2
  constructor
  · rintro ⟨out, h⟩
    obtain ⟨al1, e1, h⟩ := bind_ok h
    obtain ⟨al2, e2, h⟩ := bind_ok h
    exact ⟨hin, hp, (hsp _ _).1 ⟨out, h⟩, (k1.1 ⟨al1, e1⟩).2⟩
  · rintro ⟨_, _, hn, hm⟩
    obtain ⟨al1, e1⟩ := k1.2 ⟨hin, hm⟩
    obtain ⟨al2, e2⟩ := k2.2 ⟨hin, hm⟩
    simp only [e1, e2, bind, Except.bind]
    exact (hsp _ _).2 hn

theorem projOut_nil (p : Vec) : projOut [] p = p := by
  have : comb p.length (Vec.mulVec [] p) [] = List.replicate p.length 0 := rfl
  unfold projOut
  rw [this]
  induction p with
  | nil => rfl
  | cons a p ih =>
    simp only [List.length_cons, List.replicate_succ, Vec.sub_cons, sub_zero]
    rw [ih rfl]

/-- **C17**, the caller's array `p`: it is overwritten by the projected direction. -/
theorem sweep_direction (nnls : NNLS) {TOL tol : ℝ} (he : HullExtent) (Q : List Vec) (D : Dom) (n : ℤ) (x p : Vec) :
    (D.sweep nnls TOL tol he Q n x p).2 =
      if D.isInside nnls TOL x ∧ p.length = D.len then projOut Q p else p := by
  unfold Dom.sweep
  by_cases hin : D.isInside nnls TOL x
  · rw [if_neg (not_not.2 hin)]
    by_cases hp : p.length = D.len
    · rw [if_neg (not_not.2 hp), if_pos ⟨hin, hp⟩]
    · rw [if_pos hp, if_neg (fun h => hp h.2)]
  · rw [if_pos hin, if_neg (fun h => hin h.1)]

/-- Without equality constraints the caller's direction is unchanged. -/
theorem sweep_direction_unchanged_partial (nnls : NNLS) {TOL tol : ℝ} (he : HullExtent) (D : Dom) (n : ℤ) (x p : Vec) :
    (D.sweep nnls TOL tol he [] n x p).2 = p := by
  rw [sweep_direction, projOut_nil]; simp

/-! ## Where C17 fails -/

/-- The segment `x₁ = x₂` in the square. -/
noncomputable def diag : Dom :=
  .base (.linineq ⟨2, [.fin (-1), .fin (-1)], [.fin 1, .fin 1], [], [], [[1, -1]], [0], [], [], []⟩)

/-- An orthonormal basis of the rows of its `A_eq`. -/
noncomputable def diagQ : List Vec := [[1 / Real.sqrt 2, -1 / Real.sqrt 2]]

theorem diagQ_basis : EqBasis diag.len diag.acc.Aeq diagQ := by
  have s2 : Real.sqrt 2 * Real.sqrt 2 = 2 := Real.mul_self_sqrt (by norm_num)
  have sp : Real.sqrt 2 ≠ 0 := by positivity
  refine ⟨by simp [diagQ, diag, Dom.len, Base.len, Base.acc], ?_, ?_⟩
  · intro i j a b ha hb
    rcases i with _ | i <;> rcases j with _ | j <;> simp [diagQ] at ha hb
    subst ha hb
    simp only [Vec.dot_cons, Vec.dot_nil_left, if_true]
    field_simp; nlinarith
  · intro row hr
    simp [diag, Dom.acc, Base.acc] at hr
    subst hr
    refine ⟨[Real.sqrt 2], rfl, ?_⟩
    simp [diagQ, comb, diag, Dom.len, Base.len, Base.acc]
    field_simp

/-- **C17 is false for the caller's array**: on a domain with an equality constraint, `sweep` changes the
direction array it was given (euclidean.py 427). -/
theorem sweep_mutates_false (nnls : NNLS) {TOL tol : ℝ} (hT : 0 < TOL) (he : HullExtent) (n : ℤ) :
    (diag.sweep nnls TOL tol he diagQ n [0, 0] [1, 0]).2 = [1 / 2, 1 / 2] := by
  have s2 : Real.sqrt 2 * Real.sqrt 2 = 2 := Real.mul_self_sqrt (by norm_num)
  have sp : Real.sqrt 2 ≠ 0 := by positivity
  have hI : diag.isInside nnls TOL [0, 0] := by
    refine ⟨rfl, ?_, inIneq_nil _ _ _, ?_⟩
    · rw [inBounds_iff]
      constructor <;> intro i r xi h1 h2 <;> rcases i with _ | _ | i <;>
        simp at h1 h2 <;> subst h1 h2 <;> linarith
    · rw [inEq_iff]
      intro i row bi h1 h2
      cases i <;> simp at h1 h2
      subst h1 h2
      simpa [Vec.dot] using hT
  rw [sweep_direction, if_pos ⟨hI, rfl⟩]
  simp only [projOut, diagQ, Vec.mulVec, comb, List.map_cons, List.map_nil, Vec.dot_cons, Vec.dot_nil_left,
    List.length_cons, List.length_nil, List.replicate_succ, List.replicate_zero, Vec.smul_cons, Vec.smul_nil,
    Vec.add_cons, Vec.sub_cons, Vec.add_nil_left, Vec.sub_nil_left]
  congr 1
  · field_simp; nlinarith
  · congr 1
    field_simp; nlinarith

/-- **C17 is false at an active linear inequality** (`_extent_ineq` skips it, euclidean.py 1187-1189): on
`-1 ≤ x ≤ 5` with the row `x ≤ 0`, `sweep(2, [0], [1])` returns the points `5` and `-1`. -/
theorem sweep_active_ineq_false (nnls : NNLS) {TOL tol : ℝ} (hT : 0 < TOL) (hT5 : TOL < 5) (he : HullExtent) :
    let D := Dom.base (.linineq ⟨1, [.fin (-1)], [.fin 5], [[1]], [0], [], [], [], [], []⟩)
    D.Holds [0] ∧ (∃ out, (D.sweep nnls TOL tol he [] 2 [0] [1]).1 = .ok out ∧ out.X = some [[5], [-1]]) ∧
      ¬ D.isInside nnls TOL [5] := by
  intro D
  have hH : D.Holds [0] := by
    refine ⟨rfl, ⟨?_, ?_, ?_, ?_, ?_⟩, by simp⟩
    · intro i r xi h1 h2; cases i <;> simp [Base.acc] at h1 h2; subst h1 h2; norm_num
    · intro i r xi h1 h2; cases i <;> simp [Base.acc] at h1 h2; subst h1 h2; norm_num
    · intro i r xi h1 h2; cases i <;> simp [Base.acc] at h1 h2; subst h1 h2; simp [Vec.dot]
    · intro i r xi h1 h2; simp [Base.acc] at h1
    · intro i L y rho h1 h2; simp [Base.acc] at h1
  have hI : D.isInside nnls TOL [0] := by
    refine ⟨rfl, ?_⟩
    obtain ⟨a, b, c, d⟩ := holds_inAll hH.2.1 hT
    exact ⟨a, b, c⟩
  have a2 : ∀ v : ℝ, v ≠ 0 → extentIneq [[1]] [0] [0] [v] = .pinf := by
    intro v hv
    unfold extentIneq posMin
    have : ([([1] : Vec)].zip [(0 : ℝ)]).map (fun q => XR.div (q.2 - Vec.dot q.1 [0]) (Vec.dot q.1 [v])) = [.fin 0] := by
      simp [Vec.dot, XR.div, hv]
    rw [this, List.filter_cons_of_neg (by simp [XR.lt])]
    rfl
  have a1 : extentBounds [.fin (-1)] [.fin 5] [0] [1] = .fin 5 := by
    unfold extentBounds
    rw [if_neg, if_neg]
    · have e1 : boundQuotients [.fin 5] [0] [1] = [.fin 5] := by simp [boundQuotients, XR.sub, XR.divNZ]
      have e2 : boundQuotients [.fin (-1)] [0] [1] = [.fin (-1)] := by simp [boundQuotients, XR.sub, XR.divNZ]
      rw [e1, e2, posMin_cons_pos (y := .fin 5) _ (by simp [XR.lt]), posMin_nil,
        posMin_cons_neg (y := .fin (-1)) _ (by simp [XR.lt]), posMin_nil]
      simp [XR.pyMin, XR.lt]
    · simp [XR.eq]
    · simp [XR.eq]
  have a3 : extentBounds [.fin (-1)] [.fin 5] [0] [-1] = .fin 1 := by
    unfold extentBounds
    rw [if_neg, if_neg]
    · have e1 : boundQuotients [.fin 5] [0] [-1] = [.fin (-5)] := by
        simp [boundQuotients, XR.sub, XR.divNZ]; norm_num
      have e2 : boundQuotients [.fin (-1)] [0] [-1] = [.fin 1] := by simp [boundQuotients, XR.sub, XR.divNZ]
      rw [e1, e2, posMin_cons_neg (y := .fin (-5)) _ (by simp [XR.lt]), posMin_nil,
        posMin_cons_pos (y := .fin 1) _ (by simp [XR.lt]), posMin_nil]
      simp [XR.pyMin, XR.lt]
    · simp [XR.eq]
    · simp [XR.eq]
  have x1 : D.extent nnls TOL tol he [0] [1] = .ok (.fin 5) := by
    rw [extent_eq_raw nnls he _ hI]
    simp only [D, Dom.extentRaw, Base.extent]
    rw [a1, a2 1 (by norm_num)]
    simp [XR.pyMin, XR.lt]
  have x2 : D.extent nnls TOL tol he [0] [-1] = .ok (.fin 1) := by
    rw [extent_eq_raw nnls he _ hI]
    simp only [D, Dom.extentRaw, Base.extent]
    rw [a3, a2 (-1) (by norm_num)]
    simp [XR.pyMin, XR.lt]
  have hm : Vec.smul (-1) [1] = [(-1 : ℝ)] := by simp [Vec.smul]
  refine ⟨hH, ?_, ?_⟩
  · unfold Dom.sweep
    rw [if_neg (not_not.2 hI), if_neg (show ¬ ([1] : Vec).length ≠ D.len by simp [D, Dom.len, Base.len, Base.acc])]
    simp only [projOut_nil, hm, x1, x2, bind, Except.bind, stepX, XR.smul, sweepPoints]
    rw [if_neg (by norm_num), if_neg (by norm_num)]
    refine ⟨_, rfl, ?_⟩
    simp [linspace, List.range_succ, Vec.lerp, Vec.step, Vec.add, Vec.smul]
    norm_num
  · rintro ⟨-, h⟩
    have h := h.2.1
    rw [inIneq_iff] at h
    have := h 0 [1] 0 rfl rfl
    simp [Vec.dot] at this
    linarith

/-- The hypotheses of `sweep_inside_partial` are met, with an equality constraint and a nonzero direction. -/
example : diag.WF ∧ EqBasis diag.len diag.acc.Aeq diagQ ∧ diag.Holds [0, 0] ∧
    diag.AllFactors SweepSafe [0, 0] (projOut diagQ [1, 0]) := by
  refine ⟨?_, diagQ_basis, ?_, ?_⟩
  · show LQ.WF _ ∧ _
    refine ⟨?_, ?_⟩
    · constructor <;> simp [XR.okLower, XR.okUpper]
    · simp
  · refine ⟨rfl, ⟨?_, ?_, ?_, ?_, ?_⟩, by simp⟩
    · intro i r xi h1 h2; rcases i with _ | _ | i <;> simp [Base.acc] at h1 h2 <;> subst h1 h2 <;> norm_num
    · intro i r xi h1 h2; rcases i with _ | _ | i <;> simp [Base.acc] at h1 h2 <;> subst h1 h2 <;> norm_num
    · intro i r xi h1 h2; simp [Base.acc] at h1
    · intro i r xi h1 h2; cases i <;> simp [Base.acc] at h1 h2; subst h1 h2; simp [Vec.dot]
    · intro i L y rho h1 h2; simp [Base.acc] at h1
  · refine ⟨?_, ?_⟩
    · intro i row bi h; simp [Base.acc] at h
    · intro X q h; cases h

end Verif.Domain
