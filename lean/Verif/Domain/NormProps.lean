import Verif.Domain.NormLemmas
import Verif.Domain.MembershipProps

/-!
# Properties C05, C06, C07: normalization
-/

namespace Verif.Domain

open Classical Verif

/-! ## C05 -/

/-- The pieces of the normalized point are the normalized pieces. -/
theorem tensor_normalize_pieces {ds : List Base} {xs : List Vec} (h : Pieces ds xs) (fb : CornerOracle) :
    (Dom.tensor ds).normalize fb xs.flatten = (List.zipWith (fun d x => d.normalize fb x) ds xs).flatten ∧
    (Dom.tensor ds).unnormalize fb xs.flatten = (List.zipWith (fun d x => d.unnormalize fb x) ds xs).flatten := by
  have e := slicesFrom_eq ds xs [] h
  simp only [List.length_nil, List.nil_append] at e
  constructor
  · simp only [Dom.normalize, e, List.flatMap_def, List.map_zip_eq_zipWith]
    rfl
  · simp only [Dom.unnormalize, e, List.flatMap_def, List.map_zip_eq_zipWith]
    rfl

theorem pieces_map {fb : CornerOracle} (ho : OracleLen fb) {ds : List Base} (hw : ∀ b ∈ ds, b.WF)
    {xs : List Vec} (h : Pieces ds xs) :
    Pieces ds (List.zipWith (fun d x => d.normalize fb x) ds xs) ∧
    Pieces ds (List.zipWith (fun d x => d.unnormalize fb x) ds xs) ∧
    List.zipWith (fun d x => d.unnormalize fb x) ds (List.zipWith (fun d x => d.normalize fb x) ds xs) = xs ∧
    List.zipWith (fun d x => d.normalize fb x) ds (List.zipWith (fun d x => d.unnormalize fb x) ds xs) = xs := by
  induction h with
  | nil => exact ⟨.nil, .nil, rfl, rfl⟩
  | @cons d x ds xs hx _ ih =>
    obtain ⟨h1, h2, h3, h4⟩ := ih (fun b hb => hw b (List.mem_cons_of_mem _ hb))
    obtain ⟨k1, k2, k3, k4⟩ := base_inverse ho (hw d List.mem_cons_self) x hx
    refine ⟨.cons k3 h1, .cons k4 h2, ?_, ?_⟩
    · simp only [List.zipWith_cons_cons, h3, k1]
    · simp only [List.zipWith_cons_cons, h4, k2]

/-- **C05**: for every domain of every class and whatever the solver answers used to choose the
normalization bounds, `unnormalize ∘ normalize` and `normalize ∘ unnormalize` are the identity on
points of the right length, and lengths are preserved. -/
theorem normalize_inverse (fb : CornerOracle) (ho : OracleLen fb) (D : Dom) (hD : D.WF) (x : Vec)
    (hx : x.length = D.len) :
    D.unnormalize fb (D.normalize fb x) = x ∧ D.normalize fb (D.unnormalize fb x) = x ∧
    (D.normalize fb x).length = D.len ∧ (D.unnormalize fb x).length = D.len := by
  cases D with
  | base b => exact base_inverse ho hD x hx
  | tensor ds =>
    obtain ⟨xs, h, rfl⟩ := pieces_exist ds x hx
    obtain ⟨p1, p2, p3, p4⟩ := pieces_map ho hD.2 h
    obtain ⟨e1, e2⟩ := tensor_normalize_pieces h fb
    rw [e1, e2, (tensor_normalize_pieces p1 fb).2, (tensor_normalize_pieces p2 fb).1, p3, p4]
    exact ⟨rfl, rfl, pieces_flatten_length p1, pieces_flatten_length p2⟩

/-- An oracle answering with infinities. -/
noncomputable def infOracle : CornerOracle :=
  fun b => (List.replicate b.len .ninf, List.replicate b.len .pinf)

theorem infOracle_len : OracleLen infOracle := fun b => by simp [infOracle]

example : OracleLen infOracle ∧ exBox.WF ∧ ([3, 4] : Vec).length = exBox.len :=
  ⟨infOracle_len, exBox_wf, rfl⟩

/-! ## C06 -/

theorem pyMin_of_lt {a b : ℝ} (h : a < b) : XR.pyMin (.fin a) (.fin b) = .fin a := by
  unfold XR.pyMin; rw [if_neg]; simp only [XR.lt]; linarith

theorem pyMax_of_lt {a b : ℝ} (h : a < b) : pyMax (.fin b) (.fin a) = .fin b := by
  unfold pyMax; rw [if_neg]; simp only [XR.lt]; linarith

theorem box_normBounds (l u : Vec) (h : List.Forall₂ (· < ·) l u) (f g : List XR)
    (hf : f.length = l.length) (hg : g.length = l.length) :
    List.zipWith (fun lu f => normLb1 lu.1 lu.2 f) ((l.map XR.fin).zip (u.map XR.fin)) f = l.map XR.fin ∧
    List.zipWith (fun lu f => normUb1 lu.1 lu.2 f) ((l.map XR.fin).zip (u.map XR.fin)) g = u.map XR.fin := by
  induction h generalizing f g with
  | nil => simp
  | @cons a b l u hab _ ih =>
    cases f with
    | nil => simp at hf
    | cons f fs => cases g with
      | nil => simp at hg
      | cons g gs =>
        obtain ⟨h1, h2⟩ := ih fs gs (by simpa using hf) (by simpa using hg)
        have a1 : normLb1 (.fin a) (.fin b) f = .fin a := pyMin_of_lt hab
        have a2 : normUb1 (.fin a) (.fin b) g = .fin b := pyMax_of_lt hab
        simp only [List.map_cons, List.zip_cons_cons, List.zipWith_cons_cons, h1, h2, a1, a2]
        exact ⟨trivial, trivial⟩

theorem box_normalize (fb : CornerOracle) (ho : OracleLen fb) (l u : Vec) (h : List.Forall₂ (· < ·) l u) (x : Vec) :
    (Dom.base (.box (l.map XR.fin) (u.map XR.fin))).normalize fb x =
      Vec.mul (List.zipWith (fun a b => 2 / (b - a)) l u) (Vec.sub x (List.zipWith (fun a b => (a + b) / 2) l u)) := by
  have hl : (Base.box (l.map XR.fin) (u.map XR.fin)).len = l.length := by simp [Base.len, Base.acc]
  obtain ⟨e1, e2⟩ := box_normBounds l u h (fb (.box (l.map XR.fin) (u.map XR.fin))).1
    (fb (.box (l.map XR.fin) (u.map XR.fin))).2 (by rw [(ho _).1, hl]) (by rw [(ho _).2, hl])
  have n1 : (Base.box (l.map XR.fin) (u.map XR.fin)).normLb fb = l.map XR.fin := e1
  have n2 : (Base.box (l.map XR.fin) (u.map XR.fin)).normUb fb = u.map XR.fin := e2
  show Vec.mul ((Base.box _ _).nslopes fb) (Vec.sub x ((Base.box _ _).center fb)) = _
  unfold Base.nslopes Base.center
  simp only [n1, n2, nslopes, center]
  clear e1 e2 n1 n2 hl
  have : List.zipWith nslope (l.map XR.fin) (u.map XR.fin) = List.zipWith (fun a b => 2 / (b - a)) l u := by
    induction h with
    | nil => rfl
    | @cons a b l u hab _ ih => simp only [List.map_cons, List.zipWith_cons_cons, ih, nslope, if_pos hab.ne']
  rw [this]
  congr 2
  clear this
  induction h with
  | nil => rfl
  | @cons a b l u hab _ ih => simp only [List.map_cons, List.zipWith_cons_cons, ih, center1]

/-- **C06**: for a box with finite bounds `lb < ub` in every coordinate, a point of the right length is
in the box exactly when all coordinates of its normalization lie in `[-1,1]`. -/
theorem box_normalize_cube (nnls : NNLS) (fb : CornerOracle) (ho : OracleLen fb) (l u : Vec)
    (h : List.Forall₂ (· < ·) l u) (x : Vec) (hx : x.length = l.length) :
    (Dom.base (.box (l.map XR.fin) (u.map XR.fin))).isInside nnls 0 x ↔
      ∀ z ∈ (Dom.base (.box (l.map XR.fin) (u.map XR.fin))).normalize fb x, -1 ≤ z ∧ z ≤ 1 := by
  rw [box_normalize fb ho l u h]
  have : (Dom.base (.box (l.map XR.fin) (u.map XR.fin))).isInside nnls 0 x ↔
      inBounds (l.map XR.fin) (u.map XR.fin) 0 x := by
    simp only [Dom.isInside, Dom.inside, Base.inside, Dom.len, Base.len, Base.acc, List.length_map, hx, true_and]
  rw [this]
  clear this
  induction h generalizing x with
  | nil =>
    have : x = [] := List.eq_nil_of_length_eq_zero hx
    subst this; simp [inBounds]
  | @cons a b l u hab _ ih =>
    cases x with
    | nil => simp at hx
    | cons x xs =>
      simp only [List.map_cons, List.zipWith_cons_cons, Vec.sub_cons, Vec.mul_cons, List.forall_mem_cons]
      have ih' := ih xs (by simpa using hx)
      rw [inBounds_cons]
      refine and_congr ?_ ih'
      have hd : 0 < b - a := sub_pos.2 hab
      have e : 2 / (b - a) * (x - (a + b) / 2) = (2 * x - (a + b)) / (b - a) := by field_simp
      rw [e, le_div_iff₀ hd, div_le_iff₀ hd]
      constructor
      · rintro ⟨h1, h2⟩
        have h1 := h1 a rfl
        have h2 := h2 b rfl
        constructor <;> linarith
      · rintro ⟨h1, h2⟩
        constructor
        · intro r hr; cases hr; linarith
        · intro r hr; cases hr; linarith

/-- **C06**: the lower corner goes to `-1`, the upper corner to `+1`, the midpoint to `0`. -/
theorem box_normalize_corners (fb : CornerOracle) (ho : OracleLen fb) (l u : Vec) (h : List.Forall₂ (· < ·) l u) :
    (Dom.base (.box (l.map XR.fin) (u.map XR.fin))).normalize fb l = List.replicate l.length (-1) ∧
    (Dom.base (.box (l.map XR.fin) (u.map XR.fin))).normalize fb u = List.replicate l.length 1 ∧
    (Dom.base (.box (l.map XR.fin) (u.map XR.fin))).normalize fb (List.zipWith (fun a b => (a + b) / 2) l u)
      = List.replicate l.length 0 := by
  rw [box_normalize fb ho l u h, box_normalize fb ho l u h, box_normalize fb ho l u h]
  induction h with
  | nil => simp
  | @cons a b l u hab _ ih =>
    obtain ⟨h1, h2, h3⟩ := ih
    have hd : b - a ≠ 0 := (sub_pos.2 hab).ne'
    simp only [List.zipWith_cons_cons, Vec.sub_cons, Vec.mul_cons, h1, h2, h3, List.length_cons,
      List.replicate_succ]
    refine ⟨?_, ?_, ?_⟩
    · congr 1; field_simp; ring
    · congr 1; field_simp; ring
    · congr 1; ring

example : List.Forall₂ (· < ·) ([0, -1] : Vec) [1, 5] := by
  refine .cons (by norm_num) (.cons (by norm_num) .nil)

/-! ## C07 -/

/-- The situations in which the normalized domain is right: the lower bounds are all finite or all
infinite, likewise the upper bounds, and the centers of quadratic constraints are not moved by the
scaling (for instance because they are at the center, or the scaling is the identity where they differ
from it). -/
structure NormScaled (fb : CornerOracle) (d : Base) : Prop where
  lb : AllFin d.acc.lb ∨ AllInf d.acc.lb
  ub : AllFin d.acc.ub ∨ AllInf d.acc.ub
  quad : (∃ m L c, d = .normal m L c) ∨
    ∀ y ∈ d.acc.ys, Vec.mul (d.uslopes fb) (Vec.sub y (d.center fb)) = Vec.sub y (d.center fb)
  ordered : NormOrdered fb d

/-- `NormScaled`, and the domain is not a convex hull (whose normalization drops the hull). -/
structure NormGood (fb : CornerOracle) (d : Base) : Prop extends NormScaled fb d where
  noHull : ∀ X q, d ≠ .hull X q

theorem lbNorm_allInf {fb : CornerOracle} {d : Base} (h : AllInf d.acc.lb) : AllInf (d.lbNorm fb) := by
  intro v hv
  obtain ⟨i, hi⟩ := List.mem_iff_getElem?.1 hv
  unfold Base.lbNorm at hi
  rw [List.getElem?_zipWith] at hi
  rcases hl : d.acc.lb[i]? with _ | l
  · rw [hl] at hi; simp at hi
  · rw [hl] at hi
    have := h l (List.mem_of_getElem? hl)
    rcases hz : (normalizeX (d.nslopes fb) (d.center fb) d.acc.lb)[i]? with _ | z
    · rw [hz] at hi; simp at hi
    · rw [hz] at hi
      cases l <;> simp at hi this <;> rw [← hi] <;> simp

theorem ubNorm_allInf {fb : CornerOracle} {d : Base} (h : AllInf d.acc.ub) : AllInf (d.ubNorm fb) := by
  intro v hv
  obtain ⟨i, hi⟩ := List.mem_iff_getElem?.1 hv
  unfold Base.ubNorm at hi
  rw [List.getElem?_zipWith] at hi
  rcases hl : d.acc.ub[i]? with _ | l
  · rw [hl] at hi; simp at hi
  · rw [hl] at hi
    have := h l (List.mem_of_getElem? hl)
    rcases hz : (normalizeX (d.nslopes fb) (d.center fb) d.acc.ub)[i]? with _ | z
    · rw [hz] at hi; simp at hi
    · rw [hz] at hi
      cases l <;> simp at hi this <;> rw [← hi] <;> simp

theorem bounds_norm {fb : CornerOracle} (ho : OracleLen fb) {d : Base} (hd : d.WF) (hg : NormScaled fb d)
    (x : Vec) (hx : x.length = d.len) :
    inBounds (d.lbNorm fb) (d.ubNorm fb) 0 (Vec.mul (d.nslopes fb) (Vec.sub x (d.center fb))) ↔
      inBounds d.acc.lb d.acc.ub 0 x := by
  have l1 := (uslopes_length ho hd).2
  have lc := center_length ho hd
  have hpos := nslopes_pos hg.ordered
  unfold inBounds
  apply and_congr
  · rcases hg.lb with ⟨v, hv⟩ | h
    · have lv : v.length = d.len := by
        have := (base_wf_acc hd).lb_len; rw [hv, List.length_map] at this; exact this
      rw [lbNorm_allFin ho hd v hv, hv]
      exact lower_fin_scaled _ _ _ _ hpos (by omega) (by omega) (by omega)
    · exact iff_of_true (lower_allInf (lbNorm_allInf h) _ _) (lower_allInf h _ _)
  · rcases hg.ub with ⟨v, hv⟩ | h
    · have lv : v.length = d.len := by
        have := (base_wf_acc hd).ub_len; rw [hv, List.length_map] at this; exact this
      rw [ubNorm_allFin ho hd v hv, hv]
      exact upper_fin_scaled _ _ _ _ hpos (by omega) (by omega) (by omega)
    · exact iff_of_true (upper_allInf (ubNorm_allInf h) _ _) (upper_allInf h _ _)

theorem normData_inAll {fb : CornerOracle} (ho : OracleLen fb) {d : Base} (hd : d.WF) (hg : NormScaled fb d)
    (hn : ∀ m L c, d ≠ .normal m L c) (x : Vec) (hx : x.length = d.len) :
    (d.normData fb).inAll 0 (Vec.mul (d.nslopes fb) (Vec.sub x (d.center fb))) ↔ d.acc.inAll 0 x := by
  obtain ⟨l2, l1⟩ := uslopes_length ho hd
  have lc := center_length ho hd
  have hq : ∀ y ∈ d.acc.ys, Vec.mul (d.uslopes fb) (Vec.sub y (d.center fb)) = Vec.sub y (d.center fb) := by
    rcases hg.quad with ⟨m, L, c, h⟩ | h
    · exact absurd h (hn m L c)
    · exact h
  have hi := base_slopes_inv fb d
  unfold LQ.inAll
  simp only [Base.normData]
  rw [bounds_norm ho hd hg x hx, ineq_norm _ _ _ _ _ _ hi (by omega) (by omega),
    eq_norm _ _ _ _ _ _ hi (by omega) (by omega), quad_norm _ _ _ _ _ _ _ hi (by omega) (by omega) _ hq]
  intro y hy
  rw [l2]; exact (base_wf_acc hd).ys_w y hy

/-- **C07** for one factor, see `normalized_domain_mem_partial`. -/
theorem base_normalized_mem (nnls : NNLS) (fb : CornerOracle) (ho : OracleLen fb) (d : Base) (hd : d.WF)
    (hg : NormGood fb d) (R : Base) (h : d.normalizedDomain fb = .ok R) (x : Vec) (hx : x.length = d.len) :
    R.len = d.len ∧ (R.isInside nnls 0 (d.normalize fb x) ↔ d.isInside nnls 0 x) := by
  have key : R.len = d.len ∧ (R.inside nnls 0 (d.normalize fb x) ↔ d.inside nnls 0 x) := by
    obtain ⟨l2, l1⟩ := uslopes_length ho hd
    have lc := center_length ho hd
    cases d with
    | linquad q =>
      cases h
      refine ⟨rfl, ?_⟩
      exact normData_inAll ho hd hg.toNormScaled (by intro _ _ _ h; cases h) x hx
    | linineq q =>
      cases h
      refine ⟨rfl, ?_⟩
      have e := normData_inAll ho hd hg.toNormScaled (by intro _ _ _ h; cases h) x hx
      obtain ⟨_, h1, h2, h3⟩ := hd
      have e1 : inQuad ((Base.linineq q).normData fb).Ls ((Base.linineq q).normData fb).ys
        ((Base.linineq q).normData fb).rhos 0 (Vec.mul ((Base.linineq q).nslopes fb)
          (Vec.sub x ((Base.linineq q).center fb))) := inQuad_nil _ _ _ _
      have e2 : inQuad (Base.linineq q).acc.Ls (Base.linineq q).acc.ys (Base.linineq q).acc.rhos 0 x :=
        inQuad_nil _ _ _ _
      unfold LQ.inAll at e
      have f1 : (Base.linineq ((Base.linineq q).normData fb)).inside nnls 0 ((Base.linineq q).normalize fb x) ↔ 
        inBounds ((Base.linineq q).normData fb).lb ((Base.linineq q).normData fb).ub 0
          (Vec.mul ((Base.linineq q).nslopes fb) (Vec.sub x ((Base.linineq q).center fb))) ∧
        inIneq ((Base.linineq q).normData fb).A ((Base.linineq q).normData fb).b 0
          (Vec.mul ((Base.linineq q).nslopes fb) (Vec.sub x ((Base.linineq q).center fb))) ∧
        inEq ((Base.linineq q).normData fb).Aeq ((Base.linineq q).normData fb).beq 0
          (Vec.mul ((Base.linineq q).nslopes fb) (Vec.sub x ((Base.linineq q).center fb))) := Iff.rfl
      have f2 : (Base.linineq q).inside nnls 0 x ↔ inBounds (Base.linineq q).acc.lb (Base.linineq q).acc.ub 0 x ∧
        inIneq (Base.linineq q).acc.A (Base.linineq q).acc.b 0 x ∧
        inEq (Base.linineq q).acc.Aeq (Base.linineq q).acc.beq 0 x := Iff.rfl
      rw [f1, f2]
      tauto
    | box l u =>
      cases h
      refine ⟨(lbNorm_length ho hd).1, ?_⟩
      exact bounds_norm ho hd hg.toNormScaled x hx
    | point p =>
      cases h
      refine ⟨(lbNorm_length ho hd).1, ?_⟩
      refine (bounds_norm ho hd hg.toNormScaled x hx).trans ?_
      have h1 := point_inAll p 0 x
      show inBounds (p.map XR.fin) (p.map XR.fin) 0 x ↔ x = p
      rw [h1]
      constructor
      · intro hh
        apply List.ext_getElem? 
        intro i
        have hl : x.length = p.length := hx
        rcases hp : p[i]? with _ | u
        · rw [List.getElem?_eq_none_iff] at hp ⊢; omega
        · rcases hq : x[i]? with _ | v
          · rw [List.getElem?_eq_none_iff] at hq
            have := (List.getElem?_eq_some_iff.1 hp).1
            omega
          · have := hh i u v hp hq
            have : v - u = 0 := abs_eq_zero.1 (le_antisymm this (abs_nonneg _))
            congr 1; linarith
      · rintro rfl i u v hu hv
        rw [hu] at hv; cases hv; simp
    | normal m L c =>
      cases h
      have hc : (Base.normal m L c).center fb = m := rfl
      have hxm : x.length = m.length := hx
      have hlen : ((Base.normal m L c).normalize fb m).length = m.length :=
        (base_inverse ho hd m rfl).2.2.1
      refine ⟨hlen, ?_⟩
      cases c with
      | none =>
        exact iff_of_true (inQuad_nil _ _ _ _) (inQuad_nil _ _ _ _)
      | some r =>
        show inQuad [colScale ((Base.normal m L (some r)).uslopes fb) L]
          [Vec.mul ((Base.normal m L (some r)).nslopes fb) (Vec.sub m m)] [Real.sqrt r] 0
          (Vec.mul ((Base.normal m L (some r)).nslopes fb) (Vec.sub x m)) ↔
          inQuad [L] [m] [Real.sqrt r] 0 x
        have e : Vec.mulVec (colScale ((Base.normal m L (some r)).uslopes fb) L)
            (Vec.sub (Vec.mul ((Base.normal m L (some r)).nslopes fb) (Vec.sub x m))
              (Vec.mul ((Base.normal m L (some r)).nslopes fb) (Vec.sub m m))) = Vec.mulVec L (Vec.sub x m) := by
          rw [← mul_sub_vec, sub_sub_vec _ _ _ hxm rfl]
          exact mulVec_colScale L _ _ m x (base_slopes_inv fb _) (by rw [l2]; rfl) (by rw [l2]; exact hx)
        unfold inQuad
        simp only [List.zip_cons_cons, List.zip_nil_left, List.forall_mem_cons]
        rw [e]
        simp
    | hull X q => exact absurd rfl (hg.noHull X q)
    | unbounded n => cases h
  refine ⟨key.1, ?_⟩
  unfold Base.isInside
  rw [key.2, key.1, (base_inverse ho hd x hx).2.2.1, hx]

/-- **C07**, the part that holds: if every factor is good in the sense of `NormGood` (no factor mixes
finite and infinite bounds, centers of quadratic constraints are not moved, no convex hulls), then the
normalized domain contains exactly the normalized points.  What is missing: mixed finite/infinite
bounds (`normalized_bounds_lost`, `normalized_mixed_bounds_false`), off-center quadratic constraints
(`normalized_quadratic_false`), and hulls (`normalized_hull_false`), where the claim is false. -/
theorem normalized_domain_mem_partial (nnls : NNLS) (fb : CornerOracle) (ho : OracleLen fb) (D : Dom)
    (hD : D.WF) (hg : ∀ d ∈ D.factors, NormGood fb d) (R : Dom) (h : D.normalizedDomain fb = .ok R) (x : Vec)
    (hx : x.length = D.len) :
    R.isInside nnls 0 (D.normalize fb x) ↔ D.isInside nnls 0 x := by
  cases D with
  | base d =>
    simp only [Dom.normalizedDomain] at h
    rcases hr : d.normalizedDomain fb with e | r
    · rw [hr] at h; cases h
    · rw [hr] at h; cases h
      exact (base_normalized_mem nnls fb ho d hD (hg d (by simp [Dom.factors])) r hr x hx).2
  | tensor ds =>
    simp only [Dom.normalizedDomain] at h
    rcases hr : ds.mapM (Base.normalizedDomain fb) with e | rs
    · rw [hr] at h; cases h
    · rw [hr] at h; cases h
      obtain ⟨xs, hp, rfl⟩ := pieces_exist ds x hx
      rw [(tensor_normalize_pieces hp fb).1, tensor_mem nnls 0 ds xs hp]
      have hF : List.Forall₂ (fun d r => d.normalizedDomain fb = Except.ok r) ds rs := by
        clear hx hp hg hD
        induction ds generalizing rs with
        | nil => simp [pure, Except.pure] at hr; subst hr; exact .nil
        | cons d ds ih =>
          rw [List.mapM_cons] at hr
          obtain ⟨r, h1, hr⟩ := bind_ok hr
          obtain ⟨rs', h2, hr⟩ := bind_ok hr
          cases hr
          exact .cons h1 (ih rs' h2)
      have hgood : ∀ d ∈ ds, NormGood fb d := hg
      have hwf : ∀ d ∈ ds, d.WF := hD.2
      have hP : Pieces rs (List.zipWith (fun d x => d.normalize fb x) ds xs) ∧
          (List.Forall₂ (fun d x => d.isInside nnls 0 x) rs (List.zipWith (fun d x => d.normalize fb x) ds xs) ↔
          List.Forall₂ (fun d x => d.isInside nnls 0 x) ds xs) := by
        clear hx hg hr hD
        induction hF generalizing xs with
        | nil => cases hp; exact ⟨.nil, by simp⟩
        | @cons d r ds rs hdr _ ih =>
          cases hp with
          | @cons _ x _ xs hx hxs =>
            obtain ⟨i1, i2⟩ := ih xs hxs (fun d hd => hgood d (by simp [hd])) (fun d hd => hwf d (by simp [hd]))
            obtain ⟨k1, k2⟩ := base_normalized_mem nnls fb ho d (hwf d (by simp)) (hgood d (by simp)) r hdr x hx
            have k3 := (base_inverse ho (hwf d (by simp)) x hx).2.2.1
            refine ⟨.cons (by rw [k1]; exact k3) i1, ?_⟩
            simp only [List.zipWith_cons_cons, List.forall₂_cons]
            rw [k2, i2]
      rw [tensor_mem nnls 0 rs _ hP.1, hP.2]

/-- **C07 fails whenever finite and infinite bounds are mixed** (general form): if one lower bound is
infinite, no normalized lower bound is finite, and if one upper bound is infinite, no normalized upper
bound is finite: every bound on that side is lost (`0 * inf = nan` in euclidean.py 957, 964, 1104). -/
theorem normalized_bounds_lost (fb : CornerOracle) (ho : OracleLen fb) (d : Base) (hd : d.WF) :
    (XR.ninf ∈ d.acc.lb → ∀ v ∈ d.lbNorm fb, ¬ v.isFinite) ∧
    (XR.pinf ∈ d.acc.ub → ∀ v ∈ d.ubNorm fb, ¬ v.isFinite) :=
  ⟨fun h => lbNorm_lost ho hd h, fun h => ubNorm_lost ho hd h⟩

/-- Concrete failure: the normalized domain of the box `[0,1] × (-inf,inf)` contains the normalization
of `(-5, 0)`, which is not in the box. -/
theorem normalized_mixed_bounds_false (nnls : NNLS) (fb : CornerOracle) (ho : OracleLen fb) :
    ∃ (d : Base) (R : Base) (x : Vec), d.WF ∧ d.normalizedDomain fb = .ok R ∧ x.length = d.len ∧
      R.isInside nnls 0 (d.normalize fb x) ∧ ¬ d.isInside nnls 0 x := by
  have hw : (Base.box [.fin 0, .ninf] [.fin 1, .pinf]).WF := by
    show (Base.box _ _).acc.WF
    constructor <;> simp [Base.acc, XR.okLower, XR.okUpper]
  refine ⟨.box [.fin 0, .ninf] [.fin 1, .pinf], _, [-5, 0], hw, rfl, rfl, ?_, ?_⟩
  · refine ⟨?_, ?_, ?_⟩
    · rw [(base_inverse ho hw [-5, 0] rfl).2.2.1]
      show _ = (Base.lbNorm fb (.box [.fin 0, .ninf] [.fin 1, .pinf])).length
      rw [(lbNorm_length ho hw).1]
    · exact lower_allInf (lbNorm_lost ho hw (by simp [Base.acc])) _ _
    · exact upper_allInf (ubNorm_lost ho hw (by simp [Base.acc])) _ _
  · rintro ⟨_, h⟩
    have h : inBounds [.fin 0, .ninf] [.fin 1, .pinf] 0 [-5, 0] := h
    rw [inBounds_cons] at h
    have := h.1.1 0 rfl
    norm_num at this

theorem linquad1_norm (fb : CornerOracle) (ho : OracleLen fb) (l u y r : ℝ) (hlu : l < u) :
    let d : Base := .linquad ⟨1, [.fin l], [.fin u], [], [], [], [], [[[1]]], [[y]], [r]⟩
    d.uslopes fb = [(u - l) / 2] ∧ d.nslopes fb = [2 / (u - l)] ∧ d.center fb = [(l + u) / 2] := by
  intro d
  have hl : d.len = 1 := rfl
  have h1 := (ho d).1
  have h2 := (ho d).2
  rw [hl] at h1 h2
  obtain ⟨f, hf⟩ := List.length_eq_one_iff.1 h1
  obtain ⟨g, hg⟩ := List.length_eq_one_iff.1 h2
  have n1 : d.normLb fb = [.fin l] := by
    simp only [d, Base.normLb] at *
    rw [hf]
    simp [Base.acc, normLb1, pyMin_of_lt hlu]
  have n2 : d.normUb fb = [.fin u] := by
    simp only [d, Base.normUb] at *
    rw [hg]
    simp [Base.acc, normUb1, pyMax_of_lt hlu]
  refine ⟨?_, ?_, ?_⟩
  · unfold Base.uslopes; rw [n1, n2]; simp [uslopes, uslope, hlu.ne']
  · unfold Base.nslopes; rw [n1, n2]; simp [nslopes, nslope, hlu.ne']
  · show center (d.normLb fb) (d.normUb fb) = _
    rw [n1, n2]; simp [center, center1]

/-- **C07 is false for off-center quadratic constraints** (`ys_norm`, euclidean.py 994-997, subtracts
the center but does not divide by the scaling): for `lb = 0, ub = 4, |x - 3| ≤ 1` the point `2` is
inside, but its normalization is not inside the normalized domain. -/
theorem normalized_quadratic_false (nnls : NNLS) (fb : CornerOracle) (ho : OracleLen fb) :
    ∃ (d : Base) (R : Base) (x : Vec), d.WF ∧ d.normalizedDomain fb = .ok R ∧ x.length = d.len ∧
      d.isInside nnls 0 x ∧ ¬ R.isInside nnls 0 (d.normalize fb x) := by
  let q : LQ := { n := 1, lb := [.fin 0], ub := [.fin 4], A := [], b := [], Aeq := [], beq := [],
                    Ls := [[[1]]], ys := [[3]], rhos := [1] }
  have hw : (Base.linquad q).WF := by
    show LQ.WF _
    constructor <;> simp [q, Base.acc, XR.okLower, XR.okUpper]
  obtain ⟨e1, e2, e3⟩ := linquad1_norm fb ho 0 4 3 1 (by norm_num)
  refine ⟨.linquad q, _, [2], hw, rfl, rfl, ⟨rfl, ?_, ?_, ?_, ?_⟩, ?_⟩
  · show inBounds [.fin 0] [.fin 4] 0 [2]
    rw [inBounds_cons]
    refine ⟨⟨?_, ?_⟩, inBounds_nil _ _ _⟩ <;> intro r hr <;> cases hr <;> norm_num
  · exact inIneq_nil _ _ _
  · exact inEq_nil _ _ _
  · intro p hp
    simp [q] at hp
    subst hp
    simp only [Vec.mulVec, List.map_cons, List.map_nil, Vec.sub_cons, Vec.sub_nil_left,
      Vec.dot_cons, Vec.dot_nil_left, Vec.sumSq_cons, Vec.sumSq_nil]
    rw [Real.sqrt_le_left (by norm_num)]; norm_num
  · rintro ⟨_, _, _, _, h⟩
    have hz : (Base.linquad q).normalize fb [2] = [0] := by
      show Vec.mul ((Base.linquad q).nslopes fb) (Vec.sub [2] ((Base.linquad q).center fb)) = _
      rw [show (Base.linquad q).nslopes fb = _ from e2, show (Base.linquad q).center fb = _ from e3]
      simp; norm_num
    rw [hz] at h
    have h : inQuad ([[[1]]].map (colScale ((Base.linquad q).uslopes fb)))
      ([[3]].map (fun y => Vec.sub y ((Base.linquad q).center fb))) [1] 0 [0] := h
    rw [show (Base.linquad q).uslopes fb = _ from e1, show (Base.linquad q).center fb = _ from e3] at h
    have := h _ (by simp; rfl)
    simp only [colScale, Vec.mulVec, List.map_cons, List.map_nil, Vec.sub_cons, Vec.sub_nil_left, Vec.mul_cons,
      Vec.mul_nil_left, Vec.dot_cons, Vec.dot_nil_left, Vec.sumSq_cons, Vec.sumSq_nil] at this
    rw [Real.sqrt_le_left (by norm_num)] at this
    norm_num at this

/-- **C07 is false for convex hulls**: `ConvexHullDomain` inherits `_normalized_domain` from
`LinQuadDomain`, which drops the hull: with hull points `0, 1` the normalized domain contains the
normalization of `-5` (in fact of every point), although `-5` is not in the hull domain for any
tolerance up to 5, whatever nonnegative coefficients the NNLS routine returns. -/
theorem normalized_hull_false (nnls : NNLS) (hn : ∀ A b, ∀ v ∈ nnls A b, 0 ≤ v) (fb : CornerOracle)
    (ho : OracleLen fb) :
    ∃ (d : Base) (R : Base) (x : Vec), d.WF ∧ d.normalizedDomain fb = .ok R ∧ x.length = d.len ∧
      ∀ tol, 0 ≤ tol → tol ≤ 5 → R.isInside nnls tol (d.normalize fb x) ∧ ¬ d.isInside nnls tol x := by
  let q : LQ := { n := 1, lb := [.ninf], ub := [.pinf], A := [], b := [], Aeq := [], beq := [],
                    Ls := [], ys := [], rhos := [] }
  have hw : (Base.hull [[0], [1]] q).WF := by
    refine ⟨?_, by simp, by simp [q]⟩
    constructor <;> simp [q, XR.okLower, XR.okUpper]
  refine ⟨.hull [[0], [1]] q, _, [-5], hw, rfl, rfl, fun tol _ h5 => ⟨⟨?_, ⟨?_, ?_⟩, ?_, ?_, ?_⟩, ?_⟩⟩
  · exact (base_inverse ho hw [-5] rfl).2.2.1
  · exact lower_allInf (lbNorm_lost ho hw (by simp [Base.acc, q])) _ _
  · exact upper_allInf (ubNorm_lost ho hw (by simp [Base.acc, q])) _ _
  · exact inIneq_nil _ _ _
  · exact inEq_nil _ _ _
  · exact inQuad_nil _ _ _ _
  · rintro ⟨_, h, -⟩
    have hc : columns q.n [[0], [1]] = [[0, 1]] := by
      simp [columns, q, List.range_succ]
    have hk : ∀ v ∈ hullCoefficients nnls q.n [[0], [1]] [-5], 0 ≤ v := hn _ _
    unfold hullCombine at h
    rw [hc] at h
    generalize hullCoefficients nnls q.n [[0], [1]] [-5] = al at h hk
    have hd : 0 ≤ Vec.dot [0, 1] al := by
      rcases al with _ | ⟨a, _ | ⟨b, t⟩⟩
      · simp
      · simp
      · simpa using hk b (by simp)
    have : (5 : ℝ) ≤ Vec.norm (Vec.sub [-5] [Vec.dot [0, 1] al]) := by
      apply Real.le_sqrt_of_sq_le
      rw [Vec.sub_cons, Vec.sub_nil_left, Vec.sumSq_cons, Vec.sumSq_nil]
      nlinarith
    simp only [List.map_cons, List.map_nil] at h
    linarith

/-- **C07 raises for unbounded domains**: `UnboundedDomain` has no `_normalized_domain`. -/
theorem normalized_unbounded_raises (fb : CornerOracle) (n : ℕ) (R : Dom) :
    (Dom.base (.unbounded n)).normalizedDomain fb ≠ .ok R := by
  intro h; cases h

/-- The normalized domain is defined for every other class. -/
theorem normalizedDomain_ok_iff (fb : CornerOracle) (D : Dom) :
    (∃ R, D.normalizedDomain fb = .ok R) ↔ ∀ d ∈ D.factors, ∀ n, d ≠ .unbounded n := by
  have hb : ∀ d : Base, (∃ R, d.normalizedDomain fb = .ok R) ↔ ∀ n, d ≠ .unbounded n := by
    intro d; cases d <;> simp [Base.normalizedDomain]
  cases D with
  | base d =>
    simp only [Dom.factors, List.forall_mem_singleton]
    rw [← hb d]
    simp only [Dom.normalizedDomain]
    rcases d.normalizedDomain fb with e | r
    · simp [Except.map]
    · simp [Except.map]
  | tensor ds =>
    have : (∃ R, ds.mapM (Base.normalizedDomain fb) = .ok R) ↔ ∀ d ∈ ds, ∀ n, d ≠ .unbounded n := by
      induction ds with
      | nil => simp [pure, Except.pure]
      | cons d ds ih =>
        rw [List.forall_mem_cons, ← ih, ← hb d, List.mapM_cons]
        constructor
        · rintro ⟨R, h⟩
          obtain ⟨r, h1, h⟩ := bind_ok h
          obtain ⟨rs', h2, h⟩ := bind_ok h
          exact ⟨⟨r, h1⟩, ⟨rs', h2⟩⟩
        · rintro ⟨⟨r, h1⟩, ⟨rs, h2⟩⟩
          exact ⟨r :: rs, by rw [h1]; simp only [bind, Except.bind, h2]; rfl⟩
    rw [show (Dom.tensor ds).factors = ds from rfl, ← this]
    simp only [Dom.normalizedDomain]
    rcases ds.mapM (Base.normalizedDomain fb) with e | r
    · simp [Except.map]
    · simp [Except.map]

/-- `NormGood` is met by every box with finite bounds `l < u`. -/
theorem normGood_box (fb : CornerOracle) (ho : OracleLen fb) (l u : Vec) (h : List.Forall₂ (· < ·) l u) :
    NormGood fb (.box (l.map XR.fin) (u.map XR.fin)) := by
  have hl : (Base.box (l.map XR.fin) (u.map XR.fin)).len = l.length := by simp [Base.len, Base.acc]
  obtain ⟨e1, e2⟩ := box_normBounds l u h (fb (.box (l.map XR.fin) (u.map XR.fin))).1
    (fb (.box (l.map XR.fin) (u.map XR.fin))).2 (by rw [(ho _).1, hl]) (by rw [(ho _).2, hl])
  have n1 : (Base.box (l.map XR.fin) (u.map XR.fin)).normLb fb = l.map XR.fin := e1
  have n2 : (Base.box (l.map XR.fin) (u.map XR.fin)).normUb fb = u.map XR.fin := e2
  refine ⟨⟨.inl ⟨l, rfl⟩, .inl ⟨u, rfl⟩, .inr (by simp [Base.acc]), ?_⟩, by simp⟩
  intro i a b ha hb
  rw [n1, List.getElem?_map] at ha
  rw [n2, List.getElem?_map] at hb
  rcases h1 : l[i]? with _ | a'
  · rw [h1] at ha; simp at ha
  · rcases h2 : u[i]? with _ | b'
    · rw [h2] at hb; simp at hb
    · rw [h1] at ha; rw [h2] at hb
      simp at ha hb
      subst ha hb
      rw [List.forall₂_iff_get] at h
      obtain ⟨hi1, rfl⟩ := List.getElem?_eq_some_iff.1 h1
      obtain ⟨hi2, rfl⟩ := List.getElem?_eq_some_iff.1 h2
      exact (h.2 i hi1 hi2).le

/-- Hypotheses of `normalized_domain_mem_partial` are met by a product of a box and a truncated normal
domain. -/
example : NormGood infOracle (.box [.fin 0, .fin 1] [.fin 2, .fin 5]) ∧
    NormGood infOracle (.normal [1, 2] [[1, 0], [3, 1]] (some 9)) := by
  constructor
  · exact normGood_box infOracle infOracle_len [0, 1] [2, 5]
      (.cons (by norm_num) (.cons (by norm_num) .nil))
  · refine ⟨⟨.inr ?_, .inr ?_, .inl ⟨_, _, _, rfl⟩, ?_⟩, by simp⟩
    · intro v hv; simp [Base.acc] at hv; subst hv; simp
    · intro v hv; simp [Base.acc] at hv; subst hv; simp
    · intro i a b ha _
      simp [Base.normLb, Base.acc, infOracle, Base.len, normLb1, List.replicate_succ] at ha
      rcases i with _ | _ | i <;> simp at ha

end Verif.Domain
