import Verif.Domain.SolverModel
import Verif.Domain.ExtentProps

namespace Verif.Domain

open Classical Verif

theorem mul_sub_self (s m : Vec) (h : m.length = s.length) : Vec.mul s (Vec.sub m m) = Vec.sub m m := by
  induction s generalizing m with
  | nil => simp at h; subst h; simp
  | cons a s ih => cases m with
    | nil => simp at h
    | cons b m => simp [ih m (by simpa using h)]

/-- The constraints given to the solver describe the set of the domain, in normalized coordinates. -/
theorem base_feas_iff (fb : CornerOracle) (ho : OracleLen fb) (d : Base) (hd : d.WF) (hg : NormScaled fb d)
    (x : Vec) (hx : x.length = d.len) : d.feasNorm fb (d.normalize fb x) ↔ d.Holds x := by
  obtain ⟨l2, l1⟩ := uslopes_length ho hd
  have lc := center_length ho hd
  have hi := base_slopes_inv fb d
  have gen : (d.normData fb).Holds (Vec.mul (d.nslopes fb) (Vec.sub x (d.center fb))) ↔ d.acc.Holds x := by
    rw [holds_iff, holds_iff]
    have hb := bounds_norm ho hd hg x hx
    have hq : ∀ y ∈ d.acc.ys, Vec.mul (d.uslopes fb) (Vec.sub y (d.center fb)) = Vec.sub y (d.center fb) := by
      rcases hg.quad with ⟨m, L, c, h⟩ | h
      · subst h
        intro y hy
        have : y = m := by
          simp only [Base.acc] at hy
          split at hy <;> simp at hy
          exact hy
        subst this
        exact mul_sub_self _ _ (by rw [l2]; rfl)
      · exact h
    simp only [Base.normData]
    rw [hb, ineq_norm _ _ _ _ _ _ hi (by omega) (by omega),
      quad_norm _ _ _ _ _ _ _ hi (by omega) (by omega) (fun y hy => by rw [l2]; exact (base_wf_acc hd).ys_w y hy) hq]
    simp only [eq_norm _ _ _ _ _ _ hi (show (d.center fb).length = (d.uslopes fb).length by omega)
      (show x.length = (d.uslopes fb).length by omega)]
  cases d with
  | linquad q => exact gen.trans ⟨fun h => ⟨hx, h, by simp⟩, fun h => h.2.1⟩
  | linineq q => exact gen.trans ⟨fun h => ⟨hx, h, by simp⟩, fun h => h.2.1⟩
  | box l u => exact gen.trans ⟨fun h => ⟨hx, h, by simp⟩, fun h => h.2.1⟩
  | point p => exact gen.trans ⟨fun h => ⟨hx, h, by simp⟩, fun h => h.2.1⟩
  | normal m L c => exact gen.trans ⟨fun h => ⟨hx, h, by simp⟩, fun h => h.2.1⟩
  | unbounded n =>
    refine iff_of_true trivial ⟨hx, ?_, by simp⟩
    rw [holds_iff]
    exact ⟨inBounds_inf _ _ _ _, inIneq_nil _ _ _, fun _ _ => inEq_nil _ _ _, inQuad_nil _ _ _ _⟩
  | hull X q =>
    have hX : ∀ r ∈ X, r.length = q.n := hd.2.2
    have e : InHull q.n (X.map ((Base.hull X q).normalize fb)) ((Base.hull X q).normalize fb x) ↔ InHull q.n X x :=
      inHull_normalize (n := q.n) (nl := hullNormLb q.n X) (nu := hullNormUb q.n X)
        (by simp [hullNormLb, columns_length]) (by simp [hullNormUb, columns_length]) hX hx
    constructor
    · rintro ⟨h1, h2⟩
      refine ⟨hx, gen.1 h1, ?_⟩
      rintro X' q' e'
      obtain ⟨rfl, rfl⟩ := Base.hull.inj e'
      exact e.1 h2
    · rintro ⟨_, h1, h2⟩
      exact ⟨gen.2 h1, e.2 (h2 X q rfl)⟩

/-- The hypothesis of `base_feas_iff` for every factor. -/
def Dom.Scaled (fb : CornerOracle) : Dom → Prop
  | .base d => NormScaled fb d
  | .tensor ds => ∀ d ∈ ds, NormScaled fb d

theorem tensor_feas_pieces (fb : CornerOracle) {ds : List Base} {zs : List Vec} (h : Pieces ds zs) :
    (Dom.tensor ds).feasNorm fb zs.flatten ↔ List.Forall₂ (fun d z => d.feasNorm fb z) ds zs := by
  have e := slicesFrom_eq ds zs [] h
  simp only [List.length_nil, List.nil_append] at e
  simp only [Dom.feasNorm, e]
  exact forall_zip_iff_forall₂ _ ds zs h.length_eq

theorem dom_feas_iff (fb : CornerOracle) (ho : OracleLen fb) (D : Dom) (hD : D.WF) (hg : D.Scaled fb)
    (x : Vec) (hx : x.length = D.len) : D.feasNorm fb (D.normalize fb x) ↔ D.Holds x := by
  cases D with
  | base d => exact base_feas_iff fb ho d hD hg x hx
  | tensor ds =>
    obtain ⟨xs, hp, rfl⟩ := pieces_exist ds x hx
    rw [(tensor_normalize_pieces hp fb).1, tensor_feas_pieces fb (pieces_map ho hD.2 hp).1,
      holds_flatten_iff hp]
    have hw : ∀ d ∈ ds, d.WF := hD.2
    have hg' : ∀ d ∈ ds, NormScaled fb d := hg
    clear hD hg hx
    induction hp with
    | nil => simp
    | @cons d x ds xs hx _ ih =>
      simp only [List.zipWith_cons_cons, List.forall₂_cons]
      exact and_congr (base_feas_iff fb ho d (hw d (by simp)) (hg' d (by simp)) x hx)
        (ih (fun d hd => hw d (by simp [hd])) (fun d hd => hg' d (by simp [hd])))

/-- The constant part of `unnormalize`. -/
noncomputable def Dom.offset (fb : CornerOracle) : Dom → Vec
  | .base d => d.center fb
  | .tensor ds => ds.flatMap (fun d => d.center fb)

theorem dom_uslopes_length {fb : CornerOracle} (ho : OracleLen fb) {D : Dom} (hD : D.WF) :
    (D.uslopes fb).length = D.len ∧ (D.offset fb).length = D.len := by
  cases D with
  | base d => exact ⟨(uslopes_length ho hD).1, center_length ho hD⟩
  | tensor ds =>
    have hw : ∀ d ∈ ds, d.WF := hD.2
    simp only [Dom.uslopes, Dom.offset, Dom.len, List.length_flatMap]
    constructor
    · congr 1
      exact List.map_congr_left (fun d hd => (uslopes_length ho (hw d hd)).1)
    · congr 1
      exact List.map_congr_left (fun d hd => center_length ho (hw d hd))

theorem add_append (a b c d : Vec) (h : a.length = c.length) :
    Vec.add (a ++ b) (c ++ d) = Vec.add a c ++ Vec.add b d := by
  unfold Vec.add; exact List.zipWith_append h

theorem mul_append (a b c d : Vec) (h : a.length = c.length) :
    Vec.mul (a ++ b) (c ++ d) = Vec.mul a c ++ Vec.mul b d := by
  unfold Vec.mul; exact List.zipWith_append h

theorem dom_unnormalize_eq {fb : CornerOracle} (ho : OracleLen fb) {D : Dom} (hD : D.WF) (hu : ¬ D.hasUnbounded)
    (z : Vec) (hz : z.length = D.len) :
    D.unnormalize fb z = Vec.add (Vec.mul (D.uslopes fb) z) (D.offset fb) := by
  cases D with
  | base d => exact base_unnormalize_eq (fun n e => hu ⟨n, e⟩) z
  | tensor ds =>
    obtain ⟨zs, hp, rfl⟩ := pieces_exist ds z hz
    rw [(tensor_normalize_pieces hp fb).2]
    have hw : ∀ d ∈ ds, d.WF := hD.2
    have hu' : ∀ d ∈ ds, ∀ n, d ≠ .unbounded n := fun d hd n e => hu ⟨d, hd, n, e⟩
    clear hD hu hz
    induction hp with
    | nil => simp [Dom.uslopes]
    | @cons d x ds xs hx _ ih =>
      have l := (uslopes_length ho (hw d (by simp))).1
      have lc := center_length ho (hw d (by simp))
      have ih' := ih (fun d hd => hw d (by simp [hd])) (fun d hd => hu' d (by simp [hd]))
      simp only [Dom.uslopes, Dom.offset] at ih' ⊢
      simp only [List.zipWith_cons_cons, List.flatten_cons, List.flatMap_cons]
      rw [mul_append _ _ _ _ (by omega), add_append _ _ _ _ (by simp [Vec.length_mul, l, lc, hx]), ih',
        base_unnormalize_eq (fun n => hu' d (by simp) n)]

/-! ### The objectives in the original coordinates -/

theorem mulVec_add (A : List Vec) (x y : Vec) (h : x.length = y.length) :
    Vec.mulVec A (Vec.add x y) = Vec.add (Vec.mulVec A x) (Vec.mulVec A y) := by
  induction A with
  | nil => simp [Vec.mulVec]
  | cons a A ih =>
    simp only [Vec.mulVec, List.map_cons, Vec.add_cons] at ih ⊢
    rw [ih, Vec.dot_add_right _ _ _ h]

theorem mulVec_sub (A : List Vec) (x y : Vec) (h : x.length = y.length) :
    Vec.mulVec A (Vec.sub x y) = Vec.sub (Vec.mulVec A x) (Vec.mulVec A y) := by
  induction A with
  | nil => simp [Vec.mulVec]
  | cons a A ih =>
    simp only [Vec.mulVec, List.map_cons, Vec.sub_cons] at ih ⊢
    rw [ih, Vec.dot_sub_right _ _ _ h]

theorem mulVec_colScale_eq (A : List Vec) (s z : Vec) :
    Vec.mulVec (colScale s A) z = Vec.mulVec A (Vec.mul s z) := by
  unfold Vec.mulVec colScale
  rw [List.map_map]
  exact List.map_congr_left (fun r _ => Vec.dot_mul r s z)

theorem mul_comm_vec (a b : Vec) : Vec.mul a b = Vec.mul b a := by
  unfold Vec.mul
  rw [List.zipWith_comm]
  congr 1
  funext x y; ring

theorem dot_unnormalize {fb : CornerOracle} (ho : OracleLen fb) {D : Dom} (hD : D.WF) (hu : ¬ D.hasUnbounded)
    (p z : Vec) (hz : z.length = D.len) :
    Vec.dot p (D.unnormalize fb z) = Vec.dot (Vec.mul (D.uslopes fb) p) z + Vec.dot p (D.offset fb) := by
  obtain ⟨h1, h2⟩ := dom_uslopes_length ho hD
  rw [dom_unnormalize_eq ho hD hu z hz, Vec.dot_add_right _ _ _ (by simp [Vec.length_mul, h1, h2, hz]),
    mul_comm_vec (D.uslopes fb) p, Vec.dot_mul]

theorem add_sub_add (a b c : Vec) (h1 : a.length = c.length) (h2 : b.length = c.length) :
    Vec.sub (Vec.add a c) (Vec.add b c) = Vec.sub a b := by
  induction a generalizing b c with
  | nil => simp
  | cons x a ih => cases b with
    | nil => simp
    | cons y b => cases c with
      | nil => simp at h1
      | cons z c =>
        simp only [Vec.add_cons, Vec.sub_cons]
        rw [ih b c (by simpa using h1) (by simpa using h2)]
        congr 1; ring

/-- The objective of `closest_point` in the original coordinates. -/
theorem closestObj_eq {fb : CornerOracle} (ho : OracleLen fb) {D : Dom} (hD : D.WF) (hu : ¬ D.hasUnbounded)
    (L : List Vec) (x0 z : Vec) (hx : x0.length = D.len) (hz : z.length = D.len) :
    D.closestObj fb L x0 z = Vec.norm (Vec.mulVec L (Vec.sub (D.unnormalize fb z) x0)) := by
  obtain ⟨h1, h2⟩ := dom_uslopes_length ho hD
  obtain ⟨i1, i2, i3, i4⟩ := normalize_inverse fb ho D hD x0 hx
  unfold Dom.closestObj
  have e : Vec.sub (D.unnormalize fb z) x0 =
      Vec.sub (Vec.mul (D.uslopes fb) z) (Vec.mul (D.uslopes fb) (D.normalize fb x0)) := by
    rw [← add_sub_add (Vec.mul (D.uslopes fb) z) (Vec.mul (D.uslopes fb) (D.normalize fb x0)) (D.offset fb)
      (by simp [Vec.length_mul, h1, h2, hz]) (by simp [Vec.length_mul, h1, h2, i3]),
      ← dom_unnormalize_eq ho hD hu z hz, ← dom_unnormalize_eq ho hD hu _ i3, i1]
  rw [e, mulVec_sub _ _ _ (by simp [Vec.length_mul, hz, i3]), mulVec_colScale_eq, mulVec_colScale_eq]

theorem cls_algebra (u v b c : Vec) (h1 : v.length = u.length) :
    Vec.sub (Vec.sub u b) c = Vec.sub (Vec.sub (Vec.add u v) (Vec.add v c)) b := by
  induction u generalizing v b c with
  | nil => simp
  | cons x u ih => cases v with
    | nil => simp at h1
    | cons y v => cases b with
      | nil => simp
      | cons z b => cases c with
        | nil => simp
        | cons w c =>
          simp only [Vec.add_cons, Vec.sub_cons]
          rw [ih v b c (by simpa using h1)]
          congr 1; ring

/-- The objective of `constrained_least_squares` in the original coordinates: it measures the distance
of `A (x - offset - center)` to `b`. -/
theorem clsObj_eq {fb : CornerOracle} (ho : OracleLen fb) {D : Dom} (hD : D.WF) (hu : ¬ D.hasUnbounded)
    (fbD : List XR × List XR) (A : List Vec) (b z : Vec) (hz : z.length = D.len) :
    D.clsObj fb fbD A b z = Vec.norm (Vec.sub (Vec.sub (Vec.mulVec A (D.unnormalize fb z))
      (Vec.add (Vec.mulVec A (D.offset fb)) (Vec.mulVec A (D.centerOf fb fbD)))) b) := by
  obtain ⟨h1, h2⟩ := dom_uslopes_length ho hD
  unfold Dom.clsObj
  rw [mulVec_colScale_eq, cls_algebra _ (Vec.mulVec A (D.offset fb)) _ _ (by simp),
    ← mulVec_add _ _ _ (by simp [Vec.length_mul, h1, h2, hz]), dom_unnormalize_eq ho hD hu z hz]

/-! ### The normalized problem and the original problem -/

/-- Every point of the domain comes from a feasible normalized point and conversely. -/
theorem feas_unnormalize (fb : CornerOracle) (ho : OracleLen fb) (D : Dom) (hD : D.WF) (hg : D.Scaled fb)
    (z : Vec) (hz : z.length = D.len) : D.feasNorm fb z ↔ D.Holds (D.unnormalize fb z) := by
  obtain ⟨i1, i2, i3, i4⟩ := normalize_inverse fb ho D hD z hz
  rw [← dom_feas_iff fb ho D hD hg _ i4, i2]

theorem holds_length {D : Dom} {x : Vec} (h : D.Holds x) : x.length = D.len := by
  cases D with
  | base d => exact h.1
  | tensor ds =>
    obtain ⟨xs, rfl, h⟩ := h
    exact pieces_flatten_length (h.imp (fun _ _ k => k.1))

end Verif.Domain
