import Verif.Domain.ConsModel
import Verif.Domain.SolverProps

/-!
# The constraints handed to the optimizers describe the domain (C130)
-/

namespace Verif.Domain

open Verif

/-- The domain is not a convex hull and has no convex hull among its factors. -/
def Dom.NoHull (D : Dom) : Prop := ∀ d ∈ D.factors, ∀ X q, d ≠ .hull X q

/-- Every convex hull among the factors has as many points as coordinates. -/
def Dom.SquareHulls (D : Dom) : Prop := ∀ d ∈ D.factors, ∀ X q, d = .hull X q → X.length = q.n

theorem feas_iff_holds {d : LQ} (hd : d.WF) {x : Vec} (hx : x.length = d.n) : d.feas x ↔ d.Holds x := by
  rw [holds_iff]
  unfold LQ.feas inBounds inIneq inEq inQuad
  simp only [add_zero, sub_zero, ge_iff_le]
  rw [and_assoc]
  refine and_congr_right fun _ => and_congr_right fun _ => and_congr_right fun _ => and_congr ?_ ?_
  · constructor
    · intro h tol ht q hq
      rw [h q hq, sub_self, abs_zero]; exact ht
    · intro h q hq
      by_contra hne
      exact lt_irrefl _ (h _ (abs_pos.2 (sub_ne_zero.2 hne)) q hq)
  · refine forall_congr' fun q => forall_congr' fun hq => ?_
    have hy : q.2.1 ∈ d.ys := (List.of_mem_zip (List.of_mem_zip hq).2).1
    rw [mulVec_sub _ _ _ (hx.trans (hd.ys_w _ hy).symm)]
    rfl

theorem hull_build_eq (X : List Vec) (q : LQ) : (Base.hull X q).build =
    if X.length = q.n then .ok fun x => hullTransposed X x ∧ q.feas x else .error .valueError := rfl

theorem base_build_ok_iff (d : Base) : (∃ P, d.build = .ok P) ↔ ∀ X q, d = .hull X q → X.length = q.n := by
  cases d with
  | hull X q =>
    rw [hull_build_eq]
    split
    · rename_i h
      exact ⟨fun _ X' q' e => by cases e; exact h, fun _ => ⟨_, rfl⟩⟩
    · rename_i h
      refine ⟨?_, fun h' => absurd (h' X q rfl) h⟩
      rintro ⟨P, hP⟩; cases hP
  | _ => exact ⟨fun _ X q e => (by cases e), fun _ => ⟨_, rfl⟩⟩

theorem base_build_error (d : Base) {e : Err} (h : d.build = .error e) : e = .valueError := by
  cases d with
  | hull X q =>
    rw [hull_build_eq] at h
    split at h
    · cases h
    · cases h; rfl
  | _ => cases h

theorem mapM_build {ds : List Base} : (∀ Ps, ds.mapM Base.build = .ok Ps → List.Forall₂ (fun d P => d.build = .ok P) ds Ps) ∧
    ((∃ Ps, ds.mapM Base.build = .ok Ps) ↔ ∀ d ∈ ds, ∃ P, d.build = .ok P) ∧ ∀ e, ds.mapM Base.build = .error e → e = .valueError := by
  induction ds with
  | nil => exact ⟨fun Ps h => by cases h; exact .nil, ⟨fun _ => by simp, fun _ => ⟨[], rfl⟩⟩, fun e h => by cases h⟩
  | cons d ds ih =>
    obtain ⟨h1, h2, h3⟩ := ih
    rw [List.mapM_cons]
    cases hd : d.build with
    | error e =>
      refine ⟨fun Ps h => (by cases h), ⟨?_, fun h => ?_⟩, fun e' h => ?_⟩
      · rintro ⟨Ps, h⟩; cases h
      · obtain ⟨P, hP⟩ := h d (by simp)
        rw [hd] at hP; cases hP
      · cases h; exact base_build_error d hd
    | ok P =>
      cases hm : ds.mapM Base.build with
      | error e =>
        refine ⟨fun Ps h => (by cases h), ⟨?_, fun h => ?_⟩, fun e' h => ?_⟩
        · rintro ⟨Ps, h⟩; cases h
        · obtain ⟨Ps, hPs⟩ := h2.2 (fun d' hd' => h d' (by simp [hd']))
          rw [hm] at hPs; cases hPs
        · cases h; exact h3 _ hm
      | ok Ps =>
        refine ⟨fun Ps' h => by cases h; exact .cons hd (h1 _ hm), ⟨fun _ d' hd' => ?_, fun _ => ⟨_, rfl⟩⟩, fun e' h => by cases h⟩
        rcases List.mem_cons.1 hd' with rfl | hd'
        · exact ⟨P, hd⟩
        · exact h2.1 ⟨Ps, hm⟩ d' hd'

theorem tensor_build_eq (ds : List Base) : (Dom.tensor ds).build =
    (ds.mapM Base.build).map fun (Ps : List (Vec → Prop)) (x : Vec) => ∀ q ∈ (slicesFrom 0 ds x).zip Ps, q.2 q.1.2 := rfl

/-- C130: the constraints can be built unless a convex hull has not as many points as coordinates; then there is a ValueError. -/
theorem build_ok_iff (D : Dom) : (∃ P, D.build = .ok P) ↔ D.SquareHulls := by
  cases D with
  | base d =>
    rw [show (Dom.base d).build = d.build from rfl, base_build_ok_iff]
    simp [Dom.SquareHulls, Dom.factors]
  | tensor ds =>
    have : (∃ P, (Dom.tensor ds).build = .ok P) ↔ ∃ Ps, ds.mapM Base.build = .ok Ps := by
      rw [tensor_build_eq]
      generalize ds.mapM Base.build = r
      cases r with
      | error e => constructor <;> rintro ⟨P, h⟩ <;> cases h
      | ok Ps => exact ⟨fun _ => ⟨Ps, rfl⟩, fun _ => ⟨_, rfl⟩⟩
    rw [this, mapM_build.2.1]
    exact forall_congr' fun d => forall_congr' fun _ => base_build_ok_iff d

theorem build_error (D : Dom) (h : ¬ D.SquareHulls) : D.build = .error .valueError := by
  cases hb : D.build with
  | ok P => exact absurd ((build_ok_iff D).1 ⟨P, hb⟩) h
  | error e =>
    congr 1
    cases D with
    | base d => exact base_build_error d hb
    | tensor ds =>
      rw [tensor_build_eq] at hb
      cases hm : ds.mapM Base.build with
      | error e' =>
        rw [hm] at hb
        cases hb
        exact mapM_build.2.2 _ hm
      | ok Ps => rw [hm] at hb; cases hb

theorem base_build_iff {d : Base} (hd : d.WF) (hn : ∀ X q, d ≠ .hull X q) {P : Vec → Prop} (h : d.build = .ok P) {x : Vec} (hx : x.length = d.len) :
    P x ↔ d.Holds x := by
  have hH : d.Holds x ↔ d.acc.Holds x := ⟨fun h => h.2.1, fun h => ⟨hx, h, fun X q e => absurd e (hn X q)⟩⟩
  cases d with
  | hull X q => exact absurd rfl (hn X q)
  | unbounded n =>
    cases h
    rw [hH]
    refine ⟨fun _ => ⟨?_, ?_, by simp [Base.acc], by simp [Base.acc], by simp [Base.acc]⟩, fun _ => trivial⟩
    · intro i r xi h _
      simp only [Base.acc, List.getElem?_replicate] at h
      split at h <;> simp at h
    · intro i r xi h _
      simp only [Base.acc, List.getElem?_replicate] at h
      split at h <;> simp at h
  | linineq d =>
    cases h
    rw [hH]
    refine feas_iff_holds ?_ hx
    obtain ⟨hw, -⟩ := hd
    exact ⟨hw.lb_len, hw.ub_len, hw.lb_ok, hw.ub_ok, hw.A_w, hw.A_len, hw.Aeq_w, hw.Aeq_len, rfl, rfl, by simp [Base.acc], by simp [Base.acc], by simp [Base.acc]⟩
  | _ =>
    cases h
    rw [hH]
    exact feas_iff_holds hd hx

/-- C130: without convex hulls, the constraints hold exactly for the points of the domain. -/
theorem build_iff {D : Dom} (hD : D.WF) (hn : D.NoHull) {P : Vec → Prop} (h : D.build = .ok P) {x : Vec} (hx : x.length = D.len) :
    P x ↔ D.Holds x := by
  cases D with
  | base d => exact base_build_iff hD (fun X q => hn d (by simp [Dom.factors]) X q) h hx
  | tensor ds =>
    obtain ⟨xs, hp, rfl⟩ := pieces_exist ds x hx
    rw [holds_flatten_iff hp]
    rw [tensor_build_eq] at h
    cases hm : ds.mapM Base.build with
    | error e => rw [hm] at h; cases h
    | ok Ps =>
      rw [hm] at h
      cases h
      have hs := slicesFrom_eq ds xs [] hp
      simp only [List.length_nil, List.nil_append] at hs
      simp only [hs]
      have hf := mapM_build.1 _ hm
      have hw : ∀ d ∈ ds, d.WF := hD.2
      have hn' : ∀ d ∈ ds, ∀ X q, d ≠ .hull X q := hn
      clear hD hn hx hs hm
      induction hp generalizing Ps with
      | nil => simp
      | @cons d x ds xs hx _ ih =>
        cases hf with
        | @cons _ P _ Ps h1 h2 =>
          simp only [List.zip_cons_cons, List.forall_mem_cons, List.forall₂_cons]
          exact and_congr (base_build_iff (hw d (by simp)) (hn' d (by simp)) h1 hx)
            (ih Ps h2 (fun d hd => hw d (by simp [hd])) (fun d hd => hn' d (by simp [hd])))

/-- C130: a point that satisfies the constraints passes `isinside`, whatever the tolerance. -/
theorem build_isInside (nnls : NNLS) {D : Dom} (hD : D.WF) (hn : D.NoHull) {P : Vec → Prop} (h : D.build = .ok P) {x : Vec} (hx : x.length = D.len)
    (hP : P x) {tol : ℝ} (ht : 0 < tol) : D.isInside nnls tol x :=
  dom_holds_isInside nnls hn ((build_iff hD hn h hx).1 hP) ht

/-- C130: the constraints in the original and in the normalized coordinates describe the same points. -/
theorem build_norm_iff {D : Dom} (hD : D.WF) (hn : D.NoHull) (fb : CornerOracle) (ho : OracleLen fb) (hg : D.Scaled fb) {P : Vec → Prop}
    (h : D.build = .ok P) {x : Vec} (hx : x.length = D.len) : P x ↔ D.feasNorm fb (D.normalize fb x) := by
  rw [build_iff hD hn h hx, dom_feas_iff fb ho D hD hg x hx]

/-! ## Convex hulls -/

theorem comb_columns (X : List Vec) (al : Vec) (s : ℕ) (hX : ∀ r ∈ X, r.length = s + al.length) :
    comb X.length al ((List.range' s al.length).map (fun j => X.map (fun r => r.getD j 0))) = X.map (fun r => Vec.dot (r.drop s) al) := by
  induction al generalizing s with
  | nil =>
    simp only [List.length_nil, List.range'_zero, List.map_nil, comb]
    refine (List.eq_replicate_iff.2 ⟨by simp, fun b hb => ?_⟩).symm
    obtain ⟨r, -, rfl⟩ := List.mem_map.1 hb
    simp [Vec.dot]
  | cons a al ih =>
    rw [List.length_cons, List.range'_succ, List.map_cons, comb, ih (s + 1) (fun r hr => by rw [hX r hr, List.length_cons]; omega)]
    unfold Vec.add Vec.smul
    rw [List.map_map, List.zipWith_map]
    apply List.ext_getElem (by simp)
    intro i h1 h2
    simp only [List.length_map] at h2
    have hl := hX X[i] (List.getElem_mem h2)
    rw [List.length_cons] at hl
    have hlt : s < X[i].length := by omega
    simp only [List.getElem_zipWith, List.getElem_map, Function.comp_apply]
    rw [List.getD_eq_getElem?_getD, List.getElem?_eq_getElem hlt, List.drop_eq_getElem_cons hlt]
    simp only [Vec.dot, List.zipWith_cons_cons, List.sum_cons, Option.getD_some]
    rw [mul_comm a]

/-- C130: for a convex hull with as many points as coordinates, the constraints describe the hull of the columns of the matrix of points
instead of the rows. -/
theorem hull_build {X : List Vec} {q : LQ} (hd : (Base.hull X q).WF) (hs : X.length = q.n) {P : Vec → Prop} (h : (Base.hull X q).build = .ok P) {x : Vec}
    (hx : x.length = q.n) : P x ↔ InHull q.n (columns q.n X) x ∧ q.Holds x := by
  rw [hull_build_eq, if_pos hs] at h
  cases h
  beta_reduce
  rw [feas_iff_holds hd.1 hx]
  refine and_congr_left fun _ => ?_
  have hc : ∀ al : Vec, al.length = q.n → comb q.n al (columns q.n X) = X.map (fun r => Vec.dot r al) := by
    intro al hal
    have := comb_columns X al 0 (fun r hr => by rw [hd.2.2 r hr, hal, Nat.zero_add])
    rw [hs, hal] at this
    simpa [columns, List.range_eq_range'] using this
  have hl : (columns q.n X).length = q.n := by simp [columns]
  constructor
  · rintro ⟨al, h1, h2, h3, h4⟩
    exact ⟨al, by rw [hl, h1, hs], h3, h4, by rw [hc al (h1.trans hs), h2]⟩
  · rintro ⟨al, h1, h3, h4, h2⟩
    rw [hl] at h1
    exact ⟨al, h1.trans hs.symm, by rw [← h2, hc al h1], h3, h4⟩

/-- The only hulls treated correctly for this reason: those with a symmetric matrix of points. -/
theorem hull_build_symm_partial {X : List Vec} {q : LQ} (hd : (Base.hull X q).WF) (hs : X.length = q.n) (hsym : columns q.n X = X) {P : Vec → Prop}
    (h : (Base.hull X q).build = .ok P) {x : Vec} (hx : x.length = q.n) : P x ↔ (Base.hull X q).Holds x := by
  rw [hull_build hd hs h hx, hsym]
  constructor
  · rintro ⟨h1, h2⟩
    exact ⟨hx, h2, fun X' q' e => by cases e; exact h1⟩
  · rintro ⟨-, h2, h1⟩
    exact ⟨h1 X q rfl, h2⟩

/-- Bounds and constraints of a hull without other constraints. -/
def consFree (n : ℕ) : LQ := ⟨n, List.replicate n .ninf, List.replicate n .pinf, [], [], [], [], [], [], []⟩

theorem consFree_wf (n : ℕ) : (consFree n).WF := by
  refine ⟨by simp [consFree], by simp [consFree], ?_, ?_, by simp [consFree], by simp [consFree], by simp [consFree], by simp [consFree], by simp [consFree], by simp [consFree],
    by simp [consFree], by simp [consFree], by simp [consFree]⟩
  · intro v hv
    rw [(List.mem_replicate.1 hv).2]; trivial
  · intro v hv
    rw [(List.mem_replicate.1 hv).2]; trivial

theorem consFree_holds (n : ℕ) (x : Vec) : (consFree n).Holds x := by
  refine ⟨?_, ?_, by simp [consFree], by simp [consFree], by simp [consFree]⟩
  · intro i r xi h _
    simp only [consFree, List.getElem?_replicate] at h
    split at h <;> simp at h
  · intro i r xi h _
    simp only [consFree, List.getElem?_replicate] at h
    split at h <;> simp at h

/-- C130 is false for convex hulls: the constraints of the segment from `(0,0)` to `(1,0)` describe the segment from `(0,0)` to `(0,1)`; and the
constraints of a triangle in the plane can not be built. -/
theorem hull_build_false :
    (∃ P, (Dom.base (.hull [[0, 0], [1, 0]] (consFree 2))).build = .ok P ∧ P [0, 1] ∧ ¬ (Dom.base (.hull [[0, 0], [1, 0]] (consFree 2))).Holds [0, 1] ∧
      (Dom.base (.hull [[0, 0], [1, 0]] (consFree 2))).Holds [1, 0] ∧ ¬ P [1, 0]) ∧
    (Dom.base (.hull [[0, 0], [1, 0], [0, 1]] (consFree 2))).build = .error .valueError := by
  have hwf : (Base.hull [[0, 0], [1, 0]] (consFree 2)).WF := ⟨consFree_wf 2, by simp, by simp [consFree]⟩
  refine ⟨⟨_, rfl, ?_⟩, rfl⟩
  have hb : (Base.hull [[0, 0], [1, 0]] (consFree 2)).build = .ok fun x => hullTransposed [[0, 0], [1, 0]] x ∧ (consFree 2).feas x := rfl
  refine ⟨(hull_build hwf rfl hb (x := [0, 1]) rfl).2 ⟨⟨[1, 0], rfl, by simp, by simp, ?_⟩, consFree_holds _ _⟩, ?_, ⟨rfl, consFree_holds _ _, ?_⟩, ?_⟩
  · simp [comb, columns, consFree, Vec.add, Vec.smul, List.range_succ]
  · rintro ⟨-, -, h⟩
    obtain ⟨al, h1, -, -, h4⟩ := h _ _ rfl
    match al, h1 with
    | [a, b], _ => simp [comb, consFree, Vec.add, Vec.smul] at h4
  · intro X q e
    cases e
    exact ⟨[0, 1], rfl, by simp, by simp, by simp [comb, consFree, Vec.add, Vec.smul]⟩
  · rintro ⟨⟨al, h1, h2, -⟩, -⟩
    match al, h1 with
    | [a, b], _ => simp [Vec.dot] at h2

/-- A product of a box and a half line meets the hypotheses. -/
example : ∃ P, (Dom.tensor [.box [.fin 0, .fin 0] [.fin 1, .fin 1], .box [.fin 2] [.pinf]]).build = .ok P ∧ P [1, 0, 5] ∧ ¬ P [1, 0, 1] := by
  have hD : (Dom.tensor [.box [.fin 0, .fin 0] [.fin 1, .fin 1], .box [.fin 2] [.pinf]]).WF := by
    refine ⟨by simp, ?_⟩
    intro b hb
    simp only [List.mem_cons, List.not_mem_nil, or_false] at hb
    rcases hb with rfl | rfl
    all_goals exact ⟨rfl, rfl, by simp [Base.acc, XR.okLower], by simp [Base.acc, XR.okUpper], by simp [Base.acc], by simp [Base.acc], by simp [Base.acc],
      by simp [Base.acc], by simp [Base.acc], by simp [Base.acc], by simp [Base.acc], by simp [Base.acc], by simp [Base.acc]⟩
  have hn : (Dom.tensor [.box [.fin 0, .fin 0] [.fin 1, .fin 1], .box [.fin 2] [.pinf]]).NoHull := by
    intro d hd X q
    simp only [Dom.factors, List.mem_cons, List.not_mem_nil, or_false] at hd
    rcases hd with rfl | rfl <;> simp
  obtain ⟨P, hP⟩ := (build_ok_iff _).2 (fun d hd X q e => absurd e (hn d hd X q))
  refine ⟨P, hP, ?_, ?_⟩
  all_goals rw [tensor_build_eq] at hP; cases hP
  · simp [slicesFrom, Base.len, Base.acc, LQ.feas, Vec.mulVec]
    norm_num
  · simp [slicesFrom, Base.len, Base.acc, LQ.feas, Vec.mulVec]

end Verif.Domain
