import Verif.Domain.BoundaryModel
import Verif.Domain.HitRunProps
import Verif.Domain.SweepProps
import Verif.Domain.QueryProps
import Verif.Domain.ExtentProps

/-!
# Property C108: samples of the boundary
-/

namespace Verif.Domain

open Classical Verif

/-! ## Specification -/

/-- The point is in the domain, and arbitrarily close to it there are points that satisfy the equality constraints but are
not in the domain: it is on the boundary (relative to the affine set of the equality constraints). -/
def OnBoundary (D : Dom) (x : Vec) : Prop :=
  D.Holds x ∧ ∀ ε : ℝ, 0 < ε → ∃ y : Vec, y.length = D.len ∧ Vec.norm (Vec.sub y x) < ε ∧ ¬ D.Holds y ∧
    ∀ row ∈ D.acc.Aeq, Vec.dot row y = Vec.dot row x

/-! ## The loops -/

theorem randomDirection_ok {extent : Vec → Except Err XR} {Q ps : List Vec} {p : Vec} (h : randomDirection extent Q ps = some (.ok p)) :
    ∃ p0 ∈ ps, p = projOut Q p0 ∧ ∃ a, extent p = .ok a ∧ XR.lt (.fin 0) a := by
  induction ps with
  | nil => simp [randomDirection] at h
  | cons p1 ps ih =>
    simp only [randomDirection] at h
    split at h
    · simp at h
    · rename_i a ha
      split_ifs at h with hl
      · simp only [Option.some.injEq, Except.ok.injEq] at h
        exact ⟨p1, by simp, h.symm, a, h ▸ ha, hl⟩
      · obtain ⟨p0, h1, h2⟩ := ih h
        exact ⟨p0, by simp [h1], h2⟩

theorem directionLoop_ok {extent : Vec → Except Err XR} {Q : List Vec} {pss : List (List Vec)} {ds : List Vec}
    (h : directionLoop extent Q pss = some (.ok ds)) :
    List.Forall₂ (fun ps p => ∃ p0 ∈ ps, p = projOut Q p0 ∧ ∃ a, extent p = .ok a ∧ XR.lt (.fin 0) a) pss ds := by
  induction pss generalizing ds with
  | nil =>
    simp only [directionLoop, Option.some.injEq, Except.ok.injEq] at h
    subst h
    exact .nil
  | cons ps pss ih =>
    simp only [directionLoop] at h
    split at h
    · simp at h
    · simp at h
    · rename_i p hp
      split at h
      · simp at h
      · simp at h
      · rename_i ds' hd
        simp only [Option.some.injEq, Except.ok.injEq] at h
        subst h
        exact .cons (randomDirection_ok hp) (ih hd)

theorem cornersOf_ok {corner : Vec → Except Err (List XR)} {ds : List Vec} {X : List (List XR)} (h : cornersOf corner ds = .ok X) :
    List.Forall₂ (fun d x => corner d = .ok x) ds X := by
  induction ds generalizing X with
  | nil =>
    simp only [cornersOf, Except.ok.injEq] at h
    subst h
    exact .nil
  | cons d ds ih =>
    simp only [cornersOf] at h
    split at h
    · simp at h
    · rename_i x hx
      split at h
      · simp at h
      · rename_i X' hX
        simp only [Except.ok.injEq] at h
        subst h
        exact .cons hx (ih hX)

/-- What the samples are: corners in the projected directions that have a positive extent at the center. -/
theorem sampleBoundary_ok {nnls : NNLS} {TOL tol : ℝ} {he : HullExtent} {fb : CornerOracle} {Q : List Vec} {D : Dom} {S : Solver}
    {e : Option Bool} {pss : List (List Vec)} {X : List (List XR)}
    (h : D.sampleBoundary nnls TOL tol he fb Q S e pss = some (.ok X)) :
    X.length = pss.length ∧ ∀ x ∈ X, ∃ ps ∈ pss, ∃ p0 ∈ ps, D.anyCorner S TOL fb e (projOut Q p0) = .ok x ∧
      ∃ c, D.centerProp S = .ok c ∧ ∃ a, D.extent nnls TOL tol he c (projOut Q p0) = .ok a ∧ XR.lt (.fin 0) a := by
  cases pss with
  | nil =>
    simp only [Dom.sampleBoundary, Option.some.injEq, Except.ok.injEq] at h
    subst h
    simp
  | cons ps pss =>
    simp only [Dom.sampleBoundary] at h
    split at h
    · simp at h
    · rename_i c hc
      split at h
      · simp at h
      · simp at h
      · rename_i ds hd
        simp only [Option.some.injEq] at h
        have h1 := directionLoop_ok hd
        have h2 := cornersOf_ok h
        refine ⟨h2.length_eq.symm.trans h1.length_eq.symm, fun x hx => ?_⟩
        obtain ⟨i, hi, rfl⟩ := List.mem_iff_getElem.1 hx
        have hid : i < ds.length := h2.length_eq ▸ hi
        have hip : i < (ps :: pss).length := h1.length_eq ▸ hid
        have e2 := List.forall₂_iff_get.1 h2 |>.2 i hid hi
        obtain ⟨p0, g1, g2, a, g3, g4⟩ := List.forall₂_iff_get.1 h1 |>.2 i hip hid
        simp only [List.get_eq_getElem] at e2 g1 g2 g3
        exact ⟨_, List.getElem_mem hip, p0, g1, g2 ▸ e2, c, hc, a, g2 ▸ g3, g4⟩

/-! ## Maximality -/

/-- The corners are right: nonempty boxes with finite bounds, and the domains of C14 whose normalization is right. -/
def CornerCase (fb : CornerOracle) (e : Option Bool) (D : Dom) : Prop :=
  (∃ lb ub, D = .base (.box lb ub) ∧ (∀ v ∈ lb, ∃ r, v = .fin r) ∧ (∀ v ∈ ub, ∃ r, v = .fin r) ∧ ∃ y, D.Holds y) ∨
  ((∀ l u, D ≠ .base (.box l u)) ∧ D.Scaled fb ∧ FlagSound D e)

theorem anyCorner_max {S : Solver} (hS : ExactSolver S) {TOL : ℝ} {fb : CornerOracle} (ho : OracleLen fb) {e : Option Bool} {D : Dom}
    (hD : D.WF) (hc : CornerCase fb e D) {p : Vec} {x : List XR} (h : D.anyCorner S TOL fb e p = .ok x) :
    ∃ z, x = z.map XR.fin ∧ p.length = D.len ∧ D.Holds z ∧ ∀ y, D.Holds y → Vec.dot p y ≤ Vec.dot p z := by
  rcases hc with ⟨lb, ub, rfl, hl, hu, y0, hy0⟩ | ⟨hb, hg, he⟩
  · change boxCorner TOL false lb ub p = .ok x at h
    have hlen : ub.length = lb.length := hD.ub_len.trans hD.lb_len.symm
    have hpl : p.length = lb.length := by
      by_contra hne
      rw [boxCorner, if_pos hne] at h
      cases h
    have hx : x = boxCornerPoint false lb ub p := by
      rw [boxCorner, if_neg (by simpa using hpl)] at h
      split_ifs at h
      exact (Except.ok.inj h).symm
    have hfin : ∀ v ∈ x, ∃ r, v = XR.fin r := by
      intro v hv
      rw [hx, boxCornerPoint] at hv
      obtain ⟨i, hi, rfl⟩ := List.mem_iff_getElem.1 hv
      simp only [List.getElem_zipWith, List.getElem_zip, assignTo, Bool.false_eq_true, if_false]
      split
      · exact hu _ (List.getElem_mem _)
      · exact hl _ (List.getElem_mem _)
    have hz : x = (x.map XR.toReal).map XR.fin := by
      rw [List.map_map]
      conv_lhs => rw [← List.map_id x]
      refine List.map_congr_left fun v hv => ?_
      obtain ⟨r, rfl⟩ := hfin v hv
      rfl
    have hne : ∀ (i : ℕ) (l u : ℝ), lb[i]? = some (.fin l) → ub[i]? = some (.fin u) → l ≤ u := by
      intro i l u h1 h2
      have hi : i < y0.length := by
        rw [hy0.1]
        exact (List.getElem?_eq_some_iff.1 h1).1
      have hyi : y0[i]? = some y0[i] := List.getElem?_eq_getElem hi
      exact (hy0.2.1.lb i l _ h1 hyi).trans (hy0.2.1.ub i u _ h2 hyi)
    rw [hz] at h
    obtain ⟨⟨m1, m2, m3⟩, m4⟩ := box_corner_maximizes TOL lb ub hlen p hne _ h
    refine ⟨_, hz, hpl, ⟨m1, ⟨m2, m3, ?_, ?_, ?_⟩, by simp⟩, fun y hy => m4 y hy.1 hy.2.1.lb hy.2.1.ub⟩
    · intro i row bi h1; simp [Base.acc] at h1
    · intro i row bi h1; simp [Base.acc] at h1
    · intro i row y rho h1; simp [Base.acc] at h1
  · have hr := corner_reply_partial hS ho hD hg hb he p
    have hp : p.length = D.len := by
      by_contra hne
      have : (D.corner S fb e p).1 = .error .valueError := by
        unfold Dom.corner
        rw [if_pos hne]
      cases D with
      | base d =>
        cases d with
        | box l u => exact hb l u rfl
        | _ => simp [Dom.anyCorner, this] at h
      | tensor ds => simp [Dom.anyCorner, this] at h
    have hx : ∃ z, (D.corner S fb e p).1 = .ok z ∧ x = z.map XR.fin := by
      have key : (match (D.corner S fb e p).1 with | .error r => (.error r : Except Err (List XR)) | .ok x => .ok (x.map XR.fin)) = .ok x := by
        cases D with
        | base d =>
          cases d with
          | box l u => exact absurd rfl (hb l u)
          | _ => exact h
        | tensor ds => exact h
      split at key
      · simp at key
      · rename_i z hz
        simp only [Except.ok.injEq] at key
        exact ⟨z, hz, key.symm⟩
    obtain ⟨z, hz, rfl⟩ := hx
    rw [hz] at hr
    exact ⟨z, rfl, hp, hr⟩

/-! ## Distances -/

theorem sub_step (x p : Vec) (t : ℝ) (h : x.length = p.length) : Vec.sub (Vec.step x t p) x = Vec.smul t p := by
  unfold Vec.step
  induction x generalizing p with
  | nil => cases p with
    | nil => simp [Vec.sub, Vec.add, Vec.smul]
    | cons a p => simp at h
  | cons b x ih => cases p with
    | nil => simp at h
    | cons a p =>
      have := ih p (by simpa using h)
      simp only [Vec.sub, Vec.add, Vec.smul, List.map_cons, List.zipWith_cons_cons, List.cons.injEq] at this ⊢
      exact ⟨by ring, this⟩

theorem dot_self_pos_of {p : Vec} (h : ∃ v ∈ p, v ≠ 0) : 0 < Vec.dot p p := by
  induction p with
  | nil => simp at h
  | cons a p ih =>
    rw [Vec.dot_cons]
    have hn : 0 ≤ Vec.dot p p := by
      clear ih h
      induction p with
      | nil => simp [Vec.dot]
      | cons b p ih => rw [Vec.dot_cons]; exact add_nonneg (mul_self_nonneg b) ih
    obtain ⟨v, hv, h0⟩ := h
    rcases List.mem_cons.1 hv with rfl | hv
    · have : 0 < v * v := mul_self_pos.2 h0
      linarith
    · have := ih ⟨v, hv, h0⟩
      nlinarith [mul_self_nonneg a]

theorem onBoundary_of_max {D : Dom} {p z : Vec} (hp : p.length = D.len) (hne : ∃ v ∈ p, v ≠ 0) (hz : D.Holds z) (hzl : z.length = D.len)
    (hmax : ∀ y, D.Holds y → Vec.dot p y ≤ Vec.dot p z) (heq : ∀ row ∈ D.acc.Aeq, Vec.dot row p = 0) : OnBoundary D z := by
  refine ⟨hz, fun ε hε => ?_⟩
  have hl : z.length = p.length := hzl.trans hp.symm
  set t := ε / (Vec.norm p + 1) with ht
  have hn := Vec.norm_nonneg p
  have ht0 : 0 < t := div_pos hε (by linarith)
  have htn : t * (Vec.norm p + 1) = ε := div_mul_cancel₀ _ (by linarith)
  refine ⟨Vec.step z t p, ?_, ?_, fun hh => ?_, fun row hr => ?_⟩
  · simp [Vec.step, Vec.add, Vec.smul, hzl, hp]
  · rw [sub_step _ _ _ hl, norm_smul_vec, abs_of_pos ht0]
    linarith
  · have h1 := hmax _ hh
    rw [Vec.dot_step _ _ _ _ hl] at h1
    have := mul_pos ht0 (dot_self_pos_of hne)
    linarith
  · rw [Vec.dot_step _ _ _ _ hl, heq row hr, mul_zero, add_zero]

/-! ## The property -/

/-- **C108, partial.** The samples are as many as asked for, they are points of the domain, they are on its boundary, and each
maximizes a direction that the equality constraints allow. Missing: the whole boundary is not reached (`boundary_edge_false`),
a domain with one point is never left (`boundary_point_false`), and only domains of linear inequalities have a center
(`boundary_center_false`). -/
theorem boundary_samples_partial {nnls : NNLS} {TOL tol : ℝ} {he : HullExtent} {fb : CornerOracle} (ho : OracleLen fb) {Q : List Vec} {D : Dom}
    (hD : D.WF) (hQ : EqBasis D.len D.acc.Aeq Q) {S : Solver} (hS : ExactSolver S) {e : Option Bool} (hc : CornerCase fb e D)
    {pss : List (List Vec)} (hps : ∀ ps ∈ pss, ∀ p ∈ ps, p.length = D.len ∧ ∃ v ∈ projOut Q p, v ≠ 0) {X : List (List XR)}
    (h : D.sampleBoundary nnls TOL tol he fb Q S e pss = some (.ok X)) :
    X.length = pss.length ∧ ∀ x ∈ X, ∃ z : Vec, x = z.map XR.fin ∧ OnBoundary D z ∧
      ∃ ps ∈ pss, ∃ p0 ∈ ps, ∀ y, D.Holds y → Vec.dot (projOut Q p0) y ≤ Vec.dot (projOut Q p0) z := by
  obtain ⟨h1, h2⟩ := sampleBoundary_ok h
  refine ⟨h1, fun x hx => ?_⟩
  obtain ⟨ps, a1, p0, a2, a3, -⟩ := h2 x hx
  obtain ⟨b1, b2⟩ := hps ps a1 p0 a2
  obtain ⟨z, rfl, c2, c3, c4⟩ := anyCorner_max hS ho hD hc a3
  refine ⟨z, rfl, onBoundary_of_max c2 b2 c3 (holds_length c3) c4 (dot_row_projOut hQ b1), ps, a1, p0, a2, c4⟩

/-- **C108**: a sample is farther along its direction than the center, where the direction has room (no active inequality, see C08). -/
theorem boundary_proper {nnls : NNLS} {TOL tol : ℝ} (htol : 0 < tol) {he : HullExtent} (hh : HullExtentExact he) {fb : CornerOracle} (ho : OracleLen fb)
    {Q : List Vec} {D : Dom} (hD : D.WF) (hQ : EqBasis D.len D.acc.Aeq Q) {S : Solver} (hS : ExactSolver S) {e : Option Bool}
    (hc : CornerCase fb e D) (hne : ∃ y, D.Holds y)
    {pss : List (List Vec)} (hps : ∀ ps ∈ pss, ∀ p ∈ ps, p.length = D.len ∧ ∃ v ∈ projOut Q p, v ≠ 0)
    (hsafe : ∀ c, D.centerProp S = .ok c → ∀ ps ∈ pss, ∀ p ∈ ps, D.AllFactors SweepSafe c (projOut Q p)) {X : List (List XR)}
    (h : D.sampleBoundary nnls TOL tol he fb Q S e pss = some (.ok X)) :
    ∀ x ∈ X, ∃ z c : Vec, x = z.map XR.fin ∧ D.Holds c ∧ ∃ ps ∈ pss, ∃ p0 ∈ ps, Vec.dot (projOut Q p0) c < Vec.dot (projOut Q p0) z := by
  obtain ⟨-, h2⟩ := sampleBoundary_ok h
  intro x hx
  obtain ⟨ps, a1, p0, a2, a3, c, hcc, a, ha, hapos⟩ := h2 x hx
  obtain ⟨b1, b2⟩ := hps ps a1 p0 a2
  obtain ⟨z, rfl, c2, c3, c4⟩ := anyCorner_max hS ho hD hc a3
  have hch := centerProp_holds hS hD hcc hne
  have hl : c.length = (projOut Q p0).length := (holds_length hch).trans c2.symm
  obtain ⟨t, ht0, hta⟩ : ∃ t : ℝ, 0 < t ∧ XR.le (.fin t) a := by
    cases a with
    | fin r => exact ⟨r, hapos, .inr rfl⟩
    | pinf => exact ⟨1, one_pos, .inl trivial⟩
    | ninf => exact absurd hapos (by simp [XR.lt])
    | nan => exact absurd hapos (by simp [XR.lt])
  have hstep := extent_sound_partial nnls htol hh D hD c _ c2 hch a ha (dom_stepSafe hD hQ b1 (hsafe c hcc ps a1 p0 a2)).1 t ht0.le hta
  have h3 := c4 _ hstep
  rw [Vec.dot_step _ _ _ _ hl] at h3
  have := mul_pos ht0 (dot_self_pos_of b2)
  exact ⟨z, c, rfl, hch, ps, a1, p0, a2, by linarith⟩

/-- **C108**: a box only returns vertices. -/
theorem boundary_box_vertex {nnls : NNLS} {TOL tol : ℝ} {he : HullExtent} {fb : CornerOracle} {Q : List Vec} {lb ub : List XR} {S : Solver}
    {e : Option Bool} {pss : List (List Vec)} {X : List (List XR)}
    (h : (Dom.base (.box lb ub)).sampleBoundary nnls TOL tol he fb Q S e pss = some (.ok X)) :
    ∀ x ∈ X, ∀ (i : ℕ) (v : XR), x[i]? = some v → lb[i]? = some v ∨ ub[i]? = some v := by
  obtain ⟨-, h2⟩ := sampleBoundary_ok h
  intro x hx i v hv
  obtain ⟨ps, a1, p0, a2, a3, -⟩ := h2 x hx
  change boxCorner TOL false lb ub (projOut Q p0) = .ok x at a3
  unfold boxCorner at a3
  split_ifs at a3
  simp only [Except.ok.injEq] at a3
  subst a3
  obtain ⟨hi, rfl⟩ := List.getElem?_eq_some_iff.1 hv
  have hi' := hi
  simp only [boxCornerPoint, List.length_zipWith, List.length_zip, lt_min_iff] at hi'
  simp only [boxCornerPoint, List.getElem_zipWith, List.getElem_zip, assignTo, Bool.false_eq_true, if_false]
  split
  · exact .inr (List.getElem?_eq_getElem hi'.1.2)
  · exact .inl (List.getElem?_eq_getElem hi'.1.1)

/-- The unit square. -/
def unitSquare : Dom := .base (.box [.fin 0, .fin 0] [.fin 1, .fin 1])

theorem unitSquare_wf : unitSquare.WF := by
  refine ⟨rfl, rfl, ?_, ?_, ?_, rfl, ?_, rfl, rfl, rfl, ?_, ?_, ?_⟩ <;>
    simp [Base.acc, XR.okLower, XR.okUpper]

theorem unitSquare_iff (a b : ℝ) : unitSquare.Holds [a, b] ↔ (0 ≤ a ∧ a ≤ 1) ∧ 0 ≤ b ∧ b ≤ 1 := by
  constructor
  · rintro ⟨-, h, -⟩
    exact ⟨⟨h.lb 0 0 a rfl rfl, h.ub 0 1 a rfl rfl⟩, h.lb 1 0 b rfl rfl, h.ub 1 1 b rfl rfl⟩
  · rintro ⟨⟨h1, h2⟩, h3, h4⟩
    refine ⟨rfl, ⟨?_, ?_, ?_, ?_, ?_⟩, by simp⟩
    · intro i r xi e1 e2
      rcases i with _ | _ | i <;> simp [Base.acc] at e1 e2
      · subst e1 e2; exact h1
      · subst e1 e2; exact h3
    · intro i r xi e1 e2
      rcases i with _ | _ | i <;> simp [Base.acc] at e1 e2
      · subst e1 e2; exact h2
      · subst e1 e2; exact h4
    · intro i row bi e1; simp [Base.acc] at e1
    · intro i row bi e1; simp [Base.acc] at e1
    · intro i L y rho e1; simp [Base.acc] at e1

/-- **C108** fails for the reach of the samples: the middle of an edge of the unit square is on the boundary, but no random
choice returns a point within distance `1/2` of it in the first coordinate. -/
theorem boundary_edge_false (nnls : NNLS) (TOL tol : ℝ) (he : HullExtent) (fb : CornerOracle) (Q : List Vec) (S : Solver) (e : Option Bool) :
    OnBoundary unitSquare [1 / 2, 0] ∧ ∀ pss X, unitSquare.sampleBoundary nnls TOL tol he fb Q S e pss = some (.ok X) →
      ∀ x ∈ X, ∀ a, x[0]? = some (XR.fin a) → ¬ |a - 1 / 2| < 1 / 2 := by
  constructor
  · refine onBoundary_of_max (p := [0, -1]) rfl ⟨-1, by simp, by norm_num⟩ ?_ rfl ?_ ?_
    · rw [unitSquare_iff]; norm_num
    · intro y hy
      have hyl : y.length = 2 := hy.1
      obtain ⟨a, b, rfl⟩ : ∃ a b, y = [a, b] := List.length_eq_two.1 hyl
      have := (unitSquare_iff a b).1 hy
      simp [Vec.dot]
      linarith [this.2.1]
    · intro row hr
      simp [unitSquare, Dom.acc, Base.acc] at hr
  · intro pss X h x hx a ha
    have := boundary_box_vertex h x hx 0 _ ha
    simp only [List.getElem?_cons_zero, Option.some.injEq, XR.fin.injEq] at this
    rcases this with rfl | rfl <;> norm_num

/-- **C108** fails for a domain with one point: the search for a direction never ends. -/
theorem boundary_point_false (nnls : NNLS) {TOL : ℝ} (ht : 0 < TOL) (tol : ℝ) (he : HullExtent) (fb : CornerOracle) (Q : List Vec) {S : Solver}
    (hS : ExactSolver S) (e : Option Bool) (x : Vec) (ps : List Vec) (pss : List (List Vec)) {c : Vec} (hc : (Dom.base (.point x)).centerProp S = .ok c)
    (hwf : (Dom.base (.point x)).WF) :
    (Dom.base (.point x)).sampleBoundary nnls TOL tol he fb Q S e (ps :: pss) = none := by
  have hch := centerProp_holds hS hwf hc ⟨x, (point_holds_iff x x).2 rfl⟩
  have hin : (Dom.base (.point x)).isInside nnls TOL c := dom_holds_isInside nnls (by
    intro d hd X q
    simp only [Dom.factors, List.mem_singleton] at hd
    subst hd
    simp) hch ht
  have hext : ∀ p, (Dom.base (.point x)).extent nnls TOL tol he c p = .ok (.fin 0) := by
    intro p
    rw [extent_eq_raw nnls he p hin]
    rfl
  have hloop : ∀ ps : List Vec, randomDirection (fun p => (Dom.base (.point x)).extent nnls TOL tol he c p) Q ps = none := by
    intro ps
    induction ps with
    | nil => rfl
    | cons p ps ih =>
      rw [randomDirection]
      simp only [hext (projOut Q p)]
      rw [if_neg (by simp [XR.lt]), ih]
  simp only [Dom.sampleBoundary, hc, directionLoop, hloop]

/-- **C108** fails for quadratic constraints, hulls, products, normal domains and the whole space: they have no center. -/
theorem boundary_center_false (nnls : NNLS) (TOL tol : ℝ) (he : HullExtent) (fb : CornerOracle) (Q : List Vec) (S : Solver) (e : Option Bool)
    (D : Dom) (hD : (∀ q, D ≠ .base (.linineq q)) ∧ (∀ l u, D ≠ .base (.box l u)) ∧ ∀ x, D ≠ .base (.point x)) (ps : List Vec) (pss : List (List Vec)) :
    D.sampleBoundary nnls TOL tol he fb Q S e (ps :: pss) = some (.error .attributeError) := by
  have : D.centerProp S = .error .attributeError := by
    obtain ⟨h1, h2, h3⟩ := hD
    cases D with
    | tensor ds => rfl
    | base d =>
      cases d with
      | linineq q => exact absurd rfl (h1 q)
      | box l u => exact absurd rfl (h2 l u)
      | point x => exact absurd rfl (h3 x)
      | _ => rfl
  simp only [Dom.sampleBoundary, this]

/-- **C108**: nothing is computed for no draws. -/
theorem boundary_none (nnls : NNLS) (TOL tol : ℝ) (he : HullExtent) (fb : CornerOracle) (Q : List Vec) (S : Solver) (e : Option Bool) (D : Dom) :
    D.sampleBoundary nnls TOL tol he fb Q S e [] = some (.ok []) := rfl

/-! ## The hypotheses are met -/

/-- The unit interval. -/
def unitInterval' : Dom := .base (.box [.fin 0] [.fin 1])

theorem unitInterval'_wf : unitInterval'.WF := by
  refine ⟨rfl, rfl, ?_, ?_, ?_, rfl, ?_, rfl, rfl, rfl, ?_, ?_, ?_⟩ <;>
    simp [Base.acc, XR.okLower, XR.okUpper]

theorem unitInterval'_iff (a : ℝ) : unitInterval'.Holds [a] ↔ 0 ≤ a ∧ a ≤ 1 := by
  constructor
  · rintro ⟨-, h, -⟩
    exact ⟨h.lb 0 0 a rfl rfl, h.ub 0 1 a rfl rfl⟩
  · rintro ⟨h1, h2⟩
    refine ⟨rfl, ⟨?_, ?_, ?_, ?_, ?_⟩, by simp⟩
    · intro i r xi e1 e2
      rcases i with _ | i <;> simp [Base.acc] at e1 e2
      subst e1 e2; exact h1
    · intro i r xi e1 e2
      rcases i with _ | i <;> simp [Base.acc] at e1 e2
      subst e1 e2; exact h2
    · intro i row bi e1; simp [Base.acc] at e1
    · intro i row bi e1; simp [Base.acc] at e1
    · intro i L y rho e1; simp [Base.acc] at e1

theorem unitInterval'_cheb (x r : ℝ) : chebFeas (Base.box [.fin 0] [.fin 1]).acc [x, r] ↔ r ≤ x ∧ x + r ≤ 1 := by
  have e1 : Vec.norm [(1 : ℝ)] = 1 := by simp [Vec.norm, Vec.sumSq]
  have e2 : Vec.norm [(-1 : ℝ)] = 1 := by simp [Vec.norm, Vec.sumSq]
  simp [chebFeas, augRows, Base.acc, eyeRows, XR.isFinite, XR.toReal, Vec.smul, Vec.dot, e1, e2]

/-- The boundary of the unit interval, sampled with the directions `1` and `-1`, consists of its ends. -/
example : ∃ (S : Solver) (nnls : NNLS) (he : HullExtent) (fb : CornerOracle), ExactSolver S ∧ OracleLen fb ∧ unitInterval'.WF ∧
    EqBasis unitInterval'.len unitInterval'.acc.Aeq [] ∧ CornerCase fb none unitInterval' ∧
    unitInterval'.sampleBoundary nnls 1 1 he fb [] S none [[[1]], [[-1]]] = some (.ok [[.fin 1], [.fin 0]]) := by
  obtain ⟨S, hS⟩ := completeSolver_exists
  obtain ⟨fb, ho⟩ : ∃ fb : CornerOracle, OracleLen fb :=
    ⟨fun d => (List.replicate d.len (.fin 0), List.replicate d.len (.fin 0)), fun d => by simp⟩
  refine ⟨S, fun _ _ => [], fun _ _ _ _ => .pinf, fb, hS.toExactSolver, ho, unitInterval'_wf, ⟨by simp, by simp, by simp [unitInterval', Dom.acc, Base.acc]⟩,
    .inl ⟨_, _, rfl, by simp, by simp, [0], (unitInterval'_iff 0).2 ⟨le_rfl, by norm_num⟩⟩, ?_⟩
  -- the center is `1/2`
  have hfind : ∃ w, S 2 (chebFeas (Base.box [.fin 0] [.fin 1]).acc) (fun z => -(z.getD 1 0)) = .optimal w := by
    refine hS.finds_optimal _ _ _ [1 / 2, 1 / 2] ⟨rfl, (unitInterval'_cheb _ _).2 (by norm_num), fun w hw hf => ?_⟩
    obtain ⟨a, b, rfl⟩ := List.length_eq_two.1 hw
    have := (unitInterval'_cheb a b).1 hf
    simp
    linarith [this.1, this.2]
  obtain ⟨w, hw⟩ := hfind
  obtain ⟨wl, wf, wm⟩ := hS.optimal _ _ _ _ hw
  obtain ⟨x, r, rfl⟩ := List.length_eq_two.1 wl
  have hxr := (unitInterval'_cheb x r).1 wf
  have hr := wm [1 / 2, 1 / 2] rfl ((unitInterval'_cheb _ _).2 (by norm_num))
  simp at hr
  have hx : x = 1 / 2 := by linarith [hxr.1, hxr.2]
  have hc : unitInterval'.centerProp S = .ok [1 / 2] := by
    change chebLQ S (Base.box [.fin 0] [.fin 1]).acc = _
    unfold chebLQ
    split
    · rename_i z hz
      have := hw.symm.trans hz
      cases this
      simp [hx, Base.acc]
    · rename_i hz
      exact absurd (hw.symm.trans hz) (by simp)
    · rename_i hz1 hz2
      exact absurd hw (hz1 _)
  have hin : unitInterval'.isInside (fun _ _ => []) 1 [1 / 2] := dom_holds_isInside _ (by
    intro d hd X q
    simp only [unitInterval', Dom.factors, List.mem_singleton] at hd
    subst hd
    simp) ((unitInterval'_iff _).2 (by norm_num)) one_pos
  have hproj : ∀ a : ℝ, projOut [] [a] = [a] := by
    intro a
    simp [projOut, comb, Vec.sub, Vec.mulVec]
  have hext : ∀ a : ℝ, ∀ v, extentBounds [.fin 0] [.fin 1] [1 / 2] [a] = v → unitInterval'.extent (fun _ _ => []) 1 1 (fun _ _ _ _ => .pinf) [1 / 2] [a] = .ok v := by
    intro a v hv
    rw [extent_eq_raw _ _ _ hin, ← hv]
    rfl
  have h1 := hext 1 (.fin (1 / 2)) (by
    norm_num [extentBounds, boundQuotients, posMin, XR.eq, XR.sub, XR.divNZ, XR.lt, XR.pyMin, List.filter_cons])
  have h2 := hext (-1) (.fin (1 / 2)) (by
    norm_num [extentBounds, boundQuotients, posMin, XR.eq, XR.sub, XR.divNZ, XR.lt, XR.pyMin, List.filter_cons])
  simp only [Dom.sampleBoundary, hc, directionLoop, randomDirection, hproj, h1, h2]
  have hlt : XR.lt (.fin 0) (.fin (1 / 2)) := by simp [XR.lt]
  simp only [if_pos hlt, Option.some.injEq]
  have hb1 : boxCornerPoint false [.fin 0] [.fin 1] [1] = [.fin 1] := by simp [boxCornerPoint, assignTo]
  have hb2 : boxCornerPoint false [.fin 0] [.fin 1] [-1] = [.fin 0] := by
    have : ¬ (1 : ℝ) ≤ 0 := by norm_num
    simp [boxCornerPoint, this]
  have c1 : unitInterval'.anyCorner S 1 fb none [1] = .ok [.fin 1] := by
    change boxCorner 1 false [.fin 0] [.fin 1] [1] = _
    unfold boxCorner
    rw [hb1]
    norm_num [inBoundsX, XR.le, XR.lt, XR.eq]
  have c2 : unitInterval'.anyCorner S 1 fb none [-1] = .ok [.fin 0] := by
    change boxCorner 1 false [.fin 0] [.fin 1] [-1] = _
    unfold boxCorner
    rw [hb2]
    norm_num [inBoundsX, XR.le, XR.lt, XR.eq]
  simp only [cornersOf, c1, c2]

end Verif.Domain
