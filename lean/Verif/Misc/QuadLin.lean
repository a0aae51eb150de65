import Verif.Misc.QuadProps
import Verif.Domain.Exact

/-!
# C106 for linear-quadratic domains, and where it fails

Source: `/repo/psdr/domains/euclidean.py` 686-799 for domains with bounds, linear inequalities and quadratic constraints.
-/

namespace Verif.Misc

open Classical Verif.Lip Verif.Domain MeasureTheory Filter Topology

/-- A bounded linear-quadratic domain without equality constraints, with normalization box `[l, h]`. -/
noncomputable def linQ (nnls : NNLS) (TOL : ℝ) (d : LQ) (lo hi : Vec) (sample : ℕ → Except Err (List Vec)) (vol : ℝ) : QDom where
  lo := lo
  hi := hi
  inside := fun x => (Dom.base (.linquad d)).isInside nnls TOL x
  sample := sample
  vol := vol
  isPoint := false
  isUnbounded := false
  hasEq := decide (0 < d.Aeq.length)
  truncNormal := false

variable {m : ℕ}

theorem mem_linQ {nnls : NNLS} {TOL : ℝ} {d : LQ} (hn : d.n = m) {lo hi sample vol} {x : Fin m → ℝ} :
    x ∈ (linQ nnls TOL d lo hi sample vol).region m ↔ d.inAll TOL (List.ofFn x) := by
  change (_ ∧ _) ↔ _
  simp only [Dom.len, Base.len, Base.acc, List.length_ofFn, hn, true_and]
  rfl

/-! ### Continuity of the constraints -/

theorem continuous_dot (a : Vec) : Continuous fun x : Fin m → ℝ => Vec.dot a (List.ofFn x) := by
  induction m generalizing a with
  | zero => simp only [List.ofFn_zero, Vec.dot_nil_right]; exact continuous_const
  | succ m ih =>
    cases a with
    | nil => simp only [Vec.dot_nil_left]; exact continuous_const
    | cons a as =>
      simp only [List.ofFn_succ, Vec.dot_cons]
      have h := (ih as).comp (f := fun x : Fin (m + 1) → ℝ => fun i : Fin m => x i.succ) (by fun_prop)
      exact ((continuous_const.mul (continuous_apply 0)).add h)

theorem continuous_quad (L : List Vec) (y : Vec) (hy : y.length = m) :
    Continuous fun x : Fin m → ℝ => Vec.norm (Vec.mulVec L (Vec.sub (List.ofFn x) y)) := by
  have h : ∀ r, Continuous fun x : Fin m → ℝ => Vec.dot r (Vec.sub (List.ofFn x) y) := by
    intro r
    have e : (fun x : Fin m → ℝ => Vec.dot r (Vec.sub (List.ofFn x) y)) = fun x => Vec.dot r (List.ofFn x) - Vec.dot r y := by
      funext x
      exact Vec.dot_sub_right _ _ _ (by simp [hy])
    rw [e]
    exact (continuous_dot r).sub continuous_const
  unfold Vec.norm
  refine Real.continuous_sqrt.comp ?_
  unfold Vec.sumSq Vec.mulVec
  simp only [List.map_map]
  induction L with
  | nil => simpa using continuous_const
  | cons r L ih =>
    simp only [List.map_cons, List.sum_cons, Function.comp]
    exact ((h r).pow 2).add ih

theorem getElem?_ofFn_some {x : Fin m → ℝ} {i : ℕ} {v : ℝ} (h : (List.ofFn x)[i]? = some v) : ∃ hi : i < m, v = x ⟨i, hi⟩ := by
  obtain ⟨b, rfl⟩ := List.getElem?_eq_some_iff.1 h
  exact ⟨by simpa using b, by simp⟩

/-- The points of a domain without equality constraints form a closed set. -/
theorem inAll_closed {d : LQ} (hd : d.WF) (hn : d.n = m) (hE : d.Aeq = []) (TOL : ℝ) :
    IsClosed {x : Fin m → ℝ | d.inAll TOL (List.ofFn x)} := by
  simp only [LQ.inAll, inBounds_iff, inIneq_iff, inQuad_iff, inEq_iff, hE]
  have c1 : IsClosed {x : Fin m → ℝ | ∀ (i : ℕ) (r xi : ℝ), d.lb[i]? = some (XR.fin r) → (List.ofFn x)[i]? = some xi → r - TOL ≤ xi} := by
    have e : {x : Fin m → ℝ | ∀ (i : ℕ) (r xi : ℝ), d.lb[i]? = some (XR.fin r) → (List.ofFn x)[i]? = some xi → r - TOL ≤ xi} =
        ⋂ (i : Fin m) (r : ℝ) (_ : d.lb[(i : ℕ)]? = some (XR.fin r)), {x | r - TOL ≤ x i} := by
      ext x
      simp only [Set.mem_setOf_eq, Set.mem_iInter]
      constructor
      · intro h i r hr
        exact h i r _ hr (by simp)
      · intro h i r xi hr hx
        obtain ⟨hi, rfl⟩ := getElem?_ofFn_some hx
        exact h ⟨i, hi⟩ r hr
    rw [e]
    exact isClosed_iInter fun i => isClosed_iInter fun r => isClosed_iInter fun _ => isClosed_le continuous_const (continuous_apply i)
  have c2 : IsClosed {x : Fin m → ℝ | ∀ (i : ℕ) (r xi : ℝ), d.ub[i]? = some (XR.fin r) → (List.ofFn x)[i]? = some xi → xi ≤ r + TOL} := by
    have e : {x : Fin m → ℝ | ∀ (i : ℕ) (r xi : ℝ), d.ub[i]? = some (XR.fin r) → (List.ofFn x)[i]? = some xi → xi ≤ r + TOL} =
        ⋂ (i : Fin m) (r : ℝ) (_ : d.ub[(i : ℕ)]? = some (XR.fin r)), {x | x i ≤ r + TOL} := by
      ext x
      simp only [Set.mem_setOf_eq, Set.mem_iInter]
      constructor
      · intro h i r hr
        exact h i r _ hr (by simp)
      · intro h i r xi hr hx
        obtain ⟨hi, rfl⟩ := getElem?_ofFn_some hx
        exact h ⟨i, hi⟩ r hr
    rw [e]
    exact isClosed_iInter fun i => isClosed_iInter fun r => isClosed_iInter fun _ => isClosed_le (continuous_apply i) continuous_const
  have c3 : IsClosed {x : Fin m → ℝ | ∀ (i : ℕ) (row : Vec) (bi : ℝ), d.A[i]? = some row → d.b[i]? = some bi →
      Vec.dot row (List.ofFn x) ≤ bi + TOL} := by
    simp only [Set.setOf_forall]
    exact isClosed_iInter fun i => isClosed_iInter fun row => isClosed_iInter fun bi => isClosed_iInter fun _ =>
      isClosed_iInter fun _ => isClosed_le (continuous_dot row) continuous_const
  have c4 : IsClosed {x : Fin m → ℝ | ∀ (i : ℕ) (L : List Vec) (y : Vec) (rho : ℝ), d.Ls[i]? = some L → d.ys[i]? = some y →
      d.rhos[i]? = some rho → Vec.norm (Vec.mulVec L (Vec.sub (List.ofFn x) y)) ≤ rho + TOL} := by
    simp only [Set.setOf_forall]
    refine isClosed_iInter fun i => isClosed_iInter fun L => isClosed_iInter fun y => isClosed_iInter fun rho =>
      isClosed_iInter fun _ => isClosed_iInter fun hy => isClosed_iInter fun _ => ?_
    exact isClosed_le (continuous_quad L y (by rw [hd.ys_w y (List.mem_of_getElem? hy), hn])) continuous_const
  have := (c1.inter c2).inter (c3.inter c4)
  convert this using 1
  ext x
  simp only [Set.mem_setOf_eq, Set.mem_inter_iff]
  simp

theorem ofFn_lerp (t : ℝ) (x y : Fin m → ℝ) : List.ofFn (fun i => (1 - t) * x i + t * y i) = Vec.lerp t (List.ofFn x) (List.ofFn y) := by
  apply List.ext_getElem <;> simp [Vec.lerp, Vec.add, Vec.smul]

/-- The points of a domain form a convex set. -/
theorem inAll_convex {d : LQ} {TOL t : ℝ} {x y : Vec} (hl : x.length = y.length) (hx : d.inAll TOL x) (hy : d.inAll TOL y)
    (h0 : 0 ≤ t) (h1 : t ≤ 1) : d.inAll TOL (Vec.lerp t x y) := by
  have h1t : 0 ≤ 1 - t := by linarith
  simp only [LQ.inAll, inBounds_iff, inIneq_iff, inQuad_iff, inEq_iff] at hx hy ⊢
  obtain ⟨⟨xl, xu⟩, xi, xe, xq⟩ := hx
  obtain ⟨⟨yl, yu⟩, yi, ye, yq⟩ := hy
  refine ⟨⟨?_, ?_⟩, ?_, ?_, ?_⟩
  · intro i r z hr hz
    obtain ⟨a, b, ha, hb, rfl⟩ := Vec.getElem?_lerp _ _ _ _ _ hz
    nlinarith [xl i r a hr ha, yl i r b hr hb]
  · intro i r z hr hz
    obtain ⟨a, b, ha, hb, rfl⟩ := Vec.getElem?_lerp _ _ _ _ _ hz
    nlinarith [xu i r a hr ha, yu i r b hr hb]
  · intro i row bi hr hb
    rw [Vec.dot_lerp _ _ _ _ hl]
    nlinarith [xi i row bi hr hb, yi i row bi hr hb]
  · intro i row bi hr hb
    rw [Vec.dot_lerp _ _ _ _ hl]
    have a := abs_lt.1 (xe i row bi hr hb)
    have b := abs_lt.1 (ye i row bi hr hb)
    rw [abs_lt]
    rcases h0.eq_or_lt with rfl | h0'
    · constructor <;> linarith
    · constructor <;> nlinarith
  · intro i L c rho hL hc hr
    have a := xq i L c rho hL hc hr
    have b := yq i L c rho hL hc hr
    rw [Vec.lerp_sub, Vec.mulVec_lerp _ _ _ _ (by simp [Vec.length_sub, hl])]
    refine (Vec.norm_lerp_le t h0 h1 _ _ (by simp)).trans ?_
    nlinarith

theorem inAll_convexSet (d : LQ) (TOL : ℝ) : Convex ℝ {x : Fin m → ℝ | d.inAll TOL (List.ofFn x)} := by
  intro x hx y hy a b ha hb hab
  have e : a • x + b • y = fun i => (1 - b) * x i + b * y i := by
    funext i
    simp only [Pi.add_apply, Pi.smul_apply, smul_eq_mul]
    rw [show a = 1 - b by linarith]
  change d.inAll TOL (List.ofFn (a • x + b • y))
  rw [e, ofFn_lerp]
  exact inAll_convex (by simp) hx hy hb (by linarith)

/-- Around a point that meets all constraints exactly, all points meet them up to a positive tolerance. -/
theorem inAll_nhds {d : LQ} (hd : d.WF) (hn : d.n = m) (hE : d.Aeq = []) {TOL : ℝ} (hT : 0 < TOL) {x0 : Fin m → ℝ}
    (hx : d.Holds (List.ofFn x0)) : ∀ᶠ x in 𝓝 x0, d.inAll TOL (List.ofFn x) := by
  simp only [LQ.inAll, inBounds_iff, inIneq_iff, inQuad_iff, inEq_iff, hE]
  have c1 : ∀ᶠ x in 𝓝 x0, ∀ i : Fin m, |x i - x0 i| < TOL := by
    rw [eventually_all]
    intro i
    have : Continuous fun x : Fin m → ℝ => |x i - x0 i| := by fun_prop
    exact this.continuousAt.eventually (gt_mem_nhds (by simpa using hT))
  have c3 : ∀ᶠ x in 𝓝 x0, ∀ i : Fin d.A.length, ∀ (row : Vec) (bi : ℝ), d.A[(i : ℕ)]? = some row → d.b[(i : ℕ)]? = some bi →
      Vec.dot row (List.ofFn x) ≤ bi + TOL := by
    rw [eventually_all]
    intro i
    rcases h1 : d.A[(i : ℕ)]? with _ | row
    · exact Eventually.of_forall fun x row bi h => by cases h
    rcases h2 : d.b[(i : ℕ)]? with _ | bi
    · exact Eventually.of_forall fun x row bi _ h => by cases h
    have hlt : Vec.dot row (List.ofFn x0) < bi + TOL := by linarith [hx.ineq i row bi h1 h2]
    filter_upwards [(continuous_dot row).continuousAt.eventually (gt_mem_nhds hlt)] with x hx row' bi' e1 e2
    cases e1; cases e2
    exact hx.le
  have c4 : ∀ᶠ x in 𝓝 x0, ∀ i : Fin d.Ls.length, ∀ (L : List Vec) (y : Vec) (rho : ℝ), d.Ls[(i : ℕ)]? = some L →
      d.ys[(i : ℕ)]? = some y → d.rhos[(i : ℕ)]? = some rho → Vec.norm (Vec.mulVec L (Vec.sub (List.ofFn x) y)) ≤ rho + TOL := by
    rw [eventually_all]
    intro i
    rcases h1 : d.Ls[(i : ℕ)]? with _ | L
    · exact Eventually.of_forall fun x _ _ _ h => by cases h
    rcases h2 : d.ys[(i : ℕ)]? with _ | y
    · exact Eventually.of_forall fun x _ _ _ _ h => by cases h
    rcases h3 : d.rhos[(i : ℕ)]? with _ | rho
    · exact Eventually.of_forall fun x _ _ _ _ _ h => by cases h
    have hlt : Vec.norm (Vec.mulVec L (Vec.sub (List.ofFn x0) y)) < rho + TOL := by linarith [hx.quad i L y rho h1 h2 h3]
    filter_upwards [(continuous_quad L y (by rw [hd.ys_w y (List.mem_of_getElem? h2), hn])).continuousAt.eventually
      (gt_mem_nhds hlt)] with x hx L' y' rho' e1 e2 e3
    cases e1; cases e2; cases e3
    exact hx.le
  filter_upwards [c1, c3, c4] with x h1 h3 h4
  refine ⟨⟨?_, ?_⟩, ?_, ?_, ?_⟩
  · intro i r xi hr hxi
    obtain ⟨hi, rfl⟩ := getElem?_ofFn_some hxi
    have a := hx.lb i r (x0 ⟨i, hi⟩) hr (by simp [hi])
    have b := abs_lt.1 (h1 ⟨i, hi⟩)
    linarith
  · intro i r xi hr hxi
    obtain ⟨hi, rfl⟩ := getElem?_ofFn_some hxi
    have a := hx.ub i r (x0 ⟨i, hi⟩) hr (by simp [hi])
    have b := abs_lt.1 (h1 ⟨i, hi⟩)
    linarith
  · intro i row bi hr hb
    exact h3 ⟨i, (List.getElem?_eq_some_iff.1 hr).1⟩ row bi hr hb
  · intro i row bi hr
    simp at hr
  · intro i L y rho hL hy hr
    exact h4 ⟨i, (List.getElem?_eq_some_iff.1 hL).1⟩ L y rho hL hy hr

variable {eigh : EighAll} {l h : Fin m → ℝ}

/-- **C106** for bounded linear-quadratic domains without equality constraints that contain a point: the rule is returned for
every `N`, and the rules converge to the integral over the points of the normalization box that the domain accepts. -/
theorem quadRule_linquad (he : ∀ n, EighSpec (eigh n)) (nnls : NNLS) {TOL : ℝ} (hT : 0 < TOL) {d : LQ} (hd : d.WF)
    (hn : d.n = m) (hE : d.Aeq = []) (hlh : ∀ i, l i < h i) (hm1 : 1 ≤ m) (x0 : Fin m → ℝ) (hx0 : x0 ∈ Set.Icc l h)
    (hh : d.Holds (List.ofFn x0)) (sample vol) :
    (∀ N, ∃ fuel0 X w, ∀ fuel ≥ fuel0,
      quadRule eigh (linQ nnls TOL d (List.ofFn l) (List.ofFn h) sample vol) N .gauss fuel = some (.ok (some (X, w)))) ∧
    ∀ F : Vec → ℝ, ContinuousOn (fun x : Fin m → ℝ => F (List.ofFn x)) (Set.Icc l h) → ∀ ε : ℝ, 0 < ε →
      ∃ N0, ∀ N ≥ N0, ∀ fuel X w,
        quadRule eigh (linQ nnls TOL d (List.ofFn l) (List.ofFn h) sample vol) N .gauss fuel = some (.ok (some (X, w))) →
        |applyRule X w F - ∫ x in {x ∈ Set.Icc l h | d.inAll TOL (List.ofFn x)}, F (List.ofFn x)| < ε := by
  set D := linQ nnls TOL d (List.ofFn l) (List.ofFn h) sample vol with hDdef
  have hB : QBox D l h := ⟨rfl, rfl, fun i => (hlh i).le⟩
  have hreg : D.region m = {x | d.inAll TOL (List.ofFn x)} := by
    ext x
    exact mem_linQ hn
  have hq : D.hasEq = false := by simp [hDdef, linQ, hE]
  have hclosed : IsClosed (D.region m) := by rw [hreg]; exact inAll_closed hd hn hE TOL
  have hint : (interior (D.region m) ∩ interior (Set.Icc l h)).Nonempty := by
    have h1 : ∀ᶠ x in 𝓝 x0, x ∈ interior (D.region m) := by
      rw [eventually_mem_set, interior_mem_nhds, hreg]
      exact inAll_nhds hd hn hE hT hh
    have h2 : x0 ∈ closure (interior (Set.Icc l h)) := by
      rw [← Set.pi_univ_Icc, interior_pi_set Set.finite_univ, closure_pi_set]
      simp only [interior_Icc, closure_Ioo (hlh _).ne]
      rw [Set.pi_univ_Icc]
      exact hx0
    obtain ⟨x, hx⟩ := (mem_closure_iff_frequently.1 h2).and_eventually h1 |>.exists
    exact ⟨x, hx.2, hx.1⟩
  refine ⟨fun N => quadRule_terminates he hB hm1 rfl rfl N .gauss (quadMethod_gauss rfl hq N) hint, fun F hF ε hε => ?_⟩
  have hnull : volume (frontier (D.region m)) = 0 := by
    rw [hreg]
    exact (inAll_convexSet d TOL).addHaar_frontier volume
  have := quadRule_converges he hB hm1 rfl rfl rfl hq .gauss (Or.inr rfl) hclosed.measurableSet hnull F hF ε hε
  rw [hreg] at this
  exact this

/-! ### Where the claim fails -/

/-- The square `[0, 1]^2` with the constraint `x_0 ≤ -1`: an empty domain with finite bounds. -/
noncomputable def voidSquare : LQ where
  n := 2
  lb := [.fin 0, .fin 0]
  ub := [.fin 1, .fin 1]
  A := [[1, 0]]
  b := [-1]
  Aeq := []
  beq := []
  Ls := []
  ys := []
  rhos := []

/-- **C106** fails for empty domains: the search for the number of points does not end. -/
theorem quadRule_void_false (nnls : NNLS) {TOL : ℝ} (hT : TOL < 1 / 2) (sample vol) (N : ℕ) (hN : 1 ≤ N) (fuel : ℕ) :
    quadRule eigh (linQ nnls TOL voidSquare [0, 0] [1, 1] sample vol) N .gauss fuel = none := by
  have hnone : ∀ x, ¬ (linQ nnls TOL voidSquare [0, 0] [1, 1] sample vol).inside x := by
    rintro x ⟨hlen, hb, hi, -⟩
    have hlen : x.length = 2 := hlen
    obtain ⟨a, b, rfl⟩ := List.length_eq_two.1 hlen
    rw [inBounds_iff] at hb
    rw [inIneq_iff] at hi
    have h1 := hb.1 0 0 a rfl rfl
    have h2 := hi 0 [1, 0] (-1) rfl rfl
    simp at h2
    linarith
  have hempty : ∀ q, quadPts eigh (linQ nnls TOL voidSquare [0, 0] [1, 1] sample vol) q = [] := by
    intro q
    unfold quadPts
    rw [List.filter_eq_nil_iff]
    intro p _
    simp [hnone p.1]
  have hq := quadQ_pos (m := 2) (by norm_num) hN
  rw [quadRule_gauss rfl rfl (quadMethod_gauss rfl (by simp [linQ, voidSquare]) N)]
  have : quadGauss eigh (linQ nnls TOL voidSquare [0, 0] [1, 1] sample vol) N
      (quadQ N (linQ nnls TOL voidSquare [0, 0] [1, 1] sample vol).lo.length) fuel = none := by
    simp only [quadGauss, hempty, List.length_nil]
    rw [if_neg]
    · exact quadLoop_runs _ _ _ fun j _ => by simp [hempty]
    · change ¬ quadQ N 2 ^ 2 = 0
      positivity
  rw [this]
  rfl

/-- **C106** fails for `N = 0`: the Gauss method returns one point. -/
theorem quadRule_zero_false (he : ∀ n, EighSpec (eigh n)) (nnls : NNLS) {TOL : ℝ} (hT : 0 ≤ TOL) {l h : Fin m → ℝ}
    (hlh : ∀ i, l i ≤ h i) (hm1 : 1 ≤ m) (sample) (fuel : ℕ) :
    ∃ X w, quadRule eigh (boxQ nnls TOL (List.ofFn l) (List.ofFn h) sample false) 0 .gauss (fuel + 1) =
      some (.ok (some (X, w))) ∧ X.length = 1 := by
  have hB := boxQ_box nnls TOL hlh sample false
  have hq0 : quadQ 0 m = 0 := by
    by_contra hne
    have := (quadQ_largest hm1 (N := 0) 1).2 (by omega)
    simp at this
  have hlen : (boxQ nnls TOL (List.ofFn l) (List.ofFn h) sample false).lo.length = m := by simp [boxQ]
  have hcount : ∀ q ≤ 1, (quadPts eigh (boxQ nnls TOL (List.ofFn l) (List.ofFn h) sample false) q).length = 1 := by
    intro q hq
    rw [(quadPts_perm' hB _).length_eq, List.filter_eq_self.2, List.length_map, cart_length]
    · rw [show q - 1 + 1 = 1 by omega, one_pow]
    · intro p hp
      obtain ⟨r, hr, rfl⟩ := List.mem_map.1 hp
      obtain ⟨h1, h2, -⟩ := mem_tensor he hlh hr
      rw [decide_eq_true_eq]
      have := boxQ_full nnls hT l h sample false h2
      change (boxQ nnls TOL (List.ofFn l) (List.ofFn h) sample false).inside _ at this
      rwa [ofFn_toPt (by simpa [pairOf] using h1)] at this
  refine ⟨(quadPts eigh (boxQ nnls TOL (List.ofFn l) (List.ofFn h) sample false) 0).map Prod.fst,
    (quadPts eigh (boxQ nnls TOL (List.ofFn l) (List.ofFn h) sample false) 0).map Prod.snd, ?_, ?_⟩
  · rw [quadRule_gauss rfl rfl (quadMethod_gauss rfl rfl 0), hlen, hq0]
    simp only [quadGauss, hlen, quadLoop]
    rw [if_neg, if_neg]
    · rfl
    · rw [hcount _ (by omega)]; omega
    · rw [hcount _ (by omega), zero_pow (by omega)]; omega
  · rw [List.length_map, hcount _ (by omega)]

/-! ### The hypotheses are met -/

/-- The triangle `x_0 + x_1 ≤ 1` in the unit square. -/
noncomputable def triangleLQ : LQ where
  n := 2
  lb := [.fin 0, .fin 0]
  ub := [.fin 1, .fin 1]
  A := [[1, 1]]
  b := [1]
  Aeq := []
  beq := []
  Ls := []
  ys := []
  rhos := []

theorem triangleLQ_wf : triangleLQ.WF := by
  constructor <;> simp [triangleLQ, XR.okLower, XR.okUpper]

theorem triangleLQ_holds : triangleLQ.Holds (List.ofFn (fun _ : Fin 2 => (1 / 4 : ℝ))) := by
  have hl : List.ofFn (fun _ : Fin 2 => (1 / 4 : ℝ)) = [1 / 4, 1 / 4] := by simp [List.ofFn_succ]
  rw [hl]
  constructor
  · intro i r xi h1 h2
    match i with
    | 0 => simp [triangleLQ] at h1 h2; subst h1 h2; norm_num
    | 1 => simp [triangleLQ] at h1 h2; subst h1 h2; norm_num
    | i + 2 => simp at h2
  · intro i r xi h1 h2
    match i with
    | 0 => simp [triangleLQ] at h1 h2; subst h1 h2; norm_num
    | 1 => simp [triangleLQ] at h1 h2; subst h1 h2; norm_num
    | i + 2 => simp at h2
  · intro i row bi h1 h2
    match i with
    | 0 => simp [triangleLQ] at h1 h2; subst h1 h2; norm_num
    | i + 1 => simp [triangleLQ] at h2
  · intro i row bi h1; simp [triangleLQ] at h1
  · intro i L y rho h1; simp [triangleLQ] at h1

/-- A triangle: rules for all `N`, convergent. -/
example (he : ∀ n, EighSpec (eigh n)) (nnls : NNLS) (sample vol) (N : ℕ) : ∃ fuel0 X w, ∀ fuel ≥ fuel0,
    quadRule eigh (linQ nnls (1 / 1000000) triangleLQ (List.ofFn fun _ : Fin 2 => 0) (List.ofFn fun _ : Fin 2 => 1) sample vol)
      N .gauss fuel = some (.ok (some (X, w))) :=
  (quadRule_linquad (m := 2) he nnls (by norm_num) triangleLQ_wf rfl rfl (fun _ => by norm_num) (by norm_num) (fun _ => 1 / 4)
    ⟨fun _ => by norm_num, fun _ => by norm_num⟩ triangleLQ_holds sample vol).1 N

/-- A square with `N = 10`: nine points, exact for degree five in each coordinate. -/
example (he : ∀ n, EighSpec (eigh n)) (nnls : NNLS) (sample) (fuel : ℕ) :
    ∃ X w, quadRule eigh (boxQ nnls 0 (List.ofFn fun _ : Fin 2 => 0) (List.ofFn fun _ : Fin 2 => 1) sample false) 10 .gauss fuel =
      some (.ok (some (X, w))) ∧ X.length = 9 := by
  obtain ⟨X, w, h1, h2, -⟩ := quadRule_box_exact he nnls (le_refl (0 : ℝ)) (l := fun _ : Fin 2 => 0) (h := fun _ => 1)
    (fun _ => by norm_num) (by norm_num) sample (N := 10) (by norm_num) fuel
  refine ⟨X, w, h1, ?_⟩
  have a := (quadQ_largest (m := 2) (N := 10) (by norm_num) 3).1 (by norm_num)
  have b := mt (quadQ_largest (m := 2) (N := 10) (by norm_num) 4).2 (by norm_num)
  rw [h2, show quadQ 10 2 = 3 by omega]
  norm_num

end Verif.Misc
