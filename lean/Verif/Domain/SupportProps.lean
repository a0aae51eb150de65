import Verif.Domain.ClosestTotal
import Verif.Domain.QueryProps
import Verif.Domain.DimProps

/-!
# Corners describe the domain (C181)
-/

namespace Verif.Domain

open Set

/-- The answer of `corner(p)` after the calls `ks`. -/
noncomputable def cornerAfter (S : Solver) (nnls : NNLS) (TOL : ℝ) (fb : CornerOracle) (fbD : List XR × List XR) (D : Dom) (ks : List (Solver × SCall)) (p : Vec) : Except Err Vec :=
  (D.corner S fb (D.afterCalls nnls TOL fb fbD none ks) p).1

/-- A solver that finds all optima, a domain that is not a box and whose normalization is right, and what its methods were asked
before. -/
structure CornerSetting (S : Solver) (fb : CornerOracle) (D : Dom) (ks : Vec → List (Solver × SCall)) : Prop where
  solver : CompleteSolver S
  oracle : OracleLen fb
  wf : D.WF
  scaled : D.Scaled fb
  notBox : ∀ l u, D ≠ .base (.box l u)
  noUnbounded : ¬ D.hasUnbounded
  before : ∀ p, ∀ k ∈ ks p, ExactSolver k.1

variable {S : Solver} {nnls : NNLS} {TOL : ℝ} {fb : CornerOracle} {fbD : List XR × List XR} {D : Dom} {ks : Vec → List (Solver × SCall)}

theorem CornerSetting.max (h : CornerSetting S fb D ks) {p x : Vec} (hx : cornerAfter S nnls TOL fb fbD D (ks p) p = .ok x) :
    D.Holds x ∧ ∀ y, D.Holds y → Vec.dot p y ≤ Vec.dot p x := by
  have := corner_history_partial h.solver.toExactSolver nnls TOL h.oracle fbD h.wf h.scaled h.notBox (ks p) (h.before p) p
  unfold cornerAfter at hx
  rw [hx] at this
  exact this

theorem CornerSetting.all_of_noConstraints (h : CornerSetting S fb D ks) (hc : D.noConstraints fb) {y : Vec} (hy : y.length = D.len) : D.Holds y :=
  (dom_feas_iff fb h.oracle D h.wf h.scaled y hy).1 (noConstraints_feas hc _)

/-- **C181**: a nonempty domain consists of exactly the points that are, in every direction for which `corner` answers, not
beyond the corner. -/
theorem corner_describes (h : CornerSetting S fb D ks) (hne : ∃ y, D.Holds y) {x : Vec} (hx : x.length = D.len) :
    D.Holds x ↔ ∀ p y : Vec, p.length = D.len → cornerAfter S nnls TOL fb fbD D (ks p) p = .ok y → Vec.dot p x ≤ Vec.dot p y := by
  constructor
  · intro hh p y _ hy
    exact (h.max hy).2 x hh
  · intro hall
    by_cases hc : D.noConstraints fb
    · exact h.all_of_noConstraints hc hx
    obtain ⟨z, hz⟩ := nearest_exists h.wf hne (seesAll_eye D.len) hx
    have hzl := dom_holds_length hz.1
    have hang : ∀ y, D.Holds y → Vec.dot (Vec.sub x z) y ≤ Vec.dot (Vec.sub x z) z := by
      intro y hy
      have := nearest_angle hx hz hy
      have hyl := dom_holds_length hy
      rw [mulVec_eye _ _ hx, mulVec_eye _ _ hzl, mulVec_eye _ _ hyl] at this
      rw [Vec.dot_comm _ y, Vec.dot_comm _ z, Vec.dot_sub_right _ _ _ (by omega), Vec.dot_sub_right _ _ _ (by omega), Vec.dot_comm y x, Vec.dot_comm y z, Vec.dot_comm z x]
      linarith
    have hpl : (Vec.sub x z).length = D.len := by rw [Vec.length_sub]; omega
    obtain ⟨w, hw⟩ := (corner_complete_partial h.solver nnls TOL h.oracle fbD h.wf h.scaled h.notBox h.noUnbounded hc (ks (Vec.sub x z)) (h.before _) (Vec.sub x z) hpl).2.2 z hz.1 hang
    have h1 := hall _ w hpl hw
    have h2 := hang w (h.max (nnls := nnls) (TOL := TOL) (fbD := fbD) hw).1
    have h3 : Vec.sumSq (Vec.sub x z) = Vec.dot (Vec.sub x z) x - Vec.dot (Vec.sub x z) z := by
      rw [sumSq_sub (by omega), Vec.dot_comm (Vec.sub x z) x, Vec.dot_comm (Vec.sub x z) z, Vec.dot_sub_right _ _ _ (by omega), Vec.dot_sub_right _ _ _ (by omega), Vec.dot_comm z x]
      ring
    have h4 : x = z := sumSq_sub_zero (by omega) (le_antisymm (by rw [h3]; linarith) (Vec.sumSq_nonneg _))
    rw [h4]
    exact hz.1

/-- All points of the domain have coordinates of size at most `R`. -/
def BoundedBy (D : Dom) (R : ℝ) : Prop := ∀ y, D.Holds y → ∀ a ∈ y, |a| ≤ R

theorem maximizer_exists (hw : D.WF) (hne : ∃ y, D.Holds y) {R : ℝ} (hR : BoundedBy D R) {p : Vec} (hp : p.length = D.len) :
    ∃ x, D.Holds x ∧ ∀ y, D.Holds y → Vec.dot p y ≤ Vec.dot p x := by
  obtain ⟨y, hy⟩ := hne
  have hof : ∀ z : Vec, (hz : z.length = D.len) → List.ofFn (fun i : Fin D.len => z.getD i 0) = z := by
    intro z hz
    apply List.ext_getElem
    · simp [hz]
    · intro i h1 h2
      simp [List.getElem?_eq_getElem h2]
  have hcont : Continuous fun x : Fin D.len → ℝ => Vec.dot p (List.ofFn x) := cont_dot p
  have hbd : Bornology.IsBounded D.pts := by
    refine (Metric.isBounded_closedBall (x := (0 : Fin D.len → ℝ)) (r := max R 0)).subset fun x hx => ?_
    rw [Metric.mem_closedBall, dist_pi_le_iff (le_max_right _ _)]
    intro i
    rw [Real.dist_eq]
    simp only [Pi.zero_apply, sub_zero]
    exact (hR _ hx _ (List.mem_ofFn.2 ⟨i, rfl⟩)).trans (le_max_left _ _)
  obtain ⟨x, hx, hmax⟩ := (Metric.isCompact_of_isClosed_isBounded (pts_closed hw) hbd).exists_isMaxOn ⟨fun i => y.getD i 0, by show D.Holds _; rw [hof y (dom_holds_length hy)]; exact hy⟩ hcont.continuousOn
  refine ⟨List.ofFn x, hx, fun z hz => ?_⟩
  have := hmax (show (fun i : Fin D.len => z.getD i 0) ∈ D.pts by show D.Holds _; rw [hof z (dom_holds_length hz)]; exact hz)
  simp only [mem_setOf_eq] at this
  rwa [hof z (dom_holds_length hz)] at this

/-- **C181**: for a bounded nonempty domain `corner` answers in every direction, after any calls. -/
theorem corner_total (h : CornerSetting S fb D ks) (hne : ∃ y, D.Holds y) {R : ℝ} (hR : BoundedBy D R) (h0 : 0 < D.len) {p : Vec} (hp : p.length = D.len) :
    ∃ x, cornerAfter S nnls TOL fb fbD D (ks p) p = .ok x := by
  have hc : ¬ D.noConstraints fb := by
    intro hc
    have := hR (List.replicate D.len (|R| + 1)) (h.all_of_noConstraints hc (by simp)) (|R| + 1) (List.mem_replicate.2 ⟨by omega, rfl⟩)
    rw [abs_of_pos (by positivity)] at this
    linarith [le_abs_self R]
  obtain ⟨x, hx, hmax⟩ := maximizer_exists h.wf hne hR hp
  exact (corner_complete_partial h.solver nnls TOL h.oracle fbD h.wf h.scaled h.notBox h.noUnbounded hc (ks p) (h.before p) p hp).2.2 x hx hmax

/-- Corners in the sum of two directions do not reach beyond the corners in the two. -/
theorem corner_subadditive (h : CornerSetting S fb D ks) {p q x y z : Vec} (hp : p.length = D.len) (hq : q.length = D.len)
    (hx : cornerAfter S nnls TOL fb fbD D (ks p) p = .ok x) (hy : cornerAfter S nnls TOL fb fbD D (ks q) q = .ok y)
    (hz : cornerAfter S nnls TOL fb fbD D (ks (Vec.add p q)) (Vec.add p q) = .ok z) :
    Vec.dot (Vec.add p q) z ≤ Vec.dot p x + Vec.dot q y := by
  have hzh := (h.max hz).1
  have h1 := (h.max hx).2 z hzh
  have h2 := (h.max hy).2 z hzh
  rw [Vec.dot_comm, Vec.dot_add_right _ _ _ (by omega), Vec.dot_comm z p, Vec.dot_comm z q]
  linarith

/-- Only the direction matters. -/
theorem corner_homogeneous (h : CornerSetting S fb D ks) {p x y : Vec} {c : ℝ} (hc : 0 < c)
    (hx : cornerAfter S nnls TOL fb fbD D (ks p) p = .ok x) (hy : cornerAfter S nnls TOL fb fbD D (ks (Vec.smul c p)) (Vec.smul c p) = .ok y) :
    Vec.dot p x = Vec.dot p y := by
  have e : ∀ v, Vec.dot (Vec.smul c p) v = c * Vec.dot p v := fun v => by rw [Vec.dot_comm, Vec.dot_smul_right, Vec.dot_comm]
  have h1 := (h.max hx).2 y (h.max hy).1
  have h2 := (h.max hy).2 x (h.max hx).1
  rw [e, e] at h2
  exact le_antisymm (le_of_mul_le_mul_left h2 hc) h1

/-- A larger domain has corners at least as far. -/
theorem corner_mono {D' : Dom} {ks' : Vec → List (Solver × SCall)} {S' : Solver} {fb' : CornerOracle} {fbD' : List XR × List XR} (h : CornerSetting S fb D ks)
    (h' : CornerSetting S' fb' D' ks') (hs : ∀ y, D.Holds y → D'.Holds y) {p x y : Vec}
    (hx : cornerAfter S nnls TOL fb fbD D (ks p) p = .ok x) (hy : cornerAfter S' nnls TOL fb' fbD' D' (ks' p) p = .ok y) : Vec.dot p x ≤ Vec.dot p y :=
  (h'.max hy).2 x (hs x (h.max hx).1)

/-- **C181**: domains with the same corners (as far as the directions see) are the same. -/
theorem corner_determines {D' : Dom} {ks' : Vec → List (Solver × SCall)} {S' : Solver} {fb' : CornerOracle} {fbD' : List XR × List XR} (h : CornerSetting S fb D ks)
    (h' : CornerSetting S' fb' D' ks') (hne : ∃ y, D.Holds y) (hne' : ∃ y, D'.Holds y) (hlen : D.len = D'.len)
    (hsame : ∀ (p : Vec) (a : ℝ), p.length = D.len → ((∃ x, cornerAfter S nnls TOL fb fbD D (ks p) p = .ok x ∧ Vec.dot p x = a) ↔
      ∃ x, cornerAfter S' nnls TOL fb' fbD' D' (ks' p) p = .ok x ∧ Vec.dot p x = a)) (y : Vec) : D.Holds y ↔ D'.Holds y := by
  by_cases hy : y.length = D.len
  · rw [corner_describes (nnls := nnls) (TOL := TOL) (fbD := fbD) h hne hy, corner_describes (nnls := nnls) (TOL := TOL) (fbD := fbD') h' hne' (by omega)]
    constructor
    · intro hall p z hp hz
      obtain ⟨x, hx, e⟩ := (hsame p _ (by omega)).2 ⟨z, hz, rfl⟩
      have := hall p x (by omega) hx
      linarith
    · intro hall p z hp hz
      obtain ⟨x, hx, e⟩ := (hsame p _ hp).1 ⟨z, hz, rfl⟩
      have := hall p x (by omega) hx
      linarith
  · constructor
    · intro hh; exact absurd (dom_holds_length hh) hy
    · intro hh; exact absurd (dom_holds_length hh) (by omega)

/-- **C181**: the distance of a point to the domain is the largest amount by which it is beyond a corner, over directions of
length one: no direction shows more. -/
theorem corner_distance_le (h : CornerSetting S fb D ks) {x0 x p y : Vec} (h0 : x0.length = D.len) (hx : D.Holds x) (hp : p.length = D.len) (hp1 : Vec.norm p ≤ 1)
    (hy : cornerAfter S nnls TOL fb fbD D (ks p) p = .ok y) : Vec.dot p x0 - Vec.dot p y ≤ Vec.norm (Vec.sub x0 x) := by
  have hxl := dom_holds_length hx
  have h1 := (h.max hy).2 x hx
  have hcs := Vec.dot_sq_le p (Vec.sub x0 x)
  have h2 : Vec.dot p (Vec.sub x0 x) ≤ Vec.norm p * Vec.norm (Vec.sub x0 x) := by
    unfold Vec.norm
    rw [← Real.sqrt_mul (Vec.sumSq_nonneg _)]
    exact Real.le_sqrt_of_sq_le hcs
  have h3 := mul_le_mul_of_nonneg_right hp1 (Vec.norm_nonneg (Vec.sub x0 x))
  rw [Vec.dot_sub_right _ _ _ (by omega)] at h2
  linarith

/-- And one direction shows all of it, for a point outside. -/
theorem corner_distance_attained (h : CornerSetting S fb D ks) {x0 x : Vec} (h0 : x0.length = D.len) (hn : IsNearest D (eyeRows D.len) x0 x) (hout : ¬ D.Holds x0) :
    ∃ p y, p.length = D.len ∧ Vec.norm p = 1 ∧ cornerAfter S nnls TOL fb fbD D (ks p) p = .ok y ∧ Vec.dot p x0 - Vec.dot p y = Vec.norm (Vec.sub x0 x) := by
  have hxl := dom_holds_length hn.1
  have hc : ¬ D.noConstraints fb := fun hc => hout (h.all_of_noConstraints hc h0)
  have hpos : 0 < Vec.sumSq (Vec.sub x0 x) := by
    refine lt_of_le_of_ne (Vec.sumSq_nonneg _) fun e => hout ?_
    rw [sumSq_sub_zero (by omega) e.symm]
    exact hn.1
  set r := Vec.norm (Vec.sub x0 x) with hr
  have hr0 : 0 < r := Real.sqrt_pos.2 hpos
  have hrr : r * r = Vec.sumSq (Vec.sub x0 x) := Real.mul_self_sqrt hpos.le
  have hdl : (Vec.sub x0 x).length = D.len := by rw [Vec.length_sub]; omega
  have e : ∀ v, Vec.dot (Vec.smul (1 / r) (Vec.sub x0 x)) v = 1 / r * Vec.dot (Vec.sub x0 x) v := fun v => by rw [Vec.dot_comm, Vec.dot_smul_right, Vec.dot_comm]
  have hang : ∀ y, D.Holds y → Vec.dot (Vec.smul (1 / r) (Vec.sub x0 x)) y ≤ Vec.dot (Vec.smul (1 / r) (Vec.sub x0 x)) x := by
    intro y hy
    have := nearest_angle h0 hn hy
    have hyl := dom_holds_length hy
    rw [mulVec_eye _ _ h0, mulVec_eye _ _ hxl, mulVec_eye _ _ hyl] at this
    rw [e, e]
    refine mul_le_mul_of_nonneg_left ?_ (by positivity)
    rw [Vec.dot_comm _ y, Vec.dot_comm _ x, Vec.dot_sub_right _ _ _ (by omega), Vec.dot_sub_right _ _ _ (by omega), Vec.dot_comm y x0, Vec.dot_comm y x, Vec.dot_comm x x0]
    linarith
  have hpl : (Vec.smul (1 / r) (Vec.sub x0 x)).length = D.len := by simp [Vec.smul, hdl]
  obtain ⟨w, hw⟩ := (corner_complete_partial h.solver nnls TOL h.oracle fbD h.wf h.scaled h.notBox h.noUnbounded hc (ks (Vec.smul (1 / r) (Vec.sub x0 x))) (h.before _) _ hpl).2.2 x hn.1 hang
  have hw' : cornerAfter S nnls TOL fb fbD D (ks (Vec.smul (1 / r) (Vec.sub x0 x))) (Vec.smul (1 / r) (Vec.sub x0 x)) = .ok w := hw
  have h1 := h.max hw'
  have h2 : Vec.dot (Vec.smul (1 / r) (Vec.sub x0 x)) w = Vec.dot (Vec.smul (1 / r) (Vec.sub x0 x)) x := le_antisymm (hang w h1.1) (h1.2 x hn.1)
  refine ⟨_, w, hpl, ?_, hw', ?_⟩
  · unfold Vec.norm
    rw [sumSq_smul, ← hrr]
    have : (1 / r) ^ 2 * (r * r) = 1 := by field_simp
    rw [this, Real.sqrt_one]
  · rw [h2, e, e, ← mul_sub, ← Vec.dot_sub_right _ _ _ (by omega)]
    have : Vec.dot (Vec.sub x0 x) (Vec.sub x0 x) = r * r := by rw [hrr, Vec.sumSq_eq_dot]
    rw [this]
    field_simp

/-- **C181** for boxes with finite float bounds. -/
theorem box_corner_describes {TOL : ℝ} (hT : 0 ≤ TOL) {lo hi : Vec} (hl : hi.length = lo.length) (hle : ∀ (i : ℕ) (l u : ℝ), lo[i]? = some l → hi[i]? = some u → l ≤ u)
    {x : Vec} (hx : x.length = lo.length) :
    (∀ (i : ℕ) (l u xi : ℝ), lo[i]? = some l → hi[i]? = some u → x[i]? = some xi → l ≤ xi ∧ xi ≤ u) ↔
      ∀ p y : Vec, p.length = lo.length → boxCorner TOL false (lo.map XR.fin) (hi.map XR.fin) p = .ok (y.map XR.fin) → Vec.dot p x ≤ Vec.dot p y := by
  have hfin : ∀ {v : Vec} {i : ℕ} {r : ℝ}, (v.map XR.fin)[i]? = some (.fin r) ↔ v[i]? = some r := by
    intro v i r
    rw [List.getElem?_map]
    cases v[i]? <;> simp
  have hle' : ∀ (i : ℕ) (l u : ℝ), (lo.map XR.fin)[i]? = some (.fin l) → (hi.map XR.fin)[i]? = some (.fin u) → l ≤ u := fun i l u h1 h2 => hle i l u (hfin.1 h1) (hfin.1 h2)
  constructor
  · intro h p y hp hy
    refine (box_corner_maximizes TOL _ _ (by simpa using hl) p hle' y hy).2 x (by simpa using hx) ?_ ?_
    · intro i r xi h1 h2
      have h1 := hfin.1 h1
      have hi' : i < hi.length := by rw [hl]; exact (List.getElem?_eq_some_iff.1 h1).1
      exact (h i r _ xi h1 (List.getElem?_eq_getElem hi') h2).1
    · intro i r xi h1 h2
      have h1 := hfin.1 h1
      have hi' : i < lo.length := by rw [← hl]; exact (List.getElem?_eq_some_iff.1 h1).1
      exact (h i _ r xi (List.getElem?_eq_getElem hi') h1 h2).2
  · intro hall i l u xi h1 h2 h3
    have hi1 := (List.getElem?_eq_some_iff.1 h1).1
    have main : ∀ c : ℝ, ∃ y : Vec, (∃ yi, y[i]? = some yi ∧ l ≤ yi ∧ yi ≤ u ∧ c * xi ≤ c * yi) := by
      intro c
      set p : Vec := List.ofFn fun j : Fin lo.length => if (j : ℕ) = i then c else 0 with hp
      have hpl : p.length = lo.length := by simp [hp]
      obtain ⟨X, hX⟩ := (box_corner_ok_iff TOL hT (lo.map XR.fin) (hi.map XR.fin) p (by simp [XR.okLower]) (by simp [XR.okUpper]) (by simpa using hpl)).2 (by
        rintro ⟨j, a, b, ha, hb, hab⟩
        linarith [hle' j a b ha hb])
      have hXf : ∃ y : Vec, X = y.map XR.fin := by
        unfold boxCorner at hX
        split_ifs at hX
        injection hX with hX
        subst hX
        refine ⟨List.zipWith (fun lu pi => if pi ≥ 0 then lu.2 else lu.1) (lo.zip hi) p, ?_⟩
        unfold boxCornerPoint
        have key : ∀ a b q : Vec, List.zipWith (fun lu pi => if pi ≥ 0 then assignTo false lu.2 else lu.1) ((a.map XR.fin).zip (b.map XR.fin)) q =
            (List.zipWith (fun lu pi => if pi ≥ 0 then lu.2 else lu.1) (a.zip b) q).map XR.fin := by
          intro a
          induction a with
          | nil => intro b q; simp
          | cons r a ih =>
            intro b q
            cases b with
            | nil => simp
            | cons t b =>
              cases q with
              | nil => simp
              | cons w q =>
                simp only [List.map_cons, List.zip_cons_cons, List.zipWith_cons_cons, ih b q, List.cons.injEq, and_true]
                simp only [assignTo, Bool.false_eq_true, if_false]
                split_ifs <;> rfl
        exact key lo hi p
      obtain ⟨y, rfl⟩ := hXf
      have hm := (box_corner_maximizes TOL _ _ (by simpa using hl) p hle' y hX).1
      have hyl : y.length = lo.length := by simpa using hm.1
      have hyi : y[i]? = some y[i] := List.getElem?_eq_getElem (by omega)
      refine ⟨y, y[i], hyi, hm.2.1 i l _ (hfin.2 h1) hyi, hm.2.2 i u _ (hfin.2 h2) hyi, ?_⟩
      have hd : ∀ v : Vec, (hv : v.length = lo.length) → Vec.dot p v = c * v[i] := by
        intro v hv
        rw [Vec.dot_comm, hp, dot_ofFn hv, dotProduct, Finset.sum_eq_single ⟨i, hi1⟩]
        · simp [List.getElem?_eq_getElem (show i < v.length by omega), mul_comm]
        · intro b _ hb
          rw [if_neg (fun e => hb (Fin.ext e)), mul_zero]
        · simp
      have := hall p y hpl hX
      rw [hd x hx, hd y hyl] at this
      rw [List.getElem?_eq_getElem (by omega)] at h3
      injection h3 with h3
      rwa [h3] at this
    obtain ⟨_, y1, _, a1, b1, c1⟩ := main 1
    obtain ⟨_, y2, _, a2, b2, c2⟩ := main (-1)
    constructor <;> linarith

/-- **False for mixed finite and infinite bounds**: on the strip `0 ≤ x₁ ≤ 1` no direction gets a corner, so corners do not
exclude a point outside. -/
theorem corner_describes_false {S : Solver} (fb : CornerOracle) (ho : OracleLen fb) (e : Option Bool) :
    ¬ strip.Holds [5, 0] ∧ ∀ p y, (strip.corner S fb e p).1 ≠ .ok y := by
  constructor
  · rintro ⟨_, h2, _⟩
    have := h2.ub 0 1 5 rfl rfl
    norm_num at this
  · intro p y h
    have nc : strip.noConstraints fb := by
      refine ⟨?_, ?_, rfl, rfl, rfl⟩
      · intro v hv hfin
        have := lbNorm_lost ho (d := .linquad ⟨2, [.fin 0, .ninf], [.fin 1, .pinf], [], [], [], [], [], [], []⟩) strip_wf (by simp [Base.acc]) v hv
        cases v <;> simp_all
      · intro v hv hfin
        have := ubNorm_lost ho (d := .linquad ⟨2, [.fin 0, .ninf], [.fin 1, .pinf], [], [], [], [], [], [], []⟩) strip_wf (by simp [Base.acc]) v hv
        cases v <;> simp_all
    rw [corner_eq (by simp [strip]) (by simp [strip])] at h
    split_ifs at h
    split at h
    · cases h
    · cases h
    · cases h
    · cases h

/-- The hypotheses are met by a bounded nonempty domain. -/
example : ∃ S, CornerSetting S infOracle farSquare (fun _ => []) ∧ (∃ y, farSquare.Holds y) ∧ (∃ R, BoundedBy farSquare R) ∧ 0 < farSquare.len := by
  refine ⟨completeSolver_exists.choose, ⟨completeSolver_exists.choose_spec, infOracle_len, farSquare_wf, farSquare_scaled _ infOracle_len, by simp [farSquare], by simp [farSquare, Dom.hasUnbounded], by simp⟩,
    ⟨[1000000, 1000000], (farSquare_holds _).2 ⟨_, _, rfl, by norm_num, by norm_num, by norm_num, by norm_num⟩⟩, ⟨1000001, ?_⟩, by decide⟩
  intro y hy a ha
  obtain ⟨c, d, rfl, h1, h2, h3, h4⟩ := (farSquare_holds y).1 hy
  rw [abs_le]
  rcases List.mem_cons.1 ha with rfl | ha
  · constructor <;> linarith
  · rw [List.mem_singleton.1 ha]
    constructor <;> linarith

end Verif.Domain
