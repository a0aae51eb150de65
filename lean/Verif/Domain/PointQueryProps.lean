import Verif.Domain.HitRunProps

/-! # `is_point` of domains that are not boxes, and the starting corner of hit and run

euclidean.py 93-110 and 827-854. -/

namespace Verif.Domain
open Verif

/-- The rows of an orthogonal matrix of size `n`. -/
structure OrthRows (n : ℕ) (U : List Vec) : Prop where
  num : U.length = n
  len : ∀ u ∈ U, u.length = n
  unit : ∀ u ∈ U, Vec.sumSq u = 1
  parseval : ∀ y : Vec, y.length = n → Vec.sumSq y = (U.map (fun u => Vec.dot u y ^ 2)).sum

/-- Two points closer than the tolerance of `np.isclose` in every coordinate. -/
def Near (x y : Vec) : Prop :=
  ∀ (i : ℕ) a b, x[i]? = some a → y[i]? = some b → |a - b| ≤ 1 / 10 ^ 8 + 1 / 10 ^ 5 * |b|

theorem allClose_iff (x y : Vec) : allClose x y = true ↔ Near x y := by
  unfold allClose Near
  rw [List.all_eq_true]
  constructor
  · intro h i a b ha hb
    have := h (isClose a b) (List.mem_iff_getElem?.2 ⟨i, by rw [List.getElem?_zipWith, ha, hb]⟩)
    simpa [isClose] using this
  · intro h c hc
    obtain ⟨i, hi⟩ := List.mem_iff_getElem?.1 hc
    rw [List.getElem?_zipWith] at hi
    rcases ha : x[i]? with _ | a
    · rw [ha] at hi; simp at hi
    · rcases hb : y[i]? with _ | b
      · rw [ha, hb] at hi; simp at hi
      · rw [ha, hb] at hi
        simp at hi
        subst hi
        simpa [isClose] using h i a b ha hb

theorem sumSq_le_of_abs {x : Vec} {τ : ℝ} (h : ∀ c ∈ x, |c| ≤ τ) : Vec.sumSq x ≤ x.length * τ ^ 2 := by
  induction x with
  | nil => simp
  | cons a x ih =>
    have h1 := h a (by simp)
    have h2 := ih (fun c hc => h c (by simp [hc]))
    have : a ^ 2 ≤ τ ^ 2 := by
      rw [← sq_abs]
      exact pow_le_pow_left₀ (abs_nonneg _) h1 2
    simp only [Vec.sumSq_cons, List.length_cons, Nat.cast_add, Nat.cast_one]
    linarith

theorem abs_le_of_sumSq {x : Vec} {c : ℝ} (hc : c ∈ x) : c ^ 2 ≤ Vec.sumSq x := by
  induction x with
  | nil => simp at hc
  | cons a x ih =>
    rw [Vec.sumSq_cons]
    rcases List.mem_cons.1 hc with rfl | hc
    · linarith [Vec.sumSq_nonneg x]
    · nlinarith [ih hc]

theorem sum_le_len {us : List Vec} {f : Vec → ℝ} {K : ℝ} (h : ∀ u ∈ us, f u ≤ K) :
    (us.map f).sum ≤ us.length * K := by
  induction us with
  | nil => simp
  | cons u us ih =>
    simp only [List.map_cons, List.sum_cons, List.length_cons, Nat.cast_add, Nat.cast_one]
    linarith [h u (by simp), ih (fun v hv => h v (by simp [hv]))]

theorem dot_neg_left (u y : Vec) : Vec.dot (Vec.smul (-1) u) y = -(Vec.dot u y) := by
  rw [Vec.dot_comm, Vec.dot_smul_right, Vec.dot_comm]; ring

section
variable {S : Solver} (hS : ExactSolver S) {fb : CornerOracle} (ho : OracleLen fb) {D : Dom} (hD : D.WF) (hg : D.Scaled fb)
  (hb : ∀ l u, D ≠ .base (.box l u))
include hS ho hD hg hb

/-- A yes of the loop: the corners along every row are near each other. -/
theorem pointLoop_true (U : List Vec) (e : Option Bool) (he : FlagSound D e)
    (h : (pointLoop (D.corner S fb) e U).1 = .ok true) :
    ∀ u ∈ U, ∃ x1 x2, D.Holds x1 ∧ D.Holds x2 ∧ Near x1 x2 ∧
      ∀ y, D.Holds y → Vec.dot u x2 ≤ Vec.dot u y ∧ Vec.dot u y ≤ Vec.dot u x1 := by
  induction U generalizing e with
  | nil => simp
  | cons u us ih =>
    have f1 := flag_corner hS ho hD hg he u
    have r1 := corner_reply_partial hS ho hD hg hb he u
    simp only [pointLoop] at h
    rcases hc : D.corner S fb e u with ⟨r, e1⟩
    rw [hc] at f1 r1 h
    dsimp only at f1 r1 h
    cases r with
    | error r => cases r <;> simp at h
    | ok x1 =>
      have f2 := flag_corner hS ho hD hg f1 (Vec.smul (-1) u)
      have r2 := corner_reply_partial hS ho hD hg hb f1 (Vec.smul (-1) u)
      dsimp only at h
      rcases hc2 : D.corner S fb e1 (Vec.smul (-1) u) with ⟨r2', e2⟩
      rw [hc2] at f2 r2 h
      dsimp only at f2 r2 h
      cases r2' with
      | error r => cases r <;> simp at h
      | ok x2 =>
        dsimp only at h
        split at h
        · rename_i hcl
          intro v hv
          rcases List.mem_cons.1 hv with rfl | hv
          · refine ⟨x1, x2, r1.1, r2.1, (allClose_iff _ _).1 hcl, fun y hy => ⟨?_, r1.2 y hy⟩⟩
            have := r2.2 y hy
            rw [dot_neg_left, dot_neg_left] at this
            linarith
          · exact ih e2 f2 h v hv
        · simp at h

/-- **C121**, a yes of `is_point` (first query): the domain has a point, it is bounded, and if its points have no
coordinate larger than `R` then any two of them are at most `n (10⁻⁸ + 10⁻⁵ R)` apart. -/
theorem isPoint_true_partial {U : List Vec} (hU : OrthRows D.len U) (hn : 0 < D.len) {s : HR} (hs : s.pt = none)
    (he : FlagSound D s.empty) (h : (D.isPointQuery S fb U s).1 = .ok true) :
    (∃ y, D.Holds y) ∧ (∃ R, ∀ y, D.Holds y → ∀ c ∈ y, |c| ≤ R) ∧
    ∀ R, (∀ y, D.Holds y → ∀ c ∈ y, |c| ≤ R) → ∀ y z, D.Holds y → D.Holds z →
      Vec.norm (Vec.sub y z) ≤ D.len * (1 / 10 ^ 8 + 1 / 10 ^ 5 * R) := by
  have hp : (pointLoop (D.corner S fb) s.empty U).1 = .ok true := by
    unfold Dom.isPointQuery at h
    rw [hs] at h
    dsimp only at h
    rcases hl : pointLoop (D.corner S fb) s.empty U with ⟨r, e⟩
    rw [hl] at h
    cases r with
    | error r => cases h
    | ok b => exact h
  have key := pointLoop_true hS ho hD hg hb U s.empty he hp
  refine ⟨?_, ?_, ?_⟩
  · have : U ≠ [] := fun h0 => by rw [← hU.num, h0] at hn; simp at hn
    obtain ⟨u, hu⟩ := List.exists_mem_of_ne_nil U this
    obtain ⟨x1, _, h1, _⟩ := key u hu
    exact ⟨x1, h1⟩
  · obtain ⟨K, hK⟩ := sum_sq_le_of_bounds U D.Holds (fun u hu => by
      obtain ⟨x1, x2, _, _, _, hy⟩ := key u hu
      exact ⟨max (Vec.dot u x1) (-(Vec.dot u x2)), fun y h => abs_le'.2
        ⟨le_trans (hy y h).2 (le_max_left _ _), le_trans (neg_le_neg (hy y h).1) (le_max_right _ _)⟩⟩)
    refine ⟨Real.sqrt K, fun y hy c hc => ?_⟩
    have h1 := hK y hy
    rw [← hU.parseval y (holds_length hy)] at h1
    exact Real.abs_le_sqrt (le_trans (abs_le_of_sumSq hc) h1)
  · intro R hR y z hy hz
    have ly := holds_length hy
    have lz := holds_length hz
    set τ : ℝ := 1 / 10 ^ 8 + 1 / 10 ^ 5 * R with hτ
    have hR0 : 0 ≤ R := by
      rcases hc : y with _ | ⟨c, y'⟩
      · rw [hc] at ly; simp at ly; omega
      · exact le_trans (abs_nonneg c) (hR y hy c (by rw [hc]; simp))
    have hτ0 : 0 ≤ τ := by positivity
    have each : ∀ u ∈ U, Vec.dot u (Vec.sub y z) ^ 2 ≤ D.len * τ ^ 2 := by
      intro u hu
      obtain ⟨x1, x2, h1, h2, hnear, hbd⟩ := key u hu
      have l1 := holds_length h1
      have l2 := holds_length h2
      have e1 : Vec.dot u (Vec.sub y z) = Vec.dot u y - Vec.dot u z := Vec.dot_sub_right _ _ _ (by omega)
      have e2 : Vec.dot u (Vec.sub x1 x2) = Vec.dot u x1 - Vec.dot u x2 := Vec.dot_sub_right _ _ _ (by omega)
      have a1 := hbd y hy
      have a2 := hbd z hz
      have c1 := Vec.dot_sq_le u (Vec.sub x1 x2)
      rw [hU.unit u hu, one_mul] at c1
      have c2 : Vec.sumSq (Vec.sub x1 x2) ≤ (Vec.sub x1 x2).length * τ ^ 2 := by
        refine sumSq_le_of_abs (fun c hc => ?_)
        obtain ⟨i, hi⟩ := List.mem_iff_getElem?.1 hc
        unfold Vec.sub at hi
        rw [List.getElem?_zipWith] at hi
        rcases ha : x1[i]? with _ | a
        · rw [ha] at hi; simp at hi
        · rcases hb' : x2[i]? with _ | b
          · rw [ha, hb'] at hi; simp at hi
          · rw [ha, hb'] at hi
            simp at hi
            subst hi
            have n1 := hnear i a b ha hb'
            have n2 := hR x2 h2 b (List.mem_of_getElem? hb')
            rw [hτ]
            nlinarith
      rw [show (Vec.sub x1 x2).length = D.len by rw [Vec.length_sub, l1, l2]; simp] at c2
      rw [e2] at c1
      rw [e1]
      have : (Vec.dot u y - Vec.dot u z) ^ 2 ≤ (Vec.dot u x1 - Vec.dot u x2) ^ 2 := by
        apply sq_le_sq'
        · linarith [a1.1, a1.2, a2.1, a2.2]
        · linarith [a1.1, a1.2, a2.1, a2.2]
      linarith
    have tot := sum_le_len each
    rw [← hU.parseval (Vec.sub y z) (by rw [Vec.length_sub, ly, lz]; simp), hU.num] at tot
    unfold Vec.norm
    rw [← Real.sqrt_sq (by positivity : 0 ≤ (D.len : ℝ) * τ)]
    apply Real.sqrt_le_sqrt
    nlinarith

end

theorem afterCalls_append (nnls : NNLS) (TOL : ℝ) (fb : CornerOracle) (fbD : List XR × List XR) (D : Dom) (e : Option Bool)
    (ks ks' : List (Solver × SCall)) :
    D.afterCalls nnls TOL fb fbD e (ks ++ ks') = D.afterCalls nnls TOL fb fbD (D.afterCalls nnls TOL fb fbD e ks) ks' := by
  induction ks generalizing e with
  | nil => rfl
  | cons k ks ih =>
    obtain ⟨S, k⟩ := k
    exact ih _

section
variable {S : Solver} (hS : CompleteSolver S) (nnls : NNLS) (TOL : ℝ) {fb : CornerOracle} (ho : OracleLen fb)
  (fbD : List XR × List XR) {D : Dom} (hD : D.WF) (hg : D.Scaled fb) (hb : ∀ l u, D ≠ .base (.box l u)) (hu : ¬ D.hasUnbounded)
  (hc : ¬ D.noConstraints fb)
include hS ho hD hg hb hu hc

theorem corner_after (ks : List (Solver × SCall)) (p : Vec) :
    (D.corner S fb (D.afterCalls nnls TOL fb fbD none ks) p).2 =
      D.afterCalls nnls TOL fb fbD none (ks ++ [(S, .corner p)]) := by
  rw [afterCalls_append]
  rfl

theorem pointLoop_near (hat : ∀ p : Vec, p.length = D.len → ∃ x, D.Holds x ∧ ∀ y, D.Holds y → Vec.dot p y ≤ Vec.dot p x)
    (hnear : ∀ x y, D.Holds x → D.Holds y → Near x y) (U : List Vec) (hU : ∀ u ∈ U, u.length = D.len)
    (ks : List (Solver × SCall)) (hks : ∀ k ∈ ks, ExactSolver k.1) :
    (pointLoop (D.corner S fb) (D.afterCalls nnls TOL fb fbD none ks) U).1 = .ok true := by
  induction U generalizing ks with
  | nil => rfl
  | cons u us ih =>
    have step : ∀ ks, (∀ k ∈ ks, ExactSolver k.1) → ∀ p : Vec, p.length = D.len →
        ∃ w, D.Holds w ∧ D.corner S fb (D.afterCalls nnls TOL fb fbD none ks) p =
          (.ok w, D.afterCalls nnls TOL fb fbD none (ks ++ [(S, .corner p)])) := by
      intro ks hks p hp
      obtain ⟨x, hx, hmax⟩ := hat p hp
      obtain ⟨w, hw⟩ := (corner_complete_partial hS nnls TOL ho fbD hD hg hb hu hc ks hks p hp).2.2 x hx hmax
      have hr := corner_history_partial hS.toExactSolver nnls TOL ho fbD hD hg hb ks hks p
      rw [hw] at hr
      exact ⟨w, hr.1, Prod.ext hw (corner_after hS nnls TOL ho fbD hD hg hb hu hc ks p)⟩
    have hks1 : ∀ k ∈ ks ++ [(S, SCall.corner u)], ExactSolver k.1 := by
      intro k hk
      rcases List.mem_append.1 hk with h | h
      · exact hks k h
      · rw [List.mem_singleton.1 h]; exact hS.toExactSolver
    have hks2 : ∀ k ∈ (ks ++ [(S, SCall.corner u)]) ++ [(S, SCall.corner (Vec.smul (-1) u))], ExactSolver k.1 := by
      intro k hk
      rcases List.mem_append.1 hk with h | h
      · exact hks1 k h
      · rw [List.mem_singleton.1 h]; exact hS.toExactSolver
    obtain ⟨w1, h1, e1⟩ := step ks hks u (hU u (by simp))
    obtain ⟨w2, h2, e2⟩ := step _ hks1 (Vec.smul (-1) u) (by rw [Vec.length_smul]; exact hU u (by simp))
    simp only [pointLoop, e1, e2]
    rw [if_pos ((allClose_iff _ _).2 (hnear w1 w2 h1 h2))]
    exact ih (fun v hv => hU v (by simp [hv])) _ hks2

/-- **C121**, when the answer is yes: after any history of calls of the domain's other methods, the first `is_point`
of a nonempty bounded domain (every direction has a corner) all of whose points are near each other says yes. -/
theorem isPoint_near_partial (hat : ∀ p : Vec, p.length = D.len → ∃ x, D.Holds x ∧ ∀ y, D.Holds y → Vec.dot p y ≤ Vec.dot p x)
    (hnear : ∀ x y, D.Holds x → D.Holds y → Near x y) {U : List Vec} (hU : ∀ u ∈ U, u.length = D.len)
    (ks : List (Solver × SCall)) (hks : ∀ k ∈ ks, ExactSolver k.1) {s : HR} (hs : s.pt = none)
    (he : s.empty = D.afterCalls nnls TOL fb fbD none ks) :
    (D.isPointQuery S fb U s).1 = .ok true ∧ (D.isPointQuery S fb U s).2.pt = some true := by
  have h := pointLoop_near hS nnls TOL ho fbD hD hg hb hu hc hat hnear U hU ks hks
  rw [← he] at h
  unfold Dom.isPointQuery
  rw [hs]
  dsimp only
  rcases hl : pointLoop (D.corner S fb) s.empty U with ⟨r, e⟩
  rw [hl] at h
  dsimp only at h
  subst h
  exact ⟨rfl, rfl⟩

/-- **C121**: a domain with exactly one point is reported as such. -/
theorem isPoint_singleton_partial {x : Vec} (hx : ∀ y, D.Holds y ↔ y = x) {U : List Vec} (hU : ∀ u ∈ U, u.length = D.len)
    (ks : List (Solver × SCall)) (hks : ∀ k ∈ ks, ExactSolver k.1) {s : HR} (hs : s.pt = none)
    (he : s.empty = D.afterCalls nnls TOL fb fbD none ks) :
    (D.isPointQuery S fb U s).1 = .ok true := by
  refine (isPoint_near_partial hS nnls TOL ho fbD hD hg hb hu hc (fun p _ => ⟨x, (hx x).2 rfl, fun y hy => ?_⟩) ?_
    hU ks hks hs he).1
  · rw [(hx y).1 hy]
  · intro a b ha hb' i c d hc' hd
    rw [(hx a).1 ha] at hc'
    rw [(hx b).1 hb', hc'] at hd
    cases hd
    rw [sub_self, abs_zero]
    positivity

/-- **C121**: an empty domain is never reported as a point, and the query does not raise. -/
theorem isPoint_empty_partial (hE : ∀ y, ¬ D.Holds y) {U : List Vec} (hU : OrthRows D.len U) (hn : 0 < D.len)
    (ks : List (Solver × SCall)) (hks : ∀ k ∈ ks, ExactSolver k.1) {s : HR} (hs : s.pt = none)
    (he : s.empty = D.afterCalls nnls TOL fb fbD none ks) :
    (D.isPointQuery S fb U s).1 = .ok false := by
  rcases hUU : U with _ | ⟨u, us⟩
  · have := hU.num
    rw [hUU] at this
    simp at this
    omega
  · have := (corner_complete_partial hS nnls TOL ho fbD hD hg hb hu hc ks hks u (hU.len u (by rw [hUU]; simp))).1 hE
    rw [← he] at this
    unfold Dom.isPointQuery
    rw [hs]
    simp only [pointLoop]
    rcases hl : D.corner S fb s.empty u with ⟨r, e⟩
    rw [hl] at this
    dsimp only at this
    subst this
    rfl

end

/-- **C121**: the answer is remembered: later queries repeat it whatever the solver and the random matrix. -/
theorem isPoint_cached (S S' : Solver) (fb : CornerOracle) (D : Dom) (U U' : List Vec) (s : HR) (b : Bool)
    (h : (D.isPointQuery S fb U s).1 = .ok b) :
    (D.isPointQuery S' fb U' (D.isPointQuery S fb U s).2).1 = .ok b := by
  have : (D.isPointQuery S fb U s).2.pt = some b := by
    unfold Dom.isPointQuery at h ⊢
    rcases hp : s.pt with _ | c
    · rw [hp] at h
      dsimp only at h ⊢
      rcases hl : pointLoop (D.corner S fb) s.empty U with ⟨r, e⟩
      rw [hl] at h
      cases r with
      | error r => cases h
      | ok c => cases h; rfl
    · rw [hp] at h
      cases h
      exact hp
  rw [Dom.isPointQuery, this]

/-! ## The corners visited by the starting point -/

/-- The corners found by `_corner_center` for the first directions: one pair per direction, both extreme. -/
def CornersOf (D : Dom) (us : List Vec) (X : List Vec) : Prop :=
  X.length = 2 * us.length ∧ ∀ (k : ℕ) u, us[k]? = some u → ∃ x1 x2, X[2 * k]? = some x1 ∧ X[2 * k + 1]? = some x2 ∧
    D.Holds x1 ∧ D.Holds x2 ∧ ∀ y, D.Holds y → Vec.dot u x2 ≤ Vec.dot u y ∧ Vec.dot u y ≤ Vec.dot u x1

/-- The corners look like several points. -/
def Apart (X : List Vec) : Prop := 1 / 10 ^ 8 < |spread X|

theorem isClose_zero_false (a : ℝ) : isClose a 0 = false ↔ 1 / 10 ^ 8 < |a| := by
  simp [isClose]

theorem cornersOf_snoc {D : Dom} {us X : List Vec} (h : CornersOf D us X) {u x1 x2 : Vec} (h1 : D.Holds x1) (h2 : D.Holds x2)
    (hm : ∀ y, D.Holds y → Vec.dot u x2 ≤ Vec.dot u y ∧ Vec.dot u y ≤ Vec.dot u x1) :
    CornersOf D (us ++ [u]) (X ++ [x1, x2]) := by
  obtain ⟨hl, h⟩ := h
  refine ⟨by simp [hl]; omega, fun k v hv => ?_⟩
  rcases lt_or_ge k us.length with hk | hk
  · rw [List.getElem?_append_left hk] at hv
    obtain ⟨a, b, ha, hb, r⟩ := h k v hv
    refine ⟨a, b, ?_, ?_, r⟩
    · rw [List.getElem?_append_left (by omega), ha]
    · rw [List.getElem?_append_left (by omega), hb]
  · have hk' : k = us.length := by
      have := (List.getElem?_eq_some_iff.1 hv).1
      simp at this
      omega
    subst hk'
    simp at hv
    subst hv
    refine ⟨x1, x2, ?_, ?_, h1, h2, hm⟩
    · rw [List.getElem?_append_right (by omega)]; simp [hl]
    · rw [List.getElem?_append_right (by omega)]
      rw [show 2 * us.length + 1 - X.length = 1 by omega]
      rfl

section
variable {S : Solver} (hS : ExactSolver S) {fb : CornerOracle} (ho : OracleLen fb) {D : Dom} (hD : D.WF) (hg : D.Scaled fb)
  (hb : ∀ l u, D ≠ .base (.box l u))
include hS ho hD hg hb

theorem cornerLoop_spec (us : List Vec) (e : Option Bool) (he : FlagSound D e) (vs X : List Vec) (hX : CornersOf D vs X)
    {X' : List Vec} (h : (cornerLoop (D.corner S fb) vs.length e us X).1 = .ok X') :
    ∃ k ≤ us.length, CornersOf D (vs ++ us.take k) X' ∧
      (k < us.length → 4 ≤ vs.length + k ∧ Apart X') ∧
      ∀ j, 0 < j → j < k → 4 ≤ vs.length + j → ¬ Apart (X'.take (2 * (vs.length + j))) := by
  induction us generalizing e vs X with
  | nil =>
    cases h
    exact ⟨0, le_rfl, by simpa using hX, by simp, by omega⟩
  | cons u us ih =>
    have f1 := flag_corner hS ho hD hg he u
    have r1 := corner_reply_partial hS ho hD hg hb he u
    simp only [cornerLoop] at h
    rcases hc : D.corner S fb e u with ⟨r, e1⟩
    rw [hc] at f1 r1 h
    dsimp only at f1 r1 h
    cases r with
    | error r => simp at h
    | ok x1 =>
      have f2 := flag_corner hS ho hD hg f1 (Vec.smul (-1) u)
      have r2 := corner_reply_partial hS ho hD hg hb f1 (Vec.smul (-1) u)
      dsimp only at h
      rcases hc2 : D.corner S fb e1 (Vec.smul (-1) u) with ⟨r2', e2⟩
      rw [hc2] at f2 r2 h
      dsimp only at f2 r2 h
      cases r2' with
      | error r => simp at h
      | ok x2 =>
        dsimp only at h
        have hX1 : CornersOf D (vs ++ [u]) (X ++ [x1, x2]) := by
          refine cornersOf_snoc hX r1.1 r2.1 (fun y hy => ⟨?_, r1.2 y hy⟩)
          have := r2.2 y hy
          rw [dot_neg_left, dot_neg_left] at this
          linarith
        split at h
        · rename_i hst
          cases h
          refine ⟨1, by simp, by simpa using hX1, fun _ => ⟨by omega, (isClose_zero_false _).1 hst.2⟩, by omega⟩
        · rename_i hst
          have h' : (cornerLoop (D.corner S fb) (vs ++ [u]).length e2 us (X ++ [x1, x2])).1 = .ok X' := by
            rw [List.length_append]; exact h
          obtain ⟨k, hk, a1, a2, a3⟩ := ih e2 f2 (vs ++ [u]) _ hX1 h'
          refine ⟨k + 1, by simpa using hk, by simpa using a1, fun hlt => ?_, fun j hj0 hj h4 => ?_⟩
          · have := a2 (by simpa using hlt)
            simp at this
            exact ⟨by omega, this.2⟩
          · rcases Nat.eq_or_lt_of_le (show 1 ≤ j by omega) with rfl | hj1
            · intro hap
              refine hst ⟨by omega, (isClose_zero_false _).2 ?_⟩
              have pre : ∀ (us : List Vec) (i : ℕ) e X X', (cornerLoop (D.corner S fb) i e us X).1 = .ok X' → X <+: X' := by
                intro us
                induction us with
                | nil => intro i e X X' h; cases h; exact List.prefix_rfl
                | cons u us ihp =>
                  intro i e X X' h
                  simp only [cornerLoop] at h
                  rcases hc : D.corner S fb e u with ⟨r, e1⟩
                  rw [hc] at h
                  cases r with
                  | error r => simp at h
                  | ok x1 =>
                    dsimp only at h
                    rcases hc2 : D.corner S fb e1 (Vec.smul (-1) u) with ⟨r, e2⟩
                    rw [hc2] at h
                    cases r with
                    | error r => simp at h
                    | ok x2 =>
                      dsimp only at h
                      split at h
                      · cases h; exact List.prefix_append _ _
                      · exact (List.prefix_append _ _).trans (ihp _ _ _ _ h)
              have hp := pre _ _ _ _ _ h
              rw [List.prefix_iff_eq_take] at hp
              have hl := hX1.1
              unfold Apart at hap
              rw [show 2 * (vs.length + 1) = (X ++ [x1, x2]).length by rw [hl]; simp, ← hp] at hap
              exact hap
            · have := a3 (j - 1) (by omega) (by omega) (by simp; omega)
              rw [show 2 * ((vs ++ [u]).length + (j - 1)) = 2 * (vs.length + j) by simp; omega] at this
              exact this

end

theorem mulVec_eye (n : ℕ) (v : Vec) (h : v.length = n) : Vec.mulVec (eyeRows n) v = v := by
  apply List.ext_getElem?
  intro i
  unfold Vec.mulVec eyeRows
  rw [List.getElem?_map, List.getElem?_map]
  rcases lt_or_ge i n with hi | hi
  · rw [List.getElem?_range hi, List.getElem?_eq_getElem (by omega)]
    simp only [Option.map_some]
    rw [dot_unitRow n i v h hi, List.getD_eq_getElem?_getD, List.getElem?_eq_getElem (by omega)]
    rfl
  · rw [List.getElem?_eq_none (by simpa using hi), List.getElem?_eq_none (by omega)]
    rfl

theorem mean_step (m : ℝ) (hm : 0 < m) (x c : Vec) (h : x.length = c.length) :
    Vec.smul (1 / (m + 1)) (Vec.add (Vec.smul 1 x) c) = Vec.lerp (m / (m + 1)) x (Vec.smul (1 / m) c) := by
  induction x generalizing c with
  | nil => simp [Vec.lerp]
  | cons a x ih => cases c with
    | nil => simp at h
    | cons b c =>
      have := ih c (by simpa using h)
      unfold Vec.lerp at this ⊢
      simp only [Vec.smul_cons, Vec.add_cons, List.cons.injEq, this, and_true]
      field_simp
      ring

theorem mean_one (x : Vec) (n : ℕ) (h : x.length = n) : Vec.smul (1 / ((1 : ℕ) : ℝ)) (Vec.add (Vec.smul 1 x) (List.replicate n 0)) = x := by
  induction x generalizing n with
  | nil => simp
  | cons a x ih =>
    obtain ⟨m, rfl⟩ : ∃ m, n = m + 1 := ⟨x.length, by simpa using h.symm⟩
    rw [List.replicate_succ]
    simp only [Vec.smul_cons, Vec.add_cons, List.cons.injEq]
    exact ⟨by norm_num, ih m (by simpa using h)⟩

/-- The mean of points of a domain is in the domain. -/
theorem mean_holds {D : Dom} (X : List Vec) (hX : X ≠ []) (h : ∀ x ∈ X, D.Holds x) :
    D.Holds (Vec.smul (1 / (X.length : ℝ)) (comb D.len (List.replicate X.length 1) X)) := by
  induction X with
  | nil => exact absurd rfl hX
  | cons x X ih =>
    have hx := h x (by simp)
    rcases X with _ | ⟨y, X⟩
    · have := mean_one x D.len (holds_length hx)
      simp only [List.length_cons, List.length_nil, List.replicate_succ, List.replicate_zero, comb]
      rw [this]
      exact hx
    · have hy := ih (by simp) (fun z hz => h z (by simp [hz]))
      have hl := holds_length hy
      rw [Vec.length_smul] at hl
      have e := mean_step ((y :: X).length : ℝ) (by simp; positivity) x _ ((holds_length hx).trans hl.symm)
      rw [show (x :: y :: X).length = (y :: X).length + 1 from rfl, List.replicate_succ, comb, Nat.cast_add, Nat.cast_one, e]
      refine dom_holds_convex hx hy (by positivity) ?_
      rw [div_le_one (by positivity)]
      linarith

/-- **C121**, the start of the random walk when no Chebyshev center is available: `_corner_center()` is the mean of the
corners in the directions `±u` for the first `k` columns of the random matrix; it lies in the domain; less than all columns are used
only from the fourth on and if the corners so far are more than `10⁻⁸` apart, and never more columns than that. -/
theorem cornerCenter_partial {S : Solver} (hS : ExactSolver S) {nnls : NNLS} {TOL : ℝ} {fb : CornerOracle} (ho : OracleLen fb) {D : Dom} (hD : D.WF)
    (hg : D.Scaled fb) (hb : ∀ l u, D ≠ .base (.box l u)) {U : List Vec} (hU : U ≠ []) {e : Option Bool} (he : FlagSound D e) {x : Vec}
    (h : (D.cornerCenter S nnls TOL fb U e).1 = .ok x) :
    ∃ k X, k ≤ U.length ∧ CornersOf D (U.take k) X ∧ (k < U.length → 4 ≤ k ∧ Apart X) ∧
      (∀ j, 4 ≤ j → j < k → ¬ Apart (X.take (2 * j))) ∧
      x = Vec.smul (1 / (X.length : ℝ)) (comb D.len (List.replicate X.length 1) X) ∧ D.Holds x := by
  unfold Dom.cornerCenter at h
  have hf := cornerLoop_flag hS ho hD hg U 0 e he []
  rcases hl : cornerLoop (D.corner S fb) 0 e U [] with ⟨r, e1⟩
  rw [hl] at h hf
  cases r with
  | error r => cases h
  | ok X =>
    dsimp only at h hf
    obtain ⟨k, hk, a1, a2, a3⟩ := cornerLoop_spec hS ho hD hg hb U e he [] [] ⟨rfl, by simp⟩ (X' := X) (by rw [List.length_nil, hl])
    simp only [List.nil_append, List.length_nil, zero_add] at a1 a2 a3
    have hX : ∀ x ∈ X, D.Holds x := by
      intro x hx
      obtain ⟨i, hi⟩ := List.mem_iff_getElem?.1 hx
      have hil := (List.getElem?_eq_some_iff.1 hi).1
      rw [a1.1] at hil
      obtain ⟨u, hu⟩ : ∃ u, (U.take k)[i / 2]? = some u := ⟨_, List.getElem?_eq_getElem (by omega)⟩
      obtain ⟨x1, x2, b1, b2, b3, b4, -⟩ := a1.2 _ u hu
      rcases Nat.mod_two_eq_zero_or_one i with hm | hm
      · rw [show 2 * (i / 2) = i by omega, hi] at b1
        cases b1; exact b3
      · rw [show 2 * (i / 2) + 1 = i by omega, hi] at b2
        cases b2; exact b4
    have hne : X ≠ [] := by
      rintro rfl
      have h1 := a1.1
      rw [List.length_nil, List.length_take, min_eq_left hk] at h1
      have : k = 0 := by omega
      have hUl : 0 < U.length := List.length_pos_iff.2 hU
      have := (a2 (by omega)).1
      omega
    have hmean := mean_holds X hne hX
    refine ⟨k, X, hk, a1, a2, fun j h4 hj => a3 j (by omega) hj h4, ?_⟩
    have hr := closest_reply_partial hS nnls TOL ho hD hg hf (Vec.smul (1 / (X.length : ℝ)) (comb D.len (List.replicate X.length 1) X)) none
    rw [h] at hr
    have hx : x = Vec.smul (1 / (X.length : ℝ)) (comb D.len (List.replicate X.length 1) X) := by
      rcases hr with ⟨-, hr⟩ | ⟨h1, h2⟩
      · exact hr
      · have l1 := holds_length h1
        have l2 := holds_length hmean
        generalize hc : Vec.smul (1 / (X.length : ℝ)) (comb D.len (List.replicate X.length 1) X) = c at *
        have h3 := h2 c hmean
        rw [Option.getD_none, mulVec_eye _ _ (by rw [Vec.length_sub, l1, l2]; simp), mulVec_eye _ _ (by rw [Vec.length_sub, l2]; simp)] at h3
        have h0 : Vec.norm (Vec.sub c c) = 0 := by
          unfold Vec.norm
          rw [show Vec.sumSq (Vec.sub c c) = 0 from by
            clear * -
            induction c with
            | nil => simp
            | cons a c ih => simp [ih]]
          simp
        rw [h0] at h3
        exact eq_of_norm_sub_zero (l1.trans l2.symm) (le_antisymm h3 (Vec.norm_nonneg _))
    exact ⟨hx, hx ▸ hmean⟩

/-! ## A square far from the origin -/

/-- `LinIneqDomain(lb = [10⁶, 10⁶], ub = [10⁶ + 1, 10⁶ + 1])`. -/
noncomputable def farLQ : LQ := ⟨2, [.fin 1000000, .fin 1000000], [.fin 1000001, .fin 1000001], [], [], [], [], [], [], []⟩
noncomputable def farSquare : Dom := .base (.linineq farLQ)

theorem farSquare_wf : farSquare.WF := by
  refine ⟨?_, rfl, rfl, rfl⟩
  constructor <;> simp [farLQ, XR.okLower, XR.okUpper]

theorem farSquare_holds (y : Vec) : farSquare.Holds y ↔ ∃ a b, y = [a, b] ∧ 1000000 ≤ a ∧ a ≤ 1000001 ∧ 1000000 ≤ b ∧ b ≤ 1000001 := by
  constructor
  · rintro ⟨h1, h, -⟩
    have h1 : y.length = 2 := h1
    obtain ⟨a, b, rfl⟩ := List.length_eq_two.1 h1
    exact ⟨a, b, rfl, h.lb 0 _ a rfl rfl, h.ub 0 _ a rfl rfl, h.lb 1 _ b rfl rfl, h.ub 1 _ b rfl rfl⟩
  · rintro ⟨a, b, rfl, h1, h2, h3, h4⟩
    refine ⟨rfl, ⟨?_, ?_, ?_, ?_, ?_⟩, by simp⟩
    · intro i r xi e1 e2
      rcases i with _ | _ | i <;> simp [Base.acc, farLQ] at e1 e2 <;> subst e1 e2 <;> assumption
    · intro i r xi e1 e2
      rcases i with _ | _ | i <;> simp [Base.acc, farLQ] at e1 e2 <;> subst e1 e2 <;> assumption
    · intro i row bi e1; simp [Base.acc, farLQ] at e1
    · intro i row bi e1; simp [Base.acc, farLQ] at e1
    · intro i L y rho e1; simp [Base.acc, farLQ] at e1

theorem farSquare_scaled (fb : CornerOracle) (ho : OracleLen fb) : farSquare.Scaled fb := by
  have hl : (Base.linineq farLQ).len = 2 := rfl
  obtain ⟨e1, e2⟩ := box_normBounds [1000000, 1000000] [1000001, 1000001] (.cons (by norm_num) (.cons (by norm_num) .nil))
    (fb (.linineq farLQ)).1 (fb (.linineq farLQ)).2 (by rw [(ho _).1, hl]; rfl) (by rw [(ho _).2, hl]; rfl)
  have n1 : (Base.linineq farLQ).normLb fb = [.fin 1000000, .fin 1000000] := e1
  have n2 : (Base.linineq farLQ).normUb fb = [.fin 1000001, .fin 1000001] := e2
  refine ⟨.inl ⟨[1000000, 1000000], rfl⟩, .inl ⟨[1000001, 1000001], rfl⟩, .inr (by simp [Base.acc, farLQ]), ?_⟩
  intro i a b ha hb
  rw [n1] at ha
  rw [n2] at hb
  rcases i with _ | _ | i <;> simp at ha hb <;> subst ha hb <;> norm_num

theorem farSquare_near (x y : Vec) (hx : farSquare.Holds x) (hy : farSquare.Holds y) : Near x y := by
  obtain ⟨a, b, rfl, h1, h2, h3, h4⟩ := (farSquare_holds x).1 hx
  obtain ⟨c, d, rfl, k1, k2, k3, k4⟩ := (farSquare_holds y).1 hy
  intro i p q hp hq
  have : ∀ p q : ℝ, 1000000 ≤ p → p ≤ 1000001 → 1000000 ≤ q → q ≤ 1000001 → |p - q| ≤ 1 / 10 ^ 8 + 1 / 10 ^ 5 * |q| := by
    intro p q p1 p2 q1 q2
    rw [abs_of_nonneg (by linarith : (0:ℝ) ≤ q)]
    rw [abs_le]
    constructor <;> norm_num <;> linarith
  rcases i with _ | _ | i <;> simp at hp hq <;> subst hp hq
  · exact this _ _ h1 h2 k1 k2
  · exact this _ _ h3 h4 k3 k4

theorem farSquare_attained (p : Vec) (hp : p.length = farSquare.len) :
    ∃ x, farSquare.Holds x ∧ ∀ y, farSquare.Holds y → Vec.dot p y ≤ Vec.dot p x := by
  have hp : p.length = 2 := hp
  obtain ⟨a, b, rfl⟩ := List.length_eq_two.1 hp
  have one : ∀ a : ℝ, ∃ t, 1000000 ≤ t ∧ t ≤ 1000001 ∧ ∀ s, 1000000 ≤ s → s ≤ 1000001 → a * s ≤ a * t := by
    intro a
    rcases le_total 0 a with h | h
    · exact ⟨1000001, by norm_num, le_rfl, fun s _ h2 => mul_le_mul_of_nonneg_left h2 h⟩
    · exact ⟨1000000, le_rfl, by norm_num, fun s h1 _ => mul_le_mul_of_nonpos_left h1 h⟩
  obtain ⟨s, s1, s2, s3⟩ := one a
  obtain ⟨t, t1, t2, t3⟩ := one b
  refine ⟨[s, t], (farSquare_holds _).2 ⟨s, t, rfl, s1, s2, t1, t2⟩, fun y hy => ?_⟩
  obtain ⟨c, d, rfl, h1, h2, h3, h4⟩ := (farSquare_holds y).1 hy
  simp only [Vec.dot_cons, Vec.dot_nil_left]
  linarith [s3 c h1 h2, t3 d h3 h4]

theorem farLQ_cheb (x y r : ℝ) : chebFeas farLQ [x, y, r] ↔
    1000000 + r ≤ x ∧ x + r ≤ 1000001 ∧ 1000000 + r ≤ y ∧ y + r ≤ 1000001 := by
  have e1 : Vec.norm [(1 : ℝ), 0] = 1 := by simp [Vec.norm, Vec.sumSq]
  have e2 : Vec.norm [(0 : ℝ), 1] = 1 := by simp [Vec.norm, Vec.sumSq]
  have e3 : Vec.norm [(-1 : ℝ), 0] = 1 := by simp [Vec.norm, Vec.sumSq]
  have e4 : Vec.norm [(0 : ℝ), -1] = 1 := by simp [Vec.norm, Vec.sumSq]
  have hr : augRows farLQ = [([-1, 0], -1000000), ([0, -1], -1000000), ([1, 0], 1000001), ([0, 1], 1000001)] := by
    simp [augRows, farLQ, eyeRows, XR.isFinite, XR.toReal, Vec.smul, List.range_succ]
  unfold chebFeas
  rw [hr]
  simp [farLQ, e1, e2, e3, e4]
  constructor
  · rintro ⟨h1, h2, h3, h4⟩
    refine ⟨?_, ?_, ?_, ?_⟩ <;> linarith
  · rintro ⟨h1, h2, h3, h4⟩
    refine ⟨?_, ?_, ?_, ?_⟩ <;> linarith

/-- **C121 is false away from the origin**: the unit square at `(10⁶, 10⁶)`, given by inequality bounds, is reported to be
a point, for every random matrix; and `sample(draw)` of the fresh domain returns the same point `draw` times. -/
theorem isPoint_far_false {S : Solver} (hS : CompleteSolver S) {fb : CornerOracle} (ho : OracleLen fb) {U : List Vec}
    (hU : ∀ u ∈ U, u.length = 2) :
    farSquare.Holds [1000000, 1000000] ∧ farSquare.Holds [1000001, 1000001] ∧
    (farSquare.isPointQuery S fb U {}).1 = .ok true ∧
    ∃ c, ∀ nnls TOL tol he Q ass perm draw, ∃ s,
      farSquare.defaultSample nnls TOL tol he fb Q S U ass perm draw {} = some (.ok (List.replicate draw c), s) := by
  have hnc : ¬ farSquare.noConstraints fb := by
    intro h
    have n := bounds_norm ho (d := .linineq farLQ) farSquare_wf (farSquare_scaled fb ho) [0, 0] rfl
    have h0 := (dom_feas_iff fb ho farSquare farSquare_wf (farSquare_scaled fb ho) [0, 0] rfl).1 (noConstraints_feas h _)
    obtain ⟨a, b, e, h1, -⟩ := (farSquare_holds _).1 h0
    simp at e
    rw [← e.1] at h1
    norm_num at h1
  have hpt : (farSquare.isPointQuery S fb U {}).1 = .ok true :=
    (isPoint_near_partial hS (fun _ _ => []) 0 ho ([], []) farSquare_wf (farSquare_scaled fb ho) (by simp [farSquare])
      (by simp [farSquare, Dom.hasUnbounded]) hnc farSquare_attained farSquare_near (U := U) hU [] (by simp) rfl rfl).1
  refine ⟨(farSquare_holds _).2 ⟨_, _, rfl, by norm_num⟩, (farSquare_holds _).2 ⟨_, _, rfl, by norm_num⟩, hpt, ?_⟩
  have hfind : ∃ w, S 3 (chebFeas farLQ) (fun z => -(z.getD 2 0)) = .optimal w := by
    refine hS.finds_optimal _ _ _ [2000001 / 2, 2000001 / 2, 1 / 2] ⟨rfl, (farLQ_cheb _ _ _).2 (by norm_num), fun w hw hf => ?_⟩
    obtain ⟨a, b, c, rfl⟩ := List.length_eq_three.1 hw
    have := (farLQ_cheb a b c).1 hf
    simp
    linarith [this.1, this.2.1]
  obtain ⟨w, hw⟩ := hfind
  have hc : farSquare.centerProp S = .ok (w.take 2) := by
    show chebLQ S farLQ = _
    unfold chebLQ
    rw [show farLQ.n = 2 from rfl, hw]
  refine ⟨w.take 2, fun nnls TOL tol he Q ass perm draw => ?_⟩
  rcases hq : farSquare.isPointQuery S fb U {} with ⟨r, s⟩
  rw [hq] at hpt
  dsimp only at hpt
  subst hpt
  exact ⟨s, by unfold Dom.defaultSample; rw [hq, hc]⟩

/-- The hypotheses of the theorems above are met, with rows of the identity. -/
example : ∃ (S : Solver) (fb : CornerOracle), CompleteSolver S ∧ OracleLen fb ∧ OrthRows farSquare.len [[1, 0], [0, 1]] ∧
    (farSquare.isPointQuery S fb [[1, 0], [0, 1]] {}).1 = .ok true := by
  obtain ⟨S, hS⟩ := completeSolver_exists
  obtain ⟨fb, ho⟩ : ∃ fb : CornerOracle, OracleLen fb :=
    ⟨fun d => (List.replicate d.len (.fin 0), List.replicate d.len (.fin 0)), fun d => by simp⟩
  refine ⟨S, fb, hS, ho, ⟨rfl, by simp [farSquare, farLQ, Dom.len, Base.len, Base.acc], by simp, ?_⟩,
    (isPoint_far_false hS ho (by simp)).2.2.1⟩
  intro y hy
  have hy : y.length = 2 := hy
  obtain ⟨a, b, rfl⟩ := List.length_eq_two.1 hy
  simp

/-- The unit square with the equality constraints `x = y = 1/2`. -/
noncomputable def oneLQ : LQ := ⟨2, [.fin 0, .fin 0], [.fin 1, .fin 1], [], [], [[1, 0], [0, 1]], [1 / 2, 1 / 2], [], [], []⟩
noncomputable def onePoint : Dom := .base (.linineq oneLQ)

/-- `onePoint` meets the hypotheses of `isPoint_singleton_partial` (nonempty, bounds of finite size, equality constraints). -/
example (fb : CornerOracle) (ho : OracleLen fb) : onePoint.WF ∧ onePoint.Scaled fb ∧ ¬ onePoint.hasUnbounded ∧
    (∀ y, onePoint.Holds y ↔ y = [1 / 2, 1 / 2]) ∧ ¬ onePoint.noConstraints fb := by
  refine ⟨⟨?_, rfl, rfl, rfl⟩, ?_, by simp [onePoint, Dom.hasUnbounded], ?_, ?_⟩
  · constructor <;> simp [oneLQ, XR.okLower, XR.okUpper]
  · have hl : (Base.linineq oneLQ).len = 2 := rfl
    obtain ⟨e1, e2⟩ := box_normBounds [0, 0] [1, 1] (.cons (by norm_num) (.cons (by norm_num) .nil))
      (fb (.linineq oneLQ)).1 (fb (.linineq oneLQ)).2 (by rw [(ho _).1, hl]; rfl) (by rw [(ho _).2, hl]; rfl)
    have n1 : (Base.linineq oneLQ).normLb fb = [.fin 0, .fin 0] := e1
    have n2 : (Base.linineq oneLQ).normUb fb = [.fin 1, .fin 1] := e2
    refine ⟨.inl ⟨[0, 0], rfl⟩, .inl ⟨[1, 1], rfl⟩, .inr (by simp [Base.acc, oneLQ]), ?_⟩
    intro i a b ha hb
    rw [n1] at ha
    rw [n2] at hb
    rcases i with _ | _ | i <;> simp at ha hb <;> subst ha hb <;> norm_num
  · intro y
    constructor
    · rintro ⟨h1, h, -⟩
      have h1 : y.length = 2 := h1
      obtain ⟨a, b, rfl⟩ := List.length_eq_two.1 h1
      have k1 := h.eq 0 [1, 0] (1 / 2) rfl rfl
      have k2 := h.eq 1 [0, 1] (1 / 2) rfl rfl
      simp at k1 k2
      rw [k1, k2]; norm_num
    · rintro rfl
      refine ⟨rfl, ⟨?_, ?_, ?_, ?_, ?_⟩, by simp⟩
      · intro i r xi e1 e2
        rcases i with _ | _ | i <;> simp [Base.acc, oneLQ] at e1 e2 <;> subst e1 e2 <;> norm_num
      · intro i r xi e1 e2
        rcases i with _ | _ | i <;> simp [Base.acc, oneLQ] at e1 e2 <;> subst e1 e2 <;> norm_num
      · intro i row bi e1; simp [Base.acc, oneLQ] at e1
      · intro i row bi e1 e2
        rcases i with _ | _ | i <;> simp [Base.acc, oneLQ] at e1 e2 <;> subst e1 e2 <;> norm_num
      · intro i L y rho e1; simp [Base.acc, oneLQ] at e1
  · intro h
    have := h.2.2.2.1
    simp [onePoint, Dom.acc, Base.acc, oneLQ] at this

end Verif.Domain
