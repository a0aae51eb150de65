import Verif.Domain.SampleModel
import Verif.Domain.HullProps
import Verif.Domain.GridProps
import Verif.Domain.QueryProps

/-!
# Property C19: `sample`
-/

namespace Verif.Domain

open Classical Verif

/-! ## Specification -/

/-- What the random number generators guarantee: uniform numbers in `[0,1]`, normal rows of the right width. -/
structure Rand.Valid (r : Rand) (n : ℕ) : Prop where
  unif : ∀ i j, 0 ≤ r.unif i j ∧ r.unif i j ≤ 1
  gauss : ∀ k i, (r.gauss k i).length = n

/-- A sample of `draw` points of the domain. -/
def GoodSample (nnls : NNLS) (TOL : ℝ) (D : Dom) (draw : ℤ) (X : List Vec) : Prop :=
  X.length = draw.toNat ∧ ∀ x ∈ X, D.isInside nnls TOL x

/-- Conditions on one factor and its environment.
* box: a remembered "not empty" is right (a fresh object remembers nothing; see `sample_box_stale_false`);
* normal: `Linv` inverts the Cholesky factor;
* hull: a single point satisfies the other constraints (see `sample_single_hull_false`); in at most three
  dimensions there are at most two points, between which the other constraints hold (see
  `sample_hull_false`), or the fallback returns exact points and there are no bounds;
* the default sampler returns good samples (see C21). -/
def SampleOk (nnls : NNLS) (E : SampleEnv) (TOL : ℝ) : Base → Prop
  | .box lb ub => E.empty (.box lb ub) = some false → boxEmpty lb ub = false
  | .point _ => True
  | .normal mean Linv clip => (E.chol (.normal mean Linv clip)).length = mean.length ∧
      ∀ z : Vec, z.length = mean.length → Vec.mulVec Linv (Vec.mulVec (E.chol (.normal mean Linv clip)) z) = z
  | .hull X q => SolvesConsistent nnls ∧ (∀ x, X = [x] → q.inAll TOL x) ∧
      (q.n ≤ 3 → (X.length ≤ 2 ∧ ∀ y, InHull q.n X y → q.inAll TOL y) ∨
        (q.lb = List.replicate q.n .ninf ∧ q.ub = List.replicate q.n .pinf ∧ (X.length ≠ 1 → (E.hullO X).Good q.n X) ∧
          ∀ draw Y, E.other (.linquad (hullToLinineq (E.hullO X) X q)) draw = some (.ok Y) →
            Y.length = draw ∧ ∀ y ∈ Y, (Dom.base (.linquad (hullToLinineq (E.hullO X) X q))).Holds y)) ∧
      ∀ draw Y, E.other (.hull X q) draw = some (.ok Y) → GoodSample nnls TOL (.base (.hull X q)) draw Y
  | d => ∀ draw Y, E.other d draw = some (.ok Y) → GoodSample nnls TOL (.base d) draw Y

/-! ## Lemmas -/

theorem unifEntry_between {l u w : ℝ} (h : l ≤ u) (h0 : 0 ≤ w) (h1 : w ≤ 1) :
    l ≤ unifEntry (.fin l) (.fin u) w ∧ unifEntry (.fin l) (.fin u) w ≤ u := by
  unfold unifEntry XR.toReal
  constructor <;> nlinarith

theorem unifRow_length (lb ub : List XR) (w : ℕ → ℝ) : (unifRow lb ub w).length = min lb.length ub.length := by
  simp [unifRow]

theorem boxSample_inside {lb ub : List XR} (hl : lb.length = ub.length) {e : Option Bool} (he : e = some false → boxEmpty lb ub = false)
    {r : Rand} (hr : ∀ i j, 0 ≤ r.unif i j ∧ r.unif i j ≤ 1) {draw : ℕ} {X : List Vec} (h : boxSample lb ub e r draw = .ok X)
    {tol : ℝ} (ht : 0 ≤ tol) : X.length = draw ∧ ∀ x ∈ X, x.length = lb.length ∧ inBounds lb ub tol x := by
  unfold boxSample at h
  split at h
  · cases h
  · rename_i hne
    split at h
    · cases h
    · rename_i hfin
      cases h
      have hb : boxEmpty lb ub = false := by
        rcases e with _ | _ | _
        · simpa using hne
        · exact he rfl
        · simp at hne
      refine ⟨by simp, ?_⟩
      intro x hx
      obtain ⟨i, -, rfl⟩ := List.mem_map.1 hx
      refine ⟨by rw [unifRow_length]; omega, ?_⟩
      have key : ∀ (j : ℕ) (v : ℝ), (unifRow lb ub (r.unif i))[j]? = some v → ∃ l u, lb[j]? = some (.fin l) ∧ ub[j]? = some (.fin u) ∧
          l ≤ v ∧ v ≤ u := by
        intro j v hv
        unfold unifRow at hv
        rw [List.getElem?_mapIdx] at hv
        rcases hz : (lb.zip ub)[j]? with _ | ⟨l, u⟩
        · rw [hz] at hv; simp at hv
        · rw [hz] at hv
          simp only [Option.map_some, Option.some.injEq] at hv
          obtain ⟨h1, h2⟩ := List.getElem?_zip_eq_some.1 hz
          have f1 : l.isFinite := by
            by_contra hc
            exact hfin ⟨l, List.mem_append_left _ (List.mem_of_getElem? h1), hc⟩
          have f2 : u.isFinite := by
            by_contra hc
            exact hfin ⟨u, List.mem_append_right _ (List.mem_of_getElem? h2), hc⟩
          cases l <;> simp [XR.isFinite] at f1
          cases u <;> simp [XR.isFinite] at f2
          rename_i l u
          refine ⟨l, u, h1, h2, ?_⟩
          have hlu : l ≤ u := by
            unfold boxEmpty at hb
            rw [decide_eq_false_iff_not] at hb
            by_contra hc
            exact hb ⟨(.fin l, .fin u), List.mem_of_getElem? hz, by simpa [XR.lt] using hc⟩
          rw [← hv]
          exact unifEntry_between hlu (hr i j).1 (hr i j).2
      rw [inBounds_iff]
      constructor
      · intro j l xi h1 h2
        obtain ⟨l', u', k1, k2, k3, k4⟩ := key j xi h2
        rw [h1] at k1; cases k1
        linarith
      · intro j u xi h1 h2
        obtain ⟨l', u', k1, k2, k3, k4⟩ := key j xi h2
        rw [h1] at k2; cases k2
        linarith

theorem rejectRound_spec {n : ℕ} {clip : ℝ} {g : ℕ → Vec} (hg : ∀ i, (g i).length = n) {X : List Vec} (hX : ∀ z ∈ X, z.length = n) :
    (rejectRound clip g X).length = X.length ∧ ∀ z ∈ rejectRound clip g X, z.length = n := by
  unfold rejectRound
  refine ⟨by simp, ?_⟩
  intro z hz
  obtain ⟨i, hi, rfl⟩ := List.mem_mapIdx.1 hz
  split
  · exact hg i
  · exact hX _ (List.getElem_mem _)

theorem rejectLoop_spec {n : ℕ} {clip : ℝ} {g : ℕ → ℕ → Vec} (hg : ∀ k i, (g k i).length = n) (fuel k : ℕ) (X Y : List Vec)
    (hX : ∀ z ∈ X, z.length = n) (h : rejectLoop clip g fuel k X = some Y) :
    Y.length = X.length ∧ ∀ z ∈ Y, z.length = n ∧ Vec.sumSq z ≤ clip := by
  induction fuel generalizing k X with
  | zero => simp [rejectLoop] at h
  | succ fuel ih =>
    unfold rejectLoop at h
    split at h
    · rename_i hall
      cases h
      exact ⟨rfl, fun z hz => ⟨hX z hz, not_lt.1 (hall z hz)⟩⟩
    · obtain ⟨r1, r2⟩ := rejectRound_spec (clip := clip) (hg k) hX
      obtain ⟨h1, h2⟩ := ih (k + 1) _ r2 h
      exact ⟨by rw [h1, r1], h2⟩

theorem add_sub_cancel_vec {m v : Vec} (h : v.length = m.length) : Vec.sub (Vec.add m v) m = v := by
  induction m generalizing v with
  | nil => simp at h; simp [h]
  | cons a m ih => cases v with
    | nil => simp at h
    | cons b v => simp [ih (by simpa using h)]

theorem normalSample_inside {mean : Vec} {L Linv : List Vec} {clip : Option ℝ} (hL : L.length = mean.length)
    (hinv : ∀ z : Vec, z.length = mean.length → Vec.mulVec Linv (Vec.mulVec L z) = z) {fuel : ℕ} {r : Rand}
    (hr : ∀ k i, (r.gauss k i).length = mean.length) {draw : ℕ} {X : List Vec} (h : normalSample mean L clip fuel r draw = some X)
    (nnls : NNLS) {tol : ℝ} (ht : 0 ≤ tol) : X.length = draw ∧ ∀ x ∈ X, (Base.normal mean Linv clip).isInside nnls tol x := by
  unfold normalSample at h
  have hX0 : ∀ z ∈ (List.range draw).map (r.gauss 0), z.length = mean.length := by
    intro z hz
    obtain ⟨i, -, rfl⟩ := List.mem_map.1 hz
    exact hr 0 i
  cases clip with
  | none =>
    simp only [Option.map_some, Option.some.injEq] at h
    subst h
    refine ⟨by simp, ?_⟩
    intro x hx
    obtain ⟨z, hz, rfl⟩ := List.mem_map.1 hx
    have hzl := hX0 z hz
    refine ⟨by simp [Base.len, Base.acc, Vec.length_add, hL], ?_⟩
    simp [Base.inside, Base.acc, inQuad]
  | some c =>
    simp only at h
    rcases hZ : rejectLoop c r.gauss fuel 1 ((List.range draw).map (r.gauss 0)) with _ | Z
    · rw [hZ] at h; simp at h
    · rw [hZ] at h
      simp only [Option.map_some, Option.some.injEq] at h
      subst h
      obtain ⟨h1, h2⟩ := rejectLoop_spec hr fuel 1 _ Z hX0 hZ
      refine ⟨by simp [h1], ?_⟩
      intro x hx
      obtain ⟨z, hz, rfl⟩ := List.mem_map.1 hx
      obtain ⟨hzl, hzc⟩ := h2 z hz
      refine ⟨by simp [Base.len, Base.acc, Vec.length_add, hL], ?_⟩
      show inQuad [Linv] [mean] [Real.sqrt c] tol _
      intro q hq
      simp at hq
      subst hq
      dsimp only
      rw [add_sub_cancel_vec (by simp [hL]), hinv z hzl]
      have := Real.sqrt_le_sqrt hzc
      linarith

theorem twoPointSample_inside {nnls : NNLS} (hn : SolvesConsistent nnls) {TOL : ℝ} (ht : 0 < TOL) {X : List Vec} {q : LQ}
    (hw : (Base.hull X q).WF) {r : Rand} (hr : ∀ i j, 0 ≤ r.unif i j ∧ r.unif i j ≤ 1) {draw : ℕ} {Y : List Vec}
    (h : twoPointSample TOL X q r draw = some Y) :
    Y.length = draw ∧ ∀ y ∈ Y, (Base.hull X q).isInside nnls TOL y := by
  unfold twoPointSample at h
  split at h
  · rename_i x0 x1
    dsimp only at h
    split at h
    · rename_i hall
      cases h
      refine ⟨by simp, fun y hy => ?_⟩
      have hin := hall y hy
      obtain ⟨i, -, rfl⟩ := List.mem_map.1 hy
      have hh := two_point_inHull (n := q.n) (hw.2.2 x0 (by simp)) (hw.2.2 x1 (by simp)) (hr i 0).1 (hr i 0).2
      obtain ⟨a1, -, -, a4⟩ := hull_coefficients hn hw hh
      refine ⟨?_, ?_, hin⟩
      · show (twoPoint x0 x1 (r.unif i 0)).length = q.n
        simp [twoPoint, Vec.length_add, hw.2.2 x0 (by simp), hw.2.2 x1 (by simp)]
      · rw [hullCombine_eq _ _ _ hw.2.2 a1, a4, norm_sub_self]
        exact ht
    · cases h
  · cases h

theorem base_sample_good {nnls : NNLS} {E : SampleEnv} {TOL : ℝ} (ht : 0 < TOL) {d : Base} (hw : d.WF) (hok : SampleOk nnls E TOL d)
    {r : Rand} (hr : r.Valid d.len) {draw : ℤ} {X : List Vec} (h : d.sample E TOL r draw = some (.ok X)) :
    GoodSample nnls TOL (.base d) draw X := by
  unfold Base.sample at h
  split at h
  · rename_i hd
    simp only [Option.some.injEq, Except.ok.injEq] at h
    subst h
    exact ⟨by simp; omega, by simp⟩
  · rename_i hd
    have hdr : ((draw.toNat : ℕ) : ℤ) = draw := Int.toNat_of_nonneg (by omega)
    unfold Base.sampleRaw at h
    cases d with
    | box lb ub =>
      simp only [Option.some.injEq] at h
      have hwl : lb.length = ub.length := by
        have := hw.ub_len
        exact this.symm
      obtain ⟨h1, h2⟩ := boxSample_inside hwl hok hr.unif h ht.le
      exact ⟨h1, fun x hx => h2 x hx⟩
    | point x =>
      simp only [Option.some.injEq, Except.ok.injEq] at h
      subst h
      refine ⟨by simp, fun y hy => ?_⟩
      rw [List.eq_of_mem_replicate hy]
      exact ⟨by simp [Dom.len, Base.len, Base.acc], rfl⟩
    | normal mean Linv clip =>
      simp only at h
      rcases hz : normalSample mean (E.chol (.normal mean Linv clip)) clip E.fuel r draw.toNat with _ | Z
      · rw [hz] at h; simp at h
      · rw [hz] at h
        simp only [Option.map_some, Option.some.injEq, Except.ok.injEq] at h
        subst h
        exact normalSample_inside hok.1 hok.2 hr.gauss hz nnls ht.le
    | hull Y q =>
      obtain ⟨hn, hone, hthree, hother⟩ := hok
      simp only at h
      split at h
      · rename_i h1
        obtain ⟨x, rfl⟩ := List.length_eq_one_iff.1 h1
        simp only [List.headD_cons, Option.some.injEq, Except.ok.injEq] at h
        subst h
        refine ⟨by simp, fun y hy => ?_⟩
        rw [List.eq_of_mem_replicate hy]
        obtain ⟨a1, -, -, a4⟩ := hull_coefficients hn hw (inHull_mem hw.2.2 (x := x) (by simp))
        refine ⟨hw.2.2 x (by simp), ?_, hone x rfl⟩
        rw [hullCombine_eq _ _ _ hw.2.2 a1, a4, norm_sub_self]
        exact ht
      · rename_i h1
        split at h
        · rename_i Z hz
          simp only [Option.some.injEq, Except.ok.injEq] at h
          subst h
          exact twoPointSample_inside hn ht hw hr.unif hz
        · rename_i hz
          split at h
          · rename_i hn3
            rcases hthree hn3 with ⟨hlen, hcon⟩ | ⟨hlb, hub, hg, hex⟩
            · exfalso
              have h2 : Y.length = 2 := by
                have := List.length_pos_iff.2 hw.2.1
                omega
              obtain ⟨x0, x1, rfl⟩ := List.length_eq_two.1 h2
              unfold twoPointSample at hz
              dsimp only at hz
              rw [if_pos] at hz
              · cases hz
              · intro y hy
                obtain ⟨i, -, rfl⟩ := List.mem_map.1 hy
                exact hcon _ (two_point_inHull (n := q.n) (hw.2.2 x0 (by simp)) (hw.2.2 x1 (by simp)) (hr.unif i 0).1 (hr.unif i 0).2)
            · obtain ⟨k1, k2⟩ := hex _ _ h
              refine ⟨k1, fun y hy => ?_⟩
              exact hull_holds_isInside hn ht hw ((to_linineq_same_set hw hg hlb hub y).1 (k2 y hy))
          · have := hother _ _ h
            rw [GoodSample, hdr] at this
            exact this
    | linquad q =>
      have := hok _ _ h
      rw [GoodSample, hdr] at this; exact this
    | linineq q =>
      have := hok _ _ h
      rw [GoodSample, hdr] at this; exact this
    | unbounded n =>
      have := hok _ _ h
      rw [GoodSample, hdr] at this; exact this

theorem stack_good {nnls : NNLS} {E : SampleEnv} {TOL : ℝ} (ht : 0 < TOL) {draw : ℤ} (l : List (Base × Rand))
    (hw : ∀ q ∈ l, q.1.WF ∧ SampleOk nnls E TOL q.1 ∧ q.2.Valid q.1.len) {X : List Vec}
    (h : stackSamples E TOL draw l = some (.ok X)) :
    X.length = draw.toNat ∧ ∀ x ∈ X, ∃ xs, x = xs.flatten ∧ List.Forall₂ (fun d y => d.isInside nnls TOL y) (l.map Prod.fst) xs := by
  induction l generalizing X with
  | nil => simp [stackSamples] at h
  | cons q l ih =>
    obtain ⟨d, r⟩ := q
    obtain ⟨w1, w2, w3⟩ := hw (d, r) (by simp)
    cases l with
    | nil =>
      simp only [stackSamples] at h
      obtain ⟨g1, g2⟩ := base_sample_good ht w1 w2 w3 h
      refine ⟨g1, fun x hx => ⟨[x], by simp, .cons (g2 x hx) .nil⟩⟩
    | cons q2 l =>
      simp only [stackSamples] at h
      split at h
      · cases h
      · cases h
      · rename_i Y hY
        split at h
        · cases h
        · cases h
        · rename_i Z hZ
          simp only [Option.some.injEq, Except.ok.injEq] at h
          subst h
          obtain ⟨g1, g2⟩ := base_sample_good ht w1 w2 w3 hY
          obtain ⟨k1, k2⟩ := ih (fun q hq => hw q (by simp [hq])) hZ
          refine ⟨by simp [g1, k1], ?_⟩
          intro x hx
          obtain ⟨i, hi⟩ := List.mem_iff_getElem?.1 hx
          rw [List.getElem?_zipWith] at hi
          rcases hy : Y[i]? with _ | y <;> rcases hz : Z[i]? with _ | z <;> simp [hy, hz] at hi
          subst hi
          obtain ⟨zs, rfl, hzs⟩ := k2 z (List.mem_of_getElem? hz)
          exact ⟨y :: zs, by simp, .cons (g2 y (List.mem_of_getElem? hy)) hzs⟩

/-! ## C19 -/

/-- **C19** (partial): whenever `sample(draw)` returns, it returns exactly `draw` points (none if `draw ≤ 0`), all inside
the domain, for all random numbers, under the conditions `SampleOk` on the factors; each condition is
necessary (see the `_false` theorems below). -/
theorem sample_good_partial {nnls : NNLS} {E : SampleEnv} {TOL : ℝ} (ht : 0 < TOL) {D : Dom} (hw : D.WF)
    (hok : ∀ d ∈ D.factors, SampleOk nnls E TOL d) {rs : ℕ → Rand} (hr : ∀ i (d : Base), D.factors[i]? = some d → (rs i).Valid d.len)
    {draw : ℤ} {X : List Vec} (h : D.sample E TOL rs draw = some (.ok X)) : GoodSample nnls TOL D draw X := by
  cases D with
  | base d => exact base_sample_good ht hw (hok d (by simp [Dom.factors])) (hr 0 d rfl) h
  | tensor ds =>
    simp only [Dom.sample] at h
    split at h
    · rename_i hd
      simp only [Option.some.injEq, Except.ok.injEq] at h
      subst h
      exact ⟨by simp; omega, by simp⟩
    · obtain ⟨h1, h2⟩ := stack_good (nnls := nnls) ht (ds.mapIdx (fun i d => (d, rs i))) (by
        intro q hq
        obtain ⟨i, hi, rfl⟩ := List.mem_mapIdx.1 hq
        exact ⟨hw.2 _ (List.getElem_mem _), hok _ (List.getElem_mem _), hr i _ (List.getElem?_eq_getElem hi)⟩) h
      refine ⟨h1, fun x hx => ?_⟩
      obtain ⟨xs, rfl, hxs⟩ := h2 x hx
      have e : (ds.mapIdx (fun i d => (d, rs i))).map Prod.fst = ds := by
        apply List.ext_getElem?
        intro i
        rw [List.getElem?_map, List.getElem?_mapIdx]
        cases ds[i]? <;> rfl
      rw [e] at hxs
      exact (tensor_mem nnls TOL ds xs (hxs.imp (fun _ _ h => h.1))).2 hxs

/-- C19: no point is drawn for a nonpositive number. -/
theorem sample_nonpos (E : SampleEnv) (TOL : ℝ) (D : Dom) (rs : ℕ → Rand) {draw : ℤ} (h : draw ≤ 0) :
    D.sample E TOL rs draw = some (.ok []) := by
  cases D <;> simp [Dom.sample, Base.sample, h]

/-- C19, error branches of boxes: a fresh box returns a sample exactly if it is nonempty with finite bounds. -/
theorem sample_box_ok_iff (E : SampleEnv) (TOL : ℝ) (lb ub : List XR) (hE : E.empty (.box lb ub) = none) (rs : ℕ → Rand)
    {draw : ℤ} (hd : 0 < draw) :
    (∃ X, (Dom.base (.box lb ub)).sample E TOL rs draw = some (.ok X)) ↔
      (∀ (i : ℕ) (l u : XR), lb[i]? = some l → ub[i]? = some u → ¬ XR.lt u l) ∧ ∀ v ∈ lb ++ ub, v.isFinite := by
  have hdd : ¬ draw ≤ 0 := by omega
  have he : boxEmpty lb ub = true ↔ ¬ ∀ (i : ℕ) (l u : XR), lb[i]? = some l → ub[i]? = some u → ¬ XR.lt u l := by
    unfold boxEmpty
    rw [decide_eq_true_eq]
    constructor
    · rintro ⟨q, hq, hlt⟩ hall
      obtain ⟨i, hi⟩ := List.mem_iff_getElem?.1 hq
      obtain ⟨h1, h2⟩ := List.getElem?_zip_eq_some.1 hi
      exact hall i _ _ h1 h2 hlt
    · intro hall
      push Not at hall
      obtain ⟨i, l, u, h1, h2, h3⟩ := hall
      exact ⟨(l, u), List.mem_of_getElem? (List.getElem?_zip_eq_some.2 ⟨h1, h2⟩), h3⟩
  simp only [Dom.sample, Base.sample, if_neg hdd, Base.sampleRaw, boxSample, hE, Option.getD_none]
  constructor
  · rintro ⟨X, h⟩
    split at h
    · simp at h
    · rename_i h1
      split at h
      · simp at h
      · rename_i h2
        push Not at h2
        refine ⟨?_, h2⟩
        by_contra hc
        exact h1 (he.2 hc)
  · rintro ⟨h1, h2⟩
    rw [if_neg (fun hc => he.1 hc h1), if_neg (by push Not; exact h2)]
    exact ⟨_, rfl⟩

/-- Nothing but the default sampler is exercised. -/
noncomputable def plainEnv : SampleEnv :=
  ⟨fun _ => [], fun _ => ⟨[[1]], [], []⟩, fun _ _ => none, 0, fun _ => none⟩

/-- All uniform numbers are `w`. -/
noncomputable def constRand (w : ℝ) : Rand := ⟨fun _ _ => w, fun _ _ => []⟩

/-- C19, negation: a box that remembers wrongly to be nonempty (after `closest_point` of a point that is inside to the
tolerance, see `box_is_empty_closest_point_false`) returns a sample that is not inside. -/
theorem sample_box_stale_false (nnls : NNLS) {TOL : ℝ} (ht : 0 < TOL) (S : Solver) (fb : CornerOracle) :
    let d : Base := .box [.fin (3 / 2 * TOL)] [.fin 0]
    let e := ((Dom.base d).closest S nnls TOL fb none [3 / 4 * TOL] none).2
    e = some false ∧
    (Dom.base d).sample { plainEnv with empty := fun _ => e } TOL (fun _ => constRand 0) 1 = some (.ok [[3 / 2 * TOL]]) ∧
    ¬ (Dom.base d).isInside nnls TOL [3 / 2 * TOL] := by
  intro d e
  have hin : (Dom.base d).isInside nnls TOL [3 / 4 * TOL] := by
    refine ⟨rfl, ?_⟩
    show inBounds _ _ _ _
    rw [inBounds_iff]
    constructor
    · intro i r xi h1 h2
      rcases i with _ | i
      · simp at h1 h2; subst h1; subst h2; linarith
      · simp at h2
    · intro i r xi h1 h2
      rcases i with _ | i
      · simp at h1 h2; subst h1; subst h2; linarith
      · simp at h2
  have he : e = some false := by
    show ((Dom.base d).closest S nnls TOL fb none [3 / 4 * TOL] none).2 = some false
    rw [closest_eq (by simp [d]) (by simp [d]), if_neg, if_neg (by simp), if_pos hin]
    rintro (h | ⟨r, hr, -⟩)
    · exact h rfl
    · simp at hr
  refine ⟨he, ?_, ?_⟩
  · simp only [Dom.sample, Base.sample, Base.sampleRaw, d, boxSample, he]
    norm_num [XR.isFinite, unifRow, unifEntry, constRand, XR.toReal]
  · rintro ⟨-, h⟩
    have := ((inBounds_iff _ _ _ _).1 h).2 0 0 (3 / 2 * TOL) rfl rfl
    linarith

/-- C19, negation: the hull of a single point with a bound excluding it returns the point, which is not inside. -/
theorem sample_single_hull_false (nnls : NNLS) {TOL : ℝ} (ht1 : TOL < 1) (rs : ℕ → Rand) :
    let d : Base := .hull [[2]] { freeLQ 1 with ub := [.fin 1] }
    (Dom.base d).sample plainEnv TOL rs 1 = some (.ok [[2]]) ∧ ¬ (Dom.base d).isInside nnls TOL [2] := by
  intro d
  refine ⟨by simp [Dom.sample, Base.sample, Base.sampleRaw, d], ?_⟩
  rintro ⟨-, -, hb, -⟩
  have := ((inBounds_iff _ _ _ _).1 hb).2 0 1 2 rfl rfl
  linarith

/-- C19, negation: the hull of 0 and 2 with the bound `x ≤ 1`: when a two-point draw misses the bound, the sampler falls
back to the converted domain, whose points need not satisfy the bound, even though the fallback samples
that domain correctly. -/
theorem sample_hull_false (nnls : NNLS) {TOL : ℝ} (ht : 0 < TOL) (ht1 : TOL < 1) :
    let q : LQ := { freeLQ 1 with ub := [.fin 1] }
    let d' : Base := .linquad (hullToLinineq ⟨[[1]], [], []⟩ [[0], [2]] q)
    let E : SampleEnv := { plainEnv with other := fun _ n => some (.ok (List.replicate n [2])) }
    (∀ n Y, E.other d' n = some (.ok Y) → GoodSample nnls TOL (.base d') n Y) ∧
    (Dom.base (.hull [[0], [2]] q)).sample E TOL (fun _ => constRand 0) 1 = some (.ok [[2]]) ∧
    ¬ (Dom.base (.hull [[0], [2]] q)).isInside nnls TOL [2] := by
  intro q d' E
  obtain ⟨-, -, h3, h4⟩ := to_linineq_bounds_false (nnls := nnls) ht ht1
  refine ⟨?_, ?_, h4⟩
  · intro n Y h
    simp only [E, Option.some.injEq, Except.ok.injEq] at h
    subst h
    refine ⟨by simp, fun x hx => ?_⟩
    rw [List.eq_of_mem_replicate hx]
    exact h3
  · have h2 : twoPointSample TOL [[0], [2]] q (constRand 0) 1 = none := by
      unfold twoPointSample
      dsimp only
      rw [if_neg]
      intro hall
      have hb := (hall [2] (by simp [twoPoint, constRand])).1
      have := ((inBounds_iff _ _ _ _).1 hb).2 0 1 2 rfl rfl
      linarith
    have e : (Dom.base (.hull [[0], [2]] q)).sample E TOL (fun _ => constRand 0) 1 =
        (match twoPointSample TOL [[0], [2]] q (constRand 0) 1 with
          | some Y => some (.ok Y)
          | none => if q.n ≤ 3 then E.other (.linquad (hullToLinineq (E.hullO [[0], [2]]) [[0], [2]] q)) 1
              else E.other (.hull [[0], [2]] q) 1) := rfl
    rw [e, h2]
    simp [q, freeLQ, E]

/-- A product of a box, a point and a truncated normal satisfies the hypotheses of `sample_good_partial`. -/
example : ∀ d ∈ (Dom.tensor [.box [.fin 0] [.fin 1], .point [3], .normal [0] [[1]] (some 4)]).factors,
    SampleOk (fun _ _ => []) { plainEnv with chol := fun _ => [[1]] } 1 d := by
  intro d hd
  simp only [Dom.factors, List.mem_cons, List.not_mem_nil, or_false] at hd
  rcases hd with rfl | rfl | rfl
  · intro h; simp [plainEnv] at h
  · trivial
  · refine ⟨rfl, ?_⟩
    intro z hz
    obtain ⟨a, rfl⟩ := List.length_eq_one_iff.1 hz
    simp [Vec.mulVec]

end Verif.Domain
