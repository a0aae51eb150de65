import Verif.Misc.QuadLemmas
import Verif.Domain.GridProps
import Mathlib.MeasureTheory.Measure.Haar.InnerProductSpace
import Mathlib.Analysis.Convex.Measure

/-!
# C106: quadrature rules on domains

Source: `/repo/psdr/domains/euclidean.py` 686-812.
-/

namespace Verif.Misc

open Classical Verif.Lip Verif.Domain MeasureTheory Filter Topology

/-! ### Specification -/

/-- The domain has dimension `m` and the normalization box `[l, h]`. -/
structure QBox {m : ℕ} (D : QDom) (l h : Fin m → ℝ) : Prop where
  lo : D.lo = List.ofFn l
  hi : D.hi = List.ofFn h
  le : ∀ i, l i ≤ h i

/-- The points that the domain reports as its own. -/
def QDom.region (m : ℕ) (D : QDom) : Set (Fin m → ℝ) := {x | D.inside (List.ofFn x)}

/-- What `sample` has to return (C19, C46): the number of points asked for, all inside. -/
def SampleOk (D : QDom) : Prop := ∀ n X, D.sample n = .ok X → X.length = n ∧ ∀ x ∈ X, D.inside x

variable {m : ℕ} {eigh : EighAll} {D : QDom} {l h : Fin m → ℝ}

/-! ### One tensor rule -/

theorem quadPts_perm' (hB : QBox D l h) (q : ℕ) : (quadPts eigh D q).Perm
    (((cart (List.ofFn fun i => axisZ eigh q (l i) (h i))).map pairOf).filter fun p => decide (D.inside p.1)) := by
  have := quadPts_perm eigh D q
  rwa [hB.lo, hB.hi, zipWith_ofFn] at this

theorem quadPts_mem (he : ∀ n, EighSpec (eigh n)) (hB : QBox D l h) {q : ℕ} {p : Vec × ℝ} (hp : p ∈ quadPts eigh D q) :
    D.inside p.1 ∧ p.1.length = m ∧ toPt m p.1 ∈ Set.Icc l h ∧ 0 ≤ p.2 := by
  rw [(quadPts_perm' hB q).mem_iff, List.mem_filter, decide_eq_true_eq, List.mem_map] at hp
  obtain ⟨⟨r, hr, rfl⟩, hin⟩ := hp
  obtain ⟨h1, h2, h3⟩ := mem_tensor he hB.le hr
  exact ⟨hin, by simpa [pairOf] using h1, h2, h3⟩

theorem quadPts_apply (he : ∀ n, EighSpec (eigh n)) (hB : QBox D l h) (q : ℕ) (F : Vec → ℝ) :
    ((quadPts eigh D q).map fun p => p.2 * F p.1).sum =
      tenQ eigh q l h ((D.region m).indicator fun x => F (List.ofFn x)) := by
  rw [((quadPts_perm' hB q).map _).sum_eq, tenQ]
  have key : ∀ L : List (List (ℝ × ℝ)), (∀ r ∈ L, r.length = m) →
      (((L.map pairOf).filter fun p => decide (D.inside p.1)).map fun p => p.2 * F p.1).sum =
      (L.map fun r => (pairOf r).2 * (D.region m).indicator (fun x => F (List.ofFn x)) (toPt m (pairOf r).1)).sum := by
    intro L
    induction L with
    | nil => simp
    | cons r L ih =>
      intro hL
      have ih' := ih fun r hr => hL r (List.mem_cons_of_mem _ hr)
      have hr : List.ofFn (toPt m (pairOf r).1) = (pairOf r).1 := ofFn_toPt (by simpa [pairOf] using hL r (by simp))
      rw [List.map_cons, List.filter_cons]
      by_cases hin : D.inside (pairOf r).1
      · have hmem : toPt m (pairOf r).1 ∈ D.region m := by
          change D.inside _
          rwa [hr]
        simp only [hin, decide_true, if_true, List.map_cons, List.sum_cons, ih', Set.indicator_of_mem hmem, hr]
      · have hmem : toPt m (pairOf r).1 ∉ D.region m := by
          change ¬ D.inside _
          rwa [hr]
        simp only [hin, decide_false, List.map_cons, List.sum_cons, Set.indicator_of_notMem hmem, mul_zero, zero_add]
        simpa using ih'
  exact key _ fun r hr => (mem_tensor he hB.le hr).1

theorem applyRule_pairs (R : List (Vec × ℝ)) (F : Vec → ℝ) :
    applyRule (R.map Prod.fst) (R.map Prod.snd) F = (R.map fun p => p.2 * F p.1).sum := by
  unfold applyRule
  rw [List.zipWith_map]
  congr 1
  induction R with
  | nil => rfl
  | cons p R ih => simp [ih]

theorem cart_length (q : ℕ) (l h : Fin m → ℝ) :
    (cart (List.ofFn fun i => axisZ eigh q (l i) (h i))).length = (q - 1 + 1) ^ m := by
  rw [length_cart, List.map_ofFn, List.prod_ofFn]
  simp [axisZ]

theorem quadPts_length_le (hB : QBox D l h) (q : ℕ) : (quadPts eigh D q).length ≤ (q - 1 + 1) ^ m := by
  rw [(quadPts_perm' hB q).length_eq, ← cart_length q l h (eigh := eigh)]
  exact (List.length_filter_le _ _).trans (by simp)

/-! ### The number of points per axis -/

theorem quadQ_pow_le {N m : ℕ} (hm : 1 ≤ m) : quadQ N m ^ m ≤ N := by
  have h0 : (0 : ℝ) ≤ (N : ℝ) ^ (1 / (m : ℝ)) := by positivity
  have h1 : ((quadQ N m : ℕ) : ℝ) ≤ (N : ℝ) ^ (1 / (m : ℝ)) := Nat.floor_le h0
  have h2 : ((quadQ N m : ℕ) : ℝ) ^ m ≤ ((N : ℝ) ^ (1 / (m : ℝ))) ^ m := pow_le_pow_left₀ (by positivity) h1 m
  rw [one_div, Real.rpow_inv_natCast_pow (by positivity) (by omega)] at h2
  exact_mod_cast h2

theorem le_quadQ {N m q : ℕ} (hm : 1 ≤ m) (h : q ^ m ≤ N) : q ≤ quadQ N m := by
  refine Nat.le_floor ?_
  have h1 : ((q : ℝ) ^ m) ≤ N := by exact_mod_cast h
  have h2 := Real.rpow_le_rpow (by positivity) h1 (show (0 : ℝ) ≤ ((m : ℝ))⁻¹ by positivity)
  rwa [Real.pow_rpow_inv_natCast (by positivity) (by omega), ← one_div] at h2

theorem quadQ_pos {N m : ℕ} (hm : 1 ≤ m) (hN : 1 ≤ N) : 1 ≤ quadQ N m := le_quadQ hm (by simpa using hN)

/-- **C106**: the number of points per axis is the largest whose tensor rule has at most `N` points. -/
theorem quadQ_largest {N m : ℕ} (hm : 1 ≤ m) (q : ℕ) : q ^ m ≤ N ↔ q ≤ quadQ N m :=
  ⟨le_quadQ hm, fun h => (Nat.pow_le_pow_left h m).trans (quadQ_pow_le hm)⟩

/-! ### The loop -/

theorem quadLoop_spec {N : ℕ} : ∀ {fuel q : ℕ} {R : List (Vec × ℝ)}, quadLoop eigh D N fuel q (quadPts eigh D q) = some R →
    ∃ q', q ≤ q' ∧ R = quadPts eigh D q' ∧ N < (quadPts eigh D (q' + 1)).length ∧
      ∀ j, q < j → j ≤ q' → (quadPts eigh D j).length ≤ N := by
  intro fuel
  induction fuel with
  | zero => intro q R h; simp [quadLoop] at h
  | succ fuel ih =>
    intro q R h
    simp only [quadLoop] at h
    split_ifs at h with hc
    · obtain ⟨q', h1, h2, h3, h4⟩ := ih h
      refine ⟨q', by omega, h2, h3, fun j hj hj' => ?_⟩
      rcases Nat.lt_or_ge (q + 1) j with hlt | hge
      · exact h4 j hlt hj'
      · have : j = q + 1 := by omega
        rw [this]; exact hc
    · cases h
      exact ⟨q, le_refl _, rfl, by omega, fun j hj hj' => by omega⟩

/-- The loop ends as soon as some later rule has more than `N` points inside. -/
theorem quadLoop_ends {N : ℕ} : ∀ (k q : ℕ) (R : List (Vec × ℝ)), N < (quadPts eigh D (q + k + 1)).length →
    ∃ R', ∀ fuel, k + 1 ≤ fuel → quadLoop eigh D N fuel q R = some R' := by
  intro k
  induction k with
  | zero =>
    intro q R h
    refine ⟨R, fun fuel hf => ?_⟩
    obtain ⟨f, rfl⟩ := Nat.exists_eq_add_of_le' hf
    simp only [quadLoop]
    rw [if_neg (by simpa using h)]
  | succ k ih =>
    intro q R h
    by_cases hc : (quadPts eigh D (q + 1)).length ≤ N
    · obtain ⟨R', hR'⟩ := ih (q + 1) (quadPts eigh D (q + 1)) (by rwa [show q + 1 + k + 1 = q + (k + 1) + 1 by omega])
      refine ⟨R', fun fuel hf => ?_⟩
      obtain ⟨f, rfl⟩ := Nat.exists_eq_add_of_le' (show 1 ≤ fuel by omega)
      simp only [quadLoop]
      rw [if_pos hc]
      exact hR' f (by omega)
    · refine ⟨R, fun fuel hf => ?_⟩
      obtain ⟨f, rfl⟩ := Nat.exists_eq_add_of_le' (show 1 ≤ fuel by omega)
      simp only [quadLoop]
      rw [if_neg hc]

/-- The loop does not end if all later rules have at most `N` points inside. -/
theorem quadLoop_runs {N : ℕ} : ∀ (fuel q : ℕ) (R : List (Vec × ℝ)), (∀ j, q < j → (quadPts eigh D j).length ≤ N) →
    quadLoop eigh D N fuel q R = none := by
  intro fuel
  induction fuel with
  | zero => intro q R _; rfl
  | succ fuel ih =>
    intro q R h
    simp only [quadLoop]
    rw [if_pos (h _ (by omega))]
    exact ih _ _ fun j hj => h j (by omega)

theorem quadGauss_spec {N q fuel : ℕ} {R : List (Vec × ℝ)} (hR : quadGauss eigh D N q fuel = some R) :
    ∃ q', q ≤ q' ∧ R = quadPts eigh D q' ∧ (q < q' → R.length ≤ N) ∧
      (q ^ D.lo.length = R.length ∧ q' = q ∨ N < (quadPts eigh D (q' + 1)).length) := by
  simp only [quadGauss] at hR
  split_ifs at hR with hc
  · cases hR
    exact ⟨q, le_refl _, rfl, fun h => absurd h (lt_irrefl _), Or.inl ⟨hc, rfl⟩⟩
  · obtain ⟨q', h1, h2, h3, h4⟩ := quadLoop_spec hR
    exact ⟨q', h1, h2, fun h => by rw [h2]; exact h4 q' h (le_refl _), Or.inr h3⟩

/-! ### The returned rule -/

theorem quadRule_gauss {N fuel : ℕ} {method : QMethod} (ht : D.truncNormal = false) (hp : D.isPoint = false)
    (hm : quadMethod D N method = .gauss) :
    quadRule eigh D N method fuel = (quadGauss eigh D N (quadQ N D.lo.length) fuel).map
      fun R => .ok (some (R.map Prod.fst, R.map Prod.snd)) := by
  simp [quadRule, ht, hp, hm]

theorem quadRule_gauss_inv {N fuel : ℕ} {method : QMethod} (ht : D.truncNormal = false) (hp : D.isPoint = false)
    (hm : quadMethod D N method = .gauss) {X : List Vec} {w : List ℝ}
    (hr : quadRule eigh D N method fuel = some (.ok (some (X, w)))) :
    ∃ R, quadGauss eigh D N (quadQ N D.lo.length) fuel = some R ∧ X = R.map Prod.fst ∧ w = R.map Prod.snd := by
  rw [quadRule_gauss ht hp hm, Option.map_eq_some_iff] at hr
  obtain ⟨R, hR, e⟩ := hr
  simp only [Except.ok.injEq, Option.some.injEq, Prod.mk.injEq] at e
  exact ⟨R, hR, e.1.symm, e.2.symm⟩

/-- **C106**: the Gauss rule has at most `N` points, one weight per point, all points inside the domain and in its
normalization box, and no negative weights. -/
theorem quadRule_sound (he : ∀ n, EighSpec (eigh n)) (hB : QBox D l h) (hm1 : 1 ≤ m) {N fuel : ℕ} (hN : 1 ≤ N)
    {method : QMethod} (ht : D.truncNormal = false) (hp : D.isPoint = false) (hm : quadMethod D N method = .gauss)
    {X : List Vec} {w : List ℝ} (hr : quadRule eigh D N method fuel = some (.ok (some (X, w)))) :
    X.length = w.length ∧ X.length ≤ N ∧ (∀ x ∈ X, D.inside x ∧ x.length = m ∧ toPt m x ∈ Set.Icc l h) ∧ ∀ c ∈ w, 0 ≤ c := by
  obtain ⟨R, hR, rfl, rfl⟩ := quadRule_gauss_inv ht hp hm hr
  obtain ⟨q', h1, h2, h3, -⟩ := quadGauss_spec hR
  have hlen : D.lo.length = m := by rw [hB.lo, List.length_ofFn]
  refine ⟨by simp, ?_, ?_, ?_⟩
  · rw [List.length_map]
    rcases Nat.lt_or_ge (quadQ N D.lo.length) q' with hlt | hge
    · exact h3 hlt
    · have e : q' = quadQ N m := by rw [hlen] at h1 hge; omega
      rw [h2, e]
      refine (quadPts_length_le hB _).trans ?_
      have := quadQ_pos hm1 hN
      rw [show quadQ N m - 1 + 1 = quadQ N m by omega]
      exact quadQ_pow_le hm1
  · intro x hx
    obtain ⟨p, hp, rfl⟩ := List.mem_map.1 hx
    rw [h2] at hp
    obtain ⟨a, b, c, -⟩ := quadPts_mem he hB hp
    exact ⟨a, b, c⟩
  · intro c hc
    obtain ⟨p, hp, rfl⟩ := List.mem_map.1 hc
    rw [h2] at hp
    exact (quadPts_mem he hB hp).2.2.2

/-- **C106**: all weights are positive if the normalization box has positive widths. -/
theorem quadRule_weights_pos (he : ∀ n, EighSpec (eigh n)) (hB : QBox D l h) (hlt : ∀ i, l i < h i) {N fuel : ℕ}
    {method : QMethod} (ht : D.truncNormal = false) (hp : D.isPoint = false) (hm : quadMethod D N method = .gauss)
    {X : List Vec} {w : List ℝ} (hr : quadRule eigh D N method fuel = some (.ok (some (X, w)))) : ∀ c ∈ w, 0 < c := by
  obtain ⟨R, hR, rfl, rfl⟩ := quadRule_gauss_inv ht hp hm hr
  obtain ⟨q', h1, h2, h3, -⟩ := quadGauss_spec hR
  intro c hc
  obtain ⟨p, hp, rfl⟩ := List.mem_map.1 hc
  rw [h2, (quadPts_perm' hB q').mem_iff, List.mem_filter, List.mem_map] at hp
  obtain ⟨⟨r, hr, rfl⟩, -⟩ := hp
  obtain ⟨hlen, hR⟩ := forall2_ofFn (mem_cart.1 hr)
  refine List.prod_pos fun c hc => ?_
  obtain ⟨p, hp, rfl⟩ := List.mem_map.1 hc
  obtain ⟨i, hi, rfl⟩ := List.getElem_of_mem hp
  have hz := hR i (by omega) hi
  obtain ⟨k, hk⟩ := (List.mem_ofFn' _ _).1 hz
  rw [← hk]
  exact gauss_weight_pos _ _ (hlt _) _ (he _) k

/-- The method for bounded domains without equality constraints. -/
theorem quadMethod_gauss (hu : D.isUnbounded = false) (hq : D.hasEq = false) (N : ℕ) : quadMethod D N .gauss = .gauss := by
  simp [quadMethod, hu, hq]

theorem quadMethod_auto (hu : D.isUnbounded = false) (hq : D.hasEq = false) (hm1 : 1 ≤ D.lo.length) {N : ℕ} :
    quadMethod D N .auto = .gauss ↔ 2 ^ D.lo.length ≤ N := by
  rw [quadQ_largest hm1 2]
  by_cases h : 1 < quadQ N D.lo.length
  · simp [quadMethod, hu, hq, h]; omega
  · simp [quadMethod, hu, hq, h]; omega

theorem applyRule_quad (he : ∀ n, EighSpec (eigh n)) (hB : QBox D l h) (q : ℕ) (F : Vec → ℝ) :
    applyRule ((quadPts eigh D q).map Prod.fst) ((quadPts eigh D q).map Prod.snd) F =
      tenQ eigh q l h ((D.region m).indicator fun x => F (List.ofFn x)) := by
  rw [applyRule_pairs, quadPts_apply he hB]

/-- **C106**: on a domain whose boundary has measure zero the Gauss rules converge to the integral over the domain. -/
theorem quadRule_converges (he : ∀ n, EighSpec (eigh n)) (hB : QBox D l h) (hm1 : 1 ≤ m) (ht : D.truncNormal = false)
    (hp : D.isPoint = false) (hu : D.isUnbounded = false) (hq : D.hasEq = false) (method : QMethod)
    (hmeth : method = .auto ∨ method = .gauss) (hDm : MeasurableSet (D.region m)) (hD : volume (frontier (D.region m)) = 0)
    (F : Vec → ℝ) (hF : ContinuousOn (fun x : Fin m → ℝ => F (List.ofFn x)) (Set.Icc l h)) (ε : ℝ) (hε : 0 < ε) :
    ∃ N0, ∀ N ≥ N0, ∀ fuel X w, quadRule eigh D N method fuel = some (.ok (some (X, w))) →
      |applyRule X w F - ∫ x in Set.Icc l h ∩ D.region m, F (List.ofFn x)| < ε := by
  obtain ⟨q0, hq0⟩ := Metric.tendsto_atTop.1 (tenQ_cut he hB.le (D.region m) hDm hD _ hF) ε hε
  have hlen : D.lo.length = m := by rw [hB.lo, List.length_ofFn]
  refine ⟨(max q0 2) ^ m, fun N hN fuel X w hr => ?_⟩
  have hmg : quadMethod D N method = .gauss := by
    rcases hmeth with rfl | rfl
    · rw [quadMethod_auto hu hq (by omega), hlen]
      exact (Nat.pow_le_pow_left (le_max_right _ _) m).trans hN
    · exact quadMethod_gauss hu hq N
  obtain ⟨R, hR, rfl, rfl⟩ := quadRule_gauss_inv ht hp hmg hr
  obtain ⟨q', h1, h2, -, -⟩ := quadGauss_spec hR
  rw [h2, applyRule_quad he hB]
  refine hq0 q' ?_
  have := le_quadQ hm1 hN
  rw [hlen] at h1
  omega

/-- A box of points around an interior point gives arbitrarily many points. -/
theorem quadPts_many (he : ∀ n, EighSpec (eigh n)) (hB : QBox D l h) (hm1 : 1 ≤ m)
    (hint : (interior (D.region m) ∩ interior (Set.Icc l h)).Nonempty) (N : ℕ) :
    ∀ᶠ n in atTop, N < (quadPts eigh D (n + 1)).length := by
  obtain ⟨x0, hx0⟩ := hint
  obtain ⟨ε, hε, hball⟩ := Metric.isOpen_iff.1 (isOpen_interior.inter isOpen_interior) x0 hx0
  have hbox : ∀ x : Fin m → ℝ, (∀ i, |x i - x0 i| ≤ ε / 2) → x ∈ interior (D.region m) ∩ interior (Set.Icc l h) := by
    intro x hx
    refine hball ?_
    rw [Metric.mem_ball]
    refine lt_of_le_of_lt ((dist_pi_le_iff (by positivity)).2 fun i => ?_) (show ε / 2 < ε by linarith)
    rw [Real.dist_eq]
    exact hx i
  have hin : ∀ x : Fin m → ℝ, (∀ i, |x i - x0 i| ≤ ε / 2) → x ∈ D.region m ∧ x ∈ Set.Icc l h := fun x hx =>
    ⟨interior_subset (hbox x hx).1, interior_subset (hbox x hx).2⟩
  -- the end points of the subintervals
  set c : Fin m → ℕ → ℝ := fun i j => x0 i - ε / 2 + j * (ε / (N + 1)) with hc
  have hstep : 0 < ε / ((N : ℝ) + 1) := by positivity
  have hcb : ∀ i j, j ≤ N + 1 → |c i j - x0 i| ≤ ε / 2 := by
    intro i j hj
    have h1 : (j : ℝ) ≤ N + 1 := by exact_mod_cast hj
    have h2 : (j : ℝ) * (ε / (N + 1)) ≤ ε := by
      calc (j : ℝ) * (ε / (N + 1)) ≤ (N + 1) * (ε / (N + 1)) := mul_le_mul_of_nonneg_right h1 hstep.le
        _ = ε := by field_simp
    have h3 : 0 ≤ (j : ℝ) * (ε / (N + 1)) := by positivity
    rw [abs_le]
    constructor <;> simp only [hc] <;> linarith
  have hcI : ∀ i j, j ≤ N + 1 → c i j ∈ Set.Icc (l i) (h i) := by
    intro i j hj
    have := (hin (fun k => c k j) fun k => hcb k j hj).2
    exact ⟨this.1 i, this.2 i⟩
  have hlt : ∀ i j, c i j < c i (j + 1) := by
    intro i j
    simp only [hc]
    push_cast
    nlinarith
  have hmono : ∀ i, StrictMono (c i) := fun i => strictMono_nat_of_lt_succ (hlt i)
  have hev : ∀ᶠ n in atTop, ∀ i : Fin m, ∀ j : Fin (N + 1),
      ∃ k, (gauss n (l i) (h i) (eigh n)).1 k ∈ Set.Ioo (c i j) (c i (j + 1)) := by
    rw [eventually_all]
    intro i
    rw [eventually_all]
    intro j
    exact gauss_dense _ _ eigh he _ _ (hcI i j (by omega)).1 (hlt i j) (hcI i (j + 1) (by omega)).2
  filter_upwards [hev] with n hn
  choose k hk using hn
  let row : Fin (N + 1) → List (ℝ × ℝ) := fun j => List.ofFn fun i =>
    ((gauss n (l i) (h i) (eigh n)).1 (k i j), (gauss n (l i) (h i) (eigh n)).2 (k i j))
  have hrow1 : ∀ j, (pairOf (row j)).1 = List.ofFn fun i => (gauss n (l i) (h i) (eigh n)).1 (k i j) := by
    intro j
    simp [pairOf, row, List.map_ofFn, Function.comp_def]
  have hmem : ∀ j, pairOf (row j) ∈ quadPts eigh D (n + 1) := by
    intro j
    rw [(quadPts_perm' hB (n + 1)).mem_iff, List.mem_filter, List.mem_map, decide_eq_true_eq]
    refine ⟨⟨row j, ?_, rfl⟩, ?_⟩
    · rw [mem_cart, List.forall₂_iff_get]
      refine ⟨by simp [row], fun i h1 h2 => ?_⟩
      simp only [row, List.get_eq_getElem, List.getElem_ofFn, axisZ, Nat.add_sub_cancel]
      exact (List.mem_ofFn' _ _).2 ⟨k _ j, rfl⟩
    · rw [hrow1]
      refine (hin (fun i => (gauss n (l i) (h i) (eigh n)).1 (k i j)) fun i => ?_).1
      have h1 := hk i j
      have h2 := abs_le.1 (hcb i j (by omega))
      have h3 := abs_le.1 (hcb i (j + 1) (by omega))
      rw [abs_le]
      constructor <;> linarith [h1.1, h1.2]
  have hinj : Function.Injective fun j => (pairOf (row j)).1 := by
    intro a b hab
    simp only [hrow1] at hab
    have hab' := congrFun (List.ofFn_injective hab) ⟨0, by omega⟩
    have h1 := hk ⟨0, by omega⟩ a
    have h2 := hk ⟨0, by omega⟩ b
    rw [← hab'] at h2
    rcases lt_trichotomy a b with hlt' | heq | hgt
    · have := (hmono ⟨0, by omega⟩).monotone (show (a : ℕ) + 1 ≤ b from hlt')
      linarith [h1.2, h2.1]
    · exact heq
    · have := (hmono ⟨0, by omega⟩).monotone (show (b : ℕ) + 1 ≤ a from hgt)
      linarith [h2.2, h1.1]
  have hsub : Finset.univ.image (fun j => (pairOf (row j)).1) ⊆ ((quadPts eigh D (n + 1)).map Prod.fst).toFinset := by
    intro x hx
    obtain ⟨j, -, rfl⟩ := Finset.mem_image.1 hx
    exact List.mem_toFinset.2 (List.mem_map_of_mem (hmem j))
  have hcard := (Finset.card_le_card hsub).trans (List.toFinset_card_le _)
  rw [Finset.card_image_of_injective _ hinj, Finset.card_fin, List.length_map] at hcard
  omega

/-- **C106**: the search for the number of points ends for every domain with an interior point. -/
theorem quadRule_terminates (he : ∀ n, EighSpec (eigh n)) (hB : QBox D l h) (hm1 : 1 ≤ m) (ht : D.truncNormal = false)
    (hp : D.isPoint = false) (N : ℕ) (method : QMethod) (hm : quadMethod D N method = .gauss)
    (hint : (interior (D.region m) ∩ interior (Set.Icc l h)).Nonempty) :
    ∃ fuel0 X w, ∀ fuel ≥ fuel0, quadRule eigh D N method fuel = some (.ok (some (X, w))) := by
  have hgo : ∃ fuel0 R, ∀ fuel ≥ fuel0, quadGauss eigh D N (quadQ N D.lo.length) fuel = some R := by
    by_cases hc : quadQ N D.lo.length ^ D.lo.length = (quadPts eigh D (quadQ N D.lo.length)).length
    · refine ⟨0, quadPts eigh D (quadQ N D.lo.length), fun fuel _ => ?_⟩
      simp only [quadGauss]
      rw [if_pos hc]
    · obtain ⟨n, hn1, hn2⟩ := ((quadPts_many he hB hm1 hint N).and (eventually_ge_atTop (quadQ N D.lo.length))).exists
      obtain ⟨k, rfl⟩ := Nat.exists_eq_add_of_le hn2
      obtain ⟨R', hR'⟩ := quadLoop_ends k _ (quadPts eigh D (quadQ N D.lo.length)) hn1
      refine ⟨k + 1, R', fun fuel hf => ?_⟩
      simp only [quadGauss]
      rw [if_neg hc]
      exact hR' fuel hf
  obtain ⟨fuel0, R, hR⟩ := hgo
  refine ⟨fuel0, R.map Prod.fst, R.map Prod.snd, fun fuel hf => ?_⟩
  rw [quadRule_gauss ht hp hm, hR fuel hf]
  rfl

/-- **C106**: when the domain fills its normalization box, the rule has `q ^ m` points, where `q` is the largest number with
`q ^ m ≤ N`, and it is exact for all polynomials of degree at most `2 q - 1` in each coordinate. -/
theorem quadRule_full_exact (he : ∀ n, EighSpec (eigh n)) (hB : QBox D l h) (hm1 : 1 ≤ m) (ht : D.truncNormal = false)
    (hp : D.isPoint = false) {N : ℕ} (hN : 1 ≤ N) (method : QMethod) (hm : quadMethod D N method = .gauss)
    (hfull : Set.Icc l h ⊆ D.region m) (fuel : ℕ) :
    ∃ X w, quadRule eigh D N method fuel = some (.ok (some (X, w))) ∧ X.length = quadQ N m ^ m ∧
      ∀ p : MvPolynomial (Fin m) ℝ, (∀ i, p.degreeOf i ≤ 2 * quadQ N m - 1) →
        applyRule X w (fun x => MvPolynomial.eval (toPt m x) p) = ∫ x in Set.Icc l h, MvPolynomial.eval x p := by
  have hlen : D.lo.length = m := by rw [hB.lo, List.length_ofFn]
  have hq1 := quadQ_pos hm1 hN
  have hcount : (quadPts eigh D (quadQ N m)).length = quadQ N m ^ m := by
    rw [(quadPts_perm' hB _).length_eq, List.filter_eq_self.2, List.length_map, cart_length]
    · rw [show quadQ N m - 1 + 1 = quadQ N m by omega]
    · intro p hp
      obtain ⟨r, hr, rfl⟩ := List.mem_map.1 hp
      obtain ⟨h1, h2, -⟩ := mem_tensor he hB.le hr
      rw [decide_eq_true_eq]
      have := hfull h2
      change D.inside _ at this
      rwa [ofFn_toPt (by simpa [pairOf] using h1)] at this
  have hg : quadGauss eigh D N (quadQ N D.lo.length) fuel = some (quadPts eigh D (quadQ N m)) := by
    simp only [quadGauss, hlen]
    rw [if_pos hcount.symm]
  refine ⟨_, _, by rw [quadRule_gauss ht hp hm, hg]; rfl, by simpa using hcount, fun p hp => ?_⟩
  rw [applyRule_quad he hB, ← tenQ_exact he hq1 hB.le p hp]
  refine (tenQ_pos he _ hB.le).congr fun x hx => ?_
  rw [Set.indicator_of_mem (hfull hx), toPt_ofFn]

/-! ### Boxes -/

/-- A box fills its normalization box. -/
theorem boxQ_full (nnls : NNLS) {TOL : ℝ} (hT : 0 ≤ TOL) (l h : Fin m → ℝ) (sample isPoint) :
    Set.Icc l h ⊆ (boxQ nnls TOL (List.ofFn l) (List.ofFn h) sample isPoint).region m := by
  intro x hx
  refine ⟨by simp [Dom.len, Base.len, Base.acc], ?_⟩
  change inBounds _ _ _ _
  rw [inBounds_iff]
  constructor
  · intro i r xi h1 h2
    rw [List.getElem?_map, Option.map_eq_some_iff] at h1
    obtain ⟨a, h1, e⟩ := h1
    cases e
    obtain ⟨b1, rfl⟩ := List.getElem?_eq_some_iff.1 h1
    obtain ⟨b2, rfl⟩ := List.getElem?_eq_some_iff.1 h2
    simp only [List.getElem_ofFn]
    have := hx.1 ⟨i, by simpa using b1⟩
    linarith
  · intro i r xi h1 h2
    rw [List.getElem?_map, Option.map_eq_some_iff] at h1
    obtain ⟨a, h1, e⟩ := h1
    cases e
    obtain ⟨b1, rfl⟩ := List.getElem?_eq_some_iff.1 h1
    obtain ⟨b2, rfl⟩ := List.getElem?_eq_some_iff.1 h2
    simp only [List.getElem_ofFn]
    have := hx.2 ⟨i, by simpa using b1⟩
    linarith

theorem boxQ_box (nnls : NNLS) (TOL : ℝ) {l h : Fin m → ℝ} (hlh : ∀ i, l i ≤ h i) (sample isPoint) :
    QBox (boxQ nnls TOL (List.ofFn l) (List.ofFn h) sample isPoint) l h := ⟨rfl, rfl, hlh⟩

/-- **C106** for boxes: `quadrature_rule(N, 'gauss')` always returns a rule with `q ^ m ≤ N` points, exact for polynomials
of degree at most `2 q - 1` in each coordinate. -/
theorem quadRule_box_exact (he : ∀ n, EighSpec (eigh n)) (nnls : NNLS) {TOL : ℝ} (hT : 0 ≤ TOL) {l h : Fin m → ℝ}
    (hlh : ∀ i, l i ≤ h i) (hm1 : 1 ≤ m) (sample) {N : ℕ} (hN : 1 ≤ N) (fuel : ℕ) :
    ∃ X w, quadRule eigh (boxQ nnls TOL (List.ofFn l) (List.ofFn h) sample false) N .gauss fuel = some (.ok (some (X, w))) ∧
      X.length = quadQ N m ^ m ∧
      ∀ p : MvPolynomial (Fin m) ℝ, (∀ i, p.degreeOf i ≤ 2 * quadQ N m - 1) →
        applyRule X w (fun x => MvPolynomial.eval (toPt m x) p) = ∫ x in Set.Icc l h, MvPolynomial.eval x p :=
  quadRule_full_exact he (boxQ_box nnls TOL hlh sample false) hm1 rfl rfl hN .gauss (quadMethod_gauss rfl rfl N)
    (boxQ_full nnls hT l h sample false) fuel

/-- **C106**: the volume of a box is its volume. -/
theorem boxVolume_eq (l h : Fin m → ℝ) (hlh : ∀ i, l i ≤ h i) :
    boxVolume (List.ofFn l) (List.ofFn h) = (volume (Set.Icc l h)).toReal := by
  rw [Real.volume_Icc_pi_toReal hlh, boxVolume, zipWith_ofFn, List.prod_ofFn]

/-- The estimate of the volume lies between zero and the volume of the normalization box. -/
theorem mcVolume_bounds (l h : Fin m → ℝ) (hlh : ∀ i, l i ≤ h i) (inside : Vec → Prop) (Xt : List Vec) :
    0 ≤ mcVolume (List.ofFn l) (List.ofFn h) inside Xt ∧
      mcVolume (List.ofFn l) (List.ofFn h) inside Xt ≤ (volume (Set.Icc l h)).toReal := by
  have h0 : 0 ≤ boxVolume (List.ofFn l) (List.ofFn h) := by
    rw [boxVolume_eq l h hlh]
    exact ENNReal.toReal_nonneg
  have h1 : (((Xt.filter fun x => decide (inside x)).length : ℝ) / Xt.length) ≤ 1 :=
    div_le_one_of_le₀ (by exact_mod_cast List.length_filter_le _ _) (by positivity)
  constructor
  · exact mul_nonneg h0 (by positivity)
  · rw [← boxVolume_eq l h hlh]
    exact mul_le_of_le_one_right h0 h1

/-! ### Monte Carlo and the remaining branches -/

/-- **C106**: the Monte-Carlo rule has `N` points of the domain and equal weights that add up to the volume. -/
theorem quadRule_mc (hS : SampleOk D) {N fuel : ℕ} {method : QMethod} (ht : D.truncNormal = false) (hp : D.isPoint = false)
    (hm : quadMethod D N method = .montecarlo) {X : List Vec} {w : List ℝ}
    (hr : quadRule eigh D N method fuel = some (.ok (some (X, w)))) :
    1 ≤ N ∧ X.length = N ∧ w.length = N ∧ (∀ x ∈ X, D.inside x) ∧ (∀ c ∈ w, c = D.vol / N) ∧ w.sum = D.vol := by
  simp only [quadRule, ht, hp, hm, quadMC] at hr
  by_cases hN : N = 0
  · simp [hN, Except.map] at hr
  · cases hs : D.sample N with
    | error e =>
      rw [hs] at hr
      simp [hN, Bind.bind, Except.bind, Except.map] at hr
    | ok Y =>
      rw [hs] at hr
      simp only [hN, if_false, Bind.bind, Except.bind, pure, Except.pure, Except.map, Bool.false_eq_true, Option.some.injEq, Except.ok.injEq,
        Prod.mk.injEq] at hr
      obtain ⟨rfl, rfl⟩ := hr
      obtain ⟨h1, h2⟩ := hS N _ hs
      refine ⟨by omega, h1, by simp, h2, fun c hc => ?_, ?_⟩
      · rw [List.eq_of_mem_replicate hc]
        ring
      · rw [List.sum_replicate, nsmul_eq_mul]
        have : (N : ℝ) ≠ 0 := by exact_mod_cast hN
        field_simp

/-- **C106**: a domain that is a single point gets this point with weight one. -/
theorem quadRule_point (hS : SampleOk D) {N fuel : ℕ} {method : QMethod} (ht : D.truncNormal = false) (hp : D.isPoint = true)
    {X : List Vec} {w : List ℝ} (hr : quadRule eigh D N method fuel = some (.ok (some (X, w)))) :
    X.length = 1 ∧ (∀ x ∈ X, D.inside x) ∧ w = [1] := by
  simp only [quadRule, ht, hp] at hr
  cases hs : D.sample 1 with
  | error e =>
    rw [hs] at hr
    simp [Except.map] at hr
  | ok Y =>
    rw [hs] at hr
    simp only [if_true, Bool.false_eq_true, if_false, Except.map, Option.some.injEq, Except.ok.injEq, Prod.mk.injEq] at hr
    obtain ⟨rfl, rfl⟩ := hr
    exact ⟨(hS 1 _ hs).1, (hS 1 _ hs).2, rfl⟩

/-- **C106**: the errors: truncated normal domains; Monte Carlo without points; errors of the sampler. -/
theorem quadRule_error_iff {N fuel : ℕ} {method : QMethod} (e : Err) :
    quadRule eigh D N method fuel = some (.error e) ↔
      (D.truncNormal = true ∧ e = .notImplemented) ∨
      (D.truncNormal = false ∧ D.isPoint = true ∧ D.sample 1 = .error e) ∨
      (D.truncNormal = false ∧ D.isPoint = false ∧ quadMethod D N method = .montecarlo ∧
        (N = 0 ∧ e = .zeroDivision ∨ N ≠ 0 ∧ D.sample N = .error e)) := by
  unfold quadRule
  by_cases ht : D.truncNormal = true
  · rw [if_pos ht]
    simp only [Option.some.injEq, Except.error.injEq, ht, true_and, Bool.true_eq_false, false_and, or_false]
    exact eq_comm
  by_cases hp : D.isPoint = true
  · simp only [ht, hp]
    cases hs : D.sample 1 <;> simp [Except.map]
  simp only [ht, hp]
  cases hm : quadMethod D N method with
  | gauss => simp
  | auto => simp
  | other => simp
  | montecarlo =>
    simp only [quadMC]
    by_cases hN : N = 0
    · simp only [hN, if_true, Except.map, Option.some.injEq, Except.error.injEq, ne_eq, not_true_eq_false, false_and, or_false,
        true_and, Bool.false_eq_true, if_false, ht, hp, reduceCtorEq, false_or]
      simp [ht, hp, eq_comm]
    · cases hs : D.sample N <;> simp [hN, Except.map, Bind.bind, Except.bind, pure, Except.pure]

/-- **C106**: no method but the three known ones gives a rule. -/
theorem quadRule_other {N fuel : ℕ} (ht : D.truncNormal = false) (hp : D.isPoint = false) (hu : D.isUnbounded = false) :
    quadRule eigh D N .other fuel = some (.ok none) := by
  simp [quadRule, ht, hp, quadMethod, hu]

/-- **C106**: when the Gauss rule is used. -/
theorem quadMethod_gauss_iff (hm1 : 1 ≤ D.lo.length) (N : ℕ) (method : QMethod) : quadMethod D N method = .gauss ↔
    D.isUnbounded = false ∧ D.hasEq = false ∧ (method = .gauss ∨ method = .auto ∧ 2 ^ D.lo.length ≤ N) := by
  have h2 := quadQ_largest (N := N) hm1 2
  cases hu : D.isUnbounded <;> cases hq : D.hasEq <;> cases method <;> simp [quadMethod, hu, hq, h2] <;> (try split) <;> (try simp) <;> (try omega)

/-- **C106**: when points are sampled: for unbounded domains whatever is asked for, for domains with equality constraints unless an unknown method is asked for, on
request, and if there are too few points for two in each direction. -/
theorem quadMethod_mc_iff (hm1 : 1 ≤ D.lo.length) (N : ℕ) (method : QMethod) : quadMethod D N method = .montecarlo ↔
    D.isUnbounded = true ∨ method = .montecarlo ∨ (D.hasEq = true ∧ method = .gauss) ∨ (method = .auto ∧ (D.hasEq = true ∨ N < 2 ^ D.lo.length)) := by
  have h2 := quadQ_largest (N := N) hm1 2
  rw [← not_le, h2]
  cases hu : D.isUnbounded <;> cases hq : D.hasEq <;> cases method <;> simp [quadMethod, hu, hq] <;> (try split) <;> (try simp) <;> (try omega)

/-- **C106**: on unbounded domains and those with equality constraints the rule consists of `N` sampled points with equal weights. -/
theorem quadRule_sampled (hS : SampleOk D) (hm1 : 1 ≤ D.lo.length) {N fuel : ℕ} {method : QMethod} (ht : D.truncNormal = false) (hp : D.isPoint = false)
    (hD : D.isUnbounded = true ∨ D.hasEq = true) (hmeth : method ≠ .other) {X : List Vec} {w : List ℝ}
    (hr : quadRule eigh D N method fuel = some (.ok (some (X, w)))) :
    1 ≤ N ∧ X.length = N ∧ w.length = N ∧ (∀ x ∈ X, D.inside x) ∧ (∀ c ∈ w, c = D.vol / N) ∧ w.sum = D.vol := by
  refine quadRule_mc hS ht hp ((quadMethod_mc_iff hm1 N method).2 ?_) hr
  rcases hD with h | h
  · exact Or.inl h
  · cases method with
    | auto => exact Or.inr (Or.inr (Or.inr ⟨rfl, Or.inl h⟩))
    | gauss => exact Or.inr (Or.inr (Or.inl ⟨h, rfl⟩))
    | montecarlo => exact Or.inr (Or.inl rfl)
    | other => exact absurd rfl hmeth

end Verif.Misc
