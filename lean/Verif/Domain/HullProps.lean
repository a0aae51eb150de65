import Verif.Domain.HullModel
import Verif.Domain.SweepProps
import Verif.Domain.SolverProps

/-!
# Property C22: convex hull domains
-/

namespace Verif.Domain

open Classical Verif

/-! ## Specification -/

/-- `z` solves the nonnegative least squares problem with rows `A` (of width `w`) and right-hand side `b`. -/
def NNLSAnswer (w : ℕ) (A : List Vec) (b z : Vec) : Prop :=
  z.length = w ∧ (∀ a ∈ z, 0 ≤ a) ∧ ∀ y : Vec, y.length = w → (∀ a ∈ y, 0 ≤ a) →
    Vec.norm (Vec.sub (Vec.mulVec A z) b) ≤ Vec.norm (Vec.sub (Vec.mulVec A y) b)

/-- The least squares routine solves consistent problems: if some `y ≥ 0` satisfies `A y = b` exactly, the
returned vector also does. -/
def SolvesConsistent (nnls : NNLS) : Prop :=
  ∀ (w : ℕ) (A : List Vec) (b y : Vec), y.length = w → (∀ a ∈ y, 0 ≤ a) → Vec.mulVec A y = b → A ≠ [] → (∀ r ∈ A, r.length = w) →
    (nnls A b).length = w ∧ (∀ a ∈ nnls A b, 0 ≤ a) ∧ Vec.mulVec A (nnls A b) = b

theorem norm_sub_self (v : Vec) : Vec.norm (Vec.sub v v) = 0 := by
  unfold Vec.norm
  rw [Real.sqrt_eq_zero (Vec.sumSq_nonneg _)]
  induction v with
  | nil => simp
  | cons a v ih => simp only [Vec.sub_cons, Vec.sumSq_cons, ih]; ring

theorem eq_of_norm_sub_zero {v w : Vec} (hl : v.length = w.length) (h : Vec.norm (Vec.sub v w) = 0) : v = w := by
  unfold Vec.norm at h
  rw [Real.sqrt_eq_zero (Vec.sumSq_nonneg _)] at h
  induction v generalizing w with
  | nil => simp at hl; exact (List.eq_nil_of_length_eq_zero hl.symm).symm
  | cons a v ih => cases w with
    | nil => simp at hl
    | cons b w =>
      simp only [Vec.sub_cons, Vec.sumSq_cons] at h
      have h1 := Vec.sumSq_nonneg (Vec.sub v w)
      have h2 : (a - b) ^ 2 = 0 := by nlinarith [sq_nonneg (a - b)]
      have h3 : Vec.sumSq (Vec.sub v w) = 0 := by nlinarith [sq_nonneg (a - b)]
      rw [ih (by simpa using hl) h3, sub_eq_zero.1 (pow_eq_zero_iff (two_ne_zero) |>.1 h2)]

/-- A minimizing routine solves consistent problems. -/
theorem solvesConsistent_of_minimal {nnls : NNLS}
    (h : ∀ (w : ℕ) (A : List Vec) (b : Vec), (∀ r ∈ A, r.length = w) → A.length = b.length → NNLSAnswer w A b (nnls A b)) :
    SolvesConsistent nnls := by
  intro w A b y hy hn he _ hA
  have hl : A.length = b.length := by rw [← he]; simp
  obtain ⟨h1, h2, h3⟩ := h w A b hA hl
  refine ⟨h1, h2, ?_⟩
  have := h3 y hy hn
  rw [he, norm_sub_self] at this
  exact eq_of_norm_sub_zero (by simp [hl]) (le_antisymm this (Vec.norm_nonneg _))

/-- Such routines exist. -/
theorem solvesConsistent_exists : ∃ nnls, SolvesConsistent nnls := by
  refine ⟨fun A b => if h : ∃ z : Vec, (∀ r ∈ A, r.length = z.length) ∧ (∀ a ∈ z, 0 ≤ a) ∧ Vec.mulVec A z = b then
    h.choose else [], ?_⟩
  intro w A b y hy hn he hne hA
  have hex : ∃ z : Vec, (∀ r ∈ A, r.length = z.length) ∧ (∀ a ∈ z, 0 ≤ a) ∧ Vec.mulVec A z = b :=
    ⟨y, fun r hr => by rw [hA r hr, hy], hn, he⟩
  dsimp only
  rw [dif_pos hex]
  obtain ⟨h1, h2, h3⟩ := hex.choose_spec
  obtain ⟨r, hr⟩ := List.exists_mem_of_ne_nil _ hne
  exact ⟨by rw [← h1 r hr, hA r hr], h2, h3⟩

/-! ## Lemmas: combinations of columns and rows -/

theorem comb_getD (n j : ℕ) (hj : j < n) (al : Vec) (X : List Vec) (hX : ∀ r ∈ X, r.length = n) (h : al.length = X.length) :
    (comb n al X)[j]? = some (Vec.dot (X.map (fun r => r.getD j 0)) al) := by
  induction X generalizing al with
  | nil =>
    have : al = [] := List.eq_nil_of_length_eq_zero h
    subst this
    simp [comb, hj]
  | cons x X ih => cases al with
    | nil => simp at h
    | cons a al =>
      have hx := hX x (by simp)
      simp only [comb, List.map_cons, Vec.dot_cons]
      unfold Vec.add Vec.smul
      rw [List.getElem?_zipWith, ih al (fun r hr => hX r (by simp [hr])) (by simpa using h), List.getElem?_map]
      have : x[j]? = some (x.getD j 0) := by
        rw [List.getD_eq_getElem?_getD, List.getElem?_eq_getElem (by omega)]; rfl
      rw [this]
      simp only [Option.map_some, Option.some.injEq]
      ring

theorem hullCombine_eq (n : ℕ) (al : Vec) (X : List Vec) (hX : ∀ r ∈ X, r.length = n) (h : al.length = X.length) :
    hullCombine n X al = comb n al X := by
  apply List.ext_getElem?
  intro j
  unfold hullCombine columns
  by_cases hj : j < n
  · rw [comb_getD n j hj al X hX h]
    simp [hj]
  · rw [List.getElem?_eq_none, List.getElem?_eq_none]
    · rw [comb_length n al X hX]; omega
    · simp; omega

theorem dot_ones (m : ℕ) (al : Vec) (h : al.length = m) : Vec.dot (List.replicate m 1) al = al.sum := by
  subst h
  induction al with
  | nil => simp
  | cons a al ih => simp [List.replicate_succ, ih]

theorem zero_smul_add {r x : Vec} (h : x.length = r.length) : Vec.add (Vec.smul 0 r) x = x := by
  induction r generalizing x with
  | nil => simp at h; simp [h]
  | cons b r ih => cases x with
    | nil => simp at h
    | cons c x => simp [ih (x := x) (by simpa using h)]

theorem inHull_mem {n : ℕ} {X : List Vec} (hX : ∀ r ∈ X, r.length = n) {x : Vec} (hx : x ∈ X) : InHull n X x := by
  induction X with
  | nil => simp at hx
  | cons r X ih =>
    have hr := hX r (by simp)
    rcases List.mem_cons.1 hx with rfl | hx
    · refine ⟨1 :: List.replicate X.length 0, by simp, ?_, by simp, ?_⟩
      · intro a ha
        rcases List.mem_cons.1 ha with rfl | ha
        · norm_num
        · rw [List.eq_of_mem_replicate ha]
      · have hz : comb n (List.replicate X.length 0) X = List.replicate n 0 := by
          have hX' : ∀ r ∈ X, r.length = n := fun r hr => hX r (by simp [hr])
          clear ih hX hx hr
          induction X with
          | nil => rfl
          | cons r X ih =>
            simp only [List.length_cons, List.replicate_succ, comb]
            rw [ih (fun r hr => hX' r (by simp [hr]))]
            have := hX' r (by simp)
            clear ih hX'
            subst this
            induction r with
            | nil => simp
            | cons a r ih => simp [List.replicate_succ, ih]
        simp only [comb]
        rw [hz, smul_one]
        subst hr
        clear ih hX hx hz
        induction x with
        | nil => simp
        | cons a r ih => simp [List.replicate_succ, ih]
    · obtain ⟨al, a1, a2, a3, a4⟩ := ih (fun r hr => hX r (by simp [hr])) hx
      refine ⟨0 :: al, by simp [a1], ?_, by simp [a3], ?_⟩
      · intro a ha
        rcases List.mem_cons.1 ha with rfl | ha
        · exact le_refl _
        · exact a2 a ha
      · simp only [comb]
        rw [a4]
        exact zero_smul_add (by rw [hX x (by simp [hx]), hr])

/-- A half-space containing the points contains their hull. -/
theorem inHull_halfspace {n : ℕ} {X : List Vec} (hX : ∀ r ∈ X, r.length = n) {z : Vec} (hz : InHull n X z) {a : Vec} {b : ℝ}
    (h : ∀ r ∈ X, Vec.dot a r ≤ b) : Vec.dot a z ≤ b := by
  obtain ⟨al, a1, a2, a3, rfl⟩ := hz
  rw [dot_comb_right n al X hX a1]
  have key : Vec.dot al (X.map (fun q => Vec.dot a q)) ≤ al.sum * b := by
    clear a3 hX
    induction X generalizing al with
    | nil => have : al = [] := List.eq_nil_of_length_eq_zero a1
             subst this; simp
    | cons x X ih => cases al with
      | nil => simp at a1
      | cons c al =>
        simp only [List.map_cons, Vec.dot_cons, List.sum_cons]
        have h1 := ih (fun r hr => h r (by simp [hr])) al (by simpa using a1) (fun d hd => a2 d (by simp [hd]))
        have h2 := mul_le_mul_of_nonneg_left (h x (by simp)) (a2 c (by simp))
        linarith
  rw [a3, one_mul] at key
  exact key

/-! ## Membership -/

/-- The least squares problem of `coefficients` is consistent exactly for points of the hull, and then gives
convex coefficients of the point. -/
theorem hull_coefficients {nnls : NNLS} (hn : SolvesConsistent nnls) {X : List Vec} {d : LQ} (hw : (Base.hull X d).WF)
    {x : Vec} (hx : InHull d.n X x) :
    let al := hullCoefficients nnls d.n X x
    al.length = X.length ∧ (∀ a ∈ al, 0 ≤ a) ∧ al.sum = 1 ∧ comb d.n al X = x := by
  intro al
  have l1 : (hullNormLb d.n X).length = d.n := by simp [hullNormLb, columns_length]
  have l2 : (hullNormUb d.n X).length = d.n := by simp [hullNormUb, columns_length]
  have hX := hw.2.2
  have hXn : ∀ r ∈ X.map (normalize (hullNormLb d.n X) (hullNormUb d.n X)), r.length = d.n := by
    intro r hr
    obtain ⟨s, hs, rfl⟩ := List.mem_map.1 hr
    simp [normalize, nslopes, center, Vec.length_mul, Vec.length_sub, l1, l2, hX s hs]
  have hxl : x.length = d.n := by
    obtain ⟨be, b1, b2, b3, rfl⟩ := hx
    exact comb_length _ _ _ hX
  have hmul : ∀ z : Vec, z.length = X.length →
      Vec.mulVec (columns d.n (X.map (normalize (hullNormLb d.n X) (hullNormUb d.n X))) ++ [List.replicate X.length 1]) z =
      comb d.n z (X.map (normalize (hullNormLb d.n X) (hullNormUb d.n X))) ++ [z.sum] := by
    intro z hz
    rw [← hullCombine_eq d.n z _ hXn (by simpa using hz)]
    unfold Vec.mulVec hullCombine
    rw [List.map_append]
    simp [dot_ones _ z hz]
  obtain ⟨be, b1, b2, b3, b4⟩ := hx
  obtain ⟨h1, h2, h3⟩ := hn X.length
    (columns d.n (X.map (normalize (hullNormLb d.n X) (hullNormUb d.n X))) ++ [List.replicate X.length 1])
    (normalize (hullNormLb d.n X) (hullNormUb d.n X) x ++ [1]) be b1 b2
    (by rw [hmul be b1, b3, comb_normalize d.n _ _ l1 l2 be X hX b1 b3, b4]) (by simp)
    (by
      intro r hr
      rcases List.mem_append.1 hr with hr | hr
      · unfold columns at hr
        obtain ⟨j, -, rfl⟩ := List.mem_map.1 hr
        simp
      · simp at hr; simp [hr])
  change al.length = _ at h1
  change ∀ a ∈ al, 0 ≤ a at h2
  change Vec.mulVec _ al = _ at h3
  rw [hmul al h1] at h3
  have h4 := List.append_inj h3 (by rw [comb_length _ _ _ hXn]; simp [normalize, nslopes, center, Vec.length_mul, Vec.length_sub, l1, l2, hxl])
  obtain ⟨h4, h5⟩ := h4
  have h5 : al.sum = 1 := by simpa using h5
  refine ⟨h1, h2, h5, ?_⟩
  rw [comb_normalize d.n _ _ l1 l2 al X hX h1 h5] at h4
  exact normalize_inj l1 l2 (comb_length _ _ _ hX) hxl h4

/-- C22 (completeness): every point of the hull satisfying the other constraints is reported inside. -/
theorem hull_holds_isInside {nnls : NNLS} (hn : SolvesConsistent nnls) {tol : ℝ} (ht : 0 < tol) {X : List Vec} {d : LQ}
    (hw : (Base.hull X d).WF) {x : Vec} (hx : (Base.hull X d).Holds x) : (Base.hull X d).isInside nnls tol x := by
  obtain ⟨h1, h2, h3⟩ := hx
  refine ⟨h1, ?_, holds_inAll h2 ht⟩
  obtain ⟨a1, -, -, a4⟩ := hull_coefficients hn hw (h3 X d rfl)
  rw [hullCombine_eq _ _ _ hw.2.2 a1, a4, norm_sub_self]
  exact ht

/-- Membership in every domain, hulls included, follows from the exact constraints. -/
theorem dom_holds_isInside_all {nnls : NNLS} (hn : SolvesConsistent nnls) {tol : ℝ} (ht : 0 < tol) {D : Dom} (hw : D.WF)
    {x : Vec} (hx : D.Holds x) : D.isInside nnls tol x := by
  have hb : ∀ d : Base, d.WF → ∀ z, d.Holds z → d.isInside nnls tol z := by
    intro d hd z hz
    cases d with
    | hull X q => exact hull_holds_isInside hn ht hd hz
    | _ => exact base_holds_isInside nnls (by simp) hz ht
  cases D with
  | base d => exact hb d hw x hx
  | tensor ds =>
    obtain ⟨xs, rfl, hf⟩ := hx
    have hp : Pieces ds xs := hf.imp (fun _ _ h => h.1)
    refine (tensor_mem nnls tol ds xs hp).2 ?_
    replace hw : ∀ d ∈ ds, d.WF := hw.2
    clear hp
    induction hf with
    | nil => exact .nil
    | @cons d x ds xs hdx _ ih =>
      exact .cons (hb d (hw d (by simp)) x hdx) (ih (fun d hd => hw d (by simp [hd])))

/-- C22 (soundness, partial): a point reported inside is within the tolerance of a *nonnegative* combination of
the points and satisfies the other constraints within the tolerance.  The full claim requires the weights to sum
to one, which the code does not check (see `hull_inside_false`); when they do, the point is within the tolerance
of the hull. -/
theorem hull_inside_partial {nnls : NNLS} {tol : ℝ} {X : List Vec} {d : LQ} (hw : (Base.hull X d).WF) {x : Vec}
    (hal : (hullCoefficients nnls d.n X x).length = X.length) (hnn : ∀ a ∈ hullCoefficients nnls d.n X x, 0 ≤ a)
    (hx : (Base.hull X d).isInside nnls tol x) :
    (∃ al : Vec, al.length = X.length ∧ (∀ a ∈ al, 0 ≤ a) ∧ Vec.norm (Vec.sub x (comb d.n al X)) < tol) ∧
    ((hullCoefficients nnls d.n X x).sum = 1 → ∃ z, InHull d.n X z ∧ Vec.norm (Vec.sub x z) < tol) ∧
    d.inAll tol x := by
  obtain ⟨h1, h2, h3⟩ := hx
  rw [hullCombine_eq _ _ _ hw.2.2 hal] at h2
  exact ⟨⟨_, hal, hnn, h2⟩, fun hs => ⟨_, ⟨_, hal, hnn, hs, rfl⟩, h2⟩, h3⟩

/-- C22 (soundness in the limit, partial): if the point is reported inside with every positive tolerance and the
weights sum to one, it lies exactly in the hull and satisfies every other constraint. -/
theorem hull_inside_limit_partial {nnls : NNLS} {X : List Vec} {d : LQ} (hw : (Base.hull X d).WF) {x : Vec}
    (hal : (hullCoefficients nnls d.n X x).length = X.length) (hnn : ∀ a ∈ hullCoefficients nnls d.n X x, 0 ≤ a)
    (hs : (hullCoefficients nnls d.n X x).sum = 1)
    (hx : ∀ tol > 0, (Base.hull X d).isInside nnls tol x) : (Base.hull X d).Holds x := by
  have hl : x.length = d.n := (hx 1 one_pos).1
  have hc : comb d.n (hullCoefficients nnls d.n X x) X = x := by
    symm
    apply eq_of_norm_sub_zero (by rw [comb_length _ _ _ hw.2.2, hl])
    apply le_antisymm _ (Vec.norm_nonneg _)
    apply le_of_forall_pos_lt_add
    intro e he
    have := (hx e he).2.1
    rw [hullCombine_eq _ _ _ hw.2.2 hal] at this
    linarith
  refine ⟨hl, ?_, ?_⟩
  · have hb : ∀ tol > 0, d.inAll tol x := fun tol ht => (hx tol ht).2.2
    constructor
    · intro i r xi h1 h2
      apply le_of_forall_pos_le_add
      intro e he
      have := (inBounds_iff _ _ _ _).1 (hb e he).1
      linarith [this.1 i r xi h1 h2]
    · intro i r xi h1 h2
      apply le_of_forall_pos_le_add
      intro e he
      have := (inBounds_iff _ _ _ _).1 (hb e he).1
      linarith [this.2 i r xi h1 h2]
    · intro i r xi h1 h2
      apply le_of_forall_pos_le_add
      intro e he
      have := (inIneq_iff _ _ _ _).1 (hb e he).2.1
      linarith [this i r xi h1 h2]
    · intro i r xi h1 h2
      by_contra hne
      have hp : 0 < |Vec.dot r x - xi| := abs_pos.2 (sub_ne_zero.2 hne)
      exact lt_irrefl _ ((inEq_iff _ _ _ _).1 (hb _ hp).2.2.1 i r xi h1 h2)
    · intro i L y rho h1 h2 h3
      apply le_of_forall_pos_le_add
      intro e he
      exact (inQuad_iff _ _ _ _ _).1 (hb e he).2.2.2 i L y rho h1 h2 h3
  · intro X' q' h
    cases h
    exact ⟨_, hal, hnn, hs, hc⟩

/-- The data of a one-dimensional hull without further constraints. -/
noncomputable def freeLQ (n : ℕ) : LQ :=
  { n := n, lb := List.replicate n .ninf, ub := List.replicate n .pinf, A := [], b := [], Aeq := [], beq := [],
    Ls := [], ys := [], rhos := [] }

theorem freeLQ_wf (n : ℕ) : (freeLQ n).WF := by
  refine ⟨by simp [freeLQ], by simp [freeLQ], ?_, ?_, by simp [freeLQ], rfl, by simp [freeLQ], rfl, rfl, rfl, by simp [freeLQ],
    by simp [freeLQ], by simp [freeLQ]⟩
  · intro v hv; rw [List.eq_of_mem_replicate hv]; trivial
  · intro v hv; rw [List.eq_of_mem_replicate hv]; trivial

theorem freeLQ_holds (n : ℕ) (x : Vec) : (freeLQ n).Holds x := by
  constructor
  · intro i r xi h; have := List.eq_of_mem_replicate (List.mem_of_getElem? h); cases this
  · intro i r xi h; have := List.eq_of_mem_replicate (List.mem_of_getElem? h); cases this
  · intro i r bi h; simp [freeLQ] at h
  · intro i r bi h; simp [freeLQ] at h
  · intro i r y rho h; simp [freeLQ] at h

/-- C22, negation of the full claim: with the points 0 and 1, the point 5 is reported inside, whatever the
tolerance, for every routine that solves the least squares problem. -/
theorem hull_inside_false {nnls : NNLS}
    (hn : NNLSAnswer 2 [[-1, 1], [1, 1]] [9, 1] (nnls [[-1, 1], [1, 1]] [9, 1]))
    {tol : ℝ} (ht : 0 < tol) :
    (Base.hull [[0], [1]] (freeLQ 1)).WF ∧ (Base.hull [[0], [1]] (freeLQ 1)).isInside nnls tol [5] ∧
      ¬ InHull 1 [[0], [1]] [5] := by
  refine ⟨?_, ?_, ?_⟩
  · exact ⟨freeLQ_wf 1, by simp, by simp [freeLQ]⟩
  · have hc : hullCoefficients nnls 1 [[0], [1]] [5] = nnls [[-1, 1], [1, 1]] [9, 1] := by
      unfold hullCoefficients
      have e1 : hullNormLb 1 [[0], [1]] = [.fin 0] := by simp [hullNormLb, columns, minL]
      have e2 : hullNormUb 1 [[0], [1]] = [.fin 1] := by simp [hullNormUb, columns, maxL]
      have e3 : ∀ v : ℝ, normalize [.fin 0] [.fin 1] [v] = [2 * v - 1] := by
        intro v
        have a1 : nslope (.fin 0) (.fin 1) = 2 := by unfold nslope; norm_num
        have a2 : center1 (.fin 0) (.fin 1) = 1 / 2 := by unfold center1; norm_num
        simp only [normalize, nslopes, center, List.zipWith_cons_cons, List.zipWith_nil_left, a1, a2, Vec.sub_cons,
          Vec.sub_nil_left, Vec.mul_cons, Vec.mul_nil_left]
        congr 1; ring
      rw [e1, e2]
      simp only [e3, List.map_cons, List.map_nil, columns]
      norm_num [List.replicate_succ]
    obtain ⟨h1, h2, h3⟩ := hn
    have hz : nnls [[-1, 1], [1, 1]] [9, 1] = [0, 5] := by
      generalize nnls [[-1, 1], [1, 1]] [9, 1] = z at h1 h2 h3
      rcases z with _ | ⟨a, _ | ⟨b, _ | ⟨c, z⟩⟩⟩
      · simp at h1
      · simp at h1
      · have ha := h2 a (by simp)
        have := h3 [0, 5] (by simp) (by simp)
        unfold Vec.norm at this
        have := (Real.sqrt_le_sqrt_iff (Vec.sumSq_nonneg _)).1 this
        simp only [Vec.mulVec, List.map_cons, List.map_nil, Vec.dot_cons, Vec.dot_nil_left, Vec.sub_cons,
          Vec.sub_nil_left, Vec.sumSq_cons, Vec.sumSq_nil] at this
        have hb : (b - 5) ^ 2 = 0 := by nlinarith [sq_nonneg a, sq_nonneg (b - 5)]
        have hb' : b = 5 := by linarith [pow_eq_zero_iff (two_ne_zero) |>.1 hb]
        have ha' : a = 0 := by nlinarith [sq_nonneg a, sq_nonneg (b - 5)]
        rw [ha', hb']
      · simp at h1
    refine ⟨rfl, ?_, ?_⟩
    · show Vec.norm (Vec.sub [5] (hullCombine 1 [[0], [1]] (hullCoefficients nnls 1 [[0], [1]] [5]))) < tol
      rw [hc, hz]
      have : Vec.sub [5] (hullCombine 1 [[0], [1]] [0, 5]) = [0] := by
        simp [hullCombine, columns]
      rw [this]
      simpa [Vec.norm] using ht
    · exact holds_inAll (freeLQ_holds 1 [5]) ht
  · intro h
    have := inHull_halfspace (a := [1]) (b := 1) (by simp) h (by simp)
    norm_num at this

/-- The hypothesis of `hull_inside_false` is met: `(0, 5)` is the nonnegative least squares answer. -/
example : NNLSAnswer 2 [[-1, 1], [1, 1]] [9, 1] [0, 5] := by
  refine ⟨rfl, by simp, ?_⟩
  intro y hy hn
  obtain ⟨a, b, rfl⟩ := List.length_eq_two.1 hy
  have ha := hn a (by simp)
  apply Real.sqrt_le_sqrt
  simp only [Vec.mulVec, List.map_cons, List.map_nil, Vec.dot_cons, Vec.dot_nil_left, Vec.sub_cons,
    Vec.sub_nil_left, Vec.sumSq_cons, Vec.sumSq_nil]
  nlinarith [sq_nonneg a, sq_nonneg (b - 5)]

/-! ## The two-point sampler -/

/-- C22: every point computed by the two-point sampler is in the hull, for every random number in `[0,1]`. -/
theorem two_point_inHull {n : ℕ} {x0 x1 : Vec} (h0 : x0.length = n) (h1 : x1.length = n) {al : ℝ} (hal : 0 ≤ al) (hal1 : al ≤ 1) :
    InHull n [x0, x1] (twoPoint x0 x1 al) := by
  have := inHull_convex (inHull_mem (n := n) (X := [x0, x1]) (x := x1) (by simp [h0, h1]) (by simp))
    (inHull_mem (n := n) (X := [x0, x1]) (x := x0) (by simp [h0, h1]) (by simp)) hal hal1
  have e : twoPoint x0 x1 al = Vec.lerp al x1 x0 := by
    unfold twoPoint Vec.lerp Vec.add
    rw [List.zipWith_comm]
    congr 1
    funext a b; ring
  rw [e]; exact this

/-! ## Conversion to inequalities -/

/-- What is assumed of the decompositions and of Qhull for the points `X`: the columns of `Qpar` and `Qperp`
together determine a vector, the points agree in the coordinates `Qperp`, and (when there is more than one
reduced coordinate) the facets describe the hull of the reduced points. -/
structure HullOracle.Good (o : HullOracle) (n : ℕ) (X : List Vec) : Prop where
  wpar : ∀ q ∈ o.Qpar, q.length = n
  wperp : ∀ q ∈ o.Qperp, q.length = n
  det : ∀ v w : Vec, v.length = n → w.length = n → Vec.mulVec o.Qpar v = Vec.mulVec o.Qpar w →
    Vec.mulVec o.Qperp v = Vec.mulVec o.Qperp w → v = w
  const : ∀ r ∈ X, ∀ s ∈ X, Vec.mulVec o.Qperp r = Vec.mulVec o.Qperp s
  dim : 1 ≤ o.Qpar.length
  facetw : ∀ f ∈ o.facets, f.1.length = o.Qpar.length
  facets : 1 < o.Qpar.length → ∀ y : Vec, y.length = o.Qpar.length →
    (InHull o.Qpar.length (X.map (Vec.mulVec o.Qpar)) y ↔ ∀ f ∈ o.facets, Vec.dot f.1 y + f.2 ≤ 0)

theorem mulVec_comb {n : ℕ} {al : Vec} {X : List Vec} (hX : ∀ r ∈ X, r.length = n) (h : al.length = X.length) (Q : List Vec) :
    Vec.mulVec Q (comb n al X) = comb Q.length al (X.map (Vec.mulVec Q)) := by
  apply List.ext_getElem?
  intro j
  by_cases hj : j < Q.length
  · rw [comb_getD _ j hj _ _ (by simp) (by simpa using h)]
    unfold Vec.mulVec
    rw [List.getElem?_map, List.getElem?_eq_getElem hj, Option.map_some, dot_comb_right n al X hX h, Vec.dot_comm]
    congr 2
    rw [List.map_map]
    apply List.map_congr_left
    intro r hr
    simp [hj]
  · rw [List.getElem?_eq_none, List.getElem?_eq_none]
    · rw [comb_length _ _ _ (by simp)]; omega
    · simp; omega

theorem dot_liftRow {n : ℕ} {Q : List Vec} (hQ : ∀ q ∈ Q, q.length = n) {e : Vec} (he : e.length = Q.length) (x : Vec) :
    Vec.dot (liftRow n Q e) x = Vec.dot e (Vec.mulVec Q x) := by
  unfold liftRow
  rw [Vec.dot_comm, dot_comb_right n e Q hQ he]
  unfold Vec.mulVec
  congr 1
  apply List.map_congr_left
  intro q _
  exact Vec.dot_comm _ _

theorem comb_const (n : ℕ) (al : Vec) (X : List Vec) (c : Vec) (hc : c.length = n) (h : al.length = X.length)
    (hX : ∀ r ∈ X, r = c) : comb n al X = Vec.smul al.sum c := by
  induction X generalizing al with
  | nil => have : al = [] := List.eq_nil_of_length_eq_zero h
           subst this
           subst hc
           simp [comb, Vec.smul]
  | cons x X ih => cases al with
    | nil => simp at h
    | cons a al =>
      simp only [comb, List.sum_cons]
      rw [ih al (by simpa using h) (fun r hr => hX r (by simp [hr])), hX x (by simp)]
      generalize al.sum = s
      clear ih hc hX h
      induction c with
      | nil => simp
      | cons b c ih => simp [ih]; ring

theorem meanRows_const {k : ℕ} {R : List Vec} {c : Vec} (hc : c.length = k) (hR : ∀ r ∈ R, r = c) (hne : R ≠ []) :
    meanRows k R = c := by
  unfold meanRows
  rw [comb_const k _ R c hc (by simp) hR, List.sum_replicate]
  have : (R.length : ℝ) ≠ 0 := by
    have := List.length_pos_iff.2 hne
    positivity
  simp [Vec.smul, List.map_map, Function.comp_def, this]

theorem minL_spec {l : List ℝ} (h : l ≠ []) : minL l ∈ l ∧ ∀ a ∈ l, minL l ≤ a := by
  cases l with
  | nil => exact absurd rfl h
  | cons a l =>
    clear h
    have key : l.foldl min a ∈ a :: l ∧ ∀ c ∈ a :: l, l.foldl min a ≤ c := ?_
    · exact key
    induction l generalizing a with
    | nil => simp
    | cons b l ih =>
      obtain ⟨h1, h2⟩ := ih (min a b)
      simp only [List.foldl_cons]
      refine ⟨?_, ?_⟩
      · rcases List.mem_cons.1 h1 with h | h
        · rw [h]
          rcases min_choice a b with h' | h' <;> rw [h'] <;> simp
        · simp [h]
      · intro c hc
        have := h2 (min a b) (by simp)
        rcases List.mem_cons.1 hc with rfl | hc
        · exact this.trans (min_le_left _ _)
        · rcases List.mem_cons.1 hc with rfl | hc
          · exact this.trans (min_le_right _ _)
          · exact h2 c (by simp [hc])

theorem maxL_spec {l : List ℝ} (h : l ≠ []) : maxL l ∈ l ∧ ∀ a ∈ l, a ≤ maxL l := by
  cases l with
  | nil => exact absurd rfl h
  | cons a l =>
    clear h
    have key : l.foldl max a ∈ a :: l ∧ ∀ c ∈ a :: l, c ≤ l.foldl max a := ?_
    · exact key
    induction l generalizing a with
    | nil => simp
    | cons b l ih =>
      obtain ⟨h1, h2⟩ := ih (max a b)
      simp only [List.foldl_cons]
      refine ⟨?_, ?_⟩
      · rcases List.mem_cons.1 h1 with h | h
        · rw [h]
          rcases max_choice a b with h' | h' <;> rw [h'] <;> simp
        · simp [h]
      · intro c hc
        have := h2 (max a b) (by simp)
        rcases List.mem_cons.1 hc with rfl | hc
        · exact (le_max_left _ _).trans this
        · rcases List.mem_cons.1 hc with rfl | hc
          · exact (le_max_right _ _).trans this
          · exact h2 c (by simp [hc])

/-- The hull of points on a line is the interval between the smallest and the largest. -/
theorem inHull_interval {Y : List Vec} (hY : ∀ r ∈ Y, r.length = 1) (hne : Y ≠ []) (t : ℝ) :
    InHull 1 Y [t] ↔ minL Y.flatten ≤ t ∧ t ≤ maxL Y.flatten := by
  have hmem : ∀ a, a ∈ Y.flatten ↔ [a] ∈ Y := by
    intro a
    rw [List.mem_flatten]
    constructor
    · rintro ⟨r, hr, ha⟩
      obtain ⟨b, rfl⟩ := List.length_eq_one_iff.1 (hY r hr)
      simp at ha; rw [ha]; exact hr
    · intro h; exact ⟨[a], h, by simp⟩
  have hf : Y.flatten ≠ [] := by
    obtain ⟨r, hr⟩ := List.exists_mem_of_ne_nil _ hne
    obtain ⟨b, rfl⟩ := List.length_eq_one_iff.1 (hY r hr)
    exact List.ne_nil_of_mem ((hmem b).2 hr)
  obtain ⟨m1, m2⟩ := minL_spec hf
  obtain ⟨M1, M2⟩ := maxL_spec hf
  constructor
  · intro h
    constructor
    · have := inHull_halfspace hY h (a := [-1]) (b := -minL Y.flatten) (by
        intro r hr
        obtain ⟨b, rfl⟩ := List.length_eq_one_iff.1 (hY r hr)
        have := m2 b ((hmem b).2 hr)
        simp; linarith)
      simp at this; linarith
    · have := inHull_halfspace hY h (a := [1]) (b := maxL Y.flatten) (by
        intro r hr
        obtain ⟨b, rfl⟩ := List.length_eq_one_iff.1 (hY r hr)
        have := M2 b ((hmem b).2 hr)
        simpa using this)
      simpa using this
  · rintro ⟨h1, h2⟩
    have k1 := inHull_mem hY ((hmem _).1 m1)
    have k2 := inHull_mem hY ((hmem _).1 M1)
    generalize minL Y.flatten = a at *
    generalize maxL Y.flatten = b at *
    by_cases hab : a = b
    · have : t = a := by linarith
      rw [this]; exact k1
    · have hab : 0 < b - a := by
        rcases lt_or_eq_of_le (h1.trans h2) with h | h
        · linarith
        · exact absurd h hab
      have := inHull_convex k1 k2 (t := (t - a) / (b - a)) (div_nonneg (by linarith) hab.le)
        ((div_le_one hab).2 (by linarith))
      have e : Vec.lerp ((t - a) / (b - a)) [a] [b] = [t] := by
        simp only [Vec.lerp, Vec.smul_cons, Vec.smul_nil, Vec.add_cons, Vec.add_nil_left]
        congr 1
        field_simp
        ring
      rw [e] at this; exact this

theorem dot_unitRow (n i : ℕ) (x : Vec) (hx : x.length = n) (hi : i < n) :
    Vec.dot ((List.range n).map (fun j => if i = j then (1:ℝ) else 0)) x = x.getD i 0 := by
  subst hx
  induction x generalizing i with
  | nil => simp at hi
  | cons a x ih =>
    rw [List.length_cons, List.range_succ_eq_map, List.map_cons, List.map_map, Vec.dot_cons]
    cases i with
    | zero =>
      have : (List.map ((fun j => if 0 = j then (1:ℝ) else 0) ∘ Nat.succ) (List.range x.length)) = List.replicate x.length 0 := by
        apply List.ext_getElem (by simp)
        intro j h1 h2; simp
      rw [this, Vec.dot_replicate_zero]; simp
    | succ i =>
      have := ih i (by simpa using hi)
      have e : (List.map ((fun j => if i + 1 = j then (1:ℝ) else 0) ∘ Nat.succ) (List.range x.length)) =
          List.map (fun j => if i = j then (1:ℝ) else 0) (List.range x.length) := by
        apply List.map_congr_left
        intro j _; simp
      rw [e, this]; simp

/-- The inequalities and equalities of `_hull_to_linineq` describe the hull. -/
theorem hullLinineq_spec {o : HullOracle} {n : ℕ} {X : List Vec} (hX : ∀ r ∈ X, r.length = n) (hne : X ≠ [])
    (ho : X.length ≠ 1 → o.Good n X) {x : Vec} (hx : x.length = n) :
    ((∀ (i : ℕ) (row : Vec) (bi : ℝ), (hullLinineq o n X).1[i]? = some row → (hullLinineq o n X).2.1[i]? = some bi → Vec.dot row x ≤ bi) ∧
     (∀ (i : ℕ) (row : Vec) (bi : ℝ), (hullLinineq o n X).2.2.1[i]? = some row → (hullLinineq o n X).2.2.2[i]? = some bi → Vec.dot row x = bi))
      ↔ InHull n X x := by
  by_cases h1 : X.length = 1
  · obtain ⟨x0, rfl⟩ := List.length_eq_one_iff.1 h1
    have hx0 := hX x0 (by simp)
    have e : hullLinineq o n [x0] = ([], [], unitRows n, x0) := rfl
    rw [e]
    constructor
    · rintro ⟨-, h⟩
      have hxx : x = x0 := by
        apply List.ext_getElem (by omega)
        intro i i1 i2
        have := h i ((List.range n).map (fun j => if i = j then 1 else 0)) x0[i] (by
          unfold unitRows
          rw [List.getElem?_map, List.getElem?_range (by omega)]; rfl) (by simp)
        rw [dot_unitRow n i x hx (by omega)] at this
        simpa [i1] using this
      rw [hxx]; exact inHull_mem hX (by simp)
    · intro h
      have hxx : x = x0 := by
        obtain ⟨al, a1, a2, a3, rfl⟩ := h
        rw [comb_const n al [x0] x0 hx0 a1 (by simp), a3, smul_one]
      refine ⟨by simp, ?_⟩
      intro i row bi hr hb
      unfold unitRows at hr
      have hi : i < n := by
        have := (List.getElem?_eq_some_iff.1 hr).1
        simpa using this
      rw [List.getElem?_map, List.getElem?_range hi] at hr
      cases hr
      rw [dot_unitRow n i x hx hi, hxx, List.getD_eq_getElem?_getD, hb]; rfl
  · have g := ho h1
    obtain ⟨r0, hr0⟩ := List.exists_mem_of_ne_nil _ hne
    have hbeq : meanRows o.Qperp.length (X.map (Vec.mulVec o.Qperp)) = Vec.mulVec o.Qperp r0 :=
      meanRows_const (by simp) (by
        intro r hr
        obtain ⟨s, hs, rfl⟩ := List.mem_map.1 hr
        exact g.const s hs r0 hr0) (by simpa using hne)
    have hY : ∀ r ∈ X.map (Vec.mulVec o.Qpar), r.length = o.Qpar.length := by
      intro r hr
      obtain ⟨s, hs, rfl⟩ := List.mem_map.1 hr
      simp
    -- the hull in reduced coordinates
    have hred : InHull n X x ↔ InHull o.Qpar.length (X.map (Vec.mulVec o.Qpar)) (Vec.mulVec o.Qpar x) ∧
        Vec.mulVec o.Qperp x = Vec.mulVec o.Qperp r0 := by
      constructor
      · rintro ⟨al, a1, a2, a3, rfl⟩
        refine ⟨⟨al, by simpa using a1, a2, a3, (mulVec_comb hX a1 _).symm⟩, ?_⟩
        rw [mulVec_comb hX a1, comb_const _ _ _ (Vec.mulVec o.Qperp r0) (by simp) (by simpa using a1), a3, smul_one]
        intro r hr
        obtain ⟨s, hs, rfl⟩ := List.mem_map.1 hr
        exact g.const s hs r0 hr0
      · rintro ⟨⟨al, a1, a2, a3, a4⟩, h2⟩
        rw [List.length_map] at a1
        refine ⟨al, a1, a2, a3, ?_⟩
        apply g.det _ _ (comb_length _ _ _ hX) hx
        · rw [mulVec_comb hX a1, a4]
        · rw [h2, mulVec_comb hX a1, comb_const _ _ _ (Vec.mulVec o.Qperp r0) (by simp) (by simpa using a1), a3, smul_one]
          intro r hr
          obtain ⟨s, hs, rfl⟩ := List.mem_map.1 hr
          exact g.const s hs r0 hr0
    have heq : (∀ (i : ℕ) (row : Vec) (bi : ℝ), o.Qperp[i]? = some row → (Vec.mulVec o.Qperp r0)[i]? = some bi → Vec.dot row x = bi) ↔
        Vec.mulVec o.Qperp x = Vec.mulVec o.Qperp r0 := by
      constructor
      · intro h
        apply List.ext_getElem?
        intro i
        by_cases hi : i < o.Qperp.length
        · unfold Vec.mulVec at h ⊢
          rw [List.getElem?_map, List.getElem?_map, List.getElem?_eq_getElem hi]
          simp only [Option.map_some, Option.some.injEq]
          exact h i _ _ (List.getElem?_eq_getElem hi) (by simp [hi])
        · rw [List.getElem?_eq_none, List.getElem?_eq_none] <;> simp <;> omega
      · intro h i row bi hr hb
        rw [← h] at hb
        unfold Vec.mulVec at hb
        rw [List.getElem?_map, hr] at hb
        simpa using hb
    by_cases hd : 1 < o.Qpar.length
    · have e : hullLinineq o n X = (o.facets.map (fun f => liftRow n o.Qpar f.1), o.facets.map (fun f => -f.2), o.Qperp,
          meanRows o.Qperp.length (X.map (Vec.mulVec o.Qperp))) := by
        rcases X with _ | ⟨a, _ | ⟨b, X⟩⟩
        · exact absurd rfl hne
        · exact absurd rfl h1
        · simp only [hullLinineq]; rw [if_pos hd]
      rw [e]
      simp only [hbeq]
      rw [hred, heq, g.facets hd _ (by simp)]
      refine and_congr_left (fun _ => ?_)
      constructor
      · intro h f hf
        obtain ⟨i, hi⟩ := List.mem_iff_getElem?.1 hf
        have := h i (liftRow n o.Qpar f.1) (-f.2) (by rw [List.getElem?_map, hi]; rfl) (by rw [List.getElem?_map, hi]; rfl)
        rw [dot_liftRow g.wpar (g.facetw f hf)] at this
        linarith
      · intro h i row bi hr hb
        rw [List.getElem?_map] at hr hb
        rcases hf : o.facets[i]? with _ | f
        · rw [hf] at hr; simp at hr
        · rw [hf] at hr hb
          simp only [Option.map_some, Option.some.injEq] at hr hb
          have hm := List.mem_of_getElem? hf
          rw [← hr, ← hb, dot_liftRow g.wpar (g.facetw f hm)]
          linarith [h f hm]
    · have hd1 : o.Qpar.length = 1 := by have := g.dim; omega
      have e : hullLinineq o n X = ([liftRow n o.Qpar [1], liftRow n o.Qpar [-1]],
          [maxL (X.map (Vec.mulVec o.Qpar)).flatten, -(minL (X.map (Vec.mulVec o.Qpar)).flatten)], o.Qperp,
          meanRows o.Qperp.length (X.map (Vec.mulVec o.Qperp))) := by
        rcases X with _ | ⟨a, _ | ⟨b, X⟩⟩
        · exact absurd rfl hne
        · exact absurd rfl h1
        · simp only [hullLinineq]; rw [if_neg hd]
      rw [e]
      simp only [hbeq]
      rw [hred, heq]
      refine and_congr_left (fun _ => ?_)
      obtain ⟨q, hq⟩ := List.length_eq_one_iff.1 hd1
      have hv : Vec.mulVec o.Qpar x = [Vec.dot q x] := by rw [hq]; rfl
      rw [hv, hd1, inHull_interval (by intro r hr; rw [hY r hr, hd1]) (by simpa using hne)]
      have d1 : Vec.dot (liftRow n o.Qpar [1]) x = Vec.dot q x := by
        rw [dot_liftRow g.wpar (by simp [hd1]), hv]; simp
      have d2 : Vec.dot (liftRow n o.Qpar [-1]) x = -Vec.dot q x := by
        rw [dot_liftRow g.wpar (by simp [hd1]), hv]; simp
      constructor
      · intro h
        have k1 := h 0 _ _ rfl rfl
        have k2 := h 1 _ _ rfl rfl
        rw [d1] at k1; rw [d2] at k2
        exact ⟨by linarith, k1⟩
      · rintro ⟨k1, k2⟩ i row bi hr hb
        rcases i with _ | _ | i
        · cases hr; cases hb; rw [d1]; exact k2
        · cases hr; cases hb; rw [d2]; linarith
        · simp at hr

theorem ineq_append {A1 A2 : List Vec} {b1 b2 : List ℝ} (h : A1.length = b1.length) (P : Vec → ℝ → Prop) :
    (∀ (i : ℕ) (row : Vec) (bi : ℝ), (A1 ++ A2)[i]? = some row → (b1 ++ b2)[i]? = some bi → P row bi) ↔
    (∀ (i : ℕ) (row : Vec) (bi : ℝ), A1[i]? = some row → b1[i]? = some bi → P row bi) ∧
    (∀ (i : ℕ) (row : Vec) (bi : ℝ), A2[i]? = some row → b2[i]? = some bi → P row bi) := by
  constructor
  · intro k
    refine ⟨fun i row bi hr hb => k i row bi ?_ ?_, fun i row bi hr hb => k (A1.length + i) row bi ?_ ?_⟩
    · rw [List.getElem?_append_left (List.getElem?_eq_some_iff.1 hr).1]; exact hr
    · rw [List.getElem?_append_left (List.getElem?_eq_some_iff.1 hb).1]; exact hb
    · rw [List.getElem?_append_right (by omega)]; simpa using hr
    · rw [List.getElem?_append_right (by omega), h]; simpa using hb
  · rintro ⟨k1, k2⟩ i row bi hr hb
    by_cases hi : i < A1.length
    · rw [List.getElem?_append_left hi] at hr
      rw [List.getElem?_append_left (by omega)] at hb
      exact k1 i row bi hr hb
    · rw [List.getElem?_append_right (by omega)] at hr hb
      exact k2 (i - A1.length) row bi hr (by rw [h]; exact hb)

theorem hullLinineq_len (o : HullOracle) (n : ℕ) (X : List Vec) (hX : ∀ r ∈ X, r.length = n) :
    (hullLinineq o n X).1.length = (hullLinineq o n X).2.1.length ∧
    (hullLinineq o n X).2.2.1.length = (hullLinineq o n X).2.2.2.length := by
  by_cases h1 : X.length = 1
  · obtain ⟨x0, rfl⟩ := List.length_eq_one_iff.1 h1
    have e : hullLinineq o n [x0] = ([], [], unitRows n, x0) := rfl
    rw [e]; simp [unitRows, hX x0 (by simp)]
  · have hm : o.Qperp.length = (meanRows o.Qperp.length (X.map (Vec.mulVec o.Qperp))).length := by
      unfold meanRows
      rw [Vec.length_smul, comb_length]
      intro r hr
      obtain ⟨s, hs, rfl⟩ := List.mem_map.1 hr
      simp
    by_cases hd : 1 < o.Qpar.length
    · have e : hullLinineq o n X = (o.facets.map (fun f => liftRow n o.Qpar f.1), o.facets.map (fun f => -f.2), o.Qperp,
          meanRows o.Qperp.length (X.map (Vec.mulVec o.Qperp))) := by
        rcases X with _ | ⟨a, _ | ⟨b, X⟩⟩
        · simp only [hullLinineq]; rw [if_pos hd]
        · exact absurd rfl h1
        · simp only [hullLinineq]; rw [if_pos hd]
      rw [e]; exact ⟨by simp, hm⟩
    · have e : hullLinineq o n X = ([liftRow n o.Qpar [1], liftRow n o.Qpar [-1]],
          [maxL (X.map (Vec.mulVec o.Qpar)).flatten, -(minL (X.map (Vec.mulVec o.Qpar)).flatten)], o.Qperp,
          meanRows o.Qperp.length (X.map (Vec.mulVec o.Qperp))) := by
        rcases X with _ | ⟨a, _ | ⟨b, X⟩⟩
        · simp only [hullLinineq]; rw [if_neg hd]
        · exact absurd rfl h1
        · simp only [hullLinineq]; rw [if_neg hd]
      rw [e]; exact ⟨by simp, hm⟩

/-- C22 (partial): the domain returned by `to_linineq` consists of the points of the hull that satisfy the linear
and quadratic constraints of the original domain; its bounds are dropped. -/
theorem to_linineq_partial {o : HullOracle} {X : List Vec} {d : LQ} (hw : (Base.hull X d).WF)
    (ho : X.length ≠ 1 → o.Good d.n X) {x : Vec} (hx : x.length = d.n) :
    (hullToLinineq o X d).Holds x ↔ InHull d.n X x ∧
      ({ d with lb := List.replicate d.n .ninf, ub := List.replicate d.n .pinf } : LQ).Holds x := by
  have hs := hullLinineq_spec hw.2.2 hw.2.1 ho hx
  obtain ⟨l1, l2⟩ := hullLinineq_len o d.n X hw.2.2
  constructor
  · rintro ⟨h1, h2, h3, h4, h5⟩
    have h3' := (ineq_append l1 (fun row bi => Vec.dot row x ≤ bi)).1 h3
    have h4' := (ineq_append l2 (fun row bi => Vec.dot row x = bi)).1 h4
    exact ⟨hs.1 ⟨h3'.1, h4'.1⟩, ⟨h1, h2, h3'.2, h4'.2, h5⟩⟩
  · rintro ⟨h0, ⟨h1, h2, h3, h4, h5⟩⟩
    obtain ⟨k1, k2⟩ := hs.2 h0
    exact ⟨h1, h2, (ineq_append l1 (fun row bi => Vec.dot row x ≤ bi)).2 ⟨k1, h3⟩,
      (ineq_append l2 (fun row bi => Vec.dot row x = bi)).2 ⟨k2, h4⟩, h5⟩

/-- C22: without bounds, `to_linineq` describes exactly the same set. -/
theorem to_linineq_same_set {o : HullOracle} {X : List Vec} {d : LQ} (hw : (Base.hull X d).WF)
    (ho : X.length ≠ 1 → o.Good d.n X) (hlb : d.lb = List.replicate d.n .ninf) (hub : d.ub = List.replicate d.n .pinf) (x : Vec) :
    (Dom.base (.linquad (hullToLinineq o X d))).Holds x ↔ (Dom.base (.hull X d)).Holds x := by
  have hd : ({ d with lb := List.replicate d.n .ninf, ub := List.replicate d.n .pinf } : LQ) = d := by
    rw [← hlb, ← hub]
  constructor
  · rintro ⟨h1, h2, -⟩
    have := (to_linineq_partial hw ho h1).1 h2
    rw [hd] at this
    exact ⟨h1, this.2, fun X' q' h => by cases h; exact this.1⟩
  · rintro ⟨h1, h2, h3⟩
    have := (to_linineq_partial hw ho h1).2 ⟨h3 X d rfl, by rw [hd]; exact h2⟩
    exact ⟨h1, this, by simp⟩

/-- C22, negation: the hull of 0 and 2 restricted to `x ≤ 1` becomes the whole segment: 2 is inside the converted
domain but not inside the original one. -/
theorem to_linineq_bounds_false {nnls : NNLS} {tol : ℝ} (ht : 0 < tol) (ht1 : tol < 1) :
    let d : LQ := { freeLQ 1 with ub := [.fin 1] }
    let o : HullOracle := ⟨[[1]], [], []⟩
    (Base.hull [[0], [2]] d).WF ∧ o.Good 1 [[0], [2]] ∧
    (Base.linquad (hullToLinineq o [[0], [2]] d)).isInside nnls tol [2] ∧ ¬ (Base.hull [[0], [2]] d).isInside nnls tol [2] := by
  intro d o
  have hw : (Base.hull [[0], [2]] d).WF := by
    refine ⟨⟨by simp [d, freeLQ], by simp [d, freeLQ], ?_, ?_, by simp [d, freeLQ], rfl, by simp [d, freeLQ], rfl, rfl, rfl,
      by simp [d, freeLQ], by simp [d, freeLQ], by simp [d, freeLQ]⟩, by simp, by simp [d, freeLQ]⟩
    · intro v hv
      have : v = .ninf := List.eq_of_mem_replicate hv
      rw [this]; trivial
    · intro v hv
      have : v = .fin 1 := by simpa [d] using hv
      rw [this]; trivial
  have hg : o.Good 1 [[0], [2]] := by
    refine ⟨by simp [o], by simp [o], ?_, by simp [o, Vec.mulVec], by simp [o], by simp [o], by simp [o]⟩
    intro v w hv hw h _
    obtain ⟨a, rfl⟩ := List.length_eq_one_iff.1 hv
    obtain ⟨b, rfl⟩ := List.length_eq_one_iff.1 hw
    simpa [o, Vec.mulVec] using h
  refine ⟨hw, hg, ?_, ?_⟩
  · have hh : (hullToLinineq o [[0], [2]] d).Holds [2] := by
      refine (to_linineq_partial hw (fun _ => hg) rfl).2 ⟨inHull_mem (by simp [d, freeLQ]) (by simp), ?_⟩
      exact freeLQ_holds 1 [2]
    exact ⟨rfl, holds_inAll hh ht⟩
  · rintro ⟨-, -, hb, -⟩
    have := ((inBounds_iff _ _ _ _).1 hb).2 0 1 2 rfl rfl
    linarith

/-- The hypotheses of the conversion are satisfiable in two dimensions: the hull of three collinear points. -/
example : (⟨[[1, 0]], [[0, 1]], []⟩ : HullOracle).Good 2 [[0, 3], [1, 3], [2, 3]] := by
  refine ⟨by simp, by simp, ?_, ?_, by simp, by simp, by simp⟩
  · intro v w hv hw h1 h2
    obtain ⟨a, b, rfl⟩ := List.length_eq_two.1 hv
    obtain ⟨c, e, rfl⟩ := List.length_eq_two.1 hw
    simp [Vec.mulVec] at h1 h2
    rw [h1, h2]
  · simp [Vec.mulVec]

end Verif.Domain
