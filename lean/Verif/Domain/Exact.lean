import Verif.Domain.NormProps

/-!
# The exact set described by a domain

`Holds` is the mathematical definition of the domain in the documentation (no tolerances).
-/

namespace Verif

/-- The point `(1-t) x + t y`. -/
noncomputable def Vec.lerp (t : ℝ) (x y : Vec) : Vec := Vec.add (Vec.smul (1 - t) x) (Vec.smul t y)

/-- The point `x + t p`. -/
noncomputable def Vec.step (x : Vec) (t : ℝ) (p : Vec) : Vec := Vec.add x (Vec.smul t p)

end Verif

namespace Verif.Domain

open Classical Verif

/-! ## Specification -/

/-- The point satisfies every constraint exactly. -/
structure LQ.Holds (q : LQ) (x : Vec) : Prop where
  lb : ∀ (i : ℕ) (r xi : ℝ), q.lb[i]? = some (XR.fin r) → x[i]? = some xi → r ≤ xi
  ub : ∀ (i : ℕ) (r xi : ℝ), q.ub[i]? = some (XR.fin r) → x[i]? = some xi → xi ≤ r
  ineq : ∀ (i : ℕ) (row : Vec) (bi : ℝ), q.A[i]? = some row → q.b[i]? = some bi → Vec.dot row x ≤ bi
  eq : ∀ (i : ℕ) (row : Vec) (bi : ℝ), q.Aeq[i]? = some row → q.beq[i]? = some bi → Vec.dot row x = bi
  quad : ∀ (i : ℕ) (L : List Vec) (y : Vec) (rho : ℝ), q.Ls[i]? = some L → q.ys[i]? = some y →
    q.rhos[i]? = some rho → Vec.norm (Vec.mulVec L (Vec.sub x y)) ≤ rho

/-- `Σ_i a_i X_i` in `n` dimensions. -/
noncomputable def comb (n : ℕ) : Vec → List Vec → Vec
  | a :: as, x :: xs => Vec.add (Vec.smul a x) (comb n as xs)
  | _, _ => List.replicate n 0

/-- `z` is a convex combination of the points `X` of dimension `n`. -/
def InHull (n : ℕ) (X : List Vec) (z : Vec) : Prop :=
  ∃ al : Vec, al.length = X.length ∧ (∀ a ∈ al, 0 ≤ a) ∧ al.sum = 1 ∧ comb n al X = z

/-- The set described by a basic domain object. -/
def Base.Holds (d : Base) (x : Vec) : Prop :=
  x.length = d.len ∧ d.acc.Holds x ∧ ∀ X q, d = .hull X q → InHull q.n X x

/-- The set described by a domain object: for products, the product of the sets of the factors. -/
def Dom.Holds : Dom → Vec → Prop
  | .base d, x => d.Holds x
  | .tensor ds, x => ∃ xs, x = xs.flatten ∧ List.Forall₂ Base.Holds ds xs

/-! ## Lemmas -/

theorem holds_iff (q : LQ) (x : Vec) :
    q.Holds x ↔ inBounds q.lb q.ub 0 x ∧ inIneq q.A q.b 0 x ∧ (∀ tol > 0, inEq q.Aeq q.beq tol x) ∧
      inQuad q.Ls q.ys q.rhos 0 x := by
  simp only [inBounds_iff, inIneq_iff, inEq_iff, inQuad_iff, add_zero, sub_zero]
  constructor
  · rintro ⟨h1, h2, h3, h4, h5⟩
    refine ⟨⟨h1, h2⟩, h3, ?_, h5⟩
    intro tol ht i row bi hr hb
    rw [h4 i row bi hr hb]; simpa using ht
  · rintro ⟨⟨h1, h2⟩, h3, h4, h5⟩
    refine ⟨h1, h2, h3, ?_, h5⟩
    intro i row bi hr hb
    by_contra hne
    have hp : 0 < |Vec.dot row x - bi| := abs_pos.2 (sub_ne_zero.2 hne)
    exact lt_irrefl _ (h4 _ hp i row bi hr hb)

theorem inBounds_mono {lb ub : List XR} {s t : ℝ} (h : s ≤ t) {x : Vec} (hx : inBounds lb ub s x) :
    inBounds lb ub t x := by
  rw [inBounds_iff] at *
  exact ⟨fun i r xi a b => by linarith [hx.1 i r xi a b], fun i r xi a b => by linarith [hx.2 i r xi a b]⟩

theorem inIneq_mono {A : List Vec} {b : List ℝ} {s t : ℝ} (h : s ≤ t) {x : Vec} (hx : inIneq A b s x) :
    inIneq A b t x := by
  rw [inIneq_iff] at *
  exact fun i r bi a b => by linarith [hx i r bi a b]

theorem inQuad_mono {Ls : List (List Vec)} {ys rhos} {s t : ℝ} (h : s ≤ t) {x : Vec}
    (hx : inQuad Ls ys rhos s x) : inQuad Ls ys rhos t x := by
  rw [inQuad_iff] at *
  exact fun i L y r a b c => by linarith [hx i L y r a b c]

/-- Exactly satisfied constraints pass the membership test with any positive tolerance. -/
theorem holds_inAll {q : LQ} {x : Vec} (h : q.Holds x) {tol : ℝ} (ht : 0 < tol) : q.inAll tol x := by
  obtain ⟨h1, h2, h3, h4⟩ := (holds_iff q x).1 h
  exact ⟨inBounds_mono ht.le h1, inIneq_mono ht.le h2, h3 tol ht, inQuad_mono ht.le h4⟩

/-! ### Vector algebra on lists -/

theorem Vec.length_lerp (t : ℝ) (x y : Vec) : (Vec.lerp t x y).length = min x.length y.length := by
  simp [Vec.lerp, Vec.length_add]

theorem Vec.length_step (x : Vec) (t : ℝ) (p : Vec) : (Vec.step x t p).length = min x.length p.length := by
  simp [Vec.step, Vec.length_add]

theorem Vec.dot_lerp (a x y : Vec) (t : ℝ) (h : x.length = y.length) :
    Vec.dot a (Vec.lerp t x y) = (1 - t) * Vec.dot a x + t * Vec.dot a y := by
  unfold Vec.lerp
  rw [Vec.dot_add_right _ _ _ (by simp [h]), Vec.dot_smul_right, Vec.dot_smul_right]

theorem Vec.dot_step (a x p : Vec) (t : ℝ) (h : x.length = p.length) :
    Vec.dot a (Vec.step x t p) = Vec.dot a x + t * Vec.dot a p := by
  unfold Vec.step
  rw [Vec.dot_add_right _ _ _ (by simp [h]), Vec.dot_smul_right]

theorem Vec.getElem?_lerp (t : ℝ) (x y : Vec) (i : ℕ) (z : ℝ) (h : (Vec.lerp t x y)[i]? = some z) :
    ∃ a b, x[i]? = some a ∧ y[i]? = some b ∧ z = (1 - t) * a + t * b := by
  unfold Vec.lerp Vec.add Vec.smul at h
  rw [List.getElem?_zipWith, List.getElem?_map, List.getElem?_map] at h
  rcases hx : x[i]? with _ | a <;> rcases hy : y[i]? with _ | b <;> simp [hx, hy] at h
  exact ⟨a, b, rfl, rfl, h.symm⟩

theorem Vec.getElem?_step (x : Vec) (t : ℝ) (p : Vec) (i : ℕ) (z : ℝ) (h : (Vec.step x t p)[i]? = some z) :
    ∃ a b, x[i]? = some a ∧ p[i]? = some b ∧ z = a + t * b := by
  unfold Vec.step Vec.add Vec.smul at h
  rw [List.getElem?_zipWith, List.getElem?_map] at h
  rcases hx : x[i]? with _ | a <;> rcases hy : p[i]? with _ | b <;> simp [hx, hy] at h
  exact ⟨a, b, rfl, rfl, h.symm⟩

theorem Vec.getElem?_step' {x : Vec} {t : ℝ} {p : Vec} {i : ℕ} {a b : ℝ} (hx : x[i]? = some a)
    (hp : p[i]? = some b) : (Vec.step x t p)[i]? = some (a + t * b) := by
  unfold Vec.step Vec.add Vec.smul
  rw [List.getElem?_zipWith, List.getElem?_map, hx, hp]; rfl

theorem Vec.lerp_sub (t : ℝ) (x y c : Vec) : Vec.sub (Vec.lerp t x y) c = Vec.lerp t (Vec.sub x c) (Vec.sub y c) := by
  unfold Vec.lerp
  induction x generalizing y c with
  | nil => simp
  | cons a x ih => cases y with
    | nil => simp
    | cons b y => cases c with
      | nil => simp
      | cons e c =>
        simp only [Vec.smul_cons, Vec.add_cons, Vec.sub_cons, ih]
        congr 1; ring

theorem Vec.step_sub (x : Vec) (t : ℝ) (p c : Vec) : Vec.sub (Vec.step x t p) c = Vec.step (Vec.sub x c) t p := by
  unfold Vec.step
  induction x generalizing p c with
  | nil => simp
  | cons a x ih => cases p with
    | nil => cases c <;> simp
    | cons b y => cases c with
      | nil => simp
      | cons e c =>
        simp only [Vec.smul_cons, Vec.add_cons, Vec.sub_cons, ih]
        congr 1; ring

theorem Vec.mulVec_lerp (A : List Vec) (t : ℝ) (x y : Vec) (h : x.length = y.length) :
    Vec.mulVec A (Vec.lerp t x y) = Vec.lerp t (Vec.mulVec A x) (Vec.mulVec A y) := by
  induction A with
  | nil => simp [Vec.mulVec, Vec.lerp]
  | cons a A ih =>
    simp only [Vec.mulVec, List.map_cons] at *
    rw [Vec.dot_lerp _ _ _ _ h, ih]
    simp [Vec.lerp]

theorem Vec.mulVec_step (A : List Vec) (x : Vec) (t : ℝ) (p : Vec) (h : x.length = p.length) :
    Vec.mulVec A (Vec.step x t p) = Vec.step (Vec.mulVec A x) t (Vec.mulVec A p) := by
  induction A with
  | nil => simp [Vec.mulVec, Vec.step]
  | cons a A ih =>
    simp only [Vec.mulVec, List.map_cons] at *
    rw [Vec.dot_step _ _ _ _ h, ih]
    simp [Vec.step]

theorem Vec.sumSq_step (x : Vec) (t : ℝ) (p : Vec) (h : x.length = p.length) :
    Vec.sumSq (Vec.step x t p) = Vec.sumSq x + 2 * t * Vec.dot p x + t ^ 2 * Vec.sumSq p := by
  unfold Vec.step
  induction x generalizing p with
  | nil => cases p <;> simp at h ⊢
  | cons a x ih => cases p with
    | nil => simp at h
    | cons b p =>
      simp only [Vec.smul_cons, Vec.add_cons, Vec.sumSq_cons, Vec.dot_cons]
      rw [ih p (by simpa using h)]
      ring

theorem Vec.norm_lerp_le (t : ℝ) (ht : 0 ≤ t) (ht1 : t ≤ 1) (x y : Vec) (h : x.length = y.length) :
    Vec.norm (Vec.lerp t x y) ≤ (1 - t) * Vec.norm x + t * Vec.norm y := by
  have hx := Vec.norm_nonneg x
  have hy := Vec.norm_nonneg y
  have h1t : 0 ≤ 1 - t := by linarith
  apply Real.sqrt_le_iff.2
  refine ⟨by positivity, ?_⟩
  have e : Vec.sumSq (Vec.lerp t x y) =
      (1 - t) ^ 2 * Vec.sumSq x + 2 * (1 - t) * t * Vec.dot x y + t ^ 2 * Vec.sumSq y := by
    unfold Vec.lerp
    clear hx hy
    induction x generalizing y with
    | nil => cases y <;> simp at h ⊢
    | cons a x ih => cases y with
      | nil => simp at h
      | cons b y =>
        simp only [Vec.smul_cons, Vec.add_cons, Vec.sumSq_cons, Vec.dot_cons]
        rw [ih y (by simpa using h)]
        ring
  have hnx : Vec.norm x ^ 2 = Vec.sumSq x := Real.sq_sqrt (Vec.sumSq_nonneg x)
  have hny : Vec.norm y ^ 2 = Vec.sumSq y := Real.sq_sqrt (Vec.sumSq_nonneg y)
  have hcs : Vec.dot x y ≤ Vec.norm x * Vec.norm y := by
    apply le_of_sq_le_sq _ (by positivity)
    rw [mul_pow, hnx, hny]; exact Vec.dot_sq_le x y
  rw [e, ← hnx, ← hny]
  nlinarith [mul_nonneg h1t ht, mul_le_mul_of_nonneg_left hcs (mul_nonneg h1t ht)]

/-! ### Convexity -/

theorem holds_convex {q : LQ} {x y : Vec} (hl : x.length = y.length) (hx : q.Holds x) (hy : q.Holds y) {t : ℝ}
    (h0 : 0 ≤ t) (h1 : t ≤ 1) : q.Holds (Vec.lerp t x y) := by
  have h1t : 0 ≤ 1 - t := by linarith
  constructor
  · intro i r z hr hz
    obtain ⟨a, b, ha, hb, rfl⟩ := Vec.getElem?_lerp _ _ _ _ _ hz
    nlinarith [hx.lb i r a hr ha, hy.lb i r b hr hb]
  · intro i r z hr hz
    obtain ⟨a, b, ha, hb, rfl⟩ := Vec.getElem?_lerp _ _ _ _ _ hz
    nlinarith [hx.ub i r a hr ha, hy.ub i r b hr hb]
  · intro i row bi hr hb
    rw [Vec.dot_lerp _ _ _ _ hl]
    nlinarith [hx.ineq i row bi hr hb, hy.ineq i row bi hr hb]
  · intro i row bi hr hb
    rw [Vec.dot_lerp _ _ _ _ hl, hx.eq i row bi hr hb, hy.eq i row bi hr hb]; ring
  · intro i L c rho hL hc hr
    have a := hx.quad i L c rho hL hc hr
    have b := hy.quad i L c rho hL hc hr
    rw [Vec.lerp_sub, Vec.mulVec_lerp _ _ _ _ (by simp [Vec.length_sub, hl])]
    refine (Vec.norm_lerp_le t h0 h1 _ _ (by simp)).trans ?_
    nlinarith

theorem comb_length (n : ℕ) (al : Vec) (X : List Vec) (hX : ∀ r ∈ X, r.length = n) : (comb n al X).length = n := by
  induction al generalizing X with
  | nil => simp [comb]
  | cons a al ih => cases X with
    | nil => simp [comb]
    | cons x X =>
      simp only [comb, Vec.length_add, Vec.length_smul]
      rw [ih X (fun r hr => hX r (by simp [hr])), hX x (by simp)]; simp

theorem lerp_add (t : ℝ) (a b c d : Vec) : Vec.lerp t (Vec.add a b) (Vec.add c d) = Vec.add (Vec.lerp t a c) (Vec.lerp t b d) := by
  unfold Vec.lerp
  induction a generalizing b c d with
  | nil => simp
  | cons a as ih =>
    cases b <;> cases c <;> cases d <;> simp
    exact ⟨by ring, ih _ _ _⟩

theorem lerp_smul_same (t a b : ℝ) (x : Vec) : Vec.lerp t (Vec.smul a x) (Vec.smul b x) = Vec.smul ((1-t)*a + t*b) x := by
  unfold Vec.lerp
  induction x with
  | nil => simp
  | cons x xs ih => simp only [Vec.smul_cons, Vec.add_cons, ih]; congr 1; ring

theorem comb_lerp (n : ℕ) (t : ℝ) (al be : Vec) (X : List Vec) (h1 : al.length = X.length) (h2 : be.length = X.length) :
    comb n (Vec.lerp t al be) X = Vec.lerp t (comb n al X) (comb n be X) := by
  induction X generalizing al be with
  | nil =>
    cases al <;> cases be <;> simp at h1 h2
    simp [comb, Vec.lerp, Vec.smul, Vec.add]
  | cons x X ih => cases al with
    | nil => simp at h1
    | cons a al => cases be with
      | nil => simp at h2
      | cons b be =>
        have e : Vec.lerp t (a :: al) (b :: be) = ((1 - t) * a + t * b) :: Vec.lerp t al be := by simp [Vec.lerp]
        rw [e]
        simp only [comb]
        rw [ih al be (by simpa using h1) (by simpa using h2), lerp_add, lerp_smul_same]

theorem sum_lerp (t : ℝ) (al be : Vec) (h : al.length = be.length) :
    (Vec.lerp t al be).sum = (1 - t) * al.sum + t * be.sum := by
  unfold Vec.lerp
  induction al generalizing be with
  | nil => cases be <;> simp at h ⊢
  | cons a al ih => cases be with
    | nil => simp at h
    | cons b be =>
      simp only [Vec.smul_cons, Vec.add_cons, List.sum_cons]
      rw [ih be (by simpa using h)]; ring

theorem inHull_convex {n : ℕ} {X : List Vec} {x y : Vec} (hx : InHull n X x) (hy : InHull n X y) {t : ℝ}
    (h0 : 0 ≤ t) (h1 : t ≤ 1) : InHull n X (Vec.lerp t x y) := by
  obtain ⟨al, a1, a2, a3, rfl⟩ := hx
  obtain ⟨be, b1, b2, b3, rfl⟩ := hy
  refine ⟨Vec.lerp t al be, by simp [Vec.length_lerp, a1, b1], ?_, ?_, comb_lerp _ _ _ _ _ a1 b1⟩
  · intro v hv
    obtain ⟨i, hi⟩ := List.mem_iff_getElem?.1 hv
    obtain ⟨a, b, ha, hb, rfl⟩ := Vec.getElem?_lerp _ _ _ _ _ hi
    have := a2 a (List.mem_of_getElem? ha)
    have := b2 b (List.mem_of_getElem? hb)
    have : 0 ≤ 1 - t := by linarith
    positivity
  · rw [sum_lerp _ _ _ (by omega), a3, b3]; ring

theorem base_holds_convex {d : Base} {x y : Vec} (hx : d.Holds x) (hy : d.Holds y) {t : ℝ}
    (h0 : 0 ≤ t) (h1 : t ≤ 1) : d.Holds (Vec.lerp t x y) :=
  ⟨by rw [Vec.length_lerp, hx.1, hy.1]; simp, holds_convex (by rw [hx.1, hy.1]) hx.2.1 hy.2.1 h0 h1,
    fun X q h => inHull_convex (hx.2.2 X q h) (hy.2.2 X q h) h0 h1⟩

theorem lerp_append (t : ℝ) (a b c d : Vec) (h : a.length = c.length) :
    Vec.lerp t (a ++ b) (c ++ d) = Vec.lerp t a c ++ Vec.lerp t b d := by
  unfold Vec.lerp Vec.add Vec.smul
  rw [List.map_append, List.map_append, List.zipWith_append (by simp [h])]

/-- The set described by a domain is convex. -/
theorem dom_holds_convex {D : Dom} {x y : Vec} (hx : D.Holds x) (hy : D.Holds y) {t : ℝ}
    (h0 : 0 ≤ t) (h1 : t ≤ 1) : D.Holds (Vec.lerp t x y) := by
  cases D with
  | base d => exact base_holds_convex hx hy h0 h1
  | tensor ds =>
    obtain ⟨xs, rfl, hx⟩ := hx
    obtain ⟨ys, rfl, hy⟩ := hy
    induction hx generalizing ys with
    | nil => cases hy; exact ⟨[], by simp [Vec.lerp], .nil⟩
    | @cons d x ds xs hdx _ ih => cases hy with
      | @cons _ y _ ys hdy hys =>
        obtain ⟨zs, e, hz⟩ := ih ys hys
        refine ⟨Vec.lerp t x y :: zs, ?_, .cons (base_holds_convex hdx hdy h0 h1) hz⟩
        simp only [List.flatten_cons]
        rw [lerp_append _ _ _ _ _ (by rw [hdx.1, hdy.1]), e]

theorem dom_holds_length {D : Dom} {x : Vec} (h : D.Holds x) : x.length = D.len := by
  cases D with
  | base d => exact h.1
  | tensor ds =>
    obtain ⟨xs, rfl, h⟩ := h
    refine pieces_flatten_length (ds := ds) ?_
    exact h.imp (fun _ _ h => h.1)

/-- Points of the exact set of a plain domain pass `isinside` for every positive tolerance. -/
theorem base_holds_isInside (nnls : NNLS) {d : Base} (hn : ∀ X q, d ≠ .hull X q) {x : Vec} (h : d.Holds x)
    {tol : ℝ} (ht : 0 < tol) : d.isInside nnls tol x := by
  refine ⟨h.1, ?_⟩
  have := holds_inAll h.2.1 ht
  by_cases hp : d.Plain
  · exact (base_inside_iff nnls tol hp x).2 this
  · cases d with
    | point p =>
      show x = p
      have hl : x.length = p.length := h.1
      apply List.ext_getElem?
      intro i
      rcases hi : p[i]? with _ | a
      · rw [List.getElem?_eq_none_iff] at hi ⊢; omega
      · rcases hj : x[i]? with _ | b
        · rw [List.getElem?_eq_none_iff] at hj
          have := (List.getElem?_eq_some_iff.1 hi).1
          omega
        · have e : (p.map XR.fin)[i]? = some (.fin a) := by rw [List.getElem?_map, hi]; rfl
          have l := h.2.1.lb i a b e hj
          have u := h.2.1.ub i a b e hj
          congr 1; linarith
    | hull X q => exact absurd rfl (hn X q)
    | _ => exact absurd trivial hp

theorem dom_holds_isInside (nnls : NNLS) {D : Dom} (hn : ∀ d ∈ D.factors, ∀ X q, d ≠ .hull X q) {x : Vec}
    (h : D.Holds x) {tol : ℝ} (ht : 0 < tol) : D.isInside nnls tol x := by
  cases D with
  | base d => exact base_holds_isInside nnls (hn d (by simp [Dom.factors])) h ht
  | tensor ds =>
    obtain ⟨xs, rfl, h⟩ := h
    have hp : Pieces ds xs := h.imp (fun _ _ h => h.1)
    refine ⟨pieces_flatten_length hp, (tensor_inside_pieces nnls tol hp).2 ?_⟩
    replace hn : ∀ d ∈ ds, ∀ X q, d ≠ .hull X q := hn
    clear hp
    induction h with
    | nil => exact .nil
    | @cons d x ds xs hdx _ ih =>
      exact .cons (base_holds_isInside nnls (hn d (by simp)) hdx ht) (ih (fun d hd => hn d (by simp [hd])))

end Verif.Domain
