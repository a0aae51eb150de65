import Verif.Demo.PolyModel
import Verif.Func.FunctionGrad
import Verif.Basis.ArnoldiSpan
import Verif.Domain.SolverLemmas

/-!
# C131: the polynomial demo functions and their gradients
-/

namespace Verif.Demo

open Verif Verif.Domain Verif.Func

/-! ## Specification -/

/-- The quadratic polynomial `sum_ij q_ij x_i x_j + sum_i l_i x_i + c` in `m` variables. -/
noncomputable def poly2 (m : ℕ) (q : ℕ → ℕ → ℝ) (l : ℕ → ℝ) (c : ℝ) (x : Vec) : ℝ :=
  ∑ i ∈ Finset.range m, ∑ j ∈ Finset.range m, q i j * x.getD i 0 * x.getD j 0 + ∑ i ∈ Finset.range m, l i * x.getD i 0 + c

/-- Its gradient. -/
noncomputable def poly2Grad (m : ℕ) (q : ℕ → ℕ → ℝ) (l : ℕ → ℝ) (x : Vec) : Vec :=
  (List.range m).map fun k => ∑ i ∈ Finset.range m, (q i k + q k i) * x.getD i 0 + l k

/-- The entries of a matrix given by rows. -/
def entry (Q : List Vec) (i j : ℕ) : ℝ := (Q.getD i []).getD j 0

/-- The values of a scalar function: one value, or a column of values. -/
def outAt (v : Vec → ℝ) : In → Arr
  | .one z => .vec [v z]
  | .many Z => .mat (Z.map fun z => [v z])

/-- Shapes of the attributes. -/
def QuadFun.WF (F : QuadFun) : Prop := F.quad.length = F.linear.length ∧ ∀ r ∈ F.quad, r.length = F.linear.length

/-! ## Derivatives of polynomials -/

theorem set_getD (x : Vec) (k : ℕ) (hk : k < x.length) (t : ℝ) (i : ℕ) : (x.set k t).getD i 0 = if i = k then t else x.getD i 0 := by
  simp only [List.getD_eq_getElem?_getD, List.getElem?_set]
  by_cases h : k = i
  · subst h; simp [hk]
  · simp [h, Ne.symm h]

theorem set_getD_deriv (x : Vec) (k : ℕ) (hk : k < x.length) (i : ℕ) :
    HasDerivAt (fun t => (x.set k t).getD i 0) (if i = k then 1 else 0) (x.getD k 0) := by
  simp only [set_getD x k hk]
  by_cases h : i = k
  · simp only [h, if_true]; exact hasDerivAt_id _
  · simp only [h, if_false]; exact hasDerivAt_const _ _

theorem poly2_isGrad (m : ℕ) (q : ℕ → ℕ → ℝ) (l : ℕ → ℝ) (c : ℝ) (x : Vec) (hx : x.length = m) : IsGradAt (poly2 m q l c) x (poly2Grad m q l x) := by
  refine ⟨by simp [poly2Grad, hx], fun k hk => ?_⟩
  have hs : x.set k (x.getD k 0) = x := by
    rw [List.getD_eq_getElem?_getD, List.getElem?_eq_getElem hk]; simp
  have h1 : HasDerivAt (fun t => poly2 m q l c (x.set k t))
      (∑ i ∈ Finset.range m, ∑ j ∈ Finset.range m, (q i j * (if i = k then 1 else 0) * x.getD j 0 + q i j * x.getD i 0 * (if j = k then 1 else 0)) +
        ∑ i ∈ Finset.range m, l i * (if i = k then 1 else 0)) (x.getD k 0) := by
    unfold poly2
    refine HasDerivAt.add_const c (HasDerivAt.add (HasDerivAt.fun_sum fun i _ => HasDerivAt.fun_sum fun j _ => ?_) (HasDerivAt.fun_sum fun i _ => (set_getD_deriv x k hk i).const_mul _))
    have := ((set_getD_deriv x k hk i).const_mul (q i j)).mul (set_getD_deriv x k hk j)
    rw [hs] at this
    exact this
  have hkm : k < m := hx ▸ hk
  convert h1 using 1
  rw [poly2Grad, List.getD_eq_getElem?_getD, List.getElem?_map, List.getElem?_range hkm]
  simp only [Option.map_some, Option.getD_some, Finset.sum_add_distrib, mul_ite, mul_one, mul_zero, ite_mul, zero_mul, Finset.sum_ite_eq', Finset.mem_range, hkm, if_true, add_mul]
  congr 1
  rw [add_comm]
  congr 1
  rw [Finset.sum_comm]
  simp [hkm]

theorem isGrad_unique {f : Vec → ℝ} {x g g' : Vec} (h : IsGradAt f x g) (h' : IsGradAt f x g') : g = g' := by
  apply List.ext_getElem (h.1.trans h'.1.symm)
  intro k h1 h2
  have := (h.2 k (h.1 ▸ h1)).unique (h'.2 k (h.1 ▸ h1))
  rwa [List.getD_eq_getElem?_getD, List.getD_eq_getElem?_getD, List.getElem?_eq_getElem h1, List.getElem?_eq_getElem h2] at this

/-! ## The functions as polynomials -/

theorem rowMul_entry (x : Vec) (Q : List Vec) (m : ℕ) (hx : x.length = m) (j : ℕ) (hj : j < m) :
    (rowMul x Q m).getD j 0 = ∑ i ∈ Finset.range m, entry Q i j * x.getD i 0 := by
  rw [rowMul, columns, List.map_map, List.getD_eq_getElem?_getD, List.getElem?_map, List.getElem?_range hj]
  simp only [Option.map_some, Option.getD_some, Function.comp_apply]
  rw [Basis.dot_eq_sum _ _ m hx.le]
  refine Finset.sum_congr rfl fun i _ => ?_
  rw [mul_comm]
  congr 1
  rw [entry, List.getD_eq_getElem?_getD (l := Q), List.getD_eq_getElem?_getD (l := Q.map _), List.getElem?_map]
  cases Q[i]? <;> simp

theorem rowMul_length (x : Vec) (Q : List Vec) (m : ℕ) : (rowMul x Q m).length = m := by simp [rowMul, columns]

/-- C131: the value is the polynomial with the given coefficients. -/
theorem quad_val (F : QuadFun) (x : Vec) (hx : x.length = F.linear.length) :
    F.val x = poly2 F.linear.length (entry F.quad) (fun i => F.linear.getD i 0) F.constant x := by
  unfold QuadFun.val poly2
  rw [Basis.dot_eq_sum _ _ F.linear.length le_rfl]
  congr 2
  have : (Vec.mul (rowMul x F.quad F.linear.length) x).sum = Vec.dot (rowMul x F.quad F.linear.length) x := rfl
  rw [this, Basis.dot_eq_sum _ _ F.linear.length (rowMul_length _ _ _).le, Finset.sum_comm]
  refine Finset.sum_congr rfl fun j hj => ?_
  rw [rowMul_entry _ _ _ hx _ (Finset.mem_range.1 hj), Finset.sum_mul]

theorem der_getD (F : QuadFun) (x : Vec) (hx : x.length = F.linear.length) (k : ℕ) (hk : k < F.linear.length) :
    (F.der x).getD k 0 = 2 * ∑ i ∈ Finset.range F.linear.length, entry F.quad i k * x.getD i 0 + F.linear.getD k 0 := by
  have h1 := rowMul_entry x F.quad _ hx k hk
  have hl : k < (rowMul x F.quad F.linear.length).length := by rw [rowMul_length]; exact hk
  rw [List.getD_eq_getElem?_getD, List.getElem?_eq_getElem hl] at h1
  unfold QuadFun.der Vec.add Vec.smul
  rw [List.getD_eq_getElem?_getD, List.getElem?_zipWith, List.getElem?_map, List.getElem?_eq_getElem hl, List.getD_eq_getElem?_getD, List.getElem?_eq_getElem hk]
  simp only [Option.map_some, Option.getD_some] at h1 ⊢
  rw [← h1]

theorem der_length (F : QuadFun) (x : Vec) : (F.der x).length = F.linear.length := by
  simp [QuadFun.der, Vec.length_add, rowMul_length]

theorem aff_val (F : AffFun) (x : Vec) : F.val x = poly2 F.linear.length (fun _ _ => 0) (fun i => F.linear.getD i 0) F.constant x := by
  unfold AffFun.val poly2
  rw [Basis.dot_eq_sum _ _ F.linear.length le_rfl]
  simp

theorem aff_grad_eq (l : Vec) (x : Vec) : l = poly2Grad l.length (fun _ _ => 0) (fun i => l.getD i 0) x := by
  apply List.ext_getElem (by simp [poly2Grad])
  intro k h1 _
  simp [poly2Grad, List.getD_eq_getElem?_getD, List.getElem?_eq_getElem h1]

/-! ## Slopes -/

theorem dom_uslopes_ne (fb : CornerOracle) (D : Dom) : ∀ v ∈ D.uslopes fb, v ≠ 0 := by
  have hb : ∀ d : Base, ∀ v ∈ d.uslopes fb, v ≠ 0 := by
    intro d v hv h0
    rw [Base.uslopes, Domain.uslopes, List.mem_iff_getElem] at hv
    obtain ⟨i, hi, rfl⟩ := hv
    rw [List.length_zipWith, lt_min_iff] at hi
    rw [List.getElem_zipWith] at h0
    have := uslope_mul_nslope ((d.normLb fb)[i]'hi.1) ((d.normUb fb)[i]'hi.2)
    rw [h0, zero_mul] at this
    exact zero_ne_one this
  cases D with
  | base d => exact hb d
  | tensor ds =>
    intro v hv
    obtain ⟨d, -, h⟩ := List.mem_flatMap.1 hv
    exact hb d v h

theorem mul_cancel_left {s a b : Vec} (hs : ∀ v ∈ s, v ≠ 0) (ha : a.length = s.length) (hb : b.length = s.length) (h : Vec.mul s a = Vec.mul s b) : a = b := by
  apply List.ext_getElem (ha.trans hb.symm)
  intro k h1 h2
  have hk : k < s.length := ha ▸ h1
  have e : (Vec.mul s a)[k]? = (Vec.mul s b)[k]? := by rw [h]
  simp only [Vec.mul, List.getElem?_zipWith, List.getElem?_eq_getElem h1, List.getElem?_eq_getElem h2, List.getElem?_eq_getElem hk, Option.some.injEq] at e
  exact mul_left_cancel₀ (hs _ (List.getElem_mem hk)) e

/-! ## The default domain -/

theorem cube_wf (m : ℕ) : (cube m).WF := by
  refine ⟨?_, ?_, ?_, ?_, by simp [Base.acc], by simp [Base.acc], by simp [Base.acc], by simp [Base.acc], by simp [Base.acc], by simp [Base.acc], by simp [Base.acc],
    by simp [Base.acc], by simp [Base.acc]⟩
  · simp [Base.acc, Base.len]
  · simp [Base.acc, Base.len]
  · intro v hv; rw [(List.mem_replicate.1 hv).2]; trivial
  · intro v hv; rw [(List.mem_replicate.1 hv).2]; trivial

/-- On the default domain normalized points are the points themselves. -/
theorem cube_unnormalize (fb : CornerOracle) (ho : OracleLen fb) (m : ℕ) (z : Vec) (hz : z.length = m) : (cube m).unnormalize fb z = z := by
  have hl : z.length = (cube m).len := by rw [hz]; simp [cube, Dom.len, Base.len, Base.acc]
  have h2 := (normalize_inverse fb ho (cube m) (cube_wf m) z hl).1
  have hn : (cube m).normalize fb z = z := by
    have hb := box_normalize fb ho (List.replicate m (-1)) (List.replicate m 1)
      (List.forall₂_iff_get.2 ⟨by simp, fun i _ _ => by simp⟩) z
    rw [List.map_replicate, List.map_replicate] at hb
    refine hb.trans ?_
    apply List.ext_getElem (by simp [Vec.length_mul, Vec.length_sub, hz])
    intro i _ _
    simp only [Vec.mul, Vec.sub, List.getElem_zipWith, List.getElem_replicate]
    norm_num
  rwa [hn] at h2

/-! ## The constructors -/

/-- C131: what the constructor of `QuadraticFunction` accepts: a square matrix and a vector of the same dimension. -/
theorem quadInit_ok_iff (quad : Option (List Vec)) (linear : Option Vec) (constant : Option ℝ) (dom : Option Dom) :
    (∃ F, quadInit quad linear constant dom = .ok F) ↔
      (∀ Q, quad = some Q → ∀ r ∈ Q, r.length = Q.length) ∧ ∀ Q l, quad = some Q → linear = some l → l.length = Q.length := by
  have hq : ∀ Q m, (∀ r ∈ Q, r.length = m) → quadArr m (some Q) = .ok Q := fun Q m h => if_pos h
  have hq' : ∀ Q m, (¬ ∀ r ∈ Q, r.length = m) → quadArr m (some Q) = .error .valueError := fun Q m h => if_neg h
  have hl1 : ∀ (l : Vec) m, l.length = m → linArr m (some l) = .ok l := fun l m h => if_pos h
  have hl2 : ∀ (l : Vec) m, l.length ≠ m → linArr m (some l) = .error .valueError := fun l m h => if_neg h
  cases quad with
  | none =>
    refine iff_of_true ?_ ⟨by simp, by simp⟩
    cases linear with
    | none => exact ⟨_, rfl⟩
    | some l =>
      refine ⟨⟨eyeRows l.length, l, constant.getD 0, dom.getD (cube l.length)⟩, ?_⟩
      · unfold quadInit
        rw [show quadDim none (some l) dom = l.length from rfl, hl1 l _ rfl]
        rfl
  | some Q =>
    have hdim : ∀ l', quadDim (some Q) l' dom = Q.length := fun _ => rfl
    by_cases hQ : ∀ r ∈ Q, r.length = Q.length
    · cases linear with
      | none =>
        refine iff_of_true ⟨⟨Q, List.replicate Q.length 0, constant.getD 0, dom.getD (cube (List.replicate Q.length (0 : ℝ)).length)⟩, ?_⟩ ⟨fun Q' e => by cases e; exact hQ, by simp⟩
        unfold quadInit
        rw [hdim, hq Q _ hQ]
        rfl
      | some l =>
        by_cases hl : l.length = Q.length
        · refine iff_of_true ⟨⟨Q, l, constant.getD 0, dom.getD (cube l.length)⟩, ?_⟩
            ⟨fun Q' e => by cases e; exact hQ, fun Q' l' e e' => by cases e; cases e'; exact hl⟩
          unfold quadInit
          rw [hdim, hq Q _ hQ, hl1 l _ hl]
        · refine iff_of_false ?_ fun h => hl (h.2 Q l rfl rfl)
          rintro ⟨F, hF⟩
          unfold quadInit at hF
          rw [hdim, hq Q _ hQ, hl2 l _ hl] at hF
          cases hF
    · refine iff_of_false ?_ fun h => hQ (h.1 Q rfl)
      rintro ⟨F, hF⟩
      unfold quadInit at hF
      rw [hdim, hq' Q _ hQ] at hF
      cases hF

/-- Otherwise it raises ValueError. -/
theorem quadInit_error {quad : Option (List Vec)} {linear : Option Vec} {constant : Option ℝ} {dom : Option Dom} {e : Err}
    (h : quadInit quad linear constant dom = .error e) : e = .valueError := by
  unfold quadInit at h
  split at h
  · rename_i e' h'
    cases h
    unfold quadArr at h'
    split at h'
    · split at h' <;> cases h'; rfl
    · cases h'
  · split at h
    · rename_i e' h'
      cases h
      unfold linArr at h'
      split at h'
      · split at h' <;> cases h'; rfl
      · cases h'
    · cases h

/-- C131: the attributes are the arguments, or the identity, zero, zero and the cube. -/
theorem quadInit_spec {quad : Option (List Vec)} {linear : Option Vec} {constant : Option ℝ} {dom : Option Dom} {F : QuadFun}
    (h : quadInit quad linear constant dom = .ok F) :
    F.WF ∧ (∀ Q, quad = some Q → F.quad = Q) ∧ (∀ l, linear = some l → F.linear = l) ∧ (∀ c, constant = some c → F.constant = c) ∧
      (∀ D, dom = some D → F.dom = D) ∧
      (quad = none → ∀ i j, i < F.linear.length → j < F.linear.length → entry F.quad i j = if i = j then 1 else 0) ∧
      (linear = none → ∀ v ∈ F.linear, v = 0) ∧ (constant = none → F.constant = 0) ∧ (dom = none → F.dom = cube F.linear.length) ∧
      (quad = none → linear = none → F.linear.length = (dom.map Dom.len).getD 5) := by
  unfold quadInit at h
  split at h
  · cases h
  · rename_i Q hQ
    split at h
    · cases h
    · rename_i l hl
      cases h
      have hll : l.length = quadDim quad linear dom := by
        unfold linArr at hl
        split at hl
        · split at hl <;> cases hl; assumption
        · cases hl; simp
      have hQQ : Q.length = quadDim quad linear dom ∧ ∀ r ∈ Q, r.length = quadDim quad linear dom := by
        unfold quadArr at hQ
        split at hQ
        · split at hQ <;> cases hQ
          exact ⟨rfl, by assumption⟩
        · cases hQ
          exact ⟨by simp [eyeRows], fun r hr => by obtain ⟨i, -, rfl⟩ := List.mem_map.1 hr; simp⟩
      refine ⟨⟨hQQ.1.trans hll.symm, fun r hr => (hQQ.2 r hr).trans hll.symm⟩, ?_, ?_, ?_, ?_, ?_, ?_, ?_, ?_, ?_⟩
      · rintro Q' rfl
        unfold quadArr at hQ
        dsimp only at hQ
        split at hQ <;> cases hQ; rfl
      · rintro l' rfl
        unfold linArr at hl
        dsimp only at hl
        split at hl <;> cases hl; rfl
      · rintro c rfl; rfl
      · rintro D rfl; rfl
      · rintro rfl i j hi hj
        cases hQ
        dsimp only at hi hj
        rw [hll] at hi hj
        simp [entry, eyeRows, List.getD_eq_getElem?_getD, List.getElem?_range, hi, hj]
      · rintro rfl v hv
        cases hl
        exact (List.mem_replicate.1 hv).2
      · rintro rfl; rfl
      · rintro rfl; rfl
      · rintro rfl rfl
        dsimp only
        rw [hll]
        cases dom <;> rfl

/-- C131: the attributes of `AffineFunction`. -/
theorem affInit_spec (randn : ℕ → Vec) (linear : Option Vec) (constant : Option ℝ) (dom : Option Dom) :
    (affInit randn linear constant dom).constant = constant.getD 0 ∧
    (affInit randn linear constant dom).dom = dom.getD (cube (affInit randn linear constant dom).linear.length) ∧
    (∀ l, linear = some l → (affInit randn linear constant dom).linear = l) ∧
    (linear = none → (affInit randn linear constant dom).linear = randn ((dom.map Dom.len).getD 5)) := by
  refine ⟨rfl, rfl, ?_, ?_⟩
  · rintro l rfl; rfl
  · rintro rfl; cases dom <;> rfl

/-! ## Values and gradients of the functions of normalized points -/

/-- C131: the value at a normalized point, and a column of values at several, of an affine function. -/
theorem aff_eval (fb : CornerOracle) (F : AffFun) (hd : F.linear.length = F.dom.len) (X : In) :
    F.eval fb X = .ok (outAt (fun z => poly2 F.dom.len (fun _ _ => 0) (fun i => F.linear.getD i 0) F.constant (F.dom.unnormalize fb z)) X) := by
  have hv := aff_val F
  rw [hd] at hv
  rw [AffFun.eval, if_pos hd]
  cases X with
  | one z => simp [Fn.eval, AffFun.fn, hstack1, hv, Except.map, outAt]
  | many Z => simp [Fn.eval, AffFun.fn, OutN.len, OutN.toRows, hstack2, hv, Except.map, outAt]

/-- C131: the same for a quadratic function. -/
theorem quad_eval (fb : CornerOracle) (ho : OracleLen fb) (F : QuadFun) (hD : F.dom.WF) (hd : F.linear.length = F.dom.len) (X : In)
    (hX : ∀ z ∈ X.rows, z.length = F.dom.len) :
    F.eval fb X = .ok (outAt (fun z => poly2 F.dom.len (entry F.quad) (fun i => F.linear.getD i 0) F.constant (F.dom.unnormalize fb z)) X) := by
  have hv := quad_val F
  rw [hd] at hv
  rw [QuadFun.eval, if_pos hd]
  have hu : ∀ z ∈ X.rows, (F.dom.unnormalize fb z).length = F.dom.len := fun z hz => (normalize_inverse fb ho F.dom hD z (hX z hz)).2.2.2
  cases X with
  | one z => simp [Fn.eval, QuadFun.fn, hstack1, hv _ (hu z (by simp [In.rows])), Except.map, outAt]
  | many Z =>
    simp only [Fn.eval, QuadFun.fn, OutN.len, OutN.toRows, hstack2, Except.map, outAt, List.map_map, List.map_cons, List.map_nil, List.all_cons, List.all_nil, List.length_map, if_true,
      decide_true, Bool.and_self]
    congr 2
    refine List.map_congr_left fun z hz => ?_
    simp [hv _ (hu z hz)]

theorem aff_grad_eval (fb : CornerOracle) (F : AffFun) (hd : F.linear.length = F.dom.len) (X : In) (hX : X.rows ≠ []) :
    F.grad fb X = .ok (packGrad 1 (fun _ => [Vec.mul (F.dom.uslopes fb) F.linear]) X) := by
  rw [AffFun.grad, if_pos hd, grad_user_vectorized (F.fn fb) _ rfl _ rfl (by simp) rfl X hX _ (fun _ _ => F.linear) (by simp)]
  rfl

theorem quad_grad_eval (fb : CornerOracle) (F : QuadFun) (hd : F.linear.length = F.dom.len) (X : In) (hX : X.rows ≠ []) :
    F.grad fb X = .ok (packGrad 1 (fun z => [Vec.mul (F.dom.uslopes fb) (F.der (F.dom.unnormalize fb z))]) X) := by
  rw [QuadFun.grad, if_pos hd, grad_user_vectorized (F.fn fb) _ rfl _ rfl (by simp) rfl X hX _ (fun _ => F.der) (by simp)]
  rfl

/-- C131: the gradient of an affine function is the gradient of the function of normalized points; at several points there is one row for each. -/
theorem aff_grad (fb : CornerOracle) (ho : OracleLen fb) (F : AffFun) (hD : F.dom.WF) (hu : NoUnbounded F.dom) (hd : F.linear.length = F.dom.len) :
    (∀ z : Vec, z.length = F.dom.len → ∃ g, F.grad fb (.one z) = .ok (.vec g) ∧
      IsGradAt (fun w => poly2 F.dom.len (fun _ _ => 0) (fun i => F.linear.getD i 0) F.constant (F.dom.unnormalize fb w)) z g) ∧
    ∀ Z : List Vec, Z ≠ [] → ∃ J, F.grad fb (.many Z) = .ok (.mat J) ∧ List.Forall₂ (fun z g => F.grad fb (.one z) = .ok (.vec g)) Z J := by
  refine ⟨fun z hz => ⟨_, aff_grad_eval fb F hd (.one z) (by simp [In.rows]), ?_⟩, fun Z hZ => ⟨_, aff_grad_eval fb F hd (.many Z) hZ, ?_⟩⟩
  · refine grad_chain ho hD hu hz ?_
    have := aff_grad_eq F.linear (F.dom.unnormalize fb z)
    have h2 := poly2_isGrad F.dom.len (fun _ _ => 0) (fun i => F.linear.getD i 0) F.constant (F.dom.unnormalize fb z) (normalize_inverse fb ho F.dom hD z hz).2.2.2
    rw [← hd, ← this] at h2
    rw [← hd]
    exact h2
  · rw [List.forall₂_map_right_iff]
    exact List.forall₂_same.2 fun z _ => aff_grad_eval fb F hd (.one z) (by simp [In.rows])

/-- C131, the part that holds: for a symmetric matrix the gradient of a quadratic function is right. -/
theorem quad_grad_partial (fb : CornerOracle) (ho : OracleLen fb) (F : QuadFun) (hD : F.dom.WF) (hu : NoUnbounded F.dom) (hd : F.linear.length = F.dom.len)
    (hsym : ∀ i j, i < F.dom.len → j < F.dom.len → entry F.quad i j = entry F.quad j i) :
    (∀ z : Vec, z.length = F.dom.len → ∃ g, F.grad fb (.one z) = .ok (.vec g) ∧
      IsGradAt (fun w => poly2 F.dom.len (entry F.quad) (fun i => F.linear.getD i 0) F.constant (F.dom.unnormalize fb w)) z g) ∧
    ∀ Z : List Vec, Z ≠ [] → ∃ J, F.grad fb (.many Z) = .ok (.mat J) ∧ List.Forall₂ (fun z g => F.grad fb (.one z) = .ok (.vec g)) Z J := by
  refine ⟨fun z hz => ⟨_, quad_grad_eval fb F hd (.one z) (by simp [In.rows]), ?_⟩, fun Z hZ => ⟨_, quad_grad_eval fb F hd (.many Z) hZ, ?_⟩⟩
  · refine grad_chain ho hD hu hz ?_
    have hx := (normalize_inverse fb ho F.dom hD z hz).2.2.2
    have h2 := poly2_isGrad F.dom.len (entry F.quad) (fun i => F.linear.getD i 0) F.constant (F.dom.unnormalize fb z) hx
    convert h2 using 1
    apply List.ext_getElem (by rw [der_length, poly2Grad, List.length_map, List.length_range, hd])
    intro k h1 h3
    have hk : k < F.dom.len := by rw [der_length, hd] at h1; exact h1
    have e := der_getD F (F.dom.unnormalize fb z) (hx.trans hd.symm) k (hd ▸ hk)
    rw [List.getD_eq_getElem?_getD, List.getElem?_eq_getElem h1, Option.getD_some] at e
    rw [e, hd]
    simp only [poly2Grad, List.getElem_map, List.getElem_range, Finset.mul_sum]
    congr 1
    refine Finset.sum_congr rfl fun i hi => ?_
    rw [hsym k i hk (Finset.mem_range.1 hi)]
    ring
  · rw [List.forall₂_map_right_iff]
    exact List.forall₂_same.2 fun z _ => quad_grad_eval fb F hd (.one z) (by simp [In.rows])

/-- C131 fails exactly for the other matrices: if the gradient is right at all points the matrix is symmetric. -/
theorem quad_grad_iff (fb : CornerOracle) (ho : OracleLen fb) (F : QuadFun) (hD : F.dom.WF) (hu : NoUnbounded F.dom) (hd : F.linear.length = F.dom.len) :
    (∀ z : Vec, z.length = F.dom.len → ∃ g, F.grad fb (.one z) = .ok (.vec g) ∧
      IsGradAt (fun w => poly2 F.dom.len (entry F.quad) (fun i => F.linear.getD i 0) F.constant (F.dom.unnormalize fb w)) z g) ↔
    ∀ i j, i < F.dom.len → j < F.dom.len → entry F.quad i j = entry F.quad j i := by
  refine ⟨fun h a k ha hk => ?_, fun h => (quad_grad_partial fb ho F hD hu hd h).1⟩
  -- the point with application coordinates `e_a`
  obtain ⟨x, hxe⟩ : ∃ x : Vec, x = (List.replicate F.dom.len (0 : ℝ)).set a 1 := ⟨_, rfl⟩
  have hxl : x.length = F.dom.len := by simp [hxe]
  have hx : ∀ i, x.getD i 0 = if i = a then 1 else 0 := fun i => by
    rw [hxe, set_getD _ _ (by simpa using ha)]
    split
    · rfl
    · simp [List.getD_eq_getElem?_getD, List.getElem?_replicate]; split <;> rfl
  obtain ⟨hn1, -, hn2, -⟩ := normalize_inverse fb ho F.dom hD x hxl
  obtain ⟨g, hg, hgr⟩ := h _ hn2
  rw [quad_grad_eval fb F hd (.one (F.dom.normalize fb x)) (by simp [In.rows])] at hg
  cases hg
  have h2 := grad_chain ho hD hu hn2 (φ := poly2 F.dom.len (entry F.quad) (fun i => F.linear.getD i 0) F.constant)
    (by rw [hn1]; exact poly2_isGrad F.dom.len (entry F.quad) (fun i => F.linear.getD i 0) F.constant x hxl)
  have he := isGrad_unique hgr h2
  have hs := (dom_uslopes_length ho hD).1
  simp only [List.getD_cons_zero] at he
  rw [hn1] at he
  have := mul_cancel_left (dom_uslopes_ne fb F.dom) (by rw [der_length, hs, hd]) (by simp [poly2Grad, hs]) he
  have e1 := der_getD F x (hxl.trans hd.symm) k (hd ▸ hk)
  rw [this, poly2Grad, List.getD_eq_getElem?_getD, List.getElem?_map, List.getElem?_range hk, hd] at e1
  simp only [Option.map_some, Option.getD_some, hx, mul_ite, mul_one, mul_zero, Finset.sum_ite_eq', Finset.mem_range, ha, if_true] at e1
  linarith

/-- C131 is false: `x₀ x₁` given by a matrix with one entry has another gradient than the one returned. -/
theorem quadratic_grad_false (fb : CornerOracle) (ho : OracleLen fb) : ∃ F, quadInit (some [[0, 1], [0, 0]]) none none none = .ok F ∧
    (∀ x : Vec, poly2 2 (entry F.quad) (fun i => F.linear.getD i 0) F.constant x = x.getD 0 0 * x.getD 1 0) ∧
    ∃ z : Vec, z.length = 2 ∧ ∀ g, F.grad fb (.one z) = .ok (.vec g) →
      ¬ IsGradAt (fun w => poly2 2 (entry F.quad) (fun i => F.linear.getD i 0) F.constant (F.dom.unnormalize fb w)) z g := by
  obtain ⟨F, hF⟩ := (quadInit_ok_iff (some [[0, 1], [0, 0]]) none none none).2 ⟨fun Q e => by cases e; simp, fun Q l _ e => by cases e⟩
  obtain ⟨hwf, hQ, -, -, -, -, hl, hc, hdm, -⟩ := quadInit_spec hF
  have hq : F.quad = [[0, 1], [0, 0]] := hQ _ rfl
  have hl2 : F.linear.length = 2 := by rw [← hwf.1, hq]; rfl
  have hdom : F.dom = cube 2 := by rw [hdm rfl, hl2]
  have hlen : F.dom.len = 2 := by rw [hdom]; rfl
  have hD : F.dom.WF := by rw [hdom]; exact cube_wf 2
  have hu : NoUnbounded F.dom := by rw [hdom]; intro n h; cases h
  have hl0 : ∀ i, F.linear.getD i 0 = 0 := fun i => by
    rw [List.getD_eq_getElem?_getD]
    cases h : F.linear[i]? with
    | none => rfl
    | some v => exact hl rfl v (List.mem_of_getElem? h)
  refine ⟨F, hF, fun x => ?_, ?_⟩
  · rw [hq, hc rfl]
    simp only [poly2, hl0]
    simp [entry, Finset.sum_range_succ]
  · by_contra hcon
    push Not at hcon
    have := (quad_grad_iff fb ho F hD hu (hl2.trans hlen.symm)).1 (fun z hz => by
      obtain ⟨g, h1, h2⟩ := hcon z (hz.trans hlen)
      exact ⟨g, h1, by rw [hlen]; exact h2⟩) 0 1 (by omega) (by omega)
    rw [hq] at this
    simp [entry] at this

/-- With coefficients that do not match the domain every evaluation fails. -/
theorem quad_mismatch (fb : CornerOracle) (F : QuadFun) (h : F.linear.length ≠ F.dom.len) (X : In) :
    F.eval fb X = .error .valueError ∧ F.grad fb X = .error .valueError := ⟨if_neg h, if_neg h⟩

/-- The same for affine functions. -/
theorem aff_mismatch (fb : CornerOracle) (F : AffFun) (h : F.linear.length ≠ F.dom.len) (X : In) :
    F.eval fb X = .error .valueError ∧ F.grad fb X = .error .valueError := ⟨if_neg h, if_neg h⟩

/-- C131 with the default domain: the value at `z` is the polynomial at `z`. -/
theorem quad_eval_cube (fb : CornerOracle) (ho : OracleLen fb) {quad : Option (List Vec)} {linear : Option Vec} {constant : Option ℝ} {F : QuadFun}
    (h : quadInit quad linear constant none = .ok F) (z : Vec) (hz : z.length = F.linear.length) :
    F.eval fb (.one z) = .ok (.vec [poly2 F.linear.length (entry F.quad) (fun i => F.linear.getD i 0) F.constant z]) := by
  have hdm := (quadInit_spec h).2.2.2.2.2.2.2.2.1 rfl
  have hl : F.linear.length = F.dom.len := by rw [hdm]; simp [cube, Dom.len, Base.len, Base.acc]
  rw [quad_eval fb ho F (by rw [hdm]; exact cube_wf _) hl (.one z) (by simpa [In.rows] using hz.trans hl), ← hl]
  rw [outAt, hdm, cube_unnormalize fb ho _ z hz]

/-- The identity in the plane with its default domain: `x₀² + x₁²` and its gradient. -/
example : ∃ F, quadInit none (some [0, 0]) none none = .ok F ∧ F.dom.WF ∧ NoUnbounded F.dom ∧ F.linear.length = F.dom.len ∧
    (∀ i j, i < F.dom.len → j < F.dom.len → entry F.quad i j = entry F.quad j i) ∧ F.eval infOracle (.one [1, 2]) = .ok (.vec [5]) := by
  obtain ⟨F, hF⟩ := (quadInit_ok_iff none (some [0, 0]) none none).2 ⟨fun Q e => (by cases e), fun Q l e => (by cases e)⟩
  obtain ⟨-, -, h3, -, -, h6, -, h8, h9, -⟩ := quadInit_spec hF
  have h3 := h3 _ rfl
  have hl : F.linear.length = 2 := by rw [h3]; rfl
  have hdom : F.dom = cube 2 := by rw [h9 rfl, hl]
  have hlen : F.dom.len = 2 := by rw [hdom]; rfl
  refine ⟨F, hF, by rw [hdom]; exact cube_wf 2, by rw [hdom]; exact fun n h => (by cases h), hl.trans hlen.symm, ?_, ?_⟩
  · intro i j hi hj
    rw [hlen, ← hl] at hi hj
    rw [h6 rfl i j hi hj, h6 rfl j i hj hi]
    simp [eq_comm]
  · rw [quad_eval_cube infOracle infOracle_len hF [1, 2] (by rw [hl]; rfl)]
    have e : ∀ i j, i < 2 → j < 2 → entry F.quad i j = if i = j then 1 else 0 := fun i j hi hj => h6 rfl i j (hl ▸ hi) (hl ▸ hj)
    rw [hl, h8 rfl, h3]
    simp only [poly2, Finset.sum_range_succ, Finset.sum_range_zero]
    rw [e 0 0 (by omega) (by omega), e 0 1 (by omega) (by omega), e 1 0 (by omega) (by omega), e 1 1 (by omega) (by omega)]
    norm_num

end Verif.Demo
