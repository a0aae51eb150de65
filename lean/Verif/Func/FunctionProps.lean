import Verif.Func.FunctionModel
import Verif.Domain.NormProps
import Mathlib.Analysis.Calculus.Deriv.Mul
import Mathlib.Analysis.Calculus.Deriv.Add
import Mathlib.Analysis.Calculus.Deriv.Comp

/-!
# Property C52: evaluating a `Function` is evaluating the user functions in application coordinates
-/

namespace Verif.Func

open Classical Verif Verif.Domain

variable {V : Type}

/-! ## Specification -/

/-- What `f(z)` should be: the values of the user functions at the application point, one after the
other, called with the keywords of the object overridden by those of the call. -/
noncomputable def valueAt (f : Fn V) (kw : Kw V) (z : Vec) : Vec :=
  (f.funs.map (fun g => g.one (f.dom.unnormalize f.fb z) (merge f.kw kw))).flatten

/-- A vectorized user function does on an array what it does on its rows. -/
def RowWise (g : UserFun V) : Prop := ∀ X k, (g.many X k).toRows = X.map (fun x => g.one x k)

/-- A user function always returns the same number of values. -/
def FixedLen (g : UserFun V) : Prop := ∀ x y k, (g.one x k).length = (g.one y k).length

/-! ## Lemmas about array helpers -/

theorem merge_idem (a b : Kw V) : merge a (merge a b) = merge a b := by
  funext k; simp only [merge]; cases a k <;> cases b k <;> rfl

theorem sequence_ok {α : Type} (l : List α) : sequence (l.map Except.ok) = .ok l := by
  induction l with
  | nil => rfl
  | cons a l ih => simp only [List.map_cons, sequence, ih]

theorem sequence_map_ok {α β : Type} (l : List β) (F : β → Except Err α) (G : β → α) (h : ∀ b ∈ l, F b = .ok (G b)) :
    sequence (l.map F) = .ok (l.map G) := by
  rw [List.map_congr_left h]
  have := sequence_ok (l.map G)
  rwa [List.map_map] at this

theorem hstack1_ok {vs : List Vec} (h : vs ≠ []) : hstack1 vs = .ok vs.flatten := by
  cases vs with
  | nil => exact absurd rfl h
  | cons v vs => rfl

theorem vstack1_ok {vs : List Vec} (h : vs ≠ []) (hl : ∀ v ∈ vs, ∀ w ∈ vs, v.length = w.length) :
    vstack1 vs = .ok vs := by
  cases vs with
  | nil => exact absurd rfl h
  | cons v vs =>
    simp only [vstack1]
    rw [if_pos]
    simp only [List.all_eq_true, decide_eq_true_eq]
    intro w hw
    exact hl w (List.mem_cons_of_mem _ hw) v List.mem_cons_self

theorem catRows_map {β : Type} (X : List β) (a b : β → Vec) :
    catRows (X.map a) (X.map b) = X.map (fun x => a x ++ b x) := by
  induction X with
  | nil => rfl
  | cons x X ih => simp [catRows] at ih ⊢

theorem hstack2_map {β γ : Type} (X : List β) (gs : List γ) (F : γ → β → Vec) (h : gs ≠ []) :
    hstack2 (gs.map (fun g => X.map (F g))) = .ok (X.map (fun x => (gs.map (fun g => F g x)).flatten)) := by
  induction gs with
  | nil => exact absurd rfl h
  | cons g gs ih =>
    cases gs with
    | nil => simp [hstack2]
    | cons g' gs =>
      have e := ih (by simp)
      simp only [List.map_cons] at e ⊢
      rw [hstack2, e]
      · simp only [List.length_map, if_true, catRows_map]
        simp
      · simp

theorem toRows_length (o : OutN) : o.toRows.length = o.len := by
  cases o <;> simp [OutN.toRows, OutN.len]

/-! ## C52 -/

/-- **C52**, one point: for every domain, every list of functions and every keyword dictionary. -/
theorem eval_one (f : Fn V) (hf : f.funs ≠ []) (z : Vec) (kw : Kw V) :
    f.eval (.one z) kw = .ok (.vec (valueAt f kw z)) := by
  simp only [Fn.eval, valueAt]
  rw [hstack1_ok (by simpa using hf)]
  rfl

/-- **C52**, a batch: in the same row order every row of the result is the value at that point, whether
or not the functions are vectorized. -/
theorem eval_many (f : Fn V) (hf : f.funs ≠ []) (Z : List Vec) (kw : Kw V)
    (hv : f.vectorized = true → ∀ g ∈ f.funs, RowWise g)
    (hn : f.vectorized = false → Z ≠ [] ∧ ∀ g ∈ f.funs, FixedLen g) :
    f.eval (.many Z) kw = .ok (.mat (Z.map (valueAt f kw))) := by
  simp only [Fn.eval]
  by_cases h : f.vectorized = true
  · rw [if_pos h]
    have hr := hv h
    rw [if_pos]
    · have e : (f.funs.map (fun g => g.many (Z.map (f.dom.unnormalize f.fb)) (merge f.kw kw))).map OutN.toRows =
          f.funs.map (fun g => (Z.map (f.dom.unnormalize f.fb)).map (fun x => g.one x (merge f.kw kw))) := by
        rw [List.map_map]
        exact List.map_congr_left (fun g hg => hr g hg _ _)
      rw [e, hstack2_map _ _ (fun g x => g.one x (merge f.kw kw)) hf, List.map_map]
      rfl
    · simp only [List.all_eq_true, List.mem_map, decide_eq_true_eq, forall_exists_index, and_imp,
        forall_apply_eq_imp_iff₂]
      intro g hg
      rw [← toRows_length, hr g hg, List.length_map]
  · rw [if_neg h]
    obtain ⟨hZ, hl⟩ := hn (by simpa using h)
    rw [sequence_map_ok _ _ (fun x => (f.funs.map (fun g => g.one x (merge f.kw kw))).flatten)
      (fun x _ => hstack1_ok (by simpa using hf))]
    simp only
    rw [vstack1_ok (by simpa using hZ)]
    · rw [List.map_map]; rfl
    · intro v hv' w hw
      obtain ⟨x, -, rfl⟩ := List.mem_map.1 hv'
      obtain ⟨y, -, rfl⟩ := List.mem_map.1 hw
      simp only [List.length_flatten, List.map_map]
      congr 1
      exact List.map_congr_left (fun g hg => hl g hg _ _ _)

/-- A batch is evaluated row by row exactly as its points are evaluated one at a time. -/
theorem eval_batch_eq_points (f : Fn V) (hf : f.funs ≠ []) (Z : List Vec) (kw : Kw V)
    (hv : f.vectorized = true → ∀ g ∈ f.funs, RowWise g)
    (hn : f.vectorized = false → Z ≠ [] ∧ ∀ g ∈ f.funs, FixedLen g) :
    ∃ rows : List Vec, f.eval (.many Z) kw = .ok (.mat rows) ∧ rows.length = Z.length ∧
      ∀ (i : ℕ) z r, Z[i]? = some z → rows[i]? = some r → f.eval (.one z) kw = .ok (.vec r) := by
  refine ⟨_, eval_many f hf Z kw hv hn, by simp, ?_⟩
  intro i z r hz hr
  rw [List.getElem?_map, hz] at hr
  rw [eval_one f hf]
  simp only [Option.map_some, Option.some.injEq] at hr
  rw [hr]

/-- Calling the object without asking for gradients is evaluating it, with the same keywords. -/
theorem call_eq_eval (f : Fn V) (h : ℝ) (X : In) (kw : Kw V) :
    f.call h X false kw = (f.eval X kw).map (fun a => (a, none)) := by
  simp only [Fn.call]
  have : f.eval X (merge f.kw kw) = f.eval X kw := by
    simp only [Fn.eval, merge_idem]
  rw [this]; rfl

/-- Asking a function that does not return gradients itself for the gradient gives the value of `eval` and that of `grad`, with the same keywords. -/
theorem call_grad_eq (f : Fn V) (h : ℝ) (X : In) (kw : Kw V) (hr : f.returnGrad = false) (a : Arr) (g : Grad) :
    f.call h X true kw = .ok (a, some g) ↔ f.eval X kw = .ok a ∧ f.grad h X kw = .ok g := by
  have e1 : f.eval X (merge f.kw kw) = f.eval X kw := by simp only [Fn.eval, merge_idem]
  have e2 : f.grad h X (merge f.kw kw) = f.grad h X kw := by simp only [Fn.grad, merge_idem]
  simp only [Fn.call, hr, if_true, e1, e2, Bool.false_eq_true, if_false]
  cases f.eval X kw with
  | error e => simp
  | ok b =>
    cases f.grad h X kw with
    | error e => simp [Except.map]
    | ok g' => simp [Except.map]

theorem hstack2_rows {ms : List (List Vec)} {r : List Vec} (h : hstack2 ms = .ok r) : ∀ m ∈ ms, m.length = r.length := by
  induction ms generalizing r with
  | nil => simp [hstack2] at h
  | cons m ms ih =>
    cases ms with
    | nil => simp [hstack2] at h; subst h; simp
    | cons m' ms =>
      rw [hstack2] at h
      · cases hr : hstack2 (m' :: ms) with
        | error e => rw [hr] at h; cases h
        | ok r' =>
          rw [hr] at h
          dsimp only at h
          split at h
          · rename_i hl
            injection h with h
            have hlen : r.length = r'.length := by rw [← h]; simp [catRows, hl]
            intro w hw
            rcases List.mem_cons.1 hw with rfl | hw
            · rw [hl, hlen]
            · rw [ih hr w hw, hlen]
          · cases h
      · simp

theorem hstack2_error {ms : List (List Vec)} {e : Err} (h : hstack2 ms = .error e) : e = .valueError := by
  induction ms with
  | nil => simp [hstack2] at h; exact h.symm
  | cons m ms ih =>
    cases ms with
    | nil => simp [hstack2] at h
    | cons m' ms =>
      rw [hstack2] at h
      · cases hr : hstack2 (m' :: ms) with
        | error e' => rw [hr] at h; injection h with h; subst h; exact ih hr
        | ok r' =>
          rw [hr] at h
          dsimp only at h
          split at h
          · cases h
          · injection h with h; exact h.symm
      · simp

/-- Vectorized functions returning values for different numbers of points are rejected. -/
theorem call_rows_rejected (f : Fn V) (h : ℝ) (X : In) (kw : Kw V) (hr : f.returnGrad = true) (hv : f.vectorized = true)
    (hrows : ∀ g ∈ f.funs, (g.manyG (X.rows.map (f.dom.unnormalize f.fb)) (merge f.kw kw)).1.isFlat = false)
    {g g' : UserFun V} (hg : g ∈ f.funs) (hg' : g' ∈ f.funs)
    (hne : (g.manyG (X.rows.map (f.dom.unnormalize f.fb)) (merge f.kw kw)).1.toRows.length ≠ (g'.manyG (X.rows.map (f.dom.unnormalize f.fb)) (merge f.kw kw)).1.toRows.length) :
    f.call h X true kw = .error .valueError := by
  have key : hstackOut (f.funs.map fun g => (g.manyG (X.rows.map (f.dom.unnormalize f.fb)) (merge f.kw kw)).1) = .error .valueError := by
    cases hfs : f.funs with
    | nil => rw [hfs] at hg; cases hg
    | cons a as =>
      rw [hfs] at hrows hg hg'
      unfold hstackOut
      simp only [List.map_cons]
      rw [if_neg, if_pos]
      · cases hh : hstack2 (List.map OutN.toRows ((a.manyG (X.rows.map (f.dom.unnormalize f.fb)) (merge f.kw kw)).1 ::
            as.map fun g => (g.manyG (X.rows.map (f.dom.unnormalize f.fb)) (merge f.kw kw)).1)) with
        | error e =>
          rw [List.map_cons] at hh
          rw [hh, hstack2_error hh]; rfl
        | ok r =>
          exfalso
          have hall := hstack2_rows hh
          rw [← List.map_cons (f := fun g : UserFun V => (g.manyG (X.rows.map (f.dom.unnormalize f.fb)) (merge f.kw kw)).1), List.map_map] at hall
          exact hne ((hall _ (List.mem_map.2 ⟨g, hg, rfl⟩)).trans (hall _ (List.mem_map.2 ⟨g', hg', rfl⟩)).symm)
      · rw [← List.map_cons (f := fun g : UserFun V => (g.manyG (X.rows.map (f.dom.unnormalize f.fb)) (merge f.kw kw)).1)]
        simp only [List.all_map, List.all_eq_true, Function.comp]
        intro g hg
        rw [hrows g hg]; rfl
      · simp [hrows a (by simp)]
  simp only [Fn.call, hr, if_true, Fn.callG, hv, key]
  rfl

/-- The value of the application-coordinate function is recovered by normalizing first. -/
theorem eval_normalize (f : Fn V) (hf : f.funs ≠ []) (ho : OracleLen f.fb) (hD : f.dom.WF) (x : Vec)
    (hx : x.length = f.dom.len) (kw : Kw V) :
    f.eval (.one (f.dom.normalize f.fb x)) kw =
      .ok (.vec ((f.funs.map (fun g => g.one x (merge f.kw kw))).flatten)) := by
  rw [eval_one f hf, valueAt, (normalize_inverse f.fb ho f.dom hD x hx).1]

/-- A vectorized function that returns the wrong number of values is rejected. -/
theorem eval_wrong_length (f : Fn V) (hvec : f.vectorized = true) (Z : List Vec) (kw : Kw V)
    (g : UserFun V) (hg : g ∈ f.funs)
    (hlen : (g.many (Z.map (f.dom.unnormalize f.fb)) (merge f.kw kw)).len ≠ Z.length) :
    f.eval (.many Z) kw = .error .assertion := by
  simp only [Fn.eval, if_pos hvec]
  rw [if_neg]
  simp only [List.all_eq_true, List.mem_map, decide_eq_true_eq, forall_exists_index, and_imp,
    forall_apply_eq_imp_iff₂, List.length_map]
  intro h
  exact hlen (h g hg)

/-- Without functions every evaluation fails. -/
theorem eval_no_funs (f : Fn V) (hf : f.funs = []) (z : Vec) (kw : Kw V) :
    f.eval (.one z) kw = .error .valueError := by
  simp only [Fn.eval, hf]; rfl

/-! ### Values returned together with gradients -/

/-- The `return_grad` version of a function returns the same values. -/
def SameValues (g : UserFun V) : Prop :=
  (∀ x k, (g.oneG x k).1 = g.one x k) ∧ ∀ X k, (g.manyG X k).1 = g.many X k

/-- Values returned with gradients at one point or by non-vectorized functions are the values of `eval`. -/
theorem callG_values_plain (f : Fn V) (hf : f.funs ≠ []) (hvec : f.vectorized = false)
    (hs : ∀ g ∈ f.funs, SameValues g) (X : In) (kw : Kw V) (a : Arr) (G : Grad)
    (h : f.callG X kw = .ok (a, G)) : f.eval X kw = .ok a := by
  have e : ∀ x, f.funs.map (fun g => (g.oneG x (merge f.kw kw)).1) = f.funs.map (fun g => g.one x (merge f.kw kw)) :=
    fun x => List.map_congr_left (fun g hg => (hs g hg).1 _ _)
  simp only [Fn.callG, hvec, e] at h
  simp only [Bool.false_eq_true, if_false] at h
  rw [sequence_map_ok _ _ (fun x => (f.funs.map (fun g => g.one x (merge f.kw kw))).flatten)
      (fun x _ => hstack1_ok (by simpa using hf))] at h
  simp only at h
  cases hv : vstack1 ((X.rows.map (f.dom.unnormalize f.fb)).map
      (fun x => (f.funs.map (fun g => g.one x (merge f.kw kw))).flatten)) with
  | error e' => rw [hv] at h; cases h
  | ok fX =>
    rw [hv] at h
    simp only at h
    have key : ∀ T, ((shapeGrad f.dom.len X T).map (fun g => (finishArr X (.mat fX), g))) = .ok (a, G) →
        a = finishArr X (.mat fX) := by
      intro T hT
      cases hh : shapeGrad f.dom.len X T with
      | error e' => rw [hh] at hT; cases hT
      | ok g' =>
        rw [hh] at hT
        simp only [Except.map, Except.ok.injEq, Prod.mk.injEq] at hT
        exact hT.1.symm
    have ha : a = finishArr X (.mat fX) := by
      split at h
      · cases h
      · split at h
        · cases h
        · exact key _ h
    subst ha
    cases X with
    | one z =>
      simp only [In.rows, List.map_cons, List.map_nil] at hv
      simp only [vstack1, List.all_nil, if_true, Except.ok.injEq] at hv
      subst hv
      rw [eval_one f hf]
      simp [Arr.flatten, finishArr, valueAt]
    | many Z =>
      simp only [Fn.eval, hvec, Bool.false_eq_true, if_false]
      rw [sequence_map_ok _ _ (fun x => (f.funs.map (fun g => g.one x (merge f.kw kw))).flatten)
        (fun x _ => hstack1_ok (by simpa using hf))]
      simp only [In.rows] at hv
      simp only [hv]
      rfl

/-- Two vectorized scalar functions `x ↦ x₀` and `x ↦ 2 x₀` that can return gradients. -/
noncomputable def proj0 (c : ℝ) : UserFun ℝ where
  one := fun x _ => [c * x.getD 0 0]
  many := fun X _ => .flat (X.map (fun x => c * x.getD 0 0))
  oneG := fun x _ => ([c * x.getD 0 0], [[c]])
  manyG := fun X _ => (.flat (X.map (fun x => c * x.getD 0 0)), X.map (fun _ => [c]))

/-- The box `[-1,1]`. -/
noncomputable def unitBox : Dom := .base (.box [.fin (-1)] [.fin 1])

/-- Both functions on `[-1,1]`. -/
noncomputable def twoFns (vec : Bool) : Fn ℝ :=
  ⟨[proj0 1, proj0 2], none, false, vec, fun _ => none, true, unitBox, infOracle⟩

theorem proj0_good (c : ℝ) : RowWise (proj0 c) ∧ FixedLen (proj0 c) ∧ SameValues (proj0 c) := by
  refine ⟨fun X k => ?_, fun x y k => rfl, fun x k => rfl, fun X k => rfl⟩
  simp [proj0, OutN.toRows]

theorem unitBox_slopes : unitBox.uslopes infOracle = [1] := by
  simp only [unitBox, Dom.uslopes, Base.uslopes, Base.normLb, Base.normUb, infOracle, uslopes, Base.acc, Base.len]
  simp [normLb1, normUb1, XR.pyMin, pyMax, XR.lt, uslope]
  norm_num

theorem unitBox_unnormalize (t : ℝ) : unitBox.unnormalize infOracle [t] = [t] := by
  have h := unitBox_slopes
  simp only [unitBox, Dom.uslopes] at h
  simp only [unitBox, Dom.unnormalize, Base.unnormalize, h]
  simp only [Base.center, Base.normLb, Base.normUb, infOracle, center, Base.acc, Base.len]
  simp [normLb1, normUb1, XR.pyMin, pyMax, XR.lt, center1]
  norm_num

example : (twoFns false).eval (.many [[2], [3]]) (fun _ => none) = .ok (.mat [[2, 4], [3, 6]]) := by
  rw [eval_many _ (by simp [twoFns]) _ _ (by simp [twoFns])
    (fun _ => ⟨by simp, fun g hg => by
      simp only [twoFns, List.mem_cons, List.not_mem_nil, or_false] at hg
      rcases hg with rfl | rfl <;> exact (proj0_good _).2.1⟩)]
  simp [valueAt, twoFns, unitBox_unnormalize, proj0]
  norm_num

/-- **C52 fails for values returned with gradients by several vectorized functions**: with two
functions and two points `eval` returns the 2 by 2 array of values, while `__call__(X, return_grad=True)`
returns a 1-d array of the four values, functions first (the code joins 1-d arrays end to end). -/
theorem callG_vectorized_false :
    (twoFns true).eval (.many [[2], [3]]) (fun _ => none) = .ok (.mat [[2, 4], [3, 6]]) ∧
    ∃ G, (twoFns true).callG (.many [[2], [3]]) (fun _ => none) = .ok (.vec [2, 3, 4, 6], G) := by
  constructor
  · rw [eval_many _ (by simp [twoFns]) _ _
      (fun _ g hg => by
        simp only [twoFns, List.mem_cons, List.not_mem_nil, or_false] at hg
        rcases hg with rfl | rfl <;> exact (proj0_good _).1) (by simp [twoFns])]
    simp [valueAt, twoFns, unitBox_unnormalize, proj0]
    norm_num
  · simp [Fn.callG, twoFns, In.rows, unitBox_unnormalize, proj0, hstackOut, OutN.isFlat, OutN.flatVal, stack3, transpose102, dotD,
      shapeGrad, Except.map, finishArr, List.range_succ]
    norm_num

/-- Vectorized functions that return two-dimensional arrays, or any vectorized functions at one point,
have the same values with gradients as without. -/
theorem callG_values_vectorized_partial (f : Fn V) (hf : f.funs ≠ []) (hvec : f.vectorized = true)
    (hr : ∀ g ∈ f.funs, RowWise g) (hs : ∀ g ∈ f.funs, SameValues g) (X : In) (kw : Kw V)
    (hX : (∃ z, X = .one z ∧ ∀ g ∈ f.funs, ∀ Y k, ∃ v, g.many Y k = .flat v) ∨
      ∀ g ∈ f.funs, ∀ Y k, ∃ r, g.many Y k = .rows r)
    (a : Arr) (G : Grad) (h : f.callG X kw = .ok (a, G)) :
    f.eval X kw = .ok a := by
  have e : ∀ Y, f.funs.map (fun g => (g.manyG Y (merge f.kw kw)).1) = f.funs.map (fun g => g.many Y (merge f.kw kw)) :=
    fun Y => List.map_congr_left (fun g hg => (hs g hg).2 _ _)
  simp only [Fn.callG, hvec, e, if_true] at h
  have key : ∀ fX, hstackOut (f.funs.map (fun g => g.many (X.rows.map (f.dom.unnormalize f.fb)) (merge f.kw kw))) = .ok fX →
      a = finishArr X fX := by
    intro fX hfX
    rw [hfX] at h
    simp only at h
    split at h
    · cases h
    · rename_i T _
      cases hh : shapeGrad f.dom.len X (dotD (f.dom.uslopes f.fb)
          (transpose102 (X.rows.map (f.dom.unnormalize f.fb)).length T)) with
      | error e' => rw [hh] at h; cases h
      | ok g' =>
        rw [hh] at h
        simp only [Except.map, Except.ok.injEq, Prod.mk.injEq] at h
        exact h.1.symm
  rcases hX with ⟨z, rfl, hflat⟩ | hrows
  · have hv : hstackOut (f.funs.map (fun g => g.many ((In.one z).rows.map (f.dom.unnormalize f.fb)) (merge f.kw kw))) =
        .ok (.vec (valueAt f kw z)) := by
      have hall : (f.funs.map (fun g => g.many ((In.one z).rows.map (f.dom.unnormalize f.fb)) (merge f.kw kw))).all
          OutN.isFlat = true := by
        simp only [List.all_map, List.all_eq_true, Function.comp]
        intro g hg
        obtain ⟨v, hv⟩ := hflat g hg ((In.one z).rows.map (f.dom.unnormalize f.fb)) (merge f.kw kw)
        simp [hv, OutN.isFlat]
      have hne : f.funs.map (fun g => g.many ((In.one z).rows.map (f.dom.unnormalize f.fb)) (merge f.kw kw)) ≠ [] := by
        simpa using hf
      have hrewrite : ∀ os : List OutN, os ≠ [] → os.all OutN.isFlat = true →
          hstackOut os = .ok (.vec (os.flatMap OutN.flatVal)) := by
        intro os h1 h2
        cases os with
        | nil => exact absurd rfl h1
        | cons o os => simp only [hstackOut]; rw [if_pos h2]
      rw [hrewrite _ hne hall]
      congr 2
      rw [List.flatMap_map, valueAt, List.flatMap_def]
      congr 1
      refine List.map_congr_left (fun g hg => ?_)
      obtain ⟨v, hv⟩ := hflat g hg ((In.one z).rows.map (f.dom.unnormalize f.fb)) (merge f.kw kw)
      have h2 := hr g hg ((In.one z).rows.map (f.dom.unnormalize f.fb)) (merge f.kw kw)
      rw [hv] at h2
      simp only [OutN.toRows, In.rows, List.map_cons, List.map_nil] at h2
      rw [hv]
      cases v with
      | nil => simp at h2
      | cons b v => cases v with
        | nil => simpa [OutN.flatVal] using h2
        | cons c v => simp at h2
    have := key _ hv
    subst this
    exact eval_one f hf z kw
  · have hv : hstackOut (f.funs.map (fun g => g.many (X.rows.map (f.dom.unnormalize f.fb)) (merge f.kw kw))) =
        .ok (.mat (X.rows.map (valueAt f kw))) := by
      have hall : (f.funs.map (fun g => g.many (X.rows.map (f.dom.unnormalize f.fb)) (merge f.kw kw))).all
          (fun o => !o.isFlat) = true := by
        simp only [List.all_map, List.all_eq_true, Function.comp]
        intro g hg
        obtain ⟨v, hv⟩ := hrows g hg (X.rows.map (f.dom.unnormalize f.fb)) (merge f.kw kw)
        simp [hv, OutN.isFlat]
      have hnall : ¬ (f.funs.map (fun g => g.many (X.rows.map (f.dom.unnormalize f.fb)) (merge f.kw kw))).all
          OutN.isFlat = true := by
        simp only [List.all_map, List.all_eq_true, Function.comp]
        intro hc
        obtain ⟨g, hg⟩ := List.exists_mem_of_ne_nil _ hf
        obtain ⟨v, hv⟩ := hrows g hg (X.rows.map (f.dom.unnormalize f.fb)) (merge f.kw kw)
        simpa [hv, OutN.isFlat] using hc g hg
      have hne : f.funs.map (fun g => g.many (X.rows.map (f.dom.unnormalize f.fb)) (merge f.kw kw)) ≠ [] := by
        simpa using hf
      have hrewrite : ∀ os : List OutN, os ≠ [] → os.all (fun o => !o.isFlat) = true →
          ¬ os.all OutN.isFlat = true →
          hstackOut os = (hstack2 (os.map OutN.toRows)).map Arr.mat := by
        intro os h1 h2 h3
        cases os with
        | nil => exact absurd rfl h1
        | cons o os => simp only [hstackOut]; rw [if_neg h3, if_pos h2]
      rw [hrewrite _ hne hall hnall]
      have e2 : (f.funs.map (fun g => g.many (X.rows.map (f.dom.unnormalize f.fb)) (merge f.kw kw))).map OutN.toRows =
          f.funs.map (fun g => (X.rows.map (f.dom.unnormalize f.fb)).map (fun x => g.one x (merge f.kw kw))) := by
        rw [List.map_map]
        exact List.map_congr_left (fun g hg => hr g hg _ _)
      rw [e2, hstack2_map _ _ (fun g x => g.one x (merge f.kw kw)) hf, List.map_map]
      rfl
    have := key _ hv
    subst this
    cases X with
    | one z =>
      rw [eval_one f hf]
      simp [finishArr, Arr.flatten, In.rows]
    | many Z =>
      rw [eval_many f hf Z kw (fun _ => hr) (fun h' => by rw [hvec] at h'; cases h')]
      rfl

end Verif.Func
