import Verif.Func.FunctionProps

/-!
# Property C53: gradients of a `Function` obey the chain rule, in one index order
-/

namespace Verif.Func

open Classical Verif Verif.Domain

variable {V : Type}

/-! ## Specification -/

/-- `g` collects the partial derivatives of `f` at `x`. -/
def IsGradAt (f : Vec → ℝ) (x g : Vec) : Prop :=
  g.length = x.length ∧ ∀ k, k < x.length → HasDerivAt (fun t => f (x.set k t)) (g.getD k 0) (x.getD k 0)

/-- The documented layout of a gradient, [sample, function, dimension], with the sample axis dropped for
one point and the function axis dropped for one function. `J z` lists the gradients of the `p` functions
at `z`. -/
def packGrad (p : ℕ) (J : Vec → List Vec) : In → Grad
  | .one z => if p = 1 then .vec ((J z).getD 0 []) else .mat (J z)
  | .many Z => if p = 1 then .mat (Z.map (fun z => (J z).getD 0 [])) else .ten (Z.map J)

/-- Domains that have a normalization: no `UnboundedDomain` part (that class has no `_normalized_domain`,
so a `Function` on it cannot be constructed). -/
def NoUnbounded : Dom → Prop
  | .base d => ∀ n, d ≠ .unbounded n
  | .tensor ds => ∀ d ∈ ds, ∀ n, d ≠ .unbounded n

/-! ## Unnormalizing is a diagonal affine map -/

/-- `_center()` of a domain with tensor products. -/
noncomputable def domCenter (fb : CornerOracle) : Dom → Vec
  | .base d => d.center fb
  | .tensor ds => ds.flatMap (fun d => d.center fb)

theorem vec_append_affine (a b c a' b' c' : Vec) (h1 : a.length = b.length) (h2 : c.length = b.length) :
    Vec.add (Vec.mul (a ++ a') (b ++ b')) (c ++ c') = Vec.add (Vec.mul a b) c ++ Vec.add (Vec.mul a' b') c' := by
  unfold Vec.add Vec.mul
  rw [List.zipWith_append h1, List.zipWith_append (by simp [h1, h2])]

theorem pieces_affine {fb : CornerOracle} (ho : OracleLen fb) {ds : List Base} (hw : ∀ b ∈ ds, b.WF)
    (hu : ∀ d ∈ ds, ∀ n, d ≠ .unbounded n) {xs : List Vec} (h : Pieces ds xs) :
    (List.zipWith (fun d x => d.unnormalize fb x) ds xs).flatten =
      Vec.add (Vec.mul (ds.flatMap (fun d => d.uslopes fb)) xs.flatten) (ds.flatMap (fun d => d.center fb)) := by
  induction h with
  | nil => rfl
  | @cons d x ds xs hx _ ih =>
    have hd := hw d List.mem_cons_self
    simp only [List.zipWith_cons_cons, List.flatten_cons, List.flatMap_cons]
    rw [vec_append_affine, ih (fun b hb => hw b (List.mem_cons_of_mem _ hb))
      (fun b hb => hu b (List.mem_cons_of_mem _ hb)), base_unnormalize_eq (hu d List.mem_cons_self)]
    · rw [(uslopes_length ho hd).1, hx]
    · rw [center_length ho hd, hx]

theorem flatMap_len {ds : List Base} (F : Base → Vec) (h : ∀ d ∈ ds, (F d).length = d.len) :
    (ds.flatMap F).length = (Dom.tensor ds).len := by
  simp only [Dom.len]
  rw [List.length_flatMap]
  congr 1
  exact List.map_congr_left h

theorem dom_lengths {fb : CornerOracle} (ho : OracleLen fb) {D : Dom} (hD : D.WF) :
    (D.uslopes fb).length = D.len ∧ (domCenter fb D).length = D.len := by
  cases D with
  | base d => exact ⟨(uslopes_length ho hD).1, center_length ho hD⟩
  | tensor ds =>
    exact ⟨flatMap_len _ (fun d hd => (uslopes_length ho (hD.2 d hd)).1),
      flatMap_len _ (fun d hd => center_length ho (hD.2 d hd))⟩

theorem dom_unnormalize_affine {fb : CornerOracle} (ho : OracleLen fb) {D : Dom} (hD : D.WF)
    (hu : NoUnbounded D) {z : Vec} (hz : z.length = D.len) :
    D.unnormalize fb z = Vec.add (Vec.mul (D.uslopes fb) z) (domCenter fb D) := by
  cases D with
  | base d => exact base_unnormalize_eq hu z
  | tensor ds =>
    obtain ⟨xs, h, rfl⟩ := pieces_exist ds z hz
    rw [(tensor_normalize_pieces h fb).2, pieces_affine ho hD.2 hu h]
    rfl

theorem affine_set (s c z : Vec) (hs : s.length = z.length) (hc : c.length = z.length) (k : ℕ) (t : ℝ) :
    Vec.add (Vec.mul s (z.set k t)) c = (Vec.add (Vec.mul s z) c).set k (s.getD k 0 * t + c.getD k 0) := by
  induction z generalizing s c k with
  | nil =>
    cases s with
    | nil => simp
    | cons a s => simp at hs
  | cons b z ih =>
    cases s with
    | nil => simp at hs
    | cons a s =>
      cases c with
      | nil => simp at hc
      | cons d c =>
        cases k with
        | zero => simp
        | succ k =>
          simp only [List.set_cons_succ, Vec.mul_cons, Vec.add_cons, List.getD_cons_succ]
          rw [ih s c (by simpa using hs) (by simpa using hc)]

theorem affine_getD (s c z : Vec) (hs : s.length = z.length) (hc : c.length = z.length) (k : ℕ) (hk : k < z.length) :
    (Vec.add (Vec.mul s z) c).getD k 0 = s.getD k 0 * z.getD k 0 + c.getD k 0 := by
  induction z generalizing s c k with
  | nil => simp at hk
  | cons b z ih =>
    cases s with
    | nil => simp at hs
    | cons a s =>
      cases c with
      | nil => simp at hc
      | cons d c =>
        cases k with
        | zero => simp
        | succ k =>
          simp only [Vec.mul_cons, Vec.add_cons, List.getD_cons_succ]
          exact ih s c (by simpa using hs) (by simpa using hc) k (by simpa using hk)

theorem mul_getD (s z : Vec) (hs : s.length = z.length) (k : ℕ) (hk : k < z.length) :
    (Vec.mul s z).getD k 0 = s.getD k 0 * z.getD k 0 := by
  induction z generalizing s k with
  | nil => simp at hk
  | cons b z ih =>
    cases s with
    | nil => simp at hs
    | cons a s =>
      cases k with
      | zero => simp
      | succ k => simpa using ih s (by simpa using hs) k (by simpa using hk)

/-- **Chain rule** (C53): if `g` is the gradient of `φ` at the application point, then `D g` is the gradient
of `z ↦ φ(unnormalize(z))`, for every domain (including tensor products) that can be normalized. -/
theorem grad_chain {fb : CornerOracle} (ho : OracleLen fb) {D : Dom} (hD : D.WF) (hu : NoUnbounded D)
    {z : Vec} (hz : z.length = D.len) {φ : Vec → ℝ} {g : Vec} (hg : IsGradAt φ (D.unnormalize fb z) g) :
    IsGradAt (fun w => φ (D.unnormalize fb w)) z (Vec.mul (D.uslopes fb) g) := by
  obtain ⟨l1, l2⟩ := dom_lengths ho hD
  have lz : (D.unnormalize fb z).length = z.length := by
    rw [(normalize_inverse fb ho D hD z hz).2.2.2, hz]
  obtain ⟨hl, hd⟩ := hg
  rw [lz] at hl hd
  refine ⟨by rw [Vec.length_mul, l1, hl, hz, min_self], ?_⟩
  intro k hk
  have h1 := hd k hk
  rw [dom_unnormalize_affine ho hD hu hz] at h1
  rw [affine_getD _ _ _ (by omega) (by omega) k hk] at h1
  rw [mul_getD _ _ (by omega) k (by omega)]
  have h2 : HasDerivAt (fun t : ℝ => (D.uslopes fb).getD k 0 * t + (domCenter fb D).getD k 0)
      ((D.uslopes fb).getD k 0) (z.getD k 0) := by
    simpa using ((hasDerivAt_id (z.getD k 0)).const_mul ((D.uslopes fb).getD k 0)).add_const ((domCenter fb D).getD k 0)
  have h3 := HasDerivAt.comp (z.getD k 0) h1 h2
  rw [mul_comm]
  refine h3.congr_of_eventuallyEq (Filter.Eventually.of_forall (fun t => ?_))
  simp only [Function.comp]
  rw [dom_unnormalize_affine ho hD hu (by simpa using hz), affine_set _ _ _ (by omega) (by omega)]

/-! ## Layout -/

theorem shapeGrad_pack (m p : ℕ) (X : In) (J : Vec → List Vec) (hX : X.rows ≠ [])
    (hp : ∀ z ∈ X.rows, (J z).length = p) :
    shapeGrad m X (X.rows.map J) = .ok (packGrad p J X) := by
  cases X with
  | one z =>
    have := hp z (by simp [In.rows])
    simp only [In.rows, List.map_cons, List.map_nil, shapeGrad, packGrad, this, if_true]
    by_cases h : p = 1
    · simp [h]
    · simp [h]
  | many Z =>
    cases Z with
    | nil => simp [In.rows] at hX
    | cons z Z =>
      have := hp z (by simp [In.rows])
      simp only [In.rows, List.map_cons, shapeGrad, packGrad, this]
      by_cases h : p = 1
      · simp [h]
      · simp [h]

theorem stack3_ok {T : List (List Vec)} (h : T ≠ []) (hl : ∀ v ∈ T, ∀ w ∈ T, v.length = w.length) :
    stack3 T = .ok T := by
  cases T with
  | nil => exact absurd rfl h
  | cons v vs =>
    simp only [stack3]
    rw [if_pos]
    simp only [List.all_eq_true, decide_eq_true_eq]
    intro w hw
    exact hl w (List.mem_cons_of_mem _ hw) v List.mem_cons_self

theorem transpose102_map {β : Type} (X : List β) (rs : List (β → Vec)) :
    transpose102 X.length (rs.map (fun r => X.map r)) = X.map (fun x => rs.map (fun r => r x)) := by
  unfold transpose102
  apply List.ext_getElem
  · simp
  · intro i h1 h2
    simp only [List.length_map, List.length_range] at h1 h2
    simp only [List.getElem_map, List.getElem_range, List.map_map]
    refine List.map_congr_left (fun r _ => ?_)
    simp only [Function.comp, List.getD_eq_getElem?_getD, List.getElem?_map,
      List.getElem?_eq_getElem h2, Option.map_some, Option.getD_some]

theorem rows_map_ne {X : In} (h : X.rows ≠ []) (u : Vec → Vec) : X.rows.map u ≠ [] := by simpa using h

/-- The per-point path shared by user gradients and `return_grad`: stacking per-point Jacobians. -/
theorem pointwise_grad {γ : Type} (m p : ℕ) (s : Vec) (u : Vec → Vec) (X : In) (hX : X.rows ≠ []) (gs : List γ)
    (J : γ → Vec → List Vec) (hp0 : 0 < p)
    (hp : ∀ x, (gs.flatMap (fun g => J g x)).length = p)
    (hw : ∀ g ∈ gs, ∀ x, ∀ r ∈ J g x, r.length = m) :
    (match sequence ((X.rows.map u).map (fun x => vstack2 (gs.map (fun g => J g x)))) with
      | .error e => Except.error e
      | .ok T => match stack3 T with
        | .error e => Except.error e
        | .ok T => shapeGrad m X (dotD s T)) =
      .ok (packGrad p (fun z => (gs.flatMap (fun g => J g (u z))).map (Vec.mul s)) X) := by
  rw [sequence_map_ok _ _ (fun x => gs.flatMap (fun g => J g x))]
  · simp only
    rw [stack3_ok (by simpa using hX)]
    · simp only [dotD, List.map_map]
      have := shapeGrad_pack m p X (fun z => (gs.flatMap (fun g => J g (u z))).map (Vec.mul s)) hX (fun z _ => by simp [hp])
      exact this
    · intro v hv w hw'
      obtain ⟨x, -, rfl⟩ := List.mem_map.1 hv
      obtain ⟨y, -, rfl⟩ := List.mem_map.1 hw'
      rw [hp, hp]
  · intro x _
    unfold vstack2
    rw [← List.flatMap_def, vstack1_ok]
    · intro h
      have := hp x
      rw [h] at this
      simp at this
      omega
    · intro v hv w hw'
      obtain ⟨g, hg, h1⟩ := List.mem_flatMap.1 hv
      obtain ⟨g', hg', h2⟩ := List.mem_flatMap.1 hw'
      rw [hw g hg x v h1, hw g' hg' x w h2]

/-- **C53**, user gradients, not vectorized: the result is the scaled Jacobian in the documented layout. -/
theorem grad_user_plain (f : Fn V) (h : ℝ) (hfd : f.fdGrad = false) (G : List (UserGrad V)) (hG : f.grads = some G)
    (hvec : f.vectorized = false) (X : In) (hX : X.rows ≠ []) (kw : Kw V) (p : ℕ) (hp0 : 0 < p)
    (hp : ∀ x, (G.flatMap (fun g => g.one x (merge f.kw kw))).length = p)
    (hw : ∀ g ∈ G, ∀ x, ∀ r ∈ g.one x (merge f.kw kw), r.length = f.dom.len) :
    f.grad h X kw = .ok (packGrad p (fun z => (G.flatMap (fun g =>
      g.one (f.dom.unnormalize f.fb z) (merge f.kw kw))).map (Vec.mul (f.dom.uslopes f.fb))) X) := by
  simp only [Fn.grad, hfd, hG, hvec, Bool.false_eq_true, if_false]
  exact pointwise_grad f.dom.len p _ (f.dom.unnormalize f.fb) X hX G (fun g x => g.one x (merge f.kw kw)) hp0 hp hw

/-- **C53**, gradients returned by the functions, not vectorized. -/
theorem grad_return_plain (f : Fn V) (h : ℝ) (hfd : f.fdGrad = false) (hG : f.grads = none) (hr : f.returnGrad = true)
    (hvec : f.vectorized = false) (X : In) (hX : X.rows ≠ []) (kw : Kw V) (p : ℕ) (hp0 : 0 < p)
    (hp : ∀ x, (f.funs.flatMap (fun g => (g.oneG x (merge f.kw kw)).2)).length = p)
    (hw : ∀ g ∈ f.funs, ∀ x, ∀ r ∈ (g.oneG x (merge f.kw kw)).2, r.length = f.dom.len) :
    f.grad h X kw = .ok (packGrad p (fun z => (f.funs.flatMap (fun g =>
      (g.oneG (f.dom.unnormalize f.fb z) (merge f.kw kw)).2)).map (Vec.mul (f.dom.uslopes f.fb))) X) := by
  simp only [Fn.grad, hfd, hG, hvec, hr, Bool.false_eq_true, if_false, if_true]
  exact pointwise_grad f.dom.len p _ (f.dom.unnormalize f.fb) X hX f.funs (fun g x => (g.oneG x (merge f.kw kw)).2) hp0 hp hw

/-- **C53**, user gradients, vectorized: if each gradient function maps rows to gradients (`r g` at each
point) the result has the same layout as without vectorization. -/
theorem grad_user_vectorized (f : Fn V) (h : ℝ) (hfd : f.fdGrad = false) (G : List (UserGrad V)) (hG : f.grads = some G)
    (hne : G ≠ []) (hvec : f.vectorized = true) (X : In) (hX : X.rows ≠ []) (kw : Kw V)
    (r : UserGrad V → Vec → Vec) (hr : ∀ g ∈ G, ∀ Y, g.many Y (merge f.kw kw) = Y.map (r g)) :
    f.grad h X kw = .ok (packGrad G.length (fun z => (G.map (fun g =>
      r g (f.dom.unnormalize f.fb z))).map (Vec.mul (f.dom.uslopes f.fb))) X) := by
  simp only [Fn.grad, hfd, hG, hvec, Bool.false_eq_true, if_false, if_true]
  rw [List.map_congr_left (fun g hg => hr g hg (X.rows.map (f.dom.unnormalize f.fb)))]
  rw [stack3_ok (by simpa using hne)]
  · simp only
    have e0 : ((G.map (fun g => (X.rows.map (f.dom.unnormalize f.fb)).map (r g))).headD []).length =
        (X.rows.map (f.dom.unnormalize f.fb)).length := by
      cases G with
      | nil => exact absurd rfl hne
      | cons g G => simp
    rw [e0]
    have e1 : G.map (fun g => (X.rows.map (f.dom.unnormalize f.fb)).map (r g)) =
        (G.map r).map (fun q => (X.rows.map (f.dom.unnormalize f.fb)).map q) := by
      rw [List.map_map]; rfl
    rw [e1, transpose102_map]
    simp only [dotD, List.map_map]
    have := shapeGrad_pack f.dom.len G.length X
      (fun z => (G.map (fun g => r g (f.dom.unnormalize f.fb z))).map (Vec.mul (f.dom.uslopes f.fb))) hX
      (fun z _ => by simp)
    simp only [Function.comp_def, List.map_map] at this ⊢
    exact this
  · intro v hv w hw
    obtain ⟨g, -, rfl⟩ := List.mem_map.1 hv
    obtain ⟨g', -, rfl⟩ := List.mem_map.1 hw
    simp

/-- **C53**, values and gradients together, vectorized: the gradients are in the documented layout. -/
theorem callG_grad_vectorized (f : Fn V) (hne : f.funs ≠ [])
    (hvec : f.vectorized = true) (X : In) (hX : X.rows ≠ []) (kw : Kw V)
    (r : UserFun V → Vec → Vec) (hr : ∀ g ∈ f.funs, ∀ Y, (g.manyG Y (merge f.kw kw)).2 = Y.map (r g))
    (a : Arr) (G : Grad) (h : f.callG X kw = .ok (a, G)) :
    G = packGrad f.funs.length (fun z => (f.funs.map (fun g =>
      r g (f.dom.unnormalize f.fb z))).map (Vec.mul (f.dom.uslopes f.fb))) X := by
  simp only [Fn.callG, hvec, if_true] at h
  rw [List.map_congr_left (fun g hg => hr g hg (X.rows.map (f.dom.unnormalize f.fb)))] at h
  rw [stack3_ok (by simpa using hne)] at h
  · split at h
    · cases h
    · rename_i fX _
      have e1 : f.funs.map (fun g => (X.rows.map (f.dom.unnormalize f.fb)).map (r g)) =
          (f.funs.map r).map (fun q => (X.rows.map (f.dom.unnormalize f.fb)).map q) := by
        rw [List.map_map]; rfl
      simp only at h
      rw [e1, transpose102_map] at h
      have e2 : dotD (f.dom.uslopes f.fb) ((X.rows.map (f.dom.unnormalize f.fb)).map
          (fun x => (f.funs.map r).map (fun r => r x))) =
          X.rows.map (fun z => (f.funs.map (fun g => r g (f.dom.unnormalize f.fb z))).map (Vec.mul (f.dom.uslopes f.fb))) := by
        simp [dotD, Function.comp_def]
      rw [e2, shapeGrad_pack f.dom.len f.funs.length X _ hX (fun z _ => by simp)] at h
      simp only [Except.map, Except.ok.injEq, Prod.mk.injEq] at h
      exact h.2.symm
  · intro v hv w hw
    obtain ⟨g, -, rfl⟩ := List.mem_map.1 hv
    obtain ⟨g', -, rfl⟩ := List.mem_map.1 hw
    simp

/-- **C53 fails for `grad` with vectorized functions that return gradients**: for two functions at one
point the call raises, and for one function at two points the result has an extra leading axis (the
axes are [function, sample, dimension]). -/
theorem grad_return_vectorized_false (h : ℝ) :
    (twoFns true).grad h (.one [2]) (fun _ => none) = .error .valueError ∧
    (⟨[proj0 3], none, false, true, fun _ => none, true, unitBox, infOracle⟩ : Fn ℝ).grad h (.many [[2], [5]]) (fun _ => none) =
      .ok (.ten [[[3], [3]]]) ∧
    (⟨[proj0 3], none, false, false, fun _ => none, true, unitBox, infOracle⟩ : Fn ℝ).grad h (.many [[2], [5]]) (fun _ => none) =
      .ok (.mat [[3], [3]]) := by
  refine ⟨?_, ?_, ?_⟩
  · simp [Fn.grad, twoFns, In.rows, proj0, stack3, dotD, shapeGrad]
  · simp [Fn.grad, In.rows, proj0, stack3, dotD, shapeGrad, unitBox_slopes]
  · simp [Fn.grad, In.rows, proj0, stack3, vstack2, vstack1, sequence, dotD, shapeGrad, unitBox_slopes]

/-- `grad` with vectorized functions that return gradients: one function at one point is right. -/
theorem grad_return_vectorized_partial (f : Fn V) (h : ℝ) (hfd : f.fdGrad = false) (hG : f.grads = none)
    (hr : f.returnGrad = true) (hvec : f.vectorized = true) (g : UserFun V) (hf : f.funs = [g]) (kw : Kw V) (z : Vec)
    (r : Vec → Vec) (hg : ∀ Y, (g.manyG Y (merge f.kw kw)).2 = Y.map r) :
    f.grad h (.one z) kw = .ok (.vec (Vec.mul (f.dom.uslopes f.fb) (r (f.dom.unnormalize f.fb z)))) := by
  simp [Fn.grad, hfd, hG, hr, hvec, hf, In.rows, hg, stack3, dotD, shapeGrad]

/-- Without any source of gradients the call raises. -/
theorem grad_not_defined (f : Fn V) (h : ℝ) (hfd : f.fdGrad = false) (hG : f.grads = none) (hr : f.returnGrad = false)
    (X : In) (kw : Kw V) : f.grad h X kw = .error .notImplemented := by
  simp [Fn.grad, hfd, hG, hr]

theorem flatMap_singleton' {α β : Type} (l : List α) (F : α → β) : l.flatMap (fun a => [F a]) = l.map F := by
  induction l with
  | nil => rfl
  | cons a l ih => simp [List.flatMap_cons, ih]

/-- **C53** for user gradients at one point: the `i`-th row of the returned gradient is the gradient of the
`i`-th component of what `f` evaluates to, in normalized coordinates (scalar functions, vectorized or not). -/
theorem grad_one_is_gradient (f : Fn V) (h : ℝ) (hfd : f.fdGrad = false) (G : List (UserGrad V)) (hG : f.grads = some G)
    (hf : f.funs ≠ []) (ho : OracleLen f.fb) (hD : f.dom.WF) (hu : NoUnbounded f.dom) (kw : Kw V) {z : Vec}
    (hz : z.length = f.dom.len)
    (val : UserFun V → Vec → ℝ) (hval : ∀ g ∈ f.funs, ∀ x, g.one x (merge f.kw kw) = [val g x])
    (r : UserGrad V → Vec → Vec)
    (hone : ∀ g ∈ G, ∀ x, g.one x (merge f.kw kw) = [r g x] ∧ (r g x).length = f.dom.len)
    (hmany : ∀ g ∈ G, ∀ Y, g.many Y (merge f.kw kw) = Y.map (r g))
    (hder : List.Forall₂ (fun φ g => IsGradAt (val φ) (f.dom.unnormalize f.fb z) (r g (f.dom.unnormalize f.fb z))) f.funs G) :
    ∃ rows : List Vec, f.grad h (.one z) kw = .ok (packGrad G.length (fun _ => rows) (.one z)) ∧
      rows.length = f.funs.length ∧
      ∀ i, i < f.funs.length → IsGradAt (fun w => (valueAt f kw w).getD i 0) z (rows.getD i []) := by
  have hlen : f.funs.length = G.length := hder.length_eq
  have hne : G ≠ [] := by
    intro h0
    rw [h0] at hlen
    exact hf (by simpa using hlen)
  refine ⟨G.map (fun g => Vec.mul (f.dom.uslopes f.fb) (r g (f.dom.unnormalize f.fb z))), ?_, by simp [hlen], ?_⟩
  · by_cases hvec : f.vectorized = true
    · rw [grad_user_vectorized f h hfd G hG hne hvec _ (by simp [In.rows]) kw r hmany]
      simp [packGrad, Function.comp_def]
    · have e : ∀ x, G.flatMap (fun g => g.one x (merge f.kw kw)) = G.map (fun g => r g x) := by
        intro x
        rw [List.flatMap_def, List.map_congr_left (fun g hg => (hone g hg x).1), ← List.flatMap_def]
        exact flatMap_singleton' G (fun g => r g x)
      rw [grad_user_plain f h hfd G hG (by simpa using hvec) _ (by simp [In.rows]) kw G.length
        (List.length_pos_of_ne_nil hne) (fun x => by rw [e]; simp)]
      · simp only [packGrad, e, List.map_map, Function.comp_def]
      · intro g hg x q hq
        rw [(hone g hg x).1, List.mem_singleton] at hq
        subst hq
        exact (hone g hg x).2
  · intro i hi
    have hv : ∀ w, valueAt f kw w = f.funs.map (fun g => val g (f.dom.unnormalize f.fb w)) := by
      intro w
      unfold valueAt
      rw [List.map_congr_left (fun g hg => hval g hg _), ← List.flatMap_def]
      exact flatMap_singleton' f.funs (fun g => val g (f.dom.unnormalize f.fb w))
    obtain ⟨φ, hφ⟩ : ∃ φ, f.funs[i]? = some φ := ⟨_, List.getElem?_eq_getElem hi⟩
    obtain ⟨g, hg⟩ : ∃ g, G[i]? = some g := ⟨_, List.getElem?_eq_getElem (by omega)⟩
    have hd : IsGradAt (val φ) (f.dom.unnormalize f.fb z) (r g (f.dom.unnormalize f.fb z)) := by
      have hi' : i < G.length := by omega
      have e1 : f.funs[i] = φ := by simpa [List.getElem?_eq_getElem hi] using hφ
      have e2 : G[i] = g := by simpa [List.getElem?_eq_getElem hi'] using hg
      have := (List.forall₂_iff_get.1 hder).2 i hi hi'
      simpa [e1, e2] using this
    have key := grad_chain ho hD hu hz hd
    have e1 : (fun w => (valueAt f kw w).getD i 0) = fun w => val φ (f.dom.unnormalize f.fb w) := by
      funext w
      rw [hv, List.getD_eq_getElem?_getD, List.getElem?_map, hφ]; rfl
    rw [e1, List.getD_eq_getElem?_getD, List.getElem?_map, hg]
    exact key

/-- Two scalar functions of one variable with their gradients, to show the hypotheses can hold. -/
noncomputable def gradFn (vec : Bool) : Fn ℝ :=
  ⟨[proj0 1, proj0 2], some [⟨fun _ _ => [[1]], fun X _ => X.map (fun _ => [1])⟩, ⟨fun _ _ => [[2]], fun X _ => X.map (fun _ => [2])⟩],
    false, vec, fun _ => none, false, unitBox, infOracle⟩

example (vec : Bool) (h : ℝ) : (gradFn vec).grad h (.one [3]) (fun _ => none) = .ok (.mat [[1], [2]]) := by
  cases vec <;>
  simp [Fn.grad, gradFn, In.rows, stack3, vstack2, vstack1, sequence, transpose102, dotD, shapeGrad, unitBox_slopes,
    List.range_succ]

example : unitBox.WF ∧ NoUnbounded unitBox ∧ OracleLen infOracle ∧
    IsGradAt (fun x => 2 * x.getD 0 0) (unitBox.unnormalize infOracle [3]) [2] := by
  refine ⟨?_, ?_, infOracle_len, ?_⟩
  · show (Base.box _ _).acc.WF
    constructor <;> simp [Base.acc, XR.okLower, XR.okUpper]
  · simp [unitBox, NoUnbounded]
  · rw [unitBox_unnormalize]
    refine ⟨rfl, fun k hk => ?_⟩
    have : k = 0 := by simpa using hk
    subst this
    simpa using (hasDerivAt_id (3 : ℝ)).const_mul 2

end Verif.Func
