import Verif.Func.FunctionGrad

/-!
# Property C54: finite difference gradients
-/

namespace Verif.Func

open Classical Verif Verif.Domain

variable {V : Type}

theorem bump_getD (z : Vec) (i : ℕ) (h : ℝ) (hi : i < z.length) : (bump z i h).getD i 0 = z.getD i 0 + h := by
  simp [bump, List.getD_eq_getElem?_getD, hi]

/-- Inner product after changing one entry. -/
theorem dot_set (a z : Vec) (hl : a.length = z.length) (i : ℕ) (hi : i < z.length) (t : ℝ) :
    Vec.dot a (z.set i t) = Vec.dot a z + a.getD i 0 * (t - z.getD i 0) := by
  induction z generalizing a i with
  | nil => simp at hi
  | cons b z ih =>
    cases a with
    | nil => simp at hl
    | cons c a =>
      cases i with
      | zero => simp; ring
      | succ i =>
        simp only [List.set_cons_succ, Vec.dot_cons, List.getD_cons_succ]
        rw [ih a (by simpa using hl) i (by simpa using hi)]
        ring

/-- A list of reals rebuilt from its entries. -/
theorem range_getD (v : Vec) : (List.range v.length).map (fun i => v.getD i 0) = v := by
  apply List.ext_getElem
  · simp
  · intro i h1 h2
    simp [List.getD_eq_getElem?_getD, List.getElem?_eq_getElem h2]

/-- The application-coordinate function is affine: `x ↦ a·x + b` for the keywords `k`. -/
def AffineAt (g : UserFun V) (k : Kw V) (a : Vec) (b : ℝ) : Prop := ∀ x, g.one x k = [Vec.dot a x + b]

/-- **C54, exactness**: for one affine function and every step `h ≠ 0`, the finite difference gradient is
exactly the gradient `D a` of `z ↦ f(unnormalize(z))` - provided the evaluation at the base point and at
the perturbed points see the same function, i.e. `k₀ = f.kw` and the keywords of the call give the same
affine function. -/
theorem fd_affine (f : Fn V) (g : UserFun V) (hf : f.funs = [g]) (hfd : f.fdGrad = true) (ho : OracleLen f.fb)
    (hD : f.dom.WF) (hu : NoUnbounded f.dom) (h : ℝ) (hh : h ≠ 0) (kw : Kw V) (a : Vec) (b : ℝ)
    (ha : a.length = f.dom.len) (hk : AffineAt g (merge f.kw kw) a b) (hk0 : AffineAt g f.kw a b)
    (X : In) (hX : X.rows ≠ []) (hz : ∀ z ∈ X.rows, z.length = f.dom.len) :
    f.grad h X kw = .ok (packGrad 1 (fun _ => [Vec.mul (f.dom.uslopes f.fb) a]) X) := by
  obtain ⟨l1, l2⟩ := dom_lengths ho hD
  have hrow : ∀ z ∈ X.rows, f.fdRow h (merge f.kw kw) z = .ok (Vec.mul (f.dom.uslopes f.fb) a) := by
    intro z hzX
    have lz := hz z hzX
    have lu : (f.dom.unnormalize f.fb z).length = f.dom.len := (normalize_inverse f.fb ho f.dom hD z lz).2.2.2
    have m0 : merge f.kw (fun _ => none) = f.kw := by funext k; simp [merge]
    have e0 : f.eval1 z (fun _ => none) = .ok [Vec.dot a (f.dom.unnormalize f.fb z) + b] := by
      simp [Fn.eval1, hf, m0, hk0 _, hstack1]
    have e1 : ∀ w, f.eval1 w (merge f.kw kw) = .ok [Vec.dot a (f.dom.unnormalize f.fb w) + b] := by
      intro w
      simp [Fn.eval1, hf, merge_idem, hk _, hstack1]
    simp only [Fn.fdRow, e0]
    rw [sequence_map_ok _ _ (fun i => (Vec.mul (f.dom.uslopes f.fb) a).getD i 0)]
    · have lm : (Vec.mul (f.dom.uslopes f.fb) a).length = z.length := by rw [Vec.length_mul, l1, ha, lz, min_self]
      rw [← lm, range_getD]
    · intro i hi
      have hi' : i < z.length := by simpa using hi
      simp only [e1, fdEntry]
      congr 1
      rw [dom_unnormalize_affine ho hD hu (by simp [bump, lz]), dom_unnormalize_affine ho hD hu lz, bump,
        affine_set _ _ _ (by omega) (by omega), dot_set _ _ (by simp [Vec.length_add, Vec.length_mul, l1, l2, ha, lz]) _
          (by simp [Vec.length_add, Vec.length_mul, l1, l2, lz]; omega),
        affine_getD _ _ _ (by omega) (by omega) i hi', mul_getD _ _ (by omega) i (by omega)]
      field_simp
      ring
  simp only [Fn.grad, hfd, if_true]
  rw [sequence_map_ok _ _ _ hrow]
  simp only [List.map_map]
  have := shapeGrad_pack f.dom.len 1 X (fun _ => [Vec.mul (f.dom.uslopes f.fb) a]) hX (fun _ _ => rfl)
  exact this

/-- Without keyword arguments in the call, exactness holds unconditionally. -/
theorem fd_affine_no_kwargs (f : Fn V) (g : UserFun V) (hf : f.funs = [g]) (hfd : f.fdGrad = true) (ho : OracleLen f.fb)
    (hD : f.dom.WF) (hu : NoUnbounded f.dom) (h : ℝ) (hh : h ≠ 0) (a : Vec) (b : ℝ)
    (ha : a.length = f.dom.len) (hk : AffineAt g f.kw a b)
    (X : In) (hX : X.rows ≠ []) (hz : ∀ z ∈ X.rows, z.length = f.dom.len) :
    f.grad h X (fun _ => none) = .ok (packGrad 1 (fun _ => [Vec.mul (f.dom.uslopes f.fb) a]) X) := by
  have m0 : merge f.kw (fun _ => none) = f.kw := by funext k; simp [merge]
  exact fd_affine f g hf hfd ho hD hu h hh _ a b ha (by rw [m0]; exact hk) hk X hX hz

/-- A function with keyword `c` (default 0) returning the constant `c`. -/
noncomputable def constKw : UserFun ℝ where
  one := fun _ k => [(k "c").getD 0]
  many := fun X k => .flat (X.map (fun _ => (k "c").getD 0))
  oneG := fun _ k => ([(k "c").getD 0], [[0]])
  manyG := fun X k => (.flat (X.map (fun _ => (k "c").getD 0)), X.map (fun _ => [0]))

/-- `Function(lambda x, c=0: c, domain, fd_grad=True)`. -/
noncomputable def constFn : Fn ℝ :=
  ⟨[constKw], none, true, false, fun _ => none, false, unitBox, infOracle⟩

/-- **C54 fails for keyword arguments**: the constant function `c` has gradient zero whatever `c`, but
the finite difference gradient called with `c=1` is `1/h` (ten million for the step of the code): the
base value is evaluated without the keyword arguments of the call. -/
theorem fd_kwargs_false (h : ℝ) :
    (∀ k, AffineAt constKw k [0] ((k "c").getD 0)) ∧
    constFn.grad h (.one [0]) (fun s => if s = "c" then some 1 else none) = .ok (.vec [1 / h]) := by
  constructor
  · intro k x
    cases x <;> simp [constKw]
  · simp [Fn.grad, constFn, In.rows, Fn.fdRow, Fn.eval1, constKw, hstack1, merge, sequence, fdEntry, shapeGrad,
      bump, List.range_succ]

/-- Finite differences raise for more than one output. -/
theorem fd_two_outputs (f : Fn V) (hfd : f.fdGrad = true) (h : ℝ) (z : Vec) (hz : z ≠ []) (kw : Kw V)
    (hv : ∀ k w, (valueAt f k w).length ≠ 1) (hf : f.funs ≠ []) :
    f.grad h (.one z) kw = .error .valueError := by
  have he : ∀ w k, f.eval1 w k = .ok (valueAt f k w) := by
    intro w k
    unfold Fn.eval1 valueAt
    exact hstack1_ok (by simpa using hf)
  have hrow : f.fdRow h (merge f.kw kw) z = .error .valueError := by
    cases z with
    | nil => exact absurd rfl hz
    | cons a z =>
      simp only [Fn.fdRow, he, List.length_cons, List.range_succ_eq_map, List.map_cons]
      have : fdEntry h (valueAt f (merge f.kw kw) (bump (a :: z) 0 h)) (valueAt f (fun _ => none) (a :: z)) = .error .valueError := by
        have h1 := hv (merge f.kw kw) (bump (a :: z) 0 h)
        revert h1
        generalize valueAt f (merge f.kw kw) (bump (a :: z) 0 h) = v
        intro h1
        match v, h1 with
        | [], _ => rfl
        | [_], h1 => simp at h1
        | _ :: _ :: _, _ => rfl
      simp only [sequence, this]
  simp only [Fn.grad, hfd, if_true, In.rows, List.map_cons, List.map_nil, sequence, hrow]

example : ∃ f : Fn ℝ, f.fdGrad = true ∧ f.funs ≠ [] ∧ ∀ k w, (valueAt f k w).length ≠ 1 :=
  ⟨⟨[proj0 1, proj0 2], none, true, false, fun _ => none, false, unitBox, infOracle⟩, rfl, by simp,
    fun k w => by simp [valueAt, proj0]⟩

example : AffineAt (proj0 2) (fun _ => none) [2] 0 := by
  intro x
  cases x <;> simp [proj0]

/-- A gradient called on an object built with the wrong number of gradients never happens. -/
theorem mkFn_ok_iff (funs : List (UserFun V)) (dom : Dom) (fb : CornerOracle)
    (grads : Option (List (UserGrad V))) (fd vec : Bool) (kw : Kw V) (rg : Bool) :
    (∃ f, mkFn funs dom fb grads fd vec kw rg = .ok f) ↔ ∀ G, grads = some G → G.length = funs.length := by
  unfold mkFn
  cases grads with
  | none => simp
  | some G => by_cases h : G.length = funs.length <;> simp [h]

end Verif.Func
