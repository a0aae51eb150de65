import Verif.Misc.ActiveRidge
import Verif.Misc.QuadProps
import Verif.Misc.SvdExists
import Verif.Lipschitz.FitExists
import Mathlib.Algebra.MvPolynomial.Funext

/-!
# C134: active subspaces of polynomials are exact

`ActiveSubspace.fit_function(fun, N)` on a box with enough points: the matrix `C` is the integral of the documentation, its null space consists of the
directions in which the polynomial is constant, and the polynomial is a function of the reported directions.
-/

namespace Verif.Misc

open Verif Verif.Domain Verif.Lip Matrix MeasureTheory

variable {m k : ℕ}

/-- `X, w = fun.domain.quadrature_rule(N)`, subspace.py 350: the default method; a value `None` cannot be unpacked (`TypeError`), and so is a loop that has not
ended after `fuel` rounds. -/
noncomputable def domainRule (m : ℕ) (eigh : EighAll) (D : QDom) (fuel N : ℕ) : Except Err (List (Pt m) × List ℝ) :=
  match quadRule eigh D N .auto fuel with
  | some (.ok (some (X, w))) => .ok (X.map (toPt m), w)
  | some (.error e) => .error e
  | _ => .error .typeError

/-- The gradient of a polynomial. -/
noncomputable def gradP (P : MvPolynomial (Fin m) ℝ) (x : Pt m) : Pt m := fun i => MvPolynomial.eval x (MvPolynomial.pderiv i P)

theorem gradP_of_isGrad (P : MvPolynomial (Fin m) ℝ) (x g : Pt m) (h : Func.IsGrad (fun y => MvPolynomial.eval y P) x g) : g = gradP P x := by
  funext i
  have h1 : HasDerivAt (fun t : ℝ => x + t • (Pi.single i 1 : Pt m)) (Pi.single i 1) 0 := by
    simpa using ((hasDerivAt_id (0 : ℝ)).smul_const (Pi.single i 1 : Pt m)).const_add x
  have h2 : HasDerivAt (fun t : ℝ => MvPolynomial.eval (x + t • (Pi.single i 1 : Pt m)) P) (g ⬝ᵥ Pi.single i 1) 0 := by
    have h' : HasFDerivAt (fun y => MvPolynomial.eval y P) (Func.dotL g) (x + (0 : ℝ) • (Pi.single i 1 : Pt m)) := by simpa [Func.IsGrad] using h
    exact h'.comp_hasDerivAt (0 : ℝ) h1
  have h3 := h2.unique (Func.hasDerivAt_poly P x (Pi.single i 1))
  simpa [Pi.single_apply, gradP] using h3

theorem totalDegree_pderiv (P : MvPolynomial (Fin m) ℝ) (i : Fin m) : (MvPolynomial.pderiv i P).totalDegree ≤ P.totalDegree - 1 := by
  refine Finset.sup_le fun s hs => ?_
  rw [MvPolynomial.mem_support_iff, MvPolynomial.coeff_pderiv] at hs
  have h1 := MvPolynomial.le_totalDegree (MvPolynomial.mem_support_iff.2 (left_ne_zero_of_mul hs))
  rw [Finsupp.sum_add_index' (fun _ => rfl) (fun _ _ _ => rfl), Finsupp.sum_single_index rfl] at h1
  omega

/-- A bounded box with interior, as the quadrature rule sees it: nothing but the bounds restricts the points. -/
structure FullBox (D : QDom) (l h : Fin m → ℝ) : Prop where
  box : QBox D l h
  lt : ∀ i, l i < h i
  trunc : D.truncNormal = false
  point : D.isPoint = false
  bounded : D.isUnbounded = false
  noEq : D.hasEq = false
  full : Set.Icc l h ⊆ D.region m

theorem applyRule_list (X : List Vec) (w : List ℝ) (f : Vec → ℝ) : applyRule X w f = ((w.zip X).map fun p => p.1 * f p.2).sum := by
  unfold applyRule
  congr 1
  induction X generalizing w with
  | nil => cases w <;> rfl
  | cons x X ih =>
    cases w with
    | nil => rfl
    | cons a w => simp only [List.zipWith_cons_cons, List.zip_cons_cons, List.map_cons, ih]

/-- **C134**: for a polynomial of total degree `d` on a box and at least `max(d, 2) ^ m` gradient samples, `fit_function` succeeds and `C` is the integral of
the outer products of the gradient that the documentation promises. -/
theorem asFitFunction_exact (svd : SvdFn m) (hsvd : SvdSpec svd) (eigh : EighAll) (he : ∀ n, EighSpec (eigh n)) (D : QDom) (l h : Fin m → ℝ)
    (hD : FullBox D l h) (hm : 1 ≤ m) (fuel N : ℕ) (hN : 2 ^ m ≤ N) (P : MvPolynomial (Fin m) ℝ) (hP : P.totalDegree ^ m ≤ N) (g : Pt m → Pt m)
    (hg : ∀ x, Func.IsGrad (fun y => MvPolynomial.eval y P) x (g x)) :
    ∃ r, asFitFunction svd (domainRule m eigh D fuel) (fun X => .ok (X.map g)) N = .ok r ∧
      ∀ i j, r.C i j = ∫ x in Set.Icc l h, g x i * g x j := by
  have hgp : g = gradP P := funext fun x => gradP_of_isGrad P x _ (hg x)
  subst hgp
  have hlen : D.lo.length = m := by rw [hD.box.lo, List.length_ofFn]
  have hN1 : 1 ≤ N := le_trans Nat.one_le_two_pow hN
  have hmeth : quadMethod D N .auto = .gauss := (quadMethod_auto hD.bounded hD.noEq (by rw [hlen]; exact hm)).2 (by rw [hlen]; exact hN)
  obtain ⟨X, w, hr, hX, hex⟩ := quadRule_full_exact he hD.box hm hD.trunc hD.point hN1 .auto hmeth hD.full fuel
  obtain ⟨hl, -, -, hw⟩ := quadRule_sound he hD.box hm hN1 hD.trunc hD.point hmeth hr
  have hq : P.totalDegree ≤ quadQ N m := (quadQ_largest hm _).1 hP
  have hq2 : 2 ≤ quadQ N m := (quadQ_largest hm _).1 hN
  have hrule : domainRule m eigh D fuel N = .ok (X.map (toPt m), w) := by rw [domainRule, hr]
  have hne : X ≠ [] := by
    intro e
    rw [e, List.length_nil] at hX
    have : 0 < quadQ N m ^ m := Nat.pow_pos (by omega)
    omega
  have hwl : w.length = ((X.map (toPt m)).map (gradP P)).length := by rw [List.length_map, List.length_map, hl]
  obtain ⟨r, hfit⟩ := (asFit_ok_iff svd ((X.map (toPt m)).map (gradP P)) w).2 ⟨by simpa using hne, hw, Or.inl hwl⟩
  refine ⟨r, by rw [asFitFunction, hrule]; exact hfit, fun i j => ?_⟩
  rw [asFit_C svd hsvd _ w hwl r hfit]
  have hpoly := hex (MvPolynomial.pderiv i P * MvPolynomial.pderiv j P) (fun a => by
    refine (MvPolynomial.degreeOf_le_totalDegree _ _).trans ((MvPolynomial.totalDegree_mul _ _).trans ?_)
    have h1 := totalDegree_pderiv P i
    have h2 := totalDegree_pderiv P j
    omega)
  simp only [map_mul] at hpoly
  change _ = ∫ x in Set.Icc l h, MvPolynomial.eval x (MvPolynomial.pderiv i P) * MvPolynomial.eval x (MvPolynomial.pderiv j P)
  rw [← hpoly, applyRule_list, List.map_map, List.zip_map_right, List.map_map]
  clear hfit hwl hpoly hw hl hne hrule hex hX hr
  generalize w.zip X = L
  induction L with
  | nil => simp
  | cons p L ih =>
    simp only [List.map_cons, List.sum_cons, Matrix.add_apply, ih]
    congr 1

/-- The directional derivative as a polynomial. -/
noncomputable def dirP (P : MvPolynomial (Fin m) ℝ) (x : Pt m) : MvPolynomial (Fin m) ℝ := ∑ i, MvPolynomial.C (x i) * MvPolynomial.pderiv i P

theorem dirP_eval (P : MvPolynomial (Fin m) ℝ) (x y : Pt m) : MvPolynomial.eval y (dirP P x) = gradP P y ⬝ᵥ x := by
  simp [dirP, dotProduct, gradP, mul_comm]

/-- A polynomial with vanishing derivative in a direction is constant in it. -/
theorem dirP_const (P : MvPolynomial (Fin m) ℝ) (x : Pt m) : dirP P x = 0 ↔ ∀ (y : Pt m) (t : ℝ), MvPolynomial.eval (y + t • x) P = MvPolynomial.eval y P := by
  have hd : ∀ (y : Pt m) (t : ℝ), HasDerivAt (fun t : ℝ => MvPolynomial.eval (y + t • x) P) (MvPolynomial.eval (y + t • x) (dirP P x)) t := by
    intro y t
    have h1 := Func.hasDerivAt_poly P (y + t • x) x
    have h2 : HasDerivAt (fun s : ℝ => s - t) 1 t := (hasDerivAt_id t).sub_const t
    have h3 := HasDerivAt.comp t (h₂ := fun u : ℝ => MvPolynomial.eval (y + t • x + u • x) P) (h := fun s : ℝ => s - t) (by simpa using h1) h2
    rw [dirP_eval]
    have e1 : ((fun u : ℝ => MvPolynomial.eval (y + t • x + u • x) P) ∘ fun s : ℝ => s - t) = fun s : ℝ => MvPolynomial.eval (y + s • x) P := by
      funext s
      simp only [Function.comp]
      congr 2
      rw [add_assoc, ← add_smul]
      congr 2
      ring
    rw [e1, mul_one] at h3
    have e2 : gradP P (y + t • x) ⬝ᵥ x = ∑ l, x l * MvPolynomial.eval (y + t • x) (MvPolynomial.pderiv l P) :=
      Finset.sum_congr rfl fun l _ => mul_comm _ _
    rw [e2]
    exact h3
  constructor
  · intro h0 y t
    have h1 : ∀ s, HasDerivAt (fun t : ℝ => MvPolynomial.eval (y + t • x) P) 0 s := fun s => by
      have := hd y s
      rwa [h0, map_zero] at this
    have := is_const_of_deriv_eq_zero (fun s => (h1 s).differentiableAt) (fun s => (h1 s).deriv) t 0
    simpa using this
  · intro hc
    refine MvPolynomial.funext fun y => ?_
    have h1 := hd y 0
    have h2 : (fun t : ℝ => MvPolynomial.eval (y + t • x) P) = fun _ => MvPolynomial.eval y P := funext fun t => hc y t
    rw [h2, zero_smul, add_zero] at h1
    rw [map_zero]
    exact h1.unique (hasDerivAt_const 0 _)

/-- A polynomial whose square integrates to zero over a box with interior is zero. -/
theorem poly_zero_of_integral (l h : Fin m → ℝ) (hlt : ∀ i, l i < h i) (R : MvPolynomial (Fin m) ℝ)
    (h0 : ∫ x in Set.Icc l h, MvPolynomial.eval x R ^ 2 = 0) : R = 0 := by
  have hc : Continuous fun x : Fin m → ℝ => MvPolynomial.eval x R ^ 2 := (MvPolynomial.continuous_eval R).pow 2
  have hint : IntegrableOn (fun x : Fin m → ℝ => MvPolynomial.eval x R ^ 2) (Set.Icc l h) := hc.continuousOn.integrableOn_compact isCompact_Icc
  have hae := (setIntegral_eq_zero_iff_of_nonneg_ae (ae_of_all _ fun x => sq_nonneg _) hint).1 h0
  refine MvPolynomial.funext_set (fun i => Set.Ioo (l i) (h i)) (fun i => Set.Ioo_infinite (hlt i)) fun x hx => ?_
  rw [map_zero]
  by_contra hne
  have hopen : IsOpen ((Set.univ.pi fun i => Set.Ioo (l i) (h i)) ∩ {x : Fin m → ℝ | MvPolynomial.eval x R ^ 2 ≠ 0}) :=
    (isOpen_set_pi Set.finite_univ fun i _ => isOpen_Ioo).inter (isOpen_ne_fun hc continuous_const)
  have hpos := hopen.measure_pos volume ⟨x, hx, pow_ne_zero 2 hne⟩
  have hz : volume ((Set.univ.pi fun i => Set.Ioo (l i) (h i)) ∩ {x : Fin m → ℝ | MvPolynomial.eval x R ^ 2 ≠ 0}) = 0 := by
    rw [Filter.EventuallyEq, ae_iff, Measure.restrict_apply₀' measurableSet_Icc.nullMeasurableSet] at hae
    refine measure_mono_null ?_ hae
    rintro y ⟨hy, hy2⟩
    refine ⟨hy2, fun i => ?_, fun i => ?_⟩
    · exact (hy i trivial).1.le
    · exact (hy i trivial).2.le
  exact hpos.ne' hz

/-- **C134**: then the null space of `C` consists exactly of the directions in which the polynomial is constant. -/
theorem asFitFunction_null (svd : SvdFn m) (hsvd : SvdSpec svd) (eigh : EighAll) (he : ∀ n, EighSpec (eigh n)) (D : QDom) (l h : Fin m → ℝ)
    (hD : FullBox D l h) (hm : 1 ≤ m) (fuel N : ℕ) (hN : 2 ^ m ≤ N) (P : MvPolynomial (Fin m) ℝ) (hP : P.totalDegree ^ m ≤ N) (g : Pt m → Pt m)
    (hg : ∀ x, Func.IsGrad (fun y => MvPolynomial.eval y P) x (g x)) (r : ASState m)
    (hr : asFitFunction svd (domainRule m eigh D fuel) (fun X => .ok (X.map g)) N = .ok r) (x : Pt m) :
    r.C *ᵥ x = 0 ↔ ∀ (y : Pt m) (t : ℝ), MvPolynomial.eval (y + t • x) P = MvPolynomial.eval y P := by
  obtain ⟨r', hr', hC⟩ := asFitFunction_exact svd hsvd eigh he D l h hD hm fuel N hN P hP g hg
  obtain rfl : r' = r := Except.ok.inj (hr'.symm.trans hr)
  have hgp : g = gradP P := funext fun x => gradP_of_isGrad P x _ (hg x)
  subst hgp
  rw [← dirP_const]
  have hi : ∀ i j, IntegrableOn (fun y => gradP P y i * gradP P y j) (Set.Icc l h) := fun i j =>
    ((MvPolynomial.continuous_eval _).mul (MvPolynomial.continuous_eval _)).continuousOn.integrableOn_compact isCompact_Icc
  have hCx : ∀ i, (r'.C *ᵥ x) i = ∫ y in Set.Icc l h, gradP P y i * MvPolynomial.eval y (dirP P x) := by
    intro i
    rw [Matrix.mulVec, dotProduct]
    simp only [hC, dirP_eval, dotProduct, Finset.mul_sum]
    rw [integral_finset_sum _ fun j _ => by
      have := (hi i j).mul_const (x j)
      simpa [mul_assoc] using this]
    refine Finset.sum_congr rfl fun j _ => ?_
    rw [← integral_mul_const]
    simp only [mul_assoc]
  constructor
  · intro h0
    refine poly_zero_of_integral l h hD.lt _ ?_
    have h1 : x ⬝ᵥ (r'.C *ᵥ x) = 0 := by rw [h0, dotProduct_zero]
    rw [← h1, dotProduct]
    simp only [hCx]
    have e : ∀ y, MvPolynomial.eval y (dirP P x) ^ 2 = ∑ i, x i * (gradP P y i * MvPolynomial.eval y (dirP P x)) := by
      intro y
      rw [sq]
      conv_lhs => rw [dirP_eval]
      rw [dotProduct, Finset.sum_mul]
      refine Finset.sum_congr rfl fun i _ => ?_
      rw [dirP_eval]
      simp only [dotProduct]
      ring
    simp only [e]
    rw [integral_finset_sum]
    · refine Finset.sum_congr rfl fun i _ => ?_
      rw [integral_const_mul]
    · intro i _
      exact (continuous_const.mul ((MvPolynomial.continuous_eval _).mul (MvPolynomial.continuous_eval _))).continuousOn.integrableOn_compact isCompact_Icc
  · intro h0
    funext i
    rw [hCx i, h0]
    simp

/-- **C134**: and the polynomial is a function of the reported directions with nonzero singular values only, unless one of them was replaced by zero by the choice
of the signs. -/
theorem asFitFunction_ridge_partial (svd : SvdFn m) (hsvd : SvdSpec svd) (eigh : EighAll) (he : ∀ n, EighSpec (eigh n)) (D : QDom) (l h : Fin m → ℝ)
    (hD : FullBox D l h) (hm : 1 ≤ m) (fuel N : ℕ) (hN : 2 ^ m ≤ N) (P : MvPolynomial (Fin m) ℝ) (hP : P.totalDegree ^ m ≤ N) (g : Pt m → Pt m)
    (hg : ∀ x, Func.IsGrad (fun y => MvPolynomial.eval y P) x (g x)) (r : ASState m)
    (hr : asFitFunction svd (domainRule m eigh D fuel) (fun X => .ok (X.map g)) N = .ok r) (hz : ∀ j : Fin m, r.s.getD j 0 ≠ 0 → ucol r.U j ≠ 0) (y z : Pt m)
    (hyz : ∀ j : Fin m, r.s.getD j 0 ≠ 0 → ucol r.U j ⬝ᵥ y = ucol r.U j ⬝ᵥ z) : MvPolynomial.eval y P = MvPolynomial.eval z P := by
  have hnull := asFitFunction_null svd hsvd eigh he D l h hD hm fuel N hN P hP g hg r hr (y - z)
  have hd : r.C *ᵥ (y - z) = 0 := by
    rw [asFitFunction] at hr
    split at hr
    · cases hr
    · rename_i X w hrule
      obtain ⟨ps, _, _, h3, rfl⟩ := asFit_ok svd _ _ r hr
      change ((asRaw svd ps).U * Matrix.diagonal (fun i : Fin m => (asRaw svd ps).s.getD i 0 ^ 2) * (asRaw svd ps).Uᵀ) *ᵥ (y - z) = 0
      have hzero : Matrix.diagonal (fun i : Fin m => (asRaw svd ps).s.getD i 0 ^ 2) *ᵥ ((asRaw svd ps).Uᵀ *ᵥ (y - z)) = 0 := by
        funext j
        rw [Matrix.mulVec_diagonal, Pi.zero_apply]
        by_cases hj : (asRaw svd ps).s.getD j 0 = 0
        · rw [hj]; ring
        · have h1 := hz j hj
          have h2 := hyz j hj
          change ucol (fixGrads (asRaw svd ps).U (X.map g)) j ≠ 0 at h1
          change ucol (fixGrads (asRaw svd ps).U (X.map g)) j ⬝ᵥ y = ucol (fixGrads (asRaw svd ps).U (X.map g)) j ⬝ᵥ z at h2
          rw [fixGrads, ucol_mul_diagonal] at h1 h2
          rw [smul_dotProduct, smul_dotProduct] at h2
          have h4 : npSign (meanGrad (X.map g) (ucol (asRaw svd ps).U j)) ≠ 0 := fun e => h1 (by rw [e, zero_smul])
          have h5 := mul_left_cancel₀ h4 h2
          have h6 : ((asRaw svd ps).Uᵀ *ᵥ (y - z)) j = ucol (asRaw svd ps).U j ⬝ᵥ (y - z) := rfl
          rw [h6, dotProduct_sub, h5, sub_self, mul_zero]
      rw [← Matrix.mulVec_mulVec, ← Matrix.mulVec_mulVec, hzero, Matrix.mulVec_zero]
  have := hnull.1 hd z 1
  simpa using this

/-! ### The signs spoil even functions -/

theorem eig_sum_zero (n : ℕ) (eigh : EighFn (n + 1)) (he : EighSpec eigh) : ∑ k, (eigh (gaussT n)).1 k = 0 := by
  obtain ⟨h1, h2⟩ := he _ (gaussT_symm n)
  have h3 : Matrix.trace (gaussT n) = 0 := by
    refine Finset.sum_eq_zero fun i _ => ?_
    simp [gaussT]
  rw [h2, Matrix.trace_mul_comm, ← Matrix.mul_assoc, h1, Matrix.one_mul, Matrix.trace_diagonal] at h3
  exact h3

/-- The box `[-1, 1]`. -/
noncomputable def segQ : QDom := boxQ (fun _ _ => []) 0 (List.ofFn fun _ : Fin 1 => (-1 : ℝ)) (List.ofFn fun _ : Fin 1 => (1 : ℝ)) (fun _ => .error .notImplemented) false

theorem segQ_full : FullBox segQ (fun _ : Fin 1 => (-1 : ℝ)) (fun _ => 1) :=
  ⟨boxQ_box _ _ (fun _ => by norm_num) _ _, fun _ => by norm_num, rfl, rfl, rfl, rfl, boxQ_full _ le_rfl _ _ _ _⟩

/-- The nodes of the rule of `[-1, 1]` add up to zero. -/
theorem segQ_sum (eigh : EighAll) (he : ∀ n, EighSpec (eigh n)) (q : ℕ) : ((quadPts eigh segQ q).map fun p => toPt 1 p.1 0).sum = 0 := by
  have hB : QBox segQ (fun _ : Fin 1 => (-1 : ℝ)) (fun _ => 1) := segQ_full.box
  rw [((quadPts_perm' hB q).map _).sum_eq, List.filter_eq_self.2, List.map_map]
  · have hc : cart (List.ofFn fun _ : Fin 1 => axisZ eigh q (-1) 1) = (axisZ eigh q (-1) 1).map fun v => [v] := by
      simp [cart, List.flatMap_singleton']
      induction axisZ eigh q (-1) 1 with
      | nil => rfl
      | cons a l ih => simp [ih]
    rw [hc, List.map_map, axisZ, List.map_ofFn, List.sum_ofFn]
    have := eig_sum_zero (q - 1) (eigh (q - 1)) (he _)
    simp only [Function.comp, pairOf, toPt, gauss]
    refine Eq.trans (Finset.sum_congr rfl fun k _ => ?_) this
    simp
  · intro p hp
    obtain ⟨r, hr, rfl⟩ := List.mem_map.1 hp
    obtain ⟨h1, h2, -⟩ := mem_tensor he hB.le hr
    refine (@decide_eq_true_eq _ (Classical.propDecidable _)).mpr ?_
    have := segQ_full.full h2
    change segQ.inside _ at this
    rwa [ofFn_toPt (by simpa [pairOf] using h1)] at this

/-- **C134**, refuted for the reported directions: for `f(x) = x²` on `[-1, 1]` and any number of samples from two on, `fit_function` reports the zero direction,
although `C` is not zero: the gradients at the quadrature nodes add up to zero, and `np.sign(0)` is zero. -/
theorem asFitFunction_square_false (svd : SvdFn 1) (hsvd : SvdSpec svd) (eigh : EighAll) (he : ∀ n, EighSpec (eigh n)) (fuel N : ℕ) (hN : 2 ≤ N) :
    (∀ x : Pt 1, Func.IsGrad (fun y => MvPolynomial.eval y (MvPolynomial.X 0 ^ 2 : MvPolynomial (Fin 1) ℝ)) x fun _ => 2 * x 0) ∧
    ∃ r, asFitFunction svd (domainRule 1 eigh segQ fuel) (fun X => .ok (X.map fun x _ => 2 * x 0)) N = .ok r ∧ r.U = 0 ∧ r.C 0 0 = 8 / 3 := by
  have hg : ∀ x : Pt 1, Func.IsGrad (fun y => MvPolynomial.eval y (MvPolynomial.X 0 ^ 2 : MvPolynomial (Fin 1) ℝ)) x fun _ => 2 * x 0 := by
    intro x
    simp only [map_pow, MvPolynomial.eval_X]
    have h1 : HasFDerivAt (fun y : Pt 1 => y 0) (ContinuousLinearMap.proj (R := ℝ) (φ := fun _ : Fin 1 => ℝ) 0) x := hasFDerivAt_apply 0 x
    have h2 := h1.pow 2
    refine h2.congr_fderiv ?_
    ext v
    simp [Func.dotL_apply, dotProduct]
  refine ⟨hg, ?_⟩
  obtain ⟨r, hr, hC⟩ := asFitFunction_exact svd hsvd eigh he segQ _ _ segQ_full le_rfl fuel N (by simpa using hN) (MvPolynomial.X 0 ^ 2)
    (by rw [pow_one]; refine (MvPolynomial.totalDegree_pow _ _).trans ?_; rw [MvPolynomial.totalDegree_X]; omega) _ hg
  refine ⟨r, hr, ?_, ?_⟩
  · rw [asFitFunction] at hr
    split at hr
    · cases hr
    · rename_i X w hrule
      refine asFit_zero svd _ _ r hr ?_
      have hmeth : quadMethod segQ N .auto = .gauss := (quadMethod_auto rfl rfl (by simp [segQ, boxQ])).2 (by simpa [segQ, boxQ] using hN)
      have hX : ∃ q, X = ((quadPts eigh segQ q).map Prod.fst).map (toPt 1) := by
        rw [domainRule] at hrule
        split at hrule
        · rename_i X' w' hq
          obtain ⟨R, hR, rfl, rfl⟩ := quadRule_gauss_inv segQ_full.trunc segQ_full.point hmeth hq
          obtain ⟨q', -, rfl, -⟩ := quadGauss_spec hR
          have := Except.ok.inj hrule
          exact ⟨q', (congrArg Prod.fst this).symm⟩
        · cases hrule
        · cases hrule
      obtain ⟨q, rfl⟩ := hX
      have hs := segQ_sum eigh he q
      rw [List.map_map, List.map_map]
      revert hs
      generalize quadPts eigh segQ q = L
      intro hs
      funext i
      have e : ∀ L : List (Vec × ℝ), (L.map (((fun (x : Pt 1) (_ : Fin 1) => 2 * x 0) ∘ toPt 1) ∘ Prod.fst)).sum i = 2 * (L.map fun p => toPt 1 p.1 0).sum := by
        intro L
        induction L with
        | nil => simp
        | cons p L ih =>
          rw [List.map_cons, List.map_cons, List.sum_cons, List.sum_cons, Pi.add_apply, ih, mul_add]
          rfl
      exact (e L).trans (by rw [hs]; simp)
  · rw [hC 0 0]
    have := box_integral_prod (m := 1) (fun _ => (-1 : ℝ)) (fun _ => 1) (fun _ => by norm_num) (fun _ t => 2 * t * (2 * t))
    simp only [Finset.univ_unique, Finset.prod_singleton] at this
    refine this.trans ?_
    have e : (fun t : ℝ => 2 * t * (2 * t)) = fun t => 4 * t ^ 2 := by funext t; ring
    rw [e, intervalIntegral.integral_const_mul, integral_pow]
    norm_num

/-- The hypotheses are met: `(x + y)²` on the square with four samples. -/
example : ∃ (svd : SvdFn 2) (eigh : EighAll) (D : QDom) (P : MvPolynomial (Fin 2) ℝ), SvdSpec svd ∧ (∀ n, EighSpec (eigh n)) ∧
    FullBox D (fun _ : Fin 2 => (-1 : ℝ)) (fun _ => 1) ∧ P = (MvPolynomial.X 0 + MvPolynomial.X 1) ^ 2 ∧ P.totalDegree ^ 2 ≤ 4 := by
  obtain ⟨svd, hsvd⟩ := exists_svd 2
  choose eigh he using fun n => exists_eigh (n + 1)
  refine ⟨svd, eigh, boxQ (fun _ _ => []) 0 (List.ofFn fun _ : Fin 2 => (-1 : ℝ)) (List.ofFn fun _ : Fin 2 => (1 : ℝ)) (fun _ => .error .notImplemented) false, _,
    hsvd, he, ⟨boxQ_box _ _ (fun _ => by norm_num) _ _, fun _ => by norm_num, rfl, rfl, rfl, rfl, boxQ_full _ le_rfl _ _ _ _⟩, rfl, ?_⟩
  have h1 : (MvPolynomial.X 0 + MvPolynomial.X 1 : MvPolynomial (Fin 2) ℝ).totalDegree ≤ 1 :=
    (MvPolynomial.totalDegree_add _ _).trans (by rw [MvPolynomial.totalDegree_X, MvPolynomial.totalDegree_X]; exact le_rfl)
  have h2 := (MvPolynomial.totalDegree_pow (MvPolynomial.X 0 + MvPolynomial.X 1 : MvPolynomial (Fin 2) ℝ) 2).trans (Nat.mul_le_mul_left 2 h1)
  exact Nat.pow_le_pow_left h2 2

end Verif.Misc
