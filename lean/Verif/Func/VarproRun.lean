import Verif.Func.VarproDeriv
import Verif.Func.FinishProps
import Verif.Opt.GNProps

/-!
# Property C85: the whole search of the variable projection stays among orthonormal matrices
-/

namespace Verif.Func

open Verif.Domain Verif.Lip Verif.Opt Matrix

variable {M m n N : ℕ}

theorem unflat_flat (U : Matrix (Fin m) (Fin n) ℝ) : unflat (flat U) = U := by
  ext k l
  simp [unflat, flat]

theorem flat_unflat (v : Pt (m * n)) : flat (unflat v) = v := by
  funext p
  simp only [unflat, flat, Matrix.of_apply, Prod.mk.eta, Equiv.apply_symm_apply]

/-- What the default line search returns lies on the trajectory, or is the start. -/
theorem armijoLS_point {q : ℕ} {f : Resid q M} {T : Traj q} {g p x : Pt q} {r : LS q M} (h : armijoLS f g p x T = .ok r) :
    r.x = x ∨ ∃ t, T x p t = .ok r.x := by
  unfold armijoLS at h
  cases ha : armijo armijoDefault f g p x T none with
  | error e => rw [ha] at h; cases h
  | ok q =>
    rw [ha] at h
    obtain ⟨r', tr⟩ := q
    simp only [Except.map, Except.ok.injEq] at h
    subst h
    cases hv : f x with
    | error e =>
      unfold armijo at ha
      split at ha
      · cases ha
      · simp only [startVal, hv] at ha; cases ha
    | ok v =>
      obtain ⟨-, ⟨j, -, -, ⟨hT, -, -⟩, -⟩ | ⟨-, b, -, -⟩⟩ := armijo_spec armijoDefault f g p x T none v (Or.inr ⟨rfl, hv⟩) r' tr ha
      · exact Or.inr ⟨_, hT⟩
      · exact Or.inl b

/-- A step of the solver follows the trajectory in the direction of the solver or of the negative gradient. -/
theorem gnStep_point {q : ℕ} {a : GNArgs q M} (hls : a.ls = armijoLS) {s s' : GNState q M} {inc : Bool} (h : gnStep a s = .ok (s', inc)) :
    s'.x = s.x ∨ ∃ dx sv t, a.solver s.Fe s.fe = .ok (some dx, sv) ∧ a.T s.x (gnDir s.grad dx) t = .ok s'.x := by
  unfold gnStep at h
  split at h
  · cases h
  · cases h
  · rename_i dx0 sv hs
    simp only at h
    split at h
    · cases h
    · rename_i r hr
      split at h
      · cases h
      · rename_i Fe hF
        split at h
        · cases h
        · cases h
          simp only
          split
          · exact Or.inl rfl
          · rw [hls] at hr
            rcases armijoLS_point hr with e | ⟨t, ht⟩
            · exact Or.inl e
            · exact Or.inr ⟨dx0, sv, t, hs, ht⟩

/-- A property of the iterates kept by the trajectory in all admissible directions holds for the result. -/
theorem gn_invariant {q : ℕ} (a : GNArgs q M) (hls : a.ls = armijoLS) (P : Pt q → Prop) (D : Pt q → Pt q → Prop)
    (hT : ∀ x p t y, P x → D x p → a.T x p t = .ok y → P y)
    (hs : ∀ x J r dx sv, P x → a.F x = .ok J → a.solver J r = .ok (some dx, sv) → D x dx)
    (hg : ∀ x J v, P x → a.F x = .ok J → D x (-(Jᵀ *ᵥ v)))
    (x0 x : Pt q) (i : ℕ) (h0 : P x0) (h : gaussNewton a x0 = .ok (x, i)) : P x := by
  -- the invariant of the loop
  have step : ∀ {s s' : GNState q M} {inc : Bool}, (P s.x ∧ a.F s.x = .ok s.Fe ∧ ∃ v, s.grad = s.Feᵀ *ᵥ v) → gnStep a s = .ok (s', inc) →
      P s'.x ∧ a.F s'.x = .ok s'.Fe ∧ ∃ v, s'.grad = s'.Feᵀ *ᵥ v := by
    intro s s' inc ⟨hP, hF, v, hv⟩ hst
    obtain ⟨_, r, -, -, -, -, hF', hgr, -, -⟩ := gnStep_ok hst
    refine ⟨?_, hF', _, hgr⟩
    rcases gnStep_point hls hst with e | ⟨dx, sv, t, hdx, ht⟩
    · rw [e]; exact hP
    · refine hT _ _ _ _ hP ?_ ht
      unfold gnDir
      split
      · rw [hv]; exact hg _ _ _ hP hF
      · exact hs _ _ _ _ _ hP hF hdx
  have loop : ∀ (tol : ℝ) (k : ℕ) (s s' : GNState q M) (l : Bool), (P s.x ∧ a.F s.x = .ok s.Fe ∧ ∃ v, s.grad = s.Feᵀ *ᵥ v) →
      gnLoop a tol k s = .ok (s', l) → P s'.x := by
    intro tol k
    induction k with
    | zero =>
      intro s s' l hi hl
      unfold gnLoop at hl
      split at hl
      · cases hl
      · rename_i s1 inc hs1
        cases hl
        exact (step hi hs1).1
    | succ k ih =>
      intro s s' l hi hl
      unfold gnLoop at hl
      split at hl
      · cases hl
      · rename_i s1 inc hs1
        have h1 := step hi hs1
        split at hl
        · cases hl; exact h1.1
        · split at hl
          · cases hl; exact h1.1
          · split at hl
            · cases hl; exact h1.1
            · exact ih _ _ _ h1 hl
  by_cases hm : a.maxiter ≤ 0
  · unfold gaussNewton at h
    rw [if_pos hm] at h
    cases h
    exact h0
  · obtain ⟨s0, s, l, hs0, hl, -, rfl⟩ := gaussNewton_ok (not_le.1 hm) h
    obtain ⟨e, hi, hgr, -, -⟩ := gnStart_ok hs0
    exact loop _ _ _ _ _ ⟨by rw [e]; exact h0, hi.2, _, hgr⟩ hl

/-- The Grassmann trajectory from an orthonormal matrix in a tangent direction consists of orthonormal matrices. -/
theorem grassTraj_orthonormal (hn : n ≤ m) (svd : Matrix (Fin m) (Fin n) ℝ → TSvd m n) (hsvd : ∀ A, IsTSvd A (svd A))
    (qr : Matrix (Fin m) (Fin (min m n)) ℝ → Matrix (Fin m) (Fin (min m n)) ℝ × Matrix (Fin (min m n)) (Fin (min m n)) ℝ)
    (hqr : ∀ A, IsRQr A (qr A)) {x p y : Pt (m * n)} {t : ℝ} (hx : (unflat x)ᵀ * unflat x = 1) (hp : (unflat x)ᵀ * unflat p = 0)
    (h : grassTraj hn svd qr x p t = .ok y) : (unflat y)ᵀ * unflat y = 1 := by
  unfold grassTraj at h
  cases h
  rw [unflat_flat]
  have := (grassmann_orthonormal svd hsvd qr hqr hx hp t).2
  set G := grassmann svd qr (unflat x) (unflat p) t
  have e := Matrix.submatrix_mul_equiv Gᵀ G (finCongr (min_eq_right hn).symm) (Equiv.refl (Fin m)) (finCongr (min_eq_right hn).symm)
  rw [Equiv.coe_refl] at e
  rw [Matrix.transpose_submatrix, e, this]
  exact Matrix.submatrix_one_equiv _

/-- A gradient of a residual that does not see changes inside the subspace is tangent. -/
theorem grad_tangent {J : Matrix (Fin M) (Fin (m * n)) ℝ} (U : Matrix (Fin m) (Fin n) ℝ)
    (hnull : ∀ W : Matrix (Fin n) (Fin n) ℝ, J *ᵥ flat (U * W) = 0) (v : Pt M) : Uᵀ * unflat (-(Jᵀ *ᵥ v)) = 0 := by
  have hperp : ∀ W : Matrix (Fin n) (Fin n) ℝ, (-(Jᵀ *ᵥ v)) ⬝ᵥ flat (U * W) = 0 := by
    intro W
    rw [neg_dotProduct, mulVec_transpose, ← dotProduct_mulVec, hnull, dotProduct_zero, neg_zero]
  ext a b
  have h := hperp (Matrix.single a b 1)
  rw [flat_dot] at h
  rw [Matrix.zero_apply, Matrix.mul_apply, ← h]
  refine Finset.sum_congr rfl fun k _ => ?_
  rw [Matrix.transpose_apply, Finset.sum_eq_single b]
  · rw [Matrix.mul_single_apply_same, mul_one, mul_comm]
  · intro c _ hc
    rw [Matrix.mul_single_apply_of_ne (hbj := hc), mul_zero]
  · intro hc; exact absurd (Finset.mem_univ _) hc

/-- **C85**: started from orthonormal columns, the variable projection returns orthonormal columns, and a residual
that is not larger. Assumptions: the linear algebra routines keep their promises, the basis spans the polynomials of
degree `d`, and the samples projected by an orthonormal matrix determine the polynomial (full column rank). -/
theorem varpro_fit {d : ℕ} (hn : n ≤ m) (svdJ : Matrix (Fin M) (Fin (m * n)) ℝ → TSvd M (m * n)) (hsvdJ : ∀ A, IsTSvd A (svdJ A))
    (svdD : Matrix (Fin m) (Fin n) ℝ → TSvd m n) (hsvdD : ∀ A, IsTSvd A (svdD A))
    (qr : Matrix (Fin m) (Fin (min m n)) ℝ → Matrix (Fin m) (Fin (min m n)) ℝ × Matrix (Fin (min m n)) (Fin (min m n)) ℝ)
    (hqr : ∀ A, IsRQr A (qr A)) (mk : (Fin M → Pt n) → BasisObj n N) (hmk : ∀ Y, IsPolyBasis d (mk Y))
    (coef : Matrix (Fin M) (Fin N) ℝ → Pt M → Pt N) (dec : Matrix (Fin M) (Fin N) ℝ → VDec M N) (X : Fin M → Pt m) (fX : Pt M)
    (hcoef : ∀ U : Matrix (Fin m) (Fin n) ℝ, IsLsq (vandU (mk fun i => projY U (X i)) X U) fX (coef (vandU (mk fun i => projY U (X i)) X U) fX))
    (hfull : ∀ U : Matrix (Fin m) (Fin n) ℝ, Uᵀ * U = 1 → let V := vandU (mk fun i => projY U (X i)) X U
      FullRank V (dec V).Y (dec V).s (dec V).ZT)
    (tol tolDx : ℝ) (maxiter verbose : ℤ) (U0 : Matrix (Fin m) (Fin n) ℝ) (hU0 : U0ᵀ * U0 = 1) (x : Pt (m * n)) (i : ℕ)
    (h : gaussNewton (varproArgs hn svdJ svdD qr mk coef dec X fX tol tolDx maxiter verbose) (flat U0) = .ok (x, i)) :
    (unflat x)ᵀ * unflat x = (1 : Matrix (Fin n) (Fin n) ℝ) ∧
      nrm (varproResidual mk coef X fX (unflat x)) ≤ nrm (varproResidual mk coef X fX U0) := by
  constructor
  · refine gn_invariant _ rfl (fun x => (unflat x)ᵀ * unflat x = (1 : Matrix (Fin n) (Fin n) ℝ))
      (fun x p => (unflat x)ᵀ * unflat p = (0 : Matrix (Fin n) (Fin n) ℝ)) ?_ ?_ ?_ (flat U0) x i ?_ h
    · intro x p t y hx hp hy
      exact grassTraj_orthonormal hn svdD hsvdD qr hqr hx hp hy
    · intro x J r dx sv hx hF hdx
      simp only [varproArgs, Except.ok.injEq] at hF
      simp only [varproArgs, varproSolver, Except.ok.injEq, Prod.mk.injEq] at hdx
      obtain ⟨hdx, -⟩ := hdx
      split at hdx
      · rename_i hne
        cases hdx
        refine gnDirection_tangent (hsvdJ J) r (unflat x) ?_ fun j hj => lt_of_le_of_ne ((hsvdJ J).nonneg j) (hne j hj).symm
        intro W
        rw [← hF]
        exact varpro_null mk hmk coef X fX _ hcoef _ _ _ (hfull _ hx) W
      · cases hdx
    · intro x J v hx hF
      simp only [varproArgs, Except.ok.injEq] at hF
      refine grad_tangent (unflat x) ?_ v
      intro W
      rw [← hF]
      exact varpro_null mk hmk coef X fX _ hcoef _ _ _ (hfull _ hx) W
    · rw [unflat_flat]; exact hU0
  · obtain ⟨v, hv, hle⟩ := gn_monotone_default _ rfl (flat U0) x i (varproResidual mk coef X fX U0)
      (by simp only [varproArgs, unflat_flat]) h
    simp only [varproArgs, Except.ok.injEq] at hv
    rw [hv]
    exact hle

/-! ## The hypotheses are met -/

/-- Least squares solutions exist. -/
theorem exists_lsq (V : Matrix (Fin M) (Fin N) ℝ) (f : Pt M) : ∃ c, IsLsq V f c := by
  obtain ⟨d, hd⟩ := exists_tsvd V
  refine ⟨d.ZTᵀ *ᵥ (Matrix.diagonal (fun i => (d.s i)⁻¹) *ᵥ (d.Yᵀ *ᵥ f)), isLsq_iff.2 ?_⟩
  have hVT : Vᵀ = d.ZTᵀ * Matrix.diagonal d.s * d.Yᵀ := by
    conv_lhs => rw [hd.eq]
    rw [Matrix.transpose_mul, Matrix.transpose_mul, Matrix.diagonal_transpose, Matrix.mul_assoc]
  have hss : Matrix.diagonal d.s * (Matrix.diagonal d.s * Matrix.diagonal (fun i => (d.s i)⁻¹)) = Matrix.diagonal d.s := by
    rw [Matrix.diagonal_mul_diagonal, Matrix.diagonal_mul_diagonal]
    congr 1
    funext i
    by_cases h : d.s i = 0
    · rw [h, zero_mul]
    · rw [mul_inv_cancel₀ h, mul_one]
  have key : Vᵀ * (V * (d.ZTᵀ * (Matrix.diagonal (fun i => (d.s i)⁻¹) * d.Yᵀ))) = Vᵀ := by
    calc Vᵀ * (V * (d.ZTᵀ * (Matrix.diagonal (fun i => (d.s i)⁻¹) * d.Yᵀ)))
        = d.ZTᵀ * Matrix.diagonal d.s * d.Yᵀ * ((d.Y * Matrix.diagonal d.s * d.ZT) * (d.ZTᵀ * (Matrix.diagonal (fun i => (d.s i)⁻¹) * d.Yᵀ))) := by
          rw [hVT]
          conv_lhs => rw [hd.eq]
      _ = d.ZTᵀ * (Matrix.diagonal d.s * ((d.Yᵀ * d.Y) * (Matrix.diagonal d.s * ((d.ZT * d.ZTᵀ) * (Matrix.diagonal (fun i => (d.s i)⁻¹) * d.Yᵀ))))) := by
          simp only [Matrix.mul_assoc]
      _ = d.ZTᵀ * ((Matrix.diagonal d.s * (Matrix.diagonal d.s * Matrix.diagonal (fun i => (d.s i)⁻¹))) * d.Yᵀ) := by
          rw [hd.orthY, hd.orthZ, Matrix.one_mul, Matrix.one_mul]
          simp only [Matrix.mul_assoc]
      _ = Vᵀ := by rw [hss, hVT, Matrix.mul_assoc]
  rw [Matrix.mulVec_sub]
  simp only [Matrix.mulVec_mulVec, Matrix.mul_assoc]
  rw [key, sub_self]

/-- The polynomials `1, y` of degree at most one in one variable. -/
def linBasis : BasisObj 1 2 where
  V := fun y => ![1, y 0]
  DV := fun _ => ![![0], ![1]]
  DDV := fun _ => ![!![0], !![0]]

theorem linBasis_poly : IsPolyBasis 1 linBasis := by
  refine ⟨![1, MvPolynomial.X 0], ?_, ?_, ?_⟩
  · intro y j
    fin_cases j <;> simp [linBasis]
  · intro y j l
    fin_cases j <;> fin_cases l <;> simp [linBasis]
  · apply le_antisymm
    · rw [Submodule.span_le]
      rintro _ ⟨j, rfl⟩
      fin_cases j
      · simp [MvPolynomial.mem_restrictTotalDegree]
      · simp [MvPolynomial.mem_restrictTotalDegree]
    · intro p hp
      rw [MvPolynomial.mem_restrictTotalDegree] at hp
      rw [p.as_sum]
      refine Submodule.sum_mem _ fun s hs => ?_
      have hdeg := (MvPolynomial.le_totalDegree hs).trans hp
      have e : s = Finsupp.single 0 (s 0) := by
        refine Finsupp.ext fun i => ?_
        rw [Subsingleton.elim i 0]
        simp
      rw [e] at hdeg ⊢
      rw [Finsupp.sum_single_index rfl] at hdeg
      have h0 : (1 : MvPolynomial (Fin 1) ℝ) ∈ Submodule.span ℝ (Set.range ![1, MvPolynomial.X 0]) := Submodule.subset_span ⟨0, rfl⟩
      have h1 : (MvPolynomial.X 0 : MvPolynomial (Fin 1) ℝ) ∈ Submodule.span ℝ (Set.range ![1, MvPolynomial.X 0]) :=
        Submodule.subset_span ⟨1, rfl⟩
      interval_cases hs0 : s 0
      · have := Submodule.smul_mem _ (MvPolynomial.coeff (Finsupp.single 0 0) p) h0
        rwa [MvPolynomial.smul_eq_C_mul, mul_one, MvPolynomial.C_apply, ← Finsupp.single_zero (0 : Fin 1)] at this
      · have := Submodule.smul_mem _ (MvPolynomial.coeff (Finsupp.single 0 1) p) h1
        rwa [MvPolynomial.smul_eq_C_mul, MvPolynomial.X, MvPolynomial.C_mul_monomial, mul_one] at this

/-- A decomposition of an injective matrix has no vanishing singular value. -/
theorem tsvd_ne_zero (hN : N ≤ M) {V : Matrix (Fin M) (Fin N) ℝ} (hV : ∀ c, V *ᵥ c = 0 → c = 0) {d : TSvd M N} (hd : IsTSvd V d)
    (i : Fin (min M N)) : d.s i ≠ 0 := by
  intro hs
  have h1 : V *ᵥ (d.ZT i) = 0 := by
    have e : V * d.ZTᵀ = d.Y * Matrix.diagonal d.s := by
      conv_lhs => rw [hd.eq]
      rw [Matrix.mul_assoc, hd.orthZ, Matrix.mul_one]
    funext a
    have := congrFun (congrFun e a) i
    rw [Matrix.mul_diagonal, hs, mul_zero] at this
    exact this
  have h2 := hV _ h1
  have h3 := congrFun (congrFun hd.orthZ i) i
  rw [Matrix.one_apply_eq, Matrix.mul_apply] at h3
  simp only [Matrix.transpose_apply, h2, Pi.zero_apply, mul_zero, Finset.sum_const_zero] at h3
  exact zero_ne_one h3

/-- The samples `(0,0), (1,0), (0,1)`. -/
def triX : Fin 3 → Pt 2 := ![![0, 0], ![1, 0], ![0, 1]]

theorem tri_injective (U : Matrix (Fin 2) (Fin 1) ℝ) (hU : Uᵀ * U = 1) (c : Pt 2) (h : vandU linBasis triX U *ᵥ c = 0) : c = 0 := by
  have e0 := congrFun h 0
  have e1 := congrFun h 1
  have e2 := congrFun h 2
  have hU' := congrFun (congrFun hU 0) 0
  simp [vandU, linBasis, projY, triX, Matrix.mulVec, dotProduct, Fin.sum_univ_two] at e0 e1 e2
  rw [Matrix.mul_apply, Fin.sum_univ_two, Matrix.one_apply_eq, Matrix.transpose_apply, Matrix.transpose_apply] at hU'
  rw [e0, zero_add] at e1 e2
  have hc : c 1 = 0 := by
    have : c 1 * (U 0 0 * U 0 0 + U 1 0 * U 1 0) = 0 := by
      rw [mul_add]
      have a1 : c 1 * (U 0 0 * U 0 0) = (U 0 0 * c 1) * U 0 0 := by ring
      have a2 : c 1 * (U 1 0 * U 1 0) = (U 1 0 * c 1) * U 1 0 := by ring
      rw [a1, a2, e1, e2, zero_mul, zero_mul, add_zero]
    rwa [hU', mul_one] at this
  funext i
  fin_cases i
  · exact e0
  · exact hc

/-- The hypotheses of `varpro_fit` can be met: two dimensional samples, one ridge direction, linear profile. -/
example (fX : Pt 3) : ∃ (svdJ : Matrix (Fin 3) (Fin (2 * 1)) ℝ → TSvd 3 (2 * 1)) (svdD : Matrix (Fin 2) (Fin 1) ℝ → TSvd 2 1)
    (qr : Matrix (Fin 2) (Fin (min 2 1)) ℝ → Matrix (Fin 2) (Fin (min 2 1)) ℝ × Matrix (Fin (min 2 1)) (Fin (min 2 1)) ℝ)
    (coef : Matrix (Fin 3) (Fin 2) ℝ → Pt 3 → Pt 2) (dec : Matrix (Fin 3) (Fin 2) ℝ → VDec 3 2),
    (∀ A, IsTSvd A (svdJ A)) ∧ (∀ A, IsTSvd A (svdD A)) ∧ (∀ A, IsRQr A (qr A)) ∧ IsPolyBasis 1 linBasis ∧
    (∀ U : Matrix (Fin 2) (Fin 1) ℝ, IsLsq (vandU linBasis triX U) fX (coef (vandU linBasis triX U) fX)) ∧
    ∀ U : Matrix (Fin 2) (Fin 1) ℝ, Uᵀ * U = 1 → let V := vandU linBasis triX U
      FullRank V (dec V).Y (dec V).s (dec V).ZT := by
  choose svdJ hJ using fun A : Matrix (Fin 3) (Fin (2 * 1)) ℝ => exists_tsvd A
  choose svdD hD using fun A : Matrix (Fin 2) (Fin 1) ℝ => exists_tsvd A
  choose svdV hV using fun A : Matrix (Fin 3) (Fin 2) ℝ => exists_tsvd A
  choose qr hqr using fun A : Matrix (Fin 2) (Fin (min 2 1)) ℝ => exists_rqr (by norm_num) A
  choose coef hcoef using fun A : Matrix (Fin 3) (Fin 2) ℝ => exists_lsq A
  refine ⟨svdJ, svdD, qr, coef, fun V => ⟨_, (svdV V).Y, (svdV V).s, (svdV V).ZT⟩, hJ, hD, hqr, linBasis_poly, fun U => hcoef _ _, ?_⟩
  intro U hU
  exact (hV _).fullRank (by norm_num) (tsvd_ne_zero (by norm_num) (tri_injective U hU) (hV _))

/-- **C85**, a limit of `orth`: a matrix with a vanishing column is not orthonormalized. -/
theorem orth_zero_false (hn : 0 < n) {d : Matrix (Fin m) (Fin n) ℝ × Matrix (Fin n) (Fin n) ℝ} (hd : IsRQr 0 d) :
    (orthStep d)ᵀ * orthStep d ≠ 1 := by
  intro h
  have := (orth_orthonormal hd).1 h (fun _ => 1) (Matrix.zero_mulVec _)
  exact one_ne_zero (congrFun this ⟨0, hn⟩)

end Verif.Func
