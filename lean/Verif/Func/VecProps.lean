import Verif.Func.VecModel
import Verif.Func.VarproRun

/-!
# C101: vector valued ridge approximation
-/

namespace Verif.Func

open Verif.Domain Verif.Lip Verif.Opt Matrix

variable {M m n N K nf mm : ℕ}

/-! ## Specification -/

/-- The squared error of the ridge functions `p k (Uᵀ x)` for the outputs `k`. -/
noncomputable def ridgeErr (X : Fin M → Pt m) (fX : Fin K → Pt M) (U : Matrix (Fin m) (Fin n) ℝ) (p : Fin K → MvPolynomial (Fin n) ℝ) : ℝ :=
  ∑ k, ∑ i, (fX k i - MvPolynomial.eval (Uᵀ *ᵥ X i) (p k)) ^ 2

/-- The polynomials have total degree at most `d`. -/
def DegLe (d : ℕ) (p : Fin K → MvPolynomial (Fin n) ℝ) : Prop := ∀ k, (p k).totalDegree ≤ d

/-- What `np.linalg.qr(F, mode = 'complete')` promises: orthonormal columns, the first of which span the columns of `F`. -/
structure IsCQr (F : Matrix (Fin m) (Fin nf) ℝ) (Q : Matrix (Fin m) (Fin (nf + mm)) ℝ) : Prop where
  orth : Qᵀ * Q = 1
  span : ∃ R : Matrix (Fin nf) (Fin nf) ℝ, F = fixedPart Q * R

/-- The routine returns least squares solutions for the data. -/
def LsqFor (mk : (Fin M → Pt n) → BasisObj n N) (coef : Matrix (Fin M) (Fin N) ℝ → Pt M → Pt N) (X : Fin M → Pt m) (fX : Fin K → Pt M) : Prop :=
  ∀ (U : Matrix (Fin m) (Fin n) ℝ) k, IsLsq (vandU (mk fun i => projY U (X i)) X U) (fX k) (coef (vandU (mk fun i => projY U (X i)) X U) (fX k))

/-- The samples projected by orthonormal columns determine the polynomials. -/
def FullFor (mk : (Fin M → Pt n) → BasisObj n N) (dec : Matrix (Fin M) (Fin N) ℝ → VDec M N) (X : Fin M → Pt m) : Prop :=
  ∀ U : Matrix (Fin m) (Fin n) ℝ, Uᵀ * U = 1 → let V := vandU (mk fun i => projY U (X i)) X U
    FullRank V (dec V).Y (dec V).s (dec V).ZT

/-! ## The residual -/

theorem vecResidual_apply (mk : (Fin M → Pt n) → BasisObj n N) (coef : Matrix (Fin M) (Fin N) ℝ → Pt M → Pt N)
    (X : Fin M → Pt m) (fX : Fin K → Pt M) (U : Matrix (Fin m) (Fin n) ℝ) (k : Fin K) (i : Fin M) :
    vecResidual mk coef X fX U (finProdFinEquiv (k, i)) = varproResidual mk coef X (fX k) U i := by
  simp [vecResidual]

theorem vecResidual_sq (mk : (Fin M → Pt n) → BasisObj n N) (coef : Matrix (Fin M) (Fin N) ℝ → Pt M → Pt N)
    (X : Fin M → Pt m) (fX : Fin K → Pt M) (U : Matrix (Fin m) (Fin n) ℝ) :
    nrm (vecResidual mk coef X fX U) ^ 2 = ∑ k, ∑ i, varproResidual mk coef X (fX k) U i ^ 2 := by
  rw [nrm_sq, dotProduct, ← Equiv.sum_comp finProdFinEquiv, Fintype.sum_prod_type]
  refine Finset.sum_congr rfl fun k _ => Finset.sum_congr rfl fun i _ => ?_
  rw [vecResidual_apply, pow_two]

/-- Values of a polynomial of degree at most `d` are values of a combination of the columns, and conversely. -/
theorem poly_of_coef {d : ℕ} {B : BasisObj n N} (hB : IsPolyBasis d B) (c : Pt N) :
    ∃ q : MvPolynomial (Fin n) ℝ, q.totalDegree ≤ d ∧ ∀ y, B.V y ⬝ᵥ c = MvPolynomial.eval y q := by
  obtain ⟨ψ, hV, -, hs⟩ := hB
  refine ⟨∑ j, c j • ψ j, ?_, fun y => ?_⟩
  · rw [← MvPolynomial.mem_restrictTotalDegree, ← hs]
    exact Submodule.sum_mem _ fun j _ => Submodule.smul_mem _ _ (Submodule.subset_span ⟨j, rfl⟩)
  · simp only [map_sum, MvPolynomial.smul_eval, dotProduct, hV]
    exact Finset.sum_congr rfl fun j _ => mul_comm _ _

theorem coef_of_poly {d : ℕ} {B : BasisObj n N} (hB : IsPolyBasis d B) {q : MvPolynomial (Fin n) ℝ} (hq : q.totalDegree ≤ d) :
    ∃ c : Pt N, ∀ y, B.V y ⬝ᵥ c = MvPolynomial.eval y q := by
  obtain ⟨ψ, hV, -, hs⟩ := hB
  rw [← MvPolynomial.mem_restrictTotalDegree, ← hs] at hq
  obtain ⟨c, hc⟩ := (Submodule.mem_span_range_iff_exists_fun ℝ).1 hq
  refine ⟨c, fun y => ?_⟩
  rw [← hc]
  simp only [map_sum, MvPolynomial.smul_eval, dotProduct, hV]
  exact Finset.sum_congr rfl fun j _ => mul_comm _ _

/-- **C101**: the squared norm of the residual is the smallest error of polynomial ridge functions with these directions. -/
theorem vecResidual_best {d : ℕ} (mk : (Fin M → Pt n) → BasisObj n N) (hmk : ∀ Y, IsPolyBasis d (mk Y))
    (coef : Matrix (Fin M) (Fin N) ℝ → Pt M → Pt N) (X : Fin M → Pt m) (fX : Fin K → Pt M) (hc : LsqFor mk coef X fX) (U : Matrix (Fin m) (Fin n) ℝ) :
    (∃ q, DegLe d q ∧ ridgeErr X fX U q = nrm (vecResidual mk coef X fX U) ^ 2) ∧
      ∀ p, DegLe d p → nrm (vecResidual mk coef X fX U) ^ 2 ≤ ridgeErr X fX U p := by
  rw [vecResidual_sq]
  set B := mk fun i => projY U (X i) with hB
  constructor
  · choose q hq hqe using fun k => poly_of_coef (hmk fun i => projY U (X i)) (coef (vandU B X U) (fX k))
    refine ⟨q, hq, Finset.sum_congr rfl fun k _ => Finset.sum_congr rfl fun i _ => ?_⟩
    rw [← hqe k]
    rfl
  · intro p hp
    refine Finset.sum_le_sum fun k _ => ?_
    obtain ⟨c, hcp⟩ := coef_of_poly (hmk fun i => projY U (X i)) (hp k)
    have h := hc U k c
    simp only [dotProduct, ← pow_two] at h
    refine h.trans (le_of_eq (Finset.sum_congr rfl fun i _ => ?_))
    rw [← hcp]
    rfl

/-! ## The Jacobian -/

/-- **C101**: the Jacobian is the derivative of the residual. -/
theorem vec_derivative {d : ℕ} (mk : (Fin M → Pt n) → BasisObj n N) (hmk : ∀ Y, IsPolyBasis d (mk Y))
    (coef : Matrix (Fin M) (Fin N) ℝ → Pt M → Pt N) (dec : Matrix (Fin M) (Fin N) ℝ → VDec M N) (X : Fin M → Pt m) (fX : Fin K → Pt M)
    (hc : LsqFor mk coef X fX) (U Delta : Matrix (Fin m) (Fin n) ℝ)
    (hfull : let V := vandU (mk fun i => projY U (X i)) X U; FullRank V (dec V).Y (dec V).s (dec V).ZT) (p : Fin (K * M)) :
    HasDerivAt (fun t : ℝ => vecResidual mk coef X fX (U + t • Delta) p) ((vecJacobian mk coef dec X fX U *ᵥ flat Delta) p) 0 := by
  exact varpro_derivative mk hmk coef X (fX (finProdFinEquiv.symm p).1) U Delta (fun U' => hc U' _) _ _ _ hfull (finProdFinEquiv.symm p).2

theorem vec_null {d : ℕ} (mk : (Fin M → Pt n) → BasisObj n N) (hmk : ∀ Y, IsPolyBasis d (mk Y))
    (coef : Matrix (Fin M) (Fin N) ℝ → Pt M → Pt N) (dec : Matrix (Fin M) (Fin N) ℝ → VDec M N) (X : Fin M → Pt m) (fX : Fin K → Pt M)
    (hc : LsqFor mk coef X fX) (U : Matrix (Fin m) (Fin n) ℝ)
    (hfull : let V := vandU (mk fun i => projY U (X i)) X U; FullRank V (dec V).Y (dec V).s (dec V).ZT) (W : Matrix (Fin n) (Fin n) ℝ) :
    vecJacobian mk coef dec X fX U *ᵥ flat (U * W) = 0 := by
  funext p
  exact congrFun (varpro_null mk hmk coef X (fX (finProdFinEquiv.symm p).1) U (fun U' => hc U' _) _ _ _ hfull W) (finProdFinEquiv.symm p).2

theorem hcat_add (Uf : Matrix (Fin m) (Fin nf) ℝ) (W W' : Matrix (Fin m) (Fin n) ℝ) (t : ℝ) :
    hcat Uf (W + t • W') = hcat Uf W + t • hcat 0 W' := by
  ext i j
  refine Fin.addCases (fun j => ?_) (fun j => ?_) j
  · simp [hcat]
  · simp [hcat]

theorem hcat_mulVec (Uf : Matrix (Fin m) (Fin nf) ℝ) (W : Matrix (Fin m) (Fin n) ℝ) (v : Pt (nf + n)) :
    hcat Uf W *ᵥ v = Uf *ᵥ (fun j => v (Fin.castAdd n j)) + W *ᵥ fun j => v (Fin.natAdd nf j) := by
  funext i
  simp [hcat, mulVec, dotProduct, Fin.sum_univ_add]

/-- The restricted Jacobian applied to a direction. -/
theorem restrictJac_apply {R : ℕ} (Uc : Matrix (Fin m) (Fin mm) ℝ) (J : Matrix (Fin R) (Fin (m * (nf + n))) ℝ) (δ : Matrix (Fin mm) (Fin n) ℝ) :
    restrictJac Uc J *ᵥ flat δ = J *ᵥ flat (hcat (0 : Matrix (Fin m) (Fin nf) ℝ) (Uc * δ)) := by
  funext i
  have h1 : (restrictJac Uc J *ᵥ flat δ) i = ∑ l, ∑ k, (∑ j : Fin m, unflat (J i) j (Fin.natAdd nf k) * Uc j l) * δ l k := by
    show flat (Matrix.of fun (l : Fin mm) (k : Fin n) => ∑ j : Fin m, unflat (J i) j (Fin.natAdd nf k) * Uc j l) ⬝ᵥ flat δ = _
    rw [flat_dot]
    refine Finset.sum_congr rfl fun k _ => Finset.sum_congr rfl fun l _ => ?_
    simp [flat, unflat]
  have h2 : (J *ᵥ flat (hcat (0 : Matrix (Fin m) (Fin nf) ℝ) (Uc * δ))) i = ∑ j, ∑ k, unflat (J i) j (Fin.natAdd nf k) * (Uc * δ) j k := by
    show J i ⬝ᵥ flat _ = _
    rw [flat_dot]
    refine Finset.sum_congr rfl fun j _ => ?_
    rw [Fin.sum_univ_add, Finset.sum_eq_zero, zero_add]
    · refine Finset.sum_congr rfl fun k _ => ?_
      simp [hcat]
    · intro k _
      simp [hcat]
  rw [h1, h2]
  simp only [Matrix.mul_apply, Finset.sum_mul, Finset.mul_sum]
  calc ∑ l, ∑ k, ∑ j, unflat (J i) j (Fin.natAdd nf k) * Uc j l * δ l k
      = ∑ l, ∑ j, ∑ k, unflat (J i) j (Fin.natAdd nf k) * Uc j l * δ l k := Finset.sum_congr rfl fun l _ => Finset.sum_comm
    _ = ∑ j, ∑ l, ∑ k, unflat (J i) j (Fin.natAdd nf k) * Uc j l * δ l k := Finset.sum_comm
    _ = ∑ j, ∑ k, ∑ l, unflat (J i) j (Fin.natAdd nf k) * Uc j l * δ l k := Finset.sum_congr rfl fun j _ => Finset.sum_comm
    _ = _ := Finset.sum_congr rfl fun j _ => Finset.sum_congr rfl fun k _ => Finset.sum_congr rfl fun l _ => mul_assoc _ _ _

/-- **C101**: with a fixed subspace, the Jacobian is the derivative of the residual in the free directions. -/
theorem vecFixed_derivative {d : ℕ} (mk : (Fin M → Pt (nf + n)) → BasisObj (nf + n) N) (hmk : ∀ Y, IsPolyBasis d (mk Y))
    (coef : Matrix (Fin M) (Fin N) ℝ → Pt M → Pt N) (dec : Matrix (Fin M) (Fin N) ℝ → VDec M N) (X : Fin M → Pt m) (fX : Fin K → Pt M)
    (hc : LsqFor mk coef X fX) (Uf : Matrix (Fin m) (Fin nf) ℝ) (Uc : Matrix (Fin m) (Fin mm) ℝ) (u δ : Matrix (Fin mm) (Fin n) ℝ)
    (hfull : let V := vandU (mk fun i => projY (hcat Uf (Uc * u)) (X i)) X (hcat Uf (Uc * u)); FullRank V (dec V).Y (dec V).s (dec V).ZT)
    (p : Fin (K * M)) :
    HasDerivAt (fun t : ℝ => vecResidualFixed mk coef X fX Uf Uc (u + t • δ) p) ((vecJacobianFixed mk coef dec X fX Uf Uc u *ᵥ flat δ) p) 0 := by
  have h := vec_derivative mk hmk coef dec X fX hc (hcat Uf (Uc * u)) (hcat 0 (Uc * δ)) hfull p
  rw [← restrictJac_apply] at h
  refine h.congr_of_eventuallyEq (Filter.Eventually.of_forall fun t => ?_)
  simp only [vecResidualFixed]
  rw [Matrix.mul_add, Matrix.mul_smul, hcat_add]

theorem hcat_gram {Uf : Matrix (Fin m) (Fin nf) ℝ} {W : Matrix (Fin m) (Fin n) ℝ} (h1 : Ufᵀ * Uf = 1) (h2 : Ufᵀ * W = 0) (h3 : Wᵀ * W = 1) :
    (hcat Uf W)ᵀ * hcat Uf W = 1 := by
  have e : ∀ a b, ((hcat Uf W)ᵀ * hcat Uf W) a b = ∑ i, hcat Uf W i a * hcat Uf W i b := fun a b => by
    simp only [Matrix.mul_apply, Matrix.transpose_apply]
  have h4 : Wᵀ * Uf = 0 := by
    have := congrArg Matrix.transpose h2
    rwa [Matrix.transpose_mul, Matrix.transpose_transpose, Matrix.transpose_zero] at this
  ext a b
  rw [e]
  refine Fin.addCases (fun a => ?_) (fun a => ?_) a
  · refine Fin.addCases (fun b => ?_) (fun b => ?_) b
    · have := congrFun (congrFun h1 a) b
      simp only [Matrix.mul_apply, Matrix.transpose_apply] at this
      simp only [hcat, Matrix.of_apply, Fin.append_left]
      rw [this, Matrix.one_apply, Matrix.one_apply]
      simp [Fin.ext_iff]
    · have := congrFun (congrFun h2 a) b
      simp only [Matrix.mul_apply, Matrix.transpose_apply] at this
      simp only [hcat, Matrix.of_apply, Fin.append_left, Fin.append_right]
      rw [this, Matrix.one_apply_ne, Matrix.zero_apply]
      intro hh
      have := congrArg Fin.val hh
      have h5 := a.isLt
      simp at this
      omega
  · refine Fin.addCases (fun b => ?_) (fun b => ?_) b
    · have := congrFun (congrFun h4 a) b
      simp only [Matrix.mul_apply, Matrix.transpose_apply] at this
      simp only [hcat, Matrix.of_apply, Fin.append_left, Fin.append_right]
      rw [this, Matrix.one_apply_ne, Matrix.zero_apply]
      intro hh
      have := congrArg Fin.val hh
      have h5 := b.isLt
      simp at this
      omega
    · have := congrFun (congrFun h3 a) b
      simp only [Matrix.mul_apply, Matrix.transpose_apply] at this
      simp only [hcat, Matrix.of_apply, Fin.append_right]
      rw [this, Matrix.one_apply, Matrix.one_apply]
      simp [Fin.ext_iff]

/-- The blocks of a matrix with orthonormal columns. -/
theorem cqr_blocks {Q : Matrix (Fin m) (Fin (nf + mm)) ℝ} (h : Qᵀ * Q = 1) :
    (fixedPart Q)ᵀ * fixedPart Q = 1 ∧ (fixedPart Q)ᵀ * freePart Q = 0 ∧ (freePart Q)ᵀ * freePart Q = 1 := by
  have e : ∀ a b, ∑ i, Q i a * Q i b = (1 : Matrix (Fin (nf + mm)) (Fin (nf + mm)) ℝ) a b := fun a b => by
    rw [← h]; simp only [Matrix.mul_apply, Matrix.transpose_apply]
  refine ⟨?_, ?_, ?_⟩
  · ext a b
    simp only [Matrix.mul_apply, Matrix.transpose_apply, fixedPart, Matrix.of_apply]
    rw [e, Matrix.one_apply, Matrix.one_apply]
    simp [Fin.ext_iff]
  · ext a b
    simp only [Matrix.mul_apply, Matrix.transpose_apply, fixedPart, freePart, Matrix.of_apply]
    rw [e, Matrix.one_apply_ne, Matrix.zero_apply]
    intro hh
    have := congrArg Fin.val hh
    have h5 := a.isLt
    simp at this
    omega
  · ext a b
    simp only [Matrix.mul_apply, Matrix.transpose_apply, freePart, Matrix.of_apply]
    rw [e, Matrix.one_apply, Matrix.one_apply]
    simp [Fin.ext_iff]

theorem fixed_orthonormal {Q : Matrix (Fin m) (Fin (nf + mm)) ℝ} (h : Qᵀ * Q = 1) {u : Matrix (Fin mm) (Fin n) ℝ} (hu : uᵀ * u = 1) :
    (hcat (fixedPart Q) (freePart Q * u))ᵀ * hcat (fixedPart Q) (freePart Q * u) = 1 := by
  obtain ⟨h1, h2, h3⟩ := cqr_blocks h
  refine hcat_gram h1 ?_ ?_
  · rw [← Matrix.mul_assoc, h2, Matrix.zero_mul]
  · rw [Matrix.transpose_mul, Matrix.mul_assoc, ← Matrix.mul_assoc _ _ u, h3, Matrix.one_mul, hu]

/-- Directions inside the free subspace are directions inside the whole subspace. -/
theorem hcat_inside (Uf : Matrix (Fin m) (Fin nf) ℝ) (Uc : Matrix (Fin m) (Fin mm) ℝ) (u : Matrix (Fin mm) (Fin n) ℝ) (W : Matrix (Fin n) (Fin n) ℝ) :
    ∃ W' : Matrix (Fin (nf + n)) (Fin (nf + n)) ℝ, hcat 0 (Uc * (u * W)) = hcat Uf (Uc * u) * W' := by
  refine ⟨Matrix.of fun a b => Fin.append (0 : Pt nf) (fun k => Fin.append (0 : Pt nf) (fun l => W l k) a) b, ?_⟩
  ext i b
  refine Fin.addCases (fun b => ?_) (fun b => ?_) b
  · simp [hcat, Matrix.mul_apply]
  · simp only [hcat, Matrix.of_apply, Fin.append_right, Matrix.mul_apply, Fin.sum_univ_add, Fin.append_left, Pi.zero_apply, mul_zero,
      Finset.sum_const_zero, zero_add]
    simp only [Finset.mul_sum, Finset.sum_mul]
    rw [Finset.sum_comm]
    exact Finset.sum_congr rfl fun k _ => Finset.sum_congr rfl fun l _ => (mul_assoc _ _ _).symm

/-! ## The run -/

theorem mapx_ok {α β ε : Type} {f : α → β} {e : Except ε α} {b : β} (h : e.map f = .ok b) : ∃ a, e = .ok a ∧ f a = b := by
  cases e with
  | error x => cases h
  | ok a => exact ⟨a, rfl, Except.ok.inj h⟩

/-- The trajectory from orthonormal columns in a tangent direction. -/
theorem vecTraj_orthonormal (hn : n ≤ m) (svd : Matrix (Fin m) (Fin n) ℝ → TSvd m n) (hsvd : ∀ A, IsTSvd A (svd A))
    {x p y : Pt (m * n)} {t : ℝ} (hx : (unflat x)ᵀ * unflat x = 1) (hp : (unflat x)ᵀ * unflat p = 0)
    (h : vecTraj hn svd x p t = .ok y) : (unflat y)ᵀ * unflat y = 1 := by
  unfold vecTraj at h
  cases h
  rw [unflat_flat]
  have := geodesic_orthonormal hx hp (hsvd (unflat p)) t
  set G := geodesic (unflat x) (svd (unflat p)) t
  have e := Matrix.submatrix_mul_equiv Gᵀ G (finCongr (min_eq_right hn).symm) (Equiv.refl (Fin m)) (finCongr (min_eq_right hn).symm)
  rw [Equiv.coe_refl] at e
  rw [Matrix.transpose_submatrix, e, this]
  exact Matrix.submatrix_one_equiv _

/-- A run with a Jacobian that does not see changes inside the subspace keeps orthonormal columns and does not increase the residual. -/
theorem vecArgs_run {R : ℕ} (hn : n ≤ m) (svdJ : Matrix (Fin R) (Fin (m * n)) ℝ → TSvd R (m * n)) (hsvdJ : ∀ A, IsTSvd A (svdJ A))
    (svdD : Matrix (Fin m) (Fin n) ℝ → TSvd m n) (hsvdD : ∀ A, IsTSvd A (svdD A)) (res : Matrix (Fin m) (Fin n) ℝ → Pt R)
    (jac : Matrix (Fin m) (Fin n) ℝ → Matrix (Fin R) (Fin (m * n)) ℝ) (o : GNOpt)
    (hnull : ∀ U : Matrix (Fin m) (Fin n) ℝ, Uᵀ * U = 1 → ∀ W : Matrix (Fin n) (Fin n) ℝ, jac U *ᵥ flat (U * W) = 0)
    (U0 : Matrix (Fin m) (Fin n) ℝ) (hU0 : U0ᵀ * U0 = 1) (x : Pt (m * n)) (i : ℕ)
    (h : gaussNewton (vecArgs hn svdJ svdD res jac o) (flat U0) = .ok (x, i)) :
    (unflat x)ᵀ * unflat x = (1 : Matrix (Fin n) (Fin n) ℝ) ∧ nrm (res (unflat x)) ≤ nrm (res U0) := by
  constructor
  · refine gn_invariant _ rfl (fun x => (unflat x)ᵀ * unflat x = (1 : Matrix (Fin n) (Fin n) ℝ))
      (fun x p => (unflat x)ᵀ * unflat p = (0 : Matrix (Fin n) (Fin n) ℝ)) ?_ ?_ ?_ (flat U0) x i ?_ h
    · intro x p t y hx hp hy
      exact vecTraj_orthonormal hn svdD hsvdD hx hp hy
    · intro x J r dx sv hx hF hdx
      simp only [vecArgs, Except.ok.injEq] at hF
      simp only [vecArgs, varproSolver, Except.ok.injEq, Prod.mk.injEq] at hdx
      obtain ⟨hdx, -⟩ := hdx
      split at hdx
      · rename_i hne
        cases hdx
        refine gnDirection_tangent (hsvdJ J) r (unflat x) ?_ fun j hj => lt_of_le_of_ne ((hsvdJ J).nonneg j) (hne j hj).symm
        intro W
        rw [← hF]
        exact hnull _ hx W
      · cases hdx
    · intro x J v hx hF
      simp only [vecArgs, Except.ok.injEq] at hF
      refine grad_tangent (unflat x) ?_ v
      intro W
      rw [← hF]
      exact hnull _ hx W
    · rw [unflat_flat]; exact hU0
  · obtain ⟨v, hv, hle⟩ := gn_monotone_default _ rfl (flat U0) x i (res U0) (by simp only [vecArgs, unflat_flat]) h
    simp only [vecArgs, Except.ok.injEq] at hv
    rw [hv]
    exact hle

/-- From residual norms to errors of polynomials. -/
theorem err_of_resid {d n' : ℕ} {mk : (Fin M → Pt n) → BasisObj n N} (hmk : ∀ Y, IsPolyBasis d (mk Y))
    {coef : Matrix (Fin M) (Fin N) ℝ → Pt M → Pt N} {X : Fin M → Pt m} {fX : Fin K → Pt M} (hc : LsqFor mk coef X fX) {U U' : Matrix (Fin m) (Fin n) ℝ}
    (h : nrm (vecResidual mk coef X fX U) ≤ nrm (vecResidual mk coef X fX U')) :
    ∃ q, DegLe d q ∧ ∀ p, DegLe d p → ridgeErr X fX U q ≤ ridgeErr X fX U' p := by
  obtain ⟨⟨q, hq, hqe⟩, -⟩ := vecResidual_best mk hmk coef X fX hc U
  refine ⟨q, hq, fun p hp => ?_⟩
  rw [hqe]
  exact (pow_le_pow_left₀ (nrm_nonneg _) h 2).trans ((vecResidual_best mk hmk coef X fX hc U').2 p hp)

/-- **C101**: without a fixed subspace, started from orthonormal columns: orthonormal columns are returned, and there are polynomials of these
directions that fit the outputs at least as well as all polynomials of the starting directions. -/
theorem vecRidge_spec {d : ℕ} (hn : n ≤ m) (svdJ : Matrix (Fin (K * M)) (Fin (m * n)) ℝ → TSvd (K * M) (m * n)) (hsvdJ : ∀ A, IsTSvd A (svdJ A))
    (svdD : Matrix (Fin m) (Fin n) ℝ → TSvd m n) (hsvdD : ∀ A, IsTSvd A (svdD A)) (mk : (Fin M → Pt n) → BasisObj n N)
    (hmk : ∀ Y, IsPolyBasis d (mk Y)) (coef : Matrix (Fin M) (Fin N) ℝ → Pt M → Pt N) (dec : Matrix (Fin M) (Fin N) ℝ → VDec M N)
    (X : Fin M → Pt m) (fX : Fin K → Pt M) (hc : LsqFor mk coef X fX) (hfull : FullFor mk dec X) (o : GNOpt)
    (U0 U : Matrix (Fin m) (Fin n) ℝ) (hU0 : U0ᵀ * U0 = 1) (h : vecRidge hn svdJ svdD mk coef dec X fX o U0 = .ok U) :
    Uᵀ * U = 1 ∧ ∃ q, DegLe d q ∧ ∀ p, DegLe d p → ridgeErr X fX U q ≤ ridgeErr X fX U0 p := by
  unfold vecRidge at h
  obtain ⟨⟨x, i⟩, hx, rfl⟩ := mapx_ok h
  have := vecArgs_run hn svdJ hsvdJ svdD hsvdD _ _ o (fun U hU W => vec_null mk hmk coef dec X fX hc U (hfull U hU) W) U0 hU0 x i hx
  exact ⟨this.1, err_of_resid (n' := n) hmk hc this.2⟩

/-- The starting matrix of a run with a fixed subspace has orthonormal columns, whatever `U0` is. -/
theorem vecStart_orthonormal {k : ℕ} {svd : Matrix (Fin mm) (Fin k) ℝ → TSvd mm k} (hsvd : ∀ A, IsTSvd A (svd A)) {Uc : Matrix (Fin m) (Fin mm) ℝ}
    {U0 : Matrix (Fin m) (Fin k) ℝ} {u0 : Matrix (Fin mm) (Fin n) ℝ} (h : vecStart svd Uc n U0 = .ok u0) : u0ᵀ * u0 = 1 := by
  unfold vecStart at h
  split at h
  · rename_i hk
    cases h
    have := (hsvd (Ucᵀ * U0)).orthY
    ext a b
    have e := congrFun (congrFun this (Fin.castLE hk a)) (Fin.castLE hk b)
    simp only [Matrix.mul_apply, Matrix.transpose_apply] at e
    simp only [Matrix.mul_apply, Matrix.transpose_apply, Matrix.of_apply]
    rw [e, Matrix.one_apply, Matrix.one_apply]
    simp [Fin.ext_iff]
  · cases h

/-- **C101**: with a fixed subspace the result has orthonormal columns, its span contains the fixed subspace, and there are polynomials of these
directions that fit the outputs at least as well as all polynomials of the starting directions (the fixed subspace and the part of `U0` outside of it). -/
theorem vecRidgeFixed_spec {d k : ℕ} (hn : n ≤ mm) (svdJ : Matrix (Fin (K * M)) (Fin (mm * n)) ℝ → TSvd (K * M) (mm * n)) (hsvdJ : ∀ A, IsTSvd A (svdJ A))
    (svdD : Matrix (Fin mm) (Fin n) ℝ → TSvd mm n) (hsvdD : ∀ A, IsTSvd A (svdD A)) (svdU : Matrix (Fin mm) (Fin k) ℝ → TSvd mm k)
    (hsvdU : ∀ A, IsTSvd A (svdU A)) (mk : (Fin M → Pt (nf + n)) → BasisObj (nf + n) N)
    (hmk : ∀ Y, IsPolyBasis d (mk Y)) (coef : Matrix (Fin M) (Fin N) ℝ → Pt M → Pt N) (dec : Matrix (Fin M) (Fin N) ℝ → VDec M N)
    (X : Fin M → Pt m) (fX : Fin K → Pt M) (hc : LsqFor mk coef X fX) (hfull : FullFor mk dec X) (o : GNOpt)
    (F : Matrix (Fin m) (Fin nf) ℝ) (Q : Matrix (Fin m) (Fin (nf + mm)) ℝ) (hQ : IsCQr F Q) (U0 : Matrix (Fin m) (Fin k) ℝ)
    (U : Matrix (Fin m) (Fin (nf + n)) ℝ) (h : vecRidgeFixed hn svdJ svdD svdU mk coef dec X fX o Q U0 = .ok U) :
    Uᵀ * U = 1 ∧ (∀ v, ∃ w, F *ᵥ v = U *ᵥ w) ∧
      ∃ u0, vecStart svdU (freePart Q) n U0 = .ok u0 ∧
        ∃ q, DegLe d q ∧ ∀ p, DegLe d p → ridgeErr X fX U q ≤ ridgeErr X fX (hcat (fixedPart Q) (freePart Q * u0)) p := by
  unfold vecRidgeFixed at h
  split at h
  · cases h
  rename_i u0 hu0
  obtain ⟨⟨x, i⟩, hx, rfl⟩ := mapx_ok h
  have hnull : ∀ u : Matrix (Fin mm) (Fin n) ℝ, uᵀ * u = 1 → ∀ W : Matrix (Fin n) (Fin n) ℝ,
      vecJacobianFixed mk coef dec X fX (fixedPart Q) (freePart Q) u *ᵥ flat (u * W) = 0 := by
    intro u hu W
    obtain ⟨W', hW'⟩ := hcat_inside (fixedPart Q) (freePart Q) u W
    rw [vecJacobianFixed, restrictJac_apply, hW']
    exact vec_null mk hmk coef dec X fX hc _ (hfull _ (fixed_orthonormal hQ.orth hu)) W'
  have := vecArgs_run hn svdJ hsvdJ svdD hsvdD _ _ o hnull u0 (vecStart_orthonormal hsvdU hu0) x i hx
  refine ⟨fixed_orthonormal hQ.orth this.1, fun v => ?_, u0, hu0, err_of_resid (n' := n) hmk hc this.2⟩
  obtain ⟨R, hR⟩ := hQ.span
  refine ⟨Fin.append (R *ᵥ v) 0, ?_⟩
  rw [hcat_mulVec]
  simp only [Fin.append_left, Fin.append_right]
  rw [hR, ← mulVec_mulVec]
  show _ = _ + (freePart Q * unflat x) *ᵥ (0 : Pt n)
  rw [mulVec_zero, add_zero]

/-! ## The hypotheses are met -/

/-- The polynomials `1, y_1, .., y_n`. -/
def linB (n : ℕ) : BasisObj n (n + 1) where
  V := fun y => Fin.cons 1 y
  DV := fun _ => Fin.cons 0 fun i => Pi.single i 1
  DDV := fun _ _ => 0

theorem linB_poly (n : ℕ) : IsPolyBasis 1 (linB n) := by
  set ψ : Fin (n + 1) → MvPolynomial (Fin n) ℝ := Fin.cons 1 MvPolynomial.X with hψ
  refine ⟨ψ, ?_, ?_, ?_⟩
  · intro y j
    refine Fin.cases ?_ (fun j => ?_) j
    · simp [linB, hψ]
    · simp [linB, hψ]
  · intro y j l
    refine Fin.cases ?_ (fun j => ?_) j
    · simp [linB, hψ]
    · by_cases h : j = l
      · subst h; simp [linB, hψ]
      · simp [linB, hψ, MvPolynomial.pderiv_X, Pi.single_apply, h, Ne.symm h]
  · apply le_antisymm
    · rw [Submodule.span_le]
      rintro _ ⟨j, rfl⟩
      refine Fin.cases ?_ (fun j => ?_) j
      · simp [MvPolynomial.mem_restrictTotalDegree, hψ]
      · simp [MvPolynomial.mem_restrictTotalDegree, hψ]
    · intro p hp
      rw [MvPolynomial.mem_restrictTotalDegree] at hp
      rw [p.as_sum]
      refine Submodule.sum_mem _ fun s hs => ?_
      have hdeg := (MvPolynomial.le_totalDegree hs).trans hp
      have h0 : (1 : MvPolynomial (Fin n) ℝ) ∈ Submodule.span ℝ (Set.range ψ) := Submodule.subset_span ⟨0, rfl⟩
      have h1 : ∀ i, (MvPolynomial.X i : MvPolynomial (Fin n) ℝ) ∈ Submodule.span ℝ (Set.range ψ) := fun i => Submodule.subset_span ⟨i.succ, rfl⟩
      by_cases hz : s = 0
      · rw [hz]
        have := Submodule.smul_mem _ (MvPolynomial.coeff 0 p) h0
        rwa [MvPolynomial.smul_eq_C_mul, mul_one, MvPolynomial.C_apply] at this
      · obtain ⟨i, hi⟩ := Finsupp.ne_iff.1 hz
        have hi : s i ≠ 0 := by simpa using hi
        have hsum : ∑ j, s j ≤ 1 := by
          rw [Finsupp.sum_fintype _ _ fun _ => rfl] at hdeg
          exact hdeg
        have e : s = Finsupp.single i 1 := by
          refine Finsupp.ext fun j => ?_
          have h2 := Finset.add_sum_erase Finset.univ (fun j => s j) (Finset.mem_univ i)
          by_cases hj : j = i
          · subst hj
            rw [Finsupp.single_eq_same]
            omega
          · rw [Finsupp.single_eq_of_ne hj]
            have h3 := Finset.single_le_sum (f := fun j => s j) (fun _ _ => Nat.zero_le _) (Finset.mem_erase.2 ⟨hj, Finset.mem_univ j⟩)
            omega
        rw [e]
        have := Submodule.smul_mem _ (MvPolynomial.coeff (Finsupp.single i 1) p) (h1 i)
        rwa [MvPolynomial.smul_eq_C_mul, MvPolynomial.X, MvPolynomial.C_mul_monomial, mul_one] at this

/-- The corners of the standard simplex. -/
def simplexX (m : ℕ) : Fin (m + 1) → Pt m := Fin.cons 0 fun i => Pi.single i 1

theorem simplex_injective (U : Matrix (Fin m) (Fin n) ℝ) (hU : Uᵀ * U = 1) (c : Pt (n + 1)) (h : vandU (linB n) (simplexX m) U *ᵥ c = 0) : c = 0 := by
  have e0 := congrFun h 0
  simp [vandU, linB, projY, simplexX, Matrix.mulVec, dotProduct, Fin.sum_univ_succ] at e0
  have e1 : U *ᵥ (fun j => c j.succ) = 0 := by
    funext i
    have := congrFun h i.succ
    simp [vandU, linB, projY, simplexX, Matrix.mulVec, dotProduct, Fin.sum_univ_succ, e0, Pi.single_apply] at this
    exact this
  have e2 : (fun j => c (Fin.succ j)) = 0 := by
    have := congrArg (fun v => Uᵀ *ᵥ v) e1
    simp only [mulVec_mulVec, hU, one_mulVec, mulVec_zero] at this
    exact this
  funext j
  refine Fin.cases e0 (fun j => ?_) j
  exact congrFun e2 j

/-- Linear profiles and the corners of a simplex meet the requirements of `vecRidge_spec` and `vecRidgeFixed_spec`, for any dimensions and outputs. -/
theorem vec_hypotheses (hn : n ≤ m) (fX : Fin K → Pt (m + 1)) : ∃ (coef : Matrix (Fin (m + 1)) (Fin (n + 1)) ℝ → Pt (m + 1) → Pt (n + 1))
    (dec : Matrix (Fin (m + 1)) (Fin (n + 1)) ℝ → VDec (m + 1) (n + 1)),
    LsqFor (fun _ => linB n) coef (simplexX m) fX ∧ FullFor (fun _ => linB n) dec (simplexX m) := by
  choose svdV hV using fun A : Matrix (Fin (m + 1)) (Fin (n + 1)) ℝ => exists_tsvd A
  choose coef hcoef using fun A : Matrix (Fin (m + 1)) (Fin (n + 1)) ℝ => exists_lsq A
  refine ⟨coef, fun V => ⟨_, (svdV V).Y, (svdV V).s, (svdV V).ZT⟩, fun U k => hcoef _ _, ?_⟩
  intro U hU
  exact (hV _).fullRank (by omega) (tsvd_ne_zero (by omega) (simplex_injective U hU) (hV _))

/-- A complete factorization of a fixed direction. -/
example : IsCQr (Matrix.of ![![2], ![0]] : Matrix (Fin 2) (Fin 1) ℝ) (1 : Matrix (Fin 2) (Fin (1 + 1)) ℝ) := by
  refine ⟨by rw [Matrix.transpose_one]; exact Matrix.one_mul _, Matrix.of ![![2]], ?_⟩
  ext i j
  rw [Matrix.mul_apply, Fin.sum_univ_one]
  show _ = (1 : Matrix (Fin 2) (Fin 2) ℝ) i 0 * _
  fin_cases i <;> fin_cases j <;> simp
  exact Matrix.one_apply_eq _

/-! ## The default start and the shape of the data -/

theorem mapM_of_ok {α β : Type} (g : α → Except Err β) (h : α → β) (l : List α) (hl : ∀ a ∈ l, g a = .ok (h a)) : l.mapM g = .ok (l.map h) := by
  induction l with
  | nil => rfl
  | cons a l ih =>
    rw [List.mapM_cons, hl a (by simp), ih fun c hc => hl c (by simp [hc])]
    rfl

/-- **C101**: the default start can be computed for a matrix with at least one column, and then uses every output once. -/
theorem vecInit_twoD {α : Type} (init : Pt M → α) (f : Fin (K + 1) → Pt M) : vecInit init (.twoD (K + 1) f) = .ok (List.ofFn fun k => init (f k)) := by
  have hg : ∀ k : Fin (K + 1), (fun fi : List ℝ => if h : fi.length = M then (Except.ok (init fun i => fi.get (i.cast h.symm)) : Except Err α)
      else .error .assertion) (List.ofFn (f k)) = .ok (init (f k)) := by
    intro k
    simp only
    rw [dif_pos List.length_ofFn]
    congr 2
    funext i
    simp
  have key : ∀ l : List (Fin (K + 1)), (l.map fun k => List.ofFn (f k)).mapM (fun fi : List ℝ => if h : fi.length = M then
      (Except.ok (init fun i => fi.get (i.cast h.symm)) : Except Err α) else .error .assertion) = .ok (l.map fun k => init (f k)) := by
    intro l
    rw [List.mapM_map]
    exact mapM_of_ok _ (fun k => init (f k)) l fun k _ => hg k
  unfold vecInit
  have e : (VecData.twoD (K + 1) f).iter = (List.finRange (K + 1)).map fun k => List.ofFn (f k) := by
    rw [VecData.iter, List.ofFn_eq_map]
  split
  · next h0 => rw [e] at h0; simp at h0
  · rw [e, key, List.ofFn_eq_map]

/-- **C101, disagreement**: with one value per sample in a one dimensional array (two samples or more) the default start raises `AssertionError`. -/
theorem vecInit_oneD_false {α : Type} (init : Pt M → α) (hM : 2 ≤ M) (f : Pt M) : vecInit init (.oneD f) = .error .assertion := by
  obtain ⟨M', rfl⟩ : ∃ M', M = M' + 1 := ⟨M - 1, by omega⟩
  unfold vecInit
  have e : (VecData.oneD f).iter = [f 0] :: (List.ofFn fun i : Fin M' => [f i.succ]) := by
    simp [VecData.iter, List.ofFn_succ]
    rfl
  split
  · next h0 => rw [e] at h0; simp at h0
  · rw [e, List.mapM_cons, dif_neg (by simp; omega)]
    rfl

/-- The residual and the Jacobian accept such data: it has one column. -/
theorem cols_oneD (f : Pt M) : (VecData.oneD f).cols = [f] := rfl

/-- **C101, disagreement**: without a fixed subspace a start that is not orthonormal is not orthonormalized. -/
theorem vecRidge_start_false : ∃ (U0 : Matrix (Fin 1) (Fin 1) ℝ) (o : GNOpt), ∀ (svdJ : Matrix (Fin (1 * 1)) (Fin (1 * 1)) ℝ → TSvd (1 * 1) (1 * 1))
    (svdD : Matrix (Fin 1) (Fin 1) ℝ → TSvd 1 1) (mk : (Fin 1 → Pt 1) → BasisObj 1 N) (coef : Matrix (Fin 1) (Fin N) ℝ → Pt 1 → Pt N)
    (dec : Matrix (Fin 1) (Fin N) ℝ → VDec 1 N) (X : Fin 1 → Pt 1) (fX : Fin 1 → Pt 1),
    ∃ U, vecRidge (le_refl 1) svdJ svdD mk coef dec X fX o U0 = .ok U ∧ Uᵀ * U ≠ 1 := by
  refine ⟨Matrix.of fun _ _ => 2, ⟨1, 1, 0, 0⟩, ?_⟩
  intro svdJ svdD mk coef dec X fX
  refine ⟨Matrix.of fun _ _ => 2, ?_, ?_⟩
  · unfold vecRidge gaussNewton
    rw [if_pos (by simp [vecArgs])]
    simp only [Except.map, unflat_flat]
  · intro h
    have := congrFun (congrFun h 0) 0
    simp [Matrix.mul_apply] at this
    norm_num at this

end Verif.Func
