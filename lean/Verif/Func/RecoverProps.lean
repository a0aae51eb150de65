import Verif.Func.ApproxFit
import Verif.Func.AffineProps
import Verif.Func.UphillProps
import Mathlib.Topology.Algebra.MvPolynomial

/-!
# Property C166: ridge functions are recovered

If the data come from a polynomial ridge function, possibly with errors, what does a ridge fit tell about the function and its subspace?
The fits are those of `PolyModel` (`fit`, polyridge.py 308-358, `_fit_affine` 364-394, `_finish` 418-443), `AltModel` (`_fit_alternating`) and
`VarproModel` (`_fit_varpro`).
-/

namespace Verif.Func

open Verif.Domain Verif.Lip Verif.Opt Verif.Misc Matrix

variable {M m n k N : ℕ}

/-! ## Specification -/

/-- `f` is a polynomial of degree at most `d` of `Aᵀ x`. -/
def IsRidge (d : ℕ) (A : Matrix (Fin m) (Fin k) ℝ) (f : Pt m → ℝ) : Prop :=
  ∃ q : MvPolynomial (Fin k) ℝ, q.totalDegree ≤ d ∧ ∀ x, f x = MvPolynomial.eval (Aᵀ *ᵥ x) q

/-- `f` is constant along no direction seen by `Aᵀ x`. -/
def Essential (A : Matrix (Fin m) (Fin k) ℝ) (f : Pt m → ℝ) : Prop :=
  ∀ v : Pt m, (∀ (x : Pt m) (t : ℝ), f (x + t • v) = f x) → Aᵀ *ᵥ v = 0

/-- Polynomials of the degree that are small at the samples are small elsewhere, up to the factor `C`. -/
def Controls (d : ℕ) (X : Fin M → Pt m) (C : Pt m → ℝ) : Prop :=
  ∀ q : MvPolynomial (Fin m) ℝ, q.totalDegree ≤ d → ∀ e : ℝ, (∀ i, |MvPolynomial.eval (X i) q| ≤ e) → ∀ x, |MvPolynomial.eval x q| ≤ C x * e

/-! ## Polynomials from their values -/

/-- Points that determine the polynomials have Lagrange polynomials: every polynomial of the degree is a fixed combination of its values. -/
theorem lagrange_exists {d : ℕ} {X : Fin M → Pt m} (hX : Unisolvent d X) :
    ∃ ℓ : Fin M → MvPolynomial (Fin m) ℝ, (∀ i, (ℓ i).totalDegree ≤ d) ∧
      ∀ q : MvPolynomial (Fin m) ℝ, q.totalDegree ≤ d → ∀ x, MvPolynomial.eval x q = ∑ i, MvPolynomial.eval (X i) q * MvPolynomial.eval x (ℓ i) := by
  let V := MvPolynomial.restrictTotalDegree (Fin m) ℝ d
  let L : V →ₗ[ℝ] (Fin M → ℝ) :=
    { toFun := fun q i => MvPolynomial.eval (X i) q.1
      map_add' := fun a b => by funext i; simp
      map_smul' := fun a b => by funext i; simp [MvPolynomial.smul_eval] }
  have hL : LinearMap.ker L = ⊥ := by
    rw [LinearMap.ker_eq_bot']
    intro q hq
    have := hX q.1 ((MvPolynomial.mem_restrictTotalDegree (Fin m) d q.1).1 q.2) fun i => congrFun hq i
    exact Subtype.ext this
  obtain ⟨G, hG⟩ := L.exists_leftInverse_of_injective hL
  refine ⟨fun i => (G (Pi.single i 1)).1, fun i => (MvPolynomial.mem_restrictTotalDegree (Fin m) d _).1 (G (Pi.single i 1)).2, fun q hq x => ?_⟩
  have h1 : G (L ⟨q, (MvPolynomial.mem_restrictTotalDegree (Fin m) d q).2 hq⟩) = ⟨q, (MvPolynomial.mem_restrictTotalDegree (Fin m) d q).2 hq⟩ :=
    LinearMap.congr_fun hG _
  have h2 : L ⟨q, (MvPolynomial.mem_restrictTotalDegree (Fin m) d q).2 hq⟩ = ∑ i, MvPolynomial.eval (X i) q • (Pi.single i 1 : Fin M → ℝ) := by
    funext j
    rw [Finset.sum_apply, Finset.sum_eq_single j]
    · simp [L]
    · intro b _ hb
      simp [Pi.single_eq_of_ne hb.symm]
    · simp
  rw [h2, map_sum] at h1
  have h3 := congrArg (fun z : V => MvPolynomial.eval x z.1) h1
  simp only [map_smul, AddSubmonoidClass.coe_finset_sum, SetLike.val_smul, map_sum, MvPolynomial.smul_eval] at h3
  exact h3.symm

/-- A ridge polynomial is a polynomial of all the variables. -/
theorem IsRidge.poly {d : ℕ} {A : Matrix (Fin m) (Fin k) ℝ} {f : Pt m → ℝ} (h : IsRidge d A f) :
    ∃ q : MvPolynomial (Fin m) ℝ, q.totalDegree ≤ d ∧ ∀ x, f x = MvPolynomial.eval x q := by
  obtain ⟨q, hq, e⟩ := h
  obtain ⟨q', hq', e'⟩ := poly_affine Aᵀ 0 q
  exact ⟨q', hq'.trans hq, fun x => by rw [e, e', add_zero]⟩

/-- What a ridge fit returns is such a function. -/
theorem ridge_isRidge {d : ℕ} (R : Ridge m n N) (hB : IsPolyBasis d R.basis) : IsRidge d R.U R.eval := by
  obtain ⟨q, hq, e⟩ := poly_of_coef hB R.coef
  exact ⟨q, hq, fun x => e _⟩

/-! ## Identification -/

/-- **C166**: a factor exists exactly for samples that determine the polynomials of the degree, and it can then be chosen as a continuous function of the place. -/
theorem controls_exists {d : ℕ} {X : Fin M → Pt m} (hX : Unisolvent d X) : ∃ C : Pt m → ℝ, Continuous C ∧ (∀ x, 0 ≤ C x) ∧ Controls d X C := by
  obtain ⟨ℓ, -, hl⟩ := lagrange_exists hX
  refine ⟨fun x => ∑ i, |MvPolynomial.eval x (ℓ i)|, ?_, fun x => Finset.sum_nonneg fun i _ => abs_nonneg _, ?_⟩
  · exact continuous_finset_sum _ fun i _ => (MvPolynomial.continuous_eval (ℓ i)).abs
  intro q hq e he x
  rw [hl q hq x, Finset.sum_mul]
  refine (Finset.abs_sum_le_sum_abs _ _).trans (Finset.sum_le_sum fun i _ => ?_)
  rw [abs_mul, mul_comm]
  exact mul_le_mul_of_nonneg_left (he i) (abs_nonneg _)

theorem controls_unisolvent {d : ℕ} {X : Fin M → Pt m} {C : Pt m → ℝ} (hC : Controls d X C) : Unisolvent d X := by
  intro q hq h0
  refine MvPolynomial.funext fun x => ?_
  have := hC q hq 0 (fun i => by rw [h0 i, abs_zero]) x
  rw [mul_zero] at this
  rw [map_zero]
  exact abs_nonpos_iff.1 this

/-- **C166**: a ridge function with a small misfit at samples that determine the polynomials of the degree is close everywhere, whatever its subspace. -/
theorem recover_stable {d : ℕ} {X : Fin M → Pt m} {C : Pt m → ℝ} (hC : Controls d X C) {A : Matrix (Fin m) (Fin k) ℝ} {f : Pt m → ℝ} (hf : IsRidge d A f)
    {R : Ridge m n N} (hB : IsPolyBasis d R.basis) {e : ℝ} (he : ∀ i, |R.eval (X i) - f (X i)| ≤ e) (x : Pt m) : |R.eval x - f x| ≤ C x * e := by
  obtain ⟨q, hq, hqe⟩ := hf.poly
  obtain ⟨r, hr, hre⟩ := (ridge_isRidge R hB).poly
  have := hC (r - q) ((MvPolynomial.totalDegree_sub _ _).trans (max_le hr hq)) e (fun i => by rw [map_sub, ← hre, ← hqe]; exact he i) x
  rwa [map_sub, ← hre, ← hqe] at this

/-- **C166**: a fit at least as close to the data as the function itself is close to the function, if the data are. -/
theorem recover_noise {d : ℕ} {X : Fin M → Pt m} {C : Pt m → ℝ} (hC : Controls d X C) {A : Matrix (Fin m) (Fin k) ℝ} {f : Pt m → ℝ} (hf : IsRidge d A f)
    {R : Ridge m n N} (hB : IsPolyBasis d R.basis) {p : PNorm} (hp : p ≠ .other) {fX : Pt M}
    (h : pnorm p ((fun i => R.eval (X i)) - fX) ≤ pnorm p ((fun i => f (X i)) - fX)) (x : Pt m) :
    |R.eval x - f x| ≤ C x * (2 * pnorm p ((fun i => f (X i)) - fX)) := by
  refine recover_stable hC hf hB (fun i => ?_) x
  have h1 := (abs_le_fitnorm hp ((fun i => R.eval (X i)) - fX) i).trans h
  have h2 := abs_le_fitnorm hp ((fun i => f (X i)) - fX) i
  simp only [Pi.sub_apply] at h1 h2
  have h3 : R.eval (X i) - f (X i) = (R.eval (X i) - fX i) - (f (X i) - fX i) := by ring
  rw [h3]
  refine (abs_sub _ _).trans ?_
  linarith

/-- **C166**: without misfit the function is the fit. -/
theorem recover_exact {d : ℕ} {X : Fin M → Pt m} (hX : Unisolvent d X) {A : Matrix (Fin m) (Fin k) ℝ} {f : Pt m → ℝ} (hf : IsRidge d A f) {R : Ridge m n N}
    (hB : IsPolyBasis d R.basis) (h : ∀ i, R.eval (X i) = f (X i)) (x : Pt m) : R.eval x = f x :=
  congrFun (same_of_unisolvent hX (ridge_isRidge R hB).poly hf.poly h) x

/-- **C166**: a fit that equals the function has all the directions the function depends on. -/
theorem recover_directions {A : Matrix (Fin m) (Fin k) ℝ} {f : Pt m → ℝ} (hA : Essential A f) {R : Ridge m n N} (h : ∀ x, R.eval x = f x) (v : Pt m)
    (hv : R.Uᵀ *ᵥ v = 0) : Aᵀ *ᵥ v = 0 := by
  refine hA v fun x t => ?_
  rw [← h, ← h]
  unfold Ridge.eval projY
  rw [Matrix.mulVec_add, Matrix.mulVec_smul, hv, smul_zero, add_zero]

/-- **C166**: with orthonormal columns the subspace of the function lies in the subspace of the fit; with as many directions as the function has, the subspaces are
the same. -/
theorem recover_subspace {A : Matrix (Fin m) (Fin k) ℝ} {f : Pt m → ℝ} (hA : Essential A f) {R : Ridge m n N} (hU : R.Uᵀ * R.U = 1) (h : ∀ x, R.eval x = f x) :
    A = R.U * (R.Uᵀ * A) ∧ (k = n → Aᵀ * A = 1 → R.U * R.Uᵀ = A * Aᵀ) := by
  have h1 : A = R.U * (R.Uᵀ * A) := by
    have key : Aᵀ * (1 - R.U * R.Uᵀ) = 0 := by
      ext i j
      have := recover_directions hA h ((1 - R.U * R.Uᵀ) *ᵥ Pi.single j 1) (by
        rw [Matrix.mulVec_mulVec, Matrix.mul_sub, Matrix.mul_one, ← Matrix.mul_assoc, hU, Matrix.one_mul, sub_self, Matrix.zero_mulVec])
      rw [Matrix.mulVec_mulVec] at this
      have := congrFun this i
      rw [Matrix.mulVec_single_one] at this
      exact this
    have e := congrArg Matrix.transpose key
    rw [Matrix.transpose_mul, Matrix.transpose_transpose, Matrix.transpose_sub, Matrix.transpose_one, Matrix.transpose_mul, Matrix.transpose_transpose,
      Matrix.transpose_zero, Matrix.sub_mul, Matrix.one_mul, sub_eq_zero, Matrix.mul_assoc] at e
    exact e
  refine ⟨h1, fun hk hAA => ?_⟩
  subst hk
  set T := R.Uᵀ * A with hT
  have hTT : Tᵀ * T = 1 := by
    rw [h1, Matrix.transpose_mul, Matrix.mul_assoc, ← Matrix.mul_assoc R.Uᵀ, hU, Matrix.one_mul] at hAA
    exact hAA
  have hTT' : T * Tᵀ = 1 := mul_eq_one_comm.1 hTT
  clear_value T
  rw [h1, Matrix.transpose_mul, Matrix.mul_assoc, ← Matrix.mul_assoc T, hTT', Matrix.one_mul]

/-- **C166**: a polynomial with independent partial derivatives depends on all its directions. -/
theorem essential_of_slopes {A B : Matrix (Fin m) (Fin k) ℝ} (hA : Aᵀ * B = 1) {q : MvPolynomial (Fin k) ℝ}
    (hq : ∀ c : Pt k, (∀ y, ∑ l, c l * MvPolynomial.eval y (MvPolynomial.pderiv l q) = 0) → c = 0) :
    Essential A fun x => MvPolynomial.eval (Aᵀ *ᵥ x) q := by
  intro v hv
  refine hq _ fun y => ?_
  have h1 := hasDerivAt_poly q y (Aᵀ *ᵥ v)
  have h2 : (fun t : ℝ => MvPolynomial.eval (y + t • (Aᵀ *ᵥ v)) q) = fun _ => MvPolynomial.eval y q := by
    funext t
    have : MvPolynomial.eval (Aᵀ *ᵥ (B *ᵥ y + t • v)) q = MvPolynomial.eval (Aᵀ *ᵥ (B *ᵥ y)) q := hv (B *ᵥ y) t
    rw [Matrix.mulVec_add, Matrix.mulVec_smul, Matrix.mulVec_mulVec, hA, Matrix.one_mulVec] at this
    exact this
  rw [h2] at h1
  exact h1.unique (hasDerivAt_const _ _)

/-! ## The fits -/

/-- Exact data: everything is recovered. -/
theorem recover_all {d : ℕ} {X : Fin M → Pt m} {C : Pt m → ℝ} (hC : Controls d X C) {A : Matrix (Fin m) (Fin n) ℝ} (hA : Aᵀ * A = 1) {f : Pt m → ℝ}
    (hf : IsRidge d A f) {R : Ridge m n N} (hB : IsPolyBasis d R.basis) (hU : R.Uᵀ * R.U = 1) {p : PNorm} (hp : p ≠ .other) {fX : Pt M}
    (h : pnorm p ((fun i => R.eval (X i)) - fX) ≤ pnorm p ((fun i => f (X i)) - fX)) (he : ∀ i, fX i = f (X i)) :
    (∀ x, R.eval x = f x) ∧ (Essential A f → R.U * R.Uᵀ = A * Aᵀ) := by
  have h0 : ∀ x, R.eval x = f x := fun x => by
    have := recover_noise hC hf hB hp h x
    have e : (fun i => f (X i)) - fX = 0 := by
      funext i
      rw [Pi.sub_apply, he, sub_self, Pi.zero_apply]
    rw [e, pnorm_zero_vec, mul_zero, mul_zero] at this
    exact sub_eq_zero.1 (abs_nonpos_iff.1 this)
  exact ⟨h0, fun hE => (recover_subspace hE hU h0).2 rfl hA⟩

/-- **C166**: the alternating fit started at the subspace of the function, in every norm and under every bound the function respects. The hypothesis `hfin` says that
the final choice of signs erases no direction. -/
theorem alt_recovers_partial {d : ℕ} (S : FitSolver) (hS : S.Exact) (mk : (Fin M → Pt n) → BasisObj n N) (hmk : ∀ Y, IsPolyBasis d (mk Y))
    (svdU : (Fin M → Pt n) → Matrix (Fin n) (Fin n) ℝ) (p : PNorm) (hp : p ≠ .other) (bound : Bound) (rotate : Bool) (hn : n ≤ m)
    (svd : Matrix (Fin m) (Fin n) ℝ → TSvd m n) (hsvd : ∀ A, IsTSvd A (svd A))
    (qr : Matrix (Fin m) (Fin n) ℝ → Matrix (Fin m) (Fin n) ℝ × Matrix (Fin n) (Fin n) ℝ) (hqr : ∀ A, IsRQr A (qr A))
    (X : Fin M → Pt m) (fX : Pt M) (maxiter btMax : ℕ) (tolDx tolObj : ℝ) (verbose : Bool)
    (solve : Pt (m * n + N) → Pt M → Matrix (Fin M) (Fin (m * n + N)) ℝ → Option ℝ → LPRes (m * n + N))
    (U0 : Matrix (Fin m) (Fin n) ℝ) (hU0 : U0ᵀ * U0 = 1) (R : Ridge m n N)
    (h : fitAlternating S mk svdU p bound rotate X fX (altArgs S mk p bound hn svd qr X fX maxiter btMax tolDx tolObj verbose solve) U0 = .ok R)
    (hfin : R.Uᵀ * R.U = 1) {f : Pt m → ℝ} (hf : IsRidge d U0 f) (hb : RespectsBound bound (fun i => f (X i)) fX) {C : Pt m → ℝ} (hC : Controls d X C) :
    (∀ x, |R.eval x - f x| ≤ C x * (2 * pnorm p ((fun i => f (X i)) - fX))) ∧
      ((∀ i, fX i = f (X i)) → (∀ x, R.eval x = f x) ∧ (Essential U0 f → R.U * R.Uᵀ = U0 * U0ᵀ)) := by
  have hB : IsPolyBasis d R.basis := by
    unfold fitAlternating at h
    split at h
    · cases h
    · split at h
      · cases h
      · rw [fitCoef_basis (finish_factor (liftE_ok h)).2]
        exact hmk _
  obtain ⟨q, hq, e⟩ := hf
  obtain ⟨c, hc⟩ := coef_of_poly (hmk fun i => projY U0 (X i)) hq
  have e' : (fun i => (⟨mk fun i => projY U0 (X i), c, U0⟩ : Ridge m n N).eval (X i)) = fun i => f (X i) := by
    funext i
    rw [e]
    exact hc _
  have hle := (alt_fit_partial S hS mk hmk svdU p hp bound rotate hn svd hsvd qr hqr X fX maxiter btMax tolDx tolObj verbose solve U0 hU0 R h hfin).2
    (mk fun i => projY U0 (X i)) c (hmk _) (by rw [e']; exact hb)
  rw [e'] at hle
  exact ⟨recover_noise hC ⟨q, hq, e⟩ hB hp hle, recover_all hC hU0 ⟨q, hq, e⟩ hB hfin hp hle⟩

/-- **C166**: the same for the variable projection and the 2-norm: `_fit_varpro` followed by `_finish`. -/
theorem varpro_recovers_partial {d : ℕ} (S : FitSolver) (hS : S.Exact) (hn : n ≤ m) (svdJ : Matrix (Fin M) (Fin (m * n)) ℝ → TSvd M (m * n)) (hsvdJ : ∀ A, IsTSvd A (svdJ A))
    (svdD : Matrix (Fin m) (Fin n) ℝ → TSvd m n) (hsvdD : ∀ A, IsTSvd A (svdD A))
    (qr : Matrix (Fin m) (Fin (min m n)) ℝ → Matrix (Fin m) (Fin (min m n)) ℝ × Matrix (Fin (min m n)) (Fin (min m n)) ℝ)
    (hqr : ∀ A, IsRQr A (qr A)) (mk : (Fin M → Pt n) → BasisObj n N) (hmk : ∀ Y, IsPolyBasis d (mk Y))
    (coef : Matrix (Fin M) (Fin N) ℝ → Pt M → Pt N) (dec : Matrix (Fin M) (Fin N) ℝ → VDec M N) (X : Fin M → Pt m) (fX : Pt M)
    (hcoef : ∀ U : Matrix (Fin m) (Fin n) ℝ, IsLsq (vandU (mk fun i => projY U (X i)) X U) fX (coef (vandU (mk fun i => projY U (X i)) X U) fX))
    (hfull : ∀ U : Matrix (Fin m) (Fin n) ℝ, Uᵀ * U = 1 → let V := vandU (mk fun i => projY U (X i)) X U
      FullRank V (dec V).Y (dec V).s (dec V).ZT)
    (tol tolDx : ℝ) (maxiter verbose : ℤ) (U0 : Matrix (Fin m) (Fin n) ℝ) (hU0 : U0ᵀ * U0 = 1) (u : Pt (m * n)) (j : ℕ)
    (h : gaussNewton (varproArgs hn svdJ svdD qr mk coef dec X fX tol tolDx maxiter verbose) (flat U0) = .ok (u, j))
    (svdU : (Fin M → Pt n) → Matrix (Fin n) (Fin n) ℝ) (rotate : Bool) (R : Ridge m n N) (hR : finish S mk svdU .two .none rotate X fX (unflat u) = .ok R)
    (hfin : R.Uᵀ * R.U = 1) {f : Pt m → ℝ} (hf : IsRidge d U0 f) {C : Pt m → ℝ} (hC : Controls d X C) :
    (∀ x, |R.eval x - f x| ≤ C x * (2 * nrm ((fun i => f (X i)) - fX))) ∧
      ((∀ i, fX i = f (X i)) → (∀ x, R.eval x = f x) ∧ (Essential U0 f → R.U * R.Uᵀ = U0 * U0ᵀ)) := by
  obtain ⟨g1, g2⟩ := varpro_fit hn svdJ hsvdJ svdD hsvdD qr hqr mk hmk coef dec X fX hcoef hfull tol tolDx maxiter verbose U0 hU0 u j h
  obtain ⟨⟨Q, hQ⟩, hRc⟩ := finish_factor hR
  have hB : IsPolyBasis d R.basis := by
    rw [fitCoef_basis hRc]
    exact hmk _
  have hQQ : Q * Qᵀ = 1 := by
    refine mul_eq_one_comm.1 ?_
    rw [hQ, Matrix.transpose_mul, Matrix.mul_assoc, ← Matrix.mul_assoc _ _ Q, g1, Matrix.one_mul] at hfin
    exact hfin
  obtain ⟨q, hq, e⟩ := hf
  obtain ⟨c, hc⟩ := coef_of_poly (hmk fun i => projY U0 (X i)) hq
  -- the residual at the start
  have s1 : nrm (varproResidual mk coef X fX U0) ≤ nrm ((fun i => f (X i)) - fX) := by
    have := hcoef U0 c
    have e' : vandU (mk fun i => projY U0 (X i)) X U0 *ᵥ c = fun i => f (X i) := by
      funext i
      rw [e]
      exact hc _
    rw [e'] at this
    unfold nrm
    refine Real.sqrt_le_sqrt ?_
    have e2 : ((fun i => f (X i)) - fX) ⬝ᵥ ((fun i => f (X i)) - fX) = (fX - fun i => f (X i)) ⬝ᵥ (fX - fun i => f (X i)) := by
      rw [← neg_sub fX, neg_dotProduct_neg]
    rw [e2]
    exact this
  -- the final fit
  have s2 : pnorm .two ((fun i => R.eval (X i)) - fX) ≤ nrm (varproResidual mk coef X fX (unflat u)) := by
    rw [hQ] at hRc
    have := fit_same_subspace S hS mk hmk .two .none X fX (unflat u) hQQ (hmk fun i => projY (unflat u) (X i)) hRc
      (c := coef (vandU (mk fun i => projY (unflat u) (X i)) X (unflat u)) fX) trivial
    have e2 : (⟨R.basis, R.coef, unflat u * Q⟩ : Ridge m n N) = R := by
      rw [← hQ]
    rw [e2] at this
    refine this.trans (le_of_eq ?_)
    change nrm _ = nrm _
    unfold nrm
    rw [← neg_sub fX, neg_dotProduct_neg]
    rfl
  have hle : pnorm .two ((fun i => R.eval (X i)) - fX) ≤ pnorm .two ((fun i => f (X i)) - fX) := s2.trans (g2.trans s1)
  exact ⟨recover_noise hC ⟨q, hq, e⟩ hB (by simp) hle, recover_all hC hU0 ⟨q, hq, e⟩ hB hfin (by simp) hle⟩

/-- **C166**: fits of degree one with one direction and no bound (`_fit_affine`) need no starting point: affine functions are recovered, and the direction is that of
the slope. -/
theorem affine_recovers (S : FitSolver) (hS : S.Exact) {mk : (Fin M → Pt 1) → BasisObj 1 N} (hmk : ∀ Y, IsPolyBasis 1 (mk Y))
    {svdU : (Fin M → Pt 1) → Matrix (Fin 1) (Fin 1) ℝ} {p : PNorm} (hp : p ≠ .other) {rotate : Bool}
    {opt : (Fin M → Pt m) → Pt M → Except Err (Matrix (Fin m) (Fin 1) ℝ)} {X : Fin M → Pt m} {fX : Pt M} {R : Ridge m 1 N}
    (h : ridgeFit S 1 mk svdU p .none rotate opt X fX = .ok R) (a : Pt m) (b : ℝ) {C : Pt m → ℝ} (hC : Controls 1 X C) :
    (∀ x, |R.eval x - (a ⬝ᵥ x + b)| ≤ C x * (2 * pnorm p ((fun i => a ⬝ᵥ X i + b) - fX))) ∧
      ((∀ i, fX i = a ⬝ᵥ X i + b) → (∀ x, R.eval x = a ⬝ᵥ x + b) ∧ ∃ s : ℝ, ∀ i, a i = s * R.U i 0) := by
  have hB : IsPolyBasis 1 R.basis := by
    rw [fitCoef_basis (ridgeFit_affine h).2]
    exact hmk _
  have hmk' : AffineBasis mk := by
    intro Y s t
    have hd : (MvPolynomial.C s * MvPolynomial.X 0 + MvPolynomial.C t : MvPolynomial (Fin 1) ℝ).totalDegree ≤ 1 := by
      refine (MvPolynomial.totalDegree_add _ _).trans (max_le ((MvPolynomial.totalDegree_mul _ _).trans ?_) (by simp))
      rw [MvPolynomial.totalDegree_C, zero_add, MvPolynomial.totalDegree_X]
    obtain ⟨c, hc⟩ := coef_of_poly (hmk Y) hd
    exact ⟨c, fun y => by rw [hc]; simp⟩
  have hle := affine_optimal S hS hmk' h a b
  set A : Matrix (Fin m) (Fin 1) ℝ := Matrix.of fun i _ => a i with hA
  have hAx : ∀ x, (Aᵀ *ᵥ x) 0 = a ⬝ᵥ x := fun x => rfl
  have hf : IsRidge 1 A fun x => a ⬝ᵥ x + b := by
    refine ⟨MvPolynomial.X 0 + MvPolynomial.C b, (MvPolynomial.totalDegree_add _ _).trans (max_le (by rw [MvPolynomial.totalDegree_X]) (by simp)), fun x => ?_⟩
    simp [hAx]
  refine ⟨recover_noise hC hf hB hp hle, fun he => ?_⟩
  have h0 : ∀ x, R.eval x = a ⬝ᵥ x + b := fun x => by
    have := recover_noise hC hf hB hp hle x
    have e : (fun i => a ⬝ᵥ X i + b) - fX = 0 := by
      funext i
      rw [Pi.sub_apply, he, sub_self, Pi.zero_apply]
    rw [e, pnorm_zero_vec, mul_zero, mul_zero] at this
    exact sub_eq_zero.1 (abs_nonpos_iff.1 this)
  have hE : Essential A fun x => a ⬝ᵥ x + b := by
    intro v hv
    have := hv 0 1
    simp only [zero_add, one_smul, dotProduct_zero] at this
    funext i
    rw [Subsingleton.elim i 0, hAx]
    simpa using this
  have h1 := (recover_subspace hE (affine_unit (ridgeFit_affine h).1) h0).1
  refine ⟨h0, (R.Uᵀ * A) 0 0, fun i => ?_⟩
  have := congrFun (congrFun h1 i) 0
  rw [Matrix.mul_apply, Fin.sum_univ_one] at this
  rw [mul_comm]
  exact this

/-! ## Samples that pass the check of `fit` are not enough -/

/-- The samples `(0,0), (±1,±1)`. -/
def diagX : Fin 5 → Pt 2 := ![![0, 0], ![1, 1], ![1, -1], ![-1, 1], ![-1, -1]]

/-- **C166** for samples that only pass the check of `fit` is false: five samples are enough for a quadratic of one direction in the plane (four parameters), but the
values of `x₀²` at `(0,0), (±1,±1)` are reproduced by the fit along `x₁`, which differs from the function between the samples and has the wrong direction. -/
theorem recover_false (S : FitSolver) (hS : S.Exact) (mk : (Fin 5 → Pt 1) → BasisObj 1 N) (hmk : ∀ Y, IsPolyBasis 2 (mk Y))
    (svdU : (Fin 5 → Pt 1) → Matrix (Fin 1) (Fin 1) ℝ) (R : Ridge 2 1 N)
    (h : fitFixed S mk svdU .two .none false diagX (fun i => diagX i 0 ^ 2) (Matrix.of ![![0], ![1]] : Matrix (Fin 2) (Fin 1) ℝ) = .ok R) :
    nParam 2 1 2 ≤ 5 ∧ IsRidge 2 (Matrix.of ![![1], ![0]] : Matrix (Fin 2) (Fin 1) ℝ) (fun x => x 0 ^ 2) ∧ (∀ i, R.eval (diagX i) = diagX i 0 ^ 2) ∧
      R.U = Matrix.of ![![0], ![1]] ∧ R.eval ![0, 1] = 1 := by
  have hU : R.U = Matrix.of ![![0], ![1]] := by
    unfold fitFixed at h
    rw [dif_pos ⟨rfl, rfl⟩] at h
    exact finish_no_rotate S mk svdU .two .none diagX _ _ R h
  have h1 := (fitFixed_recovers_partial S hS mk hmk svdU .two (by simp) .none false diagX _ _ R h (Or.inl rfl) (q := MvPolynomial.X 0 ^ 2)
    (by rw [MvPolynomial.totalDegree_X_pow]) (fun i => by
      fin_cases i <;> simp [diagX, projY, Matrix.mulVec, dotProduct, Fin.sum_univ_two])).1
  refine ⟨by unfold nParam; decide, ⟨MvPolynomial.X 0 ^ 2, by rw [MvPolynomial.totalDegree_X_pow], fun x => ?_⟩, h1, hU, ?_⟩
  · simp [Matrix.mulVec, dotProduct, Fin.sum_univ_two]
  · have e : R.eval ![0, 1] = R.eval (diagX 1) := by
      unfold Ridge.eval projY
      rw [hU]
      congr 2
      funext i
      fin_cases i
      simp [diagX, Matrix.mulVec, dotProduct, Fin.sum_univ_two]
    rw [e, h1]
    simp [diagX]

/-! ## Cases that meet the hypotheses -/

/-- The nine samples of a grid determine the quadratics of the plane, and `x₀²` depends on its one direction. -/
example : (∃ C, Controls 2 gridX C) ∧ IsRidge 2 (Matrix.of ![![1], ![0]] : Matrix (Fin 2) (Fin 1) ℝ) (fun x => x 0 ^ 2) ∧
    Essential (Matrix.of ![![1], ![0]] : Matrix (Fin 2) (Fin 1) ℝ) fun x => x 0 ^ 2 := by
  have hx : ∀ x : Pt 2, MvPolynomial.eval ((Matrix.of ![![1], ![0]] : Matrix (Fin 2) (Fin 1) ℝ)ᵀ *ᵥ x) (MvPolynomial.X 0 ^ 2) = x 0 ^ 2 := by
    intro x
    simp [Matrix.mulVec, dotProduct, Fin.sum_univ_two]
  refine ⟨?_, ⟨MvPolynomial.X 0 ^ 2, by rw [MvPolynomial.totalDegree_X_pow], fun x => (hx x).symm⟩, ?_⟩
  · obtain ⟨C, -, -, h⟩ := controls_exists grid_unisolvent
    exact ⟨C, h⟩
  · have := essential_of_slopes (A := (Matrix.of ![![1], ![0]] : Matrix (Fin 2) (Fin 1) ℝ)) (B := Matrix.of ![![1], ![0]]) (q := MvPolynomial.X 0 ^ 2)
      (by ext i j; fin_cases i; fin_cases j; simp [Matrix.mul_apply, Fin.sum_univ_two]) (fun c hc => by
        have := hc fun _ => 1
        funext i
        fin_cases i
        simpa [MvPolynomial.pderiv_X] using this)
    simp only [hx] at this
    exact this

/-- The run of `recover_false` exists. -/
example (svdU : (Fin 5 → Pt 1) → Matrix (Fin 1) (Fin 1) ℝ) : (∀ Y : Fin 5 → Pt 1, IsPolyBasis 2 ((tensorMk Verif.Basis.monoFamily 2 1 fun _ => .none) Y)) ∧
    ∃ R, fitFixed idealSolver (tensorMk Verif.Basis.monoFamily 2 1 fun _ => .none) svdU .two .none false diagX (fun i => diagX i 0 ^ 2)
      (Matrix.of ![![0], ![1]] : Matrix (Fin 2) (Fin 1) ℝ) = .ok R := by
  have hmk := tensorMk_poly (M := 5) mono_graded Verif.Basis.mono_good 2 (n := 1) le_rfl fun _ => .none
  refine ⟨hmk, ?_⟩
  unfold fitFixed
  rw [dif_pos ⟨rfl, rfl⟩]
  exact finish_ok_two idealSolver_answers _ svdU false diagX _ _

/-- Two samples determine the affine functions of one variable. -/
example : ∃ C, Controls 1 (![![-1], ![1]] : Fin 2 → Pt 1) C := by
  have := unisolvent_line (M := 2) (d := 1) (by norm_num) (t := ![-1, 1]) (by
    intro a b hab
    fin_cases a <;> fin_cases b <;> simp at hab ⊢ <;> norm_num at hab)
  have e : (![![-1], ![1]] : Fin 2 → Pt 1) = fun i => (fun _ => (![-1, 1] : Fin 2 → ℝ) i : Pt 1) := by
    funext i k
    fin_cases k
    fin_cases i <;> rfl
  rw [e]
  obtain ⟨C, -, -, h⟩ := controls_exists this
  exact ⟨C, h⟩

end Verif.Func
