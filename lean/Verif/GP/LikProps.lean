import Verif.GP.LikModel
import Verif.GP.Props
import Mathlib.Analysis.Calculus.Deriv.Mul
import Mathlib.Analysis.Calculus.Deriv.Add
import Mathlib.Analysis.Calculus.Deriv.Pow
import Mathlib.Analysis.SpecialFunctions.Log.Deriv
import Mathlib.Analysis.SpecialFunctions.ExpDeriv
import Mathlib.LinearAlgebra.Matrix.Adjugate
import Mathlib.Topology.Instances.Matrix

/-!
# The gradient of the marginal likelihood is its derivative (C84)
-/

namespace Verif.GP

open Verif Verif.Lip Matrix Filter Topology

variable {m M q : ℕ}

/-! ## Calculus of determinants and linear systems -/

/-- Jacobi's formula along a curve. -/
theorem hasDerivAt_det {n : Type} [Fintype n] [DecidableEq n] {B : ℝ → Matrix n n ℝ} {B' : Matrix n n ℝ} {t : ℝ}
    (h : ∀ i j, HasDerivAt (fun s => B s i j) (B' i j) t) : HasDerivAt (fun s => (B s).det) (((B t).adjugate * B').trace) t := by
  have h1 : HasDerivAt (fun s => ∑ σ : Equiv.Perm n, ((Equiv.Perm.sign σ : ℤ) : ℝ) * ∏ i, B s (σ i) i)
      (∑ σ : Equiv.Perm n, ((Equiv.Perm.sign σ : ℤ) : ℝ) * ∑ i, (∏ j ∈ Finset.univ.erase i, B t (σ j) j) • B' (σ i) i) t := by
    refine HasDerivAt.fun_sum fun σ _ => HasDerivAt.const_mul _ ?_
    exact HasDerivAt.fun_finsetProd fun i _ => h (σ i) i
  have e1 : (fun s => (B s).det) = fun s => ∑ σ : Equiv.Perm n, ((Equiv.Perm.sign σ : ℤ) : ℝ) * ∏ i, B s (σ i) i := by
    funext s; exact Matrix.det_apply' _
  rw [e1]
  refine h1.congr_deriv ?_
  have e2 : ((B t).adjugate * B').trace = ∑ i, ((B t).updateCol i fun r => B' r i).det := by
    refine Finset.sum_congr rfl fun i _ => ?_
    rw [← Matrix.cramer_apply, Matrix.cramer_eq_adjugate_mulVec]
    rfl
  rw [e2]
  simp only [Matrix.det_apply', Finset.mul_sum]
  rw [Finset.sum_comm]
  refine Finset.sum_congr rfl fun i _ => Finset.sum_congr rfl fun σ _ => ?_
  congr 1
  rw [← Finset.mul_prod_erase Finset.univ _ (Finset.mem_univ i), Matrix.updateCol_self, smul_eq_mul, mul_comm]
  congr 1
  refine Finset.prod_congr rfl fun j hj => ?_
  rw [Matrix.updateCol_ne (Finset.ne_of_mem_erase hj)]

/-- The derivative of `b·x` where `A x = b` with `A` symmetric. -/
theorem hasDerivAt_solve {n : Type} [Fintype n] [DecidableEq n] {A : ℝ → Matrix n n ℝ} {A' : Matrix n n ℝ} {t : ℝ} {b : n → ℝ} {x : ℝ → n → ℝ}
    (h : ∀ i j, HasDerivAt (fun s => A s i j) (A' i j) t) (hsym : ∀ s, (A s)ᵀ = A s) (hdet : (A t).det ≠ 0) (hx : ∀ᶠ s in 𝓝 t, A s *ᵥ x s = b) :
    HasDerivAt (fun s => b ⬝ᵥ x s) (-(x t ⬝ᵥ (A' *ᵥ x t))) t := by
  have hxt : A t *ᵥ x t = b := hx.self_of_nhds
  have hcont : ContinuousAt A t := by
    refine continuousAt_pi.2 fun i => continuousAt_pi.2 fun j => (h i j).continuousAt
  have hdet' : ∀ᶠ s in 𝓝 t, (A s).det ≠ 0 :=
    (((continuous_id.matrix_det).continuousAt.comp hcont : ContinuousAt (fun s => (A s).det) t)).eventually_ne hdet
  -- the solution is continuous
  have hxeq : ∀ᶠ s in 𝓝 t, x s = (A s)⁻¹ *ᵥ b := by
    filter_upwards [hx, hdet'] with s hs hd
    rw [← hs, mulVec_mulVec, Matrix.nonsing_inv_mul _ (isUnit_iff_ne_zero.2 hd), one_mulVec]
  have hxc : ContinuousAt x t := by
    have hinv : ContinuousAt (fun s => ((A s).det)⁻¹ • ((A s).adjugate *ᵥ b)) t := by
      have c1 : ContinuousAt (fun s => ((A s).det)⁻¹) t :=
        ContinuousAt.inv₀ ((continuous_id.matrix_det).continuousAt.comp hcont) hdet
      have c2 : ContinuousAt (fun s => (A s).adjugate *ᵥ b) t := by
        have : Continuous fun B : Matrix n n ℝ => B.adjugate *ᵥ b := (continuous_id.matrix_adjugate).matrix_mulVec continuous_const
        exact this.continuousAt.comp hcont
      exact c1.smul c2
    refine hinv.congr ?_
    filter_upwards [hxeq] with s hs
    rw [hs, Matrix.inv_def, Ring.inverse_eq_inv', smul_mulVec]
  -- the difference quotient
  rw [hasDerivAt_iff_tendsto_slope]
  have hq : ∀ᶠ s in 𝓝[≠] t, slope (fun s => b ⬝ᵥ x s) t s = -(∑ i, ∑ j, x t i * ((slope (fun s => A s i j) t s) * x s j)) := by
    filter_upwards [hx.filter_mono nhdsWithin_le_nhds] with s hs
    have e1 : b ⬝ᵥ x s = x t ⬝ᵥ (A t *ᵥ x s) := by
      rw [← hxt, dotProduct_mulVec, ← mulVec_transpose, hsym]
    have e2 : b ⬝ᵥ x t = x t ⬝ᵥ (A s *ᵥ x s) := by rw [hs, dotProduct_comm]
    simp only [slope_def_field]
    rw [e1, e2, ← dotProduct_sub, ← sub_mulVec, div_eq_inv_mul]
    simp only [dotProduct, mulVec, Finset.mul_sum, Matrix.sub_apply, ← Finset.sum_neg_distrib]
    refine Finset.sum_congr rfl fun i _ => Finset.sum_congr rfl fun j _ => ?_
    ring
  have hlim : Tendsto (fun s => -(∑ i, ∑ j, x t i * ((slope (fun s => A s i j) t s) * x s j))) (𝓝[≠] t) (𝓝 (-(∑ i, ∑ j, x t i * (A' i j * x t j)))) := by
    refine Tendsto.neg (tendsto_finsetSum _ fun i _ => tendsto_finsetSum _ fun j _ => ?_)
    refine Tendsto.const_mul _ (Tendsto.mul (hasDerivAt_iff_tendsto_slope.1 (h i j)) ?_)
    exact ((continuousAt_pi.1 hxc j).tendsto).mono_left nhdsWithin_le_nhds
  have e3 : x t ⬝ᵥ (A' *ᵥ x t) = ∑ i, ∑ j, x t i * (A' i j * x t j) := by
    simp only [dotProduct, mulVec, Finset.mul_sum]
  rw [e3]
  exact hlim.congr' (hq.mono fun s hs => hs.symm)

/-! ## The kernel matrix along a curve -/

theorem hasDerivAt_kern {L : ℝ → Matrix (Fin m) (Fin m) ℝ} {dL : Matrix (Fin m) (Fin m) ℝ} {t : ℝ}
    (h : ∀ i j, HasDerivAt (fun s => L s i j) (dL i j) t) (X : Fin M → Pt m) (i j : Fin M) :
    HasDerivAt (fun s => kernMat (images (L s) X) i j) (dKgen X (L t) dL i j) t := by
  have himg : ∀ a r, HasDerivAt (fun s => images (L s) X a r) (images dL X a r) t := by
    intro a r
    have : HasDerivAt (fun s => ∑ k, L s r k * X a k) (∑ k, dL r k * X a k) t :=
      HasDerivAt.fun_sum fun k _ => (h r k).mul_const (X a k)
    exact this
  have hs : HasDerivAt (fun s => sqd (images (L s) X i) (images (L s) X j))
      (∑ r, 2 * (images (L t) X i r - images (L t) X j r) * (images dL X i r - images dL X j r)) t := by
    refine HasDerivAt.fun_sum fun r _ => ?_
    exact (((himg i r).sub (himg j r)).pow 2).congr_deriv (by simp)
  have := (hs.const_mul (-0.5)).exp
  refine this.congr_deriv ?_
  simp only [dKgen, Matrix.of_apply, kern, Finset.mul_sum, neg_mul]
  rw [Finset.sum_mul, ← Finset.sum_neg_distrib]
  exact Finset.sum_congr rfl fun r _ => by ring

/-! ## The gradient -/

theorem gpA_kept_det {τ : ℝ} {Y : Fin M → Pt m} {V : Matrix (Fin M) (Fin q) ℝ} {d : Eig (Fin M ⊕ Fin q)} (h : IsEig (gpA τ (kernMat Y) V) d)
    (hk : ∀ k, kept d k) : (gpA τ (kernMat Y) V).det ≠ 0 := by
  rw [h.2, det_mul, det_mul, det_diagonal, det_transpose]
  have hu : d.2.det ≠ 0 := by
    intro h0
    have := congrArg Matrix.det h.1
    rw [det_mul, det_transpose, h0, mul_zero, det_one] at this
    exact zero_ne_one this
  exact mul_ne_zero (mul_ne_zero hu (Finset.prod_ne_zero_iff.2 fun k _ => kept_ne (hk k))) hu

theorem IsEig.det_eq {ι : Type} [Fintype ι] [DecidableEq ι] {A : Matrix ι ι ℝ} {d : Eig ι} (h : IsEig A d) : A.det = ∏ k, d.1 k := by
  have h1 : d.2.det * d.2.det = 1 := by
    have := congrArg Matrix.det h.1
    rwa [det_mul, det_transpose, det_one] at this
  conv_lhs => rw [h.2]
  rw [det_mul, det_mul, det_diagonal, det_transpose, mul_right_comm, h1, one_mul]

theorem regK_symm (τ : ℝ) (Y : Fin M → Pt m) : (regK τ Y)ᵀ = regK τ Y := by
  rw [regK, transpose_add, kernMat_symm, transpose_smul, transpose_one]

/-- **C84, the general form.**  Along any differentiable curve of matrices `L`, the coded component of the gradient (with the
derivative `dL` of `L`) is the derivative of the coded objective, as long as no eigenvalue of the system is dropped nearby and
the regularized kernel matrix is positive definite. -/
theorem gp_grad_curve (e : Eighs M q) (he : EighsSpec e) (τ : ℝ) (V : Matrix (Fin M) (Fin q) ℝ) (y : Fin M → ℝ) (X : Fin M → Pt m)
    (L : ℝ → Matrix (Fin m) (Fin m) ℝ) (dL : Matrix (Fin m) (Fin m) ℝ) (t : ℝ) (h : ∀ i j, HasDerivAt (fun s => L s i j) (dL i j) t)
    (hkept : ∀ᶠ s in 𝓝 t, ∀ k, kept (e.big (gpA τ (kernMat (images (L s) X)) V)) k)
    (hpos : ∀ᶠ s in 𝓝 t, ∀ k, 0 < (e.small (regK τ (images (L s) X))).1 k) :
    HasDerivAt (fun s => gpObj e τ V y (images (L s) X)) (gpGrad e τ V y (images (L t) X) (dKgen X (L t) dL)) t := by
  have hK := hasDerivAt_kern h X
  set dK := dKgen X (L t) dL with hdK
  -- the quadratic term
  have hA : ∀ i j, HasDerivAt (fun s => gpA τ (kernMat (images (L s) X)) V i j) (fromBlocks dK 0 0 0 i j) t := by
    rintro (i | i) (j | j)
    · simp only [gpA, fromBlocks_apply₁₁, Matrix.add_apply]
      exact (hK i j).add_const ((τ • (1 : Matrix (Fin M) (Fin M) ℝ)) i j)
    · exact hasDerivAt_const t (V i j)
    · exact hasDerivAt_const t (V j i)
    · exact hasDerivAt_const t (0 : ℝ)
  have hb : ∀ s, y ⬝ᵥ gpAlpha e τ (images (L s) X) V y = gpB (q := q) y ⬝ᵥ gpX e τ (images (L s) X) V y := by
    intro s
    simp [dotProduct, Fintype.sum_sum_type, gpB, gpAlpha]
  have hquad := hasDerivAt_solve (A := fun s => gpA τ (kernMat (images (L s) X)) V) (b := gpB y) (x := fun s => gpX e τ (images (L s) X) V y) hA
    (fun s => gpA_symm _ _ _) (gpA_kept_det (he.big _ (gpA_symm _ _ _)) hkept.self_of_nhds) (by
      filter_upwards [hkept] with s hs
      exact (specSolve_iff (he.big _ (gpA_symm _ _ _)) _ (fun k hk => kept_ne hk) _).2 fun k hk => absurd (hs k) hk)
  have hq2 : gpX e τ (images (L t) X) V y ⬝ᵥ (fromBlocks dK 0 0 0 *ᵥ gpX e τ (images (L t) X) V y) =
      gpAlpha e τ (images (L t) X) V y ⬝ᵥ (gpAlpha e τ (images (L t) X) V y ᵥ* dK) := by
    rw [fromBlocks_mulVec]
    have : gpAlpha e τ (images (L t) X) V y ᵥ* dK = dK *ᵥ gpAlpha e τ (images (L t) X) V y := by
      have hs : dKᵀ = dK := by
        ext i j
        have hsym : ∀ i j, dK i j = dK j i := by
          intro i j
          rw [hdK]
          simp only [dKgen, Matrix.of_apply]
          rw [kern_symm]
          congr 2
          exact Finset.sum_congr rfl fun r _ => by ring
        exact hsym j i
      conv_rhs => rw [← hs, mulVec_transpose]
    rw [this]
    simp [dotProduct, Fintype.sum_sum_type, gpAlpha]
    rfl
  rw [hq2] at hquad
  -- the logarithmic term
  have hB : ∀ i j, HasDerivAt (fun s => regK τ (images (L s) X) i j) (dK i j) t := by
    intro i j
    simp only [regK, Matrix.add_apply]
    exact (hK i j).add_const ((τ • (1 : Matrix (Fin M) (Fin M) ℝ)) i j)
  have hsm := fun s => he.small (regK τ (images (L s) X)) (regK_symm _ _)
  have hdetpos : ∀ᶠ s in 𝓝 t, 0 < (regK τ (images (L s) X)).det := by
    filter_upwards [hpos] with s hs
    rw [(hsm s).det_eq]
    exact Finset.prod_pos fun k _ => hs k
  have hlog : HasDerivAt (fun s => ∑ k, Real.log ((e.small (regK τ (images (L s) X))).1 k))
      (((regK τ (images (L t) X)).adjugate * dK).trace / (regK τ (images (L t) X)).det) t := by
    have h1 := (hasDerivAt_det hB).log hdetpos.self_of_nhds.ne'
    refine h1.congr_of_eventuallyEq ?_
    filter_upwards [hpos] with s hs
    rw [(hsm s).det_eq, Real.log_prod fun k _ => (hs k).ne']
  have htr : ((regK τ (images (L t) X)).adjugate * dK).trace / (regK τ (images (L t) X)).det =
      ((e.small (regK τ (images (L t) X))).2 *
        Matrix.of (fun k j => ((e.small (regK τ (images (L t) X))).2ᵀ * dK) k j / (e.small (regK τ (images (L t) X))).1 k)).trace := by
    set B := regK τ (images (L t) X) with hBdef
    have hd := hsm t
    set d := e.small B with hddef
    have hdet : B.det ≠ 0 := hdetpos.self_of_nhds.ne'
    have hnz : ∀ k, d.1 k ≠ 0 := fun k => (hpos.self_of_nhds k).ne'
    have hinv : d.2 * Matrix.of (fun k j => (d.2ᵀ * dK) k j / d.1 k) = B⁻¹ * dK := by
      have e1 : Matrix.of (fun k j => (d.2ᵀ * dK) k j / d.1 k) = Matrix.diagonal (fun k => (d.1 k)⁻¹) * (d.2ᵀ * dK) := by
        ext k j
        rw [diagonal_mul, Matrix.of_apply, div_eq_inv_mul]
      have e2 : B * (d.2 * Matrix.diagonal (fun k => (d.1 k)⁻¹) * d.2ᵀ) = 1 := by
        have hd2 : B = d.2 * Matrix.diagonal d.1 * d.2ᵀ := hd.2
        have hd1 : d.2ᵀ * d.2 = 1 := hd.1
        calc B * (d.2 * Matrix.diagonal (fun k => (d.1 k)⁻¹) * d.2ᵀ)
            = d.2 * Matrix.diagonal d.1 * (d.2ᵀ * d.2) * Matrix.diagonal (fun k => (d.1 k)⁻¹) * d.2ᵀ := by
              conv_lhs => rw [hd2]
              simp only [Matrix.mul_assoc]
          _ = d.2 * (Matrix.diagonal d.1 * Matrix.diagonal (fun k => (d.1 k)⁻¹)) * d.2ᵀ := by
              rw [hd1, Matrix.mul_one]; simp only [Matrix.mul_assoc]
          _ = d.2 * d.2ᵀ := by
              rw [diagonal_mul_diagonal]
              have : (fun k => d.1 k * (d.1 k)⁻¹) = fun _ => 1 := funext fun k => mul_inv_cancel₀ (hnz k)
              rw [this, diagonal_one, Matrix.mul_one]
          _ = 1 := hd.right
      rw [Matrix.inv_eq_right_inv e2, e1]
      simp only [Matrix.mul_assoc]
    rw [hinv, Matrix.inv_def, Ring.inverse_eq_inv', Matrix.smul_mul, trace_smul, smul_eq_mul, div_eq_inv_mul]
  rw [htr] at hlog
  have hfin := (hquad.const_mul (0.5 : ℝ)).add (hlog.const_mul (0.5 : ℝ))
  have hobj : (fun s => gpObj e τ V y (images (L s) X)) = fun s => 0.5 * (gpB (q := q) y ⬝ᵥ gpX e τ (images (L s) X) V y) +
      0.5 * ∑ k, Real.log ((e.small (regK τ (images (L s) X))).1 k) := by
    funext s
    rw [gpObj, hb]
  rw [hobj]
  refine hfin.congr_deriv ?_
  unfold gpGrad
  ring

/-! ## The structures of the class -/

/-- The regularized kernel is positive definite: always for a positive nugget, and for distinct points. -/
theorem regK_pos (e : Eighs M q) (he : EighsSpec e) (τ : ℝ) (hτ : 0 < τ) (Y : Fin M → Pt m) (k : Fin M) : 0 < (e.small (regK τ Y)).1 k := by
  obtain ⟨h1, h2⟩ := (he.small (regK τ Y) (regK_symm _ _)).value k
  rw [← h1]
  generalize (fun i => (e.small (regK τ Y)).2 i k) = v at h2 ⊢
  have := kern_nonneg Y v
  rw [regK, add_mulVec, dotProduct_add, smul_mulVec, one_mulVec, dotProduct_smul, h2, smul_eq_mul, mul_one]
  linarith

theorem big_kept (e : Eighs M 0) (he : EighsSpec e) (τ : ℝ) (V : Matrix (Fin M) (Fin 0) ℝ) (Y : Fin M → Pt m)
    (h : 5 * eps < τ ∨ (defaultNugget ≤ τ ∧ Function.Injective Y)) (k : Fin M ⊕ Fin 0) : kept (e.big (gpA τ (kernMat Y) V)) k := by
  obtain ⟨u, hu, hk⟩ := eig_value_noPoly (he.big _ (gpA_symm τ Y V)) k
  unfold kept
  rw [hk]
  rcases h with h | ⟨h, hY⟩
  · have := kern_nonneg Y u
    exact lt_of_lt_of_le (by linarith) (le_abs_self _)
  · have := kern_pos Y hY u hu
    unfold defaultNugget at h
    exact lt_of_lt_of_le (by linarith) (le_abs_self _)

theorem tau_pos {τ : ℝ} {P : Prop} (h : 5 * eps < τ ∨ (defaultNugget ≤ τ ∧ P)) : 0 < τ := by
  have := eps_pos
  rcases h with h | h
  · linarith
  · have := h.1; unfold defaultNugget at this; linarith

/-- **C84 for the structure `const`**, without polynomial part: for all data (distinct samples suffice with the default nugget) and
every parameter. -/
theorem gp_grad_const (e : Eighs M 0) (he : EighsSpec e) (τ : ℝ) (V : Matrix (Fin M) (Fin 0) ℝ) (y : Fin M → ℝ) (X : Fin M → Pt m)
    (h : 5 * eps < τ ∨ (defaultNugget ≤ τ ∧ Function.Injective X)) (l : ℝ) :
    HasDerivAt (fun s => gpObj e τ V y (images (makeL (.const s)) X))
      (gpGrad e τ V y (images (makeL (.const l)) X) (dKconst (images (makeL (.const l)) X))) l := by
  have hcurve := gp_grad_curve e he τ V y X (fun s => makeL (.const s)) (makeL (.const l)) l ?_ ?_ ?_
  · have : dKgen X (makeL (.const l)) (makeL (.const l)) = dKconst (images (makeL (.const l)) X) := by
      ext i j
      simp only [dKgen, dKconst, Matrix.of_apply, sqd, ← sq, neg_mul]
    rw [this] at hcurve
    exact hcurve
  · intro i j
    simp only [makeL, Matrix.smul_apply, smul_eq_mul]
    exact (Real.hasDerivAt_exp l).mul_const _
  · exact Filter.Eventually.of_forall fun s k => big_kept e he τ V _ (h.imp id fun h => ⟨h.1, (makeL_injective _ (by simp)).comp h.2⟩) k
  · exact Filter.Eventually.of_forall fun s k => regK_pos e he τ (tau_pos h) _ k

/-- **C84 for the structure `scalar_mult`**: for a nugget above the threshold, or for samples with distinct images. -/
theorem gp_grad_mult (e : Eighs M 0) (he : EighsSpec e) (τ : ℝ) (V : Matrix (Fin M) (Fin 0) ℝ) (y : Fin M → ℝ) (X : Fin M → Pt m)
    (L0 : Matrix (Fin m) (Fin m) ℝ) (h : 5 * eps < τ ∨ (defaultNugget ≤ τ ∧ Function.Injective (images L0 X))) (l : ℝ) :
    HasDerivAt (fun s => gpObj e τ V y (images (makeL (.mult L0 s)) X))
      (gpGrad e τ V y (images (makeL (.mult L0 l)) X) (dKconst (images (makeL (.mult L0 l)) X))) l := by
  have hcurve := gp_grad_curve e he τ V y X (fun s => makeL (.mult L0 s)) (makeL (.mult L0 l)) l ?_ ?_ ?_
  · have : dKgen X (makeL (.mult L0 l)) (makeL (.mult L0 l)) = dKconst (images (makeL (.mult L0 l)) X) := by
      ext i j
      simp only [dKgen, dKconst, Matrix.of_apply, sqd, ← sq, neg_mul]
    rw [this] at hcurve
    exact hcurve
  · intro i j
    simp only [makeL, Matrix.smul_apply, smul_eq_mul]
    exact (Real.hasDerivAt_exp l).mul_const _
  · refine Filter.Eventually.of_forall fun s k => big_kept e he τ V _ (h.imp id fun h => ⟨h.1, ?_⟩) k
    intro i j hij
    refine h.2 ?_
    have hp := Real.exp_pos s
    funext r
    have := congrFun hij r
    simp only [images, makeL, smul_mulVec, Pi.smul_apply, smul_eq_mul] at this
    exact mul_left_cancel₀ hp.ne' this
  · exact Filter.Eventually.of_forall fun s k => regK_pos e he τ (tau_pos h) _ k

/-- **C84 for the structure `diag`**: every partial derivative. -/
theorem gp_grad_diag (e : Eighs M 0) (he : EighsSpec e) (τ : ℝ) (V : Matrix (Fin M) (Fin 0) ℝ) (y : Fin M → ℝ) (X : Fin M → Pt m)
    (h : 5 * eps < τ ∨ (defaultNugget ≤ τ ∧ Function.Injective X)) (l : Fin m → ℝ) (k : Fin m) :
    HasDerivAt (fun s => gpObj e τ V y (images (makeL (.diag (Function.update l k s))) X))
      (gpGrad e τ V y (images (makeL (.diag l)) X) (dKdiag (images (makeL (.diag l)) X) k)) (l k) := by
  have hcurve := gp_grad_curve e he τ V y X (fun s => makeL (.diag (Function.update l k s)))
    (Matrix.diagonal fun i => if i = k then Real.exp (l k) else 0) (l k) ?_ ?_ ?_
  · simp only [Function.update_eq_self] at hcurve
    have : dKgen X (makeL (.diag l)) (Matrix.diagonal fun i => if i = k then Real.exp (l k) else 0) = dKdiag (images (makeL (.diag l)) X) k := by
      ext i j
      simp only [dKgen, dKdiag, Matrix.of_apply, images, makeL, mulVec_diagonal]
      rw [Finset.sum_eq_single k]
      · simp
      · intro r _ hr
        simp [hr]
      · simp
    rw [this] at hcurve
    exact hcurve
  · intro i j
    simp only [makeL, Matrix.diagonal_apply]
    by_cases hij : i = j
    · subst hij
      simp only [if_true]
      by_cases hik : i = k
      · subst hik
        simp only [Function.update_self, if_true]
        exact Real.hasDerivAt_exp _
      · simp only [Function.update_of_ne hik, if_neg hik]
        exact hasDerivAt_const _ _
    · simp only [if_neg hij]
      exact hasDerivAt_const _ _
  · exact Filter.Eventually.of_forall fun s k => big_kept e he τ V _ (h.imp id fun h => ⟨h.1, (makeL_injective _ (by simp)).comp h.2⟩) k
  · exact Filter.Eventually.of_forall fun s k => regK_pos e he τ (tau_pos h) _ k

/-- The hypotheses are met by three samples with the default nugget. -/
example : ∃ (e : Eighs 3 0) (d : ℝ), HasDerivAt (fun s => gpObj e defaultNugget 0 ![2, -1, 5] (images (makeL (.const s)) ![![0], ![1], ![3]])) d 1 := by
  obtain ⟨e, he⟩ := exists_eighs 3 0
  refine ⟨e, _, gp_grad_const e he _ 0 _ _ (Or.inr ⟨le_refl _, ?_⟩) 1⟩
  intro i j h
  fin_cases i <;> fin_cases j <;> simp at h ⊢

end Verif.GP
