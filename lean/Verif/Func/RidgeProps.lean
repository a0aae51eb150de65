import Verif.Func.PolyModel
import Verif.Basis.FamilyProps
import Mathlib.Analysis.Calculus.FDeriv.Mul
import Mathlib.Analysis.Calculus.FDeriv.Pi
import Mathlib.Analysis.Calculus.Deriv.Pi
import Mathlib.Analysis.Calculus.Deriv.Comp
import Mathlib.Topology.Algebra.Module.FiniteDimension
import Mathlib.LinearAlgebra.Matrix.ToLin

/-!
# Property C56: ridge functions factor through the projection
-/

namespace Verif.Func

open Verif Verif.Domain Verif.Lip Verif.Basis Matrix

variable {m n N : ℕ}

/-! ## Specification -/

/-- The linear map `v ↦ g · v`. -/
noncomputable def dotL (g : Pt n) : Pt n →L[ℝ] ℝ := LinearMap.toContinuousLinearMap (dotProductBilin ℝ ℝ g)

/-- The linear map `v ↦ A v`. -/
noncomputable def matL (A : Matrix (Fin m) (Fin n) ℝ) : Pt n →L[ℝ] Pt m := LinearMap.toContinuousLinearMap (mulVecLin A)

theorem dotL_apply (g v : Pt n) : dotL g v = g ⬝ᵥ v := rfl
theorem matL_apply (A : Matrix (Fin m) (Fin n) ℝ) (v : Pt n) : matL A v = A *ᵥ v := rfl

/-- `g` is the gradient of `f` at `x`. -/
def IsGrad (f : Pt n → ℝ) (x g : Pt n) : Prop := HasFDerivAt f (dotL g) x

/-- `H` is the derivative of the gradient field `g` at `x` (the Hessian). -/
def IsHess (g : Pt n → Pt n) (x : Pt n) (H : Matrix (Fin n) (Fin n) ℝ) : Prop := HasFDerivAt g (matL H) x

/-- `DV` and `DDV` of a basis are first and second derivatives, and `DDV` is symmetric. -/
structure BasisObj.Smooth (B : BasisObj n N) : Prop where
  grad : ∀ y j, IsGrad (fun y => B.V y j) y (B.DV y j)
  hess : ∀ y j, IsHess (fun y => B.DV y j) y (B.DDV y j)
  symm : ∀ y j k l, B.DDV y j k l = B.DDV y j l k

/-! ## Polynomial functions -/

/-- The gradient of a polynomial function is its gradient. -/
theorem poly_grad (B : BasisObj n N) (hB : B.Smooth) (c : Pt N) (y : Pt n) : IsGrad (polyEval B c) y (polyGrad B c y) := by
  have h : HasFDerivAt (fun y => ∑ j, B.V y j * c j) (∑ j, c j • dotL (B.DV y j)) y := by
    refine HasFDerivAt.fun_sum (fun j _ => ?_)
    have := (hB.grad y j).mul_const (c j)
    exact this
  have e : (∑ j, c j • dotL (B.DV y j)) = dotL (polyGrad B c y) := by
    ext v
    simp only [_root_.sum_apply, _root_.smul_apply, dotL_apply, dotProduct, polyGrad, smul_eq_mul,
      Finset.mul_sum, Finset.sum_mul]
    rw [Finset.sum_comm]
    exact Finset.sum_congr rfl (fun i _ => Finset.sum_congr rfl (fun j _ => by ring))
  rw [e] at h
  exact h

/-- The Hessian of a polynomial function is the derivative of its gradient. -/
theorem poly_hess (B : BasisObj n N) (hB : B.Smooth) (c : Pt N) (y : Pt n) : IsHess (polyGrad B c) y (polyHess B c y) := by
  have h : HasFDerivAt (fun y => ∑ j, c j • B.DV y j) (∑ j, c j • matL (B.DDV y j)) y :=
    HasFDerivAt.fun_sum (fun j _ => (hB.hess y j).const_smul (c j))
  have e : (∑ j, c j • matL (B.DDV y j)) = matL (polyHess B c y) := by
    ext v i
    simp only [_root_.sum_apply, _root_.smul_apply, matL_apply, Finset.sum_apply, Pi.smul_apply,
      Matrix.mulVec, dotProduct, polyHess, Matrix.of_apply, smul_eq_mul, Finset.mul_sum, Finset.sum_mul]
    rw [Finset.sum_comm]
    exact Finset.sum_congr rfl (fun i _ => Finset.sum_congr rfl (fun j _ => by ring))
  rw [e] at h
  unfold IsHess
  convert h using 1
  funext y k
  simp only [polyGrad, Finset.sum_apply, Pi.smul_apply, smul_eq_mul]
  exact Finset.sum_congr rfl (fun j _ => by ring)

/-! ## C56 -/

/-- **C56**: the value is the profile at `Uᵀ x`. -/
theorem ridge_eval_profile (R : Ridge m n N) (x : Pt m) : R.eval x = R.profile (R.Uᵀ *ᵥ x) := rfl

/-- **C56**: points with the same projection have the same value, gradient and Hessian. -/
theorem ridge_factors (R : Ridge m n N) {x x' : Pt m} (h : R.Uᵀ *ᵥ x = R.Uᵀ *ᵥ x') :
    R.eval x = R.eval x' ∧ R.grad x = R.grad x' ∧ R.hess x = R.hess x' := by
  have : projY R.U x = projY R.U x' := h
  refine ⟨by simp only [Ridge.eval, this], ?_, by simp only [Ridge.hess, this]⟩
  funext i
  simp only [Ridge.grad, this]

/-- **C56**: moving orthogonally to the columns of `U` changes nothing. -/
theorem ridge_orthogonal (R : Ridge m n N) (x v : Pt m) (h : ∀ k, (fun i => R.U i k) ⬝ᵥ v = 0) :
    R.eval (x + v) = R.eval x ∧ R.grad (x + v) = R.grad x ∧ R.hess (x + v) = R.hess x := by
  apply ridge_factors
  rw [Matrix.mulVec_add]
  have : R.Uᵀ *ᵥ v = 0 := by
    funext k
    exact h k
  rw [this, add_zero]

/-- **C56**: the gradient is `U` times the gradient of the profile. -/
theorem ridge_grad_eq (R : Ridge m n N) (x : Pt m) : R.grad x = R.U *ᵥ polyGrad R.basis R.coef (R.Uᵀ *ᵥ x) := by
  funext i
  simp only [Ridge.grad, Matrix.mulVec, dotProduct, polyGrad, projY]
  exact Finset.sum_congr rfl (fun k _ => mul_comm _ _)

/-- **C56**: the Hessian is `U H Uᵀ`. -/
theorem ridge_hess_eq (R : Ridge m n N) (hB : R.basis.Smooth) (x : Pt m) :
    R.hess x = R.U * polyHess R.basis R.coef (R.Uᵀ *ᵥ x) * R.Uᵀ := by
  ext i j
  simp only [Ridge.hess, Matrix.of_apply, Matrix.mul_apply, Matrix.transpose_apply, polyHess, projY, Finset.sum_mul]
  refine Finset.sum_congr rfl (fun k _ => Finset.sum_congr rfl (fun l _ => ?_))
  rw [Finset.mul_sum, Finset.sum_mul]
  refine Finset.sum_congr rfl (fun a _ => ?_)
  rw [hB.symm _ a k l]
  ring

theorem projL (U : Matrix (Fin m) (Fin n) ℝ) (x : Pt m) : HasFDerivAt (fun x => Uᵀ *ᵥ x) (matL Uᵀ) x :=
  (matL Uᵀ).hasFDerivAt

/-- **C56**: the returned gradient is the gradient of the ridge function. -/
theorem ridge_grad (R : Ridge m n N) (hB : R.basis.Smooth) (x : Pt m) : IsGrad R.eval x (R.grad x) := by
  have h := (poly_grad R.basis hB R.coef (R.Uᵀ *ᵥ x)).comp x (projL R.U x)
  have e : (dotL (polyGrad R.basis R.coef (R.Uᵀ *ᵥ x))).comp (matL R.Uᵀ) = dotL (R.grad x) := by
    ext v
    rw [ContinuousLinearMap.comp_apply, dotL_apply, dotL_apply, matL_apply, ridge_grad_eq, Matrix.dotProduct_mulVec,
      Matrix.vecMul_transpose]
  rw [e] at h
  exact h

/-- **C56**: the returned Hessian is the derivative of the gradient. -/
theorem ridge_hess (R : Ridge m n N) (hB : R.basis.Smooth) (x : Pt m) : IsHess R.grad x (R.hess x) := by
  have h := (matL R.U).hasFDerivAt (x := polyGrad R.basis R.coef (R.Uᵀ *ᵥ x))
  have h2 := h.comp x ((poly_hess R.basis hB R.coef (R.Uᵀ *ᵥ x)).comp x (projL R.U x))
  have e : (matL R.U).comp ((matL (polyHess R.basis R.coef (R.Uᵀ *ᵥ x))).comp (matL R.Uᵀ)) = matL (R.hess x) := by
    ext v i
    simp only [ContinuousLinearMap.comp_apply, matL_apply, ridge_hess_eq R hB, Matrix.mulVec_mulVec, Matrix.mul_assoc]
  rw [e] at h2
  have e2 : R.grad = ⇑(matL R.U) ∘ polyGrad R.basis R.coef ∘ R.Uᵀ.mulVec := by
    funext x
    exact ridge_grad_eq R x
  unfold IsHess
  rw [e2]
  exact h2

/-! ## The tensor-product bases of the code are smooth -/

/-- A differentiable function whose partial derivatives are `g` has gradient `g`. -/
theorem isGrad_of_partials {f : Pt n → ℝ} {x g : Pt n} (hf : DifferentiableAt ℝ f x)
    (hp : ∀ k, HasDerivAt (fun t => f (Function.update x k t)) (g k) (x k)) : IsGrad f x g := by
  have h := hf.hasFDerivAt
  have e : fderiv ℝ f x = dotL g := by
    have hk : ∀ k, fderiv ℝ f x (Pi.single k 1) = g k := by
      intro k
      have h1 : HasDerivAt (fun t => f (Function.update x k t)) (fderiv ℝ f x (Pi.single k 1)) (x k) := by
        have hu := hasDerivAt_update x k (x k)
        have h' : HasFDerivAt f (fderiv ℝ f x) (Function.update x k (x k)) := by
          rw [Function.update_eq_self]; exact h
        exact h'.comp_hasDerivAt (x k) hu
      exact h1.unique (hp k)
    ext v
    have hv : v = ∑ k, v k • (Pi.single k (1:ℝ) : Pt n) := by
      funext i
      simp [Finset.sum_apply, Pi.single_apply]
    rw [hv, map_sum, map_sum]
    refine Finset.sum_congr rfl (fun k _ => ?_)
    rw [map_smul, map_smul, hk, dotL_apply]
    simp
  unfold IsGrad
  rw [← e]
  exact h

/-- The basis object of a `PolynomialTensorBasis` in `n` variables. -/
noncomputable def tensorObj (B : TBasis) (n : ℕ) : BasisObj n B.indices.length where
  V := fun y j => (B.V (List.ofFn y)).getD j 0
  DV := fun y j k => B.DV (List.ofFn y) (B.indices.getD j []) k
  DDV := fun y j => Matrix.of (fun k l => B.DDV (List.ofFn y) (B.indices.getD j []) k l)

theorem ofFn_getD (y : Pt n) (q : Fin n) : (List.ofFn y).getD q 0 = y q := by
  simp [List.getD_eq_getElem?_getD]

theorem ofFn_update (y : Pt n) (k : Fin n) (t : ℝ) : List.ofFn (Function.update y k t) = (List.ofFn y).set k t := by
  apply List.ext_getElem
  · simp
  · intro i h1 h2
    rw [List.getElem_ofFn, List.getElem_set]
    by_cases h : (k : ℕ) = i
    · subst h; simp
    · rw [if_neg h, List.getElem_ofFn, Function.update_of_ne]
      intro hh
      apply h
      rw [← hh]

/-- A product of functions of single coordinates is differentiable. -/
theorem prod_coords_diff (G : Fin n → ℝ → ℝ) (y : Pt n) (hG : ∀ q, DifferentiableAt ℝ (G q) (y q)) :
    DifferentiableAt ℝ (fun y : Pt n => ∏ q, G q (y q)) y := by
  have : ∀ q ∈ Finset.univ, HasFDerivAt (fun y : Pt n => G q (y q))
      (fderiv ℝ (fun y : Pt n => G q (y q)) y) y := by
    intro q _
    have h1 : DifferentiableAt ℝ (fun y : Pt n => y q) y := by fun_prop
    exact (DifferentiableAt.comp (g := G q) (f := fun y : Pt n => y q) y (hG q) h1).hasFDerivAt
  exact (HasFDerivAt.finsetProd this).differentiableAt

theorem indices_getD (B : TBasis) (j : Fin B.indices.length) :
    B.indices[(j : ℕ)]? = some (B.indices.getD j []) ∧ B.indices.getD j [] ∈ B.indices := by
  have : B.indices[(j : ℕ)]? = some (B.indices[(j : ℕ)]) := List.getElem?_eq_getElem j.2
  have e : B.indices.getD j [] = B.indices[(j : ℕ)] := by rw [List.getD_eq_getElem?_getD, this]; rfl
  rw [e]
  exact ⟨this, List.getElem_mem _⟩

/-- The basis objects of the code (monomial, Legendre, Chebyshev, Laguerre, Hermite, any degree, dimension and
nondegenerate scaling) meet the assumptions. -/
theorem tensorObj_smooth (B : TBasis) (hF : B.F.Good) (hs : B.sc.Nondeg B.dim) (hd : 1 ≤ B.dim) :
    (tensorObj B B.dim).Smooth where
  grad := by
    intro y j
    obtain ⟨hj, hm⟩ := indices_getD B j
    refine isGrad_of_partials ?_ ?_
    · have e : (fun y => (tensorObj B B.dim).V y j) = fun y : Pt B.dim =>
          ∏ q : Fin B.dim, (fun q t => B.F.phi ((B.indices.getD j []).getD (q : Fin B.dim) 0) (B.sc.at' q t)) q (y q) := by
        funext y
        simp only [tensorObj]
        rw [V_entry B hd (by simp) hj, Finset.prod_range]
        exact Finset.prod_congr rfl (fun q _ => by rw [ofFn_getD])
      rw [e]
      refine prod_coords_diff (fun q t => B.F.phi ((B.indices.getD j []).getD (q : Fin B.dim) 0) (B.sc.at' q t)) y (fun q => ?_)
      exact ((d1_deriv hF (index_le hd hm q) _).comp (y q) (at_deriv B.sc q (y q))).differentiableAt
    · intro k
      have := DV_deriv B hF hs (x := List.ofFn y) (by simp) hj k.2
      rw [ofFn_getD] at this
      simpa only [tensorObj, ofFn_update] using this
  hess := by
    intro y j
    obtain ⟨hj, hm⟩ := indices_getD B j
    unfold IsHess
    rw [hasFDerivAt_pi']
    intro k
    have h : IsGrad (fun y => (tensorObj B B.dim).DV y j k) y (fun l => B.DDV (List.ofFn y) (B.indices.getD j []) k l) := by
      refine isGrad_of_partials ?_ ?_
      · have e : (fun y => (tensorObj B B.dim).DV y j k) = fun y : Pt B.dim =>
            (∏ q : Fin B.dim, (fun (q : Fin B.dim) t => if (q : ℕ) = k then
                Vec.dot (B.F.vander (B.sc.at' q t) B.degree).dropLast (B.dmat ((B.indices.getD j []).getD q 0))
              else B.F.phi ((B.indices.getD j []).getD q 0) (B.sc.at' q t)) q (y q)) * B.sc.dscale k := by
          funext y
          simp only [tensorObj]
          rw [DV_entry B hd (by simp) hm, Finset.prod_range]
          congr 1
          exact Finset.prod_congr rfl (fun q _ => by rw [ofFn_getD])
        rw [e]
        refine DifferentiableAt.mul_const (prod_coords_diff (fun (q : Fin B.dim) t => if (q : ℕ) = k then
                Vec.dot (B.F.vander (B.sc.at' q t) B.degree).dropLast (B.dmat ((B.indices.getD j []).getD q 0))
              else B.F.phi ((B.indices.getD j []).getD q 0) (B.sc.at' q t)) y (fun q => ?_)) _
        by_cases hq : (q : ℕ) = k
        · simp only [hq, if_true]
          rw [← hq]
          exact ((d2_deriv hF (index_le hd hm q) _).comp (y q) (at_deriv B.sc q (y q))).differentiableAt
        · simp only [hq, if_false]
          exact ((d1_deriv hF (index_le hd hm q) _).comp (y q) (at_deriv B.sc q (y q))).differentiableAt
      · intro l
        have := DDV_deriv B hF hs (x := List.ofFn y) (by simp) hm (k := k) l.2
        rw [ofFn_getD] at this
        simpa only [tensorObj, ofFn_update] using this
    have e : (ContinuousLinearMap.proj k).comp (matL ((tensorObj B B.dim).DDV y j)) =
        dotL (fun l => B.DDV (List.ofFn y) (B.indices.getD j []) k l) := by
      ext v
      rfl
    rw [e]
    exact h
  symm := fun y j k l => DDV_symm B _ _ _ _

/-- A ridge function with a Legendre basis of degree 3 in 2 variables scaled to given data meets the
hypotheses. -/
example (c : Pt _) (U : Matrix (Fin 5) (Fin 2) ℝ) (x : Pt 5) :
    IsGrad (⟨tensorObj ⟨legFamily, 3, 2, setScale 2 [[0, 1], [2, 5]]⟩ 2, c, U⟩ : Ridge 5 2 _).eval x
      ((⟨tensorObj ⟨legFamily, 3, 2, setScale 2 [[0, 1], [2, 5]]⟩ 2, c, U⟩ : Ridge 5 2 _).grad x) := by
  apply ridge_grad
  refine tensorObj_smooth ⟨legFamily, 3, 2, setScale 2 [[0, 1], [2, 5]]⟩ leg_good (fun k hk => ?_) (by norm_num)
  have hk' : k < 2 := hk
  rcases k with _ | _ | k
  · norm_num [Domain.columns, Domain.minL, Domain.maxL, List.range, List.range.loop]
  · norm_num [Domain.columns, Domain.minL, Domain.maxL, List.range, List.range.loop]
  · omega

end Verif.Func
