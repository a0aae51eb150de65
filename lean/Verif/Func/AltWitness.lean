import Verif.Func.AltProps

/-!
# C109: the constraint on the search direction

The comment in the code asks for `pU.T @ U == 0`. The slices of the parameter vector are taken as if `U` were stored by columns, but
it is stored by rows, so for more than one column other entries are constrained.
-/

namespace Verif.Func

open Verif.Domain Verif.Lip Verif.Opt Matrix

variable {M m n N : ℕ}

/-- **C109**: with one column the search directions are those orthogonal to the current one. -/
theorem searchCon_one (x p : Pt (m * 1 + N)) : searchCon x p ↔ (partU x)ᵀ * partU p = 0 := by
  have e : (fun i : Fin m => p (Fin.castAdd N (Fin.cast (mul_comm 1 m) (finProdFinEquiv ((0 : Fin 1), i))))) = fun i => partU p i 0 := by
    funext i
    unfold partU unflat
    simp only [Matrix.of_apply]
    congr 2
    ext
    simp [finProdFinEquiv]
  have e2 : (partU x)ᵀ * partU p = 0 ↔ (partU x)ᵀ *ᵥ (fun i => partU p i 0) = 0 := by
    constructor
    · intro h
      funext k
      exact congrFun (congrFun h k) 0
    · intro h
      ext k l
      obtain rfl : l = 0 := Subsingleton.elim _ _
      exact congrFun h k
  rw [e2, ← e]
  unfold searchCon
  constructor
  · exact fun h => h 0
  · intro h k
    obtain rfl : k = 0 := Subsingleton.elim _ _
    exact h

/-- The affine functions of two variables. -/
def affB : BasisObj 2 3 where
  V := fun y => ![1, y 0, y 1]
  DV := fun _ => ![![0, 0], ![1, 0], ![0, 1]]
  DDV := fun _ _ => 0

/-- The points `± e_i`. -/
def crossX : Fin 6 → Pt 3 := ![![1, 0, 0], ![-1, 0, 0], ![0, 1, 0], ![0, -1, 0], ![0, 0, 1], ![0, 0, -1]]

/-- The values of `x_1 + x_3`. -/
def crossF : Pt 6 := fun i => crossX i 0 + crossX i 2

/-- The first two coordinates. -/
def crossU : Matrix (Fin 3) (Fin 2) ℝ := !![1, 0; 0, 1; 0, 0]

/-- Coefficients of `y_1`. -/
def crossC : Pt 3 := ![0, 1, 0]

theorem affB_poly : IsPolyBasis 1 affB := by
  refine ⟨![1, MvPolynomial.X 0, MvPolynomial.X 1], ?_, ?_, ?_⟩
  · intro y j
    fin_cases j <;> simp [affB]
  · intro y j l
    fin_cases j <;> fin_cases l <;> simp [affB, MvPolynomial.pderiv_X]
  · refine le_antisymm (Submodule.span_le.2 ?_) ?_
    · rintro _ ⟨j, rfl⟩
      rw [SetLike.mem_coe, MvPolynomial.mem_restrictTotalDegree]
      fin_cases j <;> simp
    · intro q hq
      rw [MvPolynomial.mem_restrictTotalDegree] at hq
      rw [MvPolynomial.as_sum q]
      refine Submodule.sum_mem _ fun s hs => ?_
      have hdeg := (MvPolynomial.le_totalDegree hs).trans hq
      rw [← mul_one (MvPolynomial.coeff s q), ← smul_eq_mul, ← MvPolynomial.smul_monomial]
      refine Submodule.smul_mem _ _ (Submodule.subset_span ?_)
      have h2 : s 0 + s 1 ≤ 1 := by
        rw [Finsupp.sum_fintype _ _ (fun _ => rfl), Fin.sum_univ_two] at hdeg
        exact hdeg
      have hs' : s = 0 ∨ s = Finsupp.single 0 1 ∨ s = Finsupp.single 1 1 := by
        rcases Nat.eq_zero_or_pos (s 0) with h0 | h0
        · rcases Nat.eq_zero_or_pos (s 1) with h1 | h1
          · left; ext k; fin_cases k <;> simp [h0, h1]
          · right; right; ext k; fin_cases k
            · simp [h0]
            · simp; omega
        · right; left; ext k; fin_cases k
          · simp; omega
          · simp; omega
      rcases hs' with rfl | rfl | rfl
      · exact ⟨0, rfl⟩
      · exact ⟨1, rfl⟩
      · exact ⟨2, rfl⟩

theorem le_pnorm_inf (r : Pt M) (i : Fin M) : |r i| ≤ pnorm .inf r := le_ciSup (Set.finite_range fun i => |r i|).bddAbove i

theorem cross_residual : altResidual affB crossX crossF (packUc crossU crossC) = fun i => -crossX i 2 := by
  unfold altResidual
  rw [partU_pack, partC_pack]
  funext i
  fin_cases i <;> simp [vandU, affB, crossX, crossF, crossU, crossC, projY, Matrix.mulVec, dotProduct, Fin.sum_univ_succ]

theorem cross_norm : pnorm .inf (fun i => -crossX i 2) = 1 := by
  unfold pnorm
  refine le_antisymm (ciSup_le fun i => ?_) ?_
  · fin_cases i <;> simp [crossX]
  · have := le_ciSup (Set.finite_range fun i => |(-crossX i 2 : ℝ)|).bddAbove 4
    simpa [crossX] using this

theorem cross_le (r : Pt 6) (h : r 4 + 1 = r 5 - 1) : 1 ≤ pnorm .inf r := by
  have h4 := le_pnorm_inf r 4
  have h5 := le_pnorm_inf r 5
  rw [abs_le] at h4 h5
  linarith [h4.1, h5.2]

/-- The coefficients are the best ones for the first two coordinates. -/
theorem cross_optimal (c : Pt 3) : pnorm .inf (Matrix.of (fun i => affB.V (projY crossU (crossX i))) *ᵥ crossC - crossF) ≤
    pnorm .inf (Matrix.of (fun i => affB.V (projY crossU (crossX i))) *ᵥ c - crossF) := by
  have e := cross_residual
  unfold altResidual at e
  rw [partU_pack, partC_pack] at e
  change pnorm .inf (vandU affB crossX crossU *ᵥ crossC - crossF) ≤ _
  rw [e, cross_norm]
  refine cross_le _ ?_
  simp [affB, crossX, crossF, crossU, projY, Matrix.mulVec, dotProduct, Fin.sum_univ_succ]

/-- **C109**: for more than one column the constraint is not the documented one, and the fit can get stuck because of it. The data is
`x_1 + x_3`, an affine function, the start is the span of the first two coordinates with the best coefficients. No search direction
satisfying the constraints improves the linearized problem; a direction orthogonal to the current subspace solves it exactly. The
constraints also admit a direction which is not orthogonal to the subspace. -/
theorem alt_search_false :
    let x : Pt (3 * 2 + 3) := packUc crossU crossC
    let J := (altJacobian (fun _ => affB) crossX x).2
    let r := altResidual affB crossX crossF x
    crossUᵀ * crossU = 1 ∧ 0 < pnorm .inf r ∧ (∀ p, searchCon x p → pnorm .inf r ≤ pnorm .inf (r + J *ᵥ p)) ∧
      (∃ p, crossUᵀ * partU p = 0 ∧ r + J *ᵥ p = 0 ∧ ¬ searchCon x p) ∧
      ∃ p, searchCon x p ∧ crossUᵀ * partU p ≠ 0 := by
  intro x J r
  have hr : r = fun i => -crossX i 2 := cross_residual
  have hn : pnorm .inf r = 1 := by rw [hr]; exact cross_norm
  have hJ : ∀ p i, (J *ᵥ p) i = (∑ k, crossX i k * p (Fin.castAdd 3 (finProdFinEquiv (k, (0 : Fin 2))))) +
      (p 6 + crossX i 0 * p 7 + crossX i 1 * p 8) := by
    intro p i
    change ∑ q, altJacobianOf affB crossX x i q * p q = _
    rw [Fin.sum_univ_add, ← finProdFinEquiv.sum_comp, Fintype.sum_prod_type]
    simp only [altJacobianOf, Matrix.of_apply, Fin.append_left, Fin.append_right, flat, Equiv.symm_apply_apply]
    rw [partU_pack, partC_pack]
    congr 1
    · refine Finset.sum_congr rfl fun k _ => ?_
      rw [Fin.sum_univ_two]
      simp [affB, crossC, Fin.sum_univ_succ]
    · simp [affB, crossU, projY, Matrix.mulVec, dotProduct, Fin.sum_univ_succ]
      fin_cases i <;> simp [crossX] <;> rfl
  have hcon : ∀ p, searchCon x p ↔ p 0 = 0 ∧ p 1 = 0 ∧ p 3 = 0 ∧ p 4 = 0 := by
    intro p
    unfold searchCon
    rw [partU_pack, Fin.forall_fin_two]
    have e : ∀ v : Pt 3, crossUᵀ *ᵥ v = 0 ↔ v 0 = 0 ∧ v 1 = 0 := by
      intro v
      rw [funext_iff, Fin.forall_fin_two]
      simp [crossU, Matrix.mulVec, dotProduct, Fin.sum_univ_succ]
    rw [e, e, and_assoc]
    exact Iff.rfl
  have htan : ∀ p : Pt (3 * 2 + 3), crossUᵀ * partU p = 0 ↔ p 0 = 0 ∧ p 1 = 0 ∧ p 2 = 0 ∧ p 3 = 0 := by
    intro p
    have e : ∀ A : Matrix (Fin 3) (Fin 2) ℝ, crossUᵀ * A = 0 ↔ A 0 0 = 0 ∧ A 0 1 = 0 ∧ A 1 0 = 0 ∧ A 1 1 = 0 := by
      intro A
      constructor
      · intro h
        have h' : ∀ i j, (crossUᵀ * A) i j = 0 := fun i j => by rw [h]; rfl
        refine ⟨?_, ?_, ?_, ?_⟩
        · simpa [crossU, Matrix.mul_apply, Fin.sum_univ_succ] using h' 0 0
        · simpa [crossU, Matrix.mul_apply, Fin.sum_univ_succ] using h' 0 1
        · simpa [crossU, Matrix.mul_apply, Fin.sum_univ_succ] using h' 1 0
        · simpa [crossU, Matrix.mul_apply, Fin.sum_univ_succ] using h' 1 1
      · rintro ⟨h1, h2, h3, h4⟩
        ext i j
        fin_cases i <;> fin_cases j <;> simp [crossU, Matrix.mul_apply, Fin.sum_univ_succ, h1, h2, h3, h4]
    rw [e]
    exact Iff.rfl
  refine ⟨?_, by rw [hn]; norm_num, ?_, ?_, ?_⟩
  · ext i j
    fin_cases i <;> fin_cases j <;> simp [crossU, Matrix.mul_apply, Fin.sum_univ_succ]
  · intro p hp
    obtain ⟨h0, h1, h3, h4⟩ := (hcon p).1 hp
    rw [hn]
    refine cross_le _ ?_
    simp only [Pi.add_apply, hJ, hr, Fin.sum_univ_three]
    change p 4 = 0 at h4
    have e2 : p (Fin.castAdd 3 (finProdFinEquiv ((2 : Fin 3), (0 : Fin 2)))) = 0 := h4
    rw [e2]
    simp [crossX]
  · refine ⟨Pi.single 4 1, (htan _).2 ?_, ?_, ?_⟩
    · refine ⟨rfl, rfl, rfl, rfl⟩
    · funext i
      simp only [Pi.add_apply, hJ, hr, Fin.sum_univ_three]
      have e0 : (Pi.single 4 1 : Pt (3 * 2 + 3)) (Fin.castAdd 3 (finProdFinEquiv ((0 : Fin 3), (0 : Fin 2)))) = 0 := rfl
      have e1 : (Pi.single 4 1 : Pt (3 * 2 + 3)) (Fin.castAdd 3 (finProdFinEquiv ((1 : Fin 3), (0 : Fin 2)))) = 0 := rfl
      have e2 : (Pi.single 4 1 : Pt (3 * 2 + 3)) (Fin.castAdd 3 (finProdFinEquiv ((2 : Fin 3), (0 : Fin 2)))) = 1 := rfl
      have e6 : (Pi.single 4 1 : Pt (3 * 2 + 3)) 6 = 0 := rfl
      have e7 : (Pi.single 4 1 : Pt (3 * 2 + 3)) 7 = 0 := rfl
      have e8 : (Pi.single 4 1 : Pt (3 * 2 + 3)) 8 = 0 := rfl
      rw [e0, e1, e2, e6, e7, e8]
      simp
    · rw [hcon]
      rintro ⟨-, -, -, h⟩
      exact one_ne_zero h
  · refine ⟨Pi.single 2 1, (hcon _).2 ⟨rfl, rfl, rfl, rfl⟩, ?_⟩
    rw [Ne, htan]
    rintro ⟨-, -, h, -⟩
    exact one_ne_zero h

/-- The hypotheses of `alt_fit_plain` are met: exact solvers and factorizations exist, and on this data the fit succeeds. -/
example : (∃ svd : Matrix (Fin 3) (Fin 2) ℝ → TSvd 3 2, ∀ A, IsTSvd A (svd A)) ∧
    (∃ qr : Matrix (Fin 3) (Fin 2) ℝ → Matrix (Fin 3) (Fin 2) ℝ × Matrix (Fin 2) (Fin 2) ℝ, ∀ A, IsRQr A (qr A)) ∧ idealSolver.Exact ∧
    ∀ svd qr svdU, ∃ R, fitAlternating idealSolver (fun _ => affB) svdU .inf .none false crossX crossF
      (altArgs idealSolver (fun _ => affB) .inf .none (by norm_num) svd qr crossX crossF 100 20 0 0 false fun _ _ _ _ => .other) crossU = .ok R := by
  refine ⟨⟨_, fun A => (exists_tsvd A).choose_spec⟩, ⟨_, fun A => (exists_rqr (by norm_num) A).choose_spec⟩, idealSolver_exact, ?_⟩
  intro svd qr svdU
  have hfit : ∃ c, fitCoef idealSolver (fun _ => affB) .inf .none crossX crossF crossU = .ok (affB, c) := by
    obtain ⟨c, hc⟩ := ideal_answers cross_optimal
    refine ⟨c, ?_⟩
    unfold fitCoef
    simp only [hc]
    rfl
  obtain ⟨c, hc⟩ := hfit
  refine ⟨⟨affB, c, crossU⟩, ?_⟩
  unfold fitAlternating
  rw [hc]
  simp only
  set a := altArgs idealSolver (fun _ => affB) .inf .none (by norm_num) svd qr crossX crossF 100 20 0 0 false fun _ _ _ _ => .other with ha
  have hobj : ∃ o, objfun a.norm (altResidual affB crossX crossF (packUc crossU c)) = .ok o := ⟨_, rfl⟩
  obtain ⟨o, ho⟩ := hobj
  have hin : ∀ k J first s st, lpInner a J k first s st = .ok ({ s with px := some 0 }, true) := by
    intro k
    induction k with
    | zero => intro J first s st; rfl
    | succ k ih =>
      intro J first s st
      change lpInner a J k false { s with px := some 0 } (st || true) = _
      rw [ih]
  have hrun : sequentialLP a (packUc crossU c) = .ok (packUc crossU c) := by
    unfold sequentialLP
    have hf : a.f (packUc crossU c) = .ok (altResidual affB crossX crossF (packUc crossU c)) := rfl
    rw [hf]
    simp only [ho]
    have hj : a.jac (packUc crossU c) = .ok (altJacobian (fun _ => affB) crossX (packUc crossU c)).2 := rfl
    rw [hj]
    simp only
    have hm : a.maxiter = 99 + 1 := rfl
    rw [hm, lpLoop, if_neg (by rw [ha]; simp [altArgs]), hin]
    simp only [hj]
    rw [if_neg (by rw [ha]; simp [altArgs]), if_pos trivial]
  rw [hrun]
  simp only [partU_pack]
  have : finish idealSolver (fun _ => affB) svdU .inf .none false crossX crossF crossU = .ok ⟨affB, c, crossU⟩ := by
    simp only [finish, finishRotate, finishSigns, Bool.false_eq_true, and_false, if_false]
    change (do let bc ← fitCoef idealSolver (fun _ => affB) .inf .none crossX crossF crossU; return (⟨bc.1, bc.2, crossU⟩ : Ridge 3 2 3)) = _
    rw [hc]
    rfl
  rw [this]
  rfl

end Verif.Func
