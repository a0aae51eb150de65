import Verif.Func.PolyProps

/-!
# C100: affine ridge approximations are globally optimal
-/

namespace Verif.Func

open Verif.Domain Verif.Lip Matrix

variable {m M N : ℕ}

/-! ## Specification -/

/-- The basis of degree one in one variable represents every affine function of the variable. -/
def AffineBasis (mk : (Fin M → Pt 1) → BasisObj 1 N) : Prop := ∀ (Y : Fin M → Pt 1) (a b : ℝ), ∃ c : Pt N, ∀ y, (mk Y).V y ⬝ᵥ c = a * y 0 + b

/-! ## Norms -/

theorem pnorm_smul (p : PNorm) {t : ℝ} (ht : 0 ≤ t) (r : Pt M) : pnorm p (t • r) = t * pnorm p r := by
  cases p with
  | one => simp [pnorm, abs_mul, abs_of_nonneg ht, Finset.mul_sum]
  | two => simp only [pnorm, nrm_eq]; rw [WithLp.toLp_smul, norm_smul, Real.norm_of_nonneg ht]
  | inf =>
    simp only [pnorm, Pi.smul_apply, smul_eq_mul, abs_mul, abs_of_nonneg ht]
    exact (Real.mul_iSup_of_nonneg ht _).symm
  | other => simp [pnorm]

theorem affSlope_pos (X : Fin M → Pt m) (k : Fin m) : 0 < affSlope X k := by
  simp only [affSlope]
  split_ifs with h
  · rcases M.eq_zero_or_pos with rfl | hM
    · simp [infOf, supOf] at h
    · haveI : Nonempty (Fin M) := ⟨⟨0, hM⟩⟩
      have : infOf (fun i => X i k) ≤ supOf (fun i => X i k) :=
        (ciInf_le (Set.finite_range fun i => X i k).bddBelow ⟨0, hM⟩).trans (le_ciSup (Set.finite_range fun i => X i k).bddAbove ⟨0, hM⟩)
      have : 0 < supOf (fun i => X i k) - infOf (fun i => X i k) := sub_pos.2 (lt_of_le_of_ne this (Ne.symm h))
      positivity
  · norm_num

/-- The middle of the samples in a coordinate. -/
noncomputable def affMid (X : Fin M → Pt m) (k : Fin m) : ℝ := (infOf (fun i => X i k) + supOf (fun i => X i k)) / 2

theorem affDesign_mulVec (X : Fin M → Pt m) (b : Pt (m + 1)) (i : Fin M) :
    (affDesign X *ᵥ b) i = (∑ k, affSlope X k * b k.castSucc * X i k) - (∑ k, affSlope X k * b k.castSucc * affMid X k) + b (Fin.last m) := by
  simp only [affDesign, Matrix.mulVec, dotProduct, Matrix.of_apply, Fin.sum_univ_castSucc, Fin.snoc_castSucc, Fin.snoc_last, one_mul, affMid]
  rw [← Finset.sum_sub_distrib]
  congr 1
  exact Finset.sum_congr rfl fun k _ => by ring

/-- Every affine function is one of the functions over which `_fit_affine` optimizes. -/
theorem affDesign_surj (X : Fin M → Pt m) {r : ℝ} (hr : r ≠ 0) (t : ℝ) (a : Pt m) (b : ℝ) : ∃ β, ∀ i, r * (affDesign X *ᵥ β) i + t = a ⬝ᵥ X i + b := by
  refine ⟨Fin.snoc (fun k => a k / (affSlope X k * r)) ((b - t + ∑ k, a k * affMid X k) / r), fun i => ?_⟩
  have hs : ∀ k, affSlope X k ≠ 0 := fun k => (affSlope_pos X k).ne'
  rw [affDesign_mulVec]
  simp only [Fin.snoc_castSucc, Fin.snoc_last]
  have e : ∀ k, affSlope X k * (a k / (affSlope X k * r)) = a k / r := fun k => by field_simp [hs k]
  simp only [e]
  have h1 : ∑ k, a k / r * X i k = (a ⬝ᵥ X i) / r := by rw [dotProduct, Finset.sum_div]; exact Finset.sum_congr rfl fun k _ => by ring
  have h2 : ∑ k, a k / r * affMid X k = (∑ k, a k * affMid X k) / r := by rw [Finset.sum_div]; exact Finset.sum_congr rfl fun k _ => by ring
  rw [h1, h2]
  field_simp
  ring

theorem fitAffine_ok {S : FitSolver} {p : PNorm} {bound : Bound} {X : Fin M → Pt m} {fX : Pt M} {U : Matrix (Fin m) (Fin 1) ℝ} (h : fitAffine S p bound X fX = .ok U) :
    supOf fX ≠ infOf fX ∧ ∃ b u, affSolve S p bound X fX = .ok b ∧ (u = fun k => affSlope X k * b k.castSucc) ∧ nrm u ≠ 0 ∧ U = Matrix.of (fun i _ => u i / nrm u) := by
  simp only [fitAffine] at h
  split_ifs at h with h1
  split at h
  · simp at h
  · rename_i b hb
    split_ifs at h with h2
    cases h
    exact ⟨h1, b, _, hb, rfl, h2, rfl⟩

theorem range_pos {f : Pt M} (h : supOf f ≠ infOf f) : 0 < supOf f - infOf f := by
  rcases M.eq_zero_or_pos with rfl | hM
  · simp [infOf, supOf] at h
  · have : infOf f ≤ supOf f := (ciInf_le (Set.finite_range f).bddBelow ⟨0, hM⟩).trans (le_ciSup (Set.finite_range f).bddAbove ⟨0, hM⟩)
    exact sub_pos.2 (lt_of_le_of_ne this (Ne.symm h))

/-- C100: the direction has unit length. -/
theorem affine_unit {S : FitSolver} {p : PNorm} {bound : Bound} {X : Fin M → Pt m} {fX : Pt M} {U : Matrix (Fin m) (Fin 1) ℝ} (h : fitAffine S p bound X fX = .ok U) :
    Uᵀ * U = 1 := by
  obtain ⟨-, b, u, -, -, hu, rfl⟩ := fitAffine_ok h
  ext i j
  fin_cases i; fin_cases j
  simp only [Matrix.mul_apply, Matrix.transpose_apply, Matrix.of_apply, Matrix.one_apply]
  have : nrm u * nrm u = ∑ k, u k * u k := by have := nrm_sq u; rw [pow_two] at this; rw [this]; rfl
  simp only [div_mul_div_comm, ← Finset.sum_div, ← this, if_true]
  exact div_self (mul_ne_zero hu hu)

theorem ridgeFit_affine {S : FitSolver} {mk : (Fin M → Pt 1) → BasisObj 1 N} {svdU : (Fin M → Pt 1) → Matrix (Fin 1) (Fin 1) ℝ} {p : PNorm} {bound : Bound} {rotate : Bool}
    {opt : (Fin M → Pt m) → Pt M → Except Err (Matrix (Fin m) (Fin 1) ℝ)} {X : Fin M → Pt m} {fX : Pt M} {R : Ridge m 1 N}
    (h : ridgeFit S 1 mk svdU p bound rotate opt X fX = .ok R) : fitAffine S p bound X fX = .ok R.U ∧ fitCoef S mk p bound X fX R.U = .ok (R.basis, R.coef) := by
  simp only [ridgeFit] at h
  split_ifs at h with h1 h2
  · simp only [Bind.bind, Except.bind] at h
    split at h
    · cases h
    · split at h
      · cases h
      · rename_i U hU _ bc hbc
        cases h
        exact ⟨hU, hbc⟩
  · exact absurd ⟨trivial, trivial⟩ h2

/-- C100: without bounds, no affine function is closer to the data than the fitted affine ridge function, in the requested norm. -/
theorem affine_optimal (S : FitSolver) (hS : S.Exact) {mk : (Fin M → Pt 1) → BasisObj 1 N} (hmk : AffineBasis mk) {svdU : (Fin M → Pt 1) → Matrix (Fin 1) (Fin 1) ℝ}
    {p : PNorm} {rotate : Bool} {opt : (Fin M → Pt m) → Pt M → Except Err (Matrix (Fin m) (Fin 1) ℝ)} {X : Fin M → Pt m} {fX : Pt M} {R : Ridge m 1 N}
    (h : ridgeFit S 1 mk svdU p .none rotate opt X fX = .ok R) (a : Pt m) (b : ℝ) :
    pnorm p ((fun i => R.eval (X i)) - fX) ≤ pnorm p ((fun i => a ⬝ᵥ X i + b) - fX) := by
  have hopt := (ridgeFit_bound S hS 1 mk svdU p .none rotate opt X fX R h).2
  obtain ⟨hU, hc⟩ := ridgeFit_affine h
  obtain ⟨hr, β, u, hβ, hu, hnu, hUe⟩ := fitAffine_ok hU
  have hB : R.basis = mk fun i => projY R.U (X i) := by
    simp only [fitCoef] at hc
    split at hc
    · cases hc
    · obtain ⟨c, -, e⟩ := map_ok hc
      exact (Prod.mk.inj e).1.symm
  have hpos := range_pos hr
  set r := supOf fX - infOf fX with hrd
  have hβo : ∀ β', pnorm p (affDesign X *ᵥ β - affRhs fX) ≤ pnorm p (affDesign X *ᵥ β' - affRhs fX) := by
    have : ofSolver (S.free p (affDesign X) (affRhs fX)) = .ok β := by
      cases p <;> first | exact hβ | cases hβ
    exact hS.free p _ _ β (ofSolver_ok this)
  have hscale : ∀ β', (fun i => r * (affDesign X *ᵥ β') i + infOf fX) - fX = r • (affDesign X *ᵥ β' - affRhs fX) := by
    intro β'
    ext i
    simp only [Pi.sub_apply, Pi.smul_apply, smul_eq_mul, affRhs]
    rw [← hrd]
    field_simp
    ring
  -- the affine function found lies in the space of the last fit
  obtain ⟨c, hcv⟩ := hmk (fun i => projY R.U (X i)) (r * nrm u) (r * (β (Fin.last m) - ∑ k, u k * affMid X k) + infOf fX)
  have hval : (fun i => R.basis.V (R.Uᵀ *ᵥ X i) ⬝ᵥ c) = fun i => r * (affDesign X *ᵥ β) i + infOf fX := by
    ext i
    have := hcv (projY R.U (X i))
    rw [← hB] at this
    have hp : nrm u * projY R.U (X i) 0 = ∑ k, u k * X i k := by
      simp only [projY, Matrix.mulVec, dotProduct, Matrix.transpose_apply, hUe, Matrix.of_apply, Finset.mul_sum]
      exact Finset.sum_congr rfl fun k _ => by field_simp
    change R.basis.V (projY R.U (X i)) ⬝ᵥ c = _
    rw [this, mul_assoc, hp, affDesign_mulVec]
    have e1 : ∀ k, affSlope X k * β k.castSucc = u k := fun k => by rw [hu]
    simp only [e1]
    ring
  obtain ⟨β', hβ'⟩ := affDesign_surj X hpos.ne' (infOf fX) a b
  calc pnorm p ((fun i => R.eval (X i)) - fX) ≤ pnorm p ((fun i => R.basis.V (R.Uᵀ *ᵥ X i) ⬝ᵥ c) - fX) := hopt c trivial
    _ = r * pnorm p (affDesign X *ᵥ β - affRhs fX) := by rw [hval, hscale, pnorm_smul p hpos.le]
    _ ≤ r * pnorm p (affDesign X *ᵥ β' - affRhs fX) := mul_le_mul_of_nonneg_left (hβo β') hpos.le
    _ = pnorm p ((fun i => a ⬝ᵥ X i + b) - fX) := by rw [← pnorm_smul p hpos.le, ← hscale]; simp only [hβ']

/-! ## With bounds: the direction belongs to the other problem -/

theorem infOf_eq {f : Fin M → ℝ} {i : Fin M} {v : ℝ} (hi : f i = v) (h : ∀ j, v ≤ f j) : infOf f = v :=
  le_antisymm (hi ▸ ciInf_le (Set.finite_range f).bddBelow i) (haveI : Nonempty (Fin M) := ⟨i⟩; le_ciInf h)

theorem supOf_eq {f : Fin M → ℝ} {i : Fin M} {v : ℝ} (hi : f i = v) (h : ∀ j, f j ≤ v) : supOf f = v :=
  le_antisymm (haveI : Nonempty (Fin M) := ⟨i⟩; ciSup_le h) (hi ▸ le_ciSup (Set.finite_range f).bddAbove i)

/-- Four samples in the plane. -/
def bX : Fin 4 → Pt 2 := ![![-1, -1], ![1, -1], ![1, 1], ![-1, 0]]

/-- Their values. -/
noncomputable def bF : Pt 4 := ![1, 0, 1, 1 / 2]

theorem bX_slope (k : Fin 2) : affSlope bX k = 1 ∧ affMid bX k = 0 := by
  have h1 : ∀ k, infOf (fun i => bX i k) = -1 := by
    intro k
    fin_cases k
    · exact infOf_eq (i := 0) (by simp [bX]) fun j => by fin_cases j <;> simp [bX]
    · exact infOf_eq (i := 0) (by simp [bX]) fun j => by fin_cases j <;> simp [bX]
  have h2 : ∀ k, supOf (fun i => bX i k) = 1 := by
    intro k
    fin_cases k
    · exact supOf_eq (i := 1) (by simp [bX]) fun j => by fin_cases j <;> simp [bX]
    · exact supOf_eq (i := 2) (by simp [bX]) fun j => by fin_cases j <;> simp [bX]
  simp only [affSlope, affMid, h1, h2]
  norm_num

theorem bF_range : infOf bF = 0 ∧ supOf bF = 1 :=
  ⟨infOf_eq (i := 1) (by simp [bF]) fun j => by fin_cases j <;> simp [bF], supOf_eq (i := 0) (by simp [bF]) fun j => by fin_cases j <;> simp [bF] <;> norm_num⟩

theorem bF_rhs : affRhs bF = bF := by
  ext i
  simp [affRhs, bF_range.1, bF_range.2]

theorem bX_design (b : Pt 3) (i : Fin 4) : (affDesign bX *ᵥ b) i = b 0 * bX i 0 + b 1 * bX i 1 + b 2 := by
  rw [affDesign_mulVec]
  simp only [Fin.sum_univ_two, (bX_slope _).1, (bX_slope _).2]
  simp only [mul_zero, one_mul, add_zero, sub_zero]
  rfl

/-- The affine function above the data that is closest in the 1-norm, found by the code for `bound='lower'`. -/
theorem bF_upper {S : FitSolver} (hS : S.Exact) {b : Pt 3} (h : affSolve S .one .lower bX bF = .ok b) : b 0 = -(1 / 2) ∧ b 1 = 1 / 2 ∧ b 2 = 1 := by
  have hge := hS.ge _ _ _ _ (ofSolver_ok h)
  rw [bF_rhs] at hge
  obtain ⟨h1, h2⟩ := hge
  have hf : ∀ i, bF i ≤ (affDesign bX *ᵥ ![-(1 / 2), 1 / 2, 1]) i := by
    intro i
    rw [bX_design]
    fin_cases i <;> simp [bX, bF] <;> norm_num
  have h3 := h2 _ hf
  have hn : ∀ g : Pt 4, (∀ i, bF i ≤ g i) → pnorm .one (g - bF) = ∑ i, (g i - bF i) := fun g hg => by
    simp only [pnorm]
    exact Finset.sum_congr rfl fun i _ => abs_of_nonneg (sub_nonneg.2 (hg i))
  rw [hn _ h1, hn _ hf] at h3
  simp only [bX_design, Fin.sum_univ_four] at h3
  have hA := h1 0
  have hB := h1 1
  have hC := h1 2
  rw [bX_design] at hA hB hC
  simp [bX, bF] at h3 hA hB hC
  refine ⟨?_, ?_, ?_⟩ <;> linarith

/-- **C100 is false for bounded fits**: with `bound='lower'` and degree one, whatever exact solvers and basis are used, another affine function below the data is closer to it:
the direction was chosen for the upper bound. -/
theorem affine_lower_false (S : FitSolver) (hS : S.Exact) {mk : (Fin 4 → Pt 1) → BasisObj 1 N} (hmk : ∀ Y c, ∃ a b : ℝ, ∀ y, (mk Y).V y ⬝ᵥ c = a * y 0 + b)
    {svdU : (Fin 4 → Pt 1) → Matrix (Fin 1) (Fin 1) ℝ} {rotate : Bool} {opt : (Fin 4 → Pt 2) → Pt 4 → Except Err (Matrix (Fin 2) (Fin 1) ℝ)} {R : Ridge 2 1 N}
    (h : ridgeFit S 1 mk svdU .one .lower rotate opt bX bF = .ok R) :
    ∃ (a : Pt 2) (b : ℝ), (∀ i, a ⬝ᵥ bX i + b ≤ bF i) ∧ pnorm .one ((fun i => a ⬝ᵥ bX i + b) - bF) < pnorm .one ((fun i => R.eval (bX i)) - bF) := by
  have hle := (ridgeFit_bound S hS 1 mk svdU .one .lower rotate opt bX bF R h).1
  obtain ⟨hU, hc⟩ := ridgeFit_affine h
  obtain ⟨hr, β, u, hβ, hu, hnu, hUe⟩ := fitAffine_ok hU
  obtain ⟨e0, e1, -⟩ := bF_upper hS hβ
  have hB : R.basis = mk fun i => projY R.U (bX i) := by
    simp only [fitCoef] at hc
    obtain ⟨c, -, e⟩ := map_ok hc
    exact (Prod.mk.inj e).1.symm
  obtain ⟨α, b, hαb⟩ := hmk (fun i => projY R.U (bX i)) R.coef
  have hu0 : u 0 = -(1 / 2) := by rw [hu]; simp only [(bX_slope _).1, one_mul]; exact e0
  have hu1 : u 1 = 1 / 2 := by rw [hu]; simp only [(bX_slope _).1, one_mul]; exact e1
  have hev : ∀ x, R.eval x = α / (2 * nrm u) * (x 1 - x 0) + b := by
    intro x
    have := hαb (projY R.U x)
    rw [← hB] at this
    rw [Ridge.eval, this]
    congr 1
    simp only [projY, Matrix.mulVec, dotProduct, Matrix.transpose_apply, hUe, Matrix.of_apply, Fin.sum_univ_two, hu0, hu1]
    field_simp
    ring
  refine ⟨![0, 1 / 2], 1 / 2, fun i => ?_, ?_⟩
  · fin_cases i <;> simp [bX, bF, dotProduct, Fin.sum_univ_two] <;> norm_num
  · have hn : ∀ g : Pt 4, (∀ i, g i ≤ bF i) → pnorm .one (g - bF) = ∑ i, (bF i - g i) := fun g hg => by
      simp only [pnorm, Pi.sub_apply]
      exact Finset.sum_congr rfl fun i _ => by rw [abs_sub_comm]; exact abs_of_nonneg (sub_nonneg.2 (hg i))
    rw [hn _ hle, hn _ fun i => by fin_cases i <;> simp [bX, bF, dotProduct, Fin.sum_univ_two] <;> norm_num]
    have h0 := hle 0
    have h1 := hle 1
    have h3 := hle 3
    simp only [hev, Fin.sum_univ_four] at h0 h1 h3 ⊢
    set t := α / (2 * nrm u)
    simp [bX, bF, dotProduct, Fin.sum_univ_two] at h0 h1 h3 ⊢
    linarith

/-! ## Concrete cases -/

theorem ridgeFit_affine_of {S : FitSolver} {mk : (Fin M → Pt 1) → BasisObj 1 N} (svdU : (Fin M → Pt 1) → Matrix (Fin 1) (Fin 1) ℝ) {p : PNorm} {bound : Bound} (rotate : Bool)
    (opt : (Fin M → Pt m) → Pt M → Except Err (Matrix (Fin m) (Fin 1) ℝ)) {X : Fin M → Pt m} {fX : Pt M} {U : Matrix (Fin m) (Fin 1) ℝ} {B : BasisObj 1 N} {c : Pt N}
    (hM : nParam m 1 1 ≤ M) (hU : fitAffine S p bound X fX = .ok U) (hc : fitCoef S mk p bound X fX U = .ok (B, c)) :
    ridgeFit S 1 mk svdU p bound rotate opt X fX = .ok ⟨B, c, U⟩ := by
  simp only [ridgeFit]
  rw [if_neg (by linarith), dif_pos ⟨trivial, trivial⟩, hU]
  have e : (Matrix.of fun (i : Fin m) (k : Fin 1) => U i (Fin.cast rfl k)) = U := rfl
  simp only [Bind.bind, Except.bind]
  rw [e, hc]
  rfl

/-- The basis `1, y`. -/
def affLin : BasisObj 1 2 where
  V y := ![1, y 0]
  DV _ := ![![0], ![1]]
  DDV _ _ := 0

theorem affLin_val (y : Pt 1) (c : Pt 2) : affLin.V y ⬝ᵥ c = c 1 * y 0 + c 0 := by
  simp [affLin, dotProduct, Fin.sum_univ_two]; ring

theorem affLin_affine : AffineBasis (M := M) fun _ => affLin := fun _ a b => ⟨![b, a], fun y => by rw [affLin_val]; rfl⟩

theorem ideal_ge {p : PNorm} {A : Matrix (Fin M) (Fin N) ℝ} {b : Pt M} {x : Pt N} (h : ∀ i, b i ≤ (A *ᵥ x) i)
    (ho : ∀ x', (∀ i, b i ≤ (A *ᵥ x') i) → pnorm p (A *ᵥ x - b) ≤ pnorm p (A *ᵥ x' - b)) : ∃ y, idealSolver.ge p A b = some y := by
  simp only [idealSolver]
  rw [dif_pos ⟨x, h, ho⟩]
  exact ⟨_, rfl⟩

theorem ideal_free {p : PNorm} {A : Matrix (Fin M) (Fin N) ℝ} {b : Pt M} {x : Pt N} (ho : ∀ x', pnorm p (A *ᵥ x - b) ≤ pnorm p (A *ᵥ x' - b)) :
    ∃ y, idealSolver.free p A b = some y := by
  simp only [idealSolver]
  rw [dif_pos ⟨x, ho⟩]
  exact ⟨_, rfl⟩

theorem pnorm_one_nonneg (r : Pt M) : 0 ≤ pnorm .one r := Finset.sum_nonneg fun i _ => abs_nonneg _

theorem pnorm_one_zero : pnorm .one (0 : Pt M) = 0 := by simp [pnorm]

/-- Two samples of a nonconstant function of one variable are fitted. -/
example (svdU : (Fin 2 → Pt 1) → Matrix (Fin 1) (Fin 1) ℝ) (rotate : Bool) (opt : (Fin 2 → Pt 1) → Pt 2 → Except Err (Matrix (Fin 1) (Fin 1) ℝ)) :
    ∃ R, ridgeFit idealSolver 1 (fun _ => affLin) svdU .one .none rotate opt ![![-1], ![1]] ![0, 1] = .ok R := by
  have hi : infOf (fun i => (![![-1], ![1]] : Fin 2 → Pt 1) i 0) = -1 := infOf_eq (i := 0) (by simp) fun j => by fin_cases j <;> simp
  have hs : supOf (fun i => (![![-1], ![1]] : Fin 2 → Pt 1) i 0) = 1 := supOf_eq (i := 1) (by simp) fun j => by fin_cases j <;> simp
  have fi : infOf (![0, 1] : Pt 2) = 0 := infOf_eq (i := 0) (by simp) fun j => by fin_cases j <;> simp
  have fs : supOf (![0, 1] : Pt 2) = 1 := supOf_eq (i := 1) (by simp) fun j => by fin_cases j <;> simp
  have hsl : affSlope (![![-1], ![1]] : Fin 2 → Pt 1) 0 = 1 := by simp only [affSlope, hi, hs]; norm_num
  have hmid : affMid (![![-1], ![1]] : Fin 2 → Pt 1) 0 = 0 := by simp only [affMid, hi, hs]; norm_num
  have hd : ∀ (b : Pt 2) i, (affDesign (![![-1], ![1]] : Fin 2 → Pt 1) *ᵥ b) i = b 0 * (![![-1], ![1]] : Fin 2 → Pt 1) i 0 + b 1 := by
    intro b i
    rw [affDesign_mulVec]
    simp only [Fin.sum_univ_one, Fin.isValue, hsl, hmid, mul_zero, one_mul, sub_zero]
    rfl
  have hr : affRhs (![0, 1] : Pt 2) = ![0, 1] := by ext i; simp [affRhs, fi, fs]
  have h0 : affDesign (![![-1], ![1]] : Fin 2 → Pt 1) *ᵥ ![1 / 2, 1 / 2] - ![0, 1] = 0 := by
    ext i
    rw [Pi.sub_apply, hd]
    fin_cases i <;> simp
    norm_num
  obtain ⟨b, hb⟩ := ideal_free (p := .one) (A := affDesign (![![-1], ![1]] : Fin 2 → Pt 1)) (b := ![0, 1]) (x := ![1 / 2, 1 / 2]) fun x' => by
    rw [h0, pnorm_one_zero]; exact pnorm_one_nonneg _
  have hbo := idealSolver_exact.free _ _ _ _ hb ![1 / 2, 1 / 2]
  rw [h0] at hbo
  simp only [pnorm, Fin.sum_univ_two, Pi.sub_apply, hd] at hbo
  simp at hbo
  have a1 := abs_nonneg (-b 0 + b 1)
  have a2 := abs_nonneg (b 0 + b 1 - 1)
  have z1 : -b 0 + b 1 = 0 := abs_eq_zero.1 (by linarith)
  have z2 : b 0 + b 1 - 1 = 0 := abs_eq_zero.1 (by linarith)
  have hb0 : b 0 = 1 / 2 := by linarith
  have hn : nrm (fun k : Fin 1 => affSlope (![![-1], ![1]] : Fin 2 → Pt 1) k * b k.castSucc) ≠ 0 := by
    intro h
    have := nrm_sq fun k : Fin 1 => affSlope (![![-1], ![1]] : Fin 2 → Pt 1) k * b k.castSucc
    rw [h] at this
    simp [dotProduct, hsl, hb0] at this
  set u : Pt 1 := fun k : Fin 1 => affSlope (![![-1], ![1]] : Fin 2 → Pt 1) k * b k.castSucc with hu
  have hu0 : u 0 = 1 / 2 := by simp [hu, hsl, hb0]
  have hA : fitAffine idealSolver .one .none (![![-1], ![1]] : Fin 2 → Pt 1) ![0, 1] = .ok (Matrix.of fun i _ => u i / nrm u) := by
    simp only [fitAffine, fi, fs, affSolve, hr, hb, ofSolver]
    rw [if_neg (by norm_num), if_neg hn]
  set U : Matrix (Fin 1) (Fin 1) ℝ := Matrix.of fun i _ => u i / nrm u with hU
  have hV : ∀ c : Pt 2, ∀ i, (Matrix.of (fun i => affLin.V (projY U ((![![-1], ![1]] : Fin 2 → Pt 1) i))) *ᵥ c) i =
      c 1 * (1 / 2 / nrm u) * (![![-1], ![1]] : Fin 2 → Pt 1) i 0 + c 0 := by
    intro c i
    change affLin.V _ ⬝ᵥ c = _
    rw [affLin_val]
    simp only [projY, Matrix.mulVec, dotProduct, Fin.sum_univ_one, Matrix.transpose_apply, hU, Matrix.of_apply, hu0]
    ring
  obtain ⟨c, hc⟩ := ideal_free (p := .one) (A := Matrix.of (fun i => affLin.V (projY U ((![![-1], ![1]] : Fin 2 → Pt 1) i)))) (b := ![0, 1]) (x := ![1 / 2, nrm u]) fun x' => by
    have : Matrix.of (fun i => affLin.V (projY U ((![![-1], ![1]] : Fin 2 → Pt 1) i))) *ᵥ ![1 / 2, nrm u] - ![0, 1] = 0 := by
      ext i
      rw [Pi.sub_apply, hV]
      have : nrm u * (1 / 2 / nrm u) = 1 / 2 := by field_simp
      fin_cases i <;> simp [-one_div, this] <;> norm_num
    rw [this, pnorm_one_zero]; exact pnorm_one_nonneg _
  refine ⟨⟨affLin, c, U⟩, ?_⟩
  refine ridgeFit_affine_of svdU rotate opt (by simp [nParam]) hA ?_
  simp only [fitCoef]
  rw [hc]
  rfl

/-- The fit of `affine_lower_false` succeeds with exact solvers. -/
example (svdU : (Fin 4 → Pt 1) → Matrix (Fin 1) (Fin 1) ℝ) (rotate : Bool) (opt : (Fin 4 → Pt 2) → Pt 4 → Except Err (Matrix (Fin 2) (Fin 1) ℝ)) :
    ∃ R, ridgeFit idealSolver 1 (fun _ => affLin) svdU .one .lower rotate opt bX bF = .ok R := by
  have hn : ∀ g : Pt 4, (∀ i, bF i ≤ g i) → pnorm .one (g - bF) = ∑ i, (g i - bF i) := fun g hg => by
    simp only [pnorm]
    exact Finset.sum_congr rfl fun i _ => abs_of_nonneg (sub_nonneg.2 (hg i))
  have hf : ∀ i, bF i ≤ (affDesign bX *ᵥ ![-(1 / 2), 1 / 2, 1]) i := by
    intro i
    rw [bX_design]
    fin_cases i <;> simp [bX, bF] <;> norm_num
  obtain ⟨b, hb⟩ := ideal_ge (p := .one) hf fun x' hx' => by
    rw [hn _ hf, hn _ hx']
    have hA := hx' 0
    have hB := hx' 1
    have hC := hx' 2
    simp only [bX_design, Fin.sum_univ_four] at hA hB hC ⊢
    simp [bX, bF] at hA hB hC ⊢
    linarith
  have hs : affSolve idealSolver .one .lower bX bF = .ok b := by simp only [affSolve, boundFit, bF_rhs, hb, ofSolver]
  obtain ⟨e0, e1, -⟩ := bF_upper idealSolver_exact hs
  set u : Pt 2 := fun k => affSlope bX k * b k.castSucc with hu
  have hu0 : u 0 = -(1 / 2) := by rw [hu]; simp only [(bX_slope _).1, one_mul]; exact e0
  have hu1 : u 1 = 1 / 2 := by rw [hu]; simp only [(bX_slope _).1, one_mul]; exact e1
  have hnu : nrm u ≠ 0 := by
    intro h
    have := nrm_sq u
    rw [h] at this
    simp [dotProduct, Fin.sum_univ_two, hu0, hu1] at this
    norm_num at this
  have hA : fitAffine idealSolver .one .lower bX bF = .ok (Matrix.of fun i _ => u i / nrm u) := by
    simp only [fitAffine, bF_range.1, bF_range.2, hs]
    rw [if_neg (by norm_num), if_neg hnu]
  set U : Matrix (Fin 2) (Fin 1) ℝ := Matrix.of fun i _ => u i / nrm u with hU
  have hV : ∀ c : Pt 2, ∀ i, (-Matrix.of (fun i => affLin.V (projY U (bX i))) *ᵥ c) i = -(c 1 / (2 * nrm u) * (bX i 1 - bX i 0) + c 0) := by
    intro c i
    rw [Matrix.neg_mulVec, Pi.neg_apply]
    change -(affLin.V _ ⬝ᵥ c) = _
    rw [affLin_val]
    simp only [projY, Matrix.mulVec, dotProduct, Matrix.transpose_apply, hU, Matrix.of_apply, Fin.sum_univ_two, hu0, hu1]
    field_simp
    ring
  have hg : ∀ i, (-bF) i ≤ (-Matrix.of (fun i => affLin.V (projY U (bX i))) *ᵥ ![1 / 3, 1 / 6 * (2 * nrm u)]) i := by
    intro i
    rw [hV]
    have : (![1 / 3, 1 / 6 * (2 * nrm u)] : Pt 2) 1 / (2 * nrm u) = 1 / 6 := by simp only [Matrix.cons_val_one, Matrix.cons_val_fin_one]; field_simp
    rw [this]
    fin_cases i <;> simp [bX, bF] <;> norm_num
  have hm : ∀ g : Pt 4, (∀ i, (-bF) i ≤ g i) → pnorm .one (g - -bF) = ∑ i, (g i + bF i) := fun g hg => by
    simp only [pnorm, Pi.sub_apply, Pi.neg_apply, sub_neg_eq_add]
    exact Finset.sum_congr rfl fun i _ => abs_of_nonneg (by have := hg i; simp at this; linarith)
  obtain ⟨c, hc⟩ := ideal_ge (p := .one) hg fun x' hx' => by
    rw [hm _ hg, hm _ hx']
    have h1 := hx' 1
    have h3 := hx' 3
    simp only [hV, Fin.sum_univ_four] at h1 h3 ⊢
    have : (![1 / 3, 1 / 6 * (2 * nrm u)] : Pt 2) 1 / (2 * nrm u) = 1 / 6 := by simp only [Matrix.cons_val_one, Matrix.cons_val_fin_one]; field_simp
    rw [this]
    set t := x' 1 / (2 * nrm u)
    simp [bX, bF] at h1 h3 ⊢
    linarith
  refine ⟨⟨affLin, c, U⟩, ?_⟩
  refine ridgeFit_affine_of svdU rotate opt (by simp [nParam]) hA ?_
  simp only [fitCoef, boundFit]
  rw [hc]
  rfl

end Verif.Func
