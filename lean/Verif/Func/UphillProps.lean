import Verif.Func.ApproxFit
import Verif.Misc.SvdExists
import Mathlib.Combinatorics.Nullstellensatz

/-!
# Property C140: the directions of a ridge fit are ordered and point uphill

`rotate = True` (polyridge.py 225, 418-443) promises to "rotate the U matrix to align to the active subspace with average
increasing gradients".
-/

namespace Verif.Func

open Verif.Domain Verif.Lip Verif.Basis Matrix

variable {M m n N : ℕ}

/-! ## Specification -/

/-- The slopes of the profile function at the projected samples. -/
def Ridge.slopes (R : Ridge m n N) (X : Fin M → Pt m) (i : Fin M) : Pt n := polyGrad R.basis R.coef (projY R.U (X i))

/-- The mean slope of the profile along a direction over the samples. -/
noncomputable def Ridge.meanSlope (R : Ridge m n N) (X : Fin M → Pt m) (k : Fin n) : ℝ := (∑ i, R.slopes X i k) / M

/-- The products of the slopes, summed over the samples. -/
def gramOf (G : Fin M → Pt n) : Matrix (Fin n) (Fin n) ℝ := Matrix.of fun k l => ∑ i, G i k * G i l

/-- `W` are left singular vectors of the matrix with columns `G i`, in decreasing order of the singular values
(`full_matrices = False`, polyridge.py 432, gives all of them if there are at least as many samples as directions). -/
def LeftSingular (G : Fin M → Pt n) (W : Matrix (Fin n) (Fin n) ℝ) : Prop :=
  Wᵀ * W = 1 ∧ ∃ s : Fin n → ℝ, Antitone s ∧ Wᵀ * gramOf G * W = Matrix.diagonal s

/-! ## Gradients of equal polynomials -/

theorem line_deriv {d : ℕ} {B : BasisObj n N} (hB : IsPolyBasis d B) (c : Pt N) (y v : Pt n) :
    HasDerivAt (fun t : ℝ => B.V (y + t • v) ⬝ᵥ c) (v ⬝ᵥ polyGrad B c y) 0 := by
  obtain ⟨ψ, hV, hDV, -⟩ := hB
  have h : HasDerivAt (fun t : ℝ => ∑ j, MvPolynomial.eval (y + t • v) (ψ j) * c j)
      (∑ j, (∑ l, v l * MvPolynomial.eval y (MvPolynomial.pderiv l (ψ j))) * c j) 0 := by
    have := HasDerivAt.sum (u := Finset.univ) fun (j : Fin N) _ => (hasDerivAt_poly (ψ j) y v).mul_const (c j)
    refine this.congr_of_eventuallyEq (Filter.Eventually.of_forall fun t => ?_)
    simp
  have e : v ⬝ᵥ polyGrad B c y = ∑ j, (∑ l, v l * MvPolynomial.eval y (MvPolynomial.pderiv l (ψ j))) * c j := by
    simp only [dotProduct, polyGrad, hDV, Finset.mul_sum, Finset.sum_mul]
    rw [Finset.sum_comm]
    refine Finset.sum_congr rfl fun j _ => Finset.sum_congr rfl fun l _ => by ring
  rw [e]
  refine h.congr_of_eventuallyEq (Filter.Eventually.of_forall fun t => ?_)
  simp only [dotProduct, hV]

/-- The gradient of a profile that is another function of a linear image. -/
theorem polyGrad_subst {d l : ℕ} {B : BasisObj n N} (hB : IsPolyBasis d B) (c : Pt N) {φ : Pt l → ℝ} {γ : Pt l → Pt l}
    (hφ : ∀ y v, HasDerivAt (fun t : ℝ => φ (y + t • v)) (v ⬝ᵥ γ y) 0) (A : Matrix (Fin l) (Fin n) ℝ)
    (h : ∀ z, B.V z ⬝ᵥ c = φ (A *ᵥ z)) (z : Pt n) : polyGrad B c z = Aᵀ *ᵥ γ (A *ᵥ z) := by
  funext k
  have h1 := line_deriv hB c z (Pi.single k 1)
  have h2 := hφ (A *ᵥ z) (A *ᵥ Pi.single k 1)
  have e : (fun t : ℝ => B.V (z + t • Pi.single k 1) ⬝ᵥ c) = fun t => φ (A *ᵥ z + t • (A *ᵥ Pi.single k 1)) := by
    funext t
    rw [h, Matrix.mulVec_add, Matrix.mulVec_smul]
  rw [e] at h1
  have := h1.unique h2
  rw [single_one_dotProduct] at this
  rw [this, dotProduct_comm, Matrix.dotProduct_mulVec, dotProduct_single_one, Matrix.mulVec_transpose]

/-! ## Fits of rotated samples -/

theorem unisolvent_rotate {d : ℕ} {Y : Fin M → Pt n} (hY : Unisolvent d Y) {A B : Matrix (Fin n) (Fin n) ℝ} (hAB : A * B = 1) :
    Unisolvent d fun i => A *ᵥ Y i := by
  intro q hq h0
  obtain ⟨q', h1, h2⟩ := poly_affine A 0 q
  have hz : q' = 0 := hY q' (h1.trans hq) fun i => by rw [h2, add_zero]; exact h0 i
  refine MvPolynomial.funext fun x => ?_
  have := h2 (B *ᵥ x)
  rw [add_zero, Matrix.mulVec_mulVec, hAB, Matrix.one_mulVec, hz] at this
  rw [← this]; simp

theorem projY_mul (U : Matrix (Fin m) (Fin n) ℝ) (Q : Matrix (Fin n) (Fin n) ℝ) (x : Pt m) : projY (U * Q) x = Qᵀ *ᵥ projY U x := by
  unfold projY
  rw [Matrix.transpose_mul, Matrix.mulVec_mulVec]

theorem fitCoef_best {d : ℕ} {S : FitSolver} (hS : S.Exact) {mk : (Fin M → Pt n) → BasisObj n N} (hmk : ∀ Y, IsPolyBasis d (mk Y)) {p : PNorm}
    {bound : Bound} {X : Fin M → Pt m} {fX : Pt M} {U : Matrix (Fin m) (Fin n) ℝ} {bc : BasisObj n N × Pt N}
    (h : fitCoef S mk p bound X fX U = .ok bc) :
    IsPolyBasis d bc.1 ∧ BestPoly p bound d (fun i => projY U (X i)) fX fun y => bc.1.V y ⬝ᵥ bc.2 := by
  have hB : IsPolyBasis d bc.1 := by
    rw [fitCoef_basis (B := bc.1) (c := bc.2) h]
    exact hmk _
  obtain ⟨g1, g2⟩ := fitCoef_bound S hS mk p bound X fX U bc.1 bc.2 h
  exact ⟨hB, best_of_basis hB g1 g2⟩

/-- The profile fitted for a rotated subspace is the rotated profile. -/
theorem fitCoef_rotate {d : ℕ} {S : FitSolver} (hS : S.Exact) {mk : (Fin M → Pt n) → BasisObj n N} (hmk : ∀ Y, IsPolyBasis d (mk Y))
    {bound : Bound} {X : Fin M → Pt m} {fX : Pt M} {U : Matrix (Fin m) (Fin n) ℝ} (hu : Unisolvent d fun i => projY U (X i))
    {Q : Matrix (Fin n) (Fin n) ℝ} (hQ : Qᵀ * Q = 1) {bc bc' : BasisObj n N × Pt N}
    (h : fitCoef S mk .two bound X fX U = .ok bc) (h' : fitCoef S mk .two bound X fX (U * Q) = .ok bc') (z : Pt n) :
    bc'.1.V z ⬝ᵥ bc'.2 = bc.1.V (Q *ᵥ z) ⬝ᵥ bc.2 := by
  have hQ' : Q * Qᵀ = 1 := mul_eq_one_comm.1 hQ
  obtain ⟨-, h1⟩ := fitCoef_best hS hmk h
  obtain ⟨-, h2⟩ := fitCoef_best hS hmk h'
  have h3 := h1.inputs (A := Qᵀ) (B := Q) hQ' 0
  simp only [add_zero, sub_zero] at h3
  simp only [projY_mul] at h2
  have := same_of_unisolvent (unisolvent_rotate hu hQ) h2.1 h3.1 (h2.two_unique h3)
  exact congrFun this z

theorem polyGrad_rotate {d : ℕ} {S : FitSolver} (hS : S.Exact) {mk : (Fin M → Pt n) → BasisObj n N} (hmk : ∀ Y, IsPolyBasis d (mk Y))
    {bound : Bound} {X : Fin M → Pt m} {fX : Pt M} {U : Matrix (Fin m) (Fin n) ℝ} (hu : Unisolvent d fun i => projY U (X i))
    {Q : Matrix (Fin n) (Fin n) ℝ} (hQ : Qᵀ * Q = 1) {bc bc' : BasisObj n N × Pt N}
    (h : fitCoef S mk .two bound X fX U = .ok bc) (h' : fitCoef S mk .two bound X fX (U * Q) = .ok bc') (z : Pt n) :
    polyGrad bc'.1 bc'.2 z = Qᵀ *ᵥ polyGrad bc.1 bc.2 (Q *ᵥ z) :=
  polyGrad_subst (fitCoef_best hS hmk h').1 bc'.2 (φ := fun y => bc.1.V y ⬝ᵥ bc.2) (γ := polyGrad bc.1 bc.2)
    (fun y v => line_deriv (fitCoef_best hS hmk h).1 bc.2 y v) Q (fitCoef_rotate hS hmk hu hQ h h') z

theorem slopes_rotate {d : ℕ} {S : FitSolver} (hS : S.Exact) {mk : (Fin M → Pt n) → BasisObj n N} (hmk : ∀ Y, IsPolyBasis d (mk Y))
    {bound : Bound} {X : Fin M → Pt m} {fX : Pt M} {U : Matrix (Fin m) (Fin n) ℝ} (hu : Unisolvent d fun i => projY U (X i))
    {Q : Matrix (Fin n) (Fin n) ℝ} (hQ : Qᵀ * Q = 1) {bc bc' : BasisObj n N × Pt N}
    (h : fitCoef S mk .two bound X fX U = .ok bc) (h' : fitCoef S mk .two bound X fX (U * Q) = .ok bc') (i : Fin M) :
    polyGrad bc'.1 bc'.2 (projY (U * Q) (X i)) = Qᵀ *ᵥ polyGrad bc.1 bc.2 (projY U (X i)) := by
  rw [polyGrad_rotate hS hmk hu hQ h h', projY_mul, Matrix.mulVec_mulVec, mul_eq_one_comm.1 hQ, Matrix.one_mulVec]

theorem meanGrad_mulVec (A : Matrix (Fin n) (Fin n) ℝ) (G : Fin M → Pt n) : meanGrad (fun i => A *ᵥ G i) = A *ᵥ meanGrad G := by
  funext k
  simp only [meanGrad, Matrix.mulVec, dotProduct, Finset.sum_div]
  rw [Finset.sum_comm]
  refine Finset.sum_congr rfl fun l _ => ?_
  rw [Finset.mul_sum]
  exact Finset.sum_congr rfl fun i _ => by ring

theorem gramOf_mulVec (A : Matrix (Fin n) (Fin n) ℝ) (G : Fin M → Pt n) : gramOf (fun i => A *ᵥ G i) = A * gramOf G * Aᵀ := by
  ext k l
  simp only [gramOf, Matrix.of_apply, Matrix.mul_apply, Matrix.mulVec, dotProduct, Matrix.transpose_apply, Finset.sum_mul, Finset.mul_sum]
  rw [Finset.sum_comm]
  refine Finset.sum_congr rfl fun b _ => ?_
  rw [Finset.sum_comm]
  refine Finset.sum_congr rfl fun a _ => Finset.sum_congr rfl fun i _ => by ring

/-! ## `_finish` -/

/-- What `_finish` does: the subspace is multiplied by the singular vectors and by signs. -/
theorem finish_steps {S : FitSolver} {mk : (Fin M → Pt n) → BasisObj n N} {svdU : (Fin M → Pt n) → Matrix (Fin n) (Fin n) ℝ} {p : PNorm} {bound : Bound}
    {X : Fin M → Pt m} {fX : Pt M} {U : Matrix (Fin m) (Fin n) ℝ} {R : Ridge m n N} (h : finish S mk svdU p bound true X fX U = .ok R) :
    ∃ (W : Matrix (Fin n) (Fin n) ℝ) (bc1 : BasisObj n N × Pt N),
      (1 < n → ∃ bc0, fitCoef S mk p bound X fX U = .ok bc0 ∧ W = svdU fun i => polyGrad bc0.1 bc0.2 (projY U (X i))) ∧ (¬ 1 < n → W = 1) ∧
      fitCoef S mk p bound X fX (U * W) = .ok bc1 ∧
      R.U = U * W * Matrix.diagonal (fun k => sgn (meanGrad (fun i => polyGrad bc1.1 bc1.2 (projY U (X i))) k)) ∧
      fitCoef S mk p bound X fX R.U = .ok (R.basis, R.coef) := by
  obtain ⟨U1, h1, h2, h3⟩ := finish_ok h
  have e1 : ∃ W : Matrix (Fin n) (Fin n) ℝ, U1 = U * W ∧
      (1 < n → ∃ bc0, fitCoef S mk p bound X fX U = .ok bc0 ∧ W = svdU fun i => polyGrad bc0.1 bc0.2 (projY U (X i))) ∧ (¬ 1 < n → W = 1) := by
    unfold finishRotate at h1
    split at h1
    · rename_i hn
      obtain ⟨bc, hbc, rfl⟩ := map_ok h1
      exact ⟨_, rfl, fun _ => ⟨bc, hbc, rfl⟩, fun hn' => absurd hn.1 hn'⟩
    · rename_i hn
      cases h1
      exact ⟨1, (Matrix.mul_one U).symm, fun hn' => absurd ⟨hn', rfl⟩ hn, fun _ => rfl⟩
  obtain ⟨W, rfl, hW, hW'⟩ := e1
  unfold finishSigns at h2
  rw [if_pos rfl] at h2
  obtain ⟨bc1, hbc1, e⟩ := map_ok h2
  exact ⟨W, bc1, hW, hW', hbc1, e.symm, h3⟩

theorem diag_sgn_sq {v : Fin n → ℝ} (h : ∀ k, v k ≠ 0) : Matrix.diagonal (fun k => sgn (v k)) * Matrix.diagonal (fun k => sgn (v k)) = 1 := by
  rw [Matrix.diagonal_mul_diagonal, ← Matrix.diagonal_one]
  congr 1
  funext k
  rw [sgn_sq, if_neg (h k)]

/-- The slopes of the result in terms of the fit for the rotated subspace: the sign of each is chosen from the mean of the slopes at the
points `Uᵀ x`, which are the projected samples only if nothing was rotated. -/
theorem finish_slopes {d : ℕ} {S : FitSolver} (hS : S.Exact) {mk : (Fin M → Pt n) → BasisObj n N} (hmk : ∀ Y, IsPolyBasis d (mk Y))
    {bound : Bound} {X : Fin M → Pt m} {fX : Pt M} {U : Matrix (Fin m) (Fin n) ℝ} (hU : Uᵀ * U = 1) (hu : Unisolvent d fun i => projY U (X i))
    {W : Matrix (Fin n) (Fin n) ℝ} (hW : Wᵀ * W = 1) {bc1 : BasisObj n N × Pt N} {R : Ridge m n N} {v : Fin n → ℝ}
    (h1 : fitCoef S mk .two bound X fX (U * W) = .ok bc1) (hR : R.U = U * W * Matrix.diagonal fun k => sgn (v k))
    (h2 : fitCoef S mk .two bound X fX R.U = .ok (R.basis, R.coef)) (ho : R.Uᵀ * R.U = 1) :
    (∀ k, v k ≠ 0) ∧ ∀ i k, R.slopes X i k = sgn (v k) * polyGrad bc1.1 bc1.2 (projY (U * W) (X i)) k := by
  have hUW : (U * W)ᵀ * (U * W) = 1 := by
    rw [Matrix.transpose_mul, Matrix.mul_assoc, ← Matrix.mul_assoc Uᵀ, hU, Matrix.one_mul, hW]
  have hD : (Matrix.diagonal fun k => sgn (v k)) * (Matrix.diagonal fun k => sgn (v k)) = 1 := by
    rw [hR, Matrix.transpose_mul, Matrix.mul_assoc, ← Matrix.mul_assoc (U * W)ᵀ, hUW, Matrix.one_mul, Matrix.diagonal_transpose] at ho
    exact ho
  have hv : ∀ k, v k ≠ 0 := by
    intro k hk
    have := congrFun (congrFun hD k) k
    rw [Matrix.diagonal_mul_diagonal, Matrix.diagonal_apply_eq, Matrix.one_apply_eq, sgn_sq, if_pos hk] at this
    exact zero_ne_one this
  refine ⟨hv, fun i k => ?_⟩
  have hu1 : Unisolvent d fun i => projY (U * W) (X i) := by
    simp only [projY_mul]
    exact unisolvent_rotate hu hW
  have hb := h2
  rw [hR] at hb
  have := slopes_rotate hS hmk hu1 (Q := Matrix.diagonal fun k => sgn (v k)) (by rw [Matrix.diagonal_transpose]; exact hD) h1 hb i
  unfold Ridge.slopes
  rw [hR, this, Matrix.diagonal_transpose, Matrix.mulVec_diagonal]

/-- C140: the slopes are the derivatives of the profile of the result. -/
theorem slopes_deriv {d : ℕ} {S : FitSolver} {mk : (Fin M → Pt n) → BasisObj n N} (hmk : ∀ Y, IsPolyBasis d (mk Y))
    {svdU : (Fin M → Pt n) → Matrix (Fin n) (Fin n) ℝ} {p : PNorm} {bound : Bound} {X : Fin M → Pt m} {fX : Pt M} {U : Matrix (Fin m) (Fin n) ℝ}
    {R : Ridge m n N} {rotate : Bool} (h : finish S mk svdU p bound rotate X fX U = .ok R) (i : Fin M) (k : Fin n) :
    HasDerivAt (fun t : ℝ => R.profile (projY R.U (X i) + t • Pi.single k 1)) (R.slopes X i k) 0 := by
  obtain ⟨U1, -, -, h3⟩ := finish_ok h
  have hB : IsPolyBasis d R.basis := by
    rw [fitCoef_basis (B := R.basis) (c := R.coef) h3]
    exact hmk _
  have := line_deriv hB R.coef (projY R.U (X i)) (Pi.single k 1)
  rw [single_one_dotProduct] at this
  exact this

/-- C140, order: the slopes of the fitted profile in different directions are uncorrelated over the samples, and the directions are in decreasing
order of their mean square (missing: fits where the choice of signs erases a direction, C78). -/
theorem finish_ordered_partial {d : ℕ} {S : FitSolver} (hS : S.Exact) {mk : (Fin M → Pt n) → BasisObj n N} (hmk : ∀ Y, IsPolyBasis d (mk Y))
    {svdU : (Fin M → Pt n) → Matrix (Fin n) (Fin n) ℝ} (hsvd : ∀ G, LeftSingular G (svdU G)) {bound : Bound} {X : Fin M → Pt m} {fX : Pt M}
    {U : Matrix (Fin m) (Fin n) ℝ} (hU : Uᵀ * U = 1) (hu : Unisolvent d fun i => projY U (X i)) {R : Ridge m n N}
    (h : finish S mk svdU .two bound true X fX U = .ok R) (ho : R.Uᵀ * R.U = 1) :
    (∀ k l, k ≠ l → ∑ i, R.slopes X i k * R.slopes X i l = 0) ∧ Antitone fun k => ∑ i, R.slopes X i k ^ 2 := by
  obtain ⟨W, bc1, hW, hW', h1, hR, h2⟩ := finish_steps h
  by_cases hn : 1 < n
  · obtain ⟨bc0, h0, rfl⟩ := hW hn
    obtain ⟨hWW, s, hs, hG⟩ := hsvd fun i => polyGrad bc0.1 bc0.2 (projY U (X i))
    obtain ⟨hv, hsl⟩ := finish_slopes hS hmk hU hu hWW h1 hR h2 ho
    have hg1 := slopes_rotate hS hmk hu hWW h0 h1
    have hgram := gramOf_mulVec (svdU fun i => polyGrad bc0.1 bc0.2 (projY U (X i)))ᵀ fun i => polyGrad bc0.1 bc0.2 (projY U (X i))
    rw [Matrix.transpose_transpose, hG] at hgram
    simp only [← hg1] at hgram
    have hkl : ∀ k l, ∑ i, R.slopes X i k * R.slopes X i l = sgn (meanGrad (fun i => polyGrad bc1.1 bc1.2 (projY U (X i))) k) *
        sgn (meanGrad (fun i => polyGrad bc1.1 bc1.2 (projY U (X i))) l) * Matrix.diagonal s k l := by
      intro k l
      rw [← hgram]
      simp only [gramOf, Matrix.of_apply, Finset.mul_sum, hsl]
      exact Finset.sum_congr rfl fun i _ => by ring
    refine ⟨fun k l hne => by rw [hkl, Matrix.diagonal_apply_ne _ hne, mul_zero], ?_⟩
    have e : (fun k => ∑ i, R.slopes X i k ^ 2) = s := by
      funext k
      simp only [pow_two]
      rw [hkl, sgn_sq, if_neg (hv k), one_mul, Matrix.diagonal_apply_eq]
    rw [e]
    exact hs
  · have h01 : ∀ k l : Fin n, k = l := fun k l => Fin.ext (by omega)
    exact ⟨fun k l hne => absurd (h01 k l) hne, fun k l _ => by rw [h01 k l]⟩

/-- C140, one direction: the fitted profile increases on average over the samples (missing: the erased direction, C78). -/
theorem finish_uphill_one_partial {d : ℕ} {S : FitSolver} (hS : S.Exact) {mk : (Fin M → Pt 1) → BasisObj 1 N} (hmk : ∀ Y, IsPolyBasis d (mk Y))
    {svdU : (Fin M → Pt 1) → Matrix (Fin 1) (Fin 1) ℝ} {bound : Bound} {X : Fin M → Pt m} {fX : Pt M}
    {U : Matrix (Fin m) (Fin 1) ℝ} (hU : Uᵀ * U = 1) (hu : Unisolvent d fun i => projY U (X i)) {R : Ridge m 1 N}
    (h : finish S mk svdU .two bound true X fX U = .ok R) (ho : R.Uᵀ * R.U = 1) (k : Fin 1) : 0 < R.meanSlope X k := by
  obtain ⟨W, bc1, -, hW', h1, hR, h2⟩ := finish_steps h
  obtain rfl := hW' (by norm_num)
  obtain ⟨hv, hsl⟩ := finish_slopes hS hmk hU hu (by simp) h1 hR h2 ho
  have e : R.meanSlope X k = sgn (meanGrad (fun i => polyGrad bc1.1 bc1.2 (projY U (X i))) k) *
      meanGrad (fun i => polyGrad bc1.1 bc1.2 (projY U (X i))) k := by
    simp only [Matrix.mul_one] at hsl
    simp only [Ridge.meanSlope, meanGrad, hsl, ← Finset.mul_sum, mul_div_assoc]
  rw [e]
  have := hv k
  unfold sgn
  rcases lt_or_gt_of_ne this with h | h
  · rw [if_neg (not_lt.2 h.le), if_pos h]; linarith
  · rw [if_pos h]; linarith

/-- C140, exactly what holds of the signs for any number of directions: the mean slope along a direction of the result is positive exactly if the mean
slope of the rotated fit at the projected samples has the sign of its mean slope at the points `Uᵀ x` of the subspace before the rotation. -/
theorem finish_uphill_iff {d : ℕ} {S : FitSolver} (hS : S.Exact) {mk : (Fin M → Pt n) → BasisObj n N} (hmk : ∀ Y, IsPolyBasis d (mk Y))
    {svdU : (Fin M → Pt n) → Matrix (Fin n) (Fin n) ℝ} (hsvd : ∀ G, LeftSingular G (svdU G)) {bound : Bound} {X : Fin M → Pt m} {fX : Pt M}
    {U : Matrix (Fin m) (Fin n) ℝ} (hU : Uᵀ * U = 1) (hu : Unisolvent d fun i => projY U (X i)) {R : Ridge m n N}
    (h : finish S mk svdU .two bound true X fX U = .ok R) (ho : R.Uᵀ * R.U = 1) :
    ∃ (W : Matrix (Fin n) (Fin n) ℝ) (bc1 : BasisObj n N × Pt N), Wᵀ * W = 1 ∧ fitCoef S mk .two bound X fX (U * W) = .ok bc1 ∧
      ∀ k, 0 < R.meanSlope X k ↔
        0 < meanGrad (fun i => polyGrad bc1.1 bc1.2 (projY U (X i))) k * meanGrad (fun i => polyGrad bc1.1 bc1.2 (projY (U * W) (X i))) k := by
  obtain ⟨W, bc1, hW, hW', h1, hR, h2⟩ := finish_steps h
  have hWW : Wᵀ * W = 1 := by
    by_cases hn : 1 < n
    · obtain ⟨bc0, -, rfl⟩ := hW hn
      exact (hsvd _).1
    · rw [hW' hn]; simp
  obtain ⟨hv, hsl⟩ := finish_slopes hS hmk hU hu hWW h1 hR h2 ho
  refine ⟨W, bc1, hWW, h1, fun k => ?_⟩
  have e : R.meanSlope X k = sgn (meanGrad (fun i => polyGrad bc1.1 bc1.2 (projY U (X i))) k) *
      meanGrad (fun i => polyGrad bc1.1 bc1.2 (projY (U * W) (X i))) k := by
    simp only [Ridge.meanSlope, meanGrad, hsl, ← Finset.mul_sum, mul_div_assoc]
  rw [e]
  unfold sgn
  rcases lt_or_gt_of_ne (hv k) with h | h
  · rw [if_neg (not_lt.2 h.le), if_pos h, neg_one_mul, neg_pos]
    exact ⟨fun h' => mul_pos_of_neg_of_neg h h', fun h' => by nlinarith⟩
  · rw [if_pos h, one_mul]
    exact ⟨fun h' => mul_pos h h', fun h' => by nlinarith⟩

/-! ## The contract of the decomposition -/

/-- What `scipy.linalg.svd` promises gives what is used. -/
theorem leftSingular_of_svd {G : Fin M → Pt n} {w : Misc.FSvd n M} (h : Misc.IsFSvd (Matrix.of fun k i => G i k) w) : LeftSingular G w.U := by
  refine ⟨h.orthU, fun k => if (k : ℕ) < M then w.s.getD k 0 ^ 2 else 0, ?_, ?_⟩
  · intro k l hkl
    simp only
    have h0 : ∀ j : ℕ, 0 ≤ w.s.getD j 0 := by
      intro j
      by_cases hj : j < w.s.length
      · rw [List.getD_eq_getElem _ _ hj]; exact h.nonneg _ (List.getElem_mem hj)
      · rw [List.getD_eq_default _ _ (not_lt.1 hj)]
    by_cases hl : (l : ℕ) < M
    · rw [if_pos hl, if_pos (lt_of_le_of_lt (Fin.le_def.1 hkl) hl)]
      refine pow_le_pow_left₀ (h0 _) ?_ 2
      have h1 : (l : ℕ) < w.s.length := by rw [h.len]; exact lt_min l.2 hl
      have h2 : (k : ℕ) < w.s.length := lt_of_le_of_lt (Fin.le_def.1 hkl) h1
      rw [List.getD_eq_getElem _ _ h1, List.getD_eq_getElem _ _ h2]
      rcases (Fin.le_def.1 hkl).eq_or_lt with e | e
      · simp only [e]; exact le_rfl
      · exact List.pairwise_iff_getElem.1 h.sorted _ _ h2 h1 e
    · rw [if_neg hl]
      split
      · positivity
      · exact le_rfl
  · have e : gramOf G = (Matrix.of fun k i => G i k) * (Matrix.of fun k i => G i k)ᵀ := by
      ext k l
      simp [gramOf, Matrix.mul_apply]
    rw [e, h.eq]
    simp only [Matrix.transpose_mul, Matrix.transpose_transpose]
    have hU := h.orthU
    have hV := h.orthV
    have : w.Uᵀ * (w.U * Misc.sigmaMat n M w.s * w.Vᵀ * (w.V * ((Misc.sigmaMat n M w.s)ᵀ * w.Uᵀ))) * w.U =
        (w.Uᵀ * w.U) * Misc.sigmaMat n M w.s * (w.Vᵀ * w.V) * (Misc.sigmaMat n M w.s)ᵀ * (w.Uᵀ * w.U) := by
      simp only [Matrix.mul_assoc]
    rw [this, hU, hV, Matrix.one_mul, Matrix.mul_one, Matrix.mul_one]
    ext k l
    simp only [Matrix.mul_apply, Misc.sigmaMat, Matrix.of_apply, Matrix.transpose_apply, Matrix.diagonal_apply]
    by_cases hk : (k : ℕ) < M
    · rw [Finset.sum_eq_single ⟨k, hk⟩]
      · simp only [if_true, hk]
        by_cases hkl : k = l
        · subst hkl; simp [pow_two]
        · have : ¬ (l : ℕ) = k := fun h => hkl (Fin.ext h.symm)
          simp [hkl, this]
      · intro b _ hb
        rw [if_neg fun h => hb (Fin.ext h.symm), zero_mul]
      · simp
    · rw [Finset.sum_eq_zero]
      · split <;> simp [hk]
      · intro b _
        rw [if_neg (by have := b.2; omega), zero_mul]

theorem exists_leftSingular (M n : ℕ) : ∃ svdU : (Fin M → Pt n) → Matrix (Fin n) (Fin n) ℝ, ∀ G, LeftSingular G (svdU G) := by
  obtain ⟨svd, h⟩ := Misc.exists_svd n
  exact ⟨fun G => (svd M (Matrix.of fun k i => G i k)).U, fun G => leftSingular_of_svd (h M _)⟩

/-! ## A fit that goes downhill -/

/-- The samples: a grid. -/
def gridX (i : Fin 9) : Pt 2 := ![![-1, 0, 1, -1, 0, 1, -1, 0, 1] i, ![1, 1, 1, 2, 2, 2, 3, 3, 3] i]

/-- The function `y₀²/2 + y₁²/2 - y₁`. -/
noncomputable def bowl (y : Pt 2) : ℝ := y 0 ^ 2 / 2 + y 1 ^ 2 / 2 - y 1

def bowlGrad (y : Pt 2) : Pt 2 := ![y 0, y 1 - 1]

noncomputable def bowlPoly : MvPolynomial (Fin 2) ℝ :=
  MvPolynomial.C (1 / 2) * MvPolynomial.X 0 ^ 2 + MvPolynomial.C (1 / 2) * MvPolynomial.X 1 ^ 2 - MvPolynomial.X 1

theorem eval_bowlPoly (y : Pt 2) : MvPolynomial.eval y bowlPoly = bowl y := by
  simp [bowlPoly, bowl]; ring

theorem bowlPoly_degree : bowlPoly.totalDegree ≤ 2 := by
  have h : ∀ k : Fin 2, (MvPolynomial.C (1 / 2 : ℝ) * MvPolynomial.X k ^ 2 : MvPolynomial (Fin 2) ℝ).totalDegree ≤ 2 := fun k =>
    (MvPolynomial.totalDegree_mul _ _).trans (by
      rw [MvPolynomial.totalDegree_C, MvPolynomial.totalDegree_X_pow])
  refine (MvPolynomial.totalDegree_sub _ _).trans (max_le ((MvPolynomial.totalDegree_add _ _).trans (max_le (h 0) (h 1))) ?_)
  rw [MvPolynomial.totalDegree_X]
  norm_num

theorem bowl_deriv (y v : Pt 2) : HasDerivAt (fun t : ℝ => bowl (y + t • v)) (v ⬝ᵥ bowlGrad y) 0 := by
  have h : ∀ k : Fin 2, HasDerivAt (fun t : ℝ => y k + t * v k) (v k) 0 := fun k => by
    simpa using ((hasDerivAt_id (0 : ℝ)).mul_const (v k)).const_add (y k)
  have := ((((h 0).pow 2).div_const 2).add (((h 1).pow 2).div_const 2)).sub (h 1)
  refine (this.congr_deriv ?_).congr_of_eventuallyEq (Filter.Eventually.of_forall fun t => ?_)
  · simp [dotProduct, bowlGrad, Fin.sum_univ_two]; ring
  · simp [bowl]

theorem grid_unisolvent : Unisolvent 2 gridX := by
  intro q hq h0
  refine MvPolynomial.eq_zero_of_eval_zero_at_prod_finset q ![{-1, 0, 1}, {1, 2, 3}] (fun k => ?_) fun x hx => ?_
  · refine lt_of_le_of_lt ((MvPolynomial.degreeOf_le_totalDegree q k).trans hq) ?_
    fin_cases k
    · simp; rw [Finset.card_insert_of_notMem (by norm_num), Finset.card_pair (by norm_num)]; norm_num
    · simp
  · have a := hx 0
    have b := hx 1
    simp only [Matrix.cons_val_zero, Matrix.cons_val_one, Finset.mem_insert, Finset.mem_singleton] at a b
    have : ∃ i, gridX i = x := by
      have hx' : x = ![x 0, x 1] := by funext k; fin_cases k <;> rfl
      rcases a with a | a | a <;> rcases b with b | b | b <;> rw [hx', a, b]
      exacts [⟨0, rfl⟩, ⟨3, rfl⟩, ⟨6, rfl⟩, ⟨1, rfl⟩, ⟨4, rfl⟩, ⟨7, rfl⟩, ⟨2, rfl⟩, ⟨5, rfl⟩, ⟨8, rfl⟩]
    obtain ⟨i, rfl⟩ := this
    exact h0 i

theorem bowl_best : BestPoly .two .none 2 gridX (fun i => bowl (gridX i)) bowl := by
  refine ⟨⟨bowlPoly, bowlPoly_degree, fun x => (eval_bowlPoly x).symm⟩, trivial, fun q _ _ => ?_⟩
  have : ((fun i => bowl (gridX i)) - fun i => bowl (gridX i)) = (0 : Pt 9) := sub_self _
  rw [this]
  show nrm 0 ≤ nrm _
  rw [nrm_zero]
  exact nrm_nonneg _

theorem projY_one {n : ℕ} (x : Pt n) : projY (1 : Matrix (Fin n) (Fin n) ℝ) x = x := by
  simp [projY]

theorem bowl_gram : gramOf (fun i => bowlGrad (gridX i)) = !![6, 0; 0, 15] := by
  ext k l
  fin_cases k <;> fin_cases l <;> simp [gramOf, bowlGrad, gridX, Fin.sum_univ_succ] <;> norm_num

theorem grid_mean (W : Matrix (Fin 2) (Fin 2) ℝ) (k : Fin 2) : meanGrad (fun i => bowlGrad (W *ᵥ gridX i)) k = ![2 * W 0 1, 2 * W 1 1 - 1] k := by
  fin_cases k <;> simp [meanGrad, bowlGrad, gridX, Matrix.mulVec, dotProduct, Fin.sum_univ_succ] <;> ring

/-- The singular vectors of the gradients. -/
theorem bowl_svd {W : Matrix (Fin 2) (Fin 2) ℝ} (h : LeftSingular (fun i => bowlGrad (gridX i)) W) : W 0 0 = 0 ∧ W 1 1 = 0 ∧ W 1 0 ^ 2 = 1 := by
  obtain ⟨h1, s, hs, h2⟩ := h
  rw [bowl_gram] at h2
  have a := congrFun (congrFun h1 0) 0
  have b := congrFun (congrFun h1 0) 1
  have c := congrFun (congrFun h1 1) 1
  have a' := congrFun (congrFun h2 0) 0
  have b' := congrFun (congrFun h2 0) 1
  have c' := congrFun (congrFun h2 1) 1
  simp [Matrix.mul_apply, Fin.sum_univ_two, Matrix.one_apply] at a b c a' b' c'
  have hs1 := hs (show (0 : Fin 2) ≤ 1 by decide)
  have z1 : W 1 0 * W 1 1 = 0 := by linarith
  have z0 : W 0 0 * W 0 1 = 0 := by linarith
  have hge : W 1 1 ^ 2 ≤ W 1 0 ^ 2 := by nlinarith
  have w11 : W 1 1 = 0 := by
    rcases mul_eq_zero.1 z1 with h | h
    · rw [h] at hge
      nlinarith [sq_nonneg (W 1 1)]
    · exact h
  have w01 : W 0 1 ≠ 0 := by
    intro h
    rw [h, w11] at c
    norm_num at c
  have w00 : W 0 0 = 0 := (mul_eq_zero.1 z0).resolve_right w01
  refine ⟨w00, w11, ?_⟩
  rw [w00] at a
  linarith

theorem fitCoef_ok_two {S : FitSolver} (hS : S.Answers) (mk : (Fin M → Pt n) → BasisObj n N) (X : Fin M → Pt m) (fX : Pt M)
    (U : Matrix (Fin m) (Fin n) ℝ) : ∃ bc, fitCoef S mk .two .none X fX U = .ok bc := by
  obtain ⟨c, -, hc⟩ := best_exists (p := .two) (by simp) .none (Matrix.of fun i => (mk fun i => projY U (X i)).V (projY U (X i))) fX ⟨0, trivial⟩
  obtain ⟨c', hc'⟩ := Option.isSome_iff_exists.1 (hS.free .two _ fX ⟨c, fun x' => hc x' trivial⟩)
  refine ⟨(mk fun i => projY U (X i), c'), ?_⟩
  simp only [fitCoef]
  rw [hc']
  rfl

/-- A least squares fit finishes. -/
theorem finish_ok_two {S : FitSolver} (hS : S.Answers) (mk : (Fin M → Pt n) → BasisObj n N) (svdU : (Fin M → Pt n) → Matrix (Fin n) (Fin n) ℝ)
    (rotate : Bool) (X : Fin M → Pt m) (fX : Pt M) (U : Matrix (Fin m) (Fin n) ℝ) : ∃ R, finish S mk svdU .two .none rotate X fX U = .ok R := by
  have h1 : ∃ U1, finishRotate S mk svdU .two .none rotate X fX U = .ok U1 := by
    unfold finishRotate
    split
    · obtain ⟨bc, h⟩ := fitCoef_ok_two hS mk X fX U
      rw [h]; exact ⟨_, rfl⟩
    · exact ⟨_, rfl⟩
  obtain ⟨U1, h1⟩ := h1
  have h2 : ∃ U2, finishSigns S mk .two .none rotate X fX (fun i => projY U (X i)) U1 = .ok U2 := by
    unfold finishSigns
    split
    · obtain ⟨bc, h⟩ := fitCoef_ok_two hS mk X fX U1
      rw [h]; exact ⟨_, rfl⟩
    · exact ⟨_, rfl⟩
  obtain ⟨U2, h2⟩ := h2
  obtain ⟨bc, h3⟩ := fitCoef_ok_two hS mk X fX U2
  unfold finish
  rw [h1]
  simp only [bind, Except.bind]
  rw [h2]
  simp only
  rw [h3]
  exact ⟨_, rfl⟩

/-- **C140 fails for two directions**: the data of `y₀²/2 + y₁²/2 - y₁` on a grid are fitted exactly, for every exact solver, decomposition and polynomial
basis of degree 2, no direction is erased, but the first direction of the result points downhill: the mean slope along it is `-1`. -/
theorem finish_uphill_false {S : FitSolver} (hS : S.Exact) (hA : S.Answers) {mk : (Fin 9 → Pt 2) → BasisObj 2 N} (hmk : ∀ Y, IsPolyBasis 2 (mk Y))
    {svdU : (Fin 9 → Pt 2) → Matrix (Fin 2) (Fin 2) ℝ} (hsvd : ∀ G, LeftSingular G (svdU G)) :
    ∃ R : Ridge 2 2 N, finish S mk svdU .two .none true gridX (fun i => bowl (gridX i)) 1 = .ok R ∧ R.Uᵀ * R.U = 1 ∧
      (∀ x, R.eval x = bowl x) ∧ R.meanSlope gridX 0 = -1 := by
  obtain ⟨R, h⟩ := finish_ok_two hA mk svdU true gridX (fun i => bowl (gridX i)) (1 : Matrix (Fin 2) (Fin 2) ℝ)
  refine ⟨R, h, ?_⟩
  have hu : Unisolvent 2 fun i => projY (1 : Matrix (Fin 2) (Fin 2) ℝ) (gridX i) := by
    simp only [projY_one]; exact grid_unisolvent
  obtain ⟨W, bc1, hW, -, h1, hR, h2⟩ := finish_steps h
  obtain ⟨bc0, h0, eW⟩ := hW (by norm_num)
  have hf : ∀ y, bc0.1.V y ⬝ᵥ bc0.2 = bowl y := by
    obtain ⟨-, hb⟩ := fitCoef_best hS hmk h0
    simp only [projY_one] at hb
    exact fun y => congrFun (same_of_unisolvent grid_unisolvent hb.1 bowl_best.1 (hb.two_unique bowl_best)) y
  have hg0 : ∀ y, polyGrad bc0.1 bc0.2 y = bowlGrad y := by
    intro y
    have := polyGrad_subst (fitCoef_best hS hmk h0).1 bc0.2 bowl_deriv 1 (fun z => by rw [hf, Matrix.one_mulVec]) y
    simpa using this
  have hLS : LeftSingular (fun i => bowlGrad (gridX i)) W := by
    rw [eW]
    simp only [hg0, projY_one]
    exact hsvd _
  obtain ⟨w00, w11, w10⟩ := bowl_svd hLS
  have w01 : W 0 1 ^ 2 = 1 := by
    have := congrFun (congrFun hLS.1 1) 1
    simp [Matrix.mul_apply, Fin.sum_univ_two, w11] at this
    linarith
  have hg1 : ∀ y, polyGrad bc1.1 bc1.2 y = Wᵀ *ᵥ bowlGrad (W *ᵥ y) := by
    intro y
    rw [polyGrad_rotate hS hmk hu hLS.1 h0 h1, hg0]
  have hstale : ∀ k, meanGrad (fun i => polyGrad bc1.1 bc1.2 (projY 1 (gridX i))) k = ![-W 1 0, 2] k := by
    intro k
    simp only [hg1, projY_one]
    rw [meanGrad_mulVec]
    simp only [Matrix.mulVec, dotProduct, grid_mean, Fin.sum_univ_two, Matrix.transpose_apply]
    fin_cases k
    · simp [w00, w11]
    · simp [w11]
      try linarith
  simp only [hstale] at hR
  have hne : ∀ k, (![-W 1 0, 2] : Fin 2 → ℝ) k ≠ 0 := by
    intro k
    fin_cases k
    · simp only [Fin.zero_eta, Matrix.cons_val_zero, neg_ne_zero]
      intro h; rw [h] at w10; norm_num at w10
    · simp
  have hDD := diag_sgn_sq hne
  have ho : R.Uᵀ * R.U = 1 := by
    rw [hR, Matrix.one_mul, Matrix.transpose_mul, Matrix.mul_assoc, ← Matrix.mul_assoc Wᵀ, hLS.1, Matrix.one_mul, Matrix.diagonal_transpose, hDD]
  obtain ⟨-, hsl⟩ := finish_slopes hS hmk (by simp) hu hLS.1 h1 hR h2 ho
  refine ⟨ho, fun x => ?_, ?_⟩
  · have h2' : fitCoef S mk .two .none gridX (fun i => bowl (gridX i)) (1 * R.U) = .ok (R.basis, R.coef) := by rw [Matrix.one_mul]; exact h2
    have := fitCoef_rotate hS hmk hu ho h0 h2' (projY R.U x)
    unfold Ridge.eval
    rw [hf] at this
    refine this.trans ?_
    unfold projY
    rw [Matrix.mulVec_mulVec, mul_eq_one_comm.1 ho, Matrix.one_mulVec]
  · have e : R.meanSlope gridX 0 = sgn (-W 1 0) * meanGrad (fun i => polyGrad bc1.1 bc1.2 (projY (1 * W) (gridX i))) 0 := by
      simp only [Ridge.meanSlope, meanGrad, hsl, ← Finset.mul_sum, mul_div_assoc]
      rfl
    have e2 : meanGrad (fun i => polyGrad bc1.1 bc1.2 (projY (1 * W) (gridX i))) 0 = W 1 0 := by
      have : ∀ i, polyGrad bc1.1 bc1.2 (projY (1 * W) (gridX i)) = Wᵀ *ᵥ bowlGrad (1 *ᵥ gridX i) := by
        intro i
        rw [slopes_rotate hS hmk hu hLS.1 h0 h1, hg0, projY_one, Matrix.one_mulVec]
      simp only [this]
      rw [meanGrad_mulVec]
      simp only [Matrix.mulVec, dotProduct, grid_mean, Fin.sum_univ_two, Matrix.transpose_apply]
      simp
      linarith
    rw [e, e2]
    unfold sgn
    rcases (mul_eq_zero.1 (show (W 1 0 - 1) * (W 1 0 + 1) = 0 by linarith [w10, sq (W 1 0)])).imp sub_eq_zero.1 eq_neg_of_add_eq_zero_left with h | h <;> rw [h] <;> norm_num

/-- The run of `finish_uphill_false` exists, and it meets the hypotheses of `finish_ordered_partial` and `finish_uphill_iff`. -/
example : ∃ (S : FitSolver) (N : ℕ) (mk : (Fin 9 → Pt 2) → BasisObj 2 N) (svdU : (Fin 9 → Pt 2) → Matrix (Fin 2) (Fin 2) ℝ), S.Exact ∧ S.Answers ∧
    (∀ Y, IsPolyBasis 2 (mk Y)) ∧ (∀ G, LeftSingular G (svdU G)) ∧ Unisolvent 2 fun i => projY (1 : Matrix (Fin 2) (Fin 2) ℝ) (gridX i) := by
  obtain ⟨svdU, h⟩ := exists_leftSingular 9 2
  exact ⟨idealSolver, _, tensorMk monoFamily 2 2 fun _ => .none, svdU, idealSolver_exact, idealSolver_answers,
    tensorMk_poly mono_graded mono_good 2 (by norm_num) _, h, by simp only [projY_one]; exact grid_unisolvent⟩

/-- The hypotheses of `finish_uphill_one_partial` are met by data that decrease: the direction is turned. -/
example {svdU : (Fin 3 → Pt 1) → Matrix (Fin 1) (Fin 1) ℝ} : ∃ R : Ridge 1 1 _,
    finish idealSolver (tensorMk monoFamily 1 1 fun _ => .none) svdU .two .none true parX ![1, 0, -1] 1 = .ok R ∧ R.Uᵀ * R.U = 1 ∧
      Unisolvent 1 (fun i => projY (1 : Matrix (Fin 1) (Fin 1) ℝ) (parX i)) ∧ 0 < R.meanSlope parX 0 := by
  have hmk := tensorMk_poly (M := 3) mono_graded mono_good 1 (n := 1) le_rfl fun _ => .none
  obtain ⟨R, h⟩ := finish_ok_two idealSolver_answers (tensorMk monoFamily 1 1 fun _ => .none) svdU true parX ![1, 0, -1] 1
  have hu : Unisolvent 1 (fun i => projY (1 : Matrix (Fin 1) (Fin 1) ℝ) (parX i)) := by
    have := unisolvent_line (M := 3) (d := 1) (by norm_num) (t := ![-1, 0, 1]) (by
      intro a b hab
      fin_cases a <;> fin_cases b <;> simp at hab ⊢ <;> norm_num at hab)
    have e : (fun i => projY (1 : Matrix (Fin 1) (Fin 1) ℝ) (parX i)) = fun i => (fun _ => (![-1, 0, 1] : Fin 3 → ℝ) i : Pt 1) := by
      funext i k
      rw [projY_one]
      fin_cases k
      fin_cases i <;> rfl
    rw [e]
    exact this
  obtain ⟨W, bc1, -, hW, h1, hR, h2⟩ := finish_steps h
  obtain rfl := hW (by norm_num)
  rw [Matrix.mul_one] at h1
  have hlin : ∀ y : Pt 1, bc1.1.V y ⬝ᵥ bc1.2 = -y 0 := by
    obtain ⟨-, hb⟩ := fitCoef_best idealSolver_exact hmk h1
    have hb' : BestPoly .two .none 1 (fun i => projY (1 : Matrix (Fin 1) (Fin 1) ℝ) (parX i)) ![1, 0, -1] fun y => -y 0 := by
      refine ⟨⟨-MvPolynomial.X 0, by rw [MvPolynomial.totalDegree_neg, MvPolynomial.totalDegree_X], fun x => by simp⟩, trivial, fun q _ _ => ?_⟩
      have : ((fun i => -projY (1 : Matrix (Fin 1) (Fin 1) ℝ) (parX i) 0) - ![1, 0, -1]) = (0 : Pt 3) := by
        funext i
        fin_cases i <;> simp [projY_one, parX]
      rw [this]
      show nrm 0 ≤ nrm _
      rw [nrm_zero]
      exact nrm_nonneg _
    exact fun y => congrFun (same_of_unisolvent hu hb.1 hb'.1 (hb.two_unique hb')) y
  have hgrad : ∀ y, polyGrad bc1.1 bc1.2 y = fun _ => -1 := by
    intro y
    have := polyGrad_subst (fitCoef_best idealSolver_exact hmk h1).1 bc1.2 (φ := fun y : Pt 1 => -y 0) (γ := fun _ _ => -1) (fun y v => by
      have : HasDerivAt (fun t : ℝ => -(y 0 + t * v 0)) (-v 0) 0 := by
        have := (((hasDerivAt_id (0 : ℝ)).mul_const (v 0)).const_add (y 0)).neg
        rw [one_mul] at this
        exact this
      simpa [dotProduct] using this) 1 (fun z => by rw [hlin, Matrix.one_mulVec]) y
    simpa using this
  have ho : R.Uᵀ * R.U = 1 := by
    rw [hR]
    simp only [hgrad, Matrix.mul_one, Matrix.one_mul, Matrix.diagonal_transpose]
    refine diag_sgn_sq (v := fun k => meanGrad (fun _ : Fin 3 => fun _ : Fin 1 => (-1 : ℝ)) k) fun k => ?_
    simp [meanGrad]
  exact ⟨R, h, ho, hu, finish_uphill_one_partial idealSolver_exact hmk (by simp) hu h ho 0⟩

end Verif.Func
