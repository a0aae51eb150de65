import Verif.GP.FitModel
import Verif.GP.LikProps

/-!
# Symmetries of Gaussian process fits; starting values and failed refits

The results do not depend on which eigenvectors `eigh` returns, on the order of the samples, or on the origin; they are linear in
the values and reproduce the polynomials of the basis.
-/

namespace Verif.GP

open Verif Verif.Lip Matrix

variable {m M q : ℕ}

/-! ## Lower triangular length scales -/

theorem tril_pow {A : Matrix (Fin m) (Fin m) ℝ} (hA : ∀ i j, i < j → A i j = 0) (n : ℕ) :
    (∀ i j, i < j → (A ^ n) i j = 0) ∧ ∀ i, (A ^ n) i i = A i i ^ n := by
  induction n with
  | zero => exact ⟨fun i j h => by rw [pow_zero, one_apply_ne h.ne], fun i => by rw [pow_zero, pow_zero, one_apply_eq]⟩
  | succ n ih =>
    obtain ⟨h1, h2⟩ := ih
    constructor
    · intro i j hij
      rw [pow_succ, Matrix.mul_apply]
      refine Finset.sum_eq_zero fun k _ => ?_
      rcases lt_or_ge i k with h | h
      · rw [h1 i k h, zero_mul]
      · rw [hA k j (lt_of_le_of_lt h hij), mul_zero]
    · intro i
      rw [pow_succ, Matrix.mul_apply, Finset.sum_eq_single i, h2, pow_succ]
      · intro k _ hk
        rcases lt_or_gt_of_ne hk with h | h
        · rw [hA k i h, mul_zero]
        · rw [h1 i k h, zero_mul]
      · simp

attribute [local instance] Matrix.linftyOpNormedRing Matrix.linftyOpNormedAlgebra in
theorem exp_entry (A : Matrix (Fin m) (Fin m) ℝ) (i j : Fin m) :
    HasSum (fun n => ((n.factorial : ℝ)⁻¹) * (A ^ n) i j) (NormedSpace.exp A i j) := by
  have h := NormedSpace.exp_series_hasSum_exp' (𝕂 := ℝ) A
  have hc : Continuous fun B : Matrix (Fin m) (Fin m) ℝ => B i j := (continuous_apply j).comp (continuous_apply i)
  exact h.map ({ toFun := fun B : Matrix (Fin m) (Fin m) ℝ => B i j, map_zero' := rfl, map_add' := fun _ _ => rfl } : Matrix (Fin m) (Fin m) ℝ →+ ℝ) hc

/-- **C122**: for the structure `tril` the matrix is lower triangular and its diagonal is positive, so it is invertible. -/
theorem makeL_tril (l : Fin m → Fin m → ℝ) : (∀ i j, i < j → makeL (.tril l) i j = 0) ∧ ∀ i, makeL (.tril l) i i = Real.exp (l i i) := by
  set A : Matrix (Fin m) (Fin m) ℝ := Matrix.of fun i j => if j ≤ i then l i j else 0 with hA
  have h0 : ∀ i j, i < j → A i j = 0 := fun i j h => by simp [hA, not_le.2 h]
  have hd : ∀ i, A i i = l i i := fun i => by simp [hA]
  constructor
  · intro i j hij
    have h := exp_entry A i j
    simp only [(tril_pow h0 _).1 i j hij, mul_zero] at h
    exact h.unique hasSum_zero
  · intro i
    have h := exp_entry A i i
    simp only [(tril_pow h0 _).2 i, hd] at h
    have h' := NormedSpace.exp_series_hasSum_exp' (𝕂 := ℝ) (l i i)
    simp only [smul_eq_mul, ← Real.exp_eq_exp_ℝ] at h'
    exact h.unique h'

/-! ## Functions of a symmetric matrix -/

section
variable {ι κ : Type} [Fintype ι] [DecidableEq ι] [Fintype κ] [DecidableEq κ]

open Classical in
theorem specSolve_mat (d : Eig ι) (P : ℝ → Prop) (b : ι → ℝ) :
    specSolve d (fun k => P (d.1 k)) b = (d.2 * Matrix.diagonal (fun k => if P (d.1 k) then 1 / d.1 k else 0) * d.2ᵀ) *ᵥ b := by
  rw [specSolve, ← mulVec_mulVec, ← mulVec_mulVec]
  congr 1
  funext k
  rw [mulVec_diagonal]
  split <;> simp

open Classical in
/-- A map between two symmetric matrices also maps between the truncated inverses, whatever eigenvectors are used. -/
theorem specSolve_intertwine {A : Matrix ι ι ℝ} {A' : Matrix κ κ ℝ} {d : Eig ι} {d' : Eig κ} (h : IsEig A d) (h' : IsEig A' d')
    (R : Matrix κ ι ℝ) (hR : A' * R = R * A) (P : ℝ → Prop) (b : ι → ℝ) :
    specSolve d' (fun k => P (d'.1 k)) (R *ᵥ b) = R *ᵥ specSolve d (fun k => P (d.1 k)) b := by
  set g : ℝ → ℝ := fun t => if P t then 1 / t else 0 with hg
  set U : Matrix κ ι ℝ := d'.2ᵀ * R * d.2 with hU
  have e1 : Matrix.diagonal d'.1 * U = U * Matrix.diagonal d.1 := by
    have : d'.2ᵀ * (A' * R) * d.2 = d'.2ᵀ * (R * A) * d.2 := by rw [hR]
    rw [h'.2, h.2] at this
    calc Matrix.diagonal d'.1 * U = (d'.2ᵀ * d'.2) * Matrix.diagonal d'.1 * (d'.2ᵀ * R * d.2) := by rw [h'.1, Matrix.one_mul]
      _ = d'.2ᵀ * (d'.2 * Matrix.diagonal d'.1 * d'.2ᵀ * R) * d.2 := by simp only [Matrix.mul_assoc]
      _ = d'.2ᵀ * (R * (d.2 * Matrix.diagonal d.1 * d.2ᵀ)) * d.2 := this
      _ = (d'.2ᵀ * R * d.2) * Matrix.diagonal d.1 * (d.2ᵀ * d.2) := by simp only [Matrix.mul_assoc]
      _ = U * Matrix.diagonal d.1 := by rw [h.1, Matrix.mul_one]
  have e2 : Matrix.diagonal (fun k => g (d'.1 k)) * U = U * Matrix.diagonal (fun k => g (d.1 k)) := by
    ext k l
    have := congrFun (congrFun e1 k) l
    rw [diagonal_mul, mul_diagonal] at this ⊢
    by_cases hz : U k l = 0
    · rw [hz]; ring
    · have : d'.1 k = d.1 l := by
        rw [mul_comm (U k l)] at this
        exact mul_right_cancel₀ hz this
      rw [this]; ring
  rw [specSolve_mat, specSolve_mat, mulVec_mulVec, mulVec_mulVec]
  congr 1
  calc d'.2 * Matrix.diagonal (fun k => g (d'.1 k)) * d'.2ᵀ * R
      = d'.2 * Matrix.diagonal (fun k => g (d'.1 k)) * d'.2ᵀ * R * (d.2 * d.2ᵀ) := by rw [h.right, Matrix.mul_one]
    _ = d'.2 * (Matrix.diagonal (fun k => g (d'.1 k)) * U) * d.2ᵀ := by rw [hU]; simp only [Matrix.mul_assoc]
    _ = d'.2 * (U * Matrix.diagonal (fun k => g (d.1 k))) * d.2ᵀ := by rw [e2]
    _ = (d'.2 * d'.2ᵀ) * R * (d.2 * Matrix.diagonal (fun k => g (d.1 k)) * d.2ᵀ) := by rw [hU]; simp only [Matrix.mul_assoc]
    _ = R * (d.2 * Matrix.diagonal (fun k => g (d.1 k)) * d.2ᵀ) := by rw [h'.right, Matrix.one_mul]

/-- The matrix that reorders coordinates. -/
def permMat (σ : κ ≃ ι) : Matrix κ ι ℝ := Matrix.of fun k i => if i = σ k then 1 else 0

theorem permMat_mulVec (σ : κ ≃ ι) (x : ι → ℝ) : permMat σ *ᵥ x = fun k => x (σ k) := by
  funext k
  simp [permMat, mulVec, dotProduct]

theorem permMat_conj (σ : κ ≃ ι) (A : Matrix ι ι ℝ) : (Matrix.of fun k l => A (σ k) (σ l)) * permMat σ = permMat σ * A := by
  ext k i
  have h1 : ((Matrix.of fun k l => A (σ k) (σ l)) * permMat σ) k i = A (σ k) i := by
    rw [mul_apply, Finset.sum_eq_single (σ.symm i)]
    · simp [permMat]
    · intro l _ hl
      have : ¬ i = σ l := fun h => hl (by rw [h]; simp)
      simp [permMat, this]
    · simp
  have h2 : (permMat σ * A) k i = A (σ k) i := by
    simp [permMat, mul_apply]
  rw [h1, h2]

end

theorem kept_eq {ι : Type} (d : Eig ι) : kept d = fun k => (fun t : ℝ => 5 * eps < |t|) (d.1 k) := rfl
theorem keptVar_eq {ι : Type} (d : Eig ι) : keptVar d = fun k => (fun t : ℝ => 500 * eps < t) (d.1 k) := rfl

/-! ## Which eigenvectors -/

/-- **C122**: the fit does not depend on the eigenvectors chosen by the eigenvalue routine. -/
theorem gp_fit_free (e e' : Eighs M q) (he : EighsSpec e) (he' : EighsSpec e') (τ : ℝ) (ψ : Fin q → Pt m → ℝ) (X : Fin M → Pt m)
    (y : Fin M → ℝ) (ell : Ell m) : gpFit e τ ψ X y ell = gpFit e' τ ψ X y ell := by
  have : gpX e τ (images (makeL ell) X) (vmat ψ X) y = gpX e' τ (images (makeL ell) X) (vmat ψ X) y := by
    have := specSolve_intertwine (he'.big _ (gpA_symm τ (images (makeL ell) X) (vmat ψ X))) (he.big _ (gpA_symm τ (images (makeL ell) X) (vmat ψ X))) 1
      (by rw [Matrix.mul_one, Matrix.one_mul]) (fun t : ℝ => 5 * eps < |t|) (gpB y)
    rw [one_mulVec, one_mulVec] at this
    exact this
  unfold gpFit
  rw [this]

/-- **C122**: nor does the variance. -/
theorem gp_var_free (e e' : Eighs M q) (he : EighsSpec e) (he' : EighsSpec e') (X : Fin M → Pt m) (f : GPFit m M q) (x : Pt m) :
    gpVar e X f x = gpVar e' X f x := by
  have : rawVar e X f x = rawVar e' X f x := by
    unfold rawVar
    have := specSolve_intertwine (he'.small _ (kernMat_symm (images f.L X))) (he.small _ (kernMat_symm (images f.L X))) 1
      (by rw [Matrix.mul_one, Matrix.one_mul]) (fun t : ℝ => 500 * eps < t) (fun i => kern (f.L *ᵥ x) (f.L *ᵥ X i))
    rw [one_mulVec, one_mulVec] at this
    dsimp only
    rw [keptVar_eq, keptVar_eq, this]
  unfold gpVar
  rw [this]

/-! ## Order of the samples -/

theorem gpX_perm (e : Eighs M q) (he : EighsSpec e) (τ : ℝ) (Y : Fin M → Pt m) (V : Matrix (Fin M) (Fin q) ℝ) (y : Fin M → ℝ)
    (σ : Equiv.Perm (Fin M)) :
    gpX e τ (fun i => Y (σ i)) (Matrix.of fun i j => V (σ i) j) (fun i => y (σ i)) =
      fun s => gpX e τ Y V y (Equiv.sumCongr σ (Equiv.refl (Fin q)) s) := by
  set ρ : (Fin M ⊕ Fin q) ≃ (Fin M ⊕ Fin q) := Equiv.sumCongr σ (Equiv.refl (Fin q)) with hρ
  have hA : gpA τ (kernMat fun i => Y (σ i)) (Matrix.of fun i j => V (σ i) j) =
      Matrix.of fun s t => gpA τ (kernMat Y) V (ρ s) (ρ t) := by
    ext s t
    rcases s with i | j <;> rcases t with k | l
    · simp [gpA, hρ, kernMat, Matrix.one_apply]
    · simp [gpA, hρ]
    · simp [gpA, hρ]
    · simp [gpA, hρ]
  have hb : (gpB fun i => y (σ i) : Fin M ⊕ Fin q → ℝ) = permMat ρ *ᵥ gpB y := by
    rw [permMat_mulVec]
    funext s
    rcases s with i | j <;> simp [gpB, hρ]
  have := specSolve_intertwine (he.big _ (gpA_symm τ Y V)) (he.big _ (gpA_symm τ (fun i => Y (σ i)) (Matrix.of fun i j => V (σ i) j)))
    (permMat ρ) (by rw [hA]; exact permMat_conj ρ _) (fun t : ℝ => 5 * eps < |t|) (gpB y)
  rw [← hb, permMat_mulVec] at this
  exact this

/-- **C122**: reordering the samples reorders the weights, and leaves the prediction unchanged everywhere. -/
theorem gp_mean_perm (e : Eighs M q) (he : EighsSpec e) (τ : ℝ) (ψ : Fin q → Pt m → ℝ) (X : Fin M → Pt m) (y : Fin M → ℝ) (ell : Ell m)
    (σ : Equiv.Perm (Fin M)) (x : Pt m) :
    gpMean ψ (fun i => X (σ i)) (gpFit e τ ψ (fun i => X (σ i)) (fun i => y (σ i)) ell) x = gpMean ψ X (gpFit e τ ψ X y ell) x := by
  have h := gpX_perm e he τ (images (makeL ell) X) (vmat ψ X) y σ
  have h' : gpX e τ (images (makeL ell) fun i => X (σ i)) (vmat ψ fun i => X (σ i)) (fun i => y (σ i)) = _ := h
  unfold gpMean gpFit
  dsimp only
  rw [h']
  congr 1
  exact Equiv.sum_comp σ (fun i => kern (makeL ell *ᵥ x) (makeL ell *ᵥ X i) * gpX e τ (images (makeL ell) X) (vmat ψ X) y (Sum.inl i))

/-- **C122**: the objective minimized by the fit does not depend on the order of the samples. -/
theorem gp_obj_perm (e : Eighs M q) (he : EighsSpec e) (τ : ℝ) (hτ : 0 < τ) (ψ : Fin q → Pt m → ℝ) (X : Fin M → Pt m) (y : Fin M → ℝ) (ell : Ell m)
    (σ : Equiv.Perm (Fin M)) :
    gpObj e τ (vmat ψ fun i => X (σ i)) (fun i => y (σ i)) (images (makeL ell) fun i => X (σ i)) =
      gpObj e τ (vmat ψ X) y (images (makeL ell) X) := by
  have logs : ∀ Y : Fin M → Pt m, ∑ k, Real.log ((e.small (regK τ Y)).1 k) = Real.log (regK τ Y).det := by
    intro Y
    rw [(he.small _ (regK_symm τ Y)).det_eq, Real.log_prod fun k _ => (regK_pos e he τ hτ Y k).ne']
  unfold gpObj
  rw [logs, logs]
  have h := gpX_perm e he τ (images (makeL ell) X) (vmat ψ X) y σ
  have hd : regK τ (images (makeL ell) fun i => X (σ i)) = (regK τ (images (makeL ell) X)).submatrix σ σ := by
    ext i j
    simp [regK, kernMat, images, Matrix.one_apply]
  rw [hd, Matrix.det_submatrix_equiv_self]
  congr 2
  have h' : gpX e τ (images (makeL ell) fun i => X (σ i)) (vmat ψ fun i => X (σ i)) (fun i => y (σ i)) = _ := h
  unfold gpAlpha
  rw [h']
  exact Equiv.sum_comp σ (fun i => y i * gpX e τ (images (makeL ell) X) (vmat ψ X) y (Sum.inl i))

/-! ## The origin -/

theorem kern_shift (L : Matrix (Fin m) (Fin m) ℝ) (c a b : Pt m) : kern (L *ᵥ (a + c)) (L *ᵥ (b + c)) = kern (L *ᵥ a) (L *ᵥ b) := by
  unfold kern sqd
  rw [mulVec_add, mulVec_add]
  congr 2
  refine Finset.sum_congr rfl fun i _ => ?_
  simp only [Pi.add_apply]
  ring

/-- **C122**: moving the samples moves the prediction (the functions of the polynomial part are those of the moved data). -/
theorem gp_mean_shift (e : Eighs M q) (τ : ℝ) (ψ ψ' : Fin q → Pt m → ℝ) (c : Pt m) (hψ : ∀ j x, ψ' j (x + c) = ψ j x)
    (X : Fin M → Pt m) (y : Fin M → ℝ) (ell : Ell m) (x : Pt m) :
    gpMean ψ' (fun i => X i + c) (gpFit e τ ψ' (fun i => X i + c) y ell) (x + c) = gpMean ψ X (gpFit e τ ψ X y ell) x := by
  have h1 : kernMat (images (makeL ell) fun i => X i + c) = kernMat (images (makeL ell) X) := by
    ext i j
    exact kern_shift _ _ _ _
  have h2 : vmat ψ' (fun i => X i + c) = vmat ψ X := by
    ext i j
    exact hψ _ _
  have h3 : gpX e τ (images (makeL ell) fun i => X i + c) (vmat ψ' fun i => X i + c) y = gpX e τ (images (makeL ell) X) (vmat ψ X) y := by
    unfold gpX
    rw [h1, h2]
  unfold gpMean gpFit
  dsimp only
  rw [h3]
  congr 1
  · exact Finset.sum_congr rfl fun i _ => by rw [kern_shift]
  · exact Finset.sum_congr rfl fun j _ => by rw [hψ]

/-! ## Linearity and polynomials -/

open Classical in
theorem specSolve_linear {ι : Type} [Fintype ι] (d : Eig ι) (I : ι → Prop) (s t : ℝ) (b c : ι → ℝ) :
    specSolve d I (s • b + t • c) = s • specSolve d I b + t • specSolve d I c := by
  unfold specSolve
  rw [← mulVec_smul, ← mulVec_smul, ← mulVec_add]
  congr 1
  funext k
  rw [mulVec_add, mulVec_smul, mulVec_smul]
  simp only [Pi.add_apply, Pi.smul_apply, smul_eq_mul]
  split <;> ring

/-- **C122**: for a given `L` the prediction is linear in the values. -/
theorem gp_mean_linear (e : Eighs M q) (τ : ℝ) (ψ : Fin q → Pt m → ℝ) (X : Fin M → Pt m) (y z : Fin M → ℝ) (s t : ℝ) (ell : Ell m) (x : Pt m) :
    gpMean ψ X (gpFit e τ ψ X (s • y + t • z) ell) x =
      s * gpMean ψ X (gpFit e τ ψ X y ell) x + t * gpMean ψ X (gpFit e τ ψ X z ell) x := by
  have hb : (gpB (s • y + t • z) : Fin M ⊕ Fin q → ℝ) = s • gpB y + t • gpB z := by
    funext r
    rcases r with i | j <;> simp [gpB]
  have hx : gpX e τ (images (makeL ell) X) (vmat ψ X) (s • y + t • z) =
      s • gpX e τ (images (makeL ell) X) (vmat ψ X) y + t • gpX e τ (images (makeL ell) X) (vmat ψ X) z := by
    unfold gpX
    rw [hb, specSolve_linear]
  unfold gpMean gpFit
  dsimp only
  rw [hx]
  simp only [Pi.add_apply, Pi.smul_apply, smul_eq_mul, mul_add, Finset.mul_sum, Finset.sum_add_distrib]
  have c1 : ∀ (f : Fin M → ℝ) (g : Fin M → ℝ) (s : ℝ), ∑ i, f i * (s * g i) = ∑ i, s * (f i * g i) :=
    fun f g s => Finset.sum_congr rfl fun i _ => by ring
  have c2 : ∀ (f : Fin q → ℝ) (g : Fin q → ℝ) (s : ℝ), ∑ i, f i * (s * g i) = ∑ i, s * (f i * g i) :=
    fun f g s => Finset.sum_congr rfl fun i _ => by ring
  rw [c1, c1, c2, c2]
  ring

/-- **C122 (partial)**: values of a polynomial of the basis are reproduced, everywhere, with any nugget: the kernel part vanishes.
Only if no eigenvalue of the system is dropped. -/
theorem gp_reproduces_partial (e : Eighs M q) (he : EighsSpec e) (τ : ℝ) (ψ : Fin q → Pt m → ℝ) (X : Fin M → Pt m) (c : Fin q → ℝ) (ell : Ell m)
    (hk : ∀ k, 5 * eps < |(e.big (gpA τ (kernMat (images (makeL ell) X)) (vmat ψ X))).1 k|) :
    (gpFit e τ ψ X (fun i => ∑ j, ψ j (X i) * c j) ell).α = 0 ∧
    ∀ x, gpMean ψ X (gpFit e τ ψ X (fun i => ∑ j, ψ j (X i) * c j) ell) x = ∑ j, ψ j x * c j := by
  set A := gpA τ (kernMat (images (makeL ell) X)) (vmat ψ X) with hA
  have hE := he.big A (gpA_symm _ _ _)
  have hdet : A.det ≠ 0 := gpA_kept_det hE hk
  have hs : A *ᵥ gpX e τ (images (makeL ell) X) (vmat ψ X) (fun i => ∑ j, ψ j (X i) * c j) = gpB (fun i => ∑ j, ψ j (X i) * c j) :=
    (specSolve_iff hE _ (fun k hk => kept_ne hk) _).2 fun k hk' => absurd (hk k) hk'
  have hc : A *ᵥ Sum.elim (0 : Fin M → ℝ) c = gpB (fun i => ∑ j, ψ j (X i) * c j) := by
    funext s
    rcases s with i | j
    · rw [hA, gpA_inl]
      simp [gpB, vmat]
    · rw [hA, gpA_inr]
      simp [gpB]
  have hx : gpX e τ (images (makeL ell) X) (vmat ψ X) (fun i => ∑ j, ψ j (X i) * c j) = Sum.elim (0 : Fin M → ℝ) c := by
    have inj := Matrix.mulVec_injective_of_isUnit ((Matrix.isUnit_iff_isUnit_det A).2 (isUnit_iff_ne_zero.2 hdet))
    exact inj (hs.trans hc.symm)
  refine ⟨?_, fun x => ?_⟩
  · funext i
    simp [gpFit, hx]
  · simp [gpMean, gpFit, hx]

/-! ## The starting point -/

/-- **C122**: the search starts at the exponential of the given `L0`: never at a given multiple of the identity. -/
theorem gp_start_false (c : ℝ) :
    makeL (startEll (.const : Shape (m + 1)) (c • 1)) = Real.exp c • 1 ∧ makeL (startEll .diag (c • 1 : Matrix (Fin (m + 1)) (Fin (m + 1)) ℝ)) = Real.exp c • 1 ∧
    (Real.exp c • (1 : Matrix (Fin (m + 1)) (Fin (m + 1)) ℝ)) ≠ c • 1 := by
  refine ⟨by simp [startEll, makeL], ?_, fun h => ?_⟩
  · simp only [startEll, makeL]
    ext i j
    by_cases hij : i = j
    · subst hij; simp
    · simp [hij]
  · have := congrFun (congrFun h 0) 0
    simp at this
    have h1 := Real.add_one_le_exp c
    linarith

/-- **C122**: with `structure='tril'` the search starts at the matrix exponential of the lower triangle of `L0`. -/
theorem gp_start_tril (L0 : Matrix (Fin (m + 1)) (Fin (m + 1)) ℝ) :
    makeL (startEll .tril L0) = NormedSpace.exp (Matrix.of fun i j => if j ≤ i then L0 i j else 0) ∧
    ((∀ i j, i < j → L0 i j = 0) → makeL (startEll .tril L0) = NormedSpace.exp L0) := by
  refine ⟨rfl, fun h => ?_⟩
  show NormedSpace.exp (Matrix.of fun i j => if j ≤ i then L0 i j else 0) = _
  congr 1
  ext i j
  by_cases hij : j ≤ i
  · simp [hij]
  · simp [hij, h i j (not_le.1 hij)]

/-! ## The object -/

/-- **C122**: after a successful fit, the predictions are those of the last data, whatever was fitted before. -/
theorem gp_obj_last (e : ∀ M, Eighs M 0) (τ : ℝ) (opt : List (Pt m) → List ℝ → Ell m) (o : GPObj m) (X : List (Pt m)) (y : List ℝ)
    (h : y.length = X.length) (x : Pt m) :
    (o.fit e τ opt X y).2.eval x = some (gpMean (fun j => j.elim0) (fun i => X.get i)
      (gpFit (e X.length) τ (fun j => j.elim0) (fun i => X.get i) (fun i => y.get (i.cast h.symm)) (opt X y)) x) := by
  unfold GPObj.fit
  rw [dif_pos h]
  simp only [GPObj.eval, List.length_ofFn, if_true]
  congr 1
  unfold gpMean
  simp only [Finset.univ_eq_empty, Finset.sum_empty, add_zero]
  set f := gpFit (e X.length) τ (fun j => j.elim0) (fun i => X.get i) (fun i => y.get (i.cast h.symm)) (opt X y)
  have key : ∀ (X : List (Pt m)) (α : Fin X.length → ℝ) (g : Pt m → ℝ → ℝ), (List.zipWith g X (List.ofFn α)).sum = ∑ i, g (X.get i) (α i) := by
    intro X
    induction X with
    | nil => intro α g; simp
    | cons z X ih =>
      intro α g
      have : List.ofFn α = α 0 :: List.ofFn (fun i : Fin X.length => α i.succ) := List.ofFn_succ
      rw [this, List.zipWith_cons_cons, List.sum_cons, ih]
      exact (Fin.sum_univ_succ (n := X.length) (fun i => g ((z :: X).get i) (α i))).symm
  exact key X f.α (fun z a => kern (f.L *ᵥ x) (f.L *ᵥ z) * a)

/-- **C122 is false for failed fits**: a `fit` that raises (here: more values than samples) is not without effect: the next prediction
uses the new samples with the old weights. -/
theorem gp_failed_refit_false (e : ∀ M, Eighs M 0) (he : ∀ M, EighsSpec (e M)) (opt : List (Pt 1) → List ℝ → Ell 1)
    (hopt : opt [fun _ => 0] [1] = .const 0) :
    ∃ v w, ((⟨[], none⟩ : GPObj 1).fit e 1 opt [fun _ => 0] [1]).2.eval (fun _ => 0) = some v ∧
      ((((⟨[], none⟩ : GPObj 1).fit e 1 opt [fun _ => 0] [1]).2.fit e 1 opt [fun _ => 2] [1, 1]).1 = none) ∧
      (((⟨[], none⟩ : GPObj 1).fit e 1 opt [fun _ => 0] [1]).2.fit e 1 opt [fun _ => 2] [1, 1]).2.eval (fun _ => 0) = some w ∧ v ≠ w := by
  set o1 := ((⟨[], none⟩ : GPObj 1).fit e 1 opt [fun _ => 0] [1]).2 with ho1
  set f := gpFit (e 1) 1 (fun j => j.elim0) (fun i => [fun _ => (0 : ℝ)].get i) (fun i => [(1 : ℝ)].get (i.cast rfl)) (.const 0 : Ell 1) with hf
  have hm := gp_matches_nugget (e 1) (he 1) 1 (by unfold eps; norm_num) (fun j => j.elim0) (fun i => [fun _ => (0 : ℝ)].get i)
    (fun i => [(1 : ℝ)].get (i.cast rfl)) (.const 0 : Ell 1)
  have hL : f.L = 1 := by simp [hf, gpFit, makeL]
  have hα : f.α 0 = 1 / 2 := by
    have := hm.1 0
    rw [← hf] at this
    simp only [gpMean, hL, Finset.univ_unique, Finset.sum_singleton, one_mulVec] at this
    simp [kern_self] at this
    linarith
  have hm1 : o1.model = some (f.L, [f.α 0]) := by
    rw [ho1]
    unfold GPObj.fit
    rw [dif_pos (show [(1 : ℝ)].length = [fun _ : Fin 1 => (0 : ℝ)].length from rfl), hopt]
    simp only [hf]
    rfl
  have hX1 : o1.X = [fun _ => 0] := by
    rw [ho1]
    unfold GPObj.fit
    rw [dif_pos (show [(1 : ℝ)].length = [fun _ : Fin 1 => (0 : ℝ)].length from rfl)]
  have h2 : o1.fit e 1 opt [fun _ => 2] [1, 1] = (none, ⟨[fun _ => 2], o1.model⟩) := by
    unfold GPObj.fit
    rw [dif_neg (by simp)]
  refine ⟨1 / 2, kern (fun _ : Fin 1 => (0 : ℝ)) (fun _ => 2) * (1 / 2), ?_, ?_, ?_, ?_⟩
  · unfold GPObj.eval
    rw [hm1, hX1]
    simp [hL, hα, kern_self]
  · rw [h2]
  · rw [h2]
    unfold GPObj.eval
    rw [hm1]
    simp [hL, hα]
  · unfold kern sqd
    simp only [Finset.univ_unique, Finset.sum_singleton]
    have : Real.exp (-0.5 * (0 - 2) ^ 2) < 1 := by
      rw [Real.exp_lt_one_iff]; norm_num
    intro h
    linarith

/-- The hypotheses of the theorems above are met: eigenvalue routines exist for all sizes. -/
example : ∃ e : ∀ M, Eighs M 0, ∀ M, EighsSpec (e M) := ⟨fun M => (exists_eighs M 0).choose, fun M => (exists_eighs M 0).choose_spec⟩

/-- With one sample, a constant polynomial part and nugget one no eigenvalue is dropped (they are `1 ± √2`). -/
example (e : Eighs 1 1) (he : EighsSpec e) (x0 : Pt m) (ell : Ell m) :
    ∀ k, 5 * eps < |(e.big (gpA 1 (kernMat (images (makeL ell) fun _ : Fin 1 => x0)) (vmat (fun (_ : Fin 1) _ => 1) fun _ => x0))).1 k| := by
  set A := gpA 1 (kernMat (images (makeL ell) fun _ : Fin 1 => x0)) (vmat (fun (_ : Fin 1) _ => 1) fun _ => x0) with hA
  have hE := he.big A (gpA_symm _ _ _)
  intro k
  set lam := (e.big A).1 k with hlam
  set v : Fin 1 ⊕ Fin 1 → ℝ := fun i => (e.big A).2 i k with hv
  have hAv : ∀ i, (A *ᵥ v) i = lam * v i := by
    intro i
    have h1 : A * (e.big A).2 = (e.big A).2 * Matrix.diagonal (e.big A).1 := by
      have h0 : A * (e.big A).2 = (e.big A).2 * Matrix.diagonal (e.big A).1 * (e.big A).2ᵀ * (e.big A).2 := congrArg (· * (e.big A).2) hE.2
      rw [h0, Matrix.mul_assoc, hE.1, Matrix.mul_one]
    have h2 := congrFun (congrFun h1 i) k
    rw [mul_diagonal] at h2
    rw [mul_comm]
    exact h2
  have hu : v ⬝ᵥ v = 1 := (hE.value k).2
  have h1 := hAv (Sum.inl 0)
  have h2 := hAv (Sum.inr 0)
  rw [hA, gpA_inl] at h1
  rw [hA, gpA_inr] at h2
  simp [kernMat, images, kern_self, vmat] at h1 h2
  simp [dotProduct] at hu
  have hq : lam ^ 2 = 2 * lam + 1 := by
    by_cases hb : v (Sum.inr 0) = 0
    · rw [hb, mul_zero] at h2
      rw [h2, hb] at hu
      norm_num at hu
    · rw [h2] at h1
      have : v (Sum.inr 0) * (lam ^ 2 - 2 * lam - 1) = 0 := by linarith
      rcases mul_eq_zero.1 this with h | h
      · exact absurd h hb
      · linarith
  by_contra hle
  rw [not_lt] at hle
  have : (5 : ℝ) * eps ≤ 1 / 4 := by unfold eps; norm_num
  obtain ⟨b1, b2⟩ := abs_le.1 (le_trans hle this)
  nlinarith

end Verif.GP
