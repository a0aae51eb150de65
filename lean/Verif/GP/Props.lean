import Verif.GP.Kernel
import Verif.Lipschitz.FitExists
import Mathlib.LinearAlgebra.Matrix.ToLin
import Mathlib.LinearAlgebra.Matrix.NonsingularInverse

/-!
# Predictions of the Gaussian process (C67)
-/

namespace Verif.GP

open Verif Verif.Lip Matrix

variable {m M q : ℕ}

section Spectral

variable {ι : Type} [Fintype ι] [DecidableEq ι]

theorem IsEig.right {A : Matrix ι ι ℝ} {d : Eig ι} (h : IsEig A d) : d.2 * d.2ᵀ = 1 := mul_eq_one_comm.1 h.1

/-- `Qᵀ A x = w ∘ Qᵀ x`. -/
theorem IsEig.apply {A : Matrix ι ι ℝ} {d : Eig ι} (h : IsEig A d) (x : ι → ℝ) (k : ι) :
    (d.2ᵀ *ᵥ (A *ᵥ x)) k = d.1 k * (d.2ᵀ *ᵥ x) k := by
  have e : d.2ᵀ * A = Matrix.diagonal d.1 * d.2ᵀ := by
    conv_lhs => rw [h.2]
    rw [← Matrix.mul_assoc, ← Matrix.mul_assoc, h.1, Matrix.one_mul]
  rw [mulVec_mulVec, e, ← mulVec_mulVec, mulVec_diagonal]

/-- Two vectors with the same coordinates are equal. -/
theorem IsEig.ext {A : Matrix ι ι ℝ} {d : Eig ι} (h : IsEig A d) {x z : ι → ℝ} (hx : ∀ k, (d.2ᵀ *ᵥ x) k = (d.2ᵀ *ᵥ z) k) : x = z := by
  have := congrArg (fun v => d.2 *ᵥ v) (funext hx)
  simpa [mulVec_mulVec, h.right] using this

open Classical in
theorem specSolve_coord {A : Matrix ι ι ℝ} {d : Eig ι} (h : IsEig A d) (I : ι → Prop) (b : ι → ℝ) (k : ι) :
    (d.2ᵀ *ᵥ specSolve d I b) k = if I k then 1 / d.1 k * (d.2ᵀ *ᵥ b) k else 0 := by
  rw [specSolve, mulVec_mulVec, h.1, one_mulVec]

open Classical in
/-- The solution solves the system exactly when the right hand side has no component along the dropped directions. -/
theorem specSolve_iff {A : Matrix ι ι ℝ} {d : Eig ι} (h : IsEig A d) (I : ι → Prop) (hI : ∀ k, I k → d.1 k ≠ 0) (b : ι → ℝ) :
    A *ᵥ specSolve d I b = b ↔ ∀ k, ¬ I k → (d.2ᵀ *ᵥ b) k = 0 := by
  constructor
  · intro hA k hk
    have := h.apply (specSolve d I b) k
    rw [hA, specSolve_coord h, if_neg hk, mul_zero] at this
    exact this
  · intro hb
    refine h.ext fun k => ?_
    rw [h.apply, specSolve_coord h]
    by_cases hk : I k
    · rw [if_pos hk]
      have := hI k hk
      field_simp
    · rw [if_neg hk, mul_zero, hb k hk]

/-- The eigenvalues are values of the quadratic form at unit vectors. -/
theorem IsEig.value {A : Matrix ι ι ℝ} {d : Eig ι} (h : IsEig A d) (k : ι) :
    (fun i => d.2 i k) ⬝ᵥ (A *ᵥ fun i => d.2 i k) = d.1 k ∧ (fun i => d.2 i k) ⬝ᵥ (fun i => d.2 i k) = 1 := by
  have e1 : ∀ x : ι → ℝ, (fun i => d.2 i k) ⬝ᵥ x = (d.2ᵀ *ᵥ x) k := fun x => rfl
  have h1 : (d.2ᵀ *ᵥ fun i => d.2 i k) k = 1 := by
    have := congrFun (congrFun h.1 k) k
    rw [one_apply_eq] at this
    exact this
  exact ⟨by rw [e1, h.apply, h1, mul_one], by rw [e1, h1]⟩

end Spectral

theorem eps_pos : 0 < eps := by unfold eps; positivity

theorem kept_ne {ι : Type} {d : Eig ι} {k : ι} (h : kept d k) : d.1 k ≠ 0 := by
  intro h0
  have := eps_pos
  unfold kept at h
  rw [h0, abs_zero] at h
  linarith

theorem gpA_symm (τ : ℝ) (Y : Fin M → Pt m) (V : Matrix (Fin M) (Fin q) ℝ) : (gpA τ (kernMat Y) V)ᵀ = gpA τ (kernMat Y) V := by
  rw [gpA, fromBlocks_transpose, transpose_transpose, transpose_add, kernMat_symm, transpose_smul, transpose_one, transpose_zero]

theorem gpA_inl (τ : ℝ) (K : Matrix (Fin M) (Fin M) ℝ) (V : Matrix (Fin M) (Fin q) ℝ) (x : Fin M ⊕ Fin q → ℝ) (i : Fin M) :
    (gpA τ K V *ᵥ x) (Sum.inl i) = ∑ j, K i j * x (Sum.inl j) + τ * x (Sum.inl i) + ∑ j, V i j * x (Sum.inr j) := by
  rw [gpA, fromBlocks_mulVec]
  simp only [Sum.elim_inl, Pi.add_apply, add_mulVec, smul_mulVec, one_mulVec, Pi.smul_apply, smul_eq_mul]
  rfl

theorem gpA_inr (τ : ℝ) (K : Matrix (Fin M) (Fin M) ℝ) (V : Matrix (Fin M) (Fin q) ℝ) (x : Fin M ⊕ Fin q → ℝ) (j : Fin q) :
    (gpA τ K V *ᵥ x) (Sum.inr j) = ∑ i, V i j * x (Sum.inl i) := by
  rw [gpA, fromBlocks_mulVec]
  simp only [Sum.elim_inr, Pi.add_apply, zero_mulVec, Pi.zero_apply, add_zero]
  rfl

/-- What C67 says about a fit: the mean at the samples and the orthogonality of the weights. -/
def MatchesData (τ : ℝ) (ψ : Fin q → Pt m → ℝ) (X : Fin M → Pt m) (y : Fin M → ℝ) (f : GPFit m M q) : Prop :=
  (∀ i, gpMean ψ X f (X i) = y i - τ * f.α i) ∧ ∀ j, ∑ i, ψ j (X i) * f.α i = 0

theorem matches_iff_solves (e : Eighs M q) (τ : ℝ) (ψ : Fin q → Pt m → ℝ) (X : Fin M → Pt m) (y : Fin M → ℝ) (ell : Ell m) :
    MatchesData τ ψ X y (gpFit e τ ψ X y ell) ↔
      gpA τ (kernMat (images (makeL ell) X)) (vmat ψ X) *ᵥ gpX e τ (images (makeL ell) X) (vmat ψ X) y = gpB y := by
  constructor
  · rintro ⟨h1, h2⟩
    funext s
    rcases s with i | j
    · rw [gpA_inl]
      have := h1 i
      simp only [gpMean, gpFit] at this
      simp only [gpB, Sum.elim_inl, kernMat, vmat, images, Matrix.of_apply] at *
      linarith
    · rw [gpA_inr]
      exact h2 j
  · intro h
    constructor
    · intro i
      have := congrFun h (Sum.inl i)
      rw [gpA_inl] at this
      simp only [gpMean, gpFit]
      simp only [gpB, Sum.elim_inl, kernMat, vmat, images, Matrix.of_apply] at *
      linarith
    · intro j
      have := congrFun h (Sum.inr j)
      rw [gpA_inr] at this
      exact this

/-- **C67, exactly when.**  The fit matches the data exactly when the values have no component along the eigenvectors dropped. -/
theorem gp_matches_iff (e : Eighs M q) (he : EighsSpec e) (τ : ℝ) (ψ : Fin q → Pt m → ℝ) (X : Fin M → Pt m) (y : Fin M → ℝ) (ell : Ell m) :
    MatchesData τ ψ X y (gpFit e τ ψ X y ell) ↔
      ∀ k, |(e.big (gpA τ (kernMat (images (makeL ell) X)) (vmat ψ X))).1 k| ≤ 5 * eps →
        ((e.big (gpA τ (kernMat (images (makeL ell) X)) (vmat ψ X))).2ᵀ *ᵥ gpB y) k = 0 := by
  rw [matches_iff_solves, gpX, specSolve_iff (he.big _ (gpA_symm _ _ _)) _ fun k hk => kept_ne hk]
  simp only [kept, not_lt]

/-- **C67 (partial).**  If no eigenvalue of the system is dropped, the fit matches the data, for any polynomial part. -/
theorem gp_matches_partial (e : Eighs M q) (he : EighsSpec e) (τ : ℝ) (ψ : Fin q → Pt m → ℝ) (X : Fin M → Pt m) (y : Fin M → ℝ) (ell : Ell m)
    (hk : ∀ k, 5 * eps < |(e.big (gpA τ (kernMat (images (makeL ell) X)) (vmat ψ X))).1 k|) :
    MatchesData τ ψ X y (gpFit e τ ψ X y ell) :=
  (gp_matches_iff e he τ ψ X y ell).2 fun k h => absurd (hk k) (not_lt.2 h)

/-! ## Without polynomial part -/

/-- The eigenvalues of the system without polynomial part. -/
theorem eig_value_noPoly {τ : ℝ} {Y : Fin M → Pt m} {V : Matrix (Fin M) (Fin 0) ℝ} {d : Eig (Fin M ⊕ Fin 0)}
    (h : IsEig (gpA τ (kernMat Y) V) d) (k : Fin M ⊕ Fin 0) :
    ∃ u : Fin M → ℝ, u ≠ 0 ∧ d.1 k = u ⬝ᵥ (kernMat Y *ᵥ u) + τ := by
  obtain ⟨h1, h2⟩ := h.value k
  have hn : (fun i => d.2 (Sum.inl i) k) ⬝ᵥ (fun i => d.2 (Sum.inl i) k) = 1 := by
    simpa [dotProduct, Fintype.sum_sum_type] using h2
  refine ⟨fun i => d.2 (Sum.inl i) k, ?_, ?_⟩
  · intro h0
    rw [h0] at hn
    simp at hn
  · rw [← h1]
    simp only [dotProduct, Fintype.sum_sum_type, gpA_inl, Finset.univ_eq_empty, Finset.sum_empty, add_zero, mul_add, Finset.sum_add_distrib]
    congr 1
    have : ∀ i : Fin M, d.2 (Sum.inl i) k * (τ * d.2 (Sum.inl i) k) = τ * (d.2 (Sum.inl i) k * d.2 (Sum.inl i) k) := fun i => by ring
    rw [Finset.sum_congr rfl fun i _ => this i, ← Finset.mul_sum]
    have hn' : ∑ i, d.2 (Sum.inl i) k * d.2 (Sum.inl i) k = 1 := hn
    rw [hn', mul_one]

/-- **C67 with a nugget above the threshold**, no polynomial part: for all samples, also coinciding ones. -/
theorem gp_matches_nugget (e : Eighs M 0) (he : EighsSpec e) (τ : ℝ) (hτ : 5 * eps < τ) (ψ : Fin 0 → Pt m → ℝ) (X : Fin M → Pt m) (y : Fin M → ℝ)
    (ell : Ell m) : MatchesData τ ψ X y (gpFit e τ ψ X y ell) := by
  refine gp_matches_partial e he τ ψ X y ell fun k => ?_
  obtain ⟨u, _, hk⟩ := eig_value_noPoly (he.big _ (gpA_symm τ _ (vmat ψ X))) k
  rw [hk]
  have := kern_nonneg (images (makeL ell) X) u
  exact lt_of_lt_of_le (by linarith) (le_abs_self _)

/-- The transformation is injective, except possibly for a given multiple. -/
theorem makeL_injective (ell : Ell m) (h : ∀ L0 l, ell ≠ .mult L0 l) : Function.Injective fun x : Pt m => makeL ell *ᵥ x := by
  have key : ∀ A : Matrix (Fin m) (Fin m) ℝ, IsUnit A → Function.Injective fun x : Pt m => A *ᵥ x := by
    intro A hA
    exact Matrix.mulVec_injective_iff_isUnit.2 hA
  cases ell with
  | const l =>
    intro x z hxz
    have hp := Real.exp_pos l
    funext i
    have := congrFun hxz i
    simp only [makeL, smul_mulVec, one_mulVec, Pi.smul_apply, smul_eq_mul] at this
    exact mul_left_cancel₀ hp.ne' this
  | mult L0 l => exact absurd rfl (h L0 l)
  | diag l =>
    intro x z hxz
    funext i
    have := congrFun hxz i
    simp only [makeL, mulVec_diagonal] at this
    exact mul_left_cancel₀ (Real.exp_pos _).ne' this
  | tril l => exact key _ (Matrix.isUnit_exp _)

/-- **C67 for the default nugget**, no polynomial part: for all distinct samples, all values, all structures but a given multiple
and whatever parameter the optimizer returns. -/
theorem gp_matches_default (e : Eighs M 0) (he : EighsSpec e) (τ : ℝ) (hτ : defaultNugget ≤ τ) (ψ : Fin 0 → Pt m → ℝ) (X : Fin M → Pt m)
    (hX : Function.Injective X) (y : Fin M → ℝ) (ell : Ell m) (hell : ∀ L0 l, ell ≠ .mult L0 l) :
    MatchesData τ ψ X y (gpFit e τ ψ X y ell) := by
  refine gp_matches_partial e he τ ψ X y ell fun k => ?_
  obtain ⟨u, hu, hk⟩ := eig_value_noPoly (he.big _ (gpA_symm τ _ (vmat ψ X))) k
  rw [hk]
  have hinj : Function.Injective (images (makeL ell) X) := (makeL_injective ell hell).comp hX
  have := kern_pos (images (makeL ell) X) hinj u hu
  unfold defaultNugget at hτ
  exact lt_of_lt_of_le (by linarith) (le_abs_self _)

/-- **C67 is false for coinciding samples with the default nugget**: two samples at the same point with values 0 and 1. The
eigenvalue of the difference is exactly the threshold and is dropped, for every exact routine and every parameter. -/
theorem gp_duplicate_false (e : Eighs 2 0) (he : EighsSpec e) (ψ : Fin 0 → Pt 1 → ℝ) (ell : Ell 1) :
    ¬ MatchesData defaultNugget ψ (fun _ => ![0]) ![0, 1] (gpFit e defaultNugget ψ (fun _ => ![0]) ![0, 1] ell) := by
  intro hm
  rw [matches_iff_solves] at hm
  set Y := images (makeL ell) (fun _ : Fin 2 => (![0] : Pt 1)) with hY
  set A := gpA defaultNugget (kernMat Y) (vmat ψ fun _ : Fin 2 => (![0] : Pt 1)) with hA
  have hd := he.big A (gpA_symm _ _ _)
  set x := gpX e defaultNugget Y (vmat ψ fun _ : Fin 2 => (![0] : Pt 1)) ![0, 1] with hx
  have hK : ∀ i j, kernMat Y i j = 1 := fun i j => kern_self _
  -- the difference vector
  let v : Fin 2 ⊕ Fin 0 → ℝ := Sum.elim ![1, -1] 0
  have hAv : A *ᵥ v = defaultNugget • v := by
    funext s
    rcases s with i | j
    · rw [hA, gpA_inl]
      simp only [hK, Fin.sum_univ_two, Finset.univ_eq_empty, Finset.sum_empty]
      fin_cases i <;> simp [v]
    · exact j.elim0
  -- its coordinates vanish along kept directions
  have hco : ∀ k, kept (e.big A) k → ((e.big A).2ᵀ *ᵥ v) k = 0 := by
    intro k hk
    have h1 := hd.apply v k
    rw [hAv, mulVec_smul, Pi.smul_apply, smul_eq_mul] at h1
    have h2 : ((e.big A).1 k - defaultNugget) * ((e.big A).2ᵀ *ᵥ v) k = 0 := by linarith
    rcases mul_eq_zero.1 h2 with h3 | h3
    · exfalso
      have h4 : (e.big A).1 k = 5 * eps := by unfold defaultNugget at h3; linarith
      unfold kept at hk
      rw [h4, abs_of_pos (by have := eps_pos; linarith)] at hk
      exact lt_irrefl _ hk
    · exact h3
  -- so the solution is orthogonal to it
  have hdot : ∀ z w : Fin 2 ⊕ Fin 0 → ℝ, z ⬝ᵥ w = ((e.big A).2ᵀ *ᵥ z) ⬝ᵥ ((e.big A).2ᵀ *ᵥ w) := by
    intro z w
    rw [dotProduct_mulVec, vecMul_transpose, mulVec_mulVec, hd.right, one_mulVec]
  have hvx : v ⬝ᵥ x = 0 := by
    rw [hdot]
    refine Finset.sum_eq_zero fun k _ => ?_
    classical
    have h1 : ((e.big A).2ᵀ *ᵥ x) k = _ := specSolve_coord hd (kept (e.big A)) (gpB ![0, 1]) k
    rw [h1]
    by_cases hk : kept (e.big A) k
    · rw [hco k hk, zero_mul]
    · rw [if_neg hk, mul_zero]
  have h1 : v ⬝ᵥ (A *ᵥ x) = 0 := by
    have hs : Aᵀ = A := gpA_symm _ _ _
    rw [dotProduct_mulVec, ← mulVec_transpose, hs, hAv, smul_dotProduct, hvx, smul_zero]
  rw [hm] at h1
  simp [v, gpB, dotProduct, Fintype.sum_sum_type] at h1

/-! ## The predicted variance -/

open Classical in
theorem specSolve_quad {A : Matrix (Fin M) (Fin M) ℝ} {d : Eig (Fin M)} (h : IsEig A d) (I : Fin M → Prop) (k : Fin M → ℝ) :
    k ⬝ᵥ specSolve d I k = ∑ l, if I l then 1 / d.1 l * (d.2ᵀ *ᵥ k) l ^ 2 else 0 := by
  rw [specSolve, dotProduct_mulVec, ← mulVec_transpose]
  refine Finset.sum_congr rfl fun l _ => ?_
  by_cases hl : I l
  · simp only [if_pos hl]; ring
  · simp only [if_neg hl]; ring

/-- **C67, variances lie between 0 and 1**, at every point. -/
theorem gp_var_range (e : Eighs M q) (he : EighsSpec e) (X : Fin M → Pt m) (f : GPFit m M q) (x : Pt m) :
    0 ≤ gpVar e X f x ∧ gpVar e X f x ≤ 1 := by
  classical
  have h1 : rawVar e X f x ≤ 1 := by
    unfold rawVar
    simp only
    rw [specSolve_quad (he.small _ (kernMat_symm _))]
    have : 0 ≤ ∑ l, if keptVar (e.small (kernMat (images f.L X))) l then
        1 / (e.small (kernMat (images f.L X))).1 l * ((e.small (kernMat (images f.L X))).2ᵀ *ᵥ fun i => kern (f.L *ᵥ x) (f.L *ᵥ X i)) l ^ 2 else 0 := by
      refine Finset.sum_nonneg fun l _ => ?_
      split_ifs with hl
      · have hp : 0 < (e.small (kernMat (images f.L X))).1 l := lt_trans (by have := eps_pos; linarith) hl
        positivity
      · exact le_refl _
    linarith
  unfold gpVar
  split_ifs with h
  · exact ⟨le_refl _, by norm_num⟩
  · exact ⟨not_lt.1 h, h1⟩

/-- In exact arithmetic nothing is ever clipped. -/
theorem gp_var_raw (e : Eighs M q) (he : EighsSpec e) (X : Fin M → Pt m) (f : GPFit m M q) (x : Pt m) :
    gpVar e X f x = rawVar e X f x := by
  classical
  unfold gpVar
  rw [if_neg]
  rw [not_lt]
  set Y := images f.L X with hY
  set d := e.small (kernMat Y) with hd
  have hs := he.small (kernMat Y) (kernMat_symm _)
  set k : Fin M → ℝ := fun i => kern (f.L *ᵥ x) (f.L *ᵥ X i) with hk
  set z := specSolve d (keptVar d) k with hz
  -- the kernel of the samples and the new point
  have hpsd := kern_nonneg (Fin.cons (f.L *ᵥ x) Y : Fin (M + 1) → Pt m) (Fin.cons 1 fun i => - z i)
  have hexp : (Fin.cons 1 fun i => - z i : Fin (M + 1) → ℝ) ⬝ᵥ (kernMat (Fin.cons (f.L *ᵥ x) Y : Fin (M + 1) → Pt m) *ᵥ (Fin.cons 1 fun i => - z i)) =
      1 - 2 * (k ⬝ᵥ z) + z ⬝ᵥ (kernMat Y *ᵥ z) := by
    simp only [dotProduct, mulVec, kernMat, Matrix.of_apply, Fin.sum_univ_succ, Fin.cons_zero, Fin.cons_succ, kern_self]
    have e1 : ∀ i, kern (Y i) (f.L *ᵥ x) = k i := fun i => kern_symm _ _
    have e2 : ∀ i, kern (f.L *ᵥ x) (Y i) = k i := fun i => rfl
    simp only [e1, e2]
    have e3 : ∑ i, -z i * (k i * 1 + ∑ j, kern (Y i) (Y j) * -z j) = - ∑ i, k i * z i + ∑ i, z i * ∑ j, kern (Y i) (Y j) * z j := by
      rw [← Finset.sum_neg_distrib, ← Finset.sum_add_distrib]
      refine Finset.sum_congr rfl fun i _ => ?_
      simp only [mul_neg, Finset.sum_neg_distrib]
      ring
    rw [e3]
    simp only [mul_neg, Finset.sum_neg_distrib]
    ring
  have hquad : z ⬝ᵥ (kernMat Y *ᵥ z) = k ⬝ᵥ z := by
    have hco := specSolve_coord hs (keptVar d) k
    have hdot : ∀ u w : Fin M → ℝ, u ⬝ᵥ w = (d.2ᵀ *ᵥ u) ⬝ᵥ (d.2ᵀ *ᵥ w) := by
      intro u w
      rw [dotProduct_mulVec, vecMul_transpose, mulVec_mulVec, hs.right, one_mulVec]
    rw [hdot, hdot k]
    refine Finset.sum_congr rfl fun l _ => ?_
    have hco' : (d.2ᵀ *ᵥ z) l = _ := hco l
    have happ : (d.2ᵀ *ᵥ (kernMat Y *ᵥ z)) l = d.1 l * (d.2ᵀ *ᵥ z) l := hs.apply z l
    rw [happ, hco']
    by_cases hl : keptVar d l
    · have hp : (0 : ℝ) < d.1 l := lt_trans (by have := eps_pos; linarith) hl
      simp only [if_pos hl]
      change 1 / d.1 l * (d.2ᵀ *ᵥ k) l * (d.1 l * (1 / d.1 l * (d.2ᵀ *ᵥ k) l)) = (d.2ᵀ *ᵥ k) l * (1 / d.1 l * (d.2ᵀ *ᵥ k) l)
      field_simp
    · simp only [if_neg hl, mul_zero, zero_mul]
  rw [hexp, hquad] at hpsd
  show 0 ≤ 1 - k ⬝ᵥ z
  linarith

/-- **C67 (partial), variance zero at the samples** when no eigenvalue of the kernel is dropped. -/
theorem gp_var_sample_partial (e : Eighs M q) (he : EighsSpec e) (X : Fin M → Pt m) (f : GPFit m M q)
    (hk : ∀ k, 500 * eps < (e.small (kernMat (images f.L X))).1 k) (i : Fin M) : gpVar e X f (X i) = 0 := by
  rw [gp_var_raw e he]
  have hs := he.small (kernMat (images f.L X)) (kernMat_symm _)
  unfold rawVar
  simp only
  set k : Fin M → ℝ := fun j => kern (f.L *ᵥ X i) (f.L *ᵥ X j) with hkk
  have hsolve := (specSolve_iff hs (keptVar _) (fun l hl => ne_of_gt (lt_trans (by have := eps_pos; linarith) hl)) k).2
    fun l hl => absurd (hk l) hl
  have h1 := congrFun hsolve i
  have h2 : (kernMat (images f.L X) *ᵥ specSolve (e.small (kernMat (images f.L X))) (keptVar (e.small (kernMat (images f.L X)))) k) i =
      k ⬝ᵥ specSolve (e.small (kernMat (images f.L X))) (keptVar (e.small (kernMat (images f.L X)))) k := rfl
  rw [← h2, h1, hkk]
  simp only
  rw [kern_self]; ring

/-! ## Exact routines exist -/

theorem exists_isEig {ι : Type} [Fintype ι] [DecidableEq ι] (A : Matrix ι ι ℝ) (hA : Aᵀ = A) : ∃ d, IsEig A d := by
  have hh : A.IsHermitian := by rw [Matrix.IsHermitian, Matrix.conjTranspose_eq_transpose_of_trivial, hA]
  refine ⟨(hh.eigenvalues, (hh.eigenvectorUnitary : Matrix ι ι ℝ)), ?_, ?_⟩
  · have := (Matrix.mem_unitaryGroup_iff').1 hh.eigenvectorUnitary.2
    rwa [Matrix.star_eq_conjTranspose, Matrix.conjTranspose_eq_transpose_of_trivial] at this
  · have := hh.spectral_theorem
    conv_lhs => rw [this]
    simp only [Unitary.conjStarAlgAut_apply, Matrix.star_eq_conjTranspose, Matrix.conjTranspose_eq_transpose_of_trivial]
    rfl

open Classical in
theorem exists_eighs (M q : ℕ) : ∃ e : Eighs M q, EighsSpec e :=
  ⟨⟨fun A => if h : Aᵀ = A then (exists_isEig A h).choose else (0, 0), fun A => if h : Aᵀ = A then (exists_isEig A h).choose else (0, 0)⟩,
    fun A h => by simp only [dif_pos h]; exact (exists_isEig A h).choose_spec, fun A h => by simp only [dif_pos h]; exact (exists_isEig A h).choose_spec⟩

/-- The hypotheses of `gp_matches_default` are met by three samples on a line. -/
example : ∃ e : Eighs 3 0, MatchesData defaultNugget (fun j => j.elim0) ![![0], ![1], ![3]] ![2, -1, 5]
    (gpFit e defaultNugget (fun j => j.elim0) ![![0], ![1], ![3]] ![2, -1, 5] (.const 1)) := by
  obtain ⟨e, he⟩ := exists_eighs 3 0
  refine ⟨e, gp_matches_default e he _ (le_refl _) _ _ ?_ _ _ (by simp)⟩
  intro i j h
  fin_cases i <;> fin_cases j <;> simp at h ⊢

end Verif.GP
