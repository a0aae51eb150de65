import Mathlib.Topology.Algebra.Order.LiminfLimsup
import Mathlib.Topology.MetricSpace.Pseudo.Defs
import Verif.GP.VarProps

/-!
# Predictions of a Gaussian process converge (C160)
-/

namespace Verif.GP

open Verif Verif.Lip Matrix

variable {m M N q : ℕ}

/-- The mean is the rule that minimizes the worst case error plus the nugget times the sum of squared weights. -/
theorem mean_best (e : Eighs M 0) (he : EighsSpec e) (τ : ℝ) (hτ : 0 < τ) (ψ : Fin 0 → Pt m → ℝ) (X : Fin M → Pt m) (y : Fin M → ℝ) (f : GPFit m M 0)
    (hm : (kernMat (images f.L X) + τ • (1 : Matrix (Fin M) (Fin M) ℝ)) *ᵥ f.α = y) (x : Pt m) :
    ∃ w, gpMean ψ X f x = ∑ i, w i * y i ∧ ∀ v, miss2 f.L X x w + τ * ∑ i, w i ^ 2 ≤ miss2 f.L X x v + τ * ∑ i, v i ^ 2 := by
  classical
  have hs := he.small _ (kernMat_symm (images f.L X))
  set d := e.small (kernMat (images f.L X)) with hd
  set k := kvec f.L X x with hkv
  set w : Fin M → ℝ := d.2 *ᵥ fun l => 1 / (d.1 l + τ) * (d.2ᵀ *ᵥ k) l with hw
  have hwl : ∀ l, (d.2ᵀ *ᵥ w) l = 1 / (d.1 l + τ) * (d.2ᵀ *ᵥ k) l := fun l => by
    rw [hw, mulVec_mulVec, hs.1, one_mulVec]
  have hnn := fun l => eig_nonneg hs l
  refine ⟨w, ?_, fun v => ?_⟩
  · have h1 : gpMean ψ X f x = k ⬝ᵥ f.α := by
      simp [gpMean, dotProduct, hkv, kvec]
    have h2 : ∀ l, (d.2ᵀ *ᵥ y) l = (d.1 l + τ) * (d.2ᵀ *ᵥ f.α) l := fun l => by
      rw [← hm, add_mulVec, mulVec_add, Pi.add_apply, smul_mulVec, one_mulVec, mulVec_smul, Pi.smul_apply, smul_eq_mul, hs.apply]
      ring
    rw [h1, hs.dot]
    change _ = w ⬝ᵥ y
    rw [hs.dot]
    refine Finset.sum_congr rfl fun l _ => ?_
    have h3 : d.1 l + τ ≠ 0 := by have := hnn l; positivity
    change (d.2ᵀ *ᵥ k) l * (d.2ᵀ *ᵥ f.α) l = (d.2ᵀ *ᵥ w) l * (d.2ᵀ *ᵥ y) l
    rw [h2, hwl]
    field_simp
  · have hsq : ∀ u : Fin M → ℝ, ∑ i, u i ^ 2 = ∑ l, (d.2ᵀ *ᵥ u) l ^ 2 := fun u => by
      have := hs.dot u u
      simp only [← sq, dotProduct] at this
      exact this
    rw [miss2_eig _ _ _ _ hs, miss2_eig _ _ _ _ hs, hsq w, hsq v, Finset.mul_sum, Finset.mul_sum, add_assoc, add_assoc, ← Finset.sum_add_distrib,
      ← Finset.sum_add_distrib]
    refine add_le_add le_rfl (Finset.sum_le_sum fun l _ => ?_)
    rw [hwl]
    have h3 : 0 < d.1 l + τ := by have := hnn l; positivity
    change d.1 l * (1 / (d.1 l + τ) * (d.2ᵀ *ᵥ k) l) ^ 2 - 2 * (1 / (d.1 l + τ) * (d.2ᵀ *ᵥ k) l) * (d.2ᵀ *ᵥ k) l + τ * (1 / (d.1 l + τ) * (d.2ᵀ *ᵥ k) l) ^ 2 ≤
      d.1 l * (d.2ᵀ *ᵥ v) l ^ 2 - 2 * (d.2ᵀ *ᵥ v) l * (d.2ᵀ *ᵥ k) l + τ * (d.2ᵀ *ᵥ v) l ^ 2
    generalize (d.2ᵀ *ᵥ k) l = c at *
    generalize (d.2ᵀ *ᵥ v) l = b at *
    generalize d.1 l = t at *
    have h4 : t * b ^ 2 - 2 * b * c + τ * b ^ 2 - (t * (1 / (t + τ) * c) ^ 2 - 2 * (1 / (t + τ) * c) * c + τ * (1 / (t + τ) * c) ^ 2) =
        (t + τ) * (b - 1 / (t + τ) * c) ^ 2 := by
      field_simp
      ring
    have h5 : 0 ≤ (t + τ) * (b - 1 / (t + τ) * c) ^ 2 := by positivity
    linarith

/-- **The prediction errs no more than any linear rule**, up to the nugget times the sum of its squared weights. -/
theorem gp_error_any (e : Eighs M 0) (he : EighsSpec e) (τ : ℝ) (hτ : defaultNugget ≤ τ) (ψ : Fin 0 → Pt m → ℝ) (X : Fin M → Pt m) (ell : Ell m)
    (c : Fin N → ℝ) (z : Fin N → Pt m) (x : Pt m) (v : Fin M → ℝ) :
    (combo (makeL ell) c z x - gpMean ψ X (gpFit e τ ψ X (fun i => combo (makeL ell) c z (X i)) ell) x) ^ 2 ≤
      energy (makeL ell) c z * (miss2 (makeL ell) X x v + τ * ∑ i, v i ^ 2) := by
  have hτ0 : 0 < τ := lt_of_lt_of_le (by unfold defaultNugget; have := eps_pos; linarith) hτ
  obtain ⟨w, h1, h2⟩ := mean_best e he τ hτ0 ψ X _ _ (coef_of_matches (combo_matches e he τ hτ ψ X ell c z)) x
  rw [h1]
  refine (rule_error (makeL ell) c z X x w).trans (mul_le_mul_of_nonneg_left ?_ (energy_nonneg _ _ _))
  have h3 := h2 v
  have h4 : 0 ≤ τ * ∑ i, w i ^ 2 := mul_nonneg hτ0.le (Finset.sum_nonneg fun i _ => sq_nonneg _)
  have h5 : (gpFit e τ ψ X (fun i => combo (makeL ell) c z (X i)) ell).L = makeL ell := rfl
  rw [h5] at h3
  linarith

theorem kern_le_one (a b : Pt m) : kern a b ≤ 1 := by
  unfold kern
  rw [Real.exp_le_one_iff]
  have : 0 ≤ sqd a b := Finset.sum_nonneg fun _ _ => sq_nonneg _
  linarith

/-- **Error near samples**: with `n` samples within squared (transformed) distance `ρ`, coinciding or not, the squared error is at most the energy
times `ρ + τ / n`. -/
theorem gp_error_cluster (e : Eighs M 0) (he : EighsSpec e) (τ : ℝ) (hτ : defaultNugget ≤ τ) (ψ : Fin 0 → Pt m → ℝ) (X : Fin M → Pt m) (ell : Ell m)
    (c : Fin N → ℝ) (z : Fin N → Pt m) (x : Pt m) (s : Finset (Fin M)) (hs : s.Nonempty) (ρ : ℝ)
    (hρ : ∀ i ∈ s, sqd (makeL ell *ᵥ x) (makeL ell *ᵥ X i) ≤ ρ) :
    (combo (makeL ell) c z x - gpMean ψ X (gpFit e τ ψ X (fun i => combo (makeL ell) c z (X i)) ell) x) ^ 2 ≤ energy (makeL ell) c z * (ρ + τ / s.card) := by
  classical
  have hn : (0 : ℝ) < s.card := by exact_mod_cast hs.card_pos
  refine (gp_error_any e he τ hτ ψ X ell c z x fun i => if i ∈ s then 1 / (s.card : ℝ) else 0).trans
    (mul_le_mul_of_nonneg_left ?_ (energy_nonneg _ _ _))
  have h1 : ∑ i, (if i ∈ s then 1 / (s.card : ℝ) else 0) ^ 2 = 1 / s.card := by
    simp only [ite_pow, zero_pow two_ne_zero, Finset.sum_ite_mem, Finset.univ_inter, Finset.sum_const, nsmul_eq_mul]
    field_simp
  have h2 : ∑ i, (if i ∈ s then 1 / (s.card : ℝ) else 0) * kern (makeL ell *ᵥ x) (makeL ell *ᵥ X i) ≥ 1 - ρ / 2 := by
    simp only [ite_mul, zero_mul, Finset.sum_ite_mem, Finset.univ_inter]
    have : ∑ i ∈ s, 1 / (s.card : ℝ) * (1 - ρ / 2) ≤ ∑ i ∈ s, 1 / (s.card : ℝ) * kern (makeL ell *ᵥ x) (makeL ell *ᵥ X i) := by
      refine Finset.sum_le_sum fun i hi => mul_le_mul_of_nonneg_left ?_ (by positivity)
      have h3 := hρ i hi
      have h4 := Real.add_one_le_exp (-0.5 * sqd (makeL ell *ᵥ x) (makeL ell *ᵥ X i))
      unfold kern
      linarith
    rw [Finset.sum_const, nsmul_eq_mul, ← mul_assoc, mul_one_div_cancel hn.ne', one_mul] at this
    exact this
  have h3 : ∑ i, ∑ j, (if i ∈ s then 1 / (s.card : ℝ) else 0) * (if j ∈ s then 1 / (s.card : ℝ) else 0) * kern (makeL ell *ᵥ X i) (makeL ell *ᵥ X j) ≤ 1 := by
    calc _ ≤ ∑ i, ∑ j, (if i ∈ s then 1 / (s.card : ℝ) else 0) * (if j ∈ s then 1 / (s.card : ℝ) else 0) := by
          refine Finset.sum_le_sum fun i _ => Finset.sum_le_sum fun j _ => ?_
          refine mul_le_of_le_one_right ?_ (kern_le_one _ _)
          split_ifs <;> positivity
      _ = 1 := by
          have h4 : ∑ j, (if j ∈ s then 1 / (s.card : ℝ) else 0) = 1 := by
            rw [Finset.sum_ite_mem, Finset.univ_inter, Finset.sum_const, nsmul_eq_mul, mul_one_div_cancel hn.ne']
          rw [← Finset.sum_mul_sum, h4, one_mul]
  rw [h1]
  unfold miss2
  rw [mul_one_div]
  linarith

/-- Squared distances are enlarged by a linear map at most by a constant factor. -/
theorem sqd_mulVec_le (L : Matrix (Fin m) (Fin m) ℝ) : ∃ C : ℝ, 0 < C ∧ ∀ a b : Pt m, sqd (L *ᵥ a) (L *ᵥ b) ≤ C * sqd a b := by
  refine ⟨∑ i, ∑ j, L i j ^ 2 + 1, by positivity, fun a b => ?_⟩
  have h1 : sqd (L *ᵥ a) (L *ᵥ b) ≤ (∑ i, ∑ j, L i j ^ 2) * sqd a b := by
    unfold sqd
    rw [Finset.sum_mul]
    refine Finset.sum_le_sum fun i _ => ?_
    have : (L *ᵥ a) i - (L *ᵥ b) i = ∑ j, L i j * (a j - b j) := by
      simp only [mulVec, dotProduct, ← Finset.sum_sub_distrib, mul_sub]
    rw [this]
    exact Finset.sum_mul_sq_le_sq_mul_sq _ _ _
  have h2 : 0 ≤ sqd a b := Finset.sum_nonneg fun _ _ => sq_nonneg _
  linarith [add_mul (∑ i, ∑ j, L i j ^ 2) 1 (sqd a b)]

/-- **Predictions converge**: at every point around which samples accumulate, the means of the fits tend to the value of the function, for every function
in the space of the kernel, every length scale and every nugget from the default up. -/
theorem gp_converges (M : ℕ → ℕ) (e : ∀ n, Eighs (M n) 0) (he : ∀ n, EighsSpec (e n)) (τ : ℝ) (hτ : defaultNugget ≤ τ) (ψ : Fin 0 → Pt m → ℝ)
    (X : ∀ n, Fin (M n) → Pt m) (ell : Ell m) (c : Fin N → ℝ) (z : Fin N → Pt m) (x : Pt m)
    (hX : ∀ r > 0, ∀ k : ℕ, ∀ᶠ n in Filter.atTop, ∃ s : Finset (Fin (M n)), k ≤ s.card ∧ ∀ i ∈ s, sqd x (X n i) ≤ r) :
    Filter.Tendsto (fun n => gpMean ψ (X n) (gpFit (e n) τ ψ (X n) (fun i => combo (makeL ell) c z (X n i)) ell) x) Filter.atTop
      (nhds (combo (makeL ell) c z x)) := by
  have hτ0 : 0 < τ := lt_of_lt_of_le (by unfold defaultNugget; have := eps_pos; linarith) hτ
  obtain ⟨C, hC, hLC⟩ := sqd_mulVec_le (makeL ell)
  rw [Metric.tendsto_nhds]
  intro δ hδ
  have hE : 0 ≤ energy (makeL ell) c z := energy_nonneg _ _ _
  set E := energy (makeL ell) c z + 1 with hEd
  have hE1 : 0 < E := by linarith
  obtain ⟨k, hk⟩ := exists_nat_gt (τ * (4 * E / δ ^ 2))
  filter_upwards [hX (δ ^ 2 / (4 * E * C)) (by positivity) (k + 1)] with n ⟨s, hsk, hsr⟩
  have hne : s.Nonempty := Finset.card_pos.1 (by omega)
  have h1 := gp_error_cluster (e n) (he n) τ hτ ψ (X n) ell c z x s hne (δ ^ 2 / (4 * E)) fun i hi =>
    (hLC _ _).trans ((mul_le_mul_of_nonneg_left (hsr i hi) hC.le).trans (le_of_eq (by field_simp)))
  have h2 : τ / s.card ≤ δ ^ 2 / (4 * E) := by
    have h3 : (k : ℝ) ≤ s.card := by exact_mod_cast (by omega : k ≤ s.card)
    have h4 : (0 : ℝ) < s.card := by exact_mod_cast hne.card_pos
    rw [div_le_div_iff₀ h4 (by positivity)]
    have h5 : τ * (4 * E / δ ^ 2) ≤ s.card := hk.le.trans h3
    have h6 : τ * (4 * E) = τ * (4 * E / δ ^ 2) * δ ^ 2 := by field_simp
    rw [h6, mul_comm (δ ^ 2)]
    exact mul_le_mul_of_nonneg_right h5 (sq_nonneg _)
  rw [dist_comm, Real.dist_eq]
  refine abs_lt_of_sq_lt_sq ?_ hδ.le
  refine lt_of_le_of_lt (h1.trans (mul_le_mul (by linarith : energy (makeL ell) c z ≤ E) (add_le_add le_rfl h2) (by positivity) hE1.le)) ?_
  have : E * (δ ^ 2 / (4 * E) + δ ^ 2 / (4 * E)) = δ ^ 2 / 2 := by field_simp; ring
  rw [this]
  have : 0 < δ ^ 2 := by positivity
  linarith

/-- Samples accumulating at zero: `1, 1/2, …, 1/(n+1)`. -/
example (e : ∀ n, Eighs (n + 1) 0) (he : ∀ n, EighsSpec (e n)) (ψ : Fin 0 → Pt 1 → ℝ) :
    Filter.Tendsto (fun n => gpMean ψ (fun i : Fin (n + 1) => ![1 / ((i : ℝ) + 1)])
      (gpFit (e n) defaultNugget ψ (fun i : Fin (n + 1) => ![1 / ((i : ℝ) + 1)]) (fun i => combo (makeL (.const 0)) ![1, -2] ![![0], ![3]] ![1 / ((i : ℝ) + 1)])
        (.const 0)) ![0]) Filter.atTop (nhds (combo (makeL (.const 0)) ![1, -2] ![![0], ![3]] ![0])) := by
  refine gp_converges (fun n => n + 1) e he defaultNugget le_rfl ψ _ (.const 0) _ _ _ fun r hr k => ?_
  obtain ⟨K, hK⟩ := exists_nat_gt (1 / r)
  filter_upwards [Filter.eventually_ge_atTop (K + k)] with n hn
  refine ⟨Finset.univ.filter fun i : Fin (n + 1) => K ≤ (i : ℕ), ?_, fun i hi => ?_⟩
  · have : (Finset.univ.image fun j : Fin k => (⟨K + j, by omega⟩ : Fin (n + 1))) ⊆ Finset.univ.filter fun i : Fin (n + 1) => K ≤ (i : ℕ) := by
      intro i hi
      obtain ⟨j, _, rfl⟩ := Finset.mem_image.1 hi
      simp
    refine le_trans (le_of_eq ?_) (Finset.card_le_card this)
    rw [Finset.card_image_of_injective _ fun a b h => by simpa [Fin.ext_iff] using h, Finset.card_univ, Fintype.card_fin]
  · have h1 : (K : ℝ) ≤ i := by exact_mod_cast (Finset.mem_filter.1 hi).2
    simp only [sqd, Fin.sum_univ_one, Matrix.cons_val_zero, zero_sub, neg_sq]
    have h2 : 0 < (i : ℝ) + 1 := by positivity
    have h3 : 1 / ((i : ℝ) + 1) ≤ r := by
      rw [div_le_iff₀ h2]
      rw [div_lt_iff₀ hr] at hK
      nlinarith
    have h4 : 1 / ((i : ℝ) + 1) ≤ 1 := by
      rw [div_le_one h2]
      have : (0 : ℝ) ≤ i := by positivity
      linarith
    have h5 : 0 < 1 / ((i : ℝ) + 1) := by positivity
    nlinarith

end Verif.GP
