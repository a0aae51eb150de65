import Mathlib.Analysis.Normed.Module.FiniteDimension
import Verif.Misc.PerplexityProps

/-!
# Accuracy of the gradients of local linear models (C161)
-/

namespace Verif.Misc

open Verif Verif.Domain Verif.Lip Matrix

variable {m : ℕ}

/-! ## Specification -/

/-- Near `xt` the function differs from its linearization with gradient `g` by at most `K/2` times the squared distance, at the given points. -/
def CurvedBy (f : Pt m → ℝ) (xt g : Pt m) (K : ℝ) (X : List (Pt m)) : Prop :=
  ∀ x ∈ X, |f x - f xt - (x - xt) ⬝ᵥ g| ≤ K / 2 * ((x - xt) ⬝ᵥ (x - xt))

/-- The value at `x` of the affine function with coefficients `a`. -/
def affVal (a : Pt (m + 1)) (x : Pt m) : ℝ := a 0 + x ⬝ᵥ Fin.tail a

/-! ## A minimizer is a projection -/

theorem cross_zero {u v : ℝ} (hv : 0 ≤ v) (h : ∀ t : ℝ, 0 ≤ 2 * t * u + t ^ 2 * v) : u = 0 := by
  rcases hv.eq_or_lt with h0 | h0
  · have h1 := h (-u)
    rw [← h0] at h1
    nlinarith [sq_nonneg u]
  · have h1 := h (-u / v)
    have h2 : 2 * (-u / v) * u + (-u / v) ^ 2 * v = -(u ^ 2 / v) := by field_simp; ring
    rw [h2] at h1
    have h3 : 0 ≤ u ^ 2 / v := by positivity
    have h4 : u ^ 2 / v = 0 := by linarith
    rw [div_eq_zero_iff] at h4
    rcases h4 with h4 | h4
    · exact pow_eq_zero_iff two_ne_zero |>.1 h4
    · exact absurd h4 h0.ne'

/-- **Pythagoras**: the misfit of any affine function is the least one plus the weighted distance from the fitted one. -/
theorem localFit_pythagoras (β : ℝ) (data : List (Pt m × ℝ)) (xt : Pt m) (a : Pt (m + 1)) (ha : ∀ c, localMisfit β data xt a ≤ localMisfit β data xt c)
    (c : Pt (m + 1)) : localMisfit β data xt c = localMisfit β data xt a +
      (data.map fun p => Real.exp (-β * ((p.1 - xt) ⬝ᵥ (p.1 - xt))) * (affVal c p.1 - affVal a p.1) ^ 2).sum := by
  set W : Pt m × ℝ → ℝ := fun p => Real.exp (-β * ((p.1 - xt) ⬝ᵥ (p.1 - xt))) with hW
  set U := (data.map fun p => W p * ((affVal a p.1 - p.2) * (affVal c p.1 - affVal a p.1))).sum with hU
  set V := (data.map fun p => W p * (affVal c p.1 - affVal a p.1) ^ 2).sum with hV
  have hV0 : 0 ≤ V := List.sum_nonneg (by
    rw [List.forall_mem_map]
    exact fun p _ => mul_nonneg (Real.exp_pos _).le (sq_nonneg _))
  have key : ∀ t : ℝ, localMisfit β data xt (a + t • (c - a)) = localMisfit β data xt a + (2 * t * U + t ^ 2 * V) := by
    intro t
    rw [hU, hV, ← List.sum_map_mul_left, ← List.sum_map_mul_left, ← List.sum_map_add]
    unfold localMisfit
    rw [← List.sum_map_add]
    congr 1
    refine List.map_congr_left fun p _ => ?_
    have h1 : Fin.tail (a + t • (c - a)) = Fin.tail a + t • (Fin.tail c - Fin.tail a) := rfl
    simp only [h1, Pi.add_apply, Pi.smul_apply, Pi.sub_apply, smul_eq_mul, dotProduct_add, dotProduct_smul, dotProduct_sub, affVal, W]
    ring
  have hU0 : U = 0 := cross_zero hV0 fun t => by
    have := ha (a + t • (c - a))
    rw [key] at this
    linarith
  have := key 1
  rw [hU0, one_smul, add_sub_cancel] at this
  rw [this]
  ring

/-- The fitted affine function is closer to the linearization than the samples are. -/
theorem localFit_error (β : ℝ) (f : Pt m → ℝ) (X : List (Pt m)) (xt g : Pt m) (K : ℝ) (hf : CurvedBy f xt g K X) (a : Pt (m + 1))
    (ha : ∀ c, localMisfit β (X.map fun x => (x, f x)) xt a ≤ localMisfit β (X.map fun x => (x, f x)) xt c) :
    (X.map fun x => Real.exp (-β * ((x - xt) ⬝ᵥ (x - xt))) * (affVal a x - (f xt + (x - xt) ⬝ᵥ g)) ^ 2).sum ≤
      (X.map fun x => Real.exp (-β * ((x - xt) ⬝ᵥ (x - xt))) * (K / 2 * ((x - xt) ⬝ᵥ (x - xt))) ^ 2).sum := by
  have hp := localFit_pythagoras β _ xt a ha (Fin.cons (f xt - xt ⬝ᵥ g) g)
  have h0 : 0 ≤ localMisfit β (X.map fun x => (x, f x)) xt a := List.sum_nonneg (by
    rw [List.forall_mem_map]
    exact fun p _ => mul_nonneg (Real.exp_pos _).le (sq_nonneg _))
  have hlin : ∀ x : Pt m, affVal (Fin.cons (f xt - xt ⬝ᵥ g) g : Pt (m + 1)) x = f xt + (x - xt) ⬝ᵥ g := fun x => by
    simp only [affVal, Fin.cons_zero, Fin.tail_cons, sub_dotProduct]
    ring
  have h1 : localMisfit β (X.map fun x => (x, f x)) xt (Fin.cons (f xt - xt ⬝ᵥ g) g) ≤
      (X.map fun x => Real.exp (-β * ((x - xt) ⬝ᵥ (x - xt))) * (K / 2 * ((x - xt) ⬝ᵥ (x - xt))) ^ 2).sum := by
    unfold localMisfit
    rw [List.map_map]
    refine List.sum_le_sum fun x hx => mul_le_mul_of_nonneg_left ?_ (Real.exp_pos _).le
    have h2 := hf x hx
    have h3 : (Fin.cons (f xt - xt ⬝ᵥ g) g : Pt (m + 1)) 0 + x ⬝ᵥ Fin.tail (Fin.cons (f xt - xt ⬝ᵥ g) g : Pt (m + 1)) - f x = f xt + (x - xt) ⬝ᵥ g - f x := by
      rw [← hlin x]; rfl
    simp only at h3 ⊢
    rw [h3]
    have h4 : |f xt + (x - xt) ⬝ᵥ g - f x| ≤ K / 2 * ((x - xt) ⬝ᵥ (x - xt)) := by
      rw [abs_sub_comm]
      convert h2 using 2
      ring
    rw [← sq_abs]
    exact pow_le_pow_left₀ (abs_nonneg _) h4 2
  have h5 : (X.map fun x => Real.exp (-β * ((x - xt) ⬝ᵥ (x - xt))) * (affVal a x - (f xt + (x - xt) ⬝ᵥ g)) ^ 2).sum =
      ((X.map fun x => (x, f x)).map fun p => Real.exp (-β * ((p.1 - xt) ⬝ᵥ (p.1 - xt))) *
        (affVal (Fin.cons (f xt - xt ⬝ᵥ g) g : Pt (m + 1)) p.1 - affVal a p.1) ^ 2).sum := by
    rw [List.map_map]
    congr 1
    refine List.map_congr_left fun x _ => ?_
    simp only [Function.comp, hlin]
    ring
  rw [h5]
  linarith

/-! ## Spread of the samples -/

/-- Affinely spanning points determine affine functions stably, whatever the weights. -/
theorem spread (D : List (Pt m)) (hD : affineSpan ℝ {x | x ∈ D} = ⊤) (γ : ℝ) :
    ∃ σ > 0, ∀ (b : ℝ) (e : Pt m), σ * (e ⬝ᵥ e) ≤ (D.map fun d => Real.exp (-γ * (d ⬝ᵥ d)) * (b + d ⬝ᵥ e) ^ 2).sum := by
  let T : (ℝ × Pt m) →ₗ[ℝ] (Fin D.length → ℝ) :=
    { toFun := fun δ i => δ.1 + D[i] ⬝ᵥ δ.2
      map_add' := fun a b => by funext i; simp only [Prod.fst_add, Prod.snd_add, dotProduct_add, Pi.add_apply]; ring
      map_smul' := fun r a => by funext i; simp only [Prod.smul_fst, Prod.smul_snd, dotProduct_smul, smul_eq_mul, Pi.smul_apply, RingHom.id_apply]; ring }
  have hT : LinearMap.ker T = ⊥ := by
    rw [LinearMap.ker_eq_bot']
    rintro ⟨b, e⟩ h
    obtain ⟨h1, h2⟩ := affine_zero _ hD b e (fun x hx => by
      obtain ⟨i, hi, rfl⟩ := List.getElem_of_mem (show x ∈ D from hx)
      exact congrFun h ⟨i, hi⟩)
    rw [h1, h2]; rfl
  obtain ⟨C, hC, hanti⟩ := T.exists_antilipschitzWith hT
  -- the smallest weight
  obtain ⟨ω, hω, hωle⟩ : ∃ ω > 0, ∀ d ∈ D, ω ≤ Real.exp (-γ * (d ⬝ᵥ d)) := by
    clear hD T hT hanti
    induction D with
    | nil => exact ⟨1, one_pos, by simp⟩
    | cons d D ih =>
      obtain ⟨ω, h1, h2⟩ := ih
      refine ⟨min ω (Real.exp (-γ * (d ⬝ᵥ d))), lt_min h1 (Real.exp_pos _), fun x hx => ?_⟩
      rcases List.mem_cons.1 hx with rfl | hx
      · exact min_le_right _ _
      · exact (min_le_left _ _).trans (h2 x hx)
  have hC' : (0 : ℝ) < C := hC
  refine ⟨ω / ((m + 1) * (C : ℝ) ^ 2), by positivity, fun b e => ?_⟩
  set S := (D.map fun d => Real.exp (-γ * (d ⬝ᵥ d)) * (b + d ⬝ᵥ e) ^ 2).sum with hS
  have hterm : ∀ i : Fin D.length, ω * (T (b, e) i) ^ 2 ≤ S := by
    intro i
    have h1 : ω * (T (b, e) i) ^ 2 ≤ Real.exp (-γ * (D[i] ⬝ᵥ D[i])) * (b + D[i] ⬝ᵥ e) ^ 2 :=
      mul_le_mul_of_nonneg_right (hωle _ (List.getElem_mem _)) (sq_nonneg _)
    refine h1.trans (List.single_le_sum (l := D.map fun d => Real.exp (-γ * (d ⬝ᵥ d)) * (b + d ⬝ᵥ e) ^ 2) ?_ _ ?_)
    · rw [List.forall_mem_map]
      exact fun p _ => mul_nonneg (Real.exp_pos _).le (sq_nonneg _)
    · exact List.mem_map.2 ⟨D[i], List.getElem_mem _, rfl⟩
  have hS0 : 0 ≤ S := List.sum_nonneg (by
    rw [List.forall_mem_map]
    exact fun p _ => mul_nonneg (Real.exp_pos _).le (sq_nonneg _))
  have hnorm : ‖T (b, e)‖ ≤ Real.sqrt (S / ω) := by
    refine (pi_norm_le_iff_of_nonneg (Real.sqrt_nonneg _)).2 fun i => ?_
    rw [Real.norm_eq_abs]
    refine Real.le_sqrt_of_sq_le ?_
    rw [sq_abs, le_div_iff₀ hω, mul_comm]
    exact hterm i
  have hle : ‖(b, e)‖ ≤ C * ‖T (b, e)‖ := by
    have := hanti.le_mul_dist (b, e) 0
    rwa [map_zero, dist_zero_right, dist_zero_right] at this
  have hee : e ⬝ᵥ e ≤ (m + 1) * ((C : ℝ) * Real.sqrt (S / ω)) ^ 2 := by
    have h1 : ∀ i, e i * e i ≤ ((C : ℝ) * Real.sqrt (S / ω)) ^ 2 := fun i => by
      rw [← sq, ← sq_abs]
      refine pow_le_pow_left₀ (abs_nonneg _) ?_ 2
      calc |e i| ≤ ‖e‖ := norm_le_pi_norm e i
        _ ≤ ‖(b, e)‖ := le_max_right _ _
        _ ≤ C * ‖T (b, e)‖ := hle
        _ ≤ C * Real.sqrt (S / ω) := mul_le_mul_of_nonneg_left hnorm hC'.le
    have h2 : e ⬝ᵥ e ≤ ∑ _i : Fin m, ((C : ℝ) * Real.sqrt (S / ω)) ^ 2 := Finset.sum_le_sum fun i _ => h1 i
    rw [Finset.sum_const, Finset.card_univ, Fintype.card_fin, nsmul_eq_mul] at h2
    nlinarith [sq_nonneg ((C : ℝ) * Real.sqrt (S / ω))]
  rw [mul_pow, Real.sq_sqrt (by positivity)] at hee
  have h3 : ω / ((m + 1) * (C : ℝ) ^ 2) * (e ⬝ᵥ e) ≤ ω / ((m + 1) * (C : ℝ) ^ 2) * ((m + 1) * ((C : ℝ) ^ 2 * (S / ω))) :=
    mul_le_mul_of_nonneg_left hee (by positivity)
  have h4 : ω / ((m + 1) * (C : ℝ) ^ 2) * ((m + 1) * ((C : ℝ) ^ 2 * (S / ω))) = S := by field_simp
  linarith

/-- The gradient of a fit from samples `xt + h d`, weighted relative to their spread, errs by at most a constant times `K h`. -/
theorem localFit_rate (D : List (Pt m)) (hD : affineSpan ℝ {x | x ∈ D} = ⊤) (γ : ℝ) :
    ∃ C ≥ 0, ∀ (f : Pt m → ℝ) (xt g : Pt m) (K h : ℝ), 0 < h → CurvedBy f xt g K (D.map fun d => xt + h • d) → ∀ a : Pt (m + 1),
      (∀ c, localMisfit (γ / h ^ 2) ((D.map fun d => xt + h • d).map fun x => (x, f x)) xt a ≤
        localMisfit (γ / h ^ 2) ((D.map fun d => xt + h • d).map fun x => (x, f x)) xt c) →
      (Fin.tail a - g) ⬝ᵥ (Fin.tail a - g) ≤ C * (K * h) ^ 2 := by
  obtain ⟨σ, hσ, hspread⟩ := spread D hD γ
  set S := (D.map fun d => Real.exp (-γ * (d ⬝ᵥ d)) * (d ⬝ᵥ d) ^ 2).sum with hS
  have hS0 : 0 ≤ S := List.sum_nonneg (by
    rw [List.forall_mem_map]
    exact fun p _ => mul_nonneg (Real.exp_pos _).le (sq_nonneg _))
  refine ⟨S / (4 * σ), by positivity, fun f xt g K h hh hf a ha => ?_⟩
  have h1 := localFit_error (γ / h ^ 2) f _ xt g K hf a ha
  simp only [List.map_map, Function.comp_def, add_sub_cancel_left, smul_dotProduct, dotProduct_smul, smul_eq_mul] at h1
  have hw : ∀ d : Pt m, -(γ / h ^ 2) * (h * (h * (d ⬝ᵥ d))) = -γ * (d ⬝ᵥ d) := fun d => by field_simp
  simp only [hw] at h1
  have h2 := hspread (affVal a xt - f xt) (h • (Fin.tail a - g))
  have h3 : (D.map fun d => Real.exp (-γ * (d ⬝ᵥ d)) * (affVal a xt - f xt + d ⬝ᵥ (h • (Fin.tail a - g))) ^ 2).sum =
      (D.map fun d => Real.exp (-γ * (d ⬝ᵥ d)) * (affVal a (xt + h • d) - (f xt + h * (d ⬝ᵥ g))) ^ 2).sum := by
    congr 1
    refine List.map_congr_left fun d _ => ?_
    simp only [affVal, add_dotProduct, smul_dotProduct, dotProduct_smul, dotProduct_sub, smul_eq_mul]
    ring
  have h4 : (D.map fun d => Real.exp (-γ * (d ⬝ᵥ d)) * (K / 2 * (h * (h * (d ⬝ᵥ d)))) ^ 2).sum = (K * h ^ 2) ^ 2 / 4 * S := by
    rw [hS, ← List.sum_map_mul_left]
    congr 1
    refine List.map_congr_left fun d _ => ?_
    ring
  rw [h3] at h2
  rw [h4] at h1
  have h5 : σ * (h ^ 2 * ((Fin.tail a - g) ⬝ᵥ (Fin.tail a - g))) ≤ (K * h ^ 2) ^ 2 / 4 * S := by
    have : (h • (Fin.tail a - g)) ⬝ᵥ (h • (Fin.tail a - g)) = h ^ 2 * ((Fin.tail a - g) ⬝ᵥ (Fin.tail a - g)) := by
      rw [smul_dotProduct, dotProduct_smul, smul_eq_mul, smul_eq_mul]; ring
    rw [← this]
    exact h2.trans h1
  have h6 : S / (4 * σ) * (K * h) ^ 2 = (K * h ^ 2) ^ 2 / 4 * S / (σ * h ^ 2) := by field_simp
  rw [h6, le_div_iff₀ (by positivity)]
  linarith

theorem zip_self (X : List (Pt m)) (f : Pt m → ℝ) : X.zip (X.map f) = X.map fun x => (x, f x) := by
  induction X with
  | nil => rfl
  | cons x X ih => simp [ih]

/-- **C161, fixed bandwidth**: the gradient returned for a location errs by at most a constant times the curvature times the spread of the samples. The
constant depends on the shape of the samples and the bandwidth relative to the spread, not on the function, the location or the spread. -/
theorem localLinear_rate (D : List (Pt m)) (hD : affineSpan ℝ {x | x ∈ D} = ⊤) (b : ℝ) :
    ∃ C ≥ 0, ∀ (ls : LstsqFn m), LstsqSpec ls → ∀ (pb : List ℝ → ℝ → Except Err ℝ) (f : Pt m → ℝ) (xt g : Pt m) (K h : ℝ), 0 < h →
      CurvedBy f xt g K (D.map fun d => xt + h • d) → ∀ A,
      localLinear ls pb (D.map fun d => xt + h • d) ((D.map fun d => xt + h • d).map f) none (some (.val (b / h ^ 2))) (some [xt]) = .ok A →
      (∃ a, A[0]? = some a ∧ (Fin.tail a - g) ⬝ᵥ (Fin.tail a - g) ≤ C * (K * h) ^ 2) ∨ (A[0]? = some 0 ∧ ∃ rows, ls rows = none) := by
  obtain ⟨C, hC, hrate⟩ := localFit_rate D hD (b / 2)
  refine ⟨C, hC, fun ls hls pb f xt g K h hh hf A hA => ?_⟩
  rcases localLinear_minimizes ls hls pb _ _ _ _ A hA 0 (by simp) with ⟨a, h1, h2⟩ | h1
  · refine Or.inl ⟨a, h1, hrate f xt g K h hh hf a fun c => ?_⟩
    have h3 := h2 c
    rw [zip_self] at h3
    have h4 : b / h ^ 2 / 2 = b / 2 / h ^ 2 := by ring
    rw [h4] at h3
    exact h3
  · exact Or.inr h1

/-- Entropies do not change when distances are multiplied and the bandwidth is divided by the same number. -/
theorem logEntropy_scale (β r : ℝ) (hr : r ≠ 0) (d : List ℝ) : logEntropy β (d.map fun x => r * x) = logEntropy (β * r) d := by
  have h1 : sumP β (d.map fun x => r * x) = sumP (β * r) d := by
    unfold sumP
    rw [List.map_map]
    congr 1
    refine List.map_congr_left fun x _ => ?_
    simp only [Function.comp]
    congr 1
    ring
  unfold logEntropy
  rw [h1, List.map_map]
  congr 1
  rw [← List.sum_map_mul_left, ← List.sum_map_mul_left]
  congr 1
  refine List.map_congr_left fun x _ => ?_
  simp only [Function.comp]
  rw [show -β * (r * x) = -(β * r) * x by ring]
  ring

/-- **C161, perplexity**: whenever the call with a perplexity returns, the error of the gradient is at most a constant times the curvature times the spread,
with a constant that depends on the shape of the samples and the perplexity only. -/
theorem localLinear_rate_perplexity (D : List (Pt m)) (hD : affineSpan ℝ {x | x ∈ D} = ⊤) (p : ℝ) :
    ∃ C ≥ 0, ∀ (ls : LstsqFn m), LstsqSpec ls → ∀ (root : RootFn), RootSpec root → ∀ (f : Pt m → ℝ) (xt g : Pt m) (K h : ℝ), 0 < h →
      CurvedBy f xt g K (D.map fun d => xt + h • d) → ∀ A,
      localLinear ls (perpBandwidth root) (D.map fun d => xt + h • d) ((D.map fun d => xt + h • d).map f) (some p) none (some [xt]) = .ok A →
      (∃ a, A[0]? = some a ∧ (Fin.tail a - g) ⬝ᵥ (Fin.tail a - g) ≤ C * (K * h) ^ 2) ∨ (A[0]? = some 0 ∧ ∃ rows, ls rows = none) := by
  -- the bandwidth of a successful call, relative to the spread
  have hdist : ∀ (xt : Pt m) (h : ℝ), ((D.map fun d => xt + h • d).map fun x => (x - xt) ⬝ᵥ (x - xt)) = (D.map fun d => d ⬝ᵥ d).map fun r => h ^ 2 * r := by
    intro xt h
    rw [List.map_map, List.map_map]
    refine List.map_congr_left fun d _ => ?_
    simp only [Function.comp, add_sub_cancel_left, smul_dotProduct, dotProduct_smul, smul_eq_mul]
    ring
  obtain ⟨γ, hγ⟩ : ∃ γ : ℝ, ∀ (root : RootFn), RootSpec root → ∀ h > 0, 2 ≤ p → p < D.length → ∀ β,
      perpBandwidth root ((D.map fun d => d ⬝ᵥ d).map fun r => h ^ 2 * r) p = .ok β → β = γ / h ^ 2 := by
    by_cases hex : ∃ (root : RootFn) (_ : RootSpec root) (h : ℝ) (_ : 0 < h) (_ : 2 ≤ p) (_ : p < D.length) (β : ℝ),
        perpBandwidth root ((D.map fun d => d ⬝ᵥ d).map fun r => h ^ 2 * r) p = .ok β
    · obtain ⟨root₀, hr₀, h₀, hh₀, hp, hpM, β₀, hβ₀⟩ := hex
      refine ⟨β₀ * h₀ ^ 2, fun root hr h hh _ _ β hβ => ?_⟩
      have hpos := (perp_unique root hr _ p β hp (by simpa using hpM) hβ).1
      have h1 := perp_attained root hr _ p β hβ
      have h2 := (perp_unique root₀ hr₀ _ p β₀ hp (by simpa using hpM) hβ₀).2 (β * h ^ 2 / h₀ ^ 2) (by positivity) (by
        rw [logEntropy_scale _ _ (by positivity)] at h1 ⊢
        rw [← h1]
        congr 1
        field_simp)
      rw [← h2]
      field_simp
    · refine ⟨0, fun root hr h hh hp hpM β hβ => absurd ⟨root, hr, h, hh, hp, hpM, β, hβ⟩ hex⟩
  obtain ⟨C, hC, hrate⟩ := localFit_rate D hD γ
  refine ⟨C, hC, fun ls hls root hr f xt g K h hh hf A hA => ?_⟩
  obtain ⟨hp, hpM, β, hβ, h1⟩ := localLinear_minimizes_perplexity ls hls _ _ _ p none _ A hA 0 (by simp)
  simp only [Option.getD_some, List.getElem_cons_zero] at hβ h1
  rw [hdist] at hβ
  have hβγ := hγ root hr h hh hp (by simpa using hpM) β hβ
  rcases h1 with ⟨a, h1, h2⟩ | h1
  · refine Or.inl ⟨a, h1, hrate f xt g K h hh hf a fun c => ?_⟩
    have h3 := h2 c
    rw [zip_self, hβγ] at h3
    exact h3
  · exact Or.inr h1

/-- **The order is right**: for the square on the line and the samples `0` and `h`, the slope returned at `0` is `h`, for every bandwidth. -/
theorem localLinear_rate_sharp (ls : LstsqFn 1) (hls : LstsqSpec ls) (htot : ∀ rows, ls rows ≠ none) (pb : List ℝ → ℝ → Except Err ℝ) (b h : ℝ) (hh : 0 < h)
    (A : List (Pt 2)) (hA : localLinear ls pb [![0], ![h]] [0, h ^ 2] none (some (.val b)) (some [![0]]) = .ok A) : A[0]? = some ![0, h] := by
  have hspan : affineSpan ℝ {x : Pt 1 | x ∈ [![0], ![h]]} = ⊤ := by
    rw [eq_top_iff]
    intro x _
    have h0 : (![0] : Pt 1) ∈ affineSpan ℝ {x : Pt 1 | x ∈ [![0], ![h]]} := subset_affineSpan ℝ _ (by simp)
    have h1 : (![h] : Pt 1) ∈ affineSpan ℝ {x : Pt 1 | x ∈ [![0], ![h]]} := subset_affineSpan ℝ _ (by simp)
    have := AffineSubspace.smul_vsub_vadd_mem _ (x 0 / h) h1 h0 h0
    convert this using 1
    funext i
    obtain rfl : i = 0 := Subsingleton.elim _ _
    simp [hh.ne']
  have hvals : [0, h ^ 2] = ([![0], ![h]] : List (Pt 1)).map fun x => 0 + x ⬝ᵥ ![h] := by
    simp [dotProduct, sq]
  rw [hvals] at hA
  rcases localLinear_exact_partial ls hls pb _ hspan 0 ![h] none _ _ A hA 0 (by simp) with h1 | ⟨_, rows, h1⟩
  · rw [h1]; congr 1
  · exact absurd h1 (htot rows)

/-- **C161 where the code fails**: contracting the samples to a location does not give its gradient, for every scale below a tenth the call with the default
perplexity, two, raises, whatever the function and the solvers. -/
theorem localLinear_contract_false (ls : LstsqFn 1) (hls : LstsqSpec ls) (root : RootFn) (hr : RootSpec root) (h : ℝ) (hh : 0 < h) (hs : h ≤ 1 / 10)
    (fX : List ℝ) (A : List (Pt 2)) :
    localLinear ls (perpBandwidth root) [![0], ![h], ![Real.sqrt 2 * h], ![Real.sqrt 3 * h]] fX (some 2) none (some [![0]]) ≠ .ok A := by
  intro hA
  obtain ⟨_, _, β, hβ, _⟩ := localLinear_minimizes_perplexity ls hls _ _ _ 2 none _ A hA 0 (by simp)
  have h1 : ([![0], ![h], ![Real.sqrt 2 * h], ![Real.sqrt 3 * h]].map fun x : Pt 1 => (x - ![0]) ⬝ᵥ (x - ![0])) = dLin (h ^ 2) := by
    have h2 := Real.mul_self_sqrt (show (0 : ℝ) ≤ 2 by norm_num)
    have h3 := Real.mul_self_sqrt (show (0 : ℝ) ≤ 3 by norm_num)
    simp only [List.map_cons, List.map_nil, dotProduct, Fin.sum_univ_one, Pi.sub_apply, cons_val_zero, sub_zero, dLin]
    rw [show Real.sqrt 2 * h * (Real.sqrt 2 * h) = Real.sqrt 2 * Real.sqrt 2 * h ^ 2 by ring, h2,
      show Real.sqrt 3 * h * (Real.sqrt 3 * h) = Real.sqrt 3 * Real.sqrt 3 * h ^ 2 by ring, h3, mul_zero, sq]
  simp only [Option.getD_some, List.getElem_cons_zero] at hβ
  rw [h1, perp_scale_false root hr (h ^ 2) (by positivity) (by nlinarith)] at hβ
  cases hβ

/-! ## Symmetric samples -/

/-- The fit to samples symmetric about a location has the exact gradient if the odd part of the function about the location is linear at the samples. -/
theorem localFit_symmetric (X : List (Pt m)) (hX : affineSpan ℝ {x | x ∈ X} = ⊤) (xt g : Pt m) (hsym : (X.map fun x => xt + xt - x).Perm X)
    (f : Pt m → ℝ) (hf : ∀ x ∈ X, f x - f (xt + xt - x) = 2 * ((x - xt) ⬝ᵥ g)) (β : ℝ) (a : Pt (m + 1))
    (ha : ∀ c, localMisfit β (X.map fun x => (x, f x)) xt a ≤ localMisfit β (X.map fun x => (x, f x)) xt c) : Fin.tail a = g := by
  set r : Pt (m + 1) := Fin.cons (a 0 + (xt + xt) ⬝ᵥ Fin.tail a - 2 * (xt ⬝ᵥ g)) ((2 : ℝ) • g - Fin.tail a) with hr
  have hval : ∀ x, affVal r x = affVal a (xt + xt - x) + 2 * ((x - xt) ⬝ᵥ g) := fun x => by
    simp only [hr, affVal, Fin.cons_zero, Fin.tail_cons, sub_dotProduct, add_dotProduct, dotProduct_sub, dotProduct_smul, smul_eq_mul]
    ring
  have hmis : localMisfit β (X.map fun x => (x, f x)) xt r = localMisfit β (X.map fun x => (x, f x)) xt a := by
    unfold localMisfit
    rw [List.map_map, List.map_map]
    have h1 := (hsym.map fun x => Real.exp (-β * ((x - xt) ⬝ᵥ (x - xt))) * (affVal a x - f x) ^ 2).sum_eq
    have h2 : (X.map fun x => Real.exp (-β * ((x - xt) ⬝ᵥ (x - xt))) * (affVal a x - f x) ^ 2) =
        X.map ((fun p : Pt m × ℝ => Real.exp (-β * ((p.1 - xt) ⬝ᵥ (p.1 - xt))) * (a 0 + p.1 ⬝ᵥ Fin.tail a - p.2) ^ 2) ∘ fun x => (x, f x)) := rfl
    rw [← h2, ← h1, List.map_map]
    congr 1
    refine List.map_congr_left fun x hx => ?_
    simp only [Function.comp]
    have h3 : xt + xt - x - xt = -(x - xt) := by abel
    have h4 : r 0 + x ⬝ᵥ Fin.tail r - f x = affVal a (xt + xt - x) - f (xt + xt - x) := by
      change affVal r x - f x = _
      rw [hval]
      have := hf x hx
      linarith
    rw [h3, h4, neg_dotProduct, dotProduct_neg, neg_neg]
  have hp := localFit_pythagoras β _ xt a ha r
  rw [hmis, left_eq_add, List.map_map] at hp
  have hz : ∀ x ∈ X, affVal r x = affVal a x := by
    intro x hx
    have hnn : ∀ y ∈ X.map ((fun p : Pt m × ℝ => Real.exp (-β * ((p.1 - xt) ⬝ᵥ (p.1 - xt))) * (affVal r p.1 - affVal a p.1) ^ 2) ∘ fun x => (x, f x)), 0 ≤ y := by
      rw [List.forall_mem_map]
      exact fun p _ => mul_nonneg (Real.exp_pos _).le (sq_nonneg _)
    have h1 := List.single_le_sum hnn _ (List.mem_map_of_mem hx)
    rw [hp] at h1
    simp only [Function.comp] at h1
    have h2 : (affVal r x - affVal a x) ^ 2 ≤ 0 := by
      by_contra hc
      push Not at hc
      have := mul_pos (Real.exp_pos (-β * ((x - xt) ⬝ᵥ (x - xt)))) hc
      linarith
    have h3 : affVal r x - affVal a x = 0 := pow_eq_zero_iff two_ne_zero |>.1 (le_antisymm h2 (sq_nonneg _))
    linarith
  obtain ⟨_, h2⟩ := affine_zero _ hX (r 0 - a 0) (Fin.tail r - Fin.tail a) fun x hx => by
    have := hz x hx
    simp only [affVal] at this
    rw [dotProduct_sub]
    linarith
  have h3 : Fin.tail r = (2 : ℝ) • g - Fin.tail a := by rw [hr, Fin.tail_cons]
  rw [h3] at h2
  have h4 : (2 : ℝ) • (g - Fin.tail a) = 0 := by
    rw [← h2, smul_sub, two_smul ℝ (Fin.tail a)]
    abel
  rcases smul_eq_zero.1 h4 with h5 | h5
  · norm_num at h5
  · exact (sub_eq_zero.1 h5).symm

/-- **C161, symmetric samples**: quadratic functions, and all functions whose odd part about the location is linear, get their exact gradient, whatever the
bandwidth and the spread. -/
theorem localLinear_symmetric (ls : LstsqFn m) (hls : LstsqSpec ls) (pb : List ℝ → ℝ → Except Err ℝ) (X : List (Pt m)) (hX : affineSpan ℝ {x | x ∈ X} = ⊤)
    (xt g : Pt m) (hsym : (X.map fun x => xt + xt - x).Perm X) (f : Pt m → ℝ) (hf : ∀ x ∈ X, f x - f (xt + xt - x) = 2 * ((x - xt) ⬝ᵥ g))
    (b : ℝ) (A : List (Pt (m + 1))) (hA : localLinear ls pb X (X.map f) none (some (.val b)) (some [xt]) = .ok A) :
    (∃ a, A[0]? = some a ∧ Fin.tail a = g) ∨ (A[0]? = some 0 ∧ ∃ rows, ls rows = none) := by
  rcases localLinear_minimizes ls hls pb _ _ _ _ A hA 0 (by simp) with ⟨a, h1, h2⟩ | h1
  · refine Or.inl ⟨a, h1, localFit_symmetric X hX xt g hsym f hf (b / 2) a fun c => ?_⟩
    have h3 := h2 c
    rw [zip_self] at h3
    exact h3
  · exact Or.inr h1

/-- Quadratic functions have linear odd parts about every location. -/
theorem quadratic_odd (Q : Matrix (Fin m) (Fin m) ℝ) (c : ℝ) (g xt x : Pt m) :
    (c + (x - xt) ⬝ᵥ g + (x - xt) ⬝ᵥ (Q *ᵥ (x - xt))) - (c + ((xt + xt - x) - xt) ⬝ᵥ g + ((xt + xt - x) - xt) ⬝ᵥ (Q *ᵥ ((xt + xt - x) - xt))) =
      2 * ((x - xt) ⬝ᵥ g) := by
  have h3 : xt + xt - x - xt = -(x - xt) := by abel
  rw [h3, mulVec_neg, neg_dotProduct, neg_dotProduct, dotProduct_neg, neg_neg]
  ring

/-! ## Examples -/

/-- The square is curved by two about every point of the line. -/
example (xt : ℝ) (X : List (Pt 1)) : CurvedBy (fun x : Pt 1 => x 0 ^ 2) ![xt] ![2 * xt] 2 X := by
  intro x _
  simp only [dotProduct, Fin.sum_univ_one, Pi.sub_apply, cons_val_zero]
  rw [show x 0 ^ 2 - xt ^ 2 - (x 0 - xt) * (2 * xt) = (x 0 - xt) ^ 2 by ring, abs_of_nonneg (sq_nonneg _)]
  linarith [sq (x 0 - xt)]

/-- Samples symmetric about zero. -/
example : (([![-1], ![1]] : List (Pt 1)).map fun x => 0 + 0 - x).Perm [![-1], ![1]] := by
  have : (([![-1], ![1]] : List (Pt 1)).map fun x => 0 + 0 - x) = [![1], ![-1]] := by simp
  rw [this]
  exact List.Perm.swap _ _ _

end Verif.Misc
