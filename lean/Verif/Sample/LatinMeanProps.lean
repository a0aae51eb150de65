import Verif.Sample.LatinProps
import Mathlib.MeasureTheory.Integral.Pi
import Mathlib.MeasureTheory.Integral.IntervalIntegral.Basic
import Mathlib.Analysis.SpecialFunctions.Integrals.Basic
import Mathlib.Probability.ConditionalProbability
import Mathlib.MeasureTheory.Measure.Lebesgue.Basic

/-!
# Means over Latin hypercube designs (C157)
-/

namespace Verif.Samp

open Verif Verif.Domain MeasureTheory Set

variable {m N : ℕ}

/-! ## Specification -/

/-- The mean of a function over the points of a design. -/
noncomputable def designMean (X : Fin N → Lip.Pt m) (f : Lip.Pt m → ℝ) : ℝ := (∑ p, f (X p)) / N

/-- The mean of a function over a box. -/
noncomputable def boxMean (lb ub : Fin m → ℝ) (f : Lip.Pt m → ℝ) : ℝ := ∫ x, f x ∂(ProbabilityTheory.cond volume (Icc lb ub))

/-- The midpoint rule with `N` points. -/
noncomputable def midpointRule (a b : ℝ) (N : ℕ) (g : ℝ → ℝ) : ℝ := (∑ k ∈ Finset.range N, g (a + (k + 1 / 2) * ((b - a) / N))) / N

/-! ## One coordinate -/

theorem midAt_eq (a b : ℝ) (N k : ℕ) : midAt a b N k = a + (k + 1 / 2) * ((b - a) / N) := by
  unfold midAt linspaceAt
  push_cast
  ring

theorem latinPoints_mean (lb ub : Fin m → ℝ) {π : Fin m → Fin N → Fin N} (hπ : ∀ i, Function.Bijective (π i)) (g : Fin m → ℝ → ℝ) :
    designMean (latinPoints lb ub π) (fun x => ∑ i, g i (x i)) = ∑ i, midpointRule (lb i) (ub i) N (g i) := by
  unfold designMean midpointRule
  rw [Finset.sum_comm, Finset.sum_div]
  refine Finset.sum_congr rfl fun i _ => ?_
  congr 1
  rw [← Fin.sum_univ_eq_sum_range (fun k => g i (lb i + (k + 1 / 2) * ((ub i - lb i) / N)))]
  refine Fintype.sum_bijective (π i) (hπ i) _ _ fun p => ?_
  simp only [latinPoints, midAt_eq]

/-- **C157**: the mean of a sum of functions of one coordinate each does not depend on the permutations: it is the sum of the midpoint rules. -/
theorem latinBox_additive (lb ub : Fin m → ℝ) (draw : Fin m → Equiv.Perm (Fin N)) (g : Fin m → ℝ → ℝ) :
    designMean (latinBox lb ub draw) (fun x => ∑ i, g i (x i)) = ∑ i, midpointRule (lb i) (ub i) N (g i) :=
  latinPoints_mean lb ub (fun i => (draw i).bijective) g

/-- The same for the design improved by `latin_hypercube_maximin`. -/
theorem latinMaximin_additive (lb ub : Fin m → ℝ) (init : Fin m → Equiv.Perm (Fin N)) (draws : List (LatinDraw m N)) {X : Fin N → Lip.Pt m}
    (h : latinMaximin lb ub init draws = some X) (g : Fin m → ℝ → ℝ) :
    designMean X (fun x => ∑ i, g i (x i)) = ∑ i, midpointRule (lb i) (ub i) N (g i) := by
  have hinv := latin_fold_inv lb ub draws _ (latin_init_inv lb ub init)
  rw [(hinv.2.1 X h).1]
  exact latinPoints_mean lb ub hinv.1 g

/-! ## The mean over the box -/

theorem cond_pi {lb ub : Fin m → ℝ} (h : ∀ i, lb i < ub i) :
    ProbabilityTheory.cond (volume : Measure (Fin m → ℝ)) (Icc lb ub) = Measure.pi fun i => ProbabilityTheory.cond (volume : Measure ℝ) (Icc (lb i) (ub i)) := by
  have hne : ∀ i, (volume : Measure ℝ) (Icc (lb i) (ub i)) ≠ 0 := fun i => by
    rw [Real.volume_Icc]; simpa using h i
  haveI : ∀ i, IsProbabilityMeasure (ProbabilityTheory.cond (volume : Measure ℝ) (Icc (lb i) (ub i))) := fun i =>
    ProbabilityTheory.cond_isProbabilityMeasure_of_finite (hne i) (by rw [Real.volume_Icc]; exact ENNReal.ofReal_ne_top)
  refine (Measure.pi_eq fun s hs => ?_).symm
  rw [ProbabilityTheory.cond_apply measurableSet_Icc]
  have e : Icc lb ub ∩ Set.univ.pi s = Set.univ.pi fun i => Icc (lb i) (ub i) ∩ s i := by
    rw [← Set.pi_univ_Icc, ← Set.pi_inter_distrib]
  rw [e, volume_pi_pi, ← Set.pi_univ_Icc, volume_pi_pi]
  rw [Finset.prod_congr rfl fun i _ => ProbabilityTheory.cond_apply measurableSet_Icc _ (s i), Finset.prod_mul_distrib]
  congr 1
  rw [ENNReal.prod_inv_distrib]
  intro i _ j _ _
  exact Or.inl (hne i)

theorem cond_mean {a b : ℝ} (h : a < b) (g : ℝ → ℝ) : ∫ x, g x ∂(ProbabilityTheory.cond volume (Icc a b)) = (∫ x in a..b, g x) / (b - a) := by
  rw [ProbabilityTheory.cond, integral_smul_measure, Real.volume_Icc, intervalIntegral.integral_of_le h.le, integral_Icc_eq_integral_Ioc, ENNReal.toReal_inv, ENNReal.toReal_ofReal (by linarith),
    smul_eq_mul]
  ring

theorem boxMean_additive {lb ub : Fin m → ℝ} (h : ∀ i, lb i < ub i) {g : Fin m → ℝ → ℝ} (hg : ∀ i, ContinuousOn (g i) (Icc (lb i) (ub i))) :
    boxMean lb ub (fun x => ∑ i, g i (x i)) = ∑ i, (∫ x in (lb i)..(ub i), g i x) / (ub i - lb i) := by
  have hne : ∀ i, (volume : Measure ℝ) (Icc (lb i) (ub i)) ≠ 0 := fun i => by
    rw [Real.volume_Icc]; simpa using h i
  haveI : ∀ i, IsProbabilityMeasure (ProbabilityTheory.cond (volume : Measure ℝ) (Icc (lb i) (ub i))) := fun i =>
    ProbabilityTheory.cond_isProbabilityMeasure_of_finite (hne i) (by rw [Real.volume_Icc]; exact ENNReal.ofReal_ne_top)
  have hint : ∀ i, Integrable (g i) (ProbabilityTheory.cond (volume : Measure ℝ) (Icc (lb i) (ub i))) := fun i =>
    ((hg i).integrableOn_Icc).smul_measure (by simpa using h i)
  unfold boxMean
  rw [cond_pi h, integral_finset_sum]
  · refine Finset.sum_congr rfl fun i _ => ?_
    rw [← cond_mean (h i)]
    exact integral_comp_eval (μ := fun i => ProbabilityTheory.cond (volume : Measure ℝ) (Icc (lb i) (ub i))) (i := i) (f := g i) (hint i).aestronglyMeasurable
  · intro i _
    exact ((measurePreserving_eval (fun i => ProbabilityTheory.cond (volume : Measure ℝ) (Icc (lb i) (ub i))) i).integrable_comp (hint i).aestronglyMeasurable).2 (hint i)

theorem lip_continuousOn {a b ℓ : ℝ} {g : ℝ → ℝ} (hg : ∀ x ∈ Icc a b, ∀ y ∈ Icc a b, |g x - g y| ≤ ℓ * |x - y|) : ContinuousOn g (Icc a b) := by
  refine LipschitzOnWith.continuousOn (K := ℓ.toNNReal) (LipschitzOnWith.of_dist_le_mul fun x hx y hy => ?_)
  rw [Real.dist_eq, Real.dist_eq]
  exact (hg x hx y hy).trans (mul_le_mul_of_nonneg_right (Real.le_coe_toNNReal ℓ) (abs_nonneg _))

theorem integral_abs_sym {r : ℝ} (hr : 0 ≤ r) : ∫ x in (-r)..r, |x| = r ^ 2 := by
  have hc : ∀ u v : ℝ, IntervalIntegrable (fun x : ℝ => |x|) volume u v := fun u v => continuous_abs.intervalIntegrable u v
  rw [← intervalIntegral.integral_add_adjacent_intervals (hc (-r) 0) (hc 0 r)]
  have e1 : ∫ x in (-r)..0, |x| = ∫ x in (-r)..0, -x := by
    refine intervalIntegral.integral_congr fun x hx => ?_
    rw [uIcc_of_le (by linarith)] at hx
    exact abs_of_nonpos hx.2
  have e2 : ∫ x in (0 : ℝ)..r, |x| = ∫ x in (0 : ℝ)..r, x := by
    refine intervalIntegral.integral_congr fun x hx => ?_
    rw [uIcc_of_le hr] at hx
    exact abs_of_nonneg hx.1
  rw [e1, e2, intervalIntegral.integral_neg, integral_id, integral_id]
  ring

theorem cell_error {c r ℓ : ℝ} (hr : 0 ≤ r) {g : ℝ → ℝ} (hc : ContinuousOn g (Icc (c - r) (c + r))) (hg : ∀ x ∈ Icc (c - r) (c + r), |g c - g x| ≤ ℓ * |x - c|) :
    |2 * r * g c - ∫ x in (c - r)..(c + r), g x| ≤ ℓ * r ^ 2 := by
  have hle : c - r ≤ c + r := by linarith
  have hgi : IntervalIntegrable g volume (c - r) (c + r) := hc.intervalIntegrable_of_Icc hle
  have e : 2 * r * g c - ∫ x in (c - r)..(c + r), g x = ∫ x in (c - r)..(c + r), (g c - g x) := by
    rw [intervalIntegral.integral_sub intervalIntegrable_const hgi, intervalIntegral.integral_const, smul_eq_mul]
    ring
  rw [e]
  have hi2 : IntervalIntegrable (fun x => ℓ * |x - c|) volume (c - r) (c + r) := (by fun_prop : Continuous fun x : ℝ => ℓ * |x - c|).intervalIntegrable _ _
  have hb : |∫ x in (c - r)..(c + r), (g c - g x)| ≤ ∫ x in (c - r)..(c + r), ℓ * |x - c| := by
    refine (intervalIntegral.abs_integral_le_integral_abs hle).trans ?_
    refine intervalIntegral.integral_mono_on hle (intervalIntegrable_const.sub hgi).abs hi2 fun x hx => hg x hx
  refine hb.trans (le_of_eq ?_)
  rw [intervalIntegral.integral_const_mul, intervalIntegral.integral_comp_sub_right (fun x => |x|)]
  rw [show c - r - c = -r by ring, show c + r - c = r by ring, integral_abs_sym hr]

/-- Error of the midpoint rule for Lipschitz functions. -/
theorem midpoint_error {a b ℓ : ℝ} (h : a < b) (hN : 0 < N) {g : ℝ → ℝ} (hg : ∀ x ∈ Icc a b, ∀ y ∈ Icc a b, |g x - g y| ≤ ℓ * |x - y|) :
    |midpointRule a b N g - (∫ x in a..b, g x) / (b - a)| ≤ ℓ * (b - a) / (4 * N) := by
  have hN0 : (0 : ℝ) < N := by exact_mod_cast hN
  have hb : 0 < b - a := by linarith
  have hcont := lip_continuousOn hg
  set H := (b - a) / N with hH
  have hH0 : 0 < H := div_pos hb hN0
  have hHN : H * N = b - a := by rw [hH]; field_simp
  let p : ℕ → ℝ := fun k => a + k * H
  have hp : ∀ k ≤ N, a ≤ p k ∧ p k ≤ b := by
    intro k hk
    have hk' : (k : ℝ) ≤ N := by exact_mod_cast hk
    have hk0 : (0 : ℝ) ≤ k := Nat.cast_nonneg k
    constructor
    · change a ≤ a + k * H
      nlinarith
    · change a + k * H ≤ b
      nlinarith
  have hsub : ∀ k < N, Icc (p k) (p (k + 1)) ⊆ Icc a b := fun k hk => Icc_subset_Icc (hp k hk.le).1 (hp (k + 1) hk).2
  have hpk : ∀ k, p (k + 1) = p k + H := fun k => by simp only [p]; push_cast; ring
  have hint : ∀ k < N, IntervalIntegrable g volume (p k) (p (k + 1)) := fun k hk =>
    (hcont.mono (hsub k hk)).intervalIntegrable_of_Icc (by rw [hpk]; linarith)
  have hsum := intervalIntegral.sum_integral_adjacent_intervals (μ := volume) hint
  have h0 : p 0 = a := by simp [p]
  have hNb : p N = b := by simp only [p]; linarith
  rw [h0, hNb] at hsum
  have hcell : ∀ k ∈ Finset.range N, |H * g (a + (k + 1 / 2) * H) - ∫ x in (p k)..(p (k + 1)), g x| ≤ ℓ * (H / 2) ^ 2 := by
    intro k hk
    have hk' := Finset.mem_range.1 hk
    have e1 : p k = a + (k + 1 / 2) * H - H / 2 := by simp only [p]; ring
    have e2 : p (k + 1) = a + (k + 1 / 2) * H + H / 2 := by rw [hpk]; simp only [p]; ring
    have hs := hsub k hk'
    rw [e1, e2] at hs ⊢
    have hmid : a + ((k : ℝ) + 1 / 2) * H ∈ Icc (a + ((k : ℝ) + 1 / 2) * H - H / 2) (a + ((k : ℝ) + 1 / 2) * H + H / 2) := ⟨by linarith, by linarith⟩
    have := cell_error (c := a + ((k : ℝ) + 1 / 2) * H) (r := H / 2) (ℓ := ℓ) (by linarith) (hcont.mono hs) (fun x hx => by
      rw [abs_sub_comm x]; exact hg _ (hs hmid) _ (hs hx))
    rwa [show 2 * (H / 2) = H by ring] at this
  have key : midpointRule a b N g - (∫ x in a..b, g x) / (b - a) = (∑ k ∈ Finset.range N, (H * g (a + (k + 1 / 2) * H) - ∫ x in (p k)..(p (k + 1)), g x)) / (b - a) := by
    rw [Finset.sum_sub_distrib, hsum, ← Finset.mul_sum, sub_div]
    congr 1
    unfold midpointRule
    rw [← hH]
    set S := ∑ k ∈ Finset.range N, g (a + (k + 1 / 2) * H)
    rw [div_eq_div_iff hN0.ne' hb.ne', ← hHN]
    ring
  rw [key, abs_div, abs_of_pos hb, div_le_iff₀ hb]
  refine (Finset.abs_sum_le_sum_abs _ _).trans ((Finset.sum_le_sum hcell).trans (le_of_eq ?_))
  rw [Finset.sum_const, Finset.card_range, nsmul_eq_mul, hH]
  field_simp
  ring

/-- **C157**: error of the mean of a sum of Lipschitz functions of one coordinate each, for every draw. -/
theorem latinBox_error {lb ub ℓ : Fin m → ℝ} (h : ∀ i, lb i < ub i) (hN : 0 < N) (draw : Fin m → Equiv.Perm (Fin N)) {g : Fin m → ℝ → ℝ}
    (hg : ∀ i, ∀ x ∈ Icc (lb i) (ub i), ∀ y ∈ Icc (lb i) (ub i), |g i x - g i y| ≤ ℓ i * |x - y|) :
    |designMean (latinBox lb ub draw) (fun x => ∑ i, g i (x i)) - boxMean lb ub (fun x => ∑ i, g i (x i))| ≤ ∑ i, ℓ i * (ub i - lb i) / (4 * N) := by
  rw [latinBox_additive, boxMean_additive h fun i => lip_continuousOn (hg i), ← Finset.sum_sub_distrib]
  exact (Finset.abs_sum_le_sum_abs _ _).trans (Finset.sum_le_sum fun i _ => midpoint_error (h i) hN (hg i))

/-- The same for the design improved by `latin_hypercube_maximin`. -/
theorem latinMaximin_error {lb ub ℓ : Fin m → ℝ} (h : ∀ i, lb i < ub i) (hN : 0 < N) (init : Fin m → Equiv.Perm (Fin N)) (draws : List (LatinDraw m N)) {X : Fin N → Lip.Pt m}
    (hX : latinMaximin lb ub init draws = some X) {g : Fin m → ℝ → ℝ}
    (hg : ∀ i, ∀ x ∈ Icc (lb i) (ub i), ∀ y ∈ Icc (lb i) (ub i), |g i x - g i y| ≤ ℓ i * |x - y|) :
    |designMean X (fun x => ∑ i, g i (x i)) - boxMean lb ub (fun x => ∑ i, g i (x i))| ≤ ∑ i, ℓ i * (ub i - lb i) / (4 * N) := by
  rw [latinMaximin_additive lb ub init draws hX, boxMean_additive h fun i => lip_continuousOn (hg i), ← Finset.sum_sub_distrib]
  exact (Finset.abs_sum_le_sum_abs _ _).trans (Finset.sum_le_sum fun i _ => midpoint_error (h i) hN (hg i))

theorem range_half_sum (N : ℕ) : ∑ k ∈ Finset.range N, ((k : ℝ) + 1 / 2) = (N : ℝ) ^ 2 / 2 := by
  induction N with
  | zero => simp
  | succ N ih => rw [Finset.sum_range_succ, ih]; push_cast; ring

/-- The midpoint rule is exact for linear functions. -/
theorem midpoint_linear (a b w : ℝ) (hN : 0 < N) : midpointRule a b N (fun x => w * x) = w * ((a + b) / 2) := by
  have hN0 : (N : ℝ) ≠ 0 := by exact_mod_cast hN.ne'
  unfold midpointRule
  have : ∀ k : ℕ, w * (a + ((k : ℝ) + 1 / 2) * ((b - a) / N)) = w * a + w * ((b - a) / N) * ((k : ℝ) + 1 / 2) := fun k => by ring
  simp only [this]
  rw [Finset.sum_add_distrib, Finset.sum_const, Finset.card_range, ← Finset.mul_sum, range_half_sum, nsmul_eq_mul]
  field_simp
  ring

/-- **C157**: the points of every Latin hypercube design average to the center of the box, so means of linear functions are exact. -/
theorem latinBox_center (lb ub : Fin m → ℝ) (hN : 0 < N) (draw : Fin m → Equiv.Perm (Fin N)) (w : Fin m → ℝ) :
    designMean (latinBox lb ub draw) (fun x => ∑ i, w i * x i) = ∑ i, w i * ((lb i + ub i) / 2) := by
  rw [latinBox_additive lb ub draw fun i x => w i * x]
  exact Finset.sum_congr rfl fun i _ => midpoint_linear _ _ _ hN

/-- The same for the design improved by `latin_hypercube_maximin`. -/
theorem latinMaximin_center (lb ub : Fin m → ℝ) (hN : 0 < N) (init : Fin m → Equiv.Perm (Fin N)) (draws : List (LatinDraw m N)) {X : Fin N → Lip.Pt m}
    (hX : latinMaximin lb ub init draws = some X) (w : Fin m → ℝ) : designMean X (fun x => ∑ i, w i * x i) = ∑ i, w i * ((lb i + ub i) / 2) := by
  rw [latinMaximin_additive lb ub init draws hX fun i x => w i * x]
  exact Finset.sum_congr rfl fun i _ => midpoint_linear _ _ _ hN

/-- And that is the mean over the box. -/
theorem boxMean_linear {lb ub : Fin m → ℝ} (h : ∀ i, lb i < ub i) (w : Fin m → ℝ) : boxMean lb ub (fun x => ∑ i, w i * x i) = ∑ i, w i * ((lb i + ub i) / 2) := by
  rw [boxMean_additive h (g := fun i x => w i * x) fun i => by fun_prop]
  refine Finset.sum_congr rfl fun i _ => ?_
  have hne : ub i - lb i ≠ 0 := by linarith [h i]
  rw [intervalIntegral.integral_const_mul, integral_id]
  field_simp
  ring

/-! ## Random permutations -/

/-- The point of the grid of midpoints with the given indices. -/
noncomputable def gridPoint (lb ub : Fin m → ℝ) (N : ℕ) (k : Fin m → Fin N) : Lip.Pt m := fun i => lb i + ((k i : ℕ) + 1 / 2) * ((ub i - lb i) / N)

theorem perm_fibre (p q : Fin N) : (Finset.univ.filter fun σ : Equiv.Perm (Fin N) => σ p = q).card * N = N.factorial := by
  have hc : ∀ q', (Finset.univ.filter fun σ : Equiv.Perm (Fin N) => σ p = q').card = (Finset.univ.filter fun σ : Equiv.Perm (Fin N) => σ p = q).card := by
    intro q'
    refine Finset.card_bij (fun σ _ => Equiv.swap q' q * σ) ?_ ?_ ?_
    · intro σ hσ
      rw [Finset.mem_filter] at hσ ⊢
      exact ⟨Finset.mem_univ _, by rw [Equiv.Perm.mul_apply, hσ.2, Equiv.swap_apply_left]⟩
    · intro σ _ τ _ he
      exact mul_left_cancel he
    · intro τ hτ
      rw [Finset.mem_filter] at hτ
      refine ⟨Equiv.swap q' q * τ, ?_, ?_⟩
      · rw [Finset.mem_filter]
        exact ⟨Finset.mem_univ _, by rw [Equiv.Perm.mul_apply, hτ.2, Equiv.swap_apply_right]⟩
      · rw [← mul_assoc, Equiv.swap_mul_self, one_mul]
  have hs := Finset.card_eq_sum_card_fiberwise (s := (Finset.univ : Finset (Equiv.Perm (Fin N)))) (t := Finset.univ) (f := fun σ => σ p) (fun _ _ => Finset.mem_univ _)
  rw [Finset.sum_congr rfl fun q' _ => hc q', Finset.sum_const, Finset.card_univ, Finset.card_univ, Fintype.card_perm, Fintype.card_fin, smul_eq_mul] at hs
  rw [hs, mul_comm]

/-- **C157**: over random permutations every single point of the design is uniformly distributed over the grid of midpoints. -/
theorem latinBox_marginal (lb ub : Fin m → ℝ) (hN : 0 < N) (p : Fin N) (f : Lip.Pt m → ℝ) :
    (∑ draw : Fin m → Equiv.Perm (Fin N), f (latinBox lb ub draw p)) / (N.factorial : ℝ) ^ m = (∑ k : Fin m → Fin N, f (gridPoint lb ub N k)) / (N : ℝ) ^ m := by
  classical
  have hN0 : (N : ℝ) ≠ 0 := by exact_mod_cast hN.ne'
  have hpt : ∀ draw : Fin m → Equiv.Perm (Fin N), latinBox lb ub draw p = gridPoint lb ub N fun i => draw i p := by
    intro draw
    funext i
    simp only [latinBox, latinPoints, midAt_eq, gridPoint]
  have hfib : ∀ k : Fin m → Fin N, ((Finset.univ.filter fun draw : Fin m → Equiv.Perm (Fin N) => (fun i => draw i p) = k).card : ℝ) * (N : ℝ) ^ m = (N.factorial : ℝ) ^ m := by
    intro k
    have e : (Finset.univ.filter fun draw : Fin m → Equiv.Perm (Fin N) => (fun i => draw i p) = k) =
        Fintype.piFinset fun i => Finset.univ.filter fun σ : Equiv.Perm (Fin N) => σ p = k i := by
      ext draw
      simp [Fintype.mem_piFinset, funext_iff]
    rw [e, Fintype.card_piFinset]
    push_cast
    have hN' : (N : ℝ) ^ m = ∏ _i : Fin m, (N : ℝ) := by simp
    have hF : (N.factorial : ℝ) ^ m = ∏ _i : Fin m, (N.factorial : ℝ) := by simp
    rw [hN', hF, ← Finset.prod_mul_distrib]
    refine Finset.prod_congr rfl fun i _ => ?_
    exact_mod_cast perm_fibre p (k i)
  have hF0 : (N.factorial : ℝ) ^ m ≠ 0 := pow_ne_zero _ (by exact_mod_cast N.factorial_ne_zero)
  have hN0' : (N : ℝ) ^ m ≠ 0 := pow_ne_zero _ hN0
  simp only [hpt]
  rw [← Finset.sum_fiberwise Finset.univ (fun draw : Fin m → Equiv.Perm (Fin N) => fun i => draw i p), div_eq_div_iff hF0 hN0', Finset.sum_mul, Finset.sum_mul]
  refine Finset.sum_congr rfl fun k _ => ?_
  rw [Finset.sum_congr rfl (g := fun _ => f (gridPoint lb ub N k)) fun draw hd => by rw [(Finset.mem_filter.1 hd).2], Finset.sum_const, nsmul_eq_mul, ← hfib k]
  ring

/-- **C157**: the expected mean over the design is the mean over the whole grid of midpoints. -/
theorem latinBox_expected (lb ub : Fin m → ℝ) (hN : 0 < N) (f : Lip.Pt m → ℝ) :
    (∑ draw : Fin m → Equiv.Perm (Fin N), designMean (latinBox lb ub draw) f) / (N.factorial : ℝ) ^ m = (∑ k : Fin m → Fin N, f (gridPoint lb ub N k)) / (N : ℝ) ^ m := by
  have hN0 : (N : ℝ) ≠ 0 := by exact_mod_cast hN.ne'
  unfold designMean
  rw [← Finset.sum_div, Finset.sum_comm, div_right_comm, Finset.sum_div]
  rw [Finset.sum_congr rfl fun p _ => latinBox_marginal lb ub hN p f, Finset.sum_const, Finset.card_univ, Fintype.card_fin, nsmul_eq_mul]
  field_simp

/-! ## Not unbiased -/

theorem odd_squares (N : ℕ) : ∑ k ∈ Finset.range N, ((k : ℝ) + 1 / 2) ^ 2 = (N : ℝ) * (4 * N ^ 2 - 1) / 12 := by
  induction N with
  | zero => simp
  | succ N ih => rw [Finset.sum_range_succ, ih]; push_cast; ring

/-- **C157 fails as stated**: the mean of `x²` over every Latin hypercube design on `[0, 1]` is smaller than the mean over the interval, so it is not an unbiased
estimate. -/
theorem latin_unbiased_false (hN : 0 < N) (draw : Fin 1 → Equiv.Perm (Fin N)) :
    designMean (latinBox (fun _ => 0) (fun _ => 1) draw) (fun x => x 0 ^ 2) = 1 / 3 - 1 / (12 * (N : ℝ) ^ 2) ∧ boxMean (fun _ : Fin 1 => 0) (fun _ => 1) (fun x => x 0 ^ 2) = 1 / 3 := by
  have hN0 : (N : ℝ) ≠ 0 := by exact_mod_cast hN.ne'
  constructor
  · have h := latinBox_additive (fun _ : Fin 1 => (0 : ℝ)) (fun _ => 1) draw (fun _ x => x ^ 2)
    simp only [Fin.sum_univ_one] at h
    rw [h]
    unfold midpointRule
    have : ∀ k : ℕ, ((0 : ℝ) + ((k : ℝ) + 1 / 2) * ((1 - 0) / N)) ^ 2 = ((k : ℝ) + 1 / 2) ^ 2 * (1 / (N : ℝ) ^ 2) := fun k => by field_simp; ring
    simp only [this]
    rw [← Finset.sum_mul, odd_squares]
    field_simp
    ring
  · have h := boxMean_additive (lb := fun _ : Fin 1 => (0 : ℝ)) (ub := fun _ => 1) (fun _ => one_pos) (g := fun _ x => x ^ 2) (fun _ => by fun_prop)
    simp only [Fin.sum_univ_one] at h
    rw [h, integral_pow]
    norm_num

/-- The hypotheses of `latinBox_error` hold for `|x₀| + 2 x₁` on `[-1, 1] × [0, 3]`. -/
example : (∀ i, (![-1, 0] : Fin 2 → ℝ) i < (![1, 3] : Fin 2 → ℝ) i) ∧ ∀ i, ∀ x ∈ Icc ((![-1, 0] : Fin 2 → ℝ) i) ((![1, 3] : Fin 2 → ℝ) i), ∀ y ∈ Icc ((![-1, 0] : Fin 2 → ℝ) i) ((![1, 3] : Fin 2 → ℝ) i),
    |(![fun x => |x|, fun x => 2 * x] : Fin 2 → ℝ → ℝ) i x - (![fun x => |x|, fun x => 2 * x] : Fin 2 → ℝ → ℝ) i y| ≤ (![1, 2] : Fin 2 → ℝ) i * |x - y| := by
  constructor
  · intro i; fin_cases i <;> norm_num
  · intro i x _ y _
    fin_cases i
    · simpa using abs_abs_sub_abs_le x y
    · simp [← mul_sub, abs_mul]

end Verif.Samp
