import Verif.Misc.GaussProps
import Mathlib.Topology.ContinuousMap.Weierstrass
import Mathlib.MeasureTheory.Integral.IntervalIntegral.Basic
import Mathlib.MeasureTheory.Integral.DominatedConvergence

/-!
# Points, weights and convergence of the Gauss-Legendre rule

Source: `/repo/psdr/quadrature.py` 7-48. Consequences of exactness: the points are distinct, lie strictly between the end
points, all weights are positive, and the rule converges for every continuous function.
-/

namespace Verif.Misc

open Verif.Lip Matrix Polynomial Filter Topology

variable {n : ℕ}

/-- For every point, a polynomial that vanishes at all other points and has the sign of `s` between the end points. -/
theorem gauss_probe (a b : ℝ) (hab : a < b) (eigh : EighFn (n + 1)) (he : EighSpec eigh) (k : Fin (n + 1)) (l : ℝ[X])
    (hl : l.natDegree ≤ 1) (hpos : ∀ t ∈ Set.Ioo a b, 0 < l.eval t) (hb : 0 ≤ l.eval b) :
    0 < (gauss n a b eigh).2 k * (l.eval ((gauss n a b eigh).1 k) *
      ∏ j ∈ Finset.univ.erase k, ((gauss n a b eigh).1 k - (gauss n a b eigh).1 j) ^ 2) := by
  set x := (gauss n a b eigh).1 with hx
  set w := (gauss n a b eigh).2 with hw
  set p : ℝ[X] := l * ∏ j ∈ Finset.univ.erase k, (X - C (x j)) ^ 2 with hp
  have hev : ∀ t, p.eval t = l.eval t * ∏ j ∈ Finset.univ.erase k, (t - x j) ^ 2 := by
    intro t
    rw [hp, eval_mul, eval_prod]
    simp
  have hdeg : p.natDegree ≤ 2 * (n + 1) - 1 := by
    have h1 : (∏ j ∈ Finset.univ.erase k, (X - C (x j)) ^ 2).natDegree ≤ ∑ j ∈ Finset.univ.erase k, 2 := by
      refine (natDegree_prod_le _ _).trans (Finset.sum_le_sum fun j _ => ?_)
      refine natDegree_pow_le.trans ?_
      rw [natDegree_X_sub_C]
    have h2 : ∑ j ∈ Finset.univ.erase k, 2 = n * 2 := by
      rw [Finset.sum_const, Finset.card_erase_of_mem (Finset.mem_univ k)]
      simp
    have h3 := natDegree_mul_le (p := l) (q := ∏ j ∈ Finset.univ.erase k, (X - C (x j)) ^ 2)
    rw [← hp] at h3
    omega
  have hex := gauss_exact a b eigh he p hdeg
  rw [Finset.sum_eq_single k] at hex
  · rw [← hev (x k), hex]
    refine intervalIntegral.integral_pos hab p.continuous.continuousOn ?_ ?_
    · intro t ht
      rw [hev]
      refine mul_nonneg ?_ (Finset.prod_nonneg fun j _ => sq_nonneg _)
      rcases eq_or_lt_of_le ht.2 with h | h
      · rw [h]; exact hb
      · exact (hpos t ⟨ht.1, h⟩).le
    · obtain ⟨c, hc, hcx⟩ := ((Set.Ioo_infinite hab).diff (Set.finite_range x)).nonempty
      refine ⟨c, Set.Ioo_subset_Icc_self hc, ?_⟩
      rw [hev]
      refine mul_pos (hpos c hc) (Finset.prod_pos fun j _ => ?_)
      have : c - x j ≠ 0 := fun h => hcx ⟨j, (sub_eq_zero.1 h).symm⟩
      positivity
  · intro j _ hj
    rw [hev, Finset.prod_eq_zero (Finset.mem_erase.2 ⟨hj, Finset.mem_univ j⟩) (by simp [hx])]
    simp
  · simp

theorem gauss_probe_left (a b : ℝ) (hab : a < b) (eigh : EighFn (n + 1)) (he : EighSpec eigh) (k : Fin (n + 1)) :
    0 < (gauss n a b eigh).2 k * (((gauss n a b eigh).1 k - a) *
      ∏ j ∈ Finset.univ.erase k, ((gauss n a b eigh).1 k - (gauss n a b eigh).1 j) ^ 2) := by
  have h := gauss_probe a b hab eigh he k (X - C a) (by rw [natDegree_X_sub_C])
    (fun t ht => by simpa using ht.1) (by simpa using hab.le)
  simpa using h

theorem gauss_probe_right (a b : ℝ) (hab : a < b) (eigh : EighFn (n + 1)) (he : EighSpec eigh) (k : Fin (n + 1)) :
    0 < (gauss n a b eigh).2 k * ((b - (gauss n a b eigh).1 k) *
      ∏ j ∈ Finset.univ.erase k, ((gauss n a b eigh).1 k - (gauss n a b eigh).1 j) ^ 2) := by
  have h := gauss_probe a b hab eigh he k (C b - X) (by rw [← natDegree_neg, neg_sub, natDegree_X_sub_C])
    (fun t ht => by simpa using ht.2) (by simp)
  simpa using h

/-- **C63**: all weights are positive. -/
theorem gauss_weight_pos (a b : ℝ) (hab : a < b) (eigh : EighFn (n + 1)) (he : EighSpec eigh) (k : Fin (n + 1)) :
    0 < (gauss n a b eigh).2 k := by
  have h := gauss_probe_left a b hab eigh he k
  rcases (gauss_nonneg a b hab.le eigh k).lt_or_eq with h0 | h0
  · exact h0
  · rw [← h0, zero_mul] at h
    exact absurd h (lt_irrefl _)

/-- **C63**: all points lie strictly between the end points. -/
theorem gauss_interior (a b : ℝ) (hab : a < b) (eigh : EighFn (n + 1)) (he : EighSpec eigh) (k : Fin (n + 1)) :
    (gauss n a b eigh).1 k ∈ Set.Ioo a b := by
  have hw := gauss_weight_pos a b hab eigh he k
  have hp : 0 ≤ ∏ j ∈ Finset.univ.erase k, ((gauss n a b eigh).1 k - (gauss n a b eigh).1 j) ^ 2 :=
    Finset.prod_nonneg fun j _ => sq_nonneg _
  have h1 := pos_of_mul_pos_left (pos_of_mul_pos_right (gauss_probe_left a b hab eigh he k) hw.le) hp
  have h2 := pos_of_mul_pos_left (pos_of_mul_pos_right (gauss_probe_right a b hab eigh he k) hw.le) hp
  exact ⟨sub_pos.1 h1, sub_pos.1 h2⟩

/-- **C63**: the points are distinct. -/
theorem gauss_distinct (a b : ℝ) (hab : a < b) (eigh : EighFn (n + 1)) (he : EighSpec eigh) :
    Function.Injective (gauss n a b eigh).1 := by
  intro i j hij
  by_contra hne
  have h := gauss_probe_left a b hab eigh he i
  rw [Finset.prod_eq_zero (Finset.mem_erase.2 ⟨fun h => hne h.symm, Finset.mem_univ j⟩) (by simp [hij])] at h
  simp at h

/-- For `a = b` the rule has all its points at `a` and weights zero. -/
theorem gauss_degenerate (a : ℝ) (eigh : EighFn (n + 1)) (k : Fin (n + 1)) :
    (gauss n a a eigh).1 k = a ∧ (gauss n a a eigh).2 k = 0 := by
  simp [gauss]

/-- The points lie in the closed interval, also when it is a single point. -/
theorem gauss_mem_Icc (a b : ℝ) (hab : a ≤ b) (eigh : EighFn (n + 1)) (he : EighSpec eigh) (k : Fin (n + 1)) :
    (gauss n a b eigh).1 k ∈ Set.Icc a b := by
  rcases hab.lt_or_eq with h | h
  · exact Set.Ioo_subset_Icc_self (gauss_interior a b h eigh he k)
  · subst h
    rw [(gauss_degenerate a eigh k).1]
    simp

/-- **C63**: the rule converges to the integral for every continuous function. -/
theorem gauss_converges (a b : ℝ) (hab : a ≤ b) (eigh : ∀ n, EighFn (n + 1)) (he : ∀ n, EighSpec (eigh n)) (f : ℝ → ℝ)
    (hf : ContinuousOn f (Set.Icc a b)) :
    Tendsto (fun n => ∑ k, (gauss n a b (eigh n)).2 k * f ((gauss n a b (eigh n)).1 k)) atTop (𝓝 (∫ x in a..b, f x)) := by
  rw [Metric.tendsto_atTop]
  intro ε hε
  set δ := ε / (2 * (b - a) + 1) with hδ
  have hden : 0 < 2 * (b - a) + 1 := by linarith
  have hδ0 : 0 < δ := div_pos hε hden
  obtain ⟨p, hp⟩ := exists_polynomial_near_of_continuousOn a b f hf δ hδ0
  refine ⟨p.natDegree, fun n hn => ?_⟩
  have hex := gauss_exact a b (eigh n) (he n) p (by omega)
  have hint : IntervalIntegrable f MeasureTheory.volume a b := by
    apply ContinuousOn.intervalIntegrable
    rwa [Set.uIcc_of_le hab]
  have h1 : |∫ x in a..b, (p.eval x - f x)| ≤ δ * |b - a| := by
    refine intervalIntegral.norm_integral_le_of_norm_le_const (f := fun x => p.eval x - f x) fun x hx => ?_
    rw [Set.uIoc_of_le hab] at hx
    exact (hp x (Set.Ioc_subset_Icc_self hx)).le
  rw [intervalIntegral.integral_sub (poly_integrable p a b) hint, ← hex, abs_of_nonneg (sub_nonneg.2 hab)] at h1
  have h2 : |∑ k, (gauss n a b (eigh n)).2 k * f ((gauss n a b (eigh n)).1 k) -
      ∑ k, (gauss n a b (eigh n)).2 k * p.eval ((gauss n a b (eigh n)).1 k)| ≤ δ * (b - a) := by
    rw [← Finset.sum_sub_distrib, ← gauss_sum a b (eigh n) (he n), Finset.mul_sum]
    refine (Finset.abs_sum_le_sum_abs _ _).trans (Finset.sum_le_sum fun k _ => ?_)
    rw [← mul_sub, abs_mul, abs_of_nonneg (gauss_nonneg a b hab _ k), mul_comm]
    refine mul_le_mul_of_nonneg_right ?_ (gauss_nonneg a b hab _ k)
    rw [abs_sub_comm]
    exact (hp _ (gauss_mem_Icc a b hab _ (he n) k)).le
  rw [Real.dist_eq]
  have h3 : δ * (b - a) + δ * (b - a) < ε := by
    have : δ * (2 * (b - a) + 1) = ε := div_mul_cancel₀ _ hden.ne'
    nlinarith
  have := abs_sub_le (∑ k, (gauss n a b (eigh n)).2 k * f ((gauss n a b (eigh n)).1 k))
    (∑ k, (gauss n a b (eigh n)).2 k * p.eval ((gauss n a b (eigh n)).1 k)) (∫ x in a..b, f x)
  linarith

/-- Every open subinterval contains points of the rules with sufficiently many points. -/
theorem gauss_dense (a b : ℝ) (eigh : ∀ n, EighFn (n + 1)) (he : ∀ n, EighSpec (eigh n)) (c d : ℝ) (hac : a ≤ c) (hcd : c < d)
    (hdb : d ≤ b) : ∀ᶠ n in atTop, ∃ k, (gauss n a b (eigh n)).1 k ∈ Set.Ioo c d := by
  set f : ℝ → ℝ := fun t => max 0 ((t - c) * (d - t)) with hf
  have hfc : Continuous f := by fun_prop
  have hpos : 0 < ∫ x in a..b, f x := by
    refine intervalIntegral.integral_pos (by linarith) hfc.continuousOn (fun x _ => le_max_left _ _)
      ⟨(c + d) / 2, ⟨by linarith, by linarith⟩, lt_max_of_lt_right (mul_pos ?_ ?_)⟩ <;> linarith
  filter_upwards [(gauss_converges a b (by linarith) eigh he f hfc.continuousOn).eventually (lt_mem_nhds hpos)] with n hn
  by_contra hno
  push Not at hno
  refine absurd hn (not_lt.2 (le_of_eq (Finset.sum_eq_zero fun k _ => ?_)))
  have hk := hno k
  have : (((gauss n a b (eigh n)).1 k) - c) * (d - (gauss n a b (eigh n)).1 k) ≤ 0 := by
    by_contra h
    push Not at h
    rcases (mul_pos_iff.1 h) with ⟨h1, h2⟩ | ⟨h1, h2⟩
    · exact hk ⟨by linarith, by linarith⟩
    · linarith
  rw [hf]
  simp [max_eq_left this]

/-- The hypotheses are met: exact routines for all sizes. -/
example : ∃ eigh : ∀ n, EighFn (n + 1), ∀ n, EighSpec (eigh n) :=
  ⟨fun n => (exists_eigh (n + 1)).choose, fun n => (exists_eigh (n + 1)).choose_spec⟩

end Verif.Misc
