import Verif.Func.VarproDeriv
import Verif.Func.RidgeProps
import Mathlib.Algebra.Polynomial.Degree.Lemmas
import Mathlib.Algebra.Polynomial.AlgebraMap
import Mathlib.Algebra.MvPolynomial.Funext
import Mathlib.LinearAlgebra.FiniteDimensional.Lemmas

/-!
# C104: a tensor basis represents exactly the polynomials of its total degree
-/

namespace Verif.Func

open Verif Verif.Domain Verif.Lip Verif.Basis Matrix

variable {n N : ℕ}

/-! ## Specification -/

/-- The scalar polynomials of a family: the one with number `n` is a polynomial of degree `n`. -/
def Graded (F : Family) : Prop := ∃ P : ℕ → Polynomial ℝ, (∀ n, (P n).degree = n) ∧ ∀ n x, F.phi n x = (P n).eval x

/-! ## The five families -/

/-- Polynomials from a recurrence with three terms. -/
noncomputable def recP (k0 a0 b0 : ℝ) (a b c : ℕ → ℝ) : ℕ → Polynomial ℝ
  | 0 => Polynomial.C k0
  | 1 => Polynomial.C a0 * Polynomial.X + Polynomial.C b0
  | n + 2 => (Polynomial.C (a n) * Polynomial.X + Polynomial.C (b n)) * recP k0 a0 b0 a b c (n + 1) + Polynomial.C (c n) * recP k0 a0 b0 a b c n

theorem recP_degree {k0 a0 b0 : ℝ} {a b c : ℕ → ℝ} (hk : k0 ≠ 0) (ha0 : a0 ≠ 0) (ha : ∀ n, a n ≠ 0) (n : ℕ) :
    (recP k0 a0 b0 a b c n).degree = n ∧ (recP k0 a0 b0 a b c (n + 1)).degree = (n + 1 : ℕ) := by
  induction n with
  | zero => exact ⟨Polynomial.degree_C hk, Polynomial.degree_linear ha0⟩
  | succ n ih =>
    refine ⟨ih.2, ?_⟩
    have h1 : ((Polynomial.C (a n) * Polynomial.X + Polynomial.C (b n)) * recP k0 a0 b0 a b c (n + 1)).degree = ((n + 1 + 1 : ℕ) : WithBot ℕ) := by
      rw [Polynomial.degree_mul, Polynomial.degree_linear (ha n), ih.2, add_comm]
      rfl
    have h2 : (Polynomial.C (c n) * recP k0 a0 b0 a b c n).degree < ((n + 1 + 1 : ℕ) : WithBot ℕ) := by
      refine lt_of_le_of_lt ((Polynomial.degree_mul_le _ _).trans (add_le_add Polynomial.degree_C_le le_rfl)) ?_
      rw [zero_add, ih.1]
      exact_mod_cast (by omega : n < n + 1 + 1)
    rw [recP, Polynomial.degree_add_eq_left_of_degree_lt (by rw [h1]; exact h2), h1]

theorem graded_of_rec {F : Family} {k0 a0 b0 : ℝ} {a b c : ℕ → ℝ} (hk : k0 ≠ 0) (ha0 : a0 ≠ 0) (ha : ∀ n, a n ≠ 0) (h0 : ∀ x, F.phi 0 x = k0)
    (h1 : ∀ x, F.phi 1 x = a0 * x + b0) (h2 : ∀ n x, F.phi (n + 2) x = (a n * x + b n) * F.phi (n + 1) x + c n * F.phi n x) : Graded F := by
  refine ⟨recP k0 a0 b0 a b c, fun n => (recP_degree hk ha0 ha n).1, fun n x => ?_⟩
  have : F.phi n x = (recP k0 a0 b0 a b c n).eval x ∧ F.phi (n + 1) x = (recP k0 a0 b0 a b c (n + 1)).eval x := by
    induction n with
    | zero => exact ⟨by simp [recP, h0], by simp [recP, h1]⟩
    | succ n ih =>
      refine ⟨ih.2, ?_⟩
      rw [h2, ih.1, ih.2]
      simp [recP]
  exact this.1

theorem mono_graded : Graded monoFamily :=
  ⟨fun n => Polynomial.X ^ n, fun n => Polynomial.degree_X_pow n, fun n x => by simp [monoFamily, monoPhi]⟩

theorem leg_graded : Graded legFamily := by
  refine graded_of_rec (k0 := 1) (a0 := 1) (b0 := 0) (a := fun n => (2 * (n + 2) - 1) / (n + 2)) (b := fun _ => 0) (c := fun n => -(n + 1) / (n + 2))
    one_ne_zero one_ne_zero (fun n => ?_) (fun x => rfl) (fun x => by simp [legFamily, legPhi]) fun n x => ?_
  · have : (0 : ℝ) < 2 * ((n : ℝ) + 2) - 1 := by
      have := n.cast_nonneg (α := ℝ)
      linarith
    positivity
  · simp only [legFamily, legPhi]
    have : (n : ℝ) + 2 ≠ 0 := by positivity
    field_simp
    ring

theorem cheb_graded : Graded chebFamily := by
  refine graded_of_rec (k0 := 1) (a0 := 1) (b0 := 0) (a := fun _ => 2) (b := fun _ => 0) (c := fun _ => -1)
    one_ne_zero one_ne_zero (fun n => two_ne_zero) (fun x => rfl) (fun x => by simp [chebFamily, chebPhi]) fun n x => ?_
  simp only [chebFamily, chebPhi]
  ring

theorem lag_graded : Graded lagFamily := by
  refine graded_of_rec (k0 := 1) (a0 := -1) (b0 := 1) (a := fun n => -1 / (n + 2)) (b := fun n => (2 * (n + 2) - 1) / (n + 2)) (c := fun n => -(n + 1) / (n + 2))
    one_ne_zero (by norm_num) (fun n => ?_) (fun x => rfl) (fun x => by simp [lagFamily, lagPhi]; ring) fun n x => ?_
  · have : (n : ℝ) + 2 ≠ 0 := by positivity
    exact div_ne_zero (by norm_num) this
  · simp only [lagFamily, lagPhi]
    have : (n : ℝ) + 2 ≠ 0 := by positivity
    field_simp
    ring

theorem herm_graded : Graded hermFamily := by
  refine graded_of_rec (k0 := 1) (a0 := 2) (b0 := 0) (a := fun _ => 2) (b := fun _ => 0) (c := fun n => -(2 * (n + 1)))
    one_ne_zero two_ne_zero (fun n => two_ne_zero) (fun x => rfl) (fun x => by simp [hermFamily, hermPhi]) fun n x => ?_
  simp only [hermFamily, hermPhi]
  ring

/-! ## One variable -/

/-- Polynomials of degree at most `k` are combinations of the first `k + 1`. -/
theorem uni_span {P : ℕ → Polynomial ℝ} (hP : ∀ n, (P n).degree = n) : ∀ (k : ℕ) (p : Polynomial ℝ), p.degree ≤ k →
    ∃ c : ℕ → ℝ, p = ∑ i ∈ Finset.range (k + 1), Polynomial.C (c i) * P i := by
  intro k
  induction k with
  | zero =>
    intro p hp
    have h0 := Polynomial.eq_C_of_degree_le_zero hp
    have hP0 := Polynomial.eq_C_of_degree_le_zero (le_of_eq (hP 0))
    have hne : (P 0).coeff 0 ≠ 0 := by
      intro h
      have := hP 0
      rw [hP0, h, map_zero, Polynomial.degree_zero] at this
      cases this
    refine ⟨fun _ => p.coeff 0 / (P 0).coeff 0, ?_⟩
    rw [Finset.sum_range_one, h0, hP0, ← Polynomial.C_mul]
    simp [div_mul_cancel₀ _ hne]
  | succ k ih =>
    intro p hp
    have hlead : (P (k + 1)).coeff (k + 1) ≠ 0 := Polynomial.coeff_ne_zero_of_eq_degree (hP (k + 1))
    set r := p.coeff (k + 1) / (P (k + 1)).coeff (k + 1) with hr
    have hdeg : (p - Polynomial.C r * P (k + 1)).degree ≤ k := by
      rw [Polynomial.degree_le_iff_coeff_zero]
      intro i hi
      have hi' : k < i := by exact_mod_cast hi
      rw [Polynomial.coeff_sub, Polynomial.coeff_C_mul]
      rcases Nat.lt_or_ge (k + 1) i with h | h
      · rw [Polynomial.coeff_eq_zero_of_degree_lt (lt_of_le_of_lt hp (by exact_mod_cast h)),
          Polynomial.coeff_eq_zero_of_degree_lt (by rw [hP]; exact_mod_cast h)]
        simp
      · obtain rfl : i = k + 1 := by omega
        rw [hr, div_mul_cancel₀ _ hlead, sub_self]
    obtain ⟨c, hc⟩ := ih _ hdeg
    refine ⟨fun i => if i = k + 1 then r else c i, ?_⟩
    rw [Finset.sum_range_succ, Finset.sum_congr rfl (g := fun i => Polynomial.C (c i) * P i)]
    · rw [← hc]; simp
    · intro i hi
      simp only [if_neg (show i ≠ k + 1 by have := Finset.mem_range.1 hi; omega)]

/-! ## Several variables -/

/-- The scaled coordinate. -/
noncomputable def lin (a b : Fin n → ℝ) (q : Fin n) : MvPolynomial (Fin n) ℝ := MvPolynomial.C (a q) * MvPolynomial.X q + MvPolynomial.C (b q)

/-- The product of scalar polynomials in the scaled coordinates. -/
noncomputable def tens (P : ℕ → Polynomial ℝ) (a b : Fin n → ℝ) (α : Fin n → ℕ) : MvPolynomial (Fin n) ℝ := ∏ q, Polynomial.aeval (lin a b q) (P (α q))

/-- The span of the products of total degree at most `k`. -/
noncomputable def tensW (P : ℕ → Polynomial ℝ) (a b : Fin n → ℝ) (k : ℕ) : Submodule ℝ (MvPolynomial (Fin n) ℝ) :=
  Submodule.span ℝ (tens P a b '' {α | ∑ q, α q ≤ k})

theorem tens_update (P : ℕ → Polynomial ℝ) (a b : Fin n → ℝ) (α : Fin n → ℕ) (q : Fin n) (i : ℕ) :
    tens P a b (Function.update α q i) = Polynomial.aeval (lin a b q) (P i) * ∏ r ∈ Finset.univ.erase q, Polynomial.aeval (lin a b r) (P (α r)) := by
  unfold tens
  rw [← Finset.mul_prod_erase _ _ (Finset.mem_univ q), Function.update_self]
  congr 1
  refine Finset.prod_congr rfl fun r hr => ?_
  rw [Function.update_of_ne (Finset.ne_of_mem_erase hr)]

theorem sum_update (α : Fin n → ℕ) (q : Fin n) (i : ℕ) : ∑ r, Function.update α q i r + α q = ∑ r, α r + i := by
  rw [← Finset.add_sum_erase _ _ (Finset.mem_univ q), ← Finset.add_sum_erase (a := q) _ α (Finset.mem_univ q), Function.update_self]
  have : ∑ r ∈ Finset.univ.erase q, Function.update α q i r = ∑ r ∈ Finset.univ.erase q, α r :=
    Finset.sum_congr rfl fun r hr => by rw [Function.update_of_ne (Finset.ne_of_mem_erase hr)]
  rw [this]
  omega

theorem mul_X_mem {P : ℕ → Polynomial ℝ} (hP : ∀ n, (P n).degree = n) {a b : Fin n → ℝ} (ha : ∀ q, a q ≠ 0) {k : ℕ} {w : MvPolynomial (Fin n) ℝ}
    (hw : w ∈ tensW P a b k) (q : Fin n) : MvPolynomial.X q * w ∈ tensW P a b (k + 1) := by
  unfold tensW at hw
  induction hw using Submodule.span_induction with
  | zero => rw [mul_zero]; exact Submodule.zero_mem _
  | add x y _ _ hx hy => rw [mul_add]; exact Submodule.add_mem _ hx hy
  | smul c x _ hx => rw [mul_smul_comm]; exact Submodule.smul_mem _ c hx
  | mem x hx =>
    obtain ⟨α, hα, rfl⟩ := hx
    have hdeg : ((Polynomial.C (1 / a q) * (Polynomial.X - Polynomial.C (b q))) * P (α q)).degree ≤ ((α q + 1 : ℕ) : WithBot ℕ) := by
      rw [Polynomial.degree_mul, hP]
      have : (Polynomial.C (1 / a q) * (Polynomial.X - Polynomial.C (b q))).degree = 1 := by
        rw [Polynomial.degree_C_mul (by simpa using ha q), Polynomial.degree_X_sub_C]
      rw [this, add_comm]
      exact le_of_eq rfl
    obtain ⟨c, hc⟩ := uni_span hP _ _ hdeg
    have hX : MvPolynomial.X q = Polynomial.aeval (lin a b q) (Polynomial.C (1 / a q) * (Polynomial.X - Polynomial.C (b q))) := by
      simp only [lin, map_mul, map_sub, Polynomial.aeval_X, Polynomial.aeval_C, MvPolynomial.algebraMap_eq]
      rw [add_sub_cancel_right, ← mul_assoc, ← MvPolynomial.C_mul, one_div, inv_mul_cancel₀ (ha q), MvPolynomial.C_1, one_mul]
    have e : MvPolynomial.X q * tens P a b α = ∑ i ∈ Finset.range (α q + 1 + 1), c i • tens P a b (Function.update α q i) := by
      conv_lhs => rw [← Function.update_eq_self q α, tens_update, ← mul_assoc, hX, ← map_mul, hc, map_sum, Finset.sum_mul]
      refine Finset.sum_congr rfl fun i _ => ?_
      rw [tens_update, map_mul, Polynomial.aeval_C, Algebra.smul_def, mul_assoc]
    rw [e]
    refine Submodule.sum_mem _ fun i hi => Submodule.smul_mem _ _ (Submodule.subset_span ⟨_, ?_, rfl⟩)
    have h1 := sum_update α q i
    have h2 := Finset.mem_range.1 hi
    have h3 : ∑ q, α q ≤ k := hα
    show ∑ r, Function.update α q i r ≤ k + 1
    omega

theorem tensW_mono {P : ℕ → Polynomial ℝ} {a b : Fin n → ℝ} {k k' : ℕ} (h : k ≤ k') : tensW P a b k ≤ tensW P a b k' :=
  Submodule.span_mono (Set.image_mono fun _ hα => le_trans hα h)

theorem pow_X_mem {P : ℕ → Polynomial ℝ} (hP : ∀ n, (P n).degree = n) {a b : Fin n → ℝ} (ha : ∀ q, a q ≠ 0) {k : ℕ} {w : MvPolynomial (Fin n) ℝ}
    (hw : w ∈ tensW P a b k) (q : Fin n) (e : ℕ) : MvPolynomial.X q ^ e * w ∈ tensW P a b (k + e) := by
  induction e with
  | zero => simpa using hw
  | succ e ih =>
    rw [pow_succ', mul_assoc]
    exact mul_X_mem hP ha ih q

theorem one_mem {P : ℕ → Polynomial ℝ} (hP : ∀ n, (P n).degree = n) (a b : Fin n → ℝ) : (1 : MvPolynomial (Fin n) ℝ) ∈ tensW P a b 0 := by
  obtain ⟨c, hc⟩ := uni_span hP 0 1 (by simp)
  rw [zero_add, Finset.sum_range_one] at hc
  have h : tens P a b 0 = ∏ _q : Fin n, Polynomial.aeval (lin a b _q) (P 0) := rfl
  have e : (1 : MvPolynomial (Fin n) ℝ) = c 0 ^ n • tens P a b 0 := by
    have : ∀ q : Fin n, (1 : MvPolynomial (Fin n) ℝ) = MvPolynomial.C (c 0) * Polynomial.aeval (lin a b q) (P 0) := by
      intro q
      have := congrArg (Polynomial.aeval (lin a b q)) hc
      rwa [map_one, map_mul, Polynomial.aeval_C, MvPolynomial.algebraMap_eq] at this
    calc (1 : MvPolynomial (Fin n) ℝ) = ∏ q : Fin n, (MvPolynomial.C (c 0) * Polynomial.aeval (lin a b q) (P 0)) := by
          rw [← Finset.prod_congr rfl fun q _ => this q, Finset.prod_const_one]
      _ = _ := by
          rw [Finset.prod_mul_distrib, Finset.prod_const, Finset.card_univ, Fintype.card_fin, h, MvPolynomial.smul_eq_C_mul, map_pow]
  rw [e]
  exact Submodule.smul_mem _ _ (Submodule.subset_span ⟨0, by simp, rfl⟩)

theorem tensW_eq {P : ℕ → Polynomial ℝ} (hP : ∀ n, (P n).degree = n) {a b : Fin n → ℝ} (ha : ∀ q, a q ≠ 0) (k : ℕ) :
    tensW P a b k = MvPolynomial.restrictTotalDegree (Fin n) ℝ k := by
  apply le_antisymm
  · refine Submodule.span_le.2 ?_
    rintro _ ⟨α, hα, rfl⟩
    rw [SetLike.mem_coe, MvPolynomial.mem_restrictTotalDegree]
    have hq : ∀ q, (Polynomial.aeval (lin a b q) (P (α q))).totalDegree ≤ α q := by
      intro q
      rw [Polynomial.aeval_eq_sum_range]
      have hl : (lin a b q).totalDegree ≤ 1 := by
        refine (MvPolynomial.totalDegree_add _ _).trans (max_le ?_ ?_)
        · refine (MvPolynomial.totalDegree_mul _ _).trans ?_
          rw [MvPolynomial.totalDegree_C, MvPolynomial.totalDegree_X]
        · rw [MvPolynomial.totalDegree_C]; exact zero_le_one
      have hnd : (P (α q)).natDegree = α q := Polynomial.natDegree_eq_of_degree_eq_some (hP _)
      refine MvPolynomial.totalDegree_finsetSum_le fun i hi => ?_
      have hi' := Finset.mem_range.1 hi
      refine (MvPolynomial.totalDegree_smul_le _ _).trans ((MvPolynomial.totalDegree_pow _ _).trans ?_)
      calc i * (lin a b q).totalDegree ≤ i * 1 := Nat.mul_le_mul_left _ hl
        _ ≤ α q := by omega
    refine (MvPolynomial.totalDegree_finset_prod _ _).trans ((Finset.sum_le_sum fun q _ => hq q).trans hα)
  · intro p hp
    rw [MvPolynomial.mem_restrictTotalDegree] at hp
    rw [MvPolynomial.as_sum p]
    refine Submodule.sum_mem _ fun s hs => ?_
    have hsum : ∑ q, s q ≤ k := by
      have := (MvPolynomial.le_totalDegree hs).trans hp
      rwa [Finsupp.sum_fintype _ _ fun _ => rfl] at this
    have key : ∀ T : Finset (Fin n), ∏ q ∈ T, (MvPolynomial.X q : MvPolynomial (Fin n) ℝ) ^ s q ∈ tensW P a b (∑ q ∈ T, s q) := by
      intro T
      induction T using Finset.induction_on with
      | empty => simpa using one_mem hP a b
      | insert q T hq ih =>
        rw [Finset.prod_insert hq, Finset.sum_insert hq, add_comm]
        exact pow_X_mem hP ha ih q (s q)
    rw [MvPolynomial.monomial_eq, ← MvPolynomial.smul_eq_C_mul, Finsupp.prod_fintype _ _ fun _ => pow_zero _]
    exact Submodule.smul_mem _ _ (tensW_mono hsum (key Finset.univ))

end Verif.Func
