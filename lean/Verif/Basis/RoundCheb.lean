import Verif.Basis.RoundProps
import Verif.Basis.FamilyModel
import Mathlib.Analysis.SpecialFunctions.Trigonometric.Inverse
import Mathlib.Algebra.BigOperators.Intervals

/-!
# The Chebyshev basis in rounded arithmetic

The recurrence `v[i] = 2 x v[i-1] - v[i-2]` of `chebvander` accumulates rounding errors only quadratically on `[-1, 1]`.  The values are compared with
`cos (n arccos x)`.
-/

namespace Verif.Round

open Verif Verif.Domain

variable {F : FP}

/-- The Chebyshev polynomial on `[-1, 1]`. -/
noncomputable def chebVal (n : ℕ) (x : ℝ) : ℝ := Real.cos (n * Real.arccos x)

theorem chebVal_zero (x : ℝ) : chebVal 0 x = 1 := by simp [chebVal]

theorem chebVal_one {x : ℝ} (h : |x| ≤ 1) : chebVal 1 x = x := by
  rw [abs_le] at h
  simp [chebVal, Real.cos_arccos h.1 h.2]

theorem chebVal_rec {x : ℝ} (h : |x| ≤ 1) (n : ℕ) : chebVal (n + 2) x = 2 * x * chebVal (n + 1) x - chebVal n x := by
  have hx : Real.cos (Real.arccos x) = x := by rw [abs_le] at h; exact Real.cos_arccos h.1 h.2
  set θ := Real.arccos x with hθ
  have e1 : ((n + 2 : ℕ) : ℝ) * θ = ((n + 1 : ℕ) : ℝ) * θ + θ := by push_cast; ring
  have e2 : (n : ℝ) * θ = ((n + 1 : ℕ) : ℝ) * θ - θ := by push_cast; ring
  rw [chebVal, chebVal, chebVal, ← hθ, e1, e2, Real.cos_add, Real.cos_sub, hx]
  ring

theorem abs_chebVal_le (n : ℕ) (x : ℝ) : |chebVal n x| ≤ 1 := Real.abs_cos_le_one _

/-- These are the values of the exact model of the basis. -/
theorem chebVal_eq_chebPhi {x : ℝ} (h : |x| ≤ 1) : ∀ n, chebVal n x = Basis.chebPhi n x
  | 0 => by rw [chebVal_zero, Basis.chebPhi]
  | 1 => by rw [chebVal_one h, Basis.chebPhi]
  | n + 2 => by
    rw [chebVal_rec h, Basis.chebPhi, chebVal_eq_chebPhi h (n + 1), chebVal_eq_chebPhi h n]
    ring

/-- The polynomials of the second kind. -/
noncomputable def secondKind (x : ℝ) : ℕ → ℝ
  | 0 => 1
  | 1 => 2 * x
  | n + 2 => 2 * x * secondKind x (n + 1) - secondKind x n

theorem secondKind_step {x : ℝ} (h : |x| ≤ 1) : ∀ n, secondKind x (n + 1) = x * secondKind x n + chebVal (n + 1) x
  | 0 => by rw [secondKind, secondKind, chebVal_one h]; ring
  | 1 => by
    rw [chebVal_rec h, chebVal_zero, chebVal_one h]
    simp only [secondKind]
    ring
  | n + 2 => by
    have h1 := secondKind_step h (n + 1)
    have h0 := secondKind_step h n
    have hdef : secondKind x (n + 2) = 2 * x * secondKind x (n + 1) - secondKind x n := rfl
    have e : secondKind x (n + 2 + 1) = 2 * x * secondKind x (n + 2) - secondKind x (n + 1) := rfl
    rw [e, chebVal_rec h (n + 1)]
    rw [show n + 1 + 1 = n + 2 from rfl] at h1 ⊢
    linear_combination 2 * x * h1 - h0 - x * hdef

theorem abs_secondKind_le {x : ℝ} (h : |x| ≤ 1) (n : ℕ) : |secondKind x n| ≤ n + 1 := by
  induction n with
  | zero => simp [secondKind]
  | succ n ih =>
    rw [secondKind_step h]
    refine (abs_add_le _ _).trans ?_
    rw [abs_mul]
    have h1 := mul_le_mul h ih (abs_nonneg _) zero_le_one
    have h2 := abs_chebVal_le (n + 1) x
    push_cast
    linarith

/-- The solution of the recurrence with errors `d`. -/
theorem perturbed_rec {x : ℝ} {e d : ℕ → ℝ} (h0 : e 0 = d 0) (h1 : e 1 = 2 * x * e 0 + d 1) (hr : ∀ n, e (n + 2) = 2 * x * e (n + 1) - e n + d (n + 2)) :
    ∀ n, e n = ∑ j ∈ Finset.range (n + 1), secondKind x (n - j) * d j
  | 0 => by simp [h0, secondKind]
  | 1 => by
    rw [Finset.sum_range_succ, Finset.sum_range_one, h1, h0]
    simp [secondKind]
  | n + 2 => by
    rw [hr, perturbed_rec h0 h1 hr (n + 1), perturbed_rec h0 h1 hr n, Finset.sum_range_succ _ (n + 2), Finset.sum_range_succ _ (n + 1), Finset.sum_range_succ _ (n + 1)]
    have e1 : ∀ j ∈ Finset.range (n + 1), secondKind x (n + 2 - j) * d j = 2 * x * (secondKind x (n + 1 - j) * d j) - secondKind x (n - j) * d j := by
      intro j hj
      rw [Finset.mem_range] at hj
      rw [show n + 2 - j = (n - j) + 2 by omega, show n + 1 - j = (n - j) + 1 by omega, secondKind]
      ring
    rw [Finset.sum_congr rfl e1, Finset.sum_sub_distrib, ← Finset.mul_sum, show n + 2 - (n + 1) = 1 by omega, show n + 2 - (n + 2) = 0 by omega,
      show n + 1 - (n + 1) = 0 by omega]
    simp only [secondKind]
    ring

/-- The error of one step of the recurrence. -/
theorem chebF_local {x : ℝ} (hx : |x| ≤ 1) (h2 : F.Float (2 * x)) {n : ℕ} (b1 : |chebF F (n + 1) x| ≤ 2) (b0 : |chebF F n x| ≤ 2) :
    |chebF F (n + 2) x - (2 * x * chebF F (n + 1) x - chebF F n x)| ≤ 14 * F.u := by
  have hu := F.u_nonneg
  have hu1 := F.u_lt
  rw [chebF, show F.rd (2 * x) = 2 * x from h2]
  set a := chebF F (n + 1) x
  set b := chebF F n x
  have p : |a * (2 * x)| ≤ 4 := by
    rw [abs_mul, abs_mul, abs_two]
    nlinarith [abs_nonneg a, abs_nonneg x]
  have r1 := F.err (a * (2 * x))
  have r1' : |F.rd (a * (2 * x)) - a * (2 * x)| ≤ 4 * F.u := by nlinarith
  have q : |F.rd (a * (2 * x)) - b| ≤ 10 := by
    have t1 := abs_add_le (F.rd (a * (2 * x)) - a * (2 * x)) (a * (2 * x))
    rw [sub_add_cancel] at t1
    have t2 := abs_sub (F.rd (a * (2 * x))) b
    linarith
  have r2 := F.err (F.rd (a * (2 * x)) - b)
  have t := abs_add_le (F.rd (F.rd (a * (2 * x)) - b) - (F.rd (a * (2 * x)) - b)) (F.rd (a * (2 * x)) - a * (2 * x))
  rw [show F.rd (F.rd (a * (2 * x)) - b) - (F.rd (a * (2 * x)) - b) + (F.rd (a * (2 * x)) - a * (2 * x)) = F.rd (F.rd (a * (2 * x)) - b) - (2 * x * a - b) by ring] at t
  nlinarith

/-- **Accuracy of `chebvander`**: on `[-1, 1]` the error of the `n`-th polynomial grows like `n ^ 2`. -/
theorem chebF_error {x : ℝ} (hx : |x| ≤ 1) (h2 : F.Float (2 * x)) : ∀ n : ℕ, 7 * (n : ℝ) ^ 2 * F.u ≤ 1 →
    |chebF F n x - chebVal n x| ≤ 7 * (n : ℝ) ^ 2 * F.u := by
  have hu := F.u_nonneg
  intro n
  induction n using Nat.strong_induction_on with
  | _ n ih =>
    intro hn
    match n, ih, hn with
    | 0, _, _ => simp [chebF, chebVal_zero]
    | 1, _, _ =>
      rw [chebF, chebVal_one hx, sub_self, abs_zero]
      positivity
    | n + 2, ih, hn =>
      -- the computed values so far are at most two
      have small : ∀ k, k < n + 2 → |chebF F k x| ≤ 2 := by
        intro k hk
        have hk2 : 7 * (k : ℝ) ^ 2 * F.u ≤ 1 := by
          refine le_trans ?_ hn
          have : (k : ℝ) ≤ ((n + 2 : ℕ) : ℝ) := by exact_mod_cast hk.le
          gcongr
        have h1 := (ih k hk hk2).trans hk2
        have h3 := abs_add_le (chebF F k x - chebVal k x) (chebVal k x)
        rw [sub_add_cancel] at h3
        linarith [abs_chebVal_le k x]
      -- the local errors
      let d : ℕ → ℝ := fun j => if j < 2 then 0 else chebF F j x - (2 * x * chebF F (j - 1) x - chebF F (j - 2) x)
      have hrec := perturbed_rec (x := x) (e := fun k => chebF F k x - chebVal k x) (d := d) (by simp [d, chebF, chebVal_zero])
        (by simp [d, chebF, chebVal_zero, chebVal_one hx])
        (by
          intro k
          have : d (k + 2) = chebF F (k + 2) x - (2 * x * chebF F (k + 1) x - chebF F k x) := by
            simp only [d, show ¬ k + 2 < 2 by omega, if_false]
            rfl
          rw [this, chebVal_rec hx]
          ring) (n + 2)
      have hd : ∀ j ∈ Finset.range (n + 2 + 1), |secondKind x (n + 2 - j) * d j| ≤ ((n + 2 - j : ℕ) + 1) * (if j < 2 then 0 else 14 * F.u) := by
        intro j hj
        rw [Finset.mem_range] at hj
        rw [abs_mul]
        refine mul_le_mul (abs_secondKind_le hx _) ?_ (abs_nonneg _) (by positivity)
        simp only [d]
        split_ifs with hj2
        · simp
        · obtain ⟨i, rfl⟩ : ∃ i, j = i + 2 := ⟨j - 2, by omega⟩
          exact chebF_local hx h2 (small (i + 1) (by omega)) (small i (by omega))
      have hsum : ∑ j ∈ Finset.range (n + 2 + 1), (((n + 2 - j : ℕ) : ℝ) + 1) * (if j < 2 then 0 else 14 * F.u) = 14 * F.u * ((n + 1) * (n + 2) / 2) := by
        rw [Finset.sum_range_succ', Finset.sum_range_succ']
        simp only [show ∀ k : ℕ, ¬ k + 1 + 1 < 2 by omega, if_false, zero_add, Nat.one_lt_ofNat, if_true, mul_zero, add_zero, Nat.zero_lt_two,
          show ∀ k : ℕ, n + 2 - (k + 1 + 1) = n - k by omega]
        rw [← Finset.sum_mul]
        have : ∀ m : ℕ, ∑ k ∈ Finset.range (m + 1), (((m - k : ℕ) : ℝ) + 1) = (m + 1) * (m + 2) / 2 := by
          intro m
          induction m with
          | zero => norm_num
          | succ m ihm =>
            rw [Finset.sum_range_succ', ]
            simp only [Nat.reduceSubDiff, tsub_zero]
            rw [ihm]
            push_cast
            ring
        rw [this]
        ring
      have h3 : |chebF F (n + 2) x - chebVal (n + 2) x| ≤ 14 * F.u * ((n + 1) * (n + 2) / 2) := by
        have e : chebF F (n + 2) x - chebVal (n + 2) x = _ := hrec
        rw [e, ← hsum]
        exact (Finset.abs_sum_le_sum_abs _ _).trans (Finset.sum_le_sum hd)
      refine h3.trans ?_
      push_cast
      nlinarith [mul_nonneg hu (Nat.cast_nonneg (α := ℝ) n)]

/-- Products of numbers known up to `ε` whose exact values are at most one. -/
theorem prod_error {φ ψ : ℕ → ℝ → ℝ} {ε : ℝ} (l : List (ℕ × ℝ)) (hψ : ∀ p ∈ l, |ψ p.1 p.2| ≤ 1) (hε : ∀ p ∈ l, |φ p.1 p.2 - ψ p.1 p.2| ≤ ε) :
    ∀ (acc w G : ℝ), 0 ≤ G → |w| ≤ 1 → |acc - w| ≤ G →
      |l.foldl (fun acc q => F.rd (acc * φ q.1 q.2)) acc - w * (l.map fun p => ψ p.1 p.2).prod| ≤ (1 + G) * ((1 + ε) * (1 + F.u)) ^ l.length - 1 := by
  induction l with
  | nil => intro acc w G _ _ h; simpa using h
  | cons q l ih =>
    intro acc w G hG hw h
    have h1 := hψ q (by simp)
    have h2 := hε q (by simp)
    have ε0 : 0 ≤ ε := (abs_nonneg _).trans h2
    have hu := F.u_nonneg
    have hp : |acc * φ q.1 q.2 - w * ψ q.1 q.2| ≤ (1 + G) * (1 + ε) - 1 := by
      rw [show acc * φ q.1 q.2 - w * ψ q.1 q.2 = (acc - w) * (φ q.1 q.2 - ψ q.1 q.2) + (acc - w) * ψ q.1 q.2 + w * (φ q.1 q.2 - ψ q.1 q.2) by ring]
      refine (abs_add_le _ _).trans ?_
      have t := abs_add_le ((acc - w) * (φ q.1 q.2 - ψ q.1 q.2)) ((acc - w) * ψ q.1 q.2)
      rw [abs_mul, abs_mul] at t
      rw [abs_mul w]
      have a1 := mul_le_mul h h2 (abs_nonneg _) hG
      have a2 := mul_le_mul h h1 (abs_nonneg _) hG
      have a3 := mul_le_mul hw h2 (abs_nonneg _) zero_le_one
      linarith
    have hw' : |w * ψ q.1 q.2| ≤ 1 := by
      rw [abs_mul]
      have := mul_le_mul hw h1 (abs_nonneg _) zero_le_one
      linarith
    have hr := rd_step (F := F) (G := (1 + G) * (1 + ε) - 1) (S := 1) (by simpa using hp) hw'
    have hG' : 0 ≤ (1 + G) * (1 + ε) * (1 + F.u) - 1 := by
      have : 1 ≤ (1 + G) * (1 + ε) * (1 + F.u) := one_le_mul_of_one_le_of_one_le (one_le_mul_of_one_le_of_one_le (by linarith) (by linarith)) (by linarith)
      linarith
    have := ih (fun p hp => hψ p (by simp [hp])) (fun p hp => hε p (by simp [hp])) (F.rd (acc * φ q.1 q.2)) (w * ψ q.1 q.2) _ hG' hw'
      (by simpa using hr)
    rw [List.foldl_cons, List.map_cons, List.prod_cons, ← mul_assoc]
    refine this.trans (le_of_eq ?_)
    rw [List.length_cons, pow_succ]
    ring

/-- **Accuracy of the Chebyshev Vandermonde matrix**: at scaled points in `[-1, 1]` of a binary format, every entry is the product of the values of the Chebyshev
polynomials up to a small absolute error. -/
theorem colF_cheb {x : Vec} (hx : ∀ t ∈ x, |t| ≤ 1 ∧ F.Float (2 * t)) {alpha : List ℕ} {d : ℕ} (hd : ∀ a ∈ alpha, a ≤ d) (hu : 7 * (d : ℝ) ^ 2 * F.u ≤ 1) :
    |colF F (chebF F) x alpha - ((alpha.zip x).map fun p => chebVal p.1 p.2).prod| ≤ ((1 + 7 * (d : ℝ) ^ 2 * F.u) * (1 + F.u)) ^ (alpha.zip x).length - 1 := by
  have u0 := F.u_nonneg
  have := prod_error (F := F) (φ := chebF F) (ψ := chebVal) (ε := 7 * (d : ℝ) ^ 2 * F.u) (alpha.zip x) (fun p _ => abs_chebVal_le _ _) ?_ 1 1 0 le_rfl (by simp) (by simp)
  · simpa [colF] using this
  · intro p hp
    have h1 := hd p.1 (List.of_mem_zip hp).1
    have h2 := hx p.2 (List.of_mem_zip hp).2
    have h3 : (p.1 : ℝ) ≤ d := by exact_mod_cast h1
    have h4 : 7 * (p.1 : ℝ) ^ 2 * F.u ≤ 7 * (d : ℝ) ^ 2 * F.u := by gcongr
    exact (chebF_error h2.1 h2.2 p.1 (h4.trans hu)).trans h4

/-- Degree ten at `1/4` and `-1`, in double precision. -/
example : |colF double (chebF double) [1 / 4, -1] [3, 7] - (([3, 7].zip [1 / 4, -1]).map fun p => chebVal p.1 p.2).prod| ≤
    ((1 + 7 * ((10 : ℕ) : ℝ) ^ 2 * double.u) * (1 + double.u)) ^ 2 - 1 := by
  refine colF_cheb (d := 10) ?_ (by decide) (by rw [double_u]; norm_num)
  intro t ht
  simp only [List.mem_cons, List.not_mem_nil, or_false] at ht
  rcases ht with rfl | rfl
  · refine ⟨by norm_num [abs_of_pos], double_scale.1 _ ?_⟩
    have := double_fix 1 (-2) (by norm_num)
    norm_num at this ⊢
    exact this
  · exact ⟨by norm_num, double_scale.1 _ double_scale.2.2⟩

end Verif.Round
