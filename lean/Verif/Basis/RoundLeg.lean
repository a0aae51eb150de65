import Verif.Basis.RoundCheb

/-!
# The Legendre basis in rounded arithmetic

The recurrence of `legvander` accumulates rounding errors only quadratically on `[-1, 1]`: the quantity `(e[n-1] - x e[n])^2 + (1 - x^2) e[n]^2` does not grow along the exact
recurrence.
-/

namespace Verif.Round

open Verif Verif.Domain

variable {F : FP}

/-- Solutions of `e[n+2] = x e[n+1] + r[n] (x e[n+1] - e[n]) + d[n]` with `0 ≤ r ≤ 1` and errors at most `D` grow at most quadratically. -/
theorem damped_rec {x D : ℝ} {e d r : ℕ → ℝ} (hx : |x| ≤ 1) (hr : ∀ n, 0 ≤ r n ∧ r n ≤ 1) (N : ℕ) (hd : ∀ n, n < N → |d n| ≤ D)
    (h : ∀ n, n < N → e (n + 2) = x * e (n + 1) + r n * (x * e (n + 1) - e n) + d n) (h0 : e 0 = 0) (h1 : e 1 = 0) :
    ∀ n, n ≤ N → (e n - x * e (n + 1)) ^ 2 + (1 - x ^ 2) * e (n + 1) ^ 2 ≤ (n * D) ^ 2 ∧ |e (n + 1)| ≤ D * (n * (n + 1) / 2) := by
  have hx2 : 0 ≤ 1 - x ^ 2 := by
    rw [abs_le] at hx
    nlinarith [hx.1, hx.2]
  intro n
  induction n with
  | zero =>
    intro _
    simp [h0, h1]
  | succ n ih =>
    intro hn
    obtain ⟨hQ, hE⟩ := ih (by omega)
    have hdn := hd n (by omega)
    have D0 : 0 ≤ D := (abs_nonneg _).trans hdn
    obtain ⟨r0, r1⟩ := hr n
    have hrec := h n (by omega)
    set a := x * e (n + 1) - e n with ha
    have hQ' : a ^ 2 + (1 - x ^ 2) * e (n + 1) ^ 2 ≤ (n * D) ^ 2 := by
      rw [show a ^ 2 = (e n - x * e (n + 1)) ^ 2 by rw [ha]; ring]
      exact hQ
    have hc : 0 ≤ (1 - x ^ 2) * e (n + 1) ^ 2 := mul_nonneg hx2 (sq_nonneg _)
    have nD : 0 ≤ n * D := by positivity
    have ha' : |a| ≤ n * D := abs_le_of_sq_le_sq (by linarith) nD
    have hra : |r n * a| ≤ |a| := by
      rw [abs_mul, abs_of_nonneg r0]
      nlinarith [abs_nonneg a]
    refine ⟨?_, ?_⟩
    · have e1 : (e (n + 1) - x * e (n + 2)) ^ 2 + (1 - x ^ 2) * e (n + 2) ^ 2 = (r n * a + d n) ^ 2 + (1 - x ^ 2) * e (n + 1) ^ 2 := by
        rw [show r n * a + d n = e (n + 2) - x * e (n + 1) by rw [hrec]; ring]
        ring
      rw [show n + 1 + 1 = n + 2 from rfl, e1]
      have s1 : (r n * a + d n) ^ 2 ≤ a ^ 2 + 2 * (n * D) * D + D ^ 2 := by
        have t1 : (r n * a) ^ 2 ≤ a ^ 2 := sq_le_sq.2 hra
        have t2 : r n * a * d n ≤ n * D * D := by
          refine (le_abs_self _).trans ?_
          rw [abs_mul]
          exact mul_le_mul (hra.trans ha') hdn (abs_nonneg _) nD
        have t3 : d n ^ 2 ≤ D ^ 2 := by
          rw [← sq_abs]
          gcongr
        nlinarith
      push_cast
      nlinarith
    · rw [show n + 1 + 1 = n + 2 from rfl, hrec]
      have t1 := abs_add_le (x * e (n + 1) + r n * a) (d n)
      have t2 := abs_add_le (x * e (n + 1)) (r n * a)
      have t3 : |x * e (n + 1)| ≤ |e (n + 1)| := by
        rw [abs_mul]
        nlinarith [abs_nonneg (e (n + 1))]
      push_cast
      nlinarith

/-- The recurrence of the Legendre polynomials in the form used above. -/
theorem leg_damped (x : ℝ) (n : ℕ) : Basis.legPhi (n + 2) x =
    x * Basis.legPhi (n + 1) x + ((n + 1) / (n + 2)) * (x * Basis.legPhi (n + 1) x - Basis.legPhi n x) := by
  rw [Basis.legPhi]
  have : (n : ℝ) + 2 ≠ 0 := by positivity
  field_simp
  ring

theorem ratio_mem (n : ℕ) : (0 : ℝ) ≤ (n + 1) / (n + 2) ∧ ((n : ℝ) + 1) / (n + 2) ≤ 1 := by
  refine ⟨by positivity, ?_⟩
  rw [div_le_one (by positivity)]
  linarith

/-- **The Legendre polynomials are at most one on `[-1, 1]`.** -/
theorem abs_legPhi_le {x : ℝ} (hx : |x| ≤ 1) (n : ℕ) : |Basis.legPhi n x| ≤ 1 := by
  have hx2 : 0 ≤ 1 - x ^ 2 := by
    rw [abs_le] at hx
    nlinarith [hx.1, hx.2]
  have key : ∀ n, (Basis.legPhi n x - x * Basis.legPhi (n + 1) x) ^ 2 + (1 - x ^ 2) * Basis.legPhi (n + 1) x ^ 2 ≤ 1 - x ^ 2 := by
    intro n
    induction n with
    | zero => simp only [Basis.legPhi]; nlinarith
    | succ n ih =>
      obtain ⟨r0, r1⟩ := ratio_mem n
      have hrec := leg_damped x n
      set r := ((n : ℝ) + 1) / (n + 2)
      set p := Basis.legPhi (n + 1) x
      set q := Basis.legPhi n x
      have e1 : (p - x * Basis.legPhi (n + 2) x) ^ 2 + (1 - x ^ 2) * Basis.legPhi (n + 2) x ^ 2 = (r * (x * p - q)) ^ 2 + (1 - x ^ 2) * p ^ 2 := by
        rw [show r * (x * p - q) = Basis.legPhi (n + 2) x - x * p by rw [hrec]; ring]
        ring
      rw [show n + 1 + 1 = n + 2 from rfl, e1]
      have t1 : (r * (x * p - q)) ^ 2 ≤ (q - x * p) ^ 2 := by
        rw [mul_pow, show (x * p - q) ^ 2 = (q - x * p) ^ 2 by ring]
        have : r ^ 2 ≤ 1 := pow_le_one₀ r0 r1
        nlinarith [sq_nonneg (q - x * p)]
      linarith
  cases n with
  | zero => simp [Basis.legPhi]
  | succ n =>
    have h := key n
    rcases hx2.lt_or_eq with hpos | h0
    · have : (1 - x ^ 2) * Basis.legPhi (n + 1) x ^ 2 ≤ (1 - x ^ 2) * 1 := by nlinarith [sq_nonneg (Basis.legPhi n x - x * Basis.legPhi (n + 1) x)]
      have h1 := le_of_mul_le_mul_left this hpos
      exact abs_le_one_iff_mul_self_le_one.2 (by nlinarith)
    · -- at the ends the values are a power of the end
      have hs : x ^ 2 = 1 := by linarith
      have hstep : ∀ m, Basis.legPhi m x = x * Basis.legPhi (m + 1) x := by
        intro m
        have := key m
        rw [← h0] at this
        nlinarith [sq_nonneg (Basis.legPhi m x - x * Basis.legPhi (m + 1) x), sq_nonneg (Basis.legPhi (m + 1) x)]
      have hsq : ∀ m, Basis.legPhi m x ^ 2 = 1 := by
        intro m
        induction m with
        | zero => simp [Basis.legPhi]
        | succ m ihm =>
          rw [hstep m, mul_pow, hs, one_mul] at ihm
          exact ihm
      exact abs_le_one_iff_mul_self_le_one.2 (by nlinarith [hsq (n + 1)])

/-- The error of one step of the recurrence. -/
theorem legF_local {x : ℝ} (hx : |x| ≤ 1) (hu : F.u ≤ 1 / 8) {n : ℕ} (b1 : |legF F (n + 1) x| ≤ 2) (b0 : |legF F n x| ≤ 2) :
    |legF F (n + 2) x - (x * legF F (n + 1) x + ((n + 1) / (n + 2)) * (x * legF F (n + 1) x - legF F n x))| ≤ 30 * F.u := by
  have hu0 := F.u_nonneg
  rw [legF]
  set p := legF F (n + 1) x
  set q := legF F n x
  have n0 : (0 : ℝ) ≤ n := Nat.cast_nonneg n
  have hn2 : (0 : ℝ) < n + 2 := by positivity
  have c1 : (2 * (n + 2) - 1 : ℝ) = 2 * n + 3 := by ring
  rw [c1]
  have hpx : |p * x| ≤ 2 := by
    rw [abs_mul]
    nlinarith [abs_nonneg p, abs_nonneg x]
  have c0 : (0 : ℝ) ≤ 2 * n + 3 := by positivity
  have pow0 : ∀ w : ℝ, |w - w| ≤ ((1 + F.u) ^ 0 - 1) * |w| := by simp
  have A1 : |F.rd (p * x) - p * x| ≤ ((1 + F.u) ^ 1 - 1) * |p * x| := rel_step (pow0 _)
  have A2 : |F.rd (F.rd (p * x) * (2 * n + 3)) - p * x * (2 * n + 3)| ≤ ((1 + F.u) ^ 2 - 1) * |p * x * (2 * n + 3)| := rel_step (rel_mul (pow0 (2 * (n : ℝ) + 3)) A1)
  have B1 : |F.rd (q * (n + 1)) - q * (n + 1)| ≤ ((1 + F.u) ^ 2 - 1) * |q * (n + 1)| := rel_weaken (by norm_num) (rel_step (pow0 _))
  set S : ℝ := 2 * (2 * n + 3) + 2 * (n + 1) with hS
  have hS0 : 0 ≤ S := by positivity
  have sA : |p * x * (2 * n + 3)| ≤ 2 * (2 * n + 3) := by
    rw [abs_mul, abs_of_nonneg c0]
    exact mul_le_mul_of_nonneg_right hpx c0
  have sB : |q * (n + 1)| ≤ 2 * (n + 1) := by
    rw [abs_mul, abs_of_nonneg (show (0 : ℝ) ≤ n + 1 by positivity)]
    exact mul_le_mul_of_nonneg_right b0 (by positivity)
  have g2 : 0 ≤ (1 + F.u) ^ 2 - 1 := sub_nonneg.2 (one_le_pow_u _)
  have C1 : |(F.rd (F.rd (p * x) * (2 * n + 3)) - F.rd (q * (n + 1))) - (p * x * (2 * n + 3) - q * (n + 1))| ≤ ((1 + F.u) ^ 2 - 1) * S := by
    rw [show F.rd (F.rd (p * x) * (2 * n + 3)) - F.rd (q * (n + 1)) - (p * x * (2 * n + 3) - q * (n + 1)) =
      (F.rd (F.rd (p * x) * (2 * n + 3)) - p * x * (2 * n + 3)) - (F.rd (q * (n + 1)) - q * (n + 1)) by ring]
    refine (abs_sub _ _).trans ?_
    have t1 := A2.trans (mul_le_mul_of_nonneg_left sA g2)
    have t2 := B1.trans (mul_le_mul_of_nonneg_left sB g2)
    refine (add_le_add t1 t2).trans (le_of_eq ?_)
    rw [hS]
    ring
  have w1 : |p * x * (2 * n + 3) - q * (n + 1)| ≤ S := (abs_sub _ _).trans (by linarith)
  have C2 := rd_step (F := F) C1 w1
  set Z := F.rd (F.rd (F.rd (p * x) * (2 * n + 3)) - F.rd (q * (n + 1)))
  set W := p * x * (2 * n + 3) - q * (n + 1) with hW
  have C3 : |Z / (n + 2) - W / (n + 2)| ≤ ((1 + ((1 + F.u) ^ 2 - 1)) * (1 + F.u) - 1) * (S / (n + 2)) := by
    rw [← sub_div, abs_div, abs_of_pos hn2, ← mul_div_assoc]
    gcongr
  have w2 : |W / (n + 2)| ≤ S / (n + 2) := by
    rw [abs_div, abs_of_pos hn2]
    gcongr
  have C4 := rd_step (F := F) C3 w2
  have hSn : S / (n + 2) ≤ 6 := by
    rw [div_le_iff₀ hn2, hS]
    linarith
  have e : x * p + ((n + 1) / (n + 2)) * (x * p - q) = W / (n + 2) := by
    rw [hW]
    field_simp
    ring
  rw [e]
  refine C4.trans ?_
  have g4 : (1 + ((1 + ((1 + F.u) ^ 2 - 1)) * (1 + F.u) - 1)) * (1 + F.u) - 1 ≤ 5 * F.u := by
    have e4 : (1 + ((1 + ((1 + F.u) ^ 2 - 1)) * (1 + F.u) - 1)) * (1 + F.u) - 1 = F.u * (4 + 6 * F.u + 4 * F.u ^ 2 + F.u ^ 3) := by ring
    rw [e4]
    have u2 : F.u ^ 2 ≤ (1 / 8) ^ 2 := by gcongr
    have u3 : F.u ^ 3 ≤ (1 / 8) ^ 3 := by gcongr
    have : 4 + 6 * F.u + 4 * F.u ^ 2 + F.u ^ 3 ≤ 5 := by norm_num at u2 u3 ⊢; linarith
    nlinarith
  have hSn0 : 0 ≤ S / (n + 2) := by positivity
  calc _ ≤ 5 * F.u * (S / (n + 2)) := mul_le_mul_of_nonneg_right g4 hSn0
    _ ≤ 5 * F.u * 6 := by gcongr
    _ = 30 * F.u := by ring

/-- **Accuracy of `legvander`**: on `[-1, 1]` the error of the `n`-th polynomial grows like `n ^ 2`. -/
theorem legF_error {x : ℝ} (hx : |x| ≤ 1) : ∀ n : ℕ, 15 * (n : ℝ) ^ 2 * F.u ≤ 1 → |legF F n x - Basis.legPhi n x| ≤ 15 * (n : ℝ) ^ 2 * F.u := by
  have hu := F.u_nonneg
  intro n
  induction n using Nat.strong_induction_on with
  | _ n ih =>
    intro hn
    match n, ih, hn with
    | 0, _, _ => simp [legF, Basis.legPhi]
    | 1, _, _ =>
      rw [legF, Basis.legPhi, sub_self, abs_zero]
      positivity
    | n + 2, ih, hn =>
      have small : ∀ k, k < n + 2 → |legF F k x| ≤ 2 := by
        intro k hk
        have hk2 : 15 * (k : ℝ) ^ 2 * F.u ≤ 1 := by
          refine le_trans ?_ hn
          have : (k : ℝ) ≤ ((n + 2 : ℕ) : ℝ) := by exact_mod_cast hk.le
          gcongr
        have h1 := (ih k hk hk2).trans hk2
        have h3 := abs_add_le (legF F k x - Basis.legPhi k x) (Basis.legPhi k x)
        rw [sub_add_cancel] at h3
        linarith [abs_legPhi_le hx k]
      have u8 : F.u ≤ 1 / 8 := by
        have h4 : (2 : ℝ) ^ 2 ≤ ((n + 2 : ℕ) : ℝ) ^ 2 := by
          gcongr
          push_cast
          linarith [Nat.cast_nonneg (α := ℝ) n]
        nlinarith
      have := (damped_rec (x := x) (D := 30 * F.u) (e := fun k => legF F k x - Basis.legPhi k x) (r := fun k => ((k : ℝ) + 1) / (k + 2))
        (d := fun k => legF F (k + 2) x - (x * legF F (k + 1) x + ((k + 1) / (k + 2)) * (x * legF F (k + 1) x - legF F k x))) hx ratio_mem (n + 1)
        (fun k hk => legF_local hx u8 (small (k + 1) (by omega)) (small k (by omega)))
        (by
          intro k _
          simp only [leg_damped x k]
          ring) (by simp [legF, Basis.legPhi]) (by simp [legF, Basis.legPhi]) (n + 1) le_rfl).2
      refine this.trans ?_
      push_cast
      nlinarith [mul_nonneg hu (Nat.cast_nonneg (α := ℝ) n)]

/-- **Accuracy of the Legendre Vandermonde matrix** at scaled points in `[-1, 1]`. -/
theorem colF_leg {x : Vec} (hx : ∀ t ∈ x, |t| ≤ 1) {alpha : List ℕ} {d : ℕ} (hd : ∀ a ∈ alpha, a ≤ d) (hu : 15 * (d : ℝ) ^ 2 * F.u ≤ 1) :
    |colF F (legF F) x alpha - ((alpha.zip x).map fun p => Basis.legPhi p.1 p.2).prod| ≤ ((1 + 15 * (d : ℝ) ^ 2 * F.u) * (1 + F.u)) ^ (alpha.zip x).length - 1 := by
  have u0 := F.u_nonneg
  have := prod_error (F := F) (φ := legF F) (ψ := Basis.legPhi) (ε := 15 * (d : ℝ) ^ 2 * F.u) (alpha.zip x) (fun p hp => abs_legPhi_le (hx p.2 (List.of_mem_zip hp).2) _) ?_ 1 1 0
    le_rfl (by simp) (by simp)
  · simpa [colF] using this
  · intro p hp
    have h1 := hd p.1 (List.of_mem_zip hp).1
    have h3 : (p.1 : ℝ) ≤ d := by exact_mod_cast h1
    have h4 : 15 * (p.1 : ℝ) ^ 2 * F.u ≤ 15 * (d : ℝ) ^ 2 * F.u := by gcongr
    exact (legF_error (hx p.2 (List.of_mem_zip hp).2) p.1 (h4.trans hu)).trans h4

/-- Degree up to ten at `1/4` and `-1`, in double precision. -/
example : |colF double (legF double) [1 / 4, -1] [3, 7] - (([3, 7].zip [1 / 4, -1]).map fun p => Basis.legPhi p.1 p.2).prod| ≤
    ((1 + 15 * ((10 : ℕ) : ℝ) ^ 2 * double.u) * (1 + double.u)) ^ 2 - 1 := by
  refine colF_leg (d := 10) ?_ (by decide) (by rw [double_u]; norm_num)
  intro t ht
  simp only [List.mem_cons, List.not_mem_nil, or_false] at ht
  rcases ht with rfl | rfl <;> norm_num [abs_of_pos]

end Verif.Round
