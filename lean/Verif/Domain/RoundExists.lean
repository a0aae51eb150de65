import Verif.Domain.RoundModel
import Mathlib.Data.Int.Log
import Mathlib.Algebra.Order.Round
import Mathlib.Algebra.Order.Field.Power
import Mathlib.Tactic.Positivity
import Mathlib.Tactic.FieldSimp

/-!
# Binary floating point formats

Rounding to `p` significant binary digits, for every way `ρ` of rounding to integers which is monotone, keeps integers and is off by at most `c`
(nearest: `c = 1/2`; up, down or towards zero: `c = 1`).  The exponent is not limited.
-/

namespace Verif.Round

/-- A way of rounding to integers. -/
structure IntRound where
  ρ : ℝ → ℤ
  c : ℝ
  mono : Monotone ρ
  fix : ∀ n : ℤ, ρ n = n
  err : ∀ t, |(ρ t : ℝ) - t| ≤ c

/-- To the nearest integer, ties upwards. -/
noncomputable def nearest : IntRound where
  ρ := round
  c := 1 / 2
  mono := by
    intro a b h
    rw [round_eq, round_eq]
    exact Int.floor_mono (by linarith)
  fix := fun n => round_intCast n
  err := fun t => by rw [abs_sub_comm]; exact abs_sub_round t

/-- Downwards. -/
noncomputable def downwards : IntRound where
  ρ := fun t => ⌊t⌋
  c := 1
  mono := Int.floor_mono
  fix := fun n => Int.floor_intCast n
  err := fun t => by
    rw [abs_le]
    constructor <;> linarith [Int.floor_le t, Int.lt_floor_add_one t]

/-- The factor which makes `t` have `p` digits before the point. -/
noncomputable def scale (p : ℕ) (t : ℝ) : ℝ := 2 ^ ((p : ℤ) - 1 - Int.log 2 |t|)

/-- Rounding to `p` binary digits. -/
noncomputable def rdBin (R : IntRound) (p : ℕ) (t : ℝ) : ℝ := if t = 0 then 0 else R.ρ (t * scale p t) / scale p t

theorem scale_pos (p : ℕ) (t : ℝ) : 0 < scale p t := zpow_pos (by norm_num) _

theorem scale_bounds {p : ℕ} {t : ℝ} (h : t ≠ 0) : (2 : ℝ) ^ ((p : ℤ) - 1) ≤ |t| * scale p t ∧ |t| * scale p t < 2 ^ (p : ℤ) := by
  have h1 := Int.zpow_log_le_self (b := 2) (by norm_num) (abs_pos.2 h)
  have h2 := Int.lt_zpow_succ_log_self (b := 2) (by norm_num) |t|
  have hs := scale_pos p t
  constructor
  · calc (2 : ℝ) ^ ((p : ℤ) - 1) = 2 ^ Int.log 2 |t| * scale p t := by
          rw [scale, ← zpow_add₀ (by norm_num)]; congr 1; ring
      _ ≤ _ := mul_le_mul_of_nonneg_right (by exact_mod_cast h1) hs.le
  · calc |t| * scale p t < 2 ^ (Int.log 2 |t| + 1) * scale p t := mul_lt_mul_of_pos_right (by exact_mod_cast h2) hs
      _ = _ := by rw [scale, ← zpow_add₀ (by norm_num)]; congr 1; ring

theorem rdBin_err (R : IntRound) (p : ℕ) (t : ℝ) : |rdBin R p t - t| ≤ R.c * 2 ^ (1 - (p : ℤ)) * |t| := by
  unfold rdBin
  split_ifs with h
  · simp [h]
  · have hs := scale_pos p t
    obtain ⟨h1, _⟩ := scale_bounds (p := p) h
    have e : (R.ρ (t * scale p t) : ℝ) / scale p t - t = ((R.ρ (t * scale p t) : ℝ) - t * scale p t) / scale p t := by field_simp
    rw [e, abs_div, abs_of_pos hs, div_le_iff₀ hs]
    have hc : 0 ≤ R.c := (abs_nonneg _).trans (R.err 0)
    refine (R.err _).trans ?_
    have e2 : (2 : ℝ) ^ (1 - (p : ℤ)) * 2 ^ ((p : ℤ) - 1) = 1 := by rw [← zpow_add₀ (by norm_num)]; simp
    have h3 : (0 : ℝ) < 2 ^ (1 - (p : ℤ)) := by positivity
    calc R.c = R.c * (2 ^ (1 - (p : ℤ)) * 2 ^ ((p : ℤ) - 1)) := by rw [e2, mul_one]
      _ ≤ R.c * (2 ^ (1 - (p : ℤ)) * (|t| * scale p t)) := by gcongr
      _ = _ := by ring

theorem rdBin_pos {R : IntRound} {p : ℕ} (hp : 1 ≤ p) {t : ℝ} (h : 0 < t) :
    (2 : ℝ) ^ Int.log 2 t ≤ rdBin R p t ∧ rdBin R p t ≤ 2 ^ (Int.log 2 t + 1) := by
  obtain ⟨h1, h2⟩ := scale_bounds (p := p) h.ne'
  have hs := scale_pos p t
  rw [abs_of_pos h] at h1 h2
  rw [rdBin, if_neg h.ne']
  have c1 : ((2 ^ (p - 1) : ℤ) : ℝ) = 2 ^ ((p : ℤ) - 1) := by
    rw [show ((p : ℤ) - 1) = ((p - 1 : ℕ) : ℤ) by omega]; simp
  have c2 : ((2 ^ p : ℤ) : ℝ) = 2 ^ (p : ℤ) := by simp
  have r1 : ((2 ^ (p - 1) : ℤ) : ℝ) ≤ R.ρ (t * scale p t) := by
    have := R.mono (c1 ▸ h1)
    rw [R.fix] at this
    exact_mod_cast this
  have r2 : (R.ρ (t * scale p t) : ℝ) ≤ ((2 ^ p : ℤ) : ℝ) := by
    have := R.mono (c2 ▸ h2.le)
    rw [R.fix] at this
    exact_mod_cast this
  constructor
  · rw [le_div_iff₀ hs]
    refine le_trans (le_of_eq ?_) r1
    rw [c1, scale, abs_of_pos h, ← zpow_add₀ (by norm_num)]; congr 1; ring
  · rw [div_le_iff₀ hs]
    refine r2.trans (le_of_eq ?_)
    rw [c2, scale, abs_of_pos h, ← zpow_add₀ (by norm_num)]; congr 1; ring

theorem rdBin_neg {R : IntRound} {p : ℕ} (hp : 1 ≤ p) {t : ℝ} (h : t < 0) :
    -(2 : ℝ) ^ (Int.log 2 (-t) + 1) ≤ rdBin R p t ∧ rdBin R p t ≤ -(2 : ℝ) ^ Int.log 2 (-t) := by
  obtain ⟨h1, h2⟩ := scale_bounds (p := p) h.ne
  have hs := scale_pos p t
  rw [abs_of_neg h] at h1 h2
  rw [rdBin, if_neg h.ne]
  have c1 : ((-2 ^ (p - 1) : ℤ) : ℝ) = -2 ^ ((p : ℤ) - 1) := by
    rw [show ((p : ℤ) - 1) = ((p - 1 : ℕ) : ℤ) by omega]; simp
  have c2 : ((-2 ^ p : ℤ) : ℝ) = -2 ^ (p : ℤ) := by simp
  have r1 : (R.ρ (t * scale p t) : ℝ) ≤ ((-2 ^ (p - 1) : ℤ) : ℝ) := by
    have := R.mono (show t * scale p t ≤ ((-2 ^ (p - 1) : ℤ) : ℝ) by rw [c1]; linarith)
    rw [R.fix] at this
    exact_mod_cast this
  have r2 : ((-2 ^ p : ℤ) : ℝ) ≤ R.ρ (t * scale p t) := by
    have := R.mono (show ((-2 ^ p : ℤ) : ℝ) ≤ t * scale p t by rw [c2]; linarith)
    rw [R.fix] at this
    exact_mod_cast this
  constructor
  · rw [le_div_iff₀ hs]
    refine le_trans (le_of_eq ?_) r2
    rw [c2, scale, abs_of_neg h, neg_mul, ← zpow_add₀ (by norm_num)]; congr 2; ring
  · rw [div_le_iff₀ hs]
    refine r1.trans (le_of_eq ?_)
    rw [c1, scale, abs_of_neg h, neg_mul, ← zpow_add₀ (by norm_num)]; congr 2; ring

theorem rdBin_mono (R : IntRound) {p : ℕ} (hp : 1 ≤ p) : Monotone (rdBin R p) := by
  intro s t hst
  have z : rdBin R p 0 = 0 := by simp [rdBin]
  have pos : ∀ t, 0 < t → 0 ≤ rdBin R p t := fun t h => le_trans (by positivity) (rdBin_pos hp h).1
  have neg : ∀ t, t < 0 → rdBin R p t ≤ 0 := fun t h => (rdBin_neg hp h).2.trans (by simp; positivity)
  rcases lt_trichotomy s 0 with hs | rfl | hs
  · rcases lt_trichotomy t 0 with ht | rfl | ht
    · have hl : Int.log 2 (-t) ≤ Int.log 2 (-s) := Int.log_mono_right (by linarith) (by linarith)
      rcases hl.lt_or_eq with hl | hl
      · refine (rdBin_neg hp hs).2.trans (le_trans ?_ (rdBin_neg hp ht).1)
        exact neg_le_neg (zpow_le_zpow_right₀ (by norm_num) (by omega))
      · have e : scale p s = scale p t := by rw [scale, scale, abs_of_neg hs, abs_of_neg ht, hl]
        rw [rdBin, rdBin, if_neg hs.ne, if_neg ht.ne, e]
        have := R.mono (mul_le_mul_of_nonneg_right hst (scale_pos p t).le)
        exact div_le_div_of_nonneg_right (by exact_mod_cast this) (scale_pos p t).le
    · rw [z]; exact neg s hs
    · exact (neg s hs).trans (pos t ht)
  · rcases hst.lt_or_eq with ht | rfl
    · rw [z]; exact pos t ht
    · exact le_refl _
  · have ht : 0 < t := hs.trans_le hst
    have hl : Int.log 2 s ≤ Int.log 2 t := Int.log_mono_right hs hst
    rcases hl.lt_or_eq with hl | hl
    · refine (rdBin_pos hp hs).2.trans (le_trans ?_ (rdBin_pos hp ht).1)
      exact zpow_le_zpow_right₀ (by norm_num) (by omega)
    · have e : scale p s = scale p t := by rw [scale, scale, abs_of_pos hs, abs_of_pos ht, hl]
      rw [rdBin, rdBin, if_neg hs.ne', if_neg ht.ne', e]
      have := R.mono (mul_le_mul_of_nonneg_right hst (scale_pos p t).le)
      exact div_le_div_of_nonneg_right (by exact_mod_cast this) (scale_pos p t).le

/-- Numbers `k 2^e` with at most `p` digits are kept. -/
theorem rdBin_fix (R : IntRound) {p : ℕ} (hp : 1 ≤ p) (k e : ℤ) (hk : |k| ≤ 2 ^ p) : rdBin R p ((k : ℝ) * 2 ^ e) = (k : ℝ) * 2 ^ e := by
  by_cases h0 : (k : ℝ) * 2 ^ e = 0
  · simp [rdBin, h0]
  · rw [rdBin, if_neg h0]
    have hs := scale_pos p ((k : ℝ) * 2 ^ e)
    rw [div_eq_iff hs.ne']
    -- the scaled number is an integer
    have hlog : Int.log 2 |(k : ℝ) * 2 ^ e| ≤ e + p := by
      have hle : |(k : ℝ) * 2 ^ e| ≤ 2 ^ (e + p) := by
        rw [abs_mul, abs_of_pos (show (0 : ℝ) < 2 ^ e by positivity), zpow_add₀ (by norm_num), mul_comm]
        have : ((|k| : ℤ) : ℝ) ≤ ((2 ^ p : ℤ) : ℝ) := by exact_mod_cast hk
        push_cast at this
        rw [zpow_natCast]
        gcongr
      have := Int.log_mono_right (b := 2) (abs_pos.2 h0) hle
      rwa [show (2 : ℝ) = ((2 : ℕ) : ℝ) by norm_num, Int.log_zpow (by norm_num)] at this
    rcases hlog.lt_or_eq with hlt | heq
    · have e1 : (k : ℝ) * 2 ^ e * scale p ((k : ℝ) * 2 ^ e) = ((k * 2 ^ (e + p - 1 - Int.log 2 |(k : ℝ) * 2 ^ e|).toNat : ℤ) : ℝ) := by
        push_cast
        rw [← zpow_natCast, Int.toNat_of_nonneg (by omega), mul_assoc]
        rw [scale, ← zpow_add₀ (by norm_num)]
        congr 2; ring
      rw [e1, R.fix]
    · -- then the number is plus or minus `2 ^ (e + p)`
      have hge := Int.zpow_log_le_self (b := 2) (r := |(k : ℝ) * 2 ^ e|) (by norm_num) (abs_pos.2 h0)
      rw [heq, abs_mul, abs_of_pos (show (0 : ℝ) < 2 ^ e by positivity)] at hge
      push_cast at hge
      rw [zpow_add₀ (by norm_num), mul_comm, zpow_natCast] at hge
      have h2 : (2 : ℝ) ^ p ≤ |(k : ℝ)| := le_of_mul_le_mul_right hge (by positivity)
      have h3 : |k| = 2 ^ p := by
        apply le_antisymm hk
        have : ((2 ^ p : ℤ) : ℝ) ≤ ((|k| : ℤ) : ℝ) := by push_cast; exact h2
        exact_mod_cast this
      have e1 : ∀ s : ℤ, k = s * 2 ^ p → (k : ℝ) * 2 ^ e * scale p ((k : ℝ) * 2 ^ e) = ((s * 2 ^ (p - 1) : ℤ) : ℝ) := by
        intro s hs
        rw [scale, heq, hs]
        push_cast
        rw [mul_assoc, mul_assoc, ← zpow_add₀ (by norm_num), ← zpow_natCast, ← zpow_natCast, ← zpow_add₀ (by norm_num)]
        congr 2; omega
      rcases abs_choice k with hc | hc
      · rw [e1 1 (by rw [one_mul, ← h3, hc]), R.fix]
      · rw [e1 (-1) (by rw [← h3, hc]; ring), R.fix]

/-- Every result of rounding is such a number. -/
theorem rdBin_form (R : IntRound) {p : ℕ} (hp : 1 ≤ p) (t : ℝ) : ∃ k e : ℤ, |k| ≤ 2 ^ p ∧ rdBin R p t = (k : ℝ) * 2 ^ e := by
  by_cases h : t = 0
  · exact ⟨0, 0, by simp, by simp [rdBin, h]⟩
  · refine ⟨R.ρ (t * scale p t), -((p : ℤ) - 1 - Int.log 2 |t|), ?_, ?_⟩
    · obtain ⟨_, h2⟩ := scale_bounds (p := p) h
      rw [← abs_of_pos (scale_pos p t), ← abs_mul, abs_lt] at h2
      have c : ((2 ^ p : ℤ) : ℝ) = 2 ^ (p : ℤ) := by simp
      have c' : ((-2 ^ p : ℤ) : ℝ) = -2 ^ (p : ℤ) := by simp
      rw [abs_le]
      constructor
      · have := R.mono (show ((-2 ^ p : ℤ) : ℝ) ≤ t * scale p t by rw [c']; exact h2.1.le)
        rwa [R.fix] at this
      · have := R.mono (show t * scale p t ≤ ((2 ^ p : ℤ) : ℝ) by rw [c]; exact h2.2.le)
        rwa [R.fix] at this
    · rw [rdBin, if_neg h, zpow_neg, div_eq_mul_inv]
      rfl

/-- The format with `p` binary digits. -/
noncomputable def binary (R : IntRound) (p : ℕ) (hp : 1 ≤ p) (hu : R.c * 2 ^ (1 - (p : ℤ)) < 1) : FP where
  rd := rdBin R p
  u := R.c * 2 ^ (1 - (p : ℤ))
  u_nonneg := mul_nonneg ((abs_nonneg _).trans (R.err 0)) (by positivity)
  u_lt := hu
  err := rdBin_err R p
  mono := rdBin_mono R hp
  idem := by
    intro t
    obtain ⟨k, e, hk, h⟩ := rdBin_form R hp t
    rw [h, rdBin_fix R hp k e hk]

/-- Double precision, to nearest. -/
noncomputable def double : FP := binary nearest 53 (by norm_num) (by norm_num [nearest])

theorem double_u : double.u = 1 / 2 ^ 53 := by
  norm_num [double, binary, nearest]

end Verif.Round
