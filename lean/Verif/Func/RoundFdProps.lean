import Verif.Func.RoundFdModel
import Verif.Domain.RoundNorm

/-!
# Accuracy of finite difference gradients
-/

namespace Verif.Round

open Verif

variable {F : FP}

/-- With coordinates in the format, one coordinate is moved and the others are kept. -/
theorem moved_eq {h : ℝ} (hh : F.Float h) {x : Vec} (hx : ∀ t ∈ x, F.Float t) (i : ℕ) : moved F h x i = x.set i (F.rd (x.getD i 0 + h)) := by
  apply List.ext_getElem
  · simp [moved]
  · intro j h1 h2
    have hj : j < x.length := by simpa [moved] using h1
    have hf : F.rd x[j] = x[j] := hx _ (List.getElem_mem hj)
    have hh' : F.rd h = h := hh
    simp only [moved, List.getElem_zipWith, List.getElem_range, List.getElem_set]
    by_cases hji : j = i
    · subst hji
      simp [hh', hj]
    · rw [if_neg hji, if_neg (Ne.symm hji), mul_zero, rd_zero, add_zero, hf]

/-- **Accuracy of a finite difference gradient.**  Let `g` be the partial derivative, `K` bound the curvature along the coordinate (by Taylor's theorem, half the second
derivative), and let the function values be computed up to `ε`.  The computed entry is off by the truncation error `K h`, the error `2 ε / h` of the values, and the
error of the moved coordinate `u |t + h|` relative to the step. -/
theorem gradF_error {h : ℝ} (hh : F.Float h) (hpos : 0 < h) {x : Vec} (hx : ∀ t ∈ x, F.Float t) {f fhat : Vec → ℝ} {i : ℕ} (hi : i < x.length) {g K ε η : ℝ} (hK : 0 ≤ K)
    (hsmooth : ∀ s, |f (x.set i s) - f x - g * (s - x.getD i 0)| ≤ K * (s - x.getD i 0) ^ 2)
    (hε : |fhat x - f x| ≤ ε) (hε' : |fhat (x.set i (F.rd (x.getD i 0 + h))) - f (x.set i (F.rd (x.getD i 0 + h)))| ≤ ε)
    (hη : F.u * |x.getD i 0 + h| ≤ η) :
    ∃ y, (gradF F h fhat x)[i]? = some y ∧
      |y - g| ≤ (1 + F.u) ^ 2 * ((2 * ε + |g| * η + K * (h + η) ^ 2) / h) + ((1 + F.u) ^ 2 - 1) * |g| := by
  refine ⟨quotient F h fhat x i, by simp [gradF, hi], ?_⟩
  have hu := F.u_nonneg
  rw [quotient, moved_eq hh hx]
  set t := x.getD i 0 with ht
  set s := F.rd (t + h) with hs
  have e1 : |s - t - h| ≤ η := by
    have := F.err (t + h)
    rw [show s - t - h = F.rd (t + h) - (t + h) by rw [← hs]; ring]
    exact this.trans hη
  have η0 : 0 ≤ η := (abs_nonneg _).trans e1
  have e2 : |s - t| ≤ h + η := by
    have := abs_add_le (s - t - h) h
    rw [sub_add_cancel, abs_of_pos hpos] at this
    linarith
  have e3 : (s - t) ^ 2 ≤ (h + η) ^ 2 := by
    rw [← sq_abs]
    gcongr
  have e4 := hsmooth s
  set A := fhat (x.set i s) - fhat x with hA
  have e5 : |A - g * h| ≤ 2 * ε + |g| * η + K * (h + η) ^ 2 := by
    have d : A - g * h = (fhat (x.set i s) - f (x.set i s)) - (fhat x - f x) + (f (x.set i s) - f x - g * (s - t)) + g * (s - t - h) := by rw [hA]; ring
    rw [d]
    refine (abs_add_le _ _).trans ?_
    rw [abs_mul g]
    have a1 := abs_add_le ((fhat (x.set i s) - f (x.set i s)) - (fhat x - f x)) (f (x.set i s) - f x - g * (s - t))
    have a2 := abs_sub (fhat (x.set i s) - f (x.set i s)) (fhat x - f x)
    have a3 : |g| * |s - t - h| ≤ |g| * η := mul_le_mul_of_nonneg_left e1 (abs_nonneg _)
    have a4 := mul_le_mul_of_nonneg_left e3 hK
    linarith
  set B := 2 * ε + |g| * η + K * (h + η) ^ 2 with hB
  have B0 : 0 ≤ B := (abs_nonneg _).trans e5
  -- two roundings
  have r1 := F.err A
  have r2 := F.err (F.rd A / h)
  have q1 : |A| ≤ B + |g| * h := by
    have := abs_add_le (A - g * h) (g * h)
    rw [sub_add_cancel, abs_mul, abs_of_pos hpos] at this
    linarith
  have q2 : |F.rd A / h - g| ≤ ((1 + F.u) * (B / h)) + F.u * |g| := by
    rw [show F.rd A / h - g = (F.rd A - g * h) / h by field_simp, abs_div, abs_of_pos hpos, div_le_iff₀ hpos]
    have := abs_add_le (F.rd A - A) (A - g * h)
    rw [sub_add_sub_cancel] at this
    have : |F.rd A - g * h| ≤ F.u * (B + |g| * h) + B := by
      have := mul_le_mul_of_nonneg_left q1 hu
      linarith
    have e : ((1 + F.u) * (B / h) + F.u * |g|) * h = F.u * (B + |g| * h) + B := by field_simp; ring
    rw [e]; exact this
  have q3 : |F.rd A / h| ≤ (1 + F.u) * (B / h) + (1 + F.u) * |g| := by
    have := abs_add_le (F.rd A / h - g) g
    rw [sub_add_cancel] at this
    linarith
  have q4 := mul_le_mul_of_nonneg_left q3 hu
  have q5 := abs_add_le (F.rd (F.rd A / h) - F.rd A / h) (F.rd A / h - g)
  rw [sub_add_sub_cancel] at q5
  nlinarith

/-- **Where it fails**: in an unbounded coordinate (which is not rescaled) at `2^31`, a step of `1e-7` is lost in rounding and the gradient of every function is
zero. -/
theorem gradF_lost_false (f : Vec → ℝ) : gradF double (double.rd (1 / 10 ^ 7)) f [2 ^ 31] = [0] := by
  have hf : double.Float (2 ^ 31) := by
    have := double_fix 1 31 (by norm_num)
    norm_num at this ⊢
    exact this
  have hh : double.Float (double.rd (1 / 10 ^ 7)) := double.idem _
  have hsm : |double.rd (1 / 10 ^ 7) - 1 / 10 ^ 7| ≤ 1 / 2 ^ 53 * (1 / 10 ^ 7) := by
    have := double.err (1 / 10 ^ 7)
    rwa [double_u, abs_of_pos (show (0 : ℝ) < 1 / 10 ^ 7 by norm_num)] at this
  have h1 : 0 ≤ double.rd (1 / 10 ^ 7) := rd_nonneg (by norm_num)
  have h2 : double.rd (1 / 10 ^ 7) ≤ 2 / 10 ^ 7 := by
    have := (abs_le.1 hsm).2
    norm_num at this ⊢
    linarith
  have lost : double.rd (2 ^ 31 + double.rd (1 / 10 ^ 7)) = 2 ^ 31 := by
    generalize double.rd (1 / 10 ^ 7) = h at h1 h2
    have hpos : (0 : ℝ) < 2 ^ 31 + h := by positivity
    have hl : Int.log 2 (2 ^ 31 + h : ℝ) = 31 := log_of (by norm_num; linarith) (by norm_num at h2 ⊢; linarith)
    change rdBin nearest 53 _ = _
    rw [rdBin, if_neg hpos.ne', scale, abs_of_pos hpos, hl]
    have : nearest.ρ ((2 ^ 31 + h : ℝ) * 2 ^ ((53 : ℕ) - 1 - 31 : ℤ)) = 2 ^ 52 := by
      change round _ = _
      rw [round_eq, Int.floor_eq_iff]
      norm_num at h2 ⊢
      constructor <;> linarith
    rw [this]
    norm_num
  have hm : moved double (double.rd (1 / 10 ^ 7)) [2 ^ 31] 0 = [2 ^ 31] := by
    rw [moved_eq hh (by simpa using hf), List.getD_cons_zero, lost, List.set_cons_zero]
  simp only [gradF, List.length_cons, List.length_nil, zero_add, List.range_one, List.map_cons, List.map_nil, quotient, hm, sub_self, rd_zero, zero_div]

/-- The hypotheses can be met: `x ^ 2` at `1` in double precision with step `1/8`, evaluated with one rounding. -/
example : ∃ y, (gradF double (1 / 8) (fun x => double.rd (x.getD 0 0 ^ 2)) [1])[0]? = some y ∧
    |y - 2| ≤ (1 + double.u) ^ 2 * ((2 * 1 + |2| * 2 + 1 * (1 / 8 + 2) ^ 2) / (1 / 8)) + ((1 + double.u) ^ 2 - 1) * |2| := by
  have h8 : double.Float (1 / 8) := by
    have := double_fix 1 (-3) (by norm_num)
    norm_num at this ⊢
    exact this
  have h1 : double.Float 1 := by
    change double.rd 1 = 1
    simpa using double_int 1 (by norm_num)
  have hu : double.u ≤ 1 / 4 := by rw [double_u]; norm_num
  have hm := double.err (1 + 1 / 8)
  have hs : |double.rd (1 + 1 / 8)| ≤ 3 / 2 := by
    have e := abs_le.1 hm
    rw [abs_of_pos (show (0 : ℝ) < 1 + 1 / 8 by norm_num)] at e
    rw [abs_le]
    constructor <;> linarith [e.1, e.2]
  have sq : ∀ s : ℝ, |s| ≤ 3 / 2 → |double.rd (s ^ 2) - s ^ 2| ≤ 1 := by
    intro s hs
    have a := double.err (s ^ 2)
    rw [abs_of_nonneg (sq_nonneg s)] at a
    have b : s ^ 2 ≤ 9 / 4 := by rw [← sq_abs]; nlinarith [abs_nonneg s]
    have c := mul_le_mul hu b (sq_nonneg s) (by norm_num)
    linarith
  refine gradF_error (f := fun x => x.getD 0 0 ^ 2) h8 (by norm_num) (by simpa using h1) (by simp) (by norm_num) ?_ ?_ ?_ ?_
  · intro s
    simp only [List.set_cons_zero, List.getD_cons_zero]
    rw [show s ^ 2 - 1 ^ 2 - 2 * (s - 1) = (s - 1) ^ 2 by ring, abs_of_nonneg (sq_nonneg _), one_mul]
  · exact sq _ (by norm_num)
  · simpa using sq _ hs
  · simp only [List.getD_cons_zero]
    rw [abs_of_pos (by norm_num)]
    linarith

end Verif.Round
