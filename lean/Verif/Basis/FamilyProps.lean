import Mathlib.Analysis.Calculus.Deriv.Pow
import Verif.Basis.FamilyModel
import Verif.Basis.TensorProps

/-!
# The scalar polynomials of the five basis classes meet the assumptions of C26 and C27
-/

namespace Verif.Basis

open Verif

/-- The sum for a reversed coefficient list. -/
noncomputable def revSeries (phi : ℕ → ℝ → ℝ) : List ℝ → ℝ → ℝ
  | [], _ => 0
  | a :: l, x => a * phi l.length x + revSeries phi l x

theorem series_reverse (F : Family) (l : List ℝ) (x : ℝ) : F.series l.reverse x = revSeries F.phi l x := by
  induction l with
  | nil => simp [Family.series, revSeries]
  | cons a l ih =>
    unfold Family.series at *
    rw [List.reverse_cons, List.mapIdx_append, List.sum_append, ih]
    simp [revSeries, add_comm]

theorem series_eq (F : Family) (c : List ℝ) (x : ℝ) : F.series c x = revSeries F.phi c.reverse x := by
  rw [← series_reverse, List.reverse_reverse]

/-- The derivative rule used by a loop: `phi j' = k j phi (j-1) + s1 j phi (j-1)' + s2 j phi (j-2)'`. -/
structure Rule (phi phi' : ℕ → ℝ → ℝ) (k s1 s2 : ℕ → ℝ) : Prop where
  der : ∀ n x, HasDerivAt (phi n) (phi' n x) x
  zero : ∀ x, phi' 0 x = 0
  one : ∀ x, phi' 1 x = k 1 * phi 0 x
  step : ∀ n x, phi' (n + 2) x = k (n + 2) * phi (n + 1) x + s1 (n + 2) * phi' (n + 1) x + s2 (n + 2) * phi' n x

theorem revSeries_deriv {phi phi' : ℕ → ℝ → ℝ} (h : ∀ n x, HasDerivAt (phi n) (phi' n x) x) (l : List ℝ) (x : ℝ) :
    HasDerivAt (revSeries phi l) (revSeries phi' l x) x := by
  induction l with
  | nil => simpa [revSeries] using hasDerivAt_const x (0 : ℝ)
  | cons a l ih => exact ((h l.length x).const_mul a).add ih

theorem derRev_length (k s1 s2 : ℕ → ℝ) (l : List ℝ) : (derRev k s1 s2 l).length = l.length - 1 := by
  fun_induction derRev k s1 s2 l with
  | case1 => rfl
  | case2 => rfl
  | case3 => rfl
  | case4 cj cj1 cj2 rest ih => simp only [List.length_cons] at *; omega

theorem derRev_series {phi phi' : ℕ → ℝ → ℝ} {k s1 s2 : ℕ → ℝ} (h : Rule phi phi' k s1 s2) (l : List ℝ) (x : ℝ) :
    revSeries phi (derRev k s1 s2 l) x = revSeries phi' l x := by
  fun_induction derRev k s1 s2 l with
  | case1 => rfl
  | case2 a => simp [revSeries, h.zero]
  | case3 c1 c0 => simp [revSeries, h.zero, h.one]; ring
  | case4 cj cj1 cj2 rest ih =>
    have hl : (derRev k s1 s2 ((cj1 + s1 (rest.length + 2) * cj) :: (cj2 + s2 (rest.length + 2) * cj) :: rest)).length = rest.length + 1 := by
      rw [derRev_length]; simp
    simp only [revSeries] at ih ⊢
    rw [hl, ih]
    simp only [List.length_cons, h.step]
    ring

theorem derOnce_length (k s1 s2 : ℕ → ℝ) (c : List ℝ) : (derOnce k s1 s2 c).length = c.length - 1 := by
  simp [derOnce, derRev_length]

/-- A family built from such a rule is good. -/
theorem good_of_rule {phi phi' : ℕ → ℝ → ℝ} {k s1 s2 : ℕ → ℝ} (h : Rule phi phi' k s1 s2) : Family.Good ⟨phi, derMany k s1 s2⟩ := by
  have hd : ∀ (c : List ℝ) (x : ℝ), HasDerivAt (Family.series ⟨phi, derMany k s1 s2⟩ c)
      (Family.series ⟨phi, derMany k s1 s2⟩ (derOnce k s1 s2 c) x) x := by
    intro c x
    have e : Family.series ⟨phi, derMany k s1 s2⟩ c = revSeries phi c.reverse := by funext t; exact series_eq _ c t
    rw [e, derOnce, series_reverse]
    show HasDerivAt _ (revSeries phi _ x) x
    rw [derRev_series h]
    exact revSeries_deriv h.der _ x
  have hz : ∀ (a : List ℝ) (x : ℝ), Family.series ⟨phi, derMany k s1 s2⟩ ((a.take 1).map (fun a => a * 0)) x = 0 := by
    intro a x
    rcases a with _ | ⟨a, l⟩ <;> simp [Family.series]
  have hc : ∀ c : List ℝ, c.length ≤ 1 → ∀ x, HasDerivAt (Family.series ⟨phi, derMany k s1 s2⟩ c) 0 x := by
    intro c hl x
    have := hd c x
    have e : derOnce k s1 s2 c = [] := List.eq_nil_of_length_eq_zero (by rw [derOnce_length]; omega)
    rw [e] at this
    simpa [Family.series] using this
  refine ⟨fun x => ?_, fun c hl => ?_, fun c hne => ?_⟩
  · have := h.der 0 x
    rwa [h.zero] at this
  · have e : derMany k s1 s2 c 1 = derOnce k s1 s2 c := by
      unfold derMany
      rw [if_neg (by omega)]; rfl
    refine ⟨by simp only [e, derOnce_length]; omega, fun x => ?_⟩
    simp only [e]
    exact hd c x
  · have hder : deriv (Family.series ⟨phi, derMany k s1 s2⟩ c) = Family.series ⟨phi, derMany k s1 s2⟩ (derOnce k s1 s2 c) := by
      funext t; exact (hd c t).deriv
    rw [hder]
    by_cases hl : c.length ≤ 2
    · have e : derMany k s1 s2 c 2 = (c.take 1).map (fun a => a * 0) := by unfold derMany; rw [if_pos hl]
      simp only [e]
      refine ⟨by simp, fun x => ?_⟩
      rw [hz]
      exact hc _ (by rw [derOnce_length]; omega) x
    · have e : derMany k s1 s2 c 2 = derOnce k s1 s2 (derOnce k s1 s2 c) := by
        unfold derMany
        rw [if_neg hl]; rfl
      simp only [e]
      refine ⟨by simp only [derOnce_length]; omega, fun x => hd _ x⟩

/-! ## The five families -/

/-- `MonomialTensorBasis`. -/
theorem mono_good : monoFamily.Good := by
  refine good_of_rule (phi' := fun n x => n * x ^ (n - 1)) ⟨fun n x => hasDerivAt_pow n x, by simp, by simp [monoPhi], fun n x => ?_⟩
  simp [monoPhi]

/-- Derivatives of the Legendre polynomials. -/
noncomputable def legPhi' : ℕ → ℝ → ℝ
  | 0, _ => 0
  | 1, _ => 1
  | n + 2, x => ((legPhi' (n + 1) x * x + legPhi (n + 1) x) * (2 * (n + 2) - 1) - legPhi' n x * (n + 1)) / (n + 2)

theorem leg_der (n : ℕ) : (∀ x, HasDerivAt (legPhi n) (legPhi' n x) x) ∧ ∀ x, HasDerivAt (legPhi (n + 1)) (legPhi' (n + 1) x) x := by
  induction n with
  | zero => exact ⟨fun x => hasDerivAt_const x 1, fun x => hasDerivAt_id x⟩
  | succ n ih =>
    refine ⟨ih.2, fun x => ?_⟩
    have := ((((ih.2 x).mul (hasDerivAt_id x)).mul_const (2 * ((n : ℝ) + 2) - 1)).sub ((ih.1 x).mul_const ((n : ℝ) + 1))).div_const ((n : ℝ) + 2)
    exact HasDerivAt.congr_deriv (f := legPhi (n + 2)) this (by simp [legPhi'])

theorem leg_rec (n : ℕ) (x : ℝ) : ((n : ℝ) + 2) * legPhi (n + 2) x = (2 * n + 3) * x * legPhi (n + 1) x - (n + 1) * legPhi n x := by
  have : (n : ℝ) + 2 ≠ 0 := by positivity
  simp only [legPhi]
  field_simp
  ring

theorem leg_rec' (n : ℕ) (x : ℝ) :
    ((n : ℝ) + 2) * legPhi' (n + 2) x = (2 * n + 3) * (x * legPhi' (n + 1) x + legPhi (n + 1) x) - (n + 1) * legPhi' n x := by
  have : (n : ℝ) + 2 ≠ 0 := by positivity
  simp only [legPhi']
  field_simp
  ring

theorem leg_ids (n : ℕ) (x : ℝ) : legPhi' (n + 1) x = (n + 1) * legPhi n x + x * legPhi' n x ∧
    x * legPhi' (n + 1) x = (n + 1) * legPhi (n + 1) x + legPhi' n x ∧
    (x ^ 2 - 1) * legPhi' (n + 1) x = (n + 1) * (x * legPhi (n + 1) x - legPhi n x) := by
  induction n with
  | zero => simp [legPhi, legPhi']; ring
  | succ n ih =>
    obtain ⟨i1, i2, i3⟩ := ih
    have r := leg_rec n x
    have r' := leg_rec' n x
    have hn : (n : ℝ) + 2 ≠ 0 := by positivity
    have a1 : legPhi' (n + 2) x = (n + 2) * legPhi (n + 1) x + x * legPhi' (n + 1) x := by
      apply mul_left_cancel₀ hn
      rw [r']
      linear_combination (n + 1 : ℝ) * i2
    refine ⟨?_, ?_, ?_⟩
    · push_cast; rw [a1]; ring
    · push_cast
      have : x * legPhi' (n + 2) x = ((n : ℝ) + 2) * legPhi (n + 2) x + legPhi' (n + 1) x := by
        rw [a1, r]
        linear_combination i3
      rw [show ((n : ℝ) + 1 + 1) = n + 2 by ring]; exact this
    · push_cast
      rw [a1]
      linear_combination x * i3 - x * r

/-- `LegendreTensorBasis`. -/
theorem leg_good : legFamily.Good := by
  refine good_of_rule (phi' := legPhi') ⟨fun n => (leg_der n).1, by simp [legPhi'], fun x => by norm_num [legPhi', legPhi], fun n x => ?_⟩
  obtain ⟨i1, i2, -⟩ := leg_ids n x
  obtain ⟨j1, -, -⟩ := leg_ids (n + 1) x
  push_cast at *
  rw [j1]
  linear_combination i2

/-- Derivatives of the Chebyshev polynomials. -/
noncomputable def chebPhi' : ℕ → ℝ → ℝ
  | 0, _ => 0
  | 1, _ => 1
  | n + 2, x => chebPhi' (n + 1) x * (2 * x) + chebPhi (n + 1) x * 2 - chebPhi' n x

theorem cheb_der (n : ℕ) : (∀ x, HasDerivAt (chebPhi n) (chebPhi' n x) x) ∧ ∀ x, HasDerivAt (chebPhi (n + 1)) (chebPhi' (n + 1) x) x := by
  induction n with
  | zero => exact ⟨fun x => hasDerivAt_const x 1, fun x => hasDerivAt_id x⟩
  | succ n ih =>
    refine ⟨ih.2, fun x => ?_⟩
    have := ((ih.2 x).mul ((hasDerivAt_id x).const_mul 2)).sub (ih.1 x)
    exact HasDerivAt.congr_deriv (f := chebPhi (n + 2)) this (by simp [chebPhi'])

/-- Chebyshev polynomials of the second kind. -/
noncomputable def chebU : ℕ → ℝ → ℝ
  | 0, _ => 1
  | 1, x => 2 * x
  | n + 2, x => 2 * x * chebU (n + 1) x - chebU n x

theorem cheb_TU (n : ℕ) (x : ℝ) : chebU (n + 2) x = chebU n x + 2 * chebPhi (n + 2) x ∧
    chebU (n + 3) x = chebU (n + 1) x + 2 * chebPhi (n + 3) x := by
  induction n with
  | zero => simp [chebU, chebPhi]; constructor <;> ring
  | succ n ih =>
    refine ⟨ih.2, ?_⟩
    have e1 : chebU (n + 1 + 3) x = 2 * x * chebU (n + 3) x - chebU (n + 2) x := rfl
    have e2 : chebU (n + 2) x = 2 * x * chebU (n + 1) x - chebU n x := rfl
    have e3 : chebPhi (n + 1 + 3) x = chebPhi (n + 3) x * (2 * x) - chebPhi (n + 2) x := rfl
    rw [e1, e3]
    show _ = chebU (n + 2) x + _
    linear_combination 2 * x * ih.2 - ih.1 - e2

theorem cheb_TU2 (n : ℕ) (x : ℝ) : chebPhi (n + 1) x = chebU (n + 1) x - x * chebU n x ∧
    chebPhi (n + 2) x = chebU (n + 2) x - x * chebU (n + 1) x := by
  induction n with
  | zero => simp [chebU, chebPhi]; constructor <;> ring
  | succ n ih =>
    refine ⟨ih.2, ?_⟩
    have e1 : chebU (n + 1 + 2) x = 2 * x * chebU (n + 2) x - chebU (n + 1) x := rfl
    have e2 : chebU (n + 1 + 1) x = 2 * x * chebU (n + 1) x - chebU n x := rfl
    have e3 : chebPhi (n + 1 + 2) x = chebPhi (n + 2) x * (2 * x) - chebPhi (n + 1) x := rfl
    rw [e3, ih.1, ih.2, e1, e2]
    ring

theorem cheb_dU (n : ℕ) (x : ℝ) : chebPhi' (n + 1) x = (n + 1) * chebU n x ∧ chebPhi' (n + 2) x = (n + 2) * chebU (n + 1) x := by
  induction n with
  | zero => simp [chebU, chebPhi, chebPhi']; ring
  | succ n ih =>
    refine ⟨by push_cast; rw [ih.2]; ring, ?_⟩
    have e1 : chebPhi' (n + 1 + 2) x = chebPhi' (n + 2) x * (2 * x) + chebPhi (n + 2) x * 2 - chebPhi' (n + 1) x := rfl
    have e2 : chebU (n + 1 + 1) x = 2 * x * chebU (n + 1) x - chebU n x := rfl
    have e4 := (cheb_TU2 n x).2
    rw [e1, ih.1, ih.2, e4, e2]
    push_cast
    ring

/-- `ChebyshevTensorBasis`. -/
theorem cheb_good : chebFamily.Good := by
  refine good_of_rule (phi' := chebPhi') ⟨fun n => (cheb_der n).1, by simp [chebPhi'], fun x => by simp [chebPhi', chebPhi], fun n x => ?_⟩
  rw [if_neg (by omega)]
  rcases n with _ | n
  · simp [chebPhi', chebPhi]; ring
  · rw [if_neg (by omega)]
    have h1 := (cheb_dU (n + 1) x).2
    have h2 := (cheb_dU n x).1
    have h3 := (cheb_TU n x).1
    have hn : (n : ℝ) + 1 ≠ 0 := by positivity
    push_cast at *
    rw [h1, h2, h3]
    rw [show ((n : ℝ) + 1 + 2 - 2) = n + 1 by ring]
    field_simp
    ring

/-- Derivatives of the Laguerre polynomials. -/
noncomputable def lagPhi' : ℕ → ℝ → ℝ
  | 0, _ => 0
  | 1, _ => -1
  | n + 2, x => (lagPhi' (n + 1) x * (2 * (n + 2) - 1 - x) - lagPhi (n + 1) x - lagPhi' n x * (n + 1)) / (n + 2)

theorem lag_der (n : ℕ) : (∀ x, HasDerivAt (lagPhi n) (lagPhi' n x) x) ∧ ∀ x, HasDerivAt (lagPhi (n + 1)) (lagPhi' (n + 1) x) x := by
  induction n with
  | zero =>
    refine ⟨fun x => hasDerivAt_const x 1, fun x => ?_⟩
    exact HasDerivAt.congr_deriv (f := lagPhi 1) ((hasDerivAt_id x).const_sub 1) (by simp [lagPhi'])
  | succ n ih =>
    refine ⟨ih.2, fun x => ?_⟩
    have := (((ih.2 x).mul ((hasDerivAt_id x).const_sub (2 * ((n : ℝ) + 2) - 1))).sub ((ih.1 x).mul_const ((n : ℝ) + 1))).div_const ((n : ℝ) + 2)
    refine HasDerivAt.congr_deriv (f := lagPhi (n + 2)) this ?_
    simp only [lagPhi', id]
    ring

theorem lag_ids (n : ℕ) (x : ℝ) : lagPhi' (n + 1) x = lagPhi' n x - lagPhi n x ∧
    x * lagPhi' (n + 1) x = (n + 1) * (lagPhi (n + 1) x - lagPhi n x) := by
  induction n with
  | zero => simp [lagPhi, lagPhi']
  | succ n ih =>
    obtain ⟨i1, i2⟩ := ih
    have hn : (n : ℝ) + 2 ≠ 0 := by positivity
    have r : ((n : ℝ) + 2) * lagPhi (n + 2) x = lagPhi (n + 1) x * (2 * (n + 2) - 1 - x) - lagPhi n x * (n + 1) := by
      simp only [lagPhi]; field_simp
    have r' : ((n : ℝ) + 2) * lagPhi' (n + 2) x = lagPhi' (n + 1) x * (2 * (n + 2) - 1 - x) - lagPhi (n + 1) x - lagPhi' n x * (n + 1) := by
      simp only [lagPhi']; field_simp
    have a1 : lagPhi' (n + 2) x = lagPhi' (n + 1) x - lagPhi (n + 1) x := by
      apply mul_left_cancel₀ hn
      rw [r']
      linear_combination (n + 1 : ℝ) * i1 - i2
    refine ⟨a1, ?_⟩
    push_cast
    show x * lagPhi' (n + 2) x = _
    rw [a1]
    linear_combination i2 - r

/-- `LaguerreTensorBasis`. -/
theorem lag_good : lagFamily.Good := by
  refine good_of_rule (phi' := lagPhi') ⟨fun n => (lag_der n).1, by simp [lagPhi'], fun x => by simp [lagPhi', lagPhi], fun n x => ?_⟩
  rw [(lag_ids (n + 1) x).1]
  ring

/-- Derivatives of the Hermite polynomials. -/
noncomputable def hermPhi' : ℕ → ℝ → ℝ
  | 0, _ => 0
  | n + 1, x => 2 * (n + 1) * hermPhi n x

theorem herm_der (n : ℕ) : (∀ x, HasDerivAt (hermPhi n) (hermPhi' n x) x) ∧ ∀ x, HasDerivAt (hermPhi (n + 1)) (hermPhi' (n + 1) x) x := by
  induction n with
  | zero =>
    refine ⟨fun x => hasDerivAt_const x 1, fun x => ?_⟩
    exact HasDerivAt.congr_deriv (f := hermPhi 1) ((hasDerivAt_id x).const_mul 2) (by simp [hermPhi', hermPhi])
  | succ n ih =>
    refine ⟨ih.2, fun x => ?_⟩
    have := ((ih.2 x).mul ((hasDerivAt_id x).const_mul 2)).sub ((ih.1 x).mul_const (2 * ((n : ℝ) + 1)))
    refine HasDerivAt.congr_deriv (f := hermPhi (n + 2)) this ?_
    rcases n with _ | n
    · simp [hermPhi', hermPhi]; ring
    · have e : hermPhi (n + 2) x = hermPhi (n + 1) x * (2 * x) - hermPhi n x * (2 * (n + 1)) := rfl
      simp only [hermPhi', id]
      push_cast
      show _ + hermPhi (n + 2) x * (2 * 1) - _ = _
      rw [e]
      ring

/-- `HermiteTensorBasis`. -/
theorem herm_good : hermFamily.Good := by
  refine good_of_rule (phi' := hermPhi') ⟨fun n => (herm_der n).1, by simp [hermPhi'], fun x => by simp [hermPhi', hermPhi], fun n x => ?_⟩
  simp only [hermPhi']
  push_cast
  ring

/-! ## The scaling of the Hermite basis -/

theorem sum_map_sub_const (c : Vec) (a : ℝ) : (c.map (fun t => t - a)).sum = c.sum - c.length * a := by
  induction c with
  | nil => simp
  | cons t c ih => simp only [List.map_cons, List.sum_cons, List.length_cons, ih]; push_cast; ring

theorem sum_map_div (c : Vec) (f : ℝ → ℝ) (a : ℝ) : (c.map (fun t => f t / a)).sum = (c.map f).sum / a := by
  induction c with
  | nil => simp
  | cons t c ih => simp only [List.map_cons, List.sum_cons, ih]; ring

/-- **C28**: after `set_scale(X)` of the Hermite basis each coordinate of the scaled data has mean zero and mean square one half, if
the data is not constant in that coordinate (`std ≠ 0`). -/
theorem setScaleHermite_moments {dim : ℕ} {X : List Vec} (hX : ∀ r ∈ X, r.length = dim) {q : ℕ} (hq : q < dim)
    (hs : std (X.map (fun r => r.getD q 0)) ≠ 0) :
    mean (X.map (fun r => ((setScaleHermite dim X).scale r).getD q 0)) = 0 ∧
    mean (X.map (fun r => (((setScaleHermite dim X).scale r).getD q 0) ^ 2)) = 1 / 2 := by
  set col := X.map (fun r => r.getD q 0) with hcol
  have hval : ∀ r ∈ X, ((setScaleHermite dim X).scale r).getD q 0 = (r.getD q 0 - mean col) / std col / Real.sqrt 2 := by
    intro r hr
    rw [scale_getD _ (by rw [hX r hr]; exact hq)]
    simp only [setScaleHermite, Scaling.at']
    rw [columns_getD hq, columns_getD hq]
  have hne : (col.length : ℝ) ≠ 0 := by
    intro h
    apply hs
    have : col = [] := List.eq_nil_of_length_eq_zero (by exact_mod_cast h)
    rw [this]; simp [std, mean]
  have e1 : X.map (fun r => ((setScaleHermite dim X).scale r).getD q 0) = col.map (fun t => (t - mean col) / (std col * Real.sqrt 2)) := by
    rw [hcol, List.map_map]
    apply List.map_congr_left
    intro r hr
    rw [hval r hr, div_div]; rfl
  have e2 : X.map (fun r => (((setScaleHermite dim X).scale r).getD q 0) ^ 2) = col.map (fun t => (t - mean col) ^ 2 / (2 * std col ^ 2)) := by
    rw [hcol, List.map_map]
    apply List.map_congr_left
    intro r hr
    rw [hval r hr, div_div, div_pow, mul_pow, Real.sq_sqrt (by norm_num), mul_comm (std _ ^ 2)]; rfl
  constructor
  · rw [e1]
    unfold mean
    rw [sum_map_div, sum_map_sub_const]
    have : col.sum - col.length * mean col = 0 := by
      unfold mean; field_simp; ring
    unfold mean at this
    rw [this]; simp
  · have hv : std col ^ 2 = mean (col.map (fun t => (t - mean col) ^ 2)) := by
      unfold std
      apply Real.sq_sqrt
      unfold mean
      apply div_nonneg _ (by positivity)
      apply List.sum_nonneg
      intro a ha
      obtain ⟨t, -, rfl⟩ := List.mem_map.1 ha
      positivity
    rw [e2]
    have hlen : ∀ f : ℝ → ℝ, ((col.map f).length : ℝ) = col.length := by simp
    have hm : ∀ f : ℝ → ℝ, mean (col.map f) = (col.map f).sum / col.length := by intro f; unfold mean; rw [hlen]
    rw [hm, sum_map_div]
    rw [hm] at hv
    have h2 : std col ^ 2 ≠ 0 := pow_ne_zero 2 hs
    have : (col.map (fun t => (t - mean col) ^ 2)).sum = std col ^ 2 * col.length := by rw [hv]; field_simp
    rw [this]
    field_simp

/-! ## The hypotheses of the theorems on tensor-product bases are met -/

example : (⟨legFamily, 3, 2, setScale 2 [[0, 1], [2, 5]]⟩ : TBasis).F.Good ∧
    (⟨legFamily, 3, 2, setScale 2 [[0, 1], [2, 5]]⟩ : TBasis).sc.Nondeg 2 := by
  refine ⟨leg_good, fun k hk => ?_⟩
  rcases k with _ | _ | k
  · norm_num [Domain.columns, Domain.minL, Domain.maxL, List.range, List.range.loop]
  · norm_num [Domain.columns, Domain.minL, Domain.maxL, List.range, List.range.loop]
  · omega

/-- The Legendre basis of degree three in two variables scaled by two points. -/
noncomputable def legExample : TBasis := ⟨legFamily, 3, 2, setScale 2 [[0, 1], [2, 5]]⟩

theorem legExample_ok : legExample.F.Good ∧ legExample.sc.Nondeg legExample.dim := by
  refine ⟨leg_good, fun k hk => ?_⟩
  have hk' : k < 2 := hk
  rcases k with _ | _ | k
  · norm_num [Domain.columns, Domain.minL, Domain.maxL, List.range, List.range.loop]
  · norm_num [Domain.columns, Domain.minL, Domain.maxL, List.range, List.range.loop]
  · omega

/-- `DV_deriv`, `DDV_deriv` and `DDV_second_deriv` at the point `(1, 7)` for the index `(2, 1)`. -/
example : ∃ j, HasDerivAt (fun t => (legExample.V [1, t]).getD j 0) (legExample.DV [1, 7] [2, 1] 1) 7 ∧
    HasDerivAt (fun t => legExample.DV [t, 7] [2, 1] 1) (legExample.DDV [1, 7] [2, 1] 1 0) 1 := by
  have hm : [2, 1] ∈ legExample.indices := (mem_indexSet 3 2 (by norm_num) _).2 (by simp)
  obtain ⟨j, hj⟩ := List.mem_iff_getElem?.1 hm
  exact ⟨j, DV_deriv legExample legExample_ok.1 legExample_ok.2 (x := [1, 7]) rfl hj (k := 1) (by show 1 < 2; decide),
    DDV_deriv legExample legExample_ok.1 legExample_ok.2 (x := [1, 7]) rfl hm (k := 1) (l := 0) (by show 0 < 2; decide)⟩

/-- `VC_entries`: the right number of coefficients. -/
example (x : Vec) : ∃ out, legExample.VC x 1 (List.replicate legExample.indices.length [1]) = .ok out ∧ out.length = 1 := by
  obtain ⟨out, h⟩ := (VC_ok_iff legExample x 1 (List.replicate legExample.indices.length [1])).2 (by simp)
  exact ⟨out, h, (VC_entries legExample x 1 _ (by simp) h).1⟩

/-- `setScale_range` and `setScaleHermite_moments` for two points. -/
example : (∃ r ∈ [[0, 1], [2, 5]], ((setScale 2 [[0, 1], [2, 5]]).scale r).getD 1 0 = (1 : ℝ) ∧ ∀ s ∈ [[0, 1], [2, 5]], s.getD 1 0 ≤ r.getD 1 (0 : ℝ)) ∧
    mean ([[0, 1], [2, 5]].map (fun r => ((setScaleHermite 2 [[0, 1], [2, 5]]).scale r).getD 1 0)) = 0 := by
  refine ⟨(setScale_range (dim := 2) (X := [[0, 1], [2, 5]]) (by simp) (q := 1) (by decide) ⟨[0, 1], by simp, [2, 5], by simp, by norm_num⟩).2.2, ?_⟩
  refine (setScaleHermite_moments (dim := 2) (X := [[0, 1], [2, 5]]) (by simp) (q := 1) (by decide) ?_).1
  have : std [1, 5] = 2 := by
    norm_num [std, mean]
    rw [show (4 : ℝ) = 2 ^ 2 by norm_num, Real.sqrt_sq (by norm_num)]
  simp only [List.map_cons, List.map_nil]
  show std [1, 5] ≠ 0
  rw [this]; norm_num

/-- `roots_exact`: the polynomial `x - 3` for the points `1, 5`. -/
example : ∃ rs, (⟨legFamily, 1, 1, setScale 1 [[1], [5]]⟩ : TBasis).roots (fun _ => [0]) [0, 1] = .ok rs ∧
    ∀ t, t ∈ rs ↔ Vec.dot ((⟨legFamily, 1, 1, setScale 1 [[1], [5]]⟩ : TBasis).V [t]) [0, 1] = 0 := by
  obtain ⟨rs, h⟩ := (roots_ok_iff ⟨legFamily, 1, 1, setScale 1 [[1], [5]]⟩ (fun _ => [0]) [0, 1]).2 ⟨le_refl _, by simp [setScale]⟩
  refine ⟨rs, h, fun t => roots_exact ?_ rfl rfl ?_ h t⟩
  · intro k hk
    have hk' : k < 1 := hk
    have : k = 0 := by omega
    subst this
    norm_num [Domain.columns, Domain.minL, Domain.maxL, List.range, List.range.loop]
  · intro z
    simp [Family.series, legFamily, legPhi]

end Verif.Basis
