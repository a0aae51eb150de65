import Mathlib.Analysis.SpecialFunctions.Sqrt
import Mathlib.Analysis.Calculus.Deriv.Pow
import Mathlib.Analysis.Calculus.Deriv.Mul
import Mathlib.Analysis.Calculus.Deriv.Add
import Verif.Lipschitz.BoundModel

/-!
# C31, C32, C74: bounds from a Lipschitz matrix
-/

namespace Verif.Lip

open Verif Matrix

variable {k m : ℕ}

/-! ## The norm -/

theorem nrm_eq (v : Pt m) : nrm v = ‖WithLp.toLp 2 v‖ := by
  rw [EuclideanSpace.norm_eq, nrm]
  congr 1
  simp only [dotProduct, Real.norm_eq_abs, sq_abs]
  exact Finset.sum_congr rfl (fun i _ => (pow_two _).symm)

theorem nrm_nonneg (v : Pt m) : 0 ≤ nrm v := Real.sqrt_nonneg _

theorem nrm_zero : nrm (0 : Pt m) = 0 := by simp [nrm]

theorem nrm_neg (v : Pt m) : nrm (-v) = nrm v := by simp [nrm]

theorem nrm_add_le (v w : Pt m) : nrm (v + w) ≤ nrm v + nrm w := by
  rw [nrm_eq, nrm_eq, nrm_eq, WithLp.toLp_add]
  exact norm_add_le _ _

theorem dotProduct_self_nonneg' (v : Pt m) : 0 ≤ v ⬝ᵥ v := by
  simp only [dotProduct]
  exact Finset.sum_nonneg (fun i _ => mul_self_nonneg _)

theorem nrm_sq (v : Pt m) : nrm v ^ 2 = v ⬝ᵥ v := Real.sq_sqrt (dotProduct_self_nonneg' v)

/-- Distance with respect to `L`. -/
noncomputable def lnorm (L : Matrix (Fin k) (Fin m) ℝ) (v : Pt m) : ℝ := nrm (L *ᵥ v)

theorem ldist_eq (L : Matrix (Fin k) (Fin m) ℝ) (x y : Pt m) : ldist L x y = lnorm L (x - y) := by
  rw [ldist, lnorm, mulVec_sub]

theorem ldist_comm (L : Matrix (Fin k) (Fin m) ℝ) (x y : Pt m) : ldist L x y = ldist L y x := by
  rw [ldist, ldist, ← nrm_neg, neg_sub]

theorem ldist_self (L : Matrix (Fin k) (Fin m) ℝ) (x : Pt m) : ldist L x x = 0 := by
  rw [ldist, sub_self, nrm_zero]

theorem ldist_triangle (L : Matrix (Fin k) (Fin m) ℝ) (x y z : Pt m) : ldist L x z ≤ ldist L x y + ldist L y z := by
  have := nrm_add_le (L *ᵥ x - L *ᵥ y) (L *ᵥ y - L *ᵥ z)
  rwa [sub_add_sub_cancel] at this

/-! ## Specification -/

/-- `g` is Lipschitz with respect to `L`. -/
def IsLip (L : Matrix (Fin k) (Fin m) ℝ) (g : Pt m → ℝ) : Prop := ∀ x y, |g x - g y| ≤ lnorm L (x - y)

/-- `g` matches the data to within `e`. -/
def Matches (g : Pt m → ℝ) (e : ℝ) (data : List (Pt m × ℝ)) : Prop := ∀ d ∈ data, |g d.1 - d.2| ≤ e

/-- The data agree with `L` up to `e`. -/
def Consistent (L : Matrix (Fin k) (Fin m) ℝ) (e : ℝ) (data : List (Pt m × ℝ)) : Prop :=
  ∀ d ∈ data, ∀ d' ∈ data, |d.2 - d'.2| ≤ lnorm L (d.1 - d'.1) + e

/-! ## The loop -/

theorem fold_ge (L : Matrix (Fin k) (Fin m) ℝ) (x : Pt m) (data : List (Pt m × ℝ)) (lo hi : ℝ) :
    ∃ lo' hi', data.foldl (boundStep L x) (.fin lo, .fin hi) = (.fin lo', .fin hi') ∧
      (lo' = lo ∨ ∃ d ∈ data, lo' = d.2 - ldist L d.1 x) ∧ lo ≤ lo' ∧ (∀ d ∈ data, d.2 - ldist L d.1 x ≤ lo') ∧
      (hi' = hi ∨ ∃ d ∈ data, hi' = d.2 + ldist L d.1 x) ∧ hi' ≤ hi ∧ (∀ d ∈ data, hi' ≤ d.2 + ldist L d.1 x) := by
  induction data generalizing lo hi with
  | nil => exact ⟨lo, hi, rfl, Or.inl rfl, le_refl _, by simp, Or.inl rfl, le_refl _, by simp⟩
  | cons d data ih =>
    obtain ⟨lo', hi', h1, h2, h3, h4, h5, h6, h7⟩ := ih (max lo (d.2 - ldist L d.1 x)) (min hi (d.2 + ldist L d.1 x))
    refine ⟨lo', hi', h1, ?_, (le_max_left _ _).trans h3, ?_, ?_, h6.trans (min_le_left _ _), ?_⟩
    · rcases h2 with h2 | ⟨d', hd', h2⟩
      · rcases max_choice lo (d.2 - ldist L d.1 x) with h | h
        · left; rw [h2, h]
        · right; exact ⟨d, by simp, by rw [h2, h]⟩
      · right; exact ⟨d', by simp [hd'], h2⟩
    · intro d' hd'
      rcases List.mem_cons.1 hd' with rfl | hd'
      · exact (le_max_right _ _).trans h3
      · exact h4 d' hd'
    · rcases h5 with h5 | ⟨d', hd', h5⟩
      · rcases min_choice hi (d.2 + ldist L d.1 x) with h | h
        · left; rw [h5, h]
        · right; exact ⟨d, by simp, by rw [h5, h]⟩
      · right; exact ⟨d', by simp [hd'], h5⟩
    · intro d' hd'
      rcases List.mem_cons.1 hd' with rfl | hd'
      · exact h6.trans (min_le_right _ _)
      · exact h7 d' hd'

/-- For nonempty data the loop computes the largest lower and the smallest upper cone. -/
theorem fold_spec (L : Matrix (Fin k) (Fin m) ℝ) (x : Pt m) {data : List (Pt m × ℝ)} (hne : data ≠ []) :
    ∃ lo hi, data.foldl (boundStep L x) (.ninf, .pinf) = (.fin lo, .fin hi) ∧
      (∃ d ∈ data, lo = d.2 - ldist L d.1 x) ∧ (∀ d ∈ data, d.2 - ldist L d.1 x ≤ lo) ∧
      (∃ d ∈ data, hi = d.2 + ldist L d.1 x) ∧ (∀ d ∈ data, hi ≤ d.2 + ldist L d.1 x) := by
  obtain ⟨d, data, rfl⟩ := List.exists_cons_of_ne_nil hne
  obtain ⟨lo', hi', h1, h2, h3, h4, h5, h6, h7⟩ := fold_ge L x data (d.2 - ldist L d.1 x) (d.2 + ldist L d.1 x)
  refine ⟨lo', hi', h1, ?_, ?_, ?_, ?_⟩
  · rcases h2 with h2 | ⟨d', hd', h2⟩
    · exact ⟨d, by simp, h2⟩
    · exact ⟨d', by simp [hd'], h2⟩
  · intro d' hd'
    rcases List.mem_cons.1 hd' with rfl | hd'
    · exact h3
    · exact h4 d' hd'
  · rcases h5 with h5 | ⟨d', hd', h5⟩
    · exact ⟨d, by simp, h5⟩
    · exact ⟨d', by simp [hd'], h5⟩
  · intro d' hd'
    rcases List.mem_cons.1 hd' with rfl | hd'
    · exact h6
    · exact h7 d' hd'

/-- The two numbers returned by `uncertainty` for nonempty data. -/
theorem uncertainty_spec (L : Matrix (Fin k) (Fin m) ℝ) (eps : Option ℝ) (x : Pt m) {data : List (Pt m × ℝ)} (hne : data ≠ []) :
    ∃ lo hi, uncertainty L eps data x = (.fin (lo - eps.getD 0), .fin (hi + eps.getD 0)) ∧
      (∃ d ∈ data, lo = d.2 - lnorm L (x - d.1)) ∧ (∀ d ∈ data, d.2 - lnorm L (x - d.1) ≤ lo) ∧
      (∃ d ∈ data, hi = d.2 + lnorm L (x - d.1)) ∧ (∀ d ∈ data, hi ≤ d.2 + lnorm L (x - d.1)) := by
  obtain ⟨lo, hi, h1, h2⟩ := fold_spec L x hne
  refine ⟨lo, hi, ?_, ?_⟩
  · cases eps with
    | none => simp [uncertainty, h1]
    | some e => simp [uncertainty, h1, XR.sub, XR.add]
  · simpa only [ldist_comm L _ x, ldist_eq L x] using h2

/-! ## C31 -/

/-- **C31**: every function that is Lipschitz with respect to `L` and matches the data to within `epsilon` lies between the bounds, at
every point. -/
theorem uncertainty_contains (L : Matrix (Fin k) (Fin m) ℝ) (eps : Option ℝ) (data : List (Pt m × ℝ)) (g : Pt m → ℝ) (hg : IsLip L g)
    (hm : Matches g (eps.getD 0) data) (x : Pt m) :
    XR.le (uncertainty L eps data x).1 (.fin (g x)) ∧ XR.le (.fin (g x)) (uncertainty L eps data x).2 := by
  rcases data with _ | ⟨d0, data⟩
  · cases eps <;> simp [uncertainty, XR.le, XR.lt, XR.sub, XR.add]
  · obtain ⟨lo, hi, h1, ⟨d, hd, h2⟩, -, ⟨d', hd', h3⟩, -⟩ := uncertainty_spec L eps x (data := d0 :: data) (by simp)
    rw [h1]
    have a1 := abs_le.1 (hg x d.1)
    have a2 := abs_le.1 (hm d hd)
    have b1 := abs_le.1 (hg x d'.1)
    have b2 := abs_le.1 (hm d' hd')
    constructor
    · rcases lt_or_eq_of_le (show lo - eps.getD 0 ≤ g x by linarith) with h | h
      · exact Or.inl h
      · exact Or.inr h
    · rcases lt_or_eq_of_le (show g x ≤ hi + eps.getD 0 by linarith) with h | h
      · exact Or.inl h
      · exact Or.inr h

/-- **C31** for the classes `LowerBound` and `UpperBound`: each entry of the lower bound is at most `g` and each entry of the (negated)
upper bound is at most `-g`; the largest entries are the bounds of `uncertainty`. -/
theorem bound_functions_contain (L : Matrix (Fin k) (Fin m) ℝ) (data : List (Pt m × ℝ)) (g : Pt m → ℝ) (hg : IsLip L g)
    (hm : Matches g 0 data) (x : Pt m) : (∀ v ∈ lowerEval L data x, v ≤ g x) ∧ (∀ v ∈ upperEval L data x, v ≤ -g x) := by
  constructor
  · intro v hv
    obtain ⟨d, hd, rfl⟩ := List.mem_map.1 hv
    have a1 := abs_le.1 (hg x d.1)
    have a2 := abs_le.1 (hm d hd)
    rw [← mulVec_sub]
    unfold lnorm at a1
    linarith
  · intro v hv
    obtain ⟨d, hd, rfl⟩ := List.mem_map.1 hv
    have a1 := abs_le.1 (hg x d.1)
    have a2 := abs_le.1 (hm d hd)
    rw [← mulVec_sub]
    unfold lnorm at a1
    linarith

/-! ## C32 -/

/-- **C32**: for data consistent with `L` up to `2 epsilon` the lower bound never exceeds the upper bound. -/
theorem uncertainty_ordered (L : Matrix (Fin k) (Fin m) ℝ) (eps : Option ℝ) (data : List (Pt m × ℝ))
    (hc : Consistent L (2 * eps.getD 0) data) (x : Pt m) : XR.le (uncertainty L eps data x).1 (uncertainty L eps data x).2 := by
  rcases data with _ | ⟨d0, data⟩
  · cases eps <;> simp [uncertainty, XR.le, XR.lt, XR.sub, XR.add]
  · obtain ⟨lo, hi, h1, ⟨d, hd, h2⟩, -, ⟨d', hd', h3⟩, -⟩ := uncertainty_spec L eps x (data := d0 :: data) (by simp)
    rw [h1]
    have a := abs_le.1 (hc d hd d' hd')
    have t := ldist_triangle L d.1 x d'.1
    rw [ldist_comm L d.1 x, ldist_eq, ldist_eq, ldist_eq] at t
    rcases lt_or_eq_of_le (show lo - eps.getD 0 ≤ hi + eps.getD 0 by linarith) with h | h
    · exact Or.inl h
    · exact Or.inr h

theorem lnorm_self (L : Matrix (Fin k) (Fin m) ℝ) (x : Pt m) : lnorm L (x - x) = 0 := by rw [← ldist_eq, ldist_self]

theorem lnorm_comm (L : Matrix (Fin k) (Fin m) ℝ) (x y : Pt m) : lnorm L (x - y) = lnorm L (y - x) := by
  rw [← ldist_eq, ← ldist_eq, ldist_comm]

theorem lnorm_triangle (L : Matrix (Fin k) (Fin m) ℝ) (x y z : Pt m) : lnorm L (x - z) ≤ lnorm L (x - y) + lnorm L (y - z) := by
  rw [← ldist_eq, ← ldist_eq, ← ldist_eq]; exact ldist_triangle L x y z

/-- **C32**: for consistent data both bounds (before widening by `epsilon`) equal the data value at each data point. -/
theorem uncertainty_tight (L : Matrix (Fin k) (Fin m) ℝ) (eps : Option ℝ) (data : List (Pt m × ℝ)) (hc : Consistent L 0 data)
    (d : Pt m × ℝ) (hd : d ∈ data) : uncertainty L eps data d.1 = (.fin (d.2 - eps.getD 0), .fin (d.2 + eps.getD 0)) := by
  obtain ⟨lo, hi, h1, ⟨e, he, h2⟩, h3, ⟨e', he', h4⟩, h5⟩ := uncertainty_spec L eps d.1 (data := data) (by rintro rfl; simp at hd)
  have a1 := h3 d hd
  have a2 := h5 d hd
  rw [lnorm_self] at a1 a2
  have b1 := abs_le.1 (hc d hd e he)
  have b2 := abs_le.1 (hc d hd e' he')
  have e1 : lo = d.2 := by linarith
  have e2 : hi = d.2 := by linarith
  rw [h1, e1, e2]

/-- The finite value. -/
def val : XR → ℝ
  | .fin r => r
  | _ => 0

/-- **C32**: for nonempty data both bounds are finite and are Lipschitz with respect to `L`. -/
theorem uncertainty_lipschitz (L : Matrix (Fin k) (Fin m) ℝ) (eps : Option ℝ) (data : List (Pt m × ℝ)) (hne : data ≠ []) :
    (∀ x, (uncertainty L eps data x).1 = .fin (val (uncertainty L eps data x).1) ∧
      (uncertainty L eps data x).2 = .fin (val (uncertainty L eps data x).2)) ∧
    IsLip L (fun x => val (uncertainty L eps data x).1) ∧ IsLip L (fun x => val (uncertainty L eps data x).2) := by
  refine ⟨fun x => ?_, fun x y => ?_, fun x y => ?_⟩
  · obtain ⟨lo, hi, h1, -⟩ := uncertainty_spec L eps x hne
    rw [h1]; exact ⟨rfl, rfl⟩
  · obtain ⟨lo, hi, h1, ⟨d, hd, h2⟩, h3, -⟩ := uncertainty_spec L eps x hne
    obtain ⟨lo', hi', h1', ⟨d', hd', h2'⟩, h3', -⟩ := uncertainty_spec L eps y hne
    simp only [h1, h1', val]
    have a := h3' d hd
    have a' := h3 d' hd'
    have t := lnorm_triangle L x y d'.1
    have t' := lnorm_triangle L y x d.1
    rw [lnorm_comm L y x] at t'
    rw [abs_le]
    constructor <;> linarith
  · obtain ⟨lo, hi, h1, -, -, ⟨d, hd, h2⟩, h3⟩ := uncertainty_spec L eps x hne
    obtain ⟨lo', hi', h1', -, -, ⟨d', hd', h2'⟩, h3'⟩ := uncertainty_spec L eps y hne
    simp only [h1, h1', val]
    have a := h3' d hd
    have a' := h3 d' hd'
    have t := lnorm_triangle L x y d'.1
    have t' := lnorm_triangle L y x d.1
    rw [lnorm_comm L y x] at t'
    rw [abs_le]
    constructor <;> linarith

/-- **C32**: the interval is exact: for consistent data, and without `epsilon`, a number lies between the bounds exactly if it is
the value at `x` of some function that is Lipschitz with respect to `L` and interpolates the data. -/
theorem uncertainty_exact (L : Matrix (Fin k) (Fin m) ℝ) (data : List (Pt m × ℝ)) (hne : data ≠ []) (hc : Consistent L 0 data) (x : Pt m) (t : ℝ) :
    (val (uncertainty L none data x).1 ≤ t ∧ t ≤ val (uncertainty L none data x).2) ↔ ∃ g, IsLip L g ∧ Matches g 0 data ∧ g x = t := by
  constructor
  · rintro ⟨h1, h2⟩
    obtain ⟨-, l1, l2⟩ := uncertainty_lipschitz L none data hne
    refine ⟨fun y => max (val (uncertainty L none data y).1) (min (val (uncertainty L none data y).2) t), fun y z => ?_, fun d hd => ?_, ?_⟩
    · have a := abs_le.1 (l1 y z)
      have b := abs_le.1 (l2 y z)
      have c : |min (val (uncertainty L none data y).2) t - min (val (uncertainty L none data z).2) t| ≤ lnorm L (y - z) :=
        (abs_min_sub_min_le_max _ _ _ _).trans (max_le (l2 y z) (by simp; exact nrm_nonneg _))
      exact (abs_max_sub_max_le_max _ _ _ _).trans (max_le (l1 y z) c)
    · simp [uncertainty_tight L none data hc d hd, val]
    · simp only
      rw [min_eq_right h2, max_eq_right h1]
  · rintro ⟨g, hg, hm, rfl⟩
    have h := uncertainty_contains L none data g hg hm x
    obtain ⟨f, -, -⟩ := uncertainty_lipschitz L none data hne
    obtain ⟨f1, f2⟩ := f x
    rw [f1, f2] at h
    constructor
    · rcases h.1 with h | h
      · exact le_of_lt h
      · exact le_of_eq h
    · rcases h.2 with h | h
      · exact le_of_lt h
      · exact le_of_eq h

example : Consistent (1 : Matrix (Fin 2) (Fin 2) ℝ) 0 [(![0, 0], 1), (![3, 4], 2)] := by
  intro d hd d' hd'
  simp only [List.mem_cons, List.not_mem_nil, or_false] at hd hd'
  have h5 : Real.sqrt (3 * 3 + 4 * 4) = 5 := by
    rw [show (3 * 3 + 4 * 4 : ℝ) = 5 ^ 2 by norm_num]; exact Real.sqrt_sq (by norm_num)
  rcases hd with rfl | rfl <;> rcases hd' with rfl | rfl <;>
    simp [lnorm, nrm, dotProduct, Fin.sum_univ_two, h5] <;> norm_num

/-! ## C74: gradients of the bound functions -/

/-- **C74**: where the distance is positive, `grad` gives the directional derivatives of each entry of `eval`, for the lower and the
upper bound. -/
theorem bound_grad (L : Matrix (Fin k) (Fin m) ℝ) (d : Pt m × ℝ) (x v : Pt m) (h : 0 < nrm (L *ᵥ x - L *ᵥ d.1)) :
    HasDerivAt (fun t : ℝ => d.2 - nrm (L *ᵥ (x + t • v) - L *ᵥ d.1)) (boundGrad L d x ⬝ᵥ v) 0 ∧
    HasDerivAt (fun t : ℝ => -(d.2 + nrm (L *ᵥ (x + t • v) - L *ᵥ d.1))) (boundGrad L d x ⬝ᵥ v) 0 := by
  set w := L *ᵥ x - L *ᵥ d.1 with hw
  have hexp : ∀ t : ℝ, L *ᵥ (x + t • v) - L *ᵥ d.1 = w + t • (L *ᵥ v) := by
    intro t; rw [mulVec_add, mulVec_smul, hw]; abel
  have hquad : ∀ t : ℝ, (w + t • (L *ᵥ v)) ⬝ᵥ (w + t • (L *ᵥ v)) = w ⬝ᵥ w + t * (2 * (w ⬝ᵥ (L *ᵥ v))) + t ^ 2 * ((L *ᵥ v) ⬝ᵥ (L *ᵥ v)) := by
    intro t
    simp only [add_dotProduct, dotProduct_add, smul_dotProduct, dotProduct_smul, smul_eq_mul]
    rw [dotProduct_comm (L *ᵥ v) w]; ring
  have hn : HasDerivAt (fun t : ℝ => nrm (L *ᵥ (x + t • v) - L *ᵥ d.1)) ((w ⬝ᵥ (L *ᵥ v)) / nrm w) 0 := by
    have e : (fun t : ℝ => nrm (L *ᵥ (x + t • v) - L *ᵥ d.1)) =
        fun t : ℝ => Real.sqrt (w ⬝ᵥ w + t * (2 * (w ⬝ᵥ (L *ᵥ v))) + t ^ 2 * ((L *ᵥ v) ⬝ᵥ (L *ᵥ v))) := by
      funext t; rw [hexp, nrm, hquad]
    rw [e]
    have hd : HasDerivAt (fun t : ℝ => w ⬝ᵥ w + t * (2 * (w ⬝ᵥ (L *ᵥ v))) + t ^ 2 * ((L *ᵥ v) ⬝ᵥ (L *ᵥ v))) (2 * (w ⬝ᵥ (L *ᵥ v))) 0 := by
      have h1 := (HasDerivAt.mul_const (hasDerivAt_id (0 : ℝ)) (2 * (w ⬝ᵥ (L *ᵥ v))))
      have h2 := (hasDerivAt_pow 2 (0 : ℝ)).mul_const ((L *ᵥ v) ⬝ᵥ (L *ᵥ v))
      exact HasDerivAt.congr_deriv (HasDerivAt.fun_add (HasDerivAt.const_add (w ⬝ᵥ w) h1) h2) (by simp)
    have hpos : w ⬝ᵥ w ≠ 0 := by
      intro h0
      rw [nrm, h0, Real.sqrt_zero] at h
      exact lt_irrefl _ h
    have := hd.sqrt (by simpa using hpos)
    refine HasDerivAt.congr_deriv this ?_
    have hne : nrm w ≠ 0 := h.ne'
    simp only [zero_mul, add_zero, ne_eq, OfNat.ofNat_ne_zero, not_false_eq_true, zero_pow]
    show _ / (2 * nrm w) = _
    field_simp
  have hg : boundGrad L d x ⬝ᵥ v = -((w ⬝ᵥ (L *ᵥ v)) / nrm w) := by
    unfold boundGrad
    rw [if_pos h, ← hw, mulVec_transpose, ← dotProduct_mulVec, neg_dotProduct, smul_dotProduct, smul_eq_mul]
    ring
  rw [hg]
  exact ⟨HasDerivAt.const_sub _ hn, HasDerivAt.fun_neg (HasDerivAt.const_add _ hn)⟩

/-- **C74**: where the distance is zero the rows returned by `grad` are zero. -/
theorem bound_grad_zero (L : Matrix (Fin k) (Fin m) ℝ) (d : Pt m × ℝ) (x : Pt m) (h : nrm (L *ᵥ x - L *ᵥ d.1) = 0) : boundGrad L d x = 0 := by
  unfold boundGrad
  rw [if_neg (by rw [h]; exact lt_irrefl _), mulVec_zero]

example : 0 < nrm ((1 : Matrix (Fin 2) (Fin 2) ℝ) *ᵥ ![1, 0] - (1 : Matrix (Fin 2) (Fin 2) ℝ) *ᵥ ![0, 0]) := by
  simp [nrm, dotProduct, Fin.sum_univ_two]

end Verif.Lip
