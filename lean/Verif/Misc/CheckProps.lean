import Verif.Misc.CheckModel
import Mathlib.Analysis.Calculus.MeanValue
import Mathlib.Analysis.Calculus.Deriv.Pow
import Mathlib.Analysis.Calculus.Deriv.Comp
import Mathlib.Analysis.Calculus.Deriv.Add
import Mathlib.Analysis.Calculus.Deriv.Prod
import Mathlib.Tactic.FieldSimp
import Mathlib.Tactic.LinearCombination

/-!
# Derivative checks

Source: `/repo/checkder/checkder.py` 9-102.
-/

namespace Verif.Misc

open Verif Verif.Domain Verif.Lip Matrix

variable {n k : ℕ}

/-! ### Folds -/

/-- `e` is the largest of the numbers `a i`, which are not negative (zero if there are none). -/
def IsMaxErr {ι : Type*} (e : ℝ) (a : ι → ℝ) : Prop := 0 ≤ e ∧ (∀ i, a i ≤ e) ∧ (e = 0 ∨ ∃ i, e = a i)

/-- `e` is the smallest of the numbers `a h`, `h` in a list. -/
def IsMinErr (e : ℝ) (l : List ℝ) (a : ℝ → ℝ) : Prop := (∀ h ∈ l, e ≤ a h) ∧ ∃ h ∈ l, e = a h

theorem pyMax2_fin (a b : ℝ) : pyMax2 (.fin a) (.fin b) = .fin (max a b) := by
  unfold pyMax2
  by_cases h : a < b
  · rw [if_pos (show XR.lt (.fin a) (.fin b) from h), max_eq_right h.le]
  · rw [if_neg (show ¬ XR.lt (.fin a) (.fin b) from h), max_eq_left (not_lt.mp h)]

theorem pyMin_fin (a b : ℝ) : XR.pyMin (.fin a) (.fin b) = .fin (min a b) := by
  unfold XR.pyMin
  by_cases h : b < a
  · rw [if_pos (show XR.lt (.fin b) (.fin a) from h), min_eq_right h.le]
  · rw [if_neg (show ¬ XR.lt (.fin b) (.fin a) from h), min_eq_left (not_lt.mp h)]

theorem foldl_op {op : XR → XR → XR} (hop : ∀ a b, op (.fin a) (.fin b) = .fin (min a b)) (a : ℝ → ℝ) : ∀ (l : List ℝ) (b : ℝ),
    (l.map fun h => XR.fin (a h)).foldl op (.fin b) = .fin ((l.map a).foldl min b)
  | [], b => rfl
  | h :: l, b => by
    simp only [List.map_cons, List.foldl_cons]
    rw [hop, foldl_op hop a l]

theorem foldl_min_spec (a : ℝ → ℝ) : ∀ (l : List ℝ) (b : ℝ), ((l.map a).foldl min b ≤ b ∧ ∀ h ∈ l, (l.map a).foldl min b ≤ a h) ∧
    ((l.map a).foldl min b = b ∨ ∃ h ∈ l, (l.map a).foldl min b = a h)
  | [], b => ⟨⟨le_rfl, by simp⟩, Or.inl rfl⟩
  | h :: l, b => by
    simp only [List.map_cons, List.foldl_cons]
    obtain ⟨⟨h1, h2⟩, h3⟩ := foldl_min_spec a l (min b (a h))
    refine ⟨⟨h1.trans (min_le_left _ _), ?_⟩, ?_⟩
    · intro h' hh
      simp only [List.mem_cons] at hh
      rcases hh with rfl | hh
      · exact h1.trans (min_le_right _ _)
      · exact h2 h' hh
    · rcases h3 with h3 | ⟨h', hh, h3⟩
      · rcases min_choice b (a h) with hm | hm
        · left; rw [h3, hm]
        · right; exact ⟨h, by simp, by rw [h3, hm]⟩
      · right; exact ⟨h', by simp [hh], h3⟩

theorem stepErr_map {l : List ℝ} (h0 : ∀ h ∈ l, h ≠ 0) (a : ℝ → ℝ) : (l.map fun h => stepErr h (a h)) = l.map fun h => XR.fin (a h) := by
  apply List.map_congr_left
  intro h hh
  exact if_neg (h0 h hh)

theorem pyMinL_spec {l : List ℝ} (hne : l ≠ []) (h0 : ∀ h ∈ l, h ≠ 0) (a : ℝ → ℝ) :
    ∃ e, pyMinL (l.map fun h => stepErr h (a h)) = .ok (.fin e) ∧ IsMinErr e l a := by
  rw [stepErr_map h0]
  obtain ⟨b, l, rfl⟩ := List.exists_cons_of_ne_nil hne
  obtain ⟨⟨h1, h2⟩, h3⟩ := foldl_min_spec a l (a b)
  refine ⟨(l.map a).foldl min (a b), ?_, ?_, ?_⟩
  · simp only [List.map_cons, pyMinL]
    rw [foldl_op pyMin_fin]
  · intro h hh
    simp only [List.mem_cons] at hh
    rcases hh with rfl | hh
    · exact h1
    · exact h2 h hh
  · rcases h3 with h3 | ⟨h, hh, h3⟩
    · exact ⟨b, by simp, h3⟩
    · exact ⟨h, by simp [hh], h3⟩

theorem npMinL_spec {l : List ℝ} (hne : l ≠ []) (h0 : ∀ h ∈ l, h ≠ 0) (a : ℝ → ℝ) :
    ∃ e, npMinL (l.map fun h => stepErr h (a h)) = .ok (.fin e) ∧ IsMinErr e l a := by
  rw [stepErr_map h0]
  obtain ⟨b, l, rfl⟩ := List.exists_cons_of_ne_nil hne
  obtain ⟨⟨h1, h2⟩, h3⟩ := foldl_min_spec a l (a b)
  refine ⟨(l.map a).foldl min (a b), ?_, ?_, ?_⟩
  · simp only [List.map_cons, npMinL]
    rw [foldl_op (fun a b => rfl)]
  · intro h hh
    simp only [List.mem_cons] at hh
    rcases hh with rfl | hh
    · exact h1
    · exact h2 h hh
  · rcases h3 with h3 | ⟨h, hh, h3⟩
    · exact ⟨b, by simp, h3⟩
    · exact ⟨h, by simp [hh], h3⟩

theorem checkLoop_fin {val : Fin n → Except Err XR} {a : Fin n → ℝ} (hv : ∀ i, val i = .ok (.fin (a i))) : ∀ (l : List (Fin n)) (M : ℝ), 0 ≤ M →
    ∃ e, checkLoop val l (.fin M) = .ok (.fin e) ∧ M ≤ e ∧ (∀ i ∈ l, a i ≤ e) ∧ (e = M ∨ ∃ i ∈ l, e = a i)
  | [], M, _ => ⟨M, rfl, le_rfl, by simp, Or.inl rfl⟩
  | i :: l, M, hM => by
    obtain ⟨e, h1, h2, h3, h4⟩ := checkLoop_fin hv l (max (a i) M) (hM.trans (le_max_right _ _))
    refine ⟨e, ?_, (le_max_right _ _).trans h2, ?_, ?_⟩
    · simp only [checkLoop, hv, pyMax2_fin]
      exact h1
    · intro j hj
      simp only [List.mem_cons] at hj
      rcases hj with rfl | hj
      · exact (le_max_left _ _).trans h2
      · exact h3 j hj
    · rcases h4 with h4 | ⟨j, hj, h4⟩
      · rcases max_choice (a i) M with hm | hm
        · right; exact ⟨i, by simp, by rw [h4, hm]⟩
        · left; rw [h4, hm]
      · right; exact ⟨j, by simp [hj], h4⟩

theorem checkLoop_all {val : Fin n → Except Err XR} {a : Fin n → ℝ} (hv : ∀ i, val i = .ok (.fin (a i))) :
    ∃ e, checkLoop val (List.finRange n) (.fin 0) = .ok (.fin e) ∧ IsMaxErr e a := by
  obtain ⟨e, h1, h2, h3, h4⟩ := checkLoop_fin hv (List.finRange n) 0 le_rfl
  refine ⟨e, h1, h2, fun i => h3 i (List.mem_finRange i), ?_⟩
  rcases h4 with h4 | ⟨i, -, h4⟩
  · exact Or.inl h4
  · exact Or.inr ⟨i, h4⟩

/-- **C125** An empty list of steps is an error (if there is a coordinate). -/
theorem check_no_steps (x : Pt (n + 1)) (r f : Pt (n + 1) → Pt k) (J : Pt (n + 1) → Matrix (Fin k) (Fin (n + 1)) ℝ) (g : Pt (n + 1) → Fin (n + 1) → Pt k) :
    checkJacobian x r J (some []) = .error .valueError ∧ checkGradient x r J (some []) = .error .valueError ∧
      checkDerivative x f g (some []) = .error .valueError := by
  refine ⟨?_, ?_, ?_⟩
  · unfold checkJacobian; rw [List.finRange_succ]; rfl
  · unfold checkGradient; rw [List.finRange_succ]; rfl
  · unfold checkDerivative; rw [List.finRange_succ]; rfl

/-- The default steps are positive and there are some. -/
theorem defaultSteps_ok : defaultSteps ≠ [] ∧ ∀ h ∈ defaultSteps, 0 < h ∧ h ≤ 1 / 10 := by
  constructor
  · unfold defaultSteps logspace
    simp
  · intro h hh
    unfold defaultSteps logspace at hh
    obtain ⟨l, hl, rfl⟩ := List.mem_map.mp hh
    rw [List.mem_range] at hl
    refine ⟨by positivity, ?_⟩
    have hl' : (l : ℝ) ≤ 99 := by exact_mod_cast Nat.le_of_lt_succ hl
    have : (10 : ℝ) ^ ((-14 : ℝ) + (-1 - -14) * l / (((100 : ℕ) : ℝ) - 1)) ≤ (10 : ℝ) ^ (-1 : ℝ) := by
      apply Real.rpow_le_rpow_of_exponent_le (by norm_num)
      push_cast
      have : ((-1 : ℝ) - -14) * l / (100 - 1) ≤ 13 := by
        rw [div_le_iff₀ (by norm_num)]
        linarith
      linarith
    refine this.trans ?_
    rw [Real.rpow_neg_one]
    norm_num

/-! ### `check_derivative` -/

/-- **C125** What `check_derivative` returns: the largest over the coordinates of the smallest over the steps of the difference between the derivative and the
central difference. -/
theorem checkDerivative_spec (x : Pt n) (f : Pt n → Pt k) (g : Pt n → Fin n → Pt k) {hvec : Option (List ℝ)} (hne : hvec.getD defaultSteps ≠ [])
    (h0 : ∀ h ∈ hvec.getD defaultSteps, h ≠ 0) :
    ∃ (e : ℝ) (a : Fin n → ℝ), checkDerivative x f g hvec = .ok (.fin e) ∧ IsMaxErr e a ∧
      ∀ i, IsMinErr (a i) (hvec.getD defaultSteps) fun h => ‖cdiff f x i h - g x i‖ := by
  choose a ha hmin using fun i => npMinL_spec hne h0 fun h => ‖cdiff f x i h - g x i‖
  obtain ⟨e, he, hm⟩ := checkLoop_all ha
  exact ⟨e, a, he, hm, hmin⟩

/-- **C125** If central differences are exact (as for polynomials of degree two), `check_derivative` returns the largest error of the derivative; in particular
it returns zero exactly if the derivative is right. -/
theorem checkDerivative_exact (x : Pt n) (f : Pt n → Pt k) (g : Pt n → Fin n → Pt k) {hvec : Option (List ℝ)} (hne : hvec.getD defaultSteps ≠ [])
    (h0 : ∀ h ∈ hvec.getD defaultSteps, h ≠ 0) {D : Fin n → Pt k} (hD : ∀ i h, h ≠ 0 → cdiff f x i h = D i) :
    ∃ e, checkDerivative x f g hvec = .ok (.fin e) ∧ IsMaxErr e (fun i => ‖D i - g x i‖) ∧ (e = 0 ↔ ∀ i, g x i = D i) := by
  obtain ⟨e, a, he, hm, hmin⟩ := checkDerivative_spec x f g hne h0
  have hai : a = fun i => ‖D i - g x i‖ := by
    funext i
    obtain ⟨h, hh, heq⟩ := (hmin i).2
    dsimp only at heq
    rw [heq, hD i h (h0 h hh)]
  subst hai
  refine ⟨e, he, hm, ?_, ?_⟩
  · intro h i
    have := hm.2.1 i
    rw [h] at this
    have h2 := norm_le_zero_iff.mp this
    exact (sub_eq_zero.mp h2).symm
  · intro h
    rcases hm.2.2 with h1 | ⟨i, h1⟩
    · exact h1
    · rw [h1]; dsimp only; rw [h i]; simp

/-- The error of central differences. -/
theorem cdiff_err {f : Pt n → Pt k} {x : Pt n} {i : Fin n} {φ : ℝ → Pt k} {R M : ℝ} (hφ : ∀ t, |t| ≤ R → HasDerivAt (fun s : ℝ => f (x + s • ev i)) (φ t) t)
    (hM : ∀ t, 0 ≤ t → t ≤ R → ‖φ t + φ (-t) - (2 : ℝ) • φ 0‖ ≤ M * t ^ 2) {h : ℝ} (hpos : 0 < h) (hR : h ≤ R) : ‖cdiff f x i h - φ 0‖ ≤ M * h ^ 2 / 6 := by
  set F : ℝ → Pt k := fun t => f (x + t • ev i) - f (x + (-t) • ev i) - (2 * t) • φ 0 with hF
  have hderiv : ∀ t, 0 ≤ t → t ≤ R → HasDerivAt F (φ t + φ (-t) - (2 : ℝ) • φ 0) t := by
    intro t h0 h1
    have d1 := hφ t (by rw [abs_of_nonneg h0]; exact h1)
    have d2 : HasDerivAt (fun s : ℝ => f (x + (-s) • ev i)) (-φ (-t)) t := by
      have := (hφ (-t) (by rw [abs_neg, abs_of_nonneg h0]; exact h1)).scomp t (hasDerivAt_neg t)
      rw [neg_one_smul] at this
      exact this
    have d3 : HasDerivAt (fun s : ℝ => (2 * s) • φ 0) ((2 : ℝ) • φ 0) t := by
      have := ((hasDerivAt_id t).const_mul (2 : ℝ)).smul_const (φ 0)
      simpa using this
    have := (d1.fun_sub d2).fun_sub d3
    refine this.congr_deriv ?_
    rw [sub_neg_eq_add]
  have hB : ∀ t : ℝ, HasDerivAt (fun s : ℝ => M * s ^ 3 / 3) (M * t ^ 2) t := by
    intro t
    have := ((hasDerivAt_pow 3 t).const_mul M).div_const 3
    refine this.congr_deriv ?_
    push_cast
    ring
  have key : ‖F h‖ ≤ M * h ^ 3 / 3 := by
    refine image_norm_le_of_norm_deriv_right_le_deriv_boundary (f := F) (f' := fun t => φ t + φ (-t) - (2 : ℝ) • φ 0) (a := 0) (b := h)
      (B := fun s => M * s ^ 3 / 3) (B' := fun t => M * t ^ 2) ?_ ?_ ?_ hB ?_ ⟨hpos.le, le_rfl⟩
    · intro t ht
      exact (hderiv t ht.1 (ht.2.trans hR)).continuousAt.continuousWithinAt
    · intro t ht
      exact (hderiv t ht.1 (ht.2.le.trans hR)).hasDerivWithinAt
    · simp [hF]
    · intro t ht
      exact hM t ht.1 (ht.2.le.trans hR)
  have hcd : cdiff f x i h - φ 0 = (1 / (2 * h)) • F h := by
    unfold cdiff
    simp only [hF]
    rw [smul_sub (1 / (2 * h)) (f (x + h • ev i) - f (x + (-h) • ev i)) ((2 * h) • φ 0), smul_smul, show (1 / (2 * h)) * (2 * h) = 1 by field_simp, one_smul,
      neg_smul, ← sub_eq_add_neg]
  rw [hcd, norm_smul, Real.norm_of_nonneg (by positivity)]
  calc 1 / (2 * h) * ‖F h‖ ≤ 1 / (2 * h) * (M * h ^ 3 / 3) := by gcongr
    _ = M * h ^ 2 / 6 := by field_simp; ring

/-- **C125** For smooth functions (`φ i` is the derivative along coordinate `i`, with second differences at most `M t²`) the returned number is the largest error
of the derivative, up to the error `M h² / 6` of central differences. -/
theorem checkDerivative_smooth (x : Pt n) (f : Pt n → Pt k) (g : Pt n → Fin n → Pt k) {hvec : Option (List ℝ)} (hne : hvec.getD defaultSteps ≠ []) {R M : ℝ}
    (h0 : ∀ h ∈ hvec.getD defaultSteps, 0 < h ∧ h ≤ R) {φ : Fin n → ℝ → Pt k}
    (hφ : ∀ i t, |t| ≤ R → HasDerivAt (fun s : ℝ => f (x + s • ev i)) (φ i t) t)
    (hM : ∀ i t, 0 ≤ t → t ≤ R → ‖φ i t + φ i (-t) - (2 : ℝ) • φ i 0‖ ≤ M * t ^ 2) (hM0 : 0 ≤ M) :
    ∃ e, checkDerivative x f g hvec = .ok (.fin e) ∧ (∀ i, ‖φ i 0 - g x i‖ ≤ e + M * R ^ 2 / 6) ∧
      ∀ h ∈ hvec.getD defaultSteps, e = 0 ∨ ∃ i, e ≤ ‖φ i 0 - g x i‖ + M * h ^ 2 / 6 := by
  obtain ⟨e, a, he, hm, hmin⟩ := checkDerivative_spec x f g hne (fun h hh => (h0 h hh).1.ne')
  have herr : ∀ i, ∀ h ∈ hvec.getD defaultSteps, ‖cdiff f x i h - φ i 0‖ ≤ M * h ^ 2 / 6 := fun i h hh =>
    cdiff_err (hφ i) (hM i) (h0 h hh).1 (h0 h hh).2
  refine ⟨e, he, ?_, ?_⟩
  · intro i
    obtain ⟨h, hh, heq⟩ := (hmin i).2
    dsimp only at heq
    have h1 := hm.2.1 i
    rw [heq] at h1
    have h2 := herr i h hh
    have h3 : M * h ^ 2 / 6 ≤ M * R ^ 2 / 6 := by
      have := pow_le_pow_left₀ (h0 h hh).1.le (h0 h hh).2 2
      have := mul_le_mul_of_nonneg_left this hM0
      linarith
    have h4 : φ i 0 - g x i = (cdiff f x i h - g x i) - (cdiff f x i h - φ i 0) := by abel
    rw [h4]
    refine (norm_sub_le _ _).trans ?_
    linarith
  · intro h hh
    rcases hm.2.2 with h1 | ⟨i, h1⟩
    · exact Or.inl h1
    · right
      refine ⟨i, ?_⟩
      rw [h1]
      refine ((hmin i).1 h hh).trans ?_
      dsimp only
      have h4 : cdiff f x i h - g x i = (cdiff f x i h - φ i 0) + (φ i 0 - g x i) := by abel
      rw [h4]
      refine (norm_add_le _ _).trans ?_
      linarith [herr i h hh]

/-- A concrete case: `f(x) = x³` at `x = 2` with the default steps and any claimed derivative `d`; here `M = 6`, and the answer is within `1/100` of `|12 - d|`. -/
example (d : ℝ) : ∃ e, checkDerivative (n := 1) (k := 1) (fun _ => 2) (fun x _ => x 0 ^ 3) (fun _ _ _ => d) none = .ok (.fin e) ∧ |12 - d| ≤ e + 1 / 100 := by
  obtain ⟨e, he, h1, -⟩ := checkDerivative_smooth (n := 1) (k := 1) (fun _ => 2) (fun x _ => x 0 ^ 3) (fun _ _ _ => d) (hvec := none) (R := 1 / 10) (M := 6)
    (φ := fun _ t _ => 3 * (2 + t) ^ 2) defaultSteps_ok.1 defaultSteps_ok.2 (by
      intro i t _
      rw [hasDerivAt_pi]
      intro j
      have hi : i = 0 := Subsingleton.elim _ _
      subst hi
      have := ((hasDerivAt_id t).const_add 2).fun_pow 3
      simp only [Pi.add_apply, Pi.smul_apply, ev, if_true, smul_eq_mul, mul_one]
      refine this.congr_deriv ?_
      simp) (by
      intro i t h0 _
      have : ((fun _ => 3 * (2 + t) ^ 2) + (fun _ => 3 * (2 + -t) ^ 2) - (2 : ℝ) • (fun _ => 3 * (2 + 0) ^ 2) : Pt 1) = fun _ => 6 * t ^ 2 := by
        funext j
        simp only [Pi.add_apply, Pi.sub_apply, Pi.smul_apply, smul_eq_mul]
        ring
      rw [this, pi_norm_const, Real.norm_of_nonneg (by positivity)]) (by norm_num)
  refine ⟨e, he, ?_⟩
  have h2 := h1 0
  have : ((fun _ => 3 * (2 + 0) ^ 2) - (fun _ => d) : Pt 1) = fun _ => 12 - d := by
    funext j
    simp only [Pi.sub_apply]
    norm_num
  rw [this, pi_norm_const, Real.norm_eq_abs] at h2
  linarith

/-- A function whose components are polynomials of degree two. -/
def quadFun (c : Pt k) (B : Fin k → Pt n) (A : Fin k → Matrix (Fin n) (Fin n) ℝ) (x : Pt n) : Pt k := fun j => c j + B j ⬝ᵥ x + x ⬝ᵥ (A j *ᵥ x)

/-- Its derivative with respect to coordinate `i`. -/
def quadDer (B : Fin k → Pt n) (A : Fin k → Matrix (Fin n) (Fin n) ℝ) (x : Pt n) (i : Fin n) : Pt k := fun j => B j i + (A j *ᵥ x) i + (x ᵥ* A j) i

theorem ev_dot (i : Fin n) (v : Pt n) : ev i ⬝ᵥ v = v i := by
  unfold ev dotProduct
  simp

theorem dot_ev (i : Fin n) (v : Pt n) : v ⬝ᵥ ev i = v i := by rw [dotProduct_comm, ev_dot]

/-- Central differences are exact for polynomials of degree two. -/
theorem cdiff_quad (c : Pt k) (B : Fin k → Pt n) (A : Fin k → Matrix (Fin n) (Fin n) ℝ) (x : Pt n) (i : Fin n) {h : ℝ} (hh : h ≠ 0) :
    cdiff (quadFun c B A) x i h = quadDer B A x i := by
  funext j
  have h1 : x ⬝ᵥ (A j *ᵥ ev i) = (x ᵥ* A j) i := by rw [dotProduct_mulVec, dot_ev]
  simp only [cdiff, quadFun, quadDer, Pi.smul_apply, Pi.sub_apply, smul_eq_mul, mulVec_add, mulVec_sub, mulVec_smul, dotProduct_add, dotProduct_sub,
    add_dotProduct, sub_dotProduct, smul_dotProduct, dotProduct_smul, h1, ev_dot, dot_ev]
  field_simp
  ring

/-- **C125** for polynomials of degree two. -/
theorem checkDerivative_quad (c : Pt k) (B : Fin k → Pt n) (A : Fin k → Matrix (Fin n) (Fin n) ℝ) (x : Pt n) (g : Pt n → Fin n → Pt k)
    {hvec : Option (List ℝ)} (hne : hvec.getD defaultSteps ≠ []) (h0 : ∀ h ∈ hvec.getD defaultSteps, h ≠ 0) :
    ∃ e, checkDerivative x (quadFun c B A) g hvec = .ok (.fin e) ∧ IsMaxErr e (fun i => ‖quadDer B A x i - g x i‖) ∧
      (e = 0 ↔ ∀ i, g x i = quadDer B A x i) :=
  checkDerivative_exact x (quadFun c B A) g hne h0 fun i _ hh => cdiff_quad c B A x i hh

/-- A concrete case: `f(x) = x₀²` with a wrong derivative at `x = 3`; the error is found, with the default steps. -/
example : checkDerivative (n := 1) (k := 1) (fun _ => 3) (quadFun (fun _ => 0) (fun _ _ => 0) (fun _ => 1)) (fun x _ _ => x 0) none = .ok (.fin 3) := by
  obtain ⟨e, he, hm, -⟩ := checkDerivative_quad (n := 1) (k := 1) (fun _ => 0) (fun _ _ => 0) (fun _ => 1) (fun _ => 3) (fun x _ _ => x 0) (hvec := none)
    defaultSteps_ok.1 (fun h hh => (defaultSteps_ok.2 h hh).1.ne')
  have hv : ∀ i : Fin 1, ‖quadDer (n := 1) (k := 1) (fun _ _ => 0) (fun _ => 1) (fun _ => 3) i - (fun _ => 3 : Pt 1)‖ = 3 := by
    intro i
    have : (quadDer (n := 1) (k := 1) (fun _ _ => 0) (fun _ => 1) (fun _ => 3) i - (fun _ => 3 : Pt 1)) = fun _ => (3 : ℝ) := by
      funext j
      simp [quadDer]
    rw [this, pi_norm_const]
    norm_num
  rw [he]
  have h1 : _ ≤ e := hm.2.1 0
  have h1' : (3 : ℝ) ≤ e := (hv 0).symm.le.trans h1
  rcases hm.2.2 with h2 | ⟨i, h2⟩
  · linarith
  · rw [h2.trans (hv i)]

/-! ### `check_jacobian` -/

/-- **C125** If no column of the Jacobian vanishes, `check_jacobian` returns the largest relative error of a column (smallest over the steps). -/
theorem checkJacobian_spec_partial (x : Pt n) (r : Pt n → Pt k) (J : Pt n → Matrix (Fin k) (Fin n) ℝ) {hvec : Option (List ℝ)} (hne : hvec.getD defaultSteps ≠ [])
    (h0 : ∀ h ∈ hvec.getD defaultSteps, h ≠ 0) (hJ : ∀ i, nrm (fun j => J x j i) ≠ 0) :
    ∃ (e : ℝ) (a : Fin n → ℝ), checkJacobian x r J hvec = .ok (.fin e) ∧ IsMaxErr e (fun i => a i / nrm (fun j => J x j i)) ∧
      ∀ i, IsMinErr (a i) (hvec.getD defaultSteps) fun h => nrm (cdiff r x i h - fun j => J x j i) := by
  choose a ha hmin using fun i => pyMinL_spec hne h0 fun h => nrm (cdiff r x i h - fun j => J x j i)
  obtain ⟨e, he, hm⟩ := checkLoop_all (n := n) (a := fun i => a i / nrm (fun j => J x j i))
    (val := fun i => (pyMinL ((hvec.getD defaultSteps).map fun h => stepErr h (nrm (cdiff r x i h - fun j => J x j i)))).map
      fun v => xdiv v (nrm fun j => J x j i)) (by
    intro i
    change (pyMinL _).map _ = _
    rw [ha i]
    change Except.ok (xdiv (.fin (a i)) _) = _
    simp only [xdiv, fdivX]
    rw [if_neg (hJ i)])
  exact ⟨e, a, he, hm, hmin⟩

/-- **C125** for residuals that are polynomials of degree two: zero is returned exactly if the Jacobian is right (no column of it vanishing). -/
theorem checkJacobian_quad_partial (c : Pt k) (B : Fin k → Pt n) (A : Fin k → Matrix (Fin n) (Fin n) ℝ) (x : Pt n) (J : Pt n → Matrix (Fin k) (Fin n) ℝ)
    {hvec : Option (List ℝ)} (hne : hvec.getD defaultSteps ≠ []) (h0 : ∀ h ∈ hvec.getD defaultSteps, h ≠ 0) (hJ : ∀ i, nrm (fun j => J x j i) ≠ 0) :
    ∃ e, checkJacobian x (quadFun c B A) J hvec = .ok (.fin e) ∧
      IsMaxErr e (fun i => nrm (quadDer B A x i - fun j => J x j i) / nrm (fun j => J x j i)) ∧ (e = 0 ↔ ∀ i j, J x j i = quadDer B A x i j) := by
  obtain ⟨e, a, he, hm, hmin⟩ := checkJacobian_spec_partial x (quadFun c B A) J hne h0 hJ
  have hai : a = fun i => nrm (quadDer B A x i - fun j => J x j i) := by
    funext i
    obtain ⟨h, hh, heq⟩ := (hmin i).2
    dsimp only at heq
    rw [heq, cdiff_quad c B A x i (h0 h hh)]
  subst hai
  refine ⟨e, he, hm, ?_, ?_⟩
  · intro h i j
    have h1 := hm.2.1 i
    rw [h] at h1
    have hpos : 0 < nrm (fun j => J x j i) := lt_of_le_of_ne (Real.sqrt_nonneg _) (Ne.symm (hJ i))
    rw [div_le_iff₀ hpos, zero_mul] at h1
    have h2 : (quadDer B A x i - fun j => J x j i) ⬝ᵥ (quadDer B A x i - fun j => J x j i) ≤ 0 := Real.sqrt_eq_zero'.mp (le_antisymm h1 (Real.sqrt_nonneg _))
    have h3 : (quadDer B A x i - fun j => J x j i) = 0 := dotProduct_self_eq_zero.mp (le_antisymm h2 (Finset.sum_nonneg fun j _ => mul_self_nonneg _))
    have := congrFun h3 j
    simp only [Pi.sub_apply, Pi.zero_apply] at this
    linarith
  · intro h
    rcases hm.2.2 with h1 | ⟨i, h1⟩
    · exact h1
    · rw [h1]
      dsimp only
      have : (quadDer B A x i - fun j => J x j i) = 0 := by
        funext j
        simp [h i j]
      rw [this]
      simp [nrm]

theorem cdiff_add3 (x : Pt 3) (i : Fin 3) {h : ℝ} (hh : h ≠ 0) :
    cdiff (n := 3) (k := 1) (fun x _ => x 0 + x 2) x i h = fun _ => if i = 1 then 0 else 1 := by
  funext j
  fin_cases i <;> simp [cdiff, ev] <;> field_simp <;> ring

/-- **C125** is false if a column vanishes: for `r(x) = x₀ + x₂` the wrong Jacobian `[5, 0, 1]` is accepted with error `0`, because the quotient `0/0` of the second
column is `nan`, and `max(0, nan)` forgets the errors found before. -/
theorem check_jacobian_zero_column_false (x : Pt 3) {hvec : Option (List ℝ)} (hne : hvec.getD defaultSteps ≠ [])
    (h0 : ∀ h ∈ hvec.getD defaultSteps, h ≠ 0) :
    checkJacobian (n := 3) (k := 1) x (fun x _ => x 0 + x 2) (fun _ => Matrix.of ![![5, 0, 1]]) hvec = .ok (.fin 0) := by
  have hval : ∀ i : Fin 3, (pyMinL ((hvec.getD defaultSteps).map fun h => stepErr h (nrm (cdiff (n := 3) (k := 1) (fun x _ => x 0 + x 2) x i h -
      fun j => (Matrix.of ![![5, 0, 1]] : Matrix (Fin 1) (Fin 3) ℝ) j i)))).map (fun v => xdiv v (nrm fun j => (Matrix.of ![![5, 0, 1]] : Matrix (Fin 1) (Fin 3) ℝ) j i)) =
      .ok (if i = 0 then .fin (4 / 5) else if i = 1 then .nan else .fin 0) := by
    intro i
    obtain ⟨e, he, -, h, hh, heq⟩ := pyMinL_spec hne h0 fun h => nrm (cdiff (n := 3) (k := 1) (fun x _ => x 0 + x 2) x i h -
      fun j => (Matrix.of ![![5, 0, 1]] : Matrix (Fin 1) (Fin 3) ℝ) j i)
    dsimp only at heq
    rw [he, heq, cdiff_add3 x i (h0 h hh)]
    have h4 : √(16 : ℝ) = 4 := by rw [show (16 : ℝ) = 4 ^ 2 by norm_num, Real.sqrt_sq (by norm_num)]
    have h5 : √(25 : ℝ) = 5 := by rw [show (25 : ℝ) = 5 ^ 2 by norm_num, Real.sqrt_sq (by norm_num)]
    change Except.ok (xdiv (.fin _) _) = _
    congr 1
    fin_cases i
    · simp only [xdiv, fdivX, nrm, dotProduct]
      norm_num [h4, h5]
    · simp [xdiv, fdivX, nrm, dotProduct]
    · simp [xdiv, fdivX, nrm, dotProduct]
  unfold checkJacobian
  have hr : List.finRange 3 = [0, 1, 2] := rfl
  rw [hr]
  simp only [checkLoop, hval]
  have e1 : pyMax2 (.fin (4 / 5)) (.fin 0) = .fin (4 / 5) := by rw [pyMax2_fin]; norm_num
  have e2 : pyMax2 .nan (.fin (4 / 5)) = .nan := if_neg (fun h => h)
  have e3 : pyMax2 (.fin 0) .nan = .fin 0 := if_neg (fun h => h)
  simp [e1, e2, e3]

/-! ### `check_gradient` -/

/-- **C125** For an affine residual `check_gradient` returns the largest entry of the error of the gradient `Jᵀ r`; zero for the right matrix. -/
theorem checkGradient_affine (A : Matrix (Fin k) (Fin n) ℝ) (b : Pt k) (x : Pt n) {hvec : Option (List ℝ)} (hne : hvec.getD defaultSteps ≠ [])
    (h0 : ∀ h ∈ hvec.getD defaultSteps, h ≠ 0) (J : Pt n → Matrix (Fin k) (Fin n) ℝ) :
    ∃ e, checkGradient x (fun x => A *ᵥ x + b) J hvec = .ok (.fin e) ∧ IsMaxErr e (fun i => |((A - J x)ᵀ *ᵥ (A *ᵥ x + b)) i|) := by
  choose a ha hmin using fun i : Fin n => pyMinL_spec hne h0 fun h =>
    |0.5 * (nrm (A *ᵥ (x + h • ev i) + b) ^ 2 - nrm (A *ᵥ (x - h • ev i) + b) ^ 2) / (2 * h) - ((J x)ᵀ *ᵥ (A *ᵥ x + b)) i|
  have hai : a = fun i => |((A - J x)ᵀ *ᵥ (A *ᵥ x + b)) i| := by
    funext i
    obtain ⟨h, hh, heq⟩ := (hmin i).2
    dsimp only at heq
    rw [heq]
    have hsq : ∀ v : Pt k, nrm v ^ 2 = v ⬝ᵥ v := fun v => Real.sq_sqrt (Finset.sum_nonneg fun j _ => mul_self_nonneg _)
    have h1 : (A *ᵥ x + b) ⬝ᵥ (A *ᵥ ev i) = (Aᵀ *ᵥ (A *ᵥ x + b)) i := by
      rw [dotProduct_mulVec, dot_ev, mulVec_transpose]
    have h2 : (A *ᵥ ev i) ⬝ᵥ (A *ᵥ x + b) = (Aᵀ *ᵥ (A *ᵥ x + b)) i := by rw [dotProduct_comm, h1]
    have e1 : A *ᵥ (x + h • ev i) + b = (A *ᵥ x + b) + h • (A *ᵥ ev i) := by rw [mulVec_add, mulVec_smul]; abel
    have e2 : A *ᵥ (x - h • ev i) + b = (A *ᵥ x + b) - h • (A *ᵥ ev i) := by rw [mulVec_sub, mulVec_smul]; abel
    rw [hsq, hsq, e1, e2]
    congr 1
    generalize A *ᵥ x + b = y at *
    simp only [add_dotProduct, dotProduct_add, sub_dotProduct, dotProduct_sub, smul_dotProduct, dotProduct_smul, smul_eq_mul, h1, h2, transpose_sub, sub_mulVec, Pi.sub_apply]
    have := h0 h hh
    field_simp
    ring
  subst hai
  obtain ⟨e, he, hm⟩ := checkLoop_all ha
  exact ⟨e, he, hm⟩

/-- **C125** is false for `check_gradient` where the residual vanishes: every Jacobian is accepted with error zero. -/
theorem check_gradient_blind_false (A : Matrix (Fin k) (Fin n) ℝ) {hvec : Option (List ℝ)} (hne : hvec.getD defaultSteps ≠ [])
    (h0 : ∀ h ∈ hvec.getD defaultSteps, h ≠ 0) (J : Pt n → Matrix (Fin k) (Fin n) ℝ) :
    checkGradient 0 (fun x => A *ᵥ x) J hvec = .ok (.fin 0) := by
  obtain ⟨e, he, hm⟩ := checkGradient_affine A 0 0 hne h0 J
  simp only [add_zero] at he
  rw [he]
  rcases hm.2.2 with h | ⟨i, h⟩
  · rw [h]
  · rw [h]; simp

/-! ### `check_hessian` -/

theorem logspace_pos (a b : ℝ) (N : ℕ) : ∀ h ∈ logspace a b N, 0 < h := by
  intro h hh
  unfold logspace at hh
  obtain ⟨l, -, rfl⟩ := List.mem_map.mp hh
  positivity

/-- Second differences are exact for polynomials of degree two. -/
theorem hdiff_quad (c : ℝ) (b : Pt n) (A : Matrix (Fin n) (Fin n) ℝ) (x : Pt n) (i j : Fin n) {h : ℝ} (hh : h ≠ 0) :
    hdiff (fun x => c + b ⬝ᵥ x + x ⬝ᵥ (A *ᵥ x)) x i j h = A i j + A j i := by
  have h1 : ∀ p q : Fin n, ev p ⬝ᵥ (A *ᵥ ev q) = A p q := by
    intro p q
    rw [dotProduct_mulVec, dot_ev]
    unfold vecMul
    rw [ev_dot]
  simp only [hdiff, mulVec_add, mulVec_sub, mulVec_smul, dotProduct_add, dotProduct_sub,
    add_dotProduct, sub_dotProduct, smul_dotProduct, dotProduct_smul, h1, smul_eq_mul]
  field_simp
  ring

theorem foldl_max_spec {ι : Type*} (a : ι → ℝ) : ∀ (l : List ι) (M : ℝ), ∃ e, l.foldl (fun M i => pyMax2 (.fin (a i)) M) (.fin M) = .fin e ∧ M ≤ e ∧
    (∀ i ∈ l, a i ≤ e) ∧ (e = M ∨ ∃ i ∈ l, e = a i)
  | [], M => ⟨M, rfl, le_rfl, by simp, Or.inl rfl⟩
  | i :: l, M => by
    obtain ⟨e, h1, h2, h3, h4⟩ := foldl_max_spec a l (max (a i) M)
    refine ⟨e, by rw [List.foldl_cons, pyMax2_fin]; exact h1, (le_max_right _ _).trans h2, ?_, ?_⟩
    · intro j hj
      simp only [List.mem_cons] at hj
      rcases hj with rfl | hj
      · exact (le_max_left _ _).trans h2
      · exact h3 j hj
    · rcases h4 with h4 | ⟨j, hj, h4⟩
      · rcases max_choice (a i) M with hm | hm
        · right; exact ⟨i, by simp, by rw [h4, hm]⟩
        · left; rw [h4, hm]
      · right; exact ⟨j, by simp [hj], h4⟩

/-- **C125** For polynomials of degree two `check_hessian` returns the largest error of an entry of the Hessian; zero exactly if the Hessian is right. -/
theorem checkHessian_quad (c : ℝ) (b : Pt n) (A : Matrix (Fin n) (Fin n) ℝ) (x : Pt n) (H : Pt n → Matrix (Fin n) (Fin n) ℝ) :
    ∃ e, checkHessian x (fun x => c + b ⬝ᵥ x + x ⬝ᵥ (A *ᵥ x)) H = .fin e ∧ IsMaxErr e (fun p : Fin n × Fin n => |A p.1 p.2 + A p.2 p.1 - H x p.1 p.2|) ∧
      (e = 0 ↔ H x = A + Aᵀ) := by
  set f : Pt n → ℝ := fun x => c + b ⬝ᵥ x + x ⬝ᵥ (A *ᵥ x) with hf
  have hmin : ∀ i j, (logspace (-7) (-1) 10).foldl (fun e h => XR.min e (.fin |hdiff f x i j h - H x i j|)) .pinf = .fin |A i j + A j i - H x i j| := by
    intro i j
    have hall : ∀ l : List ℝ, (∀ h ∈ l, h ≠ 0) → ∀ v, l.foldl (fun e h => XR.min e (.fin |hdiff f x i j h - H x i j|)) (.fin v) =
        if l = [] then .fin v else .fin (min v |A i j + A j i - H x i j|) := by
      intro l
      induction l with
      | nil => intro _ v; rfl
      | cons h l ih =>
        intro hl v
        rw [List.foldl_cons, hdiff_quad c b A x i j (hl h (by simp))]
        change l.foldl _ (XR.fin (min v _)) = _
        rw [ih (fun h' hh' => hl h' (by simp [hh'])), if_neg (List.cons_ne_nil h l)]
        split_ifs
        · rfl
        · rw [min_assoc, min_self]
    have hne : logspace (-7) (-1) 10 ≠ [] := by unfold logspace; simp
    obtain ⟨h, l, hl⟩ := List.exists_cons_of_ne_nil hne
    have hpos := logspace_pos (-7) (-1) 10
    rw [hl] at hpos ⊢
    rw [List.foldl_cons, hdiff_quad c b A x i j (hpos h (by simp)).ne']
    change l.foldl _ (XR.fin _) = _
    rw [hall l (fun h' hh' => (hpos h' (by simp [hh'])).ne')]
    split_ifs
    · rfl
    · rw [min_self]
  have hinner : ∀ i M, (List.finRange n).foldl (fun M j => pyMax2 ((logspace (-7) (-1) 10).foldl (fun e h => XR.min e (.fin |hdiff f x i j h - H x i j|)) .pinf) M) M =
      (List.finRange n).foldl (fun M j => pyMax2 (.fin |A i j + A j i - H x i j|) M) M := by
    intro i M
    simp only [hmin]
  have houter : ∀ (l : List (Fin n)) (M : ℝ), 0 ≤ M → ∃ e, l.foldl (fun M i => (List.finRange n).foldl (fun M j => pyMax2 (.fin |A i j + A j i - H x i j|) M) M) (.fin M) = .fin e ∧
      M ≤ e ∧ (∀ i ∈ l, ∀ j, |A i j + A j i - H x i j| ≤ e) ∧ (e = M ∨ ∃ i j, e = |A i j + A j i - H x i j|) := by
    intro l
    induction l with
    | nil => exact fun M _ => ⟨M, rfl, le_rfl, by simp, Or.inl rfl⟩
    | cons i l ih =>
      intro M hM
      obtain ⟨e1, h1, h2, h3, h4⟩ := foldl_max_spec (fun j => |A i j + A j i - H x i j|) (List.finRange n) M
      obtain ⟨e, g1, g2, g3, g4⟩ := ih e1 (hM.trans h2)
      refine ⟨e, by rw [List.foldl_cons, h1]; exact g1, h2.trans g2, ?_, ?_⟩
      · intro i' hi' j
        simp only [List.mem_cons] at hi'
        rcases hi' with rfl | hi'
        · exact (h3 j (List.mem_finRange j)).trans g2
        · exact g3 i' hi' j
      · rcases g4 with g4 | g4
        · rcases h4 with h4 | ⟨j, -, h4⟩
          · left; rw [g4, h4]
          · right; exact ⟨i, j, by rw [g4, h4]⟩
        · exact Or.inr g4
  obtain ⟨e, h1, h2, h3, h4⟩ := houter (List.finRange n) 0 le_rfl
  have hm : IsMaxErr e (fun p : Fin n × Fin n => |A p.1 p.2 + A p.2 p.1 - H x p.1 p.2|) := by
    refine ⟨h2, fun p => h3 p.1 (List.mem_finRange _) p.2, ?_⟩
    rcases h4 with h4 | ⟨i, j, h4⟩
    · exact Or.inl h4
    · exact Or.inr ⟨(i, j), h4⟩
  refine ⟨e, ?_, hm, ?_, ?_⟩
  · unfold checkHessian
    simp only [hinner]
    exact h1
  · intro h0
    ext i j
    have := hm.2.1 (i, j)
    rw [h0] at this
    have := abs_eq_zero.mp (le_antisymm this (abs_nonneg _))
    simp only [Matrix.add_apply, transpose_apply]
    dsimp only at this
    linarith
  · intro hH
    rcases hm.2.2 with h0 | ⟨⟨i, j⟩, h0⟩
    · exact h0
    · rw [h0, hH]; simp

end Verif.Misc
