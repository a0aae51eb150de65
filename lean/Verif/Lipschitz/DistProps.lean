import Verif.Lipschitz.DistModel
import Verif.Lipschitz.ProjProps
import Verif.Lipschitz.FitExists
import Mathlib.Algebra.Order.BigOperators.Ring.Finset

/-!
# C110: distances to the constraints of the Lipschitz matrix

`dist_eval_constraints` and `dist_grad_constraints` are documented as the Frobenius norm of the smallest perturbation of the matrix that makes
a constraint active. The specification is the Frobenius norm `frob`, the constraint `(f(x) - f(y))² ≤ (x - y)ᵀ H (x - y)` for two
evaluations and `g gᵀ ≤ H` (in the semidefinite order `LoewnerLe`) for a gradient.
-/

namespace Verif.Lip

open Verif Matrix

variable {m : ℕ}

/-- The Frobenius norm. -/
noncomputable def frob (E : Matrix (Fin m) (Fin m) ℝ) : ℝ := Real.sqrt (∑ i, ∑ j, E i j ^ 2)

/-- The entry for the evaluations `(x, a)` and `(y, b)` of the result. -/
noncomputable def evalDist (H : Matrix (Fin m) (Fin m) ℝ) (x y : Pt m) (a b : ℝ) : ℝ :=
  (quad H (x - y) - (a - b) ^ 2) / ((x - y) ⬝ᵥ (x - y))

theorem quad_le_frob (E : Matrix (Fin m) (Fin m) ℝ) (x : Pt m) : |quad E x| ≤ frob E * (x ⬝ᵥ x) := by
  have hq : quad E x = ∑ p : Fin m × Fin m, E p.1 p.2 * (x p.1 * x p.2) := by
    rw [Fintype.sum_prod_type]
    simp only [quad, dotProduct, Matrix.mulVec, Finset.mul_sum]
    exact Finset.sum_congr rfl fun i _ => Finset.sum_congr rfl fun j _ => by ring
  have h := Finset.sum_mul_sq_le_sq_mul_sq Finset.univ (fun p : Fin m × Fin m => E p.1 p.2) (fun p => x p.1 * x p.2)
  rw [← hq] at h
  have e1 : ∑ p : Fin m × Fin m, E p.1 p.2 ^ 2 = frob E ^ 2 := by
    have hs : 0 ≤ ∑ i, ∑ j, E i j ^ 2 := Finset.sum_nonneg fun i _ => Finset.sum_nonneg fun j _ => sq_nonneg _
    rw [frob, Real.sq_sqrt hs, Fintype.sum_prod_type]
  have e2 : ∑ p : Fin m × Fin m, (x p.1 * x p.2) ^ 2 = (x ⬝ᵥ x) ^ 2 := by
    rw [Fintype.sum_prod_type, sq, dotProduct, Finset.sum_mul_sum]
    exact Finset.sum_congr rfl fun i _ => Finset.sum_congr rfl fun j _ => by ring
  rw [e1, e2, ← mul_pow] at h
  exact abs_le_of_sq_le_sq h (mul_nonneg (Real.sqrt_nonneg _) (dotProduct_self_nonneg' x))

theorem frob_outer (c : ℝ) (v : Pt m) : frob (c • outer v) = |c| * (v ⬝ᵥ v) := by
  have : ∑ i, ∑ j, (c • outer v) i j ^ 2 = (c * (v ⬝ᵥ v)) ^ 2 := by
    have e : (c * (v ⬝ᵥ v)) ^ 2 = c ^ 2 * ((v ⬝ᵥ v) * (v ⬝ᵥ v)) := by ring
    rw [e, dotProduct, Finset.sum_mul_sum, Finset.mul_sum]
    refine Finset.sum_congr rfl fun i _ => ?_
    rw [Finset.mul_sum]
    refine Finset.sum_congr rfl fun j _ => ?_
    simp only [outer, Matrix.smul_apply, Matrix.of_apply, smul_eq_mul]
    ring
  rw [frob, this, Real.sqrt_sq_eq_abs, abs_mul, abs_of_nonneg (dotProduct_self_nonneg' v)]

theorem smul_outer_transpose (c : ℝ) (v : Pt m) : (c • outer v)ᵀ = c • outer v := by rw [Matrix.transpose_smul, outer_transpose]

theorem dot_pos {v : Pt m} (h : v ≠ 0) : 0 < v ⬝ᵥ v :=
  lt_of_le_of_ne (dotProduct_self_nonneg' v) fun e => h (dotProduct_self_eq_zero.1 e.symm)

/-! ## Evaluations -/

/-- **C110**: one entry for every pair of evaluations, in order. -/
theorem distEval_length (H : Matrix (Fin m) (Fin m) ℝ) (data : List (Pt m × ℝ)) :
    2 * (distEval H data).length = data.length * (data.length - 1) := by
  have : ∀ l : List (Pt m × ℝ), 2 * (pairsOf l).length = l.length * (l.length - 1) := by
    intro l
    induction l with
    | nil => rfl
    | cons a l ih =>
      simp only [pairsOf, List.length_append, List.length_map, List.length_cons, Nat.add_sub_cancel, mul_add, ih]
      cases l with
      | nil => rfl
      | cons b l => simp only [List.length_cons, Nat.add_sub_cancel]; ring
  simp only [distEval, evalRows, List.length_map]
  exact this data

/-- **C110**: the entries are those of the pairs of different points; equal points have no finite entry. -/
theorem distEval_entries (H : Matrix (Fin m) (Fin m) ℝ) (data : List (Pt m × ℝ)) (d : XR) :
    d ∈ distEval H data ↔ ∃ x a y b, ((x, a), (y, b)) ∈ pairsOf data ∧
      ((x ≠ y ∧ d = .fin (evalDist H x y a b)) ∨ (x = y ∧ a = b ∧ d = .nan) ∨ (x = y ∧ a ≠ b ∧ d = .ninf)) := by
  have key : ∀ x a y b, (distRow H (x - y, (a - b) ^ 2) = d ↔
      ((x ≠ y ∧ d = .fin (evalDist H x y a b)) ∨ (x = y ∧ a = b ∧ d = .nan) ∨ (x = y ∧ a ≠ b ∧ d = .ninf))) := by
    intro x a y b
    by_cases h : x = y
    · subst h
      by_cases hab : a = b
      · subst hab
        simp [distRow, XR.div, quad, eq_comm]
      · have h2 : 0 < (a - b) ^ 2 := by have := sub_ne_zero.2 hab; positivity
        simp [distRow, XR.div, quad, hab, sub_ne_zero.2 hab, not_lt.2 h2.le, eq_comm]
    · have hp := (dot_pos (sub_ne_zero.2 h)).ne'
      simp only [distRow, XR.div, hp, if_false, evalDist, h, ne_eq, not_false_eq_true, true_and, false_and, or_false]
      exact eq_comm
  simp only [distEval, evalRows, List.map_map, List.mem_map, Function.comp]
  constructor
  · rintro ⟨⟨⟨x, a⟩, ⟨y, b⟩⟩, hp, e⟩
    exact ⟨x, a, y, b, hp, (key x a y b).1 e⟩
  · rintro ⟨x, a, y, b, hp, e⟩
    exact ⟨_, hp, (key x a y b).2 e⟩

/-- **C110**: the entry is nonnegative exactly if the evaluations are consistent with the matrix. -/
theorem evalDist_nonneg_iff (H : Matrix (Fin m) (Fin m) ℝ) {x y : Pt m} (h : x ≠ y) (a b : ℝ) :
    0 ≤ evalDist H x y a b ↔ (a - b) ^ 2 ≤ quad H (x - y) := by
  unfold evalDist
  rw [le_div_iff₀ (dot_pos (sub_ne_zero.2 h)), zero_mul, sub_nonneg]

/-- **C110**: no perturbation smaller than the entry makes the constraint active, and a symmetric one of this size does. -/
theorem evalDist_distance (H : Matrix (Fin m) (Fin m) ℝ) {x y : Pt m} (h : x ≠ y) (a b : ℝ) :
    (∀ E : Matrix (Fin m) (Fin m) ℝ, quad (H + E) (x - y) = (a - b) ^ 2 → |evalDist H x y a b| ≤ frob E) ∧
      ∃ E : Matrix (Fin m) (Fin m) ℝ, Eᵀ = E ∧ quad (H + E) (x - y) = (a - b) ^ 2 ∧ frob E = |evalDist H x y a b| := by
  have hp := dot_pos (sub_ne_zero.2 h)
  constructor
  · intro E hE
    rw [quad_add] at hE
    have e : quad H (x - y) - (a - b) ^ 2 = -quad E (x - y) := by linarith
    unfold evalDist
    rw [e, abs_div, abs_neg, abs_of_pos hp, div_le_iff₀ hp]
    exact quad_le_frob E _
  · refine ⟨(-evalDist H x y a b / ((x - y) ⬝ᵥ (x - y))) • outer (x - y), smul_outer_transpose _ _, ?_, ?_⟩
    · rw [quad_add, quad_smul_mat, quad_outer]
      unfold evalDist
      field_simp
      ring
    · rw [frob_outer, abs_div, abs_neg, abs_of_pos hp]
      field_simp

/-! ## Gradients -/

/-- The value is an eigenvalue. -/
theorem minEig_vector {dist : MinEigFn m} (hd : MinEigSpec dist) {H : Matrix (Fin m) (Fin m) ℝ} (hH : Hᵀ = H) (g : Pt m) :
    ∃ v : Pt m, v ⬝ᵥ v = 1 ∧ (H - outer g) *ᵥ v = dist H g • v := by
  obtain ⟨eigh, he⟩ := exists_eigh m
  have hs : (H - outer g)ᵀ = H - outer g := by rw [Matrix.transpose_sub, hH, outer_transpose]
  obtain ⟨h1, h2⟩ := he _ hs
  set U := (eigh (H - outer g)).2
  set ew := (eigh (H - outer g)).1
  have hUU : U * Uᵀ = 1 := mul_eq_one_comm.1 h1
  have hq : ∀ x, quad (H - outer g) x = ∑ k, ew k * (ucol U k ⬝ᵥ x) ^ 2 := by
    intro x; rw [h2, Matrix.mul_assoc, quad_diag]
  have hxx : ∀ x : Pt m, x ⬝ᵥ x = ∑ k, (ucol U k ⬝ᵥ x) ^ 2 := by
    intro x
    have := quad_diag U (fun _ => 1) x
    rw [show Matrix.diagonal (fun _ : Fin m => (1 : ℝ)) = 1 from Matrix.diagonal_one, Matrix.one_mul, hUU] at this
    simpa [quad] using this
  have hcol : ∀ k, ucol U k ⬝ᵥ ucol U k = 1 := by
    intro k
    have := congrFun (congrFun h1 k) k
    simpa [Matrix.mul_apply, ucol, dotProduct] using this
  have hvec : ∀ k, (H - outer g) *ᵥ ucol U k = ew k • ucol U k := by
    intro k
    have e : (H - outer g) * U = U * Matrix.diagonal ew := by
      rw [h2, Matrix.mul_assoc, h1, Matrix.mul_one]
    funext i
    have := congrFun (congrFun e i) k
    rw [Matrix.mul_diagonal] at this
    simp only [Pi.smul_apply, smul_eq_mul]
    rw [mul_comm]
    exact this
  have hle : ∀ k, dist H g ≤ ew k := by
    intro k
    have := (hd H g hH (dist H g)).1 le_rfl (ucol U k)
    rw [hcol, quad, hvec, dotProduct_smul, hcol] at this
    simpa using this
  by_contra hno
  push Not at hno
  have hne : ∀ k, dist H g < ew k := by
    intro k
    refine lt_of_le_of_ne (hle k) fun e => hno (ucol U k) (hcol k) ?_
    rw [hvec, ← e]
  have : ∃ c, dist H g < c ∧ ∀ k, c ≤ ew k := by
    rcases isEmpty_or_nonempty (Fin m) with hm | hm
    · exact ⟨dist H g + 1, by linarith, fun k => hm.elim k⟩
    · refine ⟨Finset.univ.inf' Finset.univ_nonempty ew, ?_, fun k => Finset.inf'_le _ (Finset.mem_univ k)⟩
      rw [Finset.lt_inf'_iff]
      exact fun k _ => hne k
  obtain ⟨c, hc, hck⟩ := this
  refine absurd ((hd H g hH c).2 fun x => ?_) (not_le.2 hc)
  rw [hxx, hq, Finset.mul_sum]
  exact Finset.sum_le_sum fun k _ => mul_le_mul_of_nonneg_right (hck k) (sq_nonneg _)

/-- **C110**: a gradient is consistent with the matrix exactly if the value is nonnegative. -/
theorem gradDist_nonneg_iff {dist : MinEigFn m} (hd : MinEigSpec dist) {H : Matrix (Fin m) (Fin m) ℝ} (hH : Hᵀ = H) (g : Pt m) :
    0 ≤ dist H g ↔ LoewnerLe (outer g) H := by
  rw [hd H g hH 0]
  refine forall_congr' fun x => ?_
  rw [quad_sub, zero_mul, sub_nonneg]

/-- **C110**: if the gradient is consistent, then it stays so under all smaller perturbations, and a symmetric perturbation of this size leaves
the matrix on the boundary. -/
theorem gradDist_inside {dist : MinEigFn m} (hd : MinEigSpec dist) {H : Matrix (Fin m) (Fin m) ℝ} (hH : Hᵀ = H) (g : Pt m) (h : 0 ≤ dist H g) :
    (∀ E : Matrix (Fin m) (Fin m) ℝ, frob E ≤ dist H g → LoewnerLe (outer g) (H + E)) ∧
      ∃ E : Matrix (Fin m) (Fin m) ℝ, Eᵀ = E ∧ frob E = dist H g ∧ LoewnerLe (outer g) (H + E) ∧ ∃ v ≠ 0, (H + E - outer g) *ᵥ v = 0 := by
  have h1 : ∀ E : Matrix (Fin m) (Fin m) ℝ, frob E ≤ dist H g → LoewnerLe (outer g) (H + E) := by
    intro E hE x
    have a := (hd H g hH _).1 le_rfl x
    rw [quad_sub] at a
    have b := (abs_le.1 (quad_le_frob E x)).1
    have c := mul_le_mul_of_nonneg_right hE (dotProduct_self_nonneg' x)
    rw [quad_add]
    linarith
  refine ⟨h1, ?_⟩
  obtain ⟨v, hv, he⟩ := minEig_vector hd hH g
  have hf : frob ((-dist H g) • outer v) = dist H g := by rw [frob_outer, hv, abs_neg, abs_of_nonneg h, mul_one]
  refine ⟨(-dist H g) • outer v, smul_outer_transpose _ _, hf, h1 _ hf.le, v, ?_, ?_⟩
  · rintro rfl
    simp at hv
  · have ho : outer v *ᵥ v = v := by
      funext i
      have : ∑ j, v i * v j * v j = v i * (v ⬝ᵥ v) := by
        rw [dotProduct, Finset.mul_sum]
        exact Finset.sum_congr rfl fun j _ => by ring
      simp only [outer, Matrix.mulVec, dotProduct, Matrix.of_apply] at this ⊢
      rw [this]
      have hv' : ∑ j, v j * v j = 1 := hv
      rw [hv', mul_one]
    have e : H + (-dist H g) • outer v - outer g = (H - outer g) + (-dist H g) • outer v := by abel
    rw [e, Matrix.add_mulVec, he, Matrix.smul_mulVec, ho]
    simp

/-- **C110**: if the gradient violates the constraint of a positive semidefinite matrix, then no smaller perturbation restores it, and a
symmetric one of this size does. -/
theorem gradDist_outside {dist : MinEigFn m} (hd : MinEigSpec dist) {H : Matrix (Fin m) (Fin m) ℝ} (hH : Hᵀ = H) (hpsd : ∀ x, 0 ≤ quad H x)
    (g : Pt m) (h : dist H g < 0) :
    (∀ E : Matrix (Fin m) (Fin m) ℝ, LoewnerLe (outer g) (H + E) → -dist H g ≤ frob E) ∧
      ∃ E : Matrix (Fin m) (Fin m) ℝ, Eᵀ = E ∧ LoewnerLe (outer g) (H + E) ∧ frob E = -dist H g := by
  obtain ⟨v, hv, he⟩ := minEig_vector hd hH g
  have hqv : quad (H - outer g) v = dist H g := by rw [quad, he, dotProduct_smul, hv, smul_eq_mul, mul_one]
  constructor
  · intro E hE
    have a := hE v
    rw [quad_add] at a
    rw [quad_sub] at hqv
    have b := (abs_le.1 (quad_le_frob E v)).2
    rw [hv, mul_one] at b
    linarith
  · refine ⟨(-dist H g) • outer v, smul_outer_transpose _ _, fun x => ?_, by rw [frob_outer, hv, abs_neg, abs_of_neg h, mul_one]⟩
    -- the part of `x` orthogonal to `v`
    set A := H - outer g with hA
    have hs : Aᵀ = A := by rw [hA, Matrix.transpose_sub, hH, outer_transpose]
    have hAv : ∀ y, v ⬝ᵥ (A *ᵥ y) = dist H g * (v ⬝ᵥ y) := by
      intro y
      rw [Matrix.dotProduct_mulVec, ← Matrix.mulVec_transpose, hs, he, smul_dotProduct, smul_eq_mul]
    have hcomb : ∀ (s t : ℝ) (y : Pt m), v ⬝ᵥ y = 0 → quad A (s • v + t • y) = s ^ 2 * dist H g + t ^ 2 * quad A y := by
      intro s t y hy
      have e1 : v ⬝ᵥ (A *ᵥ y) = 0 := by rw [hAv, hy, mul_zero]
      have e2 : y ⬝ᵥ (A *ᵥ v) = 0 := by rw [he, dotProduct_smul, dotProduct_comm, hy, smul_zero]
      have e3 : v ⬝ᵥ (A *ᵥ v) = dist H g := hqv
      simp only [quad, Matrix.mulVec_add, Matrix.mulVec_smul, add_dotProduct, dotProduct_add, smul_dotProduct, dotProduct_smul, smul_eq_mul, e1, e2, e3]
      ring
    have horth : ∀ y, v ⬝ᵥ y = 0 → 0 ≤ quad A y := by
      intro y hy
      by_contra hneg
      push Not at hneg
      -- a combination of `v` and `y` orthogonal to `g`
      have hz : ∃ s t : ℝ, (s ≠ 0 ∨ t ≠ 0) ∧ g ⬝ᵥ (s • v + t • y) = 0 := by
        by_cases hgv : g ⬝ᵥ v = 0
        · exact ⟨1, 0, Or.inl one_ne_zero, by simp [hgv]⟩
        · refine ⟨-(g ⬝ᵥ y), g ⬝ᵥ v, Or.inr hgv, ?_⟩
          rw [dotProduct_add, dotProduct_smul, dotProduct_smul, smul_eq_mul, smul_eq_mul]
          ring
      obtain ⟨s, t, hst, hgz⟩ := hz
      have h1 := hpsd (s • v + t • y)
      have h2 := hcomb s t y hy
      rw [hA, quad_sub, quad_outer, hgz] at h2
      rw [← hA] at h2
      have h3 : s ^ 2 * dist H g + t ^ 2 * quad A y < 0 := by
        rcases hst with hs0 | ht0
        · have : 0 < s ^ 2 := by positivity
          nlinarith [sq_nonneg t]
        · have : 0 < t ^ 2 := by positivity
          nlinarith [sq_nonneg s]
      nlinarith
    have hx : quad A x = (v ⬝ᵥ x) ^ 2 * dist H g + quad A (x - (v ⬝ᵥ x) • v) := by
      have hy : v ⬝ᵥ (x - (v ⬝ᵥ x) • v) = 0 := by
        rw [dotProduct_sub, dotProduct_smul, hv, smul_eq_mul, mul_one, sub_self]
      have := hcomb (v ⬝ᵥ x) 1 _ hy
      rw [one_smul, add_sub_cancel, one_pow, one_mul] at this
      exact this
    have hy : v ⬝ᵥ (x - (v ⬝ᵥ x) • v) = 0 := by
      rw [dotProduct_sub, dotProduct_smul, hv, smul_eq_mul, mul_one, sub_self]
    have h4 := horth _ hy
    rw [quad_add, quad_smul_mat, quad_outer v]
    have h5 : quad A x = quad H x - quad (outer g) x := by rw [hA, quad_sub]
    nlinarith

/-- **C110**: for a matrix which is not positive semidefinite the value can be smaller than the distance: for `-I` and a zero gradient in two
variables it is `-1`, but every perturbation restoring the constraint has norm at least `√2`. -/
theorem gradDist_indefinite {dist : MinEigFn 2} (hd : MinEigSpec dist) :
    dist (-1) 0 = -1 ∧ ∀ E : Matrix (Fin 2) (Fin 2) ℝ, LoewnerLe (outer 0) (-1 + E) → Real.sqrt 2 ≤ frob E := by
  have ho : outer (0 : Pt 2) = 0 := by ext i j; simp [outer]
  have hH : (-1 : Matrix (Fin 2) (Fin 2) ℝ)ᵀ = -1 := by simp
  have hq : ∀ x : Pt 2, quad (-1 - outer 0) x = -(x ⬝ᵥ x) := by
    intro x
    rw [ho, sub_zero, quad, Matrix.neg_mulVec, Matrix.one_mulVec, dotProduct_neg]
  constructor
  · refine le_antisymm ?_ ?_
    · have := (hd (-1) 0 hH (dist (-1) 0)).1 le_rfl ![1, 0]
      rw [hq] at this
      simpa using this
    · refine (hd (-1) 0 hH (-1)).2 fun x => ?_
      rw [hq]
      linarith
  · intro E hE
    have h0 := hE ![1, 0]
    have h1 := hE ![0, 1]
    rw [ho, quad_add] at h0 h1
    simp [quad, Matrix.mulVec, dotProduct] at h0 h1
    unfold frob
    refine Real.sqrt_le_sqrt ?_
    rw [Fin.sum_univ_two, Fin.sum_univ_two, Fin.sum_univ_two]
    nlinarith [sq_nonneg (E 0 1), sq_nonneg (E 1 0)]

/-- The hypotheses are met: the function exists, and a gradient can violate the constraint of a positive semidefinite matrix. -/
example : ∃ dist : MinEigFn 2, MinEigSpec dist ∧ (∀ x : Pt 2, 0 ≤ quad 1 x) ∧ dist 1 ![2, 0] < 0 := by
  obtain ⟨dist, hd⟩ := exists_minEig 1
  refine ⟨dist, hd, fun x => ?_, ?_⟩
  · rw [quad, Matrix.one_mulVec]
    exact dotProduct_self_nonneg' x
  · by_contra h
    have := (gradDist_nonneg_iff hd (by simp) ![2, 0]).1 (not_lt.1 h) ![1, 0]
    rw [quad_outer] at this
    simp [quad] at this

end Verif.Lip
