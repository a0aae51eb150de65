import Mathlib.Analysis.Matrix.Spectrum
import Verif.Lipschitz.FitProps

/-!
# The assumptions on the solver and on `eigh` can be met

The spectral theorem gives an `eigh`, and for distinct points the constraints have a solution.
-/

namespace Verif.Lip

open Verif Matrix

variable {m : ℕ}

/-- There is a function with the properties assumed of `scipy.linalg.eigh`. -/
theorem exists_eigh (m : ℕ) : ∃ eigh : EighFn m, EighSpec eigh := by
  have h : ∀ H : Matrix (Fin m) (Fin m) ℝ, ∃ r : (Fin m → ℝ) × Matrix (Fin m) (Fin m) ℝ, Hᵀ = H →
      r.2ᵀ * r.2 = 1 ∧ H = r.2 * Matrix.diagonal r.1 * r.2ᵀ := by
    intro H
    by_cases hH : Hᵀ = H
    · have hh : H.IsHermitian := by rw [Matrix.IsHermitian, Matrix.conjTranspose_eq_transpose_of_trivial, hH]
      refine ⟨(hh.eigenvalues, (hh.eigenvectorUnitary : Matrix (Fin m) (Fin m) ℝ)), fun _ => ⟨?_, ?_⟩⟩
      · have := Unitary.coe_star_mul_self hh.eigenvectorUnitary
        rwa [Matrix.star_eq_conjTranspose, Matrix.conjTranspose_eq_transpose_of_trivial] at this
      · have := hh.spectral_theorem
        rw [Unitary.conjStarAlgAut_apply, Matrix.star_eq_conjTranspose, Matrix.conjTranspose_eq_transpose_of_trivial] at this
        exact this
    · exact ⟨(fun _ => 0, 0), fun h => absurd h hH⟩
  choose eigh he using h
  exact ⟨eigh, he⟩

theorem quad_smul_one (c : ℝ) (x : Pt m) : quad (c • (1 : Matrix (Fin m) (Fin m) ℝ)) x = c * (x ⬝ᵥ x) := by
  simp [quad, smul_mulVec, dotProduct_smul]

theorem dot_sq_le (g x : Pt m) : (g ⬝ᵥ x) ^ 2 ≤ (g ⬝ᵥ g) * (x ⬝ᵥ x) := by
  have := Finset.sum_mul_sq_le_sq_mul_sq Finset.univ g x
  simpa only [dotProduct, pow_two] using this

theorem list_bound {α : Type*} (l : List α) (f : α → ℝ) : ∃ c, 0 ≤ c ∧ ∀ a ∈ l, f a ≤ c := by
  induction l with
  | nil => exact ⟨0, le_refl _, by simp⟩
  | cons a l ih =>
    obtain ⟨c, hc, h⟩ := ih
    refine ⟨max c (f a), hc.trans (le_max_left _ _), fun b hb => ?_⟩
    rcases List.mem_cons.1 hb with rfl | hb
    · exact le_max_right _ _
    · exact (h b hb).trans (le_max_left _ _)

/-- The constraints have a solution if points with values more than `epsilon` apart are distinct. -/
theorem feasible_exists (data : List (Pt m × ℝ)) (grads : List (Pt m)) (e : ℝ)
    (hd : ∀ p ∈ pairsOf data, e < |p.1.2 - p.2.2| → p.1.1 ≠ p.2.1) : ∃ H, CvxpyFeasible data grads e H := by
  obtain ⟨c1, h1, h1'⟩ := list_bound (pairsOf data) (fun p => slack2 e p.1.2 p.2.2 / ((p.1.1 - p.2.1) ⬝ᵥ (p.1.1 - p.2.1)))
  obtain ⟨c2, h2, h2'⟩ := list_bound grads (fun g => g ⬝ᵥ g)
  refine ⟨(c1 + c2) • 1, by simp, fun x => ?_, fun p hp hpos => ?_, fun g hg x => ?_⟩
  · rw [quad_zero, quad_smul_one]; exact mul_nonneg (by linarith) (dotProduct_self_nonneg' x)
  · rw [quad_smul_one]
    have hne : p.1.1 - p.2.1 ≠ 0 := sub_ne_zero.2 (hd p hp ((slack2_pos_iff _ _ _).1 hpos))
    have hpp : 0 < (p.1.1 - p.2.1) ⬝ᵥ (p.1.1 - p.2.1) := lt_of_le_of_ne (dotProduct_self_nonneg' _) (fun h => hne (dotProduct_self_eq_zero.1 h.symm))
    have := h1' p hp
    rw [div_le_iff₀ hpp] at this
    nlinarith
  · rw [quad_outer, quad_smul_one]
    have a := dot_sq_le g x
    have b := h2' g hg
    have := dotProduct_self_nonneg' x
    nlinarith [mul_le_mul_of_nonneg_right b this]

/-- The constraints have no solution if two equal points have values more than `epsilon` apart. -/
theorem feasible_iff (data : List (Pt m × ℝ)) (grads : List (Pt m)) (e : ℝ) :
    (∃ H, CvxpyFeasible data grads e H) ↔ ∀ p ∈ pairsOf data, e < |p.1.2 - p.2.2| → p.1.1 ≠ p.2.1 := by
  refine ⟨?_, feasible_exists data grads e⟩
  rintro ⟨H, -, -, h, -⟩ p hp hlt heq
  have hpos := (slack2_pos_iff _ _ _).2 hlt
  have := h p hp hpos
  rw [heq, sub_self] at this
  simp [quad] at this
  linarith

/-- There is a solver with the assumed property that answers whenever the constraints have a solution. -/
theorem exists_build (m : ℕ) : ∃ build : Build m, BuildSpec build ∧ ∀ data grads e, (∃ H, CvxpyFeasible data grads e H) → ∃ H, build data grads e = some H := by
  classical
  refine ⟨fun data grads e => if h : ∃ H, CvxpyFeasible data grads e H then some h.choose else none, fun data grads e H h => ?_, fun data grads e h => ?_⟩
  · simp only at h
    split at h
    · rename_i hx
      rw [← Option.some.inj h]; exact hx.choose_spec
    · cases h
  · exact ⟨h.choose, by simp only; rw [dif_pos h]⟩

/-- The fit of two samples in the plane succeeds with such a solver, so the hypotheses of the theorems about `fit` can be met. -/
example : ∃ (build : Build 2) (eigh : EighFn 2) (r : LipFit 2), BuildSpec build ∧ EighSpec eigh ∧
    lipFit build eigh none (some [![0, 0], ![1, 2]]) (some [0, 3]) none = .ok r := by
  obtain ⟨build, hb, hx⟩ := exists_build 2
  obtain ⟨eigh, he⟩ := exists_eigh 2
  have hp : prepare (m := 2) (some [![0, 0], ![1, 2]]) (some [0, 3]) none = .ok ([(![0, 0], 0), (![1, 2], 3)], []) := rfl
  have hs : fitScale (m := 2) [(![0, 0], 0), (![1, 2], 3)] [] ≠ 0 := by
    rw [Ne, fitScale_zero_iff]; simp
  have hf : ∃ H, CvxpyFeasible (scaleData (fitScale (m := 2) [(![0, 0], 0), (![1, 2], 3)] []) [(![0, 0], 0), (![1, 2], 3)])
      (scaleGrads (fitScale (m := 2) [(![0, 0], 0), (![1, 2], 3)] []) []) ((none : Option ℝ).getD 0 / fitScale (m := 2) [(![0, 0], 0), (![1, 2], 3)] []) H := by
    refine feasible_exists _ _ _ (fun p hp' _ heq => ?_)
    rw [scaleData, pairsOf_map] at hp'
    obtain ⟨q, hq, rfl⟩ := List.mem_map.1 hp'
    simp [pairsOf] at hq
    subst hq
    have := congrFun heq 0
    simp at this
  obtain ⟨H, hH⟩ := hx _ _ _ hf
  obtain ⟨r, hr⟩ := (lipFit_ok_iff build eigh none (some [![0, 0], ![1, 2]]) (some [0, 3]) none).2 ⟨_, _, hp, hs, H, hH⟩
  exact ⟨build, eigh, r, hb, he, hr⟩

end Verif.Lip
