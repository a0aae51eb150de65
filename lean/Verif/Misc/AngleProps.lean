import Verif.Misc.StudyModel
import Mathlib.Analysis.Normed.Module.FiniteDimension
import Mathlib.Topology.Order.Compact

/-!
# Largest principal angles between subspaces

Facts about `minCos` and `principalCos` (used for `/repo/psdr/study.py` 56).
-/

namespace Verif.Misc

open Verif Verif.Domain Verif.Lip

variable {m : ℕ}

theorem minCos_bddBelow (S T : Submodule ℝ (Eu m)) : BddBelow {c | ∃ x ∈ S, ‖x‖ = 1 ∧ c = ‖T.starProjection x‖} :=
  ⟨0, by rintro c ⟨x, -, -, rfl⟩; exact norm_nonneg _⟩

theorem exists_unit {S : Submodule ℝ (Eu m)} (h : S ≠ ⊥) : ∃ x ∈ S, ‖x‖ = 1 := by
  obtain ⟨x, hx, h0⟩ := S.exists_mem_ne_zero_of_ne_bot h
  refine ⟨‖x‖⁻¹ • x, S.smul_mem _ hx, ?_⟩
  rw [norm_smul, norm_inv, norm_norm, inv_mul_cancel₀ (norm_ne_zero_iff.mpr h0)]

theorem minCos_le {S T : Submodule ℝ (Eu m)} {x : Eu m} (hx : x ∈ S) (h1 : ‖x‖ = 1) : minCos S T ≤ ‖T.starProjection x‖ :=
  csInf_le (minCos_bddBelow S T) ⟨x, hx, h1, rfl⟩

/-- The smallest cosine is attained. -/
theorem minCos_attained {S : Submodule ℝ (Eu m)} (h : S ≠ ⊥) (T : Submodule ℝ (Eu m)) : ∃ x ∈ S, ‖x‖ = 1 ∧ ‖T.starProjection x‖ = minCos S T := by
  have hc : IsCompact ((S : Set (Eu m)) ∩ Metric.sphere 0 1) := (isCompact_sphere 0 1).inter_left S.closed_of_finiteDimensional
  have hne : ((S : Set (Eu m)) ∩ Metric.sphere 0 1).Nonempty := by
    obtain ⟨x, hx, h1⟩ := exists_unit h
    exact ⟨x, hx, by simpa using h1⟩
  obtain ⟨x, hx, hmin⟩ := hc.exists_isMinOn hne (f := fun x => ‖T.starProjection x‖) (by fun_prop)
  have h1 : ‖x‖ = 1 := by simpa using hx.2
  refine ⟨x, hx.1, h1, le_antisymm ?_ (minCos_le hx.1 h1)⟩
  refine le_csInf ⟨_, x, hx.1, h1, rfl⟩ ?_
  rintro c ⟨y, hy, hy1, rfl⟩
  exact hmin ⟨hy, by simpa using hy1⟩

theorem minCos_nonneg (S T : Submodule ℝ (Eu m)) : 0 ≤ minCos S T :=
  Real.sInf_nonneg (by rintro c ⟨x, -, -, rfl⟩; exact norm_nonneg _)

theorem minCos_le_one {S : Submodule ℝ (Eu m)} (h : S ≠ ⊥) (T : Submodule ℝ (Eu m)) : minCos S T ≤ 1 := by
  obtain ⟨x, hx, h1⟩ := exists_unit h
  exact (minCos_le hx h1).trans ((T.norm_starProjection_apply_le x).trans h1.le)

/-- All cosines are one exactly if the first space lies in the second one. -/
theorem minCos_eq_one_iff {S : Submodule ℝ (Eu m)} (h : S ≠ ⊥) (T : Submodule ℝ (Eu m)) : minCos S T = 1 ↔ S ≤ T := by
  constructor
  · intro hc x hx
    by_cases h0 : x = 0
    · rw [h0]; exact T.zero_mem
    have hn : ‖x‖ ≠ 0 := norm_ne_zero_iff.mpr h0
    set y := ‖x‖⁻¹ • x with hy
    have hyS : y ∈ S := S.smul_mem _ hx
    have hy1 : ‖y‖ = 1 := by rw [hy, norm_smul, norm_inv, norm_norm, inv_mul_cancel₀ hn]
    have hge : 1 ≤ ‖T.starProjection y‖ := hc ▸ minCos_le hyS hy1
    have hpy := T.norm_sq_eq_add_norm_sq_starProjection y
    have hz : ‖Tᗮ.starProjection y‖ = 0 := by
      rw [hy1] at hpy
      nlinarith [norm_nonneg (Tᗮ.starProjection y)]
    have hyT : y ∈ T := by
      have e := T.starProjection_add_starProjection_orthogonal y
      rw [norm_eq_zero.mp hz, add_zero] at e
      rw [← e]
      exact T.starProjection_apply_mem y
    have hxy : x = ‖x‖ • y := by rw [hy, smul_smul, mul_inv_cancel₀ hn, one_smul]
    rw [hxy]
    exact T.smul_mem _ hyT
  · intro hle
    obtain ⟨x, hx, h1, hm⟩ := minCos_attained h T
    rw [← hm, Submodule.starProjection_eq_self_iff.mpr (hle hx), h1]

/-- The smallest cosine vanishes exactly if some unit vector of the first space is orthogonal to the second one. -/
theorem minCos_eq_zero_iff {S : Submodule ℝ (Eu m)} (h : S ≠ ⊥) (T : Submodule ℝ (Eu m)) :
    minCos S T = 0 ↔ ∃ x ∈ S, ‖x‖ = 1 ∧ ∀ y ∈ T, inner ℝ x y = 0 := by
  constructor
  · intro hc
    obtain ⟨x, hx, h1, hm⟩ := minCos_attained h T
    refine ⟨x, hx, h1, fun y hy => ?_⟩
    rw [hc, norm_eq_zero, Submodule.starProjection_apply_eq_zero_iff] at hm
    exact (Submodule.mem_orthogonal' T x).mp hm y hy
  · rintro ⟨x, hx, h1, ho⟩
    refine le_antisymm ?_ (minCos_nonneg S T)
    have : T.starProjection x = 0 := by
      rw [Submodule.starProjection_apply_eq_zero_iff, Submodule.mem_orthogonal']
      exact ho
    simpa [this] using minCos_le (T := T) hx h1

theorem minCos_mul_le {S T : Submodule ℝ (Eu m)} {x : Eu m} (hx : x ∈ S) : minCos S T * ‖x‖ ≤ ‖T.starProjection x‖ := by
  by_cases h0 : x = 0
  · simp [h0]
  have hn : ‖x‖ ≠ 0 := norm_ne_zero_iff.mpr h0
  have := minCos_le (T := T) (S.smul_mem ‖x‖⁻¹ hx) (by rw [norm_smul, norm_inv, norm_norm, inv_mul_cancel₀ hn])
  rw [map_smul, norm_smul, norm_inv, norm_norm] at this
  calc minCos S T * ‖x‖ ≤ (‖x‖⁻¹ * ‖T.starProjection x‖) * ‖x‖ := by gcongr
    _ = ‖T.starProjection x‖ := by field_simp

/-- Between spaces of equal dimension the smallest cosine does not depend on the order. -/
theorem minCos_comm_le {S T : Submodule ℝ (Eu m)} (hS : S ≠ ⊥) (hT : T ≠ ⊥) (h : Module.finrank ℝ S = Module.finrank ℝ T) :
    minCos S T ≤ minCos T S := by
  rcases (minCos_nonneg S T).eq_or_lt with h0 | hpos
  · rw [← h0]; exact minCos_nonneg T S
  obtain ⟨y, hy, hy1, hm⟩ := minCos_attained hT S
  rw [← hm]
  -- the projection of `S` to `T` is onto
  let B : S →ₗ[ℝ] T := T.orthogonalProjection.toLinearMap ∘ₗ S.subtype
  have hB : ∀ x : S, ((B x : T) : Eu m) = T.starProjection (x : Eu m) := fun x => rfl
  have hinj : Function.Injective B := by
    rw [injective_iff_map_eq_zero]
    intro x hx
    have h1 : ‖T.starProjection (x : Eu m)‖ = 0 := by rw [← hB, hx]; simp
    have h2 := minCos_mul_le (S := S) (T := T) x.2
    rw [h1] at h2
    have : ‖(x : Eu m)‖ = 0 := by
      by_contra hne
      have : 0 < ‖(x : Eu m)‖ := lt_of_le_of_ne (norm_nonneg _) (Ne.symm hne)
      nlinarith
    exact Subtype.ext (norm_eq_zero.mp this)
  have hsurj : Function.Surjective B := (LinearMap.injective_iff_surjective_of_finrank_eq_finrank h).mp hinj
  obtain ⟨x, hx⟩ := hsurj ⟨y, hy⟩
  have hxy : T.starProjection (x : Eu m) = y := by rw [← hB, hx]
  have h2 := minCos_mul_le (S := S) (T := T) x.2
  rw [hxy, hy1] at h2
  have h3 : (1 : ℝ) = inner ℝ (x : Eu m) (S.starProjection y) := by
    rw [← S.inner_starProjection_left_eq_right, Submodule.starProjection_eq_self_iff.mpr x.2]
    have : inner ℝ (x : Eu m) y = inner ℝ (T.starProjection (x : Eu m)) y := by
      rw [T.inner_starProjection_left_eq_right, Submodule.starProjection_eq_self_iff.mpr hy]
    rw [this, hxy, real_inner_self_eq_norm_sq, hy1]
    norm_num
  have h4 := real_inner_le_norm (x : Eu m) (S.starProjection y)
  rw [← h3] at h4
  have hn := norm_nonneg (S.starProjection y)
  nlinarith [mul_le_mul_of_nonneg_right h2 hn, norm_nonneg (x : Eu m)]

theorem minCos_comm {S T : Submodule ℝ (Eu m)} (hS : S ≠ ⊥) (hT : T ≠ ⊥) (h : Module.finrank ℝ S = Module.finrank ℝ T) :
    minCos S T = minCos T S :=
  le_antisymm (minCos_comm_le hS hT h) (minCos_comm_le hT hS h.symm)

/-- The largest principal angle does not depend on the order. -/
theorem principalCos_comm {S T : Submodule ℝ (Eu m)} (hS : S ≠ ⊥) (hT : T ≠ ⊥) : principalCos S T = principalCos T S := by
  unfold principalCos
  rcases lt_trichotomy (Module.finrank ℝ S) (Module.finrank ℝ T) with h | h | h
  · rw [if_pos h.le, if_neg (not_le.mpr h)]
  · rw [if_pos h.le, if_pos h.ge, minCos_comm hS hT h]
  · rw [if_neg (not_le.mpr h), if_pos h.le]

theorem principalCos_mem {S T : Submodule ℝ (Eu m)} (hS : S ≠ ⊥) (hT : T ≠ ⊥) : 0 ≤ principalCos S T ∧ principalCos S T ≤ 1 := by
  unfold principalCos
  split_ifs
  · exact ⟨minCos_nonneg S T, minCos_le_one hS T⟩
  · exact ⟨minCos_nonneg T S, minCos_le_one hT S⟩

/-- The largest principal angle is zero exactly if one of the spaces contains the other. -/
theorem principalCos_eq_one_iff {S T : Submodule ℝ (Eu m)} (hS : S ≠ ⊥) (hT : T ≠ ⊥) : principalCos S T = 1 ↔ S ≤ T ∨ T ≤ S := by
  unfold principalCos
  split_ifs with h
  · rw [minCos_eq_one_iff hS]
    refine ⟨Or.inl, ?_⟩
    rintro (h1 | h1)
    · exact h1
    · exact (Submodule.eq_of_le_of_finrank_le h1 h).ge
  · rw [minCos_eq_one_iff hT]
    refine ⟨Or.inr, ?_⟩
    rintro (h1 | h1)
    · exact absurd (Submodule.finrank_mono h1) h
    · exact h1

/-- A routine as promised exists. -/
theorem angSpec_exists (m : ℕ) : ∃ ang, AngSpec (m := m) ang := by
  classical
  refine ⟨fun A B => if colSpan A = ⊥ ∨ colSpan B = ⊥ then .error .valueError else .ok (Real.arccos (principalCos (colSpan A) (colSpan B))), ?_⟩
  intro A B
  refine ⟨fun h => if_pos h, fun hA hB => ⟨_, if_neg (by tauto), Real.arccos_nonneg _, ?_, ?_⟩⟩
  · exact Real.arccos_le_pi_div_two.mpr (principalCos_mem hA hB).1
  · exact Real.cos_arccos (by linarith [(principalCos_mem hA hB).1]) (principalCos_mem hA hB).2

end Verif.Misc
