import Verif.Misc.LocalModel
import Mathlib.Analysis.InnerProductSpace.PiL2
import Mathlib.Analysis.InnerProductSpace.Projection.Minimal

/-!
# A routine meeting the specification of `scipy.linalg.lstsq` exists, and never fails
-/

namespace Verif.Misc

open Verif Verif.Domain Verif.Lip Matrix

theorem exists_lstsq_min {k : ℕ} (rows : List (Pt k × ℝ)) : ∃ a, ∀ b, resid rows a ≤ resid rows b := by
  let T : Pt k →ₗ[ℝ] EuclideanSpace ℝ (Fin rows.length) :=
    { toFun := fun a => WithLp.toLp 2 (fun i => rows[i].1 ⬝ᵥ a)
      map_add' := fun a b => by ext i; simp [dotProduct_add]
      map_smul' := fun c a => by ext i; simp [dotProduct_smul] }
  let y : EuclideanSpace ℝ (Fin rows.length) := WithLp.toLp 2 (fun i => rows[i].2)
  have hres : ∀ a, resid rows a = ‖y - T a‖ ^ 2 := by
    intro a
    rw [EuclideanSpace.norm_sq_eq]
    unfold resid
    rw [← List.sum_ofFn]
    congr 1
    apply List.ext_getElem
    · simp
    · intro i h1 h2
      simp only [List.getElem_map, List.getElem_ofFn, PiLp.sub_apply, Real.norm_eq_abs, sq_abs, y, T, LinearMap.coe_mk, AddHom.coe_mk, Fin.getElem_fin]
      ring
  obtain ⟨v, hv, hmin⟩ := (LinearMap.range T).exists_norm_eq_iInf_of_complete_subspace (Submodule.complete_of_finiteDimensional _) y
  obtain ⟨a, rfl⟩ := hv
  refine ⟨a, fun b => ?_⟩
  rw [hres, hres]
  have : ‖y - T a‖ ≤ ‖y - T b‖ := by
    rw [hmin]
    exact ciInf_le ⟨0, by rintro _ ⟨w, rfl⟩; exact norm_nonneg _⟩ (⟨T b, ⟨b, rfl⟩⟩ : LinearMap.range T)
  exact pow_le_pow_left₀ (norm_nonneg _) this 2

theorem exists_lstsq (m : ℕ) : ∃ ls : LstsqFn m, LstsqSpec ls ∧ ∀ rows, ls rows ≠ none := by
  have h := fun rows : List (Pt (m + 1) × ℝ) => exists_lstsq_min rows
  choose f hf using h
  exact ⟨fun rows => some (f rows), fun rows a ha => by cases ha; exact hf rows, fun rows => by simp⟩

end Verif.Misc
