import Verif.Sample.ProjectionProps
import Mathlib.Topology.Order.Compact
import Mathlib.Topology.Instances.Matrix
import Mathlib.Topology.Algebra.Order.LiminfLimsup

/-!
# C112: the rows of a projected design are the best fits in their cells

`/repo/psdr/sample/projection.py` 303-310: the point of a cell solves the constrained least squares problem of meeting the points of
the projected designs.
-/

namespace Verif.Samp

open Verif Verif.Domain

variable {m K M : ℕ}

/-- Specification: how far the projections of `x` are from the points `π i` of the projected designs: the sum of the squared
differences of all coordinates. -/
noncomputable def totalMisfit (P : Proj m K M) (π : Fin K → Fin M) (x : Lip.Pt m) : ℝ :=
  ∑ i, ∑ c, (∑ k, P.L i c k * x k - P.y i (π i) c) ^ 2

/-- What the least squares solver is trusted with beyond `CellSolver`: the point it gives minimizes the function (a continuous one)
among the points of the domain meeting the rows. -/
def LsSolver (D : Set (Lip.Pt m)) (cls : List (Lip.Pt m × ℝ) → (Lip.Pt m → ℝ) → Option (Lip.Pt m)) : Prop :=
  ∀ rows f, Continuous f → ∀ x, cls rows f = some x → ∀ z ∈ D, (∀ r ∈ rows, r.1 ⬝ᵥ z ≤ r.2) → f x ≤ f z

theorem cellMisfit_eq (P : Proj m K M) (π : Fin K → Fin M) (x : Lip.Pt m) : cellMisfit P π x = totalMisfit P π x := by
  unfold cellMisfit totalMisfit
  refine Finset.sum_congr rfl fun i _ => ?_
  rw [Lip.nrm_sq]
  simp only [dotProduct, Matrix.mulVec, Pi.sub_apply, sq]

theorem totalMisfit_continuous (P : Proj m K M) (π : Fin K → Fin M) : Continuous (totalMisfit P π) := by
  unfold totalMisfit
  fun_prop

open Classical in
/-- On a compact domain there are such solvers. -/
theorem exists_lsSolver {D : Set (Lip.Pt m)} (hD : IsCompact D) : ∃ cls, CellSolver D cls ∧ LsSolver D cls := by
  have hK : ∀ rows : List (Lip.Pt m × ℝ), IsCompact (D ∩ {x | ∀ r ∈ rows, r.1 ⬝ᵥ x ≤ r.2}) := by
    intro rows
    refine hD.inter_right ?_
    have : {x : Lip.Pt m | ∀ r ∈ rows, r.1 ⬝ᵥ x ≤ r.2} = ⋂ r ∈ rows, {x | r.1 ⬝ᵥ x ≤ r.2} := by
      ext x; simp
    rw [this]
    refine isClosed_biInter fun r _ => isClosed_le ?_ continuous_const
    unfold dotProduct
    fun_prop
  have hex : ∀ (rows : List (Lip.Pt m × ℝ)) (f : Lip.Pt m → ℝ), (∃ x ∈ D, ∀ r ∈ rows, r.1 ⬝ᵥ x ≤ r.2) →
      ∃ x, (x ∈ D ∧ ∀ r ∈ rows, r.1 ⬝ᵥ x ≤ r.2) ∧ (Continuous f → ∀ z ∈ D, (∀ r ∈ rows, r.1 ⬝ᵥ z ≤ r.2) → f x ≤ f z) := by
    rintro rows f ⟨x, hx, hr⟩
    by_cases hf : Continuous f
    · obtain ⟨y, hy, hmin⟩ := (hK rows).exists_isMinOn ⟨x, hx, hr⟩ hf.continuousOn
      exact ⟨y, hy, fun _ z hz hzr => hmin ⟨hz, hzr⟩⟩
    · exact ⟨x, ⟨hx, hr⟩, fun h => absurd h hf⟩
  refine ⟨fun rows f => if h : ∃ x ∈ D, ∀ r ∈ rows, r.1 ⬝ᵥ x ≤ r.2 then some (hex rows f h).choose else none, fun rows f => ⟨?_, ?_⟩, ?_⟩
  · intro x hx
    dsimp only at hx
    split at hx
    · rename_i h
      obtain rfl := Option.some.inj hx
      exact (hex rows f h).choose_spec.1
    · cases hx
  · intro hx
    dsimp only at hx
    split at hx
    · cases hx
    · assumption
  · intro rows f hf x hx
    dsimp only at hx
    split at hx
    · rename_i h
      obtain rfl := Option.some.inj hx
      exact (hex rows f h).choose_spec.2 hf
    · cases hx

/-- **C112**: every row of the returned design is, among the points of the domain in its cells, one whose projections are as close as
possible to the points of the projected designs that it stands for. -/
theorem projection_fit {D : Set (Lip.Pt m)} {cls : List (Lip.Pt m × ℝ) → (Lip.Pt m → ℝ) → Option (Lip.Pt m)} (hc : CellSolver D cls)
    (hls : LsSolver D cls) {sat : SatSolver} (hsat : SatSpec ((K + 1) * M ^ 2) sat) (order : (Fin M → Lip.Pt m) → List (Fin M)) (use : Bool)
    (P : Proj m (K + 1) M) (hM : 2 ≤ M) (maxiter fuel : ℕ) {X : Fin M → Lip.Pt m}
    (h : projectionDesign cls sat order use P maxiter fuel = .ok (some (some X))) :
    ∃ π : Fin (K + 1) → Equiv.Perm (Fin M), π 0 = 1 ∧ ∀ j, InCell P (fun i => π i j) (X j) ∧
      ∀ z ∈ D, InCell P (fun i => π i j) z → totalMisfit P (fun i => π i j) (X j) ≤ totalMisfit P (fun i => π i j) z := by
  unfold projectionDesign at h
  split at h
  · cases h
  · injection h with h; cases h
  · rename_i s e
    injection h with h
    have hx : s.X = some X := Option.some.inj h
    obtain ⟨hi, _⟩ := projRun_inv hc hsat order use P hM maxiter fuel (projInv_init D cls P) e
    rcases hi.X with ⟨h', _⟩ | ⟨Y, π, σ, hY, _, _, h0, _, hb, hpos⟩
    · rw [h'] at hx; cases hx
    · rw [hY] at hx
      obtain rfl := Option.some.inj hx
      refine ⟨π, h0, fun j => ⟨(cellPoints_some hc P (fun j k => π k j) j (hb j)).2, fun z hz hcell => ?_⟩⟩
      have hcont : Continuous (cellMisfit P fun i => π i j) := by
        rw [show (cellMisfit P fun i => π i j) = totalMisfit P fun i => π i j from funext fun x => cellMisfit_eq P _ x]
        exact totalMisfit_continuous P _
      have := hls _ _ hcont _ (hb j) z hz ((cellRows_iff P _ z).2 hcell)
      rwa [cellMisfit_eq, cellMisfit_eq] at this

/-- A compact domain: the unit cube. -/
example : ∃ cls, CellSolver (Set.Icc (0 : Lip.Pt 3) 1) cls ∧ LsSolver (Set.Icc (0 : Lip.Pt 3) 1) cls := exists_lsSolver isCompact_Icc

end Verif.Samp
