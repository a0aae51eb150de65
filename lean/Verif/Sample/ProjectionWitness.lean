import Mathlib.LinearAlgebra.Matrix.Notation
import Mathlib.Tactic.FinCases
import Verif.Sample.ProjectionProps

/-!
# Projection designs (C112): when something is returned, and a call that never returns although a design exists
-/

namespace Verif.Samp

open Verif Verif.Domain

variable {m K M : ℕ}

/-- A design of different points scores more than the zeros the search starts from. -/
theorem score_beats_zero (hM : 2 ≤ M) {X : Fin M → Lip.Pt m} (hd : ∀ p q, p ≠ q → X p ≠ X q) :
    tupleLt (List.replicate M 0) (score X) := by
  have hpos := score_pos hM hd
  have hlen : (score X).length = M := by unfold score; simp
  obtain ⟨n, rfl⟩ : ∃ n, M = n + 1 := ⟨M - 1, by omega⟩
  rcases h : score X with _ | ⟨a, l⟩
  · rw [h] at hlen; simp at hlen
  · rw [List.replicate_succ]
    exact Or.inl (hpos a (by rw [h]; exact List.mem_cons_self))

/-- C112: if the solver has proposed a design of different points, a design is returned. -/
theorem projection_some {D : Set (Lip.Pt m)} {cls : List (Lip.Pt m × ℝ) → (Lip.Pt m → ℝ) → Option (Lip.Pt m)} (hc : CellSolver D cls)
    {sat : SatSolver} (hsat : SatSpec ((K + 1) * M ^ 2) sat) (order : (Fin M → Lip.Pt m) → List (Fin M)) (use : Bool)
    (P : Proj m (K + 1) M) (hM : 2 ≤ M) (maxiter fuel : ℕ) {s : PState m M}
    (h : projRun cls sat order use P maxiter fuel (projInit m (K + 1) M) = .ok (some s))
    {σ : Assign} (hσ : σ ∈ s.seen) {π : Fin (K + 1) → Equiv.Perm (Fin M)} (hr : Represents M (K + 1) σ π)
    {Y : Fin M → Lip.Pt m} (hY : Builds cls P π Y) (hd : ∀ p q, p ≠ q → Y p ≠ Y q) : ∃ X, s.X = some X := by
  obtain ⟨hi, _⟩ := projRun_inv hc hsat order use P hM maxiter fuel (projInv_init D cls P) h
  rcases hi.X with ⟨h1, h2⟩ | ⟨X, _, _, h1, _⟩
  · obtain ⟨ρ, _, rr, hb⟩ := hi.seen σ hσ
    have : ρ = π := by
      funext k
      ext o
      have := (rr k o (ρ k o)).2 rfl
      rw [(hr k o (ρ k o)).1 this]
    rw [this] at hb
    exact absurd (h2 ▸ score_beats_zero hM hd) (hb Y hY)
  · exact ⟨X, h1⟩

/-- Solutions standing for the same permutations are the same solution list. -/
theorem sameOn_of_represents {σ τ : Assign} {π : Fin K → Equiv.Perm (Fin M)} (h1 : Represents M K σ π) (h2 : Represents M K τ π) :
    SameOn (K * M ^ 2) σ τ := by
  intro v hv
  obtain ⟨k, o, w, hk, ho, hw, e, _⟩ := encode_surj (N := M) (K := K) (idx := (v : ℤ) + 1) (by omega) (by exact_mod_cast hv)
  have e' : (encode M k o w).toNat = v + 1 := by rw [e]; omega
  have a := h1 ⟨k, hk⟩ ⟨o, ho⟩ ⟨w, hw⟩
  have b := h2 ⟨k, hk⟩ ⟨o, ho⟩ ⟨w, hw⟩
  unfold on at a b
  simp only [e'] at a b
  rcases hs : σ (v + 1) <;> rcases ht : τ (v + 1) <;> simp_all

/-! ## The witness -/

/-- The interval `[0, 1]`. -/
def unitSeg : Set (Lip.Pt 1) := {x | 0 ≤ x 0 ∧ x 0 ≤ 1}

/-- Two copies of the identity, with the designs `0, 1` and `1/10, 11/10`. -/
noncomputable def segProj : Proj 1 2 2 where
  r := fun _ => 1
  L := fun _ => 1
  y := fun i k => fun _ => (k : ℕ) + (i : ℕ) / 10

theorem nrm_one (x : Lip.Pt 1) : Lip.nrm x = |x 0| := by
  have h := Lip.nrm_sq x
  simp only [dotProduct, Fin.sum_univ_one] at h
  rw [← abs_of_nonneg (Lip.nrm_nonneg x)]
  exact (sq_eq_sq_iff_abs_eq_abs _ _).1 (by rw [h]; ring)

theorem seg_inCell (coord : Fin 2 → Fin 2) (x : Lip.Pt 1) :
    InCell segProj coord x ↔ ∀ i k : Fin 2, |x 0 - ((coord i : ℕ) + (i : ℕ) / 10)| ≤ |x 0 - ((k : ℕ) + (i : ℕ) / 10)| := by
  unfold InCell
  have e : ∀ (i k : Fin 2), Lip.nrm (Matrix.mulVec (segProj.L i) x - segProj.y i k) = |x 0 - ((k : ℕ) + (i : ℕ) / 10)| := by
    intro i k
    have key : Lip.nrm (Matrix.mulVec (1 : Matrix (Fin 1) (Fin 1) ℝ) x - ((fun _ => ((k : ℕ) + (i : ℕ) / 10 : ℝ)) : Lip.Pt 1)) =
        |x 0 - ((k : ℕ) + (i : ℕ) / 10)| := by
      rw [Matrix.one_mulVec, nrm_one]
      rfl
    exact key
  constructor
  · intro h i k
    have := h i k
    rwa [e, e] at this
  · intro h i k
    rw [e, e]
    exact h i k

/-- The matching cells meet the interval. -/
theorem seg_feasible (j : Fin 2) : ∃ x ∈ unitSeg, InCell segProj (fun _ => j) x := by
  fin_cases j
  · refine ⟨fun _ => 0, by simp [unitSeg], (seg_inCell _ _).2 ?_⟩
    intro i k
    fin_cases i <;> fin_cases k <;> norm_num [abs_le]
  · refine ⟨fun _ => 1, by simp [unitSeg], (seg_inCell _ _).2 ?_⟩
    intro i k
    fin_cases i <;> fin_cases k <;> norm_num [abs_le]

/-- The first cell of the first projection and the second cell of the second have no point in common. -/
theorem seg_empty : EmptyCell unitSeg segProj ![0, 1] := by
  rintro ⟨x, _, h⟩
  rw [seg_inCell] at h
  have h1 := h 0 1
  have h2 := h 1 0
  have h1' := abs_le_abs_of_sq h1
  have h2' := abs_le_abs_of_sq h2
  simp at h1' h2'
  nlinarith
where
  abs_le_abs_of_sq {a b : ℝ} (h : |a| ≤ |b|) : a ^ 2 ≤ b ^ 2 := sq_le_sq.2 h

theorem perm_two (p : Equiv.Perm (Fin 2)) : p = 1 ∨ p = Equiv.swap 0 1 := by
  revert p; decide

set_option maxHeartbeats 2000000 in
/-- C112 fails as it stands: there is a domain with a design in the required sense for which the call never returns, with solvers that
keep their contracts: after the only design has been found, the last solution proposed has an empty cell and is used again and again. -/
theorem projection_hangs_feasible : ∃ (D : Set (Lip.Pt 1)) (P : Proj 1 2 2), (∃ X, IsProjDesign D P X) ∧
    ∃ cls sat, CellSolver D cls ∧ SatSpec (2 * 2 ^ 2) sat ∧ ∀ order use maxiter fuel, 2 ≤ maxiter →
      projectionDesign cls sat order use P maxiter fuel = .ok none := by
  refine ⟨unitSeg, segProj, ?_, ?_⟩
  · choose X hX using seg_feasible
    exact ⟨X, fun _ => 1, rfl, fun j => ⟨(hX j).1, (hX j).2⟩⟩
  obtain ⟨cls, hc⟩ := exists_cellSolver unitSeg
  obtain ⟨σA, hA, rA⟩ := design_satisfiable 2 1 (fun _ => 1) rfl
  obtain ⟨σB, hB, rB⟩ := design_satisfiable 2 1 ![1, Equiv.swap 0 1] rfl
  have hsat := preferSat_spec (2 * 2 ^ 2) σA
  refine ⟨cls, preferSat (2 * 2 ^ 2) σA, hc, hsat, fun order use maxiter fuel hmax => ?_⟩
  have hkeep : keepRange 2 use = [0] := by cases use <;> rfl
  have hinit := projInv_init unitSeg cls segProj
  have hfeas : ∀ j, ∃ x, pointsOf cls segProj (fun _ => 1) j = some x := by
    intro j
    rcases e : pointsOf cls segProj (fun _ => 1) j with _ | x
    · exact absurd (seg_feasible j) ((cellPoints_none hc segProj (fun j _ => j) j).1 e)
    · exact ⟨x, rfl⟩
  have hnone : newClauses cls segProj (fun j k => (fun _ : Fin 2 => (1 : Equiv.Perm (Fin 2))) k j) = [] := by
    unfold newClauses
    rw [List.filter_eq_nil_iff.2]
    · rfl
    · intro j _
      obtain ⟨x, hx⟩ := hfeas j
      have hx' : cellPoints cls segProj (fun j k => (fun _ : Fin 2 => (1 : Equiv.Perm (Fin 2))) k j) j = some x := hx
      rw [hx']; simp
  -- the first pass
  have h1 : ∃ s₁, projStep cls (preferSat (2 * 2 ^ 2) σA) order use segProj (projInit 1 2 2) = .ok s₁ ∧ s₁.seen = [σA] ∧
      s₁.clauses = geoCnf 2 2 ∧ s₁.it ≤ 1 := by
    have ht : trySat (preferSat (2 * 2 ^ 2) σA) 2 order (projInit 1 2 2) (keepRange 2 use) = some σA := by
      rw [hkeep]
      simp only [trySat, assumptions_zero]
      have : preferSat (2 * 2 ^ 2) σA (projInit 1 2 2).clauses (projInit 1 2 2).seen [] = some σA := by
        unfold preferSat
        rw [if_pos]
        exact ⟨hA, by simp, by simp [projInit]⟩
      rw [this]
    unfold projStep
    rw [ht]
    dsimp only
    refine ⟨_, buildStep_eq cls segProj _ σA (fun _ => 1) rA le_rfl, (scoreStep_clauses _ _).2.1, ?_, ?_⟩
    · refine (scoreStep_clauses _ _).1.trans ?_
      show geoCnf 2 2 ++ newClauses cls segProj _ = _
      rw [hnone, List.append_nil]
    · rcases scoreStep_best (withSol cls segProj { projInit 1 2 2 with seen := (projInit 1 2 2).seen ++ [σA] } σA (fun _ => 1))
        (pointsOf cls segProj (fun _ => 1)) with ⟨_, e⟩ | ⟨_, _, e, _⟩
      · rw [e]; exact Nat.zero_le 1
      · rw [e]; exact le_rfl
  obtain ⟨s₁, e₁, seen₁, cl₁, it₁⟩ := h1
  have inv₁ := projStep_inv hc hsat order use segProj le_rfl hinit e₁
  -- the second pass
  have hother : ∀ τ, cnfSat τ (geoCnf 2 2) → ¬ SameOn (2 * 2 ^ 2) τ σA → Represents 2 2 τ ![1, Equiv.swap 0 1] := by
    intro τ h hne
    obtain ⟨π, ⟨h0, hr⟩, _⟩ := (sat_iff_permutations 2 1 τ).1 h
    rcases perm_two (π 1) with h' | h'
    · exfalso
      have : π = fun _ => 1 := by funext k; fin_cases k; exacts [h0, h']
      rw [this] at hr
      exact hne (sameOn_of_represents hr rA)
    · have : π = ![1, Equiv.swap 0 1] := by funext k; fin_cases k; exacts [h0, h']
      rwa [this] at hr
  have hBA : ¬ SameOn (2 * 2 ^ 2) σB σA := by
    intro h
    have h' := represents_sameOn h rA
    have a := (h' 1 0 0).2 rfl
    have b := (rB 1 0 0).1 a
    exact absurd b (by decide)
  have hempty : EmptyCell unitSeg segProj (fun i => (![1, Equiv.swap 0 1] : Fin 2 → Equiv.Perm (Fin 2)) i 0) := by
    have : (fun i => (![1, Equiv.swap 0 1] : Fin 2 → Equiv.Perm (Fin 2)) i 0) = ![0, 1] := by
      funext i; fin_cases i <;> rfl
    rw [this]; exact seg_empty
  have h2 : ∃ s₂ τ, projStep cls (preferSat (2 * 2 ^ 2) σA) order use segProj s₁ = .ok s₂ ∧ s₂.seen = [σA, τ] ∧ s₂.sol = some τ ∧
      Represents 2 2 τ ![1, Equiv.swap 0 1] ∧ (∃ more, s₂.clauses = geoCnf 2 2 ++ more) ∧ s₂.it ≤ 1 := by
    rcases ht : trySat (preferSat (2 * 2 ^ 2) σA) 2 order s₁ (keepRange 2 use) with _ | τ
    · obtain ⟨τ, hτ, hs⟩ := trySat_none hsat order s₁ use ht σB (by rw [cl₁]; exact hB)
      rw [seen₁, List.mem_singleton] at hτ
      subst hτ
      exact absurd hs hBA
    · obtain ⟨a, b⟩ := trySat_some hsat order s₁ _ ht
      rw [cl₁] at a
      have rτ := hother τ a (b σA (by rw [seen₁]; simp))
      unfold projStep
      rw [ht]
      dsimp only
      refine ⟨_, τ, buildStep_eq cls segProj _ τ _ rτ le_rfl, ?_, (scoreStep_clauses _ _).2.2.1, rτ,
        ⟨newClauses cls segProj (fun j k => (![1, Equiv.swap 0 1] : Fin 2 → Equiv.Perm (Fin 2)) k j), ?_⟩, ?_⟩
      · refine (scoreStep_clauses _ _).2.1.trans ?_
        show s₁.seen ++ [τ] = _
        rw [seen₁]; rfl
      · refine (scoreStep_clauses _ _).1.trans ?_
        show s₁.clauses ++ newClauses cls segProj _ = _
        rw [cl₁]
      · rcases scoreStep_best (withSol cls segProj { s₁ with seen := s₁.seen ++ [τ] } τ ![1, Equiv.swap 0 1])
          (pointsOf cls segProj ![1, Equiv.swap 0 1]) with ⟨_, e⟩ | ⟨X, hX, _⟩
        · rw [e]; exact it₁
        · exact absurd ⟨X 0, cellPoints_some hc segProj (fun j k => (![1, Equiv.swap 0 1] : Fin 2 → Equiv.Perm (Fin 2)) k j) 0 (hX 0)⟩ hempty
  obtain ⟨s₂, τ, e₂, seen₂, sol₂, rτ, ⟨more, cl₂⟩, it₂⟩ := h2
  have inv₂ := projStep_inv hc hsat order use segProj le_rfl inv₁ e₂
  have hstale := projection_stale hc hsat order use segProj le_rfl maxiter inv₂ (by omega) (by
    intro ρ hρ
    rw [cl₂, cnfSat_append] at hρ
    rw [seen₂]
    by_cases h : SameOn (2 * 2 ^ 2) ρ σA
    · exact ⟨σA, by simp, h⟩
    · exact ⟨τ, by simp, sameOn_of_represents (hother ρ hρ.1 h) rτ⟩) sol₂ rτ hempty
  unfold projectionDesign
  have : projRun cls (preferSat (2 * 2 ^ 2) σA) order use segProj maxiter fuel (projInit 1 2 2) = .ok none := by
    rcases fuel with _ | _ | n
    · rfl
    · simp only [projRun, e₁]
      rw [if_neg (by omega)]
    · simp only [projRun, e₁, e₂]
      rw [if_neg (by omega), if_neg (by omega)]
      exact hstale n
  rw [this]

/-- The hypotheses of `projection_cells` are met: one projection of the interval with the design `0, 1` and one iteration returns a
design, for all solvers that keep their contracts. -/
example {cls : List (Lip.Pt 1 × ℝ) → (Lip.Pt 1 → ℝ) → Option (Lip.Pt 1)} (hc : CellSolver unitSeg cls)
    {sat : SatSolver} (hsat : SatSpec (2 * 2 ^ 2) sat) (order : (Fin 2 → Lip.Pt 1) → List (Fin 2)) (use : Bool) :
    ∃ r, projectionDesign cls sat order use segProj 1 5 = .ok r :=
  projection_no_error hc hsat order use segProj le_rfl 1 5

/-- A design whose second point can not be reached in the interval: `projection_hangs` applies. -/
example : ¬ ∃ X, IsProjDesign unitSeg (K := 0) (M := 2) ⟨fun _ => 1, fun _ => 1, fun _ k => fun _ => 5 * (k : ℕ)⟩ X := by
  rintro ⟨X, π, h0, h⟩
  obtain ⟨hD, hc⟩ := h 1
  have h' := hc 0 0
  simp only [h0, Equiv.Perm.coe_one, id] at h'
  have e : ∀ z : Lip.Pt 1, Lip.nrm (Matrix.mulVec (1 : Matrix (Fin 1) (Fin 1) ℝ) (X 1) - z) = |X 1 0 - z 0| := by
    intro z; rw [Matrix.one_mulVec, nrm_one]; rfl
  have h2 := sq_le_sq.2 ((e _).symm.trans_le (h'.trans_eq (e _)))
  have := hD.2
  simp at h2
  nlinarith [hD.1]

end Verif.Samp
