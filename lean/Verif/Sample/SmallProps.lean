import Verif.Sample.StretchProps
import Verif.Sample.SobolProps
import Verif.Sample.PoissonProps
import Verif.Sample.VorModel
import Mathlib.Data.Int.ModEq

/-!
# Refusals, requests and addresses in the sampling routines

Statements about the error branches and the arguments handed on: `/repo/psdr/sample/sobol.py` 34-37, `/repo/psdr/sample/stretch.py` 10-21,
`/repo/psdr/sample/minimax_lloyd.py` 72-81 and the numpy indexing used by `/repo/psdr/sample/poisson.py` 103 and 145.
-/

namespace Verif.Samp

open Verif Verif.Domain Verif.Geo Matrix

/-- A Sobol sequence is refused (`AssertionError`) exactly for domains with equality constraints and for random domains. -/
theorem sobol_refused_iff (hasEq isRandom : Bool) (seq : ℕ → Vec) (lb ub : Vec) (inside : Vec → Bool) (fuel n : ℕ) (e : Err) :
    sobolSequence hasEq isRandom seq lb ub inside fuel n = .error e ↔ e = .assertion ∧ (hasEq = true ∨ isRandom = true) := by
  unfold sobolSequence
  cases hasEq <;> cases isRandom <;> simp [eq_comm]

example : sobolSequence false true (fun _ => [0]) [0] [1] (fun _ => true) 1 1 = .error .assertion :=
  (sobol_refused_iff _ _ _ _ _ _ _ _ _).2 ⟨rfl, Or.inr rfl⟩

variable {m : ℕ}

/-- **What a candidate depends on.**  From a list of points, the candidate is determined by what is found from twice as many starting points as there are points;
from a single candidate, by what is found from twice as many starting points as there are coordinates. -/
theorem blockCandidate_starts (o o' : StretchOracle m) (C : EqCons m) (L : Metric m) :
    (∀ X : List (Lip.Pt m), o.verts C X L (2 * X.length) = o'.verts C X L (2 * X.length) →
      blockCandidate o C (.rows X) L = blockCandidate o' C (.rows X) L) ∧
    ∀ (x : Lip.Pt m) (d : ℝ), o.verts C [x] L (2 * m) = o'.verts C [x] L (2 * m) →
      blockCandidate o C (.cand x d) L = blockCandidate o' C (.cand x d) L := by
  constructor
  · intro X h
    simp only [blockCandidate, Cur.pts, Cur.len, h]
  · intro x d h
    simp only [blockCandidate, Cur.pts, Cur.len, h]

/-- The vertices are all computed exactly if that is asked for, or if nothing is asked and there are at most two coordinates. -/
theorem useFull_iff (m : ℕ) (full : Option Bool) : useFull m full = true ↔ full = some true ∨ full = none ∧ m ≤ 2 := by
  rcases full with _ | b
  · simp only [useFull, decide_eq_true_eq]; simp; omega
  · simp [useFull]

example : useFull 2 none = true := (useFull_iff _ _).2 (Or.inr ⟨rfl, le_refl _⟩)

/-- **Which cell an index addresses.**  The cell lies in the array and has the index modulo the length, in every coordinate; there is none exactly if a coordinate is
outside of `[-length, length)`. -/
theorem address_iff {k : ℕ} (dims idx a : Fin k → ℤ) :
    address dims idx = some a ↔ ∀ i, (-dims i ≤ idx i ∧ idx i < dims i) ∧ (0 ≤ a i ∧ a i < dims i) ∧ a i ≡ idx i [ZMOD dims i] := by
  unfold address
  constructor
  · intro h
    split_ifs at h with hr
    obtain rfl := Option.some.inj h
    intro i
    refine ⟨hr i, ?_, ?_⟩
    · have := hr i
      dsimp only; split_ifs <;> constructor <;> omega
    · dsimp only; split_ifs
      · exact Int.add_modEq_right
      · exact Int.ModEq.refl _
  · intro h
    rw [if_pos fun i => (h i).1]
    congr 1
    funext i
    obtain ⟨⟨h1, h2⟩, ⟨h3, h4⟩, h5⟩ := h i
    have e : a i = idx i % dims i := by
      rw [← h5]; exact (Int.emod_eq_of_lt h3 h4).symm
    rw [e]
    split_ifs with hn
    · rw [← Int.add_emod_right, Int.emod_eq_of_lt (by omega) (by omega)]
    · exact (Int.emod_eq_of_lt (by omega) h2).symm

/-- Writing at an index and at the index one length lower changes the same cell: a grid coordinate below the start of the grid is recorded at the other end. -/
theorem gridWrite_wraps {k : ℕ} (G : Grid k) (cells : (Fin k → ℤ) → ℕ) (idx : Fin k → ℤ) (n : ℕ) (h : ∀ i, 0 ≤ idx i ∧ idx i < G.dims i) :
    gridWrite G cells (fun i => idx i - G.dims i) n = gridWrite G cells idx n := by
  have h1 : address G.dims idx = some idx := by
    rw [address_iff]
    intro i
    have := h i
    exact ⟨⟨by omega, by omega⟩, h i, Int.ModEq.refl _⟩
  have h2 : address G.dims (fun i => idx i - G.dims i) = some idx := by
    rw [address_iff]
    intro i
    have := h i
    refine ⟨⟨by omega, by omega⟩, h i, ?_⟩
    have : idx i - G.dims i + G.dims i ≡ idx i - G.dims i [ZMOD G.dims i] := Int.add_modEq_right
    simpa using this
  rw [gridWrite, gridWrite, h1, h2]

example : address (k := 1) (fun _ => 3) (fun _ => -1) = some fun _ => 2 :=
  (address_iff _ _ _).2 fun _ => ⟨by norm_num, by norm_num, by decide⟩

end Verif.Samp
