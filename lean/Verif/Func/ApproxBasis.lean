import Verif.Func.ApproxFit
import Mathlib.RingTheory.Polynomial.Chebyshev

/-!
# C133: the name of a basis decides the polynomials and the scaling

`/repo/psdr/poly.py` 130-171 and `/repo/psdr/polyridge.py` 235-305 pick a basis class by its name.
-/

namespace Verif.Func

open Verif.Domain Verif.Lip Verif.Basis Matrix

/-- Specification: the name a user writes for a basis. -/
def BasisName.name : BasisName → String
  | .arnoldi => "arnoldi"
  | .legendre => "legendre"
  | .monomial => "monomial"
  | .chebyshev => "chebyshev"
  | .laguerre => "laguerre"
  | .hermite => "hermite"

/-- **C133**: a string names a basis exactly if it is its name. -/
theorem parseBasis_iff (s : String) (b : BasisName) : parseBasis s = some b ↔ s = b.name := by
  constructor
  · intro h
    unfold parseBasis at h
    split at h
    · cases h; assumption
    split at h
    · cases h; assumption
    split at h
    · cases h; assumption
    split at h
    · cases h; assumption
    split at h
    · cases h; assumption
    split at h
    · cases h; assumption
    · cases h
  · rintro rfl
    cases b <;> simp [parseBasis, BasisName.name]

/-- **C133**: what the constructor stores is the basis that was named. -/
theorem approxInit_basis {degree : ℝ} {basis : String} {norm : NormArg} {bound : Option String} {o : ApproxOpts}
    (h : approxInit degree basis norm bound = .ok o) : basis = o.basis.name :=
  (parseBasis_iff _ _).1 ((approxInit_ok_iff _ _ _ _ _).1 h).2.1

/-- Specification: the classical polynomials of each name, by their three-term recurrences
(Chebyshev: Mathlib's polynomials; Hermite: the physicists' polynomials). -/
def IsNamed : BasisName → (ℕ → ℝ → ℝ) → Prop
  | .monomial, p => ∀ n x, p n x = x ^ n
  | .chebyshev, p => ∀ (n : ℕ) x, p n x = (Polynomial.Chebyshev.T ℝ n).eval x
  | .legendre, p => ∀ x, p 0 x = 1 ∧ p 1 x = x ∧ ∀ n : ℕ, (n + 2) * p (n + 2) x = (2 * n + 3) * x * p (n + 1) x - (n + 1) * p n x
  | .laguerre, p => ∀ x, p 0 x = 1 ∧ p 1 x = 1 - x ∧ ∀ n : ℕ, (n + 2) * p (n + 2) x = (2 * n + 3 - x) * p (n + 1) x - (n + 1) * p n x
  | .hermite, p => ∀ x, p 0 x = 1 ∧ p 1 x = 2 * x ∧ ∀ n : ℕ, p (n + 2) x = 2 * x * p (n + 1) x - 2 * (n + 1) * p n x
  | .arnoldi, _ => True

theorem chebPhi_eq (x : ℝ) : ∀ n : ℕ, chebPhi n x = (Polynomial.Chebyshev.T ℝ n).eval x ∧ chebPhi (n + 1) x = (Polynomial.Chebyshev.T ℝ (n + 1 : ℕ)).eval x := by
  intro n
  induction n with
  | zero => simp [chebPhi]
  | succ n ih =>
    refine ⟨ih.2, ?_⟩
    rw [chebPhi, ih.1, ih.2]
    have h := Polynomial.Chebyshev.T_add_two ℝ (n : ℤ)
    have e : ((n + 1 + 1 : ℕ) : ℤ) = (n : ℤ) + 2 := by push_cast; ring
    rw [e, h]
    simp
    ring

/-- **C133**: every tensor basis is built from the polynomials of its name. -/
theorem familyOf_named (b : BasisName) : IsNamed b (familyOf b).phi := by
  cases b
  · trivial
  · refine fun x => ⟨rfl, rfl, fun n => ?_⟩
    change ((n : ℝ) + 2) * legPhi (n + 2) x = (2 * n + 3) * x * legPhi (n + 1) x - (n + 1) * legPhi n x
    have : (n : ℝ) + 2 ≠ 0 := by positivity
    rw [legPhi]
    field_simp
    ring
  · exact fun n x => rfl
  · exact fun n x => (chebPhi_eq x n).1
  · refine fun x => ⟨rfl, rfl, fun n => ?_⟩
    change ((n : ℝ) + 2) * lagPhi (n + 2) x = (2 * n + 3 - x) * lagPhi (n + 1) x - (n + 1) * lagPhi n x
    have : (n : ℝ) + 2 ≠ 0 := by positivity
    rw [lagPhi]
    field_simp
    ring
  · refine fun x => ⟨rfl, rfl, fun n => ?_⟩
    change hermPhi (n + 2) x = 2 * x * hermPhi (n + 1) x - 2 * (n + 1) * hermPhi n x
    rw [hermPhi]
    ring

/-- **C133**: the polynomials are taken of scaled samples: for the Hermite basis every coordinate has mean zero and mean square
one half (the standard deviation of the weight), for the others every coordinate fills the interval from -1 to 1. -/
theorem scaleFor_spec {M m : ℕ} (b : BasisName) (X : Fin M → Pt m) (k : Fin m) (hv : ∃ i j, X i k ≠ X j k) :
    let s := (sampleRows X).map fun r => ((scaleFor b X).scale r).getD k 0
    (b = .hermite → mean s = 0 ∧ mean (s.map (· ^ 2)) = 1 / 2) ∧
    (b ≠ .hermite → (∀ t ∈ s, -1 ≤ t ∧ t ≤ 1) ∧ -1 ∈ s ∧ 1 ∈ s) := by
  intro s
  obtain ⟨i, j, hij⟩ := hv
  have hr : ∀ i, List.ofFn (X i) ∈ sampleRows X := fun i => sampleRows_mem.2 ⟨i, rfl⟩
  constructor
  · intro hb
    have hs : std ((sampleRows X).map fun r => r.getD k 0) ≠ 0 :=
      std_ne_zero.2 ⟨X i k, List.mem_map.2 ⟨_, hr i, ofFn_getD _ _⟩, X j k, List.mem_map.2 ⟨_, hr j, ofFn_getD _ _⟩, hij⟩
    have := setScaleHermite_moments (sampleRows_length X) k.2 hs
    have e : scaleFor b X = setScaleHermite m (sampleRows X) := if_pos hb
    refine ⟨?_, ?_⟩
    · simpa only [s, e] using this.1
    · simpa only [s, e, List.map_map, Function.comp_def] using this.2
  · intro hb
    have := setScale_range (sampleRows_length X) k.2 ⟨_, hr i, _, hr j, by rwa [ofFn_getD, ofFn_getD]⟩
    have e : scaleFor b X = setScale m (sampleRows X) := if_neg hb
    obtain ⟨h1, ⟨r, hrm, h2, -⟩, ⟨t, htm, h3, -⟩⟩ := this
    simp only [s, e]
    refine ⟨?_, List.mem_map.2 ⟨r, hrm, h2⟩, List.mem_map.2 ⟨t, htm, h3⟩⟩
    intro u hu
    obtain ⟨v, hv, rfl⟩ := List.mem_map.1 hu
    exact h1 v hv

/-- Two samples on the line, at 0 and 2. -/
example : ∃ i j : Fin 2, (fun i _ => 2 * (i : ℕ) : Fin 2 → Pt 1) i 0 ≠ (fun i _ => 2 * (i : ℕ) : Fin 2 → Pt 1) j 0 :=
  ⟨0, 1, by norm_num⟩

example : parseBasis "chebyshev" = some .chebyshev := (parseBasis_iff _ _).2 rfl

end Verif.Func
