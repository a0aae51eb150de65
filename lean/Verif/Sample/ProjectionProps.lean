import Verif.Sample.ProjectionModel
import Verif.Sample.SatProps
import Verif.Sample.LatinProps
import Verif.Lipschitz.BoundProps

/-!
# Projection designs (C112)

Every design returned puts one point of the domain into one Voronoi cell of each projected point, for every projection.
-/

namespace Verif.Samp

open Verif Verif.Domain

variable {m K M : ℕ}

/-! ## Specification -/

/-- In every projection `x` is at least as close to the point `coord i` of the design as to any other point of it. -/
def InCell (P : Proj m K M) (coord : Fin K → Fin M) (x : Lip.Pt m) : Prop :=
  ∀ i k, Lip.nrm (Matrix.mulVec (P.L i) x - P.y i (coord i)) ≤ Lip.nrm (Matrix.mulVec (P.L i) x - P.y i k)

/-- A design of the domain: row `j` lies in the cells `π i j`, every cell of every projection is used by exactly one row, and the rows
are in the order of the first projection. -/
def IsProjDesign (D : Set (Lip.Pt m)) (P : Proj m (K + 1) M) (X : Fin M → Lip.Pt m) : Prop :=
  ∃ π : Fin (K + 1) → Equiv.Perm (Fin M), π 0 = 1 ∧ ∀ j, X j ∈ D ∧ InCell P (fun i => π i j) (X j)

/-- What the least squares solver is trusted with: a point of the domain meeting the added rows, and a refusal only if there is none. -/
def CellSolver (D : Set (Lip.Pt m)) (cls : List (Lip.Pt m × ℝ) → (Lip.Pt m → ℝ) → Option (Lip.Pt m)) : Prop :=
  ∀ rows f, (∀ x, cls rows f = some x → x ∈ D ∧ ∀ r ∈ rows, r.1 ⬝ᵥ x ≤ r.2) ∧
    (cls rows f = none → ¬ ∃ x ∈ D, ∀ r ∈ rows, r.1 ⬝ᵥ x ≤ r.2)

/-- Two assignments give the same solution list. -/
def SameOn (n : ℕ) (σ τ : Assign) : Prop := ∀ v, v < n → σ (v + 1) = τ (v + 1)

/-- What the iterating solver is trusted with: a new solution of the clauses under the assumptions, and an end only if there is none. -/
def SatSpec (n : ℕ) (sat : SatSolver) : Prop :=
  ∀ f seen as, (∀ σ, sat f seen as = some σ → cnfSat σ f ∧ (∀ l ∈ as, litSat σ l) ∧ ∀ τ ∈ seen, ¬ SameOn n σ τ) ∧
    (sat f seen as = none → ∀ σ, cnfSat σ f → (∀ l ∈ as, litSat σ l) → ∃ τ ∈ seen, SameOn n σ τ)

open Classical in
theorem exists_cellSolver (D : Set (Lip.Pt m)) : ∃ cls, CellSolver D cls := by
  refine ⟨fun rows _ => if h : ∃ x ∈ D, ∀ r ∈ rows, r.1 ⬝ᵥ x ≤ r.2 then some h.choose else none, fun rows f => ⟨?_, ?_⟩⟩
  · intro x hx
    dsimp only at hx
    split at hx
    · rename_i h
      obtain rfl := Option.some.inj hx
      exact h.choose_spec
    · cases hx
  · intro hx
    dsimp only at hx
    split at hx
    · cases hx
    · rename_i h; exact h

open Classical in
/-- A solver that prefers the solution `σ₀` whenever it is allowed. -/
noncomputable def preferSat (n : ℕ) (σ₀ : Assign) : SatSolver := fun f seen as =>
  if cnfSat σ₀ f ∧ (∀ l ∈ as, litSat σ₀ l) ∧ ∀ τ ∈ seen, ¬ SameOn n σ₀ τ then some σ₀
  else if h : ∃ σ, cnfSat σ f ∧ (∀ l ∈ as, litSat σ l) ∧ ∀ τ ∈ seen, ¬ SameOn n σ τ then some h.choose else none

theorem preferSat_spec (n : ℕ) (σ₀ : Assign) : SatSpec n (preferSat n σ₀) := by
  intro f seen as
  unfold preferSat
  refine ⟨?_, ?_⟩
  · intro σ hσ
    split at hσ
    · rename_i h; obtain rfl := Option.some.inj hσ; exact h
    · split at hσ
      · rename_i h; obtain rfl := Option.some.inj hσ; exact h.choose_spec
      · cases hσ
  · intro hσ σ h1 h2
    split at hσ
    · cases hσ
    · split at hσ
      · cases hσ
      · rename_i h
        by_contra hc
        push Not at hc
        exact h ⟨σ, h1, h2, hc⟩

/-! ## The cells -/

theorem cell_row {p : ℕ} (z a b : Lip.Pt p) : (b - a) ⬝ᵥ z ≤ (b - a) ⬝ᵥ ((0.5 : ℝ) • (a + b)) ↔ Lip.nrm (z - a) ≤ Lip.nrm (z - b) := by
  have h1 := Lip.nrm_sq (z - a)
  have h2 := Lip.nrm_sq (z - b)
  have e : Lip.nrm (z - b) ^ 2 - Lip.nrm (z - a) ^ 2 = 2 * ((b - a) ⬝ᵥ ((0.5 : ℝ) • (a + b)) - (b - a) ⬝ᵥ z) := by
    rw [h1, h2]
    simp only [dotProduct_smul, sub_dotProduct, dotProduct_sub, dotProduct_add, smul_eq_mul, dotProduct_comm z, dotProduct_comm b a]
    ring
  have n1 := Lip.nrm_nonneg (z - a)
  have n2 := Lip.nrm_nonneg (z - b)
  constructor
  · intro h
    exact (sq_le_sq₀ n1 n2).1 (by linarith)
  · intro h
    have := (sq_le_sq₀ n1 n2).2 h
    linarith

/-- C112: the rows added to the domain say that the point is in the cell. -/
theorem cellRows_iff (P : Proj m K M) (coord : Fin K → Fin M) (x : Lip.Pt m) :
    (∀ r ∈ cellRows P coord, r.1 ⬝ᵥ x ≤ r.2) ↔ InCell P coord x := by
  unfold cellRows InCell
  simp only [List.mem_flatMap, List.mem_map, List.mem_filter, List.mem_finRange, true_and, decide_eq_true_eq]
  constructor
  · intro h i k
    by_cases e : coord i = k
    · rw [e]
    · have := h _ ⟨i, k, e, rfl⟩
      rw [← Matrix.dotProduct_mulVec] at this
      exact (cell_row _ _ _).1 this
  · rintro h r ⟨i, k, _, rfl⟩
    rw [← Matrix.dotProduct_mulVec]
    exact (cell_row _ _ _).2 (h i k)

/-- There is nothing to add exactly for designs with at most one point (or no projection). -/
theorem cellRows_nil (P : Proj m (K + 1) M) (coord : Fin (K + 1) → Fin M) : cellRows P coord = [] ↔ M = 1 := by
  unfold cellRows
  simp only [List.flatMap_eq_nil_iff, List.map_eq_nil_iff, List.filter_eq_nil_iff, List.mem_finRange, true_implies, decide_eq_true_eq,
    not_not]
  constructor
  · intro h
    have h0 := h 0
    have : Subsingleton (Fin M) := ⟨fun a b => (h0 a).symm.trans (h0 b)⟩
    have hc := Fintype.card_le_one_iff_subsingleton.2 this
    have hp : 0 < M := Fin.pos (coord 0)
    simp only [Fintype.card_fin] at hc
    omega
  · rintro rfl i k
    exact Subsingleton.elim _ _

/-- The cell has no point of the domain. -/
def EmptyCell (D : Set (Lip.Pt m)) (P : Proj m K M) (coord : Fin K → Fin M) : Prop := ¬ ∃ x ∈ D, InCell P coord x

theorem cellPoints_some {D : Set (Lip.Pt m)} {cls : List (Lip.Pt m × ℝ) → (Lip.Pt m → ℝ) → Option (Lip.Pt m)} (hc : CellSolver D cls)
    (P : Proj m K M) (d : Fin M → Fin K → Fin M) (j : Fin M) {x : Lip.Pt m} (h : cellPoints cls P d j = some x) :
    x ∈ D ∧ InCell P (d j) x := by
  obtain ⟨h1, h2⟩ := (hc _ _).1 x h
  exact ⟨h1, (cellRows_iff P _ x).1 h2⟩

theorem cellPoints_none {D : Set (Lip.Pt m)} {cls : List (Lip.Pt m × ℝ) → (Lip.Pt m → ℝ) → Option (Lip.Pt m)} (hc : CellSolver D cls)
    (P : Proj m K M) (d : Fin M → Fin K → Fin M) (j : Fin M) : cellPoints cls P d j = none ↔ EmptyCell D P (d j) := by
  constructor
  · rintro h ⟨x, hx, hi⟩
    exact (hc _ _).2 h ⟨x, hx, (cellRows_iff P _ x).2 hi⟩
  · intro h
    rcases e : cellPoints cls P d j with _ | x
    · rfl
    · exact absurd ⟨x, cellPoints_some hc P d j e⟩ h

/-! ## Reading solutions -/

theorem designOf_eq (σ : Assign) (π : Fin K → Equiv.Perm (Fin M)) (h : Represents M K σ π) :
    designOf K M (readPerms M (solutionOf (K * M ^ 2) σ)) = some (fun j k => π k j) := by
  have e := readPerms_eq M K σ π h
  unfold designOf
  rw [dif_pos]
  · congr 1
    funext j k
    apply Fin.ext
    show (readPerms M (solutionOf (K * M ^ 2) σ) (k : ℕ) (j : ℕ)).toNat = _
    rw [e k j]; rfl
  · intro k j
    rw [e k j]
    exact ⟨by positivity, by exact_mod_cast (π k j).2⟩

/-- The design a solution stands for, and the point of each of its cells. -/
theorem sat_design {σ : Assign} {cells : List (Fin (K + 1) → Fin M)} (h : cnfSat σ (blockedCnf M (K + 1) cells)) :
    ∃ π : Fin (K + 1) → Equiv.Perm (Fin M), π 0 = 1 ∧ Represents M (K + 1) σ π := by
  obtain ⟨π, h0, hr, _⟩ := (blocked_exact M K cells σ).1 h
  exact ⟨π, h0, hr⟩

theorem blockedCnf_append (cells more : List (Fin K → Fin M)) :
    blockedCnf M K cells ++ more.flatMap cellBlock = blockedCnf M K (cells ++ more) := by
  unfold blockedCnf
  rw [List.flatMap_append, List.append_assoc]
  rfl

/-! ## The invariant -/

/-- The points a solution leads to. -/
noncomputable def pointsOf (cls : List (Lip.Pt m × ℝ) → (Lip.Pt m → ℝ) → Option (Lip.Pt m)) (P : Proj m (K + 1) M)
    (π : Fin (K + 1) → Equiv.Perm (Fin M)) (j : Fin M) : Option (Lip.Pt m) :=
  cls (cellRows P (fun i => π i j)) (cellMisfit P (fun i => π i j))

/-- `X` is the complete design of the permutations `π`. -/
def Builds (cls : List (Lip.Pt m × ℝ) → (Lip.Pt m → ℝ) → Option (Lip.Pt m)) (P : Proj m (K + 1) M)
    (π : Fin (K + 1) → Equiv.Perm (Fin M)) (X : Fin M → Lip.Pt m) : Prop := ∀ j, pointsOf cls P π j = some (X j)

theorem builds_design {D : Set (Lip.Pt m)} {cls : List (Lip.Pt m × ℝ) → (Lip.Pt m → ℝ) → Option (Lip.Pt m)} (hc : CellSolver D cls)
    {P : Proj m (K + 1) M} {π : Fin (K + 1) → Equiv.Perm (Fin M)} (h0 : π 0 = 1) {X : Fin M → Lip.Pt m} (h : Builds cls P π X) :
    IsProjDesign D P X :=
  ⟨π, h0, fun j => cellPoints_some hc P (fun j k => π k j) j (h j)⟩

structure ProjInv (D : Set (Lip.Pt m)) (cls : List (Lip.Pt m × ℝ) → (Lip.Pt m → ℝ) → Option (Lip.Pt m)) (P : Proj m (K + 1) M)
    (s : PState m M) : Prop where
  clauses : ∃ cells : List (Fin (K + 1) → Fin M), s.clauses = blockedCnf M (K + 1) cells ∧ ∀ c ∈ cells, EmptyCell D P c
  seen : ∀ σ ∈ s.seen, ∃ π : Fin (K + 1) → Equiv.Perm (Fin M), π 0 = 1 ∧ Represents M (K + 1) σ π ∧
    ∀ X, Builds cls P π X → ¬ tupleLt s.best (score X)
  sol : ∀ σ, s.sol = some σ → σ ∈ s.seen
  X : (s.X = none ∧ s.best = List.replicate M 0) ∨
    ∃ X π σ, s.X = some X ∧ s.best = score X ∧ σ ∈ s.seen ∧ π 0 = 1 ∧ Represents M (K + 1) σ π ∧ Builds cls P π X ∧
      tupleLt (List.replicate M 0) (score X)

theorem projInv_init (D : Set (Lip.Pt m)) (cls : List (Lip.Pt m × ℝ) → (Lip.Pt m → ℝ) → Option (Lip.Pt m)) (P : Proj m (K + 1) M) :
    ProjInv D cls P (projInit m (K + 1) M) where
  clauses := ⟨[], by simp [projInit, blockedCnf], by simp⟩
  seen := by simp [projInit]
  sol := by simp [projInit]
  X := Or.inl ⟨rfl, rfl⟩

theorem scoreStep_clauses (s : PState m M) (pts : Fin M → Option (Lip.Pt m)) :
    (scoreStep s pts).clauses = s.clauses ∧ (scoreStep s pts).seen = s.seen ∧ (scoreStep s pts).sol = s.sol ∧
      (scoreStep s pts).perms = s.perms := by
  unfold scoreStep
  split
  · split <;> exact ⟨rfl, rfl, rfl, rfl⟩
  · exact ⟨rfl, rfl, rfl, rfl⟩

/-- What scoring a complete design does to the best design. -/
theorem scoreStep_best (s : PState m M) (pts : Fin M → Option (Lip.Pt m)) :
    ((∃ j, pts j = none) ∧ scoreStep s pts = s) ∨
    ∃ X, (∀ j, pts j = some (X j)) ∧ (scoreStep s pts).it = s.it + 1 ∧
      ((tupleLt s.best (score X) ∧ (scoreStep s pts).X = some X ∧ (scoreStep s pts).best = score X) ∨
       (¬ tupleLt s.best (score X) ∧ (scoreStep s pts).X = s.X ∧ (scoreStep s pts).best = s.best)) := by
  by_cases h : ∀ j, (pts j).isSome
  · right
    refine ⟨fun j => (pts j).get (h j), fun j => (Option.some_get (h j)).symm, ?_⟩
    unfold scoreStep
    rw [dif_pos h]
    split
    · rename_i ht; exact ⟨rfl, Or.inl ⟨ht, rfl, rfl⟩⟩
    · rename_i ht; exact ⟨rfl, Or.inr ⟨ht, rfl, rfl⟩⟩
  · left
    refine ⟨?_, by unfold scoreStep; rw [dif_neg h]⟩
    push Not at h
    obtain ⟨j, hj⟩ := h
    exact ⟨j, by simpa using hj⟩

/-- The state after the solution `σ`, which stands for `π`, has been read and the empty cells have been blocked. -/
noncomputable def withSol (cls : List (Lip.Pt m × ℝ) → (Lip.Pt m → ℝ) → Option (Lip.Pt m)) (P : Proj m (K + 1) M) (s : PState m M)
    (σ : Assign) (π : Fin (K + 1) → Equiv.Perm (Fin M)) : PState m M :=
  { s with sol := some σ, perms := readPerms M (solutionOf ((K + 1) * M ^ 2) σ),
           clauses := s.clauses ++ newClauses cls P (fun j k => π k j) }

theorem buildStep_eq (cls : List (Lip.Pt m × ℝ) → (Lip.Pt m → ℝ) → Option (Lip.Pt m)) (P : Proj m (K + 1) M) (s : PState m M)
    (σ : Assign) (π : Fin (K + 1) → Equiv.Perm (Fin M)) (h : Represents M (K + 1) σ π) (hM : 2 ≤ M) :
    buildStep cls P s σ = .ok (scoreStep (withSol cls P s σ π) (pointsOf cls P π)) := by
  unfold buildStep
  rw [designOf_eq σ π h]
  dsimp only
  rw [if_neg]
  · rfl
  · rintro ⟨j, hj⟩
    rw [cellRows_nil] at hj
    omega

theorem newClauses_cells {D : Set (Lip.Pt m)} {cls : List (Lip.Pt m × ℝ) → (Lip.Pt m → ℝ) → Option (Lip.Pt m)} (hc : CellSolver D cls)
    (P : Proj m K M) (d : Fin M → Fin K → Fin M) :
    ∃ more : List (Fin K → Fin M), newClauses cls P d = more.flatMap cellBlock ∧
      ∀ c, c ∈ more ↔ ∃ j, c = d j ∧ EmptyCell D P (d j) := by
  refine ⟨_, rfl, fun c => ?_⟩
  simp only [List.mem_map, List.mem_filter, List.mem_finRange, true_and, Option.isNone_iff_eq_none]
  constructor
  · rintro ⟨j, hj, rfl⟩; exact ⟨j, rfl, (cellPoints_none hc P d j).1 hj⟩
  · rintro ⟨j, rfl, hj⟩; exact ⟨j, (cellPoints_none hc P d j).2 hj, rfl⟩

/-- One pass with a solution among those seen. -/
theorem build_inv {D : Set (Lip.Pt m)} {cls : List (Lip.Pt m × ℝ) → (Lip.Pt m → ℝ) → Option (Lip.Pt m)} (hc : CellSolver D cls)
    (P : Proj m (K + 1) M) (s : PState m M) (σ : Assign) (π : Fin (K + 1) → Equiv.Perm (Fin M)) (h0 : π 0 = 1)
    (h : Represents M (K + 1) σ π) (hM : 2 ≤ M)
    (hcl : ∃ cells : List (Fin (K + 1) → Fin M), s.clauses = blockedCnf M (K + 1) cells ∧ ∀ c ∈ cells, EmptyCell D P c)
    (hseen : ∀ τ ∈ s.seen, τ = σ ∨ ∃ π : Fin (K + 1) → Equiv.Perm (Fin M), π 0 = 1 ∧ Represents M (K + 1) τ π ∧
      ∀ X, Builds cls P π X → ¬ tupleLt s.best (score X)) (hσ : σ ∈ s.seen)
    (hX : (s.X = none ∧ s.best = List.replicate M 0) ∨
      ∃ X π σ, s.X = some X ∧ s.best = score X ∧ σ ∈ s.seen ∧ π 0 = 1 ∧ Represents M (K + 1) σ π ∧ Builds cls P π X ∧
        tupleLt (List.replicate M 0) (score X))
    {s' : PState m M} (hb : buildStep cls P s σ = .ok s') : ProjInv D cls P s' := by
  rw [buildStep_eq cls P s σ π h hM] at hb
  set s₁ : PState m M := (withSol cls P s σ π) with hs₁
  have hb' : scoreStep s₁ (pointsOf cls P π) = s' := by
    injection hb
  obtain ⟨c1, c2, c3, _⟩ := scoreStep_clauses s₁ (pointsOf cls P π)
  rw [hb'] at c1 c2 c3
  have hle : ¬ tupleLt s'.best s.best ∧ (∀ X, Builds cls P π X → ¬ tupleLt s'.best (score X)) := by
    rcases scoreStep_best s₁ (pointsOf cls P π) with ⟨⟨j, hj⟩, e⟩ | ⟨X, hX', _, hcase⟩
    · rw [hb'] at e
      subst e
      refine ⟨tupleLt_irrefl _, fun X hX' => ?_⟩
      rw [hX' j] at hj; cases hj
    · have huniq : ∀ Y, Builds cls P π Y → Y = X := fun Y hY => funext fun j => Option.some.inj ((hY j).symm.trans (hX' j))
      rw [hb'] at hcase
      rcases hcase with ⟨ht, _, e⟩ | ⟨ht, _, e⟩
      · rw [e]
        refine ⟨fun h' => tupleLt_irrefl _ (tupleLt_trans h' ht), fun Y hY => ?_⟩
        rw [huniq Y hY]; exact tupleLt_irrefl _
      · rw [e]
        refine ⟨tupleLt_irrefl _, fun Y hY => ?_⟩
        rw [huniq Y hY]; exact ht
  refine ⟨?_, ?_, ?_, ?_⟩
  · obtain ⟨cells, e, he⟩ := hcl
    obtain ⟨more, e', he'⟩ := newClauses_cells hc P (fun j k => π k j)
    refine ⟨cells ++ more, ?_, ?_⟩
    · rw [c1, ← blockedCnf_append, ← e, ← e']; rfl
    · intro c hcm
      rcases List.mem_append.1 hcm with h' | h'
      · exact he c h'
      · obtain ⟨j, rfl, hj⟩ := (he' c).1 h'; exact hj
  · intro τ hτ
    rw [c2] at hτ
    rcases hseen τ hτ with rfl | ⟨ρ, r0, rr, rX⟩
    · exact ⟨π, h0, h, hle.2⟩
    · refine ⟨ρ, r0, rr, fun X hX' ht => ?_⟩
      rcases tupleLt_trichotomy s.best s'.best with h' | h' | h'
      · exact rX X hX' (tupleLt_trans h' ht)
      · rw [← h'] at ht; exact rX X hX' ht
      · exact hle.1 h'
  · intro τ hτ
    rw [c3] at hτ
    rw [c2]
    obtain rfl := Option.some.inj hτ
    exact hσ
  · rcases scoreStep_best s₁ (pointsOf cls P π) with ⟨_, e⟩ | ⟨X, hX', _, hcase⟩
    · rw [hb'] at e
      subst e
      exact hX
    · rw [hb'] at hcase
      rcases hcase with ⟨ht, e1, e2⟩ | ⟨ht, e1, e2⟩
      · right
        refine ⟨X, π, σ, e1, e2, by rw [c2]; exact hσ, h0, h, hX', ?_⟩
        rcases hX with ⟨_, e⟩ | ⟨Y, _, _, _, e, _, _, _, _, hpos⟩
        · rw [← e]; exact ht
        · have : tupleLt (score Y) (score X) := by rw [← e]; exact ht
          exact tupleLt_trans hpos this
      · rw [e1, e2, c2]
        exact hX

theorem trySat_some {n : ℕ} {sat : SatSolver} (hsat : SatSpec n sat) (order : (Fin M → Lip.Pt m) → List (Fin M)) (s : PState m M)
    (l : List ℕ) {σ : Assign} (h : trySat sat K order s l = some σ) : cnfSat σ s.clauses ∧ ∀ τ ∈ s.seen, ¬ SameOn n σ τ := by
  induction l with
  | nil => cases h
  | cons a l ih =>
    simp only [trySat] at h
    split at h
    · rename_i τ e
      obtain rfl := Option.some.inj h
      obtain ⟨h1, _, h3⟩ := (hsat _ _ _).1 _ e
      exact ⟨h1, h3⟩
    · exact ih h

theorem keepRange_zero (M : ℕ) (use : Bool) : ∃ l, keepRange M use = l ++ [0] := by
  unfold keepRange
  cases use
  · exact ⟨[], rfl⟩
  · obtain ⟨k, hk⟩ : ∃ k, max (M - 2 + 1) 1 = k + 1 := ⟨M - 2, by omega⟩
    rw [if_pos rfl, hk, List.range_succ_eq_map, List.reverse_cons]
    exact ⟨_, rfl⟩

theorem trySat_append (sat : SatSolver) (order : (Fin M → Lip.Pt m) → List (Fin M)) (s : PState m M) (l k : List ℕ)
    (h : trySat sat K order s (l ++ k) = none) : trySat sat K order s k = none := by
  induction l with
  | nil => exact h
  | cons a l ih =>
    simp only [List.cons_append, trySat] at h
    split at h
    · cases h
    · exact ih h

theorem assumptions_zero (order : (Fin M → Lip.Pt m) → List (Fin M)) (s : PState m M) : assumptions K order s 0 = [] := by
  unfold assumptions
  split <;> simp

/-- When all attempts fail, every solution of the clauses has been seen. -/
theorem trySat_none {n : ℕ} {sat : SatSolver} (hsat : SatSpec n sat) (order : (Fin M → Lip.Pt m) → List (Fin M)) (s : PState m M)
    (use : Bool) (h : trySat sat K order s (keepRange M use) = none) (σ : Assign) (hσ : cnfSat σ s.clauses) :
    ∃ τ ∈ s.seen, SameOn n σ τ := by
  obtain ⟨l, e⟩ := keepRange_zero M use
  rw [e] at h
  have h' := trySat_append sat order s l [0] h
  simp only [trySat, assumptions_zero] at h'
  split at h'
  · cases h'
  · rename_i e'
    exact (hsat _ _ _).2 e' σ hσ (by simp)

theorem projStep_inv {D : Set (Lip.Pt m)} {cls : List (Lip.Pt m × ℝ) → (Lip.Pt m → ℝ) → Option (Lip.Pt m)} (hc : CellSolver D cls)
    {sat : SatSolver} (hsat : SatSpec ((K + 1) * M ^ 2) sat) (order : (Fin M → Lip.Pt m) → List (Fin M)) (use : Bool)
    (P : Proj m (K + 1) M) (hM : 2 ≤ M) {s s' : PState m M} (hs : ProjInv D cls P s) (h : projStep cls sat order use P s = .ok s') :
    ProjInv D cls P s' := by
  unfold projStep at h
  split at h
  · rename_i σ e
    obtain ⟨cells, ec, hce⟩ := hs.clauses
    have hcnf := (trySat_some hsat order s _ e).1
    rw [ec] at hcnf
    obtain ⟨π, h0, hr⟩ := sat_design hcnf
    refine build_inv hc P { s with seen := s.seen ++ [σ] } σ π h0 hr hM ⟨cells, ec, hce⟩ ?_ (by simp) ?_ h
    · intro τ hτ
      rcases List.mem_append.1 hτ with h' | h'
      · exact Or.inr (hs.seen τ h')
      · exact Or.inl (List.mem_singleton.1 h')
    · rcases hs.X with h' | ⟨X, ρ, τ, h1, h2, h3, h4⟩
      · exact Or.inl h'
      · exact Or.inr ⟨X, ρ, τ, h1, h2, List.mem_append_left _ h3, h4⟩
  · split at h
    · cases h
    · rename_i σ e
      obtain ⟨π, h0, hr, _⟩ := hs.seen σ (hs.sol σ e)
      exact build_inv hc P s σ π h0 hr hM hs.clauses (fun τ hτ => Or.inr (hs.seen τ hτ)) (hs.sol σ e) hs.X h

theorem projRun_inv {D : Set (Lip.Pt m)} {cls : List (Lip.Pt m × ℝ) → (Lip.Pt m → ℝ) → Option (Lip.Pt m)} (hc : CellSolver D cls)
    {sat : SatSolver} (hsat : SatSpec ((K + 1) * M ^ 2) sat) (order : (Fin M → Lip.Pt m) → List (Fin M)) (use : Bool)
    (P : Proj m (K + 1) M) (hM : 2 ≤ M) (maxiter fuel : ℕ) {s s' : PState m M} (hs : ProjInv D cls P s)
    (h : projRun cls sat order use P maxiter fuel s = .ok (some s')) : ProjInv D cls P s' ∧ maxiter ≤ s'.it := by
  induction fuel generalizing s with
  | zero => injection h with h; cases h
  | succ n ih =>
    simp only [projRun] at h
    split at h
    · cases h
    · rename_i t e
      have ht := projStep_inv hc hsat order use P hM hs e
      split at h
      · rename_i hit
        injection h with h; obtain rfl := Option.some.inj h
        exact ⟨ht, hit⟩
      · exact ih ht h

/-- One point can not be asked for: the list of rows is empty and stacking it raises. -/
theorem designOf_some_of (σ : Assign) (h : cnfSat σ (geoCnf M (K + 1))) :
    ∃ d, designOf (K + 1) M (readPerms M (solutionOf ((K + 1) * M ^ 2) σ)) = some d := by
  obtain ⟨π, ⟨_, hr⟩, _⟩ := (sat_iff_permutations M K σ).1 h
  exact ⟨_, designOf_eq σ π hr⟩

theorem init_sat {n : ℕ} {sat : SatSolver} (hsat : SatSpec n sat) (order : (Fin M → Lip.Pt m) → List (Fin M)) (use : Bool) :
    ∃ σ, trySat sat (K + 1) order (projInit m (K + 1) M) (keepRange M use) = some σ ∧ cnfSat σ (geoCnf M (K + 1)) := by
  rcases e : trySat sat (K + 1) order (projInit m (K + 1) M) (keepRange M use) with _ | σ
  · obtain ⟨σ, hσ, _⟩ := design_satisfiable M K (fun _ => 1) rfl
    obtain ⟨τ, hτ, _⟩ := trySat_none hsat order _ use e σ hσ
    cases hτ
  · exact ⟨σ, rfl, (trySat_some hsat order _ _ e).1⟩

/-! ## The theorems -/

/-- C112: whatever is returned is a design: every row lies in the domain, and for every projection the rows use every Voronoi cell
exactly once, in order for the first projection. -/
theorem projection_cells {D : Set (Lip.Pt m)} {cls : List (Lip.Pt m × ℝ) → (Lip.Pt m → ℝ) → Option (Lip.Pt m)} (hc : CellSolver D cls)
    {sat : SatSolver} (hsat : SatSpec ((K + 1) * M ^ 2) sat) (order : (Fin M → Lip.Pt m) → List (Fin M)) (use : Bool)
    (P : Proj m (K + 1) M) (hM : 2 ≤ M) (maxiter fuel : ℕ) {X : Fin M → Lip.Pt m}
    (h : projectionDesign cls sat order use P maxiter fuel = .ok (some (some X))) :
    IsProjDesign D P X ∧ tupleLt (List.replicate M 0) (score X) := by
  unfold projectionDesign at h
  split at h
  · cases h
  · injection h with h; cases h
  · rename_i s e
    injection h with h
    have hx : s.X = some X := Option.some.inj h
    obtain ⟨hi, _⟩ := projRun_inv hc hsat order use P hM maxiter fuel (projInv_init D cls P) e
    rcases hi.X with ⟨h', _⟩ | ⟨Y, π, σ, hY, _, _, h0, _, hb, hpos⟩
    · rw [h'] at hx; cases hx
    · rw [hY] at hx
      obtain rfl := Option.some.inj hx
      exact ⟨builds_design hc h0 hb, hpos⟩

/-- C112: when the loop ends, no design proposed by the solver has a better score than the one returned; if none is returned, no
proposed design has a score above zero. -/
theorem projection_best {D : Set (Lip.Pt m)} {cls : List (Lip.Pt m × ℝ) → (Lip.Pt m → ℝ) → Option (Lip.Pt m)} (hc : CellSolver D cls)
    {sat : SatSolver} (hsat : SatSpec ((K + 1) * M ^ 2) sat) (order : (Fin M → Lip.Pt m) → List (Fin M)) (use : Bool)
    (P : Proj m (K + 1) M) (hM : 2 ≤ M) (maxiter fuel : ℕ) {s : PState m M}
    (h : projRun cls sat order use P maxiter fuel (projInit m (K + 1) M) = .ok (some s)) :
    (∀ σ ∈ s.seen, ∃ π : Fin (K + 1) → Equiv.Perm (Fin M), π 0 = 1 ∧ Represents M (K + 1) σ π ∧
      ∀ Y, Builds cls P π Y → ¬ tupleLt (match s.X with | some X => score X | none => List.replicate M 0) (score Y)) ∧
    maxiter ≤ s.it := by
  obtain ⟨hi, hit⟩ := projRun_inv hc hsat order use P hM maxiter fuel (projInv_init D cls P) h
  refine ⟨fun σ hσ => ?_, hit⟩
  obtain ⟨π, h0, hr, hb⟩ := hi.seen σ hσ
  refine ⟨π, h0, hr, fun Y hY => ?_⟩
  have e : (match s.X with | some X => score X | none => List.replicate M 0) = s.best := by
    rcases hi.X with ⟨h1, h2⟩ | ⟨X, _, _, h1, h2, _⟩
    · rw [h1, h2]
    · rw [h1, h2]
  rw [e]
  exact hb Y hY

/-- Two assignments giving the same solution stand for the same permutations. -/
theorem represents_sameOn {σ τ : Assign} (h : SameOn (K * M ^ 2) σ τ) {π : Fin K → Equiv.Perm (Fin M)} (hr : Represents M K τ π) :
    Represents M K σ π := by
  intro k o v
  rw [← hr k o v]
  unfold on
  have hb : (k : ℕ) * M * M + o * M + v < K * M ^ 2 := by
    have h1 := k.2; have h2 := o.2; have h3 := v.2
    calc (k : ℕ) * M * M + o * M + v < k * M * M + (o + 1) * M := by nlinarith
      _ ≤ k * M * M + M * M := by nlinarith
      _ = (k + 1) * (M * M) := by ring
      _ ≤ K * (M * M) := Nat.mul_le_mul_right _ h1
      _ = K * M ^ 2 := by ring
  have e : (encode M k o v).toNat = ((k : ℕ) * M * M + o * M + v) + 1 := by
    unfold encode; norm_cast
  rw [e, h _ hb]

/-- C112: when the solver has run out, every design all of whose cells meet the domain has been proposed: the blocked cells never
exclude a design that can be built. -/
theorem projection_exhaustive {D : Set (Lip.Pt m)} {cls : List (Lip.Pt m × ℝ) → (Lip.Pt m → ℝ) → Option (Lip.Pt m)}
    {sat : SatSolver} (hsat : SatSpec ((K + 1) * M ^ 2) sat) (order : (Fin M → Lip.Pt m) → List (Fin M)) (use : Bool)
    (P : Proj m (K + 1) M) {s : PState m M} (hi : ProjInv D cls P s)
    (hend : trySat sat (K + 1) order s (keepRange M use) = none)
    (π : Fin (K + 1) → Equiv.Perm (Fin M)) (h0 : π 0 = 1) (hπ : ∀ j, ∃ x ∈ D, InCell P (fun i => π i j) x) :
    ∃ σ ∈ s.seen, Represents M (K + 1) σ π := by
  obtain ⟨cells, ec, hce⟩ := hi.clauses
  obtain ⟨τ, _, hr⟩ := design_satisfiable M K π h0
  have hb : cnfSat τ (blockedCnf M (K + 1) cells) := by
    refine (blocked_exact M K cells τ).2 ⟨π, h0, hr, ?_⟩
    rintro c hcm ⟨o, ho⟩
    apply hce c hcm
    obtain ⟨x, hx, hx'⟩ := hπ o
    refine ⟨x, hx, ?_⟩
    rwa [show (fun i => π i o) = c from funext ho] at hx'
  obtain ⟨σ, hσ, hsame⟩ := trySat_none hsat order s use hend τ (by rw [ec]; exact hb)
  refine ⟨σ, hσ, represents_sameOn (fun v hv => (hsame v hv).symm) hr⟩

/-- C112: once the solver has run out the design kept is the best of all designs. -/
theorem projection_optimal {D : Set (Lip.Pt m)} {cls : List (Lip.Pt m × ℝ) → (Lip.Pt m → ℝ) → Option (Lip.Pt m)} (hc : CellSolver D cls)
    {sat : SatSolver} (hsat : SatSpec ((K + 1) * M ^ 2) sat) (order : (Fin M → Lip.Pt m) → List (Fin M)) (use : Bool)
    (P : Proj m (K + 1) M) {s : PState m M} (hi : ProjInv D cls P s)
    (hend : trySat sat (K + 1) order s (keepRange M use) = none)
    (π : Fin (K + 1) → Equiv.Perm (Fin M)) (h0 : π 0 = 1) (X : Fin M → Lip.Pt m) (hX : Builds cls P π X) :
    ¬ tupleLt s.best (score X) := by
  obtain ⟨σ, hσ, hr⟩ := projection_exhaustive hsat order use P hi hend π h0
    (fun j => ⟨X j, cellPoints_some hc P (fun j k => π k j) j (hX j)⟩)
  obtain ⟨ρ, r0, rr, hb⟩ := hi.seen σ hσ
  have : ρ = π := by
    funext k
    ext o
    have := (rr k o (ρ k o)).2 rfl
    rw [(hr k o (ρ k o)).1 this]
  rw [this] at hb
  exact hb X hX

/-- C112: one point can not be asked for. -/
theorem projection_single {cls : List (Lip.Pt m × ℝ) → (Lip.Pt m → ℝ) → Option (Lip.Pt m)} {n : ℕ}
    {sat : SatSolver} (hsat : SatSpec n sat) (order : (Fin 1 → Lip.Pt m) → List (Fin 1)) (use : Bool)
    (P : Proj m (K + 1) 1) (maxiter fuel : ℕ) :
    projectionDesign cls sat order use P maxiter (fuel + 1) = .error .value := by
  obtain ⟨σ, e, hσ⟩ := init_sat (K := K) hsat order use
  obtain ⟨d, hd⟩ := designOf_some_of (K := K) σ hσ
  have hstep : projStep cls sat order use P (projInit m (K + 1) 1) = .error .value := by
    unfold projStep
    rw [e]
    dsimp only
    unfold buildStep
    rw [hd]
    dsimp only
    rw [if_pos ⟨0, (cellRows_nil P _).2 rfl⟩]
  unfold projectionDesign
  simp only [projRun, hstep]

theorem projStep_ok {D : Set (Lip.Pt m)} {cls : List (Lip.Pt m × ℝ) → (Lip.Pt m → ℝ) → Option (Lip.Pt m)}
    {sat : SatSolver} (hsat : SatSpec ((K + 1) * M ^ 2) sat) (order : (Fin M → Lip.Pt m) → List (Fin M)) (use : Bool)
    (P : Proj m (K + 1) M) (hM : 2 ≤ M) {s : PState m M} (hs : ProjInv D cls P s) (hsol : s = projInit m (K + 1) M ∨ s.sol ≠ none) :
    ∃ s' σ π, projStep cls sat order use P s = .ok s' ∧ s'.sol = some σ ∧ π 0 = 1 ∧ Represents M (K + 1) σ π ∧
      s'.it = (scoreStep s (pointsOf cls P π)).it := by
  have key : ∀ (t : PState m M) (σ : Assign) (π : Fin (K + 1) → Equiv.Perm (Fin M)), t.it = s.it → Represents M (K + 1) σ π →
      ∃ s', buildStep cls P t σ = .ok s' ∧ s'.sol = some σ ∧ s'.it = (scoreStep s (pointsOf cls P π)).it := by
    intro t σ π ht hr
    refine ⟨_, buildStep_eq cls P t σ π hr hM, (scoreStep_clauses _ _).2.2.1, ?_⟩
    rcases scoreStep_best s (pointsOf cls P π) with ⟨⟨j, hj⟩, e⟩ | ⟨X, hX, e, _⟩
    · rcases scoreStep_best (withSol cls P t σ π) (pointsOf cls P π) with ⟨_, e'⟩ | ⟨X, hX, _⟩
      · rw [e, e']; exact ht
      · rw [hX j] at hj; cases hj
    · rcases scoreStep_best (withSol cls P t σ π) (pointsOf cls P π) with ⟨⟨j, hj⟩, _⟩ | ⟨Y, _, e', _⟩
      · rw [hX j] at hj; cases hj
      · rw [e, e']; exact congrArg (· + 1) ht
  unfold projStep
  rcases e : trySat sat (K + 1) order s (keepRange M use) with _ | σ
  · rcases hsol with rfl | hsol
    · obtain ⟨σ, e', _⟩ := init_sat (K := K) hsat order use
      rw [e] at e'; cases e'
    · obtain ⟨σ, hσ⟩ := Option.ne_none_iff_exists'.1 hsol
      obtain ⟨π, h0, hr, _⟩ := hs.seen σ (hs.sol σ hσ)
      obtain ⟨s', h1, h2, h3⟩ := key s σ π rfl hr
      refine ⟨s', σ, π, ?_, h2, h0, hr, h3⟩
      rw [hσ]; exact h1
  · obtain ⟨cells, ec, hce⟩ := hs.clauses
    have hcnf := (trySat_some hsat order s _ e).1
    rw [ec] at hcnf
    obtain ⟨π, h0, hr⟩ := sat_design hcnf
    obtain ⟨s', h1, h2, h3⟩ := key { s with seen := s.seen ++ [σ] } σ π rfl hr
    exact ⟨s', σ, π, h1, h2, h0, hr, h3⟩

/-- C112: with two points or more no exception is raised. -/
theorem projection_no_error {D : Set (Lip.Pt m)} {cls : List (Lip.Pt m × ℝ) → (Lip.Pt m → ℝ) → Option (Lip.Pt m)} (hc : CellSolver D cls)
    {sat : SatSolver} (hsat : SatSpec ((K + 1) * M ^ 2) sat) (order : (Fin M → Lip.Pt m) → List (Fin M)) (use : Bool)
    (P : Proj m (K + 1) M) (hM : 2 ≤ M) (maxiter fuel : ℕ) : ∃ r, projectionDesign cls sat order use P maxiter fuel = .ok r := by
  have key : ∀ (fuel : ℕ) (s : PState m M), ProjInv D cls P s → (s = projInit m (K + 1) M ∨ s.sol ≠ none) →
      ∃ r, projRun cls sat order use P maxiter fuel s = .ok r := by
    intro fuel
    induction fuel with
    | zero => exact fun s _ _ => ⟨_, rfl⟩
    | succ n ih =>
      intro s hs hsol
      obtain ⟨s', σ, π, h1, h2, _⟩ := projStep_ok hsat order use P hM hs hsol
      simp only [projRun, h1]
      split
      · exact ⟨_, rfl⟩
      · exact ih s' (projStep_inv hc hsat order use P hM hs h1) (Or.inr (by rw [h2]; simp))
  obtain ⟨r, hr⟩ := key fuel _ (projInv_init D cls P) (Or.inl rfl)
  unfold projectionDesign
  rw [hr]
  rcases r with _ | s
  · exact ⟨_, rfl⟩
  · exact ⟨_, rfl⟩

/-- C112, where the code fails: if no design can be built (every choice of permutations has a cell outside the domain) the call never
returns, whatever the solvers do; it is not reported. -/
theorem projection_hangs {D : Set (Lip.Pt m)} {cls : List (Lip.Pt m × ℝ) → (Lip.Pt m → ℝ) → Option (Lip.Pt m)} (hc : CellSolver D cls)
    {sat : SatSolver} (hsat : SatSpec ((K + 1) * M ^ 2) sat) (order : (Fin M → Lip.Pt m) → List (Fin M)) (use : Bool)
    (P : Proj m (K + 1) M) (hM : 2 ≤ M) (maxiter : ℕ) (hmax : 0 < maxiter) (hno : ¬ ∃ X, IsProjDesign D P X) (fuel : ℕ) :
    projectionDesign cls sat order use P maxiter fuel = .ok none := by
  have key : ∀ (fuel : ℕ) (s : PState m M), ProjInv D cls P s → (s = projInit m (K + 1) M ∨ s.sol ≠ none) → s.it = 0 →
      projRun cls sat order use P maxiter fuel s = .ok none := by
    intro fuel
    induction fuel with
    | zero => exact fun s _ _ _ => rfl
    | succ n ih =>
      intro s hs hsol hit
      obtain ⟨s', σ, π, h1, h2, h0, hr, h3⟩ := projStep_ok hsat order use P hM hs hsol
      have hit' : s'.it = 0 := by
        rw [h3]
        rcases scoreStep_best s (pointsOf cls P π) with ⟨_, e⟩ | ⟨X, hX, _⟩
        · rw [e]; exact hit
        · exact absurd ⟨X, builds_design hc h0 hX⟩ hno
      simp only [projRun, h1]
      rw [if_neg (by omega)]
      exact ih s' (projStep_inv hc hsat order use P hM hs h1) (Or.inr (by rw [h2]; simp)) hit'
  unfold projectionDesign
  rw [key fuel _ (projInv_init D cls P) (Or.inl rfl) rfl]

/-- C112, the same after designs have been found: if the solver has run out and its last solution has a cell outside the domain, the
loop never ends unless enough designs were already counted. -/
theorem projection_stale {D : Set (Lip.Pt m)} {cls : List (Lip.Pt m × ℝ) → (Lip.Pt m → ℝ) → Option (Lip.Pt m)} (hc : CellSolver D cls)
    {sat : SatSolver} (hsat : SatSpec ((K + 1) * M ^ 2) sat) (order : (Fin M → Lip.Pt m) → List (Fin M)) (use : Bool)
    (P : Proj m (K + 1) M) (hM : 2 ≤ M) (maxiter : ℕ) {s : PState m M} (hi : ProjInv D cls P s) (hit : s.it < maxiter)
    (hend : ∀ σ, cnfSat σ s.clauses → ∃ τ ∈ s.seen, SameOn ((K + 1) * M ^ 2) σ τ)
    {σ : Assign} (hσ : s.sol = some σ) {π : Fin (K + 1) → Equiv.Perm (Fin M)} (hr : Represents M (K + 1) σ π)
    {j : Fin M} (hj : EmptyCell D P (fun i => π i j)) (fuel : ℕ) :
    projRun cls sat order use P maxiter fuel s = .ok none := by
  induction fuel generalizing s with
  | zero => rfl
  | succ n ih =>
    have hnone : ∀ l, trySat sat (K + 1) order s l = none := by
      intro l
      rcases e : trySat sat (K + 1) order s l with _ | τ
      · rfl
      · obtain ⟨h1, h2⟩ := trySat_some hsat order s l e
        obtain ⟨ρ, h3, h4⟩ := hend τ h1
        exact absurd h4 (h2 ρ h3)
    have hstep : ∃ t, projStep cls sat order use P s = .ok t ∧ t.seen = s.seen ∧ t.sol = some σ ∧ t.it = s.it ∧
        ∃ more, t.clauses = s.clauses ++ more := by
      unfold projStep
      rw [hnone, hσ]
      dsimp only
      refine ⟨_, buildStep_eq cls P s σ π hr hM, (scoreStep_clauses _ _).2.1, (scoreStep_clauses _ _).2.2.1, ?_, _,
        (scoreStep_clauses _ _).1⟩
      rcases scoreStep_best (withSol cls P s σ π) (pointsOf cls P π) with ⟨_, e⟩ | ⟨X, hX, _⟩
      · rw [e]; rfl
      · exact absurd ⟨X j, cellPoints_some hc P (fun j k => π k j) j (hX j)⟩ hj
    obtain ⟨t, h1, h2, h3, h4, more, h5⟩ := hstep
    simp only [projRun, h1]
    rw [if_neg (by omega)]
    refine ih (projStep_inv hc hsat order use P hM hi h1) (by omega) ?_ h3
    intro τ hτ
    rw [h5, cnfSat_append] at hτ
    rw [h2]
    exact hend τ hτ.1

end Verif.Samp
