import Verif.Sample.ProjSampleModel
import Verif.Sample.ProjectionProps
import Mathlib.Data.Fin.Tuple.Sort

/-!
# Projection samples (C128)

Every sample returned puts one point of the domain into one Voronoi cell of each projected target, for every projection; the search always ends, and gives up only
if there is no such sample. With `_lhs` the samples are Latin hypercube designs, but the code insists on the middles of the pieces on the coordinate axes lying in
the domain.
-/

namespace Verif.Samp

open Verif Verif.Domain Classical

variable {m K N : ℕ}

/-! ## Specification -/

/-- The projections with the projected targets. -/
def PSIn.proj (P : PSIn m K N) : Proj m K N := ⟨P.r, P.L, fun i k => (P.L i).mulVec (P.T i k)⟩

/-- `np.argsort` sorts. -/
def Sorts (asort : (Fin N → ℝ) → Equiv.Perm (Fin N)) : Prop := ∀ y, Monotone (y ∘ asort y)

theorem exists_sorts (N : ℕ) : ∃ asort : (Fin N → ℝ) → Equiv.Perm (Fin N), Sorts asort :=
  ⟨fun y => Tuple.sort y, fun y => Tuple.monotone_sort y⟩

/-- What the sampling on the subdomains with fixed projections is trusted with: it stays there. -/
def Refiner (D : Set (Lip.Pt m)) (asort : (Fin N → ℝ) → Equiv.Perm (Fin N)) (P : PSIn m K N) (O : PSOracles m K N) : Prop :=
  ∀ d X, (∀ j, X j ∈ D ∧ MeetsRows (psRows asort P (d j)) (X j)) → ∀ j,
    (O.csample d X j ∈ D ∧ MeetsRows (psRows asort P (d j)) (O.csample d X j) ∧ ∀ i, (P.L i).mulVec (O.csample d X j) = (P.L i).mulVec (X j)) ∧
    ∀ Y, O.vv d X j Y ∈ D ∧ MeetsRows (psRows asort P (d j)) (O.vv d X j Y) ∧ ∀ i, (P.L i).mulVec (O.vv d X j Y) = (P.L i).mulVec (X j)

/-- The contracts of the other components. -/
structure PSOracles.Spec (O : PSOracles m K N) (D : Set (Lip.Pt m)) (asort : (Fin N → ℝ) → Equiv.Perm (Fin N)) (P : PSIn m K N) : Prop where
  cls : CellSolver D O.cls
  sat : SatSpec (K * N ^ 2) O.sat
  refine : Refiner D asort P O

theorem exists_psOracles (D : Set (Lip.Pt m)) (asort : (Fin N → ℝ) → Equiv.Perm (Fin N)) (P : PSIn m K N) : ∃ O : PSOracles m K N, O.Spec D asort P := by
  obtain ⟨cls, hc⟩ := exists_cellSolver D
  exact ⟨⟨cls, fun _ X => X, fun _ X j _ => X j, preferSat (K * N ^ 2) (fun _ => false), fun _ => []⟩, hc, preferSat_spec _ _,
    fun d X h j => ⟨⟨(h j).1, (h j).2, fun _ => rfl⟩, fun _ => ⟨(h j).1, (h j).2, fun _ => rfl⟩⟩⟩

/-- The values of a coordinate on the domain range from `lo` to `hi`, and both are taken. -/
def Extent (D : Set (Lip.Pt m)) (lo hi : Fin m → ℝ) : Prop := ∀ i, IsLeast ((fun x => x i) '' D) (lo i) ∧ IsGreatest ((fun x => x i) '' D) (hi i)

/-- A Latin hypercube design of a domain: in every coordinate each of the `N` equal pieces of the extent has one point. -/
def IsLatinOf (D : Set (Lip.Pt m)) (lo hi : Fin m → ℝ) (X : Fin N → Lip.Pt m) : Prop :=
  (∀ j, X j ∈ D) ∧ ∀ i, ∃ π : Equiv.Perm (Fin N), ∀ j,
    lo i + (π j : ℕ) * ((hi i - lo i) / N) ≤ X j i ∧ X j i ≤ lo i + ((π j : ℕ) + 1) * ((hi i - lo i) / N)

/-- What `corner` is trusted with. -/
def CornersOf (D : Set (Lip.Pt m)) (corner : Lip.Pt m → Lip.Pt m) : Prop := ∀ l, corner l ∈ D ∧ ∀ x ∈ D, l ⬝ᵥ x ≤ l ⬝ᵥ corner l

/-! ## Cells -/

theorem near_step {a b c t : ℝ} (hab : a < b) (hbc : b ≤ c) (h : |t - a| ≤ |t - b|) : |t - a| ≤ |t - c| := by
  have : t ≤ (a + b) / 2 := by
    rcases abs_cases (t - a) with ⟨h1, _⟩ | ⟨h1, _⟩ <;> rcases abs_cases (t - b) with ⟨h2, _⟩ | ⟨h2, _⟩ <;> linarith
  rcases abs_cases (t - a) with ⟨h1, _⟩ | ⟨h1, _⟩ <;> rcases abs_cases (t - c) with ⟨h2, _⟩ | ⟨h2, _⟩ <;> linarith

theorem near_step' {a b c t : ℝ} (hab : b < a) (hbc : c ≤ b) (h : |t - a| ≤ |t - b|) : |t - a| ≤ |t - c| := by
  have : (a + b) / 2 ≤ t := by
    rcases abs_cases (t - a) with ⟨h1, _⟩ | ⟨h1, _⟩ <;> rcases abs_cases (t - b) with ⟨h2, _⟩ | ⟨h2, _⟩ <;> linarith
  rcases abs_cases (t - a) with ⟨h1, _⟩ | ⟨h1, _⟩ <;> rcases abs_cases (t - c) with ⟨h2, _⟩ | ⟨h2, _⟩ <;> linarith

/-- On a line it is enough to look at the neighbors in the sorted order. -/
theorem neighbors_nearest (y : Fin N → ℝ) (I : Equiv.Perm (Fin N)) (hI : StrictMono (y ∘ I)) (t : ℝ) (j : Fin N) :
    (∀ k ∈ neighborsOf I j, |t - y j| ≤ |t - y k|) ↔ ∀ k, |t - y j| ≤ |t - y k| := by
  refine ⟨fun h k => ?_, fun h k _ => h k⟩
  obtain ⟨p, rfl⟩ := I.surjective j
  obtain ⟨q, rfl⟩ := I.surjective k
  unfold neighborsOf placeNeighbors at h
  rw [Equiv.symm_apply_apply] at h
  rcases lt_trichotomy (p : ℕ) q with hpq | hpq | hpq
  · have hp : (p : ℕ) + 1 < N := by omega
    have hm := h (I ⟨p + 1, hp⟩) (List.mem_append_right _ (by rw [dif_pos hp]; simp))
    exact near_step (hI (Fin.mk_lt_mk.2 (by simp) : p < ⟨p + 1, hp⟩)) (hI.monotone (Fin.mk_le_mk.2 (by omega) : (⟨p + 1, hp⟩ : Fin N) ≤ q)) hm
  · have : p = q := Fin.ext hpq
    rw [this]
  · have hp : 0 < (p : ℕ) := by omega
    have hm := h (I ⟨p - 1, by omega⟩) (List.mem_append_left _ (by rw [dif_pos hp]; simp))
    exact near_step' (hI (Fin.mk_lt_mk.2 (by omega) : (⟨p - 1, by omega⟩ : Fin N) < p))
      (hI.monotone (Fin.mk_le_mk.2 (by omega) : q ≤ (⟨p - 1, by omega⟩ : Fin N))) hm

theorem psRow_iff {r : ℕ} (L : Matrix (Fin r) (Fin m) ℝ) (T : Fin N → Lip.Pt m) (j k : Fin N) (x : Lip.Pt m) :
    (psRow L T j k).1 ⬝ᵥ x ≤ (psRow L T j k).2 ↔ Lip.nrm (L.mulVec x - L.mulVec (T j)) ≤ Lip.nrm (L.mulVec x - L.mulVec (T k)) := by
  rw [← cell_row]
  unfold psRow
  rw [← Matrix.dotProduct_mulVec, Matrix.mulVec_sub, Matrix.mulVec_smul, Matrix.mulVec_add]

theorem meets_cell {r : ℕ} (asort : (Fin N → ℝ) → Equiv.Perm (Fin N)) (L : Matrix (Fin r) (Fin m) ℝ) (T : Fin N → Lip.Pt m) (j : Fin N) (x : Lip.Pt m) :
    MeetsRows (psCell asort L T j) x ↔ ∀ k ∈ neighborsOf (asort fun k => ∑ a, L.mulVec (T k) a) j,
      Lip.nrm (L.mulVec x - L.mulVec (T j)) ≤ Lip.nrm (L.mulVec x - L.mulVec (T k)) := by
  unfold MeetsRows psCell
  simp only [List.forall_mem_map, psRow_iff]

theorem nrm_one (v : Lip.Pt 1) : Lip.nrm v = |v 0| := by
  unfold Lip.nrm
  simp [dotProduct, Real.sqrt_mul_self_eq_abs]

/-- With distinct targets the rows of the neighbors describe the whole Voronoi cell. -/
theorem cell_nearest {asort : (Fin N → ℝ) → Equiv.Perm (Fin N)} (hs : Sorts asort) (L : Matrix (Fin 1) (Fin m) ℝ) (T : Fin N → Lip.Pt m)
    (hinj : Function.Injective fun k => L.mulVec (T k)) (j : Fin N) (x : Lip.Pt m) :
    MeetsRows (psCell asort L T j) x ↔ ∀ k, Lip.nrm (L.mulVec x - L.mulVec (T j)) ≤ Lip.nrm (L.mulVec x - L.mulVec (T k)) := by
  rw [meets_cell]
  simp only [nrm_one, Pi.sub_apply, Fin.sum_univ_one]
  have hi : Function.Injective fun k => L.mulVec (T k) 0 := fun a b h => hinj (funext fun i => by rw [Subsingleton.elim i 0]; exact h)
  refine neighbors_nearest (fun k => L.mulVec (T k) 0) _ ?_ _ j
  exact (hs _).strictMono_of_injective (hi.comp (Equiv.injective _))

/-- When a metric passes the checks its targets are points of the domain with distinct projections, and the rows are those of the cells. -/
theorem metric_ok_iff {asort : (Fin N → ℝ) → Equiv.Perm (Fin N)} (hs : Sorts asort) (D : Set (Lip.Pt m)) {r : ℕ} (L : Matrix (Fin r) (Fin m) ℝ)
    (T : Fin N → Lip.Pt m) : psMetric asort D L T = none ↔ r = 1 ∧ N ≠ 1 ∧ (∀ j, T j ∈ D) ∧ Function.Injective fun k => L.mulVec (T k) := by
  unfold psMetric
  by_cases hr : r = 1
  · subst hr
    by_cases hN : N = 1
    · simp [hN]
    · rw [if_neg (by simp), if_neg hN]
      constructor
      · intro h
        split at h
        · rename_i hc
          refine ⟨rfl, hN, fun j => (hc j).1.1, fun j k hjk => ?_⟩
          obtain ⟨a, ha⟩ := Finset.card_eq_one.1 (hc j).2
          have mj : j ∈ Finset.univ.filter fun k => T k ∈ D ∧ MeetsRows (psCell asort L T j) (T k) := by simpa using (hc j).1
          have mk : k ∈ Finset.univ.filter fun k => T k ∈ D ∧ MeetsRows (psCell asort L T j) (T k) := by
            simp only [Finset.mem_filter, Finset.mem_univ, true_and]
            refine ⟨(hc k).1.1, ?_⟩
            have := (hc j).1.2
            rw [meets_cell] at this ⊢
            simp only at hjk
            rw [← hjk]; exact this
          rw [ha, Finset.mem_singleton] at mj mk
          rw [mj, mk]
        · cases h
      · rintro ⟨-, -, hD, hi⟩
        rw [if_pos]
        intro j
        have hself : MeetsRows (psCell asort L T j) (T j) := by
          rw [cell_nearest hs L T hi]
          intro k; rw [sub_self, Lip.nrm_zero]; exact Lip.nrm_nonneg _
        refine ⟨⟨hD j, hself⟩, Finset.card_eq_one.2 ⟨j, ?_⟩⟩
        ext k
        simp only [Finset.mem_filter, Finset.mem_univ, true_and, Finset.mem_singleton]
        constructor
        · rintro ⟨-, h⟩
          rw [cell_nearest hs L T hi] at h
          have := h k
          rw [sub_self, Lip.nrm_zero] at this
          by_contra hne
          have h0 : L.mulVec (T k) - L.mulVec (T j) ≠ 0 := fun h' => hne (hi (sub_eq_zero.1 h'))
          rw [nrm_one] at this
          apply h0
          funext i
          rw [Subsingleton.elim i 0]
          exact abs_nonpos_iff.1 this
        · rintro rfl; exact ⟨hD _, hself⟩
  · simp [hr]

theorem firstErr_ok (l : List (Option Err)) : firstErr l = .ok () ↔ ∀ e ∈ l, e = none := by
  induction l with
  | nil => simp [firstErr]
  | cons a l ih =>
    cases a with
    | none => simp [firstErr, ih]
    | some e => simp [firstErr]

theorem firstErr_error {l : List (Option Err)} {e : Err} (h : firstErr l = .error e) : some e ∈ l := by
  induction l with
  | nil => simp [firstErr] at h
  | cons a l ih =>
    cases a with
    | none => exact List.mem_cons_of_mem _ (ih h)
    | some e' => simp [firstErr] at h; simp [h]

/-- C128: exactly when the checks pass. -/
theorem psSetup_ok_iff {asort : (Fin N → ℝ) → Equiv.Perm (Fin N)} (hs : Sorts asort) (D : Set (Lip.Pt m)) (P : PSIn m (K + 1) N) :
    psSetup asort D P = .ok () ↔ K + 1 ≤ m ∧ N ≠ 1 ∧ ∀ i, P.r i = 1 ∧ (∀ j, P.T i j ∈ D) ∧ Function.Injective fun k => (P.L i).mulVec (P.T i k) := by
  unfold psSetup
  have hall : (∀ e ∈ (List.finRange (K + 1)).map fun i => psMetric asort D (P.L i) (P.T i), e = none) ↔
      N ≠ 1 ∧ ∀ i, P.r i = 1 ∧ (∀ j, P.T i j ∈ D) ∧ Function.Injective fun k => (P.L i).mulVec (P.T i k) := by
    simp only [List.forall_mem_map, List.mem_finRange, true_implies, metric_ok_iff hs]
    exact ⟨fun h => ⟨(h 0).2.1, fun i => ⟨(h i).1, (h i).2.2⟩⟩, fun h i => ⟨(h.2 i).1, h.1, (h.2 i).2⟩⟩
  split
  · rename_i hlt
    simp only [reduceCtorEq, false_iff]
    rintro ⟨h1, _, h2⟩
    rw [Finset.sum_congr rfl fun i _ => (h2 i).1] at hlt
    simp at hlt; omega
  · rename_i hlt
    rw [firstErr_ok, hall]
    refine ⟨fun h => ⟨?_, h⟩, fun h => h.2⟩
    rw [Finset.sum_congr rfl fun i _ => (h.2 i).1] at hlt
    simp at hlt; omega

theorem meets_rows_iff {asort : (Fin N → ℝ) → Equiv.Perm (Fin N)} (hs : Sorts asort) {P : PSIn m K N} (h : ∀ i, P.r i = 1 ∧ Function.Injective fun k => (P.L i).mulVec (P.T i k))
    (c : Fin K → Fin N) (x : Lip.Pt m) : MeetsRows (psRows asort P c) x ↔ InCell P.proj c x := by
  have gen : ∀ {r : ℕ} (L : Matrix (Fin r) (Fin m) ℝ) (T : Fin N → Lip.Pt m), r = 1 → Function.Injective (fun k => L.mulVec (T k)) → ∀ j,
      (MeetsRows (psCell asort L T j) x ↔ ∀ k, Lip.nrm (L.mulVec x - L.mulVec (T j)) ≤ Lip.nrm (L.mulVec x - L.mulVec (T k))) := by
    intro r L T hr hi j
    subst hr
    exact cell_nearest hs L T hi j x
  unfold InCell PSIn.proj
  simp only
  rw [← forall_congr' fun i => gen (P.L i) (P.T i) (h i).1 (h i).2 (c i)]
  unfold MeetsRows psRows
  simp only [List.mem_flatMap, List.mem_finRange, true_and]
  exact ⟨fun h i r hr => h r ⟨i, hr⟩, fun h r ⟨i, hr⟩ => h i r hr⟩

/-! ## Refinement -/

theorem psSweeps_mem (S : Fin N → Set (Lip.Pt m)) (v : Fin N → (Fin N → Lip.Pt m) → Lip.Pt m) (hv : ∀ i X, v i X ∈ S i) (n : ℕ) (X : Fin N → Lip.Pt m)
    (hX : ∀ i, X i ∈ S i) : ∀ i, psSweeps v n X i ∈ S i := by
  have hfold : ∀ (l : List (Fin N)) (s : (Fin N → Lip.Pt m) × ℝ), (∀ i, s.1 i ∈ S i) → ∀ i, (l.foldl (psMove v) s).1 i ∈ S i := by
    intro l
    induction l with
    | nil => exact fun s h => h
    | cons a l ih =>
      intro s h
      refine ih _ fun i => ?_
      unfold psMove
      by_cases e : i = a
      · subst e; simp only [Function.update_self]; exact hv _ _
      · simp only [Function.update_of_ne e]; exact h i
  induction n generalizing X with
  | zero => exact hX
  | succ n ih =>
    intro i
    unfold psSweeps
    dsimp only
    split
    · exact hfold _ _ hX i
    · exact ih _ (hfold _ _ hX) i

theorem psRefine_mem {D : Set (Lip.Pt m)} {asort : (Fin N → ℝ) → Equiv.Perm (Fin N)} {P : PSIn m K N} {O : PSOracles m K N} (hO : Refiner D asort P O)
    (d : Fin N → Fin K → Fin N) (X : Fin N → Lip.Pt m) (hX : ∀ j, X j ∈ D ∧ MeetsRows (psRows asort P (d j)) (X j)) (j : Fin N) :
    psRefine O P d X j ∈ D ∧ MeetsRows (psRows asort P (d j)) (psRefine O P d X j) ∧ ∀ i, (P.L i).mulVec (psRefine O P d X j) = (P.L i).mulVec (X j) := by
  unfold psRefine
  split
  · exact psSweeps_mem (fun j => {z | z ∈ D ∧ MeetsRows (psRows asort P (d j)) z ∧ ∀ i, (P.L i).mulVec z = (P.L i).mulVec (X j)}) _
      (fun i Y => (hO d X hX i).2 Y) _ _ (fun i => (hO d X hX i).1) j
  · exact ⟨(hX j).1, (hX j).2, fun _ => rfl⟩

/-! ## The loop -/

/-- The facts about projections established by the checks. -/
structure Checked (P : PSIn m K N) : Prop where
  one : ∀ i, P.r i = 1
  inj : ∀ i, Function.Injective fun k => (P.L i).mulVec (P.T i k)

theorem Checked.rows {asort : (Fin N → ℝ) → Equiv.Perm (Fin N)} (hs : Sorts asort) {P : PSIn m K N} (h : Checked P) (c : Fin K → Fin N) (x : Lip.Pt m) :
    MeetsRows (psRows asort P c) x ↔ InCell P.proj c x := meets_rows_iff hs (fun i => ⟨h.one i, h.inj i⟩) c x

theorem psPoint_none {D : Set (Lip.Pt m)} {asort : (Fin N → ℝ) → Equiv.Perm (Fin N)} (hs : Sorts asort) {P : PSIn m K N} (hP : Checked P) {O : PSOracles m K N}
    (hO : CellSolver D O.cls) (c : Fin K → Fin N) : psPoint O asort P c = none ↔ EmptyCell D P.proj c := by
  unfold EmptyCell
  simp only [← hP.rows hs]
  refine ⟨fun h => (hO _ _).2 h, fun h => ?_⟩
  by_contra hne
  obtain ⟨x, hx⟩ := Option.ne_none_iff_exists'.1 hne
  exact h ⟨x, (hO _ _).1 x hx⟩

structure PSInv (D : Set (Lip.Pt m)) (P : PSIn m (K + 1) N) (s : PSState m N) : Prop where
  clauses : ∃ cells : List (Fin (K + 1) → Fin N), s.clauses = blockedCnf N (K + 1) cells ∧ ∀ c ∈ cells, EmptyCell D P.proj c
  seen : ∀ σ ∈ s.seen, ∃ π : Fin (K + 1) → Equiv.Perm (Fin N), π 0 = 1 ∧ Represents N (K + 1) σ π ∧ (s.X = none → ∃ j, EmptyCell D P.proj fun i => π i j)
  distinct : s.seen.Pairwise fun σ τ => ¬ SameOn ((K + 1) * N ^ 2) τ σ
  X : (s.X = none ∧ s.it = 0 ∧ s.best = List.replicate N 0 ∧ s.asm = none) ∨
    ∃ X, s.X = some X ∧ IsProjDesign D P.proj X ∧ s.best = score X ∧ tupleLt (List.replicate N 0) (score X) ∧ s.asm.isSome

theorem psInv_init (D : Set (Lip.Pt m)) (P : PSIn m (K + 1) N) : PSInv D P (psInit m (K + 1) N) where
  clauses := ⟨[], by simp [psInit, blockedCnf], by simp⟩
  seen := by simp [psInit]
  distinct := by simp [psInit]
  X := Or.inl ⟨rfl, rfl, rfl, rfl⟩

theorem psNext_some {n : ℕ} {sat : SatSolver} (hsat : SatSpec n sat) (s : PSState m N) {σ : Assign} (h : psNext sat s = some σ) :
    cnfSat σ s.clauses ∧ ∀ τ ∈ s.seen, ¬ SameOn n σ τ := by
  unfold psNext at h
  split at h
  · rename_i τ hτ
    obtain rfl := Option.some.inj h
    have := (hsat _ _ _).1 _ hτ
    exact ⟨this.1, this.2.2⟩
  · have := (hsat _ _ _).1 _ h
    exact ⟨this.1, this.2.2⟩

theorem psNext_none {n : ℕ} {sat : SatSolver} (hsat : SatSpec n sat) (s : PSState m N) (h : psNext sat s = none) :
    ∀ σ, cnfSat σ s.clauses → ∃ τ ∈ s.seen, SameOn n σ τ := by
  unfold psNext at h
  split at h
  · cases h
  · exact fun σ hσ => (hsat _ _ _).2 h σ hσ (by simp)

theorem psBlock_cells {D : Set (Lip.Pt m)} {asort : (Fin N → ℝ) → Equiv.Perm (Fin N)} (hs : Sorts asort) {P : PSIn m K N} (hP : Checked P) {O : PSOracles m K N}
    (hO : CellSolver D O.cls) (d : Fin N → Fin K → Fin N) :
    ∃ more : List (Fin K → Fin N), psBlock O asort P d = more.flatMap cellBlock ∧ ∀ c ∈ more, EmptyCell D P.proj c := by
  refine ⟨_, rfl, fun c hc => ?_⟩
  simp only [List.mem_map, List.mem_filter, List.mem_finRange, true_and, Option.isNone_iff_eq_none] at hc
  obtain ⟨j, hj, rfl⟩ := hc
  exact (psPoint_none hs hP hO _).1 hj

/-- The outcome of one pass. -/
theorem psStep_cases {D : Set (Lip.Pt m)} {asort : (Fin N → ℝ) → Equiv.Perm (Fin N)} (hs : Sorts asort) {P : PSIn m (K + 1) N} (hP : Checked P)
    {O : PSOracles m (K + 1) N} (hO : O.Spec D asort P) {s : PSState m N} (hi : PSInv D P s) {σ : Assign} (hn : psNext O.sat s = some σ) :
    (∃ s', psStep O asort P s σ = .ok s' ∧ PSInv D P s' ∧ s'.seen = s.seen ++ [σ]) ∨
    (psStep O asort P s σ = .error .nameError ∧ ∃ X, IsProjDesign D P.proj X ∧ ¬ tupleLt (List.replicate N 0) (score X)) := by
  obtain ⟨hsat, hnew⟩ := psNext_some hO.sat s hn
  obtain ⟨cells, ec, hce⟩ := hi.clauses
  rw [ec] at hsat
  obtain ⟨π, h0, hr⟩ := sat_design hsat
  have hdist : (s.seen ++ [σ]).Pairwise fun σ τ => ¬ SameOn ((K + 1) * N ^ 2) τ σ := by
    rw [List.pairwise_append]
    refine ⟨hi.distinct, by simp, fun a ha b hb => ?_⟩
    simp only [List.mem_singleton] at hb
    subst hb
    exact hnew a ha
  have hcl : ∃ cells : List (Fin (K + 1) → Fin N), s.clauses ++ psBlock O asort P (fun j k => π k j) = blockedCnf N (K + 1) cells ∧ ∀ c ∈ cells, EmptyCell D P.proj c := by
    obtain ⟨more, em, hm⟩ := psBlock_cells hs hP hO.cls fun j k => π k j
    refine ⟨cells ++ more, by rw [ec, em, blockedCnf_append], fun c hc => ?_⟩
    rcases List.mem_append.1 hc with h | h
    · exact hce c h
    · exact hm c h
  have hseen : ∀ τ ∈ s.seen ++ [σ], ∃ ρ : Fin (K + 1) → Equiv.Perm (Fin N), ρ 0 = 1 ∧ Represents N (K + 1) τ ρ := by
    intro τ hτ
    rcases List.mem_append.1 hτ with h | h
    · obtain ⟨ρ, h1, h2, _⟩ := hi.seen τ h; exact ⟨ρ, h1, h2⟩
    · simp only [List.mem_singleton] at h; subst h; exact ⟨π, h0, hr⟩
  unfold psStep
  rw [designOf_eq σ π hr]
  dsimp only
  by_cases h : ∀ j, (psPoint O asort P fun k => π k j).isSome
  · rw [dif_pos h]
    set X0 : Fin N → Lip.Pt m := fun j => (psPoint O asort P fun k => π k j).get (h j) with hX0
    have hX0m : ∀ j, X0 j ∈ D ∧ MeetsRows (psRows asort P fun k => π k j) (X0 j) := fun j => (hO.cls _ _).1 _ (Option.some_get (h j)).symm
    set Y := psRefine O P (fun j k => π k j) X0 with hY
    have hYd : IsProjDesign D P.proj Y :=
      ⟨π, h0, fun j => ⟨(psRefine_mem hO.refine (fun j k => π k j) X0 hX0m j).1, (hP.rows hs _ _).1 (psRefine_mem hO.refine (fun j k => π k j) X0 hX0m j).2.1⟩⟩
    unfold psScore
    dsimp only
    by_cases ht : tupleLt s.best (score Y)
    · rw [if_pos ht]
      left
      refine ⟨_, rfl, ⟨hcl, ?_, hdist, Or.inr ⟨Y, rfl, hYd, rfl, ?_, rfl⟩⟩, rfl⟩
      · intro τ hτ
        obtain ⟨ρ, h1, h2⟩ := hseen τ hτ
        exact ⟨ρ, h1, h2, fun e => by cases e⟩
      · rcases hi.X with ⟨_, _, e, _⟩ | ⟨Z, _, _, e, hz, _⟩
        · rw [← e]; exact ht
        · rw [e] at ht; exact tupleLt_trans hz ht
    · rw [if_neg ht]
      rcases hi.X with ⟨_, _, e, ea⟩ | ⟨Z, eZ, hZ, e, hz, ea⟩
      · right
        rw [ea]
        exact ⟨rfl, Y, hYd, by rw [← e]; exact ht⟩
      · left
        obtain ⟨a, ha⟩ := Option.isSome_iff_exists.1 ea
        rw [ha]
        refine ⟨_, rfl, ⟨hcl, ?_, hdist, Or.inr ⟨Z, eZ, hZ, e, hz, by simp [ha]⟩⟩, rfl⟩
        intro τ hτ
        obtain ⟨ρ, h1, h2⟩ := hseen τ hτ
        exact ⟨ρ, h1, h2, fun e' => by rw [eZ] at e'; cases e'⟩
  · rw [dif_neg h]
    left
    refine ⟨_, rfl, ⟨hcl, ?_, hdist, hi.X⟩, rfl⟩
    intro τ hτ
    rcases List.mem_append.1 hτ with h' | h'
    · exact hi.seen τ h'
    · simp only [List.mem_singleton] at h'
      subst h'
      refine ⟨π, h0, hr, fun _ => ?_⟩
      push Not at h
      obtain ⟨j, hj⟩ := h
      exact ⟨j, (psPoint_none hs hP hO.cls _).1 (by simpa using hj)⟩

/-- At most `2 ^ n` different solutions. -/
theorem distinct_length {n : ℕ} {l : List Assign} (h : l.Pairwise fun σ τ => ¬ SameOn n τ σ) : l.length ≤ 2 ^ n := by
  have hn : (l.map fun σ => fun v : Fin n => σ (v + 1)).Nodup := by
    rw [List.nodup_iff_pairwise_ne, List.pairwise_map]
    refine h.imp fun {σ τ} hne e => hne fun v hv => ?_
    exact (congrFun e ⟨v, hv⟩).symm
  have := hn.length_le_card
  simpa using this

/-- How the loop ends. -/
theorem psRun_cases {D : Set (Lip.Pt m)} {asort : (Fin N → ℝ) → Equiv.Perm (Fin N)} (hs : Sorts asort) {P : PSIn m (K + 1) N} (hP : Checked P)
    {O : PSOracles m (K + 1) N} (hO : O.Spec D asort P) (maxiter fuel : ℕ) (s : PSState m N) (hi : PSInv D P s) :
    (psRun O asort P maxiter fuel s = .ok none ∧ s.seen.length + fuel ≤ 2 ^ ((K + 1) * N ^ 2)) ∨
    (psRun O asort P maxiter fuel s = .error .nameError ∧ ∃ X, IsProjDesign D P.proj X ∧ ¬ tupleLt (List.replicate N 0) (score X)) ∨
    ∃ s', psRun O asort P maxiter fuel s = .ok (some s') ∧ PSInv D P s' ∧ (psNext O.sat s' = none ∨ maxiter ≤ s'.it) := by
  induction fuel generalizing s with
  | zero => exact Or.inl ⟨rfl, distinct_length hi.distinct⟩
  | succ n ih =>
    unfold psRun
    cases hn : psNext O.sat s with
    | none => exact Or.inr (Or.inr ⟨s, rfl, hi, Or.inl hn⟩)
    | some σ =>
      dsimp only
      rcases psStep_cases hs hP hO hi hn with ⟨s', e, hi', hl⟩ | ⟨e, hX⟩
      · rw [e]
        dsimp only
        by_cases hm : maxiter ≤ s'.it
        · rw [if_pos hm]; exact Or.inr (Or.inr ⟨s', rfl, hi', Or.inr hm⟩)
        · rw [if_neg hm]
          rcases ih s' hi' with ⟨h1, h2⟩ | h | h
          · refine Or.inl ⟨h1, ?_⟩
            rw [hl] at h2
            simp at h2
            omega
          · exact Or.inr (Or.inl h)
          · exact Or.inr (Or.inr h)
      · rw [e]; exact Or.inr (Or.inl ⟨rfl, hX⟩)

theorem psSetup_checked {asort : (Fin N → ℝ) → Equiv.Perm (Fin N)} (hs : Sorts asort) {D : Set (Lip.Pt m)} {P : PSIn m (K + 1) N} (h : psSetup asort D P = .ok ()) :
    Checked P := by
  obtain ⟨_, _, h⟩ := (psSetup_ok_iff hs D P).1 h
  exact ⟨fun i => (h i).1, fun i => (h i).2.2⟩

/-! ## Theorems -/

/-- C128: every sample returned is a design of the domain with respect to all the projections. -/
theorem psample_cells {D : Set (Lip.Pt m)} {asort : (Fin N → ℝ) → Equiv.Perm (Fin N)} (hs : Sorts asort) {P : PSIn m (K + 1) N} {O : PSOracles m (K + 1) N}
    (hO : O.Spec D asort P) (maxiter fuel : ℕ) {X : Fin N → Lip.Pt m} (h : projectionSample O asort D P maxiter fuel = .ok (some (some X))) :
    IsProjDesign D P.proj X := by
  unfold projectionSample at h
  cases hsu : psSetup asort D P with
  | error e => rw [hsu] at h; cases h
  | ok u =>
    rw [hsu] at h
    rcases psRun_cases hs (psSetup_checked hs hsu) hO maxiter fuel _ (psInv_init D P) with ⟨e, _⟩ | ⟨e, _⟩ | ⟨s', e, hi, _⟩
    · rw [e] at h; cases h
    · rw [e] at h; cases h
    · rw [e] at h
      simp only [Except.ok.injEq, Option.some.injEq] at h
      rcases hi.X with ⟨e', _⟩ | ⟨Y, e', hY, _⟩
      · rw [e'] at h; cases h
      · rw [e'] at h; obtain rfl := Option.some.inj h; exact hY

/-- C128: `None` is returned only if there is no such design. -/
theorem psample_none {D : Set (Lip.Pt m)} {asort : (Fin N → ℝ) → Equiv.Perm (Fin N)} (hs : Sorts asort) {P : PSIn m (K + 1) N} {O : PSOracles m (K + 1) N}
    (hO : O.Spec D asort P) {maxiter : ℕ} (hmax : 1 ≤ maxiter) (fuel : ℕ) (h : projectionSample O asort D P maxiter fuel = .ok (some none)) :
    ¬ ∃ X, IsProjDesign D P.proj X := by
  rintro ⟨X, π, h0, hX⟩
  unfold projectionSample at h
  cases hsu : psSetup asort D P with
  | error e => rw [hsu] at h; cases h
  | ok u =>
    rw [hsu] at h
    rcases psRun_cases hs (psSetup_checked hs hsu) hO maxiter fuel _ (psInv_init D P) with ⟨e, _⟩ | ⟨e, _⟩ | ⟨s', e, hi, hend⟩
    · rw [e] at h; cases h
    · rw [e] at h; cases h
    · rw [e] at h
      simp only [Except.ok.injEq, Option.some.injEq] at h
      rcases hi.X with ⟨_, hit, _⟩ | ⟨Y, e', _⟩
      · rcases hend with hend | hend
        · obtain ⟨cells, ec, hce⟩ := hi.clauses
          obtain ⟨τ, _, hr⟩ := design_satisfiable N K π h0
          have hb : cnfSat τ (blockedCnf N (K + 1) cells) := by
            refine (blocked_exact N K cells τ).2 ⟨π, h0, hr, ?_⟩
            rintro c hcm ⟨o, ho⟩
            apply hce c hcm
            refine ⟨X o, (hX o).1, ?_⟩
            have := (hX o).2
            rwa [show (fun i => π i o) = c from funext ho] at this
          obtain ⟨σ, hσ, hsame⟩ := psNext_none hO.sat s' hend τ (by rw [ec]; exact hb)
          have hrσ := represents_sameOn (fun v hv => (hsame v hv).symm) hr
          obtain ⟨ρ, _, rr, hemp⟩ := hi.seen σ hσ
          have : ρ = π := by
            funext k
            ext o
            have := (rr k o (ρ k o)).2 rfl
            rw [(hrσ k o (ρ k o)).1 this]
          subst this
          obtain ⟨j, hj⟩ := hemp h
          exact hj ⟨X j, (hX j).1, (hX j).2⟩
        · omega
      · rw [e'] at h; cases h

/-- C128: the search ends, within a number of passes depending only on the sizes. -/
theorem psample_terminates {D : Set (Lip.Pt m)} {asort : (Fin N → ℝ) → Equiv.Perm (Fin N)} (hs : Sorts asort) {P : PSIn m (K + 1) N} {O : PSOracles m (K + 1) N}
    (hO : O.Spec D asort P) (maxiter : ℕ) {fuel : ℕ} (hf : 2 ^ ((K + 1) * N ^ 2) < fuel) : projectionSample O asort D P maxiter fuel ≠ .ok none := by
  unfold projectionSample
  cases hsu : psSetup asort D P with
  | error e => simp
  | ok u =>
    dsimp only
    rcases psRun_cases hs (psSetup_checked hs hsu) hO maxiter fuel _ (psInv_init D P) with ⟨_, h⟩ | ⟨e, _⟩ | ⟨s', e, _⟩
    · omega
    · rw [e]; simp
    · rw [e]; simp

/-- C128: after the checks the only exception is that of the unbound name, and then there is a design two of whose points coincide. -/
theorem psample_error {D : Set (Lip.Pt m)} {asort : (Fin N → ℝ) → Equiv.Perm (Fin N)} (hs : Sorts asort) {P : PSIn m (K + 1) N} {O : PSOracles m (K + 1) N}
    (hO : O.Spec D asort P) (maxiter fuel : ℕ) (hN : 2 ≤ N) (hsu : psSetup asort D P = .ok ()) {e : Err} (h : projectionSample O asort D P maxiter fuel = .error e) :
    e = .nameError ∧ ∃ X, IsProjDesign D P.proj X ∧ ∃ a b, a ≠ b ∧ X a = X b := by
  unfold projectionSample at h
  rw [hsu] at h
  dsimp only at h
  rcases psRun_cases hs (psSetup_checked hs hsu) hO maxiter fuel _ (psInv_init D P) with ⟨e', _⟩ | ⟨e', X, hX, ht⟩ | ⟨s', e', _⟩
  · rw [e'] at h; cases h
  · rw [e'] at h
    injection h with h
    refine ⟨h.symm, X, hX, ?_⟩
    by_contra hne
    push Not at hne
    exact ht (tupleLt_zero (by omega) (by simp [score]) (score_pos hN hne))
  · rw [e'] at h; cases h

/-- C128: if there is a design, and no design has coinciding points, a design is returned. -/
theorem psample_some {D : Set (Lip.Pt m)} {asort : (Fin N → ℝ) → Equiv.Perm (Fin N)} (hs : Sorts asort) {P : PSIn m (K + 1) N} {O : PSOracles m (K + 1) N}
    (hO : O.Spec D asort P) {maxiter : ℕ} (hmax : 1 ≤ maxiter) {fuel : ℕ} (hf : 2 ^ ((K + 1) * N ^ 2) < fuel) (hN : 2 ≤ N) (hsu : psSetup asort D P = .ok ())
    (hex : ∃ X, IsProjDesign D P.proj X) (hdis : ∀ X, IsProjDesign D P.proj X → Function.Injective X) :
    ∃ X, projectionSample O asort D P maxiter fuel = .ok (some (some X)) := by
  rcases hr : projectionSample O asort D P maxiter fuel with e | r
  · obtain ⟨_, X, hX, a, b, hab, heq⟩ := psample_error hs hO maxiter fuel hN hsu hr
    exact absurd (hdis X hX heq) hab
  · rcases r with _ | r
    · exact absurd hr (psample_terminates hs hO maxiter hf)
    · rcases r with _ | X
      · exact absurd hex (psample_none hs hO hmax fuel hr)
      · exact ⟨X, rfl⟩

/-! ## Which calls get that far -/

/-- C128, where the code fails: a projection to more than one dimension ends with a `NameError`, `Delaunay` is not imported. -/
theorem psample_planar (asort : (Fin N → ℝ) → Equiv.Perm (Fin N)) (D : Set (Lip.Pt m)) (P : PSIn m (K + 1) N) (O : PSOracles m (K + 1) N) (maxiter fuel : ℕ)
    (hm : ∑ i, P.r i ≤ m) (h0 : 2 ≤ P.r 0) : projectionSample O asort D P maxiter fuel = .error .nameError := by
  have : psSetup asort D P = .error .nameError := by
    unfold psSetup
    rw [if_neg (by omega), List.finRange_succ, List.map_cons]
    unfold psMetric
    rw [if_pos (by omega)]
    rfl
  unfold projectionSample
  rw [this]

/-- C128, where the code fails: one sample can not be asked for. -/
theorem psample_single (asort : (Fin 1 → ℝ) → Equiv.Perm (Fin 1)) (D : Set (Lip.Pt m)) (P : PSIn m (K + 1) 1) (O : PSOracles m (K + 1) 1) (maxiter fuel : ℕ)
    (hm : ∑ i, P.r i ≤ m) (h0 : P.r 0 = 1) : projectionSample O asort D P maxiter fuel = .error .indexError := by
  have : psSetup asort D P = .error .indexError := by
    unfold psSetup
    rw [if_neg (by omega), List.finRange_succ, List.map_cons]
    unfold psMetric
    rw [if_neg (by omega), if_pos rfl]
    rfl
  unfold projectionSample
  rw [this]

/-- C128: too many rows are refused. -/
theorem psample_rows (asort : (Fin N → ℝ) → Equiv.Perm (Fin N)) (D : Set (Lip.Pt m)) (P : PSIn m K N) (O : PSOracles m K N) (maxiter fuel : ℕ)
    (hm : m < ∑ i, P.r i) : projectionSample O asort D P maxiter fuel = .error .valueError := by
  have : psSetup asort D P = .error .valueError := by
    unfold psSetup; rw [if_pos hm]
  unfold projectionSample
  rw [this]

/-! ## Latin hypercube designs -/

/-- The middle of piece `k` of the extent of coordinate `i`, on the coordinate axis. -/
noncomputable def axisMid (lo hi : Fin m → ℝ) (N : ℕ) (i : Fin m) (k : Fin N) : Lip.Pt m := Pi.single i (lo i + ((k : ℕ) + 1 / 2) * ((hi i - lo i) / N))

theorem lhsTargets_eq {D : Set (Lip.Pt m)} {corner : Lip.Pt m → Lip.Pt m} (hc : CornersOf D corner) {lo hi : Fin m → ℝ} (he : Extent D lo hi) (N : ℕ) (i : Fin m)
    (k : Fin N) : lhsTargets corner N (Pi.single i 1) k = axisMid lo hi N i k := by
  have h1 : corner (Pi.single i 1) i = hi i := by
    obtain ⟨hD, hmax⟩ := hc (Pi.single i 1)
    obtain ⟨⟨x, hx, ex⟩, hub⟩ := (he i).2
    have := hmax x hx
    simp only [single_one_dotProduct] at this
    have h2 := hub ⟨_, hD, rfl⟩
    simp only at ex h2
    linarith
  have h2 : corner (-Pi.single i 1) i = lo i := by
    obtain ⟨hD, hmax⟩ := hc (-Pi.single i 1)
    obtain ⟨⟨x, hx, ex⟩, hlb⟩ := (he i).1
    have := hmax x hx
    simp only [neg_dotProduct, single_one_dotProduct] at this
    have h2 := hlb ⟨_, hD, rfl⟩
    simp only at ex h2
    linarith
  have hle : lo i ≤ hi i := by
    obtain ⟨x, hx, ex⟩ := (he i).1.1
    rw [← ex]
    exact (he i).2.2 ⟨x, hx, rfl⟩
  unfold lhsTargets lhsMid axisMid
  simp only [single_one_dotProduct, h1, h2, min_eq_right hle, max_eq_left hle]
  rw [← Pi.single_smul, smul_eq_mul, mul_one]
  congr 1
  ring

theorem lhs_mulVec (corner : Lip.Pt m → Lip.Pt m) (N : ℕ) (i : Fin m) (x : Lip.Pt m) : ((lhsIn corner N).L i).mulVec x = fun _ => x i := by
  funext a
  show (Pi.single i (1 : ℝ) : Lip.Pt m) ⬝ᵥ x = x i
  exact single_one_dotProduct i x

/-- C128: the search for a Latin hypercube design starts exactly if the middles of all pieces on the coordinate axes are in the domain (and the domain is not flat in
a coordinate). -/
theorem lhs_setup_iff {asort : (Fin N → ℝ) → Equiv.Perm (Fin N)} (hs : Sorts asort) {D : Set (Lip.Pt (m + 1))} {corner : Lip.Pt (m + 1) → Lip.Pt (m + 1)}
    (hc : CornersOf D corner) {lo hi : Fin (m + 1) → ℝ} (he : Extent D lo hi) (hN : 2 ≤ N) :
    psSetup asort D (lhsIn corner N) = .ok () ↔ (∀ i k, axisMid lo hi N i k ∈ D) ∧ ∀ i, lo i < hi i := by
  rw [psSetup_ok_iff hs]
  have hNp : (0 : ℝ) < N := by exact_mod_cast (by omega : 0 < N)
  have hval : ∀ i (k : Fin N), ((lhsIn corner N).L i).mulVec ((lhsIn corner N).T i k) = fun _ => lo i + ((k : ℕ) + 1 / 2) * ((hi i - lo i) / N) := by
    intro i k
    rw [lhs_mulVec]
    show (fun _ => lhsTargets corner N (Pi.single i 1) k i) = _
    rw [lhsTargets_eq hc he]
    simp [axisMid]
  have hT : ∀ i (k : Fin N), (lhsIn corner N).T i k = axisMid lo hi N i k := fun i k => lhsTargets_eq hc he N i k
  simp only [hT]
  constructor
  · rintro ⟨_, _, h⟩
    refine ⟨fun i k => (h i).2.1 k, fun i => ?_⟩
    have hle : lo i ≤ hi i := by
      obtain ⟨x, hx, ex⟩ := (he i).1.1
      rw [← ex]
      exact (he i).2.2 ⟨x, hx, rfl⟩
    refine lt_of_le_of_ne hle fun e => ?_
    have := @(h i).2.2 ⟨0, by omega⟩ ⟨1, by omega⟩ (by
      simp only [← hT, hval, e, sub_self, zero_div, mul_zero])
    simp at this
  · rintro ⟨h1, h2⟩
    refine ⟨le_refl _, by omega, fun i => ⟨rfl, h1 i, fun a b hab => ?_⟩⟩
    simp only [← hT, hval] at hab
    have hz := congrFun hab ⟨0, by show 0 < 1; omega⟩
    have hw : 0 < (hi i - lo i) / N := div_pos (by linarith [h2 i]) hNp
    have : ((a : ℕ) : ℝ) = (b : ℕ) := by
      have := mul_right_cancel₀ hw.ne' (add_left_cancel hz)
      linarith
    exact Fin.ext (by exact_mod_cast this)

/-- C128, where the code fails: otherwise an `AssertionError` is raised, whatever Latin hypercube designs the domain has. -/
theorem lhs_assertion {asort : (Fin N → ℝ) → Equiv.Perm (Fin N)} (hs : Sorts asort) {D : Set (Lip.Pt (m + 1))} {corner : Lip.Pt (m + 1) → Lip.Pt (m + 1)}
    (hc : CornersOf D corner) {lo hi : Fin (m + 1) → ℝ} (he : Extent D lo hi) (hN : 2 ≤ N) (O : PSOracles (m + 1) (m + 1) N) (maxiter fuel : ℕ)
    {i : Fin (m + 1)} {k : Fin N} (hout : axisMid lo hi N i k ∉ D) : projectionSample O asort D (lhsIn corner N) maxiter fuel = .error .assertion := by
  have hne : psSetup asort D (lhsIn corner N) ≠ .ok () := fun h => hout (((lhs_setup_iff hs hc he hN).1 h).1 i k)
  have : psSetup asort D (lhsIn corner N) = .error .assertion := by
    rcases hsu : psSetup asort D (lhsIn corner N) with e | u
    · unfold psSetup at hsu
      rw [if_neg (by simp [lhsIn])] at hsu
      have := firstErr_error hsu
      obtain ⟨i, _, hi⟩ := List.mem_map.1 this
      unfold psMetric at hi
      rw [if_neg (by simp [lhsIn]), if_neg (by omega)] at hi
      split at hi
      · cases hi
      · rw [← Option.some.inj hi]
    · exact absurd hsu hne
  unfold projectionSample
  rw [this]

/-- C128: with `_lhs` every sample returned is a Latin hypercube design of the domain. -/
theorem psample_latin {asort : (Fin N → ℝ) → Equiv.Perm (Fin N)} (hs : Sorts asort) {D : Set (Lip.Pt (m + 1))} {corner : Lip.Pt (m + 1) → Lip.Pt (m + 1)}
    (hc : CornersOf D corner) {lo hi : Fin (m + 1) → ℝ} (he : Extent D lo hi) {O : PSOracles (m + 1) (m + 1) N}
    (hO : O.Spec D asort (lhsIn corner N)) (maxiter fuel : ℕ) {X : Fin N → Lip.Pt (m + 1)}
    (h : projectionSample O asort D (lhsIn corner N) maxiter fuel = .ok (some (some X))) : IsLatinOf D lo hi X := by
  obtain ⟨π, _, hX⟩ := psample_cells hs hO maxiter fuel h
  refine ⟨fun j => (hX j).1, fun i => ⟨π i, fun j => ?_⟩⟩
  have hNn : 0 < N := lt_of_le_of_lt (Nat.zero_le _) j.2
  have hNp : (0 : ℝ) < N := by exact_mod_cast hNn
  have hlo : lo i ≤ X j i := (he i).1.2 ⟨X j, (hX j).1, rfl⟩
  have hhi : X j i ≤ hi i := (he i).2.2 ⟨X j, (hX j).1, rfl⟩
  set w := (hi i - lo i) / N with hw
  have hw0 : 0 ≤ w := div_nonneg (by linarith) hNp.le
  have hwN : N * w = hi i - lo i := by rw [hw]; field_simp
  have hnear : ∀ k : Fin N, |X j i - (lo i + ((π i j : ℕ) + 1 / 2) * w)| ≤ |X j i - (lo i + ((k : ℕ) + 1 / 2) * w)| := by
    intro k
    have := (hX j).2 i k
    unfold PSIn.proj at this
    simp only [lhs_mulVec] at this
    have e : ∀ (k : Fin N), (lhsIn corner N).T i k i = lo i + ((k : ℕ) + 1 / 2) * w := fun k => by
      show lhsTargets corner N (Pi.single i 1) k i = _
      rw [lhsTargets_eq hc he]; simp [axisMid, hw]
    rw [e, e] at this
    have e1 : ∀ a b : ℝ, Lip.nrm ((fun _ => a : Lip.Pt 1) - fun _ => b) = |a - b| := fun a b => by rw [nrm_one]; rfl
    exact (e1 _ _).symm.le.trans (le_trans this (e1 _ _).le)
  have hp := (π i j).2
  generalize hpe : ((π i j : Fin N) : ℕ) = p at *
  generalize X j i = x at *
  constructor
  · rcases Nat.eq_zero_or_pos p with h0 | h0
    · subst h0; simpa using hlo
    · have := hnear ⟨p - 1, by omega⟩
      have ec : ((p - 1 : ℕ) : ℝ) = p - 1 := by rw [Nat.cast_sub h0]; simp
      simp only [ec] at this
      rw [← sq_le_sq] at this
      rcases hw0.eq_or_lt with hz | hz
      · rw [← hz]; simpa using hlo
      · have : 0 ≤ w * (2 * (x - (lo i + p * w))) := by nlinarith
        have := (mul_nonneg_iff_of_pos_left hz).1 this
        linarith
  · rcases Nat.lt_or_ge (p + 1) N with h0 | h0
    · have := hnear ⟨p + 1, h0⟩
      simp only [Nat.cast_add, Nat.cast_one] at this
      rw [← sq_le_sq] at this
      rcases hw0.eq_or_lt with hz | hz
      · rw [← hz] at hwN ⊢; simp at hwN; simp; linarith
      · have : 0 ≤ w * (2 * ((lo i + (p + 1) * w) - x)) := by nlinarith
        have := (mul_nonneg_iff_of_pos_left hz).1 this
        linarith
    · have : (N : ℝ) = p + 1 := by exact_mod_cast (by omega : N = p + 1)
      rw [← this, hwN]; linarith

/-! ## Examples -/

/-- The triangle with corners (1, 1), (2, 1), (1, 2). -/
def farTriangle : Set (Lip.Pt 2) := {x | 1 ≤ x 0 ∧ 1 ≤ x 1 ∧ x 0 + x 1 ≤ 3}

theorem farTriangle_extent : Extent farTriangle ![1, 1] ![2, 2] := by
  intro i
  fin_cases i
  · refine ⟨⟨⟨![1, 1], ⟨by norm_num, by norm_num, by norm_num⟩, rfl⟩, ?_⟩, ⟨⟨![2, 1], ⟨by norm_num, by norm_num, by norm_num⟩, rfl⟩, ?_⟩⟩
    · rintro _ ⟨x, hx, rfl⟩; exact hx.1
    · rintro _ ⟨x, ⟨_, h2, h3⟩, rfl⟩; show x 0 ≤ 2; linarith
  · refine ⟨⟨⟨![1, 1], ⟨by norm_num, by norm_num, by norm_num⟩, rfl⟩, ?_⟩, ⟨⟨![1, 2], ⟨by norm_num, by norm_num, by norm_num⟩, rfl⟩, ?_⟩⟩
    · rintro _ ⟨x, hx, rfl⟩; exact hx.2.1
    · rintro _ ⟨x, ⟨h2, _, h3⟩, rfl⟩; show x 1 ≤ 2; linarith

/-- A domain with a Latin hypercube design for which the call fails with an `AssertionError`. -/
theorem lhs_triangle {asort : (Fin 2 → ℝ) → Equiv.Perm (Fin 2)} (hs : Sorts asort) {corner : Lip.Pt 2 → Lip.Pt 2} (hc : CornersOf farTriangle corner)
    (O : PSOracles 2 2 2) (maxiter fuel : ℕ) : projectionSample O asort farTriangle (lhsIn corner 2) maxiter fuel = .error .assertion ∧
      IsLatinOf farTriangle ![1, 1] ![2, 2] ![![1, 2], ![2, 1]] := by
  refine ⟨lhs_assertion hs hc farTriangle_extent (le_refl _) O maxiter fuel (i := 0) (k := 0) ?_, ?_, ?_⟩
  · intro h
    have := h.2.1
    simp [axisMid] at this
    linarith
  · intro j
    fin_cases j
    · exact ⟨by norm_num, by norm_num, by norm_num⟩
    · exact ⟨by norm_num, by norm_num, by norm_num⟩
  · intro i
    fin_cases i
    · refine ⟨1, fun j => ?_⟩
      fin_cases j <;> norm_num
    · refine ⟨Equiv.swap 0 1, fun j => ?_⟩
      fin_cases j <;> norm_num

/-- The square `[-1, 1] ^ 2` passes the checks. -/
example {asort : (Fin 2 → ℝ) → Equiv.Perm (Fin 2)} (hs : Sorts asort) : ∃ (D : Set (Lip.Pt 2)) (corner : Lip.Pt 2 → Lip.Pt 2) (lo hi : Fin 2 → ℝ),
    CornersOf D corner ∧ Extent D lo hi ∧ psSetup asort D (lhsIn corner 2) = .ok () := by
  have hc : CornersOf {x : Lip.Pt 2 | ∀ i, -1 ≤ x i ∧ x i ≤ 1} (fun l i => if 0 ≤ l i then 1 else -1) := by
    intro l
    refine ⟨fun i => ?_, fun x hx => Finset.sum_le_sum fun i _ => ?_⟩
    · dsimp only; split <;> norm_num
    · have := hx i
      dsimp only
      split
      · nlinarith
      · rename_i h; push Not at h; nlinarith
  have he : Extent {x : Lip.Pt 2 | ∀ i, -1 ≤ x i ∧ x i ≤ 1} (fun _ => -1) (fun _ => 1) := by
    intro i
    refine ⟨⟨⟨fun _ => -1, fun _ => by norm_num, rfl⟩, ?_⟩, ⟨⟨fun _ => 1, fun _ => by norm_num, rfl⟩, ?_⟩⟩
    · rintro _ ⟨x, hx, rfl⟩; exact (hx i).1
    · rintro _ ⟨x, hx, rfl⟩; exact (hx i).2
  refine ⟨_, _, _, _, hc, he, (lhs_setup_iff hs hc he (le_refl _)).2 ⟨fun i k a => ?_, fun i => by norm_num⟩⟩
  unfold axisMid
  by_cases e : a = i
  · subst e
    rw [Pi.single_eq_same]
    fin_cases k <;> norm_num
  · rw [Pi.single_eq_of_ne e]; norm_num

end Verif.Samp
