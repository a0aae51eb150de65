import Verif.Sample.ProjSampleProps
import Verif.Sample.ProjectionFit

/-!
# How well projection samples meet their targets (C128)
-/

namespace Verif.Samp

open Verif Verif.Domain Classical

variable {m K N : ℕ}

/-- Every row of the design is, among the points of the domain in its cells, one whose projections are as close as possible to the targets it stands for. -/
def BestInCells (D : Set (Lip.Pt m)) (P : Proj m (K + 1) N) (X : Fin N → Lip.Pt m) : Prop :=
  ∃ π : Fin (K + 1) → Equiv.Perm (Fin N), π 0 = 1 ∧ ∀ j, X j ∈ D ∧ InCell P (fun i => π i j) (X j) ∧
    ∀ z ∈ D, InCell P (fun i => π i j) z → totalMisfit P (fun i => π i j) (X j) ≤ totalMisfit P (fun i => π i j) z

theorem psMisfit_eq (P : PSIn m K N) (c : Fin K → Fin N) (x : Lip.Pt m) : psMisfit P c x = totalMisfit P.proj c x := by
  unfold psMisfit totalMisfit
  refine Finset.sum_congr rfl fun i _ => ?_
  rw [Lip.nrm_sq]
  simp only [dotProduct, Matrix.mulVec, Pi.sub_apply, sq, PSIn.proj]
  rfl

theorem totalMisfit_congr (P : PSIn m K N) (c : Fin K → Fin N) {x y : Lip.Pt m} (h : ∀ i, (P.L i).mulVec x = (P.L i).mulVec y) :
    totalMisfit P.proj c x = totalMisfit P.proj c y := by
  rw [← psMisfit_eq, ← psMisfit_eq]
  unfold psMisfit
  exact Finset.sum_congr rfl fun i _ => by rw [h i]

/-- One pass keeps it. -/
theorem psStep_fit {D : Set (Lip.Pt m)} {asort : (Fin N → ℝ) → Equiv.Perm (Fin N)} (hs : Sorts asort) {P : PSIn m (K + 1) N} (hP : Checked P)
    {O : PSOracles m (K + 1) N} (hO : O.Spec D asort P) (hls : LsSolver D O.cls) {s : PSState m N} (hi : PSInv D P s) (hX : ∀ X, s.X = some X → BestInCells D P.proj X)
    {σ : Assign} (hn : psNext O.sat s = some σ) {s' : PSState m N} (h : psStep O asort P s σ = .ok s') : ∀ X, s'.X = some X → BestInCells D P.proj X := by
  obtain ⟨hsat, -⟩ := psNext_some hO.sat s hn
  obtain ⟨cells, ec, -⟩ := hi.clauses
  rw [ec] at hsat
  obtain ⟨π, h0, hr⟩ := sat_design hsat
  unfold psStep at h
  rw [designOf_eq σ π hr] at h
  dsimp only at h
  by_cases hall : ∀ j, (psPoint O asort P fun k => π k j).isSome
  · rw [dif_pos hall] at h
    set X0 : Fin N → Lip.Pt m := fun j => (psPoint O asort P fun k => π k j).get (hall j) with hX0
    have hpt : ∀ j, psPoint O asort P (fun k => π k j) = some (X0 j) := fun j => (Option.some_get (hall j)).symm
    have hX0m : ∀ j, X0 j ∈ D ∧ MeetsRows (psRows asort P fun k => π k j) (X0 j) := fun j => (hO.cls _ _).1 _ (hpt j)
    have hbest : BestInCells D P.proj (psRefine O P (fun j k => π k j) X0) := by
      refine ⟨π, h0, fun j => ?_⟩
      obtain ⟨a, b, c⟩ := psRefine_mem hO.refine (fun j k => π k j) X0 hX0m j
      refine ⟨a, (hP.rows hs _ _).1 b, fun z hz hcell => ?_⟩
      rw [totalMisfit_congr P _ c]
      have hcont : Continuous (psMisfit P fun i => π i j) := by
        rw [show (psMisfit P fun i => π i j) = totalMisfit P.proj fun i => π i j from funext fun x => psMisfit_eq P _ x]
        exact totalMisfit_continuous P.proj _
      have := hls _ _ hcont _ (hpt j) z hz ((hP.rows hs _ _).2 hcell)
      rwa [psMisfit_eq, psMisfit_eq] at this
    unfold psScore at h
    dsimp only at h
    split at h
    · injection h with h; subst h
      intro X e
      obtain rfl := Option.some.inj e
      exact hbest
    · split at h
      · cases h
      · injection h with h; subst h; exact hX
  · rw [dif_neg hall] at h
    injection h with h; subst h; exact hX

theorem psRun_fit {D : Set (Lip.Pt m)} {asort : (Fin N → ℝ) → Equiv.Perm (Fin N)} (hs : Sorts asort) {P : PSIn m (K + 1) N} (hP : Checked P)
    {O : PSOracles m (K + 1) N} (hO : O.Spec D asort P) (hls : LsSolver D O.cls) (maxiter fuel : ℕ) (s : PSState m N) (hi : PSInv D P s)
    (hX : ∀ X, s.X = some X → BestInCells D P.proj X) {s' : PSState m N} (h : psRun O asort P maxiter fuel s = .ok (some s')) : ∀ X, s'.X = some X → BestInCells D P.proj X := by
  induction fuel generalizing s with
  | zero => cases h
  | succ n ih =>
    unfold psRun at h
    cases hn : psNext O.sat s with
    | none =>
      rw [hn] at h
      simp only [Except.ok.injEq, Option.some.injEq] at h
      subst h
      exact hX
    | some σ =>
      rw [hn] at h
      dsimp only at h
      rcases psStep_cases hs hP hO hi hn with ⟨t, e, hi', -⟩ | ⟨e, -⟩
      · have hf := psStep_fit hs hP hO hls hi hX hn e
        rw [e] at h
        dsimp only at h
        split at h
        · simp only [Except.ok.injEq, Option.some.injEq] at h
          subst h
          exact hf
        · exact ih t hi' hf h
      · rw [e] at h; cases h

/-- **C128**: every row of the returned sample is, among the points of the domain in its cells, one whose projections are as close as possible to the targets. -/
theorem psample_fit {D : Set (Lip.Pt m)} {asort : (Fin N → ℝ) → Equiv.Perm (Fin N)} (hs : Sorts asort) {P : PSIn m (K + 1) N} {O : PSOracles m (K + 1) N}
    (hO : O.Spec D asort P) (hls : LsSolver D O.cls) (maxiter fuel : ℕ) {X : Fin N → Lip.Pt m} (h : projectionSample O asort D P maxiter fuel = .ok (some (some X))) :
    BestInCells D P.proj X := by
  unfold projectionSample at h
  cases hsu : psSetup asort D P with
  | error e => rw [hsu] at h; cases h
  | ok u =>
    rw [hsu] at h
    dsimp only at h
    split at h
    · cases h
    · cases h
    · rename_i s e
      simp only [Except.ok.injEq, Option.some.injEq] at h
      exact psRun_fit hs (psSetup_checked hs hsu) hO hls maxiter fuel _ (psInv_init D P) (fun X e => by cases e) e X h

/-- The middle of a piece of the extent. -/
noncomputable def pieceMid (lo hi : Fin m → ℝ) (N : ℕ) (i : Fin m) (k : ℕ) : ℝ := lo i + ((k : ℝ) + 1 / 2) * ((hi i - lo i) / N)

/-- **C128**: if the middles of all the cells are in the domain (as in a box), the Latin hypercube samples are the centered ones: every coordinate of every point
is the middle of its piece. -/
theorem psample_centered {asort : (Fin N → ℝ) → Equiv.Perm (Fin N)} (hs : Sorts asort) {D : Set (Lip.Pt (m + 1))} {corner : Lip.Pt (m + 1) → Lip.Pt (m + 1)}
    (hc : CornersOf D corner) {lo hi : Fin (m + 1) → ℝ} (he : Extent D lo hi) (hin : ∀ c : Fin (m + 1) → Fin N, (fun i => pieceMid lo hi N i (c i)) ∈ D)
    {O : PSOracles (m + 1) (m + 1) N} (hO : O.Spec D asort (lhsIn corner N)) (hls : LsSolver D O.cls) (maxiter fuel : ℕ) {X : Fin N → Lip.Pt (m + 1)}
    (h : projectionSample O asort D (lhsIn corner N) maxiter fuel = .ok (some (some X))) :
    ∃ π : Fin (m + 1) → Equiv.Perm (Fin N), ∀ i j, X j i = pieceMid lo hi N i (π i j) := by
  obtain ⟨π, -, hX⟩ := psample_fit hs hO hls maxiter fuel h
  refine ⟨π, fun i j => ?_⟩
  obtain ⟨-, -, hmin⟩ := hX j
  have hT : ∀ i (k : Fin N), (lhsIn corner N).T i k i = pieceMid lo hi N i k := fun i k => by
    show lhsTargets corner N (Pi.single i 1) k i = _
    rw [lhsTargets_eq hc he]; simp [axisMid, pieceMid]
  have hmis : ∀ x, totalMisfit (lhsIn corner N).proj (fun i => π i j) x = ∑ i, (x i - pieceMid lo hi N i (π i j)) ^ 2 := by
    intro x
    rw [← psMisfit_eq]
    unfold psMisfit
    refine Finset.sum_congr rfl fun i _ => ?_
    rw [lhs_mulVec, lhs_mulVec, hT]
    have e1 : ∀ a b : ℝ, Lip.nrm ((fun _ => a : Lip.Pt 1) - fun _ => b) ^ 2 = (a - b) ^ 2 := fun a b => by rw [nrm_one, sq_abs]; rfl
    exact e1 _ _
  have hcell : InCell (lhsIn corner N).proj (fun i => π i j) fun i => pieceMid lo hi N i (π i j) := by
    intro i k
    show Lip.nrm (((lhsIn corner N).L i).mulVec _ - ((lhsIn corner N).L i).mulVec _) ≤ Lip.nrm (((lhsIn corner N).L i).mulVec _ - ((lhsIn corner N).L i).mulVec _)
    rw [lhs_mulVec, lhs_mulVec, hT, sub_self]
    have h0 : Lip.nrm (0 : Lip.Pt ((lhsIn corner N).r i)) = 0 := by unfold Lip.nrm; simp
    rw [h0]
    exact Real.sqrt_nonneg _
  have h1 := hmin _ (hin fun i => π i j) hcell
  rw [hmis, hmis] at h1
  simp only [sub_self, ne_eq, OfNat.ofNat_ne_zero, not_false_eq_true, zero_pow, Finset.sum_const_zero] at h1
  have h2 := (Finset.sum_eq_zero_iff_of_nonneg (fun i _ => sq_nonneg (X j i - pieceMid lo hi N i (π i j)))).1 (le_antisymm h1 (Finset.sum_nonneg fun i _ => sq_nonneg _)) i (Finset.mem_univ i)
  nlinarith [pow_eq_zero_iff (two_ne_zero) |>.1 h2]

/-- In the unit cube the middles of the cells are in the domain. -/
theorem cube_mids (m N : ℕ) (c : Fin m → Fin N) : (fun i => pieceMid (0 : Fin m → ℝ) 1 N i (c i)) ∈ Set.Icc (0 : Lip.Pt m) 1 := by
  have hp : ∀ i, (0 : ℝ) < N ∧ ((c i : ℕ) : ℝ) + 1 ≤ N := fun i => ⟨by exact_mod_cast (lt_of_le_of_lt (Nat.zero_le _) (c i).2), by exact_mod_cast (c i).2⟩
  refine ⟨fun i => ?_, fun i => ?_⟩
  · have := (hp i).1
    simp only [pieceMid, Pi.zero_apply, Pi.one_apply]
    positivity
  · obtain ⟨h1, h2⟩ := hp i
    simp only [pieceMid, Pi.zero_apply, Pi.one_apply]
    rw [sub_zero, zero_add, mul_one_div, div_le_one h1]
    linarith

/-- The contracts together, on the unit cube. -/
example (asort : (Fin 3 → ℝ) → Equiv.Perm (Fin 3)) (P : PSIn 2 2 3) : ∃ O : PSOracles 2 2 3, O.Spec (Set.Icc 0 1) asort P ∧ LsSolver (Set.Icc 0 1) O.cls := by
  obtain ⟨cls, h1, h2⟩ := exists_lsSolver (isCompact_Icc (a := (0 : Lip.Pt 2)) (b := 1))
  exact ⟨⟨cls, fun _ X => X, fun _ X j _ => X j, preferSat (2 * 3 ^ 2) (fun _ => false), fun _ => []⟩, ⟨h1, preferSat_spec _ _,
    fun d X h j => ⟨⟨(h j).1, (h j).2, fun _ => rfl⟩, fun _ => ⟨(h j).1, (h j).2, fun _ => rfl⟩⟩⟩, h2⟩

end Verif.Samp
