import Verif.Sample.CoverModel
import Verif.Sample.PoissonProps
import Verif.Geometry.GeoProps

/-!
# C47: covering designs cover
-/

namespace Verif.Samp

open Verif Verif.Domain Matrix

variable {k m : ℕ}

/-- What is assumed of the mixed integer solver: for `X`, `r` it returns a feasible point with the fewest ones, and nothing only when
there is no feasible point. -/
def CoverSolver (L : Matrix (Fin k) (Fin m) ℝ) (solver : List (Lip.Pt m) → ℝ → Option (List ℝ)) : Prop :=
  ∀ X r, (∀ v, solver X r = some v → CoverFeasible L r X v ∧ ∀ w, CoverFeasible L r X w → v.sum ≤ w.sum) ∧
    (solver X r = none → ¬ ∃ w, CoverFeasible L r X w)

theorem coverRow_pos {L : Matrix (Fin k) (Fin m) ℝ} {r : ℝ} {X : List (Lip.Pt m)} {v : List ℝ} {x : Lip.Pt m} (hv : ∀ w ∈ v, w ≤ 1 / 2 ∨ 1 / 2 < w)
    (hz : ∀ w ∈ v, w ≤ 1 / 2 → w ≤ 0) (h : 0 < coverRow L r X v x) :
    ∃ y ∈ Geo.select X (v.map (fun w => @decide (1 / 2 < w) (Classical.propDecidable _))), Lip.ldist L x y < r := by
  classical
  induction X generalizing v with
  | nil => simp [coverRow] at h
  | cons y X ih =>
    cases v with
    | nil => simp [coverRow] at h
    | cons w v =>
      rw [List.map_cons, Geo.select_cons]
      have hrec : 0 < coverRow L r X v x → ∃ y' ∈ Geo.select X (v.map (fun w => @decide (1 / 2 < w) (Classical.propDecidable _))), Lip.ldist L x y' < r :=
        fun h => ih (fun w hw => hv w (List.mem_cons_of_mem _ hw)) (fun w hw => hz w (List.mem_cons_of_mem _ hw)) h
      have e : coverRow L r (y :: X) (w :: v) x = (if Lip.ldist L x y < r then 1 else 0) * w + coverRow L r X v x := by simp [coverRow]
      rw [e] at h
      by_cases hw : 1 / 2 < w
      · have hd : @decide (1 / 2 < w) (Classical.propDecidable _) = true := by simpa using hw
        rw [hd, if_pos rfl]
        by_cases hxy : Lip.ldist L x y < r
        · exact ⟨y, List.mem_cons_self, hxy⟩
        · rw [if_neg hxy, zero_mul, zero_add] at h
          obtain ⟨y', hy', hlt⟩ := hrec h
          exact ⟨y', List.mem_cons_of_mem _ hy', hlt⟩
      · have hd : @decide (1 / 2 < w) (Classical.propDecidable _) = false := by simpa using hw
        rw [hd, if_neg (by simp)]
        refine hrec ?_
        have : (if Lip.ldist L x y < r then (1 : ℝ) else 0) * w ≤ 0 := by
          have := hz w List.mem_cons_self (not_lt.1 hw)
          split <;> linarith
        linarith

/-- C47: every candidate is closer than `r` to a selected candidate, if the solver's answer satisfies the constraints it was given. -/
theorem cover_covers (L : Matrix (Fin k) (Fin m) ℝ) (solver : List (Lip.Pt m) → ℝ → Option (List ℝ)) (X : List (Lip.Pt m)) (r : ℝ)
    (hs : ∀ v, solver X r = some v → CoverFeasible L r X v) {I : List Bool} (h : coverDiscrete solver X r = .ok I) :
    I.length = X.length ∧ ∀ x ∈ X, ∃ y ∈ Geo.select X I, Lip.ldist L x y < r := by
  unfold coverDiscrete at h
  cases hv : solver X r with
  | none => rw [hv] at h; cases h
  | some v =>
    rw [hv] at h
    cases h
    obtain ⟨h1, h2, h3⟩ := hs v hv
    refine ⟨by simpa using h1, fun x hx => coverRow_pos (fun w _ => le_or_gt _ _) (fun w hw hle => ?_) (by linarith [h3 x hx])⟩
    rcases h2 w hw with rfl | rfl
    · exact le_refl _
    · norm_num at hle

theorem coverRow_lower {L : Matrix (Fin k) (Fin m) ℝ} {r : ℝ} {X : List (Lip.Pt m)} {v : List ℝ} {x : Lip.Pt m} {e : ℝ} (hv : ∀ w ∈ v, w ≤ e ∨ 1 - e ≤ w)
    (he0 : 0 ≤ e) (he : e < 1 / 2) (hno : ∀ y ∈ Geo.select X (v.map (fun w => @decide (1 / 2 < w) (Classical.propDecidable _))), r ≤ Lip.ldist L x y) :
    coverRow L r X v x ≤ X.length * e := by
  classical
  induction X generalizing v with
  | nil => simp [coverRow]
  | cons y X ih =>
    cases v with
    | nil => simp [coverRow]; positivity
    | cons w v =>
      rw [List.map_cons, Geo.select_cons] at hno
      have e1 : coverRow L r (y :: X) (w :: v) x = (if Lip.ldist L x y < r then 1 else 0) * w + coverRow L r X v x := by simp [coverRow]
      have hrec : coverRow L r X v x ≤ X.length * e := by
        refine ih (fun w hw => hv w (List.mem_cons_of_mem _ hw)) (fun y' hy' => hno y' ?_)
        split
        · exact List.mem_cons_of_mem _ hy'
        · exact hy'
      rw [e1]
      push_cast [List.length_cons]
      have : (if Lip.ldist L x y < r then (1 : ℝ) else 0) * w ≤ e := by
        by_cases hxy : Lip.ldist L x y < r
        · rw [if_pos hxy, one_mul]
          rcases hv w List.mem_cons_self with h | h
          · exact h
          · have hd : @decide (1 / 2 < w) (Classical.propDecidable _) = true := by simpa using (by linarith : 1 / 2 < w)
            rw [hd, if_pos rfl] at hno
            exact absurd (hno y List.mem_cons_self) (not_le.2 hxy)
        · rw [if_neg hxy, zero_mul]; exact he0
      linarith

/-- C47: the rounding at one half tolerates inexact solvers: it is enough that the values are within `e` of zero or one, the constraints
hold up to `e`, and `(|X| + 1) e < 1`. -/
theorem cover_covers_inexact (L : Matrix (Fin k) (Fin m) ℝ) (solver : List (Lip.Pt m) → ℝ → Option (List ℝ)) (X : List (Lip.Pt m)) (r e : ℝ) (he0 : 0 ≤ e)
    (he : e < 1 / 2) (hsmall : (X.length + 1) * e < 1) {v : List ℝ} (hv : solver X r = some v) (hb : ∀ w ∈ v, w ≤ e ∨ 1 - e ≤ w)
    (hc : ∀ x ∈ X, 1 - e ≤ coverRow L r X v x) {I : List Bool} (h : coverDiscrete solver X r = .ok I) :
    ∀ x ∈ X, ∃ y ∈ Geo.select X I, Lip.ldist L x y < r := by
  unfold coverDiscrete at h
  rw [hv] at h
  cases h
  intro x hx
  by_contra hno
  push Not at hno
  have := coverRow_lower hb he0 he hno
  have := hc x hx
  linarith

theorem coverRow_all {L : Matrix (Fin k) (Fin m) ℝ} {r : ℝ} (hr : 0 < r) {X : List (Lip.Pt m)} {x : Lip.Pt m} (hx : x ∈ X) :
    1 ≤ coverRow L r X (List.replicate X.length 1) x := by
  classical
  have hnn : ∀ X : List (Lip.Pt m), 0 ≤ coverRow L r X (List.replicate X.length 1) x := by
    intro X
    induction X with
    | nil => simp [coverRow]
    | cons y X ih =>
      have : coverRow L r (y :: X) (List.replicate (y :: X).length 1) x = (if Lip.ldist L x y < r then 1 else 0) * 1 + coverRow L r X (List.replicate X.length 1) x := by
        simp [coverRow, List.replicate_succ]
      rw [this]
      split <;> linarith
  induction X with
  | nil => simp at hx
  | cons y X ih =>
    have e : coverRow L r (y :: X) (List.replicate (y :: X).length 1) x = (if Lip.ldist L x y < r then 1 else 0) * 1 + coverRow L r X (List.replicate X.length 1) x := by
      simp [coverRow, List.replicate_succ]
    rw [e]
    rcases List.mem_cons.1 hx with rfl | hx
    · rw [if_pos (by rw [Lip.ldist_self]; exact hr)]
      linarith [hnn X]
    · have := ih hx
      split <;> linarith

/-- C47: the program is feasible exactly when `r > 0` (or there is nothing to cover). -/
theorem coverFeasible_iff (L : Matrix (Fin k) (Fin m) ℝ) (X : List (Lip.Pt m)) (r : ℝ) : (∃ v, CoverFeasible L r X v) ↔ 0 < r ∨ X = [] := by
  constructor
  · rintro ⟨v, h1, h2, h3⟩
    cases X with
    | nil => exact .inr rfl
    | cons x X =>
      left
      obtain ⟨y, _, hlt⟩ := coverRow_pos (L := L) (r := r) (X := x :: X) (v := v) (x := x) (fun w _ => le_or_gt _ _)
        (fun w hw hle => by rcases h2 w hw with rfl | rfl; exact le_refl _; norm_num at hle) (by linarith [h3 x List.mem_cons_self])
      exact (Lip.nrm_nonneg _).trans_lt hlt
  · rintro (hr | rfl)
    · exact ⟨List.replicate X.length 1, by simp, fun w hw => .inr (List.eq_of_mem_replicate hw), fun x hx => coverRow_all hr hx⟩
    · exact ⟨[], rfl, by simp, by simp⟩

/-- C47: with a right solver the call succeeds exactly for positive radii (or no candidates); otherwise it raises a `TypeError`. -/
theorem cover_ok_iff (L : Matrix (Fin k) (Fin m) ℝ) (solver : List (Lip.Pt m) → ℝ → Option (List ℝ)) (hs : CoverSolver L solver) (X : List (Lip.Pt m)) (r : ℝ) :
    (∃ I, coverDiscrete solver X r = .ok I) ↔ 0 < r ∨ X = [] := by
  rw [← coverFeasible_iff L X r]
  unfold coverDiscrete
  cases hv : solver X r with
  | none => simp [(hs X r).2 hv]
  | some v => simp only [Except.ok.injEq, exists_eq', true_iff]; exact ⟨v, ((hs X r).1 v hv).1⟩

theorem select_length_sum {X : List (Lip.Pt m)} {v : List ℝ} (hl : v.length = X.length) (hv : ∀ w ∈ v, w = 0 ∨ w = 1) :
    ((Geo.select X (v.map (fun w => @decide (1 / 2 < w) (Classical.propDecidable _)))).length : ℝ) = v.sum := by
  classical
  induction X generalizing v with
  | nil =>
    have : v = [] := List.length_eq_zero_iff.1 hl
    subst this; simp [Geo.select]
  | cons x X ih =>
    cases v with
    | nil => simp at hl
    | cons w v =>
      rw [List.map_cons, Geo.select_cons, List.sum_cons, ← ih (v := v) (by simpa using hl) (fun w hw => hv w (List.mem_cons_of_mem _ hw))]
      rcases hv w List.mem_cons_self with rfl | rfl
      · have hd : @decide ((1 : ℝ) / 2 < 0) (Classical.propDecidable _) = false := by simpa using (by norm_num : (0 : ℝ) ≤ 1 / 2)
        rw [hd, if_neg (by simp)]; ring
      · have hd : @decide ((1 : ℝ) / 2 < 1) (Classical.propDecidable _) = true := by simpa using (by norm_num : (1 : ℝ) / 2 < 1)
        rw [hd, if_pos rfl]; push_cast [List.length_cons]; ring

theorem coverRow_mask {L : Matrix (Fin k) (Fin m) ℝ} {r : ℝ} {X : List (Lip.Pt m)} {J : List Bool} {x : Lip.Pt m}
    (h : ∃ y ∈ Geo.select X J, Lip.ldist L x y < r) : 1 ≤ coverRow L r X (J.map (fun b => if b then 1 else 0)) x := by
  classical
  have hnn : ∀ (X : List (Lip.Pt m)) (J : List Bool), 0 ≤ coverRow L r X (J.map (fun b => if b then 1 else 0)) x := by
    intro X J
    refine List.sum_nonneg fun z hz => ?_
    obtain ⟨i, hi, rfl⟩ := List.getElem_of_mem hz
    rw [List.getElem_zipWith, List.getElem_map]
    split <;> split <;> norm_num
  induction X generalizing J with
  | nil => obtain ⟨y, hy, _⟩ := h; simp [Geo.select] at hy
  | cons z X ih =>
    cases J with
    | nil => obtain ⟨y, hy, _⟩ := h; simp [Geo.select] at hy
    | cons b J =>
      have e : coverRow L r (z :: X) ((b :: J).map (fun b => if b then 1 else 0)) x
          = (if Lip.ldist L x z < r then 1 else 0) * (if b then 1 else 0) + coverRow L r X (J.map (fun b => if b then 1 else 0)) x := by
        rw [coverRow, List.map_cons, List.zipWith_cons_cons, List.sum_cons, coverRow]
      rw [e]
      obtain ⟨y, hy, hlt⟩ := h
      rw [Geo.select_cons] at hy
      have h0 := hnn X J
      have hpos : (0 : ℝ) ≤ (if Lip.ldist L x z < r then 1 else 0) * (if b then 1 else 0) := by split <;> split <;> norm_num
      cases b with
      | false =>
        have := ih ⟨y, hy, hlt⟩
        linarith
      | true =>
        rcases List.mem_cons.1 hy with rfl | hy
        · rw [if_pos hlt]; simp only [if_true]; linarith
        · have := ih ⟨y, hy, hlt⟩
          linarith

/-- C47: no subset of the candidates that covers them has fewer points. -/
theorem cover_minimal (L : Matrix (Fin k) (Fin m) ℝ) (solver : List (Lip.Pt m) → ℝ → Option (List ℝ)) (hs : CoverSolver L solver) (X : List (Lip.Pt m)) (r : ℝ)
    {I : List Bool} (h : coverDiscrete solver X r = .ok I) (J : List Bool) (hJ : J.length = X.length)
    (hc : ∀ x ∈ X, ∃ y ∈ Geo.select X J, Lip.ldist L x y < r) : (Geo.select X I).length ≤ (Geo.select X J).length := by
  classical
  unfold coverDiscrete at h
  cases hv : solver X r with
  | none => rw [hv] at h; cases h
  | some v =>
    rw [hv] at h
    cases h
    obtain ⟨⟨h1, h2, h3⟩, hmin⟩ := (hs X r).1 v hv
    have hw : ∀ w ∈ J.map (fun b => if b then (1 : ℝ) else 0), w = 0 ∨ w = 1 := by
      intro w hw
      obtain ⟨b, _, rfl⟩ := List.mem_map.1 hw
      cases b <;> simp
    have := hmin (J.map (fun b => if b then 1 else 0)) ⟨by simpa using hJ, hw, fun x hx => coverRow_mask (hc x hx)⟩
    have e1 := select_length_sum h1 h2
    have e2 := select_length_sum (X := X) (v := J.map (fun b => if b then (1 : ℝ) else 0)) (by simpa using hJ) hw
    have e3 : (J.map (fun b => if b then (1 : ℝ) else 0)).map (fun w => @decide (1 / 2 < w) (Classical.propDecidable _)) = J := by
      rw [List.map_map]
      refine (List.map_congr_left fun b _ => ?_).trans (List.map_id J)
      cases b
      · simpa using (by norm_num : (0 : ℝ) ≤ 1 / 2)
      · simpa using (by norm_num : (1 : ℝ) / 2 < 1)
    rw [e3] at e2
    have : ((Geo.select X (v.map (fun w => @decide (1 / 2 < w) (Classical.propDecidable _)))).length : ℝ) ≤ ((Geo.select X J).length : ℝ) := by
      rw [e1, e2]; exact this
    exact_mod_cast this

/-- C47: `minimax_covering` meets its radius with a margin, if the Poisson sample leaves no point of the domain farther than `r/4` from
it. -/
theorem minimaxCovering_partial (L : Matrix (Fin k) (Fin m) ℝ) (inside : Lip.Pt m → Prop) (solver : List (Lip.Pt m) → ℝ → Option (List ℝ))
    (hs : ∀ X r v, solver X r = some v → CoverFeasible L r X v) {r : ℝ} {x0 : Lip.Pt m} (h0 : inside x0) (hr : 0 ≤ r) {ds : List (DiskDraw m)} (hds : RadiiOk (r / 4) ds)
    (hfull : ∀ P, poissonDisk L inside (r / 4) x0 ds = some P → ∀ z, inside z → ∃ p ∈ P, Lip.ldist L z p ≤ r / 4) {Y : List (Lip.Pt m)}
    (h : minimaxCovering L inside solver r x0 ds = .ok (some Y)) :
    (∀ y ∈ Y, inside y) ∧ ∀ z, inside z → ∃ y ∈ Y, Lip.ldist L z y < r / 4 + r / 2 := by
  unfold minimaxCovering at h
  cases hp : poissonDisk L inside (r / 4) x0 ds with
  | none => rw [hp] at h; cases h
  | some P =>
    rw [hp] at h
    simp only at h
    cases hd : coverDiscrete solver P (r / 2) with
    | error e => rw [hd] at h; cases h
    | ok I =>
      rw [hd] at h
      cases h
      have hcov := (cover_covers L solver P (r / 2) (hs P (r / 2)) hd).2
      have hin := (poisson_separated L inside (by linarith) h0 hds hp).1
      refine ⟨fun y hy => hin y (Geo.select_subset _ _ y hy), fun z hz => ?_⟩
      obtain ⟨p, hpm, hle⟩ := hfull P hp z hz
      obtain ⟨y, hy, hlt⟩ := hcov p hpm
      exact ⟨y, hy, by linarith [Lip.ldist_triangle L z p y]⟩

theorem ldist_one (a b : ℝ) : Lip.ldist (1 : Matrix (Fin 1) (Fin 1) ℝ) (Geo.pt1 a) (Geo.pt1 b) = |a - b| := by
  rw [Geo.ldist_pt1, Matrix.one_mulVec]
  have : Lip.nrm (Geo.pt1 1) = 1 := by
    have := Geo.nrm_one 1
    rw [abs_one] at this
    exact this
  rw [this, one_mul]

/-- C47, disagreement: for every number of tries there is a random stream for which `minimax_covering` returns points that leave part of
the domain farther away than the target radius. -/
theorem minimaxCovering_false (n : ℕ) : ∃ ds : List (DiskDraw 1), RadiiOk (2 / 5 / 4) ds ∧ (∀ d ∈ ds, d.trials.length = n) ∧
    ∀ solver : List (Lip.Pt 1) → ℝ → Option (List ℝ), CoverSolver (1 : Matrix (Fin 1) (Fin 1) ℝ) solver → ∃ Y,
      minimaxCovering (1 : Matrix (Fin 1) (Fin 1) ℝ) (fun x => 0 ≤ x 0 ∧ x 0 ≤ 1) solver (2 / 5) (Geo.pt1 0) ds = .ok (some Y) ∧
        ∃ z : Lip.Pt 1, (0 ≤ z 0 ∧ z 0 ≤ 1) ∧ ∀ y ∈ Y, 2 / 5 < Lip.ldist (1 : Matrix (Fin 1) (Fin 1) ℝ) z y := by
  classical
  refine ⟨[⟨fun l => l.headD 0, fun l h => by cases l with | nil => exact absurd rfl h | cons a l => exact List.mem_cons_self,
    List.replicate n (Geo.pt1 (-1), 1 / 10)⟩], ?_, by simp, fun solver hs => ?_⟩
  · intro d hd t ht
    rw [List.mem_singleton.1 hd] at ht
    rw [List.eq_of_mem_replicate ht]
    norm_num
  · have hf : firstTrial (1 : Matrix (Fin 1) (Fin 1) ℝ) (diskOk (1 : Matrix (Fin 1) (Fin 1) ℝ) (fun x => 0 ≤ x 0 ∧ x 0 ≤ 1) (2 / 5 / 4) [Geo.pt1 0]) (Geo.pt1 0)
        (List.replicate n (Geo.pt1 (-1), 1 / 10)) = none := by
      unfold firstTrial
      rw [Option.map_eq_none_iff, List.find?_eq_none]
      intro t ht
      rw [List.eq_of_mem_replicate ht]
      simp only [decide_eq_true_eq, not_and]
      rintro - ⟨⟨h1, _⟩, _⟩
      have hn : Lip.nrm ((1 : Matrix (Fin 1) (Fin 1) ℝ) *ᵥ Geo.pt1 (-1)) = 1 := by
        rw [Matrix.one_mulVec]
        have := Geo.nrm_one (-1)
        rw [abs_neg, abs_one] at this
        exact this
      simp only [trialPoint, hn, Geo.pt1, Pi.add_apply, Pi.smul_apply, smul_eq_mul] at h1
      norm_num at h1
    have hp : poissonDisk (1 : Matrix (Fin 1) (Fin 1) ℝ) (fun x => 0 ≤ x 0 ∧ x 0 ≤ 1) (2 / 5 / 4) (Geo.pt1 0)
        [⟨fun l => l.headD 0, fun l h => by cases l with | nil => exact absurd rfl h | cons a l => exact List.mem_cons_self,
          List.replicate n (Geo.pt1 (-1), 1 / 10)⟩] = some [Geo.pt1 0] := by
      have e1 : activeIdx [true] = [0] := rfl
      have e2 : activeIdx ([true].set 0 false) = [] := rfl
      rw [poissonDisk, diskRun, if_neg (by rw [e1]; simp), diskStep]
      simp only [e1, List.headD_cons, List.getD_cons_zero]
      rw [hf]
      simp only
      rw [diskRun, if_pos e2]
    obtain ⟨I, hI⟩ := (cover_ok_iff 1 solver hs [Geo.pt1 0] (2 / 5 / 2)).2 (.inl (by norm_num))
    refine ⟨Geo.select [Geo.pt1 0] I, ?_, Geo.pt1 1, by norm_num [Geo.pt1], fun y hy => ?_⟩
    · unfold minimaxCovering
      rw [hp]
      simp only [hI]
    · rw [List.mem_singleton.1 (Geo.select_subset _ _ y hy), ldist_one]
      norm_num

/-- A feasible point for two candidates. -/
example : CoverFeasible (1 : Matrix (Fin 1) (Fin 1) ℝ) 1 [Geo.pt1 0, Geo.pt1 (1 / 2)] [1, 0] := by
  refine ⟨rfl, by simp, fun x hx => ?_⟩
  rcases List.mem_cons.1 hx with rfl | hx
  · simp [coverRow, Lip.ldist_self]
  · rw [List.mem_singleton.1 hx]
    have : Lip.ldist (1 : Matrix (Fin 1) (Fin 1) ℝ) (Geo.pt1 (1 / 2)) (Geo.pt1 0) < 1 := by
      rw [ldist_one]; rw [abs_of_nonneg] <;> norm_num
    rw [coverRow, List.zipWith_cons_cons, List.sum_cons, if_pos this]
    simp

/-- A solver of the assumed kind exists. -/
theorem exists_coverSolver (L : Matrix (Fin k) (Fin m) ℝ) : ∃ solver, CoverSolver L solver := by
  classical
  have key : ∀ (X : List (Lip.Pt m)) (r : ℝ), ∃ o : Option (List ℝ), (∀ v, o = some v → CoverFeasible L r X v ∧ ∀ w, CoverFeasible L r X w → v.sum ≤ w.sum) ∧
      (o = none → ¬ ∃ w, CoverFeasible L r X w) := by
    intro X r
    by_cases h : ∃ w, CoverFeasible L r X w
    · let f : List ℝ → ℕ := fun v => (Geo.select X (v.map (fun w => @decide (1 / 2 < w) (Classical.propDecidable _)))).length
      obtain ⟨v, hv, hmin⟩ := WellFounded.has_min (measure f).wf {v | CoverFeasible L r X v} h
      refine ⟨some v, fun v' hv' => ?_, by simp⟩
      cases hv'
      refine ⟨hv, fun w hw => ?_⟩
      have hle : f v ≤ f w := not_lt.1 (hmin w hw)
      rw [← select_length_sum hv.1 hv.2.1, ← select_length_sum hw.1 hw.2.1]
      exact_mod_cast hle
    · exact ⟨none, by simp, fun _ => h⟩
  choose s hs using key
  exact ⟨s, hs⟩

end Verif.Samp
