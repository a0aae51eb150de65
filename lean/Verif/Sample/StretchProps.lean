import Verif.Sample.StretchModel
import Verif.Sample.SeqProps

/-!
# C103: stretched samples

`Meets C x` (of `SeqProps`): `L x = L q` for every constraint `(L, q)` of `C`.
-/

namespace Verif.Samp

open Verif Verif.Domain Verif.Geo Matrix

variable {m : ℕ}

/-! ## Specification -/

/-- `x` is a point of the set that is farthest from the samples. -/
def Farthest (S : Set (Lip.Pt m)) (L : Metric m) (X : List (Lip.Pt m)) (x : Lip.Pt m) : Prop := x ∈ S ∧ ∀ y ∈ S, nearest L.2 X y ≤ nearest L.2 X x

/-- The domain `S` with the constraints. -/
def Slice (S : Set (Lip.Pt m)) (C : EqCons m) : Set (Lip.Pt m) := {y | y ∈ S ∧ Meets C y}

/-- What the parameters promise: vertices are in the (constrained) domain; a sample exists only in a domain that is not empty. -/
structure StretchSpec (S : Set (Lip.Pt m)) (o : StretchOracle m) : Prop where
  verts : ∀ C X L n V, o.verts C X L n = .val V → ∀ v ∈ V, v ∈ Slice S C
  point : ∀ C b, o.point C = .val b → (Slice S C).Nonempty
  sample : ∀ C V, o.sample C = .ok V → ∀ v ∈ V, v ∈ Slice S C
  final : ∀ C X X0 V, o.final C X X0 = .ok V → (∀ v ∈ X0, v ∈ Slice S C) → ∀ v ∈ V, v ∈ Slice S C

/-- An exact search: the vertices contain a point farthest from the samples. -/
def ExactVerts (S : Set (Lip.Pt m)) (o : StretchOracle m) : Prop :=
  ∀ C X L n, X ≠ [] → (Slice S C).Nonempty → ∃ V, o.verts C X L n = .val V ∧ (∀ v ∈ V, v ∈ Slice S C) ∧ ∃ v ∈ V, Farthest (Slice S C) L X v

/-- An exact answer to `is_point`. -/
def ExactPoint (S : Set (Lip.Pt m)) (o : StretchOracle m) : Prop :=
  ∀ C, (Slice S C).Nonempty → ∃ b, o.point C = .val b ∧ (b = true ↔ (Slice S C).Subsingleton)

/-! ## Candidates -/

theorem farthest_spec {L : Metric m} {Xf V : List (Lip.Pt m)} {p : Lip.Pt m × ℝ} (h : farthest L Xf V = .ok p) :
    Xf ≠ [] ∧ p.1 ∈ V ∧ p.2 = nearest L.2 Xf p.1 ∧ ∀ v ∈ V, nearest L.2 Xf v ≤ nearest L.2 Xf p.1 := by
  cases V with
  | nil => cases h
  | cons v V =>
    rw [farthest] at h
    split at h
    · cases h
    · rename_i hX
      cases h
      exact ⟨hX, argmaxL_mem _ _ _, rfl, argmaxL_max _ _ _⟩

/-- When a farthest point is found. -/
theorem farthest_ok_iff (L : Metric m) (Xf V : List (Lip.Pt m)) : (∃ p, farthest L Xf V = .ok p) ↔ Xf ≠ [] ∧ V ≠ [] := by
  cases V with
  | nil => simp [farthest]
  | cons v V =>
    rw [farthest]
    split
    · rename_i h; simp [h]
    · rename_i h; simp [h]

theorem pass_entries {o : StretchOracle m} {C : EqCons m} : ∀ {Ls : List (Metric m)} {X X' : Cur m} {k : ℕ} {xd : List (Entry m)},
    stretchPass o C X k Ls = .ok (xd, X') → xd.length = Ls.length ∧ ∀ e ∈ xd, k ≤ e.k ∧ Ls[e.k - k]? = some e.L := by
  intro Ls
  induction Ls with
  | nil =>
    intro X X' k xd h
    cases h
    simp
  | cons L Ls ih =>
    intro X X' k xd h
    rw [stretchPass] at h
    split at h
    · cases h
    · split at h
      · cases h
      · rename_i a ha
        cases hp : stretchPass o C (assign X (blockCandidate o C X L)) (k + 1) Ls with
        | error e =>
          rw [hp] at h
          cases h
        | ok q =>
          rw [hp] at h
          obtain ⟨xd', X''⟩ := q
          cases h
          obtain ⟨h1, h2⟩ := ih hp
          refine ⟨by simp [h1], ?_⟩
          intro e he
          rcases List.mem_cons.1 he with rfl | he
          · unfold entryOf at ha
            split at ha
            · cases ha
            · cases ha
              simp
          · obtain ⟨h3, h4⟩ := h2 e he
            refine ⟨by omega, ?_⟩
            rw [show e.k - k = (e.k - (k + 1)) + 1 by omega, List.getElem?_cons_succ]
            exact h4


theorem slice_nil (S : Set (Lip.Pt m)) : Slice S [] = S := by
  ext y
  simp [Slice, Meets]

/-! ## The domain -/

theorem loop_spec {o : StretchOracle m} : ∀ {n : ℕ} {C C' : EqCons m} {X : Cur m} {Ls : List (Metric m)}, stretchLoop o n C X Ls = .ok C' →
    ∃ E, C' = C ++ E ∧ (E.map Prod.fst).Subperm Ls ∧ ∀ S, StretchSpec S o → (Slice S C).Nonempty → (Slice S C').Nonempty := by
  intro n
  induction n with
  | zero =>
    intro C C' X Ls h
    cases h
    exact ⟨[], by simp, List.nil_subperm, fun _ _ h => h⟩
  | succ n ih =>
    intro C C' X Ls h
    cases Ls with
    | nil =>
      cases h
      exact ⟨[], by simp, List.nil_subperm, fun _ _ h => h⟩
    | cons L Ls =>
      rw [stretchLoop] at h
      split at h
      · cases h
      · cases h
        exact ⟨[], by simp, List.nil_subperm, fun _ _ h => h⟩
      · rename_i a l X' hp
        obtain ⟨_, hk⟩ := pass_entries hp
        obtain ⟨_, hb⟩ := hk _ (argmaxL_mem Entry.d a l)
        set b := argmaxL Entry.d a l with hbdef
        rw [Nat.sub_zero] at hb
        obtain ⟨hlt, hL⟩ := List.getElem?_eq_some_iff.1 hb
        have hsub : ([(b.L, b.x)].map Prod.fst).Subperm (L :: Ls) := by
          rw [List.map_cons, List.map_nil, List.singleton_subperm_iff]
          exact List.mem_of_getElem? hb
        simp only at h
        split at h
        · cases h
        · cases h
          exact ⟨[], by simp, List.nil_subperm, fun _ _ h => h⟩
        · rename_i hpt
          cases h
          exact ⟨[(b.L, b.x)], rfl, hsub, fun S hS _ => hS.point _ _ hpt⟩
        · rename_i hpt
          obtain ⟨E, rfl, hE, hne⟩ := ih h
          refine ⟨(b.L, b.x) :: E, by simp, ?_, fun S hS _ => hne S hS (hS.point _ _ hpt)⟩
          have hperm := List.getElem_cons_eraseIdx_perm hlt
          rw [hL] at hperm
          rw [List.map_cons]
          exact ((List.subperm_cons _).2 hE).trans hperm.subperm

/-- **C103**: the stretched domain is cut from the domain by constraints `L y = L x`, each metric being used at most once; it is not empty if the domain is not. -/
theorem stretchDomain_spec {o : StretchOracle m} {S : Set (Lip.Pt m)} (hS : StretchSpec S o) {X : List (Lip.Pt m)} {Ls : List (Metric m)} {C : EqCons m}
    (h : stretchDomain o X Ls = .ok C) : Slice S C ⊆ S ∧ (C.map Prod.fst).Subperm Ls ∧ (S.Nonempty → (Slice S C).Nonempty) := by
  obtain ⟨E, rfl, h1, h2⟩ := loop_spec h
  refine ⟨fun y hy => hy.1, h1, fun hne => h2 S hS ?_⟩
  rw [slice_nil]
  exact hne

/-- **C103**: a stretched sample is a point of the domain; it meets constraints of the form `L y = L x` for different metrics, and is the vertex farthest from
the samples among those found in this slice. -/
theorem stretchSample_spec {o : StretchOracle m} {S : Set (Lip.Pt m)} (hS : StretchSpec S o) {Xf : List (Lip.Pt m)} {Ls : List (Metric m)} {x : Lip.Pt m}
    (h : stretchSample o Xf Ls = .ok x) : x ∈ S ∧ ∃ C X0 V, stretchDomain o Xf Ls = .ok C ∧ o.sample C = .ok X0 ∧ o.final C Xf X0 = .ok V ∧ x ∈ Slice S C ∧ x ∈ V ∧
      ∀ v ∈ V, nearest (1 : Matrix (Fin m) (Fin m) ℝ) Xf v ≤ nearest (1 : Matrix (Fin m) (Fin m) ℝ) Xf x := by
  unfold stretchSample at h
  split at h
  · cases h
  rename_i C hC
  split at h
  · cases h
  rename_i X0 h0
  split at h
  · cases h
  rename_i V hV
  cases hf : farthest ⟨m, 1⟩ Xf V with
  | error e =>
    rw [hf] at h
    cases h
  | ok p =>
    rw [hf] at h
    cases h
    obtain ⟨_, h1, _, h2⟩ := farthest_spec hf
    have hin := hS.final C Xf X0 V hV (hS.sample C X0 h0) _ h1
    exact ⟨hin.1, C, X0, V, hC, h0, hV, hin, h1, h2⟩

/-- **C103**: with one metric and an exact search, the constraint added goes through a point of the domain that is farthest from the samples. -/
theorem stretch_one {o : StretchOracle m} {S : Set (Lip.Pt m)} (hv : ExactVerts S o) (hp : ExactPoint S o) (hS : S.Nonempty) {X : List (Lip.Pt m)} (hX : X ≠ []) (L : Metric m) :
    ∃ x, stretchDomain o X [L] = .ok [(L, x)] ∧ Farthest S L X x := by
  obtain ⟨V, h1, h2, v, hvV, hfar⟩ := hv [] X L (2 * X.length) hX (by rw [slice_nil]; exact hS)
  obtain ⟨p, hp1⟩ := (farthest_ok_iff L X V).2 ⟨hX, List.ne_nil_of_mem hvV⟩
  obtain ⟨_, h3, h4, h5⟩ := farthest_spec hp1
  have hpS : p.1 ∈ Slice S [] := h2 _ h3
  have hb : blockCandidate o [] (.rows X) L = .val p := by
    unfold blockCandidate
    simp only [Cur.pts, Cur.len, h1, hp1]
  have hpass : stretchPass o [] (.rows X) 0 [L] = .ok ([⟨p.1, p.2, L, 0⟩], .cand p.1 p.2) := by
    rw [stretchPass, hb]
    simp only [assign, entryOf, stretchPass]
    rfl
  have hmem : (Slice S ([] ++ [(L, p.1)])).Nonempty := ⟨p.1, hpS.1, by simp [Meets]⟩
  obtain ⟨b, hb1, hb2⟩ := hp _ hmem
  refine ⟨p.1, ?_, ?_⟩
  · unfold stretchDomain
    rw [List.length_singleton, stretchLoop, hpass]
    simp only [argmaxL, hb1]
    cases b
    · simp [stretchLoop]
    · rfl
  · rw [← slice_nil S]
    exact ⟨hpS, fun y hy => (hfar.2 y hy).trans (h5 v hvV)⟩

/-- The call succeeds if nothing raises. -/
theorem stretchDomain_total {o : StretchOracle m} (hv : ∀ C X L n, X ≠ [] → ∃ V, V ≠ [] ∧ o.verts C X L n = .val V) (hp : ∀ C e, o.point C ≠ .raised e)
    {X : List (Lip.Pt m)} (hX : X ≠ []) (Ls : List (Metric m)) : ∃ C, stretchDomain o X Ls = .ok C := by
  have hpass : ∀ (Ls : List (Metric m)) (C : EqCons m) (Y : Cur m) (k : ℕ), Y.pts ≠ [] → ∃ xd Y', stretchPass o C Y k Ls = .ok (xd, Y') ∧ Y'.pts ≠ [] := by
    intro Ls
    induction Ls with
    | nil => exact fun C Y k hY => ⟨[], Y, rfl, hY⟩
    | cons L Ls ih =>
      intro C Y k hY
      obtain ⟨V, hV, hV1⟩ := hv C Y.pts L (2 * Y.len) hY
      obtain ⟨p, hp1⟩ := (farthest_ok_iff L Y.pts V).2 ⟨hY, hV⟩
      have hb : blockCandidate o C Y L = .val p := by
        unfold blockCandidate
        simp only [hV1, hp1]
      obtain ⟨xd, Y', h1, h2⟩ := ih C (.cand p.1 p.2) (k + 1) (by simp [Cur.pts])
      refine ⟨⟨p.1, p.2, L, k⟩ :: xd, Y', ?_, h2⟩
      rw [stretchPass, hb]
      simp only [assign, entryOf, h1]
      rfl
  have hloop : ∀ (n : ℕ) (C : EqCons m) (Y : Cur m) (Ls : List (Metric m)), Y.pts ≠ [] → ∃ C', stretchLoop o n C Y Ls = .ok C' := by
    intro n
    induction n with
    | zero => exact fun C Y Ls _ => ⟨C, rfl⟩
    | succ n ih =>
      intro C Y Ls hY
      cases Ls with
      | nil => exact ⟨C, rfl⟩
      | cons L Ls =>
        obtain ⟨xd, Y', h1, h2⟩ := hpass (L :: Ls) C Y 0 hY
        rw [stretchLoop, h1]
        cases xd with
        | nil => exact ⟨C, rfl⟩
        | cons a l =>
          simp only
          cases hpt : o.point (C ++ [((argmaxL Entry.d a l).L, (argmaxL Entry.d a l).x)]) with
          | raised e => exact absurd hpt (hp _ _)
          | caught => exact ⟨_, rfl⟩
          | val b =>
            cases b
            · exact ih _ _ _ h2
            · exact ⟨_, rfl⟩
  exact hloop _ _ _ _ hX

/-! ## Disagreements -/

/-- **C103, disagreement**: an exception that is caught for the first metric is not skipped: the variable `d` does not exist yet. -/
theorem stretch_caught_false (o : StretchOracle m) (X : List (Lip.Pt m)) (L : Metric m) (Ls : List (Metric m)) (h : o.verts [] X L (2 * X.length) = .caught) :
    stretchDomain o X (L :: Ls) = .error .nameError := by
  have hb : blockCandidate o [] (.rows X) L = .caught := by
    unfold blockCandidate
    simp only [Cur.pts, Cur.len, h]
  unfold stretchDomain
  rw [List.length_cons, stretchLoop, stretchPass, hb]
  simp only [assign, entryOf]

/-- The interval `[0, 1]`. -/
def interval01 : Set (Lip.Pt 1) := {x | 0 ≤ x 0 ∧ x 0 ≤ 1}

/-- Scalings of the line. -/
def metric1 (c : ℝ) : Metric 1 := ⟨1, Matrix.of fun _ _ => c⟩

theorem ldist_metric1 (c : ℝ) (x y : Lip.Pt 1) : Lip.ldist (metric1 c).2 x y = |c * x 0 - c * y 0| := by
  show Lip.nrm ((Matrix.of fun (_ _ : Fin 1) => c) *ᵥ x - (Matrix.of fun (_ _ : Fin 1) => c) *ᵥ y) = _
  rw [Lip.nrm]
  simp [mulVec, dotProduct, Real.sqrt_mul_self_eq_abs]

theorem pt1_ext {x y : Lip.Pt 1} (h : x 0 = y 0) : x = y := by
  funext i
  rw [Subsingleton.elim i 0, h]

/-- **C103, disagreement**: after the first metric the samples are forgotten (the variable `X` is overwritten by the candidate): for the samples 0 and 1 of the
interval and two scalings of the line the stretched domain consists of one of the *samples*, for every exact search; the farthest point is the midpoint. -/
theorem stretch_forgets_false (o : StretchOracle 1) (hv : ExactVerts interval01 o) (hp : ExactPoint interval01 o) :
    ∃ x, (x = ![0] ∨ x = ![1]) ∧ stretchDomain o [![0], ![1]] [metric1 1, metric1 2] = .ok [(metric1 2, x)] ∧ Slice interval01 [(metric1 2, x)] = {x} ∧
      ∀ c, Farthest interval01 (metric1 c) [![0], ![1]] ![1 / 2] := by
  have hdom : (Slice interval01 []).Nonempty := by
    rw [slice_nil]
    exact ⟨![0], by simp [interval01]⟩
  have hnear2 : ∀ (c : ℝ) (y : Lip.Pt 1), nearest (metric1 c).2 [![0], ![1]] y = min |c * y 0| |c - c * y 0| := by
    intro c y
    simp only [nearest, List.map_cons, List.map_nil, ldist_metric1]
    simp [minL, abs_sub_comm]
  have hmid : ∀ c, Farthest interval01 (metric1 c) [![0], ![1]] ![1 / 2] := by
    intro c
    refine ⟨by constructor <;> norm_num, fun y hy => ?_⟩
    rw [hnear2, hnear2]
    have e1 : |c * (![1 / 2] : Lip.Pt 1) 0| = |c| / 2 := by
      rw [show c * (![1 / 2] : Lip.Pt 1) 0 = c / 2 by simp [div_eq_mul_inv], abs_div]
      norm_num
    have e2 : |c - c * (![1 / 2] : Lip.Pt 1) 0| = |c| / 2 := by
      rw [show c - c * (![1 / 2] : Lip.Pt 1) 0 = c / 2 by simp; ring, abs_div]
      norm_num
    rw [e1, e2, min_self, show c - c * y 0 = c * (1 - y 0) by ring, abs_mul, abs_mul, abs_of_nonneg hy.1, abs_of_nonneg (sub_nonneg.2 hy.2)]
    have hc := abs_nonneg c
    rcases le_total (y 0) (1 / 2) with h | h
    · exact (min_le_left _ _).trans (by nlinarith)
    · exact (min_le_right _ _).trans (by nlinarith)
  -- the first metric
  obtain ⟨V, h1, h2, v, hvV, hfar⟩ := hv [] [![0], ![1]] (metric1 1) (2 * 2) (by simp) hdom
  obtain ⟨p, hp1⟩ := (farthest_ok_iff (metric1 1) [![0], ![1]] V).2 ⟨by simp, List.ne_nil_of_mem hvV⟩
  obtain ⟨_, h3, h4, h5⟩ := farthest_spec hp1
  have hpS : p.1 ∈ interval01 := (h2 _ h3).1
  have hp0 : p.1 0 = 1 / 2 := by
    have := ((hfar.2 ![1 / 2] (by rw [slice_nil]; exact (hmid 1).1)).trans (h5 v hvV))
    rw [hnear2, hnear2, one_mul, one_mul, abs_of_nonneg hpS.1, abs_of_nonneg (sub_nonneg.2 hpS.2)] at this
    norm_num at this
    linarith [this.1, this.2]
  have hd : p.2 = 1 / 2 := by
    rw [h4, hnear2, hp0]
    norm_num
  have hb1 : blockCandidate o [] (.rows [![0], ![1]]) (metric1 1) = .val p := by
    unfold blockCandidate
    simp only [Cur.pts, Cur.len, List.length_cons, List.length_nil]
    rw [h1]
    simp only [hp1]
  -- the second metric
  have hnear1 : ∀ y : Lip.Pt 1, nearest (metric1 2).2 [p.1] y = |1 - 2 * y 0| := by
    intro y
    simp only [nearest, List.map_cons, List.map_nil, ldist_metric1, hp0]
    simp [minL]
  obtain ⟨W, k1, k2, w, hwW, kfar⟩ := hv [] [p.1] (metric1 2) (2 * 1) (by simp) hdom
  obtain ⟨q, hq1⟩ := (farthest_ok_iff (metric1 2) [p.1] W).2 ⟨by simp, List.ne_nil_of_mem hwW⟩
  obtain ⟨_, k3, k4, k5⟩ := farthest_spec hq1
  have hqS : q.1 ∈ interval01 := (k2 _ k3).1
  have hq0 : (1 : ℝ) ≤ |1 - 2 * q.1 0| := by
    have := ((kfar.2 ![0] (by rw [slice_nil]; simp [interval01])).trans (k5 w hwW))
    rw [hnear1, hnear1] at this
    simpa using this
  have hqd : p.2 < q.2 := by
    rw [hd, k4, hnear1]
    linarith
  have hqx : q.1 = ![0] ∨ q.1 = ![1] := by
    obtain ⟨ha, hb⟩ := hqS
    rcases le_abs.1 hq0 with h | h
    · left
      exact pt1_ext (by simp; linarith)
    · right
      exact pt1_ext (by simp; linarith)
  have hb2 : blockCandidate o [] (.cand p.1 p.2) (metric1 2) = .val q := by
    unfold blockCandidate
    simp only [Cur.pts, Cur.len]
    rw [k1]
    simp only [hq1]
  have hpass : stretchPass o [] (.rows [![0], ![1]]) 0 [metric1 1, metric1 2] = .ok ([⟨p.1, p.2, metric1 1, 0⟩, ⟨q.1, q.2, metric1 2, 1⟩], .cand q.1 q.2) := by
    rw [stretchPass, hb1]
    simp only [assign, entryOf]
    rw [stretchPass, hb2]
    simp only [assign, entryOf, stretchPass]
    rfl
  have hslice : Slice interval01 [(metric1 2, q.1)] = {q.1} := by
    ext y
    simp only [Slice, Meets, Set.mem_setOf_eq, List.mem_singleton, forall_eq, Set.mem_singleton_iff]
    constructor
    · rintro ⟨_, h⟩
      have := congrFun h (0 : Fin 1)
      simp [metric1, mulVec, dotProduct] at this
      exact pt1_ext this
    · rintro rfl
      exact ⟨hqS, rfl⟩
  obtain ⟨b, hbp, hbs⟩ := hp [(metric1 2, q.1)] (by rw [hslice]; exact ⟨_, rfl⟩)
  have hbt : b = true := hbs.2 (by rw [hslice]; exact Set.subsingleton_singleton)
  refine ⟨q.1, hqx, ?_, hslice, hmid⟩
  unfold stretchDomain
  rw [show [metric1 1, metric1 2].length = 1 + 1 from rfl, stretchLoop, hpass]
  simp only [argmaxL, if_pos hqd, List.nil_append, hbp, hbt]

/-- In this case the sample, if there is one, is a sample that was there already. -/
theorem stretchSample_repeats_false (o : StretchOracle 1) (hv : ExactVerts interval01 o) (hp : ExactPoint interval01 o) (hs : StretchSpec interval01 o) (x : Lip.Pt 1)
    (h : stretchSample o [![0], ![1]] [metric1 1, metric1 2] = .ok x) : x ∈ [![0], ![1]] := by
  obtain ⟨_, C, _, _, hC, _, _, hx, _⟩ := stretchSample_spec hs h
  obtain ⟨y, hy, hC', hsl, _⟩ := stretch_forgets_false o hv hp
  rw [hC] at hC'
  cases hC'
  rw [hsl] at hx
  obtain rfl : x = y := hx
  simpa using hy

/-! ## Exact parameters exist -/

theorem continuous_nearest {k : ℕ} (L : Matrix (Fin k) (Fin m) ℝ) (X : List (Lip.Pt m)) : Continuous (nearest L X) := by
  have hd : ∀ x : Lip.Pt m, Continuous fun v => Lip.ldist L x v := by
    intro x
    unfold Lip.ldist Lip.nrm
    refine Real.continuous_sqrt.comp ?_
    have : Continuous fun v : Lip.Pt m => L *ᵥ x - L *ᵥ v := continuous_const.sub (Continuous.matrix_mulVec continuous_const continuous_id)
    exact this.dotProduct this
  cases X with
  | nil => exact continuous_const
  | cons x X =>
    have key : ∀ (l : List (Lip.Pt m)) (g : Lip.Pt m → ℝ), Continuous g → Continuous fun v => (l.map fun y => Lip.ldist L y v).foldl min (g v) := by
      intro l
      induction l with
      | nil => exact fun g hg => hg
      | cons y l ih => exact fun g hg => ih (fun v => min (g v) (Lip.ldist L y v)) (hg.min (hd y))
    exact key X _ (hd x)

theorem slice_compact {S : Set (Lip.Pt m)} (hS : IsCompact S) (C : EqCons m) : IsCompact (Slice S C) := by
  have hclosed : IsClosed {y : Lip.Pt m | Meets C y} := by
    have : {y : Lip.Pt m | Meets C y} = ⋂ q ∈ C, {y | q.1.2 *ᵥ y = q.1.2 *ᵥ q.2} := by
      ext y
      simp [Meets]
    rw [this]
    exact isClosed_biInter fun q _ => isClosed_eq (Continuous.matrix_mulVec continuous_const continuous_id) continuous_const
  exact hS.inter_right hclosed

/-- For a compact domain there are parameters that meet all specifications. -/
theorem exists_stretch {S : Set (Lip.Pt m)} (hS : IsCompact S) : ∃ o : StretchOracle m, StretchSpec S o ∧ ExactVerts S o ∧ ExactPoint S o ∧
    ∀ C, (Slice S C).Nonempty → ∃ x ∈ Slice S C, o.sample C = .ok [x] ∧ ∀ X X0, o.final C X X0 = .ok X0 := by
  classical
  have hmax : ∀ C X (L : Metric m), (Slice S C).Nonempty → ∃ v, Farthest (Slice S C) L X v := by
    intro C X L hne
    obtain ⟨v, hv, hm⟩ := (slice_compact hS C).exists_isMaxOn hne (continuous_nearest L.2 X).continuousOn
    exact ⟨v, hv, fun y hy => hm hy⟩
  refine ⟨{ verts := fun C X L _ => if h : (Slice S C).Nonempty then .val [(hmax C X L h).choose] else .caught
            point := fun C => if (Slice S C).Nonempty then .val (decide (Slice S C).Subsingleton) else .caught
            sample := fun C => if h : (Slice S C).Nonempty then .ok [h.choose] else .error .emptyDomain
            final := fun _ _ X0 => .ok X0 }, ⟨?_, ?_, ?_, ?_⟩, ?_, ?_, ?_⟩
  · intro C X L n V h v hv
    simp only at h
    split at h
    · rename_i hne
      cases h
      rw [List.mem_singleton] at hv
      rw [hv]
      exact (hmax C X L hne).choose_spec.1
    · cases h
  · intro C b h
    simp only at h
    split at h
    · rename_i hne; exact hne
    · cases h
  · intro C V h v hv
    simp only at h
    split at h
    · rename_i hne
      cases h
      rw [List.mem_singleton] at hv
      rw [hv]
      exact hne.choose_spec
    · cases h
  · intro C X X0 V h hX0
    cases h
    exact hX0
  · intro C X L n _ hne
    refine ⟨[(hmax C X L hne).choose], dif_pos hne, ?_, _, List.mem_singleton.2 rfl, (hmax C X L hne).choose_spec⟩
    intro v hv
    rw [List.mem_singleton.1 hv]
    exact (hmax C X L hne).choose_spec.1
  · intro C hne
    exact ⟨_, if_pos hne, by simp⟩
  · intro C hne
    exact ⟨hne.choose, hne.choose_spec, dif_pos hne, fun _ _ => rfl⟩

theorem interval01_compact : IsCompact interval01 := by
  have : interval01 = Set.Icc (fun _ => 0) (fun _ => 1) := by
    ext x
    simp only [interval01, Set.mem_setOf_eq, Set.mem_Icc, Pi.le_def, Fin.forall_fin_one]
  rw [this]
  exact isCompact_Icc

/-- All hypotheses can be met, and the sample exists: it repeats one of the two samples. -/
example : ∃ (o : StretchOracle 1) (x : Lip.Pt 1), StretchSpec interval01 o ∧ ExactVerts interval01 o ∧ ExactPoint interval01 o ∧
    stretchSample o [![0], ![1]] [metric1 1, metric1 2] = .ok x ∧ x ∈ [![0], ![1]] := by
  obtain ⟨o, h1, h2, h3, h4⟩ := exists_stretch interval01_compact
  obtain ⟨x, _, hC, hsl, _⟩ := stretch_forgets_false o h2 h3
  obtain ⟨y, _, hs, hf⟩ := h4 [(metric1 2, x)] (by rw [hsl]; exact ⟨_, rfl⟩)
  obtain ⟨p, hp⟩ := (farthest_ok_iff ⟨1, 1⟩ [![0], ![1]] [y]).2 ⟨by simp, by simp⟩
  have h : stretchSample o [![0], ![1]] [metric1 1, metric1 2] = .ok p.1 := by
    unfold stretchSample
    simp only [hC, hs, hf, hp]
    rfl
  exact ⟨o, p.1, h1, h2, h3, h, stretchSample_repeats_false o h2 h3 h1 _ h⟩

end Verif.Samp
