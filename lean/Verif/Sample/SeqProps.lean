import Verif.Sample.SeqModel
import Verif.Sample.ScaleProps
import Verif.Sample.InitialProps

/-!
# C99: `seq_maximin_sample`
-/

namespace Verif.Samp

open Verif Verif.Domain Verif.Geo Matrix

variable {m : ℕ}

/-! ## Specification -/

/-- `x` meets the added constraints. -/
def Meets (C : EqCons m) (x : Lip.Pt m) : Prop := ∀ q ∈ C, q.1.2 *ᵥ x = q.1.2 *ᵥ q.2

/-- Contracts: the emptiness test is right, and the candidates lie in the domain and meet the constraints. -/
structure SeqCtx.Exact (S : Set (Lip.Pt m)) (c : SeqCtx m) : Prop where
  empty_iff : ∀ C, c.empty C = true ↔ ¬∃ x ∈ S, Meets C x
  cand_mem : ∀ C X, c.cand C = .ok X → ∀ x ∈ X, x ∈ S ∧ Meets C x

/-- Contracts of the oracles of a call. -/
structure SeqOracle.Exact (S : Set (Lip.Pt m)) (o : SeqOracle m) : Prop where
  empty_iff : ∀ C, o.empty C = true ↔ ¬∃ x ∈ S, Meets C x
  cand_mem : ∀ C X, o.cand C = .ok X → ∀ x ∈ X, x ∈ S ∧ Meets C x
  raw_mem : ∀ L V, o.raw L = .ok V → ∀ x ∈ V, x ∈ S
  sort_perm : ∀ α key (l : List α), (o.sort α key l).Perm l
  sort_sorted : ∀ α key (l : List α), (o.sort α key l).Pairwise fun a b => key a ≤ key b

theorem SeqOracle.Exact.ctx {S : Set (Lip.Pt m)} {o : SeqOracle m} (h : o.Exact S) (Ls : List (Metric m)) (V : List (List (Lip.Pt m))) (Xhat : List (Lip.Pt m)) :
    (seqCtx o Ls V Xhat).Exact S := ⟨h.empty_iff, h.cand_mem⟩

/-- The contracts can be met on any nonempty set. -/
theorem exists_seqOracle {S : Set (Lip.Pt m)} {p : Lip.Pt m} (hp : p ∈ S) : ∃ o : SeqOracle m, o.Exact S ∧ (∀ L, o.raw L = .ok [p]) ∧
    ∀ C, o.empty C = false → ∃ y, o.cand C = .ok [y] := by
  classical
  refine ⟨⟨fun C => decide (¬∃ x ∈ S, Meets C x), fun C => if h : ∃ x ∈ S, Meets C x then .ok [h.choose] else .ok [], fun _ => .ok [p],
    fun α key l => l.insertionSort fun a b => key a ≤ key b⟩, ⟨fun C => by simp, fun C X hX x hx => ?_, fun L V hV x hx => ?_, fun α key l => List.perm_insertionSort _ _,
    fun α key l => ?_⟩, fun L => rfl, fun C hC => ?_⟩
  · simp only at hX
    split_ifs at hX with h
    · cases hX
      rw [List.mem_singleton] at hx
      subst hx
      exact h.choose_spec
    · cases hX; simp at hx
  · cases hV
    rw [List.mem_singleton] at hx
    exact hx ▸ hp
  · haveI : Std.Total fun a b : α => key a ≤ key b := ⟨fun a b => le_total _ _⟩
    haveI : IsTrans α fun a b => key a ≤ key b := ⟨fun a b c => le_trans⟩
    exact List.pairwise_insertionSort _ _
  · have h : ∃ x ∈ S, Meets C x := by simpa using hC
    simp only [dif_pos h]
    exact ⟨_, rfl⟩

/-! ## The candidates -/

theorem addCons_spec (empty : EqCons m → Bool) (pick : ℕ → Metric m × Lip.Pt m) : ∀ (ks : List ℕ) (C : EqCons m) (F : List ℕ),
    ∃ j ≤ ks.length, (addCons empty pick ks C F).1 = C ++ (ks.take j).map pick ∧ (addCons empty pick ks C F).2 = F ++ ks.take j ∧
      (∀ i < j, empty (C ++ (ks.take (i + 1)).map pick) = false) ∧ (j < ks.length → empty (C ++ (ks.take (j + 1)).map pick) = true)
  | [], C, F => ⟨0, by simp [addCons]⟩
  | k :: ks, C, F => by
    rw [addCons]
    split_ifs with h
    · exact ⟨0, by simp, by simp, by simp, by simp, fun _ => by simpa using h⟩
    · obtain ⟨j, h1, h2, h3, h4, h5⟩ := addCons_spec empty pick ks (C ++ [pick k]) (F ++ [k])
      refine ⟨j + 1, by simpa using h1, by simpa using h2, by simpa using h3, fun i hi => ?_, fun hj => ?_⟩
      · cases i with
        | zero => simpa using h
        | succ i => simpa using h4 i (by omega)
      · simpa using h5 (by simpa using hj)

theorem addCons_nonempty {empty : EqCons m → Bool} (h0 : empty [] = false) (pick : ℕ → Metric m × Lip.Pt m) (ks : List ℕ) :
    empty (addCons empty pick ks [] []).1 = false := by
  obtain ⟨j, -, h1, -, h2, -⟩ := addCons_spec empty pick ks [] []
  rw [h1]
  cases j with
  | zero => simpa using h0
  | succ j => exact h2 j (by omega)

/-- The constraint sets the candidates come from. -/
def Tried (c : SeqCtx m) (idx : List (List ℕ)) (C : EqCons m) : Prop := ∃ i ∈ idx, C = (addCons c.empty (c.pick i) (c.order i) [] []).1

theorem nextNew_spec {c : SeqCtx m} {used : List (List ℤ)} : ∀ {idx : List (List ℕ)} {C : EqCons m} {F : List ℕ} {f : List ℤ} {rest : List (List ℕ)},
    nextNew c used idx = some (C, F, f, rest) → ∃ pre i, idx = pre ++ i :: rest ∧ C = (addCons c.empty (c.pick i) (c.order i) [] []).1 ∧
      F = (addCons c.empty (c.pick i) (c.order i) [] []).2 ∧ f = foundIdx i F ∧ f ∉ used
  | [], C, F, f, rest, h => by simp [nextNew] at h
  | i :: idx, C, F, f, rest, h => by
    simp only [nextNew] at h
    split_ifs at h with hu
    · obtain ⟨pre, i', h1, h2⟩ := nextNew_spec h
      exact ⟨i :: pre, i', by simp [h1], h2⟩
    · simp only [Option.some.injEq, Prod.mk.injEq] at h
      obtain ⟨rfl, rfl, rfl, rfl⟩ := h
      exact ⟨[], i, by simp, rfl, rfl, rfl, hu⟩

theorem seqLoop_mem {S : Set (Lip.Pt m)} {c : SeqCtx m} (hc : c.Exact S) {Ls : List (Metric m)} {Xhat : List (Lip.Pt m)} {slack : ℝ} {idx0 : List (List ℕ)} : ∀ (fuel : ℕ)
    (used : List (List ℤ)) (idx : List (List ℕ)) (X : List (Lip.Pt m)) {R : List (Lip.Pt m)}, (∀ i ∈ idx, i ∈ idx0) → seqLoop c Ls Xhat slack fuel used idx X = .ok R →
    X <+: R ∧ ∀ x ∈ R, x ∈ X ∨ (x ∈ S ∧ ∃ C, Tried c idx0 C ∧ Meets C x)
  | 0, used, idx, X, R, _, h => by
    simp only [seqLoop, Except.ok.injEq] at h
    subst h
    exact ⟨List.prefix_rfl, fun x hx => .inl hx⟩
  | fuel + 1, used, idx, X, R, hi, h => by
    simp only [seqLoop] at h
    split at h
    · simp only [Except.ok.injEq] at h
      subst h
      exact ⟨List.prefix_rfl, fun x hx => .inl hx⟩
    · rename_i C F f rest hn
      obtain ⟨pre, i, e, hC, -, -, -⟩ := nextNew_spec hn
      have hT : Tried c idx0 C := ⟨i, hi i (by simp [e]), hC⟩
      split at h
      · simp at h
      · simp at h
      · rename_i y ys hy
        have hin : ∀ x ∈ y :: ys, x ∈ S ∧ ∃ C, Tried c idx0 C ∧ Meets C x := fun x hx =>
          ⟨(hc.cand_mem C _ hy x hx).1, C, hT, (hc.cand_mem C _ hy x hx).2⟩
        split_ifs at h
        · simp only [Except.ok.injEq] at h
          subst h
          refine ⟨List.prefix_append _ _, fun x hx => ?_⟩
          rcases List.mem_append.1 hx with hx | hx
          · exact .inl hx
          · exact .inr (hin x hx)
        · obtain ⟨h1, h2⟩ := seqLoop_mem hc fuel _ rest _ (fun j hj => hi j (by simp [e, hj])) h
          refine ⟨(List.prefix_append _ _).trans h1, fun x hx => ?_⟩
          rcases h2 x hx with hx | hx
          · rcases List.mem_append.1 hx with hx | hx
            · exact .inl hx
            · exact .inr (hin x hx)
          · exact .inr hx

theorem seqPick_spec {Ls : List (Metric m)} {Xhat : List (Lip.Pt m)} {slack : ℝ} {X : List (Lip.Pt m)} {x : Lip.Pt m} (h : seqPick Ls Xhat slack X = .ok x) :
    x ∈ select X (uniquePoints X) ∧ (∃ y ∈ select X (uniquePoints X), (∀ z ∈ select X (uniquePoints X), prodScore Ls Xhat z ≤ prodScore Ls Xhat y) ∧
      slack * prodScore Ls Xhat y ≤ prodScore Ls Xhat x ∧
      ∀ z ∈ select X (uniquePoints X), slack * prodScore Ls Xhat y ≤ prodScore Ls Xhat z →
        nearest (1 : Matrix (Fin m) (Fin m) ℝ) Xhat z ≤ nearest (1 : Matrix (Fin m) (Fin m) ℝ) Xhat x) := by
  classical
  simp only [seqPick] at h
  set K := select X (uniquePoints X) with hK
  set G := K.filter fun x => decide (maxL (K.map (prodScore Ls Xhat)) * slack ≤ prodScore Ls Xhat x) with hG
  split at h
  · rename_i x' hx
    cases h
    have hxG : x ∈ G := List.mem_of_getElem? hx
    obtain ⟨hxK, hxs⟩ := List.mem_filter.1 hxG
    refine ⟨hxK, ?_⟩
    obtain ⟨m1, m2⟩ := maxL_spec (l := K.map (prodScore Ls Xhat)) (List.ne_nil_of_mem (List.mem_map_of_mem hxK))
    obtain ⟨y, hy, ey⟩ := List.mem_map.1 m1
    rw [← ey] at m2 hxs hG
    refine ⟨y, hy, fun z hz => m2 _ (List.mem_map_of_mem hz), by rw [mul_comm]; simpa using hxs, fun z hz hzs => ?_⟩
    have hzG : z ∈ G := by
      rw [hG]
      exact List.mem_filter.2 ⟨hz, by rw [mul_comm] at hzs; simpa using hzs⟩
    obtain ⟨j, hj⟩ := List.mem_iff_getElem?.1 hzG
    have hjl : j < G.length := (List.getElem?_eq_some_iff.1 hj).1
    have := (argminFrom_spec (fun j => -nearest (1 : Matrix (Fin m) (Fin m) ℝ) Xhat (G.getD j 0)) (List.range G.length) 0).2 j (by simp [hjl])
    simp only [List.getD_eq_getElem?_getD, hj, Option.getD_some] at this hx
    rw [hx] at this
    simpa using this
  · simp at h

theorem seqSearch_spec {S : Set (Lip.Pt m)} {c : SeqCtx m} (hc : c.Exact S) {Ls : List (Metric m)} {Xhat : List (Lip.Pt m)} {slack : ℝ} {idx : List (List ℕ)} {x : Lip.Pt m}
    (h : seqSearch c Ls Xhat slack idx = .ok x) : x ∈ S ∧ (∃ C, Tried c idx C ∧ Meets C x) ∧
    ∃ X, seqLoop c Ls Xhat slack 100 [] idx [] = .ok X ∧ ∃ y ∈ select X (uniquePoints X), (∀ z ∈ select X (uniquePoints X), prodScore Ls Xhat z ≤ prodScore Ls Xhat y) ∧
      slack * prodScore Ls Xhat y ≤ prodScore Ls Xhat x ∧
      ∀ z ∈ select X (uniquePoints X), slack * prodScore Ls Xhat y ≤ prodScore Ls Xhat z →
        nearest (1 : Matrix (Fin m) (Fin m) ℝ) Xhat z ≤ nearest (1 : Matrix (Fin m) (Fin m) ℝ) Xhat x := by
  simp only [seqSearch] at h
  split at h
  · simp at h
  · simp at h
  · rename_i X _ hX
    obtain ⟨h1, h2⟩ := seqPick_spec h
    obtain ⟨-, h3⟩ := seqLoop_mem hc 100 [] idx [] (fun i hi => hi) hX
    have := (h3 x (select_subset _ _ x h1)).resolve_left (by simp)
    exact ⟨this.1, this.2, X, hX, h2⟩

/-- The last point is always kept. -/
theorem unique_ne {X : List (Lip.Pt m)} (h : X ≠ []) : select X (uniquePoints X) ≠ [] := by
  obtain ⟨x, hx⟩ := List.exists_mem_of_ne_nil _ h
  obtain ⟨y, hy, -⟩ := unique_linked X x hx
  exact List.ne_nil_of_mem hy

/-- C99: with a slack of at most one the choice succeeds whenever there is a candidate. -/
theorem seqPick_ok {Ls : List (Metric m)} {Xhat : List (Lip.Pt m)} {slack : ℝ} (hs : slack ≤ 1) {X : List (Lip.Pt m)} (hX : X ≠ []) :
    ∃ x, seqPick Ls Xhat slack X = .ok x := by
  classical
  simp only [seqPick]
  set K := select X (uniquePoints X) with hK
  obtain ⟨m1, m2⟩ := maxL_spec (l := K.map (prodScore Ls Xhat)) (by simpa using unique_ne hX)
  obtain ⟨y, hy, ey⟩ := List.mem_map.1 m1
  have h0 : 0 ≤ prodScore Ls Xhat y := by
    refine List.prod_nonneg fun a ha => ?_
    obtain ⟨L, -, rfl⟩ := List.mem_map.1 ha
    rcases Xhat with _ | ⟨b, t⟩
    · simp [nearest, minL]
    · obtain ⟨q, -, e⟩ := nearest_mem L.2 (X := b :: t) (by simp) y
      rw [e]; exact ldist_nn _ _ _
  set G := K.filter fun x => decide (maxL (K.map (prodScore Ls Xhat)) * slack ≤ prodScore Ls Xhat x) with hG
  have hyG : y ∈ G := List.mem_filter.2 ⟨hy, by rw [← ey]; simpa using by nlinarith⟩
  have hmem := (argminFrom_spec (fun j => -nearest (1 : Matrix (Fin m) (Fin m) ℝ) Xhat (G.getD j 0)) (List.range G.length) 0).1
  set i := argminFrom (fun j => -nearest (1 : Matrix (Fin m) (Fin m) ℝ) Xhat (G.getD j 0)) 0 (List.range G.length)
  have hi : i < G.length := by
    rcases List.mem_cons.1 hmem with h | h
    · rw [h]; exact List.length_pos_of_mem hyG
    · exact List.mem_range.1 h
  rw [List.getElem?_eq_getElem hi]
  exact ⟨_, rfl⟩

theorem seqLoop_ok {c : SeqCtx m} (h0 : c.empty [] = false) (hcand : ∀ C, c.empty C = false → ∃ y ys, c.cand C = .ok (y :: ys)) (Ls : List (Metric m)) (Xhat : List (Lip.Pt m)) (slack : ℝ) : ∀ (fuel : ℕ)
    (used : List (List ℤ)) (idx : List (List ℕ)) (X : List (Lip.Pt m)), ∃ R, seqLoop c Ls Xhat slack fuel used idx X = .ok R ∧ X <+: R
  | 0, used, idx, X => ⟨X, rfl, List.prefix_rfl⟩
  | fuel + 1, used, idx, X => by
    simp only [seqLoop]
    split
    · exact ⟨X, rfl, List.prefix_rfl⟩
    · rename_i C F f rest hn
      obtain ⟨pre, i, -, hC, -⟩ := nextNew_spec hn
      obtain ⟨y, ys, hy⟩ := hcand C (hC ▸ addCons_nonempty h0 _ _)
      rw [hy]
      simp only
      split_ifs
      · exact ⟨_, rfl, List.prefix_append _ _⟩
      · obtain ⟨R, h1, h2⟩ := seqLoop_ok h0 hcand Ls Xhat slack fuel (used ++ [f]) rest (X ++ y :: ys)
        exact ⟨R, h1, (List.prefix_append _ _).trans h2⟩

theorem seqSearch_ok {c : SeqCtx m} (h0 : c.empty [] = false) (hcand : ∀ C, c.empty C = false → ∃ y ys, c.cand C = .ok (y :: ys)) (Ls : List (Metric m)) (Xhat : List (Lip.Pt m)) {slack : ℝ} (hs : slack ≤ 1)
    {idx : List (List ℕ)} (hi : idx ≠ []) : ∃ x, seqSearch c Ls Xhat slack idx = .ok x := by
  obtain ⟨i, idx, rfl⟩ := List.exists_cons_of_ne_nil hi
  have : ∃ X, X ≠ [] ∧ seqLoop c Ls Xhat slack 100 [] (i :: idx) [] = .ok X := by
    rw [show (100 : ℕ) = 99 + 1 from rfl, seqLoop]
    simp only [nextNew, List.not_mem_nil, if_false, List.nil_append]
    obtain ⟨y, ys, hy⟩ := hcand (addCons c.empty (c.pick i) (c.order i) [] []).1 (addCons_nonempty h0 _ _)
    rw [hy]
    simp only
    split_ifs
    · exact ⟨_, by simp, rfl⟩
    · obtain ⟨R, h1, h2⟩ := seqLoop_ok h0 hcand Ls Xhat slack 99 [foundIdx i (addCons c.empty (c.pick i) (c.order i) [] []).2] idx (y :: ys)
      exact ⟨R, fun h => by rw [h] at h2; simpa using h2.length_le, h1⟩
  obtain ⟨X, h1, h2⟩ := this
  obtain ⟨x, hx⟩ := seqPick_ok (Ls := Ls) (Xhat := Xhat) hs h1
  refine ⟨x, ?_⟩
  rw [seqSearch, h2]
  cases X with
  | nil => exact absurd rfl h1
  | cons y ys => exact hx

theorem seqSearch_single {S : Set (Lip.Pt m)} {c : SeqCtx m} (hc : c.Exact S) {L : Metric m} {Xhat : List (Lip.Pt m)} {slack : ℝ} (hs : 0 ≤ slack) {v : Lip.Pt m}
    (hv : v ∈ S) {i : List ℕ} {idx : List (List ℕ)} (hpick : c.pick i 0 = (L, v)) (hord : c.order i = [0]) {x : Lip.Pt m}
    (hsep : ∀ X, seqLoop c [L] Xhat slack 100 [] (i :: idx) [] = .ok X → ∀ a ∈ X, ∀ b ∈ X, b ≠ a → atol < Lip.nrm (a - b))
    (h : seqSearch c [L] Xhat slack (i :: idx) = .ok x) : slack * nearest L.2 Xhat v ≤ nearest L.2 Xhat x := by
  obtain ⟨hxS, -, X, hXl, y, hy, hbest, hscore, -⟩ := seqSearch_spec hc h
  have hadd : addCons c.empty (c.pick i) (c.order i) [] [] = ([(L, v)], [0]) := by
    have he : c.empty [(L, v)] = false := by
      rw [← Bool.not_eq_true, hc.empty_iff]
      push Not
      exact ⟨v, hv, by simp [Meets]⟩
    simp [hord, addCons, hpick, he]
  -- a first candidate with the score of the vertex
  have hfirst : ∃ z ∈ X, nearest L.2 Xhat z = nearest L.2 Xhat v := by
    have hX2 := hXl
    rw [show (100 : ℕ) = 99 + 1 from rfl, seqLoop] at hX2
    simp only [nextNew, List.not_mem_nil, if_false, List.nil_append, hadd] at hX2
    split at hX2
    · simp at hX2
    · simp at hX2
    · rename_i z zs hz
      have hm := hc.cand_mem _ _ hz z (by simp)
      have hLz : L.2 *ᵥ z = L.2 *ᵥ v := hm.2 (L, v) (by simp)
      refine ⟨z, ?_, by simp only [nearest, Lip.ldist, hLz]⟩
      split_ifs at hX2
      · cases hX2; simp
      · obtain ⟨h1, -⟩ := seqLoop_mem hc (idx0 := idx) 99 _ idx _ (fun i hi => hi) hX2
        exact h1.subset (by simp)
  obtain ⟨z, hz, e⟩ := hfirst
  have hzK : z ∈ select X (uniquePoints X) := by
    have := unique_duplicates X z hz fun b hb hne => hsep X hXl z hz b hb hne
    exact List.count_pos_iff.1 (by omega)
  have hps : ∀ w, prodScore [L] Xhat w = nearest L.2 Xhat w := fun w => by simp [prodScore]
  have := hbest z hzK
  rw [hps, hps, e] at this
  rw [hps, hps] at hscore
  exact (mul_le_mul_of_nonneg_left this hs).trans hscore

/-! ## The call -/

theorem tuples_mem : ∀ (ns : List ℕ) (t : List ℕ), t ∈ tuples ns ↔ List.Forall₂ (fun a n => a < n) t ns
  | [], t => by
    constructor
    · intro h; rw [tuples, List.mem_singleton] at h; subst h; exact .nil
    · intro h; cases h; simp [tuples]
  | n :: ns, t => by
    simp only [tuples, List.mem_flatMap, List.mem_range, List.mem_map]
    constructor
    · rintro ⟨a, ha, u, hu, rfl⟩
      exact .cons ha ((tuples_mem ns u).1 hu)
    · intro h
      cases h with
      | cons h1 h2 => exact ⟨_, h1, _, (tuples_mem ns _).2 h2, rfl⟩

theorem two_le_maxVerts (n : ℕ) : 2 ≤ maxVerts n := le_max_left _ _

theorem metricVerts_mem {S : Set (Lip.Pt m)} {o : SeqOracle m} (h : o.Exact S) (L : Metric m) (Xhat raw : List (Lip.Pt m)) (x : Lip.Pt m) :
    x ∈ metricVerts o.sort L Xhat raw ↔ x ∈ select raw (uniquePoints (raw.map fun v => L.2 *ᵥ v)) := (h.sort_perm _ _ _).mem_iff

theorem metricVerts_ne {S : Set (Lip.Pt m)} {o : SeqOracle m} (h : o.Exact S) (L : Metric m) (Xhat : List (Lip.Pt m)) {raw : List (Lip.Pt m)} (hr : raw ≠ []) :
    metricVerts o.sort L Xhat raw ≠ [] := by
  have h1 : select (raw.map fun v => L.2 *ᵥ v) (uniquePoints (raw.map fun v => L.2 *ᵥ v)) ≠ [] := unique_ne (by simpa using hr)
  rw [← select_map] at h1
  obtain ⟨x, hx⟩ := List.exists_mem_of_ne_nil _ (show select raw (uniquePoints (raw.map fun v => L.2 *ᵥ v)) ≠ [] by simpa using h1)
  exact List.ne_nil_of_mem ((metricVerts_mem h L Xhat raw x).2 hx)

/-- C99: the point returned lies in the domain; among the candidates kept, all in the domain, its score is at least `slack` times the best one, and no candidate with such a score
is farther from the samples. -/
theorem seq_spec {S : Set (Lip.Pt m)} {o : SeqOracle m} (ho : o.Exact S) {Ls : List (Metric m)} {Xhat : List (Lip.Pt m)} {slack : ℝ} {x : Lip.Pt m}
    (h : seqMaximin o Ls Xhat slack = .ok x) : x ∈ S ∧ ∃ K : List (Lip.Pt m), (∀ z ∈ K, z ∈ S) ∧ x ∈ K ∧
      ∃ y ∈ K, (∀ z ∈ K, prodScore Ls Xhat z ≤ prodScore Ls Xhat y) ∧ slack * prodScore Ls Xhat y ≤ prodScore Ls Xhat x ∧
        ∀ z ∈ K, slack * prodScore Ls Xhat y ≤ prodScore Ls Xhat z →
          nearest (1 : Matrix (Fin m) (Fin m) ℝ) Xhat z ≤ nearest (1 : Matrix (Fin m) (Fin m) ℝ) Xhat x := by
  simp only [seqMaximin] at h
  split at h
  · simp at h
  · split_ifs at h
    rename_i R hR hne
    simp only [seqSearch] at h
    split at h
    · simp at h
    · simp at h
    · rename_i X _ hX
      obtain ⟨h1, y, hy, h2⟩ := seqPick_spec h
      obtain ⟨-, h3⟩ := seqLoop_mem (ho.ctx _ _ _) 100 [] _ [] (fun i hi => hi) hX
      have hS : ∀ z ∈ select X (uniquePoints X), z ∈ S := fun z hz => ((h3 z (select_subset _ _ z hz)).resolve_left (by simp)).1
      exact ⟨hS x h1, _, hS, h1, y, hy, h2⟩

/-- C99: the call succeeds if vertices exist for every metric and every domain tried yields candidates. -/
theorem seq_ok {S : Set (Lip.Pt m)} (hS : S.Nonempty) {o : SeqOracle m} (ho : o.Exact S) {Ls : List (Metric m)} (hL : Ls ≠ []) (hraw : ∀ L ∈ Ls, ∃ y ys, o.raw L = .ok (y :: ys))
    (hcand : ∀ C, o.empty C = false → ∃ y ys, o.cand C = .ok (y :: ys)) (Xhat : List (Lip.Pt m)) {slack : ℝ} (hs : slack ≤ 1) : ∃ x, seqMaximin o Ls Xhat slack = .ok x := by
  obtain ⟨R, hR⟩ := (mapE_ok_iff o.raw Ls).2 fun L hl => by obtain ⟨y, ys, h⟩ := hraw L hl; exact ⟨_, h⟩
  simp only [seqMaximin, hR, if_neg hL]
  have h0 : o.empty [] = false := by
    rw [← Bool.not_eq_true, ho.empty_iff]
    obtain ⟨p, hp⟩ := hS
    exact not_not.2 ⟨p, hp, by simp [Meets]⟩
  refine seqSearch_ok h0 hcand Ls Xhat hs ?_
  have hF : List.Forall₂ (fun L r => o.raw L = .ok r) Ls R := mapE_ok hR
  have hT : ∃ t, t ∈ tuples ((List.zipWith (fun L raw => metricVerts o.sort L Xhat raw) Ls R).map fun v => min v.length (maxVerts Ls.length)) := by
    have : ∀ n, ∃ t, t ∈ tuples ((List.zipWith (fun L raw => metricVerts o.sort L Xhat raw) Ls R).map fun v => min v.length (maxVerts n)) := by
      intro n
      clear hR hL
      induction hF with
      | nil => exact ⟨[], by simp [tuples]⟩
      | @cons L r Ls R h1 h2 ih =>
        obtain ⟨t, ht⟩ := ih fun L hl => hraw L (by simp [hl])
        obtain ⟨y, ys, hy⟩ := hraw L (by simp)
        rw [h1] at hy; cases hy
        refine ⟨0 :: t, ?_⟩
        rw [tuples_mem] at ht ⊢
        refine .cons ?_ ht
        exact lt_min (List.length_pos_of_ne_nil (metricVerts_ne ho L Xhat (by simp))) (lt_of_lt_of_le (by norm_num) (two_le_maxVerts n))
    exact this _
  obtain ⟨t, ht⟩ := hT
  exact List.ne_nil_of_mem ((ho.sort_perm _ _ _).mem_iff.2 ht)

/-- C99, one metric: the point returned is at least `slack` times as far from the samples as any of the vertices found, when the candidates are separated. -/
theorem seq_single {S : Set (Lip.Pt m)} {o : SeqOracle m} (ho : o.Exact S) {L : Metric m} {Xhat : List (Lip.Pt m)} {slack : ℝ} (hs : 0 ≤ slack)
    {raw : List (Lip.Pt m)} (hraw : o.raw L = .ok raw) {x : Lip.Pt m}
    (hsep : ∀ X, seqLoop (seqCtx o [L] [metricVerts o.sort L Xhat raw] Xhat) [L] Xhat slack 100 [] (seqIdx o [L] [metricVerts o.sort L Xhat raw] Xhat) [] = .ok X →
      ∀ a ∈ X, ∀ b ∈ X, b ≠ a → atol < Lip.nrm (a - b))
    (h : seqMaximin o [L] Xhat slack = .ok x) : ∀ w ∈ select raw (uniquePoints (raw.map fun v => L.2 *ᵥ v)), slack * nearest L.2 Xhat w ≤ nearest L.2 Xhat x := by
  intro w hw
  have hraws : ∀ v ∈ raw, v ∈ S := ho.raw_mem L raw hraw
  simp only [seqMaximin, mapE, hraw, List.zipWith_cons_cons, List.zipWith_nil_right] at h
  rw [if_neg (by simp)] at h
  set M := metricVerts o.sort L Xhat raw with hM
  have hwM : w ∈ M := (metricVerts_mem ho L Xhat raw w).2 hw
  have hMs : ∀ v ∈ M, v ∈ S := fun v hv => hraws v (select_subset _ _ v ((metricVerts_mem ho L Xhat raw v).1 hv))
  have hvd : ∀ i : ℕ, vertDist [L] [M] Xhat [i] 0 = nearest L.2 Xhat (M.getD i 0) := fun i => rfl
  -- the head of the vertex list is farthest
  obtain ⟨u, M', hMu⟩ := List.exists_cons_of_ne_nil (List.ne_nil_of_mem hwM)
  have hfar : nearest L.2 Xhat w ≤ nearest L.2 Xhat u := by
    have hp : M.Pairwise fun a b => -nearest L.2 Xhat a ≤ -nearest L.2 Xhat b := ho.sort_sorted _ _ _
    rw [hMu] at hp hwM
    rcases List.mem_cons.1 hwM with e | hw'
    · rw [e]
    · simpa using (List.pairwise_cons.1 hp).1 w hw'
  -- the first tuple
  have hz : [0] ∈ seqIdx o [L] [M] Xhat := by
    refine (ho.sort_perm _ _ _).mem_iff.2 ((tuples_mem _ _).2 (.cons ?_ .nil))
    exact lt_min (by simp [hMu]) (lt_of_lt_of_le (by norm_num) (two_le_maxVerts _))
  obtain ⟨i, idx, hidx⟩ := List.exists_cons_of_ne_nil (List.ne_nil_of_mem hz)
  have hi : i ∈ seqIdx o [L] [M] Xhat := by simp [hidx]
  have hi2 := (tuples_mem _ _).1 ((ho.sort_perm _ _ _).mem_iff.1 hi)
  obtain ⟨j, hj, rfl⟩ : ∃ j, j < M.length ∧ i = [j] := by
    simp only [List.map_cons, List.map_nil] at hi2
    cases hi2 with
    | cons h1 h2 => cases h2; exact ⟨_, (lt_min_iff.1 h1).1, rfl⟩
  have hbest : nearest L.2 Xhat u ≤ nearest L.2 Xhat (M.getD j 0) := by
    have hp : (seqIdx o [L] [M] Xhat).Pairwise fun a b =>
        -((List.range [L].length).map (vertDist [L] [M] Xhat a)).prod ≤ -((List.range [L].length).map (vertDist [L] [M] Xhat b)).prod := ho.sort_sorted _ _ _
    rw [hidx] at hp hz
    rcases List.mem_cons.1 hz with e | hz
    · rw [← show (0 : ℕ) = j by simpa using e, hMu]; simp
    · have := (List.pairwise_cons.1 hp).1 _ hz
      simp only [List.length_cons, List.length_nil, zero_add, List.range_one, List.map_cons, List.map_nil, List.prod_cons, List.prod_nil, mul_one, neg_le_neg_iff, hvd] at this
      simpa [hMu] using this
  have hv : M.getD j 0 ∈ S := hMs _ (by rw [List.getD_eq_getElem?_getD, List.getElem?_eq_getElem hj]; exact List.getElem_mem hj)
  have hord : (seqCtx o [L] [M] Xhat).order [j] = [0] := by
    have := ho.sort_perm _ (fun k => -vertDist [L] [M] Xhat [j] k) (List.range 1)
    simpa [seqCtx] using this
  rw [hidx] at h hsep
  have := seqSearch_single (ho.ctx [L] [M] Xhat) hs hv (i := [j]) (by simp [seqCtx, vertOf]) hord hsep h
  exact (mul_le_mul_of_nonneg_left (hfar.trans hbest) hs).trans this

/-- C99: without samples a corner of the domain is returned, farthest in a direction spanned by the dominant singular vectors. -/
theorem seqFirst_spec {n : ℕ} {S : Set (Lip.Pt m)} {corner : Lip.Pt m → Except Err (Lip.Pt m)} (hc : CornerOf S corner) {V : Fin n → Lip.Pt m} {g : Fin n → ℝ} {x : Lip.Pt m}
    (h : seqFirst corner V g = .ok x) : x ∈ S ∧ ∃ u ∈ Submodule.span ℝ (Set.range V), ∀ z ∈ S, u ⬝ᵥ z ≤ u ⬝ᵥ x := by
  obtain ⟨h1, h2⟩ := hc _ _ h
  refine ⟨h1, _, ?_, h2⟩
  exact Submodule.sum_mem _ fun i _ => Submodule.smul_mem _ _ (Submodule.subset_span ⟨i, rfl⟩)

/-! ## Concrete cases -/

/-- The hypotheses of `seq_ok` and `seq_single` can be met on any domain, with any of its points as the vertex. -/
example {S : Set (Lip.Pt m)} {p : Lip.Pt m} (hp : p ∈ S) (L : Metric m) (Xhat : List (Lip.Pt m)) {slack : ℝ} (h0 : 0 ≤ slack) (h1 : slack ≤ 1) :
    ∃ o : SeqOracle m, o.Exact S ∧ ∃ x, seqMaximin o [L] Xhat slack = .ok x ∧ slack * nearest L.2 Xhat p ≤ nearest L.2 Xhat x := by
  obtain ⟨o, ho, hraw, hcand⟩ := exists_seqOracle hp
  obtain ⟨x, hx⟩ := seq_ok ⟨p, hp⟩ ho (Ls := [L]) (by simp) (fun L _ => ⟨p, [], hraw L⟩) (fun C hC => by obtain ⟨y, h⟩ := hcand C hC; exact ⟨y, [], h⟩) Xhat h1
  have hK : select [p] (uniquePoints (([p] : List (Lip.Pt m)).map fun v => L.2 *ᵥ v)) = [p] := by
    refine (List.sublist_singleton.1 (select_sublist _ _)).resolve_left fun h => ?_
    have := metricVerts_ne ho L Xhat (raw := [p]) (by simp)
    exact this (List.eq_nil_iff_forall_not_mem.2 fun y hy => by rw [metricVerts_mem ho, h] at hy; simp at hy)
  refine ⟨o, ho, x, hx, seq_single ho h0 (hraw L) (fun X hX => ?_) hx p (by rw [hK]; simp)⟩
  have hM : metricVerts o.sort L Xhat [p] = [p] := by
    have := ho.sort_perm _ (fun v => -nearest L.2 Xhat v) (select [p] (uniquePoints (([p] : List (Lip.Pt m)).map fun v => L.2 *ᵥ v)))
    rw [hK] at this
    rw [metricVerts, hK]
    exact List.perm_singleton.1 this
  have hI : seqIdx o [L] [[p]] Xhat = [[0]] := by
    have ht : tuples (([[p]] : List (List (Lip.Pt m))).map fun v => min v.length (maxVerts [L].length)) = [[0]] := by
      have : min 1 (maxVerts 1) = 1 := min_eq_left (le_trans (by norm_num) (two_le_maxVerts 1))
      simp [tuples, this]
    have := ho.sort_perm _ (fun i => -((List.range [L].length).map (vertDist [L] [[p]] Xhat i)).prod) [[0]]
    rw [seqIdx, ht]
    exact List.perm_singleton.1 this
  rw [hM, hI, show (100 : ℕ) = 99 + 1 from rfl, seqLoop] at hX
  simp only [nextNew, List.not_mem_nil, if_false, List.nil_append] at hX
  have h00 : o.empty [] = false := by
    rw [← Bool.not_eq_true, ho.empty_iff]
    exact not_not.2 ⟨p, hp, by simp [Meets]⟩
  obtain ⟨y, hy⟩ := hcand _ (addCons_nonempty h00 ((seqCtx o [L] [[p]] Xhat).pick [0]) ((seqCtx o [L] [[p]] Xhat).order [0]))
  have hy' : (seqCtx o [L] [[p]] Xhat).cand (addCons (seqCtx o [L] [[p]] Xhat).empty ((seqCtx o [L] [[p]] Xhat).pick [0]) ((seqCtx o [L] [[p]] Xhat).order [0]) [] []).1 =
    .ok [y] := hy
  rw [hy'] at hX
  have hX2 : X = [y] := by
    simp only at hX
    split_ifs at hX
    · cases hX; rfl
    · rw [show (99 : ℕ) = 98 + 1 from rfl, seqLoop] at hX
      simp only [nextNew] at hX
      cases hX; rfl
  subst hX2
  intro a ha b hb hne
  rw [List.mem_singleton] at ha hb
  exact absurd (hb.trans ha.symm) hne

/-- A slack above one leaves no candidate. -/
theorem seqPick_slack (L : Metric 1) {Xhat : List (Lip.Pt 1)} {x : Lip.Pt 1} (hx : 0 < nearest L.2 Xhat x) {slack : ℝ} (hs : 1 < slack) :
    seqPick [L] Xhat slack [x] = .error .valueError := by
  have hK : select [x] (uniquePoints [x]) = [x] := by
    have h := unique_ne (X := [x]) (by simp)
    have h2 := select_sublist [x] (uniquePoints [x])
    exact (List.sublist_singleton.1 h2).resolve_left h
  have hn : ¬nearest L.2 Xhat x * slack ≤ nearest L.2 Xhat x := by nlinarith
  simp [seqPick, hK, prodScore, maxL, hn]

end Verif.Samp
