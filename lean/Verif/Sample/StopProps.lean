import Verif.Sample.BlockProps
import Verif.Sample.SeqProps

/-!
# Stopping rules: `voronoi_vertex_sample` (C92), `maximin_block` (C93), `seq_maximin_sample` (C99)
-/

namespace Verif.Samp

open Verif Verif.Domain Verif.Geo Matrix

variable {k m : ℕ}

/-! ## Specification -/

/-- No point of the design moves by `δ` or more in a coordinate of the metric. -/
def SmallMoves (L : Matrix (Fin k) (Fin m) ℝ) (δ : ℝ) (X X' : List (Lip.Pt m)) : Prop :=
  ∀ (i : ℕ) (x x' : Lip.Pt m), X[i]? = some x → X'[i]? = some x' → ∀ r, |(L *ᵥ (x - x')) r| < δ

/-! ## `voronoi_vertex_sample` -/

theorem passes_zero_iff (D : SDomain m) (L : Matrix (Fin k) (Fin m) ℝ) (randomize : Bool) :
    passes D L randomize = 0 ↔ m ≤ D.eqs.length ∨ (randomize = false ∧ L.rank = 0) := by
  unfold passes
  cases randomize
  · simp [Nat.min_eq_zero_iff, Nat.sub_eq_zero_iff_le]
  · simp [Nat.sub_eq_zero_iff_le]

/-- C92: when the call succeeds. -/
theorem vertexSample_ok_explicit {sort : SortBy m} (hs : sort.Sorts) (qr : QRcols m) (D : SDomain m) (L : Matrix (Fin k) (Fin m) ℝ) (randomize : Bool)
    (Xhat : List (Lip.Pt m)) (X0 : List (Lip.Pt m × (ℕ → Lip.Pt m))) : (∃ V, vertexSample sort qr D L randomize Xhat X0 = .ok V) ↔
      D.quads = 0 ∧ (X0 = [] ∨ (m ≤ D.eqs.length ∨ (randomize = false ∧ L.rank = 0)) ∨ (Xhat ≠ [] ∧ D.aug ≠ [])) := by
  rw [vertexSample_ok_iff hs, passes_zero_iff]

/-- C92: if there are as many equality constraints as dimensions the points are returned as they are. -/
theorem vertexSample_fixed (sort : SortBy m) (qr : QRcols m) {D : SDomain m} (hq : D.quads = 0) (he : m ≤ D.eqs.length) (L : Matrix (Fin k) (Fin m) ℝ)
    (randomize : Bool) (Xhat : List (Lip.Pt m)) (X0 : List (Lip.Pt m × (ℕ → Lip.Pt m))) :
    vertexSample sort qr D L randomize Xhat X0 = .ok (X0.map Prod.fst) := by
  rw [vertexSample, if_neg (by simp [hq]), (passes_zero_iff D L randomize).2 (.inl he)]
  induction X0 with
  | nil => rfl
  | cons p X0 ih =>
    rw [mapE]
    simp only [vpasses] at ih ⊢
    rw [ih]
    rfl

/-! ## `maximin_block` -/

theorem foldl_max_lt {ι : Type} (f : ι → ℝ) (δ : ℝ) : ∀ (l : List ι) (a : ℝ), l.foldl (fun s i => max s (f i)) a < δ ↔ a < δ ∧ ∀ i ∈ l, f i < δ
  | [], a => by simp
  | i :: l, a => by
    rw [List.foldl_cons, foldl_max_lt f δ l, max_lt_iff, List.forall_mem_cons]
    tauto

theorem normInf_lt_iff {n : ℕ} (v : Lip.Pt n) {δ : ℝ} (hδ : 0 < δ) : normInf v < δ ↔ ∀ r, |v r| < δ := by
  unfold normInf
  rw [foldl_max_lt (fun i => |v i|) δ]
  simp [hδ]

/-- The moves of a cycle. -/
theorem blockSweep_moves {sort : SortBy m} {qr : QRcols m} {D : SDomain m} {L : Matrix (Fin k) (Fin m) ℝ} {δ : ℝ} (hδ : 0 < δ) :
    ∀ (is : List ℕ) {X X' : List (Lip.Pt m)} {mv mv' : ℝ}, is.Nodup → blockSweep sort qr D L is (X, mv) = .ok (X', mv') →
      (∀ j, j ∉ is → X'[j]? = X[j]?) ∧
      (mv' < δ ↔ mv < δ ∧ ∀ i ∈ is, ∀ x x', X[i]? = some x → X'[i]? = some x' → ∀ r, |(L *ᵥ (x - x')) r| < δ)
  | [], X, X', mv, mv', _, h => by
    simp only [blockSweep, Except.ok.injEq, Prod.mk.injEq] at h
    obtain ⟨rfl, rfl⟩ := h
    simp
  | i :: is, X, X', mv, mv', hnd, h => by
    simp only [blockSweep] at h
    split at h
    · cases h
    · rename_i s hs
      obtain ⟨Y, mw⟩ := s
      obtain ⟨x, y, hx, -, rfl, rfl⟩ := blockStep_ok hs
      rw [List.nodup_cons] at hnd
      obtain ⟨h1, h2⟩ := blockSweep_moves hδ is hnd.2 h
      have hi : i < X.length := by
        by_contra hc
        rw [List.getElem?_eq_none (by omega)] at hx
        cases hx
      have hy : X'[i]? = some y := by rw [h1 i hnd.1, List.getElem?_set_self hi]
      refine ⟨fun j hj => ?_, ?_⟩
      · rw [List.mem_cons, not_or] at hj
        rw [h1 j hj.2, List.getElem?_set_ne (Ne.symm hj.1)]
      · rw [h2, max_lt_iff, normInf_lt_iff _ hδ, List.forall_mem_cons, and_assoc]
        refine and_congr_right fun _ => and_congr ?_ ?_
        · constructor
          · intro hr a b ha hb
            rw [hx] at ha; cases ha
            rw [hy] at hb; cases hb
            exact hr
          · intro hr
            exact hr x y hx hy
        · constructor
          · intro hr j hj a b ha hb
            have hne : i ≠ j := fun e => hnd.1 (e ▸ hj)
            exact hr j hj a b (by rw [List.getElem?_set_ne hne]; exact ha) hb
          · intro hr j hj a b ha hb
            have hne : i ≠ j := fun e => hnd.1 (e ▸ hj)
            exact hr j hj a b (by rw [List.getElem?_set_ne hne] at ha; exact ha) hb

/-- A cycle and its moves. -/
theorem blockCycle_small {sort : SortBy m} {qr : QRcols m} {D : SDomain m} {L : Matrix (Fin k) (Fin m) ℝ} {δ : ℝ} (hδ : 0 < δ) {X : List (Lip.Pt m)}
    {s : List (Lip.Pt m) × ℝ} (h : blockSweep sort qr D L (List.range X.length) (X, 0) = .ok s) : s.2 < δ ↔ SmallMoves L δ X s.1 := by
  obtain ⟨X', mv⟩ := s
  obtain ⟨-, h2⟩ := blockSweep_moves hδ _ List.nodup_range h
  rw [h2]
  constructor
  · rintro ⟨-, hr⟩ i x x' hx hx'
    refine hr i (List.mem_range.2 ?_) x x' hx hx'
    by_contra hc
    rw [List.getElem?_eq_none (by omega)] at hx
    cases hx
  · intro hr
    exact ⟨hδ, fun i _ x x' hx hx' => hr i x x' hx hx'⟩

theorem blockLoop_stop {sort : SortBy m} {qr : QRcols m} {D : SDomain m} {L : Matrix (Fin k) (Fin m) ℝ} {xtol : ℝ} (hx : 0 < xtol) :
    ∀ (fuel : ℕ) {X Y : List (Lip.Pt m)}, blockLoop sort qr D L xtol fuel X = .ok Y →
      ∃ (n : ℕ) (Xs : ℕ → List (Lip.Pt m)), n ≤ fuel ∧ Xs 0 = X ∧ Xs n = Y ∧
        (∀ j < n, ∃ mv, blockSweep sort qr D L (List.range (Xs j).length) (Xs j, 0) = .ok (Xs (j + 1), mv)) ∧
        (∀ j, j + 1 < n → ¬ SmallMoves L xtol (Xs j) (Xs (j + 1))) ∧
        (n = fuel ∨ ∃ j, n = j + 1 ∧ SmallMoves L xtol (Xs j) (Xs (j + 1)))
  | 0, X, Y, h => by
    simp only [blockLoop, Except.ok.injEq] at h
    subst h
    exact ⟨0, fun _ => X, le_refl _, rfl, rfl, by simp, by simp, .inl rfl⟩
  | fuel + 1, X, Y, h => by
    simp only [blockLoop] at h
    split at h
    · cases h
    · rename_i s hs
      by_cases hl : s.2 < xtol
      · rw [if_pos hl] at h
        cases h
        refine ⟨1, fun j => if j = 0 then X else s.1, by omega, rfl, rfl, fun j hj => ?_, fun j hj => by omega, .inr ⟨0, rfl, ?_⟩⟩
        · have : j = 0 := by omega
          subst this
          exact ⟨s.2, hs⟩
        · exact (blockCycle_small hx hs).1 hl
      · rw [if_neg hl] at h
        obtain ⟨n, Xs, h1, h2, h3, h4, h5, h6⟩ := blockLoop_stop hx fuel h
        refine ⟨n + 1, fun j => if j = 0 then X else Xs (j - 1), by omega, rfl, by simp [h3], fun j hj => ?_, fun j hj => ?_, ?_⟩
        · rcases j with _ | j
          · refine ⟨s.2, ?_⟩
            simp only [if_true, Nat.zero_add, Nat.one_ne_zero, if_false, Nat.sub_self, h2]
            exact hs
          · obtain ⟨mv, he⟩ := h4 j (by omega)
            exact ⟨mv, by simpa using he⟩
        · rcases j with _ | j
          · intro hc
            simp only [if_true, Nat.zero_add, Nat.one_ne_zero, if_false, Nat.sub_self, h2] at hc
            exact hl ((blockCycle_small hx hs).2 hc)
          · have := h5 j (by omega)
            simpa using this
        · rcases h6 with h6 | ⟨j, hj, h6⟩
          · exact .inl (by omega)
          · exact .inr ⟨j + 1, by omega, by simpa using h6⟩

/-- C93: the cycles go on until a cycle moves every point by less than `xtol` in every coordinate of the metric, or `maxiter` cycles are done. -/
theorem maximinBlock_stop {sort : SortBy m} {qr : QRcols m} {D : SDomain m} {L : Matrix (Fin k) (Fin m) ℝ} {nsamp : ℕ} (hn : 0 < nsamp) {xtol : ℝ} (hx : 0 < xtol)
    {maxiter : ℕ} {X0 X : List (Lip.Pt m)} (h : maximinBlock sort qr D L nsamp xtol maxiter X0 = .ok X) :
    ∃ (n : ℕ) (Xs : ℕ → List (Lip.Pt m)), n ≤ maxiter ∧ Xs 0 = X0 ∧ Xs n = X ∧
      (∀ j < n, ∃ mv, blockSweep sort qr D L (List.range (Xs j).length) (Xs j, 0) = .ok (Xs (j + 1), mv)) ∧
      (∀ j, j + 1 < n → ¬ SmallMoves L xtol (Xs j) (Xs (j + 1))) ∧
      (n = maxiter ∨ ∃ j, n = j + 1 ∧ SmallMoves L xtol (Xs j) (Xs (j + 1))) := by
  rw [maximinBlock] at h
  split_ifs at h with h1 h0
  · omega
  · exact blockLoop_stop hx maxiter h

/-- The hypotheses are met by calls without cycles; `maximinBlock_ok_iff` gives further successful calls. -/
example (sort : SortBy m) (qr : QRcols m) (D : SDomain m) (L : Matrix (Fin k) (Fin m) ℝ) (x : Lip.Pt m) :
    maximinBlock sort qr D L 1 1 0 [x] = .ok [x] := by
  rw [maximinBlock, if_neg (by simp), if_neg (by simp), blockLoop]

/-! ## `seq_maximin_sample` -/

/-- C99: the search ends early only when the constraints of all metrics could be met together: otherwise, with at most as many tuples as iterations,
the candidates of every tuple (or of another one leading to the same constraints) are found. -/
theorem seqLoop_exhaustive {c : SeqCtx m} {Ls : List (Metric m)} {Xhat : List (Lip.Pt m)} {slack : ℝ} : ∀ (fuel : ℕ) (used : List (List ℤ))
    (idx : List (List ℕ)) (X : List (Lip.Pt m)) {R : List (Lip.Pt m)}, idx.length ≤ fuel →
    (∀ i ∈ idx, (addCons c.empty (c.pick i) (c.order i) [] []).2.length ≠ Ls.length) → seqLoop c Ls Xhat slack fuel used idx X = .ok R →
    X <+: R ∧ ∀ i ∈ idx, foundIdx i (addCons c.empty (c.pick i) (c.order i) [] []).2 ∈ used ∨
      ∃ i' ∈ idx, foundIdx i' (addCons c.empty (c.pick i') (c.order i') [] []).2 = foundIdx i (addCons c.empty (c.pick i) (c.order i) [] []).2 ∧
        ∃ Y, c.cand (addCons c.empty (c.pick i') (c.order i') [] []).1 = .ok Y ∧ Y ≠ [] ∧ ∀ y ∈ Y, y ∈ R := by
  have hskip : ∀ {used : List (List ℤ)} {idx : List (List ℕ)} {r}, nextNew c used idx = r →
      (r = none → ∀ i ∈ idx, foundIdx i (addCons c.empty (c.pick i) (c.order i) [] []).2 ∈ used) ∧
      ∀ C F f rest, r = some (C, F, f, rest) → ∃ pre i, idx = pre ++ i :: rest ∧ C = (addCons c.empty (c.pick i) (c.order i) [] []).1 ∧
        F = (addCons c.empty (c.pick i) (c.order i) [] []).2 ∧ f = foundIdx i F ∧ ∀ j ∈ pre, foundIdx j (addCons c.empty (c.pick j) (c.order j) [] []).2 ∈ used := by
    intro used idx
    induction idx with
    | nil =>
      intro r h
      simp only [nextNew] at h
      subst h
      simp
    | cons i idx ih =>
      intro r h
      simp only [nextNew] at h
      split_ifs at h with hu
      · obtain ⟨h1, h2⟩ := ih h
        refine ⟨fun hr j hj => ?_, fun C F f rest hr => ?_⟩
        · rcases List.mem_cons.1 hj with rfl | hj
          · exact hu
          · exact h1 hr j hj
        · obtain ⟨pre, i', e1, e2, e3, e4, e5⟩ := h2 C F f rest hr
          refine ⟨i :: pre, i', by rw [e1]; rfl, e2, e3, e4, fun j hj => ?_⟩
          rcases List.mem_cons.1 hj with rfl | hj
          · exact hu
          · exact e5 j hj
      · subst h
        refine ⟨by simp, fun C F f rest hr => ?_⟩
        simp only [Option.some.injEq, Prod.mk.injEq] at hr
        obtain ⟨rfl, rfl, rfl, rfl⟩ := hr
        exact ⟨[], i, rfl, rfl, rfl, rfl, by simp⟩
  intro fuel
  induction fuel with
  | zero =>
    intro used idx X R hlen _ h
    have : idx = [] := List.length_eq_zero_iff.1 (by omega)
    subst this
    simp only [seqLoop, Except.ok.injEq] at h
    subst h
    exact ⟨List.prefix_rfl, by simp⟩
  | succ fuel ih =>
    intro used idx X R hlen hne h
    simp only [seqLoop] at h
    obtain ⟨s1, s2⟩ := hskip (rfl : nextNew c used idx = _)
    split at h
    · rename_i hnone
      simp only [Except.ok.injEq] at h
      subst h
      exact ⟨List.prefix_rfl, fun i hi => .inl (s1 hnone i hi)⟩
    · rename_i C F f rest hsome
      obtain ⟨pre, i, e1, e2, e3, e4, e5⟩ := s2 C F f rest hsome
      have hi : i ∈ idx := by rw [e1]; simp
      have hF : F.length ≠ Ls.length := by rw [e3]; exact hne i hi
      split at h
      · cases h
      · cases h
      · rename_i y ys hc
        rw [if_neg (fun hh => hF hh.2)] at h
        obtain ⟨p1, p2⟩ := ih (used ++ [f]) rest (X ++ y :: ys) (by rw [e1] at hlen; simp at hlen; omega)
          (fun j hj => hne j (by rw [e1]; simp [hj])) h
        have hmem : ∀ z ∈ y :: ys, z ∈ R := fun z hz => p1.subset (by simp only [List.mem_append]; exact .inr hz)
        refine ⟨(List.prefix_append X (y :: ys)).trans p1, fun j hj => ?_⟩
        have own : foundIdx j (addCons c.empty (c.pick j) (c.order j) [] []).2 = f →
            ∃ i' ∈ idx, foundIdx i' (addCons c.empty (c.pick i') (c.order i') [] []).2 = foundIdx j (addCons c.empty (c.pick j) (c.order j) [] []).2 ∧
              ∃ Y, c.cand (addCons c.empty (c.pick i') (c.order i') [] []).1 = .ok Y ∧ Y ≠ [] ∧ ∀ y ∈ Y, y ∈ R := by
          intro hf
          exact ⟨i, hi, by rw [hf, e4, e3], y :: ys, by rw [← e2]; exact hc, by simp, hmem⟩
        rw [e1] at hj
        rcases List.mem_append.1 hj with hj | hj
        · exact .inl (e5 j hj)
        · rcases List.mem_cons.1 hj with rfl | hj
          · exact .inr (own (by rw [e4, e3]))
          · rcases p2 j hj with hu | ⟨i', hi', q1, q2⟩
            · rcases List.mem_append.1 hu with hu | hu
              · exact .inl hu
              · exact .inr (own (by simpa using hu))
            · exact .inr ⟨i', by rw [e1]; simp [hi'], q1, q2⟩

/-- C99: the point returned agrees, in at least one metric, with a Voronoi vertex found in that metric; the metrics `F` are those whose constraint
was added. -/
theorem seq_meets {S : Set (Lip.Pt m)} {o : SeqOracle m} (ho : o.Exact S) {Ls : List (Metric m)} {Xhat : List (Lip.Pt m)} {slack : ℝ} {x : Lip.Pt m}
    (h : seqMaximin o Ls Xhat slack = .ok x) : ∃ F : List ℕ, F.Nodup ∧ F ≠ [] ∧ ∀ j ∈ F, ∃ (L : Metric m) (raw : List (Lip.Pt m)) (v : Lip.Pt m),
      Ls[j]? = some L ∧ o.raw L = .ok raw ∧ v ∈ raw ∧ L.2 *ᵥ x = L.2 *ᵥ v := by
  simp only [seqMaximin] at h
  split at h
  · cases h
  · rename_i R hR
    split_ifs at h with hL
    set V := List.zipWith (fun L raw => metricVerts o.sort L Xhat raw) Ls R with hV
    obtain ⟨-, ⟨C, ⟨i, hi, rfl⟩, hmeets⟩, -⟩ := seqSearch_spec (ho.ctx Ls V Xhat) h
    have hF2 : List.Forall₂ (fun L r => o.raw L = .ok r) Ls R := mapE_ok hR
    have hlen : R.length = Ls.length := hF2.length_eq.symm
    have hvert : ∀ j < Ls.length, ∃ (L : Metric m) (raw : List (Lip.Pt m)), Ls[j]? = some L ∧ o.raw L = .ok raw ∧ vertOf V i j ∈ raw := by
      intro j hj
      have hjR : j < R.length := by omega
      have hraw : o.raw Ls[j] = .ok R[j] := by
        have := List.forall₂_iff_get.1 hF2
        exact this.2 j hj hjR
      refine ⟨Ls[j], R[j], List.getElem?_eq_getElem hj, hraw, ?_⟩
      have hVj : V[j]? = some (metricVerts o.sort Ls[j] Xhat R[j]) := by
        rw [hV, List.getElem?_zipWith, List.getElem?_eq_getElem hj, List.getElem?_eq_getElem hjR]
      have ht := (tuples_mem _ _).1 ((ho.sort_perm _ _ _).mem_iff.1 hi)
      have ht2 := List.forall₂_iff_get.1 ht
      have hVlen : V.length = Ls.length := by rw [hV, List.length_zipWith]; omega
      have hil : i.length = Ls.length := by rw [ht2.1, List.length_map, hVlen]
      have hlt := ht2.2 j (by omega) (by rw [List.length_map]; omega)
      have hVj' : V[j]'(by omega) = metricVerts o.sort Ls[j] Xhat R[j] := by
        rw [List.getElem?_eq_getElem (by omega)] at hVj
        exact Option.some.inj hVj
      simp only [List.get_eq_getElem, List.getElem_map, hVj', lt_min_iff] at hlt
      have : vertOf V i j ∈ metricVerts o.sort Ls[j] Xhat R[j] := by
        unfold vertOf
        rw [List.getD_eq_getElem?_getD (l := V), hVj, Option.getD_some, List.getD_eq_getElem?_getD (l := i), List.getElem?_eq_getElem (by omega : j < i.length),
          Option.getD_some, List.getD_eq_getElem?_getD, List.getElem?_eq_getElem hlt.1, Option.getD_some]
        exact List.getElem_mem _
      exact select_subset _ _ _ ((metricVerts_mem ho Ls[j] Xhat R[j] _).1 this)
    have hord : ((seqCtx o Ls V Xhat).order i).Perm (List.range Ls.length) := ho.sort_perm _ _ _
    obtain ⟨j, hj, h1, h2, h3, h4⟩ := addCons_spec (seqCtx o Ls V Xhat).empty ((seqCtx o Ls V Xhat).pick i) ((seqCtx o Ls V Xhat).order i) [] []
    rw [h1] at hmeets
    have hmem : ∀ a ∈ (seqCtx o Ls V Xhat).order i, a < Ls.length := fun a ha => List.mem_range.1 (hord.mem_iff.1 ha)
    refine ⟨((seqCtx o Ls V Xhat).order i).take j, ?_, ?_, ?_⟩
    · exact (hord.nodup_iff.2 List.nodup_range).sublist (List.take_sublist _ _)
    · intro hnil
      have hne : (seqCtx o Ls V Xhat).order i ≠ [] := by
        intro e
        rw [e] at hord
        have := hord.length_eq
        simp at this
        exact hL (List.length_eq_zero_iff.1 this.symm)
      obtain ⟨a, as, ha⟩ := List.exists_cons_of_ne_nil hne
      have hj0 : j = 0 := by
        rw [ha] at hnil
        cases j with
        | zero => rfl
        | succ j => simp at hnil
      subst hj0
      have hemp := h4 (by rw [ha]; simp)
      have haL := hmem a (by rw [ha]; simp)
      obtain ⟨L, raw, e1, e2, e3⟩ := hvert a haL
      rw [(ho.ctx Ls V Xhat).empty_iff] at hemp
      refine hemp ⟨vertOf V i a, ho.raw_mem L raw e2 _ e3, ?_⟩
      rw [ha]
      intro q hq
      simp at hq
      subst hq
      rfl
    · intro a ha
      have haL := hmem a (List.mem_of_mem_take ha)
      obtain ⟨L, raw, e1, e2, e3⟩ := hvert a haL
      refine ⟨L, raw, vertOf V i a, e1, e2, e3, ?_⟩
      have := hmeets ((seqCtx o Ls V Xhat).pick i a) (by simp only [List.nil_append]; exact List.mem_map_of_mem ha)
      have hLa : Ls.getD a ⟨0, 0⟩ = L := by rw [List.getD_eq_getElem?_getD, e1, Option.getD_some]
      simp only [seqCtx] at this
      rw [hLa] at this
      exact this

end Verif.Samp
