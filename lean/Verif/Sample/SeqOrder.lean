import Verif.Sample.SeqProps

/-!
# C99: the order in which the sequential maximin search tries vertices

`/repo/psdr/sample/seqmaximin.py` 112-163.
-/

namespace Verif.Samp

open Verif Verif.Domain Verif.Geo Matrix

variable {m : ℕ}

/-- Specification: the distance, in metric `k`, from the vertex of that metric named by the tuple to the samples. -/
noncomputable def ownDistance (Ls : List (Metric m)) (V : List (List (Lip.Pt m))) (Xhat : List (Lip.Pt m)) (i : List ℕ) (k : ℕ) : ℝ :=
  match Ls[k]?, V[k]?, i[k]? with
  | some L, some vs, some j => nearest L.2 Xhat (vs.getD j 0)
  | _, _, _ => 0

theorem vertDist_eq (Ls : List (Metric m)) (V : List (List (Lip.Pt m))) (Xhat : List (Lip.Pt m)) (i : List ℕ) (k : ℕ) (h1 : k < Ls.length) (h2 : k < V.length)
    (h3 : k < i.length) : vertDist Ls V Xhat i k = ownDistance Ls V Xhat i k := by
  have e : Ls.getD k ⟨0, 0⟩ = Ls[k] := by rw [List.getD_eq_getElem?_getD, List.getElem?_eq_getElem h1]; rfl
  simp only [vertDist, ownDistance, vertOf, List.getElem?_eq_getElem h1, List.getElem?_eq_getElem h2, List.getElem?_eq_getElem h3,
    List.getD_eq_getElem?_getD (l := V), List.getD_eq_getElem?_getD (l := i), Option.getD_some]
  have : ∀ (A B : Metric m) (x : Lip.Pt m), A = B → nearest A.2 Xhat x = nearest B.2 Xhat x := by rintro A B x rfl; rfl
  exact this _ _ _ e

/-- **C99**: the tuples tried are all tuples of the first vertices of the metrics, in decreasing order of the product of the distances,
each in its own metric. -/
theorem seqIdx_spec {S : Set (Lip.Pt m)} {o : SeqOracle m} (ho : o.Exact S) {Ls : List (Metric m)} {V : List (List (Lip.Pt m))} (hV : V.length = Ls.length)
    (Xhat : List (Lip.Pt m)) :
    (∀ i, i ∈ seqIdx o Ls V Xhat ↔ i.length = V.length ∧ ∀ k < V.length, i.getD k 0 < (V.getD k []).length ∧ i.getD k 0 < maxVerts Ls.length) ∧
    (seqIdx o Ls V Xhat).Pairwise fun a b =>
      ((List.range Ls.length).map (ownDistance Ls V Xhat b)).prod ≤ ((List.range Ls.length).map (ownDistance Ls V Xhat a)).prod := by
  have hmem : ∀ i, i ∈ seqIdx o Ls V Xhat ↔ List.Forall₂ (fun a n => a < n) i (V.map fun v => min v.length (maxVerts Ls.length)) := fun i => by
    rw [← tuples_mem]
    exact (ho.sort_perm _ _ _).mem_iff
  have hlen : ∀ i, i ∈ seqIdx o Ls V Xhat → i.length = V.length := fun i hi => by
    have := ((hmem i).1 hi).length_eq
    simpa using this
  refine ⟨fun i => ?_, ?_⟩
  · rw [hmem, List.forall₂_iff_get]
    simp only [List.length_map, List.get_eq_getElem, List.getElem_map, lt_min_iff]
    constructor
    · rintro ⟨h1, h2⟩
      refine ⟨h1, fun k hk => ?_⟩
      have := h2 k (by omega) (by simpa using hk)
      simpa [List.getD_eq_getElem?_getD, hk, show k < i.length by omega] using this
    · rintro ⟨h1, h2⟩
      refine ⟨h1, fun k hk hk' => ?_⟩
      have hk2 : k < V.length := by omega
      have := h2 k hk2
      simpa [List.getD_eq_getElem?_getD, hk, hk2] using this
  · have h := ho.sort_sorted _ (fun i => -((List.range Ls.length).map (vertDist Ls V Xhat i)).prod) (tuples (V.map fun v => min v.length (maxVerts Ls.length)))
    refine List.Pairwise.imp_of_mem ?_ h
    intro a b ha hb hab
    have e : ∀ i ∈ seqIdx o Ls V Xhat, (List.range Ls.length).map (vertDist Ls V Xhat i) = (List.range Ls.length).map (ownDistance Ls V Xhat i) := by
      intro i hi
      refine List.map_congr_left fun k hk => ?_
      have hk' := List.mem_range.1 hk
      exact vertDist_eq Ls V Xhat i k hk' (by omega) (by rw [hlen i hi]; omega)
    rw [← e a ha, ← e b hb]
    linarith

/-- **C99**: for each tuple the constraints are added in decreasing order of the distances, each in its own metric. -/
theorem seqOrder_spec {S : Set (Lip.Pt m)} {o : SeqOracle m} (ho : o.Exact S) {Ls : List (Metric m)} {V : List (List (Lip.Pt m))} (hV : V.length = Ls.length)
    (Xhat : List (Lip.Pt m)) {i : List ℕ} (hi : i.length = Ls.length) :
    ((seqCtx o Ls V Xhat).order i).Perm (List.range Ls.length) ∧
    ((seqCtx o Ls V Xhat).order i).Pairwise fun a b => ownDistance Ls V Xhat i b ≤ ownDistance Ls V Xhat i a := by
  have hp := ho.sort_perm _ (fun k => -vertDist Ls V Xhat i k) (List.range Ls.length)
  refine ⟨hp, ?_⟩
  refine List.Pairwise.imp_of_mem ?_ (ho.sort_sorted _ (fun k => -vertDist Ls V Xhat i k) (List.range Ls.length))
  intro a b ha hb hab
  have ha' := List.mem_range.1 (hp.mem_iff.1 ha)
  have hb' := List.mem_range.1 (hp.mem_iff.1 hb)
  rw [← vertDist_eq Ls V Xhat i a ha' (by omega) (by omega), ← vertDist_eq Ls V Xhat i b hb' (by omega) (by omega)]
  linarith

theorem foundIdx_map (idx F : List ℕ) : foundIdx idx F = idx.mapIdx fun (k i : ℕ) => if k ∈ F then (Int.ofNat i) else -1 := by
  have e : (idx >>= fun a => pure (Int.ofNat a)) = idx.map Int.ofNat := by
    induction idx with
    | nil => rfl
    | cons a l ih =>
      rw [List.map_cons, ← ih]
      rfl
  unfold foundIdx
  refine List.ext_getElem ?_ fun k h1 h2 => ?_
  · simp
  · simp only [List.getElem_mapIdx]
    have : ∀ (l : List ℤ) (hl : k < l.length) (hi : k < idx.length), l = idx.map Int.ofNat → (if k ∈ F then l[k] else -1) = if k ∈ F then Int.ofNat idx[k] else -1 := by
      rintro l hl hi rfl
      simp
    exact this _ _ _ e

/-- **C99**: two tuples count as the same exactly if the same metrics got a constraint, and for these the same vertices. -/
theorem foundIdx_eq_iff {i j F G : List ℕ} (hl : i.length = j.length) :
    foundIdx i F = foundIdx j G ↔ ∀ k < i.length, (k ∈ F ↔ k ∈ G) ∧ (k ∈ F → i.getD k 0 = j.getD k 0) := by
  rw [foundIdx_map, foundIdx_map]
  constructor
  · intro h k hk
    have h1 := congrArg (fun l => l[k]?) h
    have hk' : k < j.length := by omega
    simp only [List.getElem?_mapIdx, List.getElem?_eq_getElem hk, List.getElem?_eq_getElem hk', Option.map_some, Option.some.injEq] at h1
    simp only [List.getD_eq_getElem?_getD, List.getElem?_eq_getElem hk, List.getElem?_eq_getElem hk', Option.getD_some]
    split_ifs at h1 with a b b
    · exact ⟨⟨fun _ => b, fun _ => a⟩, fun _ => by simpa using h1⟩
    · exact ⟨⟨fun h => absurd h a, fun h => absurd h b⟩, fun h => absurd h a⟩
  · intro h
    refine List.ext_getElem (by simpa using hl) fun k hk hk' => ?_
    have hk1 : k < i.length := by simpa using hk
    have hk2 : k < j.length := by simpa using hk'
    obtain ⟨h1, h2⟩ := h k hk1
    simp only [List.getElem_mapIdx]
    by_cases hF : k ∈ F
    · rw [if_pos hF, if_pos (h1.1 hF)]
      have := h2 hF
      simp only [List.getD_eq_getElem?_getD, List.getElem?_eq_getElem hk1, List.getElem?_eq_getElem hk2, Option.getD_some] at this
      rw [this]
    · rw [if_neg hF, if_neg fun h => hF (h1.2 h)]

/-- Two metrics with two vertices each on the line: the lengths agree. -/
example : ([[0, 1], [0, 1]] : List (List (Lip.Pt 1))).length = ([⟨1, 1⟩, ⟨1, 2⟩] : List (Metric 1)).length := rfl

end Verif.Samp
