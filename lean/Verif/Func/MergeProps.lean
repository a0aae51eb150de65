import Verif.Func.MergeModel

/-!
# Property C61: keyword merging
-/

namespace Verif.Func

variable {V : Type}

theorem setItem_get (d : Dict V) (k k' : String) (v : V) :
    (d.setItem k v).get k' = if k' = k then some v else d.get k' := by
  unfold Dict.setItem
  by_cases h : d.any (fun p => p.1 = k) = true
  · rw [if_pos h]
    simp only [List.any_eq_true, decide_eq_true_eq] at h
    induction d with
    | nil => simp at h
    | cons p d ih =>
      obtain ⟨a, b⟩ := p
      unfold Dict.get at ih ⊢
      simp only [List.map_cons, List.find?_cons]
      by_cases ha : a = k
      · subst ha
        simp only [if_true]
        by_cases hk : a = k'
        · subst hk; simp
        · have hk' : ¬ k' = a := fun h => hk h.symm
          simp only [hk, hk', decide_false, if_false]
          by_cases hd : ∃ x ∈ d, x.1 = a
          · have := ih hd
            simpa [hk'] using this
          · have e : d.map (fun p => if p.1 = a then (a, v) else p) = d := by
              conv_rhs => rw [← List.map_id d]
              refine List.map_congr_left (fun q hq => ?_)
              rw [if_neg (fun h => hd ⟨q, hq, h⟩)]; rfl
            rw [e]
      · simp only [ha, if_false]
        have hd : ∃ x ∈ d, x.1 = k := by
          obtain ⟨x, hx, he⟩ := h
          rcases List.mem_cons.1 hx with rfl | hx
          · exact absurd he ha
          · exact ⟨x, hx, he⟩
        by_cases hk : a = k'
        · subst hk
          simp [ha]
        · simp only [hk, decide_false]
          exact ih hd
  · rw [if_neg h]
    simp only [List.any_eq_true, decide_eq_true_eq, not_exists, not_and] at h
    unfold Dict.get
    rw [List.find?_append]
    by_cases hk : k' = k
    · subst hk
      have : d.find? (fun p => decide (p.1 = k')) = none := by
        rw [List.find?_eq_none]
        intro x hx
        simpa using h x hx
      simp [this]
    · have hk' : ¬ k = k' := fun h => hk h.symm
      simp [hk, hk']

theorem update_get (d e : Dict V) (he : e.WF) (k : String) : (d.update e).get k = (e.get k).or (d.get k) := by
  unfold Dict.update
  induction e generalizing d with
  | nil => simp [Dict.get]
  | cons p e ih =>
    obtain ⟨a, b⟩ := p
    have hn : a ∉ e.map Prod.fst ∧ Dict.WF e := by
      unfold Dict.WF at he
      rw [List.map_cons, List.nodup_cons] at he
      exact he
    rw [List.foldl_cons, ih _ hn.2, setItem_get]
    by_cases hk : k = a
    · subst hk
      have : Dict.get e k = none := by
        unfold Dict.get
        rw [Option.map_eq_none_iff, List.find?_eq_none]
        intro x hx hc
        exact hn.1 (List.mem_map.2 ⟨x, hx, by simpa using hc⟩)
      rw [this]
      simp [Dict.get]
    · have hk' : ¬ a = k := fun h => hk h.symm
      simp [hk, Dict.get, hk']

theorem setItem_wf (d : Dict V) (hd : d.WF) (k : String) (v : V) : (d.setItem k v).WF := by
  unfold Dict.setItem Dict.WF at *
  by_cases h : d.any (fun p => p.1 = k) = true
  · rw [if_pos h, List.map_map]
    have : (Prod.fst ∘ fun p : String × V => if p.1 = k then (k, v) else p) = Prod.fst := by
      funext p
      by_cases hp : p.1 = k <;> simp [hp]
    rw [this]; exact hd
  · rw [if_neg h]
    simp only [List.any_eq_true, decide_eq_true_eq, not_exists, not_and] at h
    rw [List.map_append, List.nodup_append]
    refine ⟨hd, by simp, ?_⟩
    intro a ha b hb
    obtain ⟨x, hx, rfl⟩ := List.mem_map.1 ha
    simp at hb
    subst hb
    exact h x hx

theorem update_wf (d e : Dict V) (hd : d.WF) : (d.update e).WF := by
  unfold Dict.update
  induction e generalizing d with
  | nil => exact hd
  | cons p e ih => exact ih _ (setItem_wf d hd _ _)

/-- The dictionary produced by `merge`. -/
def mergeResult (H : Heap V) (x y : ℕ) : Dict V := (mergeHeap H x y).1.getD (mergeHeap H x y).2 []

theorem mergeResult_eq (H : Heap V) (x y : ℕ) (hy : y < H.length) :
    mergeResult H x y = (H.getD x []).update (H.getD y []) := by
  unfold mergeResult mergeHeap Heap.updateAt Heap.copy
  simp [List.getD_eq_getElem?_getD, List.getElem?_append, hy]

/-- **C61**: the merged dictionary is a new object; every existing dictionary (in particular both
arguments) is unchanged; and each key has the value of the second argument if it is there, otherwise that of the first. -/
theorem merge_spec (H : Heap V) (x y : ℕ) (hy : y < H.length) (hw : ∀ d ∈ H, Dict.WF d) :
    (mergeHeap H x y).2 = H.length ∧
    (∀ i, i < H.length → (mergeHeap H x y).1[i]? = H[i]?) ∧
    (mergeResult H x y).WF ∧
    ∀ k, (mergeResult H x y).get k = ((H.getD y []).get k).or ((H.getD x []).get k) := by
  have hwf : ∀ j, Dict.WF (H.getD j []) := by
    intro j
    rw [List.getD_eq_getElem?_getD]
    cases hj : H[j]? with
    | none => simp [Dict.WF]
    | some d => exact hw d (List.mem_of_getElem? hj)
  refine ⟨rfl, ?_, ?_, ?_⟩
  · intro i hi
    unfold mergeHeap Heap.updateAt Heap.copy
    simp only
    rw [List.getElem?_set_ne (by omega), List.getElem?_append_left hi]
  · rw [mergeResult_eq H x y hy]
    exact update_wf _ _ (hwf x)
  · intro k
    rw [mergeResult_eq H x y hy, update_get _ _ (hwf y)]

/-- The keys of the merged dictionary are exactly the keys of both. -/
theorem merge_keys (H : Heap V) (x y : ℕ) (hy : y < H.length) (hw : ∀ d ∈ H, Dict.WF d) (k : String) :
    ((mergeResult H x y).get k).isSome ↔ ((H.getD x []).get k).isSome ∨ ((H.getD y []).get k).isSome := by
  rw [(merge_spec H x y hy hw).2.2.2 k]
  cases (H.getD y []).get k <;> cases (H.getD x []).get k <;> simp

/-- The lookup view used by `Function`: right bias, associativity, identity and idempotence. -/
theorem merge_lookup (H : Heap V) (x y : ℕ) (hy : y < H.length) (hw : ∀ d ∈ H, Dict.WF d) :
    (mergeResult H x y).get = merge ((H.getD x []).get) ((H.getD y []).get) := by
  funext k
  exact (merge_spec H x y hy hw).2.2.2 k

/-- Merging is associative (as lookups). -/
theorem merge_assoc (a b c : Kw V) : merge (merge a b) c = merge a (merge b c) := by
  funext k; simp only [merge]; cases a k <;> cases b k <;> cases c k <;> rfl

/-- Merging in memory is associative: both groupings give the same lookups. -/
theorem merge_assoc_heap (H : Heap V) (x y z : ℕ) (hx : x < H.length) (hy : y < H.length) (hz : z < H.length)
    (hw : ∀ d ∈ H, Dict.WF d) (k : String) :
    (mergeResult (mergeHeap H x y).1 (mergeHeap H x y).2 z).get k =
      (mergeResult (mergeHeap H y z).1 x (mergeHeap H y z).2).get k := by
  have len : ∀ a b, (mergeHeap H a b).1.length = H.length + 1 := by
    intro a b; simp [mergeHeap, Heap.updateAt, Heap.copy]
  have old : ∀ a b i, b < H.length → i < H.length → (mergeHeap H a b).1.getD i [] = H.getD i [] := by
    intro a b i hb hi
    rw [List.getD_eq_getElem?_getD, (merge_spec H a b hb hw).2.1 i hi, ← List.getD_eq_getElem?_getD]
  have hw' : ∀ a b, b < H.length → ∀ d ∈ (mergeHeap H a b).1, Dict.WF d := by
    intro a b hb d hd
    obtain ⟨i, hi, rfl⟩ := List.getElem_of_mem hd
    rw [len] at hi
    by_cases h : i < H.length
    · have := (merge_spec H a b hb hw).2.1 i h
      rw [List.getElem?_eq_getElem (by rw [len]; omega), List.getElem?_eq_getElem h] at this
      rw [Option.some.inj this]
      exact hw _ (List.getElem_mem h)
    · have hi' : i = H.length := by omega
      have := (merge_spec H a b hb hw).2.2.1
      unfold mergeResult at this
      rw [(merge_spec H a b hb hw).1, List.getD_eq_getElem?_getD, List.getElem?_eq_getElem (by rw [len]; omega)] at this
      subst hi'
      exact this
  rw [(merge_spec _ _ z (by rw [len]; omega) (hw' x y hy)).2.2.2 k,
    (merge_spec _ x _ (by rw [len, (merge_spec H y z hz hw).1]; omega) (hw' y z hz)).2.2.2 k,
    old x y z hy hz, old y z x hz hx]
  have e1 := (merge_spec H x y hy hw).2.2.2 k
  have e2 := (merge_spec H y z hz hw).2.2.2 k
  unfold mergeResult at e1 e2
  rw [e1, e2]
  cases (H.getD x []).get k <;> cases (H.getD y []).get k <;> cases (H.getD z []).get k <;> rfl

example : (∀ d ∈ ([[("a", 1)], [("a", 2), ("b", 3)]] : Heap ℕ), Dict.WF d) ∧
    mergeResult ([[("a", 1)], [("a", 2), ("b", 3)]] : Heap ℕ) 0 1 = [("a", 2), ("b", 3)] := by
  constructor
  · intro d hd
    simp only [List.mem_cons, List.not_mem_nil, or_false] at hd
    rcases hd with rfl | rfl <;> simp [Dict.WF]
  · rw [mergeResult_eq _ _ _ (by simp)]
    simp [Dict.update, Dict.setItem]

end Verif.Func
