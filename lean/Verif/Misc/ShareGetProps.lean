import Verif.Misc.ShareProps

/-!
# C142: which properties are safe to use, one at a time
-/

namespace Verif.Share

open Verif

/-- **Specification.** A caller who reads no property but the `k`-th, and otherwise does what they like, does not change the object. -/
def SafeGetter (c : Cls) (k : ℕ) : Prop :=
  ∀ (h : Heap) (args : List Ref), args.length = c.arity → (∀ r ∈ args, r < h.next) → ∀ as : List Act, (∀ j, Act.get j ∈ as → j = k) →
    content (history c (construct c.build h args).2 ((construct c.build h args).1, {r | r < h.next}) as).1 (construct c.build h args).2 =
      content (construct c.build h args).1 (construct c.build h args).2

/-- **C142**: for an object that keeps no argument, a property is safe exactly if it gives out a copy. -/
theorem safe_iff {c : Cls} (hc : c.Ok) (hk : ∀ i, Build.keep i ∉ c.build) (k : ℕ) : SafeGetter c k ↔ ∀ i, c.getters[k]? ≠ some (.share i) := by
  constructor
  · intro h i hki
    have hi : Getter.share i ∈ c.getters := List.mem_of_getElem? hki
    have hi' := hc.2 i (Or.inl hi)
    let H : Heap := ⟨fun _ => [], 1⟩
    let A := List.replicate c.arity (0 : Ref)
    let o := (construct c.build H A).2
    have hlen : i < o.length := by rw [construct_length]; exact hi'
    have hmem : o.getD i 0 ∈ o := by rw [List.getD_eq_getElem _ _ hlen]; exact List.getElem_mem hlen
    have key : ∀ v, (construct c.build H A).1.at' (o.getD i 0) = v := by
      intro v
      have h1 := h H A (by simp [A]) (by simp [A, H]) [.get k, .write (o.getD i 0) v] (by intro j hj; simpa using hj)
      have h2 := (List.map_inj_left.1 h1) _ hmem
      have h3 : (history c o ((construct c.build H A).1, {r | r < H.next}) [.get k, .write (o.getD i 0) v]).1.at' (o.getD i 0) = v := by
        simp [history, act, hki, Heap.write]
      exact h2.symm.trans h3
    have := (key [0]).symm.trans (key [])
    simp at this
  · intro h g args ha hb as has
    exact (isolatedIn_iff hc).2 hk g args ha hb as fun j hj i => (has j hj) ▸ h i

/-- Reading a property gives the entries of the array it names, and leaves every existing array alone. -/
theorem get_content {c : Cls} {o : List Ref} {s : Heap × Set Ref} {k i : ℕ} (hi : o.getD i 0 < s.1.next)
    (hk : c.getters[k]? = some (.share i) ∨ c.getters[k]? = some (.copy i)) :
    (∃ r, (act c o s (.get k)).2 = insert r s.2 ∧ (act c o s (.get k)).1.at' r = s.1.at' (o.getD i 0)) ∧
      ∀ a, a < s.1.next → (act c o s (.get k)).1.at' a = s.1.at' a := by
  rcases hk with hk | hk
  · simp only [act, hk]
    exact ⟨⟨_, rfl, rfl⟩, fun _ _ => trivial⟩
  · simp only [act, hk]
    refine ⟨⟨_, rfl, ?_⟩, fun a ha => ?_⟩
    · exact Function.update_self _ _ _
    · exact Function.update_of_ne (Nat.ne_of_lt ha) _ _

/-- **C142**: the properties that are safe: the directions of active subspaces and of Lipschitz matrices, the vertices of a convex hull, the samples of a sampler,
the point of a point domain, the directions of a Lipschitz approximation. -/
theorem safe_getters (U H L : List Vec → Vec) (unique : Vec → Vec) : SafeGetter (activeCls U H L) 0 ∧ SafeGetter (lipFitCls U H L) 0 ∧
    SafeGetter (hullCls unique) 0 ∧ SafeGetter samplerCls 0 ∧ SafeGetter samplerCls 1 ∧ SafeGetter pointCls 0 ∧ SafeGetter (lipApproxCls U H) 1 := by
  refine ⟨?_, ?_, ?_, ?_, ?_, ?_, ?_⟩ <;>
    rw [safe_iff (by constructor <;> simp [activeCls, lipFitCls, hullCls, samplerCls, pointCls, lipApproxCls, cp] <;> omega)
      (by simp [activeCls, lipFitCls, hullCls, samplerCls, pointCls, lipApproxCls, cp])] <;>
    simp [activeCls, lipFitCls, hullCls, samplerCls, pointCls, lipApproxCls]

/-- **C142 is false** for the others: singular values and matrices of active subspaces, `H` and `L` of Lipschitz matrices, bounds of points, directions of ridge
functions and of partial Lipschitz matrices, constraints of domains, `L` of approximations, the Arnoldi matrix. -/
theorem safe_getters_false (U H L : List Vec → Vec) : ¬ SafeGetter (activeCls U H L) 1 ∧ ¬ SafeGetter (activeCls U H L) 2 ∧ ¬ SafeGetter (lipFitCls U H L) 1 ∧
    ¬ SafeGetter (lipFitCls U H L) 2 ∧ ¬ SafeGetter pointCls 1 ∧ ¬ SafeGetter pointCls 2 ∧ ¬ SafeGetter ridgeCls 0 ∧ ¬ SafeGetter (partialCls U H) 0 ∧
    ¬ SafeGetter (partialCls U H) 1 ∧ ¬ SafeGetter (lipApproxCls U H) 0 ∧ ¬ SafeGetter (arnoldiCls U H) 0 ∧ ∀ k < 8, ¬ SafeGetter linQuadCls k := by
  refine ⟨?_, ?_, ?_, ?_, ?_, ?_, ?_, ?_, ?_, ?_, ?_, ?_⟩ <;> try (intro k hk)
  all_goals
    rw [safe_iff (by constructor <;> simp [activeCls, lipFitCls, pointCls, lipApproxCls, ridgeCls, partialCls, arnoldiCls, linQuadCls, cp] <;> omega)
      (by simp [activeCls, lipFitCls, pointCls, lipApproxCls, ridgeCls, partialCls, arnoldiCls, linQuadCls, cp])]
  all_goals try simp [activeCls, lipFitCls, pointCls, lipApproxCls, ridgeCls, partialCls, arnoldiCls]
  have : k = 0 ∨ k = 1 ∨ k = 2 ∨ k = 3 ∨ k = 4 ∨ k = 5 ∨ k = 6 ∨ k = 7 := by omega
  rcases this with rfl | rfl | rfl | rfl | rfl | rfl | rfl | rfl <;> simp [linQuadCls]

/-- Integer directions: the point and the length are checked first; then numpy refuses to store the floats, a `TypeError`.  Nothing is changed. -/
theorem sweep_ints_error (nnls : Domain.NNLS) (TOL tol : ℝ) (he : Domain.HullExtent) (Q : List Vec) (D : Domain.Dom) (n : ℤ) (x : Vec) (h : Heap) (r : Ref) :
    (sweepHeap nnls TOL tol he Q D n x h (.ints r)).1 = h ∧
    ((sweepHeap nnls TOL tol he Q D n x h (.ints r)).2 = .error .typeError ↔ D.isInside nnls TOL x = true ∧ (h.at' r).length = D.len) ∧
    ((sweepHeap nnls TOL tol he Q D n x h (.ints r)).2 = .error .assertion ↔ ¬ (D.isInside nnls TOL x = true ∧ (h.at' r).length = D.len)) := by
  simp only [sweepHeap]
  split
  · rename_i h1; simp [h1]
  · rename_i h1
    split
    · rename_i h2; simp [h2]
    · rename_i h2
      simp only [not_not] at h1 h2
      simp [h1, h2]

/-- The hypotheses of `get_content` are met: reading the first property of a sampler that has just been made. -/
example : ∃ r, (act samplerCls [0, 1] (⟨fun r => [(r : ℝ)], 2⟩, ∅) (.get 1)).2 = insert r ∅ ∧
    (act samplerCls [0, 1] (⟨fun r => [(r : ℝ)], 2⟩, ∅) (.get 1)).1.at' r = [1] := by
  have := (get_content (c := samplerCls) (o := [0, 1]) (s := (⟨fun r => [(r : ℝ)], 2⟩, ∅)) (k := 1) (i := 1) (by simp) (Or.inr rfl)).1
  simpa using this

end Verif.Share
