import Verif.Misc.ShareModel
import Verif.Domain.SweepProps
import Mathlib.Data.List.GetD

/-!
# Property C142: arrays are not shared with the caller

An object is isolated if nothing the caller can do with the arrays they know (those that existed before the object was made, those made later, and those the
object has given out) changes the arrays of the object.
-/

namespace Verif.Share

open Verif

/-- **Specification.** Whatever existed before, whatever arrays are passed and whatever the caller does afterwards, the arrays of the object keep their entries. -/
def Isolated (c : Cls) : Prop :=
  ∀ (h : Heap) (args : List Ref), args.length = c.arity → (∀ r ∈ args, r < h.next) → ∀ as : List Act,
    content (history c (construct c.build h args).2 ((construct c.build h args).1, {r | r < h.next}) as).1 (construct c.build h args).2 =
      content (construct c.build h args).1 (construct c.build h args).2

/-- The caller reads no property that gives out an array of the object itself. -/
def NoShared (c : Cls) (as : List Act) : Prop := ∀ k, Act.get k ∈ as → ∀ i, c.getters[k]? ≠ some (.share i)

/-- **Specification** for callers that read no such property. -/
def IsolatedIn (c : Cls) : Prop :=
  ∀ (h : Heap) (args : List Ref), args.length = c.arity → (∀ r ∈ args, r < h.next) → ∀ as : List Act, NoShared c as →
    content (history c (construct c.build h args).2 ((construct c.build h args).1, {r | r < h.next}) as).1 (construct c.build h args).2 =
      content (construct c.build h args).1 (construct c.build h args).2

/-- The indices of the class make sense. -/
def Cls.Ok (c : Cls) : Prop :=
  (∀ i, Build.keep i ∈ c.build → i < c.arity) ∧ ∀ i, (Getter.share i ∈ c.getters ∨ Getter.copy i ∈ c.getters) → i < c.build.length

/-! ## Construction -/

theorem construct_next (bs : List Build) : ∀ (h : Heap) (args : List Ref), h.next ≤ (construct bs h args).1.next := by
  induction bs with
  | nil => intro h args; exact le_refl _
  | cons b bs ih =>
    intro h args
    cases b with
    | keep i => exact ih h args
    | fresh f => exact (Nat.le_succ _).trans (ih (h.alloc (f (args.map h.at'))).1 args)

theorem construct_frame (bs : List Build) : ∀ (h : Heap) (args : List Ref) (r : Ref), r < h.next → (construct bs h args).1.at' r = h.at' r := by
  induction bs with
  | nil => intro h args r _; rfl
  | cons b bs ih =>
    intro h args r hr
    cases b with
    | keep i => exact ih h args r hr
    | fresh f =>
      have := ih (h.alloc (f (args.map h.at'))).1 args r (Nat.lt_succ_of_lt hr)
      refine this.trans ?_
      exact Function.update_of_ne (Nat.ne_of_lt hr) _ _

theorem construct_length (bs : List Build) : ∀ (h : Heap) (args : List Ref), (construct bs h args).2.length = bs.length := by
  induction bs with
  | nil => intro h args; rfl
  | cons b bs ih =>
    intro h args
    cases b with
    | keep i => simp [construct, ih]
    | fresh f => simp [construct, ih]

theorem construct_fresh {bs : List Build} (hb : ∀ i, Build.keep i ∉ bs) : ∀ (h : Heap) (args : List Ref), ∀ r ∈ (construct bs h args).2,
    h.next ≤ r ∧ r < (construct bs h args).1.next := by
  induction bs with
  | nil => intro h args r hr; simp [construct] at hr
  | cons b bs ih =>
    intro h args r hr
    cases b with
    | keep i => exact absurd (List.mem_cons_self) (hb i)
    | fresh f =>
      have ih' := ih (fun i hi => hb i (List.mem_cons_of_mem _ hi)) (h.alloc (f (args.map h.at'))).1 args
      rcases List.mem_cons.1 hr with hr | hr
      · subst hr
        exact ⟨le_refl _, construct_next bs (h.alloc (f (args.map h.at'))).1 args⟩
      · exact ⟨(Nat.le_succ _).trans (ih' r hr).1, (ih' r hr).2⟩

theorem construct_keep {bs : List Build} {i : ℕ} (hi : Build.keep i ∈ bs) : ∀ (h : Heap) (args : List Ref), args.getD i 0 ∈ (construct bs h args).2 := by
  induction bs with
  | nil => simp at hi
  | cons b bs ih =>
    intro h args
    rcases List.mem_cons.1 hi with hi | hi'
    · subst hi
      exact List.mem_cons_self
    · cases b with
      | keep j => exact List.mem_cons_of_mem _ (ih hi' h args)
      | fresh f => exact List.mem_cons_of_mem _ (ih hi' _ args)

/-- What the arrays of a new object contain: the entries computed from the arguments at the time of the call. -/
theorem construct_content {bs : List Build} : ∀ (h : Heap) (args : List Ref), (∀ r ∈ args, r < h.next) → (∀ i, Build.keep i ∈ bs → i < args.length) →
    content (construct bs h args).1 (construct bs h args).2 = bs.map fun
      | .keep i => (args.map h.at').getD i []
      | .fresh f => f (args.map h.at') := by
  induction bs with
  | nil => intro h args _ _; rfl
  | cons b bs ih =>
    intro h args ha hk
    have hk' : ∀ i, Build.keep i ∈ bs → i < args.length := fun i hi => hk i (List.mem_cons_of_mem _ hi)
    cases b with
    | keep i =>
      have hi := hk i List.mem_cons_self
      simp only [construct, content, List.map_cons]
      congr 1
      · rw [construct_frame bs h args _ (ha _ (by rw [List.getD_eq_getElem _ _ hi]; exact List.getElem_mem hi))]
        simp [List.getD_eq_getElem?_getD, hi]
      · exact ih h args ha hk'
    | fresh f =>
      simp only [construct, content, List.map_cons]
      have h1 : args.map (h.alloc (f (args.map h.at'))).1.at' = args.map h.at' :=
        List.map_congr_left fun r hr => Function.update_of_ne (Nat.ne_of_lt (ha r hr)) _ _
      congr 1
      · rw [construct_frame bs _ args _ (Nat.lt_succ_self _)]
        exact Function.update_self _ _ _
      · have := ih (h.alloc (f (args.map h.at'))).1 args (fun r hr => (ha r hr).trans (Nat.lt_succ_self _)) hk'
        rw [h1] at this
        exact this

/-! ## Histories -/

/-- Nothing the caller knows is one of the arrays of the object. -/
def Apart (o : List Ref) (s : Heap × Set Ref) : Prop := (∀ r ∈ o, r ∉ s.2) ∧ ∀ r ∈ o, r < s.1.next

theorem act_apart {c : Cls} {o : List Ref} {s : Heap × Set Ref} (hs : Apart o s) {a : Act} (ha : ∀ k, a = .get k → ∀ i, c.getters[k]? ≠ some (.share i)) :
    Apart o (act c o s a) ∧ content (act c o s a).1 o = content s.1 o := by
  have hnew : ∀ v, Apart o ((s.1.alloc v).1, insert (s.1.alloc v).2 s.2) ∧ content (s.1.alloc v).1 o = content s.1 o := by
    intro v
    refine ⟨⟨fun r hr => ?_, fun r hr => (hs.2 r hr).trans (Nat.lt_succ_self _)⟩, ?_⟩
    · rintro (h | h)
      · exact absurd (hs.2 r hr) (by rw [h]; exact lt_irrefl _)
      · exact hs.1 r hr h
    · exact List.map_congr_left fun r hr => Function.update_of_ne (Nat.ne_of_lt (hs.2 r hr)) _ _
  cases a with
  | write r v =>
    simp only [act]
    split
    · rename_i hr
      refine ⟨⟨hs.1, hs.2⟩, List.map_congr_left fun r' hr' => Function.update_of_ne ?_ _ _⟩
      rintro rfl
      exact hs.1 _ hr' hr
    · exact ⟨hs, rfl⟩
  | new v => exact hnew v
  | get k =>
    simp only [act]
    split
    · rename_i i hi
      exact absurd hi (ha k rfl i)
    · exact hnew _
    · exact ⟨hs, rfl⟩

theorem history_apart {c : Cls} {o : List Ref} (as : List Act) : ∀ {s : Heap × Set Ref}, Apart o s → NoShared c as → content (history c o s as).1 o = content s.1 o := by
  induction as with
  | nil => intro s _ _; rfl
  | cons a as ih =>
    intro s hs hn
    have h1 := act_apart (c := c) hs (a := a) fun k hk i => hn k (hk ▸ List.mem_cons_self) i
    have := ih h1.1 fun k hk => hn k (List.mem_cons_of_mem _ hk)
    exact this.trans h1.2

/-- **C142**: an object that copies its arguments keeps its data in every history in which the caller reads no property that gives out its own arrays; one that
keeps an argument does not. -/
theorem isolatedIn_iff {c : Cls} (hc : c.Ok) : IsolatedIn c ↔ ∀ i, Build.keep i ∉ c.build := by
  constructor
  · intro h i hi
    have hi' := hc.1 i hi
    have h1 := h ⟨fun _ => [], 1⟩ (List.replicate c.arity 0) (by simp) (by simp) [.write 0 [1]] (by intro k hk; simp at hk)
    have hmem := construct_keep hi ⟨fun _ => [], 1⟩ (List.replicate c.arity 0)
    have h0 : (List.replicate c.arity 0).getD i 0 = 0 := by
      rw [List.getD_eq_getElem _ _ (by simpa using hi')]
      simp
    rw [h0] at hmem
    have h2 := (List.map_inj_left.1 h1) 0 hmem
    have h3 : (history c (construct c.build ⟨fun _ => [], 1⟩ (List.replicate c.arity 0)).2 ((construct c.build ⟨fun _ => [], 1⟩ (List.replicate c.arity 0)).1, {r | r < 1})
        [.write 0 [1]]).1.at' 0 = [1] := by
      simp [history, act, Heap.write]
    rw [h3, construct_frame _ _ _ _ (by norm_num)] at h2
    simp at h2
  · intro h g args _ _ as has
    have hf := construct_fresh h g args
    exact history_apart as ⟨fun r hr hr' => absurd (hf r hr).1 (not_le.2 hr'), fun r hr => (hf r hr).2⟩ has

/-- **C142**: an object keeps its data in every history exactly if its class copies all arguments and gives out copies only. -/
theorem isolated_iff {c : Cls} (hc : c.Ok) : Isolated c ↔ (∀ i, Build.keep i ∉ c.build) ∧ ∀ i, Getter.share i ∉ c.getters := by
  constructor
  · intro h
    refine ⟨(isolatedIn_iff hc).1 fun g args h1 h2 as _ => h g args h1 h2 as, fun i hi => ?_⟩
    obtain ⟨k, hk⟩ := List.mem_iff_getElem?.1 hi
    have hi' := hc.2 i (Or.inl hi)
    let H : Heap := ⟨fun _ => [], 1⟩
    let A := List.replicate c.arity (0 : Ref)
    let o := (construct c.build H A).2
    have hlen : i < o.length := by rw [construct_length]; exact hi'
    have hmem : o.getD i 0 ∈ o := by rw [List.getD_eq_getElem _ _ hlen]; exact List.getElem_mem hlen
    have key : ∀ v, (construct c.build H A).1.at' (o.getD i 0) = v := by
      intro v
      have h1 := h H A (by simp [A]) (by simp [A, H]) [.get k, .write (o.getD i 0) v]
      have h2 := (List.map_inj_left.1 h1) _ hmem
      have h3 : (history c o ((construct c.build H A).1, {r | r < H.next}) [.get k, .write (o.getD i 0) v]).1.at' (o.getD i 0) = v := by
        simp [history, act, hk, Heap.write]
      exact h2.symm.trans h3
    have := (key [0]).symm.trans (key [])
    simp at this
  · rintro ⟨h1, h2⟩ g args ha hb as
    exact (isolatedIn_iff hc).2 h1 g args ha hb as fun k _ i hi => h2 i (List.mem_of_getElem? hi)

/-! ## The classes of the package -/

/-- **C142** holds for samplers, convex hulls and Gaussian processes. -/
theorem isolated_classes (unique : Vec → Vec) (ell : List Vec → Vec) : Isolated samplerCls ∧ Isolated (hullCls unique) ∧ Isolated (gpCls ell) := by
  refine ⟨?_, ?_, ?_⟩ <;> rw [isolated_iff (by constructor <;> simp [samplerCls, hullCls, gpCls, cp])] <;> simp [samplerCls, hullCls, gpCls, cp]

/-- Domains, fitted subspaces, Lipschitz matrices and ridge functions do not depend on the arrays passed to them, as long as the caller does not use the arrays
obtained from their properties. -/
theorem isolatedIn_classes (U H L : List Vec → Vec) : IsolatedIn linQuadCls ∧ IsolatedIn pointCls ∧ IsolatedIn (activeCls U H L) ∧ IsolatedIn (lipFitCls U H L) ∧
    IsolatedIn (partialCls U H) ∧ IsolatedIn ridgeCls ∧ IsolatedIn (lipApproxCls U H) ∧ IsolatedIn (arnoldiCls U H) := by
  refine ⟨?_, ?_, ?_, ?_, ?_, ?_, ?_, ?_⟩ <;>
    rw [isolatedIn_iff (by constructor <;> simp [linQuadCls, pointCls, activeCls, lipFitCls, partialCls, ridgeCls, lipApproxCls, arnoldiCls, cp] <;> omega)] <;>
    simp [linQuadCls, pointCls, activeCls, lipFitCls, partialCls, ridgeCls, lipApproxCls, arnoldiCls, cp]

/-- **C142 is false** through the properties of these classes: they give out their own arrays. -/
theorem isolated_getters_false (U H L : List Vec → Vec) : ¬ Isolated linQuadCls ∧ ¬ Isolated pointCls ∧ ¬ Isolated (activeCls U H L) ∧ ¬ Isolated (lipFitCls U H L) ∧
    ¬ Isolated (partialCls U H) ∧ ¬ Isolated ridgeCls ∧ ¬ Isolated (lipApproxCls U H) ∧ ¬ Isolated (arnoldiCls U H) := by
  refine ⟨?_, ?_, ?_, ?_, ?_, ?_, ?_, ?_⟩ <;>
    rw [isolated_iff (by constructor <;> simp [linQuadCls, pointCls, activeCls, lipFitCls, partialCls, ridgeCls, lipApproxCls, arnoldiCls, cp] <;> omega)] <;>
    simp [linQuadCls, pointCls, activeCls, lipFitCls, partialCls, ridgeCls, lipApproxCls, arnoldiCls, cp] <;>
    first | (refine ⟨0, ?_⟩; simp; done) | (refine ⟨1, ?_⟩; simp; done) | (refine ⟨3, ?_⟩; simp; done)

/-- **C142 is false** for classes that keep an array of the caller: tensor bases, Lipschitz matrices that are given, bounds. -/
theorem isolated_args_false (lb ub Y : List Vec → Vec) : ¬ IsolatedIn (tensorCls lb ub) ∧ ¬ IsolatedIn lipGivenCls ∧ ¬ IsolatedIn (boundCls Y) := by
  refine ⟨?_, ?_, ?_⟩ <;> rw [isolatedIn_iff (by constructor <;> simp [tensorCls, lipGivenCls, boundCls])] <;> simp [tensorCls, lipGivenCls, boundCls]
  exact ⟨0, by simp⟩

/-- **C142**: a copy of a domain starts with the same data and keeps it, whatever is done with the original and with all other arrays; the original is
untouched by the copying. -/
theorem deepCopy_isolated (h : Heap) (o : List Ref) (ho : ∀ r ∈ o, r < h.next) (c : Cls) :
    content (deepCopy h o).1 (deepCopy h o).2 = content h o ∧ content (deepCopy h o).1 o = content h o ∧
    ∀ as, NoShared c as → content (history c (deepCopy h o).2 ((deepCopy h o).1, {r | r < h.next}) as).1 (deepCopy h o).2 = content h o := by
  have hk : ∀ i, Build.keep i ∉ (List.range o.length).map cp := by intro i; simp [cp]
  have h1 : content (deepCopy h o).1 (deepCopy h o).2 = content h o := by
    refine (construct_content h o ho fun i hi => absurd hi (hk i)).trans ?_
    rw [List.map_map]
    refine List.ext_getElem (by simp [content]) fun n h1 h2 => ?_
    have hn : n < o.length := by simpa using h1
    simp [cp, content, List.getD_eq_getElem?_getD, hn]
  have hf := construct_fresh hk h o
  refine ⟨h1, List.map_congr_left fun r hr => construct_frame _ h o r (ho r hr), fun as has => ?_⟩
  exact (history_apart (c := c) as (s := ((deepCopy h o).1, {r | r < h.next})) ⟨fun r hr hr' => absurd (hf r hr).1 (not_le.2 hr'), fun r hr => (hf r hr).2⟩ has).trans h1

/-! ## Calls -/

theorem writes_fold (steps : List (Vec → Vec)) : ∀ (g : Heap) (a : Ref), (steps.foldl (fun g f => g.write a (f (g.at' a))) g).at' a = steps.foldl (fun v f => f v) (g.at' a) ∧
    (∀ r, r ≠ a → (steps.foldl (fun g f => g.write a (f (g.at' a))) g).at' r = g.at' r) := by
  induction steps with
  | nil => intro g a; exact ⟨rfl, fun _ _ => rfl⟩
  | cons f fs ih =>
    intro g a
    have := ih (g.write a (f (g.at' a))) a
    refine ⟨this.1.trans ?_, fun r hr => (this.2 r hr).trans (Function.update_of_ne hr _ _)⟩
    simp only [Heap.write, Function.update_self, List.foldl_cons]

/-- **C142** for loops that copy their argument first: no array of the caller is changed, and the result is a new array. -/
theorem inPlace_copy (steps : List (Vec → Vec)) (h : Heap) (r : Ref) : (∀ a < h.next, (inPlace true steps h r).1.at' a = h.at' a) ∧
    h.next ≤ (inPlace true steps h r).2 ∧ (inPlace true steps h r).1.at' (inPlace true steps h r).2 = steps.foldl (fun v f => f v) (h.at' r) := by
  have hw := writes_fold steps (h.alloc (h.at' r)).1 h.next
  refine ⟨fun a ha => ?_, le_refl _, ?_⟩
  · exact (hw.2 a (Nat.ne_of_lt ha)).trans (Function.update_of_ne (Nat.ne_of_lt ha) _ _)
  · refine hw.1.trans ?_
    simp [Heap.alloc]

/-- Loops that do not copy: the argument of the caller becomes the result. -/
theorem inPlace_same (steps : List (Vec → Vec)) (h : Heap) (r : Ref) : (inPlace false steps h r).2 = r ∧
    (inPlace false steps h r).1.at' r = steps.foldl (fun v f => f v) (h.at' r) ∧ ∀ a, a ≠ r → (inPlace false steps h r).1.at' a = h.at' a :=
  ⟨rfl, (writes_fold steps h r).1, fun a ha => (writes_fold steps h r).2 a ha⟩

/-- **C142** for the iterative projection, block maximin designs and Voronoi vertices. -/
theorem calls_leave (steps : List (Vec → Vec)) (h : Heap) (r a : Ref) (ha : a < h.next) : (projectHeap steps h r).1.at' a = h.at' a ∧
    (maximinBlockHeap steps h r).1.at' a = h.at' a ∧ (vertexHeap steps h r).1.at' a = h.at' a :=
  ⟨(inPlace_copy steps h r).1 a ha, (inPlace_copy steps h r).1 a ha, (inPlace_copy steps h r).1 a ha⟩

/-- **C142 is false** for Lloyd's method: whenever the design moves, the start design of the caller is lost. -/
theorem lloyd_argument_false {steps : List (Vec → Vec)} {h : Heap} {r : Ref} (hm : steps.foldl (fun v f => f v) (h.at' r) ≠ h.at' r) :
    (lloydHeap steps h r).1.at' r ≠ h.at' r := by
  rw [lloydHeap, (inPlace_same steps h r).2.1]
  exact hm

section
variable (nnls : Domain.NNLS) (TOL tol : ℝ) (he : Domain.HullExtent) (Q : List Vec) (D : Domain.Dom) (n : ℤ) (x : Vec) (h : Heap)

/-- A list and an array of floats with the same entries give the same sweep. -/
theorem sweep_same (r : Ref) : (sweepHeap nnls TOL tol he Q D n x h (.floats r)).2 = (sweepHeap nnls TOL tol he Q D n x h (.list (h.at' r))).2 := rfl

/-- A list is never changed, and neither are other arrays. -/
theorem sweep_list (v : Vec) : (sweepHeap nnls TOL tol he Q D n x h (.list v)).1 = h := rfl

/-- The direction is replaced by its part in the allowed directions, as soon as the checks of the arguments are passed; other arrays are not changed. -/
theorem sweep_floats (r : Ref) (h1 : D.isInside nnls TOL x) (h2 : (h.at' r).length = D.len) :
    (sweepHeap nnls TOL tol he Q D n x h (.floats r)).1.at' r = Domain.projOut Q (h.at' r) ∧
    ∀ a, a ≠ r → (sweepHeap nnls TOL tol he Q D n x h (.floats r)).1.at' a = h.at' a := by
  constructor
  · simp [sweepHeap, Heap.write, Domain.Dom.sweep, h1, h2]
  · intro a ha
    exact Function.update_of_ne ha _ _

/-- **C142 is false** for `sweep`: the direction array is changed unless it is orthogonal to the equality constraints already. -/
theorem sweep_argument_iff (r : Ref) (h1 : D.isInside nnls TOL x) (h2 : (h.at' r).length = D.len) :
    (sweepHeap nnls TOL tol he Q D n x h (.floats r)).1.at' r = h.at' r ↔ Domain.projOut Q (h.at' r) = h.at' r := by
  rw [(sweep_floats nnls TOL tol he Q D n x h r h1 h2).1]

/-- Without equality constraints the direction is kept. -/
theorem sweep_free (r : Ref) (a : Ref) : (sweepHeap nnls TOL tol he [] D n x h (.floats r)).1.at' a = h.at' a := by
  by_cases ha : a = r
  · subst ha
    simp only [sweepHeap, Heap.write, Function.update_self, Domain.Dom.sweep]
    split
    · rfl
    · split
      · rfl
      · exact Domain.projOut_nil _
  · exact Function.update_of_ne ha _ _

/-- Integer directions are never accepted. -/
theorem sweep_ints_false (r : Ref) : ∀ out, (sweepHeap nnls TOL tol he Q D n x h (.ints r)).2 ≠ .ok out := by
  intro out
  simp only [sweepHeap]
  split
  · simp
  · split <;> simp

end

/-- The options afterwards: unchanged exactly if the key was there; a second call changes nothing more. -/
theorem warmStart_iff (opts : List (String × Bool)) : (warmStart opts = opts ↔ "warm_start" ∈ opts.map Prod.fst) ∧ warmStart (warmStart opts) = warmStart opts ∧
    (warmStart opts).map Prod.fst ⊆ "warm_start" :: opts.map Prod.fst := by
  by_cases h : "warm_start" ∈ opts.map Prod.fst
  · have : warmStart opts = opts := by
      rw [warmStart, if_pos]
      simpa using h
    rw [this, this]
    exact ⟨⟨fun _ => h, fun _ => rfl⟩, rfl, List.subset_cons_self _ _⟩
  · have : warmStart opts = opts ++ [("warm_start", true)] := by
      rw [warmStart, if_neg]
      simpa using h
    refine ⟨⟨fun e => ?_, fun e => absurd e h⟩, ?_, ?_⟩
    · rw [this] at e
      simp at e
    · rw [this, warmStart, if_pos]
      simp
    · rw [this]
      intro a ha
      simp only [List.map_append, List.map_cons, List.map_nil, List.mem_append, List.mem_singleton] at ha
      rcases ha with ha | ha
      · exact List.mem_cons_of_mem _ ha
      · rw [ha]; exact List.mem_cons_self

/-! ## The hypotheses are met; concrete histories -/

/-- A box `[0, 1]`: writing into the array obtained from `lb` moves the lower bound to 5. -/
example : ∃ as : List Act, (content (history linQuadCls (construct linQuadCls.build ⟨fun r => [(r : ℝ)], 8⟩ [0, 1, 2, 3, 4, 5, 6, 7]).2
    ((construct linQuadCls.build ⟨fun r => [(r : ℝ)], 8⟩ [0, 1, 2, 3, 4, 5, 6, 7]).1, {r | r < 8}) as).1
    (construct linQuadCls.build ⟨fun r => [(r : ℝ)], 8⟩ [0, 1, 2, 3, 4, 5, 6, 7]).2).head? = some [5] := by
  refine ⟨[.get 0, .write 8 [5]], ?_⟩
  simp [history, act, linQuadCls, construct, cp, content, Heap.alloc, Heap.write]

/-- Writing into the array passed as lower bound does not. -/
example : (content (history linQuadCls (construct linQuadCls.build ⟨fun r => [(r : ℝ)], 8⟩ [0, 1, 2, 3, 4, 5, 6, 7]).2
    ((construct linQuadCls.build ⟨fun r => [(r : ℝ)], 8⟩ [0, 1, 2, 3, 4, 5, 6, 7]).1, {r | r < 8}) [.write 0 [5], .new [], .write 1 []]).1
    (construct linQuadCls.build ⟨fun r => [(r : ℝ)], 8⟩ [0, 1, 2, 3, 4, 5, 6, 7]).2) = (List.range 8).map fun k : ℕ => [(k : ℝ)] := by
  rw [(isolatedIn_classes (fun _ => []) (fun _ => []) fun _ => []).1 _ _ rfl (by simp) _ (by intro k hk; simp at hk), construct_content _ _ (by simp) (by simp [linQuadCls, cp])]
  simp [linQuadCls, cp, List.range_succ]

example : (lloydHeap [fun _ => [1]] ⟨fun _ => [0], 1⟩ 0).1.at' 0 ≠ [0] := lloyd_argument_false (by simp)

end Verif.Share
