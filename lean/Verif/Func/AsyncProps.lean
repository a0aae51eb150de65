import Verif.Func.AsyncModel
import Verif.Func.FunctionProps

/-!
# Asynchronous evaluation

Source: `/repo/psdr/function.py` 96-127, 158-178, 297-304.
-/

namespace Verif.Func

open Verif Verif.Domain

variable {G V : Type}

/-! ### Specification -/

/-- What the functions of an object return or raise at a normalized point, called in this process with the keywords of the object overridden by those of the
call. -/
noncomputable def AFn.localAt (a : AFn G V) (kw : Kw V) (z : Vec) : Except Err (List Vec) :=
  sequence (a.funs.map fun g => g.body a.globals (a.dom.unnormalize a.fb z) (merge a.kw kw))

/-- A function uses no names of its module. -/
def SelfContained (g : Src G V) : Prop := ∀ e e' x k, g.body e x k = g.body e' x k

/-- No keyword argument has a name that the scheduler takes for itself. -/
def NoReserved (reserved : String → Bool) (k : Kw V) : Prop := ∀ s, reserved s = true → k s = none

/-- The event loses the result of the task. -/
def Ev.loses (i : ℕ) : Ev G V → Prop
  | .lose j => j = i
  | _ => False

/-! ### Proofs -/

theorem evalAsync_ok {reserved : String → Bool} {a : AFn G V} {X : In} {kw : Kw V} {C C' : Cluster G V} {F : Fut} (h : a.evalAsync reserved X kw C = .ok (C', F)) :
    a.dask = true ∧ C' = C ++ (X.rows.map (a.dom.unnormalize a.fb)).map (fun x => ((⟨a.funs, x, passed reserved (merge a.kw kw)⟩ : Task G V), none)) ∧
    F = Fut.of X ((List.range X.rows.length).map (C.length + ·)) := by
  unfold AFn.evalAsync at h
  split_ifs at h with hd
  simp only [Except.ok.injEq, Prod.mk.injEq] at h
  refine ⟨hd, h.1.symm, ?_⟩
  rw [← h.2]
  simp

/-- **C127** Without a client nothing is submitted. -/
theorem evalAsync_ok_iff (reserved : String → Bool) (a : AFn G V) (X : In) (kw : Kw V) (C : Cluster G V) :
    (∃ r, a.evalAsync reserved X kw C = .ok r) ↔ a.dask = true := by
  unfold AFn.evalAsync
  constructor
  · rintro ⟨r, h⟩
    split_ifs at h with hd
    exact hd
  · intro h
    rw [if_pos h]
    exact ⟨_, rfl⟩

/-- Every result in the scheduler is that of its task. -/
def Cluster.Valid (C : Cluster G V) : Prop := ∀ (i : ℕ) (t : Task G V) r, C[i]? = some (t, some r) → r = t.value

theorem step_valid {reserved : String → Bool} {C : Cluster G V} (h : C.Valid) (e : Ev G V) : (C.step reserved e).Valid := by
  cases e with
  | call a X kw =>
    simp only [Cluster.step]
    cases hc : a.evalAsync reserved X kw C with
    | error e => exact h
    | ok r =>
      obtain ⟨C', F⟩ := r
      rw [(evalAsync_ok hc).2.1]
      intro i t r hi
      rw [List.getElem?_append] at hi
      split_ifs at hi with hlt
      · exact h i t r hi
      · rw [List.getElem?_map] at hi
        cases hx : (X.rows.map (a.dom.unnormalize a.fb))[i - C.length]? with
        | none =>
          rw [hx] at hi
          cases hi
        | some x =>
          rw [hx] at hi
          simp at hi
  | run j =>
    intro i t r hi
    simp only [Cluster.step, List.getElem?_modify] at hi
    cases hC : C[i]? with
    | none =>
      rw [hC] at hi
      cases hi
    | some p =>
      rw [hC] at hi
      simp only [Option.map_eq_map, Option.map_some, Option.some.injEq] at hi
      split_ifs at hi with hij
      · simp only [Prod.mk.injEq, Option.some.injEq] at hi
        rw [← hi.1, hi.2]
      · refine h i t r ?_
        rw [hC, hi]
  | lose j =>
    intro i t r hi
    simp only [Cluster.step, List.getElem?_modify] at hi
    cases hC : C[i]? with
    | none =>
      rw [hC] at hi
      cases hi
    | some p =>
      rw [hC] at hi
      simp only [Option.map_eq_map, Option.map_some, Option.some.injEq] at hi
      split_ifs at hi with hij
      · simp at hi
      · refine h i t r ?_
        rw [hC, hi]

theorem exec_valid {reserved : String → Bool} {C : Cluster G V} (h : C.Valid) (evs : List (Ev G V)) : (C.exec reserved evs).Valid := by
  induction evs generalizing C with
  | nil => exact h
  | cons e evs ih => exact ih (step_valid h e)

theorem nil_valid : Cluster.Valid ([] : Cluster G V) := by
  intro i t r h
  simp at h

/-- Tasks stay where they are. -/
theorem step_task {reserved : String → Bool} {C : Cluster G V} {i : ℕ} {t : Task G V} {r} (h : C[i]? = some (t, r)) (e : Ev G V) :
    ∃ r', (C.step reserved e)[i]? = some (t, r') ∧ (¬ e.loses i → r.isSome → r'.isSome) := by
  cases e with
  | call a X kw =>
    simp only [Cluster.step]
    cases hc : a.evalAsync reserved X kw C with
    | error e => exact ⟨r, h, fun _ h => h⟩
    | ok q =>
      obtain ⟨C', F⟩ := q
      rw [(evalAsync_ok hc).2.1]
      have hlt : i < C.length := by
        by_contra hge
        rw [List.getElem?_eq_none (by omega)] at h
        cases h
      refine ⟨r, ?_, fun _ h => h⟩
      rw [List.getElem?_append_left hlt, h]
  | run j =>
    simp only [Cluster.step, List.getElem?_modify, h]
    by_cases hij : j = i
    · exact ⟨some t.value, by simp [hij], fun _ _ => rfl⟩
    · exact ⟨r, by simp [hij], fun _ h => h⟩
  | lose j =>
    simp only [Cluster.step, List.getElem?_modify, h]
    by_cases hij : j = i
    · exact ⟨none, by simp [hij], fun hl => absurd hij hl⟩
    · exact ⟨r, by simp [hij], fun _ h => h⟩

theorem exec_task {reserved : String → Bool} {C : Cluster G V} {i : ℕ} {t : Task G V} {r} (h : C[i]? = some (t, r)) (evs : List (Ev G V)) :
    ∃ r', (C.exec reserved evs)[i]? = some (t, r') ∧ ((∀ e ∈ evs, ¬ e.loses i) → r.isSome → r'.isSome) := by
  induction evs generalizing C r with
  | nil => exact ⟨r, h, fun _ h => h⟩
  | cons e evs ih =>
    obtain ⟨r1, h1, k1⟩ := step_task (reserved := reserved) h e
    obtain ⟨r2, h2, k2⟩ := ih h1
    exact ⟨r2, h2, fun hl hr => k2 (fun e' he' => hl e' (List.mem_cons_of_mem _ he')) (k1 (hl e List.mem_cons_self) hr)⟩

theorem passed_id {reserved : String → Bool} {k : Kw V} (h : NoReserved reserved k) : passed reserved k = k := by
  funext s
  unfold passed
  split_ifs with hs
  · exact (h s hs).symm
  · rfl

theorem self_value {a : AFn G V} (hs : ∀ g ∈ a.funs, SelfContained g) (x : Vec) (k : Kw V) :
    Task.value (⟨a.funs, x, k⟩ : Task G V) = sequence (a.funs.map fun g => g.body a.globals x k) := by
  unfold Task.value
  dsimp only
  congr 1
  exact List.map_congr_left fun g hg => hs g hg _ _ _ _

/-- The future of a row. -/
theorem submitted_task {reserved : String → Bool} {a : AFn G V} {Z : List Vec} {kw : Kw V} {C C' : Cluster G V} {F : Fut}
    (h : a.evalAsync reserved (.many Z) kw C = .ok (C', F)) {j : ℕ} {z : Vec} (hz : Z[j]? = some z) :
    C'[C.length + j]? = some (⟨a.funs, a.dom.unnormalize a.fb z, passed reserved (merge a.kw kw)⟩, none) := by
  rw [(evalAsync_ok h).2.1, List.getElem?_append_right (by omega)]
  simp [In.rows, hz]

/-- **C127** There is one future for each row, in the same order, not shared with any earlier call. -/
theorem async_futures {reserved : String → Bool} {a : AFn G V} {Z : List Vec} {kw : Kw V} {C C' : Cluster G V} {F : Fut}
    (h : a.evalAsync reserved (.many Z) kw C = .ok (C', F)) :
    ∃ ids : List ℕ, F = .many ids ∧ ids.length = Z.length ∧ ids.Nodup ∧ (∀ i ∈ ids, C.length ≤ i ∧ i < C'.length) ∧ ∀ j : ℕ, j < Z.length → ids[j]? = some (C.length + j) := by
  refine ⟨_, (evalAsync_ok h).2.2, by simp [In.rows], ?_, ?_, ?_⟩
  · exact List.Nodup.map (fun x y hxy => by simpa using hxy) List.nodup_range
  · intro i hi
    obtain ⟨j, hj, rfl⟩ := List.mem_map.mp hi
    rw [(evalAsync_ok h).2.1]
    simp [In.rows] at hj ⊢
    exact hj
  · intro j hj
    simp [In.rows, hj]

/-- **C127** Whatever happened before the call and whatever happens after it, a future that is done has the values of the functions at its row. -/
theorem async_any_schedule_partial {reserved : String → Bool} {a : AFn G V} {Z : List Vec} {kw : Kw V} (hs : ∀ g ∈ a.funs, SelfContained g)
    (hk : NoReserved reserved (merge a.kw kw)) (before after : List (Ev G V)) {C' : Cluster G V} {ids : List ℕ}
    (h : a.evalAsync reserved (.many Z) kw (Cluster.exec reserved [] before) = .ok (C', .many ids)) {j i : ℕ} {z : Vec} (hz : Z[j]? = some z) (hi : ids[j]? = some i) {r}
    (hr : (C'.exec reserved after).result i = some r) : r = a.localAt kw z := by
  obtain ⟨ids', e1, -, -, -, e2⟩ := async_futures h
  cases e1
  have hj : j < Z.length := by
    by_contra hge
    rw [List.getElem?_eq_none (by omega)] at hz
    cases hz
  rw [e2 j hj] at hi
  cases hi
  obtain ⟨r', ht, -⟩ := exec_task (reserved := reserved) (submitted_task h hz) after
  have hv0 : C'.Valid := by
    have := step_valid (reserved := reserved) (exec_valid (reserved := reserved) nil_valid before) (.call a (.many Z) kw)
    simp only [Cluster.step, h] at this
    exact this
  have hv := exec_valid (reserved := reserved) hv0 after
  unfold Cluster.result at hr
  rw [ht] at hr
  simp only [Option.bind_some] at hr
  subst hr
  rw [hv _ _ _ ht, passed_id hk, self_value hs]
  rfl

/-- **C127** A future is done once its task was executed, unless the result is lost afterwards. -/
theorem async_done {reserved : String → Bool} {a : AFn G V} {Z : List Vec} {kw : Kw V} {C C' : Cluster G V} {F : Fut}
    (h : a.evalAsync reserved (.many Z) kw C = .ok (C', F)) {j : ℕ} (hj : j < Z.length) (e1 e2 : List (Ev G V)) (hl : ∀ e ∈ e2, ¬ e.loses (C.length + j)) :
    ((C'.exec reserved (e1 ++ .run (C.length + j) :: e2)).result (C.length + j)).isSome := by
  have hz : Z[j]? = some Z[j] := List.getElem?_eq_getElem hj
  obtain ⟨r1, h1, -⟩ := exec_task (reserved := reserved) (submitted_task h hz) e1
  have hsplit : C'.exec reserved (e1 ++ .run (C.length + j) :: e2) = ((C'.exec reserved e1).step reserved (.run (C.length + j))).exec reserved e2 := by
    unfold Cluster.exec
    rw [List.foldl_append, List.foldl_cons]
  rw [hsplit]
  have h2 : ((C'.exec reserved e1).step reserved (.run (C.length + j)))[C.length + j]? =
      some (⟨a.funs, a.dom.unnormalize a.fb Z[j], passed reserved (merge a.kw kw)⟩, some (Task.value ⟨a.funs, a.dom.unnormalize a.fb Z[j], passed reserved (merge a.kw kw)⟩)) := by
    simp only [Cluster.step, List.getElem?_modify, h1]
    simp
  obtain ⟨r3, h3, k3⟩ := exec_task (reserved := reserved) h2 e2
  have := k3 hl rfl
  unfold Cluster.result
  rw [h3]
  exact this

/-- **C127** One point gives one future, the one its batch of one point has. -/
theorem async_one {reserved : String → Bool} {a : AFn G V} {z : Vec} {kw : Kw V} {C C' : Cluster G V} {F : Fut} (h : a.evalAsync reserved (.one z) kw C = .ok (C', F)) :
    F = .one C.length ∧ a.evalAsync reserved (.many [z]) kw C = .ok (C', .many [C.length]) := by
  obtain ⟨hd, h1, h2⟩ := evalAsync_ok h
  constructor
  · rw [h2]
    simp [In.rows, Fut.of]
  · unfold AFn.evalAsync
    rw [if_pos hd, h1]
    simp [In.rows, Fut.of]

/-- **C127** Joining the results of the futures in order is `eval` of the object, if the functions raise nothing. -/
theorem async_gather {reserved : String → Bool} {a : AFn G V} {f : Fn V} (hf : f.funs ≠ []) (hfn : f.vectorized = false) (hfl : ∀ g ∈ f.funs, FixedLen g)
    (hdom : f.dom = a.dom ∧ f.fb = a.fb ∧ f.kw = a.kw) (hfun : List.Forall₂ (fun (g : Src G V) (g' : UserFun V) => ∀ x k, g.body a.globals x k = .ok (g'.one x k)) a.funs f.funs)
    (hs : ∀ g ∈ a.funs, SelfContained g) {Z : List Vec} (hZ : Z ≠ []) {kw : Kw V} (hk : NoReserved reserved (merge a.kw kw)) (before after : List (Ev G V)) {C' : Cluster G V}
    {ids : List ℕ} (h : a.evalAsync reserved (.many Z) kw (Cluster.exec reserved [] before) = .ok (C', .many ids))
    (hall : ∀ i ∈ ids, ((C'.exec reserved after).result i).isSome) :
    ∃ rows : List (List Vec), ids.map (C'.exec reserved after).result = rows.map (fun r => some (.ok r)) ∧ f.eval (.many Z) kw = .ok (.mat (rows.map List.flatten)) := by
  have hval : ∀ z, a.localAt kw z = .ok (f.funs.map fun g => g.one (f.dom.unnormalize f.fb z) (merge f.kw kw)) := by
    intro z
    unfold AFn.localAt
    rw [hdom.1, hdom.2.1, hdom.2.2]
    generalize merge a.kw kw = k
    generalize a.dom.unnormalize a.fb z = x
    have : a.funs.map (fun g => g.body a.globals x k) = (f.funs.map fun g => g.one x k).map Except.ok := by
      have gen : ∀ (l : List (Src G V)) (l' : List (UserFun V)), List.Forall₂ (fun (g : Src G V) (g' : UserFun V) => ∀ x k, g.body a.globals x k = .ok (g'.one x k)) l l' →
          l.map (fun g => g.body a.globals x k) = (l'.map fun g => g.one x k).map Except.ok := by
        intro l l' hl
        induction hl with
        | nil => rfl
        | cons h1 _ ih => rw [List.map_cons, List.map_cons, List.map_cons, h1, ih]
      exact gen _ _ hfun
    rw [this, sequence_ok]
  refine ⟨Z.map fun z => f.funs.map fun g => g.one (f.dom.unnormalize f.fb z) (merge f.kw kw), ?_, ?_⟩
  · obtain ⟨ids', e1, e2, -, -, e3⟩ := async_futures h
    cases e1
    apply List.ext_getElem?
    intro j
    rw [List.getElem?_map, List.map_map, List.getElem?_map]
    by_cases hj : j < Z.length
    · have hz : Z[j]? = some Z[j] := List.getElem?_eq_getElem hj
      rw [e3 j hj, hz]
      simp only [Option.map_some, Function.comp]
      have hd := hall _ (List.mem_of_getElem? (e3 j hj))
      obtain ⟨r, hr⟩ := Option.isSome_iff_exists.mp hd
      have hh := async_any_schedule_partial hs hk before after h hz (e3 j hj) hr
      rw [hr, hh, hval]
    · rw [List.getElem?_eq_none (by omega), List.getElem?_eq_none (by omega)]
      rfl
  · rw [eval_many f hf Z kw (fun hv => by rw [hfn] at hv; cases hv) (fun _ => ⟨hZ, hfl⟩), List.map_map]
    rfl

/-! ### Where `eval_async` and `call_async` differ from a call -/

/-- A function which uses the name `np` of its module. -/
def usesNp : Src Unit Bool := ⟨fun e x _ => match e "np" with
  | some _ => .ok x
  | none => .error .nameError⟩

/-- A function without keyword arguments: python raises a `TypeError` if it gets one. -/
noncomputable def noKw : Src Unit Bool := ⟨fun _ x k => open Classical in if ∃ s, (k s).isSome then .error .typeError else .ok x⟩

/-- **C127** is false for functions that use names of their module: the future holds a `NameError`, in every history. -/
theorem async_globals_false {D : Dom} {fb : CornerOracle} (z : Vec) :
    let a : AFn Unit Bool := ⟨[usesNp], fun _ => some (), true, fun _ => none, D, fb⟩
    a.localAt (fun _ => none) z = .ok [D.unnormalize fb z] ∧
      ∀ (reserved : String → Bool) C C' F, a.evalAsync reserved (.many [z]) (fun _ => none) C = .ok (C', F) →
        ∀ evs, ((C'.exec reserved (evs ++ [.run C.length])).result C.length) = some (.error .nameError) := by
  refine ⟨rfl, ?_⟩
  intro reserved C C' F h evs
  have hz : ([z] : List Vec)[0]? = some z := rfl
  obtain ⟨r1, h1, -⟩ := exec_task (reserved := reserved) (submitted_task h hz) evs
  have hsplit : C'.exec reserved (evs ++ [.run C.length]) = (C'.exec reserved evs).step reserved (.run C.length) := by
    unfold Cluster.exec
    rw [List.foldl_append]
    rfl
  rw [hsplit]
  unfold Cluster.result
  rw [Nat.add_zero] at h1
  simp only [Cluster.step, List.getElem?_modify, h1]
  simp [Task.value, sequence, usesNp]

/-- A function with a keyword argument `retries`. -/
noncomputable def withRetries : Src Unit Bool := ⟨fun _ _ k => .ok [if (k "retries").isSome then 1 else 0]⟩

/-- **C127** is false for keyword arguments whose name the scheduler takes for itself: they do not reach the function. -/
theorem async_reserved_false {D : Dom} {fb : CornerOracle} (z : Vec) {reserved : String → Bool} (hr : reserved "retries" = true) :
    let a : AFn Unit Bool := ⟨[withRetries], fun _ => some (), true, fun s => if s = "retries" then some true else none, D, fb⟩
    a.localAt (fun _ => none) z = .ok [[1]] ∧
      ∀ C C' F, a.evalAsync reserved (.many [z]) (fun _ => none) C = .ok (C', F) →
        ∀ evs, ((C'.exec reserved (evs ++ [.run C.length])).result C.length) = some (.ok [[0]]) := by
  refine ⟨by simp [AFn.localAt, sequence, withRetries, merge], ?_⟩
  intro C C' F h evs
  have hz : ([z] : List Vec)[0]? = some z := rfl
  obtain ⟨r1, h1, -⟩ := exec_task (reserved := reserved) (submitted_task h hz) evs
  have hsplit : C'.exec reserved (evs ++ [.run C.length]) = (C'.exec reserved evs).step reserved (.run C.length) := by
    unfold Cluster.exec
    rw [List.foldl_append]
    rfl
  rw [hsplit]
  unfold Cluster.result
  rw [Nat.add_zero] at h1
  simp only [Cluster.step, List.getElem?_modify, h1]
  simp [Task.value, sequence, withRetries, passed, hr]

/-- **C127** is false for `call_async`: functions that accept no keyword arguments fail even if no gradient is asked for. -/
theorem callAsync_keyword_false {D : Dom} {fb : CornerOracle} (z : Vec) :
    let a : AFn Unit Bool := ⟨[noKw], fun _ => some (), true, fun _ => none, D, fb⟩
    a.localAt (fun _ => none) z = .ok [D.unnormalize fb z] ∧
      ∀ C C' F, a.callAsync (fun _ => false) id (.many [z]) false (fun _ => none) C = .ok (C', F) →
        ∀ evs, ((C'.exec (fun _ => false) (evs ++ [.run C.length])).result C.length) = some (.error .typeError) := by
  refine ⟨?_, ?_⟩
  · unfold AFn.localAt
    simp [sequence, noKw, merge]
  intro C C' F h evs
  unfold AFn.callAsync at h
  rw [if_neg (by simp [merge])] at h
  have hz : ([z] : List Vec)[0]? = some z := rfl
  obtain ⟨r1, h1, -⟩ := exec_task (reserved := fun _ => false) (submitted_task h hz) evs
  have hsplit : C'.exec (fun _ => false) (evs ++ [.run C.length]) = (C'.exec (fun _ => false) evs).step (fun _ => false) (.run C.length) := by
    unfold Cluster.exec
    rw [List.foldl_append]
    rfl
  rw [hsplit]
  unfold Cluster.result
  rw [Nat.add_zero] at h1
  simp only [Cluster.step, List.getElem?_modify, h1]
  have : ∃ s, (passed (fun _ => false) (merge (fun _ => none) (fun s : String => if s = "return_grad" then some (id false) else merge (fun _ => none) (fun _ => none) s)) s).isSome :=
    ⟨"return_grad", by simp [passed, merge]⟩
  simp [Task.value, sequence, noKw]
  simp at this
  rw [if_pos this]

/-- **C127** `call_async` of functions that do not look at `return_grad` is `eval_async`: with this keyword added to those of the call. -/
theorem callAsync_eq {reserved : String → Bool} {ofBool : Bool → V} {a : AFn G V} {X : In} {rg : Bool} {kw : Kw V} {C : Cluster G V} (hk : merge a.kw kw "return_grad" = none) :
    a.callAsync reserved ofBool X rg kw C = a.evalAsync reserved X (fun s => if s = "return_grad" then some (ofBool rg) else kw s) C := by
  unfold AFn.callAsync
  dsimp only
  rw [hk]
  simp only [Option.isSome_none, Bool.false_eq_true, if_false]
  unfold AFn.evalAsync
  have : merge a.kw (fun s => if s = "return_grad" then some (ofBool rg) else merge a.kw kw s) = merge a.kw (fun s => if s = "return_grad" then some (ofBool rg) else kw s) := by
    funext s
    unfold merge
    dsimp only
    split_ifs
    · rfl
    · cases kw s <;> cases a.kw s <;> rfl
  rw [this]

/-- **C127** A `return_grad` among the keyword arguments of the object is refused. -/
theorem callAsync_twice {reserved : String → Bool} {ofBool : Bool → V} {a : AFn G V} {X : In} {rg : Bool} {kw : Kw V} {C : Cluster G V} (hk : merge a.kw kw "return_grad" ≠ none) :
    a.callAsync reserved ofBool X rg kw C = .error .typeError := by
  unfold AFn.callAsync
  rw [if_pos (Option.isSome_iff_ne_none.mpr hk)]

/-! ### A concrete history -/

/-- The identity. -/
def srcId : Src Unit Bool := ⟨fun _ x _ => .ok x⟩

/-- The hypotheses of `async_any_schedule_partial` hold for two rows executed in reverse order, one of them lost and executed again. -/
example (D : Dom) (fb : CornerOracle) (z w : Vec) :
    let a : AFn Unit Bool := ⟨[srcId], fun _ => none, true, fun _ => none, D, fb⟩
    ∃ C', a.evalAsync (fun _ => false) (.many [z, w]) (fun _ => none) [] = .ok (C', .many [0, 1]) ∧
      (C'.exec (fun _ => false) [.run 1, .lose 1, .run 0, .run 1]).result 0 = some (.ok [D.unnormalize fb z]) ∧
      (C'.exec (fun _ => false) [.run 1, .lose 1, .run 0, .run 1]).result 1 = some (.ok [D.unnormalize fb w]) := by
  refine ⟨_, rfl, ?_, ?_⟩ <;> rfl

end Verif.Func
