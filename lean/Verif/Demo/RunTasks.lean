import Verif.Demo.RunProps
import Mathlib.Data.Set.Finite.Lattice

/-!
# Calls that run at the same time do not disturb each other
-/

namespace Verif.Demo

variable {R : Type} {n : ℕ}

/-- What a call finds in its directory if it has it for itself, after the steps `acts`. -/
def aloneDir (acts : List (FS → FS)) : FS := acts.foldl (fun t a => (a t).put [] .dir) freshDir

/-- The call has made the directory and has not removed it. -/
def Holds (s : TaskSt R) (wd : Path) : Prop :=
  (∃ rest, s = .active wd rest) ∨ ∃ e, s = .finished wd (.error e)

/-- The state of the calls and of the disk at any time. -/
structure TaskInv (base : Path) (T : Fin n → RunTask R) (fs0 : FS) (w : (Fin n → TaskSt R) × FS) : Prop where
  active : ∀ i wd rest, w.1 i = .active wd rest → ∃ before, (T i).acts = before ++ rest ∧ under wd w.2 = aloneDir before
  finished : ∀ i wd r, w.1 i = .finished wd r → r = (T i).read (aloneDir (T i).acts)
  named : ∀ i wd, Holds (w.1 i) wd → (∃ name, wd = base ++ [name]) ∧ w.2 wd = some .dir ∧ ∀ q, fs0 (wd ++ q) = none
  apart : ∀ i j wd, Holds (w.1 i) wd → Holds (w.1 j) wd → i = j
  outside : ∀ q, (∀ i wd, Holds (w.1 i) wd → ¬ wd <+: q) → w.2 q = fs0 q

theorem aloneDir_nil_dir (acts : List (FS → FS)) : aloneDir acts [] = some .dir := by
  induction acts using List.reverseRecOn with
  | nil => rfl
  | append_singleton l a _ => simp [aloneDir, FS.put]

theorem holds_unique {s : TaskSt R} {a b : Path} (ha : Holds s a) (hb : Holds s b) : a = b := by
  rcases ha with ⟨r, rfl⟩ | ⟨e, rfl⟩ <;> rcases hb with ⟨r', h⟩ | ⟨e', h⟩ <;> cases h <;> rfl

theorem prefix_named {base : Path} {a b : String} {q : Path} (ha : base ++ [a] <+: q) (hb : base ++ [b] <+: q) : base ++ [a] = base ++ [b] :=
  (List.prefix_of_prefix_length_le ha hb (by simp)).eq_of_length (by simp)

theorem roomy_of_inv {base : Path} {T : Fin n → RunTask R} {fs0 : FS} {w : (Fin n → TaskSt R) × FS} (h : TaskInv base T fs0 w) (hr : Roomy base fs0) : Roomy base w.2 := by
  have hfin : (⋃ i, {name : String | Holds (w.1 i) (base ++ [name])}).Finite := by
    refine Set.finite_iUnion fun i => Set.Subsingleton.finite ?_
    intro a ha b hb
    simpa using holds_unique ha hb
  refine (hr.union hfin).subset ?_
  rintro name ⟨q, hq⟩
  by_cases hc : ∃ i, Holds (w.1 i) (base ++ [name])
  · exact .inr (Set.mem_iUnion.2 hc)
  · refine .inl ⟨q, ?_⟩
    rw [← h.outside]
    · exact hq
    · intro i wd hi hp
      obtain ⟨⟨b, rfl⟩, -⟩ := h.named i wd hi
      have : base ++ [name] <+: base ++ name :: q := ⟨q, by simp⟩
      exact hc ⟨i, by rw [← prefix_named hp this]; exact hi⟩

theorem taskStep_inv {base : Path} {tmp : FS → Path} (ht : TmpSpec base tmp) {T : Fin n → RunTask R} {fs0 : FS} (hr : Roomy base fs0)
    {w : (Fin n → TaskSt R) × FS} (h : TaskInv base T fs0 w) (i : Fin n) :
    TaskInv base T fs0 (Function.update w.1 i (taskStep (T i) tmp (w.1 i) w.2).1, (taskStep (T i) tmp (w.1 i) w.2).2) := by
  obtain ⟨st, fs⟩ := w
  have hroom := roomy_of_inv h hr
  obtain ⟨hact, hfin, hnam, hap, hout⟩ := h
  simp only at hact hfin hnam hap hout hroom ⊢
  -- directories held by other calls are apart from `wd`
  have hsep : ∀ {wd wd' : Path}, (∃ a, wd = base ++ [a]) → (∃ a, wd' = base ++ [a]) → wd ≠ wd' → ∀ q, ¬ wd <+: wd' ++ q := by
    rintro _ _ ⟨a, rfl⟩ ⟨b, rfl⟩ hne q hp
    exact hne (prefix_named hp ⟨q, rfl⟩)
  rcases hs : st i with _ | ⟨wd, _ | ⟨a, rest⟩⟩ | ⟨wd, r⟩
  · -- a new directory
    obtain ⟨name, hn, hfree⟩ := ht fs hroom
    have hfree' : ∀ q, fs (tmp fs ++ q) = none := fun q => by rw [hn]; simpa using hfree q
    have hnew : ∀ j wd, Holds (st j) wd → wd ≠ tmp fs := by
      rintro j wd hj rfl
      have := (hnam j _ hj).2.1
      have h2 := hfree' []
      rw [List.append_nil] at h2
      rw [h2] at this
      cases this
    have h0 : ∀ q, fs0 (tmp fs ++ q) = none := by
      intro q
      rw [← hout _ fun j wd hj hp => ?_]
      · exact hfree' q
      · exact hsep (hnam j wd hj).1 ⟨name, hn⟩ (hnew j wd hj) q hp
    have hother : ∀ wd, wd ≠ tmp fs → (∃ a, wd = base ++ [a]) → under wd (fs.put (tmp fs) .dir) = under wd fs := by
      intro wd hne hb
      funext p
      have : wd ++ p ≠ tmp fs := fun e => hsep ⟨name, hn⟩ hb hne.symm p (e ▸ List.prefix_rfl)
      simp [under, FS.put, this]
    have hholds : ∀ j wd, Holds (Function.update st i (.active (tmp fs) (T i).acts) j) wd → (j = i ∧ wd = tmp fs) ∨ (j ≠ i ∧ Holds (st j) wd) := by
      intro j wd hj
      by_cases hji : j = i
      · subst hji
        rw [Function.update_self] at hj
        exact .inl ⟨rfl, holds_unique hj (.inl ⟨_, rfl⟩)⟩
      · rw [Function.update_of_ne hji] at hj
        exact .inr ⟨hji, hj⟩
    simp only [taskStep]
    refine ⟨fun j wd rest hj => ?_, fun j wd r hj => ?_, fun j wd hj => ?_, fun j k wd hj hk => ?_, fun q hq => ?_⟩ <;> simp only at *
    · by_cases hji : j = i
      · subst hji
        rw [Function.update_self] at hj
        cases hj
        exact ⟨[], rfl, under_put_fresh hfree'⟩
      · rw [Function.update_of_ne hji] at hj
        obtain ⟨b, h1, h2⟩ := hact j wd rest hj
        have hh : Holds (st j) wd := .inl ⟨_, hj⟩
        exact ⟨b, h1, by rw [hother wd (hnew j wd hh) (hnam j wd hh).1]; exact h2⟩
    · by_cases hji : j = i
      · subst hji
        rw [Function.update_self] at hj
        cases hj
      · rw [Function.update_of_ne hji] at hj
        exact hfin j wd r hj
    · rcases hholds j wd hj with ⟨-, rfl⟩ | ⟨-, hj⟩
      · exact ⟨⟨name, hn⟩, by simp [FS.put], h0⟩
      · obtain ⟨h1, h2, h3⟩ := hnam j wd hj
        refine ⟨h1, ?_, h3⟩
        simp [FS.put, hnew j wd hj, h2]
    · rcases hholds j wd hj with ⟨hji, e⟩ | ⟨-, hj'⟩ <;> rcases hholds k wd hk with ⟨hki, e'⟩ | ⟨-, hk'⟩
      · rw [hji, hki]
      · exact absurd e (hnew k _ hk')
      · exact absurd e' (hnew j _ hj')
      · exact hap j k wd hj' hk'
    · have hne : q ≠ tmp fs := by
        rintro rfl
        exact hq i (tmp fs) (by rw [Function.update_self]; exact .inl ⟨_, rfl⟩) List.prefix_rfl
      have : fs.put (tmp fs) .dir q = fs q := by simp [FS.put, hne]
      rw [this]
      refine hout q fun j wd hj => ?_
      have hji : j ≠ i := by
        rintro rfl
        rw [hs] at hj
        rcases hj with ⟨_, h⟩ | ⟨_, h⟩ <;> cases h
      exact hq j wd (by rw [Function.update_of_ne hji]; exact hj)
  · -- reading the results
    have hhi : Holds (st i) wd := .inl ⟨_, hs⟩
    obtain ⟨hb, hdir, h0⟩ := hnam i wd hhi
    obtain ⟨b, h1, h2⟩ := hact i wd [] hs
    rw [List.append_nil] at h1
    rw [← h1] at h2
    simp only [taskStep, h2]
    have hne : ∀ j wd', j ≠ i → Holds (st j) wd' → wd' ≠ wd := by
      rintro j _ hji hj rfl
      exact hji (hap j i _ hj hhi)
    rcases hread : (T i).read (aloneDir (T i).acts) with e | v
    · have hholds : ∀ j wd', Holds (Function.update st i (.finished wd (.error e)) j) wd' → Holds (st j) wd' := by
        intro j wd' hj
        by_cases hji : j = i
        · subst hji
          rw [Function.update_self] at hj
          rw [holds_unique hj (.inr ⟨e, rfl⟩)]
          exact hhi
        · rwa [Function.update_of_ne hji] at hj
      refine ⟨fun j wd' rest hj => ?_, fun j wd' r hj => ?_, fun j wd' hj => hnam j wd' (hholds j wd' hj),
        fun j k wd' hj hk => hap j k wd' (hholds j _ hj) (hholds k _ hk), fun q hq => ?_⟩ <;> simp only at *
      · by_cases hji : j = i
        · subst hji
          rw [Function.update_self] at hj
          cases hj
        · rw [Function.update_of_ne hji] at hj
          exact hact j wd' rest hj
      · by_cases hji : j = i
        · subst hji
          rw [Function.update_self] at hj
          cases hj
          exact hread.symm
        · rw [Function.update_of_ne hji] at hj
          exact hfin j wd' r hj
      · refine hout q fun j wd' hj => hq j wd' ?_
        by_cases hji : j = i
        · subst hji
          rw [Function.update_self, holds_unique hj hhi]
          exact .inr ⟨_, rfl⟩
        · rwa [Function.update_of_ne hji]
    · have hholds : ∀ j wd', Holds (Function.update st i (.finished wd (.ok v)) j) wd' → j ≠ i ∧ Holds (st j) wd' := by
        intro j wd' hj
        by_cases hji : j = i
        · subst hji
          rw [Function.update_self] at hj
          rcases hj with ⟨_, h⟩ | ⟨_, h⟩ <;> cases h
        · rw [Function.update_of_ne hji] at hj
          exact ⟨hji, hj⟩
      have hother : ∀ j wd', j ≠ i → Holds (st j) wd' → under wd' (rmtree wd fs) = under wd' fs := by
        intro j wd' hji hj
        funext p
        simp only [under]
        rw [rmtree_outside]
        exact hsep hb (hnam j wd' hj).1 (hne j wd' hji hj).symm p
      refine ⟨fun j wd' rest hj => ?_, fun j wd' r hj => ?_, fun j wd' hj => ?_,
        fun j k wd' hj hk => hap j k wd' (hholds j _ hj).2 (hholds k _ hk).2, fun q hq => ?_⟩ <;> simp only at *
      · by_cases hji : j = i
        · subst hji
          rw [Function.update_self] at hj
          cases hj
        · rw [Function.update_of_ne hji] at hj
          obtain ⟨b', h3, h4⟩ := hact j wd' rest hj
          exact ⟨b', h3, by rw [hother j wd' hji (.inl ⟨_, hj⟩)]; exact h4⟩
      · by_cases hji : j = i
        · subst hji
          rw [Function.update_self] at hj
          cases hj
          exact hread.symm
        · rw [Function.update_of_ne hji] at hj
          exact hfin j wd' r hj
      · obtain ⟨hji, hj⟩ := hholds j wd' hj
        obtain ⟨h3, h4, h5⟩ := hnam j wd' hj
        refine ⟨h3, ?_, h5⟩
        have := congrFun (hother j wd' hji hj) []
        simp only [under, List.append_nil] at this
        rw [this]; exact h4
      · by_cases hp : wd <+: q
        · obtain ⟨r, rfl⟩ := hp
          rw [h0 r]
          simp [rmtree]
        · rw [rmtree_outside _ hp]
          refine hout q fun j wd' hj => ?_
          by_cases hji : j = i
          · subst hji
            rw [holds_unique hj hhi]
            exact hp
          · exact hq j wd' (by rwa [Function.update_of_ne hji])
  · -- a step inside the directory
    have hhi : Holds (st i) wd := .inl ⟨_, hs⟩
    obtain ⟨hb, hdir, h0⟩ := hnam i wd hhi
    obtain ⟨b, h1, h2⟩ := hact i wd (a :: rest) hs
    simp only [taskStep]
    have hne : ∀ j wd', j ≠ i → Holds (st j) wd' → wd' ≠ wd := by
      rintro j _ hji hj rfl
      exact hji (hap j i _ hj hhi)
    have hholds : ∀ j wd', Holds (Function.update st i (.active wd rest) j) wd' → Holds (st j) wd' := by
      intro j wd' hj
      by_cases hji : j = i
      · subst hji
        rw [Function.update_self] at hj
        rw [holds_unique hj (.inl ⟨_, rfl⟩)]
        exact hhi
      · rwa [Function.update_of_ne hji] at hj
    have hother : ∀ j wd' t, j ≠ i → Holds (st j) wd' → under wd' (graft wd t fs) = under wd' fs := by
      intro j wd' t hji hj
      funext p
      simp only [under]
      rw [graft_outside]
      exact hsep hb (hnam j wd' hj).1 (hne j wd' hji hj).symm p
    refine ⟨fun j wd' rest' hj => ?_, fun j wd' r hj => ?_, fun j wd' hj => ?_,
      fun j k wd' hj hk => hap j k wd' (hholds j _ hj) (hholds k _ hk), fun q hq => ?_⟩ <;> simp only at *
    · by_cases hji : j = i
      · subst hji
        rw [Function.update_self] at hj
        cases hj
        refine ⟨b ++ [a], by simp [h1], ?_⟩
        rw [under_graft, h2]
        simp [aloneDir]
      · rw [Function.update_of_ne hji] at hj
        obtain ⟨b', h3, h4⟩ := hact j wd' rest' hj
        exact ⟨b', h3, by rw [hother j wd' _ hji (.inl ⟨_, hj⟩)]; exact h4⟩
    · by_cases hji : j = i
      · subst hji
        rw [Function.update_self] at hj
        cases hj
      · rw [Function.update_of_ne hji] at hj
        exact hfin j wd' r hj
    · have hj' := hholds j wd' hj
      obtain ⟨h3, h4, h5⟩ := hnam j wd' hj'
      refine ⟨h3, ?_, h5⟩
      by_cases hji : j = i
      · subst hji
        rw [holds_unique hj' hhi]
        simp [graft, FS.put]
      · have := congrFun (hother j wd' (FS.put (a (under wd fs)) [] .dir) hji hj') []
        simp only [under, List.append_nil] at this
        rw [this]; exact h4
    · have hp : ¬ wd <+: q := hq i wd (by rw [Function.update_self]; exact .inl ⟨_, rfl⟩)
      rw [graft_outside _ _ hp]
      refine hout q fun j wd' hj => ?_
      by_cases hji : j = i
      · subst hji
        rw [holds_unique hj hhi]
        exact hp
      · exact hq j wd' (by rwa [Function.update_of_ne hji])
  · -- nothing more to do
    have : Function.update st i (TaskSt.finished wd r) = st := by rw [← hs]; exact Function.update_eq_self i st
    simp only [taskStep, this]
    exact ⟨hact, hfin, hnam, hap, hout⟩

theorem runTasks_inv {base : Path} {tmp : FS → Path} (ht : TmpSpec base tmp) {T : Fin n → RunTask R} {fs0 : FS} (hr : Roomy base fs0) (sched : List (Fin n))
    (w : (Fin n → TaskSt R) × FS) (h : TaskInv base T fs0 w) : TaskInv base T fs0 (runTasks T tmp sched w) := by
  induction sched generalizing w with
  | nil => exact h
  | cons i sched ih => exact ih _ (taskStep_inv ht hr h i)

theorem waiting_inv (base : Path) (T : Fin n → RunTask R) (fs0 : FS) : TaskInv base T fs0 (fun _ => .waiting, fs0) where
  active := fun i wd rest h => by cases h
  finished := fun i wd r h => by cases h
  named := fun i wd h => by rcases h with ⟨_, h⟩ | ⟨_, h⟩ <;> cases h
  apart := fun i j wd h => by rcases h with ⟨_, h⟩ | ⟨_, h⟩ <;> cases h
  outside := fun _ _ => rfl

/-- However the steps of any number of calls are interleaved, a call that finishes returns what it would return alone. -/
theorem tasks_isolated {base : Path} {tmp : FS → Path} (ht : TmpSpec base tmp) (T : Fin n → RunTask R) {fs0 : FS} (hr : Roomy base fs0) (sched : List (Fin n))
    {i : Fin n} {wd : Path} {r : Except RunErr R} (hf : (runTasks T tmp sched (fun _ => .waiting, fs0)).1 i = .finished wd r) :
    r = (T i).read (aloneDir (T i).acts) :=
  (runTasks_inv ht hr sched _ (waiting_inv base T fs0)).finished i wd r hf

/-- At no time is anything that was on the disk before touched. -/
theorem tasks_safe {base : Path} {tmp : FS → Path} (ht : TmpSpec base tmp) (T : Fin n → RunTask R) {fs0 : FS} (hr : Roomy base fs0) (sched : List (Fin n))
    {q : Path} {node : Node} (hq : fs0 q = some node) : (runTasks T tmp sched (fun _ => .waiting, fs0)).2 q = some node := by
  have h := runTasks_inv ht hr sched _ (waiting_inv base T fs0)
  rw [h.outside q, hq]
  rintro i wd hi ⟨r, rfl⟩
  rw [(h.named i wd hi).2.2 r] at hq
  cases hq

/-- Once all calls have returned results, the disk is as before. -/
theorem tasks_clean {base : Path} {tmp : FS → Path} (ht : TmpSpec base tmp) (T : Fin n → RunTask R) {fs0 : FS} (hr : Roomy base fs0) (sched : List (Fin n))
    (hall : ∀ i, ∃ wd v, (runTasks T tmp sched (fun _ => .waiting, fs0)).1 i = .finished wd (.ok v)) : (runTasks T tmp sched (fun _ => .waiting, fs0)).2 = fs0 := by
  have h := runTasks_inv ht hr sched _ (waiting_inv base T fs0)
  funext q
  refine h.outside q fun i wd hi => ?_
  obtain ⟨wd', v, hv⟩ := hall i
  rw [hv] at hi
  rcases hi with ⟨_, h⟩ | ⟨_, h⟩ <;> cases h

/-- The steps that are left. -/
def stepsLeft (T : RunTask R) : TaskSt R → ℕ
  | .waiting => T.acts.length + 2
  | .active _ rest => rest.length + 1
  | .finished _ _ => 0

theorem stepsLeft_step (T : RunTask R) (tmp : FS → Path) (s : TaskSt R) (fs : FS) : stepsLeft T (taskStep T tmp s fs).1 = stepsLeft T s - 1 := by
  rcases s with _ | ⟨wd, _ | ⟨a, rest⟩⟩ | ⟨wd, r⟩
  · rfl
  · simp only [taskStep]
    cases T.read (under wd fs) <;> rfl
  · rfl
  · rfl

theorem stepsLeft_run (T : Fin n → RunTask R) (tmp : FS → Path) (sched : List (Fin n)) (w : (Fin n → TaskSt R) × FS) (i : Fin n) :
    stepsLeft (T i) ((runTasks T tmp sched w).1 i) = stepsLeft (T i) (w.1 i) - sched.count i := by
  induction sched generalizing w with
  | nil => simp [runTasks]
  | cons j sched ih =>
    rw [runTasks, ih]
    by_cases hji : j = i
    · subst hji
      simp only [Function.update_self, stepsLeft_step, List.count_cons_self]
      omega
    · simp only [Function.update_of_ne (Ne.symm hji), List.count_cons_of_ne hji]

/-- No call waits for another: it finishes as soon as it has had as many turns as it has steps. -/
theorem tasks_finish (T : Fin n → RunTask R) (tmp : FS → Path) (fs0 : FS) (sched : List (Fin n)) (i : Fin n) :
    (∃ wd r, (runTasks T tmp sched (fun _ => .waiting, fs0)).1 i = .finished wd r) ↔ (T i).acts.length + 2 ≤ sched.count i := by
  have h := stepsLeft_run T tmp sched (fun _ => .waiting, fs0) i
  simp only [stepsLeft] at h
  rcases hs : (runTasks T tmp sched (fun _ => .waiting, fs0)).1 i with _ | ⟨wd, rest⟩ | ⟨wd, r⟩ <;> rw [hs] at h <;> simp only [stepsLeft] at h
  · refine ⟨fun ⟨_, _, h⟩ => (by cases h), fun _ => (by omega)⟩
  · refine ⟨fun ⟨_, _, h⟩ => (by cases h), fun _ => (by omega)⟩
  · exact ⟨fun _ => by omega, fun _ => ⟨wd, r, rfl⟩⟩

/-- The steps of a call of one of the three functions, taken alone, amount to the call. -/
theorem jobTask_alone {base : Path} {tmp : FS → Path} (ht : TmpSpec base tmp) (J : Job R) {files : List (String × List String)} (hi : J.inputs = some files) (prog : Prog)
    (logOf : List String → List String) {fs : FS} (hfs : Tree fs) (hr : Roomy base fs) :
    (runJob J prog logOf tmp none false fs).1 = (jobTask J files prog logOf).read (aloneDir (jobTask J files prog logOf).acts) := by
  rw [(runJob_enters ht J prog logOf hfs hr (by simp [Enters])).1]
  have hput : ∀ (l : List (String × List String)) (t : FS), t [] = some .dir →
      (l.map fun f t => FS.put t [f.1] (.file f.2)).foldl (fun t a => (a t).put [] .dir) t = l.foldl (fun t f => t.put [f.1] (.file f.2)) t ∧
        l.foldl (fun t f => t.put [f.1] (.file f.2)) t [] = some .dir := by
    intro l
    induction l with
    | nil => intro t h; exact ⟨rfl, h⟩
    | cons f l ih =>
      intro t h
      have h1 : (t.put [f.1] (.file f.2)).put [] .dir = t.put [f.1] (.file f.2) := by
        funext q
        by_cases hq : q = []
        · simp [FS.put, hq, h]
        · simp [FS.put, hq]
      simp only [List.map_cons, List.foldl_cons, h1]
      exact ih _ (by simp [FS.put, h])
  obtain ⟨h1, h2⟩ := hput files freshDir rfl
  simp only [work, hi, jobTask, aloneDir, List.foldl_append, h1, List.foldl_cons, List.foldl_nil]
  generalize files.foldl (fun t f => t.put [f.1] (.file f.2)) freshDir = t at h2 ⊢
  have h3 : (t.put ["output.log"] (.file [])).put [] .dir = t.put ["output.log"] (.file []) := by
    funext q
    by_cases hq : q = []
    · simp [FS.put, hq, h2]
    · simp [FS.put, hq]
  rw [h3]
  congr 1
  funext q
  by_cases hq : q = []
  · simp [FS.put, hq]
  · simp [FS.put, hq]

end Verif.Demo
