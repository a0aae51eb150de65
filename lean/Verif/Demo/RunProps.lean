import Verif.Demo.RunModel

/-!
# Files and processes of the demo functions that run an external program
-/

namespace Verif.Demo

variable {R : Type}

/-- A new, empty directory. -/
def freshDir : FS := fun q => if q = [] then some .dir else none

/-- A file system: there is a root, and nothing is below what does not exist. -/
def Tree (fs : FS) : Prop := fs [] = some .dir ∧ ∀ p q, fs p = none → fs (p ++ q) = none

/-- The directory for temporary directories has finitely many entries. -/
def Roomy (base : Path) (fs : FS) : Prop := {name : String | ∃ q, fs (base ++ name :: q) ≠ none}.Finite

/-- The contract of `tempfile.mkdtemp()`: a name in `base` that is not in use. -/
def TmpSpec (base : Path) (tmp : FS → Path) : Prop :=
  ∀ fs, Roomy base fs → ∃ name, tmp fs = base ++ [name] ∧ ∀ q, fs (base ++ name :: q) = none

/-- The contract can be met. -/
theorem tmpSpec_exists (base : Path) : ∃ tmp, TmpSpec base tmp := by
  have h : ∀ fs : FS, ∃ p : Path, Roomy base fs → ∃ name, p = base ++ [name] ∧ ∀ q, fs (base ++ name :: q) = none := by
    intro fs
    by_cases hr : Roomy base fs
    · have hinf : Infinite String :=
        Infinite.of_injective (fun n : ℕ => String.ofList (List.replicate n 'a')) (by
          intro a b hab
          have := congrArg String.toList hab
          simpa using congrArg List.length this)
      obtain ⟨name, hn⟩ := hr.exists_notMem
      refine ⟨base ++ [name], fun _ => ⟨name, rfl, fun q => ?_⟩⟩
      by_contra hq
      exact hn ⟨q, hq⟩
    · exact ⟨[], fun h => absurd h hr⟩
  choose tmp ht using h
  exact ⟨tmp, fun fs hr => ht fs hr⟩

/-- The call gets as far as running the program: without a directory, `keep_data` must not be refused; a given directory must not exist, nor may a file be in its way. -/
def Enters (J : Job R) (workdir : Option Path) (keep : Bool) (fs : FS) : Prop :=
  match workdir with
  | none => ¬(J.checksKeep ∧ keep)
  | some wd => fs wd = none ∧ ∀ a l, a <+: wd → fs a ≠ some (.file l)

/-! ### Basic facts about paths -/

theorem under_graft (wd : Path) (t fs : FS) : under wd (graft wd t fs) = t := by
  funext p
  simp [under, graft]

theorem graft_outside {wd q : Path} (t fs : FS) (h : ¬ wd <+: q) : graft wd t fs q = fs q := by simp [graft, h]

theorem rmtree_outside {wd q : Path} (fs : FS) (h : ¬ wd <+: q) : rmtree wd fs q = fs q := by simp [rmtree, h]

theorem rmtree_graft (wd : Path) (t fs : FS) : rmtree wd (graft wd t fs) = rmtree wd fs := by
  funext q
  by_cases h : wd <+: q <;> simp [rmtree, graft, h]

theorem under_put_fresh {wd : Path} {fs : FS} (h : ∀ q, fs (wd ++ q) = none) : under wd (fs.put wd .dir) = freshDir := by
  funext p
  by_cases hp : p = []
  · simp [under, FS.put, freshDir, hp]
  · have : wd ++ p ≠ wd := by simpa using hp
    simp [under, FS.put, freshDir, hp, h]

theorem rmtree_put_fresh {wd : Path} {fs : FS} (h : ∀ q, fs (wd ++ q) = none) : rmtree wd (fs.put wd .dir) = fs := by
  funext q
  by_cases hq : wd <+: q
  · obtain ⟨r, rfl⟩ := hq
    simp [rmtree, h]
  · have : q ≠ wd := fun e => hq (e ▸ List.prefix_rfl)
    simp [rmtree, hq, FS.put, this]

theorem makedirs_ok {fs : FS} {wd : Path} (h : fs wd = none) (hf : ∀ a l, a <+: wd → fs a ≠ some (.file l)) :
    ∃ fs1, makedirs fs wd = .ok fs1 ∧ ∀ q, fs1 q = if q <+: wd ∧ fs q = none then some .dir else fs q := by
  have : ¬ ∃ a l, a <+: wd ∧ fs a = some (.file l) := fun ⟨a, l, ha, hl⟩ => hf a l ha hl
  classical
  refine ⟨fun q => if q <+: wd ∧ fs q = none then some .dir else fs q, ?_, fun q => rfl⟩
  rw [makedirs, if_neg (by simpa using h), if_neg this]

/-- What `enter` does when it succeeds: an empty directory, made outside of what was there. -/
theorem enter_ok {base : Path} {tmp : FS → Path} (ht : TmpSpec base tmp) {J : Job R} {w : Option Path} {keep : Bool} {fs : FS} (hfs : Tree fs) (hr : Roomy base fs)
    (he : Enters J w keep fs) :
    ∃ fs1, enter J tmp w keep fs = (.ok (w.getD (tmp fs)), fs1) ∧ under (w.getD (tmp fs)) fs1 = freshDir ∧ (∀ q, fs (w.getD (tmp fs) ++ q) = none) ∧
      ∀ q, ¬ (w.getD (tmp fs)) <+: q → fs1 q = if (∃ wd, w = some wd ∧ q <+: wd) ∧ fs q = none then some .dir else fs q := by
  cases w with
  | none =>
    obtain ⟨name, hn, hfree⟩ := ht fs hr
    have hfree' : ∀ q, fs (tmp fs ++ q) = none := fun q => by rw [hn]; simpa using hfree q
    have he' : ¬(J.checksKeep = true ∧ keep = true) := he
    refine ⟨fs.put (tmp fs) .dir, by simp [enter, he'], under_put_fresh hfree', hfree', fun q hq => ?_⟩
    have : q ≠ tmp fs := fun e => hq (by simp [e])
    simp [FS.put, this]
  | some wd =>
    obtain ⟨h1, h2⟩ := he
    obtain ⟨fs1, hm, hv⟩ := makedirs_ok h1 h2
    have hfree : ∀ q, fs (wd ++ q) = none := fun q => hfs.2 wd q h1
    refine ⟨fs1, by simp [enter, hm], ?_, hfree, fun q _ => by simp [hv]⟩
    funext p
    simp only [under, Option.getD_some, hv, hfree, freshDir]
    by_cases hp : p = []
    · simp [hp]
    · have : ¬ wd ++ p <+: wd := fun h => hp (by
        have := h.length_le
        rw [List.length_append] at this
        exact List.eq_nil_of_length_eq_zero (by omega))
      simp [this, hp]

/-- The outcome of a call that gets as far as running the program. -/
theorem runJob_enters {base : Path} {tmp : FS → Path} (ht : TmpSpec base tmp) (J : Job R) (prog : Prog) (logOf : List String → List String) {w : Option Path} {keep : Bool}
    {fs : FS} (hfs : Tree fs) (hr : Roomy base fs) (he : Enters J w keep fs) :
    (runJob J prog logOf tmp w keep fs).1 = (work J prog logOf freshDir).1 ∧
      (∀ q, ¬ (w.getD (tmp fs)) <+: q →
        (runJob J prog logOf tmp w keep fs).2 q = if (∃ wd, w = some wd ∧ q <+: wd) ∧ fs q = none then some .dir else fs q) ∧
      ((∃ v, (work J prog logOf freshDir).1 = .ok v) ∧ keep = false → under (w.getD (tmp fs)) (runJob J prog logOf tmp w keep fs).2 = fun _ => none) ∧
      (¬((∃ v, (work J prog logOf freshDir).1 = .ok v) ∧ keep = false) →
        under (w.getD (tmp fs)) (runJob J prog logOf tmp w keep fs).2 = (work J prog logOf freshDir).2) := by
  obtain ⟨fs1, h1, h2, h3, h4⟩ := enter_ok ht hfs hr he
  rw [runJob, h1]
  simp only [h2]
  rcases hw : work J prog logOf freshDir with ⟨r, t⟩
  cases r with
  | error e =>
    refine ⟨rfl, fun q hq => ?_, ?_, ?_⟩
    · simp only [graft_outside _ _ hq]
      exact h4 q hq
    · simp
    · simp [under_graft, hw]
  | ok v =>
    cases keep with
    | false =>
      refine ⟨rfl, fun q hq => ?_, ?_, ?_⟩
      · simp only [Bool.false_eq_true, if_false, rmtree_outside _ hq, graft_outside _ _ hq]
        exact h4 q hq
      · intro _
        funext p
        simp [under, rmtree]
      · simp [hw]
    | true =>
      refine ⟨rfl, fun q hq => ?_, ?_, ?_⟩
      · simp only [if_true, graft_outside _ _ hq]
        exact h4 q hq
      · simp
      · simp [under_graft, hw]

/-! ### Results do not depend on what else is on the disk -/

/-- Two calls with the same inputs give the same result, whatever is on the disk, wherever the directories are and whether or not they are kept. -/
theorem runJob_history {base base' : Path} {tmp tmp' : FS → Path} (ht : TmpSpec base tmp) (ht' : TmpSpec base' tmp') (J : Job R) (prog : Prog)
    (logOf : List String → List String) {w w' : Option Path} {keep keep' : Bool} {fs fs' : FS} (hfs : Tree fs) (hfs' : Tree fs') (hr : Roomy base fs) (hr' : Roomy base' fs')
    (he : Enters J w keep fs) (he' : Enters J w' keep' fs') :
    (runJob J prog logOf tmp w keep fs).1 = (runJob J prog logOf tmp' w' keep' fs').1 := by
  rw [(runJob_enters ht J prog logOf hfs hr he).1, (runJob_enters ht' J prog logOf hfs' hr' he').1]

/-- When a call raises before running the program. -/
theorem runJob_refused (J : Job R) (prog : Prog) (logOf : List String → List String) (tmp : FS → Path) (w : Option Path) (keep : Bool) (fs : FS)
    (he : ¬ Enters J w keep fs) :
    (w = none ∧ runJob J prog logOf tmp w keep fs = (.error .assertion, fs.put (tmp fs) .dir)) ∨
      (∃ wd, w = some wd ∧ fs wd ≠ none ∧ runJob J prog logOf tmp w keep fs = (.error .fileExists, fs)) ∨
      (∃ wd, w = some wd ∧ fs wd = none ∧ runJob J prog logOf tmp w keep fs = (.error .notADirectory, fs)) := by
  cases w with
  | none =>
    have : J.checksKeep = true ∧ keep = true := by simpa [Enters] using he
    left
    simp [runJob, enter, this.1, this.2]
  | some wd =>
    right
    by_cases h : fs wd = none
    · right
      have : ∃ a l, a <+: wd ∧ fs a = some (.file l) := by
        by_contra hc
        exact he ⟨h, fun a l ha hl => hc ⟨a, l, ha, hl⟩⟩
      refine ⟨wd, rfl, h, ?_⟩
      simp only [runJob, enter, makedirs, if_neg (not_not.2 h), if_pos this]
    · left
      refine ⟨wd, rfl, h, ?_⟩
      simp only [runJob, enter, makedirs, if_pos h]

/-! ### What is left on the disk -/

/-- After a successful call with a temporary directory that is not kept, the disk is as before. -/
theorem runJob_clean {base : Path} {tmp : FS → Path} (ht : TmpSpec base tmp) (J : Job R) (prog : Prog) (logOf : List String → List String) {fs : FS} (hfs : Tree fs)
    (hr : Roomy base fs) {v : R} (hv : (runJob J prog logOf tmp none false fs).1 = .ok v) : (runJob J prog logOf tmp none false fs).2 = fs := by
  have he : Enters J none false fs := by simp [Enters]
  obtain ⟨h1, h2, h3⟩ := runJob_enters ht J prog logOf hfs hr he
  obtain ⟨-, -, -, h4, -⟩ := enter_ok ht hfs hr he
  funext q
  by_cases hq : (tmp fs) <+: q
  · obtain ⟨r, rfl⟩ := hq
    have hok : ∃ v, (work J prog logOf freshDir).1 = .ok v := ⟨v, h1 ▸ hv⟩
    replace h3 := h3.1 ⟨hok, rfl⟩
    have := congrFun h3 r
    simp only [under, Option.getD_none] at this
    rw [this]
    exact (h4 r).symm
  · rw [h2 q (by simpa using hq)]
    simp

/-- After a successful call with a given directory that is not kept, the disk is as before, except that the directories above the given one have been made. -/
theorem runJob_clean_given {base : Path} {tmp : FS → Path} (ht : TmpSpec base tmp) (J : Job R) (prog : Prog) (logOf : List String → List String) {fs : FS} (hfs : Tree fs)
    (hr : Roomy base fs) {wd : Path} {v : R} (hv : (runJob J prog logOf tmp (some wd) false fs).1 = .ok v) (q : Path) :
    (runJob J prog logOf tmp (some wd) false fs).2 q = if q <+: wd ∧ q ≠ wd ∧ fs q = none then some .dir else fs q := by
  have he : Enters J (some wd) false fs := by
    by_contra h
    rcases runJob_refused J prog logOf tmp _ _ fs h with ⟨h, -⟩ | ⟨_, _, _, h⟩ | ⟨_, _, _, h⟩
    · cases h
    · rw [h] at hv; cases hv
    · rw [h] at hv; cases hv
  obtain ⟨h1, h2, h3⟩ := runJob_enters ht J prog logOf hfs hr he
  by_cases hq : wd <+: q
  · obtain ⟨r, rfl⟩ := hq
    have hok : ∃ v, (work J prog logOf freshDir).1 = .ok v := ⟨v, h1 ▸ hv⟩
    replace h3 := h3.1 ⟨hok, rfl⟩
    have := congrFun h3 r
    simp only [under, Option.getD_some] at this
    rw [this, hfs.2 wd r he.1, if_neg]
    rintro ⟨h, hne, -⟩
    exact hne (List.IsPrefix.eq_of_length_le h (by simp))
  · have hne : q ≠ wd := fun e => hq (e ▸ List.prefix_rfl)
    rw [h2 q (by simpa using hq)]
    simp [hne]

/-- A call never touches anything outside its directory, whatever happens; directories above a given one may be made. -/
theorem runJob_outside {base : Path} {tmp : FS → Path} (ht : TmpSpec base tmp) (J : Job R) (prog : Prog) (logOf : List String → List String) (w : Option Path) (keep : Bool)
    {fs : FS} (hfs : Tree fs) (hr : Roomy base fs) {q : Path} {n : Node} (hq : fs q = some n) : (runJob J prog logOf tmp w keep fs).2 q = some n := by
  by_cases he : Enters J w keep fs
  · obtain ⟨-, h2, -⟩ := runJob_enters ht J prog logOf hfs hr he
    obtain ⟨-, -, -, h4, -⟩ := enter_ok ht hfs hr he
    rw [h2 q, hq]
    · simp
    · rintro ⟨r, rfl⟩
      rw [h4 r] at hq
      cases hq
  · rcases runJob_refused J prog logOf tmp _ _ fs he with ⟨rfl, h⟩ | ⟨_, _, _, h⟩ | ⟨_, _, _, h⟩
    · rw [h]
      obtain ⟨name, hn, hfree⟩ := ht fs hr
      have : q ≠ tmp fs := by
        rintro rfl
        have := hfree []
        rw [← hn, hq] at this
        cases this
      simp [FS.put, this, hq]
    · rw [h]; exact hq
    · rw [h]; exact hq

/-- With `keep_data`, the given directory has all files of the run afterwards: what the program left there, and the log.  The program started from the inputs and an empty log,
and nothing else; the result is what the files say. -/
theorem runJob_kept {base : Path} {tmp : FS → Path} (ht : TmpSpec base tmp) (J : Job R) (prog : Prog) (logOf : List String → List String) {fs : FS} (hfs : Tree fs)
    (hr : Roomy base fs) {wd : Path} {v : R} (hv : (runJob J prog logOf tmp (some wd) true fs).1 = .ok v) :
    J.parse (under wd (runJob J prog logOf tmp (some wd) true fs).2) = .ok v ∧
      ∃ t0, (∀ f ∈ (J.inputs.getD []), (∀ g ∈ (J.inputs.getD []), g.1 = f.1 → g = f) → f.1 ≠ "output.log" → t0 [f.1] = some (.file f.2)) ∧
        (∀ p, p ≠ [] → p ≠ ["output.log"] → (∀ f ∈ (J.inputs.getD []), p ≠ [f.1]) → t0 p = none) ∧
        t0 ["output.log"] = some (.file []) ∧
        under wd (runJob J prog logOf tmp (some wd) true fs).2 ["output.log"] = some (.file (logOf (prog J.cmd t0).2.1)) ∧
        ∀ p, p ≠ [] → p ≠ ["output.log"] → under wd (runJob J prog logOf tmp (some wd) true fs).2 p = (prog J.cmd t0).1 p := by
  have he : Enters J (some wd) true fs := by
    by_contra h
    rcases runJob_refused J prog logOf tmp _ _ fs h with ⟨h, -⟩ | ⟨_, _, _, h⟩ | ⟨_, _, _, h⟩
    · cases h
    · rw [h] at hv; cases hv
    · rw [h] at hv; cases hv
  obtain ⟨h1, -, h3⟩ := runJob_enters ht J prog logOf hfs hr he
  replace h3 := h3.2 (by simp)
  simp only [Option.getD_some] at h3
  rw [h3]
  rw [h1] at hv
  cases hi : J.inputs with
  | none => simp [work, hi] at hv
  | some files =>
    simp only [work, hi] at hv ⊢
    refine ⟨hv, (files.foldl (fun t f => t.put [f.1] (.file f.2)) freshDir).put ["output.log"] (.file []), fun f hf huniq hne => ?_, fun p hp hp' hin => ?_, ?_, ?_,
      fun p hp hp' => ?_⟩
    rotate_left
    · simp only [Option.getD_some] at hin
      have hput : ∀ (l : List (String × List String)) (t : FS), (∀ f ∈ l, p ≠ [f.1]) → l.foldl (fun t f => t.put [f.1] (.file f.2)) t p = t p := by
        intro l
        induction l with
        | nil => intro t _; rfl
        | cons a l ih =>
          intro t hu
          rw [List.foldl_cons, ih _ fun f hf => hu f (List.mem_cons_of_mem _ hf)]
          simp [FS.put, hu a List.mem_cons_self]
      simp [FS.put, hp', hput files freshDir hin, freshDir, hp]
    · exact if_pos rfl
    · exact if_pos rfl
    · simp [FS.put, hp, hp']
    · simp only [Option.getD_some] at hf huniq
      have hput : ∀ (l : List (String × List String)) (t : FS), f ∈ l ∨ t [f.1] = some (.file f.2) → (∀ g ∈ l, g.1 = f.1 → g = f) →
          l.foldl (fun t f => t.put [f.1] (.file f.2)) t [f.1] = some (.file f.2) := by
        intro l
        induction l with
        | nil => intro t ht _; simpa using ht
        | cons a l ih =>
          intro t ht hu
          refine ih _ ?_ (fun g hg => hu g (List.mem_cons_of_mem _ hg))
          by_cases ha : a.1 = f.1
          · have := hu a List.mem_cons_self ha
            subst this
            right; simp [FS.put]
          · rcases ht with ht | ht
            · rcases List.mem_cons.1 ht with rfl | ht
              · exact absurd rfl ha
              · exact .inl ht
            · right
              simpa [FS.put, Ne.symm ha] using ht
      have h := hput files freshDir (.inl hf) huniq
      simpa [FS.put, hne] using h

/-- A directory that exists is refused and nothing is changed; so a kept run is not overwritten by the same call made again. -/
theorem runJob_again {base : Path} {tmp : FS → Path} (ht : TmpSpec base tmp) (J J' : Job R) (prog prog' : Prog) (logOf logOf' : List String → List String) {fs : FS}
    (hfs : Tree fs) (hr : Roomy base fs) {wd : Path} (keep : Bool) {v : R} (hv : (runJob J prog logOf tmp (some wd) true fs).1 = .ok v) :
    runJob J' prog' logOf' tmp (some wd) keep (runJob J prog logOf tmp (some wd) true fs).2 = (.error .fileExists, (runJob J prog logOf tmp (some wd) true fs).2) := by
  have he : Enters J (some wd) true fs := by
    by_contra h
    rcases runJob_refused J prog logOf tmp _ _ fs h with ⟨h, -⟩ | ⟨_, _, _, h⟩ | ⟨_, _, _, h⟩
    · cases h
    · rw [h] at hv; cases hv
    · rw [h] at hv; cases hv
  obtain ⟨h1, -, h3⟩ := runJob_enters ht J prog logOf hfs hr he
  replace h3 := h3.2 (by simp)
  simp only [Option.getD_some] at h3
  have hdir : (runJob J prog logOf tmp (some wd) true fs).2 wd ≠ none := by
    have := congrFun h3 []
    simp only [under, List.append_nil] at this
    rw [this]
    rw [h1] at hv
    cases hi : J.inputs with
    | none => simp [work, hi] at hv
    | some files => simp [work, hi, FS.put]
  generalize (runJob J prog logOf tmp (some wd) true fs).2 = fs2 at hdir ⊢
  have hne : ¬ Enters J' (some wd) keep fs2 := fun h => hdir h.1
  rcases runJob_refused J' prog' logOf' tmp _ keep fs2 hne with ⟨h, -⟩ | ⟨wd', h, -, h'⟩ | ⟨wd', h, h', -⟩
  · cases h
  · exact h'
  · cases h; exact absurd h' hdir

/-! ### What goes wrong -/

/-- A run whose results cannot be read leaves its directory behind, also a temporary one whose name nobody knows. -/
theorem runJob_leaks {base : Path} {tmp : FS → Path} (ht : TmpSpec base tmp) (J : Job R) (prog : Prog) (logOf : List String → List String) {fs : FS} (hfs : Tree fs)
    (hr : Roomy base fs) {e : RunErr} {keep : Bool} (hv : (runJob J prog logOf tmp none keep fs).1 = .error e) :
    fs (tmp fs) = none ∧ (runJob J prog logOf tmp none keep fs).2 (tmp fs) = some .dir := by
  obtain ⟨name, hn, hfree⟩ := ht fs hr
  have hnone : fs (tmp fs) = none := by rw [hn]; exact hfree []
  refine ⟨hnone, ?_⟩
  by_cases he : Enters J none keep fs
  · obtain ⟨h1, -, h3⟩ := runJob_enters ht J prog logOf hfs hr he
    rw [h1] at hv
    replace h3 := h3.2 (by rw [hv]; simp)
    have := congrFun h3 []
    simp only [under, List.append_nil, Option.getD_none] at this
    rw [this]
    cases hi : J.inputs with
    | none => simp [work, hi, freshDir]
    | some files => simp [work, hi, FS.put]
  · rcases runJob_refused J prog logOf tmp _ _ fs he with ⟨-, h⟩ | ⟨_, h, _⟩ | ⟨_, h, _⟩
    · rw [h]; simp [FS.put]
    · cases h
    · cases h

/-- The exit code of the program plays no role. -/
theorem runJob_exitCode (J : Job R) (prog : Prog) (logOf : List String → List String) (tmp : FS → Path) (w : Option Path) (keep : Bool) (fs : FS)
    (code : List String → FS → ℤ) :
    runJob J (fun c t => ((prog c t).1, (prog c t).2.1, code c t)) logOf tmp w keep fs = runJob J prog logOf tmp w keep fs := by
  rfl

end Verif.Demo
