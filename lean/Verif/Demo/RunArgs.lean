import Verif.Demo.RunTasks
import Verif.Demo.RunArgsModel
import Mathlib.Tactic.Linarith
import Mathlib.Tactic.NormNum
import Mathlib.Tactic.Positivity
import Mathlib.Tactic.FieldSimp
import Mathlib.Tactic.Ring
import Mathlib.Tactic.FinCases

/-!
# Logs, arguments and numbers of the demo functions that run an external program
-/

namespace Verif.Demo

open Verif.Func (Kw merge)

variable {R : Type}

/-! ### The log -/

theorem logRun_prefix {out : List String} {k : ℕ} {log : List String} (h : LogRun out k log) : log <+: out.drop k ∧ (log = [] → k = out.length) := by
  induction h with
  | @more k log h _ ih =>
    refine ⟨?_, fun h => by cases h⟩
    rw [List.drop_eq_getElem_cons h]
    exact (List.prefix_cons_inj _).2 ih.1
  | @last k h =>
    refine ⟨?_, fun h => by cases h⟩
    rw [List.drop_eq_getElem_cons h]
    exact (List.prefix_cons_inj _).2 List.nil_prefix
  | idle _ ih => exact ⟨ih.1, fun _ => rfl⟩
  | stop => exact ⟨List.nil_prefix, fun _ => rfl⟩

theorem logRun_of_prefix {out : List String} : ∀ (log : List String) (k : ℕ), log ≠ [] → log <+: out.drop k → LogRun out k log
  | [], _, h, _ => absurd rfl h
  | a :: log, k, _, h => by
    have hk : k < out.length := by
      have := h.length_le
      simp at this
      omega
    rw [List.drop_eq_getElem_cons hk, List.cons_prefix_cons] at h
    obtain ⟨rfl, h⟩ := h
    by_cases hl : log = []
    · subst hl
      exact .last hk
    · exact .more hk (logRun_of_prefix log (k + 1) hl h)

/-- The logs that can result from a run that prints `out`, over all schedules of the program and of the reader, are the beginnings of `out` that have at least a line if `out`
has. -/
theorem log_possible_iff (out log : List String) : LogRun out 0 log ↔ log <+: out ∧ (log = [] → out = []) := by
  constructor
  · intro h
    have := logRun_prefix h
    refine ⟨by simpa using this.1, fun hl => ?_⟩
    exact List.eq_nil_of_length_eq_zero (this.2 hl).symm
  · rintro ⟨h1, h2⟩
    by_cases hl : log = []
    · subst hl
      rw [h2 rfl]
      exact .stop
    · exact logRun_of_prefix log 0 hl (by simpa using h1)

/-- The log of any run that prints two lines or more may be incomplete: the last line may be missing. -/
theorem log_complete_false {out : List String} (h : 2 ≤ out.length) : LogRun out 0 out.dropLast ∧ out.dropLast ≠ out := by
  refine ⟨(log_possible_iff _ _).2 ⟨List.dropLast_prefix _, fun he => ?_⟩, fun he => ?_⟩
  · have := congrArg List.length he
    simp at this
    omega
  · have := congrArg List.length he
    simp at this
    omega

/-- Lines are lost at the end only: whatever is in the log has been printed, in this order. -/
theorem log_sound {out log : List String} (h : LogRun out 0 log) {i : ℕ} (hi : i < log.length) : ∃ h' : i < out.length, out[i] = log[i] := by
  have hp := ((log_possible_iff out log).1 h).1
  exact ⟨lt_of_lt_of_le hi hp.length_le, (hp.getElem hi).symm⟩

example : LogRun ["a", "b", "c"] 0 ["a"] := (log_possible_iff _ _).2 ⟨⟨["b", "c"], rfl⟩, by simp⟩

/-- The result does not depend on what reached the log. -/
theorem runJob_log_free (J : Job R) (hJ : ∀ t t' : FS, (∀ p, p ≠ ["output.log"] → t p = t' p) → J.parse t = J.parse t') {base : Path} {tmp : FS → Path} (ht : TmpSpec base tmp)
    (prog : Prog) (logOf logOf' : List String → List String) (w : Option Path) (keep : Bool) {fs : FS} (hfs : Tree fs) (hr : Roomy base fs) :
    (runJob J prog logOf tmp w keep fs).1 = (runJob J prog logOf' tmp w keep fs).1 := by
  by_cases he : Enters J w keep fs
  · rw [(runJob_enters ht J prog logOf hfs hr he).1, (runJob_enters ht J prog logOf' hfs hr he).1]
    cases hi : J.inputs with
    | none => simp [work, hi]
    | some files =>
      simp only [work, hi]
      refine hJ _ _ fun p hp => ?_
      simp [FS.put, hp]
  · rcases runJob_refused J prog logOf tmp _ _ fs he with ⟨h1, h⟩ | ⟨_, h1, h2, h⟩ | ⟨_, h1, h2, h⟩ <;>
      rcases runJob_refused J prog logOf' tmp _ _ fs he with ⟨h1', h'⟩ | ⟨_, h1', h2', h'⟩ | ⟨_, h1', h2', h'⟩ <;> rw [h, h'] <;>
      subst h1 <;> cases h1' <;> first | exact absurd h2' h2 | exact absurd h2 h2'

theorem loadtxt_congr (num : String → Option ℝ) (name : String) {t t' : FS} (h : t [name] = t' [name]) : loadtxt num name t = loadtxt num name t' := by
  simp only [loadtxt, h]

/-- None of the three functions reads the log. -/
theorem demo_log_free (template : String → Option (List String)) (fmt : ℝ → String) (num : String → Option ℝ) (x : List ℝ) (X : List (List ℝ)) (level nl nu mi np : ℤ)
    (version : String) (su2 cores : Option ℤ) (grad : Bool) (t t' : FS) (h : ∀ p, p ≠ ["output.log"] → t p = t' p) :
    (multifJob template fmt num x level version su2 cores).parse t = (multifJob template fmt num x level version su2 cores).parse t' ∧
      (nacaJob fmt num version x nl nu grad mi np).parse t = (nacaJob fmt num version x nl nu grad mi np).parse t' ∧
      (oasJob fmt num version X).parse t = (oasJob fmt num version X).parse t' := by
  have h1 : t ["results.out"] = t' ["results.out"] := h _ (by decide)
  have h2 : t ["my.output"] = t' ["my.output"] := h _ (by decide)
  have h3 : t ["my_grad.output"] = t' ["my_grad.output"] := h _ (by decide)
  refine ⟨by simp only [multifJob, multifParse, h1], ?_, loadtxt_congr _ _ h2⟩
  simp only [nacaJob, loadtxt_congr num _ h2, loadtxt_congr num _ h3]

/-! ### Several points, one after the other -/

theorem roomy_clean {base : Path} {tmp : FS → Path} (ht : TmpSpec base tmp) (prog : Prog) (logOf : List String → List String) {fs : FS} (hfs : Tree fs) (hr : Roomy base fs) :
    ∀ (Js : List (Job R)) (vs : List R), (List.Forall₂ (fun J v => (runJob J prog logOf tmp none false fs).1 = .ok v) Js vs) →
      runBatch prog logOf tmp none false Js fs = (.ok vs, fs)
  | [], _, h => by cases h; rfl
  | J :: Js, _, h => by
    cases h with
    | @cons _ v _ vs h1 h2 =>
      have hc := runJob_clean ht J prog logOf hfs hr h1
      have : runJob J prog logOf tmp none false fs = (.ok v, fs) := Prod.ext h1 hc
      simp only [runBatch, this, roomy_clean ht prog logOf hfs hr Js vs h2]

/-- With temporary directories, a batch of points gives the results of the single points, and the disk is as before. -/
theorem runBatch_pointwise {base : Path} {tmp : FS → Path} (ht : TmpSpec base tmp) (prog : Prog) (logOf : List String → List String) {fs : FS} (hfs : Tree fs)
    (hr : Roomy base fs) (Js : List (Job R)) (vs : List R) :
    runBatch prog logOf tmp none false Js fs = (.ok vs, fs) ↔ List.Forall₂ (fun J v => (runJob J prog logOf tmp none false fs).1 = .ok v) Js vs := by
  refine ⟨?_, roomy_clean ht prog logOf hfs hr Js vs⟩
  induction Js generalizing vs with
  | nil =>
    intro h
    have : vs = [] := by simpa [runBatch] using h.symm
    subst this
    exact .nil
  | cons J Js ih =>
    intro h
    rcases hrun : runJob J prog logOf tmp none false fs with ⟨r, fs1⟩
    cases r with
    | error e => simp [runBatch, hrun] at h
    | ok v =>
      have hc := runJob_clean ht J prog logOf hfs hr (v := v) (by rw [hrun])
      rw [hrun] at hc
      simp only at hc
      subst hc
      rcases hb : runBatch prog logOf tmp none false Js fs1 with ⟨r, fs2⟩
      cases r with
      | error e => simp [runBatch, hrun, hb] at h
      | ok us =>
        simp only [runBatch, hrun, hb, Prod.mk.injEq, Except.ok.injEq] at h
        obtain ⟨rfl, rfl⟩ := h
        exact .cons (by rw [hrun]) (ih _ hb)

/-- With a directory that is to be kept, a batch of two points or more never succeeds: the second call finds the directory of the first. -/
theorem runBatch_kept_false {base : Path} {tmp : FS → Path} (ht : TmpSpec base tmp) (prog : Prog) (logOf : List String → List String) {fs : FS} (hfs : Tree fs)
    (hr : Roomy base fs) (wd : Path) (J J' : Job R) (Js : List (Job R)) {v : R} (hv : (runJob J prog logOf tmp (some wd) true fs).1 = .ok v) :
    (runBatch prog logOf tmp (some wd) true (J :: J' :: Js) fs).1 = .error .fileExists := by
  have h := runJob_again ht J J' prog prog logOf logOf hfs hr true hv
  rcases hrun : runJob J prog logOf tmp (some wd) true fs with ⟨r, fs1⟩
  rw [hrun] at hv h
  simp only at hv h
  subst hv
  simp only [runBatch, hrun, h]

/-! ### Arguments -/

theorem bindArgs_get {params : List (String × ArgV)} {kw : Kw ArgV} {l : List (String × ArgV)} (h : bindArgs params kw = .ok l) {k : String} {d : ArgV}
    (hk : (k, d) ∈ params) : (k, (kw k).getD d) ∈ l := by
  simp only [bindArgs] at h
  split at h
  · cases h
    exact List.mem_map.2 ⟨(k, d), hk, rfl⟩
  · cases h

theorem bindArgs_keys {params : List (String × ArgV)} {kw : Kw ArgV} {l : List (String × ArgV)} (h : bindArgs params kw = .ok l) : l.map Prod.fst = params.map Prod.fst := by
  simp only [bindArgs] at h
  split at h
  · cases h
    simp [Function.comp_def]
  · cases h

/-- The level, the number of iterations and the directory given to the constructor have no effect: the call runs with those of the call, or the defaults `0`, `None` and `None`. -/
theorem multif_ctor_ignored (args call : Kw ArgV) {l : List (String × ArgV)} (h : multifBound args call = .ok l) :
    ("level", (call "level").getD (.int 0)) ∈ l ∧ ("su2_maxiter", (call "su2_maxiter").getD .none) ∈ l ∧ ("workdir", (call "workdir").getD .none) ∈ l := by
  refine ⟨?_, ?_, ?_⟩
  · simpa [merge, multifStored, multifNamed] using bindArgs_get h (k := "level") (d := .int 0) (by simp [multifParams])
  · simpa [merge, multifStored, multifNamed] using bindArgs_get h (k := "su2_maxiter") (d := .none) (by simp [multifParams])
  · simpa [merge, multifStored, multifNamed] using bindArgs_get h (k := "workdir") (d := .none) (by simp [multifParams])

/-- The other arguments are used as given: those of the call before those of the constructor before the defaults. -/
theorem multif_ctor_used (args call : Kw ArgV) {l : List (String × ArgV)} (h : multifBound args call = .ok l) {k : String} {d : ArgV} (hk : (k, d) ∈ multifParams)
    (hn : k ≠ "level" ∧ k ≠ "su2_maxiter" ∧ k ≠ "workdir") : (k, ((call k).or (args k)).getD d) ∈ l := by
  have hnot : k ∉ multifNamed := by
    simp only [multifParams, List.mem_cons, Prod.mk.injEq, List.not_mem_nil, or_false] at hk
    rcases hk with ⟨rfl, -⟩ | ⟨rfl, -⟩ | ⟨rfl, -⟩ | ⟨rfl, -⟩ | ⟨rfl, -⟩ | ⟨rfl, -⟩ | ⟨rfl, -⟩ <;> first | (simp at hn; done) | (simp [multifNamed])
  simpa [merge, multifStored, hnot] using bindArgs_get h hk

/-- When the call raises because of a keyword: an unknown one among those stored or given. -/
theorem multif_bound_ok_iff (args call : Kw ArgV) :
    (∃ l, multifBound args call = .ok l) ↔
      (∀ k, call k ≠ none → k ∈ ["level", "version", "su2_maxiter", "workdir", "keep_data", "verbose", "cores"]) ∧
        ∀ k, args k ≠ none → k ∈ ["truncate", "level", "su2_maxiter", "workdir", "dask_client", "version", "keep_data", "verbose", "cores"] := by
  have hiff : (∃ l, multifBound args call = .ok l) ↔ ∀ k, merge (multifStored args) call k ≠ none → k ∈ multifParams.map Prod.fst := by
    simp only [multifBound, bindArgs]
    split
    · rename_i h
      exact ⟨fun _ => h, fun _ => ⟨_, rfl⟩⟩
    · rename_i h
      exact ⟨fun ⟨_, h'⟩ => (by cases h'), fun h' => absurd h' h⟩
  rw [hiff]
  constructor
  · intro h
    refine ⟨fun k hk => ?_, fun k hk => ?_⟩
    · simpa [multifParams] using h k (by
        cases hc : call k with
        | none => exact absurd hc hk
        | some v => simp [merge, hc])
    · by_cases hn : k ∈ multifNamed
      · simp only [multifNamed, List.mem_cons, List.not_mem_nil, or_false] at hn ⊢
        tauto
      · have := h k (by
          cases hc : call k with
          | none => simpa [merge, hc, multifStored, hn] using hk
          | some v => simp [merge, hc])
        simp only [multifParams, List.map_cons, List.map_nil, List.mem_cons, List.not_mem_nil, or_false] at this ⊢
        tauto
  · rintro ⟨h1, h2⟩ k hk
    cases hc : call k with
    | some v => simpa [multifParams] using h1 k (by simp [hc])
    | none =>
      by_cases hn : k ∈ multifNamed
      · simp [merge, hc, multifStored, hn] at hk
      · have := h2 k (by simpa [merge, hc, multifStored, hn] using hk)
        simp only [multifNamed, multifParams, List.map_cons, List.map_nil, List.mem_cons, List.not_mem_nil, or_false] at this hn ⊢
        tauto

/-- A run is to be kept in a directory, both given to the constructor as documented: the arguments are accepted, but every call runs without the directory, so raises, and leaves
an empty directory behind. -/
theorem multif_ctor_keep_raises (wd : Path) (prog : Prog) (logOf : List String → List String) (tmp : FS → Path) (J : Job R) (hJ : J.checksKeep = true) (fs : FS) :
    ∃ l, multifBound (fun k => if k = "workdir" then some (.path wd) else if k = "keep_data" then some (.bool true) else none) (fun _ => none) = .ok l ∧
      ("workdir", ArgV.none) ∈ l ∧ ("keep_data", ArgV.bool true) ∈ l ∧ runJob J prog logOf tmp none true fs = (.error .assertion, fs.put (tmp fs) .dir) := by
  obtain ⟨l, hl⟩ := (multif_bound_ok_iff (fun k => if k = "workdir" then some (.path wd) else if k = "keep_data" then some (.bool true) else none) (fun _ => none)).2 ⟨by simp, by
    intro k hk
    by_cases h1 : k = "workdir"
    · simp [h1]
    · by_cases h2 : k = "keep_data"
      · simp [h2]
      · simp [h1, h2] at hk⟩
  refine ⟨l, hl, (multif_ctor_ignored _ _ hl).2.2, ?_, ?_⟩
  · simpa using multif_ctor_used _ _ hl (k := "keep_data") (d := .bool false) (by simp [multifParams]) (by decide)
  · simp [runJob, enter, hJ]

/-- The program is told as many bumps as the domain has, unless the call says otherwise; all other arguments of the constructor are used as given. -/
theorem naca_ctor_used (args call : Kw ArgV) {l : List (String × ArgV)} (h : nacaBound args call = .ok l) {k : String} {d : ArgV} (hk : (k, d) ∈ nacaParams) :
    (k, ((call k).or (args k)).getD d) ∈ l := by
  have := bindArgs_get h hk
  have he : (merge (nacaStored args) call k).getD d = ((call k).or (args k)).getD d := by
    cases hc : call k with
    | some v => simp [merge, hc]
    | none =>
      simp only [nacaParams, List.mem_cons, Prod.mk.injEq, List.not_mem_nil, or_false] at hk
      rcases hk with ⟨rfl, rfl⟩ | ⟨rfl, rfl⟩ | ⟨rfl, rfl⟩ | ⟨rfl, rfl⟩ | ⟨rfl, rfl⟩ | ⟨rfl, rfl⟩ | ⟨rfl, rfl⟩ | ⟨rfl, rfl⟩ | ⟨rfl, rfl⟩ <;> simp [merge, hc, nacaStored, nacaNamed]
  rwa [he] at this

/-! ### Numbers -/

/-- Sixteen digits: the program sees the inputs with a relative error of at most `5e-16`. -/
theorem dec16_error (x : ℝ) : |dec16 x - x| ≤ 5 / 10 ^ 16 * |x| := by
  by_cases hx : x = 0
  · simp [dec16, hx]
  · rw [dec16, if_neg hx]
    set e := Int.log 10 |x|
    have hp : (0 : ℝ) < (10 : ℝ) ^ (15 - e) := zpow_pos (by norm_num) _
    have h1 : |x * (10 : ℝ) ^ (15 - e) - round (x * (10 : ℝ) ^ (15 - e))| ≤ 1 / 2 := abs_sub_round _
    have h2 : (10 : ℝ) ^ e ≤ |x| := by
      have := Int.zpow_log_le_self (R := ℝ) (b := 10) (by norm_num) (abs_pos.2 hx)
      simpa using this
    have h3 : (round (x * (10 : ℝ) ^ (15 - e)) : ℝ) / (10 : ℝ) ^ (15 - e) - x = -(x * (10 : ℝ) ^ (15 - e) - round (x * (10 : ℝ) ^ (15 - e))) / (10 : ℝ) ^ (15 - e) := by
      field_simp
      ring
    rw [h3, abs_div, abs_neg, abs_of_pos hp, div_le_iff₀ hp]
    have h4 : (10 : ℝ) ^ e * (10 : ℝ) ^ (15 - e) = 10 ^ 15 := by
      rw [← zpow_add₀ (by norm_num)]
      norm_num
    have h5 : (10 : ℝ) ^ 15 ≤ |x| * (10 : ℝ) ^ (15 - e) := by
      rw [← h4]
      exact mul_le_mul_of_nonneg_right h2 hp.le
    nlinarith

/-- Sixteen digits are not enough: the double after one is written as one, so the program gets the same input for both. -/
theorem dec16_injective_false : dec16 (1 + 1 / 2 ^ 52) = 1 ∧ dec16 1 = 1 ∧ (1 : ℝ) + 1 / 2 ^ 52 ≠ 1 := by
  have hlog : ∀ x : ℝ, 1 ≤ x → x < 10 → Int.log 10 |x| = 0 := by
    intro x h1 h2
    rw [abs_of_pos (by linarith)]
    have ha : Int.log 10 x < 1 := (Int.lt_zpow_iff_log_lt (R := ℝ) (b := 10) (by norm_num) (by linarith)).1 (by simpa using h2)
    have hb : 0 ≤ Int.log 10 x := (Int.zpow_le_iff_le_log (R := ℝ) (b := 10) (by norm_num) (by linarith)).1 (by simpa using h1)
    omega
  have hround : ∀ x : ℝ, 1 ≤ x → x < 1 + 4 / 10 ^ 16 → dec16 x = 1 := by
    intro x h1 h2
    have h10 : x < 10 := by
      have : (4 : ℝ) / 10 ^ 16 ≤ 1 := by norm_num
      linarith
    rw [dec16, if_neg (by linarith : ¬ x = 0), hlog x h1 h10]
    have hr : round (x * (10 : ℝ) ^ (15 - (0 : ℤ))) = 10 ^ 15 := by
      rw [round_eq, Int.floor_eq_iff]
      have : (10 : ℝ) ^ (15 - (0 : ℤ)) = 10 ^ 15 := by norm_num
      rw [this]
      push_cast
      constructor
      · linarith [show (10 : ℝ) ^ 15 * 1 ≤ 10 ^ 15 * x from mul_le_mul_of_nonneg_left h1 (by positivity)]
      · have := mul_lt_mul_of_pos_left h2 (show (0 : ℝ) < 10 ^ 15 by positivity)
        have h3 : (10 : ℝ) ^ 15 * (1 + 4 / 10 ^ 16) = 10 ^ 15 + 4 / 10 := by norm_num
        linarith
    rw [hr]
    norm_num
  refine ⟨hround _ ?_ ?_, hround 1 le_rfl ?_, ?_⟩
  · norm_num
  · norm_num
  · norm_num
  · norm_num

/-! ### A batch of one point -/

/-- The program leaves one row of five results for every row of the input.  A batch is returned as it is if it has two points or more; a batch of one point raises. -/
theorem oas_batch (rows : List (List ℝ)) (h5 : ∀ r ∈ rows, r.length = 5) (hne : rows ≠ []) :
    (2 ≤ rows.length → oasBatch rows.length rows = .ok rows) ∧ (rows.length = 1 → oasBatch rows.length rows = .error .assertion) := by
  match rows, h5, hne with
  | [r], h5, _ =>
    refine ⟨fun h => by simp at h, fun _ => ?_⟩
    have hr : r.length = 5 := h5 r (by simp)
    match r, hr with
    | [a, b, c, d, e], _ => simp [oasBatch, squeezed, Loaded.len]
  | r :: r' :: rest, h5, _ =>
    refine ⟨fun _ => ?_, fun h => by simp at h⟩
    have hr : r.length = 5 := h5 r (by simp)
    have : ¬ ∀ q ∈ r :: r' :: rest, q.length = 1 := fun h => by
      have := h r (by simp)
      omega
    simp only [oasBatch, squeezed, if_neg this, Loaded.len, if_true]

/-- The same point on its own is evaluated. -/
theorem oas_one (row : List ℝ) (h5 : row.length = 5) : oasOne [row] = row := by
  match row, h5 with
  | [a, b, c, d, e], _ => rfl

/-! ### The bumps -/

/-- The bumps on a surface are equally spaced, and neither end carries one. -/
theorem bumps_spec (n : ℕ) : (bumps n).length = n ∧ ∀ (k : ℕ) (hk : k < (bumps n).length), (bumps n)[k] = ((k : ℝ) + 1) / ((n : ℝ) + 1) ∧ 0 < (bumps n)[k] ∧ (bumps n)[k] < 1 := by
  have hl : (bumps n).length = n := by simp [bumps]
  refine ⟨hl, fun k hk => ?_⟩
  have hv : (bumps n)[k] = ((k : ℝ) + 1) / ((n : ℝ) + 1) := by
    simp only [bumps, List.getElem_dropLast, List.getElem_drop, List.getElem_map, List.getElem_range]
    push_cast
    ring
  have hkn : (k : ℝ) < n := by exact_mod_cast hl ▸ hk
  have hn : (0 : ℝ) < (n : ℝ) + 1 := by positivity
  rw [hv]
  refine ⟨rfl, by positivity, ?_⟩
  rw [div_lt_one hn]
  linarith

/-! ### The hypotheses can be met -/

/-- A program that copies its input to the results. -/
def echoProg : Prog := fun _ t => (t.put ["my.output"] ((t ["my.input"]).getD (.file [])), ["start", "end"], 1)

example : ∃ (tmp : FS → Path) (v : List (List ℝ)), TmpSpec [] tmp ∧ Tree freshDir ∧ Roomy [] freshDir ∧
    (runJob (oasJob (fun _ => "1") (fun _ => some 1) "v1" []) echoProg id tmp none false freshDir).1 = .ok v ∧
    (runJob (oasJob (fun _ => "1") (fun _ => some 1) "v1" []) echoProg id tmp (some ["w"]) true freshDir).1 = .ok v := by
  obtain ⟨tmp, ht⟩ := tmpSpec_exists []
  have hT : Tree freshDir := ⟨rfl, fun p q h => by
    have : p ≠ [] := by rintro rfl; simp [freshDir] at h
    simp [freshDir, this]⟩
  have hR : Roomy [] freshDir := by
    refine Set.Finite.subset Set.finite_empty ?_
    rintro a ⟨q, hq⟩
    simp [freshDir] at hq
  refine ⟨tmp, [], ht, hT, hR, ?_, ?_⟩
  · rw [(runJob_enters ht _ _ _ hT hR (by simp [Enters])).1]
    simp [work, oasJob, loadtxt, echoProg, FS.put]
  · have he : Enters (oasJob (fun _ => "1") (fun _ => some 1) "v1" []) (some ["w"]) true freshDir :=
      ⟨rfl, fun a l _ => by simp only [freshDir]; split <;> simp⟩
    rw [(runJob_enters ht _ _ _ hT hR he).1]
    simp [work, oasJob, loadtxt, echoProg, FS.put]

theorem roomy_freshDir : Roomy [] freshDir := by
  refine Set.Finite.subset Set.finite_empty ?_
  rintro a ⟨q, hq⟩
  simp [freshDir] at hq

/-- Two calls, the second of which starts while the first is running and ends before it; both write a file of the same name. -/
example : ∃ tmp, TmpSpec [] tmp ∧ ∀ i, ∃ wd v, (runTasks (R := Option Node)
    (fun i : Fin 2 => ⟨[fun t => t.put ["f"] (.file [if i = 0 then "a" else "b"])], fun t => .ok (t ["f"])⟩) tmp [0, 0, 1, 1, 1, 0] (fun _ => .waiting, freshDir)).1 i =
      .finished wd (.ok v) ∧ v = some (.file [if i = 0 then "a" else "b"]) := by
  obtain ⟨tmp, ht⟩ := tmpSpec_exists []
  refine ⟨tmp, ht, fun i => ?_⟩
  obtain ⟨wd, r, h⟩ := (tasks_finish (R := Option Node)
    (fun i : Fin 2 => ⟨[fun t => t.put ["f"] (.file [if i = 0 then "a" else "b"])], fun t => .ok (t ["f"])⟩) tmp freshDir [0, 0, 1, 1, 1, 0] i).2 (by
      fin_cases i <;> simp [List.count])
  have hr := tasks_isolated ht _ roomy_freshDir _ h
  refine ⟨wd, some (.file [if i = 0 then "a" else "b"]), ?_, rfl⟩
  rw [h, hr]
  simp [aloneDir, FS.put]

/-- A run without results, as in `runJob_leaks`. -/
example (tmp : FS → Path) (ht : TmpSpec [] tmp) (fmt : ℝ → String) (num : String → Option ℝ) (hT : Tree freshDir) :
    (runJob (oasJob fmt num "v1" [[1]]) (fun _ t => (t, [], 0)) id tmp none false freshDir).1 = .error .noResults := by
  rw [(runJob_enters ht _ _ _ hT roomy_freshDir (by simp [Enters])).1]
  simp [work, oasJob, loadtxt, FS.put, freshDir]

example : ∃ l, multifBound (fun k => if k = "level" then some (.int 5) else none) (fun _ => none) = .ok l ∧ ("level", ArgV.int 0) ∈ l := by
  obtain ⟨l, hl⟩ := (multif_bound_ok_iff (fun k => if k = "level" then some (.int 5) else none) (fun _ => none)).2 ⟨by simp, by
    intro k hk
    by_cases h : k = "level"
    · simp [h]
    · simp [h] at hk⟩
  exact ⟨l, hl, by simpa using (multif_ctor_ignored _ _ hl).1⟩

end Verif.Demo
