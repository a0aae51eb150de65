import Mathlib.Data.List.Infix
import Mathlib.Data.Real.Basic
import Mathlib.Data.Set.Finite.Basic
import Mathlib.Algebra.Order.Floor.Ring
import Mathlib.Algebra.Order.Round
import Mathlib.Data.Int.Log

/-!
# Model of the demo functions that run an external program

Source: `/repo/psdr/demos/multif.py` 108-217 (`multif`), `/repo/psdr/demos/naca0012.py` 45-109 (`naca0012_func`), `/repo/psdr/demos/oas.py` 51-99 (`oas_func`).

The three functions have the same shape: make a directory, write the inputs into it, run a container that sees this directory only, read the results, remove the directory.
The file system is a map from absolute paths to directories and files; symbolic links and permissions are not modelled.  The container is an arbitrary function of its
command line and of the contents of the directory.
-/

namespace Verif.Demo

/-- A path: the names from the root on. -/
abbrev Path := List String

/-- What is found at a path. -/
inductive Node where
  | dir
  | file (lines : List String)
  deriving DecidableEq

/-- A file system, or the contents of a directory (with paths relative to it). -/
abbrev FS := Path → Option Node

/-- What may be raised. -/
inductive RunErr where
  /-- `AssertionError` -/
  | assertion
  /-- `FileExistsError` -/
  | fileExists
  /-- `NotADirectoryError` -/
  | notADirectory
  /-- the configuration template does not exist -/
  | noTemplate
  /-- `TypeError`: an unknown keyword -/
  | typeError
  /-- the results cannot be read -/
  | noResults
  deriving DecidableEq

/-- Writing a node. -/
def FS.put (fs : FS) (p : Path) (n : Node) : FS := fun q => if q = p then some n else fs q

/-- The contents of the directory `wd`. -/
def under (wd : Path) (fs : FS) : FS := fun p => fs (wd ++ p)

open Classical in
/-- Replacing the contents of the directory `wd`. -/
noncomputable def graft (wd : Path) (t : FS) (fs : FS) : FS := fun q => if wd <+: q then t (q.drop wd.length) else fs q

open Classical in
/-- `shutil.rmtree(wd)`. -/
noncomputable def rmtree (wd : Path) (fs : FS) : FS := fun q => if wd <+: q then none else fs q

open Classical in
/-- `os.makedirs(wd)`: the missing ancestors are made as well. -/
noncomputable def makedirs (fs : FS) (wd : Path) : Except RunErr FS :=
  if fs wd ≠ none then .error .fileExists
  else if ∃ a l, a <+: wd ∧ fs a = some (.file l) then .error .notADirectory
  else .ok fun q => if q <+: wd ∧ fs q = none then some .dir else fs q

/-- The container: from its command line (image and arguments) and the directory mounted at `/workdir`, the new contents of the directory, the lines printed and the exit code. -/
abbrev Prog := List String → FS → FS × List String × ℤ

/-- What distinguishes the three functions. -/
structure Job (R : Type) where
  /-- `keep_data` without a directory is refused (`multif`, `naca0012_func`) -/
  checksKeep : Bool
  /-- the files written before the run; `none` if the template is missing -/
  inputs : Option (List (String × List String))
  /-- the command line -/
  cmd : List String
  /-- reading the result files -/
  parse : FS → Except RunErr R

variable {R : Type}

/-- The directory used, multif.py 143-154, naca0012.py 59-69, oas.py 63-72: a new temporary one (`tempfile.mkdtemp()`), made before `keep_data` is looked at, or the given one,
which must not exist. -/
noncomputable def enter (J : Job R) (tmp : FS → Path) (workdir : Option Path) (keep : Bool) (fs : FS) : Except RunErr Path × FS :=
  match workdir with
  | none =>
    let fs1 := fs.put (tmp fs) .dir
    if J.checksKeep ∧ keep then (.error .assertion, fs1) else (.ok (tmp fs), fs1)
  | some wd =>
    match makedirs fs wd with
    | .error e => (.error e, fs)
    | .ok fs1 => (.ok wd, fs1)

/-- What happens in the directory, multif.py 156-212, naca0012.py 71-101, oas.py 74-95.  `logOf` is the part of the printed lines that reaches the log.  The exit code is
printed and has no other effect. -/
def work (J : Job R) (prog : Prog) (logOf : List String → List String) (t : FS) : Except RunErr R × FS :=
  match J.inputs with
  | none => (.error .noTemplate, t)
  | some files =>
    let t1 := files.foldl (fun t f => t.put [f.1] (.file f.2)) t
    let t2 := t1.put ["output.log"] (.file [])
    let r := prog J.cmd t2
    let t3 := (r.1.put [] .dir).put ["output.log"] (.file (logOf r.2.1))
    (J.parse t3, t3)

/-- A call of one of the three functions: the result, and the file system afterwards. -/
noncomputable def runJob (J : Job R) (prog : Prog) (logOf : List String → List String) (tmp : FS → Path) (workdir : Option Path) (keep : Bool) (fs : FS) :
    Except RunErr R × FS :=
  match enter J tmp workdir keep fs with
  | (.error e, fs1) => (.error e, fs1)
  | (.ok wd, fs1) =>
    match work J prog logOf (under wd fs1) with
    | (.error e, t) => (.error e, graft wd t fs1)
    | (.ok v, t) => (.ok v, if keep then graft wd t fs1 else rmtree wd (graft wd t fs1))

/-! ### The loop that reads the output of the program -/

/-- The possible logs of the loop of multif.py 182-197 (naca0012.py 81-96, oas.py 78-93), after `k` lines of the output `out` have been read.  Each pass reads a line, or
nothing if the output has ended; then the loop stops if the program has ended by now.  The program may end as soon as it has put all of its output into the pipe. -/
inductive LogRun (out : List String) : ℕ → List String → Prop
  /-- a line is read and the program is still running -/
  | more {k log} (h : k < out.length) (rest : LogRun out (k + 1) log) : LogRun out k (out[k] :: log)
  /-- a line is read and the program has ended -/
  | last {k} (h : k < out.length) : LogRun out k [out[k]]
  /-- the output has ended, the program is still running -/
  | idle {log} (rest : LogRun out out.length log) : LogRun out out.length log
  /-- the output has ended and so has the program -/
  | stop : LogRun out out.length []

/-! ### The three functions -/

/-- The command line of `multif`, multif.py 170-178, from the name of the image on; the part before it mounts the directory. -/
def multifCmd (version : String) (level : ℤ) (cores : Option ℤ) : List String :=
  ["jeffreyhokanson/multif:" ++ version, "-f", "general-3d.cfg", "-l", toString level] ++
    match cores with
    | none => []
    | some c => ["-c", toString c]

/-- One line of `results.out`, multif.py 206-212: `value, name = line.split()`. -/
def resultLine (num : String → Option ℝ) (line : String) : Option ℝ :=
  match (line.splitOn " ").filter (· ≠ "") with
  | [value, _] => num value
  | _ => none

/-- Reading `results.out`, multif.py 205-212. -/
def multifParse (num : String → Option ℝ) (t : FS) : Except RunErr (List ℝ) :=
  match t ["results.out"] with
  | some (.file lines) =>
    match lines.mapM (resultLine num) with
    | some v => .ok v
    | none => .error .noResults
  | _ => .error .noResults

/-- `multif(x, level, version, su2_maxiter, ..., cores)`, multif.py 108-217; `template` has the lines of the configuration files that exist, `fmt` writes a number. -/
def multifJob (template : String → Option (List String)) (fmt : ℝ → String) (num : String → Option ℝ) (x : List ℝ) (level : ℤ) (version : String)
    (su2 : Option ℤ) (cores : Option ℤ) : Job (List ℝ) where
  checksKeep := true
  inputs := (template version).map fun cfg =>
    [("general-3d.cfg", match su2 with
      | none => cfg
      | some k => cfg ++ ["SU2_MAX_ITERATIONS=" ++ toString k]), ("general-3d.in", x.map fmt)]
  cmd := multifCmd version level cores
  parse := multifParse num

/-- A table of numbers in a text file, `np.loadtxt`: all rows must have the same number of entries. -/
def loadtxt (num : String → Option ℝ) (name : String) (t : FS) : Except RunErr (List (List ℝ)) :=
  match t [name] with
  | some (.file lines) =>
    match (lines.mapM fun l => ((l.splitOn " ").filter (· ≠ "")).mapM num) with
    | some rows => if ∀ r ∈ rows, r.length = (rows.headD []).length then .ok rows else .error .noResults
    | none => .error .noResults
  | _ => .error .noResults

/-- `naca0012_func(x, version, ..., n_lower, n_upper, return_grad, maxiter, nprocesses)`, naca0012.py 45-109. -/
def nacaJob (fmt : ℝ → String) (num : String → Option ℝ) (version : String) (x : List ℝ) (nlower nupper : ℤ) (grad : Bool) (maxiter nproc : ℤ) :
    Job (List (List ℝ) × Option (List (List ℝ))) where
  checksKeep := true
  inputs := some [("my.input", x.map fmt)]
  cmd := ["jeffreyhokanson/naca0012:" ++ version, "/workdir/my.input",
    "--nlower", toString nlower, "--nupper", toString nupper] ++ (if grad then ["--adjoint", "discrete"] else []) ++
    ["--maxiter", toString maxiter, "--nprocesses", toString nproc]
  parse := fun t =>
    match loadtxt num "my.output" t with
    | .error e => .error e
    | .ok fx =>
      if grad then
        match loadtxt num "my_grad.output" t with
        | .error e => .error e
        | .ok g => .ok (fx, some g)
      else .ok (fx, none)

/-- `oas_func(x, version, ...)`, oas.py 51-99: one line per row of `x`, the entries separated by blanks. -/
def oasJob (fmt : ℝ → String) (num : String → Option ℝ) (version : String) (x : List (List ℝ)) : Job (List (List ℝ)) where
  checksKeep := false
  inputs := some [("my.input", x.map fun row => " ".intercalate (row.map fmt))]
  cmd := ["jeffreyhokanson/oas:" ++ version, "/workdir/my.input"]
  parse := loadtxt num "my.output"

/-! ### Several points -/

/-- `np.vstack([fun(x, **kwargs) for x in X])` in `Function.eval`, function.py 155: the calls are made one after the other, the first exception ends it. -/
noncomputable def runBatch (prog : Prog) (logOf : List String → List String) (tmp : FS → Path) (workdir : Option Path) (keep : Bool) : List (Job R) → FS → Except RunErr (List R) × FS
  | [], fs => (.ok [], fs)
  | J :: Js, fs =>
    match runJob J prog logOf tmp workdir keep fs with
    | (.error e, fs1) => (.error e, fs1)
    | (.ok v, fs1) =>
      match runBatch prog logOf tmp workdir keep Js fs1 with
      | (.error e, fs2) => (.error e, fs2)
      | (.ok vs, fs2) => (.ok (v :: vs), fs2)

/-! ### Several calls at once -/

/-- A call with a temporary directory as a sequence of steps inside the directory (writing the inputs, the steps of the program, writing the log), then reading the results. -/
structure RunTask (R : Type) where
  acts : List (FS → FS)
  read : FS → Except RunErr R

/-- The steps of a call of one of the three functions whose inputs can be written; the program may be split into further steps. -/
def jobTask (J : Job R) (files : List (String × List String)) (prog : Prog) (logOf : List String → List String) : RunTask R where
  acts := (files.map fun f t => FS.put t [f.1] (.file f.2)) ++
    [fun t => t.put ["output.log"] (.file []), fun t => (prog J.cmd t).1.put ["output.log"] (.file (logOf (prog J.cmd t).2.1))]
  read := J.parse

/-- How far a call has come. -/
inductive TaskSt (R : Type) where
  | waiting
  | active (wd : Path) (rest : List (FS → FS))
  | finished (wd : Path) (r : Except RunErr R)

/-- The next step of a call. -/
noncomputable def taskStep (T : RunTask R) (tmp : FS → Path) (s : TaskSt R) (fs : FS) : TaskSt R × FS :=
  match s with
  | .waiting => (.active (tmp fs) T.acts, fs.put (tmp fs) .dir)
  | .active wd (a :: rest) => (.active wd rest, graft wd ((a (under wd fs)).put [] .dir) fs)
  | .active wd [] =>
    match T.read (under wd fs) with
    | .ok v => (.finished wd (.ok v), rmtree wd fs)
    | .error e => (.finished wd (.error e), fs)
  | .finished wd r => (.finished wd r, fs)

/-- Any interleaving of the calls `T`: the schedule says whose step is next. -/
noncomputable def runTasks {n : ℕ} (T : Fin n → RunTask R) (tmp : FS → Path) : List (Fin n) → (Fin n → TaskSt R) × FS → (Fin n → TaskSt R) × FS
  | [], w => w
  | i :: sched, w =>
    let r := taskStep (T i) tmp (w.1 i) w.2
    runTasks T tmp sched (Function.update w.1 i r.1, r.2)

end Verif.Demo
