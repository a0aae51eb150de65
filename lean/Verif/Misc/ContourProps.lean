import Verif.Misc.ContourModel
import Verif.Misc.PgfProps

/-!
# C137: a saved contour plot contains the contour lines
-/

namespace Verif.Misc.Contour

open Verif.Domain
open Verif.Misc

variable {V : Type}

/-! ### Specification -/

/-- A contour line as a plotting library stores it: a first point, further points, and whether it is
closed. -/
structure Curve (V : Type) where
  start : V × V
  rest : List (V × V)
  closed : Option (V × V)

/-- The segments of a curve; the point that comes with the closing code is arbitrary. -/
def Curve.segs (c : Curve V) : List ((V × V) × Code) :=
  (c.start, .moveto) :: (c.rest.map fun p => (p, .lineto)) ++ (c.closed.toList.map fun p => (p, .closepoly))

/-- The points of a curve, the first one repeated at the end of a closed curve. -/
def Curve.points (c : Curve V) : List (V × V) :=
  c.start :: c.rest ++ (c.closed.toList.map fun _ => c.start)

/-- What is assumed of the conversions: cells contain no tab and no line end, an integer is read back, and
reading the 16 digits of a number gives a number `rnd v` (16 digits do not determine every
double; `rnd` is the identity on those they do). -/
structure Conv.Good (C : Conv V) (rnd : V → V) : Prop where
  plain : ∀ v, Plain (C.num v) ∧ C.num v ≠ []
  iplain : ∀ n, Plain (C.int n) ∧ C.int n ≠ []
  round : ∀ v, C.prs (C.num v) = .ok (rnd v)
  iround : ∀ n, C.iprs (C.int n) = .ok n

/-- Reading a line with two numbers. -/
def readRow (C : Conv V) (l : Str) : Except Err (V × V) :=
  match cells l with
  | [a, b] => (C.prs a).bind fun x => (C.prs b).bind fun y => .ok (x, y)
  | _ => .error .valueError

/-- Reading the line that precedes a contour line: its level and its number of points. -/
def readHead (C : Conv V) (l : Str) : Except Err (V × ℕ) :=
  match cells l with
  | [a, b] => (C.prs a).bind fun z => (C.iprs b).bind fun n => .ok (z, n)
  | _ => .error .valueError

/-- Reading a file in this format (as pgfplots does): level and number of points, then the points. -/
def readLines (C : Conv V) : ℕ → List Str → Except Err (List (V × List (V × V)))
  | _, [] => .ok []
  | 0, _ :: _ => .error .valueError
  | fuel + 1, h :: r =>
    (readHead C h).bind fun zn =>
      if r.length < zn.2 then .error .valueError
      else ((r.take zn.2).mapM (readRow C)).bind fun pts =>
        (readLines C fuel (r.drop zn.2)).bind fun bs => .ok ((zn.1, pts) :: bs)

/-- Reading the text of a file. -/
def readFile (C : Conv V) (text : Str) : Except Err (List (V × List (V × V))) :=
  readLines C (pyLines text).length (pyLines text)

/-! ### What is written -/

theorem loop_lines (C : Conv V) (f : Format) (z : V) (ps : List (V × V)) (r : List ((V × V) × Code))
    (cur : List (V × V)) :
    pathLoop C f z ((ps.map fun p => (p, Code.lineto)) ++ r) cur = pathLoop C f z r (cur ++ ps) := by
  induction ps generalizing cur with
  | nil => simp
  | cons p ps ih =>
    rw [List.map_cons, List.cons_append, pathLoop, ih, List.append_assoc]
    rfl

theorem loop_curve (C : Conv V) (f : Format) (z : V) (c : Curve V) (r : List ((V × V) × Code)) :
    pathLoop C f z (c.segs ++ r) [] = pathLoop C f z r c.points := by
  unfold Curve.segs Curve.points
  rw [List.cons_append, List.cons_append, List.append_assoc, pathLoop]
  rw [loop_lines]
  cases c.closed with
  | none => simp
  | some q =>
    simp only [Option.toList_some, List.map_cons, List.map_nil, List.cons_append, List.nil_append]
    rw [pathLoop]
    rfl

theorem loop_curve_next (C : Conv V) (z : V) (c : Curve V) (r : List ((V × V) × Code)) (cur : List (V × V))
    (h : cur ≠ []) :
    pathLoop C .matlab z (c.segs ++ r) cur =
      (writeMatlab C cur z ++ (pathLoop C .matlab z r c.points).1, (pathLoop C .matlab z r c.points).2) := by
  have e := loop_curve C .matlab z c r
  obtain ⟨a, b, rfl⟩ := List.exists_cons_of_ne_nil h
  unfold Curve.segs at e ⊢
  rw [List.cons_append, List.cons_append, pathLoop] at e
  rw [List.cons_append, List.cons_append, pathLoop]
  simp only [writePath, e]

theorem points_ne_nil (c : Curve V) : c.points ≠ [] := by
  unfold Curve.points; simp

theorem loop_curves (C : Conv V) (z : V) (c : Curve V) (cs : List (Curve V)) :
    ∃ t l, pathLoop C .matlab z (cs.flatMap Curve.segs) c.points = (t, .ok l) ∧
      t ++ writeMatlab C l z = (c :: cs).flatMap fun d => writeMatlab C d.points z := by
  induction cs generalizing c with
  | nil => exact ⟨[], c.points, rfl, by simp⟩
  | cons d cs ih =>
    obtain ⟨t, l, h1, h2⟩ := ih d
    refine ⟨writeMatlab C c.points z ++ t, l, ?_, ?_⟩
    · rw [List.flatMap_cons, loop_curve_next C z d _ _ (points_ne_nil c), h1]
    · rw [List.append_assoc, h2, List.flatMap_cons (f := fun d => writeMatlab C (Curve.points d) z) (x := c)]

theorem savePath_curves (C : Conv V) (z : V) (cs : List (Curve V)) (h : cs ≠ []) :
    savePath C .matlab z (cs.flatMap Curve.segs) =
      (cs.flatMap (fun c => writeMatlab C c.points z), .ok ()) := by
  obtain ⟨c, cs, rfl⟩ := List.exists_cons_of_ne_nil h
  obtain ⟨t, l, h1, h2⟩ := loop_curves C z c cs
  unfold savePath
  rw [List.flatMap_cons, loop_curve, h1]
  simp only [writePath, h2]

theorem seqAll_ok {α : Type} (g : α → Out) (w : α → Str) (l : List α) (h : ∀ a ∈ l, g a = (w a, .ok ())) :
    seqAll g l = (l.flatMap w, .ok ()) := by
  induction l with
  | nil => rfl
  | cons a l ih =>
    rw [seqAll, ih (fun b hb => h b (List.mem_cons_of_mem _ hb)), h a (by simp)]
    simp [Out.andThen]

/-- A contour set: for every level its paths, each a list of curves. -/
abbrev Levels (V : Type) := List (V × List (List (Curve V)))

/-- The collections of a contour set as the plotting library stores them. -/
def Levels.collections (S : Levels V) : List (List (List ((V × V) × Code))) :=
  S.map fun zp => zp.2.map fun cs => cs.flatMap Curve.segs

/-- All curves with their levels, in order. -/
def Levels.curves (S : Levels V) : List (V × List (V × V)) :=
  S.flatMap fun zp => zp.2.flatMap fun cs => cs.map fun c => (zp.1, c.points)

/-- **The file holds one block for every curve**, in order: the level and the number of points, then the
points; nothing is raised. -/
theorem contour_text (C : Conv V) (S : Levels V) (h : ∀ zp ∈ S, ∀ cs ∈ zp.2, cs ≠ []) :
    save C .matlab S.collections (S.map Prod.fst) =
      (some (S.curves.flatMap fun zc => writeMatlab C zc.2 zc.1), .ok ()) := by
  have e : S.collections.zip (S.map Prod.fst) =
      S.map fun zp => (zp.2.map fun cs => cs.flatMap Curve.segs, zp.1) := by
    unfold Levels.collections
    rw [List.zip_map', ]
  unfold save
  simp only
  rw [e]
  rw [seqAll_ok _ (fun cz => cz.1.flatMap fun path => (savePath C .matlab cz.2 path).1)]
  · simp only [Levels.curves, List.flatMap_map, List.flatMap_assoc]
    congr 2
    apply List.flatMap_congr
    intro zp hzp
    apply List.flatMap_congr
    intro cs hcs
    rw [savePath_curves C zp.1 cs (h zp hzp cs hcs)]
  · intro cz hcz
    obtain ⟨zp, hzp, rfl⟩ := List.mem_map.mp hcz
    apply seqAll_ok
    intro path hp
    obtain ⟨cs, hcs, rfl⟩ := List.mem_map.mp hp
    dsimp only
    rw [savePath_curves C zp.1 cs (h zp hzp cs hcs)]

/-! ### Reading -/

theorem lines_flatten (ls : List Str) (h : ∀ l ∈ ls, ∃ t, l = t ++ ['\n'] ∧ '\n' ∉ t) (rest : Str) :
    pyLines (ls.flatten ++ rest) = ls ++ pyLines rest := by
  induction ls with
  | nil => rfl
  | cons l ls ih =>
    obtain ⟨t, rfl, ht⟩ := h l (by simp)
    rw [List.flatten_cons, List.append_assoc, List.append_assoc, List.singleton_append, pyLines_line ht,
      ih (fun m hm => h m (List.mem_cons_of_mem _ hm))]
    rfl

theorem line2_form {a b : Str} (ha : Plain a) (hb : Plain b) : ∃ t, line2 a b = t ++ ['\n'] ∧ '\n' ∉ t := by
  refine ⟨a ++ '\t' :: b, rfl, ?_⟩
  simp [ha.2, hb.2]

theorem replaceTN_none {t : Str} (hb : ∀ u, t ≠ u ++ ['\t']) (h : '\n' ∉ t) :
    replaceTN (t ++ ['\n']) = t ++ ['\n'] := by
  induction t with
  | nil => rfl
  | cons c t ih =>
    cases t with
    | nil =>
      have hc : c ≠ '\t' := fun e => hb [] (by simp [e])
      simp [replaceTN, hc]
    | cons d t =>
      have hd : d ≠ '\n' := fun e => h (by simp [e])
      rw [List.cons_append, List.cons_append, replaceTN, if_neg (fun e => hd e.2), ← List.cons_append,
        ih (fun u hu => hb (c :: u) (by rw [hu]; rfl)) (fun hm => h (List.mem_cons_of_mem _ hm))]

theorem cells_line2 {a b : Str} (ha : Plain a) (hb : Plain b) (hne : b ≠ []) : cells (line2 a b) = [a, b] := by
  unfold cells line2
  rw [replaceTN_none, replaceN, List.filter_append]
  · have e : (a ++ '\t' :: b).filter (· ≠ '\n') = a ++ '\t' :: b := by
      have hm : '\n' ∉ a ++ '\t' :: b := by simp [ha.2, hb.2]
      rw [List.filter_eq_self]
      intro x hx
      simp only [ne_eq, decide_not, Bool.not_eq_eq_eq_not, Bool.not_true, decide_eq_false_iff_not]
      rintro rfl
      exact hm hx
    rw [e]
    simp only [ne_eq, decide_not, decide_true, Bool.not_true, Bool.false_eq_true, not_false_eq_true, List.filter_cons_of_neg,
      List.filter_nil, List.append_nil]
    rw [splitTab_append ha.1, splitTab_plain hb.1]
  · intro u hu
    have h1 : (a ++ '\t' :: b).getLast? = some '\t' := by rw [hu]; simp
    obtain ⟨c, hc⟩ := Option.isSome_iff_exists.mp (List.getLast?_isSome.mpr hne)
    have h2 : (a ++ '\t' :: b).getLast? = some c := by
      rw [List.getLast?_append, List.getLast?_cons, hc]; simp
    rw [h2] at h1
    exact hb.1 (by rw [← Option.some.inj h1]; exact List.mem_of_getLast? hc)
  · simp [ha.2, hb.2]

/-- The lines of a block. -/
def blockLines (C : Conv V) (zc : V × List (V × V)) : List Str :=
  line2 (C.num zc.1) (C.int zc.2.length) :: zc.2.map fun p => line2 (C.num p.1) (C.num p.2)

theorem block_flatten (C : Conv V) (zc : V × List (V × V)) :
    writeMatlab C zc.2 zc.1 = (blockLines C zc).flatten := by
  simp [writeMatlab, blockLines]

theorem file_lines (C : Conv V) {rnd : V → V} (hC : C.Good rnd) (bs : List (V × List (V × V))) :
    pyLines (bs.flatMap fun zc => writeMatlab C zc.2 zc.1) = bs.flatMap (blockLines C) := by
  have e : (bs.flatMap fun zc => writeMatlab C zc.2 zc.1) = (bs.flatMap (blockLines C)).flatten ++ [] := by
    simp only [block_flatten, List.append_nil]
    induction bs with
    | nil => rfl
    | cons b bs ih => simp [ih]
  rw [e, lines_flatten]
  · simp [pyLines]
  · intro l hl
    obtain ⟨zc, -, hm⟩ := List.mem_flatMap.mp hl
    unfold blockLines at hm
    rcases List.mem_cons.mp hm with rfl | hm
    · exact line2_form (hC.plain _).1 (hC.iplain _).1
    · obtain ⟨p, -, rfl⟩ := List.mem_map.mp hm
      exact line2_form (hC.plain _).1 (hC.plain _).1

theorem readRow_line (C : Conv V) {rnd : V → V} (hC : C.Good rnd) (p : V × V) :
    readRow C (line2 (C.num p.1) (C.num p.2)) = .ok (rnd p.1, rnd p.2) := by
  unfold readRow
  rw [cells_line2 (hC.plain _).1 (hC.plain _).1 (hC.plain _).2]
  simp [hC.round, Except.bind]

theorem readHead_line (C : Conv V) {rnd : V → V} (hC : C.Good rnd) (z : V) (n : ℕ) :
    readHead C (line2 (C.num z) (C.int n)) = .ok (rnd z, n) := by
  unfold readHead
  rw [cells_line2 (hC.plain _).1 (hC.iplain _).1 (hC.iplain _).2]
  simp [hC.round, hC.iround, Except.bind]

theorem readRows (C : Conv V) {rnd : V → V} (hC : C.Good rnd) (ps : List (V × V)) :
    (ps.map fun p => line2 (C.num p.1) (C.num p.2)).mapM (readRow C) = .ok (ps.map fun p => (rnd p.1, rnd p.2)) := by
  induction ps with
  | nil => rfl
  | cons p ps ih =>
    rw [List.map_cons, List.mapM_cons, readRow_line C hC, ih]
    rfl

theorem readLines_blocks (C : Conv V) {rnd : V → V} (hC : C.Good rnd) (bs : List (V × List (V × V))) (fuel : ℕ)
    (hf : (bs.flatMap (blockLines C)).length ≤ fuel) :
    readLines C fuel (bs.flatMap (blockLines C)) =
      .ok (bs.map fun zc => (rnd zc.1, zc.2.map fun p => (rnd p.1, rnd p.2))) := by
  induction bs generalizing fuel with
  | nil => cases fuel <;> rfl
  | cons b bs ih =>
    rw [List.flatMap_cons, blockLines, List.cons_append] at hf ⊢
    cases fuel with
    | zero => simp at hf
    | succ fuel =>
      rw [readLines, readHead_line C hC]
      simp only [Except.bind]
      have hl : (b.2.map fun p => line2 (C.num p.1) (C.num p.2)).length = b.2.length := by simp
      rw [if_neg (by simp), List.take_append_of_le_length (by simp), ← hl, List.take_length, readRows C hC]
      simp only
      rw [List.drop_append_of_le_length (by simp), List.drop_length, List.nil_append,
        ih fuel (by simp at hf; simp; omega)]
      rfl

/-- **Round trip**: reading the file gives back all curves, with their levels and in order, up to the
rounding to 16 digits; closed curves end where they begin. -/
theorem contour_roundtrip (C : Conv V) {rnd : V → V} (hC : C.Good rnd) (S : Levels V)
    (h : ∀ zp ∈ S, ∀ cs ∈ zp.2, cs ≠ []) :
    ∃ text, save C .matlab S.collections (S.map Prod.fst) = (some text, .ok ()) ∧
      readFile C text = .ok (S.flatMap fun zp => zp.2.flatMap fun cs => cs.map fun c =>
        (rnd zp.1, (c.start :: c.rest ++ (if c.closed.isSome then [c.start] else [])).map
          fun p => (rnd p.1, rnd p.2))) := by
  refine ⟨_, contour_text C S h, ?_⟩
  unfold readFile
  rw [file_lines C hC, readLines_blocks C hC _ _ le_rfl]
  unfold Levels.curves
  simp only [List.map_flatMap, List.map_map]
  congr 1
  apply List.flatMap_congr
  intro zp _
  apply List.flatMap_congr
  intro cs _
  apply List.map_congr_left
  intro c _
  simp only [Function.comp, Curve.points]
  cases c.closed <;> simp

/-! ### When it fails, and what is lost -/

theorem loop_other (C : Conv V) (f : Format) (z : V) (path : List ((V × V) × Code)) (cur : List (V × V)) :
    pathLoop C f z (path.filter fun s => s.2 ≠ .other) cur = pathLoop C f z path cur := by
  induction path generalizing cur with
  | nil => rfl
  | cons s r ih =>
    obtain ⟨p, c⟩ := s
    cases c with
    | moveto =>
      rw [List.filter_cons_of_pos (by simp)]
      cases cur with
      | nil => rw [pathLoop, pathLoop]; exact ih _
      | cons a b => rw [pathLoop, pathLoop]; simp only [ih]
    | lineto => rw [List.filter_cons_of_pos (by simp), pathLoop, pathLoop]; exact ih _
    | closepoly =>
      rw [List.filter_cons_of_pos (by simp)]
      cases cur with
      | nil => rw [pathLoop, pathLoop]
      | cons a b => rw [pathLoop, pathLoop]; exact ih _
    | other => rw [List.filter_cons_of_neg (by simp), pathLoop]; exact ih _

/-- **Curved segments are dropped**: a path is written as if its points with other codes (quadratic and
cubic curves) were not there. -/
theorem contour_other (C : Conv V) (f : Format) (z : V) (path : List ((V × V) × Code)) :
    savePath C f z (path.filter fun s => s.2 ≠ .other) = savePath C f z path := by
  unfold savePath
  rw [loop_other]

theorem loop_started (C : Conv V) (z : V) (path : List ((V × V) × Code)) (cur : List (V × V)) (h : cur ≠ []) :
    ∃ t l, pathLoop C .matlab z path cur = (t, .ok l) := by
  induction path generalizing cur with
  | nil => exact ⟨[], cur, rfl⟩
  | cons s r ih =>
    obtain ⟨p, c⟩ := s
    obtain ⟨a, b, rfl⟩ := List.exists_cons_of_ne_nil h
    cases c with
    | moveto =>
      obtain ⟨t, l, e⟩ := ih [p] (by simp)
      exact ⟨writeMatlab C (a :: b) z ++ t, l, by rw [pathLoop]; simp only [writePath, e]⟩
    | lineto =>
      obtain ⟨t, l, e⟩ := ih (a :: b ++ [p]) (by simp)
      exact ⟨t, l, by rw [pathLoop]; exact e⟩
    | closepoly =>
      obtain ⟨t, l, e⟩ := ih (a :: b ++ [a]) (by simp)
      exact ⟨t, l, by rw [pathLoop]; exact e⟩
    | other =>
      obtain ⟨t, l, e⟩ := ih (a :: b) (by simp)
      exact ⟨t, l, by rw [pathLoop]; exact e⟩

/-- A path can be written unless it closes before it has a point. -/
theorem contour_path_ok_iff (C : Conv V) (z : V) (path : List ((V × V) × Code)) :
    (savePath C .matlab z path).2 = .ok () ↔
      ((path.filter fun s => s.2 ≠ .other).head?.map Prod.snd ≠ some Code.closepoly) := by
  rw [← contour_other]
  set q := path.filter fun s => s.2 ≠ .other with hq
  have hno : ∀ s ∈ q, s.2 ≠ .other := by
    intro s hs
    have := List.of_mem_filter (hq ▸ hs)
    simpa using this
  clear_value q
  unfold savePath
  cases q with
  | nil => simp [pathLoop, writePath]
  | cons s r =>
    obtain ⟨p, c⟩ := s
    cases c with
    | moveto =>
      obtain ⟨t, l, e⟩ := loop_started C z r [p] (by simp)
      rw [pathLoop, e]; simp [writePath]
    | lineto =>
      obtain ⟨t, l, e⟩ := loop_started C z r [p] (by simp)
      rw [pathLoop, List.nil_append, e]; simp [writePath]
    | closepoly => simp [pathLoop]
    | other => exact absurd rfl (hno (p, .other) (by simp))

/-- An unknown format is refused before the file is opened. -/
theorem contour_unknown (C : Conv V) (cols : List (List (List ((V × V) × Code)))) (levels : List V) :
    save C .unknown cols levels = (none, .error .notImplemented) := rfl

/-- **The second documented format never works**: with a first path that starts with a point the call
raises, and an empty file is left behind. -/
theorem contour_prepared_false (C : Conv V) (z : V) (c : Curve V) (cs : List (Curve V))
    (paths : List (List ((V × V) × Code))) (cols : List (List (List ((V × V) × Code)))) (levels : List V) :
    save C .prepared ((((c :: cs).flatMap Curve.segs) :: paths) :: cols) (z :: levels) =
      (some [], .error .nameError) := by
  have e : savePath C .prepared z ((c :: cs).flatMap Curve.segs) = ([], .error .nameError) := by
    unfold savePath
    rw [List.flatMap_cons, loop_curve]
    obtain ⟨a, b, hp⟩ := List.exists_cons_of_ne_nil (points_ne_nil c)
    rw [hp]
    cases cs with
    | nil => simp [pathLoop, writePath]
    | cons d cs =>
      rw [List.flatMap_cons]
      simp only [Curve.segs, List.cons_append]
      rw [pathLoop]
      simp [writePath]
  unfold save
  simp only [List.zip_cons_cons, seqAll]
  rw [e]
  simp [Out.andThen]

/-- **An empty path leaves an empty curve in the file.** -/
theorem contour_empty_false (C : Conv V) {rnd : V → V} (hC : C.Good rnd) (z : V) :
    ∃ text, save C .matlab [[[]]] [z] = (some text, .ok ()) ∧ readFile C text = .ok [(rnd z, [])] := by
  refine ⟨writeMatlab C [] z, ?_, ?_⟩
  · simp [save, seqAll, savePath, pathLoop, writePath, Out.andThen]
  · have := file_lines C hC [(z, [])]
    simp only [List.flatMap_cons, List.flatMap_nil, List.append_nil] at this
    unfold readFile
    rw [this]
    have h2 := readLines_blocks C hC [(z, [])] (blockLines C (z, [])).length (by simp)
    simpa using h2

/-! ### The hypotheses are met -/

/-- Conversions that meet the contract exist. -/
example : ∃ C : Conv Bool, C.Good id := by
  refine ⟨⟨fun b => if b then ['1'] else ['0'], fun n => List.replicate (n + 1) '1',
    fun s => .ok (s = ['1']), fun s => .ok (s.length - 1)⟩, ?_, ?_, ?_, ?_⟩
  · intro v; cases v <;> simp [Plain]
  · intro n
    refine ⟨⟨?_, ?_⟩, by simp⟩ <;> intro h <;> exact absurd (List.eq_of_mem_replicate h) (by decide)
  · intro v; cases v <;> simp
  · intro n; simp

/-- A contour set with a closed and an open curve. -/
example : ∀ zp ∈ ([(0, [[⟨(0, 0), [(1, 0), (1, 1)], some (0, 0)⟩, ⟨(5, 5), [(6, 6)], none⟩]])] : Levels ℕ),
    ∀ cs ∈ zp.2, cs ≠ [] := by simp

end Verif.Misc.Contour
