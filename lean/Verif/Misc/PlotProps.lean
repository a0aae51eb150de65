import Verif.Misc.PlotModel
import Verif.Misc.PgfProps
import Verif.Domain.SweepProps
import Verif.Domain.HullProps

/-!
# Shadow plots

Sources: `/repo/psdr/subspace.py` 51-128; `/repo/psdr/ridge.py` 15-69.
-/

namespace Verif.Misc

open Verif Verif.Domain Verif.Lip Verif.Func Matrix

variable {m p : ℕ} {V : Type}

/-- The active coordinate of a sample: the inner product with a direction. -/
def coordOf (u : Pt m) (x : Pt m) : ℝ := ∑ i, x i * u i

/-- Column `j` of a matrix. -/
def colU {q : ℕ} (U : Matrix (Fin m) (Fin q) ℝ) (j : Fin q) : Pt m := fun i => U i j

/-- A file text reads back as the given table, whatever the object that reads it held before. -/
def Reads (P : Printer V) (t : Str) (names : List String) (cols : List (List ℝ)) : Prop :=
  ∀ q : Pgf V, q.read P.F t = .ok ⟨names.map String.toList, cols.map (·.map P.fl)⟩

theorem seq_ok (a b : List Fx) (r : Except Err Unit) : Run.seq (a, .ok ()) (b, r) = (a ++ b, r) := rfl

theorem seq_error (a : List Fx) (e : Err) (r : Run) : Run.seq (a, .error e) r = (a, .error e) := rfl

/-- A table whose columns are at least as long as the first one is written; the entries beyond the first column's length are lost. -/
theorem pgf_roundtrip_take (F : Fmt V) (hF : F.Good) (names : List Str) (c : List V) (cs : List (List V)) (hl : names.length = (c :: cs).length)
    (hn : ∀ s ∈ names, Plain s) (hr : ∀ d ∈ c :: cs, c.length ≤ d.length) :
    ∃ t, Pgf.write F ⟨names, c :: cs⟩ = .ok t ∧ ∀ q : Pgf V, q.read F t = .ok ⟨names, (c :: cs).map (·.take c.length)⟩ := by
  obtain ⟨t, h1, h2⟩ := rows_round F hF (c :: cs) (by simp) c.length 0 fun d hd => by have := hr d hd; omega
  refine ⟨header names ++ t, by simp only [Pgf.write, h1, Except.map], fun q => ?_⟩
  have hnn : names ≠ [] := by
    intro e
    rw [e] at hl
    simp at hl
  unfold Pgf.read
  rw [header_eq, List.append_assoc]
  show (match pyLines (cellsText names ++ '\n' :: t) with | [] => _ | l :: ls => _) = _
  rw [pyLines_line (cellsText_newline _ hn)]
  simp only
  rw [cells_line _ hnn hn]
  have e0 : (names.map fun _ => ([] : List V)) = (c :: cs).map (·.take 0) := by
    simp only [List.take_zero, List.map_const', hl]
  rw [e0, h2]
  simp only [Except.map, Nat.zero_add]

/-- The table of two columns. -/
theorem tableFile_two (P : Printer V) (hF : P.F.Good) (n : Str) (a b : String) (ha : Plain a.toList) (hb : Plain b.toList) (x y : List ℝ)
    (h : x.length ≤ y.length) : ∃ t, tableFile P n [(a.toList, x), (b.toList, y)] = ([.file n t], .ok ()) ∧ Reads P t [a, b] [x, y.take x.length] := by
  obtain ⟨t, h1, h2⟩ := pgf_roundtrip_take P.F hF [a.toList, b.toList] (x.map P.fl) [y.map P.fl] rfl
    (by intro s hs; simp at hs; rcases hs with rfl | rfl <;> assumption)
    (by intro d hd; simp at hd; rcases hd with rfl | rfl <;> simp [h])
  refine ⟨t, ?_, fun q => ?_⟩
  · change (match (Pgf.write P.F ⟨[a.toList, b.toList], [x.map P.fl, y.map P.fl]⟩) with | .error e => _ | .ok t => _) = _
    rw [h1]
  · rw [h2 q]
    simp

/-- The table of three columns. -/
theorem tableFile_three (P : Printer V) (hF : P.F.Good) (n : Str) (a b c : String) (ha : Plain a.toList) (hb : Plain b.toList) (hc : Plain c.toList)
    (x y z : List ℝ) (h : x.length = y.length) (h' : x.length = z.length) :
    ∃ t, tableFile P n [(a.toList, x), (b.toList, y), (c.toList, z)] = ([.file n t], .ok ()) ∧ Reads P t [a, b, c] [x, y, z] := by
  obtain ⟨t, h1, h2⟩ := pgf_roundtrip_take P.F hF [a.toList, b.toList, c.toList] (x.map P.fl) [y.map P.fl, z.map P.fl] rfl
    (by intro s hs; simp at hs; rcases hs with rfl | rfl | rfl <;> assumption)
    (by intro d hd; simp at hd; rcases hd with rfl | rfl | rfl <;> simp [← h, ← h'])
  refine ⟨t, ?_, fun q => ?_⟩
  · have hadd : ([(a.toList, x), (b.toList, y), (c.toList, z)].foldlM (fun (t : Pgf V) c => t.add c.1 (c.2.map P.fl)) Pgf.empty : Except Err (Pgf V)) =
        .ok ⟨[a.toList, b.toList, c.toList], [x.map P.fl, y.map P.fl, z.map P.fl]⟩ := by
      change (Pgf.add (V := V) ⟨[a.toList, b.toList], [x.map P.fl, y.map P.fl]⟩ c.toList (z.map P.fl)) >>= _ = _
      unfold Pgf.add
      rw [if_neg (by simp [h'])]
      rfl
    unfold tableFile
    rw [hadd]
    change (match (Pgf.write P.F ⟨[a.toList, b.toList, c.toList], [x.map P.fl, y.map P.fl, z.map P.fl]⟩) with | .error e => _ | .ok t => _) = _
    rw [h1]
  · rw [h2 q]
    simp [h, h']
    omega

theorem colOf_zero {q : ℕ} (U : Matrix (Fin m) (Fin (q + 1)) ℝ) : colOf U 0 = .ok (colU U 0) := by
  unfold colOf
  rw [dif_pos (by omega)]
  rfl

theorem colOf_one {q : ℕ} (U : Matrix (Fin m) (Fin (q + 2)) ℝ) : colOf U 1 = .ok (colU U 1) := by
  unfold colOf
  rw [dif_pos (by omega)]
  rfl

/-- The one dimensional plot. -/
theorem shadow1_eq (P : Printer V) (hF : P.F.Good) (l : List (Pt m)) (b : Bool) (f : List ℝ) (hf : l.length = f.length) {q : ℕ}
    (U : Matrix (Fin m) (Fin (q + 1)) ℝ) (ax : Bool) (name : Option Str) :
    ∃ t, shadow1 P l (.vals b f) U ax name =
        ((if ax then [.dots (l.map (coordOf (colU U 0))) f] else []) ++ name.toList.map (fun n => .file n t), .ok ()) ∧
      Reads P t ["y", "fX"] [l.map (coordOf (colU U 0)), f] := by
  have hY : (l.map (· ⬝ᵥ colU U 0)) = l.map (coordOf (colU U 0)) := rfl
  have ht : ∀ n : Str, ∃ t, tableFile P n [("y".toList, l.map (coordOf (colU U 0))), ("fX".toList, f)] = ([.file n t], .ok ()) ∧
      Reads P t ["y", "fX"] [l.map (coordOf (colU U 0)), f] := by
    intro n
    have := tableFile_two P hF n "y" "fX" (by simp [Plain]) (by simp [Plain]) (l.map (coordOf (colU U 0))) f (by simp [hf])
    rwa [List.take_of_length_le (by simp [hf])] at this
  cases name with
  | none =>
    obtain ⟨t, -, h2⟩ := ht []
    refine ⟨t, ?_, h2⟩
    unfold shadow1
    cases ax with
    | false => simp [Run.done]
    | true =>
      rw [if_neg (by simp), colOf_zero]
      simp only [if_true, drawChecked, hf, hY]
      rfl
  | some n =>
    obtain ⟨t, h1, h2⟩ := ht n
    refine ⟨t, ?_, h2⟩
    unfold shadow1
    rw [if_neg (by simp), colOf_zero]
    simp only [optFile, hY, h1]
    cases ax with
    | false => rfl
    | true =>
      simp only [if_true, drawChecked, hf]
      rfl

/-- The two dimensional plot. -/
theorem shadow2_eq (P : Printer V) (hF : P.F.Good) (l : List (Pt m)) (f : List ℝ) (hf : l.length = f.length) {q : ℕ}
    (U : Matrix (Fin m) (Fin (q + 2)) ℝ) (ax : Bool) (name : Option Str) :
    ∃ t, shadow2 P l (.vals true f) U ax name =
        ((if ax then [.cloud (l.map (coordOf (colU U 0))) (l.map (coordOf (colU U 1))) f] else []) ++ name.toList.map (fun n => .file n t), .ok ()) ∧
      Reads P t ["y1", "y2", "fX"] [l.map (coordOf (colU U 0)), l.map (coordOf (colU U 1)), f] := by
  have hY : ∀ j, (l.map (· ⬝ᵥ colU U j)) = l.map (coordOf (colU U j)) := fun j => rfl
  have ht : ∀ n : Str, ∃ t, tableFile P n [("y1".toList, l.map (coordOf (colU U 0))), ("y2".toList, l.map (coordOf (colU U 1))), ("fX".toList, f)] =
      ([.file n t], .ok ()) ∧ Reads P t ["y1", "y2", "fX"] [l.map (coordOf (colU U 0)), l.map (coordOf (colU U 1)), f] := fun n =>
    tableFile_three P hF n "y1" "y2" "fX" (by simp [Plain]) (by simp [Plain]) (by simp [Plain]) _ _ f (by simp) (by simp [hf])
  cases name with
  | none =>
    obtain ⟨t, -, h2⟩ := ht []
    refine ⟨t, ?_, h2⟩
    unfold shadow2
    cases ax with
    | false => simp [Run.done]
    | true =>
      rw [if_neg (by simp), colOf_zero, colOf_one]
      simp only [if_true, drawChecked, hf, hY]
      rfl
  | some n =>
    obtain ⟨t, h1, h2⟩ := ht n
    refine ⟨t, ?_, h2⟩
    unfold shadow2
    rw [if_neg (by simp), colOf_zero, colOf_one]
    simp only [optFile, hY, h1]
    cases ax with
    | false => rfl
    | true =>
      simp only [if_true, drawChecked, hf]
      rfl

/-! ### What a plot shows -/

/-- The directions that are used: those of the object, a vector, or the columns of a matrix. -/
inductive Directions (obj : PlotObj m p) : UArg → (q : ℕ) → Matrix (Fin m) (Fin q) ℝ → Prop
  | own : Directions obj .none p obj.U
  | vec (u : Pt m) : Directions obj (.vec m u) 1 (Matrix.of fun i _ => u i)
  | mat (q : ℕ) (U : Matrix (Fin m) (Fin q) ℝ) : Directions obj (.mat m q U) q U

theorem pickU_of {obj : PlotObj m p} {U : UArg} {q : ℕ} {W : Matrix (Fin m) (Fin q) ℝ} (h : Directions obj U q W) : pickU obj U = .ok ⟨q, W⟩ := by
  cases h with
  | own => rfl
  | vec u =>
    simp only [pickU, dif_pos]
    rfl
  | mat q U =>
    simp only [pickU, dif_pos]
    rfl

theorem shadowPlot_unfold {obj : PlotObj m p} (hlen : obj.hasLen = true) (P : Printer V) (b : Bool) (l : List (Pt m)) (fX : FArg) (dim : ℕ) {U : UArg} {q : ℕ}
    {W : Matrix (Fin m) (Fin q) ℝ} (h : Directions obj U q W) (ax : Bool) (name : Option Str) :
    shadowPlot P obj (.rows b m l) fX dim U ax name =
      if dim = 1 then shadow1 P l fX W ax name else if dim = 2 then shadow2 P l fX W ax name else .raise .notImplemented := by
  unfold shadowPlot
  rw [if_neg (by simp [hlen]), pickU_of h]
  simp [pickX]

/-- **C135** A one dimensional shadow plot draws, for every sample, the point with the active coordinate `uᵀx` and the value `f(x)`, in the order of the samples, and
nothing else; the file holds the same two columns. -/
theorem shadow_one (P : Printer V) (hF : P.F.Good) {obj : PlotObj m p} (hlen : obj.hasLen = true) (b b' : Bool) (l : List (Pt m)) (f : List ℝ)
    (hf : l.length = f.length) {U : UArg} {q : ℕ} {W : Matrix (Fin m) (Fin (q + 1)) ℝ} (h : Directions obj U (q + 1) W) (ax : Bool) (name : Option Str) :
    ∃ t, shadowPlot P obj (.rows b m l) (.vals b' f) 1 U ax name =
        ((if ax then [.dots (l.map (coordOf (colU W 0))) f] else []) ++ name.toList.map (fun n => .file n t), .ok ()) ∧
      Reads P t ["y", "fX"] [l.map (coordOf (colU W 0)), f] := by
  rw [shadowPlot_unfold hlen P b l _ 1 h, if_pos rfl]
  exact shadow1_eq P hF l b' f hf W ax name

/-- **C135** A two dimensional shadow plot shows the first two active coordinates and the values. -/
theorem shadow_two (P : Printer V) (hF : P.F.Good) {obj : PlotObj m p} (hlen : obj.hasLen = true) (b : Bool) (l : List (Pt m)) (f : List ℝ)
    (hf : l.length = f.length) {U : UArg} {q : ℕ} {W : Matrix (Fin m) (Fin (q + 2)) ℝ} (h : Directions obj U (q + 2) W) (ax : Bool) (name : Option Str) :
    ∃ t, shadowPlot P obj (.rows b m l) (.vals true f) 2 U ax name =
        ((if ax then [.cloud (l.map (coordOf (colU W 0))) (l.map (coordOf (colU W 1))) f] else []) ++ name.toList.map (fun n => .file n t), .ok ()) ∧
      Reads P t ["y1", "y2", "fX"] [l.map (coordOf (colU W 0)), l.map (coordOf (colU W 1)), f] := by
  rw [shadowPlot_unfold hlen P b l _ 2 h, if_neg (by decide), if_pos rfl]
  exact shadow2_eq P hF l f hf W ax name

/-- **C135** Refused: samples of the wrong dimension, directions of the wrong dimension, and plots in any dimension other than one and two; nothing is drawn or
written. -/
theorem shadow_refused (P : Printer V) {obj : PlotObj m p} (hlen : obj.hasLen = true) (fX : FArg) (dim : ℕ) (ax : Bool) (name : Option Str) :
    (∀ b w l U, w ≠ m → shadowPlot P obj (.rows b w l) fX dim U ax name = ([], .error .assertion)) ∧
    (∀ b l k q U, k ≠ m → shadowPlot P obj (.rows b m l) fX dim (.mat k q U) ax name = ([], .error .assertion)) ∧
    (∀ b l k u, k ≠ m → shadowPlot P obj (.rows b m l) fX dim (.vec k u) ax name = ([], .error .valueError)) ∧
    (∀ b l U q W, Directions obj U q W → dim ≠ 1 → dim ≠ 2 → shadowPlot P obj (.rows b m l) fX dim U ax name = ([], .error .notImplemented)) := by
  refine ⟨fun b w l U hw => ?_, fun b l k q U hk => ?_, fun b l k u hk => ?_, fun b l U q W h h1 h2 => ?_⟩
  · unfold shadowPlot
    simp [hlen, pickX, hw, Run.raise]
  · unfold shadowPlot
    simp [hlen, pickX, pickU, hk, Run.raise]
  · unfold shadowPlot
    simp [hlen, pickX, pickU, hk, Run.raise]
  · rw [shadowPlot_unfold hlen P b l fX dim h, if_neg h1, if_neg h2]
    rfl

/-- **C135** The samples of a ridge function lie on the graph of its profile. -/
theorem shadow_graph (P : Printer V) (hF : P.F.Good) {obj : PlotObj m p} (hlen : obj.hasLen = true) (b b' : Bool) (l : List (Pt m)) (g : ℝ → ℝ) (u : Pt m)
    (name : Option Str) : ∃ r x y, shadowPlot P obj (.rows b m l) (.vals b' (l.map fun x => g (coordOf u x))) 1 (.vec m u) true name = (.dots x y :: r, .ok ()) ∧
      y = x.map g ∧ x.length = l.length := by
  obtain ⟨t, h1, -⟩ := shadow_one P hF hlen b b' l (l.map fun x => g (coordOf u x)) (by simp) (Directions.vec u) true name
  refine ⟨_, _, _, h1, ?_, by simp⟩
  rw [List.map_map]
  rfl

/-! ### Where the claim fails -/

/-- **C135** fails: without an axis the numbers of samples and values are not compared; the values beyond the number of samples are left out of the file. -/
theorem shadow_truncated_false (P : Printer V) (hF : P.F.Good) {obj : PlotObj m p} (hlen : obj.hasLen = true) (b b' : Bool) (l : List (Pt m)) (f : List ℝ)
    (hf : l.length < f.length) (u : Pt m) (n : Str) :
    ∃ t, shadowPlot P obj (.rows b m l) (.vals b' f) 1 (.vec m u) false (some n) = ([.file n t], .ok ()) ∧
      Reads P t ["y", "fX"] [l.map (coordOf u), f.take l.length] := by
  rw [shadowPlot_unfold hlen P b l _ 1 (Directions.vec u), if_pos rfl]
  obtain ⟨t, h1, h2⟩ := tableFile_two P hF n "y" "fX" (by simp [Plain]) (by simp [Plain]) (l.map (coordOf u)) f (by simp; omega)
  refine ⟨t, ?_, by simpa using h2⟩
  unfold shadow1
  rw [if_neg (by simp), show colOf (Matrix.of fun i _ => u i : Matrix (Fin m) (Fin 1) ℝ) 0 = .ok u from colOf_zero (q := 0) _]
  simp only [Bool.false_eq_true, if_false, optFile]
  change Run.seq ([], .ok ()) (tableFile P n [("y".toList, l.map (coordOf u)), ("fX".toList, f)]) = _
  rw [h1]
  rfl

/-- **C135** fails: `X` defaults to the samples of the object, `fX` to nothing; the call without data raises on an axis although the object knows its samples. -/
theorem shadow_default_false (P : Printer V) {obj : PlotObj m (p + 1)} (hlen : obj.hasLen = true) (name : Option Str) :
    shadowPlot P obj .none .none 1 .none true name = ([], .error .valueError) ∧ shadowPlot P obj .none .none 2 .none true name = ([], .error (if p = 0 then .indexError else .attributeError)) := by
  constructor
  · simp [shadowPlot, hlen, pickX, pickU, shadow1, colOf_zero, Run.raise]
  · cases p with
    | zero => simp [shadowPlot, hlen, pickX, pickU, shadow2, colOf, Run.raise]
    | succ p => simp [shadowPlot, hlen, pickX, pickU, shadow2, colOf_zero, colOf_one, Run.raise]

/-- **C135** fails for objects without a dimension (`PolynomialRidgeFunction`): every call raises `AttributeError`. -/
theorem shadow_nolen_false (P : Printer V) {obj : PlotObj m p} (hlen : obj.hasLen = false) (X : XArg) (fX : FArg) (dim : ℕ) (U : UArg) (ax : Bool) (name : Option Str) :
    shadowPlot P obj X fX dim U ax name = ([], .error .attributeError) := by
  unfold shadowPlot
  rw [if_pos hlen]
  rfl

/-! ### The response of ridge functions -/

/-- **C135** The response is written next to the samples: `_response` is inserted before the extension. -/
theorem respName_ext (stem ext : Str) (h : '.' ∉ ext) : respName (stem ++ '.' :: ext) = stem ++ "_response".toList ++ '.' :: ext := by
  have hk : (stem ++ '.' :: ext).length - 1 - (stem ++ '.' :: ext).reverse.idxOf '.' = stem.length := by
    have : (stem ++ '.' :: ext).reverse.idxOf '.' = ext.length := by
      rw [List.reverse_append, List.reverse_cons, List.append_assoc, List.idxOf_append_of_notMem (by simpa using h)]
      simp
    rw [this]
    simp
  unfold respName
  simp only [List.mem_append, List.mem_cons, true_or, or_true, if_true, hk]
  simp

/-- **C135** fails for names without an extension: the last letter is moved to the end. -/
theorem respName_plain_false (s : Str) (c : Char) (h : '.' ∉ s) (hc : c ≠ '.') : respName (s ++ [c]) = s ++ "_response".toList ++ [c] := by
  unfold respName
  rw [if_neg (by simp [h, hc.symm])]
  simp

/-- **C135** fails for names without an extension below a directory with a dot: the response goes into another directory. -/
theorem respName_dir_false (d1 d2 file : Str) (h2 : '.' ∉ d2) (hf : '.' ∉ file) :
    respName (d1 ++ '.' :: (d2 ++ '/' :: file)) = d1 ++ "_response".toList ++ '.' :: (d2 ++ '/' :: file) :=
  respName_ext d1 _ (by simp [h2, hf])

variable {N : ℕ}

/-- A ridge approximation as the plots see it: it has a dimension and, whatever it was fitted to, no samples of its own. -/
def ridgeObj {n : ℕ} (R : Ridge m n N) : PlotObj m n := ⟨true, [], R.U⟩

/-- The grid of the curve: `500` points from the smallest to the largest active coordinate of the samples. -/
theorem linspace_span {Y : List ℝ} (hY : Y ≠ []) : ∃ lo ∈ Y, ∃ hi ∈ Y, minL Y = lo ∧ maxL Y = hi ∧ (∀ y ∈ Y, lo ≤ y ∧ y ≤ hi) ∧
    (linspace lo hi 500)[0]? = some lo ∧ (linspace lo hi 500)[499]? = some hi ∧ (linspace lo hi 500).length = 500 := by
  refine ⟨_, (minL_spec hY).1, _, (maxL_spec hY).1, rfl, rfl, fun y hy => ⟨(minL_spec hY).2 y hy, (maxL_spec hY).2 y hy⟩, ?_, ?_, linspace_length _ _ _⟩
  · rw [linspace_get _ _ _ _ (by omega)]
    simp
  · rw [linspace_get _ _ _ _ (by omega)]
    congr 1
    norm_num
    ring

theorem ridge_eval_line (R : Ridge m 1 N) (t : ℝ) : R.eval (t • colU R.U 0) = R.profile (fun _ => t * ∑ i, R.U i 0 ^ 2) := by
  unfold Ridge.eval Ridge.profile polyEval
  congr 2
  funext j
  rw [Subsingleton.elim j 0]
  simp only [projY, mulVec, dotProduct, transpose_apply, Pi.smul_apply, smul_eq_mul, colU, Finset.mul_sum]
  exact Finset.sum_congr rfl fun i _ => by ring

/-- **C135** The plot of a one dimensional ridge approximation: the samples, then the response along the line through the direction, over exactly the range of the
active coordinates of the samples; both are written to files. -/
theorem ridge_plot_one (P : Printer V) (hF : P.F.Good) (R : Ridge m 1 N) (b : Bool) (l : List (Pt m)) (hl : l ≠ []) (f : List ℝ) (hf : l.length = f.length)
    (ax : Bool) (name : Option Str) : ∃ xx yy t t', ridgePlot P (ridgeObj R) R.eval (.rows true m l) (.vals b f) none ax name =
        (((if ax then [.dots (l.map (coordOf (colU R.U 0))) f] else []) ++ name.toList.map (fun n => .file n t)) ++
          ((if ax then [.curve xx yy] else []) ++ name.toList.map (fun n => .file (respName n) t')), .ok ()) ∧
      Reads P t ["y", "fX"] [l.map (coordOf (colU R.U 0)), f] ∧ Reads P t' ["x", "fx"] [xx, yy] ∧
      (∃ lo ∈ l.map (coordOf (colU R.U 0)), ∃ hi ∈ l.map (coordOf (colU R.U 0)), (∀ y ∈ l.map (coordOf (colU R.U 0)), lo ≤ y ∧ y ≤ hi) ∧
        xx[0]? = some lo ∧ xx[499]? = some hi ∧ xx.length = 500 ∧ xx = linspace lo hi 500) ∧
      yy = xx.map fun t => R.profile fun _ => t * ∑ i, R.U i 0 ^ 2 := by
  obtain ⟨t, h1, h2⟩ := shadow_one P hF (obj := ridgeObj R) rfl true b l f hf (q := 0) (Directions.own) ax name
  obtain ⟨lo, hlo, hi, hhi, e1, e2, hb, g1, g2, g3⟩ := linspace_span (Y := l.map (coordOf (colU R.U 0))) (by simpa using hl)
  have hW : (ridgeObj R).U = R.U := rfl
  rw [hW] at h1 h2
  set xx := linspace lo hi 500 with hxx
  have htab : ∀ n : Str, ∃ t', tableFile P n [("x".toList, xx), ("fx".toList, xx.map fun t => R.eval (t • colU R.U 0))] = ([.file n t'], .ok ()) ∧
      Reads P t' ["x", "fx"] [xx, xx.map fun t => R.eval (t • colU R.U 0)] := by
    intro n
    have := tableFile_two P hF n "x" "fx" (by simp [Plain]) (by simp [Plain]) xx (xx.map fun t => R.eval (t • colU R.U 0)) (by simp)
    rwa [List.take_of_length_le (by simp)] at this
  have hresp : ∃ t', response P (ridgeObj R) R.eval (.rows true m l) ax name =
      ((if ax then [.curve xx (xx.map fun t => R.eval (t • colU R.U 0))] else []) ++ name.toList.map (fun n => .file (respName n) t'), .ok ()) ∧
      Reads P t' ["x", "fx"] [xx, xx.map fun t => R.eval (t • colU R.U 0)] := by
    have hun : response P (ridgeObj R) R.eval (.rows true m l) ax name = response1 P R.eval l (colU R.U 0) ax name := by
      have c0 : colOf (ridgeObj R).U 0 = .ok (colU R.U 0) := colOf_zero (q := 0) R.U
      have c1 : colOf (ridgeObj R).U 1 = .error .indexError := by simp [colOf]
      simp [response, pickX, c0, c1]
    rw [hun]
    have hne : ¬ l.length = 0 := by simpa using hl
    have hY : (l.map (· ⬝ᵥ colU R.U 0)) = l.map (coordOf (colU R.U 0)) := rfl
    unfold response1
    rw [if_neg hne]
    simp only [hY, e1, e2, ← hxx]
    cases name with
    | none =>
      obtain ⟨t', -, r⟩ := htab []
      refine ⟨t', ?_, r⟩
      cases ax <;> rfl
    | some n =>
      obtain ⟨t', r1, r⟩ := htab (respName n)
      refine ⟨t', ?_, r⟩
      simp only [Option.map_some, optFile, r1]
      cases ax <;> rfl
  obtain ⟨t', h3, h4⟩ := hresp
  have hyy : (xx.map fun t => R.eval (t • colU R.U 0)) = xx.map fun t => R.profile fun _ => t * ∑ i, R.U i 0 ^ 2 :=
    List.map_congr_left fun t _ => ridge_eval_line R t
  refine ⟨xx, _, t, t', ?_, h2, h4, ⟨lo, hlo, hi, hhi, hb, g1, g2, g3, rfl⟩, hyy⟩
  unfold ridgePlot
  rw [if_neg (by simp), h1, h3]
  rfl

/-- **C135** With a direction of length one the curve is the graph of the profile: at every grid point `t` it shows the value the approximation takes at every `x` with
`uᵀx = t`. -/
theorem ridge_plot_profile (P : Printer V) (hF : P.F.Good) (R : Ridge m 1 N) (hU : ∑ i, R.U i 0 ^ 2 = 1) (b : Bool) (l : List (Pt m)) (hl : l ≠ []) (f : List ℝ)
    (hf : l.length = f.length) (name : Option Str) : ∃ r r' xx yy, ridgePlot P (ridgeObj R) R.eval (.rows true m l) (.vals b f) none true name =
        (r ++ .curve xx yy :: r', .ok ()) ∧ xx.length = 500 ∧ yy.length = 500 ∧
      ∀ (k : ℕ) (t y : ℝ), xx[k]? = some t → yy[k]? = some y → ∀ x : Pt m, coordOf (colU R.U 0) x = t → R.eval x = y := by
  obtain ⟨xx, yy, t, t', h1, -, -, ⟨lo, -, hi, -, -, -, -, hlen, -⟩, hyy⟩ := ridge_plot_one P hF R b l hl f hf true name
  refine ⟨_, _, xx, yy, h1, hlen, by rw [hyy]; simpa using hlen, ?_⟩
  intro k s y hs hy x hx
  rw [hyy, List.getElem?_map, hs] at hy
  simp only [Option.map_some, Option.some.injEq, hU, mul_one] at hy
  rw [← hy, ← hx]
  unfold Ridge.eval Ridge.profile polyEval
  congr 2
  funext j
  rw [Subsingleton.elim j 0]
  simp only [projY, mulVec, dotProduct, transpose_apply, coordOf, colU]
  exact Finset.sum_congr rfl fun i _ => mul_comm _ _

/-- The linear ridge function `uᵀx`. -/
def linRidge (u : Pt m) : Ridge m 1 1 := ⟨⟨fun y => ![y 0], fun _ _ => 0, fun _ _ => 0⟩, ![1], Matrix.of fun i _ => u i⟩

/-- **C135** fails for a direction of another length (`fit_fixed_subspace` keeps the one it is given): the curve shows the profile stretched. -/
theorem ridge_plot_scaled_false : ∃ (R : Ridge 1 1 1) (x : Pt 1), (∀ (V : Type) (P : Printer V), P.F.Good → ∀ f : ℝ, ∃ r r' xx yy,
    ridgePlot P (ridgeObj R) R.eval (.rows true 1 [x]) (.vals true [f]) none true none = (r ++ .curve xx yy :: r', .ok ()) ∧
      xx[0]? = some (coordOf (colU R.U 0) x) ∧ yy[0]? = some (4 * R.eval x)) ∧ R.eval x ≠ 0 := by
  refine ⟨linRidge ![2], ![1], ?_, ?_⟩
  · intro V P hF f
    obtain ⟨xx, yy, t, t', h1, -, -, ⟨lo, hlo, hi, -, -, h0, -, -, -⟩, hyy⟩ :=
      ridge_plot_one P hF (linRidge ![2]) true [![1]] (by simp) [f] rfl true none
    refine ⟨_, _, xx, yy, h1, ?_, ?_⟩
    · simp only [List.map_cons, List.map_nil, List.mem_singleton] at hlo
      rw [h0, hlo]
    · simp only [List.map_cons, List.map_nil, List.mem_singleton] at hlo
      rw [hyy, List.getElem?_map, h0, hlo]
      simp [coordOf, colU, Ridge.profile, Ridge.eval, polyEval, projY, linRidge, mulVec, dotProduct]
      norm_num
  · simp [Ridge.eval, projY, linRidge, mulVec, dotProduct]

/-- **C135** fails for two dimensional ridge approximations without an axis: the plot raises after the samples have been written. -/
theorem ridge_noaxis_false (P : Printer V) (hF : P.F.Good) (R : Ridge m 2 N) (l : List (Pt m)) (hl : l ≠ []) (f : List ℝ) (hf : l.length = f.length) (n : Str) :
    ∃ t, ridgePlot P (ridgeObj R) R.eval (.rows true m l) (.vals true f) none false (some n) = ([.file n t], .error .attributeError) := by
  obtain ⟨t, h1, -⟩ := shadow_two P hF (obj := ridgeObj R) rfl true l f hf (q := 0) (Directions.own) false (some n)
  refine ⟨t, ?_⟩
  have c0 : colOf (ridgeObj R).U 0 = .ok (colU R.U 0) := colOf_zero (q := 1) R.U
  have c1 : colOf (ridgeObj R).U 1 = .ok (colU R.U 1) := colOf_one (q := 0) R.U
  have hne : ¬ l.length = 0 := by simpa using hl
  have h3 : response P (ridgeObj R) R.eval (.rows true m l) false (some n) = ([], .error .attributeError) := by
    simp only [response, pickX, c0, c1, dif_pos, if_true, response2, if_neg hne]
    rfl
  unfold ridgePlot
  rw [if_neg (by simp), h1, h3]
  rfl

/-- **C135** fails for ridge approximations without samples or with a list of samples: `AttributeError` after the samples have been drawn and written. -/
theorem ridge_list_false (P : Printer V) (hF : P.F.Good) (R : Ridge m 1 N) (b : Bool) (l : List (Pt m)) (f : List ℝ) (hf : l.length = f.length) (n : Str) :
    ∃ t, ridgePlot P (ridgeObj R) R.eval (.rows false m l) (.vals b f) none true (some n) =
      ([.dots (l.map (coordOf (colU R.U 0))) f, .file n t], .error .attributeError) := by
  obtain ⟨t, h1, -⟩ := shadow_one P hF (obj := ridgeObj R) rfl false b l f hf (q := 0) (Directions.own) true (some n)
  refine ⟨t, ?_⟩
  unfold ridgePlot
  rw [if_neg (by simp), h1]
  rfl

/-- **C135** A dimension other than that of the ridge function is refused. -/
theorem ridge_dim_error (P : Printer V) (obj : PlotObj m p) (ev : Pt m → ℝ) (X : XArg) (fX : FArg) (d : ℕ) (hd : d ≠ p) (ax : Bool) (name : Option Str) :
    ridgePlot P obj ev X fX (some d) ax name = ([], .error .assertion) := by
  unfold ridgePlot
  rw [if_pos (by simpa using hd)]
  rfl

/-- **C135** A ridge function with three or more directions is not drawn: the plot is refused before anything is drawn, and so is the response on its own. -/
theorem ridge_wide_refused (P : Printer V) {obj : PlotObj m p} (hlen : obj.hasLen = true) (hp : 3 ≤ p) (ev : Pt m → ℝ) (b : Bool) (l : List (Pt m)) (fX : FArg) (ax : Bool)
    (name : Option Str) :
    ridgePlot P obj ev (.rows b m l) fX none ax name = ([], .error .notImplemented) ∧ response P obj ev (.rows true m l) ax name = ([], .error .notImplemented) := by
  constructor
  · unfold ridgePlot
    rw [if_neg (by simp), (shadow_refused P hlen fX p ax name).2.2.2 b l .none p obj.U .own (by omega) (by omega)]
    rfl
  · have c0 : colOf obj.U 0 = .ok fun i => obj.U i ⟨0, by omega⟩ := by simp [colOf, show 0 < p by omega]
    have c1 : colOf obj.U 1 = .ok fun i => obj.U i ⟨1, by omega⟩ := by simp [colOf, show 1 < p by omega]
    simp [response, pickX, c0, c1, show p ≠ 2 by omega, Run.raise]

/-- **C135** The contours of a two dimensional ridge approximation with orthonormal directions show its profile over the rectangle spanned by the active coordinates
of the samples. -/
theorem ridge_plot_two (P : Printer V) (hF : P.F.Good) (R : Ridge m 2 N) (hU : R.Uᵀ * R.U = 1) (l : List (Pt m)) (hl : l ≠ []) (f : List ℝ) (hf : l.length = f.length)
    (name : Option Str) : ∃ r xx0 xx1 z, ridgePlot P (ridgeObj R) R.eval (.rows true m l) (.vals true f) none true name = (r ++ [.contour xx0 xx1 z], .ok ()) ∧
      z = (xx1.flatMap fun t1 => xx0.map fun t0 => R.profile ![t0, t1]) ∧
      xx0 = linspace (minL (l.map (coordOf (colU R.U 0)))) (maxL (l.map (coordOf (colU R.U 0)))) 50 ∧
      xx1 = linspace (minL (l.map (coordOf (colU R.U 1)))) (maxL (l.map (coordOf (colU R.U 1)))) 50 := by
  obtain ⟨t, h1, -⟩ := shadow_two P hF (obj := ridgeObj R) rfl true l f hf (q := 0) (Directions.own) true name
  have c0 : colOf (ridgeObj R).U 0 = .ok (colU R.U 0) := colOf_zero (q := 1) R.U
  have c1 : colOf (ridgeObj R).U 1 = .ok (colU R.U 1) := colOf_one (q := 0) R.U
  have hne : ¬ l.length = 0 := by simpa using hl
  have hev : ∀ t0 t1 : ℝ, R.eval (t0 • colU R.U 0 + t1 • colU R.U 1) = R.profile ![t0, t1] := by
    intro t0 t1
    unfold Ridge.eval Ridge.profile polyEval
    congr 2
    have hx : t0 • colU R.U 0 + t1 • colU R.U 1 = R.U *ᵥ ![t0, t1] := by
      funext i
      simp [mulVec, dotProduct, Fin.sum_univ_two, colU, mul_comm]
    rw [hx]
    unfold projY
    rw [mulVec_mulVec, hU, one_mulVec]
  refine ⟨(if true then [.cloud (l.map (coordOf (colU R.U 0))) (l.map (coordOf (colU R.U 1))) f] else []) ++ name.toList.map (fun n => .file n t), linspace (minL (l.map (· ⬝ᵥ colU R.U 0))) (maxL (l.map (· ⬝ᵥ colU R.U 0))) 50,
    linspace (minL (l.map (· ⬝ᵥ colU R.U 1))) (maxL (l.map (· ⬝ᵥ colU R.U 1))) 50, _, ?_, rfl, rfl, rfl⟩
  unfold ridgePlot
  rw [if_neg (by simp), h1]
  have h3 : response P (ridgeObj R) R.eval (.rows true m l) true name = ([.contour (linspace (minL (l.map (· ⬝ᵥ colU R.U 0))) (maxL (l.map (· ⬝ᵥ colU R.U 0))) 50)
      (linspace (minL (l.map (· ⬝ᵥ colU R.U 1))) (maxL (l.map (· ⬝ᵥ colU R.U 1))) 50) ((linspace (minL (l.map (· ⬝ᵥ colU R.U 1))) (maxL (l.map (· ⬝ᵥ colU R.U 1))) 50).flatMap
        fun t1 => (linspace (minL (l.map (· ⬝ᵥ colU R.U 0))) (maxL (l.map (· ⬝ᵥ colU R.U 0))) 50).map fun t0 => R.profile ![t0, t1])], .ok ()) := by
    simp only [response, pickX, c0, c1, dif_pos, if_true, response2, if_neg hne, hev]
  rw [h3]
  rfl

/-- Conversions meeting the hypotheses: numbers rounded down to natural numbers in unary notation. -/
noncomputable def unaryPrinter : Printer ℕ := ⟨fun x => ⌊x⌋₊, ⟨fun n => List.replicate n 'i', fun s => .ok s.length⟩⟩

theorem unaryPrinter_good : unaryPrinter.F.Good :=
  ⟨fun v => ⟨fun h => by simpa using List.eq_of_mem_replicate h, fun h => by simpa using List.eq_of_mem_replicate h⟩, fun v => by simp [unaryPrinter]⟩

/-- A concrete plot: two samples in the plane, values of a linear ridge function. -/
example : ∃ r r' xx yy, ridgePlot unaryPrinter (ridgeObj (linRidge ![1, 0]))
    (Ridge.eval (linRidge ![1, 0])) (.rows true 2 [![0, 3], ![1, 5]]) (.vals true [0, 1]) none true (some "a.dat".toList) =
      (r ++ .curve xx yy :: r', .ok ()) ∧ xx.length = 500 := by
  obtain ⟨r, r', xx, yy, h, h1, -⟩ := ridge_plot_profile unaryPrinter unaryPrinter_good
    (linRidge ![1, 0]) (by simp [linRidge]) true [![0, 3], ![1, 5]] (by simp) [0, 1] rfl (some "a.dat".toList)
  exact ⟨r, r', xx, yy, h, h1⟩

end Verif.Misc
