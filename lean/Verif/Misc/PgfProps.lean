import Verif.Misc.PgfModel

/-!
# Property C62: tables written by `PGF.write` are read back by `PGF.read`
-/

namespace Verif.Misc

open Verif.Domain

variable {V : Type}

/-- Text that can be a cell: no tab and no line end. -/
def Plain (s : Str) : Prop := '\t' ∉ s ∧ '\n' ∉ s

/-- What is assumed of the float conversions: the text of a float is a cell, and reading it gives the float back. -/
structure Fmt.Good (F : Fmt V) : Prop where
  plain : ∀ v, Plain (F.fmt v)
  round : ∀ v, F.prs (F.fmt v) = .ok v

/-- All columns have the same length. -/
def Pgf.Rect (p : Pgf V) (n : ℕ) : Prop := ∀ c ∈ p.cols, c.length = n

/-- Cells, each followed by a tab. -/
def cellsText : List Str → Str
  | [] => []
  | c :: r => c ++ '\t' :: cellsText r

theorem header_eq (ns : List Str) : header ns = cellsText ns ++ ['\n'] := by
  induction ns with
  | nil => rfl
  | cons n r ih => simp [header, cellsText, ih]

theorem splitTab_ne_nil (s : Str) : splitTab s ≠ [] := by
  cases s with
  | nil => simp [splitTab]
  | cons c r =>
    unfold splitTab
    split
    · simp
    · split <;> simp

theorem splitTab_plain {s : Str} (h : '\t' ∉ s) : splitTab s = [s] := by
  induction s with
  | nil => rfl
  | cons c r ih =>
    unfold splitTab
    rw [if_neg (fun e => h (by simp [e])), ih (fun e => h (by simp [e]))]

theorem splitTab_append {s : Str} (h : '\t' ∉ s) (t : Str) : splitTab (s ++ '\t' :: t) = s :: splitTab t := by
  induction s with
  | nil => simp [splitTab]
  | cons c r ih =>
    rw [List.cons_append, splitTab, if_neg (fun e => h (by simp [e])), ih (fun e => h (by simp [e]))]

/-- The text between the first cell and the closing tab. -/
theorem splitTab_cells (c : Str) (r : List Str) (h : ∀ s ∈ c :: r, '\t' ∉ s) :
    ∃ t, cellsText (c :: r) = t ++ ['\t'] ∧ splitTab t = c :: r := by
  induction r generalizing c with
  | nil => exact ⟨c, by simp [cellsText], splitTab_plain (h c (by simp))⟩
  | cons d r ih =>
    obtain ⟨t, h1, h2⟩ := ih d (fun s hs => h s (by simp at hs ⊢; tauto))
    refine ⟨c ++ '\t' :: t, ?_, ?_⟩
    · show c ++ '\t' :: cellsText (d :: r) = _
      rw [h1]
      simp
    · rw [splitTab_append (h c (by simp)), h2]

theorem replaceTN_end {t : Str} (h : '\n' ∉ t) : replaceTN (t ++ ['\t', '\n']) = t := by
  induction t with
  | nil => simp [replaceTN]
  | cons c r ih =>
    have hr : '\n' ∉ r := fun e => h (by simp [e])
    cases r with
    | nil => simp [replaceTN]
    | cons d r' =>
      have hd : d ≠ '\n' := fun e => h (by simp [e])
      rw [List.cons_append, List.cons_append, replaceTN, if_neg (fun e => hd e.2), ← List.cons_append, ih hr]

theorem replaceN_plain {t : Str} (h : '\n' ∉ t) : replaceN t = t := by
  unfold replaceN
  rw [List.filter_eq_self]
  intro a ha
  simp only [decide_eq_true_eq]
  exact fun e => h (e ▸ ha)

theorem cellsText_newline (cs : List Str) (h : ∀ s ∈ cs, Plain s) : '\n' ∉ cellsText cs := by
  induction cs with
  | nil => simp [cellsText]
  | cons c r ih =>
    simp only [cellsText, List.mem_append, List.mem_cons, not_or]
    exact ⟨(h c (by simp)).2, by decide, ih fun s hs => h s (by simp [hs])⟩

/-- A non-empty line of plain cells is split into these cells. -/
theorem cells_line (cs : List Str) (hne : cs ≠ []) (h : ∀ s ∈ cs, Plain s) : cells (cellsText cs ++ ['\n']) = cs := by
  cases cs with
  | nil => exact absurd rfl hne
  | cons c r =>
    obtain ⟨t, h1, h2⟩ := splitTab_cells c r fun s hs => (h s hs).1
    have hn := cellsText_newline _ h
    rw [h1] at hn ⊢
    have ht : '\n' ∉ t := fun e => hn (by simp [e])
    unfold cells
    rw [List.append_assoc]
    show splitTab (replaceN (replaceTN (t ++ ['\t', '\n']))) = _
    rw [replaceTN_end ht, replaceN_plain ht, h2]

theorem pyLines_line {t : Str} (h : '\n' ∉ t) (rest : Str) : pyLines (t ++ '\n' :: rest) = (t ++ ['\n']) :: pyLines rest := by
  induction t with
  | nil => simp [pyLines]
  | cons c r ih =>
    rw [List.cons_append, pyLines, if_neg (fun e => h (by simp [e])), ih (fun e => h (by simp [e]))]
    rfl

/-- The text of row `j`. -/
theorem rowText_ok (F : Fmt V) (j : ℕ) (cols : List (List V)) (h : ∀ c ∈ cols, j < c.length) :
    ∃ vs : List V, cols.map (fun c => c[j]?) = vs.map some ∧ rowText F j cols = .ok (cellsText (vs.map F.fmt) ++ ['\n']) := by
  induction cols with
  | nil => exact ⟨[], rfl, rfl⟩
  | cons c r ih =>
    obtain ⟨vs, h1, h2⟩ := ih fun c hc => h c (by simp [hc])
    have hj := h c (by simp)
    refine ⟨c[j] :: vs, by simp [h1, hj], ?_⟩
    rw [rowText, List.getElem?_eq_getElem hj, h2]
    simp [Except.map, cellsText]

theorem appendRow_ok (F : Fmt V) (hF : F.Good) (cols : List (List V)) (vs : List V) (hl : cols.length = vs.length) :
    appendRow F cols (vs.map F.fmt) = .ok (List.zipWith (fun c v => c ++ [v]) cols vs) := by
  induction cols generalizing vs with
  | nil => cases vs with
    | nil => rfl
    | cons v r => simp at hl
  | cons c cs ih =>
    cases vs with
    | nil => simp at hl
    | cons v r =>
      simp only [List.map_cons, appendRow, hF.round, ih r (by simpa using hl), Except.map, List.zipWith_cons_cons]

theorem zip_take (cols : List (List V)) (vs : List V) (j : ℕ) (h : cols.map (fun c => c[j]?) = vs.map some) :
    List.zipWith (fun c v => c ++ [v]) (cols.map (·.take j)) vs = cols.map (·.take (j + 1)) := by
  induction cols generalizing vs with
  | nil => simp
  | cons c r ih =>
    cases vs with
    | nil => simp at h
    | cons v t =>
      simp only [List.map_cons, List.cons.injEq] at h
      simp only [List.map_cons, List.zipWith_cons_cons, ih t h.2, List.cons.injEq, and_true]
      rw [List.take_add_one, h.1]
      rfl

theorem rows_round (F : Fmt V) (hF : F.Good) (cols : List (List V)) (hne : cols ≠ []) (k j : ℕ) (h : ∀ c ∈ cols, j + k ≤ c.length) :
    ∃ t, rowsText F cols k j = .ok t ∧
      appendRows F (cols.map (·.take j)) (pyLines t) = .ok (cols.map (·.take (j + k))) := by
  induction k generalizing j with
  | zero => exact ⟨[], rfl, rfl⟩
  | succ k ih =>
    obtain ⟨vs, h1, h2⟩ := rowText_ok F j cols fun c hc => by have := h c hc; omega
    obtain ⟨t, h3, h4⟩ := ih (j + 1) fun c hc => by have := h c hc; omega
    have hp : ∀ s ∈ vs.map F.fmt, Plain s := by
      intro s hs
      obtain ⟨v, -, rfl⟩ := List.mem_map.1 hs
      exact hF.plain v
    have hlen : cols.length = vs.length := by simpa using congrArg List.length h1
    have hne' : vs.map F.fmt ≠ [] := by
      intro e
      apply hne
      have : vs = [] := by simpa using e
      rw [this] at hlen
      simpa using hlen
    refine ⟨cellsText (vs.map F.fmt) ++ ['\n'] ++ t, by simp only [rowsText, h2, h3, Except.map], ?_⟩
    rw [List.append_assoc]
    show appendRows F _ (pyLines (cellsText (vs.map F.fmt) ++ '\n' :: t)) = _
    rw [pyLines_line (cellsText_newline _ hp), appendRows, cells_line _ hne' hp,
      appendRow_ok F hF _ _ (by simpa using hlen), zip_take _ _ _ h1]
    simp only
    rw [h4]
    congr 3
    funext c
    congr 1
    omega

/-- **C62**: a table with at least one column, equally many names as columns, columns of equal length and plain names is
written without error, and reading the file, into any object, gives the same names and the same columns in the same order. -/
theorem pgf_roundtrip (F : Fmt V) (hF : F.Good) (p p' : Pgf V) (n : ℕ) (hne : p.cols ≠ []) (hl : p.names.length = p.cols.length)
    (hn : ∀ s ∈ p.names, Plain s) (hr : p.Rect n) : ∃ t, p.write F = .ok t ∧ p'.read F t = .ok p := by
  obtain ⟨names, cols⟩ := p
  cases cols with
  | nil => exact absurd rfl hne
  | cons c cs =>
    simp only at hl hn hne
    have hc : c.length = n := hr c (by simp)
    obtain ⟨t, h1, h2⟩ := rows_round F hF (c :: cs) hne n 0 fun d hd => by rw [hr d hd]; omega
    refine ⟨header names ++ t, by simp only [Pgf.write, hc, h1, Except.map], ?_⟩
    have hnn : names ≠ [] := by
      intro e
      rw [e] at hl
      simp at hl
    unfold Pgf.read
    rw [header_eq, List.append_assoc]
    show (match pyLines (cellsText names ++ '\n' :: t) with | [] => _ | l :: ls => _) = _
    rw [pyLines_line (cellsText_newline _ hn)]
    simp only
    rw [cells_line _ hnn hn]
    have e0 : (names.map fun _ => ([] : List V)) = (c :: cs).map (·.take 0) := by
      simp only [List.take_zero, List.map_const', hl]
    rw [e0, h2]
    simp only [Except.map, Nat.zero_add, Except.ok.injEq, Pgf.mk.injEq, true_and]
    conv_rhs => rw [← List.map_id (c :: cs)]
    apply List.map_congr_left
    intro d hd
    rw [id, List.take_of_length_le (by rw [hr d hd])]

/-- The lengths of names and columns agree for every table built with `add`. -/
theorem pgf_add_lengths (p p' : Pgf V) (s : Str) (c : List V) (h : p.names.length = p.cols.length) (ha : p.add s c = .ok p') :
    p'.names.length = p'.cols.length := by
  unfold Pgf.add at ha
  split at ha
  · cases ha
  · cases ha; simp [h]

/-- **C62**, ragged columns, from the third column on: `add` succeeds exactly if the column has the length of the first. -/
theorem pgf_add_ok_iff_partial (p : Pgf V) (s : Str) (c : List V) (h : 2 ≤ p.cols.length) :
    (∃ p', p.add s c = .ok p') ↔ c.length = (p.cols.headD []).length := by
  unfold Pgf.add
  by_cases e : (p.cols.headD []).length = c.length
  · rw [if_neg (fun h => h.2 e)]
    exact ⟨fun _ => e.symm, fun _ => ⟨_, rfl⟩⟩
  · rw [if_pos ⟨by omega, e⟩]
    exact ⟨fun h => (by obtain ⟨_, h⟩ := h; cases h), fun h => absurd h.symm e⟩

/-- **C62 is false for the second column**: its length is not compared. A longer second column is accepted and its additional
entries are silently lost: the file reads back as a different table. -/
theorem pgf_ragged_false (F : Fmt V) (hF : F.Good) (v : V) :
    ∃ p1 p2 q : Pgf V, ∃ t, Pgf.empty.add ['a'] [v] = .ok p1 ∧ p1.add ['b'] [v, v] = .ok p2 ∧ p2.write F = .ok t ∧
      Pgf.empty.read F t = .ok q ∧ p2.cols = [[v], [v, v]] ∧ q.cols = [[v], [v]] := by
  refine ⟨⟨[['a']], [[v]]⟩, ⟨[['a'], ['b']], [[v], [v, v]]⟩, ⟨[['a'], ['b']], [[v], [v]]⟩,
    header [['a'], ['b']] ++ (cellsText ([v, v].map F.fmt) ++ ['\n']), rfl, rfl, ?_, ?_, rfl, rfl⟩
  · simp [Pgf.write, rowsText, rowText, Except.map, cellsText]
  · obtain ⟨t, h1, h2⟩ := pgf_roundtrip F hF ⟨[['a'], ['b']], [[v], [v]]⟩ Pgf.empty 1 (by simp) rfl
      (by simp [Plain]) (by intro c; simp; rintro rfl; rfl)
    have : t = header [['a'], ['b']] ++ (cellsText ([v, v].map F.fmt) ++ ['\n']) := by
      simp [Pgf.write, rowsText, rowText, Except.map, cellsText] at h1
      rw [← h1]
      simp [cellsText]
    rw [← this]
    exact h2

/-- A shorter second column is accepted too, and `write` then raises. -/
theorem pgf_short_false (F : Fmt V) (v : V) :
    ∃ p1 p2 : Pgf V, Pgf.empty.add ['a'] [v] = .ok p1 ∧ p1.add ['b'] [] = .ok p2 ∧ p2.write F = .error .indexError :=
  ⟨⟨[['a']], [[v]]⟩, ⟨[['a'], ['b']], [[v], []]⟩, rfl, rfl, by simp [Pgf.write, rowsText, rowText, Except.map]⟩

/-- Conversions meeting the hypotheses: natural numbers in unary notation. -/
example : Fmt.Good (V := ℕ) ⟨fun n => List.replicate n 'i', fun s => .ok s.length⟩ :=
  ⟨fun v => ⟨fun h => by simpa using List.eq_of_mem_replicate h, fun h => by simpa using List.eq_of_mem_replicate h⟩, fun v => by simp⟩

/-! ## Access by name and other files -/

/-- **C62**: a column added under a new name is the one found under it, and those of other names are still found. -/
theorem pgf_get_add (p p' : Pgf V) (s : Str) (c : List V) (hl : p.names.length = p.cols.length) (hs : s ∉ p.names) (ha : p.add s c = .ok p') :
    p'.get s = .ok c ∧ ∀ k ∈ p.names, p'.get k = p.get k := by
  unfold Pgf.add at ha
  split at ha
  · cases ha
  · cases ha
    constructor
    · unfold Pgf.get
      rw [if_pos (by simp)]
      have e : (p.names ++ [s]).idxOf s = p.cols.length := by
        rw [List.idxOf_append_of_notMem hs, ← hl]
        simp
      rw [e]
      simp
    · intro k hk
      unfold Pgf.get
      rw [if_pos hk, if_pos (List.mem_append_left _ hk)]
      have e : (p.names ++ [s]).idxOf k = p.names.idxOf k := List.idxOf_append_of_mem hk
      have hlt : p.names.idxOf k < p.cols.length := hl ▸ List.idxOf_lt_length_iff.2 hk
      rw [e, List.getElem?_append_left hlt]

/-- **C62**: a column added under a name in use is not found; the earlier one is. -/
theorem pgf_get_twice (p p' : Pgf V) (s : Str) (c : List V) (hl : p.names.length = p.cols.length) (hs : s ∈ p.names) (ha : p.add s c = .ok p') :
    p'.get s = p.get s := by
  unfold Pgf.add at ha
  split at ha
  · cases ha
  · cases ha
    unfold Pgf.get
    rw [if_pos hs, if_pos (List.mem_append_left _ hs)]
    have e : (p.names ++ [s]).idxOf s = p.names.idxOf s := List.idxOf_append_of_mem hs
    have hlt : p.names.idxOf s < p.cols.length := hl ▸ List.idxOf_lt_length_iff.2 hs
    rw [e, List.getElem?_append_left hlt]

/-- **C62**: a name which is not in use is an error. -/
theorem pgf_get_missing (p : Pgf V) (s : Str) (hs : s ∉ p.names) : p.get s = .error .valueError := by
  rw [Pgf.get, if_neg hs]

/-- **C62**: when writing succeeds: there is a first column, and no column is shorter. -/
theorem pgf_write_ok_iff (F : Fmt V) (p : Pgf V) :
    (∃ t, p.write F = .ok t) ↔ ∃ c cs, p.cols = c :: cs ∧ ∀ d ∈ p.cols, c.length ≤ d.length := by
  have hrow : ∀ (j : ℕ) (cols : List (List V)), (∃ t, rowText F j cols = .ok t) ↔ ∀ d ∈ cols, j < d.length := by
    intro j cols
    induction cols with
    | nil => simp [rowText]
    | cons c r ih =>
      rw [rowText, List.forall_mem_cons, ← ih]
      cases hc : c[j]? with
      | none => simp [List.getElem?_eq_none_iff.1 hc]
      | some v =>
        have := (List.getElem?_eq_some_iff.1 hc).1
        cases rowText F j r <;> simp [Except.map, this]
  have hrows : ∀ (cols : List (List V)) (k j : ℕ), (∃ t, rowsText F cols k j = .ok t) ↔ ∀ i, j ≤ i → i < j + k → ∀ d ∈ cols, i < d.length := by
    intro cols k
    induction k with
    | zero => intro j; simp only [rowsText]; exact ⟨fun _ i h1 h2 => by omega, fun _ => ⟨[], rfl⟩⟩
    | succ k ih =>
      intro j
      rw [rowsText]
      have h1 := hrow j cols
      have h2 := ih (j + 1)
      cases hr : rowText F j cols with
      | error e =>
        rw [hr] at h1
        refine ⟨fun ⟨t, ht⟩ => (by cases ht), fun h => ?_⟩
        obtain ⟨t, ht⟩ := h1.2 (h j le_rfl (by omega))
        cases ht
      | ok t =>
        rw [hr] at h1
        have h3 := h1.1 ⟨t, rfl⟩
        constructor
        · rintro ⟨t', ht'⟩ i hi1 hi2
          rcases Nat.eq_or_lt_of_le hi1 with rfl | hi
          · exact h3
          · cases hr2 : rowsText F cols k (j + 1) with
            | error e => simp [hr2, Except.map] at ht'
            | ok u => exact (h2.1 ⟨u, hr2⟩) i hi (by omega)
        · intro h
          obtain ⟨u, hu⟩ := h2.2 fun i hi1 hi2 => h i (by omega) (by omega)
          exact ⟨t ++ u, by simp [hu, Except.map]⟩
  unfold Pgf.write
  cases hp : p.cols with
  | nil => simp
  | cons c cs =>
    have h := hrows (c :: cs) c.length 0
    have : (∃ t, (rowsText F (c :: cs) c.length 0).map (fun r => header p.names ++ r) = .ok t) ↔ ∃ t, rowsText F (c :: cs) c.length 0 = .ok t := by
      cases rowsText F (c :: cs) c.length 0 <;> simp [Except.map]
    refine this.trans (h.trans ⟨fun h => ⟨c, cs, rfl, fun d hd => ?_⟩, ?_⟩)
    · by_contra hlt
      exact absurd (h d.length (Nat.zero_le _) (by omega) d hd) (lt_irrefl _)
    · rintro ⟨c', cs', e, h⟩ i _ hi d hd
      cases e
      exact lt_of_lt_of_le (by omega) (h d hd)

/-- **C62**: reading an empty file changes nothing. -/
theorem pgf_read_empty (F : Fmt V) (p : Pgf V) : p.read F [] = .ok p := rfl

/-- **C62**: a line with more cells than the header is an error, one with fewer is not. -/
theorem pgf_row_ok_iff (F : Fmt V) (hF : F.Good) (p : Pgf V) (names : List Str) (hn : names ≠ []) (hp : ∀ s ∈ names, Plain s) (vs : List V) (hv : vs ≠ []) :
    (∃ q, p.read F (cellsText names ++ '\n' :: (cellsText (vs.map F.fmt) ++ ['\n'])) = .ok q) ↔ vs.length ≤ names.length := by
  have hrow : ∀ (vs : List V) (cols : List (List V)), (∃ c, appendRow F cols (vs.map F.fmt) = .ok c) ↔ vs.length ≤ cols.length := by
    intro vs
    induction vs with
    | nil => intro cols; cases cols <;> simp [appendRow]
    | cons v vs ih =>
      intro cols
      cases cols with
      | nil => simp [appendRow]
      | cons c cs =>
        have := ih cs
        simp only [List.map_cons, appendRow, hF.round, List.length_cons, Nat.add_le_add_iff_right, ← this]
        cases appendRow F cs (vs.map F.fmt) <;> simp [Except.map]
  have hplain : ∀ s ∈ vs.map F.fmt, Plain s := by
    intro s hs
    obtain ⟨v, _, rfl⟩ := List.mem_map.1 hs
    exact hF.plain v
  have e1 := pyLines_line (cellsText_newline names hp) (cellsText (vs.map F.fmt) ++ ['\n'])
  have e2 := pyLines_line (cellsText_newline (vs.map F.fmt) hplain) []
  have c1 := cells_line names hn hp
  have c2 := cells_line (vs.map F.fmt) (by simpa using hv) hplain
  have h := hrow vs (names.map fun _ => [])
  rw [List.length_map] at h
  rw [← h]
  unfold Pgf.read
  rw [e1, e2]
  simp only [c1, appendRows, c2, pyLines]
  cases appendRow F (names.map fun _ => []) (vs.map F.fmt) <;> simp [Except.map]

example (v : ℕ) : ∃ p' : Pgf ℕ, Pgf.empty.add ['a'] [v] = .ok p' ∧ p'.get ['a'] = .ok [v] := ⟨_, rfl, by simp [Pgf.get, Pgf.empty]⟩

end Verif.Misc
