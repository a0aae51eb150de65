import Verif.Sample.DtypeModel
import Verif.Sample.BlockProps
import Verif.Sample.LloydProps
import Verif.Basis.DtypeProps

/-!
# C143: designs started from arrays of integers

Sources in `DtypeModel.lean`.
-/

namespace Verif.Dtype

open Verif Verif.Domain Verif.Geo Verif.Samp Matrix

variable {k m : ℕ}

theorem mapE_ok_iff' {α β : Type} {f : α → Except Err β} : ∀ {l : List α} {r : List β}, mapE f l = .ok r ↔ List.Forall₂ (fun a b => f a = .ok b) l r
  | [], r => by
    rw [mapE]
    constructor
    · intro h; injection h with h; subst h; exact .nil
    · intro h; cases h; rfl
  | a :: l, r => by
    rw [mapE]
    constructor
    · intro h
      split at h
      · cases h
      · rename_i b hb
        split at h
        · cases h
        · rename_i r' hr'
          injection h with h
          subst h
          exact .cons hb (mapE_ok_iff'.1 hr')
    · intro h
      cases h with
      | cons h1 h2 =>
        rw [h1, mapE_ok_iff'.2 h2]

/-- **C143**: at floats the passes over the array are the passes over each point. -/
theorem vpassesD_float {sort : SortBy m} {qr : QRcols m} {D : SDomain m} {L : Matrix (Fin k) (Fin m) ℝ} {rd : Bool} {Xhat : List (Lip.Pt m)}
    (n : ℕ) (X : List (Lip.Pt m × (ℕ → Lip.Pt m))) (Z : List (Lip.Pt m)) : vpassesD .float sort qr D L rd Xhat n X = .ok Z ↔
      mapE (fun p => vpasses sort qr D L rd Xhat p.2 n p.1) X = .ok Z := by
  induction n generalizing Z with
  | zero =>
    rw [vpassesD, mapE_ok_iff']
    constructor
    · intro h
      injection h with h
      subst h
      rw [List.forall₂_map_right_iff]
      exact List.forall₂_same.2 fun _ _ => rfl
    · intro h
      congr 1
      induction h with
      | nil => rfl
      | cons h1 _ ih => rw [List.map_cons, ih]; injection h1 with h1; rw [h1]
  | succ n ih =>
    rw [vpassesD, mapE_ok_iff']
    constructor
    · intro h
      split at h
      · cases h
      · rename_i Y hY
        split at h
        · cases h
        · rename_i Z' hZ
          injection h with h
          subst h
          have h1 := mapE_ok_iff'.1 ((ih _).1 hY)
          have h2 := mapE_ok_iff'.1 hZ
          clear hY hZ ih
          induction h1 generalizing Z' with
          | nil => cases h2; exact .nil
          | cons e1 _ ih' =>
            cases h2 with
            | cons e2 h2 =>
              refine .cons ?_ (ih' _ h2)
              rw [vpasses, e1]
              exact e2
    · intro h
      have : ∃ Y, mapE (fun p => vpasses sort qr D L rd Xhat p.2 n p.1) X = .ok Y ∧
          List.Forall₂ (fun (p : Lip.Pt m × (ℕ → Lip.Pt m)) b => vstep sort qr D L rd Xhat n (p.2 n) p.1 = .ok b) (List.zip Y (X.map Prod.snd)) Z := by
        clear ih
        induction h with
        | nil => exact ⟨[], rfl, .nil⟩
        | @cons a b l₁ l₂ e1 _ ih' =>
          obtain ⟨Y, h1, h2⟩ := ih'
          rw [vpasses] at e1
          split at e1
          · cases e1
          · rename_i y hy
            exact ⟨y :: Y, by rw [mapE, hy, h1], .cons e1 h2⟩
      obtain ⟨Y, h1, h2⟩ := this
      rw [(ih Y).2 h1]
      dsimp only
      rw [mapE_ok_iff'.2 h2]
      rfl

/-- **C143**: with a start design of floats `voronoi_vertex_sample` returns what the model of C95 returns. -/
theorem vertexSampleD_float (sort : SortBy m) (qr : QRcols m) (D : SDomain m) (L : Matrix (Fin k) (Fin m) ℝ) (rd : Bool) (Xhat : List (Lip.Pt m))
    (X0 : List (Lip.Pt m × (ℕ → Lip.Pt m))) (Z : List (Lip.Pt m)) :
    vertexSampleD .float sort qr D L rd Xhat X0 = .ok Z ↔ vertexSample sort qr D L rd Xhat X0 = .ok Z := by
  unfold vertexSampleD vertexSample
  split
  · exact Iff.rfl
  · exact vpassesD_float _ _ _

theorem vpassesD_int (sort : SortBy m) (qr : QRcols m) (D : SDomain m) (L : Matrix (Fin k) (Fin m) ℝ) (rd : Bool) (Xhat : List (Lip.Pt m))
    (n : ℕ) (X : List (Lip.Pt m × (ℕ → Lip.Pt m))) : ∃ e, vpassesD .int sort qr D L rd Xhat (n + 1) X = .error e := by
  rw [vpassesD]
  split
  · exact ⟨_, rfl⟩
  · split
    · exact ⟨_, rfl⟩
    · exact ⟨_, rfl⟩

/-- **C143** (refuted): `voronoi_vertex_sample` accepts a start design of integers only if there is nothing to do. -/
theorem vertexSample_int_iff (sort : SortBy m) (qr : QRcols m) (D : SDomain m) (L : Matrix (Fin k) (Fin m) ℝ) (rd : Bool) (Xhat : List (Lip.Pt m))
    (X0 : List (Lip.Pt m × (ℕ → Lip.Pt m))) :
    (∃ Z, vertexSampleD .int sort qr D L rd Xhat X0 = .ok Z) ↔ D.quads = 0 ∧ passes D L rd = 0 := by
  unfold vertexSampleD
  constructor
  · rintro ⟨Z, h⟩
    split at h
    · cases h
    · rename_i hq
      refine ⟨not_not.1 hq, ?_⟩
      by_contra hp
      obtain ⟨n, hn⟩ := Nat.exists_eq_succ_of_ne_zero hp
      obtain ⟨e, he⟩ := vpassesD_int sort qr D L rd Xhat n X0
      rw [hn, he] at h
      cases h
  · rintro ⟨hq, hp⟩
    rw [if_neg (not_not.2 hq), hp]
    exact ⟨_, rfl⟩

/-- **C143** (refuted): where the same floats are accepted, the error is a `TypeError`. -/
theorem vertexSample_int_error {sort : SortBy m} {qr : QRcols m} {D : SDomain m} {L : Matrix (Fin k) (Fin m) ℝ} {rd : Bool} {Xhat : List (Lip.Pt m)}
    (hp : 0 < passes D L rd) {X0 : List (Lip.Pt m × (ℕ → Lip.Pt m))} {Z : List (Lip.Pt m)} (h : vertexSampleD .float sort qr D L rd Xhat X0 = .ok Z) :
    vertexSampleD .int sort qr D L rd Xhat X0 = .error .typeError := by
  unfold vertexSampleD at h ⊢
  split
  · rename_i hq; rw [if_pos hq] at h; cases h
  · rename_i hq
    rw [if_neg hq] at h
    obtain ⟨n, hn⟩ := Nat.exists_eq_succ_of_ne_zero hp.ne'
    rw [hn] at h ⊢
    have hfirst : ∀ n Z, vpassesD .float sort qr D L rd Xhat (n + 1) X0 = .ok Z → ∃ Y, vpassesD .float sort qr D L rd Xhat 1 X0 = .ok Y := by
      intro n
      induction n with
      | zero => exact fun Z h => ⟨Z, h⟩
      | succ n ih =>
        intro Z h
        rw [vpassesD] at h
        split at h
        · cases h
        · rename_i Y hY
          exact ih Y hY
    obtain ⟨Y, hY⟩ := hfirst n Z h
    have h1 : vpassesD .int sort qr D L rd Xhat 1 X0 = .error .typeError := by
      rw [vpassesD, vpassesD] at hY ⊢
      dsimp only at hY ⊢
      split at hY
      · cases hY
      · rename_i Z' hZ'
        rfl
    clear h hn
    induction n with
    | zero => exact h1
    | succ n ih => rw [vpassesD, ih]

theorem storePt_float (x : Lip.Pt m) : storePt .float x = x := rfl

theorem blockStepD_float (sort : SortBy m) (qr : QRcols m) (D : SDomain m) (L : Matrix (Fin k) (Fin m) ℝ) (X : List (Lip.Pt m)) (i : ℕ) (mv : ℝ)
    (s : List (Lip.Pt m) × ℝ) : blockStepD .float sort qr D L X i mv = .ok s ↔ blockStep sort qr D L X i mv = .ok s := by
  unfold blockStepD blockStep
  cases X[i]? with
  | none => exact Iff.rfl
  | some x =>
    dsimp only
    have h := vertexSampleD_float sort qr D L false (X.eraseIdx i) [(x, fun _ => 0)]
    rcases e1 : vertexSampleD .float sort qr D L false (X.eraseIdx i) [(x, fun _ => 0)] with e | Z
    · rcases e2 : vertexSample sort qr D L false (X.eraseIdx i) [(x, fun _ => 0)] with e' | Z'
      · simp
      · have := (h Z').2 e2
        rw [e1] at this
        cases this
    · rw [(h Z).1 e1]
      rfl

theorem blockSweepD_float (sort : SortBy m) (qr : QRcols m) (D : SDomain m) (L : Matrix (Fin k) (Fin m) ℝ) (is : List ℕ) (s s' : List (Lip.Pt m) × ℝ) :
    blockSweepD .float sort qr D L is s = .ok s' ↔ blockSweep sort qr D L is s = .ok s' := by
  induction is generalizing s with
  | nil => exact Iff.rfl
  | cons i is ih =>
    rw [blockSweepD, blockSweep]
    have h := blockStepD_float sort qr D L s.1 i s.2
    rcases e1 : blockStepD .float sort qr D L s.1 i s.2 with e | t
    · rcases e2 : blockStep sort qr D L s.1 i s.2 with e' | t'
      · simp
      · have := (h t').2 e2
        rw [e1] at this
        cases this
    · rw [(h t).1 e1]
      exact ih t

theorem blockLoopD_float (sort : SortBy m) (qr : QRcols m) (D : SDomain m) (L : Matrix (Fin k) (Fin m) ℝ) (xtol : ℝ) (n : ℕ) (X Z : List (Lip.Pt m)) :
    blockLoopD .float sort qr D L xtol n X = .ok Z ↔ blockLoop sort qr D L xtol n X = .ok Z := by
  induction n generalizing X with
  | zero => exact Iff.rfl
  | succ n ih =>
    rw [blockLoopD, blockLoop]
    have h := blockSweepD_float sort qr D L (List.range X.length) (X, 0)
    rcases e1 : blockSweepD .float sort qr D L (List.range X.length) (X, 0) with e | t
    · rcases e2 : blockSweep sort qr D L (List.range X.length) (X, 0) with e' | t'
      · simp
      · have := (h t').2 e2
        rw [e1] at this
        cases this
    · rw [(h t).1 e1]
      dsimp only
      split
      · exact Iff.rfl
      · exact ih _

/-- **C143**: with a start design of floats `maximin_block` returns what the model of C95 returns. -/
theorem maximinBlockD_float (sort : SortBy m) (qr : QRcols m) (D : SDomain m) (L : Matrix (Fin k) (Fin m) ℝ) (nsamp : ℕ) (xtol : ℝ) (maxiter : ℕ)
    (X0 Z : List (Lip.Pt m)) : maximinBlockD .float sort qr D L nsamp xtol maxiter X0 = .ok Z ↔ maximinBlock sort qr D L nsamp xtol maxiter X0 = .ok Z := by
  unfold maximinBlockD maximinBlock
  split
  · exact Iff.rfl
  · split
    · exact Iff.rfl
    · exact blockLoopD_float _ _ _ _ _ _ _ _

/-- **C143** (refuted): with a start design of integers in the domain of a program that accepts the same floats, `maximin_block` raises `TypeError`. -/
theorem maximinBlock_int_false {sort : SortBy m} {qr : QRcols m} {D : SDomain m} {L : Matrix (Fin k) (Fin m) ℝ} (hp : 0 < passes D L false) {nsamp : ℕ}
    (hn : 0 < nsamp) {xtol : ℝ} {maxiter : ℕ} (hm : 0 < maxiter) {X0 Z : List (Lip.Pt m)}
    (h : maximinBlockD .float sort qr D L nsamp xtol maxiter X0 = .ok Z) :
    maximinBlockD .int sort qr D L nsamp xtol maxiter X0 = .error .typeError := by
  unfold maximinBlockD at h ⊢
  split at h
  · cases h
  · rename_i hl
    rw [if_neg hl]
    rw [if_neg hn.ne'] at h ⊢
    have hlen : X0.length = nsamp := by
      by_contra hc
      exact hl ⟨hc, hn.ne', hm.ne'⟩
    obtain ⟨n, rfl⟩ := Nat.exists_eq_succ_of_ne_zero hm.ne'
    rw [blockLoopD] at h ⊢
    have hs : blockSweepD .int sort qr D L (List.range X0.length) (X0, 0) = .error .typeError := by
      split at h
      · cases h
      · rename_i s hs
        obtain ⟨l, hl'⟩ : ∃ l, List.range X0.length = 0 :: l := by
          rw [hlen]
          obtain ⟨q, rfl⟩ := Nat.exists_eq_succ_of_ne_zero hn.ne'
          exact ⟨_, List.range_succ_eq_map⟩
        rw [hl'] at hs ⊢
        rw [blockSweepD] at hs ⊢
        have hb : blockStepD .int sort qr D L X0 0 0 = .error .typeError := by
          split at hs
          · cases hs
          · rename_i s' hs'
            unfold blockStepD at hs' ⊢
            split at hs'
            · cases hs'
            · rename_i x hx
              dsimp only at hx
              rw [hx]
              dsimp only
              split at hs'
              · cases hs'
              · rename_i y hy
                rw [vertexSample_int_error hp hy]
              · cases hs'
        rw [hb]
    rw [hs]

/-! ## Lloyd -/

/-- **C143**: with a start design of floats the loop of `minimax_lloyd` is the one of C96. -/
theorem lloydLoopD_float (vor : VorUpdate m) (circ : Circumcenter m) (L : Matrix (Fin k) (Fin m) ℝ) (M : ℕ) (xtol : ℝ) (n : ℕ) (A V : List (Lip.Pt m)) :
    lloydLoopD .float vor circ L M xtol n A V = lloydLoop vor circ L M xtol n A V := by
  induction n generalizing A V with
  | zero => rfl
  | succ n ih =>
    rw [lloydLoopD, lloydLoop]
    have hid : (storePt Kind.float : Lip.Pt m → Lip.Pt m) = id := rfl
    cases vor A V with
    | error e => rfl
    | ok V' =>
      dsimp only
      cases lloydCenters circ L A V' M A with
      | error e => rfl
      | ok C => dsimp only; rw [hid, List.map_id, ih]

theorem store_int (t : ℝ) : ∃ z : ℤ, store .int t = z := by
  rw [store]
  split
  · exact ⟨_, rfl⟩
  · exact ⟨_, rfl⟩

/-- **C143** (refuted): started from integers, `minimax_lloyd` returns integers, whatever the domain. -/
theorem lloyd_int_entries {vor : VorUpdate m} {circ : Circumcenter m} {L : Matrix (Fin k) (Fin m) ℝ} {M : ℕ} {xtol : ℝ} {n : ℕ} {A V R : List (Lip.Pt m)}
    (hA : ∀ a ∈ A, ∀ i, ∃ z : ℤ, a i = z) (h : lloydLoopD .int vor circ L M xtol n A V = .ok R) : ∀ a ∈ R, ∀ i, ∃ z : ℤ, a i = z := by
  induction n generalizing A V with
  | zero =>
    injection h with h
    subst h
    exact hA
  | succ n ih =>
    rw [lloydLoopD] at h
    have hs : ∀ C : List (Lip.Pt m), ∀ a ∈ C.map (storePt .int), ∀ i, ∃ z : ℤ, a i = z := by
      intro C a ha i
      obtain ⟨c, -, rfl⟩ := List.mem_map.1 ha
      exact store_int _
    split at h
    · cases h
    · split at h
      · cases h
      · split at h
        · injection h with h
          subst h
          exact hs _
        · exact ih (hs _) h

/-- **C143** (refuted): one point of the unit square started at a corner: floats reach the centre, integers stay at the corner. -/
theorem lloyd_int_false {vor : VorUpdate 2} (hv : ∀ V0, vor [![0, 0]] V0 = .ok [![0, 0], ![0, 1], ![1, 0], ![1, 1]]) {circ : Circumcenter 2}
    (hc : circ [![0, 0], ![0, 1], ![1, 0], ![1, 1]] = .ok ![1 / 2, 1 / 2]) (V0 : List (Lip.Pt 2)) :
    lloydLoopD .int vor circ (1 : Matrix (Fin 2) (Fin 2) ℝ) 1 (1 / 10 ^ 5) 1 [![0, 0]] V0 = .ok [![0, 0]] ∧
    lloydLoopD .float vor circ (1 : Matrix (Fin 2) (Fin 2) ℝ) 1 (1 / 10 ^ 5) 1 [![0, 0]] V0 = .ok [![1 / 2, 1 / 2]] := by
  have hn : ∀ v : Lip.Pt 2, nearest (1 : Matrix (Fin 2) (Fin 2) ℝ) [![0, 0]] v = Lip.ldist (1 : Matrix (Fin 2) (Fin 2) ℝ) ![0, 0] v := fun v => by
    simp [nearest, minL]
  have hcell : cellOf (1 : Matrix (Fin 2) (Fin 2) ℝ) [![0, 0]] [![0, 0], ![0, 1], ![1, 0], ![1, 1]] ![0, 0] = [![0, 0], ![0, 1], ![1, 0], ![1, 1]] := by
    rw [cellOf, List.filter_eq_self]
    intro v _
    rw [hn, isclose, decide_eq_true_eq, sub_self, abs_zero]
    positivity
  have h0 : storePt .int ![(1 / 2 : ℝ), 1 / 2] = ![0, 0] := by
    funext i
    have : store .int (1 / 2) = 0 := by
      rw [store, if_pos (by norm_num), Int.cast_eq_zero, Int.floor_eq_zero_iff]
      norm_num
    fin_cases i
    · exact this
    · exact this
  constructor
  · simp only [lloydLoopD, hv, lloydCenters, hcell, hc, List.map_nil, List.map_cons, h0]
    split_ifs <;> rfl
  · simp only [lloydLoopD, hv, lloydCenters, hcell, hc, List.map_nil, List.map_cons, storePt_float]
    split_ifs <;> rfl

/-- The updates of the refutation exist. -/
example : ∃ (vor : VorUpdate 2) (circ : Circumcenter 2), (∀ V0, vor [![0, 0]] V0 = .ok [![0, 0], ![0, 1], ![1, 0], ![1, 1]]) ∧
    circ [![0, 0], ![0, 1], ![1, 0], ![1, 1]] = .ok ![1 / 2, 1 / 2] :=
  ⟨fun _ _ => .ok [![0, 0], ![0, 1], ![1, 0], ![1, 1]], fun _ => .ok ![1 / 2, 1 / 2], fun _ => rfl, rfl⟩

end Verif.Dtype
