import Verif.Basis.DtypeModel
import Verif.Basis.ArnoldiProps
import Verif.Basis.TensorProps

/-!
# C143: polynomial bases at arrays of integers

Sources in `DtypeModel.lean`.
-/

namespace Verif.Dtype

open Verif Verif.Domain Verif.Basis

/-- Specification: the same numbers stored as floats. -/
def Pts.asFloat (X : Pts) : Pts := ⟨.float, X.rows⟩

theorem mul_map {α : Type} (l : List α) (f g : α → ℝ) : Vec.mul (l.map f) (l.map g) = l.map fun x => f x * g x := by
  unfold Vec.mul
  induction l with
  | nil => rfl
  | cons a l ih => simp [ih]

theorem sub_map {α : Type} (l : List α) (f g : α → ℝ) : Vec.sub (l.map f) (l.map g) = l.map fun x => f x - g x := by
  unfold Vec.sub
  induction l with
  | nil => rfl
  | cons a l ih => simp [ih]

theorem rowsOf_map {α : Type} (l : List Vec) (js : List α) (f : α → Vec → ℝ) :
    rowsOf l.length (js.map fun j => l.map (f j)) = l.map fun x => js.map fun j => f j x := by
  unfold rowsOf
  refine List.ext_getElem (by simp) fun p hp hq => ?_
  have hp' : p < l.length := by simpa using hp
  simp [List.getD_eq_getElem?_getD, hp']

theorem mulCols_float {X : List Vec} (fs : List (Vec → ℝ)) (c : Vec → ℝ) :
    mulCols .float (fs.map fun f => X.map f) (X.map c) = .ok (X.map fun x => fs.foldl (fun acc f => acc * f x) (c x)) := by
  induction fs generalizing c with
  | nil => rfl
  | cons f fs ih =>
    rw [List.map_cons, mulCols, mul_map]
    exact ih _

theorem eachCol_ok {α β : Type} {f : α → Except Err β} {g : α → β} (l : List α) (h : ∀ a ∈ l, f a = .ok (g a)) : eachCol f l = .ok (l.map g) := by
  induction l with
  | nil => rfl
  | cons a l ih =>
    rw [eachCol, h a List.mem_cons_self, ih fun b hb => h b (List.mem_cons_of_mem _ hb)]
    rfl

/-- **C143**: at floats the loop over the columns gives the row of C27 for every point. -/
theorem tensorV_float (B : TBasis) (X : Pts) (h : scaledKind B.sc X.kind = .float) : tensorV B X = .ok (X.rows.map B.V) := by
  unfold tensorV
  rw [h]
  have key : ∀ alpha ∈ B.indices, mulCols .float ((List.range B.dim).map fun k => X.rows.map fun x => (B.vc x k).getD (alpha.getD k 0) 0)
      (X.rows.map fun _ => 1) = .ok (X.rows.map fun x => prodLoop B.dim fun k => (B.vc x k).getD (alpha.getD k 0) 0) := by
    intro alpha _
    have := mulCols_float (X := X.rows) ((List.range B.dim).map fun k x => (B.vc x k).getD (alpha.getD k 0) 0) fun _ => 1
    rw [List.map_map] at this
    refine Eq.trans this ?_
    simp only [List.foldl_map]
    rfl
  rw [eachCol_ok B.indices key]
  change Except.ok (rowsOf _ _) = _
  rw [rowsOf_map]
  rfl

/-- **C143**: a tensor basis that scales its points treats integers as the same floats. -/
theorem tensor_scaled_int (B : TBasis) (hs : B.sc ≠ .none) (X : Pts) : tensorV B X = tensorV B X.asFloat := by
  have h : ∀ kd, scaledKind B.sc kd = .float := by
    intro kd
    cases e : B.sc with
    | none => exact absurd e hs
    | minmax => rfl
    | meanstd => rfl
  rw [tensorV_float B X (h _), tensorV_float B X.asFloat (h _)]
  rfl

theorem mulCols_int {fs : List Vec} (h : fs ≠ []) (c : Vec) : mulCols .int fs c = .error .typeError := by
  cases fs with
  | nil => exact absurd rfl h
  | cons f fs => rfl

theorem indices_ne_nil (B : TBasis) : B.indices ≠ [] := by
  intro h
  have := indexSet_zero_first B.degree B.dim
  rw [TBasis.indices] at h
  rw [h] at this
  cases this

/-- **C143** (refuted): a basis built for a number of variables, without points, gives values at floats and raises at integers. -/
theorem tensor_unscaled_int_false (B : TBasis) (hs : B.sc = .none) (hd : 0 < B.dim) (rows : List Vec) :
    tensorV B ⟨.int, rows⟩ = .error .typeError ∧ tensorV B ⟨.float, rows⟩ = .ok (rows.map B.V) := by
  refine ⟨?_, tensorV_float B _ (by rw [hs]; rfl)⟩
  unfold tensorV
  rw [hs]
  obtain ⟨a, l, e⟩ := List.exists_cons_of_ne_nil (indices_ne_nil B)
  rw [e, eachCol, show scaledKind .none Kind.int = .int from rfl, mulCols_int (by simpa using hd.ne')]
  rfl

/-- **C143**: the same for the gradients: a column of `DV`. -/
theorem tensorDV_float (B : TBasis) (X : Pts) (h : scaledKind B.sc X.kind = .float) (alpha : List ℕ) (k : ℕ) :
    tensorDV B X alpha k = .ok (X.rows.map fun x => B.DV x alpha k) := by
  unfold tensorDV
  rw [h]
  have := mulCols_float (X := X.rows)
    ((List.range B.dim).map fun q x => if q = k then B.d1 x q (alpha.getD q 0) else (B.vc x q).getD (alpha.getD q 0) 0) fun _ => 1
  rw [List.map_map] at this
  rw [show ((List.range B.dim).map fun q => X.rows.map fun x => if q = k then B.d1 x q (alpha.getD q 0) else (B.vc x q).getD (alpha.getD q 0) 0) =
    (List.range B.dim).map ((fun f => X.rows.map f) ∘ fun q x => if q = k then B.d1 x q (alpha.getD q 0) else (B.vc x q).getD (alpha.getD q 0) 0) from rfl, this]
  simp only [Except.bind, inPlace, List.map_map, List.foldl_map]
  rfl

/-- **C143** (refuted): gradients at integers. -/
theorem tensorDV_int_false (B : TBasis) (hs : B.sc = .none) (hd : 0 < B.dim) (rows : List Vec) (alpha : List ℕ) (k : ℕ) :
    tensorDV B ⟨.int, rows⟩ alpha k = .error .typeError := by
  unfold tensorDV
  rw [hs, show scaledKind .none Kind.int = .int from rfl, mulCols_int (by simpa using hd.ne')]
  rfl

/-! ## Arnoldi -/

theorem subCols_float {X : List Vec} (ps : List (ℝ × (Vec → ℝ))) (w : Vec → ℝ) :
    subCols .float (ps.map fun p => (p.1, X.map p.2)) (X.map w) = .ok (X.map fun x => ps.foldl (fun acc p => acc - p.1 * p.2 x) (w x)) := by
  induction ps generalizing w with
  | nil => rfl
  | cons p ps ih =>
    rw [List.map_cons, subCols, Vec.smul, List.map_map, sub_map]
    exact ih _

theorem arnCols_float (X : List Vec) (es : List ((ℕ × ℕ) × List ℝ)) (W : List (Vec → ℝ)) (hW : ∀ e ∈ es, ∀ (n : ℕ), es[n]? = some e → e.1.2 < W.length + n) :
    ∃ W' : List (Vec → ℝ), arnCols .float X es (W.map fun f => X.map f) = .ok (W'.map fun f => X.map f) ∧
      ∀ x, W'.map (fun f => f x) = es.foldl (evalStep x) (W.map fun f => f x) := by
  induction es generalizing W with
  | nil => exact ⟨W, rfl, fun _ => rfl⟩
  | cons e es ih =>
    have hj : e.1.2 < W.length := by simpa using hW e List.mem_cons_self 0 rfl
    have e1 : (W.map fun f => X.map f).getD e.1.2 [] = X.map (W[e.1.2]) := by
      simp [List.getD_eq_getElem?_getD, hj]
    have e2 : List.zip e.2 (W.map fun f => X.map f) = (List.zip e.2 W).map fun p => (p.1, X.map p.2) := by
      rw [List.zip_map_right]
      rfl
    obtain ⟨W', h1, h2⟩ := ih (W ++ [fun x => (List.zip e.2 W).foldl (fun acc p => acc - p.1 * p.2 x) (x.getD e.1.1 0 * W[e.1.2] x) / e.2.getD W.length 0]) (by
      intro e' he' n hn
      have := hW e' (List.mem_cons_of_mem _ he') (n + 1) (by simpa using hn)
      simp only [List.length_append, List.length_singleton]
      omega)
    refine ⟨W', ?_, fun x => ?_⟩
    · rw [arnCols, e1, e2, mul_map, subCols_float]
      simp only [List.map_map, List.length_map]
      rw [← h1]
      simp only [List.map_append, List.map_cons, List.map_nil]
      rfl
    · rw [h2, List.foldl_cons]
      congr 1
      simp only [evalStep, List.map_append, List.map_cons, List.map_nil, List.length_map, subLoop, List.zip_map_right, List.foldl_map]
      congr 3
      simp [List.getD_eq_getElem?_getD, hj]

/-- **C143**: at floats the loop over the columns gives the row of C29 for every point. -/
theorem arnoldiX_float {P : List (ℕ × ℕ)} (hP : PlanOk P) (R : List (List ℝ)) (rows : List Vec) :
    arnoldiX P R ⟨.float, rows⟩ = .ok (rows.map (evalX P R)) := by
  obtain ⟨W', h1, h2⟩ := arnCols_float rows (List.zip P R.tail) [fun _ => 1 / (R.getD 0 []).getD 0 0] (by
    intro e _ n hn
    obtain ⟨hlt, rfl⟩ := List.getElem?_eq_some_iff.1 hn
    rw [List.getElem_zip]
    have : n < P.length := by simp at hlt; omega
    have := hP n this
    simp only [List.length_singleton]
    omega)
  unfold arnoldiX
  change (arnCols .float rows _ _).map _ = _
  rw [show ([rows.map fun _ => store (⟨.float, rows⟩ : Pts).kind (1 / (R.getD 0 []).getD 0 0)] : List Vec) =
    ([fun _ => 1 / (R.getD 0 []).getD 0 0] : List (Vec → ℝ)).map fun f => rows.map f from rfl, h1]
  change Except.ok (rowsOf _ _) = _
  rw [rowsOf_map rows W' fun f x => f x]
  congr 1
  refine List.map_congr_left fun x _ => ?_
  rw [h2]
  rfl

theorem arnoldiX_int {P : List (ℕ × ℕ)} (hP : P ≠ []) {R : List (List ℝ)} (hR : ∃ r0 r1 rs, R = r0 :: r1 :: rs ∧ r1 ≠ []) (rows : List Vec) :
    arnoldiX P R ⟨.int, rows⟩ = .error .typeError := by
  obtain ⟨p, ps, rfl⟩ := List.exists_cons_of_ne_nil hP
  obtain ⟨r0, r1, rs, rfl, hr⟩ := hR
  obtain ⟨a, l, rfl⟩ := List.exists_cons_of_ne_nil hr
  rfl

theorem plan_planOk {d m : ℕ} (hm : 1 ≤ m) : ∃ P, plan (indexSet d m) = some P ∧ P.length + 1 = Nat.choose (m + d) d ∧ PlanOk P := by
  obtain ⟨P, h1, h2, h3⟩ := plan_ok d m hm
  exact ⟨P, h1, by rw [h2, indexSet_length d m hm], fun k hk => (h3 k hk).1⟩

/-- The first entry of `R`. -/
theorem arnoldi_first (X : List Vec) (P : List (ℕ × ℕ)) : (((arnoldi 1 X P).2.getD 0 []).getD 0 0) = Real.sqrt X.length := by
  have h0 : ∀ P : List (ℕ × ℕ), 0 < (arnoldi 1 X P).2.length := by
    intro P
    induction P using List.reverseRecOn with
    | nil => simp [arnoldi, finishCol_nil]
    | append_singleton P ij ih => rw [arnoldi_snoc]; simp [colStep, finishCol]
  induction P using List.reverseRecOn with
  | nil =>
    simp [arnoldi, finishCol_nil, Vec.norm, Vec.sumSq]
  | append_singleton P ij ih =>
    rw [arnoldi_snoc]
    simp only [colStep, finishCol]
    rw [getD_append_left (h0 P)]
    exact ih

/-- **C143**: `V(X)` of the Arnoldi basis at floats, wherever they are, and at the stored points in any type. -/
theorem arnoldiV_float {d m : ℕ} (hm : 1 ≤ m) (X0 : List Vec) (X : Pts) (h : X.kind = .float ∨ X.rows = X0) :
    ∃ P, plan (indexSet d m) = some P ∧ arnoldiV d m X0 X = .ok (X.rows.map (evalX P (arnoldi 1 X0 P).2)) := by
  obtain ⟨P, h1, -, hP⟩ := plan_planOk (d := d) hm
  refine ⟨P, h1, ?_⟩
  unfold arnoldiV
  rw [h1]
  dsimp only
  split
  · rename_i e
    rw [e]
    congr 1
    refine List.ext_getElem (by simp [rowsOf]) fun p hp hq => ?_
    have hp' : p < X0.length := by simpa using hq
    rw [List.getElem_map, arnoldi_eval 1 X0 P hP p hp']
    simp [rowsOf]
  · rename_i e
    have hk : X.kind = .float := h.resolve_right e
    obtain ⟨kd, rows⟩ := X
    cases hk
    exact arnoldiX_float hP _ _

theorem arnoldiV_asFloat {d m : ℕ} (hm : 1 ≤ m) (X0 : List Vec) (X : Pts) :
    ∃ P, plan (indexSet d m) = some P ∧ arnoldiV d m X0 X.asFloat = .ok (X.rows.map (evalX P (arnoldi 1 X0 P).2)) :=
  arnoldiV_float hm X0 X.asFloat (Or.inl rfl)

/-- **C143** (refuted): at other integers a basis of degree one or more raises. -/
theorem arnoldiV_int_false {d m : ℕ} (hd : 0 < d) (hm : 1 ≤ m) (X0 rows : List Vec) (hne : rows ≠ X0) :
    arnoldiV d m X0 ⟨.int, rows⟩ = .error .typeError := by
  obtain ⟨P, h1, h2, hP⟩ := plan_planOk (d := d) hm
  have h2' : 1 ≤ P.length := by
    have : 2 ≤ Nat.choose (m + d) d := by
      calc 2 ≤ m + 1 := by omega
        _ = Nat.choose (m + 1) 1 := by simp
        _ ≤ Nat.choose (m + d) d := by
          have := Nat.choose_symm_add (a := m) (b := d)
          have h' := Nat.choose_symm_add (a := m) (b := 1)
          rw [← this, ← h']
          exact Nat.choose_le_choose m (by omega)
    omega
  unfold arnoldiV
  rw [h1]
  dsimp only
  rw [if_neg hne]
  obtain ⟨-, hl, -, hk⟩ := arnoldi_shape 1 X0 P hP
  refine arnoldiX_int (by intro e; rw [e] at h2'; simp at h2') ?_ rows
  rcases e : (arnoldi 1 X0 P).2 with _ | ⟨r0, _ | ⟨r1, rs⟩⟩
  · rw [e] at hl; simp at hl
  · rw [e] at hl; simp only [List.length_cons, List.length_nil] at hl; omega
  · refine ⟨r0, r1, rs, rfl, ?_⟩
    have := hk 1 (by omega)
    rw [e] at this
    intro h
    rw [h] at this
    simp at this

/-- **C143** (refuted): the basis of degree zero is the constant `1/√M` for `M` points; at two or more points, at integers it is zero. -/
theorem arnoldiV_zero {m : ℕ} (hm : 1 ≤ m) (X0 rows : List Vec) (hne : rows ≠ X0) :
    arnoldiV 0 m X0 ⟨.int, rows⟩ = .ok (rows.map fun _ => [store .int (1 / Real.sqrt X0.length)]) ∧
    arnoldiV 0 m X0 ⟨.float, rows⟩ = .ok (rows.map fun _ => [1 / Real.sqrt X0.length]) := by
  obtain ⟨P, h1, h2, hP⟩ := plan_planOk (d := 0) hm
  have hP0 : P = [] := by simpa using h2
  subst hP0
  have hf := arnoldi_first X0 []
  constructor
  · unfold arnoldiV
    rw [h1]
    dsimp only
    rw [if_neg hne]
    unfold arnoldiX
    rw [hf]
    change Except.ok (rowsOf _ _) = _
    congr 1
    exact rowsOf_map rows [()] fun _ _ => store .int (1 / Real.sqrt X0.length)
  · obtain ⟨P', h1', h2'⟩ := arnoldiV_float (d := 0) hm X0 ⟨.float, rows⟩ (Or.inl rfl)
    rw [h1] at h1'
    cases h1'
    rw [h2']
    congr 1
    refine List.map_congr_left fun x _ => ?_
    simp only [evalX, List.zip_nil_left, List.foldl_nil, hf]

theorem store_inv_sqrt {M : ℕ} (h : 2 ≤ M) : store .int (1 / Real.sqrt M) = 0 := by
  have h1 : (1 : ℝ) < Real.sqrt M := by
    rw [show (1 : ℝ) = Real.sqrt 1 by simp]
    exact Real.sqrt_lt_sqrt (by norm_num) (by exact_mod_cast h)
  have h0 : 0 ≤ 1 / Real.sqrt M := by positivity
  rw [store, if_pos h0, Int.cast_eq_zero, Int.floor_eq_zero_iff]
  exact ⟨h0, by rw [div_lt_one (by linarith)]; exact h1⟩

/-- **C143**: exactly when the Arnoldi basis treats an array of integers as the same floats (at one point or more, built on one point or
more). -/
theorem arnoldi_int_iff {d m : ℕ} (hm : 1 ≤ m) {X0 : List Vec} (h0 : X0 ≠ []) {rows : List Vec} (hr : rows ≠ []) :
    arnoldiV d m X0 ⟨.int, rows⟩ = arnoldiV d m X0 ⟨.float, rows⟩ ↔ rows = X0 ∨ (d = 0 ∧ X0.length = 1) := by
  constructor
  · intro h
    by_contra hc
    push Not at hc
    obtain ⟨hne, hc⟩ := hc
    rcases Nat.eq_zero_or_pos d with rfl | hd
    · have hl : 2 ≤ X0.length := by
        have := hc rfl
        have := List.length_pos_iff.2 h0
        omega
      obtain ⟨e1, e2⟩ := arnoldiV_zero hm X0 rows hne
      rw [e1, e2, store_inv_sqrt hl] at h
      obtain ⟨a, l, rfl⟩ := List.exists_cons_of_ne_nil hr
      injection h with h
      simp only [List.map_cons, List.cons.injEq] at h
      have h3 := h.1.1
      have : (0 : ℝ) < Real.sqrt X0.length := Real.sqrt_pos.2 (by exact_mod_cast (by omega : 0 < X0.length))
      have : 0 < 1 / Real.sqrt X0.length := by positivity
      linarith
    · rw [arnoldiV_int_false hd hm X0 rows hne] at h
      obtain ⟨P, -, e⟩ := arnoldiV_float (d := d) hm X0 ⟨.float, rows⟩ (Or.inl rfl)
      rw [e] at h
      cases h
  · rintro (rfl | ⟨rfl, hl⟩)
    · obtain ⟨P, h1, e⟩ := arnoldiV_float (d := d) hm rows ⟨.float, rows⟩ (Or.inl rfl)
      obtain ⟨P', h1', e'⟩ := arnoldiV_float (d := d) hm rows ⟨.int, rows⟩ (Or.inr rfl)
      rw [h1] at h1'
      cases h1'
      rw [e, e']
    · by_cases hne : rows = X0
      · subst hne
        obtain ⟨P, h1, e⟩ := arnoldiV_float (d := 0) hm rows ⟨.float, rows⟩ (Or.inl rfl)
        obtain ⟨P', h1', e'⟩ := arnoldiV_float (d := 0) hm rows ⟨.int, rows⟩ (Or.inr rfl)
        rw [h1] at h1'
        cases h1'
        rw [e, e']
      · obtain ⟨e1, e2⟩ := arnoldiV_zero hm X0 rows hne
        rw [e1, e2, hl]
        have : store .int (1 / Real.sqrt (1 : ℕ)) = 1 / Real.sqrt (1 : ℕ) := by
          simp [store]
        rw [this]

/-- **C143** (refuted): the constant function `3` as a polynomial of degree zero on two points: at the integer point `5` its value is `0`. -/
theorem poly_const_int_false : ∃ (X0 : List Vec) (coef : Vec), 
    evalWith (arnoldiV 0 1 X0 ⟨.float, [[5]]⟩) coef = .ok [3] ∧ evalWith (arnoldiV 0 1 X0 ⟨.int, [[5]]⟩) coef = .ok [0] := by
  have hne : ([[5]] : List Vec) ≠ [[0], [1]] := by simp
  obtain ⟨e1, e2⟩ := arnoldiV_zero (le_refl 1) [[0], [1]] [[5]] hne
  refine ⟨[[0], [1]], [3 * Real.sqrt 2], ?_, ?_⟩
  · rw [e2]
    have : (0 : ℝ) < Real.sqrt 2 := by positivity
    simp only [evalWith, Except.map, List.map_cons, List.map_nil, Vec.dot, List.zipWith_cons_cons, List.zipWith_nil_right, List.sum_cons, List.sum_nil,
      List.length_cons, List.length_nil]
    congr 2
    push_cast
    norm_num
    field_simp
  · rw [e1, store_inv_sqrt (by simp)]
    simp [evalWith, Except.map, Vec.dot]

/-- The basis of degree two in two variables, built without points: the hypotheses of the refutation. -/
example (F : Family) : (⟨F, 2, 2, .none⟩ : TBasis).sc = .none ∧ 0 < (⟨F, 2, 2, .none⟩ : TBasis).dim := ⟨rfl, by norm_num⟩

example (F : Family) : (⟨F, 2, 1, .minmax [0] [2]⟩ : TBasis).sc ≠ .none := by simp

end Verif.Dtype
