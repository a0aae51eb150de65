import Verif.Domain.SweepProps
import Mathlib.Data.List.Nodup
import Mathlib.Data.List.Count

/-!
# Property C18: `sample_grid`
-/

namespace Verif.Domain

open Classical Verif

/-! ## Specification -/

/-- The values of the grid in one coordinate: `n` evenly spaced values from `l` to `u`. -/
def OnGrid1 (n : ℕ) (l u v : ℝ) : Prop := ∃ i < n, v = l + (i : ℝ) * ((u - l) / ((n : ℝ) - 1))

/-- `x` is a point of the tensor grid between the bounds `lb` and `ub`. -/
def OnGrid (n : ℕ) (lb ub : List ℝ) (x : Vec) : Prop :=
  x.length = lb.length ∧ ∀ (i : ℕ) l u v, lb[i]? = some l → ub[i]? = some u → x[i]? = some v → OnGrid1 n l u v

/-! ## The grid -/

theorem mem_gridRows {xs : List (List ℝ)} {r : Vec} : r ∈ gridRows xs ↔ List.Forall₂ (fun v x => v ∈ x) r xs := by
  induction xs generalizing r with
  | nil => simp [gridRows]
  | cons x xs ih =>
    simp only [gridRows, List.mem_flatMap, List.mem_map]
    constructor
    · rintro ⟨v, hv, r', hr', rfl⟩; exact .cons hv (ih.1 hr')
    · intro h
      cases h with
      | cons hv hr => exact ⟨_, hv, _, ih.2 hr, rfl⟩

theorem nodup_gridRows {xs : List (List ℝ)} (h : ∀ x ∈ xs, x.Nodup) : (gridRows xs).Nodup := by
  induction xs with
  | nil => simp [gridRows]
  | cons x xs ih =>
    have hr := ih (fun y hy => h y (by simp [hy]))
    have hx := h x (by simp)
    simp only [gridRows]
    rw [List.nodup_flatMap]
    refine ⟨fun v _ => hr.map (fun a b e => (List.cons.inj e).2), ?_⟩
    apply hx.imp
    intro a b hab
    simp only [Function.onFun, List.disjoint_left, List.mem_map]
    rintro r ⟨s, _, rfl⟩ ⟨t, _, e⟩
    exact hab (List.cons.inj e).1.symm

theorem length_gridRows (xs : List (List ℝ)) (n : ℕ) (h : ∀ x ∈ xs, x.length = n) :
    (gridRows xs).length = n ^ xs.length := by
  induction xs with
  | nil => simp [gridRows]
  | cons x xs ih =>
    have hr := ih (fun y hy => h y (by simp [hy]))
    simp only [gridRows, List.length_flatMap, List.length_map, hr, List.length_cons]
    rw [List.map_const', List.sum_replicate, h x (by simp)]
    simp [pow_succ, mul_comm]

theorem nodup_linspace {l u : ℝ} (h : l < u) (n : ℕ) : (linspace l u n).Nodup := by
  unfold linspace
  by_cases hn : n ≤ 1
  · rcases n with _ | _ | n
    · simp
    · simp
    · omega
  · have h2 : (2 : ℝ) ≤ n := by exact_mod_cast (by omega : 2 ≤ n)
    have hd : 0 < (u - l) / ((n : ℝ) - 1) := div_pos (by linarith) (by linarith)
    apply (List.nodup_range (n := n)).map
    intro a b e
    simp only [add_right_inj] at e
    have := mul_right_cancel₀ hd.ne' e
    exact_mod_cast this

theorem toReal_map {l : List XR} (h : ∀ v ∈ l, v.isFinite) : l = (l.map XR.toReal).map XR.fin := by
  induction l with
  | nil => rfl
  | cons a l ih =>
    rw [List.map_cons, List.map_cons, ← ih (fun v hv => h v (by simp [hv]))]
    have := h a (by simp)
    cases a <;> simp [XR.isFinite] at this
    rfl

/-- **C18**: `sample_grid` needs finite bounds and `n ≥ 0`; it then returns exactly the points of the tensor
grid that are inside the domain. -/
theorem sample_grid_mem (nnls : NNLS) (TOL : ℝ) {D : Dom} (hD : D.WF) (n : ℤ) (X : List Vec)
    (h : D.sampleGrid nnls TOL n = .ok X) :
    ∃ lb ub : List ℝ, D.acc.lb = lb.map XR.fin ∧ D.acc.ub = ub.map XR.fin ∧
      ∀ x, x ∈ X ↔ OnGrid n.toNat lb ub x ∧ D.isInside nnls TOL x := by
  unfold Dom.sampleGrid at h
  split at h
  · cases h
  split at h
  · cases h
  rename_i hf hn
  cases h
  obtain ⟨f1, f2⟩ := not_not.1 hf
  have hw := dom_wf_acc hD
  refine ⟨_, _, toReal_map f1, toReal_map f2, fun x => ?_⟩
  rw [List.mem_filter, decide_eq_true_eq, mem_gridRows]
  refine and_congr_left fun hin => ?_
  have hxl : x.length = D.len := hin.1
  rw [List.forall₂_iff_get]
  have hll : D.acc.lb.length = D.acc.ub.length := by rw [hw.lb_len, hw.ub_len]
  constructor
  · rintro ⟨e1, e2⟩
    refine ⟨by rw [e1]; simp [hll], ?_⟩
    intro i l u v hl hu hv
    rw [List.getElem?_map, Option.map_eq_some_iff] at hl hu
    obtain ⟨l', hl, rfl⟩ := hl
    obtain ⟨u', hu, rfl⟩ := hu
    obtain ⟨b1, rfl⟩ := List.getElem?_eq_some_iff.1 hl
    obtain ⟨b2, rfl⟩ := List.getElem?_eq_some_iff.1 hu
    obtain ⟨b3, rfl⟩ := List.getElem?_eq_some_iff.1 hv
    have := e2 i b3 (by rw [← e1]; exact b3)
    simp only [List.get_eq_getElem, List.getElem_zipWith] at this
    exact linspace_mem.1 this
  · rintro ⟨e1, e2⟩
    refine ⟨by rw [e1]; simp [hll], ?_⟩
    intro i b1 b2
    simp only [List.get_eq_getElem, List.getElem_zipWith]
    rw [linspace_mem]
    have b2' : i < D.acc.lb.length := by simp at b2; omega
    exact e2 i _ _ _ (by rw [List.getElem?_map, List.getElem?_eq_getElem b2', Option.map_some])
      (by rw [List.getElem?_map, List.getElem?_eq_getElem (hll ▸ b2'), Option.map_some])
      (List.getElem?_eq_getElem b1)

/-- **C18**, each once, *partial*: no point is repeated if every lower bound is below its upper bound. -/
theorem sample_grid_nodup_partial (nnls : NNLS) (TOL : ℝ) {D : Dom} (n : ℤ) (X : List Vec)
    (h : D.sampleGrid nnls TOL n = .ok X)
    (hlt : ∀ (i : ℕ) l u, D.acc.lb[i]? = some (.fin l) → D.acc.ub[i]? = some (.fin u) → l < u) : X.Nodup := by
  unfold Dom.sampleGrid at h
  split at h
  · cases h
  split at h
  · cases h
  rename_i hf hn
  cases h
  obtain ⟨f1, f2⟩ := not_not.1 hf
  apply List.Nodup.filter
  apply nodup_gridRows
  intro x hx
  obtain ⟨i, hi⟩ := List.mem_iff_getElem?.1 hx
  rw [List.getElem?_zipWith] at hi
  rcases e1 : D.acc.lb[i]? with _ | l
  · rw [e1] at hi; simp at hi
  rcases e2 : D.acc.ub[i]? with _ | u
  · rw [e1, e2] at hi; simp at hi
  rw [e1, e2] at hi
  simp at hi
  subst hi
  have g1 := f1 l (List.mem_of_getElem? e1)
  have g2 := f2 u (List.mem_of_getElem? e2)
  cases l <;> simp [XR.isFinite] at g1
  cases u <;> simp [XR.isFinite] at g2
  exact nodup_linspace (hlt i _ _ e1 e2) _

/-- `sample_grid` raises exactly if some bound is infinite or `n` is negative. -/
theorem sample_grid_ok_iff (nnls : NNLS) (TOL : ℝ) (D : Dom) (n : ℤ) :
    (∃ X, D.sampleGrid nnls TOL n = .ok X) ↔
      ((∀ v ∈ D.acc.lb, v.isFinite) ∧ ∀ v ∈ D.acc.ub, v.isFinite) ∧ 0 ≤ n := by
  unfold Dom.sampleGrid
  by_cases a : (∀ v ∈ D.acc.lb, v.isFinite) ∧ ∀ v ∈ D.acc.ub, v.isFinite
  · rw [if_neg (not_not.2 a)]
    by_cases b : n < 0
    · rw [if_pos b]; simp; omega
    · rw [if_neg b]; simp only [Except.ok.injEq, exists_eq', true_iff]; exact ⟨a, by omega⟩
  · rw [if_pos a]; simp [a]

theorem linspace_between {l u : ℝ} (h : l ≤ u) {n : ℕ} (hn : 2 ≤ n) {v : ℝ} (hv : v ∈ linspace l u n) :
    l ≤ v ∧ v ≤ u := by
  obtain ⟨i, hi, rfl⟩ := linspace_mem.1 hv
  obtain ⟨f0, f1⟩ := frac_mem hn hi
  have e : (i : ℝ) * ((u - l) / ((n : ℝ) - 1)) = (i : ℝ) / ((n : ℝ) - 1) * (u - l) := by ring
  rw [e]
  constructor <;> nlinarith

theorem filter_eq_self_of {α : Type*} (l : List α) (p : α → Bool) (h : ∀ a ∈ l, p a = true) : l.filter p = l :=
  List.filter_eq_self.2 h

/-- **C18** for boxes: exactly `n ^ d` points are returned (`n ≥ 2`, lower bounds at most the upper bounds). -/
theorem sample_grid_box_count (nnls : NNLS) {TOL : ℝ} (hT : 0 ≤ TOL) (lb ub : List ℝ) (hle : List.Forall₂ (· ≤ ·) lb ub)
    (n : ℤ) (hn : 2 ≤ n) :
    ∃ X, (Dom.base (.box (lb.map .fin) (ub.map .fin))).sampleGrid nnls TOL n = .ok X ∧
      X.length = n.toNat ^ lb.length := by
  have hll := hle.length_eq
  obtain ⟨X, hX⟩ := (sample_grid_ok_iff nnls TOL (Dom.base (.box (lb.map .fin) (ub.map .fin))) n).2 (by
    simp only [Dom.acc, Base.acc, List.mem_map]
    refine ⟨⟨?_, ?_⟩, by omega⟩ <;> rintro v ⟨a, _, rfl⟩ <;> trivial)
  refine ⟨X, hX, ?_⟩
  unfold Dom.sampleGrid at hX
  split at hX
  · cases hX
  split at hX
  · cases hX
  · cases hX
    rw [filter_eq_self_of]
    · rw [length_gridRows _ n.toNat]
      · simp [Dom.acc, Base.acc, hll]
      · intro x hx
        obtain ⟨i, hi⟩ := List.mem_iff_getElem?.1 hx
        rw [List.getElem?_zipWith] at hi
        split at hi <;> simp at hi
        subst hi; exact linspace_length _ _ _
    · intro x hx
      rw [decide_eq_true_eq]
      rw [mem_gridRows] at hx
      simp only [Dom.acc, Base.acc, List.zipWith_map, XR.toReal] at hx
      have hxl : x.length = lb.length := by rw [hx.length_eq]; simp [hll]
      refine ⟨by simpa [Dom.len, Base.len, Base.acc] using hxl, ?_⟩
      change inBounds _ _ _ _
      rw [inBounds_iff]
      have key : ∀ (i : ℕ) l u v, lb[i]? = some l → ub[i]? = some u → x[i]? = some v → l ≤ v ∧ v ≤ u := by
        intro i l u v h1 h2 h3
        rw [List.forall₂_iff_get] at hle hx
        obtain ⟨b1, rfl⟩ := List.getElem?_eq_some_iff.1 h1
        obtain ⟨b2, rfl⟩ := List.getElem?_eq_some_iff.1 h2
        obtain ⟨b3, rfl⟩ := List.getElem?_eq_some_iff.1 h3
        have hm := hx.2 i b3 (by simp; omega)
        simp only [List.get_eq_getElem, List.getElem_zipWith] at hm
        exact linspace_between (hle.2 i b1 b2) (by omega) hm
      have other : ∀ (i : ℕ) v, x[i]? = some v → i < lb.length ∧ i < ub.length := fun i v hv => by
        have := (List.getElem?_eq_some_iff.1 hv).1; omega
      constructor
      · intro i r xi h1 h2
        rw [List.getElem?_map, Option.map_eq_some_iff] at h1
        obtain ⟨l, h1, e⟩ := h1
        cases e
        obtain ⟨o1, o2⟩ := other i xi h2
        linarith [(key i _ _ xi h1 (List.getElem?_eq_getElem o2) h2).1]
      · intro i r xi h1 h2
        rw [List.getElem?_map, Option.map_eq_some_iff] at h1
        obtain ⟨l, h1, e⟩ := h1
        cases e
        obtain ⟨o1, o2⟩ := other i xi h2
        linarith [(key i _ _ xi (List.getElem?_eq_getElem o1) h1 h2).2]

/-- **C18 is false for "each once"** when a coordinate is fixed: on the box `[1, 1]`, `sample_grid(2)` returns
the point `1` twice. -/
theorem sample_grid_dup_false (nnls : NNLS) {TOL : ℝ} (hT : 0 ≤ TOL) :
    (Dom.base (.box [.fin 1] [.fin 1])).sampleGrid nnls TOL 2 = .ok [[1], [1]] := by
  have hI : (Dom.base (.box [.fin 1] [.fin 1])).isInside nnls TOL [1] := by
    refine ⟨rfl, ?_⟩
    change inBounds _ _ _ _
    rw [inBounds_iff]
    constructor <;> intro i r xi h1 h2 <;> cases i <;> simp at h1 h2 <;> subst h1 h2 <;> linarith
  unfold Dom.sampleGrid
  rw [if_neg (by simp [Dom.acc, Base.acc]), if_neg (by norm_num)]
  have e : gridRows (List.zipWith (fun l u => linspace l.toReal u.toReal (2 : ℤ).toNat)
      (Dom.base (.box [.fin 1] [.fin 1])).acc.lb (Dom.base (.box [.fin 1] [.fin 1])).acc.ub) = [[1], [1]] := by
    simp [Dom.acc, Base.acc, gridRows, linspace, XR.toReal, List.range_succ]
  rw [e, filter_eq_self_of]
  intro a ha
  simp at ha; subst ha
  rw [decide_eq_true_eq]; exact hI

/-- A grid in which not every point is inside: the disk in the square. -/
example : ∃ D : Dom, D.WF ∧ (∀ v ∈ D.acc.lb, v.isFinite) ∧ (∀ v ∈ D.acc.ub, v.isFinite) ∧
    D.acc.Ls ≠ [] ∧ (∀ (i : ℕ) l u, D.acc.lb[i]? = some (.fin l) → D.acc.ub[i]? = some (.fin u) → l < u) := by
  refine ⟨.base (.linquad ⟨2, [.fin (-1), .fin (-1)], [.fin 1, .fin 1], [], [], [], [],
    [[[1, 0], [0, 1]]], [[0, 0]], [1]⟩), ?_, ?_, ?_, ?_, ?_⟩
  · show LQ.WF _
    constructor <;> simp [Base.acc, XR.okLower, XR.okUpper]
  · simp [Dom.acc, Base.acc]
  · simp [Dom.acc, Base.acc]
  · simp [Dom.acc, Base.acc]
  · intro i l u h1 h2
    rcases i with _ | _ | i <;> simp [Dom.acc, Base.acc] at h1 h2 <;> subst h1 h2 <;> norm_num

end Verif.Domain
