import Mathlib.LinearAlgebra.FiniteDimensional.Lemmas
import Mathlib.LinearAlgebra.FiniteDimensional.Basic
import Mathlib.Algebra.MvPolynomial.CommRing
import Mathlib.RingTheory.MvPolynomial.Basic
import Verif.Basis.ArnoldiLemmas

/-!
# C29: the Arnoldi basis
-/

namespace Verif.Basis

open Verif

/-! ## The plan -/

theorem mapM_some {α β : Type} (f : α → Option β) (l : List α) (h : ∀ a ∈ l, ∃ b, f a = some b) :
    ∃ bs, l.mapM f = some bs ∧ bs.length = l.length ∧ ∀ k (h1 : k < l.length) (h2 : k < bs.length), f l[k] = some bs[k] := by
  induction l with
  | nil => exact ⟨[], by simp, rfl, fun k h => by simp at h⟩
  | cons a l ih =>
    obtain ⟨b, hb⟩ := h a (by simp)
    obtain ⟨bs, h1, h2, h3⟩ := ih (fun a ha => h a (by simp [ha]))
    refine ⟨b :: bs, by simp [hb, h1], by simp [h2], fun k hk1 hk2 => ?_⟩
    rcases k with _ | k
    · simpa using hb
    · simpa using h3 k (by simpa using hk1) (by simpa using hk2)

theorem plan_ok (p m : ℕ) (hm : 1 ≤ m) : ∃ P, plan (indexSet p m) = some P ∧ P.length + 1 = (indexSet p m).length ∧
    ∀ k (h : k < P.length), P[k].2 ≤ k ∧ P[k].1 < m ∧
      ((indexSet p m).getD P[k].2 []).sum + 1 = ((indexSet p m).getD (k + 1) []).sum := by
  have hlen : 0 < (indexSet p m).length := by simp [indexSet]
  have htl : ∀ k (h : k < (indexSet p m).tail.length), (indexSet p m).tail[k] = (indexSet p m)[k + 1]'(by rw [List.length_tail] at h; omega) := by
    intro k h; simp
  obtain ⟨P, h1, h2, h3⟩ := mapM_some (updateVec (indexSet p m)) (indexSet p m).tail (fun a ha => by
    obtain ⟨k, hk, rfl⟩ := List.getElem_of_mem ha
    rw [htl]
    have hk' := hk
    rw [List.length_tail] at hk'
    obtain ⟨i, j, h, -⟩ := updateVec_parent p m hm (k + 1) (by omega) (by omega)
    exact ⟨_, h⟩)
  rw [List.length_tail] at h2
  refine ⟨P, h1, by omega, fun k hk => ?_⟩
  have h4 := h3 k (by rw [List.length_tail]; omega) hk
  obtain ⟨i, j, h, hjk, him, hR⟩ := updateVec_parent p m hm (k + 1) (by omega) (by omega : k + 1 < _)
  rw [htl, h] at h4
  have e := Option.some.inj h4
  rw [← e]
  refine ⟨by simp only; omega, him, ?_⟩
  have hkl : k + 1 < (indexSet p m).length := by omega
  have hjl : j < (indexSet p m).length := by omega
  simp only
  rw [List.getD_eq_getElem?_getD (i := k + 1), List.getElem?_eq_getElem hkl]
  have hl1 := ((mem_indexSet p m hm _).1 (List.getElem_mem hkl)).1
  have hl2 := ((mem_indexSet p m hm _).1 (List.getElem_mem hjl)).1
  have hD : (indexSet p m).getD j [] = (indexSet p m)[j] := by rw [List.getD_eq_getElem?_getD, List.getElem?_eq_getElem hjl]; rfl
  rw [hD] at hR ⊢
  exact (raises_sum (by rw [hl1, hl2]) (by rw [hl1]; exact him) hR).symm

theorem updateVec_take (p m : ℕ) (hm : 1 ≤ m) (k : ℕ) (hkl : k < (indexSet p m).length) :
    updateVec ((indexSet p m).take k) (indexSet p m)[k] = updateVec (indexSet p m) (indexSet p m)[k] := by
  generalize hI : indexSet p m = I at *
  have hmem : ∀ a, a ∈ I ↔ a.length = m ∧ a.sum ≤ p := fun a => by rw [← hI]; exact mem_indexSet p m hm a
  have hgr : I.Pairwise (fun a b => a.sum ≤ b.sum) := by rw [← hI]; exact indexSet_graded p m hm
  have hg : ∀ j (h : j < I.length), I.getD j [] = I[j] := fun j h => by
    rw [List.getD_eq_getElem?_getD, List.getElem?_eq_getElem h]; rfl
  have hlt : ∀ j, j < I.length → isParent (I.getD j []) I[k] = true → j < k := by
    intro j hj hpar
    rw [hg j hj] at hpar
    have l1 := ((hmem _).1 (List.getElem_mem hj)).1
    have l2 := ((hmem _).1 (List.getElem_mem hkl)).1
    obtain ⟨i, hi, hR⟩ := (isParent_iff (by rw [l1, l2])).1 hpar
    have hs := raises_sum (by rw [l1, l2]) hi hR
    by_contra hc
    rcases Nat.lt_or_ge k j with h | h
    · have := List.pairwise_iff_getElem.1 hgr k j hkl hj h
      omega
    · obtain rfl : j = k := by omega
      omega
  have htk : ∀ j, j < k → (I.take k).getD j [] = I.getD j [] := by
    intro j hj
    rw [List.getD_eq_getElem?_getD, List.getD_eq_getElem?_getD, List.getElem?_take_of_lt hj]
  have hlk : (I.take k).length = k := by rw [List.length_take]; omega
  have hf : (List.range I.length).filter (fun j => isParent (I.getD j []) I[k]) =
      (List.range (I.take k).length).filter (fun j => isParent ((I.take k).getD j []) I[k]) := by
    rw [hlk]
    obtain ⟨r, hr⟩ := Nat.exists_eq_add_of_le hkl.le
    have e : List.range I.length = List.range k ++ (List.range r).map (fun x => k + x) := by
      conv_lhs => rw [hr]
      exact List.range_add
    rw [e, List.filter_append]
    have : ((List.range r).map (fun x => k + x)).filter (fun j => isParent (I.getD j []) I[k]) = [] := by
      rw [List.filter_eq_nil_iff]
      intro a ha hp
      obtain ⟨b, hb, rfl⟩ := List.mem_map.1 ha
      rw [List.mem_range] at hb
      have := hlt (k + b) (by omega) hp
      omega
    rw [this, List.append_nil]
    apply List.filter_congr
    intro j hj
    rw [htk j (List.mem_range.1 hj)]
  unfold updateVec
  rw [← hf]
  rcases hc : ((List.range I.length).filter (fun j => isParent (I.getD j []) I[k])).getLast? with _ | j
  · rfl
  · have hm := List.mem_of_getLast? hc
    rw [List.mem_filter, List.mem_range] at hm
    have := hlt j hm.1 hm.2
    simp only
    rw [htk j this]

theorem planPrefix_eq (p m : ℕ) (hm : 1 ≤ m) : planPrefix (indexSet p m) = plan (indexSet p m) := by
  obtain ⟨P, h1, h2, -⟩ := plan_ok p m hm
  rw [h1]
  unfold planPrefix
  have hlen : 0 < (indexSet p m).length := by simp [indexSet]
  have hall : ∀ k, 0 < k → ∀ h : k < (indexSet p m).length,
      updateVec ((indexSet p m).take k) ((indexSet p m).getD k []) = updateVec (indexSet p m) (indexSet p m)[k] := by
    intro k _ h
    rw [List.getD_eq_getElem?_getD, List.getElem?_eq_getElem h]
    exact updateVec_take p m hm k h
  obtain ⟨P', h1', h2', h3'⟩ := mapM_some (fun k => updateVec ((indexSet p m).take k) ((indexSet p m).getD k []))
    (List.range' 1 ((indexSet p m).length - 1)) (fun k hk => by
      rw [List.mem_range'_1] at hk
      obtain ⟨i, j, h, -⟩ := updateVec_parent p m hm k (by omega) (by omega)
      exact ⟨_, (hall k (by omega) (by omega)).trans h⟩)
  rw [h1']
  obtain ⟨P'', g1, g2, g3⟩ := mapM_some (updateVec (indexSet p m)) (indexSet p m).tail (fun a ha => by
    obtain ⟨k, hk, rfl⟩ := List.getElem_of_mem ha
    have hk' := hk
    rw [List.length_tail] at hk'
    obtain ⟨i, j, h, -⟩ := updateVec_parent p m hm (k + 1) (by omega) (by omega)
    exact ⟨(i, j), by simpa using h⟩)
  have : P'' = P := by
    have := h1
    unfold plan at this
    rw [g1] at this
    exact Option.some.inj this
  subst this
  rw [List.length_range'] at h2'
  rw [List.length_tail] at g2
  congr 1
  apply List.ext_getElem (by omega)
  intro k k1 k2
  have a1 := h3' k (by rw [List.length_range']; omega) k1
  have a2 := g3 k (by rw [List.length_tail]; omega) k2
  simp only [List.getElem_range', one_mul] at a1
  rw [hall (1 + k) (by omega) (by omega)] at a1
  simp only [List.getElem_tail] at a2
  have e : (indexSet p m)[1 + k]'(by omega) = (indexSet p m)[k + 1]'(by omega) := by congr 1; omega
  rw [e, a2] at a1
  exact (Option.some.inj a1).symm

/-! ## The recurrence -/

/-- `X_i W_j = Σ_s R[s,k] W_s` at every point. -/
theorem eval_recurrence (P : List (ℕ × ℕ)) (R : List (List ℝ)) (hl : R.length = P.length + 1) (hP : PlanOk P)
    (hR : ∀ k, k < R.length → (R.getD k []).length = k + 1) (hb : NoBreakdown R) (x : Vec) :
    (R.getD 0 []).getD 0 0 * (evalX P R x).getD 0 0 = 1 ∧
    ∀ k (h : k < P.length), x.getD P[k].1 0 * (evalX P R x).getD P[k].2 0 = Vec.dot (R.getD (k + 1) []) (evalX P R x) := by
  induction P using List.reverseRecOn generalizing R with
  | nil =>
    refine ⟨?_, fun k h => by simp at h⟩
    have := hb 0 (by omega)
    have e : (evalX [] R x).getD 0 0 = 1 / (R.getD 0 []).getD 0 0 := by simp [evalX]
    rw [e, mul_one_div_cancel this]
  | append_singleton P ij ih =>
    obtain ⟨R, r, rfl⟩ : ∃ R' r, R = R' ++ [r] := by
      have : R ≠ [] := by intro h'; simp [h'] at hl
      exact ⟨R.dropLast, R.getLast this, (List.dropLast_append_getLast this).symm⟩
    have hl' : R.length = P.length + 1 := by simpa using hl
    obtain ⟨hP1, hj⟩ := planOk_snoc hP
    obtain ⟨hb1, hb2⟩ := noBreakdown_snoc hb
    have hR' : ∀ k, k < R.length → (R.getD k []).length = k + 1 := by
      intro k hk
      have := hR k (by simp; omega)
      rwa [getD_append_left hk] at this
    have hr : r.length = R.length + 1 := by
      have := hR R.length (by simp)
      rwa [getD_snoc_last] at this
    obtain ⟨i1, i2⟩ := ih R hl' hP1 hR' hb1
    rw [evalX_snoc hl']
    have hW := evalX_length hl' x
    generalize evalX P R x = W at *
    refine ⟨?_, fun k hk => ?_⟩
    · rw [getD_append_left (by omega)]
      simp only [evalStep]
      rw [getD_append_left (by omega)]
      exact i1
    · simp only [evalStep]
      by_cases hk' : k < P.length
      · have e : (P ++ [ij])[k] = P[k] := List.getElem_append_left hk'
        rw [e, getD_append_left (by have := hP1 k hk'; omega), getD_append_left (by omega), i2 k hk']
        have := hR' (k + 1) (by omega)
        generalize R.getD (k + 1) [] = c at *
        obtain ⟨W1, W2, rfl, hW1⟩ : ∃ W1 W2, W = W1 ++ W2 ∧ W1.length = c.length :=
          ⟨W.take c.length, W.drop c.length, (List.take_append_drop _ _).symm, by rw [List.length_take]; omega⟩
        have d1 : ∀ z, Vec.dot c (W1 ++ z) = Vec.dot c W1 := by
          intro z
          have := Vec.dot_append c [] W1 z hW1.symm
          simpa using this
        rw [d1, List.append_assoc, d1]
      · obtain rfl : k = P.length := by simp at hk; omega
        have e : (P ++ [ij])[P.length] = ij := by simp
        rw [e, getD_append_left (by omega), ← hl', getD_snoc_last]
        obtain ⟨h, d, rfl⟩ : ∃ h d, r = h ++ [d] := by
          have : r ≠ [] := by intro h'; simp [h'] at hr
          exact ⟨r.dropLast, r.getLast this, (List.dropLast_append_getLast this).symm⟩
        have hh : h.length = W.length := by simp at hr; omega
        rw [subLoop_extra hh, subLoop_eq, Vec.dot_append _ _ _ _ hh, ← hh, getD_snoc_last]
        rw [hl', ← hW, ← hh, getD_snoc_last] at hb2
        simp only [Vec.dot_cons, Vec.dot_nil_left]
        field_simp
        ring

/-! ## The basis functions are polynomials -/

open MvPolynomial in
/-- The coordinate as a polynomial. -/
noncomputable def coord (m i : ℕ) : MvPolynomial (Fin m) ℝ := if h : i < m then X ⟨i, h⟩ else 0

open MvPolynomial in
/-- `evalStep` on polynomials. -/
noncomputable def polyStep (m : ℕ) (W : List (MvPolynomial (Fin m) ℝ)) (e : (ℕ × ℕ) × List ℝ) : List (MvPolynomial (Fin m) ℝ) :=
  W ++ [C (1 / e.2.getD W.length 0) *
    (List.zip e.2 W).foldl (fun w p => w - C p.1 * p.2) (coord m e.1.1 * W.getD e.1.2 0)]

open MvPolynomial in
/-- `evalX` on polynomials. -/
noncomputable def polyX (m : ℕ) (P : List (ℕ × ℕ)) (R : List (List ℝ)) : List (MvPolynomial (Fin m) ℝ) :=
  (List.zip P R.tail).foldl (polyStep m) [C (1 / (R.getD 0 []).getD 0 0)]

/-- The point as a function of the coordinate. -/
def pt (m : ℕ) (x : Vec) : Fin m → ℝ := fun i => x.getD i 0

open MvPolynomial in
theorem eval_coord {m : ℕ} {x : Vec} (hx : x.length = m) (i : ℕ) : eval (pt m x) (coord m i) = x.getD i 0 := by
  unfold coord
  split
  · simp [pt]
  · rename_i h
    rw [List.getD_eq_getElem?_getD, List.getElem?_eq_none (by omega)]; simp

open MvPolynomial in
theorem polyX_eval {m : ℕ} (P : List (ℕ × ℕ)) (R : List (List ℝ)) {x : Vec} (hx : x.length = m) :
    (polyX m P R).map (eval (pt m x)) = evalX P R x := by
  unfold polyX evalX
  have h0 : ([C (1 / (R.getD 0 []).getD 0 0)] : List (MvPolynomial (Fin m) ℝ)).map (eval (pt m x)) = [1 / (R.getD 0 []).getD 0 0] := by
    simp
  generalize [C (1 / (R.getD 0 []).getD 0 0)] = W0 at *
  rw [← h0]
  clear h0
  generalize List.zip P R.tail = l
  induction l generalizing W0 with
  | nil => rfl
  | cons e l ih =>
    simp only [List.foldl_cons]
    rw [ih]
    congr 1
    simp only [polyStep, evalStep, List.map_append, List.map_cons, List.map_nil, map_mul, eval_C, List.length_map]
    congr 2
    have hloop : ∀ (h : List ℝ) (W : List (MvPolynomial (Fin m) ℝ)) (w : MvPolynomial (Fin m) ℝ),
        eval (pt m x) ((List.zip h W).foldl (fun w p => w - C p.1 * p.2) w) = subLoop h (W.map (eval (pt m x))) (eval (pt m x) w) := by
      intro h
      induction h with
      | nil => intro W w; simp [subLoop]
      | cons a h ih =>
        intro W w
        cases W with
        | nil => simp [subLoop]
        | cons b W =>
          rw [List.zip_cons_cons, List.foldl_cons, ih]
          simp [subLoop]
    rw [hloop, map_mul, eval_coord hx]
    have : eval (pt m x) (W0.getD e.1.2 0) = (W0.map (eval (pt m x))).getD e.1.2 0 := by
      simp only [List.getD_eq_getElem?_getD, List.getElem?_map]
      cases W0[e.1.2]? <;> simp
    rw [this]
    ring

theorem polyX_length {m : ℕ} (P : List (ℕ × ℕ)) (R : List (List ℝ)) (hl : R.length = P.length + 1) : (polyX m P R).length = P.length + 1 := by
  have := polyX_eval (m := m) P R (x := List.replicate m 0) (by simp)
  rw [← evalX_length hl (List.replicate m 0), ← this, List.length_map]

theorem polyX_snoc {m : ℕ} {P : List (ℕ × ℕ)} {R : List (List ℝ)} (h : R.length = P.length + 1) (ij : ℕ × ℕ) (r : List ℝ) :
    polyX m (P ++ [ij]) (R ++ [r]) = polyStep m (polyX m P R) (ij, r) := by
  obtain ⟨a, R, rfl⟩ : ∃ a R', R = a :: R' := by
    cases R with
    | nil => simp at h
    | cons a R => exact ⟨a, R, rfl⟩
  unfold polyX
  simp only [List.cons_append, List.tail_cons]
  rw [List.zip_append (by simpa using h.symm), List.foldl_append]
  simp

open MvPolynomial in
theorem polyX_degree {m : ℕ} (g : ℕ → ℕ) (P : List (ℕ × ℕ)) (R : List (List ℝ)) (hl : R.length = P.length + 1)
    (hg : ∀ k (h : k < P.length), P[k].2 ≤ k ∧ g P[k].2 + 1 ≤ g (k + 1)) (hmono : ∀ a b, a ≤ b → b ≤ P.length → g a ≤ g b) :
    ∀ k, k ≤ P.length → ((polyX m P R).getD k 0).totalDegree ≤ g k := by
  induction P using List.reverseRecOn generalizing R with
  | nil =>
    intro k hk
    obtain rfl : k = 0 := by simpa using hk
    simp [polyX]
  | append_singleton P ij ih =>
    obtain ⟨R, r, rfl⟩ : ∃ R' r, R = R' ++ [r] := by
      have : R ≠ [] := by intro h'; simp [h'] at hl
      exact ⟨R.dropLast, R.getLast this, (List.dropLast_append_getLast this).symm⟩
    have hl' : R.length = P.length + 1 := by simpa using hl
    have ih := ih R hl' (fun k hk => by
      have := hg k (by simp; omega)
      rwa [List.getElem_append_left hk] at this) (fun a b hab hb => hmono a b hab (by simp; omega))
    have hlast : ij.2 ≤ P.length ∧ g ij.2 + 1 ≤ g (P.length + 1) := by
      have := hg P.length (by simp)
      have e : (P ++ [ij])[P.length] = ij := by simp
      rwa [e] at this
    have hW := polyX_length (m := m) P R hl'
    intro k hk
    rw [polyX_snoc hl']
    generalize polyX m P R = W at *
    simp only [polyStep]
    by_cases hk' : k ≤ P.length
    · rw [getD_append_left (by omega)]
      exact ih k hk'
    · obtain rfl : k = W.length := by simp at hk; omega
      rw [getD_snoc_last, hW]
      have hWb : ∀ w ∈ W, w.totalDegree ≤ g (P.length + 1) := by
        intro w hw
        obtain ⟨s, hs, rfl⟩ := List.getElem_of_mem hw
        have h1 := ih s (by omega)
        rw [List.getD_eq_getElem?_getD, List.getElem?_eq_getElem hs] at h1
        exact h1.trans (hmono _ _ (by omega) (by simp))
      have hstart : (coord m ij.1 * W.getD ij.2 0).totalDegree ≤ g (P.length + 1) := by
        refine (totalDegree_mul _ _).trans ?_
        have h1 : (coord m ij.1).totalDegree ≤ 1 := by
          unfold coord
          split
          · exact (totalDegree_X _).le
          · simp
        have h2 := ih ij.2 hlast.1
        omega
      have hloop : ∀ (h : List ℝ) (W' : List (MvPolynomial (Fin m) ℝ)) (w : MvPolynomial (Fin m) ℝ), (∀ w ∈ W', w.totalDegree ≤ g (P.length + 1)) →
          w.totalDegree ≤ g (P.length + 1) →
          ((List.zip h W').foldl (fun w p => w - C p.1 * p.2) w).totalDegree ≤ g (P.length + 1) := by
        intro h
        induction h with
        | nil => intro W w _ hw; simpa using hw
        | cons a h ih =>
          intro W w hW hw
          cases W with
          | nil => simpa using hw
          | cons b W =>
            rw [List.zip_cons_cons, List.foldl_cons]
            apply ih W _ (fun w hw => hW w (by simp [hw]))
            refine (totalDegree_sub _ _).trans (max_le hw ?_)
            refine (totalDegree_mul _ _).trans ?_
            rw [totalDegree_C, zero_add]
            exact hW b (by simp)
      refine (totalDegree_mul _ _).trans ?_
      rw [totalDegree_C, zero_add]
      exact hloop _ _ _ hWb hstart

end Verif.Basis
