import Verif.Domain.ExtentProps
import Verif.Domain.HullProps
import Mathlib.Analysis.Convex.StdSimplex
import Mathlib.Topology.Order.Monotone

/-!
# A solver meeting the assumption `HullExtentExact` on the extent of convex hulls exists
-/

namespace Verif.Domain

open Verif

theorem dot_map_ofFn (X : List Vec) (i : ℕ) (w : Fin X.length → ℝ) :
    Vec.dot (X.map (fun r => r.getD i 0)) (List.ofFn w) = ∑ j : Fin X.length, w j * X[j].getD i 0 := by
  induction X with
  | nil => simp [Vec.dot]
  | cons x X ih =>
    rw [List.ofFn_succ, List.map_cons, Vec.dot_cons]
    refine Eq.trans ?_ (Fin.sum_univ_succ (n := X.length) _).symm
    have := ih (fun j => w j.succ)
    rw [this]
    simp [mul_comm]

/-- Points of the hull in terms of weights. -/
theorem inHull_iff_simplex {n : ℕ} {X : List Vec} (hX : ∀ r ∈ X, r.length = n) {z : Vec} (hz : z.length = n) :
    InHull n X z ↔ ∃ w ∈ stdSimplex ℝ (Fin X.length), ∀ i, i < n → ∑ j : Fin X.length, w j * X[j].getD i 0 = z.getD i 0 := by
  constructor
  · rintro ⟨al, h1, h2, h3, rfl⟩
    obtain ⟨w, rfl⟩ : ∃ w : Fin X.length → ℝ, al = List.ofFn w :=
      ⟨fun j => al[j.val]'(by rw [h1]; exact j.2), by
        apply List.ext_getElem (by simp [h1])
        intro i i1 i2
        simp⟩
    refine ⟨w, ⟨fun j => h2 _ (by simp), by rw [← List.sum_ofFn]; exact h3⟩, fun i hi => ?_⟩
    have := comb_getD n i hi (List.ofFn w) X hX (by simp)
    rw [List.getD_eq_getElem?_getD (l := comb n (List.ofFn w) X), this, ← dot_map_ofFn]
    rfl
  · rintro ⟨w, ⟨w0, w1⟩, hw⟩
    refine ⟨List.ofFn w, by simp, fun a ha => ?_, by rw [List.sum_ofFn]; exact w1, ?_⟩
    · obtain ⟨j, rfl⟩ := List.mem_ofFn.1 ha
      exact w0 j
    · apply List.ext_getElem?
      intro i
      by_cases hi : i < n
      · rw [comb_getD n i hi _ X hX (by simp), dot_map_ofFn, hw i hi, List.getD_eq_getElem?_getD, List.getElem?_eq_getElem (by omega)]
        rfl
      · rw [List.getElem?_eq_none (by rw [comb_length n _ X hX]; omega), List.getElem?_eq_none (by omega)]

/-- The part of a line in a hull is closed. -/
theorem hull_line_closed {n : ℕ} {X : List Vec} (hX : ∀ r ∈ X, r.length = n) {z v : Vec} (hz : z.length = n) (hv : v.length = n) :
    IsClosed {t : ℝ | InHull n X (Vec.step z t v)} := by
  have e : {t : ℝ | InHull n X (Vec.step z t v)} = Prod.snd '' {q : stdSimplex ℝ (Fin X.length) × ℝ |
      ∀ i, i < n → ∑ j : Fin X.length, q.1.1 j * X[j].getD i 0 = z.getD i 0 + q.2 * v.getD i 0} := by
    ext t
    have hs : ∀ i, i < n → (Vec.step z t v).getD i 0 = z.getD i 0 + t * v.getD i 0 := by
      intro i hi
      rw [List.getD_eq_getElem?_getD, Vec.getElem?_step' (a := z.getD i 0) (b := v.getD i 0)]
      · rfl
      · rw [List.getD_eq_getElem?_getD, List.getElem?_eq_getElem (by omega)]; rfl
      · rw [List.getD_eq_getElem?_getD, List.getElem?_eq_getElem (by omega)]; rfl
    constructor
    · intro h
      obtain ⟨w, hw, hw'⟩ := (inHull_iff_simplex hX (by rw [Vec.length_step]; omega)).1 h
      exact ⟨(⟨w, hw⟩, t), fun i hi => by rw [← hs i hi]; exact hw' i hi, rfl⟩
    · rintro ⟨⟨⟨w, hw⟩, s⟩, h, rfl⟩
      exact (inHull_iff_simplex hX (by rw [Vec.length_step]; omega)).2 ⟨w, hw, fun i hi => by rw [hs i hi]; exact h i hi⟩
  rw [e]
  apply isClosedMap_snd_of_compactSpace
  simp only [Set.setOf_forall]
  refine isClosed_iInter fun i => isClosed_iInter fun _ => ?_
  refine isClosed_eq ?_ ?_
  · refine continuous_finsetSum _ fun j _ => ?_
    exact ((continuous_apply j).comp (continuous_subtype_val.comp continuous_fst)).mul continuous_const
  · exact continuous_const.add (continuous_snd.mul continuous_const)

theorem hull_line_convex {n : ℕ} {X : List Vec} {z v : Vec} (h0 : InHull n X z) {s t : ℝ}
    (hs : InHull n X (Vec.step z s v)) (ht : 0 ≤ t) (hts : t ≤ s) (hl : z.length = v.length) : InHull n X (Vec.step z t v) := by
  rcases eq_or_lt_of_le (ht.trans hts) with h | h
  · have : t = s := by linarith
    rw [this]; exact hs
  · have := inHull_convex h0 hs (t := t / s) (by positivity) ((div_le_one h).2 hts)
    convert this using 1
    apply List.ext_getElem?
    intro i
    by_cases hi : i < z.length
    · have e1 : z[i]? = some (z[i]) := List.getElem?_eq_getElem hi
      have e2 : v[i]? = some (v[i]'(by omega)) := List.getElem?_eq_getElem (by omega)
      rw [Vec.getElem?_step' e1 e2]
      have e3 := Vec.getElem?_step' (t := s) e1 e2
      unfold Vec.lerp Vec.add Vec.smul
      rw [List.getElem?_zipWith, List.getElem?_map, List.getElem?_map, e1, e3]
      simp only [Option.map_some, Option.some.injEq]
      field_simp
      ring
    · rw [List.getElem?_eq_none (by rw [Vec.length_step]; omega), List.getElem?_eq_none (by rw [Vec.length_lerp, Vec.length_step]; omega)]

/-- The largest step within a hull. -/
theorem hull_line_extent {n : ℕ} {X : List Vec} (hX : ∀ r ∈ X, r.length = n) {z v : Vec} (hz : z.length = n) (hv : v.length = n)
    (h0 : InHull n X z) : ∃ a : XR, a.okUpper ∧ ∀ t, 0 ≤ t → (XR.le (.fin t) a ↔ InHull n X (Vec.step z t v)) := by
  let T : Set ℝ := {t | InHull n X (Vec.step z t v)}
  have hT0 : (0 : ℝ) ∈ T := by show InHull n X _; rw [step_zero (by omega)]; exact h0
  by_cases hb : BddAbove T
  · have hm : sSup T ∈ T := (hull_line_closed hX hz hv).csSup_mem ⟨0, hT0⟩ hb
    refine ⟨.fin (sSup T), trivial, fun t ht => ?_⟩
    constructor
    · intro h
      have : t ≤ sSup T := by
        rcases h with h | h
        · exact le_of_lt h
        · exact le_of_eq h
      exact hull_line_convex h0 hm ht this (by omega)
    · intro h
      rcases lt_or_eq_of_le (le_csSup hb (show t ∈ T from h)) with h | h
      · exact Or.inl h
      · exact Or.inr h
  · refine ⟨.pinf, trivial, fun t ht => ?_⟩
    constructor
    · intro _
      rw [bddAbove_def] at hb
      push Not at hb
      obtain ⟨s, hs, hlt⟩ := hb t
      exact hull_line_convex h0 hs ht hlt.le (by omega)
    · intro _
      exact Or.inl trivial

/-- The assumption on the solver behind the extent of convex hull domains can be met. -/
theorem hullExtentExact_exists : ∃ he : HullExtent, HullExtentExact he := by
  classical
  have key : ∀ X q x p, (Base.hull X q).WF → p.length = q.n → (Base.hull X q).Holds x → ∃ a : XR, a.okUpper ∧ ∀ t, 0 ≤ t →
      (XR.le (.fin t) a ↔ InHull q.n X (Vec.step x t p)) := by
    intro X q x p hw hp hx
    exact hull_line_extent hw.2.2 hx.1 hp (hx.2.2 X q rfl)
  refine ⟨fun X q x p => if h : (Base.hull X q).WF ∧ p.length = q.n ∧ (Base.hull X q).Holds x then (key X q x p h.1 h.2.1 h.2.2).choose else .pinf, ?_⟩
  intro X q x p hw hp hx
  have hc : (Base.hull X q).WF ∧ p.length = q.n ∧ (Base.hull X q).Holds x := ⟨hw, hp, hx⟩
  simp only [dif_pos hc]
  obtain ⟨h1, h2⟩ := (key X q x p hw hp hx).choose_spec
  have l1 : (hullNormLb q.n X).length = q.n := by simp [hullNormLb, columns_length]
  have l2 : (hullNormUb q.n X).length = q.n := by simp [hullNormUb, columns_length]
  have hxl : x.length = q.n := hx.1
  refine ⟨h1, fun t ht => ?_⟩
  rw [h2 t ht, normalize_step l1 l2 hxl hp, inHull_normalize l1 l2 hw.2.2 (by rw [Vec.length_step]; omega)]

end Verif.Domain
