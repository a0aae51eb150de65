import Verif.Misc.NonlinModel
import Verif.Lipschitz.BoundProps

/-!
# Property C88: the nonlinearity measure
-/

namespace Verif.Misc

open Verif Verif.Domain Verif.Lip Matrix

variable {m M : ℕ}

/-! ## Specification -/

/-- `K` is a Lipschitz constant of the samples of `f` after subtracting the linear function with slope `c`. -/
def LipAfter (X : Fin M → Pt m) (fX : Pt M) (c : Pt m) (K : ℝ) : Prop :=
  ∀ i j, |(fX i - c ⬝ᵥ X i) - (fX j - c ⬝ᵥ X j)| ≤ K * nrm (X i - X j)

/-- The samples are those of an affine function. -/
def AffineData (X : Fin M → Pt m) (fX : Pt M) : Prop := ∃ (c : Pt m) (d : ℝ), ∀ i, fX i = c ⬝ᵥ X i + d

/-- An exact solver of the program: feasible, with the least value. -/
def NLSolver.Exact (sol : NLSolver m) : Prop :=
  ∀ rows K a, sol rows = some (K, a) → NLFeasible rows K a ∧ ∀ K' a', NLFeasible rows K' a' → K ≤ K'

/-! ## Rows -/

theorem mem_nlRows {X : Fin M → Pt m} {fX : Pt M} {r : Pt m × ℝ} : r ∈ nlRows X fX ↔ ∃ i j, i < j ∧ r = (X i - X j, fX i - fX j) := by
  unfold nlRows triuPairs
  constructor
  · intro h
    obtain ⟨p, hp, rfl⟩ := List.mem_map.1 h
    obtain ⟨i, -, hi⟩ := List.mem_flatMap.1 hp
    obtain ⟨j, hj, rfl⟩ := List.mem_map.1 hi
    exact ⟨i, j, by simpa using (List.mem_filter.1 hj).2, rfl⟩
  · rintro ⟨i, j, hij, rfl⟩
    refine List.mem_map.2 ⟨(i, j), List.mem_flatMap.2 ⟨i, List.mem_finRange i, List.mem_map.2 ⟨j, ?_, rfl⟩⟩, rfl⟩
    exact List.mem_filter.2 ⟨List.mem_finRange j, by simpa using hij⟩

/-- Feasibility says that `K` is a Lipschitz constant after subtracting the slope `-a`. -/
theorem nlFeasible_iff (X : Fin M → Pt m) (fX : Pt M) (K : ℝ) (a : Pt m) : NLFeasible (nlRows X fX) K a ↔ LipAfter X fX (-a) K := by
  have key : ∀ i j, (fX i - (-a) ⬝ᵥ X i) - (fX j - (-a) ⬝ᵥ X j) = (fX i - fX j) + (X i - X j) ⬝ᵥ a := by
    intro i j
    rw [neg_dotProduct, neg_dotProduct, sub_dotProduct, dotProduct_comm (X i), dotProduct_comm (X j)]
    ring
  constructor
  · intro h i j
    rw [key]
    have step : ∀ i j : Fin M, i < j → |(fX i - fX j) + (X i - X j) ⬝ᵥ a| ≤ K * nrm (X i - X j) := by
      intro i j hij
      obtain ⟨h1, h2⟩ := h _ (mem_nlRows.2 ⟨i, j, hij, rfl⟩)
      simp only at h1 h2
      rw [abs_le]
      constructor <;> linarith
    rcases lt_trichotomy i j with hij | rfl | hij
    · exact step i j hij
    · simp [nrm_zero]
    · have := step j i hij
      rw [← abs_neg, show -(fX j - fX i + (X j - X i) ⬝ᵥ a) = fX i - fX j + (X i - X j) ⬝ᵥ a by
        rw [← neg_sub (X i) (X j), neg_dotProduct]; ring, ← nrm_neg, neg_sub] at this
      exact this
  · intro h r hr
    obtain ⟨i, j, hij, rfl⟩ := mem_nlRows.1 hr
    have := abs_le.1 (h i j)
    rw [key] at this
    simp only
    constructor <;> linarith [this.1, this.2]

/-! ## The Lipschitz constant -/

theorem foldl_max_fin (qs : List ℝ) (q : ℝ) : (qs.map XR.fin).foldl XR.max (.fin q) = .fin (qs.foldl max q) := by
  induction qs generalizing q with
  | nil => rfl
  | cons a qs ih => exact ih _

theorem foldl_max_ge (qs : List ℝ) (q : ℝ) : (q ≤ qs.foldl max q ∧ ∀ a ∈ qs, a ≤ qs.foldl max q) ∧ (qs.foldl max q = q ∨ qs.foldl max q ∈ qs) := by
  induction qs generalizing q with
  | nil => simp
  | cons a qs ih =>
    obtain ⟨⟨h1, h2⟩, h3⟩ := ih (max q a)
    rw [List.foldl_cons]
    refine ⟨⟨(le_max_left _ _).trans h1, ?_⟩, ?_⟩
    · intro b hb
      rcases List.mem_cons.1 hb with rfl | hb
      · exact (le_max_right _ _).trans h1
      · exact h2 b hb
    · rcases h3 with h3 | h3
      · rw [h3]
        rcases max_choice q a with e | e
        · left; exact e
        · right; rw [e]; simp
      · right; exact List.mem_cons_of_mem _ h3

theorem nrm_pos_of_ne {x y : Pt m} (h : x ≠ y) : 0 < nrm (x - y) := by
  refine lt_of_le_of_ne (nrm_nonneg _) fun h0 => h ?_
  have h2 := nrm_sq (x - y)
  rw [← h0] at h2
  exact sub_eq_zero.1 (dotProduct_self_eq_zero.1 (by linarith))

/-- For at least two distinct samples the first constant is finite: the least Lipschitz constant of the data. -/
theorem nlConst_eq {X : Fin M → Pt m} (hX : Function.Injective X) (hM : 2 ≤ M) (fX : Pt M) :
    ∃ L0, nlConst (nlRows X fX) = some (.fin L0) ∧ 0 ≤ L0 ∧ LipAfter X fX 0 L0 ∧ ∀ K, LipAfter X fX 0 K → L0 ≤ K := by
  have hrow : ∀ r ∈ nlRows X fX, fdivX |r.2| (nrm r.1) = .fin (|r.2| / nrm r.1) := by
    intro r hr
    obtain ⟨i, j, hij, rfl⟩ := mem_nlRows.1 hr
    exact if_neg (nrm_pos_of_ne (hX.ne hij.ne)).ne'
  have hmap : (nlRows X fX).map (fun r => fdivX |r.2| (nrm r.1)) = ((nlRows X fX).map fun r => |r.2| / nrm r.1).map XR.fin := by
    rw [List.map_map]
    exact List.map_congr_left hrow
  have hne : nlRows X fX ≠ [] := by
    have : (X ⟨0, by omega⟩ - X ⟨1, by omega⟩, fX ⟨0, by omega⟩ - fX ⟨1, by omega⟩) ∈ nlRows X fX :=
      mem_nlRows.2 ⟨⟨0, by omega⟩, ⟨1, by omega⟩, by simp, rfl⟩
    exact List.ne_nil_of_mem this
  unfold nlConst
  rw [hmap]
  obtain ⟨q, qs, hq⟩ := List.exists_cons_of_ne_nil (l := (nlRows X fX).map fun r => |r.2| / nrm r.1) (by simpa using hne)
  rw [hq]
  simp only [List.map_cons, foldl_max_fin]
  obtain ⟨⟨h1, h2⟩, h3⟩ := foldl_max_ge qs q
  have hall : ∀ r ∈ nlRows X fX, |r.2| / nrm r.1 ≤ qs.foldl max q := by
    intro r hr
    have : |r.2| / nrm r.1 ∈ q :: qs := by rw [← hq]; exact List.mem_map.2 ⟨r, hr, rfl⟩
    rcases List.mem_cons.1 this with e | e
    · rw [e]; exact h1
    · exact h2 _ e
  have hsome : ∃ r ∈ nlRows X fX, qs.foldl max q = |r.2| / nrm r.1 := by
    have : qs.foldl max q ∈ (nlRows X fX).map fun r => |r.2| / nrm r.1 := by
      rw [hq]
      rcases h3 with e | e
      · rw [e]; simp
      · exact List.mem_cons_of_mem _ e
    obtain ⟨r, hr, e⟩ := List.mem_map.1 this
    exact ⟨r, hr, e.symm⟩
  refine ⟨_, rfl, ?_, ?_, ?_⟩
  · obtain ⟨r, -, e⟩ := hsome
    rw [e]
    exact div_nonneg (abs_nonneg _) (nrm_nonneg _)
  · rw [← neg_zero, ← nlFeasible_iff]
    intro r hr
    have h := hall r hr
    obtain ⟨i, j, hij, rfl⟩ := mem_nlRows.1 hr
    rw [div_le_iff₀ (nrm_pos_of_ne (hX.ne hij.ne))] at h
    have := abs_le.1 h
    simp only [dotProduct_zero, add_zero]
    constructor <;> linarith [this.1, this.2]
  · intro K hK
    obtain ⟨r, hr, e⟩ := hsome
    rw [e]
    obtain ⟨i, j, hij, rfl⟩ := mem_nlRows.1 hr
    rw [div_le_iff₀ (nrm_pos_of_ne (hX.ne hij.ne))]
    have := hK i j
    simpa using this

/-! ## The measure -/

/-- **C88**: for distinct samples with values that are not all equal, the measure is the quotient of the least Lipschitz constant of the
data after subtracting a linear function by the least Lipschitz constant of the data, and the returned coefficients are those of the best
linear function with the sign changed. -/
theorem nonlin_spec {sol : NLSolver m} (hs : sol.Exact) {X : Fin M → Pt m} (hX : Function.Injective X) {fX : Pt M}
    (hf : ∃ i j, fX i ≠ fX j) {N : XR} {a : Pt m} (h : nonlin sol X fX = .ok (N, a)) :
    ∃ K L0, N = .fin (K / L0) ∧ 0 < L0 ∧ 0 ≤ K ∧ LipAfter X fX 0 L0 ∧ (∀ K', LipAfter X fX 0 K' → L0 ≤ K') ∧
      LipAfter X fX (-a) K ∧ ∀ c K', LipAfter X fX c K' → K ≤ K' := by
  obtain ⟨i, j, hij⟩ := hf
  have hne : i ≠ j := fun e => hij (by rw [e])
  have hM : 2 ≤ M := by
    have h1 := i.2
    have h2 := j.2
    have h3 : (i : ℕ) ≠ j := fun e => hne (Fin.ext e)
    omega
  obtain ⟨L0, e, h0, hl, hleast⟩ := nlConst_eq hX hM fX
  unfold nonlin at h
  rw [e] at h
  simp only at h
  split at h
  · cases h
  · rename_i K a' hsol
    obtain ⟨f1, f2⟩ := hs _ _ _ hsol
    simp only [Except.ok.injEq, Prod.mk.injEq] at h
    obtain ⟨hN, rfl⟩ := h
    have hpos : 0 < L0 := by
      refine lt_of_le_of_ne h0 fun hz => hij ?_
      have := hl i j
      rw [← hz, zero_mul] at this
      have := abs_eq_zero.1 (le_antisymm this (abs_nonneg _))
      simpa [sub_eq_zero] using this
    refine ⟨K, L0, ?_, hpos, ?_, hl, hleast, (nlFeasible_iff X fX K a').1 f1, ?_⟩
    · rw [← hN]
      exact if_neg hpos.ne'
    · have := ((nlFeasible_iff X fX K a').1 f1) i j
      have hp := nrm_pos_of_ne (hX.ne hne)
      by_contra hK
      have : K * nrm (X i - X j) < 0 := mul_neg_of_neg_of_pos (not_le.1 hK) hp
      linarith [abs_nonneg ((fX i - -a' ⬝ᵥ X i) - (fX j - -a' ⬝ᵥ X j))]
    · intro c K' hK'
      exact f2 K' (-c) ((nlFeasible_iff X fX K' (-c)).2 (by rw [neg_neg]; exact hK'))

/-- **C88**: the measure lies between zero and one. -/
theorem nonlin_range {sol : NLSolver m} (hs : sol.Exact) {X : Fin M → Pt m} (hX : Function.Injective X) {fX : Pt M}
    (hf : ∃ i j, fX i ≠ fX j) {N : XR} {a : Pt m} (h : nonlin sol X fX = .ok (N, a)) : ∃ r, N = .fin r ∧ 0 ≤ r ∧ r ≤ 1 := by
  obtain ⟨K, L0, e, h0, hK, hl, -, -, hmin⟩ := nonlin_spec hs hX hf h
  exact ⟨K / L0, e, div_nonneg hK h0.le, (div_le_one h0).2 (hmin 0 L0 hl)⟩

/-- **C88**: it is zero exactly for samples of an affine function. -/
theorem nonlin_zero_iff {sol : NLSolver m} (hs : sol.Exact) {X : Fin M → Pt m} (hX : Function.Injective X) {fX : Pt M}
    (hf : ∃ i j, fX i ≠ fX j) {N : XR} {a : Pt m} (h : nonlin sol X fX = .ok (N, a)) : N = .fin 0 ↔ AffineData X fX := by
  obtain ⟨K, L0, e, h0, hK, -, -, hat, hmin⟩ := nonlin_spec hs hX hf h
  obtain ⟨i0, -⟩ := hf
  constructor
  · intro hN
    rw [e] at hN
    have hz : K = 0 := by
      have : K / L0 = 0 := by simpa using hN
      rcases div_eq_zero_iff.1 this with h | h
      · exact h
      · exact absurd h h0.ne'
    refine ⟨-a, fX i0 - (-a) ⬝ᵥ X i0, fun i => ?_⟩
    have := hat i i0
    rw [hz, zero_mul] at this
    have := abs_eq_zero.1 (le_antisymm this (abs_nonneg _))
    linarith
  · rintro ⟨c, d, hc⟩
    have : LipAfter X fX c 0 := by
      intro i j
      rw [hc i, hc j, zero_mul]
      simp
    have hz : K = 0 := le_antisymm (hmin c 0 this) hK
    rw [e, hz, zero_div]

/-- **C88**: for samples of an affine function that determine its slope, the coefficients returned are the slope with the wrong sign. -/
theorem nonlin_slope {sol : NLSolver m} (hs : sol.Exact) {X : Fin M → Pt m} (hX : Function.Injective X) {fX : Pt M}
    (hf : ∃ i j, fX i ≠ fX j) {N : XR} {a : Pt m} (h : nonlin sol X fX = .ok (N, a)) (c : Pt m) (d : ℝ) (hc : ∀ i, fX i = c ⬝ᵥ X i + d)
    (hspan : ∀ v : Pt m, (∀ i j, v ⬝ᵥ (X i - X j) = 0) → v = 0) : a = -c := by
  have hz := (nonlin_zero_iff hs hX hf h).2 ⟨c, d, hc⟩
  obtain ⟨K, L0, e, h0, hK, -, -, hat, hmin⟩ := nonlin_spec hs hX hf h
  rw [e] at hz
  have hK0 : K = 0 := by
    have : K / L0 = 0 := by simpa using hz
    rcases div_eq_zero_iff.1 this with h | h
    · exact h
    · exact absurd h h0.ne'
  have := hspan (c + a) fun i j => by
    have := hat i j
    rw [hK0, zero_mul] at this
    have := abs_eq_zero.1 (le_antisymm this (abs_nonneg _))
    rw [hc i, hc j, neg_dotProduct, neg_dotProduct] at this
    rw [add_dotProduct, dotProduct_sub, dotProduct_sub]
    linarith
  have h2 : c + a = 0 := this
  exact (neg_eq_of_add_eq_zero_right h2).symm

/-- **C88**: the measure does not depend on the units and the origin of the function values. -/
theorem nonlin_scale {sol : NLSolver m} (hs : sol.Exact) {X : Fin M → Pt m} (hX : Function.Injective X) {fX : Pt M}
    (hf : ∃ i j, fX i ≠ fX j) (s t : ℝ) (hs0 : s ≠ 0) {N N' : XR} {a a' : Pt m} (h : nonlin sol X fX = .ok (N, a))
    (h' : nonlin sol X (fun i => s * fX i + t) = .ok (N', a')) : N' = N := by
  have scale : ∀ (g : Pt M) (s t : ℝ) (c : Pt m) (K : ℝ), LipAfter X g c K → LipAfter X (fun i => s * g i + t) (s • c) (|s| * K) := by
    intro g s t c K hl i j
    rw [smul_dotProduct, smul_dotProduct, smul_eq_mul, smul_eq_mul,
      show (s * g i + t - s * (c ⬝ᵥ X i)) - (s * g j + t - s * (c ⬝ᵥ X j)) = s * ((g i - c ⬝ᵥ X i) - (g j - c ⬝ᵥ X j)) by ring, abs_mul,
      mul_assoc]
    exact mul_le_mul_of_nonneg_left (hl i j) (abs_nonneg _)
  have hback : (fun i => s⁻¹ * (s * fX i + t) + -(s⁻¹ * t)) = fX := by
    funext i
    field_simp
    ring
  have hsp : 0 < |s| := abs_pos.2 hs0
  have hf' : ∃ i j, (fun i => s * fX i + t) i ≠ (fun i => s * fX i + t) j := by
    obtain ⟨i, j, hij⟩ := hf
    refine ⟨i, j, fun e => hij ?_⟩
    simp only at e
    exact mul_left_cancel₀ hs0 (by linarith)
  obtain ⟨K, L0, e, h0, hK, hl, hleast, hat, hmin⟩ := nonlin_spec hs hX hf h
  obtain ⟨K', L0', e', h0', hK', hl', hleast', hat', hmin'⟩ := nonlin_spec hs hX hf' h'
  have e1 : L0' = |s| * L0 := by
    apply le_antisymm
    · have := scale fX s t 0 L0 hl
      rw [smul_zero] at this
      exact hleast' _ this
    · have := scale _ s⁻¹ (-(s⁻¹ * t)) 0 L0' hl'
      rw [smul_zero, hback, abs_inv] at this
      have := hleast _ this
      rw [inv_mul_eq_div, le_div_iff₀ hsp] at this
      linarith
  have e2 : K' = |s| * K := by
    apply le_antisymm
    · exact hmin' _ _ (scale fX s t _ K hat)
    · have := scale _ s⁻¹ (-(s⁻¹ * t)) _ K' hat'
      rw [hback, abs_inv] at this
      have := hmin _ _ this
      rw [inv_mul_eq_div, le_div_iff₀ hsp] at this
      linarith
  rw [e, e', e1, e2, mul_div_mul_left _ _ hsp.ne']

/-- **C88** is false for constant data: the measure is not a number. -/
theorem nonlin_constant_false {sol : NLSolver m} (hs : sol.Exact) {X : Fin M → Pt m} (hX : Function.Injective X) (hM : 2 ≤ M) (v : ℝ)
    {N : XR} {a : Pt m} (h : nonlin sol X (fun _ => v) = .ok (N, a)) : N = .nan := by
  obtain ⟨L0, e, h0, hl, hleast⟩ := nlConst_eq hX hM (fun _ => v)
  have hz : L0 = 0 := le_antisymm (hleast 0 (by intro i j; simp)) h0
  unfold nonlin at h
  rw [e] at h
  simp only at h
  split at h
  · cases h
  · rename_i K a' hsol
    obtain ⟨f1, f2⟩ := hs _ _ _ hsol
    simp only [Except.ok.injEq, Prod.mk.injEq] at h
    obtain ⟨hN, rfl⟩ := h
    have hK : K = 0 := by
      apply le_antisymm
      · refine f2 0 0 ((nlFeasible_iff X _ 0 0).2 ?_)
        intro i j; simp
      · have := ((nlFeasible_iff X (fun _ => v) K a').1 f1) ⟨0, by omega⟩ ⟨1, by omega⟩
        have hp := nrm_pos_of_ne (hX.ne (a₁ := ⟨0, by omega⟩) (a₂ := ⟨1, by omega⟩) (by simp))
        by_contra hK
        have h2 : K * nrm (X ⟨0, by omega⟩ - X ⟨1, by omega⟩) < 0 := mul_neg_of_neg_of_pos (not_le.1 hK) hp
        exact absurd (this.trans_lt h2) (not_lt.2 (abs_nonneg _))
    rw [← hN, hz, hK]
    simp [fdivXX, fdivX]

theorem foldl_max_nan (qs : List XR) : qs.foldl XR.max .nan = .nan := by
  induction qs with
  | nil => rfl
  | cons a qs ih => rw [List.foldl_cons, show XR.max .nan a = .nan from rfl, ih]

theorem foldl_max_mem_nan (qs : List XR) (q : XR) (h : .nan ∈ qs) : qs.foldl XR.max q = .nan := by
  induction qs generalizing q with
  | nil => simp at h
  | cons a qs ih =>
    rw [List.foldl_cons]
    rcases List.mem_cons.1 h with rfl | h
    · rw [show XR.max q .nan = .nan by cases q <;> rfl, foldl_max_nan]
    · exact ih _ h

/-- **C88** is false if a sample is repeated: the measure is not a number, whatever the other samples are. -/
theorem nonlin_duplicate_false {sol : NLSolver m} {X : Fin M → Pt m} {fX : Pt M} {i j : Fin M} (hij : i ≠ j) (hx : X i = X j) (hf : fX i = fX j)
    {N : XR} {a : Pt m} (h : nonlin sol X fX = .ok (N, a)) : N = .nan := by
  have hmem : (.nan : XR) ∈ (nlRows X fX).map fun r => fdivX |r.2| (nrm r.1) := by
    rcases lt_or_gt_of_ne hij with h | h
    · exact List.mem_map.2 ⟨_, mem_nlRows.2 ⟨i, j, h, rfl⟩, by simp [hx, hf, nrm_zero, fdivX]⟩
    · exact List.mem_map.2 ⟨_, mem_nlRows.2 ⟨j, i, h, rfl⟩, by simp [hx, hf, nrm_zero, fdivX]⟩
  have hc : nlConst (nlRows X fX) = some .nan := by
    unfold nlConst
    revert hmem
    cases (nlRows X fX).map fun r => fdivX |r.2| (nrm r.1) with
    | nil => intro h; simp at h
    | cons q qs =>
      intro h
      simp only
      rcases List.mem_cons.1 h with rfl | h
      · rw [foldl_max_nan]
      · rw [foldl_max_mem_nan qs q h]
  unfold nonlin at h
  rw [hc] at h
  simp only at h
  split at h
  · cases h
  · simp only [Except.ok.injEq, Prod.mk.injEq] at h
    exact h.1.symm

/-- **C88**: when the call succeeds. -/
theorem nonlin_ok_iff (sol : NLSolver m) (X : Fin M → Pt m) (fX : Pt M) :
    (∃ r, nonlin sol X fX = .ok r) ↔ 2 ≤ M ∧ sol (nlRows X fX) ≠ none := by
  have hrows : nlRows X fX = [] ↔ ¬ 2 ≤ M := by
    constructor
    · intro h hM
      have : (X ⟨0, by omega⟩ - X ⟨1, by omega⟩, fX ⟨0, by omega⟩ - fX ⟨1, by omega⟩) ∈ nlRows X fX :=
        mem_nlRows.2 ⟨⟨0, by omega⟩, ⟨1, by omega⟩, by simp, rfl⟩
      rw [h] at this
      simp at this
    · intro hM
      rw [List.eq_nil_iff_forall_not_mem]
      intro r hr
      obtain ⟨i, j, hij, -⟩ := mem_nlRows.1 hr
      have h1 := i.2
      have h2 := j.2
      have h3 : (i : ℕ) < j := hij
      omega
  unfold nonlin
  cases hc : nlConst (nlRows X fX) with
  | none =>
    have : nlRows X fX = [] := by
      unfold nlConst at hc
      cases hm : (nlRows X fX).map fun r => fdivX |r.2| (nrm r.1) with
      | nil => simpa using hm
      | cons q qs => rw [hm] at hc; cases hc
    simp [hrows.1 this]
  | some L0 =>
    have hM : 2 ≤ M := by
      by_contra hM
      rw [hrows.2 hM] at hc
      cases hc
    cases hsol : sol (nlRows X fX) with
    | none => simp
    | some q => simp [hM]

open Classical in
/-- The solver that returns some optimal solution if there is one. -/
noncomputable def idealNL : NLSolver m := fun rows =>
  if h : ∃ q : ℝ × Pt m, NLFeasible rows q.1 q.2 ∧ ∀ K' a', NLFeasible rows K' a' → q.1 ≤ K' then some h.choose else none

theorem idealNL_exact : (idealNL (m := m)).Exact := by
  intro rows K a h
  unfold idealNL at h
  split at h
  · rename_i hex
    have := hex.choose_spec
    simp only [Option.some.injEq] at h
    rw [h] at this
    exact this
  · cases h

/-- The hypotheses are met by the samples `0, 1, 2` with values `0, 1, 0`, which are as nonlinear as possible. -/
example : ∃ a, nonlin idealNL (![![0], ![1], ![2]] : Fin 3 → Pt 1) (![0, 1, 0] : Pt 3) = .ok (.fin 1, a) := by
  have hX : Function.Injective (![![0], ![1], ![2]] : Fin 3 → Pt 1) := by
    intro i j h
    have := congrFun h 0
    fin_cases i <;> fin_cases j <;> simp at this ⊢
  have hf : ∃ i j, (![0, 1, 0] : Pt 3) i ≠ (![0, 1, 0] : Pt 3) j := ⟨0, 1, by simp⟩
  have lip : ∀ (c : Pt 1) (K : ℝ), LipAfter (![![0], ![1], ![2]] : Fin 3 → Pt 1) (![0, 1, 0] : Pt 3) c K → 1 ≤ K := by
    intro c K h
    have h1 := abs_le.1 (h 1 0)
    have h2 := abs_le.1 (h 2 1)
    have n1 : nrm ((![![0], ![1], ![2]] : Fin 3 → Pt 1) 1 - (![![0], ![1], ![2]] : Fin 3 → Pt 1) 0) = 1 := by
      simp [nrm, dotProduct]
    have n2 : nrm ((![![0], ![1], ![2]] : Fin 3 → Pt 1) 2 - (![![0], ![1], ![2]] : Fin 3 → Pt 1) 1) = 1 := by
      simp [nrm, dotProduct]; norm_num
    rw [n1] at h1
    rw [n2] at h2
    simp [dotProduct] at h1 h2
    linarith [h1.1, h1.2, h2.1, h2.2]
  have one : LipAfter (![![0], ![1], ![2]] : Fin 3 → Pt 1) (![0, 1, 0] : Pt 3) 0 1 := by
    have e2 : Real.sqrt (2 * 2) = 2 := Real.sqrt_mul_self (by norm_num)
    intro i j
    fin_cases i <;> fin_cases j <;> simp [nrm, dotProduct] <;> norm_num
  have hex : ∃ q : ℝ × Pt 1, NLFeasible (nlRows (![![0], ![1], ![2]] : Fin 3 → Pt 1) (![0, 1, 0] : Pt 3)) q.1 q.2 ∧
      ∀ K' a', NLFeasible (nlRows (![![0], ![1], ![2]] : Fin 3 → Pt 1) (![0, 1, 0] : Pt 3)) K' a' → q.1 ≤ K' :=
    ⟨(1, 0), (nlFeasible_iff _ _ _ _).2 (by rw [neg_zero]; exact one), fun K' a' h => lip _ _ ((nlFeasible_iff _ _ _ _).1 h)⟩
  obtain ⟨⟨N, a⟩, hr⟩ := (nonlin_ok_iff idealNL (![![0], ![1], ![2]] : Fin 3 → Pt 1) (![0, 1, 0] : Pt 3)).2
    ⟨by norm_num, by unfold idealNL; rw [dif_pos hex]; simp⟩
  obtain ⟨K, L0, e, h0, hK, hl, hleast, hat, hmin⟩ := nonlin_spec idealNL_exact hX hf hr
  have a1 : L0 = 1 := le_antisymm (hleast 1 one) (lip 0 L0 hl)
  have a2 : K = 1 := le_antisymm (hmin 0 1 one) (lip _ K hat)
  refine ⟨a, ?_⟩
  rw [hr, e, a1, a2]
  norm_num

/-- **C88** is false if a sample is repeated with another value: no number bounds the differences, and the call raises for every exact
solver. -/
theorem nonlin_conflict_false {sol : NLSolver m} (hs : sol.Exact) {X : Fin M → Pt m} {fX : Pt M} {i j : Fin M} (hx : X i = X j) (hf : fX i ≠ fX j) :
    nonlin sol X fX = .error .typeError := by
  have hno : sol (nlRows X fX) = none := by
    cases h : sol (nlRows X fX) with
    | none => rfl
    | some q =>
      have h1 := (nlFeasible_iff X fX q.1 q.2).1 (hs _ _ _ h).1 i j
      rw [hx, sub_self, nrm_zero, mul_zero] at h1
      have := abs_nonpos_iff.1 h1
      exact absurd (by linarith) hf
  have hne : nlRows X fX ≠ [] := by
    have hij : i ≠ j := fun e => hf (by rw [e])
    rcases lt_or_gt_of_ne hij with h | h
    · exact List.ne_nil_of_mem (mem_nlRows.2 ⟨i, j, h, rfl⟩)
    · exact List.ne_nil_of_mem (mem_nlRows.2 ⟨j, i, h, rfl⟩)
  unfold nonlin
  cases hc : nlConst (nlRows X fX) with
  | none =>
    unfold nlConst at hc
    split at hc
    · rename_i hq
      exact absurd (List.map_eq_nil_iff.1 hq) hne
    · cases hc
  | some L0 => simp only [hno]

end Verif.Misc
