import Verif.Lipschitz.FitProps

/-!
# C37: the scalar Lipschitz constant
-/

namespace Verif.Lip

open Verif Matrix

variable {m : ℕ}

/-- `c` is consistent, up to `e`, with every pair of samples and every gradient. -/
def ConstOk (e : ℝ) (data : List (Pt m × ℝ)) (grads : List (Pt m)) (c : ℝ) : Prop :=
  0 ≤ c ∧ (∀ d ∈ data, ∀ d' ∈ data, |d.2 - d'.2| - e ≤ c * nrm (d.1 - d'.1)) ∧ ∀ g ∈ grads, nrm g ≤ c

/-- `c` is the least such number. -/
def ConstLeast (e : ℝ) (data : List (Pt m × ℝ)) (grads : List (Pt m)) (c : ℝ) : Prop :=
  ConstOk e data grads c ∧ ∀ c', ConstOk e data grads c' → c ≤ c'

theorem npMax_fin (a : ℝ) (l : List ℝ) : npMax (.fin a) (l.map .fin) = .fin (lmax a l) := by
  unfold npMax lmax
  induction l generalizing a with
  | nil => rfl
  | cons b l ih => rw [List.map_cons, List.foldl_cons, List.foldl_cons]; exact ih (max a b)

theorem pyMax2_fin (a b : ℝ) : pyMax2 (.fin a) (.fin b) = .fin (max a b) := by
  unfold pyMax2
  by_cases h : a < b
  · rw [if_pos (show XR.lt (.fin a) (.fin b) from h), max_eq_right h.le]
  · rw [if_neg (show ¬ XR.lt (.fin a) (.fin b) from h), max_eq_left (not_lt.1 h)]

theorem nrm_sub_comm (x y : Pt m) : nrm (x - y) = nrm (y - x) := by rw [← nrm_neg, neg_sub]

/-- The number computed for distinct points and a finite `e`, gradients included. -/
theorem constFit_least (e : ℝ) (he : 0 ≤ e) (data : List (Pt m × ℝ)) (grads : List (Pt m)) (hd : DistinctPts data) (h1 : data.length ≠ 1) :
    ∃ c, constFit (.fin e) data grads = .ok (.fin c) ∧ ConstLeast e data grads c := by
  -- the samples
  have hsamp : ∃ c, constSamp (.fin e) data = .ok (.fin c) ∧ ConstLeast e data [] c := by
    cases hdata : data with
    | nil =>
      refine ⟨0, by simp [constSamp], ⟨le_refl _, by simp, by simp⟩, fun c' h => h.1⟩
    | cons a l =>
      rw [← hdata]
      have hr : ∀ p ∈ pairsOf data, ratio (.fin e) p = .fin ((|p.1.2 - p.2.2| - e) / nrm (p.1.1 - p.2.1)) := by
        intro p hp
        have : nrm (p.1.1 - p.2.1) ≠ 0 := (nrm_pos_of_ne (sub_ne_zero.2 (hd p hp))).ne'
        simp only [ratio, XR.sub, XR.div, if_neg this]
      have hmap : (pairsOf data).map (ratio (.fin e)) = ((pairsOf data).map (fun p => (|p.1.2 - p.2.2| - e) / nrm (p.1.1 - p.2.1))).map .fin := by
        rw [List.map_map]
        exact List.map_congr_left hr
      have hne : pairsOf data ≠ [] := by
        rw [hdata] at h1 ⊢
        cases l with
        | nil => simp at h1
        | cons b l => simp [pairsOf]
      obtain ⟨p0, ps, hps⟩ := List.exists_cons_of_ne_nil hne
      set F : (Pt m × ℝ) × (Pt m × ℝ) → ℝ := fun p => (|p.1.2 - p.2.2| - e) / nrm (p.1.1 - p.2.1) with hF
      refine ⟨max 0 (lmax (F p0) (ps.map F)), ?_, ?_⟩
      · unfold constSamp
        rw [if_pos (by rw [hdata]; simp), hmap, hps]
        simp only [List.map_cons]
        rw [npMax_fin, pyMax2_fin]
      · have hM := lmax_spec (F p0) (ps.map F)
        have e1 : F p0 :: ps.map F = (pairsOf data).map F := by rw [hps]; rfl
        rw [e1] at hM
        have hpair : ∀ p ∈ pairsOf data, |p.1.2 - p.2.2| - e ≤ max 0 (lmax (F p0) (ps.map F)) * nrm (p.1.1 - p.2.1) := by
          intro p hp
          have hpos := nrm_pos_of_ne (sub_ne_zero.2 (hd p hp))
          have := (hM.2 _ (List.mem_map_of_mem (f := F) hp)).trans (le_max_right 0 _)
          simp only [hF] at this
          rwa [div_le_iff₀ hpos] at this
        refine ⟨⟨le_max_left _ _, fun d hdd d' hd' => ?_, by simp⟩, fun c' hc' => ?_⟩
        · rcases pairsOf_cases hdd hd' with rfl | h | h
          · rw [sub_self, abs_zero, sub_self, nrm_zero]; linarith
          · exact hpair _ h
          · rw [abs_sub_comm, nrm_sub_comm]; exact hpair _ h
        · refine max_le hc'.1 ?_
          obtain ⟨p, hp, e2⟩ := List.mem_map.1 hM.1
          rw [← e2]
          have hpos := nrm_pos_of_ne (sub_ne_zero.2 (hd p hp))
          simp only [hF]
          rw [div_le_iff₀ hpos]
          exact hc'.2.1 _ (pairsOf_mem hp).1 _ (pairsOf_mem hp).2
  obtain ⟨c, hc, ⟨hc0, hc1, -⟩, hcl⟩ := hsamp
  unfold constFit
  rw [hc]
  cases grads with
  | nil => exact ⟨c, rfl, ⟨hc0, hc1, by simp⟩, hcl⟩
  | cons g gs =>
    have hM := lmax_spec (nrm g) (gs.map nrm)
    have e1 : nrm g :: gs.map nrm = (g :: gs).map nrm := rfl
    rw [e1] at hM
    refine ⟨max c (lmax (nrm g) (gs.map nrm)), by simp only [pyMax2_fin], ⟨hc0.trans (le_max_left _ _), fun d hdd d' hd' => ?_, fun h hh => ?_⟩, fun c' h => ?_⟩
    · exact (hc1 d hdd d' hd').trans (mul_le_mul_of_nonneg_right (le_max_left _ _) (nrm_nonneg _))
    · exact (hM.2 _ (List.mem_map_of_mem (f := nrm) hh)).trans (le_max_right _ _)
    · refine max_le (hcl c' ⟨h.1, h.2.1, by simp⟩) ?_
      obtain ⟨x, hx, e2⟩ := List.mem_map.1 hM.1
      rw [← e2]; exact h.2.2 x hx

/-- **C37**, without `epsilon` and for distinct points (no or at least two samples): `LipschitzConstant.fit` returns the smallest nonnegative
constant consistent with every pair of samples and every gradient.  Missing: `epsilon` (`constant_epsilon_partial`, `constant_epsilon_false`),
repeated points (`constant_duplicate_false`), a single sample (`constant_single`). -/
theorem constant_least_partial {X : Option (List (Pt m))} {fX : Option (List ℝ)} {grads : Option (List (Pt m))} {data : List (Pt m × ℝ)} {g : List (Pt m)}
    (hp : prepare X fX grads = .ok (data, g)) (hd : DistinctPts data) (h1 : data.length ≠ 1) :
    ∃ c, constantFit none X fX grads = .ok (.fin c) ∧ ConstLeast 0 data g c := by
  unfold constantFit
  rw [hp]
  exact constFit_least 0 (le_refl _) data g hd h1

/-- **C37** with `epsilon`: what is returned is the smallest constant for the tolerance `epsilon / scale`, where the samples are not divided by the scale. -/
theorem constant_epsilon_partial {X : Option (List (Pt m))} {fX : Option (List ℝ)} {grads : Option (List (Pt m))} {data : List (Pt m × ℝ)} {g : List (Pt m)}
    (hp : prepare X fX grads = .ok (data, g)) (hd : DistinctPts data) (h1 : data.length ≠ 1) (e : ℝ) (he : 0 ≤ e) (hs : fitScale data g ≠ 0) :
    ∃ c, constantFit (some e) X fX grads = .ok (.fin c) ∧ ConstLeast (e / fitScale data g) data g c := by
  unfold constantFit
  rw [hp]
  simp only [XR.div, if_neg hs]
  exact constFit_least _ (div_nonneg he (fitScale_nonneg _ _)) data g hd h1

/-- **C37 is false with `epsilon`**: for the samples 0 and 1/2 at 0 and 1, the gradient 1/4 and `epsilon = 1/8`, the returned constant is not consistent
with the samples up to `epsilon`. -/
theorem constant_epsilon_false : ∃ (X : List (Pt 1)) (fX : List ℝ) (g : List (Pt 1)) (c : ℝ),
    constantFit (some (1 / 8)) (some X) (some fX) (some g) = .ok (.fin c) ∧ ¬ ConstOk (1 / 8) (X.zip fX) g c := by
  have hp : prepare (m := 1) (some [![0], ![1]]) (some [0, 1 / 2]) (some [![1 / 4]]) = .ok ([(![0], 0), (![1], 1 / 2)], [![1 / 4]]) := rfl
  have hn : nrm (![1 / 4] : Pt 1) = 1 / 4 := by
    rw [nrm, show (![1 / 4] : Pt 1) ⬝ᵥ ![1 / 4] = (1 / 4) ^ 2 by simp [dotProduct]; norm_num]
    exact Real.sqrt_sq (by norm_num)
  have hs : fitScale [((![0] : Pt 1), (0 : ℝ)), (![1], 1 / 2)] [![1 / 4]] = 1 / 2 := by
    simp only [fitScale, scale1, scale2, List.map, lmax, lmin, List.foldl, hn]
    norm_num
  have hd : DistinctPts [((![0] : Pt 1), (0 : ℝ)), (![1], 1 / 2)] := by
    intro p hp
    simp [pairsOf] at hp
    subst hp
    intro h
    have := congrFun h 0
    simp at this
  obtain ⟨c, h1, h2, h3⟩ := constant_epsilon_partial hp hd (by simp) (1 / 8) (by norm_num) (by rw [hs]; norm_num)
  refine ⟨_, _, _, c, h1, fun hc => ?_⟩
  have hnn : nrm (![0] - ![1] : Pt 1) = 1 := by simp [nrm, dotProduct]
  have a := hc.2.1 (![0], 0) (by simp) (![1], 1 / 2) (by simp)
  simp only [hnn] at a
  have b := h3 (1 / 4) ⟨by norm_num, ?_, ?_⟩
  · norm_num [abs_of_neg] at a
    linarith
  · intro d hd d' hd'
    rw [hs]
    simp only [List.mem_cons, List.not_mem_nil, or_false] at hd hd'
    have hnn' : nrm (![1] - ![0] : Pt 1) = 1 := by rw [nrm_sub_comm, hnn]
    rcases hd with rfl | rfl <;> rcases hd' with rfl | rfl <;> simp only [hnn, hnn', sub_self, nrm_zero] <;> norm_num [abs_of_neg, abs_of_pos]
  · intro g hg
    rw [List.mem_singleton.1 hg, hn]

/-- **C37 is false for repeated points**: repeating a sample makes the answer zero however large the slopes of the other samples are. -/
theorem constant_duplicate_false : ∃ (X : List (Pt 1)) (fX : List ℝ), constantFit none (some X) (some fX) none = .ok (.fin 0) ∧
    ¬ ConstOk 0 (X.zip fX) [] 0 := by
  refine ⟨[![0], ![0], ![1]], [0, 0, 5], ?_, fun h => ?_⟩
  · have hp : prepare (m := 1) (some [![0], ![0], ![1]]) (some [0, 0, 5]) none = .ok ([(![0], 0), (![0], 0), (![1], 5)], []) := rfl
    unfold constantFit
    rw [hp]
    have hr : ratio (m := 1) (.fin 0) ((![0], 0), (![0], 0)) = .nan := by
      simp [ratio, XR.sub, XR.div, nrm_zero]
    have hnan : ∀ l : List XR, l.foldl XR.max .nan = .nan := by
      intro l
      induction l with
      | nil => rfl
      | cons a l ih => rw [List.foldl_cons]; exact ih
    simp only [constFit, constSamp, pairsOf, List.map, List.append_nil, List.cons_append, List.nil_append, npMax, hr, hnan, List.length_cons]
    rw [if_pos (by omega)]
    have hpy : pyMax2 (.fin 0) .nan = .fin 0 := by unfold pyMax2; exact if_neg (fun h => h)
    rw [hpy]
  · have := h.2.1 (![0], 0) (by simp) (![1], 5) (by simp)
    norm_num [abs_of_neg] at this

/-- A single sample raises. -/
theorem constant_single (eps : Option ℝ) (x : Pt m) (f : ℝ) (grads : Option (List (Pt m))) :
    constantFit eps (some [x]) (some [f]) grads = .error .valueError := by
  have hp : prepare (some [x]) (some [f]) grads = .ok ([(x, f)], grads.getD []) := rfl
  unfold constantFit
  rw [hp]
  simp only [constFit, constSamp, pairsOf, List.map, List.append_nil, List.length_cons]
  rw [if_pos (by simp)]

/-- The constant is consistent in the sense of the Lipschitz matrix `c I` returned as `L`. -/
theorem constant_matrix {e c : ℝ} {data : List (Pt m × ℝ)} {grads : List (Pt m)} (h : ConstOk e data grads c) :
    Consistent (c • (1 : Matrix (Fin m) (Fin m) ℝ)) e data ∧ ∀ g ∈ grads, GradConsistent (c • (1 : Matrix (Fin m) (Fin m) ℝ)) g := by
  have hn : ∀ x : Pt m, lnorm (c • (1 : Matrix (Fin m) (Fin m) ℝ)) x = c * nrm x := by
    intro x
    simp only [lnorm, smul_mulVec, one_mulVec, nrm, smul_dotProduct, dotProduct_smul, smul_eq_mul]
    rw [← mul_assoc, Real.sqrt_mul (mul_self_nonneg c), Real.sqrt_mul_self h.1]
  constructor
  · intro d hd d' hd'
    rw [hn]; linarith [h.2.1 d hd d' hd']
  · intro g hg v
    rw [hn]
    have h1 := h.2.2 g hg
    have h2 := Finset.sum_mul_sq_le_sq_mul_sq Finset.univ g v
    have h3 : (g ⬝ᵥ v) ^ 2 ≤ (nrm g * nrm v) ^ 2 := by
      rw [mul_pow, nrm_sq, nrm_sq]
      simpa only [dotProduct, pow_two] using h2
    have h4 := abs_le_of_sq_le_sq h3 (mul_nonneg (nrm_nonneg _) (nrm_nonneg _))
    exact h4.trans (mul_le_mul_of_nonneg_right h1 (nrm_nonneg _))

example : DistinctPts [((![0, 1] : Pt 2), (1 : ℝ)), (![1, 1], 4), (![3, 0], 2)] := by
  intro p hp heq
  have h0 := congrFun heq 0
  simp [pairsOf] at hp
  rcases hp with rfl | rfl | rfl <;> simp at h0

end Verif.Lip
