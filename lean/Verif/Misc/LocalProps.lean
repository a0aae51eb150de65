import Verif.Misc.LocalModel
import Verif.Lipschitz.FitProps
import Mathlib.LinearAlgebra.AffineSpace.AffineSubspace.Basic

/-!
# Properties of local linear models (C65)
-/

namespace Verif.Misc

open Verif Verif.Domain Verif.Lip Matrix

variable {m : ℕ}

theorem llLoop_spec (ls : LstsqFn m) (pb : List ℝ → ℝ → Except Err ℝ) (data : List (Pt m × ℝ)) (w : Width) (Xt : List (Pt m))
    (A : List (Pt (m + 1))) (i : ℕ) (B : List (Pt (m + 1))) (h : llLoop ls pb data w A i Xt = .ok B) :
    B.length = A.length ∧ (Xt = [] ∨ i + Xt.length ≤ A.length) ∧ (∀ j, j < i ∨ i + Xt.length ≤ j → B[j]? = A[j]?) ∧
      ∀ (k : ℕ) (hk : k < Xt.length), ∃ β, llBeta pb (data.map (·.1)) w Xt[k] = .ok β ∧
        B[i + k]? = some ((ls (llProblem data β Xt[k])).getD 0) := by
  induction Xt generalizing A i with
  | nil =>
    cases h
    exact ⟨rfl, Or.inl rfl, fun j _ => rfl, fun k hk => absurd hk (by simp)⟩
  | cons xt rest ih =>
    rw [llLoop] at h
    split at h
    · cases h
    · rename_i β hβ
      split at h
      · rename_i hi
        obtain ⟨h1, h2, h3, h4⟩ := ih _ _ h
        rw [List.length_set] at h1 h2
        refine ⟨h1, Or.inr ?_, ?_, ?_⟩
        · rcases h2 with rfl | h2
          · simp only [List.length_cons, List.length_nil]; omega
          · simp only [List.length_cons]; omega
        · intro j hj
          rw [h3 j (by simp only [List.length_cons] at hj; omega), List.getElem?_set_ne (by simp only [List.length_cons] at hj; omega)]
        · intro k hk
          cases k with
          | zero =>
            refine ⟨β, hβ, ?_⟩
            have e := h3 i (Or.inl (Nat.lt_succ_self i))
            rw [List.getElem?_set_self hi] at e
            exact e
          | succ k =>
            obtain ⟨b, hb1, hb2⟩ := h4 k (by simpa using hk)
            refine ⟨b, by simpa using hb1, ?_⟩
            rw [show i + (k + 1) = i + 1 + k by omega, hb2]
            simp
      · cases h

theorem localLinear_ok (ls : LstsqFn m) (pb : List ℝ → ℝ → Except Err ℝ) (X : List (Pt m)) (fX : List ℝ) (perp : Option ℝ)
    (bw : Option Bw) (Xt : Option (List (Pt m))) (A : List (Pt (m + 1))) (h : localLinear ls pb X fX perp bw Xt = .ok A) :
    fX.length = X.length ∧ ∃ w, llWidth X.length m perp bw = .ok w ∧
      llLoop ls pb (X.zip fX) w (List.replicate X.length 0) 0 (Xt.getD X) = .ok A := by
  unfold localLinear at h
  split at h
  · rename_i hl
    split at h
    · cases h
    · rename_i w hw
      exact ⟨hl, w, hw, h⟩
  · cases h

/-- The result has one row for each *sample*, whatever locations are requested; and there are at most as many locations as
samples. -/
theorem localLinear_length (ls : LstsqFn m) (pb : List ℝ → ℝ → Except Err ℝ) (X : List (Pt m)) (fX : List ℝ) (perp : Option ℝ)
    (bw : Option Bw) (Xt : Option (List (Pt m))) (A : List (Pt (m + 1))) (h : localLinear ls pb X fX perp bw Xt = .ok A) :
    A.length = X.length ∧ (Xt.getD X).length ≤ X.length := by
  obtain ⟨_, w, _, h⟩ := localLinear_ok ls pb X fX perp bw Xt A h
  obtain ⟨h1, h2, _⟩ := llLoop_spec ls pb _ w _ _ _ _ h
  rw [List.length_replicate] at h1 h2
  refine ⟨h1, ?_⟩
  rcases h2 with h2 | h2
  · rw [h2]; simp
  · omega

theorem llLoop_fixed_ok (ls : LstsqFn m) (pb : List ℝ → ℝ → Except Err ℝ) (data : List (Pt m × ℝ)) (b : ℝ) (Xt : List (Pt m))
    (A : List (Pt (m + 1))) (i : ℕ) (h : i + Xt.length ≤ A.length) : ∃ B, llLoop ls pb data (.fixed b) A i Xt = .ok B := by
  induction Xt generalizing A i with
  | nil => exact ⟨A, rfl⟩
  | cons xt rest ih =>
    rw [llLoop]
    simp only [llBeta]
    simp only [List.length_cons] at h
    rw [if_pos (by omega)]
    exact ih _ _ (by rw [List.length_set]; omega)

/-- With a given bandwidth, the call succeeds exactly when the values match the samples and there are not more locations than
samples: asking for more gradients than there are samples is an error. -/
theorem localLinear_ok_iff (ls : LstsqFn m) (pb : List ℝ → ℝ → Except Err ℝ) (X : List (Pt m)) (fX : List ℝ) (b : ℝ)
    (Xt : Option (List (Pt m))) : (∃ A, localLinear ls pb X fX none (some (.val b)) Xt = .ok A) ↔
      fX.length = X.length ∧ (Xt.getD X).length ≤ X.length := by
  constructor
  · rintro ⟨A, h⟩
    exact ⟨(localLinear_ok ls pb X fX _ _ Xt A h).1, (localLinear_length ls pb X fX _ _ Xt A h).2⟩
  · rintro ⟨h1, h2⟩
    unfold localLinear
    rw [if_pos h1]
    simp only [llWidth, llPerp, llChoose]
    exact llLoop_fixed_ok ls pb _ b _ _ 0 (by simpa using h2)

/-- The default perplexity is rejected unless there are at least two more samples than coordinates (and at least one
coordinate). -/
theorem localLinear_default (ls : LstsqFn m) (pb : List ℝ → ℝ → Except Err ℝ) (X : List (Pt m)) (fX : List ℝ)
    (Xt : Option (List (Pt m))) (A : List (Pt (m + 1))) (h : localLinear ls pb X fX none none Xt = .ok A) : 1 ≤ m ∧ m + 1 < X.length := by
  obtain ⟨_, w, hw, _⟩ := localLinear_ok ls pb X fX none none Xt A h
  simp only [llWidth, llPerp, llChoose] at hw
  split at hw
  · rename_i hc
    obtain ⟨h1, h2⟩ := hc
    have h1' : 2 ≤ min (m + 1) X.length := by exact_mod_cast h1
    have h2' : min (m + 1) X.length < X.length := by exact_mod_cast h2
    omega
  · cases hw

/-- **C65**: the bandwidth named `'xia'` is a fixed bandwidth computed from the number of samples alone. -/
theorem localLinear_xia (ls : LstsqFn m) (pb : List ℝ → ℝ → Except Err ℝ) (X : List (Pt m)) (hX : X ≠ []) (fX : List ℝ) (Xt : Option (List (Pt m))) :
    localLinear ls pb X fX none (some .xia) Xt =
      localLinear ls pb X fX none (some (.val (2.34 * (X.length : ℝ) ^ (-(1 : ℝ) / (max (X.length : ℝ) 3 + 6))))) Xt := by
  have h0 : X.length ≠ 0 := fun h => hX (List.length_eq_zero_iff.1 h)
  unfold localLinear
  simp only [llWidth, llPerp, llChoose, if_neg h0]
  push_cast
  rfl

/-- **C65**: it is larger than the one of the cited heuristic, which has the dimension in place of the number of samples, whenever there are more samples than
coordinates and more than three. -/
theorem xia_wider {M m : ℕ} (hM : max m 3 < M) :
    2.34 * (M : ℝ) ^ (-(1 : ℝ) / (max (m : ℝ) 3 + 6)) < 2.34 * (M : ℝ) ^ (-(1 : ℝ) / (max (M : ℝ) 3 + 6)) := by
  have h1 : (1 : ℝ) < M := by
    have : 1 < M := by omega
    exact_mod_cast this
  have h2 : max (m : ℝ) 3 < max (M : ℝ) 3 := by
    have : (max (m : ℝ) 3) < M := by
      have : ((max m 3 : ℕ) : ℝ) < M := by exact_mod_cast hM
      simpa using this
    exact lt_of_lt_of_le this (le_max_left _ _)
  have h3 : (0 : ℝ) < max (m : ℝ) 3 + 6 := by positivity
  refine mul_lt_mul_of_pos_left (Real.rpow_lt_rpow_of_exponent_lt h1 ?_) (by norm_num)
  rw [neg_div, neg_div, neg_lt_neg_iff]
  exact one_div_lt_one_div_of_lt h3 (by linarith)

example : max 2 3 < 10 := by norm_num

theorem resid_nonneg {k : ℕ} (rows : List (Pt k × ℝ)) (a : Pt k) : 0 ≤ resid rows a := by
  refine List.sum_nonneg fun x hx => ?_
  obtain ⟨r, _, rfl⟩ := List.mem_map.1 hx
  exact sq_nonneg _

theorem resid_zero {k : ℕ} (rows : List (Pt k × ℝ)) (a : Pt k) : resid rows a = 0 ↔ ∀ r ∈ rows, r.1 ⬝ᵥ a = r.2 := by
  constructor
  · intro h r hr
    have hall : ∀ x ∈ rows.map (fun r => (r.1 ⬝ᵥ a - r.2) ^ 2), 0 ≤ x := by
      intro x hx
      obtain ⟨r, _, rfl⟩ := List.mem_map.1 hx
      exact sq_nonneg _
    have := List.single_le_sum hall _ (List.mem_map.2 ⟨r, hr, rfl⟩)
    have h0 : (rows.map (fun r => (r.1 ⬝ᵥ a - r.2) ^ 2)).sum = 0 := h
    rw [h0] at this
    have h2 := le_antisymm this (sq_nonneg _)
    exact sub_eq_zero.1 (pow_eq_zero_iff (two_ne_zero) |>.1 h2)
  · intro h
    refine List.sum_eq_zero fun x hx => ?_
    obtain ⟨r, hr, rfl⟩ := List.mem_map.1 hx
    rw [h r hr]
    ring

theorem llRow_dot (x : Pt m) (a : Pt (m + 1)) : llRow x ⬝ᵥ a = a 0 + x ⬝ᵥ Fin.tail a := by
  simp only [dotProduct, llRow, Fin.sum_univ_succ, Fin.cons_zero, Fin.cons_succ, one_mul]
  rfl

/-- An affine function which vanishes on affinely spanning points is zero. -/
theorem affine_zero (S : Set (Pt m)) (hS : affineSpan ℝ S = ⊤) (c : ℝ) (g : Pt m) (h : ∀ x ∈ S, c + x ⬝ᵥ g = 0) : c = 0 ∧ g = 0 := by
  have hall : ∀ x : Pt m, c + x ⬝ᵥ g = 0 := by
    intro x
    have hx : x ∈ affineSpan ℝ S := by rw [hS]; exact AffineSubspace.mem_top _ _ _
    refine affineSpan_induction hx h ?_
    intro a u v w hu hv hw
    simp only [vsub_eq_sub, vadd_eq_add, add_dotProduct, smul_dotProduct, sub_dotProduct, smul_eq_mul]
    have e : u ⬝ᵥ g - v ⬝ᵥ g = 0 := by linarith
    rw [e]
    linarith
  have hc : c = 0 := by simpa using hall 0
  refine ⟨hc, ?_⟩
  have := hall g
  rw [hc, zero_add] at this
  exact dotProduct_self_eq_zero.1 this

/-- The least squares solution for affine data is the affine function. -/
theorem lstsq_affine (ls : LstsqFn m) (hls : LstsqSpec ls) (X : List (Pt m)) (hX : affineSpan ℝ {x | x ∈ X} = ⊤) (c : ℝ) (g : Pt m) (β : ℝ) (xt : Pt m)
    (a : Pt (m + 1)) (h : ls (llProblem (X.zip (X.map (fun x => c + x ⬝ᵥ g))) β xt) = some a) : a = Fin.cons c g := by
  have hdata : X.zip (X.map (fun x => c + x ⬝ᵥ g)) = X.map (fun x => (x, c + x ⬝ᵥ g)) := by
    clear h hX
    induction X with
    | nil => rfl
    | cons x xs ih => simp [ih]
  rw [hdata] at h
  have h0 : resid (llProblem (X.map (fun x => (x, c + x ⬝ᵥ g))) β xt) (Fin.cons c g) = 0 := by
    rw [resid_zero]
    intro r hr
    simp only [llProblem, List.map_map, List.mem_map, Function.comp] at hr
    obtain ⟨x, _, rfl⟩ := hr
    simp only [smul_dotProduct, smul_eq_mul, llRow_dot, Fin.cons_zero, Fin.tail_cons]
  have h1 := hls _ _ h (Fin.cons c g)
  rw [h0] at h1
  have h2 := le_antisymm h1 (resid_nonneg _ _)
  rw [resid_zero] at h2
  have h3 : ∀ x ∈ {x | x ∈ X}, (a 0 - c) + x ⬝ᵥ (Fin.tail a - g) = 0 := by
    intro x hx
    have := h2 (llWeight β xt x • llRow x, llWeight β xt x * (c + x ⬝ᵥ g)) (by
      simp only [llProblem, List.map_map, List.mem_map, Function.comp]
      exact ⟨x, hx, rfl⟩)
    simp only [smul_dotProduct, smul_eq_mul, llRow_dot] at this
    have hw : llWeight β xt x ≠ 0 := (Real.exp_pos _).ne'
    have := mul_left_cancel₀ hw this
    rw [dotProduct_sub]
    linarith
  obtain ⟨e1, e2⟩ := affine_zero _ hX _ _ h3
  have e1' : a 0 = c := by linarith
  have e2' : Fin.tail a = g := sub_eq_zero.1 e2
  rw [← e1', ← e2', Fin.cons_self_tail]

/-- **C65, partial**: for samples of the affine function `c + g·x` at affinely spanning points, every row computed for a requested
location is `(c, g)`, whatever the bandwidths, except that a failure of the least squares solver silently gives a row of
zeros. Missing: the number of rows is the number of samples rather than of locations, see `localLinear_rows_false`. -/
theorem localLinear_exact_partial (ls : LstsqFn m) (hls : LstsqSpec ls) (pb : List ℝ → ℝ → Except Err ℝ) (X : List (Pt m))
    (hX : affineSpan ℝ {x | x ∈ X} = ⊤) (c : ℝ) (g : Pt m) (perp : Option ℝ) (bw : Option Bw) (Xt : Option (List (Pt m))) (A : List (Pt (m + 1)))
    (h : localLinear ls pb X (X.map (fun x => c + x ⬝ᵥ g)) perp bw Xt = .ok A) (i : ℕ) (hi : i < (Xt.getD X).length) :
    A[i]? = some (Fin.cons c g) ∨ (A[i]? = some 0 ∧ ∃ rows, ls rows = none) := by
  obtain ⟨_, w, _, h⟩ := localLinear_ok ls pb X _ perp bw Xt A h
  obtain ⟨_, _, _, h4⟩ := llLoop_spec ls pb _ w _ _ _ _ h
  obtain ⟨β, _, h5⟩ := h4 i hi
  rw [Nat.zero_add] at h5
  cases hc : ls (llProblem (X.zip (X.map (fun x => c + x ⬝ᵥ g))) β (Xt.getD X)[i]) with
  | none =>
    rw [hc] at h5
    exact Or.inr ⟨h5, _, hc⟩
  | some a =>
    rw [hc] at h5
    rw [h5]
    left
    rw [← lstsq_affine ls hls X hX c g β _ a hc]
    rfl

/-- **C65** for the default locations: if the least squares solver does not fail, every gradient is exact, one for each sample. -/
theorem localLinearGrads_exact (ls : LstsqFn m) (hls : LstsqSpec ls) (htot : ∀ rows, ls rows ≠ none) (pb : List ℝ → ℝ → Except Err ℝ) (X : List (Pt m))
    (hX : affineSpan ℝ {x | x ∈ X} = ⊤) (c : ℝ) (g : Pt m) (perp : Option ℝ) (bw : Option Bw) (G : List (Pt m))
    (h : localLinearGrads ls pb X (X.map (fun x => c + x ⬝ᵥ g)) perp bw none = .ok G) : G = List.replicate X.length g := by
  unfold localLinearGrads at h
  split at h
  · cases h
  · rename_i A hA
    cases h
    have hl := (localLinear_length ls pb X _ perp bw none A hA).1
    rw [List.eq_replicate_iff]
    refine ⟨by rw [List.length_map, hl], fun b hb => ?_⟩
    obtain ⟨a, ha, rfl⟩ := List.mem_map.1 hb
    obtain ⟨i, hi, rfl⟩ := List.getElem_of_mem ha
    rcases localLinear_exact_partial ls hls pb X hX c g perp bw none A hA i (by simpa [hl] using hi) with h1 | ⟨_, rows, h2⟩
    · rw [List.getElem?_eq_getElem hi, Option.some.injEq] at h1
      rw [h1, Fin.tail_cons]
    · exact absurd h2 (htot rows)

/-- **C65 is false as to the number of rows**: asking for the gradient at one location from two samples gives two rows, and asking
at three locations raises an error; for every solver. -/
theorem localLinear_rows_false (ls : LstsqFn 1) (pb : List ℝ → ℝ → Except Err ℝ) :
    (∃ A, localLinear ls pb [![0], ![1]] [0, 1] none (some (.val 1)) (some [![0]]) = .ok A ∧ A.length = 2 ∧ A[1]? = some 0) ∧
    ∀ A, localLinear ls pb [![0], ![1]] [0, 1] none (some (.val 1)) (some [![0], ![1], ![2]]) ≠ .ok A := by
  constructor
  · obtain ⟨A, hA⟩ := (localLinear_ok_iff ls pb [![0], ![1]] [0, 1] 1 (some [![0]])).2 (by simp)
    refine ⟨A, hA, (localLinear_length ls pb _ _ _ _ _ A hA).1, ?_⟩
    obtain ⟨_, w, _, h⟩ := localLinear_ok ls pb _ _ _ _ _ A hA
    obtain ⟨_, _, h3, _⟩ := llLoop_spec ls pb _ w _ _ _ _ h
    rw [h3 1 (Or.inr (by simp))]
    rfl
  · intro A hA
    have := (localLinear_length ls pb _ _ _ _ _ A hA).2
    simp at this

/-- The hypotheses are met in one dimension by the points 0 and 1. -/
example : affineSpan ℝ {x : Pt 1 | x ∈ [![0], ![1]]} = ⊤ := by
  rw [eq_top_iff]
  intro x _
  have h0 : (![0] : Pt 1) ∈ affineSpan ℝ {x : Pt 1 | x ∈ [![0], ![1]]} := subset_affineSpan ℝ _ (by simp)
  have h1 : (![1] : Pt 1) ∈ affineSpan ℝ {x : Pt 1 | x ∈ [![0], ![1]]} := subset_affineSpan ℝ _ (by simp)
  have := AffineSubspace.smul_vsub_vadd_mem _ (x 0) h1 h0 h0
  convert this using 1
  funext i
  obtain rfl : i = 0 := Subsingleton.elim _ _
  simp

/-! ## What is minimized -/

/-- The locally weighted misfit of the affine function `a 0 + x · (a 1, …)`: samples at distance `r` from `xt` count with weight
`exp(-β r²)`. -/
noncomputable def localMisfit (β : ℝ) (data : List (Pt m × ℝ)) (xt : Pt m) (a : Pt (m + 1)) : ℝ :=
  (data.map fun p => Real.exp (-β * ((p.1 - xt) ⬝ᵥ (p.1 - xt))) * (a 0 + p.1 ⬝ᵥ Fin.tail a - p.2) ^ 2).sum

theorem resid_llProblem (data : List (Pt m × ℝ)) (β : ℝ) (xt : Pt m) (a : Pt (m + 1)) :
    resid (llProblem data β xt) a = localMisfit β data xt a := by
  unfold resid llProblem localMisfit
  rw [List.map_map]
  refine congrArg List.sum (List.map_congr_left fun p _ => ?_)
  simp only [Function.comp, smul_dotProduct, smul_eq_mul, llRow_dot, llWeight, sqDist]
  rw [← mul_sub, mul_pow, ← Real.exp_nat_mul]
  congr 2
  push_cast
  ring

/-- **C65**: with bandwidth `b` the model for a location minimizes the misfit weighted by `exp(-b r²/2)` over all affine functions, unless the
least squares solver fails. -/
theorem localLinear_minimizes (ls : LstsqFn m) (hls : LstsqSpec ls) (pb : List ℝ → ℝ → Except Err ℝ) (X : List (Pt m)) (fX : List ℝ) (b : ℝ)
    (Xt : Option (List (Pt m))) (A : List (Pt (m + 1))) (h : localLinear ls pb X fX none (some (.val b)) Xt = .ok A) (i : ℕ)
    (hi : i < (Xt.getD X).length) :
    (∃ a, A[i]? = some a ∧ ∀ c, localMisfit (b / 2) (X.zip fX) (Xt.getD X)[i] a ≤ localMisfit (b / 2) (X.zip fX) (Xt.getD X)[i] c) ∨
      (A[i]? = some 0 ∧ ∃ rows, ls rows = none) := by
  obtain ⟨hl, w, hw, hloop⟩ := localLinear_ok ls pb X fX none _ Xt A h
  cases hw
  obtain ⟨-, -, -, h4⟩ := llLoop_spec ls pb _ _ _ _ _ _ hloop
  obtain ⟨β, hβ, hA⟩ := h4 i hi
  obtain rfl : 0.5 * b = β := Except.ok.inj hβ
  rw [zero_add] at hA
  cases hc : ls (llProblem (X.zip fX) (0.5 * b) (Xt.getD X)[i]) with
  | none =>
    rw [hc] at hA
    exact Or.inr ⟨hA, _, hc⟩
  | some a =>
    rw [hc] at hA
    refine Or.inl ⟨a, hA, fun c => ?_⟩
    have := hls _ _ hc c
    rw [resid_llProblem, resid_llProblem] at this
    rwa [show b / 2 = 0.5 * b by norm_num; ring]

/-- **C65**: with a perplexity, the weights are those whose parameter is found by the bandwidth routine for the squared distances from the location. -/
theorem localLinear_minimizes_perplexity (ls : LstsqFn m) (hls : LstsqSpec ls) (pb : List ℝ → ℝ → Except Err ℝ) (X : List (Pt m)) (fX : List ℝ)
    (p : ℝ) (bw : Option Bw) (Xt : Option (List (Pt m))) (A : List (Pt (m + 1))) (h : localLinear ls pb X fX (some p) bw Xt = .ok A) (i : ℕ)
    (hi : i < (Xt.getD X).length) : 2 ≤ p ∧ p < X.length ∧
    ∃ β, pb (X.map fun x => (x - (Xt.getD X)[i]) ⬝ᵥ (x - (Xt.getD X)[i])) p = .ok β ∧
    ((∃ a, A[i]? = some a ∧ ∀ c, localMisfit β (X.zip fX) (Xt.getD X)[i] a ≤ localMisfit β (X.zip fX) (Xt.getD X)[i] c) ∨
      (A[i]? = some 0 ∧ ∃ rows, ls rows = none)) := by
  obtain ⟨hl, w, hw, hloop⟩ := localLinear_ok ls pb X fX (some p) _ Xt A h
  have hp : 2 ≤ p ∧ p < X.length := by
    by_contra hp
    rw [llWidth, llPerp, llChoose, if_neg hp] at hw
    cases hw
  rw [llWidth, llPerp, llChoose, if_pos hp] at hw
  cases hw
  obtain ⟨-, -, -, h4⟩ := llLoop_spec ls pb _ _ _ _ _ _ hloop
  obtain ⟨β, hβ, hA⟩ := h4 i hi
  rw [List.map_fst_zip hl.ge] at hβ
  refine ⟨hp.1, hp.2, β, hβ, ?_⟩
  rw [zero_add] at hA
  cases hc : ls (llProblem (X.zip fX) β (Xt.getD X)[i]) with
  | none =>
    rw [hc] at hA
    exact Or.inr ⟨hA, _, hc⟩
  | some a =>
    rw [hc] at hA
    refine Or.inl ⟨a, hA, fun c => ?_⟩
    have := hls _ _ hc c
    rwa [resid_llProblem, resid_llProblem] at this

end Verif.Misc
