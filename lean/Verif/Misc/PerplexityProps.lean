import Verif.Misc.PerplexityModel
import Verif.Misc.LocalProps
import Mathlib.Analysis.Calculus.Deriv.MeanValue
import Mathlib.Analysis.SpecialFunctions.ExpDeriv
import Mathlib.Analysis.SpecialFunctions.Log.Deriv
import Mathlib.Analysis.Complex.ExponentialBounds

/-!
# Properties of the bandwidth with a given perplexity (C81)
-/

namespace Verif.Misc

open Verif Verif.Domain Verif.Lip

/-! ## Calculus of the entropy -/

/-- Moments of the weights. -/
noncomputable def mo (d : List ℝ) (k : ℕ) (β : ℝ) : ℝ := ∑ i : Fin d.length, d[i] ^ k * Real.exp (-β * d[i])

theorem sumP_eq (d : List ℝ) (β : ℝ) : sumP β d = mo d 0 β := by
  unfold sumP mo
  rw [← List.sum_ofFn]
  congr 1
  apply List.ext_getElem <;> simp

theorem logEntropy_eq (d : List ℝ) (β : ℝ) : logEntropy β d = β * (mo d 1 β / mo d 0 β) + Real.log (mo d 0 β) := by
  unfold logEntropy
  rw [sumP_eq]
  congr 2
  unfold mo
  rw [Finset.sum_div, ← List.sum_ofFn]
  congr 1
  apply List.ext_getElem
  · simp
  · intro i h1 h2
    simp
    ring

theorem mo_deriv (d : List ℝ) (k : ℕ) (β : ℝ) : HasDerivAt (mo d k) (-mo d (k + 1) β) β := by
  unfold mo
  rw [← Finset.sum_neg_distrib]
  refine HasDerivAt.fun_sum fun i _ => ?_
  have h1 : HasDerivAt (fun b : ℝ => -b * d[i]) (-d[i]) β := by
    simpa using (hasDerivAt_id β).neg.mul_const d[i]
  have h2 := (h1.exp).const_mul (d[i] ^ k)
  exact h2.congr_deriv (by rw [pow_succ]; ring)

theorem mo_pos (d : List ℝ) (hd : d ≠ []) (β : ℝ) : 0 < mo d 0 β := by
  unfold mo
  refine Finset.sum_pos (fun i _ => by simpa using Real.exp_pos _) ?_
  exact ⟨⟨0, List.length_pos_iff.2 hd⟩, Finset.mem_univ _⟩

theorem logEntropy_deriv (d : List ℝ) (hd : d ≠ []) (β : ℝ) :
    HasDerivAt (fun b => logEntropy b d) (-β * (mo d 2 β * mo d 0 β - mo d 1 β ^ 2) / mo d 0 β ^ 2) β := by
  have hz := (mo_pos d hd β).ne'
  have e : (fun b => logEntropy b d) = fun b => b * (mo d 1 b / mo d 0 b) + Real.log (mo d 0 b) := by
    funext b
    exact logEntropy_eq d b
  rw [e]
  have h0 := mo_deriv d 0 β
  have h1 := mo_deriv d 1 β
  have := ((hasDerivAt_id β).mul (h1.div h0 hz)).add (h0.log hz)
  refine this.congr_deriv ?_
  simp only [id, Nat.reduceAdd, Pi.div_apply]
  field_simp
  ring

theorem logEntropy_continuous (d : List ℝ) (hd : d ≠ []) : Continuous (fun b => logEntropy b d) :=
  continuous_iff_continuousAt.2 fun b => (logEntropy_deriv d hd b).continuousAt

theorem variance_pos (d : List ℝ) (β : ℝ) (a b : ℝ) (ha : a ∈ d) (hb : b ∈ d) (hab : a ≠ b) : 0 < mo d 2 β * mo d 0 β - mo d 1 β ^ 2 := by
  have key : 2 * (mo d 2 β * mo d 0 β - mo d 1 β ^ 2) =
      ∑ i : Fin d.length, ∑ j : Fin d.length, Real.exp (-β * d[i]) * Real.exp (-β * d[j]) * (d[i] - d[j]) ^ 2 := by
    have e : ∀ i j : Fin d.length, Real.exp (-β * d[i]) * Real.exp (-β * d[j]) * (d[i] - d[j]) ^ 2 =
        (d[i] ^ 2 * Real.exp (-β * d[i])) * (d[j] ^ 0 * Real.exp (-β * d[j])) + (d[i] ^ 0 * Real.exp (-β * d[i])) * (d[j] ^ 2 * Real.exp (-β * d[j]))
          - 2 * ((d[i] ^ 1 * Real.exp (-β * d[i])) * (d[j] ^ 1 * Real.exp (-β * d[j]))) := by
      intro i j; ring
    simp only [e, Finset.sum_sub_distrib, Finset.sum_add_distrib, ← Finset.mul_sum, ← Finset.sum_mul]
    unfold mo
    ring
  obtain ⟨i, hi, rfl⟩ := List.getElem_of_mem ha
  obtain ⟨j, hj, rfl⟩ := List.getElem_of_mem hb
  have hpos : 0 < ∑ i : Fin d.length, ∑ j : Fin d.length, Real.exp (-β * d[i]) * Real.exp (-β * d[j]) * (d[i] - d[j]) ^ 2 := by
    refine Finset.sum_pos' (fun i _ => Finset.sum_nonneg fun j _ => by positivity) ⟨⟨i, hi⟩, Finset.mem_univ _, ?_⟩
    refine Finset.sum_pos' (fun j _ => by positivity) ⟨⟨j, hj⟩, Finset.mem_univ _, ?_⟩
    have : d[i] - d[j] ≠ 0 := sub_ne_zero.2 hab
    simp only [Fin.getElem_fin]
    positivity
  linarith

/-- The entropy decreases strictly with the bandwidth parameter, unless all distances agree. -/
theorem logEntropy_strictAnti (d : List ℝ) (a b : ℝ) (ha : a ∈ d) (hb : b ∈ d) (hab : a ≠ b) :
    StrictAntiOn (fun β => logEntropy β d) (Set.Ici 0) := by
  have hd : d ≠ [] := List.ne_nil_of_mem ha
  refine strictAntiOn_of_deriv_neg (convex_Ici 0) (logEntropy_continuous d hd).continuousOn ?_
  intro β hβ
  rw [interior_Ici, Set.mem_Ioi] at hβ
  rw [(logEntropy_deriv d hd β).deriv]
  have h1 := variance_pos d β a b ha hb hab
  have h2 := mo_pos d hd β
  have : 0 < β * (mo d 2 β * mo d 0 β - mo d 1 β ^ 2) / mo d 0 β ^ 2 := by positivity
  have e : -β * (mo d 2 β * mo d 0 β - mo d 1 β ^ 2) / mo d 0 β ^ 2 = -(β * (mo d 2 β * mo d 0 β - mo d 1 β ^ 2) / mo d 0 β ^ 2) := by ring
  rw [e]
  linarith

/-! ## What a returned bandwidth is -/

theorem perp_ok (root : RootFn) (d : List ℝ) (p β : ℝ) (h : perpBandwidth root d p = .ok β) :
    ∃ p1 dM d1 δ2, computeP1 root d.length p = .ok p1 ∧ d.max? = some dM ∧ minPos d = some d1 ∧ minPos (d.map (fun x => x - d1)) = some δ2 ∧
      root (fun β => logEntropy β d - Real.log p) (beta1 d.length p dM d1) (beta2 d.length δ2 p1) = some β := by
  unfold perpBandwidth at h
  split at h
  · cases h
  · rename_i p1 hp1
    split at h
    · cases h
    · rename_i dM hdM
      split at h
      · cases h
      · rename_i d1 hd1
        split at h
        · cases h
        · rename_i δ2 hδ2
          split at h
          · cases h
          · rename_i b hb
            cases h
            exact ⟨p1, dM, d1, δ2, hp1, hdM, hd1, hδ2, hb⟩

theorem minPos_spec (d : List ℝ) (x : ℝ) (h : minPos d = some x) : x ∈ d ∧ 0 < x ∧ ∀ y ∈ d, 0 < y → x ≤ y := by
  unfold minPos at h
  rw [List.min?_eq_some_iff] at h
  obtain ⟨h1, h2⟩ := h
  rw [List.mem_filter] at h1
  refine ⟨h1.1, by simpa using h1.2, fun y hy hy0 => h2 y (List.mem_filter.2 ⟨hy, by simpa using hy0⟩)⟩

/-- **C81**: a returned bandwidth attains the requested perplexity exactly. -/
theorem perp_attained (root : RootFn) (hr : RootSpec root) (d : List ℝ) (p β : ℝ) (h : perpBandwidth root d p = .ok β) :
    logEntropy β d = Real.log p := by
  obtain ⟨_, _, _, _, _, _, _, _, hb⟩ := perp_ok root d p β h
  have := (hr.sound _ _ _ _ hb).1
  linarith

theorem log_min_pos (M : ℕ) (p : ℝ) (hM : 1 ≤ M) (hp : 2 ≤ p) : 0 < Real.log (min (Real.sqrt (2 * M)) p) := by
  apply Real.log_pos
  refine lt_min ?_ (by linarith)
  have : (1:ℝ) ≤ M := by exact_mod_cast hM
  rw [Real.lt_sqrt (by norm_num)]
  linarith

theorem p1Fun_half (M : ℕ) (p : ℝ) (hM : 1 ≤ M) (hp : 2 ≤ p) : 0 ≤ p1Fun M p 0.5 := by
  unfold p1Fun
  have hM' : (1:ℝ) ≤ M := by exact_mod_cast hM
  have h1 : Real.log (min (Real.sqrt (2 * M)) p) ≤ Real.log (Real.sqrt (2 * M)) := by
    apply Real.log_le_log
    · exact lt_min (Real.sqrt_pos.2 (by linarith)) (by linarith)
    · exact min_le_left _ _
  have h2 : Real.log (Real.sqrt (2 * M)) = 0.5 * (Real.log 2 + Real.log M) := by
    rw [Real.log_sqrt (by linarith), Real.log_mul (by norm_num) (by linarith)]
    ring
  have h3 : Real.log (0.5 : ℝ) = -Real.log 2 := by
    rw [show (0.5:ℝ) = 2⁻¹ by norm_num, Real.log_inv]
  rw [h2] at h1
  rw [h3]
  linarith

theorem p1Fun_zero (M : ℕ) (p : ℝ) : p1Fun M p 0 = -Real.log (min (Real.sqrt (2 * M)) p) := by
  unfold p1Fun
  ring

theorem p1Fun_continuous (M : ℕ) (p : ℝ) : Continuous (p1Fun M p) := by
  unfold p1Fun
  exact ((continuous_id.mul continuous_const).sub Real.continuous_mul_log).sub continuous_const

/-- The constant `p1` is always found, and lies in `[3/4, 1)`. -/
theorem computeP1_ok (root : RootFn) (hr : RootSpec root) (M : ℕ) (p : ℝ) (hM : 1 ≤ M) (hp : 2 ≤ p) :
    ∃ p1, computeP1 root M p = .ok p1 ∧ 3 / 4 ≤ p1 ∧ p1 < 1 := by
  have h0 := log_min_pos M p hM hp
  have h5 := p1Fun_half M p hM hp
  have hsign : p1Fun M p 0 * p1Fun M p 0.5 ≤ 0 := by
    rw [p1Fun_zero]
    nlinarith
  unfold computeP1
  cases hc : root (p1Fun M p) 0 0.5 with
  | none => exact absurd hc (hr.total _ _ _ (p1Fun_continuous M p) hsign)
  | some x =>
    obtain ⟨e1, e2, e3⟩ := hr.sound _ _ _ _ hc
    have hx : x ≠ 0 := by
      rintro rfl
      rw [p1Fun_zero] at e1
      linarith
    rw [min_eq_left (by norm_num)] at e2
    rw [max_eq_right (by norm_num)] at e3
    have : 0 < x := lt_of_le_of_ne e2 (Ne.symm hx)
    exact ⟨_, rfl, by norm_num at e3; linarith, by linarith⟩

/-- **C81**: a returned bandwidth is positive, and it is the only nonnegative number attaining the perplexity. -/
theorem perp_unique (root : RootFn) (hr : RootSpec root) (d : List ℝ) (p β : ℝ) (hp : 2 ≤ p) (hpM : p < d.length)
    (h : perpBandwidth root d p = .ok β) : 0 < β ∧ ∀ b, 0 ≤ b → logEntropy b d = Real.log p → b = β := by
  have hatt := perp_attained root hr d p β h
  obtain ⟨p1, dM, d1, δ2, hp1, hdM, hd1, hδ2, hb⟩ := perp_ok root d p β h
  have hM : 1 ≤ d.length := by
    have : (0:ℝ) < d.length := by linarith
    exact_mod_cast this
  obtain ⟨m1, m2, m3⟩ := minPos_spec _ _ hd1
  obtain ⟨n1, n2, n3⟩ := minPos_spec _ _ hδ2
  obtain ⟨y, hy, rfl⟩ := List.mem_map.1 n1
  obtain ⟨q, hq, hq1, hq2⟩ := computeP1_ok root hr d.length p hM hp
  rw [hq] at hp1
  cases hp1
  have hM2 : (2:ℝ) < d.length := by linarith
  have hmem := (List.max?_eq_some_iff.1 hdM)
  have hdd : 0 < dM - d1 := by linarith [hmem.2 y hy]
  have b1 : 0 < beta1 d.length p dM d1 := by
    unfold beta1
    refine lt_of_lt_of_le ?_ (le_max_left _ _)
    have hl : 0 < Real.log (d.length / p) := Real.log_pos (by rw [lt_div_iff₀ (by linarith)]; linarith)
    have : (0:ℝ) < d.length - 1 := by linarith
    positivity
  have b2 : 0 < beta2 d.length (y - d1) p1 := by
    unfold beta2
    have h1 : 3 ≤ p1 / (1 - p1) := by rw [le_div_iff₀ (by linarith)]; linarith
    have hl : 0 < Real.log (p1 / (1 - p1) * (d.length - 1)) := Real.log_pos (by nlinarith)
    positivity
  have hβ : 0 < β := lt_of_lt_of_le (lt_min b1 b2) (hr.sound _ _ _ _ hb).2.1
  refine ⟨hβ, fun b hb0 hbe => ?_⟩
  have hanti := logEntropy_strictAnti d y d1 hy m1 (by intro e; rw [e] at n2; linarith)
  exact hanti.injOn hb0 hβ.le (hbe.trans hatt.symm)

/-! ## Failures -/

/-- **C81 is false for equal distances**: if all positive distances agree, the call raises an error for every root finder. -/
theorem perp_equal_fails (root : RootFn) (d : List ℝ) (p c : ℝ) (hd : ∀ x ∈ d, x = 0 ∨ x = c) : ∃ e, perpBandwidth root d p = .error e := by
  cases h : perpBandwidth root d p with
  | error e => exact ⟨e, rfl⟩
  | ok β =>
    exfalso
    obtain ⟨p1, dM, d1, δ2, _, _, hd1, hδ2, _⟩ := perp_ok root d p β h
    obtain ⟨m1, m2, _⟩ := minPos_spec _ _ hd1
    obtain ⟨n1, n2, _⟩ := minPos_spec _ _ hδ2
    obtain ⟨y, hy, rfl⟩ := List.mem_map.1 n1
    rcases hd d1 m1 with e1 | e1 <;> rcases hd y hy with e2 | e2 <;> rw [e1] at m2 n2 <;> rw [e2] at n2 <;> linarith

/-- There is a bandwidth with perplexity two for the squared distances `1, 0, 1`. -/
theorem equal_exists : ∃ β, 0 ≤ β ∧ logEntropy β [1, 0, 1] = Real.log 2 := by
  have hc := (logEntropy_continuous [1, 0, 1] (by simp)).continuousOn (s := Set.Icc 0 4)
  have h0 : logEntropy 0 [1, 0, 1] = Real.log 3 := by
    simp [logEntropy, sumP]
    norm_num
  have h4 : logEntropy 4 [1, 0, 1] < Real.log 2 := by
    have e : logEntropy 4 [1, 0, 1] = 4 * (2 * Real.exp (-4) / (1 + 2 * Real.exp (-4))) + Real.log (1 + 2 * Real.exp (-4)) := by
      simp only [logEntropy, sumP, List.map_cons, List.map_nil, List.sum_cons, List.sum_nil, mul_zero, mul_one, Real.exp_zero]
      congr 1
      · ring
      · congr 1; ring
    have h1 : Real.exp (-4) < 1 / 50 := by
      rw [Real.exp_neg, inv_lt_comm₀ (Real.exp_pos _) (by norm_num)]
      have : Real.exp 1 ^ 4 = Real.exp 4 := by rw [← Real.exp_nat_mul]; norm_num
      rw [← this]
      have := Real.exp_one_gt_d9
      calc ((1:ℝ) / 50)⁻¹ = 50 := by norm_num
        _ < 2.7 ^ 4 := by norm_num
        _ ≤ Real.exp 1 ^ 4 := pow_le_pow_left₀ (by norm_num) (by linarith) 4
    have h2 := Real.exp_pos (-4)
    have h3 : Real.log (1 + 2 * Real.exp (-4)) ≤ 2 * Real.exp (-4) := by
      have := Real.log_le_sub_one_of_pos (show 0 < 1 + 2 * Real.exp (-4) by linarith)
      linarith
    have h5 : 2 * Real.exp (-4) / (1 + 2 * Real.exp (-4)) ≤ 2 * Real.exp (-4) := div_le_self (by linarith) (by linarith)
    have := Real.log_two_gt_d9
    rw [e]
    linarith
  have h3 : Real.log 2 ≤ Real.log 3 := Real.log_le_log (by norm_num) (by norm_num)
  obtain ⟨β, hβ, he⟩ := intermediate_value_Icc' (by norm_num : (0:ℝ) ≤ 4) hc ⟨h4.le, by rw [h0]; exact h3⟩
  exact ⟨β, hβ.1, he⟩

/-- **C81 is false**: for the squared distances `1, 0, 1` and perplexity two the call raises an error, although the perplexity can
be attained. -/
theorem perp_equal_false (root : RootFn) : (∃ e, perpBandwidth root [1, 0, 1] 2 = .error e) ∧ ∃ β, 0 ≤ β ∧ logEntropy β [1, 0, 1] = Real.log 2 :=
  ⟨perp_equal_fails root _ 2 1 (by simp), equal_exists⟩

/-- So the default gradient estimate fails for three equally spaced samples on the line, for all solvers. -/
theorem localLinear_equispaced_false (ls : LstsqFn 1) (root : RootFn) (fX : List ℝ) (A : List (Pt 2)) :
    localLinear ls (perpBandwidth root) [![0], ![1], ![2]] fX none none none ≠ .ok A := by
  intro h
  obtain ⟨hl, w, hw, h⟩ := localLinear_ok ls _ _ _ _ _ _ A h
  simp only [llWidth, llPerp, llChoose] at hw
  split at hw
  · cases hw
    obtain ⟨_, _, _, h4⟩ := llLoop_spec ls _ _ _ _ _ _ _ h
    obtain ⟨β, h5, _⟩ := h4 1 (by simp)
    simp only [llBeta] at h5
    have e : (List.map (fun x => x.1) (List.zip [![0], ![1], ![2]] fX)) = ([![0], ![1], ![2]] : List (Pt 1)) := by
      have := List.map_fst_zip (l₁ := ([![0], ![1], ![2]] : List (Pt 1))) (l₂ := fX) (by omega)
      exact this
    rw [e] at h5
    obtain ⟨er, he⟩ := perp_equal_fails root (List.map (fun x => sqDist x ((none : Option (List (Pt 1))).getD [![0], ![1], ![2]])[1]) [![0], ![1], ![2]])
      ((min (1 + 1) [![0], ![1], (![2] : Pt 1)].length : ℕ) : ℝ) 1 (by
        intro x hx
        simp [sqDist, dotProduct] at hx
        rcases hx with rfl | rfl | rfl
        · right; rfl
        · left; rfl
        · right; norm_num)
    rw [he] at h5
    cases h5
  · cases hw

/-- Squared distances `0, δ, 2δ, 3δ`. -/
def dLin (δ : ℝ) : List ℝ := [0, δ, 2 * δ, 3 * δ]

theorem entropy_small (δ β : ℝ) (hδ : 0 < δ) (hβ : Real.log 9 / δ ≤ β) : logEntropy β (dLin δ) < Real.log 2 := by
  have h9 : 0 < Real.log 9 := Real.log_pos (by norm_num)
  have hb0 : 0 < Real.log 9 / δ := by positivity
  have hanti := (logEntropy_strictAnti (dLin δ) 0 δ (by simp [dLin]) (by simp [dLin]) hδ.ne).antitoneOn hb0.le (hb0.le.trans hβ) hβ
  refine lt_of_le_of_lt hanti ?_
  have e1 : Real.exp (-(Real.log 9 / δ) * δ) = 1 / 9 := by
    rw [show -(Real.log 9 / δ) * δ = -Real.log 9 by field_simp, Real.exp_neg, Real.exp_log (by norm_num)]
    norm_num
  have e2 : Real.exp (-(Real.log 9 / δ) * (2 * δ)) = 1 / 81 := by
    rw [show -(Real.log 9 / δ) * (2 * δ) = (-(Real.log 9 / δ) * δ) + (-(Real.log 9 / δ) * δ) by ring, Real.exp_add, e1]
    norm_num
  have e3 : Real.exp (-(Real.log 9 / δ) * (3 * δ)) = 1 / 729 := by
    rw [show -(Real.log 9 / δ) * (3 * δ) = (-(Real.log 9 / δ) * δ) + (-(Real.log 9 / δ) * (2 * δ)) by ring, Real.exp_add, e1, e2]
    norm_num
  have hs : sumP (Real.log 9 / δ) (dLin δ) = 820 / 729 := by
    simp only [sumP, dLin, List.map_cons, List.map_nil, List.sum_cons, List.sum_nil, e1, e2, e3, mul_zero, Real.exp_zero]
    norm_num
  have hl : logEntropy (Real.log 9 / δ) (dLin δ) = Real.log 9 * (102 / 820) + Real.log (820 / 729) := by
    unfold logEntropy
    rw [hs]
    congr 1
    simp only [dLin, List.map_cons, List.map_nil, List.sum_cons, List.sum_nil, e1, e2, e3, mul_zero]
    field_simp
    ring
  rw [hl]
  have h1 : Real.log (820 / 729) ≤ 820 / 729 - 1 := Real.log_le_sub_one_of_pos (by norm_num)
  have h2 : Real.log 9 ≤ 4 * Real.log 2 := by
    rw [show 4 * Real.log 2 = Real.log (2 ^ 4) by rw [Real.log_pow]; norm_num]
    exact Real.log_le_log (by norm_num) (by norm_num)
  have h3 := Real.log_two_gt_d9
  have h4 := Real.log_two_lt_d9
  linarith

/-- **C81 is false for small distances**: for the squared distances `0, δ, 2δ, 3δ` with `0 < δ ≤ 1/100` and perplexity two, both ends of
the bracket lie above the solution, and the call raises an error for every root finder; for the lower end uses fourth powers of
squared distances, so it does not scale like a bandwidth. -/
theorem perp_scale_false (root : RootFn) (hr : RootSpec root) (δ : ℝ) (hδ : 0 < δ) (hs : δ ≤ 1 / 100) :
    perpBandwidth root (dLin δ) 2 = .error .valueError := by
  have hd1 : minPos (dLin δ) = some δ := by
    have : (dLin δ).filter (fun x => decide (0 < x)) = [δ, 2 * δ, 3 * δ] := by simp [dLin, hδ]
    rw [minPos, this, List.min?_eq_some_iff]
    refine ⟨by simp, ?_⟩
    intro b hb
    simp at hb
    rcases hb with rfl | rfl | rfl <;> linarith
  have hδ2 : minPos ((dLin δ).map (fun x => x - δ)) = some δ := by
    have : ((dLin δ).map (fun x => x - δ)).filter (fun x => decide (0 < x)) = [2 * δ - δ, 3 * δ - δ] := by
      have h1 : δ < 2 * δ := by linarith
      have h2 : δ < 3 * δ := by linarith
      have h3 : ¬ δ < 0 := by linarith
      simp [dLin, h1, h2, h3]
    rw [minPos, this, List.min?_eq_some_iff]
    refine ⟨by simp; left; ring, ?_⟩
    intro b hb
    simp at hb
    rcases hb with rfl | rfl <;> linarith
  have hdM : (dLin δ).max? = some (3 * δ) := by
    rw [List.max?_eq_some_iff]
    refine ⟨by simp [dLin], ?_⟩
    intro b hb
    simp [dLin] at hb
    rcases hb with rfl | rfl | rfl | rfl <;> linarith
  obtain ⟨p1, hp1, hq1, hq2⟩ := computeP1_ok root hr (dLin δ).length 2 (by simp [dLin]) le_rfl
  have hlen : ((dLin δ).length : ℝ) = 4 := by simp [dLin]
  have h9 : Real.log 9 ≤ 4 * Real.log 2 := by
    rw [show 4 * Real.log 2 = Real.log (2 ^ 4) by rw [Real.log_pow]; norm_num]
    exact Real.log_le_log (by norm_num) (by norm_num)
  have l2 := Real.log_two_gt_d9
  have l2' := Real.log_two_lt_d9
  have hb1 : Real.log 9 / δ ≤ beta1 (dLin δ).length 2 (3 * δ) δ := by
    unfold beta1
    refine le_trans ?_ (le_max_right _ _)
    apply Real.le_sqrt_of_sq_le
    rw [hlen, show ((4:ℝ) / 2) = 2 by norm_num, show (3 * δ) ^ 4 - δ ^ 4 = 80 * δ ^ 4 by ring, div_pow, div_le_div_iff₀ (by positivity) (by positivity)]
    have h1 : Real.log 9 ^ 2 ≤ 9 := by
      have : 0 < Real.log 9 := Real.log_pos (by norm_num)
      nlinarith
    have h2 : δ ^ 2 ≤ (1 / 100) ^ 2 := pow_le_pow_left₀ hδ.le hs 2
    have h3 : Real.log 9 ^ 2 * (80 * δ ^ 2) ≤ Real.log 2 := by nlinarith [sq_nonneg δ, sq_nonneg (Real.log 9)]
    calc Real.log 9 ^ 2 * (80 * δ ^ 4) = (Real.log 9 ^ 2 * (80 * δ ^ 2)) * δ ^ 2 := by ring
      _ ≤ Real.log 2 * δ ^ 2 := mul_le_mul_of_nonneg_right h3 (sq_nonneg _)
  have hb2 : Real.log 9 / δ ≤ beta2 (dLin δ).length δ p1 := by
    unfold beta2
    rw [hlen, div_eq_mul_one_div, mul_comm]
    refine mul_le_mul_of_nonneg_left ?_ (by positivity)
    have h1 : 3 ≤ p1 / (1 - p1) := by rw [le_div_iff₀ (by linarith)]; linarith
    exact Real.log_le_log (by norm_num) (by linarith)
  unfold perpBandwidth
  simp only [hp1, hdM, hd1, hδ2]
  have hf : root (fun β => logEntropy β (dLin δ) - Real.log 2) (beta1 (dLin δ).length 2 (3 * δ) δ) (beta2 (dLin δ).length δ p1) = none := by
    apply hr.fail
    have e1 := entropy_small δ _ hδ hb1
    have e2 := entropy_small δ _ hδ hb2
    nlinarith
  rw [hf]

/-- Root finders meeting the specification exist. -/
theorem exists_root : ∃ root : RootFn, RootSpec root := by
  classical
  refine ⟨fun f a b => if h : f a * f b ≤ 0 ∧ ∃ r, f r = 0 ∧ min a b ≤ r ∧ r ≤ max a b then some h.2.choose else none, ?_, ?_, ?_⟩
  · intro f a b h
    rw [dif_neg]
    rintro ⟨h1, _⟩
    linarith
  · intro f a b r h
    split at h
    · rename_i hh
      cases h
      exact hh.2.choose_spec
    · cases h
  · intro f a b hf h
    have : f a * f b ≤ 0 ∧ ∃ r, f r = 0 ∧ min a b ≤ r ∧ r ≤ max a b := by
      refine ⟨h, ?_⟩
      have h0 : (0:ℝ) ∈ Set.uIcc (f a) (f b) := by
        rw [Set.mem_uIcc]
        rcases mul_nonpos_iff.1 h with ⟨h1, h2⟩ | ⟨h1, h2⟩
        · right; exact ⟨h2, h1⟩
        · left; exact ⟨h1, h2⟩
      obtain ⟨r, hr, e⟩ := intermediate_value_uIcc hf.continuousOn h0
      exact ⟨r, e, hr.1, hr.2⟩
    rw [dif_pos this]
    simp

end Verif.Misc
