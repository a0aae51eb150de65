import Verif.Sample.DesignModel
import Verif.Sample.OneDProps
import Verif.Sample.ClusterProps
import Verif.Sample.ScaleProps

/-!
# The high level interface to minimax designs (C171)

Source: `/repo/psdr/sample/minimax.py` 474-487.
-/

namespace Verif.Samp

open Verif Verif.Domain Verif.Geo Matrix

variable {m : ℕ}

/-! ### Specification -/

/-- Every point of `D` is within `ρ` of a point of `Y`, for the metric with the rows `L`. -/
def SetCovers {k : ℕ} (L : Matrix (Fin k) (Fin m) ℝ) (D Y : Set (Lip.Pt m)) (ρ : ℝ) : Prop := ∀ x ∈ D, ∃ y ∈ Y, Lip.ldist L y x ≤ ρ

/-- The Sobol' sequence of the domain `D`: the number of points asked for, all inside (C41). -/
def SobolSpec (D : Set (Lip.Pt m)) (sobol : ℕ → Except Err (List (Lip.Pt m))) : Prop := ∀ n X, sobol n = .ok X → X.length = n ∧ ∀ x ∈ X, x ∈ D

/-- The metric has one row: it is one-dimensional. -/
def OneRow (L : MetricArg m) : Prop := (L = none ∧ m = 1) ∨ ∃ l, L = some [l]

/-! ### Properties -/

theorem oneRow_error {L : MetricArg m} (h : ¬ OneRow L) : oneRow m L = .error .assertion := by
  rcases L with _ | rows
  · have : m ≠ 1 := fun e => h (Or.inl ⟨rfl, e⟩)
    simp [oneRow, this]
  · rcases rows with _ | ⟨l, _ | ⟨l', t⟩⟩
    · rfl
    · exact absurd (Or.inr ⟨l, rfl⟩) h
    · rfl

/-- C171: which algorithm is used. -/
theorem minimaxDesign_choice (corner : Lip.Pt m → Lip.Pt m) (sobol : ℕ → Except Err (List (Lip.Pt m))) (center : ∀ k, Matrix (Fin k) (Fin m) ℝ → Center m)
    (L : MetricArg m) (xtol : ℝ) (maxiter N : ℕ) : (OneRow L → minimaxDesign corner sobol center L xtol maxiter N = minimax1d corner N L) ∧
      (¬ OneRow L → minimaxDesign corner sobol center L xtol maxiter N = clusterDefault sobol center L xtol maxiter N) := by
  constructor
  · intro h
    obtain ⟨l, hl⟩ := (oneRow_ok_iff L).2 h
    have : ∀ e, minimax1d corner N L = .error e → e ≠ .assertion := by
      intro e he
      unfold minimax1d at he
      rw [hl] at he
      change (if N = 0 then _ else _) = _ at he
      split_ifs at he
      · cases he; simp
      · cases he
    unfold minimaxDesign
    split
    · next h' => exact absurd rfl (this _ h')
    · rfl
  · intro h
    have : minimax1d corner N L = .error .assertion := by unfold minimax1d; rw [oneRow_error h]; rfl
    unfold minimaxDesign
    rw [this]

/-- The metric with one row as a matrix. -/
theorem ldist_metric_one (l x y : Lip.Pt m) : Lip.ldist (metricMat (some [l])).2 y x = dist1 l x y := by
  have key : ∀ A : Matrix (Fin 1) (Fin m) ℝ, (∀ i, A i = l) → Lip.ldist A y x = Real.sqrt ((l ⬝ᵥ (y - x)) * (l ⬝ᵥ (y - x))) := by
    intro A hA
    have e : A *ᵥ (y - x) = fun _ : Fin 1 => l ⬝ᵥ (y - x) := by
      funext i
      show A i ⬝ᵥ (y - x) = _
      rw [hA]
    unfold Lip.ldist Lip.nrm
    rw [← Matrix.mulVec_sub, e]
    simp [dotProduct]
  have this : Lip.ldist (metricMat (some [l])).2 y x = Real.sqrt ((l ⬝ᵥ (y - x)) * (l ⬝ᵥ (y - x))) :=
    key (metricMat (some [l])).2 fun i => by
      have hi : i = 0 := Subsingleton.elim _ _
      rw [hi]; rfl
  rw [this, Real.sqrt_mul_self_eq_abs, dist1, dotProduct_sub, abs_sub_comm]

theorem ldist_metric_none (x y : Lip.Pt 1) : Lip.ldist (metricMat (m := 1) none).2 y x = dist1 (fun _ => 1) x y := by
  have : Lip.ldist (metricMat (m := 1) none).2 y x = Real.sqrt ((y 0 - x 0) * (y 0 - x 0)) := by
    unfold Lip.ldist Lip.nrm
    congr 1
    have e : (metricMat (m := 1) none).2 *ᵥ (y - x) = y - x := one_mulVec _
    rw [← Matrix.mulVec_sub, e]
    exact Fin.sum_univ_one _
  rw [this, Real.sqrt_mul_self_eq_abs, abs_sub_comm]
  simp [dist1, dotProduct]

/-- C171: for one-dimensional metrics and one-dimensional domains the design exists for every positive number of points, has this number of points, all in the domain,
and no design covers the domain with a smaller radius. -/
theorem minimaxDesign_exact {D : Set (Lip.Pt m)} (hD : Convex ℝ D) {corner : Lip.Pt m → Lip.Pt m} (hc : CornerExact D corner)
    (sobol : ℕ → Except Err (List (Lip.Pt m))) (center : ∀ k, Matrix (Fin k) (Fin m) ℝ → Center m) {L : MetricArg m} (hL : OneRow L) (xtol : ℝ) (maxiter : ℕ)
    {N : ℕ} (hN : N ≠ 0) : ∃ X, minimaxDesign corner sobol center L xtol maxiter N = .ok X ∧ X.length = N ∧ (∀ x ∈ X, x ∈ D) ∧
      ∀ (Y : Fin N → Lip.Pt m) ρ, SetCovers (metricMat L).2 D (Set.range Y) ρ → SetCovers (metricMat L).2 D {x | x ∈ X} ρ := by
  rw [(minimaxDesign_choice corner sobol center L xtol maxiter N).1 hL]
  obtain ⟨X, hX⟩ := ((oneD_ok_iff corner N L).2).2 ⟨(oneRow_ok_iff L).2 hL, hN⟩
  obtain ⟨l, hl, h1, h2, h3⟩ := minimax1d_optimal hD hc hX
  have hdist : ∀ x y, Lip.ldist (metricMat L).2 y x = dist1 l x y := by
    intro x y
    rcases hL with ⟨rfl, rfl⟩ | ⟨l', rfl⟩
    · have : l = fun _ => 1 := by simpa [oneRow, eq_comm] using hl
      rw [this]; exact ldist_metric_none x y
    · have : l' = l := by simpa [oneRow] using hl
      rw [← this]; exact ldist_metric_one l' x y
  refine ⟨X, hX, h1, h2, fun Y ρ hY x hx => ?_⟩
  obtain ⟨y, hy, hxy⟩ := h3 Y ρ (fun x hx => by
    obtain ⟨_, ⟨i, rfl⟩, hi⟩ := hY x hx
    exact ⟨i, by rwa [← hdist]⟩) x hx
  exact ⟨y, hy, by rwa [hdist]⟩

/-- C171: otherwise, for at most ten thousand points, the design has the number of points asked for, lies in the (convex) domain if the metric separates points, and covers
the discretization at least as well as the first points of the Sobol' sequence. -/
theorem minimaxDesign_cluster_partial {D : Set (Lip.Pt m)} (hD : Convex ℝ D) {corner : Lip.Pt m → Lip.Pt m} {sobol : ℕ → Except Err (List (Lip.Pt m))}
    (hs : SobolSpec D sobol) {center : ∀ k, Matrix (Fin k) (Fin m) ℝ → Center m} {L : MetricArg m} (hL : ¬ OneRow L) {xtol : ℝ} {maxiter N : ℕ}
    (hN : N ≤ 10000) {R : List (Lip.Pt m)} (h : minimaxDesign corner sobol center L xtol maxiter N = .ok R) :
    ∃ X, sobol (min (N * 100) 10000) = .ok X ∧ R.length = N ∧
      (∀ ρ, N ≠ 0 → SetCovers (metricMat L).2 {x | x ∈ X} {x | x ∈ X.take N} ρ → SetCovers (metricMat L).2 {x | x ∈ X} {x | x ∈ R} ρ) ∧
      ((∀ v, (metricMat L).2 *ᵥ v = 0 → v = 0) → (∃ q, 0 < q ∧ CqCenter (metricMat L).2 q (center _ (metricMat L).2)) → ∀ x ∈ R, x ∈ D) := by
  rw [(minimaxDesign_choice corner sobol center L xtol maxiter N).2 hL] at h
  unfold clusterDefault at h
  rcases hX : sobol (discretization N) with e | X
  · rw [hX] at h; simp at h
  rw [hX] at h
  obtain ⟨hlen, hin⟩ := hs _ _ hX
  have hle : N ≤ X.length := by rw [hlen]; unfold discretization; omega
  simp only at h
  rw [if_pos hle] at h
  have hRl : R.length = N := by rw [cluster_length h, List.length_take]; omega
  refine ⟨X, hX, hRl, fun ρ hN0 hρ x hx => ?_, ?_⟩
  · have hXne : X ≠ [] := fun e => by rw [e] at hle; simp at hle; exact hN0 hle
    have hTne : X.take N ≠ [] := by simp [hXne, hN0]
    have hRne : R ≠ [] := fun e => by rw [e] at hRl; exact hN0 hRl.symm
    obtain ⟨a, ha, hax⟩ := (scoreOf_spec (metricMat L).2 hXne hRne).2 x hx
    obtain ⟨⟨z, hz, b, hb, hzb, hmin⟩, -⟩ := scoreOf_spec (metricMat L).2 hXne hTne
    obtain ⟨c, hc, hcz⟩ := hρ z hz
    exact ⟨a, ha, hax.trans ((cluster_improves h).trans ((hmin c hc).trans hcz))⟩
  · rintro hsep ⟨q, hq, hcq⟩
    exact cluster_inside hsep hq hcq hD hin (fun a ha => hin a (List.mem_of_mem_take ha)) h

/-- C171: more than ten thousand points are never delivered: the result is shorter or the call raises; it raises if the metric separates two points of the sequence from
the first one. -/
theorem minimaxDesign_many_false {D : Set (Lip.Pt m)} {corner : Lip.Pt m → Lip.Pt m} {sobol : ℕ → Except Err (List (Lip.Pt m))}
    (hs : SobolSpec D sobol) (center : ∀ k, Matrix (Fin k) (Fin m) ℝ → Center m) {L : MetricArg m} (hL : ¬ OneRow L) (xtol : ℝ) (maxiter : ℕ) {N : ℕ}
    (hN : 10000 < N) : (∀ R, minimaxDesign corner sobol center L xtol maxiter N = .ok R → R.length = 10000) ∧
      (∀ X, sobol 10000 = .ok X → (∃ x ∈ X, Lip.ldist (metricMat L).2 (X.getD 0 0) x ≠ 0) → 0 < maxiter →
        ∀ R, minimaxDesign corner sobol center L xtol maxiter N ≠ .ok R) := by
  rw [(minimaxDesign_choice corner sobol center L xtol maxiter N).2 hL]
  have hd : discretization N = 10000 := by unfold discretization; omega
  unfold clusterDefault
  rw [hd]
  constructor
  · intro R h
    rcases hX : sobol 10000 with e | X
    · rw [hX] at h; simp at h
    rw [hX] at h
    obtain ⟨hlen, -⟩ := hs _ _ hX
    simp only at h
    rw [if_neg (by omega)] at h
    split_ifs at h
    · cases h; exact hlen
    · cases h; exact hlen
    · split at h <;> cases h
  · intro X hX ⟨x, hx, hd⟩ hm R h
    rw [hX] at h
    obtain ⟨hlen, -⟩ := hs _ _ hX
    simp only at h
    rw [if_neg (by omega), if_neg (by omega), if_neg (by intro e; rw [e] at hlen; simp at hlen)] at h
    split_ifs at h with hc
    · -- all points nearest to the first: but `x` is nearest to itself
      have hlink : nearIdx (metricMat L).2 X x = 0 := by
        have := congrArg (fun l => l.all fun i => decide (i = 0)) hc
        simp [assignment] at this
        exact this x hx
      obtain ⟨j, hj, rfl⟩ := List.getElem_of_mem hx
      have hmin : Lip.ldist (metricMat L).2 (X.getD (nearIdx (metricMat L).2 X X[j]) 0) X[j] ≤ Lip.ldist (metricMat L).2 (X.getD j 0) X[j] := by
        exact (argminFrom_spec (fun j' => Lip.ldist (metricMat L).2 (X.getD j' 0) X[j]) (List.range X.length) 0).2 j
          (List.mem_cons_of_mem _ (List.mem_range.2 hj))
      have hg : X.getD j 0 = X[j] := by simp [List.getD, hj]
      rw [hlink, hg] at hmin
      have h0 : Lip.ldist (metricMat L).2 X[j] X[j] = 0 := by unfold Lip.ldist; rw [sub_self, Lip.nrm_zero]
      rw [h0] at hmin
      exact hd (le_antisymm hmin (Lip.nrm_nonneg _))
    · split at h <;> cases h

/-! ### The hypotheses can be met -/

/-- A sequence of points of the unit square. -/
noncomputable def demoSeq (n : ℕ) : Except Err (List (Lip.Pt 2)) := .ok ((List.range n).map fun k : ℕ => ![1 / ((k : ℝ) + 1), 0])

theorem demoSeq_spec : SobolSpec {x : Lip.Pt 2 | ∀ i, 0 ≤ x i ∧ x i ≤ 1} demoSeq := by
  rintro n X h
  cases h
  refine ⟨by simp, fun x hx => ?_⟩
  obtain ⟨k, -, rfl⟩ := List.mem_map.1 hx
  intro i
  have : (0 : ℝ) < (k : ℝ) + 1 := by positivity
  fin_cases i
  · exact ⟨by simp only [Fin.zero_eta, cons_val_zero]; positivity, by simp only [Fin.zero_eta, cons_val_zero]; rw [div_le_one this]; linarith [(Nat.cast_nonneg k : (0:ℝ) ≤ k)]⟩
  · exact ⟨le_rfl, zero_le_one⟩

/-- Without a metric, designs on the square use clustering, and `10001` points are refused. -/
example (corner : Lip.Pt 2 → Lip.Pt 2) (center : ∀ k, Matrix (Fin k) (Fin 2) ℝ → Center 2) : ∀ R, minimaxDesign corner demoSeq center none 0 50 10001 ≠ .ok R := by
  refine (minimaxDesign_many_false demoSeq_spec center (by rintro (⟨-, h⟩ | ⟨l, h⟩) <;> cases h) 0 50 (by norm_num)).2 _ rfl ⟨(![1 / (((1 : ℕ) : ℝ) + 1), 0] : Lip.Pt 2), ?_, ?_⟩ (by norm_num)
  · exact List.mem_map.2 ⟨1, by simp, rfl⟩
  · have e : ((List.range 10000).map fun k : ℕ => (![1 / ((k : ℝ) + 1), 0] : Lip.Pt 2)).getD 0 0 = ![1, 0] := by
      rw [show (10000 : ℕ) = 9999 + 1 from rfl, List.range_succ_eq_map]; simp
    rw [e]
    intro h0
    have h1 : Lip.nrm ((![1, 0] : Lip.Pt 2) - (![1 / (((1 : ℕ) : ℝ) + 1), 0] : Lip.Pt 2)) = 0 := by
      have : Lip.ldist (metricMat (m := 2) none).2 ![1, 0] (![1 / (((1 : ℕ) : ℝ) + 1), 0] : Lip.Pt 2) = Lip.nrm ((![1, 0] : Lip.Pt 2) - (![1 / (((1 : ℕ) : ℝ) + 1), 0] : Lip.Pt 2)) := by
        unfold Lip.ldist metricMat
        simp only [one_mulVec]
      rw [← this]; exact h0
    unfold Lip.nrm at h1
    rw [Real.sqrt_eq_zero (by simp [dotProduct, Fin.sum_univ_two]; positivity)] at h1
    simp [dotProduct, Fin.sum_univ_two] at h1
    norm_num at h1

end Verif.Samp
