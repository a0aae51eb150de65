import Mathlib.Probability.StrongLaw
import Mathlib.Probability.Independence.InfinitePi
import Verif.Misc.ActiveSym
import Verif.Misc.QuadModel

/-!
# Active subspaces and Monte Carlo integrals of more and more samples

With independent samples of one distribution the directions reported by `fit` become optimal for the distribution, and the reported subspace converges to the leading
eigenspace of the mean of the outer products when this is unique.
-/

namespace Verif.Misc

open Verif Verif.Lip Matrix MeasureTheory ProbabilityTheory Filter Topology

variable {m n : ℕ} {Ω : Type*} [MeasurableSpace Ω] {μ : Measure Ω} {P : Measure (Pt m)} {X : ℕ → Ω → Pt m}

/-- Independent samples of the distribution `P`. -/
structure Iid (μ : Measure Ω) (X : ℕ → Ω → Pt m) (P : Measure (Pt m)) : Prop where
  meas : ∀ i, Measurable (X i)
  law : ∀ i, μ.map (X i) = P
  indep : Pairwise fun i j => IndepFun (X i) (X j) μ

/-- There are independent samples of every distribution. -/
theorem exists_iid (P : Measure (Pt m)) [IsProbabilityMeasure P] : Iid (Measure.infinitePi fun _ : ℕ => P) (fun i ω => ω i) P where
  meas := fun i => measurable_pi_apply i
  law := fun i => Measure.infinitePi_map_eval _ i
  indep := fun _ _ hij => (iIndepFun_infinitePi (P := fun _ : ℕ => P) (X := fun _ x => x) (fun _ => measurable_id)).indepFun hij

/-- The mean of a function over the samples converges to its integral. -/
theorem mean_limit (h : Iid μ X P) {φ : Pt m → ℝ} (hφ : Measurable φ) (hi : Integrable φ P) :
    ∀ᵐ ω ∂μ, Tendsto (fun N : ℕ => (∑ i ∈ Finset.range N, φ (X i ω)) / N) atTop (𝓝 (∫ x, φ x ∂P)) := by
  have hident : ∀ i, IdentDistrib (fun ω => φ (X i ω)) (fun ω => φ (X 0 ω)) μ μ := fun i =>
    (⟨(h.meas i).aemeasurable, (h.meas 0).aemeasurable, by rw [h.law, h.law]⟩ : IdentDistrib (X i) (X 0) μ μ).comp hφ
  have hint : Integrable (fun ω => φ (X 0 ω)) μ := by
    have : Integrable φ (μ.map (X 0)) := by rwa [h.law]
    exact this.comp_measurable (h.meas 0)
  have := strong_law_ae_real (fun i ω => φ (X i ω)) hint (fun i j hij => (h.indep hij).comp hφ hφ) hident
  have e : ∫ x, φ x ∂P = ∫ ω, φ (X 0 ω) ∂μ := by
    rw [← h.law 0, integral_map (h.meas 0).aemeasurable (by rw [h.law]; exact hi.aestronglyMeasurable)]
  rwa [e]

/-- The first `N` gradients. -/
def firstGrads (g : Pt m → Pt m) (x : ℕ → Pt m) (N : ℕ) : List (Pt m) := (List.range N).map fun i => g (x i)

/-- The mean squared length of the projection of the gradient onto the span of the (orthonormal) columns of `Q`. -/
noncomputable def meanCaptured (P : Measure (Pt m)) (g : Pt m → Pt m) (Q : Matrix (Fin m) (Fin n) ℝ) : ℝ := ∫ x, (Qᵀ *ᵥ g x) ⬝ᵥ (Qᵀ *ᵥ g x) ∂P

/-- The mean outer product of the gradient. -/
noncomputable def meanOuter (P : Measure (Pt m)) (g : Pt m → Pt m) : Matrix (Fin m) (Fin m) ℝ := Matrix.of fun a b => ∫ x, g x a * g x b ∂P

/-- The difference between the reported matrix and the mean outer product. -/
noncomputable def gapC (P : Measure (Pt m)) (g : Pt m → Pt m) (C : Matrix (Fin m) (Fin m) ℝ) : ℝ := ∑ a, ∑ b, |C a b - meanOuter P g a b|

theorem proj_entries (Q : Matrix (Fin m) (Fin n) ℝ) (v : Pt m) : (Qᵀ *ᵥ v) ⬝ᵥ (Qᵀ *ᵥ v) = ∑ a, ∑ b, (Q * Qᵀ) a b * (v a * v b) := by
  rw [Matrix.mulVec_transpose, ← Matrix.dotProduct_mulVec, Matrix.mulVec_vecMul]
  simp only [dotProduct, Matrix.mulVec, Finset.mul_sum]
  refine Finset.sum_congr rfl fun a _ => Finset.sum_congr rfl fun b _ => ?_
  ring

/-- The Rayleigh quotients of the columns of `Q`, summed. -/
def rayleigh (M : Matrix (Fin m) (Fin m) ℝ) (Q : Matrix (Fin m) (Fin n) ℝ) : ℝ := ∑ j, ucol Q j ⬝ᵥ (M *ᵥ ucol Q j)

theorem rayleigh_entries (M : Matrix (Fin m) (Fin m) ℝ) (Q : Matrix (Fin m) (Fin n) ℝ) : rayleigh M Q = ∑ a, ∑ b, (Q * Qᵀ) a b * M a b := by
  have e : ∀ a b, (Q * Qᵀ) a b * M a b = ∑ j, Q a j * Q b j * M a b := by
    intro a b
    rw [Matrix.mul_apply, Finset.sum_mul]
    rfl
  simp only [e]
  rw [rayleigh]
  simp only [dotProduct, Matrix.mulVec, Finset.mul_sum, ucol]
  rw [Finset.sum_comm]
  refine Finset.sum_congr rfl fun a _ => ?_
  rw [Finset.sum_comm]
  refine Finset.sum_congr rfl fun b _ => Finset.sum_congr rfl fun j _ => ?_
  ring

theorem meanCaptured_eq {g : Pt m → Pt m} (hi : ∀ a b, Integrable (fun x => g x a * g x b) P) (Q : Matrix (Fin m) (Fin n) ℝ) :
    meanCaptured P g Q = rayleigh (meanOuter P g) Q := by
  rw [rayleigh_entries, meanCaptured]
  simp only [proj_entries]
  have hi' : ∀ a b, Integrable (fun x => (Q * Qᵀ) a b * (g x a * g x b)) P := fun a b => (hi a b).const_mul _
  refine (integral_finset_sum (f := fun a x => ∑ b, (Q * Qᵀ) a b * (g x a * g x b)) Finset.univ fun a _ => integrable_finset_sum _ fun b _ => hi' a b).trans ?_
  refine Finset.sum_congr rfl fun a _ => ?_
  refine (integral_finset_sum (f := fun b x => (Q * Qᵀ) a b * (g x a * g x b)) Finset.univ fun b _ => hi' a b).trans ?_
  refine Finset.sum_congr rfl fun b _ => ?_
  exact integral_const_mul _ _

theorem entry_le {Q : Matrix (Fin m) (Fin n) ℝ} (hQ : Qᵀ * Q = 1) (a b : Fin m) : |(Q * Qᵀ) a b| ≤ n := by
  have h1 : ∀ c j, |Q c j| ≤ 1 := by
    intro c j
    have := congrFun (congrFun hQ j) j
    rw [Matrix.mul_apply, Matrix.one_apply_eq] at this
    have h2 : Q c j * Q c j ≤ 1 := by
      rw [← this]
      exact Finset.single_le_sum (f := fun i => Qᵀ j i * Q i j) (fun i _ => mul_self_nonneg (Q i j)) (Finset.mem_univ c)
    exact abs_le_one_iff_mul_self_le_one.2 h2
  rw [Matrix.mul_apply]
  refine (Finset.abs_sum_le_sum_abs _ _).trans ?_
  calc ∑ j, |Q a j * Qᵀ j b| ≤ ∑ _j : Fin n, (1 : ℝ) := Finset.sum_le_sum fun j _ => by
        rw [abs_mul]
        exact mul_le_one₀ (h1 a j) (abs_nonneg _) (h1 b j)
    _ = n := by simp

theorem rayleigh_diff {Q : Matrix (Fin m) (Fin n) ℝ} (hQ : Qᵀ * Q = 1) (M M' : Matrix (Fin m) (Fin m) ℝ) :
    |rayleigh M Q - rayleigh M' Q| ≤ n * ∑ a, ∑ b, |M a b - M' a b| := by
  rw [rayleigh_entries, rayleigh_entries, ← Finset.sum_sub_distrib, Finset.mul_sum]
  refine (Finset.abs_sum_le_sum_abs _ _).trans (Finset.sum_le_sum fun a _ => ?_)
  rw [← Finset.sum_sub_distrib, Finset.mul_sum]
  refine (Finset.abs_sum_le_sum_abs _ _).trans (Finset.sum_le_sum fun b _ => ?_)
  rw [← mul_sub, abs_mul]
  exact mul_le_mul_of_nonneg_right (entry_le hQ a b) (abs_nonneg _)

/-- The call with default weights is a call with equal weights. -/
theorem asFit_default (svd : SvdFn m) (grads : List (Pt m)) : asFit svd grads none = asFit svd grads (some (asWeights grads none)) := rfl

/-- **Stability**: if the reported matrix is close to the mean outer product of the gradient, the reported directions capture almost the most of the gradient in the mean. -/
theorem asFit_stable {g : Pt m → Pt m} (hi : ∀ a b, Integrable (fun x => g x a * g x b) P) (svd : SvdFn m) (hsvd : SvdSpec svd) (grads : List (Pt m))
    (w : List ℝ) (hw : w.length = grads.length) (r : ASState m) (h : asFit svd grads (some w) = .ok r) (hz : ∀ k, ucol r.U k ≠ 0) (hn : n ≤ m)
    (Q : Matrix (Fin m) (Fin n) ℝ) (hQ : Qᵀ * Q = 1) :
    meanCaptured P g Q ≤ meanCaptured P g (headCols r.U hn) + 2 * (n * gapC P g r.C) := by
  obtain ⟨h1, _, h3⟩ := asFit_optimal_partial svd hsvd grads w hw r h hz hn
  have hC : r.C = outerSum (w.zip grads) := asFit_C svd hsvd grads w hw r h
  have key := h3 Q hQ
  rw [captured_eq, captured_eq, ← hC] at key
  have d1 := abs_le.1 (rayleigh_diff hQ r.C (meanOuter P g))
  have d2 := abs_le.1 (rayleigh_diff h1 r.C (meanOuter P g))
  rw [meanCaptured_eq hi, meanCaptured_eq hi]
  change rayleigh r.C Q ≤ rayleigh r.C (headCols r.U hn) at key
  unfold gapC
  linarith [d1.1, d1.2, d2.1, d2.2]

/-- The reported squared singular values are close to the most that a subspace captures in the mean. -/
theorem asFit_stable_values {g : Pt m → Pt m} (hi : ∀ a b, Integrable (fun x => g x a * g x b) P) (svd : SvdFn m) (hsvd : SvdSpec svd) (grads : List (Pt m))
    (w : List ℝ) (hw : w.length = grads.length) (r : ASState m) (h : asFit svd grads (some w) = .ok r) (hz : ∀ k, ucol r.U k ≠ 0) (hn : n ≤ m) :
    |(∑ k : Fin m, if (k : ℕ) < n then r.s.getD k 0 ^ 2 else 0) - meanCaptured P g (headCols r.U hn)| ≤ n * gapC P g r.C := by
  obtain ⟨h1, h2, _⟩ := asFit_optimal_partial svd hsvd grads w hw r h hz hn
  have hC : r.C = outerSum (w.zip grads) := asFit_C svd hsvd grads w hw r h
  rw [← h2, captured_eq, ← hC, meanCaptured_eq hi]
  exact rayleigh_diff h1 r.C (meanOuter P g)

theorem rayleigh_sub_smul (M N : Matrix (Fin m) (Fin m) ℝ) (c : ℝ) (Q : Matrix (Fin m) (Fin n) ℝ) : rayleigh (M - c • N) Q = rayleigh M Q - c * rayleigh N Q := by
  simp only [rayleigh, Matrix.sub_mulVec, Matrix.smul_mulVec, dotProduct_sub, dotProduct_smul, smul_eq_mul, Finset.sum_sub_distrib, Finset.mul_sum]

theorem sum_head (hn : n ≤ m) (a : Fin m → ℝ) : (∑ k : Fin m, if (k : ℕ) < n then a k else 0) = ∑ j : Fin n, a (Fin.castLE hn j) := by
  rw [← Finset.sum_filter]
  have : (Finset.univ.filter (fun k : Fin m => (k : ℕ) < n)) = Finset.univ.map (Fin.castLEEmb hn) := by
    ext k
    simp only [Finset.mem_filter, Finset.mem_univ, true_and, Finset.mem_map]
    constructor
    · intro h; exact ⟨⟨k, h⟩, Fin.ext rfl⟩
    · rintro ⟨j, rfl⟩; exact j.2
  rw [this, Finset.sum_map]
  rfl

theorem headCols_orth {V : Matrix (Fin m) (Fin m) ℝ} (hV : Vᵀ * V = 1) (hn : n ≤ m) : (headCols V hn)ᵀ * headCols V hn = 1 := by
  ext i j
  have := congrFun (congrFun hV (Fin.castLE hn i)) (Fin.castLE hn j)
  rw [Matrix.mul_apply] at this ⊢
  simp only [headCols, Matrix.transpose_apply, Matrix.submatrix_apply, id] at this ⊢
  rw [this, Matrix.one_apply, Matrix.one_apply]
  simp

/-- **The subspace is stable**: a gap `γ` between the eigenvalues of the mean outer product separates the leading eigenspace from every other subspace. -/
theorem gap_bound (V : Matrix (Fin m) (Fin m) ℝ) (hV : Vᵀ * V = 1) (a : Fin m → ℝ) (ha : Antitone a) (hn : n ≤ m) {γ : ℝ} (h0 : 0 ≤ γ)
    (hγ : ∀ i k : Fin m, (i : ℕ) < n → n ≤ (k : ℕ) → γ ≤ a i - a k) (Q : Matrix (Fin m) (Fin n) ℝ) (hQ : Qᵀ * Q = 1) :
    γ * (n - rayleigh (headCols V hn * (headCols V hn)ᵀ) Q) ≤
      rayleigh (V * Matrix.diagonal a * Vᵀ) (headCols V hn) - rayleigh (V * Matrix.diagonal a * Vᵀ) Q := by
  have hb : Antitone fun k : Fin m => a k - if (k : ℕ) < n then γ else 0 := by
    intro i k hik
    have h1 := ha hik
    have h2 : (i : ℕ) ≤ k := hik
    dsimp only
    by_cases hi : (i : ℕ) < n
    · by_cases hk : (k : ℕ) < n
      · rw [if_pos hi, if_pos hk]; linarith
      · rw [if_pos hi, if_neg hk]; linarith [hγ i k hi (by omega)]
    · rw [if_neg hi, if_neg (by omega)]; linarith
  have hk := kyFan V hV _ hb Q hQ
  have e1 : V * Matrix.diagonal (fun k : Fin m => a k - if (k : ℕ) < n then γ else 0) * Vᵀ =
      V * Matrix.diagonal a * Vᵀ - γ • (headCols V hn * (headCols V hn)ᵀ) := by
    ext i j
    rw [Matrix.sub_apply, Matrix.smul_apply, Matrix.mul_apply, Matrix.mul_apply, Matrix.mul_apply]
    simp only [Matrix.mul_diagonal, Matrix.transpose_apply, headCols, Matrix.submatrix_apply, id, smul_eq_mul]
    have := sum_head hn fun k => V i k * V j k
    rw [← this, Finset.mul_sum, ← Finset.sum_sub_distrib]
    refine Finset.sum_congr rfl fun k _ => ?_
    split <;> ring
  change rayleigh _ Q ≤ _ at hk
  rw [e1, rayleigh_sub_smul, sum_head hn] at hk
  have e2 : rayleigh (V * Matrix.diagonal a * Vᵀ) (headCols V hn) = ∑ j : Fin n, a (Fin.castLE hn j) := by
    rw [rayleigh]
    refine Finset.sum_congr rfl fun j _ => ?_
    have hc : ucol (headCols V hn) j = ucol V (Fin.castLE hn j) := rfl
    rw [hc, diag_col V hV, dotProduct_smul, ucol_dot V hV, if_pos rfl]
    simp
  have e3 : ∑ j : Fin n, (a (Fin.castLE hn j) - if ((Fin.castLE hn j : Fin m) : ℕ) < n then γ else 0) = (∑ j : Fin n, a (Fin.castLE hn j)) - n * γ := by
    rw [Finset.sum_sub_distrib]
    congr 1
    simp
  rw [e3] at hk
  rw [e2]
  linarith

/-- The squared distance between the projections onto two subspaces. -/
theorem proj_dist {A B : Matrix (Fin m) (Fin n) ℝ} (hA : Aᵀ * A = 1) (hB : Bᵀ * B = 1) :
    ∑ i, ∑ j, ((A * Aᵀ) i j - (B * Bᵀ) i j) ^ 2 = 2 * (n - rayleigh (A * Aᵀ) B) := by
  have sq : ∀ {C : Matrix (Fin m) (Fin n) ℝ}, Cᵀ * C = 1 → ∑ i, ∑ j, (C * Cᵀ) i j * (C * Cᵀ) i j = n := by
    intro C hC
    rw [← rayleigh_entries, rayleigh]
    have : ∀ j, ucol C j ⬝ᵥ ((C * Cᵀ) *ᵥ ucol C j) = 1 := by
      intro j
      have e : ucol C j = C *ᵥ Pi.single j 1 := by
        funext i
        rw [Matrix.mulVec_single_one]
        rfl
      have e2 : (C * Cᵀ) *ᵥ ucol C j = ucol C j := by
        rw [e, Matrix.mulVec_mulVec, Matrix.mul_assoc, hC, Matrix.mul_one]
      rw [e2]
      have := congrFun (congrFun hC j) j
      rw [Matrix.mul_apply, Matrix.one_apply_eq] at this
      exact this
    simp [this]
  have e : ∀ i j, ((A * Aᵀ) i j - (B * Bᵀ) i j) ^ 2 = (A * Aᵀ) i j * (A * Aᵀ) i j - 2 * ((B * Bᵀ) i j * (A * Aᵀ) i j) + (B * Bᵀ) i j * (B * Bᵀ) i j := by
    intro i j
    ring
  simp only [e, Finset.sum_add_distrib, Finset.sum_sub_distrib, ← Finset.mul_sum]
  rw [sq hA, sq hB, ← rayleigh_entries]
  ring

/-- The sum of the leading eigenvalues depends continuously on the matrix. -/
theorem head_diff (U V : Matrix (Fin m) (Fin m) ℝ) (hU : Uᵀ * U = 1) (hV : Vᵀ * V = 1) (a b : Fin m → ℝ) (ha : Antitone a) (hb : Antitone b) (hn : n ≤ m) :
    |∑ j : Fin n, a (Fin.castLE hn j) - ∑ j : Fin n, b (Fin.castLE hn j)| ≤
      n * ∑ i, ∑ j, |(U * Matrix.diagonal a * Uᵀ) i j - (V * Matrix.diagonal b * Vᵀ) i j| := by
  have e2 : ∀ {W : Matrix (Fin m) (Fin m) ℝ} {c : Fin m → ℝ}, Wᵀ * W = 1 → rayleigh (W * Matrix.diagonal c * Wᵀ) (headCols W hn) = ∑ j : Fin n, c (Fin.castLE hn j) := by
    intro W c hW
    rw [rayleigh]
    refine Finset.sum_congr rfl fun j _ => ?_
    have hc : ucol (headCols W hn) j = ucol W (Fin.castLE hn j) := rfl
    rw [hc, diag_col W hW, dotProduct_smul, ucol_dot W hW, if_pos rfl]
    simp
  have oU := headCols_orth hU hn
  have oV := headCols_orth hV hn
  have k1 := kyFan V hV b hb (headCols U hn) oU
  have k2 := kyFan U hU a ha (headCols V hn) oV
  rw [sum_head hn] at k1 k2
  change rayleigh _ _ ≤ _ at k1
  change rayleigh _ _ ≤ _ at k2
  have d1 := abs_le.1 (rayleigh_diff oU (U * Matrix.diagonal a * Uᵀ) (V * Matrix.diagonal b * Vᵀ))
  have d2 := abs_le.1 (rayleigh_diff oV (U * Matrix.diagonal a * Uᵀ) (V * Matrix.diagonal b * Vᵀ))
  rw [e2 hU] at d1
  rw [e2 hV] at d2
  rw [abs_le]
  constructor <;> linarith [d1.1, d1.2, d2.1, d2.2]

/-- The calls with the first samples succeed. -/
theorem asFit_first_ok (svd : SvdFn m) (g : Pt m → Pt m) (x : ℕ → Pt m) {N : ℕ} (hN : 1 ≤ N) : ∃ r, asFit svd (firstGrads g x N) none = .ok r := by
  rw [asFit_default]
  refine (asFit_ok_iff svd _ _).2 ⟨?_, ?_, Or.inl (by simp [asWeights])⟩
  · intro h
    have := congrArg List.length h
    simp [firstGrads] at this
    omega
  · intro a ha
    rw [asWeights] at ha
    rw [List.eq_of_mem_replicate ha]
    positivity

/-- `r N` is what a call with the first `N` samples reports. -/
def Reported (svd : SvdFn m) (g : Pt m → Pt m) (x : ℕ → Pt m) (r : ℕ → ASState m) : Prop := ∀ N, 1 ≤ N → asFit svd (firstGrads g x N) none = .ok (r N)

theorem sum_map_range (f : ℕ → ℝ) (N : ℕ) : ((List.range N).map f).sum = ∑ i ∈ Finset.range N, f i := rfl

theorem reported_entry {svd : SvdFn m} (hsvd : SvdSpec svd) {g : Pt m → Pt m} {x : ℕ → Pt m} {r : ℕ → ASState m} (h : Reported svd g x r) {N : ℕ} (hN : 1 ≤ N)
    (a b : Fin m) : (r N).C a b = (∑ i ∈ Finset.range N, g (x i) a * g (x i) b) / N := by
  rw [asFit_C_default svd hsvd _ _ (h N hN)]
  have hlen : (firstGrads g x N).length = N := by simp [firstGrads]
  have e : ∀ l : List (Pt m), (l.map fun v => vecMulVec v v).sum a b = (l.map fun v => v a * v b).sum := by
    intro l
    induction l with
    | nil => rfl
    | cons v l ih =>
      rw [List.map_cons, List.sum_cons, Matrix.add_apply, ih, List.map_cons, List.sum_cons]
      rfl
  rw [Matrix.smul_apply, e, hlen, firstGrads, List.map_map, smul_eq_mul, ← sum_map_range]
  rw [one_div, inv_mul_eq_div]
  rfl

/-- **The reported matrix converges**: with independent samples it converges almost surely to the mean outer product of the gradient. -/
theorem asFit_C_limit (h : Iid μ X P) {g : Pt m → Pt m} (hg : Measurable g) (hi : ∀ a b, Integrable (fun x => g x a * g x b) P) :
    ∀ᵐ ω ∂μ, ∀ (svd : SvdFn m) (_ : SvdSpec svd) (r : ℕ → ASState m), Reported svd g (fun i => X i ω) r →
      (∀ a b, Tendsto (fun N => (r N).C a b) atTop (𝓝 (∫ x, g x a * g x b ∂P))) ∧ Tendsto (fun N => gapC P g (r N).C) atTop (𝓝 0) := by
  have hall : ∀ᵐ ω ∂μ, ∀ a b, Tendsto (fun N : ℕ => (∑ i ∈ Finset.range N, g (X i ω) a * g (X i ω) b) / N) atTop (𝓝 (∫ x, g x a * g x b ∂P)) := by
    rw [ae_all_iff]
    intro a
    rw [ae_all_iff]
    intro b
    exact mean_limit h (φ := fun x => g x a * g x b) (((measurable_pi_apply a).comp hg).mul ((measurable_pi_apply b).comp hg)) (hi a b)
  filter_upwards [hall] with ω hω svd hsvd r hr
  have h1 : ∀ a b, Tendsto (fun N => (r N).C a b) atTop (𝓝 (∫ x, g x a * g x b ∂P)) := by
    intro a b
    refine (hω a b).congr' ?_
    filter_upwards [eventually_ge_atTop 1] with N hN
    exact (reported_entry hsvd hr hN a b).symm
  refine ⟨h1, ?_⟩
  have h2 : ∀ a b, Tendsto (fun N => |(r N).C a b - meanOuter P g a b|) atTop (𝓝 0) := by
    intro a b
    have := ((h1 a b).sub_const (meanOuter P g a b)).abs
    rw [show (∫ x, g x a * g x b ∂P) - meanOuter P g a b = 0 from sub_self _, abs_zero] at this
    exact this
  have h3 := tendsto_finset_sum (Finset.univ : Finset (Fin m)) fun a _ => tendsto_finset_sum (Finset.univ : Finset (Fin m)) fun b _ => h2 a b
  simpa [gapC] using h3

/-- **The reported directions become optimal**: almost surely, no subspace captures more of the gradient in the mean than the reported one plus any `ε`, if there are enough
samples (and no direction is reported as zero, see `asFit_zero_false`). -/
theorem asFit_consistent_partial (h : Iid μ X P) {g : Pt m → Pt m} (hg : Measurable g) (hi : ∀ a b, Integrable (fun x => g x a * g x b) P) :
    ∀ᵐ ω ∂μ, ∀ (svd : SvdFn m) (_ : SvdSpec svd) (r : ℕ → ASState m), Reported svd g (fun i => X i ω) r → (∀ᶠ N in atTop, ∀ k, ucol (r N).U k ≠ 0) →
      ∀ (n : ℕ) (hn : n ≤ m) (ε : ℝ), 0 < ε → ∀ᶠ N in atTop, ∀ Q : Matrix (Fin m) (Fin n) ℝ, Qᵀ * Q = 1 →
        meanCaptured P g Q ≤ meanCaptured P g (headCols (r N).U hn) + ε := by
  filter_upwards [asFit_C_limit h hg hi] with ω hω svd hsvd r hr hz n hn ε hε
  have hlim := ((hω svd hsvd r hr).2.const_mul (2 * n : ℝ))
  rw [mul_zero] at hlim
  filter_upwards [hlim.eventually_lt_const hε, eventually_ge_atTop 1, hz] with N h1 hN hzN Q hQ
  have := asFit_stable hi svd hsvd _ _ (by simp [asWeights]) (r N) (hr N hN) hzN hn Q hQ
  linarith

/-- **The squared singular values converge to the eigenvalues** of the mean outer product, whatever the directions. -/
theorem asFit_values_limit (h : Iid μ X P) {g : Pt m → Pt m} (hg : Measurable g) (hi : ∀ a b, Integrable (fun x => g x a * g x b) P)
    (V : Matrix (Fin m) (Fin m) ℝ) (hV : Vᵀ * V = 1) (a : Fin m → ℝ) (ha : Antitone a) (hC : meanOuter P g = V * Matrix.diagonal a * Vᵀ) :
    ∀ᵐ ω ∂μ, ∀ (svd : SvdFn m) (_ : SvdSpec svd) (r : ℕ → ASState m), Reported svd g (fun i => X i ω) r →
      ∀ k : Fin m, Tendsto (fun N => (r N).s.getD k 0 ^ 2) atTop (𝓝 (a k)) := by
  filter_upwards [asFit_C_limit h hg hi] with ω hω svd hsvd r hr k
  have hgap := (hω svd hsvd r hr).2
  have hsum : ∀ n (hn : n ≤ m), Tendsto (fun N => ∑ j : Fin n, (r N).s.getD (Fin.castLE hn j : Fin m) 0 ^ 2) atTop (𝓝 (∑ j : Fin n, a (Fin.castLE hn j))) := by
    intro n hn
    rw [tendsto_iff_norm_sub_tendsto_zero]
    have hlim := hgap.const_mul (n : ℝ)
    rw [mul_zero] at hlim
    refine squeeze_zero' (Eventually.of_forall fun _ => norm_nonneg _) ?_ hlim
    filter_upwards [eventually_ge_atTop 1] with N hN
    obtain ⟨ps, _, _, _, e⟩ := asFit_ok svd _ _ (r N) (hr N hN)
    obtain ⟨hl, hnn, hant⟩ := asRaw_s svd hsvd ps
    have n1 : ∀ k : Fin m, 0 ≤ (asRaw svd ps).s.getD k 0 := fun k => by
      rw [List.getD_eq_getElem _ _ (by rw [hl]; exact k.2)]; exact hnn _ (List.getElem_mem _)
    have := head_diff (asRaw svd ps).U V (hsvd ps.length (asCols ps)).orthU hV (fun i => (asRaw svd ps).s.getD i 0 ^ 2) a
      (fun i j hij => pow_le_pow_left₀ (n1 j) (hant hij) 2) ha hn
    rw [← hC] at this
    rw [Real.norm_eq_abs, e]
    exact this
  have h1 := hsum (k + 1) k.2
  have h0 := hsum k k.2.le
  have hd := h1.sub h0
  have e1 : ∀ f : Fin m → ℝ, (∑ j : Fin ((k : ℕ) + 1), f (Fin.castLE k.2 j)) - ∑ j : Fin (k : ℕ), f (Fin.castLE k.2.le j) = f k := by
    intro f
    rw [Fin.sum_univ_castSucc]
    have : (Fin.castLE k.2 (Fin.last (k : ℕ))) = k := Fin.ext rfl
    rw [this]
    exact add_sub_cancel_left _ _
  rw [e1 a] at hd
  exact hd.congr fun N => e1 fun i => (r N).s.getD i 0 ^ 2

/-- Almost optimal subspaces converge to the leading eigenspace if there is a gap. -/
theorem proj_limit {M V : Matrix (Fin m) (Fin m) ℝ} (hV : Vᵀ * V = 1) {a : Fin m → ℝ} (ha : Antitone a) (hC : M = V * Matrix.diagonal a * Vᵀ) (hn : n ≤ m)
    (hgap : ∀ i k : Fin m, (i : ℕ) < n → n ≤ (k : ℕ) → a k < a i) {U : ℕ → Matrix (Fin m) (Fin n) ℝ} {d : ℕ → ℝ} (hd0 : Tendsto d atTop (𝓝 0))
    (hU : ∀ᶠ N in atTop, (U N)ᵀ * U N = 1 ∧ rayleigh M (headCols V hn) ≤ rayleigh M (U N) + d N) (i j : Fin m) :
    Tendsto (fun N => (U N * (U N)ᵀ) i j) atTop (𝓝 ((headCols V hn * (headCols V hn)ᵀ) i j)) := by
  obtain ⟨γ, hγ0, hγ⟩ : ∃ γ : ℝ, 0 < γ ∧ ∀ i k : Fin m, (i : ℕ) < n → n ≤ (k : ℕ) → γ ≤ a i - a k := by
    rcases Nat.eq_zero_or_pos n with h0 | h0
    · exact ⟨1, one_pos, fun i k hi' => by omega⟩
    rcases hn.eq_or_lt with h1 | h1
    · exact ⟨1, one_pos, fun i k _ hk => absurd k.2 (by omega)⟩
    refine ⟨a ⟨n - 1, by omega⟩ - a ⟨n, h1⟩, sub_pos.2 (hgap _ _ (by simp only; omega) le_rfl), fun i k hi' hk => ?_⟩
    have t1 : a ⟨n - 1, by omega⟩ ≤ a i := ha (by rw [Fin.le_def]; simp only; omega)
    have t2 : a k ≤ a ⟨n, h1⟩ := ha (by rw [Fin.le_def]; exact hk)
    linarith
  have oV := headCols_orth hV hn
  have hlim := hd0.const_mul (2 / γ : ℝ)
  rw [mul_zero] at hlim
  rw [tendsto_iff_norm_sub_tendsto_zero]
  have hsq : Tendsto (fun N => ((U N * (U N)ᵀ) i j - (headCols V hn * (headCols V hn)ᵀ) i j) ^ 2) atTop (𝓝 0) := by
    refine squeeze_zero' (Eventually.of_forall fun _ => sq_nonneg _) ?_ hlim
    filter_upwards [hU] with N ⟨o1, hs⟩
    rw [hC] at hs
    have hb := gap_bound V hV a ha hn hγ0.le hγ (U N) o1
    have hd := proj_dist oV o1
    have hle : ((U N * (U N)ᵀ) i j - (headCols V hn * (headCols V hn)ᵀ) i j) ^ 2 ≤ ∑ i, ∑ j, ((headCols V hn * (headCols V hn)ᵀ) i j - (U N * (U N)ᵀ) i j) ^ 2 := by
      rw [show ((U N * (U N)ᵀ) i j - (headCols V hn * (headCols V hn)ᵀ) i j) ^ 2 = ((headCols V hn * (headCols V hn)ᵀ) i j - (U N * (U N)ᵀ) i j) ^ 2 by ring]
      refine (Finset.single_le_sum (f := fun j => ((headCols V hn * (headCols V hn)ᵀ) i j - (U N * (U N)ᵀ) i j) ^ 2) (fun j _ => sq_nonneg _) (Finset.mem_univ j)).trans ?_
      exact Finset.single_le_sum (f := fun i => ∑ j, ((headCols V hn * (headCols V hn)ᵀ) i j - (U N * (U N)ᵀ) i j) ^ 2)
        (fun i _ => Finset.sum_nonneg fun j _ => sq_nonneg _) (Finset.mem_univ i)
    rw [hd] at hle
    refine hle.trans ?_
    have : γ * (n - rayleigh (headCols V hn * (headCols V hn)ᵀ) (U N)) ≤ d N := by linarith
    rw [div_mul_eq_mul_div, le_div_iff₀ hγ0]
    linarith
  have := hsq.sqrt
  rw [Real.sqrt_zero] at this
  refine this.congr fun N => ?_
  rw [Real.sqrt_sq_eq_abs, Real.norm_eq_abs]

/-- **The reported subspace converges**: if the mean outer product has a gap after its `n`-th eigenvalue, the projections onto the first `n` reported directions converge
almost surely to the projection onto its leading eigenvectors (if no direction is reported as zero). -/
theorem asFit_subspace_limit_partial (h : Iid μ X P) {g : Pt m → Pt m} (hg : Measurable g) (hi : ∀ a b, Integrable (fun x => g x a * g x b) P)
    (V : Matrix (Fin m) (Fin m) ℝ) (hV : Vᵀ * V = 1) (a : Fin m → ℝ) (ha : Antitone a) (hC : meanOuter P g = V * Matrix.diagonal a * Vᵀ) (hn : n ≤ m)
    (hgap : ∀ i k : Fin m, (i : ℕ) < n → n ≤ (k : ℕ) → a k < a i) :
    ∀ᵐ ω ∂μ, ∀ (svd : SvdFn m) (_ : SvdSpec svd) (r : ℕ → ASState m), Reported svd g (fun i => X i ω) r → (∀ᶠ N in atTop, ∀ k, ucol (r N).U k ≠ 0) →
      ∀ i j, Tendsto (fun N => (headCols (r N).U hn * (headCols (r N).U hn)ᵀ) i j) atTop (𝓝 ((headCols V hn * (headCols V hn)ᵀ) i j)) := by
  filter_upwards [asFit_C_limit h hg hi] with ω hω svd hsvd r hr hz
  have hlim := ((hω svd hsvd r hr).2.const_mul (2 * n : ℝ))
  rw [mul_zero] at hlim
  refine proj_limit hV ha hC hn hgap hlim ?_
  filter_upwards [eventually_ge_atTop 1, hz] with N hN hzN
  obtain ⟨o1, _, _⟩ := asFit_optimal_partial svd hsvd _ _ (by simp [asWeights]) (r N) (hr N hN) hzN hn
  have hs := asFit_stable hi svd hsvd _ _ (by simp [asWeights]) (r N) (hr N hN) hzN hn (headCols V hn) (headCols_orth hV hn)
  rw [meanCaptured_eq hi, meanCaptured_eq hi] at hs
  exact ⟨o1, by linarith⟩

/-! ### Single directions -/

/-- The directions before the signs are fixed. -/
noncomputable def rawDirs (svd : SvdFn m) (grads : List (Pt m)) : Matrix (Fin m) (Fin m) ℝ := (asRaw svd ((asWeights grads none).zip grads)).U

theorem fit_raw {svd : SvdFn m} (hsvd : SvdSpec svd) {grads : List (Pt m)} {r : ASState m} (h : asFit svd grads none = .ok r) :
    r.U = fixGrads (rawDirs svd grads) grads ∧ (rawDirs svd grads)ᵀ * rawDirs svd grads = 1 ∧
      ∃ b : Fin m → ℝ, Antitone b ∧ r.C = rawDirs svd grads * Matrix.diagonal b * (rawDirs svd grads)ᵀ := by
  obtain ⟨ps, _, hps, _, rfl⟩ := asFit_ok svd grads none r h
  have e : ps = (asWeights grads none).zip grads := by
    rw [asPairs, if_pos (by simp [asWeights])] at hps
    exact (Option.some.inj hps).symm
  subst e
  obtain ⟨hl, hnn, hant⟩ := asRaw_s svd hsvd ((asWeights grads none).zip grads)
  have n1 : ∀ k : Fin m, 0 ≤ (asRaw svd ((asWeights grads none).zip grads)).s.getD k 0 := fun k => by
    rw [List.getD_eq_getElem _ _ (by rw [hl]; exact k.2)]; exact hnn _ (List.getElem_mem _)
  exact ⟨rfl, (hsvd _ (asCols ((asWeights grads none).zip grads))).orthU, fun i => (asRaw svd ((asWeights grads none).zip grads)).s.getD i 0 ^ 2,
    fun i j hij => pow_le_pow_left₀ (n1 j) (hant hij) 2, rfl⟩

theorem rayleigh_head {W : Matrix (Fin m) (Fin m) ℝ} {c : Fin m → ℝ} (hW : Wᵀ * W = 1) (hn : n ≤ m) :
    rayleigh (W * Matrix.diagonal c * Wᵀ) (headCols W hn) = ∑ j : Fin n, c (Fin.castLE hn j) := by
  rw [rayleigh]
  refine Finset.sum_congr rfl fun j _ => ?_
  have hc : ucol (headCols W hn) j = ucol W (Fin.castLE hn j) := rfl
  rw [hc, diag_col W hW, dotProduct_smul, ucol_dot W hW, if_pos rfl]
  simp

theorem raw_limit {svd : SvdFn m} (hsvd : SvdSpec svd) {g : Pt m → Pt m} {x : ℕ → Pt m} {r : ℕ → ASState m} (hr : Reported svd g x r)
    (hlim : Tendsto (fun N => gapC P g (r N).C) atTop (𝓝 0)) {V : Matrix (Fin m) (Fin m) ℝ} (hV : Vᵀ * V = 1) {a : Fin m → ℝ} (ha : Antitone a)
    (hC : meanOuter P g = V * Matrix.diagonal a * Vᵀ) (hn : n ≤ m) (hgap : ∀ i k : Fin m, (i : ℕ) < n → n ≤ (k : ℕ) → a k < a i) (i j : Fin m) :
    Tendsto (fun N => (headCols (rawDirs svd (firstGrads g x N)) hn * (headCols (rawDirs svd (firstGrads g x N)) hn)ᵀ) i j) atTop
      (𝓝 ((headCols V hn * (headCols V hn)ᵀ) i j)) := by
  have hl := hlim.const_mul (2 * n : ℝ)
  rw [mul_zero] at hl
  refine proj_limit hV ha hC hn hgap hl ?_ i j
  filter_upwards [eventually_ge_atTop 1] with N hN
  obtain ⟨_, o, b, hb, e⟩ := fit_raw hsvd (hr N hN)
  have o1 := headCols_orth o hn
  have oV := headCols_orth hV hn
  have k := kyFan _ o b hb (headCols V hn) oV
  rw [sum_head hn, ← rayleigh_head o hn, ← e] at k
  change rayleigh _ _ ≤ _ at k
  have d1 := abs_le.1 (rayleigh_diff oV (r N).C (meanOuter P g))
  have d2 := abs_le.1 (rayleigh_diff o1 (r N).C (meanOuter P g))
  refine ⟨o1, ?_⟩
  unfold gapC
  linarith [d1.1, d1.2, d2.1, d2.2]

theorem proj_succ (U : Matrix (Fin m) (Fin m) ℝ) (k i j : Fin m) :
    (headCols U (n := (k : ℕ) + 1) k.2 * (headCols U (n := (k : ℕ) + 1) k.2)ᵀ) i j - (headCols U (n := (k : ℕ)) k.2.le * (headCols U (n := (k : ℕ)) k.2.le)ᵀ) i j = U i k * U j k := by
  rw [Matrix.mul_apply, Matrix.mul_apply, Fin.sum_univ_castSucc]
  have : (Fin.castLE k.2 (Fin.last (k : ℕ))) = k := Fin.ext rfl
  simp only [headCols, Matrix.transpose_apply, Matrix.submatrix_apply, id, this]
  exact add_sub_cancel_left _ _

theorem sign_mul_abs (x : ℝ) : npSign x * |x| = x := by
  rcases lt_trichotomy x 0 with h | h | h
  · rw [sign_of_neg h, abs_of_neg h]; ring
  · rw [h]; simp
  · rw [sign_of_pos h, abs_of_pos h]; ring

/-- **A reported direction converges, with its sign**: if an eigenvalue of the mean outer product is simple and the mean gradient has a positive component along its eigenvector,
then the reported direction converges to this eigenvector almost surely, whatever the singular value decomposition. -/
theorem asFit_direction_limit (h : Iid μ X P) {g : Pt m → Pt m} (hg : Measurable g) (hi : ∀ a b, Integrable (fun x => g x a * g x b) P)
    (hi1 : ∀ a, Integrable (fun x => g x a) P) (V : Matrix (Fin m) (Fin m) ℝ) (hV : Vᵀ * V = 1) (a : Fin m → ℝ) (ha : Antitone a)
    (hC : meanOuter P g = V * Matrix.diagonal a * Vᵀ) (k : Fin m) (hk : ∀ j, j ≠ k → a j ≠ a k) (hpos : 0 < ∑ i, (∫ x, g x i ∂P) * V i k) :
    ∀ᵐ ω ∂μ, ∀ (svd : SvdFn m) (_ : SvdSpec svd) (r : ℕ → ASState m), Reported svd g (fun i => X i ω) r →
      ∀ i, Tendsto (fun N => (r N).U i k) atTop (𝓝 (V i k)) := by
  have hall : ∀ᵐ ω ∂μ, ∀ a, Tendsto (fun N : ℕ => (∑ i ∈ Finset.range N, g (X i ω) a) / N) atTop (𝓝 (∫ x, g x a ∂P)) := by
    rw [ae_all_iff]
    exact fun a => mean_limit h (φ := fun x => g x a) ((measurable_pi_apply a).comp hg) (hi1 a)
  have g1 : ∀ i j : Fin m, (i : ℕ) < (k : ℕ) → (k : ℕ) ≤ (j : ℕ) → a j < a i := by
    intro i j h1 h2
    refine lt_of_le_of_lt (ha (show k ≤ j from h2)) (lt_of_le_of_ne (ha (show i ≤ k from h1.le)) fun e => hk i (fun e' => ?_) e.symm)
    rw [e'] at h1
    exact lt_irrefl _ h1
  have g2 : ∀ i j : Fin m, (i : ℕ) < (k : ℕ) + 1 → (k : ℕ) + 1 ≤ (j : ℕ) → a j < a i := by
    intro i j h1 h2
    refine lt_of_lt_of_le (lt_of_le_of_ne (ha (show k ≤ j from Nat.le_of_succ_le h2)) (hk j fun e' => ?_)) (ha (show i ≤ k from Nat.lt_succ_iff.1 h1))
    rw [e'] at h2
    omega
  filter_upwards [asFit_C_limit h hg hi, hall] with ω hω hmean svd hsvd r hr i
  have hlim := (hω svd hsvd r hr).2
  set x : ℕ → Pt m := fun i => X i ω with hx
  set R : ℕ → Matrix (Fin m) (Fin m) ℝ := fun N => rawDirs svd (firstGrads g x N) with hR
  set c : ℝ := ∑ i, (∫ x, g x i ∂P) * V i k with hc
  have huv : ∀ i j, Tendsto (fun N => R N i k * R N j k) atTop (𝓝 (V i k * V j k)) := by
    intro i j
    have := (raw_limit hsvd hr hlim hV ha hC (n := (k : ℕ) + 1) k.2 g2 i j).sub (raw_limit hsvd hr hlim hV ha hC (n := (k : ℕ)) k.2.le g1 i j)
    rw [proj_succ] at this
    exact this.congr fun N => proj_succ _ _ _ _
  set Mn : ℕ → Fin m → ℝ := fun N a => (∑ i ∈ Finset.range N, g (x i) a) / N with hMn
  have hmg : ∀ N, meanGrad (firstGrads g x N) (ucol (R N) k) = ∑ a, Mn N a * R N a k := by
    intro N
    have hlen : (firstGrads g x N).length = N := by simp [firstGrads]
    rw [meanGrad, hlen, firstGrads, List.map_map]
    have e : ((List.range N).map ((fun v => v ⬝ᵥ ucol (R N) k) ∘ fun i => g (x i))).sum = ∑ i ∈ Finset.range N, ∑ a, g (x i) a * R N a k := rfl
    rw [e, Finset.sum_comm, Finset.sum_div]
    refine Finset.sum_congr rfl fun a _ => ?_
    rw [← Finset.sum_mul, hMn]
    ring
  have hsq : Tendsto (fun N => (meanGrad (firstGrads g x N) (ucol (R N) k)) ^ 2) atTop (𝓝 (c ^ 2)) := by
    have e : ∀ (M : Fin m → ℝ) (u : Fin m → ℝ), (∑ a, M a * u a) ^ 2 = ∑ a, ∑ b, M a * M b * (u a * u b) := by
      intro M u
      rw [pow_two, Finset.sum_mul_sum]
      refine Finset.sum_congr rfl fun a _ => Finset.sum_congr rfl fun b _ => ?_
      ring
    simp only [hmg, e, hc]
    exact tendsto_finset_sum _ fun a _ => tendsto_finset_sum _ fun b _ => ((hmean a).mul (hmean b)).mul (huv a b)
  have habs : Tendsto (fun N => |meanGrad (firstGrads g x N) (ucol (R N) k)|) atTop (𝓝 c) := by
    have := hsq.sqrt
    rw [Real.sqrt_sq hpos.le] at this
    exact this.congr fun N => Real.sqrt_sq_eq_abs _
  have hnum : Tendsto (fun N => R N i k * meanGrad (firstGrads g x N) (ucol (R N) k)) atTop (𝓝 (V i k * c)) := by
    have e : ∀ (M : Fin m → ℝ) (u : Fin m → ℝ), u i * ∑ a, M a * u a = ∑ a, M a * (u i * u a) := by
      intro M u
      rw [Finset.mul_sum]
      exact Finset.sum_congr rfl fun a _ => by ring
    simp only [hmg, hc]
    rw [e _ fun j => V j k]
    refine (tendsto_finset_sum (f := fun a N => Mn N a * (R N i k * R N a k)) _ fun a _ => (hmean a).mul (huv i a)).congr fun N => ?_
    exact (e (Mn N) fun j => R N j k).symm
  have hdiv := hnum.div habs hpos.ne'
  rw [mul_div_assoc, div_self hpos.ne', mul_one] at hdiv
  refine hdiv.congr' ?_
  filter_upwards [eventually_ge_atTop 1, habs.eventually_ne hpos.ne'] with N hN hne
  have e := (fit_raw hsvd (hr N hN)).1
  rw [Pi.div_apply, e, fixGrads, Matrix.mul_diagonal, div_eq_iff hne, mul_assoc, sign_mul_abs]

/-- So no direction is reported as zero for large numbers of samples, if all eigenvalues are simple and the mean gradient has a component along every eigenvector. -/
theorem asFit_nonzero_limit (h : Iid μ X P) {g : Pt m → Pt m} (hg : Measurable g) (hi : ∀ a b, Integrable (fun x => g x a * g x b) P)
    (hi1 : ∀ a, Integrable (fun x => g x a) P) (V : Matrix (Fin m) (Fin m) ℝ) (hV : Vᵀ * V = 1) (a : Fin m → ℝ) (ha : StrictAnti a)
    (hC : meanOuter P g = V * Matrix.diagonal a * Vᵀ) (hpos : ∀ k, 0 < ∑ i, (∫ x, g x i ∂P) * V i k) :
    ∀ᵐ ω ∂μ, ∀ (svd : SvdFn m) (_ : SvdSpec svd) (r : ℕ → ASState m), Reported svd g (fun i => X i ω) r → ∀ᶠ N in atTop, ∀ k, ucol (r N).U k ≠ 0 := by
  have hall : ∀ᵐ ω ∂μ, ∀ k, ∀ (svd : SvdFn m) (_ : SvdSpec svd) (r : ℕ → ASState m), Reported svd g (fun i => X i ω) r →
      ∀ i, Tendsto (fun N => (r N).U i k) atTop (𝓝 (V i k)) := by
    rw [ae_all_iff]
    exact fun k => asFit_direction_limit h hg hi hi1 V hV a ha.antitone hC k (fun j hj e => hj (ha.injective e)) (hpos k)
  filter_upwards [hall] with ω hω svd hsvd r hr
  rw [eventually_all]
  intro k
  obtain ⟨i, hik⟩ : ∃ i, V i k ≠ 0 := by
    by_contra hno
    push Not at hno
    have := hpos k
    simp [hno] at this
  filter_upwards [(hω k svd hsvd r hr i).eventually_ne hik] with N hN he
  exact hN (congrFun he i)

/-! ### An example: two gradients with equal probabilities -/

/-- The gradients `(2, 0)` and `(0, 1)`, with probability one half each. -/
noncomputable def coinLaw : Measure (Pt 2) := (1 / 2 : ENNReal) • Measure.dirac ![2, 0] + (1 / 2 : ENNReal) • Measure.dirac ![0, 1]

theorem half_ne_top : (1 / 2 : ENNReal) ≠ ⊤ := by
  rw [one_div]
  exact ENNReal.inv_ne_top.2 two_ne_zero

instance : IsProbabilityMeasure coinLaw := ⟨by
  simp only [coinLaw, Measure.coe_add, Pi.add_apply, Measure.smul_apply, measure_univ, smul_eq_mul, mul_one]
  exact ENNReal.add_halves 1⟩

theorem coin_integrable {φ : Pt 2 → ℝ} (hφ : Measurable φ) : Integrable φ coinLaw := by
  have hd : ∀ v : Pt 2, Integrable φ (Measure.dirac v) := fun v => integrable_dirac' hφ.stronglyMeasurable (by simp)
  exact ((hd _).smul_measure half_ne_top).add_measure ((hd _).smul_measure half_ne_top)

theorem coin_integral {φ : Pt 2 → ℝ} (hφ : Measurable φ) : ∫ x, φ x ∂coinLaw = (φ ![2, 0] + φ ![0, 1]) / 2 := by
  have hd : ∀ v : Pt 2, Integrable φ (Measure.dirac v) := fun v => integrable_dirac' hφ.stronglyMeasurable (by simp)
  rw [coinLaw, integral_add_measure ((hd _).smul_measure half_ne_top) ((hd _).smul_measure half_ne_top), integral_smul_measure, integral_smul_measure,
    integral_dirac' _ _ hφ.stronglyMeasurable, integral_dirac' _ _ hφ.stronglyMeasurable]
  simp
  ring

/-- All hypotheses are met by independent draws of the two gradients: the first direction converges to `(1, 0)`, the second to `(0, 1)`. -/
example : ∀ᵐ ω ∂(Measure.infinitePi fun _ : ℕ => coinLaw), ∀ (svd : SvdFn 2) (_ : SvdSpec svd) (r : ℕ → ASState 2), Reported svd (fun v => v) (fun i => ω i) r →
    ∀ k i, Tendsto (fun N => (r N).U i k) atTop (𝓝 ((1 : Matrix (Fin 2) (Fin 2) ℝ) i k)) := by
  have hp : ∀ a : Fin 2, Measurable fun x : Pt 2 => x a := fun a => measurable_pi_apply a
  have hC : meanOuter coinLaw (fun v => v) = 1 * Matrix.diagonal ![2, 1 / 2] * (1 : Matrix (Fin 2) (Fin 2) ℝ)ᵀ := by
    ext a b
    rw [Matrix.transpose_one, Matrix.mul_one, Matrix.one_mul, meanOuter, Matrix.of_apply, coin_integral (φ := fun x => x a * x b) ((hp a).mul (hp b))]
    fin_cases a <;> fin_cases b <;> simp
  have ha : Antitone ![(2 : ℝ), 1 / 2] := by
    intro i j
    fin_cases i <;> fin_cases j <;> norm_num
  have := fun k : Fin 2 => asFit_direction_limit (exists_iid coinLaw) (g := fun v => v) measurable_id (fun a b => coin_integrable ((hp a).mul (hp b)))
    (fun a => coin_integrable (hp a)) 1 (by simp) ![2, 1 / 2] ha hC k (by fin_cases k <;> simp [Fin.forall_fin_two] <;> norm_num)
    (by
      simp only [Fin.sum_univ_two, coin_integral (hp _)]
      have h0 : k = 0 ∨ k = 1 := by omega
      rcases h0 with rfl | rfl <;> simp)
  filter_upwards [ae_all_iff.2 this] with ω hω svd hsvd r hr k i
  exact hω k svd hsvd r hr i

/-! ### Monte Carlo integrals -/

/-- What a rule with equal weights assigns to a function. -/
theorem applyRule_equal (x : ℕ → Pt m) (N : ℕ) (c : ℝ) (f : Vec → ℝ) :
    applyRule ((List.range N).map fun i => List.ofFn (x i)) (List.replicate N c) f = c * ∑ i ∈ Finset.range N, f (List.ofFn (x i)) := by
  have : ∀ l : List ℕ, (List.zipWith (fun x c => c * f x) (l.map fun i => List.ofFn (x i)) (List.replicate l.length c)).sum =
      c * (l.map fun i => f (List.ofFn (x i))).sum := by
    intro l
    induction l with
    | nil => simp
    | cons i l ih =>
      rw [List.map_cons, List.length_cons, List.replicate_succ, List.zipWith_cons_cons, List.sum_cons, ih, List.map_cons, List.sum_cons]
      ring
  have h1 := this (List.range N)
  rw [List.length_range] at h1
  exact h1

/-- **The Monte Carlo rule converges**: if the rules with `N` points use the first `N` of a sequence of independent samples, then for every integrable function the
values they give converge to the volume times the mean of the function, almost surely. -/
theorem quadMC_limit (h : Iid μ X P) {f : Vec → ℝ} (hf : Measurable fun x : Pt m => f (List.ofFn x)) (hi : Integrable (fun x : Pt m => f (List.ofFn x)) P) (vol : ℝ) :
    ∀ᵐ ω ∂μ, ∀ (D : ℕ → QDom) (R : ℕ → List Vec × List ℝ), (∀ N, (D N).vol = vol) →
      (∀ N, 1 ≤ N → (D N).sample N = .ok ((List.range N).map fun i => List.ofFn (X i ω))) → (∀ N, 1 ≤ N → quadMC (D N) N = .ok (R N)) →
      Tendsto (fun N => applyRule (R N).1 (R N).2 f) atTop (𝓝 (vol * ∫ x, f (List.ofFn x) ∂P)) := by
  filter_upwards [mean_limit h hf hi] with ω hω D R hv hs hR
  refine (hω.const_mul vol).congr' ?_
  filter_upwards [eventually_ge_atTop 1] with N hN
  have := hR N hN
  rw [quadMC, if_neg (by omega), hs N hN] at this
  simp only [Bind.bind, Except.bind, pure, Except.pure, Except.ok.injEq] at this
  rw [← this, applyRule_equal, hv]
  ring

/-- For uniform samples of a set of positive finite volume, and this volume, the limit is the integral over the set. -/
theorem quadMC_limit_uniform (S : Set (Pt m)) (h0 : volume S ≠ 0) (h1 : volume S ≠ ⊤) (h : Iid μ X (ProbabilityTheory.cond volume S)) {f : Vec → ℝ}
    (hf : Measurable fun x : Pt m => f (List.ofFn x)) (hi : IntegrableOn (fun x : Pt m => f (List.ofFn x)) S) :
    ∀ᵐ ω ∂μ, ∀ (D : ℕ → QDom) (R : ℕ → List Vec × List ℝ), (∀ N, (D N).vol = (volume S).toReal) →
      (∀ N, 1 ≤ N → (D N).sample N = .ok ((List.range N).map fun i => List.ofFn (X i ω))) → (∀ N, 1 ≤ N → quadMC (D N) N = .ok (R N)) →
      Tendsto (fun N => applyRule (R N).1 (R N).2 f) atTop (𝓝 (∫ x in S, f (List.ofFn x))) := by
  have hi' : Integrable (fun x : Pt m => f (List.ofFn x)) (ProbabilityTheory.cond volume S) := by
    rw [ProbabilityTheory.cond]
    exact Integrable.smul_measure hi (ENNReal.inv_ne_top.2 h0)
  have e : (volume S).toReal * ∫ x, f (List.ofFn x) ∂(ProbabilityTheory.cond volume S) = ∫ x in S, f (List.ofFn x) := by
    rw [ProbabilityTheory.cond, integral_smul_measure, ENNReal.toReal_inv, smul_eq_mul, ← mul_assoc, mul_inv_cancel₀ (ENNReal.toReal_ne_zero.2 ⟨h0, h1⟩), one_mul]
  filter_upwards [quadMC_limit h hf hi' (volume S).toReal] with ω hω D R hv hs hR
  rw [← e]
  exact hω D R hv hs hR

/-- The unit interval: uniform samples exist, and the rules converge for the identity. -/
example : ∀ᵐ ω ∂(Measure.infinitePi fun _ : ℕ => ProbabilityTheory.cond (volume : Measure (Pt 1)) (Set.Icc 0 1)), ∀ (D : ℕ → QDom) (R : ℕ → List Vec × List ℝ),
    (∀ N, (D N).vol = (volume (Set.Icc (0 : Pt 1) 1)).toReal) → (∀ N, 1 ≤ N → (D N).sample N = .ok ((List.range N).map fun i => List.ofFn (ω i))) →
      (∀ N, 1 ≤ N → quadMC (D N) N = .ok (R N)) →
        Tendsto (fun N => applyRule (R N).1 (R N).2 List.sum) atTop (𝓝 (∫ x in Set.Icc (0 : Pt 1) 1, (List.ofFn x).sum)) := by
  have hv : volume (Set.Icc (0 : Pt 1) 1) = 1 := by
    rw [Real.volume_Icc_pi]
    simp
  have h0 : volume (Set.Icc (0 : Pt 1) 1) ≠ 0 := by rw [hv]; exact one_ne_zero
  have h1 : volume (Set.Icc (0 : Pt 1) 1) ≠ ⊤ := by rw [hv]; exact ENNReal.one_ne_top
  haveI := ProbabilityTheory.cond_isProbabilityMeasure_of_finite h0 h1
  have hc : Continuous fun x : Pt 1 => (List.ofFn x).sum := by
    simp only [List.sum_ofFn]
    fun_prop
  exact quadMC_limit_uniform _ h0 h1 (exists_iid _) hc.measurable (hc.continuousOn.integrableOn_compact isCompact_Icc)

end Verif.Misc
