import Verif.Lipschitz.OptProps
import Verif.Misc.ActiveLimit
import Mathlib.Topology.Sequences
import Mathlib.Topology.Order.MonotoneConvergence
import Mathlib.Analysis.Convex.Topology
import Mathlib.MeasureTheory.Measure.OpenPos
import Mathlib.Probability.ConditionalProbability

/-!
# Lipschitz matrices, constants and bounds as the samples fill a set (C153)
-/

namespace Verif.Lip

open Verif Verif.Domain Matrix Filter Topology MeasureTheory ProbabilityTheory

variable {m : ℕ}

/-! ## Specification -/

/-- The first `N` samples of a sequence of points. -/
def firstPts (x : ℕ → Pt m) (N : ℕ) : List (Pt m) := (List.range N).map x

/-- The function at the first `N` samples. -/
def firstVals (f : Pt m → ℝ) (x : ℕ → Pt m) (N : ℕ) : List ℝ := (firstPts x N).map f

/-- The samples lie in `S` and come arbitrarily close to each of its points. -/
structure Fills (x : ℕ → Pt m) (S : Set (Pt m)) : Prop where
  inside : ∀ i, x i ∈ S
  dense : S ⊆ closure (Set.range x)

/-- `H` bounds the changes of `f` between any two points of `S`. -/
structure MatrixOn (f : Pt m → ℝ) (S : Set (Pt m)) (H : Matrix (Fin m) (Fin m) ℝ) : Prop where
  symm : Hᵀ = H
  psd : ∀ x, 0 ≤ quad H x
  bound : ∀ x ∈ S, ∀ y ∈ S, |f x - f y| ≤ √(quad H (x - y))

/-- A Lipschitz matrix of `f` on `S`: one of smallest trace. -/
def LeastMatrixOn (f : Pt m → ℝ) (S : Set (Pt m)) (H : Matrix (Fin m) (Fin m) ℝ) : Prop :=
  MatrixOn f S H ∧ ∀ H', MatrixOn f S H' → trace H ≤ trace H'

/-- `c` is a Lipschitz constant of `f` on `S`. -/
def ConstOn (f : Pt m → ℝ) (S : Set (Pt m)) (c : ℝ) : Prop := 0 ≤ c ∧ ∀ x ∈ S, ∀ y ∈ S, |f x - f y| ≤ c * nrm (x - y)

/-- The least one. -/
def LeastConstOn (f : Pt m → ℝ) (S : Set (Pt m)) (c : ℝ) : Prop := ConstOn f S c ∧ ∀ c', ConstOn f S c' → c ≤ c'

/-! ## Tools -/

theorem zip_first (f : Pt m → ℝ) (x : ℕ → Pt m) (N : ℕ) : (firstPts x N).zip (firstVals f x N) = (List.range N).map fun i => (x i, f (x i)) := by
  unfold firstVals firstPts
  rw [List.map_map, List.zip_map', Function.comp_def]

theorem mem_first {f : Pt m → ℝ} {x : ℕ → Pt m} {N : ℕ} {d : Pt m × ℝ} : d ∈ (firstPts x N).zip (firstVals f x N) ↔ ∃ i < N, (x i, f (x i)) = d := by
  rw [zip_first]
  simp [List.mem_map]

theorem first_sub (f : Pt m → ℝ) (x : ℕ → Pt m) {M N : ℕ} (h : M ≤ N) : (firstPts x M).zip (firstVals f x M) ⊆ (firstPts x N).zip (firstVals f x N) := by
  intro d hd
  obtain ⟨i, hi, e⟩ := mem_first.1 hd
  exact mem_first.2 ⟨i, hi.trans_le h, e⟩

theorem MatrixOn.admissible {f : Pt m → ℝ} {S : Set (Pt m)} {H : Matrix (Fin m) (Fin m) ℝ} (h : MatrixOn f S H) {x : ℕ → Pt m} (hx : ∀ i, x i ∈ S) (N : ℕ) :
    Admissible 0 ((firstPts x N).zip (firstVals f x N)) [] H := by
  refine ⟨h.symm, h.psd, fun d hd d' hd' => ?_, by simp⟩
  obtain ⟨i, -, rfl⟩ := mem_first.1 hd
  obtain ⟨j, -, rfl⟩ := mem_first.1 hd'
  rw [add_zero]
  exact h.bound _ (hx i) _ (hx j)

theorem continuous_quad_pt (H : Matrix (Fin m) (Fin m) ℝ) : Continuous fun x : Pt m => quad H x := by
  unfold quad
  exact Continuous.dotProduct continuous_id (Continuous.matrix_mulVec continuous_const continuous_id)

theorem continuous_nrm : Continuous fun x : Pt m => nrm x := by
  unfold nrm
  exact Real.continuous_sqrt.comp (Continuous.dotProduct continuous_id continuous_id)

/-- A relation between the values that holds at the samples and is closed holds on the whole set. -/
theorem dense_pairs {f : Pt m → ℝ} {S : Set (Pt m)} (hf : ContinuousOn f S) {x : ℕ → Pt m} (hx : Fills x S) {B : Pt m → ℝ} (hB : Continuous B)
    (h : ∀ i j, |f (x i) - f (x j)| ≤ B (x i - x j)) : ∀ a ∈ S, ∀ b ∈ S, |f a - f b| ≤ B (a - b) := by
  have hseq : ∀ a ∈ S, ∃ k : ℕ → ℕ, Tendsto (fun n => x (k n)) atTop (𝓝 a) ∧ Tendsto (fun n => f (x (k n))) atTop (𝓝 (f a)) := by
    intro a ha
    obtain ⟨u, hu, hlim⟩ := mem_closure_iff_seq_limit.1 (hx.dense ha)
    choose k hk using hu
    have hl : Tendsto (fun n => x (k n)) atTop (𝓝 a) := by
      simpa only [hk] using hlim
    refine ⟨k, hl, (hf a ha).tendsto.comp (tendsto_nhdsWithin_iff.2 ⟨hl, Eventually.of_forall fun n => hx.inside _⟩)⟩
  intro a ha b hb
  obtain ⟨k, k1, k2⟩ := hseq a ha
  obtain ⟨l, l1, l2⟩ := hseq b hb
  exact le_of_tendsto_of_tendsto' (k2.sub l2).abs ((hB.tendsto _).comp (k1.sub l1)) fun n => h _ _

/-- The quadratic form is at most the trace times the squared length. -/
theorem quad_le_trace {H : Matrix (Fin m) (Fin m) ℝ} (hs : Hᵀ = H) (hp : ∀ x, 0 ≤ quad H x) (v : Pt m) : quad H v ≤ (m * trace H) * nrm v ^ 2 := by
  have hent := psd_entry hs hp
  have ht : 0 ≤ trace H := Finset.sum_nonneg fun i _ => by
    have := hp (Pi.single i 1); rwa [quad_single] at this
  have e : quad H v = ∑ i, ∑ j, v i * (H i j * v j) := by
    unfold quad
    simp only [dotProduct, mulVec, Finset.mul_sum]
  rw [e, nrm_sq]
  have step : ∀ i j, v i * (H i j * v j) ≤ trace H * ((v i * v i + v j * v j) / 2) := fun i j => by
    have h1 := hent i j
    have h2 : |v i * v j| ≤ (v i * v i + v j * v j) / 2 := by
      rw [abs_le]; constructor <;> nlinarith [sq_nonneg (v i + v j), sq_nonneg (v i - v j)]
    calc v i * (H i j * v j) = H i j * (v i * v j) := by ring
      _ ≤ |H i j| * |v i * v j| := by rw [← abs_mul]; exact le_abs_self _
      _ ≤ _ := mul_le_mul h1 h2 (abs_nonneg _) ht
  refine (Finset.sum_le_sum fun i _ => Finset.sum_le_sum fun j _ => step i j).trans (le_of_eq ?_)
  simp only [dotProduct, ← Finset.mul_sum, ← Finset.sum_div, Finset.sum_add_distrib, Finset.sum_const, Finset.card_univ, Fintype.card_fin, nsmul_eq_mul]
  have e2 : ∑ i, v i * (m * v i) = m * ∑ i, v i * v i := by
    rw [Finset.mul_sum]; exact Finset.sum_congr rfl fun i _ => by ring
  rw [e2]
  ring

/-! ## The matrices -/

/-- Limits of Lipschitz matrices of the first samples are Lipschitz matrices of the function. -/
theorem limit_least {f : Pt m → ℝ} {S : Set (Pt m)} (hf : ContinuousOn f S) {x : ℕ → Pt m} (hx : Fills x S)
    {H : ℕ → Matrix (Fin m) (Fin m) ℝ} {N0 : ℕ} (hH : ∀ N ≥ N0, IsLipMatrix 0 ((firstPts x N).zip (firstVals f x N)) [] (H N)) {φ : ℕ → ℕ} (hφ : StrictMono φ)
    {A : Matrix (Fin m) (Fin m) ℝ} (hA : Tendsto (fun n => H (φ n)) atTop (𝓝 A)) : LeastMatrixOn f S A := by
  have hev : ∀ M, ∀ᶠ n in atTop, M ≤ φ n := fun M => hφ.tendsto_atTop.eventually (eventually_ge_atTop M)
  have hq : ∀ v, Tendsto (fun n => quad (H (φ n)) v) atTop (𝓝 (quad A v)) := fun v => ((continuous_quad v).tendsto _).comp hA
  refine ⟨⟨?_, fun v => ?_, ?_⟩, fun H' hH' => ?_⟩
  · refine tendsto_nhds_unique (((Continuous.matrix_transpose continuous_id).tendsto A).comp hA) (hA.congr' ?_)
    filter_upwards [hev N0] with n hn
    exact (hH _ hn).1.symm.symm
  · refine ge_of_tendsto (hq v) ?_
    filter_upwards [hev N0] with n hn
    exact (hH _ hn).1.psd v
  · refine dense_pairs hf hx (B := fun v => √(quad A v)) (Real.continuous_sqrt.comp (continuous_quad_pt A)) fun i j => ?_
    refine ge_of_tendsto ((Real.continuous_sqrt.tendsto _).comp (hq (x i - x j))) ?_
    filter_upwards [hev N0, hev (i + 1), hev (j + 1)] with n hn hi hj
    have := (hH _ hn).1.samples _ (mem_first.2 ⟨i, by omega, rfl⟩) _ (mem_first.2 ⟨j, by omega, rfl⟩)
    rwa [add_zero] at this
  · refine le_of_tendsto (((Continuous.matrix_trace continuous_id).tendsto A).comp hA) ?_
    filter_upwards [hev N0] with n hn
    exact (hH _ hn).2 _ (hH'.admissible hx.inside _)

/-- The Lipschitz matrices of the first samples have a convergent subsequence if the function has a Lipschitz matrix. -/
theorem subseq_limit {f : Pt m → ℝ} {S : Set (Pt m)} {x : ℕ → Pt m} (hx : Fills x S) {H0 : Matrix (Fin m) (Fin m) ℝ} (h0 : MatrixOn f S H0)
    {H : ℕ → Matrix (Fin m) (Fin m) ℝ} {N0 : ℕ} (hH : ∀ N ≥ N0, IsLipMatrix 0 ((firstPts x N).zip (firstVals f x N)) [] (H N)) {ψ : ℕ → ℕ} (hψ : StrictMono ψ) :
    ∃ A, ∃ φ : ℕ → ℕ, StrictMono φ ∧ Tendsto (fun n => H (ψ (φ n))) atTop (𝓝 A) := by
  have hbox : IsCompact (Set.pi Set.univ fun _ : Fin m => Set.pi Set.univ fun _ : Fin m => Set.Icc (-trace H0) (trace H0)) :=
    isCompact_univ_pi fun _ => isCompact_univ_pi fun _ => isCompact_Icc
  have hmem : ∀ n, H (ψ (n + N0)) ∈ (Set.pi Set.univ fun _ : Fin m => Set.pi Set.univ fun _ : Fin m => Set.Icc (-trace H0) (trace H0)) := by
    rintro n i - j -
    have hn : N0 ≤ ψ (n + N0) := le_trans (Nat.le_add_left N0 n) (hψ.id_le _)
    obtain ⟨h1, h2⟩ := hH _ hn
    have := abs_le.1 ((psd_entry h1.symm h1.psd i j).trans (h2 _ (h0.admissible hx.inside _)))
    exact ⟨this.1, this.2⟩
  obtain ⟨A, -, φ, hφ, hlim⟩ := hbox.tendsto_subseq hmem
  exact ⟨A, fun n => φ n + N0, fun a b h => by simpa using hφ h, hlim⟩

/-- **C153**: for a continuous function on a set that the samples fill, and that has a Lipschitz matrix at all, the traces of the matrices fitted to the
first samples increase to the smallest trace of a Lipschitz matrix of the function on the whole set, and that smallest trace is attained. -/
theorem fit_trace_limit {build : Build m} (hb : BuildOpt build) {eigh : EighFn m} (he : EighSpec eigh) {f : Pt m → ℝ} {S : Set (Pt m)} (hf : ContinuousOn f S)
    {x : ℕ → Pt m} (hx : Fills x S) {H0 : Matrix (Fin m) (Fin m) ℝ} (h0 : MatrixOn f S H0) {r : ℕ → LipFit m} {N0 : ℕ}
    (hr : ∀ N ≥ N0, lipFit build eigh none (some (firstPts x N)) (some (firstVals f x N)) none = .ok (r N)) :
    ∃ A, LeastMatrixOn f S A ∧ Tendsto (fun N => trace (r N).H) atTop (𝓝 (trace A)) ∧ (∀ M N, N0 ≤ M → M ≤ N → trace (r M).H ≤ trace (r N).H) ∧
      ∀ N ≥ N0, trace (r N).H ≤ trace A := by
  have hH : ∀ N ≥ N0, IsLipMatrix 0 ((firstPts x N).zip (firstVals f x N)) [] (r N).H := fun N hN => fit_minimal_samples hb he (hr N hN)
  obtain ⟨A, φ, hφ, hlim⟩ := subseq_limit hx h0 hH strictMono_id
  have hA := limit_least hf hx hH hφ hlim
  have hmono : ∀ M N, N0 ≤ M → M ≤ N → trace (r M).H ≤ trace (r N).H := fun M N hM hMN =>
    fit_trace_mono hb he (hr M hM) (hr N (hM.trans hMN)) (first_sub f x hMN)
  have hle : ∀ N ≥ N0, trace (r N).H ≤ trace A := fun N hN => (hH N hN).2 _ (hA.1.admissible hx.inside _)
  refine ⟨A, hA, ?_, hmono, hle⟩
  have hm : Monotone fun n => trace (r (n + N0)).H := fun a b h => hmono _ _ (by omega) (by omega)
  have hbdd : BddAbove (Set.range fun n => trace (r (n + N0)).H) := ⟨trace A, by rintro _ ⟨n, rfl⟩; exact hle _ (by omega)⟩
  have hsup := tendsto_atTop_ciSup hm hbdd
  have ht : Tendsto (fun N => trace (r N).H) atTop (𝓝 (⨆ n, trace (r (n + N0)).H)) := (tendsto_add_atTop_iff_nat (f := fun N => trace (r N).H) N0).1 hsup
  have h1 : Tendsto (fun n => trace (r (φ n)).H) atTop (𝓝 (trace A)) := ((Continuous.matrix_trace continuous_id).tendsto A).comp hlim
  rwa [tendsto_nhds_unique (ht.comp hφ.tendsto_atTop) h1] at ht

/-- **C153**: if the function has only one Lipschitz matrix on the set, the fitted matrices converge to it. -/
theorem fit_matrix_limit {build : Build m} (hb : BuildOpt build) {eigh : EighFn m} (he : EighSpec eigh) {f : Pt m → ℝ} {S : Set (Pt m)} (hf : ContinuousOn f S)
    {x : ℕ → Pt m} (hx : Fills x S) {A : Matrix (Fin m) (Fin m) ℝ} (hA : LeastMatrixOn f S A) (huniq : ∀ A', LeastMatrixOn f S A' → A' = A) {r : ℕ → LipFit m}
    {N0 : ℕ} (hr : ∀ N ≥ N0, lipFit build eigh none (some (firstPts x N)) (some (firstVals f x N)) none = .ok (r N)) :
    Tendsto (fun N => (r N).H) atTop (𝓝 A) := by
  have hH : ∀ N ≥ N0, IsLipMatrix 0 ((firstPts x N).zip (firstVals f x N)) [] (r N).H := fun N hN => fit_minimal_samples hb he (hr N hN)
  refine tendsto_of_subseq_tendsto fun ns hns => ?_
  obtain ⟨ψ, hψ, hmono⟩ := strictMono_subseq_of_tendsto_atTop hns
  obtain ⟨A', φ, hφ, hlim⟩ := subseq_limit hx hA.1 hH hmono
  refine ⟨fun n => ψ (φ n), ?_⟩
  rw [← huniq A' (limit_least hf hx hH (hmono.comp hφ) hlim)]
  exact hlim

/-! ## The bounds -/

/-- How far the bounds are from a value, given one sample. -/
theorem bounds_near {k : ℕ} (L : Matrix (Fin k) (Fin m) ℝ) {data : List (Pt m × ℝ)} (hc : Consistent L 0 data) {d : Pt m × ℝ} (hd : d ∈ data) (y : Pt m) (t : ℝ) :
    |val (uncertainty L none data y).1 - t| ≤ |d.2 - t| + lnorm L (y - d.1) ∧ |val (uncertainty L none data y).2 - t| ≤ |d.2 - t| + lnorm L (y - d.1) := by
  have hne : data ≠ [] := by rintro rfl; simp at hd
  have hord := uncertainty_ordered L none data (by simpa using hc) y
  obtain ⟨lo, hi, h1, -, h2, -, h3⟩ := uncertainty_spec L none y hne
  simp only [Option.getD_none, sub_zero, add_zero] at h1
  rw [h1] at hord ⊢
  have hlh : lo ≤ hi := by
    have : lo < hi ∨ lo = hi := by simpa [XR.le, XR.lt, XR.eq] using hord
    exact le_of_lt_or_eq this
  have a := h2 d hd
  have b := h3 d hd
  have c1 := le_abs_self (d.2 - t)
  have c2 := neg_abs_le (d.2 - t)
  simp only [val, abs_le]
  refine ⟨⟨?_, ?_⟩, ?_, ?_⟩ <;> linarith

/-- **C153**: the width of the uncertainty interval at a point is at most twice the distance, in the metric of the matrix, to any sample. -/
theorem width_le {k : ℕ} (L : Matrix (Fin k) (Fin m) ℝ) {data : List (Pt m × ℝ)} {d : Pt m × ℝ} (hd : d ∈ data) (y : Pt m) :
    val (uncertainty L none data y).2 - val (uncertainty L none data y).1 ≤ 2 * lnorm L (y - d.1) := by
  have hne : data ≠ [] := by rintro rfl; simp at hd
  obtain ⟨lo, hi, h1, -, h2, -, h3⟩ := uncertainty_spec L none y hne
  simp only [Option.getD_none, sub_zero, add_zero] at h1
  rw [h1]
  simp only [val]
  linarith [h2 d hd, h3 d hd]

/-- **C153**: the lower and upper bounds computed with the matrices fitted to the first samples converge to the function at every point of the set. -/
theorem fit_bounds_limit {build : Build m} (hb : BuildOpt build) {eigh : EighFn m} (he : EighSpec eigh) {f : Pt m → ℝ} {S : Set (Pt m)} (hf : ContinuousOn f S)
    {x : ℕ → Pt m} (hx : Fills x S) {H0 : Matrix (Fin m) (Fin m) ℝ} (h0 : MatrixOn f S H0) {r : ℕ → LipFit m} {N0 : ℕ}
    (hr : ∀ N ≥ N0, lipFit build eigh none (some (firstPts x N)) (some (firstVals f x N)) none = .ok (r N)) {y : Pt m} (hy : y ∈ S) :
    Tendsto (fun N => val (uncertainty (r N).L none ((firstPts x N).zip (firstVals f x N)) y).1) atTop (𝓝 (f y)) ∧
    Tendsto (fun N => val (uncertainty (r N).L none ((firstPts x N).zip (firstVals f x N)) y).2) atTop (𝓝 (f y)) := by
  have hH : ∀ N ≥ N0, IsLipMatrix 0 ((firstPts x N).zip (firstVals f x N)) [] (r N).H := fun N hN => fit_minimal_samples hb he (hr N hN)
  set C := √(m * trace H0) with hC
  have hL : ∀ N ≥ N0, (∀ v, lnorm (r N).L v = √(quad (r N).H v)) ∧ ∀ v, lnorm (r N).L v ≤ C * nrm v := by
    intro N hN
    obtain ⟨-, -, -, hq⟩ := fit_gram hb.feasible he (hr N hN)
    obtain ⟨h1, h2⟩ := hH N hN
    have e : ∀ v, lnorm (r N).L v = √(quad (r N).H v) := fun v => by rw [hq v]; exact (Real.sqrt_sq (nrm_nonneg _)).symm
    refine ⟨e, fun v => ?_⟩
    rw [e, hC, ← Real.sqrt_sq (nrm_nonneg v), ← Real.sqrt_mul' _ (sq_nonneg _)]
    refine Real.sqrt_le_sqrt ((quad_le_trace h1.symm h1.psd v).trans ?_)
    exact mul_le_mul_of_nonneg_right (mul_le_mul_of_nonneg_left (h2 _ (h0.admissible hx.inside _)) (Nat.cast_nonneg m)) (sq_nonneg _)
  have key : ∀ ε > 0, ∃ M, ∀ N ≥ M, |val (uncertainty (r N).L none ((firstPts x N).zip (firstVals f x N)) y).1 - f y| < ε ∧
      |val (uncertainty (r N).L none ((firstPts x N).zip (firstVals f x N)) y).2 - f y| < ε := by
    intro ε hε
    obtain ⟨u, hu, hlim⟩ := mem_closure_iff_seq_limit.1 (hx.dense hy)
    choose k hk using hu
    have hl : Tendsto (fun n => x (k n)) atTop (𝓝 y) := by simpa only [hk] using hlim
    have hfl : Tendsto (fun n => f (x (k n))) atTop (𝓝 (f y)) :=
      (hf y hy).tendsto.comp (tendsto_nhdsWithin_iff.2 ⟨hl, Eventually.of_forall fun n => hx.inside _⟩)
    have hsum : Tendsto (fun n => |f (x (k n)) - f y| + C * nrm (y - x (k n))) atTop (𝓝 (|f y - f y| + C * nrm (y - y))) :=
      ((hfl.sub tendsto_const_nhds).abs).add (((continuous_nrm.tendsto _).comp (tendsto_const_nhds.sub hl)).const_mul C)
    rw [sub_self, sub_self, nrm_zero, mul_zero, abs_zero, add_zero] at hsum
    obtain ⟨n, hn⟩ := (hsum.eventually (gt_mem_nhds hε)).exists
    refine ⟨max N0 (k n + 1), fun N hN => ?_⟩
    have hN0 : N0 ≤ N := (le_max_left _ _).trans hN
    have hd : (x (k n), f (x (k n))) ∈ (firstPts x N).zip (firstVals f x N) := mem_first.2 ⟨k n, lt_of_lt_of_le (Nat.lt_succ_self _) ((le_max_right _ _).trans hN), rfl⟩
    have hc : Consistent (r N).L 0 ((firstPts x N).zip (firstVals f x N)) := fun d hd d' hd' => by
      rw [(hL N hN0).1]; exact (hH N hN0).1.samples d hd d' hd'
    obtain ⟨b1, b2⟩ := bounds_near (r N).L hc hd y (f y)
    have := (hL N hN0).2 (y - x (k n))
    simp only at b1 b2
    exact ⟨by linarith, by linarith⟩
  constructor
  · refine Metric.tendsto_atTop.2 fun ε hε => ?_
    obtain ⟨M, hM⟩ := key ε hε
    exact ⟨M, fun N hN => by rw [Real.dist_eq]; exact (hM N hN).1⟩
  · refine Metric.tendsto_atTop.2 fun ε hε => ?_
    obtain ⟨M, hM⟩ := key ε hε
    exact ⟨M, fun N hN => by rw [Real.dist_eq]; exact (hM N hN).2⟩

/-! ## The constant -/

theorem ConstOn.ok {f : Pt m → ℝ} {S : Set (Pt m)} {c : ℝ} (h : ConstOn f S c) {x : ℕ → Pt m} (hx : ∀ i, x i ∈ S) (N : ℕ) :
    ConstOk 0 ((firstPts x N).zip (firstVals f x N)) [] c := by
  refine ⟨h.1, fun d hd d' hd' => ?_, by simp⟩
  obtain ⟨i, -, rfl⟩ := mem_first.1 hd
  obtain ⟨j, -, rfl⟩ := mem_first.1 hd'
  rw [sub_zero]
  exact h.2 _ (hx i) _ (hx j)

theorem prepare_first (f : Pt m → ℝ) (x : ℕ → Pt m) {N : ℕ} (hN : 2 ≤ N) :
    prepare (some (firstPts x N)) (some (firstVals f x N)) none = .ok ((firstPts x N).zip (firstVals f x N), []) := by
  have hl : (firstVals f x N).length = (firstPts x N).length := by simp [firstVals]
  have hne : firstPts x N ≠ [] := by simp [firstPts]; omega
  unfold prepare pairUp initDim
  cases h : firstPts x N with
  | nil => exact absurd h hne
  | cons a l => simp [← h, hl]

theorem distinct_first (f : Pt m → ℝ) {x : ℕ → Pt m} (hinj : Function.Injective x) (N : ℕ) : DistinctPts ((firstPts x N).zip (firstVals f x N)) := by
  have hp : ∀ l : List ℕ, l.Nodup → ∀ p ∈ pairsOf l, p.1 ≠ p.2 := by
    intro l
    induction l with
    | nil => simp [pairsOf]
    | cons a l ih =>
      intro hn p hp
      rw [List.nodup_cons] at hn
      rcases List.mem_append.1 hp with h | h
      · obtain ⟨b, hb, rfl⟩ := List.mem_map.1 h
        exact fun e => hn.1 (by simp only at e; rwa [e])
      · exact ih hn.2 p h
  intro p hpp
  rw [zip_first, pairsOf_map] at hpp
  obtain ⟨q, hq, rfl⟩ := List.mem_map.1 hpp
  exact fun e => hp _ List.nodup_range q hq (hinj e)

/-- `LipschitzConstant.fit` on the first samples. -/
theorem constant_first (f : Pt m → ℝ) {x : ℕ → Pt m} (hinj : Function.Injective x) :
    ∃ c : ℕ → ℝ, ∀ N ≥ 2, constantFit none (some (firstPts x N)) (some (firstVals f x N)) none = .ok (.fin (c N)) ∧
      ConstLeast 0 ((firstPts x N).zip (firstVals f x N)) [] (c N) := by
  have hex : ∀ N, ∃ c, 2 ≤ N → constantFit none (some (firstPts x N)) (some (firstVals f x N)) none = .ok (.fin c) ∧
      ConstLeast 0 ((firstPts x N).zip (firstVals f x N)) [] c := by
    intro N
    by_cases hN : 2 ≤ N
    · obtain ⟨c, hc⟩ := constant_least_partial (prepare_first f x hN) (distinct_first f hinj N) (by rw [zip_first]; simp; omega)
      exact ⟨c, fun _ => hc⟩
    · exact ⟨0, fun h => absurd h hN⟩
  choose c hc using hex
  exact ⟨c, hc⟩

theorem constLeast_mono {f : Pt m → ℝ} {x : ℕ → Pt m} {M N : ℕ} (h : M ≤ N) {c c' : ℝ} (hc : ConstLeast 0 ((firstPts x M).zip (firstVals f x M)) [] c)
    (hc' : ConstLeast 0 ((firstPts x N).zip (firstVals f x N)) [] c') : c ≤ c' :=
  hc.2 _ ⟨hc'.1.1, fun d hd d' hd' => hc'.1.2.1 d (first_sub f x h hd) d' (first_sub f x h hd'), by simp⟩

/-- A limit of the constants is a Lipschitz constant of the function. -/
theorem constant_limit_on {f : Pt m → ℝ} {S : Set (Pt m)} (hf : ContinuousOn f S) {x : ℕ → Pt m} (hx : Fills x S) {c : ℕ → ℝ}
    (hc : ∀ N ≥ 2, ConstLeast 0 ((firstPts x N).zip (firstVals f x N)) [] (c N)) {c0 : ℝ} (hl : Tendsto c atTop (𝓝 c0)) : LeastConstOn f S c0 := by
  have h0 : 0 ≤ c0 := ge_of_tendsto hl (by filter_upwards [eventually_ge_atTop 2] with N hN using (hc N hN).1.1)
  refine ⟨⟨h0, dense_pairs hf hx (B := fun v => c0 * nrm v) (continuous_const.mul continuous_nrm) fun i j => ?_⟩, fun c' hc' => ?_⟩
  · refine ge_of_tendsto (hl.mul_const (nrm (x i - x j))) ?_
    filter_upwards [eventually_ge_atTop 2, eventually_gt_atTop i, eventually_gt_atTop j] with N hN hi hj
    have := (hc N hN).1.2.1 _ (mem_first.2 ⟨i, hi, rfl⟩) _ (mem_first.2 ⟨j, hj, rfl⟩)
    rwa [sub_zero] at this
  · exact le_of_tendsto hl (by filter_upwards [eventually_ge_atTop 2] with N hN using (hc N hN).2 _ (hc'.ok hx.inside N))

/-- **C153**: at distinct samples the constants found by `LipschitzConstant` never decrease; they converge to the least Lipschitz constant of the function
on the set if there is one, and grow beyond all bounds otherwise. -/
theorem constant_limit {f : Pt m → ℝ} {S : Set (Pt m)} (hf : ContinuousOn f S) {x : ℕ → Pt m} (hx : Fills x S) (hinj : Function.Injective x) :
    ∃ c : ℕ → ℝ, (∀ N ≥ 2, constantFit none (some (firstPts x N)) (some (firstVals f x N)) none = .ok (.fin (c N))) ∧ (∀ N ≥ 2, c N ≤ c (N + 1)) ∧
      ((∃ C, ConstOn f S C) → ∃ c0, LeastConstOn f S c0 ∧ Tendsto c atTop (𝓝 c0) ∧ ∀ N ≥ 2, c N ≤ c0) ∧ ((¬ ∃ C, ConstOn f S C) → Tendsto c atTop atTop) := by
  obtain ⟨c, hc⟩ := constant_first f hinj
  have hm : Monotone fun n => c (n + 2) := fun a b h => constLeast_mono (by omega) (hc (a + 2) (by omega)).2 (hc (b + 2) (by omega)).2
  have hstep : ∀ N ≥ 2, c N ≤ c (N + 1) := fun N hN => constLeast_mono (by omega) (hc N hN).2 (hc (N + 1) (by omega)).2
  have hor : Tendsto c atTop atTop ∨ ∃ l, Tendsto c atTop (𝓝 l) := by
    rcases tendsto_atTop_of_monotone hm with h | ⟨l, h⟩
    · exact Or.inl ((tendsto_add_atTop_iff_nat 2).1 h)
    · exact Or.inr ⟨l, (tendsto_add_atTop_iff_nat 2).1 h⟩
  refine ⟨c, fun N hN => (hc N hN).1, hstep, ?_, fun hno => ?_⟩
  · rintro ⟨C, hC⟩
    rcases hor with h | ⟨l, h⟩
    · obtain ⟨N, h1, h2⟩ := ((h.eventually (eventually_gt_atTop C)).and (eventually_ge_atTop 2)).exists
      exact absurd ((hc N h2).2.2 _ (hC.ok hx.inside N)) (not_le.2 h1)
    · have hl := constant_limit_on hf hx (fun N hN => (hc N hN).2) h
      exact ⟨l, hl, h, fun N hN => (hc N hN).2.2 _ (hl.1.ok hx.inside N)⟩
  · rcases hor with h | ⟨l, h⟩
    · exact h
    · exact absurd ⟨l, (constant_limit_on hf hx (fun N hN => (hc N hN).2) h).1⟩ hno

/-! ## Samples that fill the set -/

theorem fit_first {build : Build m} (hb : BuildOpt build) (eigh : EighFn m) {f : Pt m → ℝ} {S : Set (Pt m)} {x : ℕ → Pt m} (hx : ∀ i, x i ∈ S)
    {H0 : Matrix (Fin m) (Fin m) ℝ} (h0 : MatrixOn f S H0) :
    ∃ r : ℕ → LipFit m, ∀ N ≥ 2, lipFit build eigh none (some (firstPts x N)) (some (firstVals f x N)) none = .ok (r N) := by
  have hex : ∀ N, ∃ r : LipFit m, 2 ≤ N → lipFit build eigh none (some (firstPts x N)) (some (firstVals f x N)) none = .ok r := by
    intro N
    by_cases hN : 2 ≤ N
    · have hs : fitScale ((firstPts x N).zip (firstVals f x N)) [] ≠ 0 := fun h => ((fitScale_zero_iff _ _).1 h).1 rfl
      obtain ⟨r, hr⟩ := (fit_succeeds_iff hb eigh (eps := none) (le_refl _) (prepare_first f x hN) hs).2 (fun d hd d' hd' e => by
        have := (h0.admissible hx N).samples d hd d' hd'
        rw [e, sub_self] at this
        simpa [quad] using this)
      exact ⟨r, fun _ => hr⟩
    · exact ⟨⟨0, 0, 0⟩, fun h => absurd h hN⟩
  choose r hr using hex
  exact ⟨r, hr⟩

variable {Ω : Type*} [MeasurableSpace Ω] {μ : Measure Ω} [IsProbabilityMeasure μ] {X : ℕ → Ω → Pt m} {P : Measure (Pt m)} [IsProbabilityMeasure P]

/-- **C153**: independent samples of a law that charges every neighbourhood of every point of `S` almost surely fill `S`. -/
theorem iid_fills (h : Misc.Iid μ X P) {S : Set (Pt m)} (hS : ∀ᵐ y ∂P, y ∈ S) (hpos : ∀ a ∈ S, ∀ U : Set (Pt m), IsOpen U → a ∈ U → P U ≠ 0) :
    ∀ᵐ ω ∂μ, Fills (fun i => X i ω) S := by
  have hin : ∀ᵐ ω ∂μ, ∀ i, X i ω ∈ S := by
    refine ae_all_iff.2 fun i => ?_
    refine ae_of_ae_map (h.meas i).aemeasurable ?_
    rw [h.law]; exact hS
  have hhit : ∀ᵐ ω ∂μ, ∀ U ∈ TopologicalSpace.countableBasis (Pt m), P U ≠ 0 → ∃ i, X i ω ∈ U := by
    refine (ae_ball_iff (TopologicalSpace.countable_countableBasis (Pt m))).2 fun U hU => ?_
    have hmU : MeasurableSet U := (TopologicalSpace.isOpen_of_mem_countableBasis hU).measurableSet
    have hlim := Misc.mean_limit h (φ := U.indicator fun _ => (1 : ℝ)) (measurable_const.indicator hmU) ((integrable_const _).indicator hmU)
    filter_upwards [hlim] with ω hω hPU
    by_contra hno
    push Not at hno
    have hz : (fun N : ℕ => (∑ i ∈ Finset.range N, U.indicator (fun _ => (1 : ℝ)) (X i ω)) / N) = fun _ => 0 := by
      funext N
      rw [Finset.sum_eq_zero fun i _ => Set.indicator_of_notMem (hno i) _, zero_div]
    rw [hz] at hω
    have h0 := tendsto_nhds_unique hω tendsto_const_nhds
    rw [integral_indicator hmU] at h0
    simp at h0
    exact hPU ((measureReal_eq_zero_iff).1 h0)
  filter_upwards [hin, hhit] with ω h1 h2
  refine ⟨h1, fun a ha => ?_⟩
  rw [(TopologicalSpace.isBasis_countableBasis (Pt m)).mem_closure_iff]
  intro U hU haU
  obtain ⟨i, hi⟩ := h2 U hU (hpos a ha U (TopologicalSpace.isOpen_of_mem_countableBasis hU) haU)
  exact ⟨_, hi, i, rfl⟩

/-- Independent samples of a law without atoms are almost surely distinct. -/
theorem iid_injective (h : Misc.Iid μ X P) (hat : ∀ y, P {y} = 0) : ∀ᵐ ω ∂μ, Function.Injective fun i => X i ω := by
  have hp : ∀ i j, i ≠ j → ∀ᵐ ω ∂μ, X i ω ≠ X j ω := by
    intro i j hij
    have hlaw := (indepFun_iff_map_prod_eq_prod_map_map (h.meas i).aemeasurable (h.meas j).aemeasurable).1 (h.indep hij)
    rw [h.law, h.law] at hlaw
    have hd : MeasurableSet {p : Pt m × Pt m | p.1 = p.2} := isClosed_diagonal.measurableSet
    have h0 : (P.prod P) {p : Pt m × Pt m | p.1 = p.2} = 0 := by
      rw [Measure.prod_apply hd, lintegral_eq_zero_iff (measurable_measure_prodMk_left hd)]
      refine Eventually.of_forall fun y => ?_
      have : Prod.mk y ⁻¹' {p : Pt m × Pt m | p.1 = p.2} = {y} := by ext z; simp [eq_comm]
      simp only [this, hat, Pi.zero_apply]
    rw [← hlaw, Measure.map_apply ((h.meas i).prodMk (h.meas j)) hd] at h0
    exact measure_eq_zero_iff_ae_notMem.1 h0
  have : ∀ᵐ ω ∂μ, ∀ i j, i ≠ j → X i ω ≠ X j ω := ae_all_iff.2 fun i => ae_all_iff.2 fun j => by
    by_cases hij : i = j
    · exact Eventually.of_forall fun ω hne => absurd hij hne
    · filter_upwards [hp i j hij] with ω hω _ using hω
  filter_upwards [this] with ω hω i j hij
  by_contra hne
  exact hω i j hne hij

/-- The uniform law of a convex set with interior charges the neighbourhoods of its points. -/
theorem uniform_charges {S : Set (Pt m)} (hc : Convex ℝ S) (hi : (interior S).Nonempty) (hfin : volume S ≠ ⊤) {a : Pt m} (ha : a ∈ S) {U : Set (Pt m)}
    (hU : IsOpen U) (haU : a ∈ U) : cond volume S U ≠ 0 := by
  have hcl : a ∈ closure (interior S) := by
    rw [hc.closure_interior_eq_closure_of_nonempty_interior hi]; exact subset_closure ha
  obtain ⟨b, hbU, hbS⟩ := mem_closure_iff.1 hcl U hU haU
  have hpos : 0 < volume (U ∩ interior S) := IsOpen.measure_pos volume (hU.inter isOpen_interior) ⟨b, hbU, hbS⟩
  rw [cond_apply' hU.measurableSet]
  refine mul_ne_zero (ENNReal.inv_ne_zero.2 hfin) ?_
  have hsub : U ∩ interior S ⊆ S ∩ U := fun z hz => ⟨interior_subset hz.2, hz.1⟩
  exact (hpos.trans_le (measure_mono hsub)).ne'

/-- **C153** for uniform samples of a convex domain with interior: almost surely the constants of `LipschitzConstant` converge to the least Lipschitz
constant, the traces of the matrices of `LipschitzMatrix` to the smallest trace, and the bounds to the function. -/
theorem uniform_limits [NeZero m] {build : Build m} (hb : BuildOpt build) {eigh : EighFn m} (he : EighSpec eigh) {S : Set (Pt m)} (hS : MeasurableSet S)
    (hc : Convex ℝ S) (hi : (interior S).Nonempty) (hfin : volume S ≠ ⊤) (h : Misc.Iid μ X (cond volume S)) {f : Pt m → ℝ} (hf : ContinuousOn f S)
    {C : ℝ} (hC : ConstOn f S C) :
    ∃ (c0 : ℝ) (A : Matrix (Fin m) (Fin m) ℝ), LeastConstOn f S c0 ∧ LeastMatrixOn f S A ∧ ∀ᵐ ω ∂μ,
      (∃ c : ℕ → ℝ, (∀ N ≥ 2, constantFit none (some (firstPts (fun i => X i ω) N)) (some (firstVals f (fun i => X i ω) N)) none = .ok (.fin (c N))) ∧
        Tendsto c atTop (𝓝 c0)) ∧
      ∃ r : ℕ → LipFit m, (∀ N ≥ 2, lipFit build eigh none (some (firstPts (fun i => X i ω) N)) (some (firstVals f (fun i => X i ω) N)) none = .ok (r N)) ∧
        Tendsto (fun N => trace (r N).H) atTop (𝓝 (trace A)) ∧
        ∀ y ∈ S, Tendsto (fun N => val (uncertainty (r N).L none ((firstPts (fun i => X i ω) N).zip (firstVals f (fun i => X i ω) N)) y).1) atTop (𝓝 (f y)) ∧
          Tendsto (fun N => val (uncertainty (r N).L none ((firstPts (fun i => X i ω) N).zip (firstVals f (fun i => X i ω) N)) y).2) atTop (𝓝 (f y)) := by
  have hv : volume S ≠ 0 := (lt_of_lt_of_le (isOpen_interior.measure_pos _ hi) (measure_mono interior_subset)).ne'
  haveI : IsProbabilityMeasure (cond volume S) := cond_isProbabilityMeasure_of_finite hv hfin
  have hin : ∀ᵐ y ∂(cond volume S), y ∈ S := ae_cond_mem hS
  have hfill := iid_fills h hin fun a ha U hU haU => uniform_charges hc hi hfin ha hU haU
  have hinj := iid_injective h fun y => by
    rw [cond_apply' (measurableSet_singleton y)]
    have : volume (S ∩ {y}) = 0 := measure_mono_null Set.inter_subset_right (measure_singleton y)
    rw [this, mul_zero]
  have h0 : MatrixOn f S (C ^ 2 • (1 : Matrix (Fin m) (Fin m) ℝ)) := by
    have hq : ∀ v : Pt m, quad (C ^ 2 • (1 : Matrix (Fin m) (Fin m) ℝ)) v = (C * nrm v) ^ 2 := fun v => by
      rw [quad_smul_mat, mul_pow, nrm_sq]; simp [quad]
    refine ⟨by simp, fun v => by rw [hq]; positivity, fun a ha b hb' => ?_⟩
    rw [hq, Real.sqrt_sq (mul_nonneg hC.1 (nrm_nonneg _))]
    exact hC.2 a ha b hb'
  have key : ∀ ω, Fills (fun i => X i ω) S → Function.Injective (fun i => X i ω) → ∃ (c0 : ℝ) (A : Matrix (Fin m) (Fin m) ℝ), LeastConstOn f S c0 ∧
      LeastMatrixOn f S A ∧ (∃ c : ℕ → ℝ, (∀ N ≥ 2, constantFit none (some (firstPts (fun i => X i ω) N)) (some (firstVals f (fun i => X i ω) N)) none = .ok (.fin (c N))) ∧
        Tendsto c atTop (𝓝 c0)) ∧
      ∃ r : ℕ → LipFit m, (∀ N ≥ 2, lipFit build eigh none (some (firstPts (fun i => X i ω) N)) (some (firstVals f (fun i => X i ω) N)) none = .ok (r N)) ∧
        Tendsto (fun N => trace (r N).H) atTop (𝓝 (trace A)) ∧
        ∀ y ∈ S, Tendsto (fun N => val (uncertainty (r N).L none ((firstPts (fun i => X i ω) N).zip (firstVals f (fun i => X i ω) N)) y).1) atTop (𝓝 (f y)) ∧
          Tendsto (fun N => val (uncertainty (r N).L none ((firstPts (fun i => X i ω) N).zip (firstVals f (fun i => X i ω) N)) y).2) atTop (𝓝 (f y)) := by
    intro ω h1 h2
    obtain ⟨c, hc1, -, hc3, -⟩ := constant_limit hf h1 h2
    obtain ⟨c0, hc0, hl, -⟩ := hc3 ⟨C, hC⟩
    obtain ⟨r, hr⟩ := fit_first hb eigh h1.inside h0
    obtain ⟨A, hA, ht, -⟩ := fit_trace_limit hb he hf h1 h0 hr
    exact ⟨c0, A, hc0, hA, ⟨c, hc1, hl⟩, r, hr, ht, fun y hy => fit_bounds_limit hb he hf h1 h0 hr hy⟩
  obtain ⟨ω0, hω0, hω0'⟩ := (hfill.and hinj).exists
  obtain ⟨c0, A, hc0, hA, -⟩ := key ω0 hω0 hω0'
  refine ⟨c0, A, hc0, hA, ?_⟩
  filter_upwards [hfill, hinj] with ω h1 h2
  obtain ⟨c1, A1, hc1, hA1, hcc, r, hr, ht, hbd⟩ := key ω h1 h2
  have e1 : c1 = c0 := le_antisymm (hc1.2 _ hc0.1) (hc0.2 _ hc1.1)
  have e2 : trace A1 = trace A := le_antisymm (hA1.2 _ hA.1) (hA.2 _ hA1.1)
  rw [e1] at hcc
  rw [e2] at ht
  exact ⟨hcc, r, hr, ht, hbd⟩

/-- The hypotheses are met by the unit cube and a linear function. -/
example : ∃ (build : Build 2) (eigh : EighFn 2), BuildOpt build ∧ EighSpec eigh ∧ MeasurableSet (Set.Icc (0 : Pt 2) 1) ∧ Convex ℝ (Set.Icc (0 : Pt 2) 1) ∧
    (interior (Set.Icc (0 : Pt 2) 1)).Nonempty ∧ volume (Set.Icc (0 : Pt 2) 1) ≠ ⊤ ∧ ConstOn (fun x : Pt 2 => x 0) (Set.Icc (0 : Pt 2) 1) 1 := by
  obtain ⟨build, hb⟩ := exists_buildOpt 2
  obtain ⟨eigh, he⟩ := exists_eigh 2
  refine ⟨build, eigh, hb, he, measurableSet_Icc, convex_Icc _ _, ?_, isCompact_Icc.measure_lt_top.ne, zero_le_one, fun x _ y _ => ?_⟩
  · have : (Set.pi Set.univ fun _ : Fin 2 => Set.Ioo (0 : ℝ) 1) ⊆ interior (Set.Icc (0 : Pt 2) 1) :=
      interior_maximal (fun x hx => ⟨fun i => (hx i trivial).1.le, fun i => (hx i trivial).2.le⟩) (isOpen_set_pi Set.finite_univ fun _ _ => isOpen_Ioo)
    exact ⟨fun _ => 1 / 2, this fun i _ => by constructor <;> norm_num⟩
  · rw [one_mul]
    refine Real.abs_le_sqrt ?_
    simp only [dotProduct, Fin.sum_univ_two, Pi.sub_apply]
    nlinarith [mul_self_nonneg (x 1 - y 1)]

end Verif.Lip
