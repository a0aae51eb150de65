import Verif.Geometry.GeoProps
import Verif.Domain.VolumeProps
import Verif.Domain.SampleProps
import Verif.Domain.PdfProps
import Mathlib.Data.Fin.Tuple.Sort
import Mathlib.Data.List.GetD
import Mathlib.MeasureTheory.Measure.Lebesgue.EqHaar
import Mathlib.LinearAlgebra.Matrix.Block
import Mathlib.Probability.ConditionalProbability

/-!
# The distributions of the elementary samplers (C154)
-/

namespace Verif.Geo

open Verif Verif.Domain Matrix MeasureTheory Set

/-! ## Specification -/

/-- The first `n` entries of a list. -/
def firstN (n : ℕ) (l : List ℝ) : Fin n → ℝ := fun i => l.getD i 0

/-- The solid simplex: nonnegative numbers with sum at most one. -/
def solidSimplex (n : ℕ) : Set (Fin n → ℝ) := {a | (∀ i, 0 ≤ a i) ∧ ∑ i, a i ≤ 1}

/-! ## Sorted uniform numbers -/

theorem sortR_unique {l l' : List ℝ} (hp : l'.Perm l) (hs : l'.Pairwise (· ≤ ·)) : sortR l = l' := by
  classical
  have h1 : (sortR l).Perm l := List.perm_insertionSort _ l
  exact (h1.trans hp.symm).eq_of_pairwise (fun a b _ _ h h' => le_antisymm h h') (sortR_sorted l) hs

/-- The sorted vector. -/
noncomputable def sorted {n : ℕ} (u : Fin n → ℝ) : Fin n → ℝ := u ∘ Tuple.sort u

theorem sorted_mono {n : ℕ} (u : Fin n → ℝ) : Monotone (sorted u) := Tuple.monotone_sort u

/-- Differences of neighbours, the first one from zero. -/
def gapMat (n : ℕ) : Matrix (Fin n) (Fin n) ℝ := Matrix.of fun i j => if j = i then 1 else if j.val + 1 = i.val then -1 else 0

theorem gapMat_det (n : ℕ) : (gapMat n).det = 1 := by
  rw [Matrix.det_of_lowerTriangular]
  · simp [gapMat]
  · intro i j hij
    have hlt : i < j := hij
    have h1 : j ≠ i := fun e => by rw [e] at hlt; exact lt_irrefl _ hlt
    have h2 : ¬ j.val + 1 = i.val := by have := Fin.lt_def.1 hlt; omega
    simp [gapMat, h1, h2]

theorem gapMat_zero {n : ℕ} (v : Fin (n + 1) → ℝ) : (gapMat (n + 1) *ᵥ v) 0 = v 0 := by
  simp only [mulVec, dotProduct, gapMat, of_apply]
  rw [Finset.sum_eq_single 0]
  · simp
  · intro b _ hb
    simp [hb]
  · simp

theorem gapMat_succ {n : ℕ} (v : Fin (n + 1) → ℝ) (i : Fin n) : (gapMat (n + 1) *ᵥ v) i.succ = v i.succ - v i.castSucc := by
  simp only [mulVec, dotProduct, gapMat, of_apply]
  have hne : i.castSucc ≠ i.succ := (Fin.castSucc_lt_succ).ne
  rw [Finset.sum_eq_add i.succ i.castSucc hne.symm]
  · have : ¬ (i.castSucc = i.succ) := hne
    simp [this]
    ring
  · intro c _ hc
    have h2 : ¬ c.val + 1 = i.succ.val := fun h => hc.2 (Fin.ext (by simp at h ⊢; omega))
    simp only [if_neg hc.1, if_neg h2, zero_mul]
  · simp
  · simp

/-- Entries are sums of gaps. -/
theorem gap_sum {n : ℕ} (v : Fin n → ℝ) : ∀ (k : ℕ) (hk : k < n), v ⟨k, hk⟩ = ∑ j ∈ Finset.univ.filter (fun j : Fin n => j.val ≤ k), (gapMat n *ᵥ v) j := by
  cases n with
  | zero => intro k hk; omega
  | succ n =>
    intro k
    induction k with
    | zero =>
      intro hk
      have : Finset.univ.filter (fun j : Fin (n + 1) => j.val ≤ 0) = {0} := by
        ext j
        rw [Finset.mem_filter, Finset.mem_singleton, Fin.ext_iff]
        simp only [Finset.mem_univ, true_and, Fin.val_zero]
        omega
      rw [this, Finset.sum_singleton, gapMat_zero]
      rfl
    | succ k ih =>
      intro hk
      have : Finset.univ.filter (fun j : Fin (n + 1) => j.val ≤ k + 1) = insert (Fin.succ ⟨k, by omega⟩) (Finset.univ.filter (fun j : Fin (n + 1) => j.val ≤ k)) := by
        ext j
        rw [Finset.mem_insert, Finset.mem_filter, Finset.mem_filter, Fin.ext_iff, Fin.succ_mk]
        simp only [Finset.mem_univ, true_and]
        omega
      rw [this, Finset.sum_insert (by simp), gapMat_succ, ← ih (by omega)]
      simp only [Fin.succ_mk, Fin.castSucc_mk]
      ring

/-- Increasing vectors of the unit cube are those whose gaps are in the solid simplex. -/
theorem gap_mem {n : ℕ} (v : Fin n → ℝ) : gapMat n *ᵥ v ∈ solidSimplex n ↔ v ∈ Icc (0 : Fin n → ℝ) 1 ∧ Monotone v := by
  cases n with
  | zero => exact ⟨fun _ => ⟨⟨fun i => i.elim0, fun i => i.elim0⟩, fun i => i.elim0⟩, fun _ => ⟨fun i => i.elim0, by simp⟩⟩
  | succ n =>
    have hall : ∑ j, (gapMat (n + 1) *ᵥ v) j = v (Fin.last n) := by
      rw [show v (Fin.last n) = v ⟨n, by omega⟩ from rfl, gap_sum v n (by omega), Finset.filter_true_of_mem]
      intro j _; omega
    constructor
    · rintro ⟨h1, h2⟩
      have hm : Monotone v := Fin.monotone_iff_le_succ.2 fun i => by
        have := h1 i.succ; rw [gapMat_succ] at this; linarith
      refine ⟨⟨fun i => ?_, fun i => ?_⟩, hm⟩
      · have := h1 0; rw [gapMat_zero] at this
        exact this.trans (hm (Fin.zero_le i))
      · rw [hall] at h2
        exact (hm (Fin.le_last i)).trans h2
    · rintro ⟨⟨h0, h1⟩, hm⟩
      refine ⟨fun i => ?_, ?_⟩
      · refine Fin.cases ?_ (fun i => ?_) i
        · rw [gapMat_zero]; exact h0 0
        · rw [gapMat_succ]; exact sub_nonneg.2 (hm (Fin.castSucc_lt_succ).le)
      · rw [hall]; exact h1 _

/-- The weights computed by `sample_simplex` are the gaps of the sorted draws. -/
theorem simplexRow_gaps {n : ℕ} (a b : ℝ) {u : Fin n → ℝ} (hu : u ∈ Icc (0 : Fin n → ℝ) 1) :
    firstN n (simplexRow (a :: List.ofFn u ++ [b])) = gapMat n *ᵥ sorted u := by
  have hpin : pinEnds (a :: List.ofFn u ++ [b]) = 0 :: List.ofFn u ++ [1] := by
    unfold pinEnds
    simp
  have hin : ∀ i, 0 ≤ sorted u i ∧ sorted u i ≤ 1 := fun i => ⟨hu.1 _, hu.2 _⟩
  have hsort : sortR (0 :: List.ofFn u ++ [1]) = 0 :: List.ofFn (sorted u) ++ [1] := by
    refine sortR_unique ?_ ?_
    · have hp : (List.ofFn (sorted u)).Perm (List.ofFn u) := Equiv.Perm.ofFn_comp_perm (Tuple.sort u) u
      exact (hp.cons 0).append_right [1]
    · rw [List.cons_append, List.pairwise_cons]
      refine ⟨fun x hx => ?_, ?_⟩
      · rcases List.mem_append.1 hx with hx | hx
        · obtain ⟨i, rfl⟩ := (List.mem_ofFn' _ _).1 hx
          exact (hin i).1
        · simp at hx; rw [hx]; norm_num
      · rw [List.pairwise_append]
        refine ⟨?_, by simp, fun x hx y hy => ?_⟩
        · rw [List.pairwise_ofFn]
          exact fun i j hij => sorted_mono u hij.le
        · obtain ⟨i, rfl⟩ := (List.mem_ofFn' _ _).1 hx
          simp at hy; rw [hy]; exact (hin i).2
  unfold simplexRow
  rw [hpin, hsort]
  set v := sorted u
  funext i
  have hlen : (diffs (0 :: List.ofFn v ++ [1])).length = n + 1 := by rw [diffs_length]; simp
  unfold firstN
  rw [List.getD_eq_getElem _ _ (by rw [hlen]; omega)]
  unfold diffs
  rw [List.getElem_zipWith]
  cases n with
  | zero => exact i.elim0
  | succ n =>
    refine Fin.cases ?_ (fun i => ?_) i
    · rw [gapMat_zero]
      simp
    · rw [gapMat_succ]
      simp only [List.cons_append, List.tail_cons, Fin.val_succ, List.getElem_cons_succ]
      rw [List.getElem_append_left (by simp), List.getElem_append_left (by simp)]
      simp only [List.getElem_ofFn]
      rfl

/-! ## The law of the sorted vector -/

theorem not_injective_null (n : ℕ) : (volume : Measure (Fin n → ℝ)) {u | ¬ Function.Injective u} = 0 := by
  have hsub : {u : Fin n → ℝ | ¬ Function.Injective u} ⊆ ⋃ i : Fin n, ⋃ j : Fin n, {u | i ≠ j ∧ u i = u j} := by
    intro u hu
    simp only [Function.Injective, mem_setOf_eq] at hu
    push Not at hu
    obtain ⟨i, j, h1, h2⟩ := hu
    exact mem_iUnion.2 ⟨i, mem_iUnion.2 ⟨j, h2, h1⟩⟩
  refine measure_mono_null hsub (measure_iUnion_null fun i => measure_iUnion_null fun j => ?_)
  by_cases hij : i = j
  · simp [hij]
  · have hs : {u : Fin n → ℝ | i ≠ j ∧ u i = u j} = (LinearMap.ker (LinearMap.proj (R := ℝ) (φ := fun _ : Fin n => ℝ) i - LinearMap.proj j) : Set (Fin n → ℝ)) := by
      ext u
      simp [hij, sub_eq_zero]
    rw [hs]
    refine Measure.addHaar_submodule _ _ fun htop => ?_
    have : (Pi.single i 1 : Fin n → ℝ) ∈ LinearMap.ker (LinearMap.proj (R := ℝ) (φ := fun _ : Fin n => ℝ) i - LinearMap.proj j) := by rw [htop]; trivial
    simp [Ne.symm hij] at this

theorem permute_preserving {n : ℕ} (σ : Equiv.Perm (Fin n)) : MeasurePreserving (fun u : Fin n → ℝ => u ∘ σ) volume volume := by
  have h := volume_measurePreserving_piCongrLeft (fun _ : Fin n => ℝ) σ.symm
  have e : (fun u : Fin n → ℝ => u ∘ σ) = MeasurableEquiv.piCongrLeft (fun _ : Fin n => ℝ) σ.symm := by
    funext u i
    have := MeasurableEquiv.piCongrLeft_apply_apply (β := fun _ : Fin n => ℝ) σ.symm u (σ i)
    simp at this
    exact this.symm
  rw [e]; exact h

theorem sorted_of_strictMono {n : ℕ} {u : Fin n → ℝ} {σ : Equiv.Perm (Fin n)} (h : StrictMono (u ∘ σ)) : sorted u = u ∘ σ :=
  Tuple.unique_monotone (sorted_mono u) h.monotone

theorem isClosed_monotone (n : ℕ) : IsClosed {v : Fin n → ℝ | Monotone v} := by
  have : {v : Fin n → ℝ | Monotone v} = ⋂ i, ⋂ j, ⋂ _ : i ≤ j, {v | v i ≤ v j} := by
    ext v; simp [Monotone]
  rw [this]
  exact isClosed_iInter fun i => isClosed_iInter fun j => isClosed_iInter fun _ => isClosed_le (continuous_apply i) (continuous_apply j)

theorem measurable_strictMono (n : ℕ) : MeasurableSet {v : Fin n → ℝ | StrictMono v} := by
  have : {v : Fin n → ℝ | StrictMono v} = ⋂ i, ⋂ j, ⋂ _ : i < j, {v | v i < v j} := by
    ext v; simp [StrictMono]
  rw [this]
  exact MeasurableSet.iInter fun i => MeasurableSet.iInter fun j => MeasurableSet.iInter fun _ => measurableSet_lt (measurable_pi_apply i) (measurable_pi_apply j)

/-- Sorting a uniform vector of the cube: the increasing vectors get the whole mass, uniformly. -/
theorem sorted_law {n : ℕ} {B : Set (Fin n → ℝ)} (hB : MeasurableSet B) :
    volume {u : Fin n → ℝ | u ∈ Icc (0 : Fin n → ℝ) 1 ∧ sorted u ∈ B} = (n.factorial : ENNReal) * volume (B ∩ {v | v ∈ Icc (0 : Fin n → ℝ) 1 ∧ Monotone v}) := by
  set C : Set (Fin n → ℝ) := Icc 0 1
  set T : Set (Fin n → ℝ) := {v | v ∈ C ∧ StrictMono v ∧ v ∈ B} with hT
  have hTm : MeasurableSet T := measurableSet_Icc.inter ((measurable_strictMono n).inter hB)
  have hinj : ∀ᵐ u : Fin n → ℝ, Function.Injective u := by
    rw [ae_iff]; exact not_injective_null n
  have h1 : {u : Fin n → ℝ | u ∈ C ∧ sorted u ∈ B} =ᵐ[volume] ⋃ σ : Equiv.Perm (Fin n), (fun u : Fin n → ℝ => u ∘ σ) ⁻¹' T := by
    filter_upwards [hinj] with u hu
    refine propext ⟨fun h => ?_, fun h => ?_⟩
    · refine mem_iUnion.2 ⟨Tuple.sort u, ⟨fun i => h.1.1 (Tuple.sort u i), fun i => h.1.2 (Tuple.sort u i)⟩, ?_, h.2⟩
      exact (sorted_mono u).strictMono_of_injective (hu.comp (Tuple.sort u).injective)
    · obtain ⟨σ, hc, hs, hb⟩ := mem_iUnion.1 h
      refine ⟨⟨fun i => ?_, fun i => ?_⟩, ?_⟩
      · have := hc.1 (σ.symm i); simpa using this
      · have := hc.2 (σ.symm i); simpa using this
      · change sorted u ∈ B
        rw [sorted_of_strictMono hs]; exact hb
  have h2 : T =ᵐ[volume] (B ∩ {v | v ∈ C ∧ Monotone v} : Set (Fin n → ℝ)) := by
    filter_upwards [hinj] with u hu
    exact propext ⟨fun h => ⟨h.2.2, h.1, h.2.1.monotone⟩, fun h => ⟨h.2.1, h.2.2.strictMono_of_injective hu, h.1⟩⟩
  have hdisj : Pairwise (Function.onFun Disjoint fun σ : Equiv.Perm (Fin n) => (fun u : Fin n → ℝ => u ∘ σ) ⁻¹' T) := by
    intro σ τ hne
    refine Set.disjoint_left.2 fun u hu hu' => hne ?_
    have e : u ∘ σ = u ∘ τ := (sorted_of_strictMono hu.2.1).symm.trans (sorted_of_strictMono hu'.2.1)
    have hui : Function.Injective u := by
      intro i j hij
      have := hu.2.1.injective (a₁ := σ.symm i) (a₂ := σ.symm j) (by simpa using hij)
      exact σ.symm.injective this
    exact Equiv.ext fun i => hui (congrFun e i)
  rw [measure_congr h1, measure_iUnion hdisj fun σ => (permute_preserving σ).measurable hTm]
  simp only [fun σ : Equiv.Perm (Fin n) => (permute_preserving σ).measure_preimage hTm.nullMeasurableSet]
  rw [tsum_fintype, Finset.sum_const, Finset.card_univ, Fintype.card_perm, Fintype.card_fin, nsmul_eq_mul, measure_congr h2]

/-- **C154**: the weights of `sample_simplex` are uniformly distributed over the simplex: the probability that the first `n` of the `n + 1` weights fall in a
set is `n!` times the volume of the part of the set in the solid simplex (the last weight is one minus their sum, `simplex_weights`). -/
theorem simplex_law {n : ℕ} (a b : ℝ) {A : Set (Fin n → ℝ)} (hA : MeasurableSet A) :
    ((volume : Measure (Fin n → ℝ)).restrict (Icc 0 1)) {u | firstN n (simplexRow (a :: List.ofFn u ++ [b])) ∈ A} =
      (n.factorial : ENNReal) * volume (A ∩ solidSimplex n) := by
  have hlin : Measurable fun v : Fin n → ℝ => gapMat n *ᵥ v := (Continuous.matrix_mulVec continuous_const continuous_id).measurable
  rw [Measure.restrict_apply' measurableSet_Icc]
  have e1 : {u : Fin n → ℝ | firstN n (simplexRow (a :: List.ofFn u ++ [b])) ∈ A} ∩ Icc 0 1 =
      {u | u ∈ Icc (0 : Fin n → ℝ) 1 ∧ sorted u ∈ (fun v : Fin n → ℝ => gapMat n *ᵥ v) ⁻¹' A} := by
    ext u
    constructor
    · rintro ⟨h1, h2⟩
      refine ⟨h2, ?_⟩
      change gapMat n *ᵥ sorted u ∈ A
      rw [← simplexRow_gaps a b h2]; exact h1
    · rintro ⟨h1, h2⟩
      refine ⟨?_, h1⟩
      change firstN n (simplexRow (a :: List.ofFn u ++ [b])) ∈ A
      rw [simplexRow_gaps a b h1]; exact h2
  rw [e1, sorted_law (hlin hA)]
  congr 1
  have e2 : (fun v : Fin n → ℝ => gapMat n *ᵥ v) ⁻¹' A ∩ {v | v ∈ Icc (0 : Fin n → ℝ) 1 ∧ Monotone v} = (Matrix.toLin' (gapMat n)) ⁻¹' (A ∩ solidSimplex n) := by
    ext v
    simp only [mem_inter_iff, mem_preimage, toLin'_apply, gap_mem]
    rfl
  rw [e2, Measure.addHaar_preimage_linearMap _ (by rw [LinearMap.det_toLin', gapMat_det]; exact one_ne_zero), LinearMap.det_toLin', gapMat_det]
  simp

/-- The volume of the solid simplex, so that `simplex_law` is a law of total mass one. -/
theorem solidSimplex_volume (n : ℕ) : (n.factorial : ENNReal) * volume (solidSimplex n) = 1 := by
  have h := simplex_law (n := n) 0 0 MeasurableSet.univ
  rw [univ_inter] at h
  rw [← h]
  exact (cubeProb n).measure_univ

/-! ## Boxes -/

/-- The random numbers `u` as the generator delivers them. -/
def randOf {N n : ℕ} (u : Fin N → Fin n → ℝ) : Rand := ⟨fun i j => if h : i < N ∧ j < n then u ⟨i, h.1⟩ ⟨j, h.2⟩ else 0, fun _ _ => []⟩

theorem boxEmpty_finX {n : ℕ} {lo hi : Fin n → ℝ} (h : ∀ i, lo i ≤ hi i) : boxEmpty (finX lo) (finX hi) = false := by
  unfold boxEmpty
  rw [decide_eq_false_iff_not]
  rintro ⟨q, hq, hlt⟩
  obtain ⟨i, hi', e⟩ := List.mem_iff_getElem.1 hq
  rw [List.getElem_zip] at e
  simp only [finX, List.getElem_ofFn] at e
  rw [← e] at hlt
  simp [XR.lt] at hlt
  exact absurd (h _) (not_le.2 hlt)

theorem unifRow_finX {n : ℕ} (lo hi : Fin n → ℝ) (w : ℕ → ℝ) : unifRow (finX lo) (finX hi) w = List.ofFn (boxPt lo hi fun i => w i) := by
  unfold unifRow finX boxPt
  apply List.ext_getElem
  · simp
  · intro i h1 h2
    simp [unifEntry, XR.toReal]

/-- **C154**: the rows returned by `sample` of a bounded box with interior are independent and uniformly distributed over the box. -/
theorem box_law {N n : ℕ} (hN : 0 < N) {lo hi : Fin n → ℝ} (h : ∀ i, lo i < hi i) (E : SampleEnv) (TOL : ℝ) (hE : E.empty (.box (finX lo) (finX hi)) = none) :
    ∃ X : (Fin N → Fin n → ℝ) → Fin N → Fin n → ℝ,
      (∀ u, (Base.box (finX lo) (finX hi)).sample E TOL (randOf u) N = some (.ok (List.ofFn fun j => List.ofFn (X u j)))) ∧
      Measure.map X (cubeLaw N n) = Measure.pi fun _ => ProbabilityTheory.cond volume (Icc lo hi) := by
  refine ⟨fun u j => boxPt lo hi (u j), fun u => ?_, ?_⟩
  · unfold Base.sample Base.sampleRaw boxSample
    rw [if_neg (by omega)]
    simp only [hE, Option.getD_none, boxEmpty_finX fun i => (h i).le]
    rw [if_neg (by simp), if_neg ?_]
    · congr 2
      apply List.ext_getElem
      · simp
      · intro i h1 h2
        simp only [List.getElem_map, List.getElem_range, List.getElem_ofFn, unifRow_finX]
        congr 2
        funext j
        have hi' : i < N := by simpa using h1
        simp [randOf, hi']
    · rintro ⟨v, hv, hf⟩
      rcases List.mem_append.1 hv with hv | hv <;>
      · obtain ⟨i, rfl⟩ := (List.mem_ofFn' _ _).1 hv
        exact hf trivial
  · have hone : Measure.map (boxPt lo hi) ((volume : Measure (Fin n → ℝ)).restrict (Icc 0 1)) = ProbabilityTheory.cond volume (Icc lo hi) := by
      have hmeas : Measurable (boxPt lo hi) := by unfold boxPt; fun_prop
      have hp : 0 < ∏ i, (hi i - lo i) := Finset.prod_pos fun i _ => sub_pos.2 (h i)
      ext S hS
      rw [Measure.map_apply hmeas hS, ProbabilityTheory.cond_apply measurableSet_Icc, inter_comm, ← boxPt_measure (fun i => (h i).le) hS, Real.volume_Icc_pi,
        ← ENNReal.ofReal_prod_of_nonneg fun i _ => sub_nonneg.2 (h i).le, ← mul_assoc, ENNReal.inv_mul_cancel (by simpa using hp) ENNReal.ofReal_ne_top, one_mul]
      rfl
    have hmeas : Measurable (boxPt lo hi) := by unfold boxPt; fun_prop
    have hmp : MeasurePreserving (boxPt lo hi) ((volume : Measure (Fin n → ℝ)).restrict (Icc 0 1)) (ProbabilityTheory.cond volume (Icc lo hi)) := ⟨hmeas, hone⟩
    haveI : IsProbabilityMeasure (ProbabilityTheory.cond (volume : Measure (Fin n → ℝ)) (Icc lo hi)) := by
      rw [← hone]; exact Measure.isProbabilityMeasure_map hmeas.aemeasurable
    exact (measurePreserving_pi (fun _ : Fin N => (volume : Measure (Fin n → ℝ)).restrict (Icc 0 1)) (fun _ => ProbabilityTheory.cond volume (Icc lo hi)) fun _ => hmp).map_eq

/-! ## Segments -/

theorem twoPoint_injective {x0 x1 : Vec} (hl : x0.length = x1.length) (hne : x0 ≠ x1) : Function.Injective (twoPoint x0 x1) := by
  obtain ⟨i, h0, h1, hi⟩ : ∃ (i : ℕ) (h0 : i < x0.length) (h1 : i < x1.length), x0[i] ≠ x1[i] := by
    by_contra hno
    push Not at hno
    exact hne (List.ext_getElem hl hno)
  intro a b hab
  have e : ∀ c, (twoPoint x0 x1 c)[i]? = some (c * x0[i] + (1 - c) * x1[i]) := fun c => by
    simp [twoPoint, Vec.add, Vec.smul, List.getElem?_zipWith, h0, h1]
  have := e a
  rw [hab, e b] at this
  have h2 := Option.some.inj this
  have h3 : (a - b) * (x0[i] - x1[i]) = 0 := by linarith
  rcases mul_eq_zero.1 h3 with h | h
  · linarith
  · exact absurd (by linarith) hi

/-- **C154**: a sample of the hull of two points is uniformly distributed over the segment: each part of the segment has as probability its share of the
length. -/
theorem segment_law {x0 x1 : Vec} (hl : x0.length = x1.length) (hne : x0 ≠ x1) {s t : ℝ} (hs : 0 ≤ s) (hst : s ≤ t) (ht : t ≤ 1) :
    ((volume : Measure ℝ).restrict (Icc 0 1)) {u | ∃ q ∈ Icc s t, twoPoint x0 x1 u = twoPoint x0 x1 q} = ENNReal.ofReal (t - s) := by
  have e : {u | ∃ q ∈ Icc s t, twoPoint x0 x1 u = twoPoint x0 x1 q} = Icc s t := by
    ext u
    constructor
    · rintro ⟨q, hq, h⟩
      rwa [twoPoint_injective hl hne h]
    · intro hu
      exact ⟨u, hu, rfl⟩
  rw [e, Measure.restrict_apply measurableSet_Icc, inter_eq_left.2 (Icc_subset_Icc hs ht), Real.volume_Icc]

example : ((volume : Measure ℝ).restrict (Icc 0 1))
    {u | ∃ q ∈ Icc (1 / 4 : ℝ) (3 / 4), twoPoint ([0, 0] : List ℝ) ([1, 2] : List ℝ) u = twoPoint ([0, 0] : List ℝ) ([1, 2] : List ℝ) q} = ENNReal.ofReal (3 / 4 - 1 / 4) :=
  segment_law (x0 := ([0, 0] : List ℝ)) (x1 := ([1, 2] : List ℝ)) rfl (fun h => by have := (List.cons.inj h).1; norm_num at this) (s := 1 / 4) (t := 3 / 4)
    (by norm_num) (by norm_num) (by norm_num)

/-! ## Directions -/

variable {m : ℕ}

/-- The law of a vector of independent standard normal numbers. -/
noncomputable def gaussLaw (m : ℕ) : Measure (Lip.Pt m) := volume.withDensity fun z => ENNReal.ofReal (stdPdf m z)

instance gaussLawProb (m : ℕ) : IsProbabilityMeasure (gaussLaw m) := by
  refine ⟨?_⟩
  have h0 : ∀ z : Lip.Pt m, 0 ≤ stdPdf m z := fun z => by unfold stdPdf; positivity
  unfold gaussLaw
  rw [withDensity_apply _ MeasurableSet.univ, Measure.restrict_univ, ← ofReal_integral_eq_lintegral_ofReal (stdPdf_integrable m) (Filter.Eventually.of_forall h0),
    stdPdf_integral, ENNReal.ofReal_one]

theorem dot_rotate {Q : Matrix (Fin m) (Fin m) ℝ} (hQ : Qᵀ * Q = 1) (x y : Lip.Pt m) : (Q *ᵥ x) ⬝ᵥ (Q *ᵥ y) = x ⬝ᵥ y := by
  rw [dotProduct_mulVec, vecMul_mulVec, ← dotProduct_mulVec, hQ, one_mulVec]

theorem nrm_rotate {Q : Matrix (Fin m) (Fin m) ℝ} (hQ : Qᵀ * Q = 1) (x : Lip.Pt m) : Lip.nrm (Q *ᵥ x) = Lip.nrm x := by
  unfold Lip.nrm; rw [dot_rotate hQ]

theorem unit_rotate {Q : Matrix (Fin m) (Fin m) ℝ} (hQ : Qᵀ * Q = 1) (x : Lip.Pt m) : unit (Q *ᵥ x) = Q *ᵥ unit x := by
  have e : ∀ y : Lip.Pt m, unit y = (Lip.nrm y)⁻¹ • y := fun y => by funext i; simp [unit, div_eq_inv_mul]
  rw [e, e, nrm_rotate hQ, mulVec_smul]

theorem det_rotate {Q : Matrix (Fin m) (Fin m) ℝ} (hQ : Qᵀ * Q = 1) : |Q.det| = 1 := by
  have h := congrArg Matrix.det hQ
  rw [det_mul, det_transpose, det_one] at h
  rcases mul_self_eq_one_iff.1 h with h | h <;> rw [h] <;> norm_num

/-- The normal law does not change under rotations and reflections. -/
theorem gauss_rotate {Q : Matrix (Fin m) (Fin m) ℝ} (hQ : Qᵀ * Q = 1) : MeasurePreserving (fun x : Lip.Pt m => Q *ᵥ x) (gaussLaw m) (gaussLaw m) := by
  have hcont : Continuous fun x : Lip.Pt m => Q *ᵥ x := Continuous.matrix_mulVec continuous_const continuous_id
  have hdet : Q.det ≠ 0 := fun h0 => by have := det_rotate hQ; rw [h0] at this; norm_num at this
  have hvol : MeasurePreserving (fun x : Lip.Pt m => Q *ᵥ x) volume volume := by
    refine ⟨hcont.measurable, ?_⟩
    have := Real.map_matrix_volume_pi_eq_smul_volume_pi hdet
    rw [abs_inv, det_rotate hQ, inv_one, ENNReal.ofReal_one, one_smul] at this
    exact this
  have hpdf : ∀ x : Lip.Pt m, stdPdf m (Q *ᵥ x) = stdPdf m x := fun x => by
    have e : ∀ z : Lip.Pt m, ∑ i, z i ^ 2 = z ⬝ᵥ z := fun z => by simp [dotProduct, pow_two]
    unfold stdPdf
    rw [e, e, dot_rotate hQ]
  have hmeas : Measurable fun z : Lip.Pt m => ENNReal.ofReal (stdPdf m z) := by
    have : Continuous (stdPdf m) := by unfold stdPdf; fun_prop
    exact ENNReal.measurable_ofReal.comp this.measurable
  refine ⟨hcont.measurable, ?_⟩
  ext A hA
  unfold gaussLaw
  rw [Measure.map_apply hcont.measurable hA, withDensity_apply _ hA, withDensity_apply _ (hcont.measurable hA),
    ← hvol.setLIntegral_comp_preimage hA hmeas]
  simp only [hpdf]

theorem sphereScore_rotate {Q : Matrix (Fin m) (Fin m) ℝ} (hQ : Qᵀ * Q = 1) (X : List (Lip.Pt m)) (c : Lip.Pt m) :
    sphereScore (X.map fun x => Q *ᵥ x) (Q *ᵥ c) = sphereScore X c := by
  unfold sphereScore
  rw [List.map_map]
  congr 1
  refine List.map_congr_left fun x _ => ?_
  simp only [Function.comp]
  rw [dot_rotate hQ]

theorem argmaxL_map {α β : Type*} (f : α → ℝ) (g : β → ℝ) (h : α → β) (hfg : ∀ a, g (h a) = f a) (b : α) (l : List α) :
    argmaxL g (h b) (l.map h) = h (argmaxL f b l) := by
  induction l generalizing b with
  | nil => rfl
  | cons a l ih =>
    simp only [List.map_cons, argmaxL, hfg]
    split
    · exact ih a
    · exact ih b

/-- Turning all random directions turns the points returned by `sample_sphere`. -/
theorem sphere_equivariant {Q : Matrix (Fin m) (Fin m) ℝ} (hQ : Qᵀ * Q = 1) (x0 : Lip.Pt m) (draws : List (Lip.Pt m × List (Lip.Pt m))) :
    sampleSphere (Q *ᵥ x0) (draws.map fun d => (Q *ᵥ d.1, d.2.map fun x => Q *ᵥ x)) = (sampleSphere x0 draws).map fun x => Q *ᵥ x := by
  have hstep : ∀ (X : List (Lip.Pt m)) (d : Lip.Pt m × List (Lip.Pt m)),
      sphereStep (X.map fun x => Q *ᵥ x) (Q *ᵥ d.1, d.2.map fun x => Q *ᵥ x) = (sphereStep X d).map fun x => Q *ᵥ x := by
    intro X d
    unfold sphereStep
    rw [List.map_append, List.map_singleton]
    congr 2
    rw [unit_rotate hQ, List.map_map, ← argmaxL_map (sphereScore X) (sphereScore (X.map fun x => Q *ᵥ x)) (fun x => Q *ᵥ x) (sphereScore_rotate hQ X), List.map_map]
    congr 1
    refine List.map_congr_left fun x _ => ?_
    exact unit_rotate hQ x
  have hfold : ∀ (ds : List (Lip.Pt m × List (Lip.Pt m))) (X : List (Lip.Pt m)),
      (ds.map fun d => (Q *ᵥ d.1, d.2.map fun x => Q *ᵥ x)).foldl sphereStep (X.map fun x => Q *ᵥ x) = (ds.foldl sphereStep X).map fun x => Q *ᵥ x := by
    intro ds
    induction ds with
    | nil => intro X; rfl
    | cons d ds ih =>
      intro X
      rw [List.map_cons, List.foldl_cons, List.foldl_cons, hstep, ih]
  unfold sampleSphere
  have := hfold draws [unit x0]
  rw [List.map_singleton, ← unit_rotate hQ] at this
  exact this

/-- The draws of `sample_sphere` as lists: `n` passes of `k + 1` candidates. -/
def drawList {n k : ℕ} (D : Fin n → Fin (k + 1) → Lip.Pt m) : List (Lip.Pt m × List (Lip.Pt m)) := List.ofFn fun i => (D i 0, List.ofFn fun j : Fin k => D i j.succ)

/-- An orthogonal matrix as an invertible measurable map. -/
noncomputable def rotEquiv {Q : Matrix (Fin m) (Fin m) ℝ} (hQ : Qᵀ * Q = 1) : Lip.Pt m ≃ᵐ Lip.Pt m where
  toFun x := Q *ᵥ x
  invFun x := Qᵀ *ᵥ x
  left_inv x := by simp [mulVec_mulVec, hQ]
  right_inv x := by simp [mulVec_mulVec, mul_eq_one_comm.1 hQ]
  measurable_toFun := (Continuous.matrix_mulVec continuous_const continuous_id).measurable
  measurable_invFun := (Continuous.matrix_mulVec continuous_const continuous_id).measurable

/-- **C154**: no direction is preferred by `sample_sphere`: for standard normal draws every set of designs has the same probability as the set of the designs
turned by any rotation or reflection. -/
theorem sphere_law {Q : Matrix (Fin m) (Fin m) ℝ} (hQ : Qᵀ * Q = 1) (n k : ℕ) (A : Set (List (Lip.Pt m))) :
    ((gaussLaw m).prod (Measure.pi fun _ : Fin n => Measure.pi fun _ : Fin (k + 1) => gaussLaw m))
        {w | (sampleSphere w.1 (drawList w.2)).map (fun x => Q *ᵥ x) ∈ A} =
      ((gaussLaw m).prod (Measure.pi fun _ : Fin n => Measure.pi fun _ : Fin (k + 1) => gaussLaw m)) {w | sampleSphere w.1 (drawList w.2) ∈ A} := by
  have h1 : MeasurePreserving (rotEquiv hQ) (gaussLaw m) (gaussLaw m) := gauss_rotate hQ
  let R := MeasurableEquiv.piCongrRight fun _ : Fin n => MeasurableEquiv.piCongrRight fun _ : Fin (k + 1) => rotEquiv hQ
  have h2 : MeasurePreserving R (Measure.pi fun _ : Fin n => Measure.pi fun _ : Fin (k + 1) => gaussLaw m)
      (Measure.pi fun _ : Fin n => Measure.pi fun _ : Fin (k + 1) => gaussLaw m) :=
    measurePreserving_pi _ _ fun _ => measurePreserving_pi _ _ fun _ => h1
  have h3 : MeasurePreserving ((rotEquiv hQ).prodCongr R) _ _ := h1.prod h2
  rw [← h3.measure_preimage_equiv {w | sampleSphere w.1 (drawList w.2) ∈ A}]
  congr 1
  ext w
  simp only [mem_setOf_eq, mem_preimage]
  have e : drawList (R w.2) = (drawList w.2).map fun d => (Q *ᵥ d.1, d.2.map fun x => Q *ᵥ x) := by
    unfold drawList
    rw [List.map_ofFn]
    congr 1
    funext i
    simp only [Function.comp, List.map_ofFn]
    rfl
  change _ ↔ sampleSphere (Q *ᵥ w.1) (drawList (R w.2)) ∈ A
  rw [e, sphere_equivariant hQ]

/-- A reflection meets the hypothesis. -/
example : (!![0, 1; 1, 0] : Matrix (Fin 2) (Fin 2) ℝ)ᵀ * !![0, 1; 1, 0] = 1 := by
  ext i j; fin_cases i <;> fin_cases j <;> simp [Matrix.mul_apply, Fin.sum_univ_two]

end Verif.Geo
