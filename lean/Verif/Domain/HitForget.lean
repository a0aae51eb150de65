import Verif.Domain.HitUniform
import Verif.Domain.PdfSample

/-!
# Hit-and-run forgets where it starts (C169)

A kernel whose laws overlap contracts differences; the laws of hit-and-run calls from any two points overlap, because every region of the domain is seen from every
point through directions of normally distributed vectors (euclidean.py 658-690 and 856-906).
-/

namespace Verif.Domain

open MeasureTheory Set Classical
open scoped ENNReal

/-! ## Kernels with overlapping laws -/

section
variable {X : Type*} [MeasurableSpace X]

theorem lintegral_osc {S : Set X} {r r' : Measure X} (hr : r Sᶜ = 0) (hr' : r' Sᶜ = 0) (he : r univ = r' univ) {g : X → ℝ≥0∞} {o : ℝ≥0∞}
    (hg : ∀ x ∈ S, ∀ y ∈ S, g x ≤ g y + o) : ∫⁻ x, g x ∂r ≤ ∫⁻ x, g x ∂r' + r univ * o := by
  have hae : ∀ᵐ x ∂r, x ∈ S := hr
  have hae' : ∀ᵐ x ∂r', x ∈ S := hr'
  have hup : ∀ x ∈ S, g x ≤ (⨅ y : S, g y) + o := fun x hx => by
    rw [ENNReal.iInf_add]
    exact le_iInf fun y => hg x hx y y.2
  calc ∫⁻ x, g x ∂r ≤ ∫⁻ _, ((⨅ y : S, g y) + o) ∂r := lintegral_mono_ae (hae.mono hup)
    _ = (⨅ y : S, g y) * r' univ + r univ * o := by rw [lintegral_const, add_mul, he, mul_comm o]
    _ ≤ ∫⁻ x, g x ∂r' + r univ * o := by
      gcongr
      rw [← lintegral_const]
      exact lintegral_mono_ae (hae'.mono fun x hx => iInf_le (fun y : S => g y) ⟨x, hx⟩)

/-- The laws of `F` from any two points of `S` overlap by at least `1 - η`, and `F` stays in `S`. -/
structure Overlap (F : ProbabilityTheory.Kernel X X) (S : Set X) (η : ℝ≥0∞) : Prop where
  inside : ∀ x ∈ S, F x Sᶜ = 0
  common : ∀ x ∈ S, ∀ y ∈ S, ∃ m : Measure X, m ≤ F x ∧ m ≤ F y ∧ 1 ≤ m univ + η

theorem common_osc {M M' m : Measure X} [IsProbabilityMeasure M] [IsProbabilityMeasure M'] {S : Set X} (hM : M Sᶜ = 0) (hM' : M' Sᶜ = 0) (hm : m ≤ M) (hm' : m ≤ M')
    {η : ℝ≥0∞} (h1 : 1 ≤ m univ + η) {g : X → ℝ≥0∞} {o : ℝ≥0∞} (hg : ∀ x ∈ S, ∀ y ∈ S, g x ≤ g y + o) : ∫⁻ z, g z ∂M ≤ ∫⁻ z, g z ∂M' + η * o := by
  haveI : IsFiniteMeasure m := isFiniteMeasure_of_le M hm
  have ex : M - m + m = M := Measure.sub_add_cancel_of_le hm
  have ey : M' - m + m = M' := Measure.sub_add_cancel_of_le hm'
  have hs : (M - m) univ = 1 - m univ := by rw [Measure.sub_apply MeasurableSet.univ hm, measure_univ]
  have hs' : (M' - m) univ = 1 - m univ := by rw [Measure.sub_apply MeasurableSet.univ hm', measure_univ]
  have h2 := lintegral_osc (r := M - m) (r' := M' - m) (S := S) (g := g) (o := o)
    (le_antisymm ((Measure.sub_le (μ := M) (ν := m) Sᶜ).trans hM.le) zero_le)
    (le_antisymm ((Measure.sub_le (μ := M') (ν := m) Sᶜ).trans hM'.le) zero_le) (by rw [hs, hs']) hg
  calc ∫⁻ z, g z ∂M = ∫⁻ z, g z ∂(M - m) + ∫⁻ z, g z ∂m := by rw [← lintegral_add_measure, ex]
    _ ≤ (∫⁻ z, g z ∂(M' - m) + (M - m) univ * o) + ∫⁻ z, g z ∂m := by gcongr
    _ = ∫⁻ z, g z ∂M' + (M - m) univ * o := by rw [add_right_comm, ← lintegral_add_measure, ey]
    _ ≤ ∫⁻ z, g z ∂M' + η * o := by
      rw [hs]
      gcongr
      exact tsub_le_iff_left.2 h1

theorem Overlap.contract {F : ProbabilityTheory.Kernel X X} [ProbabilityTheory.IsMarkovKernel F] {S : Set X} {η : ℝ≥0∞} (h : Overlap F S η) {g : X → ℝ≥0∞} {o : ℝ≥0∞}
    (hg : ∀ x ∈ S, ∀ y ∈ S, g x ≤ g y + o) : ∀ x ∈ S, ∀ y ∈ S, ∫⁻ z, g z ∂(F x) ≤ ∫⁻ z, g z ∂(F y) + η * o := by
  intro x hx y hy
  obtain ⟨m, hmx, hmy, hm⟩ := h.common x hx y hy
  exact common_osc (h.inside x hx) (h.inside y hy) hmx hmy hm hg

/-- Two chains with the kernel `F` started inside `S`: the laws differ by at most `η ^ k` after `k` steps. -/
theorem Overlap.forgets {F : ProbabilityTheory.Kernel X X} [ProbabilityTheory.IsMarkovKernel F] {S : Set X} {η : ℝ≥0∞} (h : Overlap F S η) {ρ ρ' : ℕ → Measure X}
    [IsProbabilityMeasure (ρ 0)] [IsProbabilityMeasure (ρ' 0)] (h0 : ρ 0 Sᶜ = 0) (h0' : ρ' 0 Sᶜ = 0) (hs : ∀ k, ρ (k + 1) = (ρ k).bind F)
    (hs' : ∀ k, ρ' (k + 1) = (ρ' k).bind F) (k : ℕ) : ∀ {g : X → ℝ≥0∞} (_ : Measurable g) {o : ℝ≥0∞} (_ : ∀ x ∈ S, ∀ y ∈ S, g x ≤ g y + o),
      ∫⁻ x, g x ∂(ρ k) ≤ ∫⁻ x, g x ∂(ρ' k) + η ^ k * o := by
  induction k with
  | zero =>
    intro g _ o hg
    have := lintegral_osc h0 h0' (by simp) hg
    simpa using this
  | succ k ih =>
    intro g hgm o hg
    rw [hs, hs', Measure.lintegral_bind F.measurable.aemeasurable hgm.aemeasurable, Measure.lintegral_bind F.measurable.aemeasurable hgm.aemeasurable, pow_succ, mul_assoc]
    exact ih (Measurable.lintegral_kernel hgm) (h.contract hg)

/-- A chain with the kernel `F` started inside `S` approaches every law `U` which `F` keeps up to the amount `β`. -/
theorem Overlap.approaches {F : ProbabilityTheory.Kernel X X} [ProbabilityTheory.IsMarkovKernel F] {S : Set X} (hS : MeasurableSet S) {η : ℝ≥0∞} (h : Overlap F S η) {ρ : ℕ → Measure X}
    [IsProbabilityMeasure (ρ 0)] (h0 : ρ 0 Sᶜ = 0) (hs : ∀ k, ρ (k + 1) = (ρ k).bind F) {U A : Measure X} [IsProbabilityMeasure U] (hUS : U Sᶜ = 0) (hAU : A ≤ U)
    (hAF : A ≤ U.bind F) {β : ℝ≥0∞} (hβ : 1 ≤ A univ + β) (k : ℕ) : ∀ {g : X → ℝ≥0∞} (_ : Measurable g) {o : ℝ≥0∞} (_ : ∀ x ∈ S, ∀ y ∈ S, g x ≤ g y + o),
      ∫⁻ x, g x ∂(ρ k) ≤ ∫⁻ x, g x ∂U + (η ^ k + β * ∑ j ∈ Finset.range k, η ^ j) * o ∧
        ∫⁻ x, g x ∂U ≤ ∫⁻ x, g x ∂(ρ k) + (η ^ k + β * ∑ j ∈ Finset.range k, η ^ j) * o := by
  haveI : IsFiniteMeasure A := isFiniteMeasure_of_le U hAU
  have hUF : (U.bind F) univ = 1 := by
    rw [Measure.bind_apply MeasurableSet.univ F.measurable.aemeasurable]; simp
  haveI : IsProbabilityMeasure (U.bind F) := ⟨hUF⟩
  have hFS : (U.bind F) Sᶜ = 0 := by
    have hae : ∀ᵐ x ∂U, x ∈ S := hUS
    rw [Measure.bind_apply hS.compl F.measurable.aemeasurable, lintegral_eq_zero_iff (F.measurable_coe hS.compl)]
    exact hae.mono fun x hx => h.inside x hx
  induction k with
  | zero =>
    intro g _ o hg
    constructor
    · simpa using lintegral_osc h0 hUS (by simp) hg
    · simpa using lintegral_osc hUS h0 (by simp) hg
  | succ k ih =>
    intro g hgm o hg
    have hb : ∀ m : Measure X, ∫⁻ x, g x ∂(m.bind F) = ∫⁻ x, ∫⁻ y, g y ∂(F x) ∂m := fun m =>
      Measure.lintegral_bind F.measurable.aemeasurable hgm.aemeasurable
    obtain ⟨i1, i2⟩ := ih (Measurable.lintegral_kernel hgm) (h.contract hg)
    rw [← hb, ← hb, ← hs] at i1 i2
    have e : (η ^ (k + 1) + β * ∑ j ∈ Finset.range (k + 1), η ^ j) * o = (η ^ k + β * ∑ j ∈ Finset.range k, η ^ j) * (η * o) + β * o := by
      rw [Finset.sum_range_succ']
      simp only [pow_succ, pow_zero, ← Finset.sum_mul]
      ring
    rw [e]
    constructor
    · calc ∫⁻ x, g x ∂(ρ (k + 1)) ≤ ∫⁻ x, g x ∂(U.bind F) + (η ^ k + β * ∑ j ∈ Finset.range k, η ^ j) * (η * o) := i1
        _ ≤ (∫⁻ x, g x ∂U + β * o) + (η ^ k + β * ∑ j ∈ Finset.range k, η ^ j) * (η * o) := by
          gcongr
          exact common_osc hFS hUS hAF hAU hβ hg
        _ = _ := by rw [add_assoc, add_comm (β * o)]
    · calc ∫⁻ x, g x ∂U ≤ ∫⁻ x, g x ∂(U.bind F) + β * o := common_osc hUS hFS hAU hAF hβ hg
        _ ≤ (∫⁻ x, g x ∂(ρ (k + 1)) + (η ^ k + β * ∑ j ∈ Finset.range k, η ^ j) * (η * o)) + β * o := by gcongr
        _ = _ := by rw [add_assoc]

end

/-! ## Every region is seen from every point -/

section
variable {n : ℕ}

/-- The Euclidean length. -/
noncomputable def len2 (v : Fin n → ℝ) : ℝ := Real.sqrt (∑ i, v i ^ 2)

theorem norm_ofFn_eq (v : Fin n → ℝ) : Vec.norm (List.ofFn v) = len2 v := by
  unfold Vec.norm Vec.sumSq len2
  simp only [List.map_ofFn, List.sum_ofFn, Function.comp, sq]

theorem len2_smul (c : ℝ) (v : Fin n → ℝ) : len2 (c • v) = |c| * len2 v := by
  unfold len2
  simp only [Pi.smul_apply, smul_eq_mul, mul_pow, ← Finset.mul_sum]
  rw [Real.sqrt_mul (sq_nonneg c), Real.sqrt_sq_eq_abs]

theorem len2_sq (v : Fin n → ℝ) : len2 v ^ 2 = ∑ i, v i ^ 2 := Real.sq_sqrt (Finset.sum_nonneg fun i _ => sq_nonneg _)

theorem len2_continuous : Continuous (len2 : (Fin n → ℝ) → ℝ) := by unfold len2; fun_prop

theorem stdPdf_continuous : Continuous (stdPdf n) := by unfold stdPdf; fun_prop

/-- A bound for the density of seen regions. -/
noncomputable def seeConst (n : ℕ) : ℝ := (Real.sqrt (2 * Real.pi))⁻¹ ^ n * Real.exp (-0.5) / 2 ^ (n + 1)

theorem seeConst_pos (n : ℕ) : 0 < seeConst n := by unfold seeConst; positivity

theorem section_scale {A : Set (Fin n → ℝ)} (x v : Fin n → ℝ) :
    ENNReal.ofReal (len2 v) * volume {s : ℝ | x + s • v ∈ A} ≤ volume {t : ℝ | x + t • dirOf v ∈ A} := by
  by_cases hv : v = 0
  · have : len2 v = 0 := by subst hv; simp [len2]
    rw [this]; simp
  · have hp := norm_ofFn_pos hv
    rw [norm_ofFn_eq] at hp
    have e : {t : ℝ | x + t • dirOf v ∈ A} = (fun t => (1 / len2 v) * t) ⁻¹' {s : ℝ | x + s • v ∈ A} := by
      ext t
      simp only [mem_ofPred_eq, mem_preimage, dirOf, norm_ofFn_eq, smul_smul, mul_comm t]
    rw [e, Real.volume_preimage_mul_left (by positivity)]
    refine le_of_eq ?_
    congr 2
    rw [one_div, inv_inv, abs_of_pos hp]

theorem see_point (hn1 : 1 ≤ n) {w : Fin n → ℝ} {R : ℝ} (h0 : 0 < len2 w) (hR : len2 w ≤ R) :
    ENNReal.ofReal (seeConst n * (R / R ^ n)) ≤
      ∫⁻ s in Ioi (0 : ℝ), ENNReal.ofReal |(s ^ n)⁻¹| * (ENNReal.ofReal (stdPdf n (s⁻¹ • w)) * ENNReal.ofReal (len2 (s⁻¹ • w))) := by
  set r := len2 w with hr
  have hsub : Icc r (2 * r) ⊆ Ioi 0 := fun s hs => lt_of_lt_of_le h0 hs.1
  set c : ℝ := ((2 * r) ^ n)⁻¹ * ((Real.sqrt (2 * Real.pi))⁻¹ ^ n * Real.exp (-0.5) * (1 / 2)) with hc
  have hc0 : 0 ≤ c := by positivity
  have hpt : ∀ s ∈ Icc r (2 * r), ENNReal.ofReal c ≤
      ENNReal.ofReal |(s ^ n)⁻¹| * (ENNReal.ofReal (stdPdf n (s⁻¹ • w)) * ENNReal.ofReal (len2 (s⁻¹ • w))) := by
    intro s hs
    have hs0 : 0 < s := lt_of_lt_of_le h0 hs.1
    have h1 : (Real.sqrt (2 * Real.pi))⁻¹ ^ n * Real.exp (-0.5) ≤ stdPdf n (s⁻¹ • w) := by
      unfold stdPdf
      refine mul_le_mul_of_nonneg_left (Real.exp_le_exp.2 ?_) (by positivity)
      have e : ∑ i, (s⁻¹ • w) i ^ 2 = (r / s) ^ 2 := by
        rw [← len2_sq, len2_smul, abs_of_pos (inv_pos.2 hs0), ← hr]; ring
      have : (r / s) ^ 2 ≤ 1 := by
        have : r / s ≤ 1 := (div_le_one hs0).2 hs.1
        have h0' : 0 ≤ r / s := by positivity
        nlinarith
      rw [e]; linarith
    have h2 : 1 / 2 ≤ len2 (s⁻¹ • w) := by
      rw [len2_smul, abs_of_pos (inv_pos.2 hs0), ← hr, inv_mul_eq_div, div_le_div_iff₀ two_pos hs0]
      linarith [hs.2]
    have h3 : ((2 * r) ^ n)⁻¹ ≤ |(s ^ n)⁻¹| := by
      rw [abs_of_pos (by positivity)]
      exact inv_anti₀ (by positivity) (pow_le_pow_left₀ hs0.le hs.2 n)
    rw [← ENNReal.ofReal_mul (by unfold stdPdf; positivity), ← ENNReal.ofReal_mul (abs_nonneg _)]
    refine ENNReal.ofReal_le_ofReal ?_
    rw [hc]
    have := mul_le_mul h1 h2 (by norm_num) (by unfold stdPdf; positivity)
    exact mul_le_mul h3 this (by positivity) (abs_nonneg _)
  calc ENNReal.ofReal (seeConst n * (R / R ^ n)) ≤ ENNReal.ofReal (c * r) := by
        refine ENNReal.ofReal_le_ofReal ?_
        obtain ⟨k, rfl⟩ : ∃ k, n = k + 1 := ⟨n - 1, by omega⟩
        have hRp : 0 < R := lt_of_lt_of_le h0 hR
        have e1 : R / R ^ (k + 1) = (R ^ k)⁻¹ := by rw [pow_succ]; field_simp
        have e2 : c * r = seeConst (k + 1) * (r ^ k)⁻¹ := by
          rw [hc]; unfold seeConst; rw [mul_pow, pow_succ r k]; field_simp; ring
        rw [e1, e2]
        exact mul_le_mul_of_nonneg_left (inv_anti₀ (by positivity) (pow_le_pow_left₀ h0.le hR k)) (seeConst_pos _).le
    _ = ∫⁻ s in Icc r (2 * r), ENNReal.ofReal c := by
        rw [setLIntegral_const, Real.volume_Icc, ENNReal.ofReal_mul hc0]; congr 2; ring
    _ ≤ ∫⁻ s in Icc r (2 * r), ENNReal.ofReal |(s ^ n)⁻¹| * (ENNReal.ofReal (stdPdf n (s⁻¹ • w)) * ENNReal.ofReal (len2 (s⁻¹ • w))) :=
        setLIntegral_mono' measurableSet_Icc hpt
    _ ≤ _ := lintegral_mono_set hsub

set_option maxHeartbeats 1000000 in
/-- Looking from `x` in the direction of a normally distributed vector: a region `A` not farther away than `R` is seen in proportion to its volume. -/
theorem seen_lower (hn1 : 1 ≤ n) {A : Set (Fin n → ℝ)} (hA : MeasurableSet A) {x : Fin n → ℝ} {R : ℝ} (hR : ∀ y ∈ A, 0 < len2 (y - x) ∧ len2 (y - x) ≤ R) :
    ENNReal.ofReal (seeConst n * (R / R ^ n)) * volume A ≤ ∫⁻ v, volume {t : ℝ | x + t • dirOf v ∈ A} ∂(stdLaw n) := by
  have hφ : Measurable (fun v : Fin n → ℝ => ENNReal.ofReal (stdPdf n v)) := stdPdf_continuous.measurable.ennreal_ofReal
  have hl : Measurable (fun v : Fin n → ℝ => ENNReal.ofReal (len2 v)) := len2_continuous.measurable.ennreal_ofReal
  have hf : Measurable (fun v : Fin n → ℝ => volume {t : ℝ | x + t • dirOf v ∈ A}) :=
    (measurable_section hA).comp (measurable_prodMk_right (y := x))
  set h : (Fin n → ℝ) → ℝ≥0∞ := fun v => ENNReal.ofReal (stdPdf n v) * ENNReal.ofReal (len2 v) with hh
  have hhm : Measurable h := hφ.mul hl
  set I : (Fin n → ℝ) → ℝ≥0∞ := A.indicator 1 with hI
  have hIm : Measurable I := measurable_one.indicator hA
  -- for one multiple `s`
  have hone : ∀ s : ℝ, 0 < s → ∫⁻ v, h v * I (x + s • v) = ∫⁻ y, ENNReal.ofReal |(s ^ n)⁻¹| * h (s⁻¹ • (y - x)) * I y := by
    intro s hs
    have e1 : ∀ v, h v * I (x + s • v) = (fun w => h (s⁻¹ • w) * I (x + w)) (s • v) := fun v => by
      simp only [smul_smul, inv_mul_cancel₀ hs.ne', one_smul]
    have hG : Measurable (fun w : Fin n → ℝ => h (s⁻¹ • w) * I (x + w)) :=
      (hhm.comp (measurable_const_smul s⁻¹)).mul (hIm.comp (measurable_const_add x))
    simp_rw [e1]
    rw [← lintegral_map (μ := volume) (f := fun w => h (s⁻¹ • w) * I (x + w)) hG (measurable_const_smul s), Measure.map_addHaar_smul _ hs.ne', lintegral_smul_measure]
    simp only [Module.finrank_fin_fun]
    rw [← lintegral_sub_right_eq_self (fun w : Fin n → ℝ => h (s⁻¹ • w) * I (x + w)) x, smul_eq_mul, ← lintegral_const_mul]
    · refine lintegral_congr fun y => ?_
      rw [add_sub_cancel]
      ring
    · exact hG.comp (measurable_sub_const x)
  have hjoint : Measurable (fun q : (Fin n → ℝ) × ℝ => h q.1 * I (x + q.2 • q.1)) :=
    (hhm.comp measurable_fst).mul (hIm.comp (measurable_const.add (measurable_snd.smul measurable_fst)))
  have hjoint2 : Measurable (fun q : ℝ × (Fin n → ℝ) => ENNReal.ofReal |(q.1 ^ n)⁻¹| * h (q.1⁻¹ • (q.2 - x)) * I q.2) := by
    have m1 : Measurable (fun q : ℝ × (Fin n → ℝ) => ENNReal.ofReal |(q.1 ^ n)⁻¹|) := by fun_prop
    have m2 : Measurable (fun q : ℝ × (Fin n → ℝ) => h (q.1⁻¹ • (q.2 - x))) := hhm.comp (measurable_fst.inv.smul (measurable_snd.sub measurable_const))
    exact (m1.mul m2).mul (hIm.comp measurable_snd)
  calc ENNReal.ofReal (seeConst n * (R / R ^ n)) * volume A
      = ∫⁻ y, ENNReal.ofReal (seeConst n * (R / R ^ n)) * I y := by
        rw [lintegral_const_mul _ hIm, hI, lintegral_indicator_one hA]
    _ ≤ ∫⁻ y, (∫⁻ s in Ioi (0 : ℝ), ENNReal.ofReal |(s ^ n)⁻¹| * h (s⁻¹ • (y - x)) * I y) := by
        refine lintegral_mono fun y => ?_
        by_cases hy : y ∈ A
        · have : I y = 1 := by rw [hI]; simp [hy]
          simp only [this, mul_one]
          exact see_point hn1 (hR y hy).1 (hR y hy).2
        · have : I y = 0 := by rw [hI]; simp [hy]
          simp [this]
    _ = ∫⁻ s in Ioi (0 : ℝ), ∫⁻ y, ENNReal.ofReal |(s ^ n)⁻¹| * h (s⁻¹ • (y - x)) * I y :=
        lintegral_lintegral_swap (hjoint2.comp measurable_swap).aemeasurable
    _ = ∫⁻ s in Ioi (0 : ℝ), ∫⁻ v, h v * I (x + s • v) :=
        setLIntegral_congr_fun measurableSet_Ioi fun s hs => (hone s hs).symm
    _ = ∫⁻ v, ∫⁻ s in Ioi (0 : ℝ), h v * I (x + s • v) :=
        lintegral_lintegral_swap (hjoint.comp measurable_swap).aemeasurable
    _ ≤ ∫⁻ v, ENNReal.ofReal (stdPdf n v) * volume {t : ℝ | x + t • dirOf v ∈ A} := by
        refine lintegral_mono fun v => ?_
        have hlm : Measurable (fun s : ℝ => x + s • v) := by fun_prop
        calc ∫⁻ s in Ioi (0 : ℝ), h v * I (x + s • v) ≤ ∫⁻ s, h v * I (x + s • v) := setLIntegral_le_lintegral _ _
          _ = h v * volume {s : ℝ | x + s • v ∈ A} := by
            rw [lintegral_const_mul _ (f := fun s : ℝ => I (x + s • v)) (hIm.comp hlm)]
            congr 1
            have : ∀ s : ℝ, I (x + s • v) = {s : ℝ | x + s • v ∈ A}.indicator 1 s := fun s => by
              rw [hI]; simp [indicator]
            simp_rw [this]
            exact lintegral_indicator_one (hlm hA)
          _ = ENNReal.ofReal (stdPdf n v) * (ENNReal.ofReal (len2 v) * volume {s : ℝ | x + s • v ∈ A}) := by rw [hh, mul_assoc]
          _ ≤ _ := by gcongr; exact section_scale x v
    _ = ∫⁻ v, volume {t : ℝ | x + t • dirOf v ∈ A} ∂(stdLaw n) := by
        unfold stdLaw
        rw [lintegral_withDensity_eq_lintegral_mul _ hφ hf]
        rfl

end

end Verif.Domain
