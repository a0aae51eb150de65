import Verif.Geometry.LawProps
import Verif.Domain.DimProps
import Mathlib.MeasureTheory.Integral.Pi

/-!
# The distribution of samples of product domains (C168)

`TensorProductDomain.sample` (tensor.py 65-69) draws from the factors one after the other and puts the rows side by side.  If the random numbers of the
factors are independent, the rows are independent and their parts are independent with the laws of the factors.
-/

namespace Verif.Geo

open Verif Verif.Domain MeasureTheory Set

/-! ## Specification -/

/-- `sample(N)` of the factor `d`, given random numbers with the law `P`, almost surely returns `N` rows, and the rows are independent with the law `μ`. -/
def Draws (E : SampleEnv) (TOL : ℝ) (N : ℕ) (d : Base) {Ω : Type} [MeasurableSpace Ω] (ρ : Ω → Rand) (P : Measure Ω) {n : ℕ} (μ : Measure (Fin n → ℝ)) : Prop :=
  ∃ X : Ω → Fin N → Fin n → ℝ,
    (∀ᵐ ω ∂P, d.sample E TOL (ρ ω) N = some (.ok (List.ofFn fun j => List.ofFn (X ω j)))) ∧
    Measure.map X P = Measure.pi fun _ => μ

/-- The random numbers of the factors: factor `k` sees those made of `ω k`. -/
def factorRand {K : ℕ} {Ω : Fin K → Type} (ρ : ∀ k, Ω k → Rand) (ω : ∀ k, Ω k) (i : ℕ) : Rand :=
  if h : i < K then ρ ⟨i, h⟩ (ω ⟨i, h⟩) else ⟨fun _ _ => 0, fun _ _ => []⟩

/-- The parts side by side, `np.hstack`. -/
def hcat {K : ℕ} {n : Fin K → ℕ} (y : ∀ k, Fin (n k) → ℝ) : Vec := (List.ofFn fun k => List.ofFn (y k)).flatten

/-! ## Exchanging the order of independent families -/

/-- Independent factors each with independent rows: independent rows each with independent parts. -/
theorem map_swap_pi {K N : ℕ} {β : Fin K → Type} [∀ k, MeasurableSpace (β k)] (μ : ∀ k, Measure (β k)) [∀ k, IsProbabilityMeasure (μ k)] :
    Measure.map (fun (z : ∀ k, Fin N → β k) (j : Fin N) (k : Fin K) => z k j) (Measure.pi fun k => Measure.pi fun _ : Fin N => μ k) =
      Measure.pi fun _ : Fin N => Measure.pi μ := by
  have hmeas : Measurable (fun (z : ∀ k, Fin N → β k) (j : Fin N) (k : Fin K) => z k j) := by
    refine measurable_pi_lambda _ fun j => measurable_pi_lambda _ fun k => ?_
    exact (measurable_pi_apply j).comp (measurable_pi_apply k)
  symm
  refine Measure.pi_eq_generateFrom (C := fun _ => pi univ '' pi univ fun k => {s : Set (β k) | MeasurableSet s}) (fun _ => generateFrom_pi)
    (fun _ => isPiSystem_pi) (fun _ => Measure.FiniteSpanningSetsIn.pi fun k => (μ k).toFiniteSpanningSetsIn) ?_
  intro s hs
  choose t ht using hs
  have hts : ∀ j k, MeasurableSet (t j k) := fun j k => (ht j).1 k (mem_univ k)
  have hse : s = fun j => pi univ (t j) := funext fun j => (ht j).2.symm
  subst hse
  rw [Measure.map_apply hmeas (MeasurableSet.univ_pi fun j => MeasurableSet.univ_pi (hts j))]
  have e : (fun (z : ∀ k, Fin N → β k) (j : Fin N) (k : Fin K) => z k j) ⁻¹' pi univ (fun j => pi univ (t j)) =
      pi univ fun k => pi univ fun j => t j k := by
    ext z
    simp only [mem_preimage, mem_pi, mem_univ, true_implies]
    exact ⟨fun h k j => h j k, fun h j k => h k j⟩
  rw [e, Measure.pi_pi]
  simp_rw [Measure.pi_pi]
  exact Finset.prod_comm

/-! ## Stacking -/

theorem stackSamples_ofFn (E : SampleEnv) (TOL : ℝ) (N : ℕ) : ∀ {K : ℕ} (_ : 0 < K) {n : Fin K → ℕ} (d : Fin K → Base) (r : Fin K → Rand)
    (X : ∀ k, Fin N → Fin (n k) → ℝ) (_ : ∀ k, (d k).sample E TOL (r k) N = some (.ok (List.ofFn fun j => List.ofFn (X k j)))),
    stackSamples E TOL N (List.ofFn fun k => (d k, r k)) = some (.ok (List.ofFn fun j => hcat fun k => X k j))
  | 0, h, _, _, _, _, _ => absurd h (lt_irrefl 0)
  | 1, _, n, d, r, X, h => by
    simp only [List.ofFn_succ, List.ofFn_zero, stackSamples, h 0, hcat, List.flatten_cons, List.flatten_nil, List.append_nil]
  | K + 2, _, n, d, r, X, h => by
    have ih := stackSamples_ofFn E TOL N (K := K + 1) (Nat.succ_pos K) (fun k => d k.succ) (fun k => r k.succ) (fun k => X k.succ) fun k => h k.succ
    rw [List.ofFn_succ]
    have h2 : List.ofFn (fun k : Fin (K + 1) => (d k.succ, r k.succ)) ≠ [] := by simp
    obtain ⟨a, l, hl⟩ := List.exists_cons_of_ne_nil h2
    rw [hl] at ih ⊢
    simp only [stackSamples, h 0, ih]
    congr 2
    apply List.ext_getElem
    · simp
    · intro i h1 h3
      simp only [List.getElem_zipWith, List.getElem_ofFn, hcat]
      rw [List.ofFn_succ (f := fun k : Fin (K + 2) => List.ofFn (X k ⟨i, by simpa using h3⟩)), List.flatten_cons]

theorem mapIdx_factorRand {K : ℕ} {Ω : Fin K → Type} (ρ : ∀ k, Ω k → Rand) (ω : ∀ k, Ω k) (d : Fin K → Base) :
    (List.ofFn d).mapIdx (fun i b => (b, factorRand ρ ω i)) = List.ofFn fun k => (d k, ρ k (ω k)) := by
  apply List.ext_getElem
  · simp
  · intro i h1 h2
    have hi : i < K := by simpa using h2
    simp [factorRand, hi]

/-! ## The law -/

/-- **C168**: if the random numbers of the factors are independent, `sample(N)` of a product almost surely returns `N` rows; the rows are independent, and in each
row the parts are independent with the laws of the factors. -/
theorem tensor_law {K N : ℕ} (hK : 0 < K) (hN : 0 < N) {Ω : Fin K → Type} [∀ k, MeasurableSpace (Ω k)] (P : ∀ k, Measure (Ω k)) [∀ k, IsProbabilityMeasure (P k)]
    (ρ : ∀ k, Ω k → Rand) {n : Fin K → ℕ} (μ : ∀ k, Measure (Fin (n k) → ℝ)) [∀ k, IsProbabilityMeasure (μ k)] (E : SampleEnv) (TOL : ℝ) (d : Fin K → Base)
    (h : ∀ k, Draws E TOL N (d k) (ρ k) (P k) (μ k)) :
    ∃ Y : (∀ k, Ω k) → Fin N → ∀ k, Fin (n k) → ℝ,
      (∀ᵐ ω ∂(Measure.pi P), (Dom.tensor (List.ofFn d)).sample E TOL (factorRand ρ ω) N = some (.ok (List.ofFn fun j => hcat (Y ω j)))) ∧
      Measure.map Y (Measure.pi P) = Measure.pi fun _ => Measure.pi μ := by
  choose X hX hlaw using h
  have hae : ∀ k, AEMeasurable (X k) (P k) := fun k => by
    by_contra hno
    have h0 := Measure.map_of_not_aemeasurable hno
    rw [hlaw k] at h0
    exact IsProbabilityMeasure.ne_zero _ h0
  refine ⟨fun ω j k => X k (ω k) j, ?_, ?_⟩
  · have hall : ∀ᵐ ω ∂(Measure.pi P), ∀ k, (d k).sample E TOL (ρ k (ω k)) N = some (.ok (List.ofFn fun j => List.ofFn (X k (ω k) j))) :=
      ae_all_iff.2 fun k => (Measure.quasiMeasurePreserving_eval P k).ae (hX k)
    filter_upwards [hall] with ω hω
    show (if (N : ℤ) ≤ 0 then some (.ok []) else stackSamples E TOL N ((List.ofFn d).mapIdx fun i b => (b, factorRand ρ ω i))) = _
    rw [if_neg (by omega), mapIdx_factorRand]
    exact stackSamples_ofFn E TOL N hK d (fun k => ρ k (ω k)) (fun k => X k (ω k)) hω
  · haveI : ∀ k, IsProbabilityMeasure ((P k).map (X k)) := fun k => Measure.isProbabilityMeasure_map (hae k)
    have h1 := Measure.pi_map_pi (μ := P) (f := X) hae
    simp_rw [hlaw] at h1
    rw [← map_swap_pi (N := N) μ, ← h1]
    have hmeas : Measurable (fun (z : ∀ k, Fin N → Fin (n k) → ℝ) (j : Fin N) (k : Fin K) => z k j) := by
      refine measurable_pi_lambda _ fun j => measurable_pi_lambda _ fun k => ?_
      exact (measurable_pi_apply j).comp (measurable_pi_apply k)
    have hae2 : AEMeasurable (fun (ω : ∀ k, Ω k) k => X k (ω k)) (Measure.pi P) :=
      aemeasurable_pi_lambda _ fun k => (hae k).comp_quasiMeasurePreserving (Measure.quasiMeasurePreserving_eval P k)
    rw [AEMeasurable.map_map_of_aemeasurable hmeas.aemeasurable hae2]
    rfl

/-! ## The factors -/

theorem box_draws {N n : ℕ} (hN : 0 < N) {lo hi : Fin n → ℝ} (h : ∀ i, lo i < hi i) (E : SampleEnv) (TOL : ℝ) (hE : E.empty (.box (finX lo) (finX hi)) = none) :
    Draws E TOL N (.box (finX lo) (finX hi)) randOf (cubeLaw N n) (ProbabilityTheory.cond volume (Icc lo hi)) := by
  obtain ⟨X, h1, h2⟩ := box_law hN h E TOL hE
  exact ⟨X, Filter.Eventually.of_forall h1, h2⟩

theorem point_draws {N n : ℕ} (hN : 0 < N) (x : Fin n → ℝ) (E : SampleEnv) (TOL : ℝ) {Ω : Type} [MeasurableSpace Ω] (ρ : Ω → Rand) (P : Measure Ω)
    [IsProbabilityMeasure P] : Draws E TOL N (.point (List.ofFn x)) ρ P (Measure.dirac x) := by
  refine ⟨fun _ _ => x, Filter.Eventually.of_forall fun ω => ?_, ?_⟩
  · unfold Base.sample Base.sampleRaw
    rw [if_neg (by omega)]
    simp only [Int.toNat_natCast]
    congr 2
    rw [List.ofFn_const]
  · rw [Measure.map_const, measure_univ, one_smul]
    refine (Measure.pi_eq fun s hs => ?_).symm
    classical
    rw [Measure.dirac_apply' _ (MeasurableSet.univ_pi hs)]
    simp only [Measure.dirac_apply' _ (hs _), indicator, mem_pi, mem_univ, true_implies, Pi.one_apply]
    by_cases hall : ∀ i, x ∈ s i
    · simp [hall]
    · rw [if_neg hall]
      push Not at hall
      obtain ⟨i, hi⟩ := hall
      exact (Finset.prod_eq_zero (Finset.mem_univ i) (if_neg hi)).symm

/-- The standard normal rows `z` as the generator delivers them. -/
def gaussOf {N n : ℕ} (z : Fin N → Fin n → ℝ) : Rand := ⟨fun _ _ => 0, fun _ i => if h : i < N then List.ofFn (z ⟨i, h⟩) else []⟩

theorem mulVec_rows {m n : ℕ} (L : Matrix (Fin m) (Fin n) ℝ) (z : Fin n → ℝ) :
    Vec.mulVec (List.ofFn fun i => List.ofFn (L i)) (List.ofFn z) = List.ofFn (L.mulVec z) := by
  unfold Vec.mulVec
  rw [List.map_ofFn]
  congr 1
  funext i
  show Vec.dot (List.ofFn (L i)) (List.ofFn z) = _
  rw [dot_ofFn (by simp)]
  simp [Matrix.mulVec]

theorem add_ofFn' {n : ℕ} (x y : Fin n → ℝ) : Vec.add (List.ofFn x) (List.ofFn y) = List.ofFn (x + y) := by
  apply List.ext_getElem
  · simp [Vec.add]
  · intro i h1 h2
    simp [Vec.add]

theorem stdNormal_prob (m : ℕ) : IsProbabilityMeasure ((volume : Measure (Fin m → ℝ)).withDensity fun z => ENNReal.ofReal (stdPdf m z)) := by
  rw [isProbabilityMeasure_iff, withDensity_apply _ MeasurableSet.univ, setLIntegral_univ, ← ofReal_integral_eq_lintegral_ofReal (stdPdf_integrable m)
    (Filter.Eventually.of_forall fun z => by unfold stdPdf; positivity), stdPdf_integral, ENNReal.ofReal_one]

theorem normal_draws {N m : ℕ} (hN : 0 < N) {D : NormalDist m} (h : D.Ok) (htr : D.trunc = none) (E : SampleEnv) (TOL tol : ℝ) (Li : List Vec)
    (hE : E.chol (.normal (List.ofFn D.mean) Li none) = List.ofFn fun i => List.ofFn (D.L i)) :
    Draws E TOL N (.normal (List.ofFn D.mean) Li none) gaussOf
      (Measure.pi fun _ : Fin N => (volume : Measure (Fin m → ℝ)).withDensity fun z => ENNReal.ofReal (stdPdf m z))
      ((volume : Measure (Fin m → ℝ)).withDensity fun x => ENNReal.ofReal (D.pdf tol x)) := by
  refine ⟨fun z j => D.draw (z j), Filter.Eventually.of_forall fun z => ?_, ?_⟩
  · unfold Base.sample Base.sampleRaw normalSample
    rw [if_neg (by omega)]
    simp only [hE, Option.map_some, Int.toNat_natCast, List.map_map]
    congr 2
    apply List.ext_getElem
    · simp
    · intro i h1 h2
      have hi : i < N := by simpa using h2
      simp only [List.getElem_map, List.getElem_range, Function.comp, List.getElem_ofFn, gaussOf, hi, dif_pos, mulVec_rows, add_ofFn', NormalDist.draw]
  · have hdraw : Measurable D.draw := by unfold NormalDist.draw; fun_prop
    haveI := stdNormal_prob m
    rw [← normal_sample_law h htr tol]
    haveI : IsProbabilityMeasure (Measure.map D.draw ((volume : Measure (Fin m → ℝ)).withDensity fun z => ENNReal.ofReal (stdPdf m z))) :=
      Measure.isProbabilityMeasure_map hdraw.aemeasurable
    exact Measure.pi_map_pi fun _ => hdraw.aemeasurable

/-! ## Boxes and densities -/

/-- **C168**: the parts of the rows of a product of boxes are together uniformly distributed over the product of the boxes. -/
theorem boxes_uniform {K : ℕ} {n : Fin K → ℕ} {lo hi : ∀ k, Fin (n k) → ℝ} (h : ∀ k i, lo k i < hi k i) :
    (Measure.pi fun k => ProbabilityTheory.cond (volume : Measure (Fin (n k) → ℝ)) (Icc (lo k) (hi k))) =
      ProbabilityTheory.cond volume (Icc lo hi) := by
  have hpos : ∀ k, (volume : Measure (Fin (n k) → ℝ)) (Icc (lo k) (hi k)) ≠ 0 := fun k => by
    rw [Real.volume_Icc_pi]
    exact Finset.prod_ne_zero_iff.2 fun i _ => by simpa using h k i
  have hfin : ∀ k, (volume : Measure (Fin (n k) → ℝ)) (Icc (lo k) (hi k)) ≠ ⊤ := fun k => by
    rw [Real.volume_Icc_pi]
    exact ENNReal.prod_ne_top fun i _ => ENNReal.ofReal_ne_top
  haveI : ∀ k, IsProbabilityMeasure (ProbabilityTheory.cond (volume : Measure (Fin (n k) → ℝ)) (Icc (lo k) (hi k))) :=
    fun k => ProbabilityTheory.cond_isProbabilityMeasure_of_finite (hpos k) (hfin k)
  have hI : Icc lo hi = pi univ fun k => Icc (lo k) (hi k) := (pi_univ_Icc lo hi).symm
  refine Measure.pi_eq fun s hs => ?_
  rw [ProbabilityTheory.cond_apply (by rw [hI]; exact MeasurableSet.univ_pi fun k => measurableSet_Icc)]
  simp_rw [ProbabilityTheory.cond_apply measurableSet_Icc]
  rw [hI, ← pi_inter_distrib, volume_pi, Measure.pi_pi, Measure.pi_pi, Finset.prod_mul_distrib, ENNReal.prod_inv_distrib]
  exact fun i _ j _ _ => Or.inr (hfin j)

/-- **C168**: if the laws of the factors have the densities `f k`, the parts of the rows have the product of the densities as joint density. -/
theorem product_density {K : ℕ} {n : Fin K → ℕ} {f : ∀ k, (Fin (n k) → ℝ) → ℝ} (h0 : ∀ k x, 0 ≤ f k x) (hint : ∀ k, Integrable (f k)) :
    (Measure.pi fun k => (volume : Measure (Fin (n k) → ℝ)).withDensity fun x => ENNReal.ofReal (f k x)) =
      (volume : Measure (∀ k, Fin (n k) → ℝ)).withDensity fun y => ENNReal.ofReal (∏ k, f k (y k)) := by
  haveI : ∀ k, IsFiniteMeasure ((volume : Measure (Fin (n k) → ℝ)).withDensity fun x => ENNReal.ofReal (f k x)) :=
    fun k => isFiniteMeasure_withDensity_ofReal (hint k).2
  refine Measure.pi_eq fun s hs => ?_
  rw [withDensity_apply _ (MeasurableSet.univ_pi hs), volume_pi, Measure.restrict_pi_pi]
  have hint' : ∀ k, Integrable (f k) (volume.restrict (s k)) := fun k => (hint k).integrableOn
  rw [← ofReal_integral_eq_lintegral_ofReal (Integrable.fintype_prod_dep hint') (Filter.Eventually.of_forall fun y => Finset.prod_nonneg fun k _ => h0 k _),
    integral_fintype_prod_eq_prod, ENNReal.ofReal_prod_of_nonneg fun k _ => integral_nonneg fun x => h0 k x]
  refine Finset.prod_congr rfl fun k _ => ?_
  rw [withDensity_apply _ (hs k), ← ofReal_integral_eq_lintegral_ofReal (hint' k) (Filter.Eventually.of_forall fun x => h0 k x)]

/-- **C168**: a product of bounded boxes with interior is sampled like the box of all the bounds: the rows are independent and uniform. -/
theorem boxes_law {K N : ℕ} (hK : 0 < K) (hN : 0 < N) {n : Fin K → ℕ} {lo hi : ∀ k, Fin (n k) → ℝ} (h : ∀ k i, lo k i < hi k i) (E : SampleEnv) (TOL : ℝ)
    (hE : ∀ k, E.empty (.box (finX (lo k)) (finX (hi k))) = none) :
    ∃ Y : (∀ k, Fin N → Fin (n k) → ℝ) → Fin N → ∀ k, Fin (n k) → ℝ,
      (∀ᵐ ω ∂(Measure.pi fun k => cubeLaw N (n k)),
        (Dom.tensor (List.ofFn fun k => .box (finX (lo k)) (finX (hi k)))).sample E TOL (factorRand (fun _ => randOf) ω) N = some (.ok (List.ofFn fun j => hcat (Y ω j)))) ∧
      Measure.map Y (Measure.pi fun k => cubeLaw N (n k)) = Measure.pi fun _ => ProbabilityTheory.cond volume (Icc lo hi) := by
  have hpos : ∀ k, (volume : Measure (Fin (n k) → ℝ)) (Icc (lo k) (hi k)) ≠ 0 := fun k => by
    rw [Real.volume_Icc_pi]
    exact Finset.prod_ne_zero_iff.2 fun i _ => by simpa using h k i
  have hfin : ∀ k, (volume : Measure (Fin (n k) → ℝ)) (Icc (lo k) (hi k)) ≠ ⊤ := fun k => by
    rw [Real.volume_Icc_pi]
    exact ENNReal.prod_ne_top fun i _ => ENNReal.ofReal_ne_top
  haveI : ∀ k, IsProbabilityMeasure (ProbabilityTheory.cond (volume : Measure (Fin (n k) → ℝ)) (Icc (lo k) (hi k))) :=
    fun k => ProbabilityTheory.cond_isProbabilityMeasure_of_finite (hpos k) (hfin k)
  rw [← boxes_uniform h]
  exact tensor_law hK hN (fun k => cubeLaw N (n k)) (fun _ => randOf) _ E TOL _ fun k => box_draws hN (h k) E TOL (hE k)

/-- The hypotheses of `boxes_law` are met: a square as a product of two intervals, three rows. -/
example : ∃ Y : (∀ k : Fin 2, Fin 3 → Fin 1 → ℝ) → Fin 3 → ∀ k : Fin 2, Fin 1 → ℝ,
    (∀ᵐ ω ∂(Measure.pi fun k : Fin 2 => cubeLaw 3 1),
      (Dom.tensor (List.ofFn fun _ : Fin 2 => .box (finX fun _ : Fin 1 => 0) (finX fun _ : Fin 1 => 1))).sample
        ⟨fun _ => [], fun _ => ⟨[], [], []⟩, fun _ _ => none, 0, fun _ => none⟩ 0 (factorRand (fun _ => randOf) ω) 3 = some (.ok (List.ofFn fun j => hcat (Y ω j)))) ∧
    Measure.map Y (Measure.pi fun k : Fin 2 => cubeLaw 3 1) =
      Measure.pi fun _ => ProbabilityTheory.cond volume (Icc (fun _ _ => 0) (fun _ _ => 1)) :=
  boxes_law (K := 2) (N := 3) (by norm_num) (by norm_num) (n := fun _ => 1) (lo := fun _ _ => 0) (hi := fun _ _ => 1) (fun _ _ => one_pos) _ 0 fun _ => rfl

/-! ## Products of design and random variables -/

/-- A factor with `n` variables: a bounded box with interior, a fixed point or a normal domain without truncation. -/
inductive Kind (n : ℕ)
  | box (lo hi : Fin n → ℝ)
  | point (x : Fin n → ℝ)
  | normal (D : NormalDist n) (Linv : List Vec)

namespace Kind

variable {n : ℕ}

/-- The domain. -/
noncomputable def base : Kind n → Base
  | .box lo hi => .box (finX lo) (finX hi)
  | .point x => .point (List.ofFn x)
  | .normal D Li => .normal (List.ofFn D.mean) Li none

/-- The law of a row of its samples: uniform, fixed, or with the density of the domain. -/
noncomputable def law (tol : ℝ) : Kind n → Measure (Fin n → ℝ)
  | .box lo hi => ProbabilityTheory.cond volume (Icc lo hi)
  | .point x => Measure.dirac x
  | .normal D _ => volume.withDensity fun x => ENNReal.ofReal (D.pdf tol x)

/-- The law of the random numbers it draws for `N` rows. -/
noncomputable def numbers (N : ℕ) : Kind n → Measure (Fin N → Fin n → ℝ)
  | .normal _ _ => Measure.pi fun _ : Fin N => (volume : Measure (Fin n → ℝ)).withDensity fun z => ENNReal.ofReal (stdPdf n z)
  | _ => cubeLaw N n

/-- These random numbers as the generator delivers them. -/
def rand {N : ℕ} : Kind n → (Fin N → Fin n → ℝ) → Rand
  | .normal _ _ => gaussOf
  | _ => randOf

/-- The factor is as described, and the environment knows no more about it than its constructor. -/
def Ok (E : SampleEnv) : Kind n → Prop
  | .box lo hi => (∀ i, lo i < hi i) ∧ E.empty (.box (finX lo) (finX hi)) = none
  | .point _ => True
  | .normal D Li => D.Ok ∧ D.trunc = none ∧ E.chol (.normal (List.ofFn D.mean) Li none) = List.ofFn fun i => List.ofFn (D.L i)

theorem law_prob {E : SampleEnv} (tol : ℝ) {F : Kind n} (h : F.Ok E) : IsProbabilityMeasure (F.law tol) := by
  cases F with
  | box lo hi =>
    refine ProbabilityTheory.cond_isProbabilityMeasure_of_finite ?_ ?_ <;> rw [Real.volume_Icc_pi]
    · exact Finset.prod_ne_zero_iff.2 fun i _ => by simpa using h.1 i
    · exact ENNReal.prod_ne_top fun i _ => ENNReal.ofReal_ne_top
  | point x => exact Measure.dirac.isProbabilityMeasure
  | normal D Li =>
    have hdraw : Measurable D.draw := by unfold NormalDist.draw; fun_prop
    show IsProbabilityMeasure (volume.withDensity fun x => ENNReal.ofReal (D.pdf tol x))
    rw [← normal_sample_law h.1 h.2.1 tol]
    haveI := stdNormal_prob n
    exact Measure.isProbabilityMeasure_map hdraw.aemeasurable

theorem numbers_prob (N : ℕ) (F : Kind n) : IsProbabilityMeasure (F.numbers N) := by
  cases F with
  | normal D Li =>
    haveI := stdNormal_prob n
    show IsProbabilityMeasure (Measure.pi _)
    infer_instance
  | _ => exact cubeLawProb N n

theorem draws {N : ℕ} (hN : 0 < N) {E : SampleEnv} (TOL tol : ℝ) {F : Kind n} (h : F.Ok E) : Draws E TOL N F.base F.rand (F.numbers N) (F.law tol) := by
  cases F with
  | box lo hi => exact box_draws hN h.1 E TOL h.2
  | point x => exact point_draws hN x E TOL _ (cubeLaw N n)
  | normal D Li => exact normal_draws hN h.1 h.2.1 E TOL tol Li h.2.2

end Kind

/-- **C168**: samples of products of boxes, points and normal domains: the rows are independent, the parts of a row are independent, and each has the law of its
factor. -/
theorem mixed_law {K N : ℕ} (hK : 0 < K) (hN : 0 < N) {n : Fin K → ℕ} {E : SampleEnv} (F : ∀ k, Kind (n k)) (h : ∀ k, (F k).Ok E) (TOL tol : ℝ) :
    ∃ Y : (∀ k, Fin N → Fin (n k) → ℝ) → Fin N → ∀ k, Fin (n k) → ℝ,
      (∀ᵐ ω ∂(Measure.pi fun k => (F k).numbers N),
        (Dom.tensor (List.ofFn fun k => (F k).base)).sample E TOL (factorRand (fun k => (F k).rand) ω) N = some (.ok (List.ofFn fun j => hcat (Y ω j)))) ∧
      Measure.map Y (Measure.pi fun k => (F k).numbers N) = Measure.pi fun _ => Measure.pi fun k => (F k).law tol := by
  haveI : ∀ k, IsProbabilityMeasure ((F k).law tol) := fun k => Kind.law_prob tol (h k)
  haveI : ∀ k, IsProbabilityMeasure ((F k).numbers N) := fun k => Kind.numbers_prob N (F k)
  exact tensor_law hK hN _ _ _ E TOL _ fun k => Kind.draws hN TOL tol (h k)

/-- The hypotheses of `mixed_law` are met: an interval, a normal variable with variance four and a point. -/
example : ∃ (E : SampleEnv) (F : Fin 3 → Kind 1), (∀ k, (F k).Ok E) ∧ F 0 = .box (fun _ => 0) (fun _ => 1) ∧ F 2 = .point (fun _ => 7) ∧
    ∃ D Li, F 1 = .normal D Li ∧ D.cov = !![4] := by
  refine ⟨⟨fun _ => [[2]], fun _ => ⟨[], [], []⟩, fun _ _ => none, 0, fun _ => none⟩,
    ![.box (fun _ => 0) (fun _ => 1), .normal ⟨fun _ => 3, !![4], !![2], !![1 / 2], none⟩ [[1 / 2]], .point fun _ => 7], ?_, rfl, rfl, _, _, rfl, rfl⟩
  intro k
  fin_cases k
  · exact ⟨fun _ => one_pos, rfl⟩
  · refine ⟨⟨?_, ?_, fun _ _ h => by cases h⟩, rfl, by simp⟩
    · ext i j; fin_cases i; fin_cases j; norm_num [Matrix.mul_apply]
    · ext i j; fin_cases i; fin_cases j; norm_num [Matrix.mul_apply]
  · trivial

end Verif.Geo
