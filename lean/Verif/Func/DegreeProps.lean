import Verif.Func.ApproxFit
import Mathlib.Topology.ContinuousMap.StoneWeierstrass
import Mathlib.Analysis.Normed.Module.FiniteDimension
import Mathlib.Algebra.MvPolynomial.Polynomial
import Mathlib.Data.Pi.Interval

/-!
# C159: polynomial fits of high degree

Fits of growing degree, fits with at least as many degrees as points, and convergence to continuous functions.
-/

namespace Verif.Func

open Verif.Domain Verif.Lip Verif.Basis Matrix

variable {M m : ℕ}

/-! ## Specification -/

/-- How far the fit is from the data, in the norm that is minimized. -/
noncomputable def misfit (p : PNorm) (X : Fin M → Pt m) (fX : Pt M) (g : Pt m → ℝ) : ℝ := pnorm p ((fun i => g (X i)) - fX)

/-- Every point of `K` has a sample within `δ`. -/
def FillsTo (K : Set (Pt m)) (X : Fin M → Pt m) (δ : ℝ) : Prop := ∀ x ∈ K, ∃ i, nrm (x - X i) ≤ δ

/-! ## Norms -/

theorem pnorm_le_const (p : PNorm) {r : Pt M} {e : ℝ} (he : 0 ≤ e) (h : ∀ i, |r i| ≤ e) : pnorm p r ≤ pnorm p (fun _ : Fin M => e) := by
  cases p with
  | one =>
    simp only [pnorm, abs_of_nonneg he]
    exact Finset.sum_le_sum fun i _ => h i
  | two =>
    simp only [pnorm, nrm]
    refine Real.sqrt_le_sqrt (Finset.sum_le_sum fun i _ => ?_)
    have := sq_le_sq' (by linarith [(abs_le.1 (h i)).1]) (abs_le.1 (h i)).2
    nlinarith
  | inf =>
    simp only [pnorm, abs_of_nonneg he]
    exact Real.iSup_le (fun i => by
      haveI : Nonempty (Fin M) := ⟨i⟩
      rw [ciSup_const]
      exact h i) (Real.iSup_nonneg fun _ => he)
  | other => simp [pnorm]

theorem pnorm_inf_const {e : ℝ} (he : 0 ≤ e) : pnorm .inf (fun _ : Fin M => e) ≤ e := by
  simp only [pnorm, abs_of_nonneg he]
  exact Real.iSup_le (fun _ => le_refl _) he

theorem le_pnorm_inf (r : Pt M) (i : Fin M) : |r i| ≤ pnorm .inf r := le_ciSup (f := fun i => |r i|) (Set.finite_range _).bddAbove i

/-! ## Nested degrees -/

/-- **C159**: a higher degree fits the data no worse, in the same norm and with the same bound, whichever bases are named. -/
theorem fit_degree_mono (S S' : FitSolver) (hS : S.Exact) (hS' : S'.Exact) (o o' : ApproxOpts) (hd : o.degree ≤ o'.degree) (hp : o'.norm = o.norm)
    (hb : o'.bound = o.bound) (hm : 1 ≤ m) {X : Fin M → Pt m} {fX : Pt M} {B c B' c'} (h : approxFit S o X fX = .ok (B, c))
    (h' : approxFit S' o' X fX = .ok (B', c')) : misfit o.norm X fX (polyEval B' c') ≤ misfit o.norm X fX (polyEval B c) := by
  obtain ⟨⟨q, hq, hqe⟩, h1, -⟩ := approxFit_best S hS o hm h
  obtain ⟨-, -, h2⟩ := approxFit_best S' hS' o' hm h'
  have hX : (fun i => polyEval B c (X i)) = fun i => MvPolynomial.eval (X i) q := funext fun i => hqe _
  have := h2 q (hq.trans hd) (by rw [hb, ← hX]; exact h1)
  rw [hp, ← hX] at this
  exact this

/-! ## Interpolation -/

open Classical in
/-- A polynomial through given points: degree one less than their number. -/
theorem exists_interpolant (P : Finset (Pt m)) (v : Pt m → ℝ) :
    ∃ q : MvPolynomial (Fin m) ℝ, q.totalDegree ≤ P.card - 1 ∧ ∀ x ∈ P, MvPolynomial.eval x q = v x := by
  have hk : ∀ x y : Pt m, ∃ k : Option (Fin m), x ≠ y → ∃ j, k = some j ∧ x j ≠ y j := by
    intro x y
    by_cases h : x = y
    · exact ⟨none, fun h' => absurd h h'⟩
    · obtain ⟨j, hj⟩ := Function.ne_iff.1 h
      exact ⟨some j, fun _ => ⟨j, rfl, hj⟩⟩
  choose k hk using hk
  let lin : Pt m → Pt m → MvPolynomial (Fin m) ℝ := fun x y => match k x y with
    | none => 1
    | some j => MvPolynomial.C (x j - y j)⁻¹ * (MvPolynomial.X j - MvPolynomial.C (y j))
  have hdeg : ∀ x y, (lin x y).totalDegree ≤ 1 := by
    intro x y
    simp only [lin]
    split
    · simp
    · refine (MvPolynomial.totalDegree_mul _ _).trans ?_
      rw [MvPolynomial.totalDegree_C, zero_add]
      refine (MvPolynomial.totalDegree_sub_C_le _ _).trans ?_
      rw [MvPolynomial.totalDegree_X]
  have hone : ∀ x y, x ≠ y → MvPolynomial.eval x (lin x y) = 1 := by
    intro x y h
    obtain ⟨j, h1, h2⟩ := hk x y h
    simp only [lin, h1, map_mul, map_sub, MvPolynomial.eval_C, MvPolynomial.eval_X]
    exact inv_mul_cancel₀ (sub_ne_zero.2 h2)
  have hzero : ∀ x y, x ≠ y → MvPolynomial.eval y (lin x y) = 0 := by
    intro x y h
    obtain ⟨j, h1, h2⟩ := hk x y h
    simp only [lin, h1, map_mul, map_sub, MvPolynomial.eval_C, MvPolynomial.eval_X, sub_self, mul_zero]
  refine ⟨∑ x ∈ P, MvPolynomial.C (v x) * ∏ y ∈ P.erase x, lin x y, ?_, fun z hz => ?_⟩
  · refine (MvPolynomial.totalDegree_finset_sum _ _).trans (Finset.sup_le fun x hx => ?_)
    refine (MvPolynomial.totalDegree_mul _ _).trans ?_
    rw [MvPolynomial.totalDegree_C, zero_add]
    refine (MvPolynomial.totalDegree_finsetProd _ _).trans ((Finset.sum_le_card_nsmul _ _ 1 fun y _ => hdeg x y).trans ?_)
    rw [Finset.card_erase_of_mem hx]; simp
  · rw [map_sum, Finset.sum_eq_single z]
    · rw [map_mul, MvPolynomial.eval_C, map_prod, Finset.prod_eq_one, mul_one]
      intro y hy
      exact hone z y (Ne.symm (Finset.ne_of_mem_erase hy))
    · intro x _ hxz
      rw [map_mul, map_prod, Finset.prod_eq_zero (i := z) (Finset.mem_erase.2 ⟨Ne.symm hxz, hz⟩) (hzero x z hxz), mul_zero]
    · exact fun h => absurd hz h

/-- **C159**: with a degree of at least the number of samples less one, a fit reproduces the data exactly, in every norm and with every bound, as long as equal
points have equal values. -/
theorem fit_interpolates (S : FitSolver) (hS : S.Exact) (o : ApproxOpts) (hm : 1 ≤ m) {X : Fin M → Pt m} {fX : Pt M} {B c}
    (h : approxFit S o X fX = .ok (B, c)) (hd : M ≤ o.degree + 1) (hf : ∀ i j, X i = X j → fX i = fX j) (i : Fin M) : polyEval B c (X i) = fX i := by
  classical
  obtain ⟨v, hv⟩ : ∃ v : Pt m → ℝ, ∀ i, v (X i) = fX i := by
    refine ⟨fun x => if hx : ∃ i, X i = x then fX hx.choose else 0, fun i => ?_⟩
    have hx : ∃ j, X j = X i := ⟨i, rfl⟩
    simp only [dif_pos hx]
    exact hf _ _ hx.choose_spec
  obtain ⟨q, hq, hqv⟩ := exists_interpolant (Finset.univ.image X) v
  refine (approxFit_recovers S hS o hm h (q := q) (hq.trans ?_) fun i => ?_).1 i
  · have := Finset.card_image_le (s := (Finset.univ : Finset (Fin M))) (f := X)
    rw [Finset.card_fin] at this
    omega
  · rw [hqv _ (Finset.mem_image_of_mem _ (Finset.mem_univ i)), hv]

theorem eval_diag (q : MvPolynomial (Fin m) ℝ) (t : ℝ) :
    (MvPolynomial.aeval (fun _ : Fin m => (Polynomial.X : Polynomial ℝ)) q).eval t = MvPolynomial.eval (fun _ => t) q := by
  induction q using MvPolynomial.induction_on with
  | C a => simp
  | add p q hp hq => simp [hp, hq]
  | mul_X p n hp => simp [hp]

/-- The degree cannot be smaller in general: for samples on a line there are values that no polynomial of smaller degree takes. -/
theorem interpolate_sharp (hM : 2 ≤ M) : ∃ (X : Fin M → Pt m) (fX : Pt M), (1 ≤ m → Function.Injective X) ∧
    ∀ q : MvPolynomial (Fin m) ℝ, q.totalDegree + 2 ≤ M → ¬ ∀ i, MvPolynomial.eval (X i) q = fX i := by
  refine ⟨fun i _ => ((i : ℕ) : ℝ), fun i => if (i : ℕ) + 1 = M then 1 else 0, fun h i j hij => ?_, fun q hq hall => ?_⟩
  · have := congrFun hij ⟨0, h⟩
    exact Fin.ext (Nat.cast_injective this)
  · let P : Polynomial ℝ := MvPolynomial.aeval (fun _ : Fin m => (Polynomial.X : Polynomial ℝ)) q
    have hev : ∀ t : ℝ, P.eval t = MvPolynomial.eval (fun _ => t) q := by
      intro t
      exact eval_diag q t
    have hdeg : P.natDegree ≤ q.totalDegree := by
      have := MvPolynomial.aeval_natDegree_le (n := 1) q le_rfl (fun _ : Fin m => (Polynomial.X : Polynomial ℝ)) (fun _ => Polynomial.natDegree_X_le)
      simpa using this
    have hP : P = 0 := by
      by_contra hne
      have hroots : (Finset.range (M - 1)).image (fun k : ℕ => (k : ℝ)) ⊆ P.roots.toFinset := by
        intro t ht
        obtain ⟨k, hk, rfl⟩ := Finset.mem_image.1 ht
        rw [Finset.mem_range] at hk
        rw [Multiset.mem_toFinset, Polynomial.mem_roots hne, Polynomial.IsRoot, hev]
        have := hall ⟨k, by omega⟩
        simp only at this
        rw [if_neg (by omega)] at this
        exact this
      have h1 := Finset.card_le_card hroots
      rw [Finset.card_image_of_injective _ Nat.cast_injective, Finset.card_range] at h1
      have h2 := (Multiset.toFinset_card_le P.roots).trans (Polynomial.card_roots' P)
      omega
    have := hall ⟨M - 1, by omega⟩
    simp only at this
    rw [if_pos (by omega), ← hev, hP] at this
    simp at this

/-! ## Continuous functions -/

/-- Polynomials as continuous functions on `K`. -/
noncomputable def polyOn (K : Set (Pt m)) : MvPolynomial (Fin m) ℝ →ₐ[ℝ] C(K, ℝ) :=
  MvPolynomial.aeval fun k => ⟨fun x => x.1 k, (continuous_apply k).comp continuous_subtype_val⟩

theorem polyOn_apply (K : Set (Pt m)) (q : MvPolynomial (Fin m) ℝ) (x : K) : polyOn K q x = MvPolynomial.eval x.1 q := by
  induction q using MvPolynomial.induction_on with
  | C a => simp [polyOn]
  | add p q hp hq => simp [hp, hq]
  | mul_X p n hp => rw [map_mul, ContinuousMap.mul_apply, hp, map_mul, MvPolynomial.eval_X]; simp [polyOn]

/-- Weierstrass: polynomials are dense in the continuous functions on a compact set. -/
theorem exists_poly_near {K : Set (Pt m)} (hK : IsCompact K) {f : Pt m → ℝ} (hf : ContinuousOn f K) {e : ℝ} (he : 0 < e) :
    ∃ q : MvPolynomial (Fin m) ℝ, ∀ x ∈ K, |MvPolynomial.eval x q - f x| ≤ e := by
  haveI : CompactSpace K := isCompact_iff_compactSpace.1 hK
  have hsep : (polyOn K).range.SeparatesPoints := by
    intro x y hxy
    obtain ⟨k, hk⟩ := Function.ne_iff.1 (fun h => hxy (Subtype.ext h) : x.1 ≠ y.1)
    refine ⟨_, ⟨polyOn K (MvPolynomial.X k), ⟨_, rfl⟩, rfl⟩, ?_⟩
    change polyOn K (MvPolynomial.X k) x ≠ polyOn K (MvPolynomial.X k) y
    rw [polyOn_apply, polyOn_apply, MvPolynomial.eval_X, MvPolynomial.eval_X]
    exact hk
  obtain ⟨⟨g, q, rfl⟩, hg⟩ := ContinuousMap.exists_mem_subalgebra_near_continuousMap_of_separatesPoints _ hsep ⟨K.restrict f, hf.restrict⟩ e he
  refine ⟨q, fun x hx => ?_⟩
  have := (ContinuousMap.norm_coe_le_norm _ (⟨x, hx⟩ : K)).trans hg.le
  have h2 : (polyOn K q - ⟨K.restrict f, hf.restrict⟩ : C(K, ℝ)) ⟨x, hx⟩ = MvPolynomial.eval x q - f x := by
    rw [ContinuousMap.sub_apply, polyOn_apply]; rfl
  change ‖(polyOn K q - ⟨K.restrict f, hf.restrict⟩ : C(K, ℝ)) ⟨x, hx⟩‖ ≤ e at this
  rw [h2] at this
  exact this

/-- A comparison polynomial that respects the bound, at twice the error. -/
theorem bound_shift (bound : Bound) {q : MvPolynomial (Fin m) ℝ} {d : ℕ} (hq : q.totalDegree ≤ d) {e : ℝ} {X : Fin M → Pt m} {fX : Pt M}
    (h : ∀ i, |MvPolynomial.eval (X i) q - fX i| ≤ e) (he : 0 ≤ e) : ∃ q' : MvPolynomial (Fin m) ℝ, q'.totalDegree ≤ d ∧
      RespectsBound bound (fun i => MvPolynomial.eval (X i) q') fX ∧ (∀ i, |MvPolynomial.eval (X i) q' - fX i| ≤ 2 * e) := by
  cases bound with
  | lower =>
    refine ⟨q - MvPolynomial.C e, (MvPolynomial.totalDegree_sub_C_le _ _).trans hq, fun i => ?_, fun i => ?_⟩
    · simp only [map_sub, MvPolynomial.eval_C]; linarith [(abs_le.1 (h i)).2]
    · simp only [map_sub, MvPolynomial.eval_C]; rw [abs_le]; constructor <;> linarith [(abs_le.1 (h i)).2, (abs_le.1 (h i)).1]
  | upper =>
    refine ⟨q - MvPolynomial.C (-e), (MvPolynomial.totalDegree_sub_C_le _ _).trans hq, fun i => ?_, fun i => ?_⟩
    · simp only [map_sub, MvPolynomial.eval_C]; linarith [(abs_le.1 (h i)).1]
    · simp only [map_sub, MvPolynomial.eval_C]; rw [abs_le]; constructor <;> linarith [(abs_le.1 (h i)).2, (abs_le.1 (h i)).1]
  | none => exact ⟨q, hq, trivial, fun i => (h i).trans (by linarith)⟩
  | other => exact ⟨q, hq, trivial, fun i => (h i).trans (by linarith)⟩

/-- The misfit is at most what an error of `2 e` at every sample gives, if some polynomial of the degree is within `e` of the data. -/
theorem misfit_le (S : FitSolver) (hS : S.Exact) (o : ApproxOpts) (hm : 1 ≤ m) {X : Fin M → Pt m} {fX : Pt M} {B c}
    (h : approxFit S o X fX = .ok (B, c)) {q : MvPolynomial (Fin m) ℝ} (hq : q.totalDegree ≤ o.degree) {e : ℝ} (he : 0 ≤ e)
    (hqe : ∀ i, |MvPolynomial.eval (X i) q - fX i| ≤ e) : misfit o.norm X fX (polyEval B c) ≤ pnorm o.norm (fun _ : Fin M => 2 * e) := by
  obtain ⟨q', h1, h2, h3⟩ := bound_shift o.bound hq hqe he
  exact ((approxFit_best S hS o hm h).2.2 q' h1 h2).trans (pnorm_le_const _ (by linarith) h3)

/-- **C159**: samples of a continuous function on a compact set are matched as closely as desired from some degree on, uniformly over all sets of samples: the misfit
is no larger than that of an error `e` at every sample. -/
theorem fit_near {K : Set (Pt m)} (hK : IsCompact K) (hm : 1 ≤ m) {f : Pt m → ℝ} (hf : ContinuousOn f K) {e : ℝ} (he : 0 < e) :
    ∃ d₀ : ℕ, ∀ (S : FitSolver), S.Exact → ∀ o : ApproxOpts, d₀ ≤ o.degree → ∀ (M : ℕ) (X : Fin M → Pt m), (∀ i, X i ∈ K) → ∀ B c,
      approxFit S o X (fun i => f (X i)) = .ok (B, c) → misfit o.norm X (fun i => f (X i)) (polyEval B c) ≤ pnorm o.norm (fun _ : Fin M => e) := by
  obtain ⟨q, hq⟩ := exists_poly_near hK hf (half_pos he)
  refine ⟨q.totalDegree, fun S hS o ho M X hX B c h => ?_⟩
  have := misfit_le S hS o hm h ho (half_pos he).le fun i => hq _ (hX i)
  rwa [mul_div_cancel₀ _ (two_ne_zero' ℝ)] at this

/-! ## Between the samples -/

theorem dist_le_nrm (x y : Pt m) : dist x y ≤ nrm (x - y) := by
  refine (dist_pi_le_iff (nrm_nonneg _)).2 fun k => ?_
  rw [Real.dist_eq]
  refine Real.le_sqrt_of_sq_le ?_
  rw [sq_abs, pow_two]
  exact Finset.single_le_sum (f := fun k => (x - y) k * (x - y) k) (fun i _ => mul_self_nonneg _) (Finset.mem_univ k)

/-- Samples that are dense enough bound the polynomials of a degree on the whole set, up to a factor of two. -/
theorem sampling_inequality {K : Set (Pt m)} (hK : IsCompact K) (d : ℕ) : ∃ δ > 0, ∀ (M : ℕ) (X : Fin M → Pt m), (∀ i, X i ∈ K) → FillsTo K X δ →
    ∀ q : MvPolynomial (Fin m) ℝ, q.totalDegree ≤ d → ∀ b, (∀ i, |MvPolynomial.eval (X i) q| ≤ b) → ∀ x ∈ K, |MvPolynomial.eval x q| ≤ 2 * b := by
  haveI : CompactSpace K := isCompact_iff_compactSpace.1 hK
  let G : Set C(K, ℝ) := (fun s : Fin m →₀ ℕ => polyOn K (MvPolynomial.monomial s 1)) '' {s | (s.sum fun _ n => n) ≤ d}
  have hfin : {s : Fin m →₀ ℕ | (s.sum fun _ n => n) ≤ d}.Finite := by
    refine (Set.Finite.preimage (f := fun s : Fin m →₀ ℕ => (s : Fin m → ℕ)) (DFunLike.coe_injective.injOn) (Set.finite_Icc (fun _ : Fin m => 0) (fun _ : Fin m => d))).subset fun s hs => ⟨fun _ => Nat.zero_le _, fun k => ?_⟩
    have h1 : s k ≤ ∑ i, s i := Finset.single_le_sum (f := fun i => s i) (fun _ _ => Nat.zero_le _) (Finset.mem_univ k)
    have h2 : (s.sum fun _ n => n) = ∑ i, s i := Finsupp.sum_fintype _ _ (fun _ => rfl)
    have h3 : (s.sum fun _ n => n) ≤ d := hs
    rw [h2] at h3
    exact h1.trans h3
  obtain ⟨V, hV⟩ : ∃ V : Submodule ℝ C(K, ℝ), V = Submodule.span ℝ G := ⟨_, rfl⟩
  haveI : FiniteDimensional ℝ V := by rw [hV]; exact FiniteDimensional.span_of_finite ℝ (hfin.image _)
  have hmem : ∀ q : MvPolynomial (Fin m) ℝ, q.totalDegree ≤ d → polyOn K q ∈ V := by
    intro q hq
    rw [hV, q.as_sum, map_sum]
    refine Submodule.sum_mem _ fun s hs => ?_
    have : MvPolynomial.monomial s (q.coeff s) = q.coeff s • MvPolynomial.monomial s (1 : ℝ) := by rw [MvPolynomial.smul_monomial]; simp
    rw [this, map_smul]
    exact Submodule.smul_mem _ _ (Submodule.subset_span ⟨s, (MvPolynomial.le_totalDegree hs).trans hq, rfl⟩)
  haveI : ProperSpace V := FiniteDimensional.proper ℝ V
  obtain ⟨T, -, hTfin, hT⟩ := (isCompact_closedBall (0 : V) 1).finite_cover_balls (show (0 : ℝ) < 1 / 8 by norm_num)
  have huc : ∀ v : V, ∃ δ > 0, ∀ x y : K, dist x y < δ → dist (v.1 x) (v.1 y) < 1 / 8 := fun v =>
    Metric.uniformContinuous_iff.1 (CompactSpace.uniformContinuous_of_continuous v.1.continuous) _ (by norm_num)
  choose δ hδ0 hδ using huc
  obtain ⟨δ₀, h0, hle⟩ : ∃ δ₀ > 0, ∀ v ∈ T, δ₀ ≤ δ v := by
    rcases T.eq_empty_or_nonempty with rfl | hne
    · exact ⟨1, one_pos, fun v hv => absurd hv (Set.notMem_empty v)⟩
    · obtain ⟨v, hv, hmin⟩ := Set.exists_min_image T δ hTfin hne
      exact ⟨δ v, hδ0 v, fun w hw => hmin w hw⟩
  refine ⟨δ₀ / 2, half_pos h0, fun M X hX hfill q hq b hb x hx => ?_⟩
  have hequi : ∀ v : V, ‖v.1‖ ≤ 1 → ∀ x y : K, dist x y < δ₀ → |v.1 x - v.1 y| ≤ 1 / 2 := by
    intro v hv x y hxy
    obtain ⟨w, hw, hvw⟩ := Set.mem_iUnion₂.1 (hT (show v ∈ Metric.closedBall (0 : V) 1 by rw [Metric.mem_closedBall, Subtype.dist_eq, dist_eq_norm]; simpa using hv))
    have h1 : ∀ z : K, |v.1 z - w.1 z| ≤ 1 / 8 := by
      intro z
      have h2 : ‖(v.1 - w.1) z‖ ≤ ‖v.1 - w.1‖ := ContinuousMap.norm_coe_le_norm _ z
      have h3 : ‖v.1 - w.1‖ < 1 / 8 := by rw [← dist_eq_norm, ← Subtype.dist_eq]; exact hvw
      exact (h2.trans h3.le)
    have h4 := hδ w x y (hxy.trans_le (hle w hw))
    rw [Real.dist_eq] at h4
    have a1 := abs_le.1 (h1 x)
    have a2 := abs_le.1 (h1 y)
    have a3 := abs_lt.1 h4
    rw [abs_le]
    constructor <;> linarith
  -- the largest value of the polynomial
  set v : C(K, ℝ) := polyOn K q with hvdef
  have hxv : |MvPolynomial.eval x q| ≤ ‖v‖ := by
    have := ContinuousMap.norm_coe_le_norm v (⟨x, hx⟩ : K)
    rwa [hvdef, polyOn_apply] at this
  have hb0 : 0 ≤ b := by
    obtain ⟨i, -⟩ := hfill x hx
    exact (abs_nonneg _).trans (hb i)
  suffices h : ‖v‖ ≤ 2 * b from hxv.trans h
  by_cases hv : ‖v‖ = 0
  · rw [hv]; linarith
  have hvpos : 0 < ‖v‖ := lt_of_le_of_ne (norm_nonneg _) (Ne.symm hv)
  have key : ∀ z : K, |v z| ≤ b + ‖v‖ / 2 := by
    intro z
    obtain ⟨i, hi⟩ := hfill z.1 z.2
    have hd : dist z (⟨X i, hX i⟩ : K) < δ₀ := lt_of_le_of_lt ((dist_le_nrm z.1 (X i)).trans hi) (by linarith)
    have h5 := hequi ⟨‖v‖⁻¹ • v, V.smul_mem _ (hmem q hq)⟩ (by change ‖‖v‖⁻¹ • v‖ ≤ 1; rw [norm_smul, norm_inv, norm_norm, inv_mul_cancel₀ hv]) z ⟨X i, hX i⟩ hd
    have h6 : (‖v‖⁻¹ • v) z - (‖v‖⁻¹ • v) ⟨X i, hX i⟩ = ‖v‖⁻¹ * (v z - v ⟨X i, hX i⟩) := by
      change ‖v‖⁻¹ * v z - ‖v‖⁻¹ * v ⟨X i, hX i⟩ = _
      ring
    simp only at h5
    rw [h6, abs_mul, abs_of_pos (inv_pos.2 hvpos), inv_mul_le_iff₀ hvpos] at h5
    have h7 := hb i
    rw [← polyOn_apply K q ⟨X i, hX i⟩, ← hvdef] at h7
    have a1 := abs_le.1 h5
    have a2 := abs_le.1 h7
    rw [abs_le]
    constructor <;> linarith
  have h8 : ‖v‖ ≤ b + ‖v‖ / 2 := (ContinuousMap.norm_le _ (by positivity)).2 key
  linarith

/-- **C159**: the error between the samples of a fit in the maximum norm, in terms of the best polynomial and the constant with which the samples control
polynomials of the degree. -/
theorem fit_lebesgue (S : FitSolver) (hS : S.Exact) (o : ApproxOpts) (ho : o.norm = .inf) (hm : 1 ≤ m) {K : Set (Pt m)} {X : Fin M → Pt m} (hX : ∀ i, X i ∈ K)
    {f : Pt m → ℝ} {B c} (h : approxFit S o X (fun i => f (X i)) = .ok (B, c)) {Λ : ℝ}
    (hΛ : ∀ q : MvPolynomial (Fin m) ℝ, q.totalDegree ≤ o.degree → ∀ b, (∀ i, |MvPolynomial.eval (X i) q| ≤ b) → ∀ x ∈ K, |MvPolynomial.eval x q| ≤ Λ * b)
    {q : MvPolynomial (Fin m) ℝ} (hq : q.totalDegree ≤ o.degree) {e : ℝ} (he : 0 ≤ e) (hqe : ∀ x ∈ K, |MvPolynomial.eval x q - f x| ≤ e) :
    ∀ x ∈ K, |polyEval B c x - f x| ≤ (1 + 3 * Λ) * e := by
  intro x hx
  have h1 := misfit_le S hS o hm h hq he fun i => hqe _ (hX i)
  rw [ho] at h1
  have h2 : ∀ i, |polyEval B c (X i) - f (X i)| ≤ 2 * e := fun i =>
    (le_pnorm_inf ((fun i => polyEval B c (X i)) - fun i => f (X i)) i).trans (h1.trans (pnorm_inf_const (by linarith)))
  obtain ⟨⟨g, hg, hge⟩, -⟩ := approxFit_best S hS o hm h
  have h3 := hΛ (g - q) ((MvPolynomial.totalDegree_sub _ _).trans (max_le hg hq)) (3 * e) (fun i => by
    rw [map_sub, ← hge]
    have a1 := abs_le.1 (h2 i)
    have a2 := abs_le.1 (hqe _ (hX i))
    rw [abs_le]; constructor <;> linarith) x hx
  rw [map_sub, ← hge] at h3
  have a1 := abs_le.1 h3
  have a2 := abs_le.1 (hqe x hx)
  rw [abs_le]
  constructor <;> linarith

/-- **C159**: fits in the maximum norm converge: for a continuous function on a compact set and any accuracy, every sufficiently large degree has a density such that
all fits to samples of at least this density are within the accuracy on the whole set. -/
theorem fit_converges {K : Set (Pt m)} (hK : IsCompact K) (hm : 1 ≤ m) {f : Pt m → ℝ} (hf : ContinuousOn f K) {e : ℝ} (he : 0 < e) :
    ∃ d₀ : ℕ, ∀ d ≥ d₀, ∃ δ > 0, ∀ (S : FitSolver), S.Exact → ∀ o : ApproxOpts, o.degree = d → o.norm = .inf → ∀ (M : ℕ) (X : Fin M → Pt m), (∀ i, X i ∈ K) →
      FillsTo K X δ → ∀ B c, approxFit S o X (fun i => f (X i)) = .ok (B, c) → ∀ x ∈ K, |polyEval B c x - f x| ≤ e := by
  have he7 : 0 < e / 7 := by positivity
  obtain ⟨q, hq⟩ := exists_poly_near hK hf he7
  refine ⟨q.totalDegree, fun d hd => ?_⟩
  obtain ⟨δ, h0, hδ⟩ := sampling_inequality hK d
  refine ⟨δ, h0, fun S hS o ho hn M X hX hfill B c h x hx => ?_⟩
  have := fit_lebesgue S hS o hn hm hX h (Λ := 2) (fun q' hq' b hb => hδ M X hX hfill q' (ho ▸ hq') b hb) (by rw [ho]; exact hd) he7.le hq x hx
  linarith

/-! ## Examples -/

/-- Legendre fits of `|x|` in the maximum norm on equidistant points of `[-1, 1]` come arbitrarily close on the whole interval. -/
example (e : ℝ) (he : 0 < e) : ∃ (o : ApproxOpts) (M : ℕ) (X : Fin M → Pt 1) (B : _) (c : _), o.basis = .legendre ∧
    approxFit idealSolver o X (fun i => |X i 0|) = .ok (B, c) ∧ ∀ x : Pt 1, x 0 ∈ Set.Icc (-1 : ℝ) 1 → |polyEval B c x - abs (x 0)| ≤ e := by
  let K : Set (Pt 1) := Set.Icc (fun _ => -1) (fun _ => 1)
  have hK : IsCompact K := isCompact_Icc
  have hmem : ∀ x : Pt 1, x ∈ K ↔ x 0 ∈ Set.Icc (-1 : ℝ) 1 := by
    intro x
    simp [K, Pi.le_def]
  have hf : ContinuousOn (fun x : Pt 1 => |x 0|) K := (continuous_abs.comp (continuous_apply 0)).continuousOn
  obtain ⟨d, hd⟩ := fit_converges hK le_rfl hf he
  obtain ⟨δ, h0, hδ⟩ := hd d le_rfl
  obtain ⟨n, hn⟩ := exists_nat_gt (2 / δ)
  have hn0 : (0 : ℝ) < n := lt_trans (by positivity) hn
  let X : Fin (n + 1) → Pt 1 := fun i _ => -1 + 2 * (i : ℕ) / n
  have hX : ∀ i, X i ∈ K := by
    intro i
    rw [hmem]
    have h1 : ((i : ℕ) : ℝ) ≤ n := by exact_mod_cast Nat.lt_succ_iff.1 i.2
    constructor
    · have : 0 ≤ 2 * ((i : ℕ) : ℝ) / n := by positivity
      simp only [X]; linarith
    · have : 2 * ((i : ℕ) : ℝ) / n ≤ 2 := by rw [div_le_iff₀ hn0]; linarith
      simp only [X]; linarith
  have hfill : FillsTo K X δ := by
    intro x hx
    rw [hmem] at hx
    obtain ⟨hx1, hx2⟩ := hx
    have hy0 : 0 ≤ (x 0 + 1) * n / 2 := by have := hn0.le; have : 0 ≤ x 0 + 1 := by linarith
                                           positivity
    have hfl := Nat.floor_le hy0
    have hfl2 := Nat.lt_floor_add_one ((x 0 + 1) * n / 2)
    have hle : ⌊(x 0 + 1) * n / 2⌋₊ ≤ n := by
      have : (⌊(x 0 + 1) * n / 2⌋₊ : ℝ) ≤ n := hfl.trans (by nlinarith)
      exact_mod_cast this
    refine ⟨⟨⌊(x 0 + 1) * n / 2⌋₊, Nat.lt_succ_of_le hle⟩, ?_⟩
    have hnrm : ∀ z : Pt 1, nrm z = |z 0| := by
      intro z
      rw [nrm, dotProduct, Fin.sum_univ_one, Real.sqrt_mul_self_eq_abs]
    rw [hnrm, Pi.sub_apply]
    simp only [X]
    have h3 : 2 < δ * n := by rwa [div_lt_iff₀' h0] at hn
    have h4 : 2 * (⌊(x 0 + 1) * n / 2⌋₊ : ℝ) / n ≤ x 0 + 1 := by rw [div_le_iff₀ hn0]; linarith
    have h5 : x 0 + 1 - δ ≤ 2 * (⌊(x 0 + 1) * n / 2⌋₊ : ℝ) / n := by rw [le_div_iff₀ hn0]; linarith
    rw [abs_le]
    constructor <;> linarith
  have ho : approxInit (d : ℝ) "legendre" .infinity none = .ok ⟨d, .legendre, .inf, .none⟩ := by
    rw [approxInit_ok_iff]
    exact ⟨by have : (0 : ℝ) ≤ d := Nat.cast_nonneg d
              linarith, (by decide : parseBasis "legendre" = some .legendre), rfl, rfl, by simp⟩
  obtain ⟨⟨B, c⟩, h⟩ := (approxFit_ok_iff idealSolver idealSolver_answers ho le_rfl X (fun i => |X i 0|)).2 (by
    rw [if_neg (by simp)]
    intro k
    refine ⟨⟨0, Nat.succ_pos n⟩, ⟨n, Nat.lt_succ_self n⟩, ?_⟩
    simp only [X]
    rw [mul_div_assoc 2 (n : ℝ), div_self hn0.ne']
    norm_num)
  exact ⟨⟨d, .legendre, .inf, .none⟩, n + 1, X, B, c, rfl, h, fun x hx =>
    hδ idealSolver idealSolver_exact ⟨d, .legendre, .inf, .none⟩ rfl rfl (n + 1) X hX hfill B c h x ((hmem x).2 hx)⟩

/-- A cubic from below through four points of the line takes arbitrary values there. -/
example (fX : Pt 4) : ∃ B c, approxFit idealSolver ⟨3, .monomial, .one, .lower⟩ (fun i : Fin 4 => fun _ : Fin 1 => (i : ℝ)) fX = .ok (B, c) ∧
    ∀ i : Fin 4, polyEval B c (fun _ => (i : ℝ)) = fX i := by
  have ho : approxInit 3 "monomial" (.num 1) (some "lower") = .ok ⟨3, .monomial, .one, .lower⟩ := by
    rw [approxInit_ok_iff]
    exact ⟨by norm_num, by decide, by simp [parseNorm], rfl, by norm_num⟩
  obtain ⟨⟨B, c⟩, h⟩ := (approxFit_ok_iff idealSolver idealSolver_answers ho le_rfl (fun i : Fin 4 => fun _ : Fin 1 => (i : ℝ)) fX).2 (by
    rw [if_neg (by simp)]
    exact fun k => ⟨0, 1, by simp⟩)
  refine ⟨B, c, h, fun i => fit_interpolates idealSolver idealSolver_exact _ le_rfl h (by norm_num) (fun i j hij => ?_) i⟩
  have : ((i : ℕ) : ℝ) = (j : ℕ) := congrFun hij 0
  rw [Fin.ext (Nat.cast_injective this)]

end Verif.Func
