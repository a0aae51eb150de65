import Verif.Func.FitLimit
import Verif.Func.AffineProps
import Verif.Func.RecoverProps

/-!
# C189: the direction of an affine ridge fit is consistent

`PolynomialRidgeApproximation(1, 1, norm = 2).fit(X, fX)` (`_fit_affine`, polyridge.py 364-394; model in `Func/PolyModel`) on independent samples `(x, y)` of any distribution: with
growing numbers of samples a direction is returned, and it converges, sign included, to the normalized slope of the affine function that is best in the mean square.
-/

namespace Verif.Func

open Verif.Domain Verif.Lip Verif.Basis Matrix MeasureTheory Filter Topology

variable {m d M : ℕ} {Ω : Type*} [MeasurableSpace Ω] {μ : Measure Ω} {Z : ℕ → Ω → Pt (m + 1)} {P : Measure (Pt (m + 1))}

/-- Least squares polynomials of random samples, however they are computed, converge to the best polynomial in the mean square. -/
theorem best_consistent (h : Misc.Iid μ Z P) (hP : Moments P d) {q : MvPolynomial (Fin m) ℝ} (hq : BestMean P d q) :
    ∀ᵐ ω ∂μ, ∀ g : ℕ → Pt m → ℝ, (∀ᶠ N in atTop, BestPoly .two .none d (fun i : Fin N => inp (Z i ω)) (fun i => out (Z i ω)) (g N)) →
      ∀ x, Tendsto (fun N => g N x) atTop (𝓝 (MvPolynomial.eval x q)) := by
  have hres : ∀ k, ∫ z, (out z - MvPolynomial.eval (inp z) q) * MvPolynomial.eval (inp z) (pol m d k) ∂P = 0 := by
    intro k
    have h1 := (bestMean_iff hP hq.1).1 hq _ (pol_deg k)
    have e : ∀ z : Pt (m + 1), (out z - MvPolynomial.eval (inp z) q) * MvPolynomial.eval (inp z) (pol m d k) =
        -((MvPolynomial.eval (inp z) q - out z) * MvPolynomial.eval (inp z) (pol m d k)) := fun z => by ring
    simp only [e]
    rw [integral_neg, h1, neg_zero]
  have hmean : ∀ᵐ ω ∂μ, ∀ k, Tendsto (fun N : ℕ => (∑ i ∈ Finset.range N, (out (Z i ω) - MvPolynomial.eval (inp (Z i ω)) q) *
      MvPolynomial.eval (inp (Z i ω)) (pol m d k)) / N) atTop (𝓝 0) := by
    rw [ae_all_iff]; intro k
    have := Misc.mean_limit h (φ := fun z => (out z - MvPolynomial.eval (inp z) q) * MvPolynomial.eval (inp z) (pol m d k))
      ((out_meas.sub (inp_meas q)).mul (inp_meas _)) ((hP.l2out.sub (hP.l2 hq.1)).integrable_mul (hP.l2 (pol_deg k)))
    rw [hres] at this
    exact this
  filter_upwards [gramN_limit h hP, hmean] with ω hG hh g hg x
  have hpoly : ∀ N, ∃ a : Fin (Module.finrank ℝ (MvPolynomial.restrictTotalDegree (Fin m) ℝ d)) → ℝ,
      BestPoly .two .none d (fun i : Fin N => inp (Z i ω)) (fun i => out (Z i ω)) (g N) →
        (∀ x, g N x = MvPolynomial.eval x q + MvPolynomial.eval x (polOf a)) ∧
        gramN d (fun i => Z i ω) N *ᵥ a = fun k => (∑ i ∈ Finset.range N, (out (Z i ω) - MvPolynomial.eval (inp (Z i ω)) q) *
          MvPolynomial.eval (inp (Z i ω)) (pol m d k)) / N := by
    intro N
    by_cases hbest : BestPoly .two .none d (fun i : Fin N => inp (Z i ω)) (fun i => out (Z i ω)) (g N)
    · obtain ⟨qN, hqN, hval⟩ := hbest.1
      obtain ⟨a, ha⟩ := exists_polOf (deg_comb hqN hq.1 (-1))
      have hev : ∀ x, g N x = MvPolynomial.eval x q + MvPolynomial.eval x (polOf a) := by
        intro x
        rw [hval x, ← ha, map_add, MvPolynomial.smul_eval]
        ring
      refine ⟨a, fun _ => ⟨hev, funext fun k => ?_⟩⟩
      rw [gramN_mulVec]
      congr 1
      have hno := fit_normal hbest (pol_deg k)
      simp only [hev] at hno
      rw [Finset.sum_range, Finset.sum_range, ← sub_eq_zero, ← Finset.sum_sub_distrib, ← hno]
      exact Finset.sum_congr rfl fun i _ => by ring
    · exact ⟨0, fun h' => absurd h' hbest⟩
  choose a ha using hpoly
  have hlim : Tendsto a atTop (𝓝 0) := by
    refine solve_limit hG (gramP_det hP) hh ?_
    filter_upwards [hg] with N hN
    exact (ha N hN).2
  have hval : Tendsto (fun N => MvPolynomial.eval x q + ∑ k, a N k * MvPolynomial.eval x (pol m d k)) atTop
      (𝓝 (MvPolynomial.eval x q + ∑ k, (0 : Fin (Module.finrank ℝ (MvPolynomial.restrictTotalDegree (Fin m) ℝ d)) → ℝ) k * MvPolynomial.eval x (pol m d k))) :=
    (tendsto_finset_sum _ fun k _ => ((tendsto_pi_nhds.1 hlim k).mul_const _)).const_add _
  simp only [Pi.zero_apply, zero_mul, Finset.sum_const_zero, add_zero] at hval
  refine hval.congr' ?_
  filter_upwards [hg] with N hN
  rw [(ha N hN).1 x, eval_polOf]

/-! ## Affine functions -/

/-- Polynomials of degree at most one are affine functions. -/
theorem deg_one_affine {q : MvPolynomial (Fin m) ℝ} (hq : q.totalDegree ≤ 1) : ∃ (a : Pt m) (b : ℝ), ∀ x, MvPolynomial.eval x q = a ⬝ᵥ x + b := by
  have key : ∀ s ⊆ q.support, ∃ (a : Pt m) (b : ℝ), ∀ x : Pt m, ∑ e ∈ s, q.coeff e * ∏ i ∈ e.support, x i ^ e i = a ⬝ᵥ x + b := by
    intro s
    induction s using Finset.induction_on with
    | empty => exact fun _ => ⟨0, 0, fun x => by simp⟩
    | insert e s hes ih =>
      intro hs
      obtain ⟨a, b, hab⟩ := ih ((Finset.subset_insert _ _).trans hs)
      have hle : (e.sum fun _ n => n) ≤ 1 := (MvPolynomial.le_totalDegree (hs (Finset.mem_insert_self _ _))).trans hq
      by_cases h0 : e = 0
      · refine ⟨a, b + q.coeff e, fun x => ?_⟩
        rw [Finset.sum_insert hes, hab, h0]
        simp; ring
      · obtain ⟨i, hi⟩ := Finsupp.ne_iff.1 h0
        rw [Finsupp.coe_zero, Pi.zero_apply] at hi
        have hsum : ∑ j, e j ≤ 1 := by rwa [Finsupp.sum_fintype _ _ (fun _ => rfl)] at hle
        have he : e = Finsupp.single i 1 := by
          ext j
          by_cases hj : j = i
          · subst hj
            have := Finset.single_le_sum (f := fun j => e j) (fun _ _ => Nat.zero_le _) (Finset.mem_univ j)
            simp only [Finsupp.single_eq_same]
            omega
          · have h2 : e i + e j ≤ ∑ j, e j := by
              rw [← Finset.sum_pair (f := fun j => e j) (Ne.symm hj)]
              exact Finset.sum_le_sum_of_subset (Finset.subset_univ _)
            rw [Finsupp.single_apply, if_neg (Ne.symm hj)]
            omega
        refine ⟨a + Pi.single i (q.coeff e), b, fun x => ?_⟩
        rw [Finset.sum_insert hes, hab, add_dotProduct, single_dotProduct]
        have : ∏ j ∈ e.support, x j ^ e j = x i := by
          rw [he, Finsupp.support_single_ne_zero _ one_ne_zero, Finset.prod_singleton, Finsupp.single_eq_same, pow_one]
        rw [this]; ring
  obtain ⟨a, b, hab⟩ := key q.support subset_rfl
  exact ⟨a, b, fun x => by rw [MvPolynomial.eval_eq]; exact hab x⟩

theorem affine_deg_one (a : Pt m) (b : ℝ) : ∃ q : MvPolynomial (Fin m) ℝ, q.totalDegree ≤ 1 ∧ ∀ x, a ⬝ᵥ x + b = MvPolynomial.eval x q := by
  refine ⟨∑ k, MvPolynomial.C (a k) * MvPolynomial.X k + MvPolynomial.C b, ?_, fun x => by simp [dotProduct]⟩
  refine (MvPolynomial.totalDegree_add _ _).trans (max_le ?_ (by simp))
  refine MvPolynomial.totalDegree_finsetSum_le fun k _ => ((MvPolynomial.totalDegree_mul _ _).trans ?_)
  rw [MvPolynomial.totalDegree_C, zero_add, MvPolynomial.totalDegree_X]

/-- The affine function of a solution of the normalized problem is best for the data. -/
theorem affSolve_best {S : FitSolver} (hS : S.Exact) {p : PNorm} {X : Fin M → Pt m} {fX : Pt M} (hr : supOf fX ≠ infOf fX) {β : Pt (m + 1)}
    (hβ : affSolve S p .none X fX = .ok β) :
    ∃ b, BestPoly p .none 1 X fX fun x => ((supOf fX - infOf fX) • fun k => affSlope X k * β k.castSucc) ⬝ᵥ x + b := by
  have hpos := range_pos hr
  set r := supOf fX - infOf fX with hrd
  have hβo : ∀ β', pnorm p (affDesign X *ᵥ β - affRhs fX) ≤ pnorm p (affDesign X *ᵥ β' - affRhs fX) := by
    have : ofSolver (S.free p (affDesign X) (affRhs fX)) = .ok β := by
      cases p <;> first | exact hβ | cases hβ
    exact hS.free p _ _ β (ofSolver_ok this)
  have hscale : ∀ β', (fun i => r * (affDesign X *ᵥ β') i + infOf fX) - fX = r • (affDesign X *ᵥ β' - affRhs fX) := by
    intro β'
    ext i
    simp only [Pi.sub_apply, Pi.smul_apply, smul_eq_mul, affRhs]
    rw [← hrd]
    field_simp
    ring
  refine ⟨r * (β (Fin.last m) - ∑ k, affSlope X k * β k.castSucc * affMid X k) + infOf fX, affine_deg_one _ _, trivial, fun q hq _ => ?_⟩
  obtain ⟨a, b, hab⟩ := deg_one_affine hq
  obtain ⟨β', hβ'⟩ := affDesign_surj X hpos.ne' (infOf fX) a b
  have e1 : (fun i => (r • fun k => affSlope X k * β k.castSucc) ⬝ᵥ X i + (r * (β (Fin.last m) - ∑ k, affSlope X k * β k.castSucc * affMid X k) + infOf fX)) =
      fun i => r * (affDesign X *ᵥ β) i + infOf fX := by
    funext i
    rw [affDesign_mulVec, smul_dotProduct, smul_eq_mul]
    simp only [dotProduct]
    ring
  have e2 : (fun i => MvPolynomial.eval (X i) q) = fun i => r * (affDesign X *ᵥ β') i + infOf fX := by
    funext i
    rw [hab, hβ']
  rw [e1, e2, hscale, hscale, pnorm_smul p hpos.le, pnorm_smul p hpos.le]
  exact mul_le_mul_of_nonneg_left (hβo β') hpos.le

/-- Constant data are fitted exactly. -/
theorem const_best {X : Fin M → Pt m} {fX : Pt M} (hr : supOf fX = infOf fX) : BestPoly .two .none 1 X fX fun x => (0 : Pt m) ⬝ᵥ x + infOf fX := by
  refine ⟨affine_deg_one _ _, trivial, fun q _ _ => ?_⟩
  have : (fun i => (0 : Pt m) ⬝ᵥ X i + infOf fX) - fX = 0 := by
    funext i
    have h1 : infOf fX ≤ fX i := ciInf_le (Set.finite_range fX).bddBelow i
    have h2 : fX i ≤ supOf fX := le_ciSup (Set.finite_range fX).bddAbove i
    simp only [Pi.sub_apply, zero_dotProduct, Pi.zero_apply]
    linarith
  rw [this, pnorm_zero_vec]
  exact nrm_nonneg _

/-! ## The direction -/

/-- **C189**: with probability one, whatever exact solver is used, the directions returned for growing numbers of samples converge to the normalized slope of the affine function that is
best in the mean square. -/
theorem affine_direction_consistent (h : Misc.Iid μ Z P) (hP : Moments P 1) {q : MvPolynomial (Fin m) ℝ} (hq : BestMean P 1 q) {a : Pt m} {b : ℝ}
    (hab : ∀ x, MvPolynomial.eval x q = a ⬝ᵥ x + b) (ha : a ≠ 0) :
    ∀ᵐ ω ∂μ, ∀ S : FitSolver, S.Exact → ∀ U : ℕ → Matrix (Fin m) (Fin 1) ℝ,
      (∀ᶠ N in atTop, fitAffine S .two .none (fun i : Fin N => inp (Z i ω)) (fun i => out (Z i ω)) = .ok (U N)) →
      ∀ k, Tendsto (fun N => U N k 0) atTop (𝓝 (a k / nrm a)) := by
  filter_upwards [best_consistent h hP hq] with ω hω S hS U hU k
  have hex : ∀ N, ∃ (u : Pt m) (c : ℝ), fitAffine S .two .none (fun i : Fin N => inp (Z i ω)) (fun i => out (Z i ω)) = .ok (U N) →
      BestPoly .two .none 1 (fun i : Fin N => inp (Z i ω)) (fun i => out (Z i ω)) (fun x => u ⬝ᵥ x + c) ∧ ∀ k, U N k 0 = u k / nrm u := by
    intro N
    by_cases hok : fitAffine S .two .none (fun i : Fin N => inp (Z i ω)) (fun i => out (Z i ω)) = .ok (U N)
    · obtain ⟨hr, β, u, hβ, hu, hn, hUe⟩ := fitAffine_ok hok
      obtain ⟨c, hc⟩ := affSolve_best hS hr hβ
      refine ⟨_, c, fun _ => ⟨hc, fun k => ?_⟩⟩
      have hp := range_pos hr
      rw [← hu, nrm_eq, WithLp.toLp_smul, norm_smul, Real.norm_of_nonneg hp.le, ← nrm_eq, hUe, Matrix.of_apply, Pi.smul_apply, smul_eq_mul,
        mul_div_mul_left _ _ hp.ne']
    · exact ⟨0, 0, fun h' => absurd h' hok⟩
  choose u c huc using hex
  have hlim := hω (fun N x => u N ⬝ᵥ x + c N) (by filter_upwards [hU] with N hN using (huc N hN).1)
  have hcoord : ∀ k, Tendsto (fun N => u N k) atTop (𝓝 (a k)) := by
    intro k
    have h1 := (hlim (Pi.single k 1)).sub (hlim 0)
    rw [hab, hab] at h1
    simpa using h1
  have hvec : Tendsto u atTop (𝓝 a) := tendsto_pi_nhds.2 hcoord
  have hna : nrm a ≠ 0 := by
    rw [nrm_eq, norm_ne_zero_iff]
    intro h0
    exact ha (by simpa using congrArg WithLp.ofLp h0)
  have hnc : Continuous fun v : Pt m => nrm v := by
    unfold nrm
    exact Real.continuous_sqrt.comp (continuous_finset_sum _ fun i _ => (continuous_apply i).mul (continuous_apply i))
  refine ((hcoord k).div ((hnc.tendsto a).comp hvec) hna).congr' ?_
  filter_upwards [hU] with N hN
  exact ((huc N hN).2 k).symm

/-- **C189**: with probability one a direction is returned for all large numbers of samples. -/
theorem affine_direction_returns (h : Misc.Iid μ Z P) (hP : Moments P 1) {q : MvPolynomial (Fin m) ℝ} (hq : BestMean P 1 q) {a : Pt m} {b : ℝ}
    (hab : ∀ x, MvPolynomial.eval x q = a ⬝ᵥ x + b) (ha : a ≠ 0) {S : FitSolver} (hS : S.Exact) (hA : S.Answers) :
    ∀ᵐ ω ∂μ, ∀ᶠ N in atTop, ∃ U, fitAffine S .two .none (fun i : Fin N => inp (Z i ω)) (fun i => out (Z i ω)) = .ok U := by
  filter_upwards [best_consistent h hP hq] with ω hω
  have hex : ∀ N, ∃ (u : Pt m) (c : ℝ), BestPoly .two .none 1 (fun i : Fin N => inp (Z i ω)) (fun i => out (Z i ω)) (fun x => u ⬝ᵥ x + c) ∧
      (u ≠ 0 → ∃ U, fitAffine S .two .none (fun i : Fin N => inp (Z i ω)) (fun i => out (Z i ω)) = .ok U) := by
    intro N
    by_cases hr : supOf (fun i : Fin N => out (Z i ω)) = infOf (fun i : Fin N => out (Z i ω))
    · exact ⟨0, _, const_best hr, fun h0 => absurd rfl h0⟩
    · obtain ⟨x, -, hx⟩ := best_exists (p := .two) (by simp) .none (affDesign fun i : Fin N => inp (Z i ω)) (affRhs fun i => out (Z i ω)) ⟨0, trivial⟩
      obtain ⟨β, hβ⟩ := Option.isSome_iff_exists.1 (hA.free .two _ _ ⟨x, fun x' => hx x' trivial⟩)
      have hsol : affSolve S .two .none (fun i : Fin N => inp (Z i ω)) (fun i => out (Z i ω)) = .ok β := by
        simp only [affSolve, hβ, ofSolver]
      obtain ⟨c, hc⟩ := affSolve_best hS hr hsol
      refine ⟨_, c, hc, fun h0 => ?_⟩
      have hn : nrm (fun k => affSlope (fun i : Fin N => inp (Z i ω)) k * β k.castSucc) ≠ 0 := by
        intro hz
        rw [nrm_eq, norm_eq_zero] at hz
        refine h0 ?_
        have hz' : (fun k => affSlope (fun i : Fin N => inp (Z i ω)) k * β k.castSucc) = 0 := by simpa using congrArg WithLp.ofLp hz
        rw [hz', smul_zero]
      have e : fitAffine S .two .none (fun i : Fin N => inp (Z i ω)) (fun i => out (Z i ω)) =
          .ok (Matrix.of fun i _ => (affSlope (fun i : Fin N => inp (Z i ω)) i * β i.castSucc) / nrm fun k => affSlope (fun i : Fin N => inp (Z i ω)) k * β k.castSucc) := by
        simp only [fitAffine]
        rw [if_neg hr, hsol]
        simp only
        rw [if_neg hn]
      exact ⟨_, e⟩
  choose u c hbest hret using hex
  have hlim := hω (fun N x => u N ⬝ᵥ x + c N) (Eventually.of_forall hbest)
  obtain ⟨k, hk⟩ := Function.ne_iff.1 ha
  have hcoord : Tendsto (fun N => u N k) atTop (𝓝 (a k)) := by
    have h1 := (hlim (Pi.single k 1)).sub (hlim 0)
    rw [hab, hab] at h1
    simpa using h1
  filter_upwards [hcoord.eventually_ne hk] with N hN
  exact hret N fun h0 => hN (by rw [h0])

/-- The fit of degree one in one direction is a best affine function of the data. -/
theorem ridge_affine_best {S : FitSolver} (hS : S.Exact) {K : ℕ} {mk : (Fin M → Pt 1) → BasisObj 1 K} (hmk : ∀ Y, IsPolyBasis 1 (mk Y))
    {svdU : (Fin M → Pt 1) → Matrix (Fin 1) (Fin 1) ℝ} {p : PNorm} {rotate : Bool} {opt : (Fin M → Pt m) → Pt M → Except Err (Matrix (Fin m) (Fin 1) ℝ)}
    {X : Fin M → Pt m} {fX : Pt M} {R : Ridge m 1 K} (h : ridgeFit S 1 mk svdU p .none rotate opt X fX = .ok R) : BestPoly p .none 1 X fX R.eval := by
  have hB : IsPolyBasis 1 R.basis := by
    rw [fitCoef_basis (ridgeFit_affine h).2]
    exact hmk _
  have hmk' : AffineBasis mk := by
    intro Y s t
    obtain ⟨q, hq, hev⟩ := affine_deg_one (fun _ : Fin 1 => s) t
    obtain ⟨c, hc⟩ := coef_of_poly (hmk Y) hq
    exact ⟨c, fun y => by rw [hc, ← hev]; simp [dotProduct]⟩
  obtain ⟨q, hq, hev⟩ := ridge_isRidge R hB
  obtain ⟨s, t, hst⟩ := deg_one_affine hq
  refine ⟨?_, trivial, fun q' hq' _ => ?_⟩
  · obtain ⟨q'', h1, h2⟩ := affine_deg_one (R.U *ᵥ s) t
    refine ⟨q'', h1, fun x => ?_⟩
    rw [hev, hst, ← h2, dotProduct_mulVec, vecMul_transpose]
  · obtain ⟨a, b, hab⟩ := deg_one_affine hq'
    simp only [hab]
    exact affine_optimal S hS hmk' h a b

/-- **C189**: the ridge functions of degree one fitted to growing numbers of samples converge at every point, and their directions converge. -/
theorem ridge_affine_consistent (h : Misc.Iid μ Z P) (hP : Moments P 1) {q : MvPolynomial (Fin m) ℝ} (hq : BestMean P 1 q) {a : Pt m} {b : ℝ}
    (hab : ∀ x, MvPolynomial.eval x q = a ⬝ᵥ x + b) (ha : a ≠ 0) :
    ∀ᵐ ω ∂μ, ∀ S : FitSolver, S.Exact → ∀ (K : ℕ) (mk : ∀ N, (Fin N → Pt 1) → BasisObj 1 K), (∀ N Y, IsPolyBasis 1 (mk N Y)) →
      ∀ (svdU : ∀ N, (Fin N → Pt 1) → Matrix (Fin 1) (Fin 1) ℝ) (rotate : Bool) (opt : ∀ N, (Fin N → Pt m) → Pt N → Except Err (Matrix (Fin m) (Fin 1) ℝ))
        (R : ℕ → Ridge m 1 K),
      (∀ᶠ N in atTop, ridgeFit S 1 (mk N) (svdU N) .two .none rotate (opt N) (fun i : Fin N => inp (Z i ω)) (fun i => out (Z i ω)) = .ok (R N)) →
      (∀ x, Tendsto (fun N => (R N).eval x) atTop (𝓝 (a ⬝ᵥ x + b))) ∧ ∀ k, Tendsto (fun N => (R N).U k 0) atTop (𝓝 (a k / nrm a)) := by
  filter_upwards [best_consistent h hP hq, affine_direction_consistent h hP hq hab ha] with ω h1 h2 S hS K mk hmk svdU rotate opt R hR
  refine ⟨fun x => ?_, h2 S hS (fun N => (R N).U) ?_⟩
  · rw [← hab]
    exact h1 (fun N => (R N).eval) (by filter_upwards [hR] with N hN using ridge_affine_best hS (hmk N) hN) x
  · filter_upwards [hR] with N hN using (ridgeFit_affine hN).1

/-- **C189**, noisy affine data: the direction is that of the slope, if the noise is independent of the point and has mean zero. -/
theorem affine_direction_noise (h : Misc.Iid μ Z P) (hP : Moments P 1) {a : Pt m} {b : ℝ} (ha : a ≠ 0)
    (hind : ProbabilityTheory.IndepFun (fun z => out z - (a ⬝ᵥ inp z + b)) inp P) (h0 : ∫ z, (out z - (a ⬝ᵥ inp z + b)) ∂P = 0) {S : FitSolver} (hS : S.Exact)
    {U : ℕ → Ω → Matrix (Fin m) (Fin 1) ℝ}
    (hU : ∀ᵐ ω ∂μ, ∀ᶠ N in atTop, fitAffine S .two .none (fun i : Fin N => inp (Z i ω)) (fun i => out (Z i ω)) = .ok (U N ω)) :
    ∀ᵐ ω ∂μ, ∀ k, Tendsto (fun N => U N ω k 0) atTop (𝓝 (a k / nrm a)) := by
  obtain ⟨q, hq, hev⟩ := affine_deg_one a b
  have hbest : BestMean P 1 q := noise_best hP hq (by simpa only [← hev] using hind) (by simpa only [← hev] using h0)
  filter_upwards [affine_direction_consistent h hP hbest (fun x => (hev x).symm) ha, hU] with ω hω hUω
  exact hω S hS (fun N => U N ω) hUω

/-! ## The hypotheses are met -/

/-- Points uniform on the unit cube of any dimension at least one, and the first coordinate as value: moments, samples, the best affine function and its slope. -/
example (n : ℕ) : ∃ (P : Measure (Pt (n + 1 + 1))) (q : MvPolynomial (Fin (n + 1)) ℝ) (a : Pt (n + 1)), Moments P 1 ∧ BestMean P 1 q ∧
    (∀ x, MvPolynomial.eval x q = a ⬝ᵥ x + 0) ∧ a ≠ 0 ∧ Misc.Iid (Measure.infinitePi fun _ : ℕ => P) (fun i ω => ω i) P := by
  have hfin : volume (Set.Icc (0 : Pt (n + 1)) 1) ≠ ⊤ := isCompact_Icc.measure_lt_top.ne
  have hint : (interior (Set.Icc (0 : Pt (n + 1)) 1)).Nonempty := by
    rw [← Set.pi_univ_Icc, interior_pi_set Set.finite_univ]
    exact ⟨fun _ => 1 / 2, fun k _ => by
      change (1 / 2 : ℝ) ∈ interior (Set.Icc (0 : ℝ) 1)
      rw [interior_Icc]; norm_num⟩
  have hv : volume (Set.Icc (0 : Pt (n + 1)) 1) ≠ 0 := ((isOpen_interior.measure_pos volume hint).trans_le (measure_mono interior_subset)).ne'
  haveI : IsProbabilityMeasure (ProbabilityTheory.cond volume (Set.Icc (0 : Pt (n + 1)) 1)) := ProbabilityTheory.cond_isProbabilityMeasure_of_finite hv hfin
  set φ : Pt (n + 1) → Pt (n + 1 + 1) := fun x => Fin.snoc (α := fun _ => ℝ) x (x 0) with hφ
  have hφi : ∀ x, inp (φ x) = x := fun x => funext fun k => Fin.snoc_castSucc (α := fun _ => ℝ) _ _ _
  have hφo : ∀ x, out (φ x) = x 0 := fun x => Fin.snoc_last (α := fun _ => ℝ) _ _
  have hφc : Continuous φ := by
    refine continuous_pi fun k => ?_
    refine Fin.lastCases ?_ (fun k => ?_) k
    · exact (continuous_apply 0).congr fun x => (hφo x).symm
    · exact (continuous_apply k).congr fun x => (congrFun (hφi x) k).symm
  have hφm : Measurable φ := hφc.measurable
  haveI : IsProbabilityMeasure ((ProbabilityTheory.cond volume (Set.Icc (0 : Pt (n + 1)) 1)).map φ) := Measure.isProbabilityMeasure_map hφm.aemeasurable
  have hmom : Moments ((ProbabilityTheory.cond volume (Set.Icc (0 : Pt (n + 1)) 1)).map φ) 1 := by
    refine moments_of_bounded (R := 1) ?_ (U := Set.univ.pi fun _ => Set.Ioo 0 1) (isOpen_set_pi Set.finite_univ fun _ _ => isOpen_Ioo)
      ⟨fun _ => 1 / 2, fun _ _ => by norm_num⟩ (fun V hV hVo ⟨v, hv⟩ => ?_) 1
    · rw [ae_map_iff hφm.aemeasurable (measurableSet_le measurable_norm measurable_const)]
      filter_upwards [ProbabilityTheory.ae_cond_mem measurableSet_Icc] with x hx
      have hb : ∀ k, |x k| ≤ 1 := fun k => abs_le.2 ⟨by have := hx.1 k; simp only [Pi.zero_apply] at this; linarith, hx.2 k⟩
      rw [pi_norm_le_iff_of_nonneg zero_le_one]
      intro k
      rw [Real.norm_eq_abs]
      refine Fin.lastCases ?_ (fun k => ?_) k
      · exact (congrArg abs (hφo x)).trans_le (hb 0)
      · exact (congrArg abs (congrFun (hφi x) k)).trans_le (hb k)
    · have hVm : MeasurableSet (inp ⁻¹' V : Set (Pt (n + 1 + 1))) := (hVo.preimage (continuous_pi fun k => continuous_apply _)).measurableSet
      rw [Measure.map_apply hφm hVm]
      have e : φ ⁻¹' (inp ⁻¹' V) = V := by ext x; simp only [Set.mem_preimage, hφi]
      rw [e]
      exact uniform_charges (convex_Icc _ _) hint hfin (a := v) ⟨fun k => (hV hv k trivial).1.le, fun k => (hV hv k trivial).2.le⟩ hVo hv
  refine ⟨_, MvPolynomial.X 0, Pi.single 0 1, hmom, ⟨by rw [MvPolynomial.totalDegree_X], fun p _ => ?_⟩, fun x => by simp, ?_, Misc.exists_iid _⟩
  · have h0 : ∫ z, (MvPolynomial.eval (inp z) (MvPolynomial.X 0) - out z) ^ 2 ∂((ProbabilityTheory.cond volume (Set.Icc (0 : Pt (n + 1)) 1)).map φ) = 0 := by
      rw [integral_map (f := fun z => (MvPolynomial.eval (inp z) (MvPolynomial.X 0) - out z) ^ 2) hφm.aemeasurable
        ((inp_meas _).sub out_meas |>.pow_const 2).aestronglyMeasurable]
      simp only [hφi, hφo, MvPolynomial.eval_X, sub_self]
      simp
    rw [h0]
    exact integral_nonneg fun z => sq_nonneg _
  · intro h0
    have := congrFun h0 0
    simp at this

/-- Exact solvers that always answer exist. -/
example : idealSolver.Exact ∧ idealSolver.Answers := ⟨idealSolver_exact, idealSolver_answers⟩

end Verif.Func
