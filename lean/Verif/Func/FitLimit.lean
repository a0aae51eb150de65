import Mathlib.Probability.Independence.Integration
import Verif.Func.ApproxFit
import Verif.Misc.ActiveLimit
import Mathlib.RingTheory.MvPolynomial.Basic
import Mathlib.Topology.Instances.Matrix
import Mathlib.MeasureTheory.Function.L2Space
import Mathlib.Topology.Algebra.MvPolynomial
import Mathlib.Algebra.MvPolynomial.Funext
import Verif.Lipschitz.LimitProps

/-!
# C188: polynomial fits of random samples are consistent

`PolynomialApproximation(degree, norm = 2).fit(X, fX)` (`Func/ApproxModel`) on independent samples `(x, y)` of any distribution: with growing
numbers of samples the fits converge to the polynomial that is best in the mean square. In particular noise that is uncorrelated with the polynomials averages out.
-/

namespace Verif.Func

open Verif.Domain Verif.Lip Verif.Basis Matrix MeasureTheory Filter Topology

variable {m d K : ℕ} {Ω : Type*} [MeasurableSpace Ω] {μ : Measure Ω} {Z : ℕ → Ω → Pt (m + 1)} {P : Measure (Pt (m + 1))}

/-! ## Specification -/

/-- The point of a sample `(x, y)`. -/
def inp (z : Pt (m + 1)) : Pt m := fun k => z k.castSucc

/-- The value of a sample `(x, y)`. -/
def out (z : Pt (m + 1)) : ℝ := z (Fin.last m)

/-- `q` has the smallest mean squared error among the polynomials of total degree at most `d`. -/
def BestMean (P : Measure (Pt (m + 1))) (d : ℕ) (q : MvPolynomial (Fin m) ℝ) : Prop :=
  q.totalDegree ≤ d ∧ ∀ p : MvPolynomial (Fin m) ℝ, p.totalDegree ≤ d →
    ∫ z, (MvPolynomial.eval (inp z) q - out z) ^ 2 ∂P ≤ ∫ z, (MvPolynomial.eval (inp z) p - out z) ^ 2 ∂P

/-- Values and polynomials of the degree have second moments, and only the zero polynomial vanishes almost everywhere. -/
structure Moments (P : Measure (Pt (m + 1))) (d : ℕ) : Prop where
  val : Integrable (fun z => out z ^ 2) P
  poly : ∀ q : MvPolynomial (Fin m) ℝ, q.totalDegree ≤ d → Integrable (fun z => MvPolynomial.eval (inp z) q ^ 2) P
  det : ∀ q : MvPolynomial (Fin m) ℝ, q.totalDegree ≤ d → ∫ z, MvPolynomial.eval (inp z) q ^ 2 ∂P = 0 → q = 0

/-! ## Linear algebra -/

theorem lin_zero {B C : ℝ} (h : ∀ t : ℝ, 0 ≤ C * (t * t) + 2 * B * t) : B = 0 := by
  have := discrim_le_zero (a := C) (b := 2 * B) (c := 0) fun x => by linarith [h x]
  rw [discrim] at this
  nlinarith [sq_nonneg B]

theorem solve_limit {G : ℕ → Matrix (Fin K) (Fin K) ℝ} {G0 : Matrix (Fin K) (Fin K) ℝ} {a h : ℕ → Fin K → ℝ}
    (hG : ∀ i j, Tendsto (fun N => G N i j) atTop (𝓝 (G0 i j))) (h0 : G0.det ≠ 0) (hh : ∀ i, Tendsto (fun N => h N i) atTop (𝓝 0))
    (he : ∀ᶠ N in atTop, G N *ᵥ a N = h N) : Tendsto a atTop (𝓝 0) := by
  have hGt : Tendsto G atTop (𝓝 G0) := tendsto_pi_nhds.2 fun i => tendsto_pi_nhds.2 fun j => hG i j
  have hd : Tendsto (fun N => (G N).det) atTop (𝓝 G0.det) := (continuous_id.matrix_det.tendsto G0).comp hGt
  have hadj : ∀ i j, Tendsto (fun N => (G N).adjugate i j) atTop (𝓝 (G0.adjugate i j)) := fun i j =>
    ((continuous_id.matrix_adjugate.matrix_elem i j).tendsto G0).comp hGt
  refine tendsto_pi_nhds.2 fun i => ?_
  have hmul : Tendsto (fun N => ∑ j, (G N).adjugate i j * h N j) atTop (𝓝 (∑ j, G0.adjugate i j * 0)) :=
    tendsto_finset_sum _ fun j _ => (hadj i j).mul (hh j)
  have hlim := (hd.inv₀ h0).mul hmul
  simp only [mul_zero, Finset.sum_const_zero] at hlim
  refine hlim.congr' ?_
  filter_upwards [he, hd.eventually_ne h0] with N h1 h2
  have e : (G N).adjugate *ᵥ h N = (G N).det • a N := by
    rw [← h1, mulVec_mulVec, adjugate_mul, smul_mulVec, one_mulVec]
  have e2 : ∑ j, (G N).adjugate i j * h N j = (G N).det * a N i := congrFun e i
  rw [e2, ← mul_assoc, inv_mul_cancel₀ h2, one_mul]

/-! ## Coordinates for the polynomials of the degree -/

/-- A basis of the polynomials of the degree. -/
noncomputable def pol (m d : ℕ) (k : Fin (Module.finrank ℝ (MvPolynomial.restrictTotalDegree (Fin m) ℝ d))) : MvPolynomial (Fin m) ℝ :=
  (Module.finBasis ℝ (MvPolynomial.restrictTotalDegree (Fin m) ℝ d) k : MvPolynomial (Fin m) ℝ)

/-- The polynomial with the coordinates `a`. -/
noncomputable def polOf (a : Fin (Module.finrank ℝ (MvPolynomial.restrictTotalDegree (Fin m) ℝ d)) → ℝ) : MvPolynomial (Fin m) ℝ := ∑ k, a k • pol m d k

theorem polOf_coe (a : Fin (Module.finrank ℝ (MvPolynomial.restrictTotalDegree (Fin m) ℝ d)) → ℝ) :
    polOf a = ((∑ k, a k • Module.finBasis ℝ (MvPolynomial.restrictTotalDegree (Fin m) ℝ d) k : MvPolynomial.restrictTotalDegree (Fin m) ℝ d) :
      MvPolynomial (Fin m) ℝ) := by
  rw [polOf]
  simp only [pol]
  rw [Submodule.coe_sum]
  rfl

theorem polOf_deg (a : Fin (Module.finrank ℝ (MvPolynomial.restrictTotalDegree (Fin m) ℝ d)) → ℝ) : (polOf a).totalDegree ≤ d := by
  rw [polOf_coe]
  exact (MvPolynomial.mem_restrictTotalDegree _ _ _).1 (Subtype.coe_prop _)

theorem pol_deg (k) : (pol m d k).totalDegree ≤ d := (MvPolynomial.mem_restrictTotalDegree _ _ _).1 (Subtype.coe_prop _)

theorem exists_polOf {q : MvPolynomial (Fin m) ℝ} (hq : q.totalDegree ≤ d) :
    ∃ a : Fin (Module.finrank ℝ (MvPolynomial.restrictTotalDegree (Fin m) ℝ d)) → ℝ, q = polOf a := by
  refine ⟨fun k => (Module.finBasis ℝ (MvPolynomial.restrictTotalDegree (Fin m) ℝ d)).repr ⟨q, (MvPolynomial.mem_restrictTotalDegree _ _ _).2 hq⟩ k, ?_⟩
  rw [polOf_coe, Module.Basis.sum_repr]

theorem polOf_zero {a : Fin (Module.finrank ℝ (MvPolynomial.restrictTotalDegree (Fin m) ℝ d)) → ℝ} (h : polOf a = 0) : a = 0 := by
  rw [polOf_coe] at h
  have h' : (∑ k, a k • Module.finBasis ℝ (MvPolynomial.restrictTotalDegree (Fin m) ℝ d) k : MvPolynomial.restrictTotalDegree (Fin m) ℝ d) = 0 :=
    Submodule.coe_eq_zero.1 h
  exact funext fun k => Fintype.linearIndependent_iff.1 (Module.finBasis ℝ (MvPolynomial.restrictTotalDegree (Fin m) ℝ d)).linearIndependent a h' k

theorem eval_polOf (a : Fin (Module.finrank ℝ (MvPolynomial.restrictTotalDegree (Fin m) ℝ d)) → ℝ) (x : Pt m) :
    MvPolynomial.eval x (polOf a) = ∑ k, a k * MvPolynomial.eval x (pol m d k) := by
  rw [polOf, map_sum]
  exact Finset.sum_congr rfl fun k _ => by rw [MvPolynomial.smul_eval]

/-! ## Integrals -/

theorem inp_meas (q : MvPolynomial (Fin m) ℝ) : Measurable fun z : Pt (m + 1) => MvPolynomial.eval (inp z) q := by
  have : Continuous fun z : Pt (m + 1) => MvPolynomial.eval (inp z) q :=
    (MvPolynomial.continuous_eval q).comp (continuous_pi fun k => continuous_apply _)
  exact this.measurable

theorem out_meas : Measurable fun z : Pt (m + 1) => out z := measurable_pi_apply _

theorem Moments.l2 (hP : Moments P d) {q : MvPolynomial (Fin m) ℝ} (hq : q.totalDegree ≤ d) : MemLp (fun z => MvPolynomial.eval (inp z) q) 2 P :=
  (memLp_two_iff_integrable_sq (inp_meas q).aestronglyMeasurable).2 (hP.poly q hq)

theorem Moments.l2out (hP : Moments P d) : MemLp (fun z => out z) 2 P := (memLp_two_iff_integrable_sq out_meas.aestronglyMeasurable).2 hP.val

theorem Moments.mul (hP : Moments P d) {p q : MvPolynomial (Fin m) ℝ} (hp : p.totalDegree ≤ d) (hq : q.totalDegree ≤ d) :
    Integrable (fun z => MvPolynomial.eval (inp z) p * MvPolynomial.eval (inp z) q) P := (hP.l2 hp).integrable_mul (hP.l2 hq)

theorem Moments.res (hP : Moments P d) {p q : MvPolynomial (Fin m) ℝ} (hp : p.totalDegree ≤ d) (hq : q.totalDegree ≤ d) :
    Integrable (fun z => (MvPolynomial.eval (inp z) p - out z) * MvPolynomial.eval (inp z) q) P := ((hP.l2 hp).sub hP.l2out).integrable_mul (hP.l2 hq)

theorem Moments.ressq (hP : Moments P d) {p : MvPolynomial (Fin m) ℝ} (hp : p.totalDegree ≤ d) :
    Integrable (fun z => (MvPolynomial.eval (inp z) p - out z) ^ 2) P := ((hP.l2 hp).sub hP.l2out).integrable_sq

theorem Moments.expand (hP : Moments P d) {p q : MvPolynomial (Fin m) ℝ} (hp : p.totalDegree ≤ d) (hq : q.totalDegree ≤ d) (t : ℝ) :
    ∫ z, (MvPolynomial.eval (inp z) (p + t • q) - out z) ^ 2 ∂P = ∫ z, (MvPolynomial.eval (inp z) p - out z) ^ 2 ∂P +
      ((∫ z, MvPolynomial.eval (inp z) q ^ 2 ∂P) * (t * t) + 2 * (∫ z, (MvPolynomial.eval (inp z) p - out z) * MvPolynomial.eval (inp z) q ∂P) * t) := by
  have e : ∀ z : Pt (m + 1), (MvPolynomial.eval (inp z) (p + t • q) - out z) ^ 2 = (MvPolynomial.eval (inp z) p - out z) ^ 2 +
      ((t * t) * MvPolynomial.eval (inp z) q ^ 2 + (2 * t) * ((MvPolynomial.eval (inp z) p - out z) * MvPolynomial.eval (inp z) q)) := by
    intro z
    rw [map_add, MvPolynomial.smul_eval]
    ring
  simp only [e]
  have i1 := (hP.poly q hq).const_mul (t * t)
  have i2 := (hP.res hp hq).const_mul (2 * t)
  rw [integral_add (hP.ressq hp) (g := fun z => (t * t) * MvPolynomial.eval (inp z) q ^ 2 +
      (2 * t) * ((MvPolynomial.eval (inp z) p - out z) * MvPolynomial.eval (inp z) q)) (i1.add i2), integral_add i1 i2, integral_const_mul, integral_const_mul]
  ring

theorem deg_comb {p q : MvPolynomial (Fin m) ℝ} (hp : p.totalDegree ≤ d) (hq : q.totalDegree ≤ d) (t : ℝ) : (p + t • q).totalDegree ≤ d :=
  (MvPolynomial.totalDegree_add _ _).trans (max_le hp ((MvPolynomial.totalDegree_smul_le t q).trans hq))

/-- The best polynomials in the mean square are those whose errors are uncorrelated with all polynomials of the degree. -/
theorem bestMean_iff (hP : Moments P d) {q : MvPolynomial (Fin m) ℝ} (hq : q.totalDegree ≤ d) :
    BestMean P d q ↔ ∀ p : MvPolynomial (Fin m) ℝ, p.totalDegree ≤ d → ∫ z, (MvPolynomial.eval (inp z) q - out z) * MvPolynomial.eval (inp z) p ∂P = 0 := by
  constructor
  · rintro ⟨-, h⟩ p hp
    refine lin_zero (C := ∫ z, MvPolynomial.eval (inp z) p ^ 2 ∂P) fun t => ?_
    have := h _ (deg_comb hq hp t)
    rw [hP.expand hq hp] at this
    linarith
  · intro h
    refine ⟨hq, fun p hp => ?_⟩
    have e : p = q + (1 : ℝ) • (p + (-1 : ℝ) • q) := by
      rw [one_smul, neg_one_smul]; ring
    rw [e, hP.expand hq (deg_comb hp hq (-1)), h _ (deg_comb hp hq (-1))]
    have := integral_nonneg (μ := P) (f := fun z => MvPolynomial.eval (inp z) (p + (-1 : ℝ) • q) ^ 2) fun z => sq_nonneg _
    linarith

/-- The Gram matrix of the polynomials. -/
noncomputable def gramP (P : Measure (Pt (m + 1))) (d : ℕ) :
    Matrix (Fin (Module.finrank ℝ (MvPolynomial.restrictTotalDegree (Fin m) ℝ d))) (Fin (Module.finrank ℝ (MvPolynomial.restrictTotalDegree (Fin m) ℝ d))) ℝ :=
  Matrix.of fun k l => ∫ z, MvPolynomial.eval (inp z) (pol m d k) * MvPolynomial.eval (inp z) (pol m d l) ∂P

theorem gramP_mulVec (hP : Moments P d) (a : Fin (Module.finrank ℝ (MvPolynomial.restrictTotalDegree (Fin m) ℝ d)) → ℝ) (k) :
    (gramP P d *ᵥ a) k = ∫ z, MvPolynomial.eval (inp z) (pol m d k) * MvPolynomial.eval (inp z) (polOf a) ∂P := by
  have e : ∀ z : Pt (m + 1), MvPolynomial.eval (inp z) (pol m d k) * MvPolynomial.eval (inp z) (polOf a) =
      ∑ l, a l * (MvPolynomial.eval (inp z) (pol m d k) * MvPolynomial.eval (inp z) (pol m d l)) := by
    intro z
    rw [eval_polOf, Finset.mul_sum]
    exact Finset.sum_congr rfl fun l _ => by ring
  simp only [e]
  rw [integral_finset_sum _ fun l _ => (hP.mul (pol_deg k) (pol_deg l)).const_mul (a l)]
  simp only [mulVec, dotProduct, gramP, Matrix.of_apply, integral_const_mul]
  exact Finset.sum_congr rfl fun l _ => mul_comm _ _

theorem gramP_det (hP : Moments P d) : (gramP P d).det ≠ 0 := by
  intro h0
  obtain ⟨a, ha, h⟩ := Matrix.exists_mulVec_eq_zero_iff.2 h0
  refine ha (polOf_zero (hP.det _ (polOf_deg a) ?_))
  have h1 : ∑ k, a k * (gramP P d *ᵥ a) k = 0 := by simp [h]
  simp only [gramP_mulVec hP] at h1
  rw [← h1]
  simp only [← integral_const_mul]
  rw [← integral_finset_sum _ fun k _ => (hP.mul (pol_deg k) (polOf_deg a)).const_mul (a k)]
  refine integral_congr_ae (Eventually.of_forall fun z => ?_)
  change MvPolynomial.eval (inp z) (polOf a) ^ 2 = ∑ k, a k * (MvPolynomial.eval (inp z) (pol m d k) * MvPolynomial.eval (inp z) (polOf a))
  simp only [← mul_assoc]
  rw [← Finset.sum_mul, ← eval_polOf, pow_two]

/-- **There is exactly one best polynomial** in the mean square. -/
theorem bestMean_exists (hP : Moments P d) : ∃! q, BestMean P d q := by
  obtain ⟨a, ha⟩ : ∃ a, gramP P d *ᵥ a = fun k => ∫ z, out z * MvPolynomial.eval (inp z) (pol m d k) ∂P := by
    have hu : IsUnit (gramP P d).det := isUnit_iff_ne_zero.2 (gramP_det hP)
    exact ⟨(gramP P d)⁻¹ *ᵥ _, by rw [mulVec_mulVec, Matrix.mul_nonsing_inv _ hu, one_mulVec]⟩
  have hI : ∀ k, Integrable (fun z => out z * MvPolynomial.eval (inp z) (pol m d k)) P := fun k => hP.l2out.integrable_mul (hP.l2 (pol_deg k))
  have hbest : BestMean P d (polOf a) := by
    refine (bestMean_iff hP (polOf_deg a)).2 fun p hp => ?_
    obtain ⟨b, rfl⟩ := exists_polOf hp
    have hk : ∀ k, ∫ z, (MvPolynomial.eval (inp z) (polOf a) - out z) * MvPolynomial.eval (inp z) (pol m d k) ∂P = 0 := by
      intro k
      have h1 := congrFun ha k
      rw [gramP_mulVec hP] at h1
      have e : ∀ z : Pt (m + 1), (MvPolynomial.eval (inp z) (polOf a) - out z) * MvPolynomial.eval (inp z) (pol m d k) =
          MvPolynomial.eval (inp z) (pol m d k) * MvPolynomial.eval (inp z) (polOf a) - out z * MvPolynomial.eval (inp z) (pol m d k) := fun z => by ring
      simp only [e]
      rw [integral_sub (hP.mul (pol_deg k) (polOf_deg a)) (hI k), h1, sub_self]
    have e : ∀ z : Pt (m + 1), (MvPolynomial.eval (inp z) (polOf a) - out z) * MvPolynomial.eval (inp z) (polOf b) =
        ∑ k, b k * ((MvPolynomial.eval (inp z) (polOf a) - out z) * MvPolynomial.eval (inp z) (pol m d k)) := by
      intro z
      rw [eval_polOf b, Finset.mul_sum]
      exact Finset.sum_congr rfl fun l _ => by ring
    simp only [e]
    rw [integral_finset_sum _ fun k _ => (hP.res (polOf_deg a) (pol_deg k)).const_mul (b k)]
    simp only [integral_const_mul, hk, mul_zero, Finset.sum_const_zero]
  refine ⟨polOf a, hbest, fun q hq => ?_⟩
  have hd := deg_comb hq.1 (polOf_deg a) (-1)
  have h1 := (bestMean_iff hP hq.1).1 hq _ hd
  have h2 := (bestMean_iff hP (polOf_deg a)).1 hbest _ hd
  have h3 := hP.det _ hd (by
    rw [← sub_zero (0 : ℝ)]
    nth_rewrite 1 [← h1]
    rw [← h2, ← integral_sub (hP.res hq.1 hd) (hP.res (polOf_deg a) hd)]
    refine integral_congr_ae (Eventually.of_forall fun z => ?_)
    simp only [map_add, MvPolynomial.smul_eval]
    ring)
  rw [neg_one_smul, ← sub_eq_add_neg] at h3
  exact sub_eq_zero.1 h3

/-! ## The fits -/

/-- The error of a fit is orthogonal to all polynomials at the samples. -/
theorem fit_normal {M : ℕ} {X : Fin M → Pt m} {fX : Pt M} {g : Pt m → ℝ} (h : BestPoly .two .none d X fX g) {p : MvPolynomial (Fin m) ℝ} (hp : p.totalDegree ≤ d) :
    ∑ i, (g (X i) - fX i) * MvPolynomial.eval (X i) p = 0 := by
  obtain ⟨⟨q, hq, hg⟩, -, hb⟩ := h
  refine lin_zero (C := ∑ i, MvPolynomial.eval (X i) p ^ 2) fun t => ?_
  have h1 := hb _ (deg_comb hq hp t) trivial
  have h2 := pow_le_pow_left₀ (nrm_nonneg _) h1 2
  simp only [pnorm] at h2
  rw [nrm_sq, nrm_sq] at h2
  simp only [dotProduct, Pi.sub_apply, hg, map_add, MvPolynomial.smul_eval] at h2
  have e : ∑ i, (MvPolynomial.eval (X i) q + t * MvPolynomial.eval (X i) p - fX i) * (MvPolynomial.eval (X i) q + t * MvPolynomial.eval (X i) p - fX i) =
      ∑ i, (MvPolynomial.eval (X i) q - fX i) * (MvPolynomial.eval (X i) q - fX i) + ((∑ i, MvPolynomial.eval (X i) p ^ 2) * (t * t) +
        2 * (∑ i, (MvPolynomial.eval (X i) q - fX i) * MvPolynomial.eval (X i) p) * t) := by
    rw [Finset.sum_mul, Finset.mul_sum, Finset.sum_mul, ← Finset.sum_add_distrib, ← Finset.sum_add_distrib]
    exact Finset.sum_congr rfl fun i _ => by ring
  rw [e] at h2
  simp only [hg]
  linarith

/-- The Gram matrix of the polynomials at samples, divided by their number. -/
noncomputable def gramN (d : ℕ) (z : ℕ → Pt (m + 1)) (N : ℕ) :
    Matrix (Fin (Module.finrank ℝ (MvPolynomial.restrictTotalDegree (Fin m) ℝ d))) (Fin (Module.finrank ℝ (MvPolynomial.restrictTotalDegree (Fin m) ℝ d))) ℝ :=
  Matrix.of fun k l => (∑ i ∈ Finset.range N, MvPolynomial.eval (inp (z i)) (pol m d k) * MvPolynomial.eval (inp (z i)) (pol m d l)) / N

theorem gramN_mulVec (z : ℕ → Pt (m + 1)) (N : ℕ) (a : Fin (Module.finrank ℝ (MvPolynomial.restrictTotalDegree (Fin m) ℝ d)) → ℝ) (k) :
    (gramN d z N *ᵥ a) k = (∑ i ∈ Finset.range N, MvPolynomial.eval (inp (z i)) (pol m d k) * MvPolynomial.eval (inp (z i)) (polOf a)) / N := by
  simp only [mulVec, dotProduct, gramN, Matrix.of_apply, eval_polOf, div_mul_eq_mul_div]
  rw [← Finset.sum_div]
  congr 1
  simp only [Finset.sum_mul, Finset.mul_sum]
  rw [Finset.sum_comm]
  exact Finset.sum_congr rfl fun i _ => Finset.sum_congr rfl fun l _ => by ring

theorem gramN_limit (h : Misc.Iid μ Z P) (hP : Moments P d) :
    ∀ᵐ ω ∂μ, ∀ k l, Tendsto (fun N => gramN d (fun i => Z i ω) N k l) atTop (𝓝 (gramP P d k l)) := by
  rw [ae_all_iff]; intro k
  rw [ae_all_iff]; intro l
  exact Misc.mean_limit h ((inp_meas (pol m d k)).mul (inp_meas (pol m d l))) (hP.mul (pol_deg k) (pol_deg l))

/-- The samples determine the polynomials of the degree from some number on. -/
theorem samples_unisolvent (h : Misc.Iid μ Z P) (hP : Moments P d) :
    ∀ᵐ ω ∂μ, ∀ᶠ N in atTop, Unisolvent d fun i : Fin N => inp (Z i ω) := by
  filter_upwards [gramN_limit h hP] with ω hω
  have hGt : Tendsto (fun N => gramN d (fun i => Z i ω) N) atTop (𝓝 (gramP P d)) := tendsto_pi_nhds.2 fun i => tendsto_pi_nhds.2 fun j => hω i j
  have hd : Tendsto (fun N => (gramN d (fun i => Z i ω) N).det) atTop (𝓝 (gramP P d).det) := (continuous_id.matrix_det.tendsto _).comp hGt
  filter_upwards [hd.eventually_ne (gramP_det hP)] with N hN q hq h0
  obtain ⟨a, rfl⟩ := exists_polOf hq
  have ha : a = 0 := by
    by_contra hne
    refine hN (Matrix.exists_mulVec_eq_zero_iff.1 ⟨a, hne, funext fun k => ?_⟩)
    rw [gramN_mulVec, Finset.sum_eq_zero, zero_div]
    · rfl
    · intro i hi
      have := h0 ⟨i, Finset.mem_range.1 hi⟩
      rw [this, mul_zero]
  rw [ha, polOf]
  simp

/-- **C188**: the fits converge to the best polynomial in the mean square, for almost all samples, whatever basis and solver. -/
theorem fit_consistent (h : Misc.Iid μ Z P) (hP : Moments P d) (hm : 1 ≤ m) {q : MvPolynomial (Fin m) ℝ} (hq : BestMean P d q) :
    ∀ᵐ ω ∂μ, ∀ (S : FitSolver), S.Exact → ∀ o : ApproxOpts, o.norm = .two → o.bound = .none → o.degree = d → ∀ (B : ℕ → _) (c : ℕ → _),
      (∀ᶠ N in atTop, approxFit S o (fun i : Fin N => inp (Z i ω)) (fun i => out (Z i ω)) = .ok (B N, c N)) →
      ∀ x, Tendsto (fun N => polyEval (B N) (c N) x) atTop (𝓝 (MvPolynomial.eval x q)) := by
  have hres : ∀ k, ∫ z, (out z - MvPolynomial.eval (inp z) q) * MvPolynomial.eval (inp z) (pol m d k) ∂P = 0 := by
    intro k
    have h1 := (bestMean_iff hP hq.1).1 hq _ (pol_deg k)
    have e : ∀ z : Pt (m + 1), (out z - MvPolynomial.eval (inp z) q) * MvPolynomial.eval (inp z) (pol m d k) =
        -((MvPolynomial.eval (inp z) q - out z) * MvPolynomial.eval (inp z) (pol m d k)) := fun z => by ring
    simp only [e]
    rw [integral_neg, h1, neg_zero]
  have hmean : ∀ᵐ ω ∂μ, ∀ k, Tendsto (fun N : ℕ => (∑ i ∈ Finset.range N, (out (Z i ω) - MvPolynomial.eval (inp (Z i ω)) q) *
      MvPolynomial.eval (inp (Z i ω)) (pol m d k)) / N) atTop (𝓝 0) := by
    rw [ae_all_iff]; intro k
    have := Misc.mean_limit h (φ := fun z => (out z - MvPolynomial.eval (inp z) q) * MvPolynomial.eval (inp z) (pol m d k))
      ((out_meas.sub (inp_meas q)).mul (inp_meas _)) ((hP.l2out.sub (hP.l2 hq.1)).integrable_mul (hP.l2 (pol_deg k)))
    rw [hres] at this
    exact this
  filter_upwards [gramN_limit h hP, hmean] with ω hG hh S hS o hn hb hd B c hfit x
  subst hd
  have hpoly : ∀ N, ∃ a : Fin (Module.finrank ℝ (MvPolynomial.restrictTotalDegree (Fin m) ℝ o.degree)) → ℝ,
      approxFit S o (fun i : Fin N => inp (Z i ω)) (fun i => out (Z i ω)) = .ok (B N, c N) →
        (∀ x, polyEval (B N) (c N) x = MvPolynomial.eval x q + MvPolynomial.eval x (polOf a)) ∧
        gramN o.degree (fun i => Z i ω) N *ᵥ a = fun k => (∑ i ∈ Finset.range N, (out (Z i ω) - MvPolynomial.eval (inp (Z i ω)) q) *
          MvPolynomial.eval (inp (Z i ω)) (pol m o.degree k)) / N := by
    intro N
    by_cases hok : approxFit S o (fun i : Fin N => inp (Z i ω)) (fun i => out (Z i ω)) = .ok (B N, c N)
    · have hbest := approxFit_best S hS o hm hok
      rw [hn, hb] at hbest
      obtain ⟨qN, hqN, hval⟩ := hbest.1
      obtain ⟨a, ha⟩ := exists_polOf (deg_comb hqN hq.1 (-1))
      have hev : ∀ x, polyEval (B N) (c N) x = MvPolynomial.eval x q + MvPolynomial.eval x (polOf a) := by
        intro x
        rw [hval x, ← ha, map_add, MvPolynomial.smul_eval]
        ring
      refine ⟨a, fun _ => ⟨hev, funext fun k => ?_⟩⟩
      rw [gramN_mulVec]
      congr 1
      have hno := fit_normal hbest (pol_deg k)
      simp only [hev] at hno
      rw [Finset.sum_range, Finset.sum_range, ← sub_eq_zero, ← Finset.sum_sub_distrib, ← hno]
      exact Finset.sum_congr rfl fun i _ => by ring
    · exact ⟨0, fun h' => absurd h' hok⟩
  choose a ha using hpoly
  have hlim : Tendsto a atTop (𝓝 0) := by
    refine solve_limit hG (gramP_det hP) hh ?_
    filter_upwards [hfit] with N hN
    exact (ha N hN).2
  have hval : Tendsto (fun N => MvPolynomial.eval x q + ∑ k, a N k * MvPolynomial.eval x (pol m o.degree k)) atTop
      (𝓝 (MvPolynomial.eval x q + ∑ k, (0 : Fin (Module.finrank ℝ (MvPolynomial.restrictTotalDegree (Fin m) ℝ o.degree)) → ℝ) k * MvPolynomial.eval x (pol m o.degree k))) :=
    (tendsto_finset_sum _ fun k _ => ((tendsto_pi_nhds.1 hlim k).mul_const _)).const_add _
  simp only [Pi.zero_apply, zero_mul, Finset.sum_const_zero, add_zero] at hval
  refine hval.congr' ?_
  filter_upwards [hfit] with N hN
  rw [(ha N hN).1 x, eval_polOf]

/-- The fits are returned from some number of samples on, if the degree is positive or the basis is the Arnoldi basis. -/
theorem fit_returns (h : Misc.Iid μ Z P) {S : FitSolver} (hS : S.Answers) {degree : ℝ} {basis : String} {norm : NormArg} {bound : Option String} {o : ApproxOpts}
    (ho : approxInit degree basis norm bound = .ok o) (hm : 1 ≤ m) (hP : Moments P o.degree) (hd : 1 ≤ o.degree ∨ o.basis = .arnoldi) :
    ∀ᵐ ω ∂μ, ∀ᶠ N in atTop, ∃ r, approxFit S o (fun i : Fin N => inp (Z i ω)) (fun i => out (Z i ω)) = .ok r := by
  filter_upwards [samples_unisolvent h hP] with ω hω
  filter_upwards [hω, eventually_ge_atTop 1] with N hN hN1
  rw [approxFit_ok_iff S hS ho hm]
  split_ifs with hb
  · exact hN
  · intro k
    by_contra hne
    push Not at hne
    have h1 : 1 ≤ o.degree := hd.resolve_right hb
    have h0 := hN (MvPolynomial.X k - MvPolynomial.C (inp (Z 0 ω) k)) ((MvPolynomial.totalDegree_sub_C_le _ _).trans (by rw [MvPolynomial.totalDegree_X]; exact h1))
      fun i => by rw [map_sub, MvPolynomial.eval_X, MvPolynomial.eval_C]; exact sub_eq_zero.2 (hne i ⟨0, hN1⟩)
    have h2 := congrArg (MvPolynomial.eval fun _ => inp (Z 0 ω) k + 1) h0
    rw [map_sub, MvPolynomial.eval_X, MvPolynomial.eval_C, map_zero] at h2
    linarith

/-! ## Noise -/

/-- **Noise averages out**: if the value is a polynomial of the degree plus a term that is independent of the point and has mean zero, then that polynomial is the best one
in the mean square, and so (`fit_consistent`) the limit of the fits. -/
theorem noise_best (hP : Moments P d) {q : MvPolynomial (Fin m) ℝ} (hq : q.totalDegree ≤ d)
    (hind : ProbabilityTheory.IndepFun (fun z => out z - MvPolynomial.eval (inp z) q) inp P) (h0 : ∫ z, (out z - MvPolynomial.eval (inp z) q) ∂P = 0) :
    BestMean P d q := by
  refine (bestMean_iff hP hq).2 fun p hp => ?_
  have hi := hind.comp (φ := id) (ψ := fun x : Pt m => MvPolynomial.eval x p) measurable_id (MvPolynomial.continuous_eval p).measurable
  have h1 := hi.integral_fun_mul_eq_mul_integral (out_meas.sub (inp_meas q)).aestronglyMeasurable (inp_meas p).aestronglyMeasurable
  simp only [Function.comp_apply, id_eq] at h1
  rw [h0, zero_mul] at h1
  have e : ∀ z : Pt (m + 1), (MvPolynomial.eval (inp z) q - out z) * MvPolynomial.eval (inp z) p =
      -((out z - MvPolynomial.eval (inp z) q) * MvPolynomial.eval (inp z) p) := fun z => by ring
  simp only [e]
  rw [integral_neg, h1, neg_zero]

/-! ## Distributions with these moments -/

/-- A polynomial that vanishes on an open set is zero. -/
theorem poly_zero_open {U : Set (Pt m)} (hU : IsOpen U) {x0 : Pt m} (hx : x0 ∈ U) {q : MvPolynomial (Fin m) ℝ} (h : ∀ x ∈ U, MvPolynomial.eval x q = 0) : q = 0 := by
  obtain ⟨ε, hε, hb⟩ := Metric.isOpen_iff.1 hU x0 hx
  refine MvPolynomial.funext_set (fun k => Metric.ball (x0 k) ε) (fun k => ?_) fun x hx => ?_
  · rw [Real.ball_eq_Ioo]
    exact Set.Ioo_infinite (by linarith)
  · rw [map_zero]
    refine h x (hb ?_)
    rw [Metric.mem_ball, dist_pi_lt_iff hε]
    exact fun k => hx k trivial

/-- Bounded samples whose points charge all open subsets of an open set. -/
theorem moments_of_bounded [IsFiniteMeasure P] {R : ℝ} (hR : ∀ᵐ z ∂P, ‖z‖ ≤ R) {U : Set (Pt m)} (hU : IsOpen U) (hne : U.Nonempty)
    (hch : ∀ V ⊆ U, IsOpen V → V.Nonempty → P (inp ⁻¹' V) ≠ 0) (d : ℕ) : Moments P d := by
  have hcont : ∀ q : MvPolynomial (Fin m) ℝ, Continuous fun z : Pt (m + 1) => MvPolynomial.eval (inp z) q := fun q =>
    (MvPolynomial.continuous_eval q).comp (continuous_pi fun k => continuous_apply _)
  have hint : ∀ φ : Pt (m + 1) → ℝ, Continuous φ → Integrable φ P := by
    intro φ hφ
    obtain ⟨C, hC⟩ := (isCompact_closedBall (0 : Pt (m + 1)) R).exists_bound_of_continuousOn hφ.continuousOn
    refine Integrable.of_bound hφ.aestronglyMeasurable C ?_
    filter_upwards [hR] with z hz
    exact hC z (by simpa using hz)
  refine ⟨hint _ ((continuous_apply _).pow 2), fun q _ => hint _ ((hcont q).pow 2), fun q _ h0 => ?_⟩
  rw [integral_eq_zero_iff_of_nonneg (fun z => sq_nonneg _) (hint _ ((hcont q).pow 2))] at h0
  obtain ⟨x0, hx0⟩ := hne
  refine poly_zero_open hU hx0 fun x hx => ?_
  by_contra hne
  refine hch (U ∩ {y | MvPolynomial.eval y q ≠ 0}) Set.inter_subset_left (hU.inter (isOpen_ne_fun (MvPolynomial.continuous_eval q) continuous_const)) ⟨x, hx, hne⟩ ?_
  refine measure_mono_null (t := {z | ¬ (MvPolynomial.eval (inp z) q ^ 2 = 0)}) (fun z hz => ?_) h0
  exact pow_ne_zero 2 hz.2

/-- Points and values uniform on the unit cube. -/
example (d : ℕ) : Moments (ProbabilityTheory.cond volume (Set.Icc (0 : Pt (m + 1)) 1)) d ∧
    Misc.Iid (Measure.infinitePi fun _ : ℕ => ProbabilityTheory.cond volume (Set.Icc (0 : Pt (m + 1)) 1)) (fun i ω => ω i)
      (ProbabilityTheory.cond volume (Set.Icc (0 : Pt (m + 1)) 1)) := by
  have hfin : volume (Set.Icc (0 : Pt (m + 1)) 1) ≠ ⊤ := isCompact_Icc.measure_lt_top.ne
  have hint : (interior (Set.Icc (0 : Pt (m + 1)) 1)).Nonempty := by
    rw [← Set.pi_univ_Icc, interior_pi_set Set.finite_univ]
    exact ⟨fun _ => 1 / 2, fun k _ => by
      change (1 / 2 : ℝ) ∈ interior (Set.Icc (0 : ℝ) 1)
      rw [interior_Icc]; norm_num⟩
  have hv : volume (Set.Icc (0 : Pt (m + 1)) 1) ≠ 0 := ((isOpen_interior.measure_pos volume hint).trans_le (measure_mono interior_subset)).ne'
  haveI : IsProbabilityMeasure (ProbabilityTheory.cond volume (Set.Icc (0 : Pt (m + 1)) 1)) := ProbabilityTheory.cond_isProbabilityMeasure_of_finite hv hfin
  refine ⟨moments_of_bounded (R := 1) ?_ (U := Set.univ.pi fun _ => Set.Ioo 0 1) (isOpen_set_pi Set.finite_univ fun _ _ => isOpen_Ioo)
    ⟨fun _ => 1 / 2, fun _ _ => by norm_num⟩ (fun V hV hVo ⟨v, hv⟩ => ?_) d, Misc.exists_iid _⟩
  · filter_upwards [ProbabilityTheory.ae_cond_mem measurableSet_Icc] with z hz
    rw [pi_norm_le_iff_of_nonneg zero_le_one]
    intro k
    rw [Real.norm_eq_abs, abs_le]
    have h1 := hz.1 k
    have h2 := hz.2 k
    simp only [Pi.zero_apply, Pi.one_apply] at h1 h2
    exact ⟨by linarith, h2⟩
  · refine uniform_charges (convex_Icc _ _) hint hfin (a := Fin.snoc (α := fun _ => ℝ) v (1 / 2)) ?_ (hVo.preimage (continuous_pi fun k => continuous_apply _)) ?_
    · constructor
      · intro k
        refine Fin.lastCases ?_ (fun k => ?_) k
        · simp only [Fin.snoc_last, Pi.zero_apply]; norm_num
        · simp only [Fin.snoc_castSucc, Pi.zero_apply]; exact (hV hv k trivial).1.le
      · intro k
        refine Fin.lastCases ?_ (fun k => ?_) k
        · simp only [Fin.snoc_last, Pi.one_apply]; norm_num
        · simp only [Fin.snoc_castSucc, Pi.one_apply]; exact (hV hv k trivial).2.le
    · change inp _ ∈ V
      have : inp (Fin.snoc (α := fun _ => ℝ) v (1 / 2)) = v := funext fun k => Fin.snoc_castSucc (α := fun _ => ℝ) _ _ _
      rw [this]; exact hv

end Verif.Func
