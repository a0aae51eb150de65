import Verif.Func.ApproxModel
import Verif.Func.TensorPoly
import Verif.Func.AltProps
import Verif.Func.FinishProps
import Verif.Basis.ArnoldiBreak
import Mathlib.Analysis.Normed.Module.FiniteDimension

/-!
# Property C133: polynomial fits are best polynomials, whatever the basis
-/

namespace Verif.Func

open Verif.Domain Verif.Lip Verif.Basis Matrix

variable {M m n N : ℕ}

/-! ## Specification -/

/-- `g` is a polynomial of total degree at most `d` that respects the bound at the samples, and no such polynomial is closer to the data in the norm. -/
def BestPoly (p : PNorm) (bound : Bound) (d : ℕ) (X : Fin M → Pt m) (fX : Pt M) (g : Pt m → ℝ) : Prop :=
  (∃ q : MvPolynomial (Fin m) ℝ, q.totalDegree ≤ d ∧ ∀ x, g x = MvPolynomial.eval x q) ∧ RespectsBound bound (fun i => g (X i)) fX ∧
    ∀ q : MvPolynomial (Fin m) ℝ, q.totalDegree ≤ d → RespectsBound bound (fun i => MvPolynomial.eval (X i) q) fX →
      pnorm p ((fun i => g (X i)) - fX) ≤ pnorm p ((fun i => MvPolynomial.eval (X i) q) - fX)

/-- The bound after multiplication of the data with `-1`. -/
def Bound.flip : Bound → Bound
  | .lower => .upper
  | .upper => .lower
  | b => b

/-! ## Norms -/

theorem abs_le_fitnorm {p : PNorm} (hp : p ≠ .other) (r : Pt M) (i : Fin M) : |r i| ≤ pnorm p r := by
  cases p with
  | one => exact Finset.single_le_sum (f := fun i => |r i|) (fun j _ => abs_nonneg _) (Finset.mem_univ i)
  | two =>
    refine Real.abs_le_sqrt ?_
    rw [sq]
    exact Finset.single_le_sum (f := fun i => r i * r i) (fun j _ => mul_self_nonneg _) (Finset.mem_univ i)
  | inf => exact le_ciSup (f := fun i => |r i|) (Set.finite_range _).bddAbove i
  | other => exact absurd rfl hp

theorem pnorm_zero_vec (p : PNorm) : pnorm p (0 : Pt M) = 0 := by
  cases p with
  | one => simp [pnorm]
  | two => exact nrm_zero
  | inf => simp [pnorm]
  | other => rfl

theorem pnorm_smul_abs (p : PNorm) (a : ℝ) (r : Pt M) : pnorm p (a • r) = |a| * pnorm p r := by
  cases p with
  | one => simp [pnorm, abs_mul, Finset.mul_sum]
  | two =>
    change Real.sqrt ((a • r) ⬝ᵥ (a • r)) = |a| * Real.sqrt (r ⬝ᵥ r)
    rw [dotProduct_smul, smul_dotProduct, smul_eq_mul, smul_eq_mul, ← mul_assoc, Real.sqrt_mul (mul_self_nonneg a), Real.sqrt_mul_self_eq_abs]
  | inf =>
    simp only [pnorm, Pi.smul_apply, smul_eq_mul, abs_mul]
    rw [Real.mul_iSup_of_nonneg (abs_nonneg a)]
  | other => simp [pnorm]

theorem eq_of_pnorm {p : PNorm} (hp : p ≠ .other) {v f : Pt M} (h : pnorm p (v - f) ≤ 0) : v = f := by
  funext i
  have := (abs_le_fitnorm hp (v - f) i).trans h
  exact sub_eq_zero.1 (abs_nonpos_iff.1 this)

theorem pnorm_continuous (p : PNorm) : Continuous fun r : Pt M => pnorm p r := by
  cases p with
  | one => exact continuous_finsetSum _ fun i _ => (continuous_apply i).abs
  | two =>
    refine Real.continuous_sqrt.comp ?_
    exact continuous_finsetSum _ fun i _ => (continuous_apply i).mul (continuous_apply i)
  | inf =>
    have : (fun r : Pt M => pnorm PNorm.inf r) = fun r => ‖r‖ := by
      funext r
      refine le_antisymm ?_ ((pi_norm_le_iff_of_nonneg ?_).2 fun i => abs_le_fitnorm (by simp) r i)
      · rcases isEmpty_or_nonempty (Fin M) with h | h
        · simp [pnorm]
        · exact ciSup_le fun i => norm_le_pi_norm r i
      · exact Real.iSup_nonneg fun i => abs_nonneg _
    rw [this]
    exact continuous_norm
  | other => exact continuous_const

/-! ## Best polynomials -/

theorem respects_self (bound : Bound) (f : Fin M → ℝ) : RespectsBound bound f f := by
  cases bound <;> first | exact trivial | exact fun i => le_rfl

theorem BestPoly.exact {p : PNorm} (hp : p ≠ .other) {bound : Bound} {d : ℕ} {X : Fin M → Pt m} {fX : Pt M} {g : Pt m → ℝ} (h : BestPoly p bound d X fX g)
    {q : MvPolynomial (Fin m) ℝ} (hq : q.totalDegree ≤ d) (hf : ∀ i, fX i = MvPolynomial.eval (X i) q) : ∀ i, g (X i) = fX i := by
  obtain rfl : fX = fun i => MvPolynomial.eval (X i) q := funext hf
  have := h.2.2 q hq (respects_self _ _)
  rw [sub_self, pnorm_zero_vec] at this
  exact congrFun (eq_of_pnorm hp this)

theorem same_of_unisolvent {d : ℕ} {X : Fin M → Pt m} (hX : Unisolvent d X) {g g' : Pt m → ℝ}
    (hg : ∃ q : MvPolynomial (Fin m) ℝ, q.totalDegree ≤ d ∧ ∀ x, g x = MvPolynomial.eval x q)
    (hg' : ∃ q : MvPolynomial (Fin m) ℝ, q.totalDegree ≤ d ∧ ∀ x, g' x = MvPolynomial.eval x q) (h : ∀ i, g (X i) = g' (X i)) : g = g' := by
  obtain ⟨q, hq, e⟩ := hg
  obtain ⟨q', hq', e'⟩ := hg'
  have := hX (q - q') ((MvPolynomial.totalDegree_sub _ _).trans (max_le hq hq')) fun i => by rw [map_sub, ← e, ← e', h, sub_self]
  funext x
  rw [e, e', sub_eq_zero.1 this]

theorem respects_mid {bound : Bound} {v w f : Fin M → ℝ} (hv : RespectsBound bound v f) (hw : RespectsBound bound w f) :
    RespectsBound bound (fun i => (v i + w i) / 2) f := by
  cases bound with
  | none => trivial
  | other => trivial
  | lower => intro i; have := hv i; have := hw i; simp only at *; linarith
  | upper => intro i; have := hv i; have := hw i; simp only at *; linarith

/-- Two best polynomials in the 2-norm agree at the samples. -/
theorem BestPoly.two_unique {bound : Bound} {d : ℕ} {X : Fin M → Pt m} {fX : Pt M} {g g' : Pt m → ℝ} (h : BestPoly .two bound d X fX g)
    (h' : BestPoly .two bound d X fX g') : ∀ i, g (X i) = g' (X i) := by
  obtain ⟨⟨q, hq, e⟩, hb, ho⟩ := h
  obtain ⟨⟨q', hq', e'⟩, hb', ho'⟩ := h'
  have hmid : ∀ x, MvPolynomial.eval x (MvPolynomial.C (1 / 2) * (q + q')) = (g x + g' x) / 2 := by
    intro x
    rw [map_mul, map_add, MvPolynomial.eval_C, e, e']
    ring
  have hd : (MvPolynomial.C (1 / 2 : ℝ) * (q + q')).totalDegree ≤ d := by
    refine (MvPolynomial.totalDegree_mul _ _).trans ?_
    rw [MvPolynomial.totalDegree_C, zero_add]
    exact (MvPolynomial.totalDegree_add _ _).trans (max_le hq hq')
  have hv : (fun i => MvPolynomial.eval (X i) (MvPolynomial.C (1 / 2) * (q + q'))) = fun i => (g (X i) + g' (X i)) / 2 := funext fun i => hmid _
  have hm : RespectsBound bound (fun i => MvPolynomial.eval (X i) (MvPolynomial.C (1 / 2) * (q + q'))) fX := by
    rw [hv]
    exact respects_mid hb hb'
  have h1 := ho _ hd hm
  have h2 := ho' _ hd hm
  rw [hv] at h1 h2
  set v : Pt M := (fun i => g (X i)) - fX with hvd
  set w : Pt M := (fun i => g' (X i)) - fX with hwd
  have hvw : ((fun i => (g (X i) + g' (X i)) / 2) - fX : Pt M) = (1 / 2 : ℝ) • (v + w) := by
    funext i
    simp only [hvd, hwd, Pi.sub_apply, Pi.smul_apply, Pi.add_apply, smul_eq_mul]
    ring
  rw [hvw] at h1 h2
  have s0 := nrm_nonneg v
  have s0' := nrm_nonneg w
  have s1 : nrm v ^ 2 ≤ nrm ((1 / 2 : ℝ) • (v + w)) ^ 2 := pow_le_pow_left₀ s0 h1 2
  have s2 : nrm w ^ 2 ≤ nrm ((1 / 2 : ℝ) • (v + w)) ^ 2 := pow_le_pow_left₀ s0' h2 2
  rw [nrm_sq, nrm_sq] at s1 s2
  have s3 : (v - w) ⬝ᵥ (v - w) ≤ 0 := by
    simp only [dotProduct_smul, smul_dotProduct, smul_eq_mul, add_dotProduct, dotProduct_add, sub_dotProduct, dotProduct_sub] at s1 s2 ⊢
    linarith
  have s4 := dotProduct_self_eq_zero.1 (le_antisymm s3 (dotProduct_self_nonneg' _))
  intro i
  have := congrFun s4 i
  simp only [hvd, hwd, Pi.sub_apply, Pi.zero_apply] at this
  linarith

/-- In every norm two best polynomials are equally far from the data. -/
theorem BestPoly.same_error {p : PNorm} {bound : Bound} {d : ℕ} {X : Fin M → Pt m} {fX : Pt M} {g g' : Pt m → ℝ} (h : BestPoly p bound d X fX g)
    (h' : BestPoly p bound d X fX g') : pnorm p ((fun i => g (X i)) - fX) = pnorm p ((fun i => g' (X i)) - fX) := by
  obtain ⟨⟨q, hq, e⟩, hb, ho⟩ := h
  obtain ⟨⟨q', hq', e'⟩, hb', ho'⟩ := h'
  have e1 : (fun i => g (X i)) = fun i => MvPolynomial.eval (X i) q := funext fun i => e _
  have e2 : (fun i => g' (X i)) = fun i => MvPolynomial.eval (X i) q' := funext fun i => e' _
  refine le_antisymm ?_ ?_
  · rw [e2] at hb' ⊢
    exact ho q' hq' hb'
  · rw [e1] at hb ⊢
    exact ho' q hq hb

/-- Positive multiples of the data plus a polynomial. -/
theorem BestPoly.scale {p : PNorm} {bound : Bound} {d : ℕ} {X : Fin M → Pt m} {fX : Pt M} {g : Pt m → ℝ} (h : BestPoly p bound d X fX g) {a : ℝ} (ha : 0 < a)
    {r : MvPolynomial (Fin m) ℝ} (hr : r.totalDegree ≤ d) :
    BestPoly p bound d X (fun i => a * fX i + MvPolynomial.eval (X i) r) fun x => a * g x + MvPolynomial.eval x r := by
  obtain ⟨⟨q, hq, e⟩, hb, ho⟩ := h
  refine ⟨⟨MvPolynomial.C a * q + r, ?_, fun x => by dsimp only; rw [map_add, map_mul, MvPolynomial.eval_C, e]⟩, ?_, fun q' hq' hb' => ?_⟩
  · refine (MvPolynomial.totalDegree_add _ _).trans (max_le ((MvPolynomial.totalDegree_mul _ _).trans ?_) hr)
    rwa [MvPolynomial.totalDegree_C, zero_add]
  · cases bound with
    | none => trivial
    | other => trivial
    | lower => intro i; have := mul_le_mul_of_nonneg_left (hb i) ha.le; simp only at *; linarith
    | upper => intro i; have := mul_le_mul_of_nonneg_left (hb i) ha.le; simp only at *; linarith
  · have hd : (MvPolynomial.C a⁻¹ * (q' - r)).totalDegree ≤ d := by
      refine (MvPolynomial.totalDegree_mul _ _).trans ?_
      rw [MvPolynomial.totalDegree_C, zero_add]
      exact (MvPolynomial.totalDegree_sub _ _).trans (max_le hq' hr)
    have hv : ∀ x, MvPolynomial.eval x (MvPolynomial.C a⁻¹ * (q' - r)) = a⁻¹ * (MvPolynomial.eval x q' - MvPolynomial.eval x r) := by
      intro x
      rw [map_mul, map_sub, MvPolynomial.eval_C]
    have hv' : ∀ x, a * MvPolynomial.eval x (MvPolynomial.C a⁻¹ * (q' - r)) = MvPolynomial.eval x q' - MvPolynomial.eval x r := by
      intro x
      rw [hv, ← mul_assoc, mul_inv_cancel₀ ha.ne', one_mul]
    have := ho _ hd (by
      cases bound with
      | none => trivial
      | other => trivial
      | lower =>
        intro i
        have := hb' i
        simp only at this
        have h2 := hv' (X i)
        exact le_of_mul_le_mul_left (by linarith) ha
      | upper =>
        intro i
        have := hb' i
        simp only at this
        have h2 := hv' (X i)
        exact le_of_mul_le_mul_left (by linarith) ha)
    have e1 : ((fun i => a * g (X i) + MvPolynomial.eval (X i) r) - fun i => a * fX i + MvPolynomial.eval (X i) r : Pt M) = a • ((fun i => g (X i)) - fX) := by
      funext i
      simp only [Pi.sub_apply, Pi.smul_apply, smul_eq_mul]
      ring
    have e2 : ((fun i => MvPolynomial.eval (X i) q') - fun i => a * fX i + MvPolynomial.eval (X i) r : Pt M) =
        a • ((fun i => MvPolynomial.eval (X i) (MvPolynomial.C a⁻¹ * (q' - r))) - fX) := by
      funext i
      simp only [Pi.sub_apply, Pi.smul_apply, smul_eq_mul]
      rw [mul_sub a, hv']
      ring
    rw [e1, e2, pnorm_smul_abs, pnorm_smul_abs]
    exact mul_le_mul_of_nonneg_left this (abs_nonneg a)

/-- The negated data have the negated best polynomial, with the other bound. -/
theorem BestPoly.neg {p : PNorm} {bound : Bound} {d : ℕ} {X : Fin M → Pt m} {fX : Pt M} {g : Pt m → ℝ} (h : BestPoly p bound d X fX g) :
    BestPoly p bound.flip d X (fun i => -fX i) fun x => -g x := by
  obtain ⟨⟨q, hq, e⟩, hb, ho⟩ := h
  refine ⟨⟨-q, by rwa [MvPolynomial.totalDegree_neg], fun x => by dsimp only; rw [map_neg, e]⟩, ?_, fun q' hq' hb' => ?_⟩
  · cases bound with
    | none => trivial
    | other => trivial
    | lower => intro i; have := hb i; simp only at *; linarith
    | upper => intro i; have := hb i; simp only at *; linarith
  · have := ho (-q') (by rwa [MvPolynomial.totalDegree_neg]) (by
      cases bound with
      | none => trivial
      | other => trivial
      | lower => intro i; have := hb' i; simp only [map_neg] at *; linarith
      | upper => intro i; have := hb' i; simp only [map_neg] at *; linarith)
    have e1 : ((fun i => -g (X i)) - fun i => -fX i : Pt M) = -((fun i => g (X i)) - fX) := by
      funext i; simp only [Pi.sub_apply, Pi.neg_apply]; ring
    have e2 : ((fun i => MvPolynomial.eval (X i) q') - fun i => -fX i : Pt M) = -((fun i => MvPolynomial.eval (X i) (-q')) - fX) := by
      funext i; simp only [Pi.sub_apply, Pi.neg_apply, map_neg]; ring
    rw [e1, e2, pnorm_neg, pnorm_neg]
    exact this

/-- A polynomial of affine functions of the variables. -/
theorem poly_affine {k l : ℕ} (A : Matrix (Fin k) (Fin l) ℝ) (t : Pt k) (q : MvPolynomial (Fin k) ℝ) :
    ∃ q' : MvPolynomial (Fin l) ℝ, q'.totalDegree ≤ q.totalDegree ∧ ∀ x, MvPolynomial.eval x q' = MvPolynomial.eval (A *ᵥ x + t) q := by
  refine ⟨MvPolynomial.bind₁ (fun i => (∑ j, MvPolynomial.C (A i j) * MvPolynomial.X j) + MvPolynomial.C (t i)) q, totalDegree_bind_le _ (fun i => ?_) q, fun x => ?_⟩
  · refine (MvPolynomial.totalDegree_add _ _).trans (max_le ?_ (by rw [MvPolynomial.totalDegree_C]; omega))
    refine MvPolynomial.totalDegree_finsetSum_le fun j _ => ?_
    refine (MvPolynomial.totalDegree_mul _ _).trans ?_
    rw [MvPolynomial.totalDegree_C, zero_add, MvPolynomial.totalDegree_X]
  · rw [MvPolynomial.eval, MvPolynomial.eval₂Hom_bind₁]
    change MvPolynomial.eval _ q = _
    congr 2
    funext i
    simp only [map_add, map_sum, map_mul, MvPolynomial.eval₂Hom_C, MvPolynomial.eval₂Hom_X', RingHom.id_apply]
    rfl

/-- Invertible affine changes of the inputs. -/
theorem BestPoly.inputs {p : PNorm} {bound : Bound} {d : ℕ} {X : Fin M → Pt m} {fX : Pt M} {g : Pt m → ℝ} (h : BestPoly p bound d X fX g)
    {A B : Matrix (Fin m) (Fin m) ℝ} (hBA : B * A = 1) (t : Pt m) :
    BestPoly p bound d (fun i => A *ᵥ X i + t) fX fun x => g (B *ᵥ (x - t)) := by
  obtain ⟨⟨q, hq, e⟩, hb, ho⟩ := h
  have hinv : ∀ x, B *ᵥ (A *ᵥ x + t - t) = x := fun x => by rw [add_sub_cancel_right, Matrix.mulVec_mulVec, hBA, Matrix.one_mulVec]
  refine ⟨?_, ?_, fun q' hq' hb' => ?_⟩
  · obtain ⟨q', h1, h2⟩ := poly_affine B (-(B *ᵥ t)) q
    refine ⟨q', h1.trans hq, fun x => ?_⟩
    dsimp only
    rw [h2, e, Matrix.mulVec_sub, sub_eq_add_neg]
  · simp only [hinv]
    exact hb
  · obtain ⟨q'', h1, h2⟩ := poly_affine A t q'
    simp only [hinv]
    simp only [← h2] at hb' ⊢
    exact ho q'' (h1.trans hq') hb'

/-- The order of the samples does not matter. -/
theorem BestPoly.perm {p : PNorm} {bound : Bound} {d : ℕ} {X : Fin M → Pt m} {fX : Pt M} {g : Pt m → ℝ} (h : BestPoly p bound d X fX g) (σ : Equiv.Perm (Fin M)) :
    BestPoly p bound d (fun i => X (σ i)) (fun i => fX (σ i)) g := by
  obtain ⟨hq, hb, ho⟩ := h
  have hn : ∀ r : Pt M, pnorm p (fun i => r (σ i)) = pnorm p r := by
    intro r
    cases p with
    | one => exact Equiv.sum_comp σ fun i => |r i|
    | two =>
      refine congrArg Real.sqrt ?_
      exact Equiv.sum_comp σ fun i => r i * r i
    | inf => exact Equiv.iSup_comp (g := fun i => |r i|) σ
    | other => rfl
  refine ⟨hq, ?_, fun q hq' hb' => ?_⟩
  · cases bound with
    | none => trivial
    | other => trivial
    | lower => exact fun i => hb (σ i)
    | upper => exact fun i => hb (σ i)
  · have h1 := ho q hq' (by
      cases bound with
      | none => trivial
      | other => trivial
      | lower => intro i; have := hb' (σ.symm i); simpa using this
      | upper => intro i; have := hb' (σ.symm i); simpa using this)
    have e1 := hn ((fun i => g (X i)) - fX)
    have e2 := hn ((fun i => MvPolynomial.eval (X i) q) - fX)
    rw [← e1, ← e2] at h1
    exact h1

theorem respects_closed (bound : Bound) (f : Pt M) : IsClosed {v : Pt M | RespectsBound bound v f} := by
  cases bound with
  | none => simp [RespectsBound]
  | other => simp [RespectsBound]
  | lower =>
    have : {v : Pt M | RespectsBound .lower v f} = ⋂ i, {v | v i ≤ f i} := by ext v; simp [RespectsBound]
    rw [this]
    exact isClosed_iInter fun i => isClosed_le (continuous_apply i) continuous_const
  | upper =>
    have : {v : Pt M | RespectsBound .upper v f} = ⋂ i, {v | f i ≤ v i} := by ext v; simp [RespectsBound]
    rw [this]
    exact isClosed_iInter fun i => isClosed_le continuous_const (continuous_apply i)

/-- Coefficients that are best under the bound exist as soon as some coefficients respect it. -/
theorem best_exists {p : PNorm} (hp : p ≠ .other) (bound : Bound) (A : Matrix (Fin M) (Fin N) ℝ) (b : Pt M) (h0 : ∃ c, RespectsBound bound (A *ᵥ c) b) :
    ∃ c, RespectsBound bound (A *ᵥ c) b ∧ ∀ c', RespectsBound bound (A *ᵥ c') b → pnorm p (A *ᵥ c - b) ≤ pnorm p (A *ᵥ c' - b) := by
  obtain ⟨c0, hc0⟩ := h0
  set K : Set (Pt M) := (LinearMap.range A.mulVecLin : Set (Pt M)) ∩ {v | RespectsBound bound v b} ∩ Metric.closedBall b (pnorm p (A *ᵥ c0 - b)) with hK
  have hcl : IsClosed (LinearMap.range A.mulVecLin : Set (Pt M)) := Submodule.closed_of_finiteDimensional _
  have hcomp : IsCompact K := (isCompact_closedBall b _).inter_left (hcl.inter (respects_closed bound b))
  have hin : ∀ c, RespectsBound bound (A *ᵥ c) b → pnorm p (A *ᵥ c - b) ≤ pnorm p (A *ᵥ c0 - b) → A *ᵥ c ∈ K := by
    intro c hc hle
    refine ⟨⟨⟨c, rfl⟩, hc⟩, ?_⟩
    rw [Metric.mem_closedBall, dist_eq_norm]
    refine (pi_norm_le_iff_of_nonneg ?_).2 fun i => (abs_le_fitnorm hp _ i).trans hle
    cases p with
    | one => exact Finset.sum_nonneg fun i _ => abs_nonneg _
    | two => exact nrm_nonneg _
    | inf => exact Real.iSup_nonneg fun i => abs_nonneg _
    | other => exact absurd rfl hp
  obtain ⟨v, ⟨⟨⟨c, hc⟩, hvb⟩, hvball⟩, hmin⟩ := hcomp.exists_isMinOn ⟨_, hin c0 hc0 le_rfl⟩
    (((pnorm_continuous p).comp (continuous_id.sub continuous_const)).continuousOn (s := K) : ContinuousOn (fun v : Pt M => pnorm p (v - b)) K)
  have hc' : A *ᵥ c = v := hc
  subst hc'
  refine ⟨c, hvb, fun c' hc' => ?_⟩
  have hle0 := hmin (hin c0 hc0 le_rfl)
  rcases le_total (pnorm p (A *ᵥ c' - b)) (pnorm p (A *ᵥ c0 - b)) with hle | hle
  · exact hmin (hin c' hc' hle)
  · exact le_trans hle0 hle

end Verif.Func
