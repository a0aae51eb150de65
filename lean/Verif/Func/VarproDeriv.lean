import Verif.Func.VarproProps
import Mathlib.Algebra.MvPolynomial.PDeriv
import Mathlib.RingTheory.MvPolynomial.Basic
import Mathlib.Analysis.Calculus.Deriv.Pow
import Mathlib.Analysis.Calculus.Deriv.Add
import Mathlib.Analysis.Calculus.Deriv.Slope

/-!
# Property C86: the Jacobian used by the variable projection is the derivative of the residual
-/

namespace Verif.Func

open Verif.Domain Verif.Lip Matrix Filter Topology

variable {M m n N : ℕ}

/-! ## Specification -/

/-- The columns of the basis are polynomials spanning those of total degree at most `d`, and `DV` are their derivatives. -/
def IsPolyBasis (d : ℕ) (B : BasisObj n N) : Prop :=
  ∃ ψ : Fin N → MvPolynomial (Fin n) ℝ, (∀ y j, B.V y j = MvPolynomial.eval y (ψ j)) ∧
    (∀ y j l, B.DV y j l = MvPolynomial.eval y (MvPolynomial.pderiv l (ψ j))) ∧
    Submodule.span ℝ (Set.range ψ) = MvPolynomial.restrictTotalDegree (Fin n) ℝ d

/-- `c` minimizes `|V c - f|`. -/
def IsLsq (V : Matrix (Fin M) (Fin N) ℝ) (f : Pt M) (c : Pt N) : Prop :=
  ∀ c', (f - V *ᵥ c) ⬝ᵥ (f - V *ᵥ c) ≤ (f - V *ᵥ c') ⬝ᵥ (f - V *ᵥ c')

/-! ## Least squares -/

/-- A least squares solution satisfies the normal equations. -/
theorem IsLsq.normal {V : Matrix (Fin M) (Fin N) ℝ} {f : Pt M} {c : Pt N} (h : IsLsq V f c) : Vᵀ *ᵥ (f - V *ᵥ c) = 0 := by
  set r := f - V *ᵥ c with hr
  set g := Vᵀ *ᵥ r with hg
  -- step in the direction `g`
  have hstep : ∀ t : ℝ, r ⬝ᵥ r ≤ (r - t • (V *ᵥ g)) ⬝ᵥ (r - t • (V *ᵥ g)) := by
    intro t
    have := h (c + t • g)
    rw [← hr, mulVec_add, mulVec_smul, ← sub_sub, ← hr] at this
    exact this
  have hgg : r ⬝ᵥ (V *ᵥ g) = g ⬝ᵥ g := by rw [dotProduct_mulVec, ← mulVec_transpose, ← hg]
  clear_value g r
  have hquad : ∀ t : ℝ, 0 ≤ -2 * t * (g ⬝ᵥ g) + t ^ 2 * ((V *ᵥ g) ⬝ᵥ (V *ᵥ g)) := by
    intro t
    have := hstep t
    rw [sub_dotProduct, dotProduct_sub, dotProduct_sub, dotProduct_smul, smul_dotProduct, smul_dotProduct, dotProduct_smul,
      dotProduct_comm (V *ᵥ g) r, hgg] at this
    simp only [smul_eq_mul] at this
    nlinarith
  have hnn := dotProduct_self_nonneg' (V *ᵥ g)
  have hgn := dotProduct_self_nonneg' g
  have hz : g ⬝ᵥ g = 0 := by
    by_contra hne
    have hpos : 0 < g ⬝ᵥ g := lt_of_le_of_ne hgn (Ne.symm hne)
    set a := g ⬝ᵥ g
    set b := (V *ᵥ g) ⬝ᵥ (V *ᵥ g)
    have := hquad (a / (b + a))
    have hba : 0 < b + a := by linarith
    have e : -2 * (a / (b + a)) * a + (a / (b + a)) ^ 2 * b = a ^ 2 / (b + a) ^ 2 * (-b - 2 * a) := by field_simp; ring
    rw [e] at this
    have h2 : 0 < a ^ 2 / (b + a) ^ 2 := by positivity
    nlinarith
  exact dotProduct_self_eq_zero.1 hz

/-- The normal equations characterize least squares solutions. -/
theorem isLsq_iff {V : Matrix (Fin M) (Fin N) ℝ} {f : Pt M} {c : Pt N} : IsLsq V f c ↔ Vᵀ *ᵥ (f - V *ᵥ c) = 0 := by
  refine ⟨IsLsq.normal, fun h c' => ?_⟩
  set r := f - V *ᵥ c with hr
  have e : f - V *ᵥ c' = r + V *ᵥ (c - c') := by rw [hr, mulVec_sub]; abel
  have hz : r ⬝ᵥ (V *ᵥ (c - c')) = 0 := by rw [dotProduct_mulVec, ← mulVec_transpose, h, zero_dotProduct]
  clear_value r
  rw [e, add_dotProduct, dotProduct_add, dotProduct_add, hz, dotProduct_comm (V *ᵥ (c - c')) r, hz]
  have := dotProduct_self_nonneg' (V *ᵥ (c - c'))
  linarith

/-- The coefficients used for the Arnoldi basis are least squares solutions if the columns are orthonormal. -/
theorem arnoldiCoef_isLsq {V : Matrix (Fin M) (Fin N) ℝ} (hV : Vᵀ * V = 1) (f : Pt M) : IsLsq V f (arnoldiCoef V f) := by
  rw [isLsq_iff, arnoldiCoef, mulVec_sub, mulVec_mulVec, hV, one_mulVec, sub_self]

/-- The residual depends only on the column space. -/
theorem residual_unique {N' : ℕ} {V : Matrix (Fin M) (Fin N) ℝ} {V' : Matrix (Fin M) (Fin N') ℝ} {f : Pt M} {c : Pt N} {c' : Pt N'}
    (h1 : ∀ a, ∃ b, V *ᵥ a = V' *ᵥ b) (h2 : ∀ b, ∃ a, V' *ᵥ b = V *ᵥ a) (h : Vᵀ *ᵥ (f - V *ᵥ c) = 0) (h' : V'ᵀ *ᵥ (f - V' *ᵥ c') = 0) :
    f - V *ᵥ c = f - V' *ᵥ c' := by
  set r := f - V *ᵥ c with hr
  set r' := f - V' *ᵥ c' with hr'
  obtain ⟨b, hb⟩ := h1 c
  obtain ⟨a, ha⟩ := h2 c'
  have hd1 : r - r' = V *ᵥ (a - c) := by rw [hr, hr', mulVec_sub, ← ha]; abel
  have hd2 : r - r' = V' *ᵥ (c' - b) := by rw [hr, hr', mulVec_sub, ← hb]; abel
  have z1 : r ⬝ᵥ (r - r') = 0 := by rw [hd1, dotProduct_mulVec, ← mulVec_transpose, h, zero_dotProduct]
  have z2 : r' ⬝ᵥ (r - r') = 0 := by rw [hd2, dotProduct_mulVec, ← mulVec_transpose, h', zero_dotProduct]
  have : (r - r') ⬝ᵥ (r - r') = 0 := by rw [sub_dotProduct, z1, z2, sub_zero]
  exact sub_eq_zero.1 (dotProduct_self_eq_zero.1 this)

/-- Two polynomial bases of the same degree have the same column space at every set of points. -/
theorem IsPolyBasis.same {d : ℕ} {N' : ℕ} {B : BasisObj n N} {B' : BasisObj n N'} (h : IsPolyBasis d B) (h' : IsPolyBasis d B') (Y : Fin M → Pt n)
    (a : Pt N) : ∃ b, (Matrix.of fun i => B.V (Y i)) *ᵥ a = (Matrix.of fun i => B'.V (Y i)) *ᵥ b := by
  obtain ⟨ψ, hV, -, hs⟩ := h
  obtain ⟨ψ', hV', -, hs'⟩ := h'
  have hmem : ∑ j, a j • ψ j ∈ Submodule.span ℝ (Set.range ψ') := by
    rw [hs', ← hs]
    exact Submodule.sum_mem _ fun j _ => Submodule.smul_mem _ _ (Submodule.subset_span ⟨j, rfl⟩)
  obtain ⟨b, hb⟩ := (Submodule.mem_span_range_iff_exists_fun ℝ).1 hmem
  refine ⟨b, ?_⟩
  funext i
  have := congrArg (MvPolynomial.eval (Y i)) hb
  simp only [map_sum, MvPolynomial.smul_eval] at this
  simp only [mulVec, dotProduct, Matrix.of_apply, hV, hV']
  rw [Finset.sum_congr rfl fun j _ => mul_comm _ (a j), Finset.sum_congr rfl fun j _ => mul_comm _ (b j)]
  exact this.symm

/-! ## Calculus -/

/-- The solution of a linear system depends differentiably on the system. -/
theorem hasDerivAt_linsolve {q : ℕ} {A : ℝ → Matrix (Fin q) (Fin q) ℝ} {A' : Matrix (Fin q) (Fin q) ℝ} {b x : ℝ → Fin q → ℝ} {b' : Fin q → ℝ} {t : ℝ}
    (hA : ∀ i j, HasDerivAt (fun s => A s i j) (A' i j) t) (hb : ∀ i, HasDerivAt (fun s => b s i) (b' i) t) (hdet : (A t).det ≠ 0)
    (hx : ∀ᶠ s in 𝓝 t, A s *ᵥ x s = b s) (j : Fin q) : HasDerivAt (fun s => x s j) (((A t)⁻¹ *ᵥ (b' - A' *ᵥ x t)) j) t := by
  have hxt : A t *ᵥ x t = b t := hx.self_of_nhds
  have hcont : ContinuousAt A t := continuousAt_pi.2 fun i => continuousAt_pi.2 fun j => (hA i j).continuousAt
  have hbc : ContinuousAt b t := continuousAt_pi.2 fun i => (hb i).continuousAt
  have hdet' : ∀ᶠ s in 𝓝 t, (A s).det ≠ 0 :=
    (((continuous_id.matrix_det).continuousAt.comp hcont : ContinuousAt (fun s => (A s).det) t)).eventually_ne hdet
  have hxeq : ∀ᶠ s in 𝓝 t, x s = (A s)⁻¹ *ᵥ b s := by
    filter_upwards [hx, hdet'] with s hs hd
    rw [← hs, mulVec_mulVec, Matrix.nonsing_inv_mul _ (isUnit_iff_ne_zero.2 hd), one_mulVec]
  have hxc : ContinuousAt x t := by
    have hinv : ContinuousAt (fun s => ((A s).det)⁻¹ • ((A s).adjugate *ᵥ b s)) t := by
      have c1 : ContinuousAt (fun s => ((A s).det)⁻¹) t :=
        ContinuousAt.inv₀ ((continuous_id.matrix_det).continuousAt.comp hcont) hdet
      have c2 : ContinuousAt (fun s => (A s).adjugate *ᵥ b s) t := by
        have hc : Continuous fun B : Matrix (Fin q) (Fin q) ℝ × (Fin q → ℝ) => B.1.adjugate *ᵥ B.2 :=
          (continuous_fst.matrix_adjugate).matrix_mulVec continuous_snd
        exact hc.continuousAt.comp (f := fun s => (A s, b s)) (hcont.prodMk hbc)
      exact c1.smul c2
    refine hinv.congr ?_
    filter_upwards [hxeq] with s hs
    rw [hs, Matrix.inv_def, Ring.inverse_eq_inv', smul_mulVec]
  rw [hasDerivAt_iff_tendsto_slope]
  have hq : ∀ᶠ s in 𝓝[≠] t, slope (fun s => x s j) t s =
      ∑ i, (A t)⁻¹ j i * (slope (fun s => b s i) t s - ∑ l, slope (fun s => A s i l) t s * x s l) := by
    filter_upwards [hx.filter_mono nhdsWithin_le_nhds] with s hs
    have e1 : x s - x t = (A t)⁻¹ *ᵥ ((b s - b t) - (A s - A t) *ᵥ x s) := by
      have : (b s - b t) - (A s - A t) *ᵥ x s = A t *ᵥ (x s - x t) := by
        rw [sub_mulVec, hs, mulVec_sub, hxt]; abel
      rw [this, mulVec_mulVec, Matrix.nonsing_inv_mul _ (isUnit_iff_ne_zero.2 hdet), one_mulVec]
    have e2 := congrFun e1 j
    simp only [slope_def_field]
    rw [show x s j - x t j = (x s - x t) j from rfl, e2]
    simp only [mulVec, dotProduct, Pi.sub_apply, Matrix.sub_apply]
    rw [div_eq_inv_mul, Finset.mul_sum]
    refine Finset.sum_congr rfl fun i _ => ?_
    have hsum : ∑ l, (A s i l - A t i l) / (s - t) * x s l = (s - t)⁻¹ * ∑ l, (A s i l - A t i l) * x s l := by
      rw [Finset.mul_sum]
      refine Finset.sum_congr rfl fun l _ => ?_
      ring
    rw [hsum]
    ring
  refine Tendsto.congr' (hq.mono fun s hs => hs.symm) ?_
  have e3 : ((A t)⁻¹ *ᵥ (b' - A' *ᵥ x t)) j = ∑ i, (A t)⁻¹ j i * (b' i - ∑ l, A' i l * x t l) := rfl
  rw [e3]
  refine tendsto_finsetSum _ fun i _ => Tendsto.const_mul _ ?_
  refine Tendsto.sub (hasDerivAt_iff_tendsto_slope.1 (hb i)) (tendsto_finsetSum _ fun l _ => ?_)
  exact Tendsto.mul (hasDerivAt_iff_tendsto_slope.1 (hA i l)) (((continuousAt_pi.1 hxc l).tendsto).mono_left nhdsWithin_le_nhds)

/-- The derivative of a polynomial along a line. -/
theorem hasDerivAt_poly (p : MvPolynomial (Fin n) ℝ) (y v : Pt n) :
    HasDerivAt (fun t : ℝ => MvPolynomial.eval (y + t • v) p) (∑ l, v l * MvPolynomial.eval y (MvPolynomial.pderiv l p)) 0 := by
  induction p using MvPolynomial.induction_on with
  | C a =>
    simp only [MvPolynomial.eval_C, MvPolynomial.pderiv_C, map_zero, mul_zero, Finset.sum_const_zero]
    exact hasDerivAt_const 0 a
  | add p q hp hq =>
    simp only [map_add, mul_add, Finset.sum_add_distrib]
    exact hp.add hq
  | mul_X p i hp =>
    simp only [map_mul, MvPolynomial.eval_X]
    have hi : HasDerivAt (fun t : ℝ => (y + t • v) i) (v i) 0 := by
      simp only [Pi.add_apply, Pi.smul_apply, smul_eq_mul]
      have := ((hasDerivAt_id (0 : ℝ)).mul_const (v i)).const_add (y i)
      simpa using this
    refine (hp.mul hi).congr_deriv ?_
    simp only [zero_smul, add_zero, Derivation.leibniz, MvPolynomial.pderiv_X, smul_eq_mul, map_add, map_mul, MvPolynomial.eval_X, mul_add,
      Finset.sum_add_distrib]
    rw [add_comm]
    congr 1
    · rw [Finset.sum_eq_single i]
      · simp; ring
      · intro l _ hl
        rw [Pi.single_apply, if_neg (Ne.symm hl)]; simp
      · simp
    · rw [Finset.sum_mul]
      refine Finset.sum_congr rfl fun l _ => ?_
      ring

/-! ## The Jacobian -/

/-- The Jacobian formula applied to one matrix `D` in place of `DVDU_k`. -/
noncomputable def jacOf {p : ℕ} (V D : Matrix (Fin M) (Fin N) ℝ) (fX : Pt M) (c : Pt N) (Y : Matrix (Fin M) (Fin p) ℝ) (s : Fin p → ℝ)
    (ZT : Matrix (Fin p) (Fin N) ℝ) : Pt M :=
  -((D *ᵥ c - Y *ᵥ (Yᵀ *ᵥ (D *ᵥ c))) + Y *ᵥ (Matrix.diagonal (fun a => 1 / s a) *ᵥ (ZT *ᵥ (Dᵀ *ᵥ (fX - V *ᵥ c)))))

/-- The derivative of the Vandermonde matrix in the direction `Delta`. -/
def dirV (B : BasisObj n N) (X : Fin M → Pt m) (U Delta : Matrix (Fin m) (Fin n) ℝ) : Matrix (Fin M) (Fin N) ℝ :=
  ∑ k, ∑ l, Delta k l • dvdu B X U k l

theorem jacOf_linear {p : ℕ} (V : Matrix (Fin M) (Fin N) ℝ) (fX : Pt M) (c : Pt N) (Y : Matrix (Fin M) (Fin p) ℝ) (s : Fin p → ℝ)
    (ZT : Matrix (Fin p) (Fin N) ℝ) (D : Fin m → Fin n → Matrix (Fin M) (Fin N) ℝ) (a : Fin m → Fin n → ℝ) :
    jacOf V (∑ k, ∑ l, a k l • D k l) fX c Y s ZT = ∑ k, ∑ l, a k l • jacOf V (D k l) fX c Y s ZT := by
  have hadd : ∀ D1 D2, jacOf V (D1 + D2) fX c Y s ZT = jacOf V D1 fX c Y s ZT + jacOf V D2 fX c Y s ZT := by
    intro D1 D2
    simp only [jacOf, Matrix.add_mulVec, mulVec_add, Matrix.transpose_add]
    abel
  have hsmul : ∀ (x : ℝ) D1, jacOf V (x • D1) fX c Y s ZT = x • jacOf V D1 fX c Y s ZT := by
    intro x D1
    simp only [jacOf, smul_mulVec, mulVec_smul, Matrix.transpose_smul, smul_neg, smul_add, smul_sub]
  let F : Matrix (Fin M) (Fin N) ℝ →ₗ[ℝ] Pt M :=
    { toFun := fun D1 => jacOf V D1 fX c Y s ZT, map_add' := hadd, map_smul' := hsmul }
  have : F (∑ k, ∑ l, a k l • D k l) = ∑ k, ∑ l, a k l • F (D k l) := by
    simp only [map_sum, map_smul]
  exact this

/-- The Jacobian applied to a direction is the formula with the derivative of the Vandermonde matrix in that direction. -/
theorem varproJacobian_apply {p : ℕ} (B : BasisObj n N) (X : Fin M → Pt m) (fX : Pt M) (U : Matrix (Fin m) (Fin n) ℝ) (c : Pt N)
    (Y : Matrix (Fin M) (Fin p) ℝ) (s : Fin p → ℝ) (ZT : Matrix (Fin p) (Fin N) ℝ) (Delta : Matrix (Fin m) (Fin n) ℝ) :
    flatJac (varproJacobian B X fX U c Y s ZT) *ᵥ flat Delta = jacOf (vandU B X U) (dirV B X U Delta) fX c Y s ZT := by
  have hlin := jacOf_linear (vandU B X U) fX c Y s ZT (fun k l => dvdu B X U k l) (fun k l => Delta k l)
  refine Eq.trans ?_ hlin.symm
  funext i
  have h1 : (flatJac (varproJacobian B X fX U c Y s ZT) *ᵥ flat Delta) i = ∑ k, ∑ l, varproJacobian B X fX U c Y s ZT i k l * Delta k l := by
    show flat (Matrix.of (varproJacobian B X fX U c Y s ZT i)) ⬝ᵥ flat Delta = _
    rw [flat_dot]
    refine Finset.sum_congr rfl fun k _ => Finset.sum_congr rfl fun l _ => ?_
    simp [flat, unflat]
  rw [h1]
  simp only [Finset.sum_apply, Pi.smul_apply, smul_eq_mul]
  refine Finset.sum_congr rfl fun k _ => Finset.sum_congr rfl fun l _ => ?_
  rw [mul_comm]
  congr 1
  simp only [varproJacobian, jacOf, Pi.neg_apply, Pi.add_apply, Pi.sub_apply, zero_sub]

/-- `Y`, `s`, `ZT` decompose `V`, which has full column rank. -/
structure FullRank {p : ℕ} (V : Matrix (Fin M) (Fin N) ℝ) (Y : Matrix (Fin M) (Fin p) ℝ) (s : Fin p → ℝ) (ZT : Matrix (Fin p) (Fin N) ℝ) : Prop where
  orthY : Yᵀ * Y = 1
  orthZ : ZT * ZTᵀ = 1
  orthZ' : ZTᵀ * ZT = 1
  pos : ∀ i, 0 < s i
  eq : V = Y * Matrix.diagonal s * ZT

/-- The singular value decomposition is of this kind if there are at least as many samples as columns and no singular value
vanishes. -/
theorem IsTSvd.fullRank (hN : N ≤ M) {V : Matrix (Fin M) (Fin N) ℝ} {d : TSvd M N} (hd : IsTSvd V d) (hs : ∀ i, d.s i ≠ 0) :
    FullRank V d.Y d.s d.ZT :=
  ⟨hd.orthY, hd.orthZ, tsvd_ZZ hN hd, fun i => lt_of_le_of_ne (hd.nonneg i) (hs i).symm, hd.eq⟩

/-- The choice for the Arnoldi basis, polyridge.py 475-478. -/
theorem fullRank_arnoldi {V : Matrix (Fin M) (Fin N) ℝ} (hV : Vᵀ * V = 1) : FullRank V V (fun _ => 1) (1 : Matrix (Fin N) (Fin N) ℝ) := by
  refine ⟨hV, ?_, ?_, fun _ => one_pos, ?_⟩
  · rw [Matrix.transpose_one, Matrix.mul_one]
  · rw [Matrix.transpose_one, Matrix.mul_one]
  · rw [Matrix.mul_one]
    show V = V * Matrix.diagonal (1 : Fin N → ℝ)
    rw [show (Matrix.diagonal (1 : Fin N → ℝ)) = 1 from Matrix.diagonal_one, Matrix.mul_one]

theorem FullRank.gram {p : ℕ} {V : Matrix (Fin M) (Fin N) ℝ} {Y : Matrix (Fin M) (Fin p) ℝ} {s : Fin p → ℝ} {ZT : Matrix (Fin p) (Fin N) ℝ}
    (h : FullRank V Y s ZT) : V * (Vᵀ * V)⁻¹ = Y * Matrix.diagonal (fun a => 1 / s a) * ZT ∧ (Vᵀ * V).det ≠ 0 := by
  set S := Matrix.diagonal s with hS
  set Si := Matrix.diagonal (fun a => 1 / s a) with hSi
  have h1 : S * Si = 1 := by
    rw [hS, hSi, Matrix.diagonal_mul_diagonal, ← Matrix.diagonal_one]
    congr 1; funext i
    exact mul_one_div_cancel (h.pos i).ne'
  have hSt : Sᵀ = S := by rw [hS, Matrix.diagonal_transpose]
  have hVV : Vᵀ * V = ZTᵀ * S * S * ZT := by
    rw [h.eq, Matrix.transpose_mul, Matrix.transpose_mul, hSt]
    calc ZTᵀ * (S * Yᵀ) * (Y * S * ZT) = ZTᵀ * (S * ((Yᵀ * Y) * (S * ZT))) := by simp only [Matrix.mul_assoc]
      _ = _ := by rw [h.orthY, Matrix.one_mul]; simp only [Matrix.mul_assoc]
  have hinv : (Vᵀ * V) * (ZTᵀ * Si * Si * ZT) = 1 := by
    rw [hVV]
    calc ZTᵀ * S * S * ZT * (ZTᵀ * Si * Si * ZT) = ZTᵀ * S * S * ((ZT * ZTᵀ) * (Si * Si * ZT)) := by simp only [Matrix.mul_assoc]
      _ = ZTᵀ * S * (S * Si) * Si * ZT := by rw [h.orthZ, Matrix.one_mul]; simp only [Matrix.mul_assoc]
      _ = ZTᵀ * (S * Si) * ZT := by
        conv_lhs => rw [h1, Matrix.mul_one]
        simp only [Matrix.mul_assoc]
      _ = 1 := by rw [h1, Matrix.mul_one, h.orthZ']
  constructor
  · rw [Matrix.inv_eq_right_inv hinv, h.eq]
    calc Y * S * ZT * (ZTᵀ * Si * Si * ZT) = Y * S * ((ZT * ZTᵀ) * (Si * Si * ZT)) := by simp only [Matrix.mul_assoc]
      _ = Y * (S * Si) * Si * ZT := by rw [h.orthZ, Matrix.one_mul]; simp only [Matrix.mul_assoc]
      _ = Y * Si * ZT := by rw [h1, Matrix.mul_one]
  · intro h0
    have := congrArg Matrix.det hinv
    rw [Matrix.det_mul, h0, zero_mul, Matrix.det_one] at this
    exact zero_ne_one this

/-- The Vandermonde matrix along a line. -/
theorem hasDerivAt_vand {d : ℕ} {B : BasisObj n N} (hB : IsPolyBasis d B) (X : Fin M → Pt m) (U Delta : Matrix (Fin m) (Fin n) ℝ) (i : Fin M) (j : Fin N) :
    HasDerivAt (fun t : ℝ => vandU B X (U + t • Delta) i j) (dirV B X U Delta i j) 0 := by
  obtain ⟨ψ, hV, hD, -⟩ := hB
  have e1 : (fun t : ℝ => vandU B X (U + t • Delta) i j) = fun t : ℝ => MvPolynomial.eval (projY U (X i) + t • projY Delta (X i)) (ψ j) := by
    funext t
    simp only [vandU, Matrix.of_apply, hV]
    congr 2
    simp only [projY, Matrix.transpose_add, Matrix.transpose_smul, Matrix.add_mulVec, smul_mulVec]
  rw [e1]
  refine (hasDerivAt_poly (ψ j) _ _).congr_deriv ?_
  have e2 : dirV B X U Delta i j = ∑ k, ∑ l, Delta k l * (X i k * B.DV (projY U (X i)) j l) := by
    simp only [dirV, Matrix.sum_apply, Matrix.smul_apply, smul_eq_mul, dvdu, Matrix.of_apply]
  rw [e2, Finset.sum_comm]
  refine Finset.sum_congr rfl fun l _ => ?_
  rw [← hD]
  simp only [projY, mulVec, dotProduct, Matrix.transpose_apply, Finset.sum_mul]
  refine Finset.sum_congr rfl fun k _ => ?_
  ring

/-- **C86**: the Jacobian is the derivative of the residual in every direction, although the basis is rebuilt (rescaled,
reorthogonalized) for every `U` in the residual, and `DV` is that of the basis at `U`: as long as the Vandermonde matrix at `U` has full
column rank. `coef` is any routine returning least squares solutions, `(Y, s, ZT)` any decomposition. -/
theorem varpro_derivative {d p : ℕ} (mk : (Fin M → Pt n) → BasisObj n N) (hmk : ∀ Y, IsPolyBasis d (mk Y))
    (coef : Matrix (Fin M) (Fin N) ℝ → Pt M → Pt N) (X : Fin M → Pt m) (fX : Pt M) (U Delta : Matrix (Fin m) (Fin n) ℝ)
    (hcoef : ∀ U' : Matrix (Fin m) (Fin n) ℝ, IsLsq (vandU (mk fun i => projY U' (X i)) X U') fX (coef (vandU (mk fun i => projY U' (X i)) X U') fX))
    (Y : Matrix (Fin M) (Fin p) ℝ) (s : Fin p → ℝ) (ZT : Matrix (Fin p) (Fin N) ℝ)
    (hfull : FullRank (vandU (mk fun i => projY U (X i)) X U) Y s ZT) (i : Fin M) :
    HasDerivAt (fun t : ℝ => varproResidual mk coef X fX (U + t • Delta) i)
      ((flatJac (varproJacobian (mk fun i => projY U (X i)) X fX U (coef (vandU (mk fun i => projY U (X i)) X U) fX) Y s ZT) *ᵥ flat Delta) i) 0 := by
  set B := mk fun i => projY U (X i) with hB
  have hpoly : IsPolyBasis d B := hmk _
  set V : ℝ → Matrix (Fin M) (Fin N) ℝ := fun t => vandU B X (U + t • Delta) with hVdef
  have hV0 : V 0 = vandU B X U := by simp [hVdef]
  set D := dirV B X U Delta with hDdef
  have hVd : ∀ i j, HasDerivAt (fun t => V t i j) (D i j) 0 := fun i j => hasDerivAt_vand hpoly X U Delta i j
  set A : ℝ → Matrix (Fin N) (Fin N) ℝ := fun t => (V t)ᵀ * V t with hAdef
  have hAd : ∀ a b, HasDerivAt (fun t => A t a b) ((Dᵀ * V 0 + (V 0)ᵀ * D) a b) 0 := by
    intro a b
    have : (fun t => A t a b) = fun t => ∑ i, V t i a * V t i b := by
      funext t; simp only [hAdef, Matrix.mul_apply, Matrix.transpose_apply]
    rw [this]
    refine (HasDerivAt.fun_sum fun i _ => (hVd i a).mul (hVd i b)).congr_deriv ?_
    rw [Matrix.add_apply, Matrix.mul_apply, Matrix.mul_apply, ← Finset.sum_add_distrib]
    rfl
  have hbd : ∀ a, HasDerivAt (fun t => ((V t)ᵀ *ᵥ fX) a) ((Dᵀ *ᵥ fX) a) 0 := by
    intro a
    have : (fun t => ((V t)ᵀ *ᵥ fX) a) = fun t => ∑ i, V t i a * fX i := by
      funext t; simp only [mulVec, dotProduct, Matrix.transpose_apply]
    rw [this]
    exact HasDerivAt.fun_sum fun i _ => (hVd i a).mul_const (fX i)
  have hg := hfull.gram
  have hdet : (A 0).det ≠ 0 := by simp only [hAdef]; rw [hV0]; exact hg.2
  have hcont : ContinuousAt A 0 := continuousAt_pi.2 fun i => continuousAt_pi.2 fun j => (hAd i j).continuousAt
  have hdet' : ∀ᶠ t in 𝓝 (0 : ℝ), (A t).det ≠ 0 :=
    (((continuous_id.matrix_det).continuousAt.comp hcont : ContinuousAt (fun s => (A s).det) 0)).eventually_ne hdet
  -- the coefficients in the fixed basis
  set c : ℝ → Pt N := fun t => (A t)⁻¹ *ᵥ ((V t)ᵀ *ᵥ fX) with hcdef
  have hc : ∀ᶠ t in 𝓝 (0 : ℝ), A t *ᵥ c t = (V t)ᵀ *ᵥ fX := by
    filter_upwards [hdet'] with t ht
    simp only [hcdef]
    rw [mulVec_mulVec, Matrix.mul_nonsing_inv _ (isUnit_iff_ne_zero.2 ht), one_mulVec]
  have hnormal : ∀ t, A t *ᵥ c t = (V t)ᵀ *ᵥ fX → (V t)ᵀ *ᵥ (fX - V t *ᵥ c t) = 0 := by
    intro t ht
    rw [mulVec_sub, mulVec_mulVec, ← ht, sub_self]
  -- the residual of the code is that of the fixed basis
  have hres : ∀ᶠ t in 𝓝 (0 : ℝ), varproResidual mk coef X fX (U + t • Delta) i = (fX - V t *ᵥ c t) i := by
    filter_upwards [hc] with t ht
    have := residual_unique (f := fX) (IsPolyBasis.same (hmk _) hpoly fun i => projY (U + t • Delta) (X i))
      (IsPolyBasis.same hpoly (hmk _) fun i => projY (U + t • Delta) (X i)) (hcoef (U + t • Delta)).normal (hnormal t ht)
    exact congrFun this i
  have hcd := hasDerivAt_linsolve hAd hbd hdet hc
  set c' := (A 0)⁻¹ *ᵥ (Dᵀ *ᵥ fX - (Dᵀ * V 0 + (V 0)ᵀ * D) *ᵥ c 0) with hc'
  -- differentiate the residual
  have hrd : HasDerivAt (fun t => (fX - V t *ᵥ c t) i) (-(∑ j, (D i j * c 0 j + V 0 i j * c' j))) 0 := by
    have e : (fun t => (fX - V t *ᵥ c t) i) = fun t => fX i - ∑ j, V t i j * c t j := by
      funext t; rfl
    rw [e]
    exact (HasDerivAt.fun_sum fun j _ => (hVd i j).mul (hcd j)).const_sub (fX i)
  refine (hrd.congr_of_eventuallyEq hres).congr_deriv ?_
  rw [varproJacobian_apply, ← hDdef]
  -- the coefficients at zero agree
  have hcoef0 : coef (vandU B X U) fX = c 0 := by
    have h1 := (hcoef U).normal
    rw [mulVec_sub, mulVec_mulVec, sub_eq_zero] at h1
    have h2 : A 0 *ᵥ coef (vandU B X U) fX = (V 0)ᵀ *ᵥ fX := by simp only [hAdef]; rw [hV0]; exact h1.symm
    simp only [hcdef]
    rw [← h2, mulVec_mulVec, Matrix.nonsing_inv_mul _ (isUnit_iff_ne_zero.2 hdet), one_mulVec]
  rw [hcoef0, ← hV0]
  set r := fX - V 0 *ᵥ c 0 with hr
  have hrhs : Dᵀ *ᵥ fX - (Dᵀ * V 0 + (V 0)ᵀ * D) *ᵥ c 0 = Dᵀ *ᵥ r - (V 0)ᵀ *ᵥ (D *ᵥ c 0) := by
    simp only [hr, Matrix.add_mulVec, mulVec_sub, mulVec_mulVec]; abel
  have hVc : V 0 *ᵥ c' = Y *ᵥ (Matrix.diagonal (fun a => 1 / s a) *ᵥ (ZT *ᵥ (Dᵀ *ᵥ r))) - Y *ᵥ (Yᵀ *ᵥ (D *ᵥ c 0)) := by
    rw [hc', hrhs, mulVec_mulVec]
    have h1 : V 0 * (A 0)⁻¹ = Y * Matrix.diagonal (fun a => 1 / s a) * ZT := by simp only [hAdef]; rw [hV0]; exact hg.1
    rw [h1, mulVec_sub]
    congr 1
    · simp only [mulVec_mulVec, Matrix.mul_assoc]
    · have h2 : Y * Matrix.diagonal (fun a => 1 / s a) * ZT * (V 0)ᵀ = Y * Yᵀ := by
        rw [hV0, hfull.eq, Matrix.transpose_mul, Matrix.transpose_mul, Matrix.diagonal_transpose]
        calc Y * Matrix.diagonal (fun a => 1 / s a) * ZT * (ZTᵀ * (Matrix.diagonal s * Yᵀ))
            = Y * (Matrix.diagonal (fun a => 1 / s a) * ((ZT * ZTᵀ) * (Matrix.diagonal s * Yᵀ))) := by simp only [Matrix.mul_assoc]
          _ = Y * ((Matrix.diagonal (fun a => 1 / s a) * Matrix.diagonal s) * Yᵀ) := by rw [hfull.orthZ, Matrix.one_mul]; simp only [Matrix.mul_assoc]
          _ = Y * Yᵀ := by
            rw [Matrix.diagonal_mul_diagonal]
            have : (fun a => 1 / s a * s a) = fun _ => 1 := by funext a; exact one_div_mul_cancel (hfull.pos a).ne'
            rw [this, Matrix.diagonal_one, Matrix.one_mul]
      rw [mulVec_mulVec, h2]
      simp only [mulVec_mulVec, Matrix.mul_assoc]
  have hsum : ∑ j, (D i j * c 0 j + V 0 i j * c' j) = (D *ᵥ c 0 + V 0 *ᵥ c') i := by
    rw [Finset.sum_add_distrib]; rfl
  rw [hsum, hVc]
  simp only [jacOf, Pi.neg_apply, Pi.add_apply, Pi.sub_apply]
  rw [← hr]
  ring

/-- `X_k ∂_l` does not raise the degree. -/
theorem euler_degree {d : ℕ} {q : MvPolynomial (Fin n) ℝ} (hq : q ∈ MvPolynomial.restrictTotalDegree (Fin n) ℝ d) (k l : Fin n) :
    MvPolynomial.X k * MvPolynomial.pderiv l q ∈ MvPolynomial.restrictTotalDegree (Fin n) ℝ d := by
  rw [MvPolynomial.mem_restrictTotalDegree] at hq
  rw [q.as_sum, map_sum, Finset.mul_sum]
  refine Submodule.sum_mem _ fun v hv => ?_
  rw [MvPolynomial.mem_restrictTotalDegree, MvPolynomial.pderiv_monomial, MvPolynomial.X, MvPolynomial.monomial_mul]
  by_cases h0 : v l = 0
  · simp [h0]
  · refine (MvPolynomial.totalDegree_monomial_le _ _).trans (le_trans (le_of_eq ?_) ((MvPolynomial.le_totalDegree hv).trans hq))
    have hle : Finsupp.single l 1 ≤ v := by
      rw [Finsupp.single_le_iff]; omega
    have hv' : v = (v - Finsupp.single l 1) + Finsupp.single l 1 := (tsub_add_cancel_of_le hle).symm
    conv_rhs => rw [hv']
    rw [Finsupp.sum_add_index' (fun _ => rfl) (fun _ _ _ => rfl), Finsupp.sum_add_index' (fun _ => rfl) (fun _ _ _ => rfl),
      Finsupp.sum_single_index rfl, Finsupp.sum_single_index rfl, add_comm]
    rfl

/-- Inside the subspace the Vandermonde matrix changes by combinations of its columns. -/
theorem dirV_inside {d : ℕ} {B : BasisObj n N} (hB : IsPolyBasis d B) (X : Fin M → Pt m) (U : Matrix (Fin m) (Fin n) ℝ) (W : Matrix (Fin n) (Fin n) ℝ) :
    ∃ K : Matrix (Fin N) (Fin N) ℝ, dirV B X U (U * W) = vandU B X U * K := by
  obtain ⟨ψ, hV, hD, hs⟩ := hB
  have hmem : ∀ j, ∑ l, ∑ k, W k l • (MvPolynomial.X k * MvPolynomial.pderiv l (ψ j)) ∈ Submodule.span ℝ (Set.range ψ) := by
    intro j
    rw [hs]
    have hj : ψ j ∈ MvPolynomial.restrictTotalDegree (Fin n) ℝ d := by rw [← hs]; exact Submodule.subset_span ⟨j, rfl⟩
    exact Submodule.sum_mem _ fun l _ => Submodule.sum_mem _ fun k _ => Submodule.smul_mem _ _ (euler_degree hj k l)
  choose K hK using fun j => (Submodule.mem_span_range_iff_exists_fun ℝ).1 (hmem j)
  refine ⟨Matrix.of fun a j => K j a, ?_⟩
  ext i j
  have h := congrArg (MvPolynomial.eval (projY U (X i))) (hK j)
  simp only [map_sum, MvPolynomial.smul_eval, map_mul, MvPolynomial.eval_X] at h
  have e2 : dirV B X U (U * W) i j = ∑ k, ∑ l, (U * W) k l * (X i k * B.DV (projY U (X i)) j l) := by
    simp only [dirV, Matrix.sum_apply, Matrix.smul_apply, smul_eq_mul, dvdu, Matrix.of_apply]
  rw [e2, Matrix.mul_apply]
  simp only [vandU, Matrix.of_apply, hV]
  rw [Finset.sum_congr rfl fun a _ => mul_comm _ (K j a), h, Finset.sum_comm]
  refine Finset.sum_congr rfl fun l _ => ?_
  simp only [hD]
  simp only [Matrix.mul_apply, projY, mulVec, dotProduct, Matrix.transpose_apply, Finset.sum_mul, Finset.mul_sum]
  rw [Finset.sum_comm]
  refine Finset.sum_congr rfl fun a _ => Finset.sum_congr rfl fun k _ => ?_
  ring

/-- **C86**, consequence: the Jacobian does not see changes inside the subspace, as `gnDirection_tangent` needs. -/
theorem varpro_null {d p : ℕ} (mk : (Fin M → Pt n) → BasisObj n N) (hmk : ∀ Y, IsPolyBasis d (mk Y))
    (coef : Matrix (Fin M) (Fin N) ℝ → Pt M → Pt N) (X : Fin M → Pt m) (fX : Pt M) (U : Matrix (Fin m) (Fin n) ℝ)
    (hcoef : ∀ U' : Matrix (Fin m) (Fin n) ℝ, IsLsq (vandU (mk fun i => projY U' (X i)) X U') fX (coef (vandU (mk fun i => projY U' (X i)) X U') fX))
    (Y : Matrix (Fin M) (Fin p) ℝ) (s : Fin p → ℝ) (ZT : Matrix (Fin p) (Fin N) ℝ)
    (hfull : FullRank (vandU (mk fun i => projY U (X i)) X U) Y s ZT) (W : Matrix (Fin n) (Fin n) ℝ) :
    flatJac (varproJacobian (mk fun i => projY U (X i)) X fX U (coef (vandU (mk fun i => projY U (X i)) X U) fX) Y s ZT) *ᵥ flat (U * W) = 0 := by
  obtain ⟨K, hK⟩ := dirV_inside (hmk fun i => projY U (X i)) X U W
  rw [varproJacobian_apply, hK]
  set V := vandU (mk fun i => projY U (X i)) X U with hV
  have hn := (hcoef U).normal
  rw [← hV] at hn
  have hYY : Y * Yᵀ * V = V := by
    rw [hfull.eq]
    calc Y * Yᵀ * (Y * Matrix.diagonal s * ZT) = Y * ((Yᵀ * Y) * (Matrix.diagonal s * ZT)) := by simp only [Matrix.mul_assoc]
      _ = _ := by rw [hfull.orthY, Matrix.one_mul]; simp only [Matrix.mul_assoc]
  have h2 : (V * K)ᵀ *ᵥ (fX - V *ᵥ coef V fX) = 0 := by
    rw [Matrix.transpose_mul, ← mulVec_mulVec, hn, mulVec_zero]
  unfold jacOf
  have h3 : Y *ᵥ (Yᵀ *ᵥ ((V * K) *ᵥ coef V fX)) = (V * K) *ᵥ coef V fX := by
    simp only [mulVec_mulVec]
    rw [← Matrix.mul_assoc, ← Matrix.mul_assoc, hYY]
  rw [h2, mulVec_zero, mulVec_zero, mulVec_zero, add_zero, h3, sub_self, neg_zero]

end Verif.Func
