import Verif.Func.TensorSpan
import Verif.Func.VecProps
import Mathlib.LinearAlgebra.Dimension.OrzechProperty
import Mathlib.LinearAlgebra.Dimension.StrongRankCondition

/-!
# C104: a tensor basis represents exactly the polynomials of its total degree, each of them once
-/

namespace Verif.Func

open Verif Verif.Domain Verif.Lip Verif.Basis Matrix

/-! ## The scaling is affine -/

/-- The constant term of the scaling. -/
noncomputable def scaleB : Scaling → ℕ → ℝ
  | .none, _ => 0
  | .minmax lb ub, q => -2 * lb.getD q 0 / (ub.getD q 0 - lb.getD q 0) - 1
  | .meanstd mean std, q => -mean.getD q 0 / std.getD q 0 / Real.sqrt 2

theorem at_affine (s : Scaling) (q : ℕ) (t : ℝ) : s.at' q t = s.dscale q * t + scaleB s q := by
  cases s <;> simp only [Scaling.at', Scaling.dscale, scaleB] <;> ring

theorem dscale_ne {s : Scaling} {dim : ℕ} (h : s.Nondeg dim) {q : ℕ} (hq : q < dim) : s.dscale q ≠ 0 := by
  cases s with
  | none => exact one_ne_zero
  | minmax lb ub => exact div_ne_zero two_ne_zero (sub_ne_zero.2 (h q hq))
  | meanstd mean std => exact div_ne_zero (div_ne_zero one_ne_zero (h q hq)) (by positivity)

/-! ## The columns -/

/-- The exponents of column `j`. -/
def expo (B : TBasis) (j : Fin B.indices.length) : Fin B.dim → ℕ := fun q => (B.indices.getD j []).getD q 0

/-- Column `j` as a polynomial. -/
noncomputable def col (B : TBasis) (P : ℕ → Polynomial ℝ) (j : Fin B.indices.length) : MvPolynomial (Fin B.dim) ℝ :=
  tens P (fun q => B.sc.dscale q) (fun q => scaleB B.sc q) (expo B j)

theorem col_eval {B : TBasis} (hd : 1 ≤ B.dim) {P : ℕ → Polynomial ℝ} (hP : ∀ n x, B.F.phi n x = (P n).eval x) (y : Pt B.dim) (j : Fin B.indices.length) :
    (tensorObj B B.dim).V y j = MvPolynomial.eval y (col B P j) := by
  simp only [tensorObj]
  rw [V_entry B hd (by simp) (indices_getD B j).1, Finset.prod_range, col, tens, map_prod]
  refine Finset.prod_congr rfl fun q _ => ?_
  rw [ofFn_getD, hP, at_affine, Polynomial.aeval_def, Polynomial.hom_eval₂]
  have : (MvPolynomial.eval y).comp (algebraMap ℝ (MvPolynomial (Fin B.dim) ℝ)) = RingHom.id ℝ := by
    ext t
    simp [MvPolynomial.algebraMap_eq]
  rw [this]
  have hl : MvPolynomial.eval y (lin (fun q : Fin B.dim => B.sc.dscale q) (fun q => scaleB B.sc q) q) = B.sc.dscale q * y q + scaleB B.sc q := by
    rw [lin, map_add, map_mul, MvPolynomial.eval_C, MvPolynomial.eval_X, MvPolynomial.eval_C]
  rw [hl]
  rfl

theorem expo_spec {B : TBasis} (hd : 1 ≤ B.dim) (j : Fin B.indices.length) : List.ofFn (expo B j) = B.indices.getD j [] ∧ ∑ q, expo B j q ≤ B.degree := by
  obtain ⟨_, hm⟩ := indices_getD B j
  obtain ⟨h1, h2⟩ := (mem_indexSet _ _ hd _).1 hm
  have e : List.ofFn (expo B j) = B.indices.getD j [] := by
    apply List.ext_getElem
    · rw [List.length_ofFn, h1]
    · intro i h3 h4
      rw [List.getElem_ofFn, expo, List.getD_eq_getElem?_getD, List.getElem?_eq_getElem h4]
      rfl
  refine ⟨e, ?_⟩
  rw [← List.sum_ofFn, e]
  exact h2

theorem expo_surj {B : TBasis} (hd : 1 ≤ B.dim) {α : Fin B.dim → ℕ} (h : ∑ q, α q ≤ B.degree) : ∃ j, expo B j = α := by
  have hm : List.ofFn α ∈ B.indices := (mem_indexSet _ _ hd _).2 ⟨by simp, by rwa [List.sum_ofFn]⟩
  obtain ⟨i, hi, e⟩ := List.mem_iff_getElem.1 hm
  refine ⟨⟨i, hi⟩, ?_⟩
  funext q
  rw [expo, List.getD_eq_getElem?_getD, List.getD_eq_getElem?_getD, List.getElem?_eq_getElem hi]
  simp [e]

theorem expo_inj {B : TBasis} (hd : 1 ≤ B.dim) : Function.Injective (expo B) := by
  intro i j h
  have := (expo_spec hd i).1
  rw [h, (expo_spec hd j).1] at this
  rw [List.getD_eq_getElem?_getD, List.getD_eq_getElem?_getD, List.getElem?_eq_getElem i.2, List.getElem?_eq_getElem j.2] at this
  exact Fin.ext ((List.Nodup.getElem_inj_iff (indexSet_nodup _ _ hd)).1 this.symm)

theorem col_span {B : TBasis} (hd : 1 ≤ B.dim) (hs : B.sc.Nondeg B.dim) {P : ℕ → Polynomial ℝ} (hP : ∀ n, (P n).degree = n) :
    Submodule.span ℝ (Set.range (col B P)) = MvPolynomial.restrictTotalDegree (Fin B.dim) ℝ B.degree := by
  rw [← tensW_eq (a := fun q : Fin B.dim => B.sc.dscale q) (b := fun q => scaleB B.sc q) hP (fun q => dscale_ne hs q.2) B.degree, tensW]
  congr 1
  ext p
  constructor
  · rintro ⟨j, rfl⟩
    exact ⟨expo B j, (expo_spec hd j).2, rfl⟩
  · rintro ⟨α, hα, rfl⟩
    obtain ⟨j, hj⟩ := expo_surj hd hα
    exact ⟨j, by rw [col, hj]⟩

/-- There are as many columns as monomials. -/
theorem col_card {B : TBasis} (hd : 1 ≤ B.dim) : B.indices.length = Module.finrank ℝ (MvPolynomial.restrictTotalDegree (Fin B.dim) ℝ B.degree) := by
  have h : Module.finrank ℝ (MvPolynomial.restrictTotalDegree (Fin B.dim) ℝ B.degree) = Nat.card {s : Fin B.dim →₀ ℕ | s.sum (fun _ e => e) ≤ B.degree} :=
    Module.finrank_eq_nat_card_basis (MvPolynomial.basisRestrictSupport ℝ {s : Fin B.dim →₀ ℕ | s.sum (fun _ e => e) ≤ B.degree})
  rw [h]
  have hsum : ∀ s : Fin B.dim →₀ ℕ, s.sum (fun _ e => e) = ∑ q, s q := fun s => Finsupp.sum_fintype _ _ fun _ => rfl
  let f : Fin B.indices.length → {s : Fin B.dim →₀ ℕ | s.sum (fun _ e => e) ≤ B.degree} := fun j =>
    ⟨Finsupp.equivFunOnFinite.symm (expo B j), by
      rw [Set.mem_setOf_eq, hsum]
      exact (expo_spec hd j).2⟩
  have hf : Function.Bijective f := by
    constructor
    · intro i j hij
      have := congrArg Subtype.val hij
      exact expo_inj hd (Finsupp.equivFunOnFinite.symm.injective this)
    · rintro ⟨s, hs⟩
      rw [Set.mem_setOf_eq, hsum] at hs
      obtain ⟨j, hj⟩ := expo_surj hd hs
      refine ⟨j, Subtype.ext ?_⟩
      show Finsupp.equivFunOnFinite.symm (expo B j) = s
      rw [hj]
      exact Finsupp.equivFunOnFinite.symm_apply_apply s
  rw [← Nat.card_congr (Equiv.ofBijective f hf), Nat.card_fin]

theorem col_independent {B : TBasis} (hd : 1 ≤ B.dim) (hs : B.sc.Nondeg B.dim) {P : ℕ → Polynomial ℝ} (hP : ∀ n, (P n).degree = n) :
    LinearIndependent ℝ (col B P) := by
  have hmem : ∀ j, col B P j ∈ MvPolynomial.restrictTotalDegree (Fin B.dim) ℝ B.degree := fun j => by
    rw [← col_span hd hs hP]
    exact Submodule.subset_span ⟨j, rfl⟩
  have h : LinearIndependent ℝ fun j => (⟨col B P j, hmem j⟩ : MvPolynomial.restrictTotalDegree (Fin B.dim) ℝ B.degree) := by
    refine linearIndependent_of_top_le_span_of_card_eq_finrank ?_ (by rw [Fintype.card_fin]; exact col_card hd)
    rintro ⟨p, hp⟩ _
    have hp' := hp
    rw [← col_span hd hs hP] at hp'
    obtain ⟨c, hc⟩ := (Submodule.mem_span_range_iff_exists_fun ℝ).1 hp'
    refine (Submodule.mem_span_range_iff_exists_fun ℝ).2 ⟨c, Subtype.ext ?_⟩
    rw [Submodule.coe_sum]
    exact hc
  exact h.map' (Submodule.subtype _) (Submodule.ker_subtype _)

/-! ## Theorems -/

/-- **C104**: the columns of a tensor basis are polynomials that span those of its total degree; `DV` are their derivatives. -/
theorem tensor_polyBasis (B : TBasis) (hG : Graded B.F) (hF : B.F.Good) (hs : B.sc.Nondeg B.dim) (hd : 1 ≤ B.dim) : IsPolyBasis B.degree (tensorObj B B.dim) := by
  obtain ⟨P, hP, hev⟩ := hG
  refine ⟨col B P, fun y j => col_eval hd hev y j, fun y j l => ?_, col_span hd hs hP⟩
  have h1 := (tensorObj_smooth B hF hs hd).grad y j
  have h2 := hasDerivAt_poly (col B P j) y (Pi.single l 1)
  have hline : HasDerivAt (fun t : ℝ => y + t • (Pi.single l 1 : Pt B.dim)) (Pi.single l 1) 0 := by
    simpa using ((hasDerivAt_id (0 : ℝ)).smul_const (Pi.single l 1 : Pt B.dim)).const_add y
  have h3 : HasDerivAt (fun t : ℝ => (tensorObj B B.dim).V (y + t • (Pi.single l 1 : Pt B.dim)) j) ((tensorObj B B.dim).DV y j l) 0 := by
    unfold IsGrad at h1
    have h1' : HasFDerivAt (fun y => (tensorObj B B.dim).V y j) (dotL ((tensorObj B B.dim).DV y j)) (y + (0 : ℝ) • (Pi.single l 1 : Pt B.dim)) := by
      simpa using h1
    have := h1'.comp_hasDerivAt (0 : ℝ) hline
    rw [dotL_apply, dotProduct_single, mul_one] at this
    exact this
  have h4 : (fun t : ℝ => (tensorObj B B.dim).V (y + t • (Pi.single l 1 : Pt B.dim)) j) = fun t : ℝ => MvPolynomial.eval (y + t • (Pi.single l 1 : Pt B.dim)) (col B P j) :=
    funext fun t => col_eval hd hev _ j
  rw [h4] at h3
  rw [h3.unique h2, Finset.sum_eq_single l]
  · simp
  · intro i _ hi
    rw [Pi.single_eq_of_ne hi, zero_mul]
  · simp

/-- **C104**: every coefficient vector is a polynomial of the total degree of the basis. -/
theorem tensor_degree (B : TBasis) (hG : Graded B.F) (hs : B.sc.Nondeg B.dim) (hd : 1 ≤ B.dim) (c : Pt B.indices.length) :
    ∃ q : MvPolynomial (Fin B.dim) ℝ, q.totalDegree ≤ B.degree ∧ ∀ y, (tensorObj B B.dim).V y ⬝ᵥ c = MvPolynomial.eval y q := by
  obtain ⟨P, hP, hev⟩ := hG
  refine ⟨∑ j, c j • col B P j, ?_, fun y => ?_⟩
  · rw [← MvPolynomial.mem_restrictTotalDegree, ← col_span hd hs hP]
    exact (Submodule.mem_span_range_iff_exists_fun ℝ).2 ⟨c, rfl⟩
  · rw [map_sum]
    refine Finset.sum_congr rfl fun j _ => ?_
    rw [col_eval hd hev, MvPolynomial.smul_eval, mul_comm]

/-- **C104**: every polynomial of this total degree has exactly one coefficient vector. -/
theorem tensor_represents (B : TBasis) (hG : Graded B.F) (hs : B.sc.Nondeg B.dim) (hd : 1 ≤ B.dim) {q : MvPolynomial (Fin B.dim) ℝ} (hq : q.totalDegree ≤ B.degree) :
    ∃! c : Pt B.indices.length, ∀ y, (tensorObj B B.dim).V y ⬝ᵥ c = MvPolynomial.eval y q := by
  obtain ⟨P, hP, hev⟩ := hG
  have hsum : ∀ (c : Pt B.indices.length) y, (tensorObj B B.dim).V y ⬝ᵥ c = MvPolynomial.eval y (∑ j, c j • col B P j) := by
    intro c y
    rw [map_sum]
    refine Finset.sum_congr rfl fun j _ => ?_
    rw [col_eval hd hev, MvPolynomial.smul_eval, mul_comm]
  have hq' : q ∈ Submodule.span ℝ (Set.range (col B P)) := by rwa [col_span hd hs hP, MvPolynomial.mem_restrictTotalDegree]
  obtain ⟨c, hc⟩ := (Submodule.mem_span_range_iff_exists_fun ℝ).1 hq'
  refine ⟨c, fun y => by rw [hsum, hc], fun c' hc' => ?_⟩
  have e : ∑ j, c' j • col B P j = ∑ j, c j • col B P j := by
    rw [hc]
    exact MvPolynomial.funext fun y => by rw [← hsum, hc']
  have := Fintype.linearIndependent_iff.1 (col_independent hd hs hP) (fun j => c' j - c j) (by
    simp only [sub_smul, Finset.sum_sub_distrib, e, sub_self])
  funext j
  exact sub_eq_zero.1 (this j)

/-- **C104**: two bases of the same degree and dimension, of any family and scaling, represent the same functions. -/
theorem tensor_change (B B' : TBasis) (hG : Graded B.F) (hG' : Graded B'.F) (hs : B.sc.Nondeg B.dim) (hs' : B'.sc.Nondeg B.dim) (hd : 1 ≤ B.dim)
    (h1 : B'.degree = B.degree) (h2 : B'.dim = B.dim) (c : Pt B.indices.length) :
    ∃! c' : Pt B'.indices.length, ∀ y, (tensorObj B' B.dim).V y ⬝ᵥ c' = (tensorObj B B.dim).V y ⬝ᵥ c := by
  obtain ⟨q, hq, he⟩ := tensor_degree B hG hs hd c
  obtain ⟨F', d', n', s'⟩ := B'
  obtain ⟨F, d, n, s⟩ := B
  obtain rfl : n' = n := h2
  obtain rfl : d' = d := h1
  simp only at he ⊢
  simp_rw [he]
  exact tensor_represents ⟨F', d', n', s'⟩ hG' hs' hd hq

/-! ## Fits -/

/-- No polynomial of total degree at most `d` but zero vanishes at all points. -/
def Unisolvent {M n : ℕ} (d : ℕ) (Y : Fin M → Pt n) : Prop :=
  ∀ q : MvPolynomial (Fin n) ℝ, q.totalDegree ≤ d → (∀ i, MvPolynomial.eval (Y i) q = 0) → q = 0

/-- **C104**: the columns of the Vandermonde matrix are independent exactly if the points determine the polynomials: the family and the scaling do not matter. -/
theorem tensor_unisolvent {M : ℕ} (B : TBasis) (hG : Graded B.F) (hs : B.sc.Nondeg B.dim) (hd : 1 ≤ B.dim) (Y : Fin M → Pt B.dim) :
    (∀ c : Pt B.indices.length, (∀ i, (tensorObj B B.dim).V (Y i) ⬝ᵥ c = 0) → c = 0) ↔ Unisolvent B.degree Y := by
  constructor
  · intro h q hq h0
    obtain ⟨c, hc, _⟩ := tensor_represents B hG hs hd hq
    have := h c fun i => by rw [hc, h0]
    refine MvPolynomial.funext fun y => ?_
    rw [← hc, this, dotProduct_zero, map_zero]
  · intro h c h0
    obtain ⟨q, hq, he⟩ := tensor_degree B hG hs hd c
    obtain rfl := h q hq fun i => by rw [← he, h0]
    obtain ⟨c', _, hu⟩ := tensor_represents B hG hs hd (q := 0) hq
    rw [hu c he, hu 0 fun y => by rw [dotProduct_zero, map_zero]]

/-- **C104**: a least squares fit to values of a polynomial of at most the degree of the basis, at points that determine the polynomials, is that polynomial
everywhere. -/
theorem tensor_fit_recovers {M : ℕ} (B : TBasis) (hG : Graded B.F) (hs : B.sc.Nondeg B.dim) (hd : 1 ≤ B.dim) (Y : Fin M → Pt B.dim) (hY : Unisolvent B.degree Y)
    {q : MvPolynomial (Fin B.dim) ℝ} (hq : q.totalDegree ≤ B.degree) {c : Pt B.indices.length}
    (hc : IsLsq (Matrix.of fun i => (tensorObj B B.dim).V (Y i)) (fun i => MvPolynomial.eval (Y i) q) c) (y : Pt B.dim) :
    (tensorObj B B.dim).V y ⬝ᵥ c = MvPolynomial.eval y q := by
  obtain ⟨c0, h0, _⟩ := tensor_represents B hG hs hd hq
  have h1 := hc c0
  have hz : (fun i => MvPolynomial.eval (Y i) q) - (Matrix.of fun i => (tensorObj B B.dim).V (Y i)) *ᵥ c0 = 0 := by
    funext i
    show MvPolynomial.eval (Y i) q - (tensorObj B B.dim).V (Y i) ⬝ᵥ c0 = 0
    rw [h0, sub_self]
  rw [hz, zero_dotProduct] at h1
  have h2 := dotProduct_self_eq_zero.1 (le_antisymm h1 (dotProduct_self_nonneg' _))
  obtain ⟨q', hq', he'⟩ := tensor_degree B hG hs hd c
  have h3 : q - q' = 0 := by
    refine hY _ ((MvPolynomial.totalDegree_sub _ _).trans (max_le hq hq')) fun i => ?_
    rw [map_sub, ← he']
    exact congrFun h2 i
  rw [he', sub_eq_zero.1 h3]

/-! ## Ridge approximations with tensor bases -/

/-- The basis that is built for the projected samples, with a scaling computed from them (`setScale` basis.py 132-136, or `setScaleHermite` 412-414). Where the
scaling is degenerate (samples that are equal in a coordinate) the code divides by zero; here the basis is left without scaling in this case. -/
noncomputable def tensorMk {M : ℕ} (F : Family) (d n : ℕ) (sc : (Fin M → Pt n) → Scaling) (Y : Fin M → Pt n) : BasisObj n (indexSet d n).length :=
  open Classical in tensorObj ⟨F, d, n, if (sc Y).Nondeg n then sc Y else .none⟩ n

theorem tensorMk_poly {M : ℕ} {F : Family} (hG : Graded F) (hF : F.Good) (d : ℕ) {n : ℕ} (hn : 1 ≤ n) (sc : (Fin M → Pt n) → Scaling) (Y : Fin M → Pt n) :
    IsPolyBasis d (tensorMk F d n sc Y) := by
  unfold tensorMk
  refine tensor_polyBasis ⟨F, d, n, _⟩ hG hF ?_ hn
  split
  · assumption
  · trivial

/-- **C86** for tensor bases rebuilt and rescaled at every step. -/
theorem varpro_derivative_tensor {M m n p : ℕ} {F : Family} (hG : Graded F) (hF : F.Good) (d : ℕ) (sc : (Fin M → Pt n) → Scaling) (hn : 1 ≤ n)
    (coef : Matrix (Fin M) (Fin (indexSet d n).length) ℝ → Pt M → Pt (indexSet d n).length) (X : Fin M → Pt m) (fX : Pt M) (U Delta : Matrix (Fin m) (Fin n) ℝ)
    (hcoef : ∀ U' : Matrix (Fin m) (Fin n) ℝ,
      IsLsq (vandU (tensorMk F d n sc fun i => projY U' (X i)) X U') fX (coef (vandU (tensorMk F d n sc fun i => projY U' (X i)) X U') fX))
    (Y : Matrix (Fin M) (Fin p) ℝ) (s : Fin p → ℝ) (ZT : Matrix (Fin p) (Fin (indexSet d n).length) ℝ)
    (hfull : FullRank (vandU (tensorMk F d n sc fun i => projY U (X i)) X U) Y s ZT) (i : Fin M) :
    HasDerivAt (fun t : ℝ => varproResidual (tensorMk F d n sc) coef X fX (U + t • Delta) i)
      ((flatJac (varproJacobian (tensorMk F d n sc fun i => projY U (X i)) X fX U (coef (vandU (tensorMk F d n sc fun i => projY U (X i)) X U) fX) Y s ZT) *ᵥ flat Delta) i) 0 :=
  varpro_derivative (tensorMk F d n sc) (tensorMk_poly hG hF d hn sc) coef X fX U Delta hcoef Y s ZT hfull i

/-- **C101** for tensor bases. -/
theorem vecRidge_tensor {K M m n : ℕ} {F : Family} (hG : Graded F) (hF : F.Good) (d : ℕ) (sc : (Fin M → Pt n) → Scaling) (h1 : 1 ≤ n) (hn : n ≤ m)
    (svdJ : Matrix (Fin (K * M)) (Fin (m * n)) ℝ → TSvd (K * M) (m * n)) (hsvdJ : ∀ A, IsTSvd A (svdJ A))
    (svdD : Matrix (Fin m) (Fin n) ℝ → TSvd m n) (hsvdD : ∀ A, IsTSvd A (svdD A))
    (coef : Matrix (Fin M) (Fin (indexSet d n).length) ℝ → Pt M → Pt (indexSet d n).length)
    (dec : Matrix (Fin M) (Fin (indexSet d n).length) ℝ → VDec M (indexSet d n).length)
    (X : Fin M → Pt m) (fX : Fin K → Pt M) (hc : LsqFor (tensorMk F d n sc) coef X fX) (hfull : FullFor (tensorMk F d n sc) dec X) (o : GNOpt)
    (U0 U : Matrix (Fin m) (Fin n) ℝ) (hU0 : U0ᵀ * U0 = 1) (h : vecRidge hn svdJ svdD (tensorMk F d n sc) coef dec X fX o U0 = .ok U) :
    Uᵀ * U = 1 ∧ ∃ q, DegLe d q ∧ ∀ p, DegLe d p → ridgeErr X fX U q ≤ ridgeErr X fX U0 p :=
  vecRidge_spec hn svdJ hsvdJ svdD hsvdD (tensorMk F d n sc) (tensorMk_poly hG hF d h1 sc) coef dec X fX hc hfull o U0 U hU0 h

/-- More than `d` different points on the line determine the polynomials of degree at most `d`. -/
theorem unisolvent_line {M d : ℕ} (hM : d < M) {t : Fin M → ℝ} (ht : Function.Injective t) : Unisolvent d fun i => (fun _ => t i : Pt 1) := by
  intro q hq h0
  set p : Polynomial ℝ := MvPolynomial.aeval (fun _ : Fin 1 => Polynomial.X) q with hp
  have hev : ∀ y : Pt 1, MvPolynomial.eval y q = p.eval (y 0) := by
    intro y
    rw [hp]
    clear hq h0 hp
    induction q using MvPolynomial.induction_on with
    | C a => simp
    | add p q h1 h2 => rw [map_add, map_add, Polynomial.eval_add, h1, h2]
    | mul_X p i h => rw [map_mul, map_mul, Polynomial.eval_mul, h, MvPolynomial.eval_X, MvPolynomial.aeval_X, Polynomial.eval_X, Fin.fin_one_eq_zero i]
  have hdeg : p.natDegree ≤ d := by
    rw [hp, MvPolynomial.as_sum q, map_sum]
    refine Polynomial.natDegree_sum_le_of_forall_le _ _ fun s hs => ?_
    rw [MvPolynomial.aeval_monomial, Finsupp.prod_fintype _ _ fun _ => pow_zero _, Fin.prod_univ_one]
    refine (Polynomial.natDegree_C_mul_le _ _).trans ?_
    rw [Polynomial.natDegree_X_pow]
    have := (MvPolynomial.le_totalDegree hs).trans hq
    rwa [Finsupp.sum_fintype _ _ fun _ => rfl, Fin.sum_univ_one] at this
  have hp0 : p = 0 := by
    refine Polynomial.eq_zero_of_natDegree_lt_card_of_eval_eq_zero p ht (fun i => ?_) (by rw [Fintype.card_fin]; omega)
    have := h0 i
    rwa [hev] at this
  exact MvPolynomial.funext fun y => by rw [hev, hp0, Polynomial.eval_zero, map_zero]

/-- A quadratic is recovered from three of its values, with Chebyshev polynomials scaled to `[-1, 3]`. -/
example (q : MvPolynomial (Fin 1) ℝ) (hq : q.totalDegree ≤ 2) (c : Pt _)
    (hc : IsLsq (Matrix.of fun i : Fin 3 => (tensorObj ⟨chebFamily, 2, 1, .minmax [-1] [3]⟩ 1).V fun _ => (i : ℝ)) (fun i => MvPolynomial.eval (fun _ => (i : ℝ)) q) c) (y : Pt 1) :
    (tensorObj ⟨chebFamily, 2, 1, .minmax [-1] [3]⟩ 1).V y ⬝ᵥ c = MvPolynomial.eval y q :=
  tensor_fit_recovers ⟨chebFamily, 2, 1, .minmax [-1] [3]⟩ cheb_graded (by intro k hk; interval_cases k; norm_num) (by norm_num) _
    (unisolvent_line (by norm_num) fun i j h => Fin.ext (by exact_mod_cast h)) hq hc y

/-- The five families of the code, with scaling to a box that is not flat. -/
example (F : Family) (h : F ∈ ({monoFamily, legFamily, chebFamily, lagFamily, hermFamily} : Set Family)) :
    IsPolyBasis 3 (tensorObj ⟨F, 3, 2, .minmax [0, 1] [2, 5]⟩ 2) := by
  have hs : (Scaling.minmax [0, 1] [2, 5]).Nondeg 2 := by
    intro k hk
    interval_cases k <;> norm_num
  have hG : Graded F ∧ F.Good := by
    rcases h with rfl | rfl | rfl | rfl | rfl
    · exact ⟨mono_graded, mono_good⟩
    · exact ⟨leg_graded, leg_good⟩
    · exact ⟨cheb_graded, cheb_good⟩
    · exact ⟨lag_graded, lag_good⟩
    · exact ⟨herm_graded, herm_good⟩
  exact tensor_polyBasis ⟨F, 3, 2, .minmax [0, 1] [2, 5]⟩ hG.1 hG.2 hs (by norm_num)

end Verif.Func
