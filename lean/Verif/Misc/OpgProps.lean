import Verif.Misc.OpgModel
import Verif.Misc.LocalProps
import Verif.Misc.ActiveOpt
import Verif.Misc.SvdExists
import Verif.Misc.LstsqExists
import Mathlib.Analysis.InnerProductSpace.GramSchmidtOrtho

/-!
# The outer product gradient method on linear functions (C66)

For samples of `c + a·x` the first column of the result is exactly a positive multiple of `std^(1/2) ∘ a` with standardization
and of `a` without. So the direction is right exactly when all coordinates that matter have the same standard deviation.
-/

namespace Verif.Misc

open Verif Verif.Domain Verif.Lip Matrix

variable {m : ℕ}

/-- Two vectors span the same line. -/
def SameLine (u v : Pt m) : Prop := ∃ t : ℝ, t ≠ 0 ∧ u = t • v

/-! ## Existence of `qr` -/

theorem exists_isQr (A : Matrix (Fin m) (Fin m) ℝ) : ∃ d, IsQr A d := by
  have hfr : Module.finrank ℝ (EuclideanSpace ℝ (Fin m)) = Fintype.card (Fin m) := by simp
  set f : Fin m → EuclideanSpace ℝ (Fin m) := fun j => WithLp.toLp 2 fun i => A i j with hf
  set b := InnerProductSpace.gramSchmidtOrthonormalBasis hfr f with hb
  have hin : ∀ u v : EuclideanSpace ℝ (Fin m), inner ℝ u v = ∑ i, u i * v i := by
    intro u v
    rw [PiLp.inner_apply]
    exact Finset.sum_congr rfl fun i _ => by simp [mul_comm]
  refine ⟨(Matrix.of fun i k => b k i, Matrix.of fun k j => inner ℝ (b k) (f j)), ?_, ?_, ?_⟩
  · ext i j
    rw [Matrix.mul_apply]
    have h := b.sum_repr (f j)
    have h2 := congrArg (fun v : EuclideanSpace ℝ (Fin m) => v i) h
    simp only [b.repr_apply_apply, WithLp.ofLp_sum, Finset.sum_apply, WithLp.ofLp_smul, Pi.smul_apply, smul_eq_mul] at h2
    simp only [Matrix.of_apply]
    rw [show A i j = f j i from rfl, ← h2]
    exact Finset.sum_congr rfl fun k _ => mul_comm _ _
  · ext k l
    rw [Matrix.mul_apply, Matrix.one_apply]
    have := (orthonormal_iff_ite.1 b.orthonormal) k l
    rw [hin] at this
    simpa using this
  · intro i j hij
    exact InnerProductSpace.gramSchmidtOrthonormalBasis_inv_triangular hfr f hij

theorem exists_qr (m : ℕ) : ∃ qr : QrFn m, QrOk qr := ⟨fun A => (exists_isQr A).choose, fun A => (exists_isQr A).choose_spec⟩

/-! ## Active subspaces of equal gradients -/

theorem meanGrad_replicate {N : ℕ} (hN : 0 < N) (g u : Pt m) : meanGrad (List.replicate N g) u = g ⬝ᵥ u := by
  have : (N : ℝ) ≠ 0 := by positivity
  simp [meanGrad, this]

/-- If all gradients are equal to `g ≠ 0`, the first direction is a positive multiple of `g`. -/
theorem asFit_replicate (svd : SvdFn (m + 1)) (hsvd : SvdSpec svd) (N : ℕ) (g : Pt (m + 1)) (hg : g ≠ 0) (r : ASState (m + 1))
    (h : asFit svd (List.replicate N g) none = .ok r) : ∃ t : ℝ, 0 < t ∧ ucol r.U 0 = t • g := by
  have hC := asFit_C_default svd hsvd _ r h
  obtain ⟨ps, hne, _, _, rfl⟩ := asFit_ok svd _ none r h
  have hN : 0 < N := by
    rcases Nat.eq_zero_or_pos N with h0 | h0
    · simp [h0] at hne
    · exact h0
  have hN' : (N : ℝ) ≠ 0 := by positivity
  have hC' : (asRaw svd ps).C = vecMulVec g g := by
    have e : (asRaw svd ps).C = _ := hC
    rw [e]
    simp only [List.length_replicate, List.map_replicate, List.sum_replicate]
    rw [← Nat.cast_smul_eq_nsmul ℝ, smul_smul, one_div_mul_cancel hN', one_smul]
  have hcol : ∀ k, (g ⬝ᵥ ucol (asRaw svd ps).U k) • g = ((asRaw svd ps).s.getD k 0 ^ 2) • ucol (asRaw svd ps).U k := by
    intro k
    rw [← asRaw_col svd hsvd ps k, hC', vecMulVec_mulVec]
    exact (op_smul_eq_smul _ _).symm
  obtain ⟨_, hnn, hanti⟩ := asRaw_s svd hsvd ps
  have hs0 : (asRaw svd ps).s.getD ((0 : Fin (m + 1)) : ℕ) 0 ≠ 0 := by
    intro h0
    have hall : ∀ k : Fin (m + 1), (asRaw svd ps).s.getD k 0 = 0 := by
      intro k
      apply le_antisymm
      · exact (hanti (Fin.zero_le k)).trans h0.le
      · rw [List.getD_eq_getElem?_getD]
        rcases hk : (asRaw svd ps).s[(k : ℕ)]? with _ | x
        · simp
        · simpa using hnn x (List.mem_of_getElem? hk)
    have hz : (asRaw svd ps).C = 0 := by
      have : (asRaw svd ps).C = (asRaw svd ps).U * Matrix.diagonal (fun i : Fin (m + 1) => (asRaw svd ps).s.getD i 0 ^ 2) *
        (asRaw svd ps).Uᵀ := rfl
      have hd : (fun i : Fin (m + 1) => (asRaw svd ps).s.getD i 0 ^ 2) = fun _ => 0 := by
        funext i; rw [hall i]; norm_num
      rw [this, hd]
      simp
    apply hg
    funext i
    have := congrFun (congrFun (hC'.symm.trans hz) i) i
    simpa [vecMulVec] using this
  have hpos : 0 < (asRaw svd ps).s.getD ((0 : Fin (m + 1)) : ℕ) 0 ^ 2 := by positivity
  have hu : ucol (asRaw svd ps).U 0 ≠ 0 := by
    intro h0
    have horth : (asRaw svd ps).Uᵀ * (asRaw svd ps).U = 1 := (hsvd ps.length (asCols ps)).orthU
    have := congrFun (congrFun horth 0) 0
    rw [Matrix.mul_apply, Matrix.one_apply_eq] at this
    have hz : ∀ i, (asRaw svd ps).U i 0 = 0 := fun i => congrFun h0 i
    simp [hz] at this
  have hgu : g ⬝ᵥ ucol (asRaw svd ps).U 0 ≠ 0 := by
    intro h0
    have := hcol 0
    rw [h0, zero_smul] at this
    exact hu ((smul_eq_zero.1 this.symm).resolve_left hpos.ne')
  refine ⟨|g ⬝ᵥ ucol (asRaw svd ps).U 0| / (asRaw svd ps).s.getD ((0 : Fin (m + 1)) : ℕ) 0 ^ 2, by positivity, ?_⟩
  show ucol (fixGrads (asRaw svd ps).U _) 0 = _
  unfold fixGrads
  rw [ucol_mul_diagonal, meanGrad_replicate hN]
  have e : ucol (asRaw svd ps).U 0 = ((g ⬝ᵥ ucol (asRaw svd ps).U 0) / (asRaw svd ps).s.getD ((0 : Fin (m + 1)) : ℕ) 0 ^ 2) • g := by
    rw [div_eq_inv_mul, ← smul_smul, hcol 0, smul_smul, inv_mul_cancel₀ hpos.ne', one_smul]
  rcases lt_or_gt_of_ne hgu with hl | hl
  · rw [show npSign (g ⬝ᵥ ucol (asRaw svd ps).U 0) = -1 by simp [npSign, hl, not_lt.2 hl.le], abs_of_neg hl]
    conv_lhs => rw [e]
    rw [smul_smul]; congr 1; ring
  · rw [show npSign (g ⬝ᵥ ucol (asRaw svd ps).U 0) = 1 by simp [npSign, hl], abs_of_pos hl, one_smul]
    exact e

/-- With default weights the fit succeeds for any gradients at all. -/
theorem asFit_default_ok (svd : SvdFn m) (G : List (Pt m)) (hG : G ≠ []) : ∃ r, asFit svd G none = .ok r := by
  unfold asFit
  rw [if_neg hG]
  have hw : (asWeights G none).length = G.length := by simp [asWeights]
  simp only [asPairs, if_pos hw]
  rw [if_neg]
  · exact ⟨_, rfl⟩
  · rintro ⟨p, hp, hneg⟩
    have := (List.of_mem_zip hp).1
    simp only [asWeights] at this
    rw [List.eq_of_mem_replicate this] at hneg
    have : (0 : ℝ) ≤ 1 / G.length := by positivity
    linarith

/-! ## Standardization -/

theorem colStd_nonneg (X : List (Pt m)) (i : Fin m) : 0 ≤ colStd X i := Real.sqrt_nonneg _

/-- An affine function of the points is an affine function of the standardized points. -/
theorem std_affine (X : List (Pt m)) (h0 : ∀ i, colStd X i ≠ 0) (c : ℝ) (a : Pt m) (x : Pt m) :
    c + x ⬝ᵥ a = (c + colMean X ⬝ᵥ a) + stdRow X x ⬝ᵥ (fun i => colStd X i * a i) := by
  have : x ⬝ᵥ a = colMean X ⬝ᵥ a + stdRow X x ⬝ᵥ (fun i => colStd X i * a i) := by
    simp only [dotProduct, stdRow, ← Finset.sum_add_distrib]
    refine Finset.sum_congr rfl fun i _ => ?_
    have := h0 i
    field_simp
    ring
  rw [this]; ring

/-- The standardized points span the space if the points do. -/
theorem std_span (X : List (Pt m)) (h0 : ∀ i, colStd X i ≠ 0) (hX : affineSpan ℝ {x | x ∈ X} = ⊤) :
    affineSpan ℝ {z | z ∈ X.map (stdRow X)} = ⊤ := by
  let L : Pt m →ₗ[ℝ] Pt m := {
    toFun := fun x i => x i / colStd X i
    map_add' := fun x y => by funext i; simp [add_div]
    map_smul' := fun t x => by funext i; simp [mul_div_assoc] }
  let f : Pt m →ᵃ[ℝ] Pt m := L.toAffineMap - AffineMap.const ℝ (Pt m) (fun i => colMean X i / colStd X i)
  have hf : ∀ x, f x = stdRow X x := by
    intro x
    funext i
    simp [f, L, stdRow, sub_div]
  have hsurj : Function.Surjective f := by
    intro y
    refine ⟨fun i => colMean X i + colStd X i * y i, ?_⟩
    rw [hf]
    funext i
    have := h0 i
    simp only [stdRow]
    field_simp
    ring
  have := AffineMap.span_eq_top_of_surjective f hsurj hX
  rw [← this]
  congr 1
  ext z
  simp [hf]

/-! ## The estimated direction -/

theorem half_cancel {s : ℝ} (hs : 0 < s) : s ^ (-0.5 : ℝ) * s = s ^ (0.5 : ℝ) := by
  conv_lhs => rw [← Real.rpow_one s, ← Real.rpow_mul hs.le, one_mul]
  rw [← Real.rpow_add hs]
  norm_num

/-- What happens after the gradients: equal gradients `G = D a` in standardized coordinates. -/
theorem opg_back (E : OpgEnv (m + 1)) (hqr : QrOk E.qr) (N : ℕ) (hN : 0 < N) (sd a : Pt (m + 1)) (hsd : ∀ i, 0 < sd i)
    (ha : a ≠ 0) (V : Matrix (Fin (m + 1)) (Fin (m + 1)) ℝ) (t : ℝ) (ht : 0 < t) (hV : ucol V 0 = t • fun i => sd i * a i) :
    ∃ t' : ℝ, 0 < t' ∧ ucol (fixGrads (E.qr (dinv2 sd * V)).1 (List.replicate N fun i => sd i * a i)) 0 =
      t' • fun i => sd i ^ (0.5 : ℝ) * a i := by
  obtain ⟨hA, hQ, hR⟩ := hqr (dinv2 sd * V)
  set Q := (E.qr (dinv2 sd * V)).1
  set R := (E.qr (dinv2 sd * V)).2
  set w : Pt (m + 1) := fun i => sd i ^ (0.5 : ℝ) * a i with hw
  have h1 : ∀ i, (dinv2 sd * V) i 0 = t * w i := by
    intro i
    have : V i 0 = t * (sd i * a i) := congrFun hV i
    rw [dinv2, Matrix.diagonal_mul, this, hw]
    simp only
    rw [← half_cancel (hsd i)]
    ring
  have h2 : ∀ i, t * w i = R 0 0 * Q i 0 := by
    intro i
    rw [← h1, hA, Matrix.mul_apply, Finset.sum_eq_single 0]
    · ring
    · intro k _ hk
      rw [hR k 0 (Fin.pos_of_ne_zero hk), mul_zero]
    · simp
  have hdot : (fun i => sd i * a i) ⬝ᵥ w > 0 := by
    obtain ⟨i, hi⟩ := Function.ne_iff.1 ha
    refine Finset.sum_pos' (fun j _ => ?_) ⟨i, Finset.mem_univ _, ?_⟩
    · have h3 := Real.rpow_pos_of_pos (hsd j) 0.5
      have h4 := hsd j
      have : sd j * a j * w j = sd j * sd j ^ (0.5 : ℝ) * (a j) ^ 2 := by rw [hw]; ring
      rw [this]; positivity
    · have h3 := Real.rpow_pos_of_pos (hsd i) 0.5
      have h4 := hsd i
      have h5 : a i ≠ 0 := hi
      have : sd i * a i * w i = sd i * sd i ^ (0.5 : ℝ) * (a i) ^ 2 := by rw [hw]; ring
      rw [this]; positivity
  have hR0 : R 0 0 ≠ 0 := by
    intro h0
    have : w = 0 := by
      funext i
      have := h2 i
      rw [h0, zero_mul] at this
      exact (mul_eq_zero.1 this).resolve_left ht.ne'
    rw [this, dotProduct_zero] at hdot
    exact lt_irrefl _ hdot
  have hq : ucol Q 0 = (t / R 0 0) • w := by
    funext i
    have := h2 i
    show Q i 0 = t / R 0 0 * w i
    field_simp
    linarith
  have hmean : meanGrad (List.replicate N fun i => sd i * a i) (ucol Q 0) = t / R 0 0 * ((fun i => sd i * a i) ⬝ᵥ w) := by
    rw [meanGrad_replicate hN, hq, dotProduct_smul, smul_eq_mul]
  refine ⟨|t / R 0 0|, abs_pos.2 (div_ne_zero ht.ne' hR0), ?_⟩
  unfold fixGrads
  rw [ucol_mul_diagonal, hmean]
  rcases lt_or_gt_of_ne (div_ne_zero ht.ne' hR0) with hl | hl
  · have hneg : t / R 0 0 * ((fun i => sd i * a i) ⬝ᵥ w) < 0 := mul_neg_of_neg_of_pos hl hdot
    rw [show npSign (t / R 0 0 * ((fun i => sd i * a i) ⬝ᵥ w)) = -1 by simp only [npSign, if_neg (not_lt.2 hneg.le), if_pos hneg],
      abs_of_neg hl, hq, smul_smul]
    congr 1; ring
  · have hpos : 0 < t / R 0 0 * ((fun i => sd i * a i) ⬝ᵥ w) := mul_pos hl hdot
    rw [show npSign (t / R 0 0 * ((fun i => sd i * a i) ⬝ᵥ w)) = 1 by simp only [npSign, if_pos hpos], abs_of_pos hl, hq, one_smul]

theorem opgFit_ok {E : OpgEnv m} {std : Bool} {perp : Option ℝ} {bw : Option Bw} {X : List (Pt m)} {fX : List ℝ}
    {U : Matrix (Fin m) (Fin m) ℝ} (h : opgFit E std perp bw X fX = .ok U) :
    fX.length = X.length ∧ opgStd E std perp bw X fX = .ok U := by
  unfold opgFit at h
  split at h
  · rename_i hl
    split at h
    · cases h
    · exact ⟨hl, h⟩
  · cases h

theorem opgCore_ok {E : OpgEnv m} {perp : Option ℝ} {bw : Option Bw} {Z : List (Pt m)} {fX : List ℝ} {sd : Option (Pt m)}
    {U : Matrix (Fin m) (Fin m) ℝ} (h : opgCore E perp bw Z fX sd = .ok U) :
    ∃ G r, localLinearGrads E.ls E.pb Z fX perp bw none = .ok G ∧ asFit E.svd G none = .ok r ∧
      U = opgBack E G r.U sd := by
  unfold opgCore at h
  split at h
  · cases h
  · rename_i G hG
    split at h
    · cases h
    · rename_i r hr
      cases h
      exact ⟨G, r, hG, hr, rfl⟩

/-- **C66 without standardization**: the first direction is a positive multiple of the gradient. -/
theorem opg_plain (E : OpgEnv (m + 1)) (hsvd : SvdSpec E.svd) (hls : LstsqSpec E.ls) (htot : ∀ rows, E.ls rows ≠ none)
    (perp : Option ℝ) (bw : Option Bw) (X : List (Pt (m + 1))) (hX : affineSpan ℝ {x | x ∈ X} = ⊤) (c : ℝ) (a : Pt (m + 1))
    (ha : a ≠ 0) (U : Matrix (Fin (m + 1)) (Fin (m + 1)) ℝ)
    (h : opgFit E false perp bw X (X.map (fun x => c + x ⬝ᵥ a)) = .ok U) : ∃ t : ℝ, 0 < t ∧ ucol U 0 = t • a := by
  obtain ⟨_, h⟩ := opgFit_ok h
  simp only [opgStd, Bool.false_eq_true, if_false] at h
  obtain ⟨G, r, hG, hr, rfl⟩ := opgCore_ok h
  have := localLinearGrads_exact E.ls hls htot E.pb X hX c a perp bw G hG
  subst this
  exact asFit_replicate E.svd hsvd _ a ha r hr

/-- With standardization: the first direction is a positive multiple of `std^(1/2) ∘ a`. -/
theorem opg_standardized (E : OpgEnv (m + 1)) (hsvd : SvdSpec E.svd) (hqr : QrOk E.qr) (hls : LstsqSpec E.ls)
    (htot : ∀ rows, E.ls rows ≠ none) (perp : Option ℝ) (bw : Option Bw) (X : List (Pt (m + 1)))
    (hX : affineSpan ℝ {x | x ∈ X} = ⊤) (c : ℝ) (a : Pt (m + 1)) (ha : a ≠ 0) (U : Matrix (Fin (m + 1)) (Fin (m + 1)) ℝ)
    (h : opgFit E true perp bw X (X.map (fun x => c + x ⬝ᵥ a)) = .ok U) :
    (∀ i, 0 < colStd X i) ∧ ∃ t : ℝ, 0 < t ∧ ucol U 0 = t • fun i => colStd X i ^ (0.5 : ℝ) * a i := by
  obtain ⟨_, h⟩ := opgFit_ok h
  simp only [opgStd, if_true] at h
  split at h
  · cases h
  rename_i h0
  have h0' : ∀ i, colStd X i ≠ 0 := fun i hi => h0 ⟨i, hi⟩
  have hsd : ∀ i, 0 < colStd X i := fun i => lt_of_le_of_ne (colStd_nonneg X i) (h0' i).symm
  refine ⟨hsd, ?_⟩
  have hf : X.map (fun x => c + x ⬝ᵥ a) =
      (X.map (stdRow X)).map (fun z => (c + colMean X ⬝ᵥ a) + z ⬝ᵥ (fun i => colStd X i * a i)) := by
    rw [List.map_map]
    exact List.map_congr_left fun x _ => std_affine X h0' c a x
  rw [hf] at h
  obtain ⟨G, r, hG, hr, hU⟩ := opgCore_ok h
  have := localLinearGrads_exact E.ls hls htot E.pb _ (std_span X h0' hX) _ _ perp bw G hG
  subst this
  have hg : (fun i => colStd X i * a i) ≠ 0 := by
    obtain ⟨i, hi⟩ := Function.ne_iff.1 ha
    exact Function.ne_iff.2 ⟨i, mul_ne_zero (h0' i) hi⟩
  obtain ⟨t, ht, hcol⟩ := asFit_replicate E.svd hsvd _ _ hg r hr
  have hN : 0 < (X.map (stdRow X)).length := by
    obtain ⟨_, hne, _⟩ := asFit_ok E.svd _ none r hr
    rcases Nat.eq_zero_or_pos (X.map (stdRow X)).length with hz | hz
    · simp [hz] at hne
    · exact hz
  obtain ⟨t', ht', e⟩ := opg_back E hqr _ hN (colStd X) a hsd ha r.U t ht hcol
  refine ⟨t', ht', ?_⟩
  rw [hU]
  exact e

/-- **C66 (partial), exact characterization**: with standardization the estimated direction of the linear function `c + a·x` is the
line of its gradient exactly when all coordinates on which the function depends have the same standard deviation. -/
theorem opg_standardized_partial (E : OpgEnv (m + 1)) (hsvd : SvdSpec E.svd) (hqr : QrOk E.qr) (hls : LstsqSpec E.ls)
    (htot : ∀ rows, E.ls rows ≠ none) (perp : Option ℝ) (bw : Option Bw) (X : List (Pt (m + 1)))
    (hX : affineSpan ℝ {x | x ∈ X} = ⊤) (c : ℝ) (a : Pt (m + 1)) (ha : a ≠ 0) (U : Matrix (Fin (m + 1)) (Fin (m + 1)) ℝ)
    (h : opgFit E true perp bw X (X.map (fun x => c + x ⬝ᵥ a)) = .ok U) :
    SameLine (ucol U 0) a ↔ ∀ i j, a i ≠ 0 → a j ≠ 0 → colStd X i = colStd X j := by
  obtain ⟨hsd, t, ht, e⟩ := opg_standardized E hsvd hqr hls htot perp bw X hX c a ha U h
  constructor
  · rintro ⟨s, hs, e2⟩
    have key : ∀ i, a i ≠ 0 → colStd X i ^ (0.5 : ℝ) = s / t := by
      intro i hi
      have := congrFun (e.symm.trans e2) i
      simp only [Pi.smul_apply, smul_eq_mul] at this
      rw [eq_div_iff ht.ne']
      exact mul_right_cancel₀ hi (by linarith)
    intro i j hi hj
    have := (key i hi).trans (key j hj).symm
    exact (Real.rpow_left_inj (hsd i).le (hsd j).le (by norm_num)).1 this
  · intro hall
    obtain ⟨i, hi⟩ := Function.ne_iff.1 ha
    have hp := Real.rpow_pos_of_pos (hsd i) 0.5
    refine ⟨t * colStd X i ^ (0.5 : ℝ), by positivity, ?_⟩
    rw [e]
    funext j
    simp only [Pi.smul_apply, smul_eq_mul]
    by_cases hj : a j = 0
    · rw [hj]; ring
    · rw [hall i j hi hj]; ring

/-! ## A data set on which the direction is wrong -/

/-- Corners of the rectangle `[-1,1] × [-4,4]`. -/
def opgPts : List (Pt 2) := [![1, 4], ![1, -4], ![-1, 4], ![-1, -4]]

theorem opgPts_std : colStd opgPts = ![1, 4] := by
  funext i
  have h16 : Real.sqrt 64 / Real.sqrt 4 = 4 := by
    rw [← Real.sqrt_div (by norm_num), show (64 / 4 : ℝ) = 4 ^ 2 by norm_num]; exact Real.sqrt_sq (by norm_num)
  fin_cases i
  · simp [colStd, colMean, opgPts]; norm_num
  · simp [colStd, colMean, opgPts]; norm_num [h16]

theorem opgPts_span : affineSpan ℝ {x | x ∈ opgPts} = ⊤ := by
  rw [eq_top_iff]
  intro x _
  have h0 : (![1, 4] : Pt 2) ∈ affineSpan ℝ {x | x ∈ opgPts} := subset_affineSpan ℝ _ (by simp [opgPts])
  have h1 : (![1, -4] : Pt 2) ∈ affineSpan ℝ {x | x ∈ opgPts} := subset_affineSpan ℝ _ (by simp [opgPts])
  have h2 : (![-1, 4] : Pt 2) ∈ affineSpan ℝ {x | x ∈ opgPts} := subset_affineSpan ℝ _ (by simp [opgPts])
  have h3 := AffineSubspace.smul_vsub_vadd_mem _ ((4 - x 1) / 8) h1 h0 h0
  have h4 := AffineSubspace.smul_vsub_vadd_mem _ ((1 - x 0) / 2) h2 h0 h3
  convert h4 using 1
  funext i
  fin_cases i
  · simp; ring
  · simp; ring

theorem opg_succeeds (E : OpgEnv 2) (fX : List ℝ) (hf : fX.length = 4) (b : ℝ) (std : Bool) :
    ∃ U, opgFit E std none (some (.val b)) opgPts fX = .ok U := by
  have hcore : ∀ (Z : List (Pt 2)) (sd : Option (Pt 2)), Z.length = 4 → ∃ U, opgCore E none (some (.val b)) Z fX sd = .ok U := by
    intro Z sd hZ
    obtain ⟨A, hA⟩ := (localLinear_ok_iff E.ls E.pb Z fX b none).2 ⟨by rw [hf, hZ], by simp⟩
    have hl := (localLinear_length E.ls E.pb Z fX _ _ _ A hA).1
    have hne : A.map Fin.tail ≠ [] := by
      intro h0
      have := congrArg List.length h0
      rw [List.length_map, hl, hZ] at this
      simp at this
    obtain ⟨r, hr⟩ := asFit_default_ok E.svd (A.map Fin.tail) hne
    unfold opgCore localLinearGrads
    rw [hA]
    simp only [hr]
    exact ⟨_, rfl⟩
  have hlen : fX.length = opgPts.length := by rw [hf]; rfl
  unfold opgFit
  rw [if_pos hlen, if_neg (by simp [isXia])]
  unfold opgStd
  cases std
  · simpa using hcore opgPts none rfl
  · rw [if_pos rfl, if_neg]
    · exact hcore _ _ rfl
    · rintro ⟨i, hi⟩
      rw [opgPts_std] at hi
      fin_cases i <;> simp at hi

/-- **C66 is false**: for these points and the function `x₁ + x₂` the estimated direction is not the gradient, for every choice
of exact routines. -/
theorem opg_standardized_false (E : OpgEnv 2) (hsvd : SvdSpec E.svd) (hqr : QrOk E.qr) (hls : LstsqSpec E.ls)
    (htot : ∀ rows, E.ls rows ≠ none) : ∃ U, opgFit E true none (some (.val 1)) opgPts (opgPts.map (fun x => 0 + x ⬝ᵥ ![1, 1])) = .ok U ∧
      ¬ SameLine (ucol U 0) ![1, 1] := by
  obtain ⟨U, hU⟩ := opg_succeeds E (opgPts.map (fun x => 0 + x ⬝ᵥ ![1, 1])) (by simp [opgPts]) 1 true
  refine ⟨U, hU, ?_⟩
  rw [opg_standardized_partial E hsvd hqr hls htot none _ opgPts opgPts_span 0 ![1, 1] (by simp) U hU, opgPts_std]
  intro h
  have := h 0 1 (by simp) (by simp)
  norm_num at this

/-- The hypotheses on the routines can be met. -/
theorem exists_opgEnv (m : ℕ) : ∃ E : OpgEnv m, SvdSpec E.svd ∧ QrOk E.qr ∧ LstsqSpec E.ls ∧ ∀ rows, E.ls rows ≠ none := by
  obtain ⟨svd, h1⟩ := exists_svd m
  obtain ⟨qr, h2⟩ := exists_qr m
  obtain ⟨ls, h3, h4⟩ := exists_lstsq m
  exact ⟨⟨svd, qr, ls, fun _ _ => .error .valueError⟩, h1, h2, h3, h4⟩

/-- The hypotheses of `opg_plain` are met by these points. -/
example (E : OpgEnv 2) (hsvd : SvdSpec E.svd) (hls : LstsqSpec E.ls) (htot : ∀ rows, E.ls rows ≠ none) :
    ∃ U, opgFit E false none (some (.val 1)) opgPts (opgPts.map (fun x => 3 + x ⬝ᵥ ![1, 2])) = .ok U ∧ ∃ t : ℝ, 0 < t ∧ ucol U 0 = t • ![1, 2] := by
  obtain ⟨U, hU⟩ := opg_succeeds E (opgPts.map (fun x => 3 + x ⬝ᵥ ![1, 2])) (by simp [opgPts]) 1 false
  exact ⟨U, hU, opg_plain E hsvd hls htot none _ opgPts opgPts_span 3 ![1, 2] (by simp) U hU⟩

/-! ## The standardization -/

theorem colMean_shift (X : List (Pt m)) (hX : X ≠ []) (v : Pt m) (i : Fin m) : colMean (X.map (· + v)) i = colMean X i + v i := by
  have h0 : (X.length : ℝ) ≠ 0 := by
    rw [Nat.cast_ne_zero]
    exact fun h => hX (List.length_eq_zero_iff.1 h)
  have e : ((X.map (· + v)).map fun x => x i).sum = (X.map fun x => x i).sum + X.length * v i := by
    clear hX h0
    induction X with
    | nil => simp
    | cons a X ih =>
      simp only [List.map_cons, List.sum_cons, Pi.add_apply, List.length_cons] at ih ⊢
      rw [ih]
      push_cast
      ring
  rw [colMean, e, List.length_map, colMean]
  field_simp

theorem colStd_shift (X : List (Pt m)) (hX : X ≠ []) (v : Pt m) : colStd (X.map (· + v)) = colStd X := by
  funext i
  unfold colStd
  rw [List.length_map, List.map_map]
  congr 3
  refine List.map_congr_left fun x _ => ?_
  simp only [Function.comp, colMean_shift X hX, Pi.add_apply]
  ring

/-- **C66**: with standardization, the origin of the coordinates does not matter. -/
theorem opg_shift (E : OpgEnv m) (perp : Option ℝ) (bw : Option Bw) (X : List (Pt m)) (fX : List ℝ) (v : Pt m) :
    opgFit E true perp bw (X.map (· + v)) fX = opgFit E true perp bw X fX := by
  by_cases hX : X = []
  · subst hX; rfl
  have hst : (X.map (· + v)).map (stdRow (X.map (· + v))) = X.map (stdRow X) := by
    rw [List.map_map]
    refine List.map_congr_left fun x _ => ?_
    funext i
    simp only [Function.comp, stdRow, colMean_shift X hX, colStd_shift X hX, Pi.add_apply]
    congr 1
    ring
  have hne : ¬ (X.map (· + v) = [] ∧ isXia bw = true) := fun h => hX (List.map_eq_nil_iff.1 h.1)
  have hne' : ¬ (X = [] ∧ isXia bw = true) := fun h => hX h.1
  unfold opgFit
  rw [List.length_map, if_neg hne, if_neg hne']
  simp only [opgStd, if_true, hst, colStd_shift X hX]

/-- **C66**: the standard deviation used is that of the samples: the mean of the squares less the square of the mean. -/
theorem colStd_sq (X : List (Pt m)) (hX : X ≠ []) (i : Fin m) :
    0 ≤ colStd X i ∧ colStd X i ^ 2 = (X.map fun x => (x i) ^ 2).sum / (X.length : ℝ) - ((X.map fun x => x i).sum / X.length) ^ 2 := by
  have h0 : (X.length : ℝ) ≠ 0 := by
    rw [Nat.cast_ne_zero]
    exact fun h => hX (List.length_eq_zero_iff.1 h)
  refine ⟨Real.sqrt_nonneg _, ?_⟩
  have hnn : (0 : ℝ) ≤ (X.map fun x => (x i - colMean X i) ^ 2).sum / X.length := by
    refine div_nonneg (List.sum_nonneg fun y hy => ?_) (Nat.cast_nonneg _)
    obtain ⟨x, _, rfl⟩ := List.mem_map.1 hy
    exact sq_nonneg _
  have e : ∀ (Y : List (Pt m)) (c : ℝ), (Y.map fun x => (x i - c) ^ 2).sum = (Y.map fun x => x i ^ 2).sum - 2 * c * (Y.map fun x => x i).sum + Y.length * c ^ 2 := by
    intro Y c
    induction Y with
    | nil => simp
    | cons a Y ih =>
      simp only [List.map_cons, List.sum_cons, List.length_cons] at ih ⊢
      rw [ih]
      push_cast
      ring
  unfold colStd
  rw [Real.sq_sqrt hnn, e]
  unfold colMean
  field_simp
  ring

/-- **C66**: without samples the call fails: with the bandwidth named `xia` by a division by zero. -/
theorem opg_empty (E : OpgEnv m) (standardize : Bool) : opgFit E standardize none (some .xia) [] [] = .error .zeroDivision := by
  unfold opgFit
  rw [if_pos (by rfl), if_pos ⟨rfl, rfl⟩]

end Verif.Misc
