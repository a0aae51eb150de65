import Verif.Lipschitz.OptProps
import Verif.Lipschitz.RidgeWidthProps
import Verif.Misc.ActivePerturb

/-!
# C167: Lipschitz matrices, diagonal Lipschitz matrices, Lipschitz constants and active subspaces of the same data

`LipschitzMatrix.fit` (lipschitz.py 108-178), `DiagonalLipschitzMatrix.fit` (585-608), `LipschitzConstant.fit` (611-631) and `ActiveSubspace.fit`
(subspace.py 313-337) estimate how fast a function changes in different directions.  Here the estimates are compared.
-/

namespace Verif.Misc

open Verif Verif.Domain Verif.Lip Matrix

variable {m : ℕ}

/-! ## The fitted matrix is a Lipschitz matrix -/

/-- **C167**, and a stronger form of C129: the fitted matrix is a Lipschitz matrix of the data if no reported direction is zero. -/
theorem fit_minimal_nonzero {build : Build m} (hb : BuildOpt build) {eigh : EighFn m} (he : EighSpec eigh) {eps : Option ℝ} (heps : 0 ≤ eps.getD 0)
    {X : Option (List (Pt m))} {fX : Option (List ℝ)} {grads : Option (List (Pt m))} {r : LipFit m} (h : lipFit build eigh eps X fX grads = .ok r)
    {data : List (Pt m × ℝ)} {g : List (Pt m)} (hp : prepare X fX grads = .ok (data, g)) (hne : ∀ k, ucol r.U k ≠ 0) :
    IsLipMatrix (eps.getD 0) data g r.H := by
  obtain ⟨data', g', H, hp', hs, hbd, rfl⟩ := lipFit_ok h
  rw [hp] at hp'
  obtain ⟨rfl, rfl⟩ := Prod.mk.inj (Except.ok.inj hp')
  have hpos : 0 < fitScale data g := lt_of_le_of_ne (fitScale_nonneg _ _) (Ne.symm hs)
  have hes : 0 ≤ eps.getD 0 / fitScale data g := div_nonneg heps hpos.le
  have hadm := (feasible_admissible hes _ _ _).1 (hb.feasible _ _ _ _ hbd)
  have hsg : g = [] ∨ ∀ k, meanGrad (scaleGrads (fitScale data g) g) (ucol (eigh H).2 k) ≠ 0 := by
    by_cases hg : g = []
    · exact .inl hg
    · refine .inr fun k hk => hne k.rev ?_
      have hl : 0 < (scaleGrads (fitScale data g) g).length := by
        unfold scaleGrads
        rw [List.length_map]
        exact List.length_pos_of_ne_nil hg
      simp only [finishFit, fixSigns, gt_iff_lt, if_pos hl, fixGrads]
      rw [ucol_mul_diagonal]
      have e : ucol (Matrix.of fun i j : Fin m => (eigh H).2 i j.rev) k.rev = ucol (eigh H).2 k := by
        funext i
        simp [ucol]
      rw [e, hk]
      simp [npSign]
  rw [finishFit_H eigh he data g _ H hadm.symm hadm.psd hsg]
  refine ⟨(scaled_admissible hpos _ _ _).1 hadm, fun H' hH' => ?_⟩
  have e1 : H' = fitScale data g ^ 2 • ((fitScale data g ^ 2)⁻¹ • H') := by rw [smul_smul, mul_inv_cancel₀ (by positivity), one_smul]
  rw [e1] at hH' ⊢
  have := hb.minimal _ _ _ _ _ hes hbd ((feasible_admissible hes _ _ _).2 ((scaled_admissible hpos _ _ _).2 hH'))
  rw [trace_smul, trace_smul]
  exact mul_le_mul_of_nonneg_left this (by positivity)

/-- The directions are orthonormal then, and the matrix is diagonal in them. -/
theorem fit_spectral {build : Build m} (hb : BuildSpec build) {eigh : EighFn m} (he : EighSpec eigh) {eps : Option ℝ}
    {X : Option (List (Pt m))} {fX : Option (List ℝ)} {grads : Option (List (Pt m))} {r : LipFit m} (h : lipFit build eigh eps X fX grads = .ok r)
    (hne : ∀ k, ucol r.U k ≠ 0) : r.Uᵀ * r.U = 1 ∧ r.H = r.U * Matrix.diagonal (fun k => lnorm r.L (ucol r.U k) ^ 2) * r.Uᵀ := by
  have hq := (fit_gram hb he h).2.2.2
  obtain ⟨V, σ, w, hV, h01, hU, hw, hH, -, h11, -⟩ := fit_form hb he h
  have h1 := h11 hne
  refine ⟨?_, ?_⟩
  · rw [hU, Matrix.transpose_mul, Matrix.diagonal_transpose, Matrix.mul_assoc, ← Matrix.mul_assoc Vᵀ, hV, Matrix.one_mul, Matrix.diagonal_mul_diagonal]
    simp only [h1]
    exact Matrix.diagonal_one
  · have e : (fun k => lnorm r.L (ucol r.U k) ^ 2) = w := by
      funext k
      rw [← hq, fit_spread hV h01 hU hH, pow_two, h1, mul_one]
    rw [e, Matrix.mul_assoc]
    exact hH

/-! ## Active subspaces -/

/-- **C167**: the matrix of the active subspace is at most the total weight times any matrix consistent with the gradients; in particular directions such a matrix
maps to zero are inactive. -/
theorem active_le_lip {e : ℝ} {data : List (Pt m × ℝ)} {g : List (Pt m)} {H : Matrix (Fin m) (Fin m) ℝ} (hH : Admissible e data g H) {svd : SvdFn m}
    (hsvd : SvdSpec svd) {w : List ℝ} (hw : w.length = g.length) {a : ASState m} (ha : asFit svd g (some w) = .ok a) (v : Pt m) :
    v ⬝ᵥ (a.C *ᵥ v) ≤ w.sum * quad H v ∧ (H *ᵥ v = 0 → a.C *ᵥ v = 0) := by
  have hnn : ∀ x ∈ w, 0 ≤ x := ((asFit_ok_iff svd g w).1 ⟨a, ha⟩).2.1
  have hg : ∀ p ∈ w.zip g, (p.2 ⬝ᵥ v) ^ 2 ≤ quad H v := fun p hp => by
    have := hH.grads p.2 (List.of_mem_zip hp).2 v
    rw [← sq_abs]
    exact (Real.le_sqrt (abs_nonneg _) (hH.psd v)).1 this
  constructor
  · rw [(asFit_quad svd hsvd g w hw a ha).2.1 v]
    have h1 : ((w.zip g).map fun p => p.1 * (p.2 ⬝ᵥ v) ^ 2).sum ≤ ((w.zip g).map fun p => p.1 * quad H v).sum :=
      List.sum_le_sum fun p hp => mul_le_mul_of_nonneg_left (hg p hp) (hnn _ (List.of_mem_zip hp).1)
    refine h1.trans (le_of_eq ?_)
    rw [List.sum_map_mul_right]
    congr 1
    have : (w.zip g).map Prod.fst = w := List.map_fst_zip hw.le
    conv_rhs => rw [← this]
  · intro h0
    refine (asFit_null svd hsvd g w hw a ha v).2 fun p hp _ => ?_
    have := hg p hp
    rw [quad, h0, dotProduct_zero] at this
    exact pow_eq_zero_iff two_ne_zero |>.1 (le_antisymm this (sq_nonneg _))

/-- **C167**: each singular value of the active subspace is at most the root of the total weight times the size of the Lipschitz matrix along its direction of the
same number (with the default weights: at most that size). -/
theorem active_values_le_lip {build : Build m} (hb : BuildOpt build) {eigh : EighFn m} (he : EighSpec eigh) (hasc : EighAsc eigh) {eps : Option ℝ}
    (heps : 0 ≤ eps.getD 0) {X : Option (List (Pt m))} {fX : Option (List ℝ)} {grads : Option (List (Pt m))} {r : LipFit m}
    (h : lipFit build eigh eps X fX grads = .ok r) {data : List (Pt m × ℝ)} {g : List (Pt m)} (hp : prepare X fX grads = .ok (data, g))
    (hne : ∀ k, ucol r.U k ≠ 0) {svd : SvdFn m} (hsvd : SvdSpec svd) {w : List ℝ} (hw : w.length = g.length) {a : ASState m}
    (ha : asFit svd g (some w) = .ok a) (k : Fin m) : a.s.getD k 0 ≤ Real.sqrt w.sum * lnorm r.L (ucol r.U k) := by
  have hnn : ∀ x ∈ w, 0 ≤ x := ((asFit_ok_iff svd g w).1 ⟨a, ha⟩).2.1
  have hsum : 0 ≤ w.sum := List.sum_nonneg hnn
  have hadm := (fit_minimal_nonzero hb he heps h hp hne).1
  obtain ⟨hU, hH⟩ := fit_spectral hb.feasible he h hne
  have hanti := lead_antitone hb.feasible he hasc h hne
  obtain ⟨U', hU', hC', -⟩ := asFit_diag svd hsvd g w hw a ha
  have hC : a.C = outerSum (w.zip g) := asFit_C svd hsvd g w hw a ha
  obtain ⟨hl, hsn, hsa, -⟩ := asFit_eigen svd hsvd g (some w) a ha
  have hpos : ∀ j : Fin m, 0 ≤ a.s.getD j 0 := fun j => by
    rw [List.getD_eq_getElem _ _ (by rw [hl]; exact j.2)]; exact hsn _ (List.getElem_mem _)
  obtain ⟨v, hv, h1, h2⟩ := exists_between r.U U' hU' k
  have lo : a.s.getD k 0 ^ 2 ≤ v ⬝ᵥ (a.C *ᵥ v) := by
    rw [hC, hC', quad_diag]
    calc a.s.getD k 0 ^ 2 = ∑ i, a.s.getD k 0 ^ 2 * (U'ᵀ *ᵥ v) i ^ 2 := by rw [← Finset.mul_sum, orth_length U' hU', hv, mul_one]
      _ ≤ _ := Finset.sum_le_sum fun i _ => by
        rcases lt_or_ge k i with hi | hi
        · rw [h2 i hi]; simp
        · exact mul_le_mul_of_nonneg_right (pow_le_pow_left₀ (hpos k) (hsa hi) 2) (sq_nonneg _)
  have hi : quad r.H v ≤ lnorm r.L (ucol r.U k) ^ 2 := by
    rw [quad, hH, quad_diag]
    calc _ ≤ ∑ i, lnorm r.L (ucol r.U k) ^ 2 * (r.Uᵀ *ᵥ v) i ^ 2 := Finset.sum_le_sum fun i _ => by
          rcases lt_or_ge i k with hi | hi
          · rw [h1 i hi]; simp
          · exact mul_le_mul_of_nonneg_right (pow_le_pow_left₀ (nrm_nonneg _) (hanti hi) 2) (sq_nonneg _)
      _ = _ := by rw [← Finset.mul_sum, orth_length r.U hU, hv, mul_one]
  refine (sq_le_sq₀ (hpos k) (mul_nonneg (Real.sqrt_nonneg _) (nrm_nonneg _))).1 ?_
  rw [mul_pow, Real.sq_sqrt hsum]
  exact (lo.trans (active_le_lip hadm hsvd hw ha v).1).trans (mul_le_mul_of_nonneg_left hi hsum)

/-! ## Lipschitz constants -/

/-- A bound for a consistent matrix is a consistent constant. -/
theorem constOk_of_bound {e : ℝ} {data : List (Pt m × ℝ)} {g : List (Pt m)} {H : Matrix (Fin m) (Fin m) ℝ} (hH : Admissible e data g H) {t : ℝ} (ht : 0 ≤ t)
    (hb : ∀ v, quad H v ≤ t ^ 2 * (v ⬝ᵥ v)) : ConstOk e data g t := by
  have hs : ∀ v, √(quad H v) ≤ t * nrm v := fun v => by
    refine Real.sqrt_le_iff.2 ⟨mul_nonneg ht (nrm_nonneg _), ?_⟩
    rw [mul_pow, nrm_sq]
    exact hb v
  refine ⟨ht, fun d hd d' hd' => ?_, fun q hq => ?_⟩
  · have := (hH.samples d hd d' hd').trans (add_le_add_left (hs _) e)
    linarith
  · have h1 := (hH.grads q hq q).trans (hs q)
    rw [← nrm_sq, abs_of_nonneg (sq_nonneg _)] at h1
    by_contra hc
    rw [not_le] at hc
    have hn : 0 < nrm q := lt_of_le_of_lt ht hc
    nlinarith

/-- **C167**: the Lipschitz constant is at most the size of the Lipschitz matrix along its first direction, and that is at most the root of the dimension times the
constant. -/
theorem constant_between {build : Build m} (hb : BuildOpt build) {eigh : EighFn m} (he : EighSpec eigh) (hasc : EighAsc eigh) {eps : Option ℝ}
    (heps : 0 ≤ eps.getD 0) {X : Option (List (Pt m))} {fX : Option (List ℝ)} {grads : Option (List (Pt m))} {r : LipFit m}
    (h : lipFit build eigh eps X fX grads = .ok r) {data : List (Pt m × ℝ)} {g : List (Pt m)} (hp : prepare X fX grads = .ok (data, g))
    (hne : ∀ k, ucol r.U k ≠ 0) {c : ℝ} (hc : ConstLeast (eps.getD 0) data g c) (hm : 0 < m) :
    c ≤ lnorm r.L (ucol r.U ⟨0, hm⟩) ∧ lnorm r.L (ucol r.U ⟨0, hm⟩) ≤ Real.sqrt m * c := by
  have hlip := fit_minimal_nonzero hb he heps h hp hne
  obtain ⟨hU, hH⟩ := fit_spectral hb.feasible he h hne
  have hanti := lead_antitone hb.feasible he hasc h hne
  constructor
  · refine hc.2 _ (constOk_of_bound hlip.1 (nrm_nonneg _) fun v => ?_)
    rw [quad, hH, quad_diag, ← orth_length r.U hU v, Finset.mul_sum]
    refine Finset.sum_le_sum fun i _ => mul_le_mul_of_nonneg_right (pow_le_pow_left₀ (nrm_nonneg _) ?_ 2) (sq_nonneg _)
    exact hanti (Fin.mk_le_of_le_val (Nat.zero_le _))
  · have ht := lipMatrix_constant hc.1 hlip
    have h1 : lnorm r.L (ucol r.U ⟨0, hm⟩) ^ 2 ≤ trace r.H := by
      rw [hH, Matrix.trace_mul_comm, ← Matrix.mul_assoc, hU, Matrix.one_mul, Matrix.trace_diagonal]
      exact Finset.single_le_sum (f := fun k => lnorm r.L (ucol r.U k) ^ 2) (fun _ _ => sq_nonneg _) (Finset.mem_univ _)
    refine (sq_le_sq₀ (nrm_nonneg _) (mul_nonneg (Real.sqrt_nonneg _) hc.1.1)).1 ?_
    rw [mul_pow, Real.sq_sqrt (Nat.cast_nonneg _)]
    exact h1.trans ht

/-! ## Diagonal Lipschitz matrices -/

/-- The square of a consistent constant times the identity is consistent. -/
theorem constant_admissible {e c : ℝ} {data : List (Pt m × ℝ)} {g : List (Pt m)} (hc : ConstOk e data g c) :
    Admissible e data g (c ^ 2 • (1 : Matrix (Fin m) (Fin m) ℝ)) := by
  obtain ⟨h1, h2⟩ := constant_matrix hc
  have hq : ∀ x, quad (c ^ 2 • (1 : Matrix (Fin m) (Fin m) ℝ)) x = lnorm (c • (1 : Matrix (Fin m) (Fin m) ℝ)) x ^ 2 := fun x => by
    rw [quad_smul_one]
    unfold lnorm
    rw [nrm_sq, smul_mulVec, one_mulVec, smul_dotProduct, dotProduct_smul]
    simp only [smul_eq_mul]; ring
  have hs : ∀ x, √(quad (c ^ 2 • (1 : Matrix (Fin m) (Fin m) ℝ)) x) = lnorm (c • (1 : Matrix (Fin m) (Fin m) ℝ)) x := fun x => by
    rw [hq]; exact Real.sqrt_sq (nrm_nonneg _)
  exact ⟨by simp, fun x => by rw [hq]; positivity, fun d hd d' hd' => by rw [hs]; exact h1 d hd d' hd', fun g hg v => by rw [hs]; exact h2 g hg v⟩

/-- What the solver of the diagonal problem is trusted with. -/
def DiagOpt (build : Build m) : Prop := ∀ data grads e H, build data grads e = some H →
  CvxpyFeasible data grads e H ∧ (∃ d, H = Matrix.diagonal d) ∧ ∀ d, CvxpyFeasible data grads e (Matrix.diagonal d) → trace H ≤ ∑ i, d i

/-- **C167**: the trace of the Lipschitz matrix is at most that of the diagonal Lipschitz matrix, and this is at most `m` times the square of the Lipschitz constant. -/
theorem diag_between {build : Build m} (hb : DiagOpt build) {eps : Option ℝ} (heps : 0 ≤ eps.getD 0)
    {X : Option (List (Pt m))} {fX : Option (List ℝ)} {grads : Option (List (Pt m))} {D L : Matrix (Fin m) (Fin m) ℝ}
    (h : diagFit .cvxopt build eps X fX grads = .ok (D, L)) {data : List (Pt m × ℝ)} {g : List (Pt m)} (hp : prepare X fX grads = .ok (data, g)) :
    Admissible (eps.getD 0) data g D ∧ (∀ H, IsLipMatrix (eps.getD 0) data g H → trace H ≤ trace D) ∧
      ∀ c, ConstOk (eps.getD 0) data g c → trace D ≤ m * c ^ 2 := by
  unfold diagFit at h
  rw [hp] at h
  simp only [ne_eq, not_true_eq_false, if_false] at h
  split at h
  · cases h
  rename_i hs
  split at h
  · cases h
  rename_i H hbd
  have hbd : build (scaleData (fitScale data g) data) (scaleGrads (fitScale data g) g) (eps.getD 0 / fitScale data g) = some H := by
    cases eps
    · simpa using hbd
    · exact hbd
  obtain ⟨rfl, -⟩ := Prod.mk.inj (Except.ok.inj h)
  have hpos : 0 < fitScale data g := lt_of_le_of_ne (fitScale_nonneg _ _) (Ne.symm hs)
  have hes' : 0 ≤ eps.getD 0 / fitScale data g := div_nonneg heps hpos.le
  obtain ⟨hf, ⟨d, rfl⟩, hmin⟩ := hb _ _ _ _ hbd
  have hadm := (feasible_admissible hes' _ _ _).1 hf
  have hd : ∀ i, 0 ≤ d i := fun i => by
    have := hadm.psd (Pi.single i 1)
    simpa [quad, Matrix.mulVec_diagonal, single_dotProduct] using this
  have e0 : (Matrix.diagonal fun i => max ((Matrix.diagonal d : Matrix (Fin m) (Fin m) ℝ) i i) 0) = Matrix.diagonal d := by
    congr 1
    funext i
    rw [Matrix.diagonal_apply_eq, max_eq_left (hd i)]
  rw [e0]
  have hA := (scaled_admissible hpos data g (Matrix.diagonal d)).1 hadm
  refine ⟨hA, fun H hH => hH.2 _ hA, fun c hc => ?_⟩
  have hc' : CvxpyFeasible (scaleData (fitScale data g) data) (scaleGrads (fitScale data g) g) (eps.getD 0 / fitScale data g)
      (Matrix.diagonal fun _ : Fin m => (fitScale data g ^ 2)⁻¹ * c ^ 2) := by
    refine (feasible_admissible hes' _ _ _).2 ((scaled_admissible hpos data g _).2 ?_)
    have : fitScale data g ^ 2 • (Matrix.diagonal fun _ : Fin m => (fitScale data g ^ 2)⁻¹ * c ^ 2) = c ^ 2 • (1 : Matrix (Fin m) (Fin m) ℝ) := by
      rw [← Matrix.diagonal_one, ← Matrix.diagonal_smul, ← Matrix.diagonal_smul]
      congr 1
      funext i
      simp only [Pi.smul_apply, smul_eq_mul, mul_one]
      rw [← mul_assoc, mul_inv_cancel₀ (by positivity), one_mul]
    rw [this]
    exact constant_admissible hc
  have h2 := hmin _ hc'
  rw [Finset.sum_const, Finset.card_univ, Fintype.card_fin, nsmul_eq_mul] at h2
  rw [trace_smul, smul_eq_mul]
  calc _ ≤ fitScale data g ^ 2 * (m * ((fitScale data g ^ 2)⁻¹ * c ^ 2)) := mul_le_mul_of_nonneg_left h2 (by positivity)
    _ = _ := by field_simp

/-- A solver with the assumed properties exists. -/
theorem exists_diagOpt (m : ℕ) : ∃ build : Build m, DiagOpt build ∧
    ∀ data grads e, 0 ≤ e → (∃ d, CvxpyFeasible data grads e (Matrix.diagonal d)) → ∃ H, build data grads e = some H := by
  classical
  have key : ∀ (data : List (Pt m × ℝ)) (grads : List (Pt m)) (e : ℝ), (∃ d, Admissible e data grads (Matrix.diagonal d)) →
      ∃ d, Admissible e data grads (Matrix.diagonal d) ∧ ∀ d', Admissible e data grads (Matrix.diagonal d') → ∑ i, d i ≤ ∑ i, d' i := by
    rintro data grads e ⟨d0, h0⟩
    have hnn : ∀ d, Admissible e data grads (Matrix.diagonal d) → ∀ i, 0 ≤ d i := fun d hd i => by
      have := hd.psd (Pi.single i 1)
      rwa [quad_single, Matrix.diagonal_apply_eq] at this
    have hbox : IsCompact (Set.pi Set.univ fun _ : Fin m => Set.Icc (0 : ℝ) (∑ i, d0 i)) := isCompact_univ_pi fun _ => isCompact_Icc
    have hc : Continuous fun d : Fin m → ℝ => ∑ i, d i := continuous_finsetSum _ fun i _ => continuous_apply i
    have hcl : IsClosed {d : Fin m → ℝ | Admissible e data grads (Matrix.diagonal d)} :=
      (isClosed_admissible e data grads).preimage (Continuous.matrix_diagonal continuous_id)
    have hK : IsCompact ({d : Fin m → ℝ | Admissible e data grads (Matrix.diagonal d)} ∩ {d | ∑ i, d i ≤ ∑ i, d0 i}) := by
      refine IsCompact.of_isClosed_subset hbox (hcl.inter (isClosed_le hc continuous_const)) ?_
      rintro d ⟨h1, h2⟩ i -
      exact ⟨hnn d h1 i, (Finset.single_le_sum (f := d) (fun j _ => hnn d h1 j) (Finset.mem_univ i)).trans h2⟩
    obtain ⟨d, ⟨h1, h2⟩, hmin⟩ := hK.exists_isMinOn ⟨d0, h0, by simp⟩ hc.continuousOn
    refine ⟨d, h1, fun d' hd' => ?_⟩
    by_cases hle : ∑ i, d' i ≤ ∑ i, d0 i
    · exact hmin ⟨hd', hle⟩
    · exact le_trans h2 (not_le.1 hle).le
  refine ⟨fun data grads e => if h : 0 ≤ e ∧ ∃ d, Admissible e data grads (Matrix.diagonal d) then some (Matrix.diagonal (key data grads e h.2).choose) else none,
    ?_, ?_⟩
  · intro data grads e H h
    simp only at h
    split at h
    · rename_i hx
      obtain ⟨h1, h2⟩ := (key data grads e hx.2).choose_spec
      rw [← Option.some.inj h]
      refine ⟨(feasible_admissible hx.1 _ _ _).2 h1, ⟨_, rfl⟩, fun d hd => ?_⟩
      rw [Matrix.trace_diagonal]
      exact h2 d ((feasible_admissible hx.1 _ _ _).1 hd)
    · cases h
  · rintro data grads e he ⟨d, hd⟩
    have hx : 0 ≤ e ∧ ∃ d, Admissible e data grads (Matrix.diagonal d) := ⟨he, d, (feasible_admissible he _ _ _).1 hd⟩
    exact ⟨_, dif_pos hx⟩

/-! ## The matrix does not improve on the constant in every direction -/

/-- Three samples: `0` at the origin, `1` at two points of the unit circle. -/
noncomputable def fanX : List (Pt 2) := [![0, 0], ![4 / 5, 3 / 5], ![4 / 5, -(3 / 5)]]

theorem fan_quad (H : Matrix (Fin 2) (Fin 2) ℝ) (x y : ℝ) : quad H ![x, y] = H 0 0 * x ^ 2 + (H 0 1 + H 1 0) * x * y + H 1 1 * y ^ 2 := by
  simp only [quad, dotProduct, Matrix.mulVec, Fin.sum_univ_two, Matrix.cons_val_zero, Matrix.cons_val_one]
  ring

/-- The data of the three samples. -/
noncomputable def fanData : List (Pt 2 × ℝ) := [(![0, 0], 0), (![4 / 5, 3 / 5], 1), (![4 / 5, -(3 / 5)], 1)]

theorem nrm_two (x y : ℝ) : nrm (![x, y] : Pt 2) = Real.sqrt (x ^ 2 + y ^ 2) := by
  unfold nrm
  congr 1
  simp only [dotProduct, Fin.sum_univ_two, Matrix.cons_val_zero, Matrix.cons_val_one]
  ring

theorem sub_two (x y z w : ℝ) : (![x, y] : Pt 2) - ![z, w] = ![x - z, y - w] := by
  ext i; fin_cases i <;> simp

theorem fan_const : ConstLeast 0 fanData [] 1 := by
  refine ⟨⟨zero_le_one, ?_, by simp⟩, fun c hc => ?_⟩
  · intro d hd d' hd'
    simp only [fanData, List.mem_cons, List.not_mem_nil, or_false] at hd hd'
    have hs : ∀ a b t : ℝ, t ^ 2 ≤ a ^ 2 + b ^ 2 → |t| - 0 ≤ 1 * Real.sqrt (a ^ 2 + b ^ 2) := fun a b t h => by
      rw [sub_zero, one_mul]; exact Real.abs_le_sqrt h
    rcases hd with rfl | rfl | rfl <;> rcases hd' with rfl | rfl | rfl <;> simp only [sub_two, nrm_two] <;> refine hs _ _ _ ?_ <;> norm_num
  · have := hc.2.1 (![4 / 5, 3 / 5], 1) (by simp [fanData]) (![0, 0], 0) (by simp [fanData])
    simp only [sub_two, nrm_two] at this
    have e : ((4 : ℝ) / 5 - 0) ^ 2 + (3 / 5 - 0) ^ 2 = 1 := by norm_num
    rw [e] at this
    simpa using this

/-- Every Lipschitz matrix of the three samples is large along the first axis. -/
theorem fan_wide {H : Matrix (Fin 2) (Fin 2) ℝ} (h : IsLipMatrix 0 fanData [] H) : (25 : ℝ) / 16 ≤ quad H ![1, 0] := by
  have hadm : Admissible 0 fanData [] (Matrix.diagonal ![(25 : ℝ) / 16, 0]) := by
    have hq : ∀ x y : ℝ, quad (Matrix.diagonal ![(25 : ℝ) / 16, 0]) ![x, y] = 25 / 16 * x ^ 2 := fun x y => by rw [fan_quad]; simp
    refine ⟨by simp, fun x => ?_, ?_, by simp⟩
    · have : x = ![x 0, x 1] := by ext i; fin_cases i <;> rfl
      rw [this, hq]; positivity
    · intro d hd d' hd'
      simp only [fanData, List.mem_cons, List.not_mem_nil, or_false] at hd hd'
      have hs : ∀ a t : ℝ, t ^ 2 ≤ 25 / 16 * a ^ 2 → |t| ≤ Real.sqrt (25 / 16 * a ^ 2) + 0 := fun a t h => by
        rw [add_zero]; exact Real.abs_le_sqrt h
      rcases hd with rfl | rfl | rfl <;> rcases hd' with rfl | rfl | rfl <;> simp only [sub_two, hq] <;> refine hs _ _ ?_ <;> norm_num
  have ht := h.2 _ hadm
  have hc : 0 ≤ H 1 1 := by have := h.1.psd ![0, 1]; rw [fan_quad] at this; linarith
  have hsq : ∀ a b : ℝ, (1 : ℝ) ≤ Real.sqrt (quad H ![a, b]) + 0 → 1 ≤ quad H ![a, b] := fun a b hh => by
    rw [add_zero] at hh
    have := (Real.le_sqrt zero_le_one (h.1.psd _)).1 hh
    simpa using this
  have h1 := h.1.samples (![4 / 5, 3 / 5], 1) (by simp [fanData]) (![0, 0], 0) (by simp [fanData])
  have h2 := h.1.samples (![4 / 5, -(3 / 5)], 1) (by simp [fanData]) (![0, 0], 0) (by simp [fanData])
  simp only [sub_two, sub_zero, abs_one] at h1 h2
  have h1 := hsq _ _ h1
  have h2 := hsq _ _ h2
  rw [fan_quad] at h1 h2 ⊢
  simp only [Matrix.trace, Fin.sum_univ_two, Matrix.diag_apply, Matrix.diagonal_apply_eq, Matrix.cons_val_zero, Matrix.cons_val_one] at ht
  linarith

/-- **C167, disagreement**: the Lipschitz matrix of the three samples is longer along the first axis than the Lipschitz constant: intervals and distances by the
matrix can be wider than those by the constant. -/
theorem constant_tighter_false {build : Build 2} (hb : BuildOpt build) {eigh : EighFn 2} (he : EighSpec eigh) :
    (∃ r, lipFit build eigh none (some fanX) (some [0, 1, 1]) none = .ok r) ∧ ConstLeast 0 fanData [] 1 ∧
    ∀ r, lipFit build eigh none (some fanX) (some [0, 1, 1]) none = .ok r → 1 * nrm (![1, 0] : Pt 2) < lnorm r.L ![1, 0] := by
  have hp : prepare (some fanX) (some [0, 1, 1]) none = .ok (fanData, []) := rfl
  refine ⟨(fit_succeeds_iff hb eigh (by simp) hp ?_).2 ?_, fan_const, fun r hr => ?_⟩
  · rw [Ne, fitScale_zero_iff]; simp [fanData]
  · intro d hd d' hd' heq
    simp only [fanData, List.mem_cons, List.not_mem_nil, or_false] at hd hd'
    have h0 := congrFun heq 0
    have h1 := congrFun heq 1
    rcases hd with rfl | rfl | rfl <;> rcases hd' with rfl | rfl | rfl <;> simp at h0 h1 ⊢ <;> norm_num at h0
  · have hq := (fit_gram hb.feasible he hr).2.2.2 ![1, 0]
    have hlip := fit_minimal_nonzero hb he (by simp) hr hp (lead_samples hb.feasible he hr)
    have := fan_wide hlip
    rw [hq] at this
    have hn := nrm_nonneg (r.L *ᵥ ![1, 0])
    change 0 ≤ lnorm r.L ![1, 0] at hn
    rw [nrm_two]
    norm_num
    nlinarith

/-! ## Examples -/

/-- A fit to one gradient in one variable, whose only direction is not zero, with the active subspace of the gradient. -/
example : ∃ (build : Build 1) (eigh : EighFn 1) (svd : SvdFn 1) (r : LipFit 1) (a : ASState 1), BuildOpt build ∧ EighSpec eigh ∧ EighAsc eigh ∧ SvdSpec svd ∧
    lipFit build eigh none none none (some [![2]]) = .ok r ∧ (∀ k, ucol r.U k ≠ 0) ∧ asFit svd [![2]] (some [1]) = .ok a := by
  obtain ⟨build, hb⟩ := exists_buildOpt 1
  have hp : prepare (m := 1) none none (some [![2]]) = .ok ([], [![2]]) := rfl
  have hs : fitScale (m := 1) [] [![2]] ≠ 0 := by
    rw [Ne, fitScale_zero_iff]; simp
  have he : EighSpec (m := 1) fun H => (fun _ => H 0 0, 1) := fun H _ => by
    refine ⟨by simp, ?_⟩
    ext i j
    simp [Subsingleton.elim i 0, Subsingleton.elim j 0]
  obtain ⟨r, hr⟩ := (fit_succeeds_iff hb (fun H => (fun _ => H 0 0, 1)) (eps := none) (by simp) hp hs).2 (by simp)
  obtain ⟨svd, hsvd⟩ := exists_svd 1
  obtain ⟨a, ha⟩ := (asFit_ok_iff svd [![2]] [1]).2 ⟨by simp, by simp, by simp⟩
  refine ⟨build, _, svd, r, a, hb, he, fun H _ => ?_, hsvd, hr, fun k => ?_, ha⟩
  · intro i j hij; exact le_rfl
  · obtain ⟨data, g, H, hp', -, hbd, rfl⟩ := lipFit_ok hr
    rw [hp] at hp'
    obtain ⟨rfl, rfl⟩ := Prod.mk.inj (Except.ok.inj hp')
    intro h0
    have h0 := congrFun h0 0
    have hk : k = 0 := Subsingleton.elim _ _
    subst hk
    simp [finishFit, fixSigns, fixGrads, scaleGrads, ucol, npSign, meanGrad] at h0
    have hpos : 0 < fitScale (m := 1) [] [![2]] := lt_of_le_of_ne (fitScale_nonneg _ _) (Ne.symm hs)
    have e1 : vecHead (ucol (of fun i j : Fin 1 => (1 : Matrix (Fin 1) (Fin 1) ℝ) i j.rev) 0) = 1 := by
      simp only [vecHead, ucol, of_apply]; exact Matrix.one_apply_eq _
    rw [e1, if_pos (by positivity)] at h0
    have e2 : (1 : Matrix (Fin 1) (Fin 1) ℝ) 0 (Fin.rev 0) = 1 := Matrix.one_apply_eq _
    rw [e2] at h0
    exact one_ne_zero h0

/-- A diagonal fit of the same gradient. -/
example : ∃ (build : Build 1) (D L : Matrix (Fin 1) (Fin 1) ℝ), DiagOpt build ∧ diagFit .cvxopt build none none none (some [![2]]) = .ok (D, L) := by
  obtain ⟨build, hb, hc⟩ := exists_diagOpt 1
  have hs : fitScale (m := 1) [] [![2]] ≠ 0 := by
    rw [Ne, fitScale_zero_iff]; simp
  have hpos : 0 < fitScale (m := 1) [] [![2]] := lt_of_le_of_ne (fitScale_nonneg _ _) (Ne.symm hs)
  obtain ⟨H, hH⟩ := hc (scaleData (fitScale (m := 1) [] [![2]]) []) (scaleGrads (fitScale (m := 1) [] [![2]]) [![2]]) 0 le_rfl (by
    have : ConstOk (m := 1) 0 [] [![2]] 2 := ⟨by norm_num, by simp, fun g hg => by
      rw [List.mem_singleton.1 hg, nrm]
      refine Real.sqrt_le_iff.2 ⟨by norm_num, by simp [dotProduct]; norm_num⟩⟩
    refine ⟨fun _ => (fitScale (m := 1) [] [![2]] ^ 2)⁻¹ * 2 ^ 2, (feasible_admissible le_rfl _ _ _).2 ?_⟩
    have h0 : (0 : ℝ) = 0 / fitScale (m := 1) [] [![2]] := by simp
    rw [h0]
    refine (scaled_admissible hpos [] [![2]] _).2 ?_
    have e : fitScale (m := 1) [] [![2]] ^ 2 • (Matrix.diagonal fun _ : Fin 1 => (fitScale (m := 1) [] [![2]] ^ 2)⁻¹ * 2 ^ 2) = (2 : ℝ) ^ 2 • (1 : Matrix (Fin 1) (Fin 1) ℝ) := by
      ext i j
      simp [Subsingleton.elim i 0, Subsingleton.elim j 0, mul_inv_cancel_left₀ (pow_ne_zero 2 hs)]
    rw [e]
    exact constant_admissible this)
  refine ⟨build, fitScale (m := 1) [] [![2]] ^ 2 • Matrix.diagonal (fun i => max (H i i) 0), fitScale (m := 1) [] [![2]] • Matrix.diagonal (fun i => Real.sqrt (max (H i i) 0)), hb, ?_⟩
  have hp : prepare (m := 1) none none (some [![2]]) = .ok ([], [![2]]) := rfl
  unfold diagFit
  rw [hp]
  simp only [ne_eq, not_true_eq_false, if_false, hs, hH]

end Verif.Misc
