import Verif.Misc.ActiveOpt

/-!
# C134: symmetries of active subspaces

Singular values are determined by the gradients; so are the reported directions whose singular value is simple.  Rotating the coordinates rotates the
directions, the order of the gradients does not matter, and scaling changes the singular values by the scale.
-/

namespace Verif.Misc

open Verif Verif.Lip Matrix

variable {m : ℕ}

theorem diag_col (U : Matrix (Fin m) (Fin m) ℝ) (hU : Uᵀ * U = 1) (a : Fin m → ℝ) (k : Fin m) :
    (U * Matrix.diagonal a * Uᵀ) *ᵥ ucol U k = a k • ucol U k := by
  have e : Uᵀ *ᵥ ucol U k = Pi.single k 1 := by
    funext i
    have := congrFun (congrFun hU i) k
    rw [Matrix.mul_apply, Matrix.one_apply] at this
    rw [Matrix.mulVec, dotProduct, Pi.single_apply]
    exact this
  rw [← Matrix.mulVec_mulVec, e, ← Matrix.mulVec_mulVec, Matrix.diagonal_mulVec_single, mul_one]
  funext i
  rw [Matrix.mulVec_single]
  simp [ucol, mul_comm]

theorem ucol_dot (U : Matrix (Fin m) (Fin m) ℝ) (hU : Uᵀ * U = 1) (i j : Fin m) : ucol U i ⬝ᵥ ucol U j = if i = j then 1 else 0 := by
  have := congrFun (congrFun hU i) j
  rw [Matrix.mul_apply, Matrix.one_apply] at this
  exact this

theorem head_le (U V : Matrix (Fin m) (Fin m) ℝ) (hU : Uᵀ * U = 1) (hV : Vᵀ * V = 1) (a b : Fin m → ℝ) (ha : Antitone a)
    (h : U * Matrix.diagonal a * Uᵀ = V * Matrix.diagonal b * Vᵀ) (n : ℕ) (hn : n ≤ m) :
    (∑ k : Fin m, if (k : ℕ) < n then b k else 0) ≤ ∑ k : Fin m, if (k : ℕ) < n then a k else 0 := by
  have hQ : (headCols V hn)ᵀ * headCols V hn = 1 := by
    ext i j
    have := ucol_dot V hV (Fin.castLE hn i) (Fin.castLE hn j)
    rw [Matrix.mul_apply, Matrix.one_apply]
    refine Eq.trans this ?_
    simp
  refine le_trans (le_of_eq ?_) (kyFan U hU a ha (headCols V hn) hQ)
  rw [h]
  have hcol : ∀ j, ucol (headCols V hn) j = ucol V (Fin.castLE hn j) := fun j => rfl
  simp only [hcol, diag_col V hV, dotProduct_smul, smul_eq_mul, ucol_dot V hV, if_true, mul_one]
  rw [← Finset.sum_filter]
  symm
  refine Finset.sum_bij (fun j _ => Fin.castLE hn j) (fun j _ => by simp) (fun i _ j _ e => by simpa using e) (fun k hk => ?_) (fun _ _ => rfl)
  exact ⟨⟨k, by simpa using hk⟩, Finset.mem_univ _, rfl⟩

/-- Decreasing eigenvalues are determined by the matrix. -/
theorem eigs_unique (U V : Matrix (Fin m) (Fin m) ℝ) (hU : Uᵀ * U = 1) (hV : Vᵀ * V = 1) (a b : Fin m → ℝ) (ha : Antitone a) (hb : Antitone b)
    (h : U * Matrix.diagonal a * Uᵀ = V * Matrix.diagonal b * Vᵀ) : a = b := by
  have hH : ∀ n, n ≤ m → (∑ k : Fin m, if (k : ℕ) < n then a k else 0) = ∑ k : Fin m, if (k : ℕ) < n then b k else 0 := fun n hn =>
    le_antisymm (head_le V U hV hU b a hb h.symm n hn) (head_le U V hU hV a b ha h n hn)
  have hs : ∀ (c : Fin m → ℝ) (k : Fin m), (∑ j : Fin m, if (j : ℕ) < k + 1 then c j else 0) - (∑ j : Fin m, if (j : ℕ) < k then c j else 0) = c k := by
    intro c k
    rw [← Finset.sum_sub_distrib, Finset.sum_eq_single k]
    · simp
    · intro j _ hj
      have : (j : ℕ) ≠ k := fun e => hj (Fin.ext e)
      split_ifs <;> first | omega | simp
    · simp
  funext k
  rw [← hs a k, ← hs b k, hH _ k.2, hH _ k.2.le]

/-- An eigenvector for a simple eigenvalue is a multiple of the column. -/
theorem simple_col (U : Matrix (Fin m) (Fin m) ℝ) (hU : Uᵀ * U = 1) (a : Fin m → ℝ) (k : Fin m) (hk : ∀ j, j ≠ k → a j ≠ a k) (v : Pt m)
    (hv : (U * Matrix.diagonal a * Uᵀ) *ᵥ v = a k • v) : v = (ucol U k ⬝ᵥ v) • ucol U k := by
  have hU' : U * Uᵀ = 1 := mul_eq_one_comm.1 hU
  have h1 : Matrix.diagonal a *ᵥ (Uᵀ *ᵥ v) = a k • (Uᵀ *ᵥ v) := by
    have := congrArg (fun x => Uᵀ *ᵥ x) hv
    simp only [Matrix.mulVec_smul, ← Matrix.mulVec_mulVec] at this
    rw [← this, Matrix.mulVec_mulVec _ Uᵀ U, hU, Matrix.one_mulVec]
  have h2 : ∀ j, j ≠ k → (Uᵀ *ᵥ v) j = 0 := by
    intro j hj
    have := congrFun h1 j
    rw [Matrix.mulVec_diagonal, Pi.smul_apply, smul_eq_mul] at this
    have h3 : (a j - a k) * (Uᵀ *ᵥ v) j = 0 := by linarith
    rcases mul_eq_zero.1 h3 with h | h
    · exact absurd (sub_eq_zero.1 h) (hk j hj)
    · exact h
  have h4 : v = U *ᵥ (Uᵀ *ᵥ v) := by rw [Matrix.mulVec_mulVec, hU', Matrix.one_mulVec]
  have h5 : Uᵀ *ᵥ v = Pi.single k (ucol U k ⬝ᵥ v) := by
    funext j
    rw [Pi.single_apply]
    split
    · rename_i e; subst e; rfl
    · rename_i e; exact h2 j e
  conv_lhs => rw [h4, h5]
  funext i
  rw [Matrix.mulVec_single]
  simp [ucol, mul_comm]

theorem sign_of_pos {x : ℝ} (h : 0 < x) : npSign x = 1 := by
  rcases npSign_cases x with ⟨_, e⟩ | ⟨h1, _⟩ | ⟨h1, _⟩
  · exact e
  · linarith
  · linarith

theorem sign_of_neg {x : ℝ} (h : x < 0) : npSign x = -1 := by
  rcases npSign_cases x with ⟨h1, _⟩ | ⟨_, e⟩ | ⟨h1, _⟩
  · linarith
  · exact e
  · linarith

theorem sign_of_zero : npSign 0 = 0 := by
  rcases npSign_cases 0 with ⟨h1, _⟩ | ⟨h1, _⟩ | ⟨_, e⟩
  · linarith
  · linarith
  · exact e

theorem sign_mul (x y : ℝ) : npSign (x * y) = npSign x * npSign y := by
  rcases lt_trichotomy x 0 with hx | rfl | hx
  · rcases lt_trichotomy y 0 with hy | rfl | hy
    · rw [sign_of_pos (mul_pos_of_neg_of_neg hx hy), sign_of_neg hx, sign_of_neg hy]; norm_num
    · rw [mul_zero, sign_of_zero, mul_zero]
    · rw [sign_of_neg (mul_neg_of_neg_of_pos hx hy), sign_of_neg hx, sign_of_pos hy]; norm_num
  · rw [zero_mul, sign_of_zero, zero_mul]
  · rcases lt_trichotomy y 0 with hy | rfl | hy
    · rw [sign_of_neg (mul_neg_of_pos_of_neg hx hy), sign_of_pos hx, sign_of_neg hy]; norm_num
    · rw [mul_zero, sign_of_zero, mul_zero]
    · rw [sign_of_pos (mul_pos hx hy), sign_of_pos hx, sign_of_pos hy]; norm_num

theorem npSign_unit {w : ℝ} (h : w * w = 1) : npSign w * w = 1 := by
  rcases npSign_cases w with ⟨h1, e⟩ | ⟨h1, e⟩ | ⟨h1, e⟩ <;> rw [e] <;> nlinarith

/-- The singular value numbered `k` differs from all others. -/
def Simple (s : List ℝ) (k : Fin m) : Prop := ∀ j : Fin m, j ≠ k → s.getD j 0 ≠ s.getD k 0

/-- Two fits whose matrices agree up to a rotation and a factor. -/
theorem sym_core (svd svd' : SvdFn m) (hsvd : SvdSpec svd) (hsvd' : SvdSpec svd') (ps ps' : List (ℝ × Pt m)) (hp : ∀ p ∈ ps, 0 ≤ p.1)
    (hp' : ∀ p ∈ ps', 0 ≤ p.1) (grads grads' : List (Pt m)) (Q : Matrix (Fin m) (Fin m) ℝ) (hQ : Qᵀ * Q = 1) (c e : ℝ) (hc : 0 < c)
    (hC : outerSum ps' = c • (Q * outerSum ps * Qᵀ)) (hm : ∀ u, meanGrad grads' (Q *ᵥ u) = e * meanGrad grads u) :
    (asRaw svd' ps').s = (asRaw svd ps).s.map (fun x => Real.sqrt c * x) ∧ ∀ k : Fin m, Simple (asRaw svd ps).s k →
      ucol (fixGrads (asRaw svd' ps').U grads') k = npSign e • (Q *ᵥ ucol (fixGrads (asRaw svd ps).U grads) k) := by
  have hU : (asRaw svd ps).Uᵀ * (asRaw svd ps).U = 1 := (hsvd ps.length (asCols ps)).orthU
  have hU' : (asRaw svd' ps').Uᵀ * (asRaw svd' ps').U = 1 := (hsvd' ps'.length (asCols ps')).orthU
  have eC : (asRaw svd ps).U * Matrix.diagonal (fun i : Fin m => (asRaw svd ps).s.getD i 0 ^ 2) * (asRaw svd ps).Uᵀ = outerSum ps := asRaw_C svd hsvd ps hp
  have eC' : (asRaw svd' ps').U * Matrix.diagonal (fun i : Fin m => (asRaw svd' ps').s.getD i 0 ^ 2) * (asRaw svd' ps').Uᵀ = outerSum ps' :=
    asRaw_C svd' hsvd' ps' hp'
  obtain ⟨hl, hn, ha⟩ := asRaw_s svd hsvd ps
  obtain ⟨hl', hn', ha'⟩ := asRaw_s svd' hsvd' ps'
  revert hU hU' eC eC' hl hn ha hl' hn' ha'
  generalize (asRaw svd ps).U = U
  generalize (asRaw svd' ps').U = U'
  generalize (asRaw svd ps).s = s
  generalize (asRaw svd' ps').s = s'
  intro hU hU' eC eC' hl hn ha hl' hn' ha'
  have n1 : ∀ k : Fin m, 0 ≤ s.getD k 0 := fun k => by
    rw [List.getD_eq_getElem _ _ (by rw [hl]; exact k.2)]; exact hn _ (List.getElem_mem _)
  have n2 : ∀ k : Fin m, 0 ≤ s'.getD k 0 := fun k => by
    rw [List.getD_eq_getElem _ _ (by rw [hl']; exact k.2)]; exact hn' _ (List.getElem_mem _)
  have hW : (Q * U)ᵀ * (Q * U) = 1 := by
    rw [Matrix.transpose_mul, Matrix.mul_assoc, ← Matrix.mul_assoc Qᵀ, hQ, Matrix.one_mul, hU]
  have hD : Matrix.diagonal (fun i : Fin m => c * s.getD i 0 ^ 2) = c • Matrix.diagonal (fun i : Fin m => s.getD i 0 ^ 2) := by
    rw [← Matrix.diagonal_smul]; rfl
  have hE : U' * Matrix.diagonal (fun i : Fin m => s'.getD i 0 ^ 2) * U'ᵀ = Q * U * Matrix.diagonal (fun i : Fin m => c * s.getD i 0 ^ 2) * (Q * U)ᵀ := by
    rw [eC', hC, ← eC, hD, Matrix.transpose_mul]
    simp only [Matrix.mul_assoc, Matrix.smul_mul, Matrix.mul_smul]
  have m1 : Antitone (fun i : Fin m => c * s.getD i 0 ^ 2) := by
    intro i j hij
    have h1 := ha hij
    simp only at h1 ⊢
    exact mul_le_mul_of_nonneg_left (pow_le_pow_left₀ (n1 j) h1 2) hc.le
  have m2 : Antitone (fun i : Fin m => s'.getD i 0 ^ 2) := by
    intro i j hij
    exact pow_le_pow_left₀ (n2 j) (ha' hij) 2
  have hs := eigs_unique U' (Q * U) hU' hW _ _ m2 m1 hE
  have hsk : ∀ k : Fin m, s'.getD k 0 = Real.sqrt c * s.getD k 0 := by
    intro k
    have h1 : s'.getD k 0 ^ 2 = c * s.getD k 0 ^ 2 := congrFun hs k
    have h2 : s'.getD k 0 = Real.sqrt (c * s.getD k 0 ^ 2) := by rw [← h1, Real.sqrt_sq (n2 k)]
    rw [h2, Real.sqrt_mul hc.le, Real.sqrt_sq (n1 k)]
  refine ⟨?_, fun k hk => ?_⟩
  · refine List.ext_getElem (by simp [hl, hl']) fun i h1 h2 => ?_
    have := hsk ⟨i, by rw [← hl']; exact h1⟩
    simp only at this
    rw [List.getD_eq_getElem _ _ h1, List.getD_eq_getElem _ _ (by rw [hl, ← hl']; exact h1)] at this
    rw [this, List.getElem_map]
  · have hv : (Q * U * Matrix.diagonal (fun i : Fin m => c * s.getD i 0 ^ 2) * (Q * U)ᵀ) *ᵥ ucol U' k = (c * s.getD k 0 ^ 2) • ucol U' k := by
      rw [← hE, diag_col U' hU']
      have h1 : s'.getD k 0 ^ 2 = c * s.getD k 0 ^ 2 := congrFun hs k
      rw [h1]
    have hsim : ∀ j, j ≠ k → c * s.getD j 0 ^ 2 ≠ c * s.getD k 0 ^ 2 := by
      intro j hj he
      refine hk j hj ?_
      have h1 := mul_left_cancel₀ hc.ne' he
      rw [← Real.sqrt_sq (n1 j), h1, Real.sqrt_sq (n1 k)]
    have hcol := simple_col (Q * U) hW (fun i => c * s.getD i 0 ^ 2) k hsim (ucol U' k) hv
    have hQU : ucol (Q * U) k = Q *ᵥ ucol U k := rfl
    set w := ucol (Q * U) k ⬝ᵥ ucol U' k with hw
    have hw1 : w * w = 1 := by
      have h1 := ucol_dot U' hU' k k
      rw [if_pos rfl, hcol, smul_dotProduct, dotProduct_smul, ucol_dot (Q * U) hW, if_pos rfl] at h1
      simpa using h1
    rw [fixGrads, fixGrads, ucol_mul_diagonal, ucol_mul_diagonal]
    rw [hcol, hQU, meanGrad_smul, hm, sign_mul, sign_mul, Matrix.mulVec_smul, smul_smul, smul_smul]
    congr 1
    have := npSign_unit hw1
    linear_combination (npSign e * npSign (meanGrad grads (ucol U k))) * this

/-! ### Fits -/

theorem asStretch_map (f : Pt m → Pt m) (w : List ℝ) (grads : List (Pt m)) :
    asStretch w (grads.map f) = (asStretch w grads).map (List.map (Prod.map id f)) := by
  match w, grads with
  | [], [] => rfl
  | [], [g] => rfl
  | [], g :: g' :: gs => rfl
  | [a], gs => simp [asStretch, Function.comp_def]
  | a :: b :: w, [] => rfl
  | a :: b :: w, [g] => simp [asStretch, Function.comp_def]
  | a :: b :: w, g :: g' :: gs => rfl

theorem asPairs_map (f : Pt m → Pt m) (w : List ℝ) (grads : List (Pt m)) :
    asPairs (grads.map f) w = (asPairs grads w).map (List.map (Prod.map id f)) := by
  unfold asPairs
  rw [List.length_map]
  split
  · rw [Option.map_some, List.zip_map_right]
  · exact asStretch_map f w grads

theorem asWeights_map (f : Pt m → Pt m) (grads : List (Pt m)) (weights : Option (List ℝ)) : asWeights (grads.map f) weights = asWeights grads weights := by
  cases weights <;> simp [asWeights]

theorem outerSum_mulVec (Q : Matrix (Fin m) (Fin m) ℝ) (ps : List (ℝ × Pt m)) :
    outerSum (ps.map (Prod.map id fun g => Q *ᵥ g)) = Q * outerSum ps * Qᵀ := by
  unfold outerSum
  induction ps with
  | nil => simp
  | cons p ps ih =>
    simp only [List.map_cons, List.sum_cons, Prod.map_fst, Prod.map_snd, id] at ih ⊢
    rw [ih, Matrix.mul_add, Matrix.add_mul]
    congr 1
    rw [Matrix.mul_smul, Matrix.smul_mul, Matrix.mul_vecMulVec, Matrix.vecMulVec_mul, Matrix.vecMul_transpose]

theorem outerSum_smul (c : ℝ) (ps : List (ℝ × Pt m)) : outerSum (ps.map (Prod.map id fun g => c • g)) = c ^ 2 • outerSum ps := by
  unfold outerSum
  induction ps with
  | nil => simp
  | cons p ps ih =>
    simp only [List.map_cons, List.sum_cons, Prod.map_fst, Prod.map_snd, id] at ih ⊢
    rw [ih, smul_add]
    congr 1
    rw [Matrix.smul_vecMulVec, Matrix.vecMulVec_smul, smul_smul, smul_smul, smul_smul]
    congr 1
    ring

/-- **C134**: turning the coordinates (an orthogonal change of the inputs turns the gradients) turns the active subspace: `C` is conjugated, the singular
values stay, and every direction with a simple singular value is turned.  Neither the routine nor its choices matter. -/
theorem asFit_rotate (svd svd' : SvdFn m) (hsvd : SvdSpec svd) (hsvd' : SvdSpec svd') (Q : Matrix (Fin m) (Fin m) ℝ) (hQ : Qᵀ * Q = 1)
    (grads : List (Pt m)) (weights : Option (List ℝ)) (r r' : ASState m) (h : asFit svd grads weights = .ok r)
    (h' : asFit svd' (grads.map fun g => Q *ᵥ g) weights = .ok r') :
    r'.C = Q * r.C * Qᵀ ∧ r'.s = r.s ∧ ∀ k : Fin m, Simple r.s k → ucol r'.U k = Q *ᵥ ucol r.U k := by
  obtain ⟨ps, _, e1, h3, rfl⟩ := asFit_ok svd grads weights r h
  obtain ⟨ps', _, e2, h3', rfl⟩ := asFit_ok svd' _ weights r' h'
  rw [asWeights_map, asPairs_map, e1, Option.map_some] at e2
  obtain rfl := Option.some.inj e2
  have hm : ∀ u, meanGrad (grads.map fun g => Q *ᵥ g) (Q *ᵥ u) = 1 * meanGrad grads u := by
    intro u
    unfold meanGrad
    rw [List.map_map, List.length_map, one_mul]
    congr 3
    funext g
    rw [Function.comp, Matrix.dotProduct_mulVec, Matrix.vecMul_mulVec, hQ, Matrix.vecMul_one]
  obtain ⟨k1, k2⟩ := sym_core svd svd' hsvd hsvd' ps _ h3 h3' grads (grads.map fun g => Q *ᵥ g) Q hQ 1 1 one_pos (by rw [one_smul, outerSum_mulVec]) hm
  refine ⟨?_, ?_, fun k hk => ?_⟩
  · change (asRaw svd' _).C = Q * (asRaw svd ps).C * Qᵀ
    rw [asRaw_C svd' hsvd' _ h3', asRaw_C svd hsvd _ h3, outerSum_mulVec]
  · change (asRaw svd' _).s = (asRaw svd ps).s
    rw [k1, Real.sqrt_one]
    simp
  · refine (k2 k hk).trans ?_
    rw [sign_of_pos one_pos, one_smul]

/-- **C134**: scaling the function scales the singular values by the absolute value of the factor; a negative factor turns the directions around. -/
theorem asFit_scale (svd svd' : SvdFn m) (hsvd : SvdSpec svd) (hsvd' : SvdSpec svd') (c : ℝ) (hc : c ≠ 0)
    (grads : List (Pt m)) (weights : Option (List ℝ)) (r r' : ASState m) (h : asFit svd grads weights = .ok r)
    (h' : asFit svd' (grads.map fun g => c • g) weights = .ok r') :
    r'.C = c ^ 2 • r.C ∧ r'.s = r.s.map (fun x => |c| * x) ∧ ∀ k : Fin m, Simple r.s k → ucol r'.U k = (if 0 < c then 1 else -1 : ℝ) • ucol r.U k := by
  obtain ⟨ps, _, e1, h3, rfl⟩ := asFit_ok svd grads weights r h
  obtain ⟨ps', _, e2, h3', rfl⟩ := asFit_ok svd' _ weights r' h'
  rw [asWeights_map, asPairs_map, e1, Option.map_some] at e2
  obtain rfl := Option.some.inj e2
  have hm : ∀ u, meanGrad (grads.map fun g => c • g) ((1 : Matrix (Fin m) (Fin m) ℝ) *ᵥ u) = c * meanGrad grads u := by
    intro u
    rw [← meanGrad_smul, Matrix.one_mulVec]
    unfold meanGrad
    rw [List.map_map, List.length_map]
    congr 3
    funext g
    rw [Function.comp, smul_dotProduct, dotProduct_smul]
  obtain ⟨k1, k2⟩ := sym_core svd svd' hsvd hsvd' ps _ h3 h3' grads (grads.map fun g => c • g) 1 (by simp) (c ^ 2) c (by positivity)
    (by rw [outerSum_smul, Matrix.one_mul, Matrix.transpose_one, Matrix.mul_one]) hm
  refine ⟨?_, ?_, fun k hk => ?_⟩
  · change (asRaw svd' _).C = c ^ 2 • (asRaw svd ps).C
    rw [asRaw_C svd' hsvd' _ h3', asRaw_C svd hsvd _ h3, outerSum_smul]
  · change (asRaw svd' _).s = (asRaw svd ps).s.map _
    rw [k1, Real.sqrt_sq_eq_abs]
  · refine (k2 k hk).trans ?_
    rw [Matrix.one_mulVec]
    split
    · rename_i hp; rw [sign_of_pos hp]
    · rename_i hp; rw [sign_of_neg (lt_of_le_of_ne (not_lt.1 hp) hc)]

/-- **C134**: neither the order in which the gradients and their weights are given nor the routine for the decomposition matters. -/
theorem asFit_perm (svd svd' : SvdFn m) (hsvd : SvdSpec svd) (hsvd' : SvdSpec svd') (grads grads' : List (Pt m)) (w w' : List ℝ)
    (hw : w.length = grads.length) (hw' : w'.length = grads'.length) (hp : (w'.zip grads').Perm (w.zip grads)) (r r' : ASState m)
    (h : asFit svd grads (some w) = .ok r) (h' : asFit svd' grads' (some w') = .ok r') :
    r'.C = r.C ∧ r'.s = r.s ∧ ∀ k : Fin m, Simple r.s k → ucol r'.U k = ucol r.U k := by
  obtain ⟨ps, _, e1, h3, rfl⟩ := asFit_ok svd grads (some w) r h
  obtain ⟨ps', _, e2, h3', rfl⟩ := asFit_ok svd' _ (some w') r' h'
  change asPairs grads w = some ps at e1
  change asPairs grads' w' = some ps' at e2
  rw [asPairs, if_pos hw, Option.some.injEq] at e1
  rw [asPairs, if_pos hw', Option.some.injEq] at e2
  subst e1 e2
  have hg : grads'.Perm grads := by
    have := hp.map Prod.snd
    rwa [List.map_snd_zip hw'.ge, List.map_snd_zip hw.ge] at this
  have ho : outerSum (w'.zip grads') = outerSum (w.zip grads) := (hp.map _).sum_eq
  have hm : ∀ u, meanGrad grads' ((1 : Matrix (Fin m) (Fin m) ℝ) *ᵥ u) = 1 * meanGrad grads u := by
    intro u
    unfold meanGrad
    rw [Matrix.one_mulVec, one_mul, (hg.map _).sum_eq, hg.length_eq]
  obtain ⟨k1, k2⟩ := sym_core svd svd' hsvd hsvd' _ _ h3 h3' grads grads' 1 (by simp) 1 1 one_pos
    (by rw [ho, one_smul, Matrix.one_mul, Matrix.transpose_one, Matrix.mul_one]) hm
  refine ⟨?_, ?_, fun k hk => ?_⟩
  · change (asRaw svd' _).C = (asRaw svd _).C
    rw [asRaw_C svd' hsvd' _ h3', asRaw_C svd hsvd _ h3, ho]
  · change (asRaw svd' _).s = (asRaw svd _).s
    rw [k1, Real.sqrt_one]
    simp
  · refine (k2 k hk).trans ?_
    rw [sign_of_pos one_pos, one_smul, Matrix.one_mulVec]

/-- **C134**: multiplying all weights by a positive number multiplies `C` by it and leaves simple directions alone. -/
theorem asFit_weights (svd svd' : SvdFn m) (hsvd : SvdSpec svd) (hsvd' : SvdSpec svd') (c : ℝ) (hc : 0 < c) (grads : List (Pt m)) (w : List ℝ)
    (hw : w.length = grads.length) (r r' : ASState m) (h : asFit svd grads (some w) = .ok r) (h' : asFit svd' grads (some (w.map fun a => c * a)) = .ok r') :
    r'.C = c • r.C ∧ r'.s = r.s.map (fun x => Real.sqrt c * x) ∧ ∀ k : Fin m, Simple r.s k → ucol r'.U k = ucol r.U k := by
  obtain ⟨ps, _, e1, h3, rfl⟩ := asFit_ok svd grads (some w) r h
  obtain ⟨ps', _, e2, h3', rfl⟩ := asFit_ok svd' _ (some _) r' h'
  change asPairs grads w = some ps at e1
  change asPairs grads (w.map fun a => c * a) = some ps' at e2
  rw [asPairs, if_pos hw, Option.some.injEq] at e1
  rw [asPairs, if_pos (by rw [List.length_map, hw]), Option.some.injEq] at e2
  subst e1 e2
  have ho : outerSum ((w.map fun a => c * a).zip grads) = c • outerSum (w.zip grads) := by
    rw [List.zip_map_left]
    unfold outerSum
    rw [List.map_map, List.smul_sum, List.map_map]
    congr 2
    funext p
    simp [smul_smul]
  have hm : ∀ u, meanGrad grads ((1 : Matrix (Fin m) (Fin m) ℝ) *ᵥ u) = 1 * meanGrad grads u := by
    intro u
    rw [Matrix.one_mulVec, one_mul]
  obtain ⟨k1, k2⟩ := sym_core svd svd' hsvd hsvd' _ _ h3 h3' grads grads 1 (by simp) c 1 hc
    (by rw [ho, Matrix.one_mul, Matrix.transpose_one, Matrix.mul_one]) hm
  refine ⟨?_, k1, fun k hk => ?_⟩
  · change (asRaw svd' _).C = c • (asRaw svd _).C
    rw [asRaw_C svd' hsvd' _ h3', asRaw_C svd hsvd _ h3, ho]
  · refine (k2 k hk).trans ?_
    rw [sign_of_pos one_pos, one_smul, Matrix.one_mulVec]

/-- **C134**: the singular values are the square roots of the eigenvalues of `C`, in decreasing order. -/
theorem asFit_singvals (svd : SvdFn m) (hsvd : SvdSpec svd) (grads : List (Pt m)) (weights : Option (List ℝ)) (r : ASState m)
    (h : asFit svd grads weights = .ok r) (V : Matrix (Fin m) (Fin m) ℝ) (hV : Vᵀ * V = 1) (b : Fin m → ℝ) (hb : Antitone b)
    (hC : r.C = V * Matrix.diagonal b * Vᵀ) (k : Fin m) : r.s.getD k 0 = Real.sqrt (b k) := by
  obtain ⟨ps, _, _, h3, rfl⟩ := asFit_ok svd grads weights r h
  obtain ⟨hl, hn, ha⟩ := asRaw_s svd hsvd ps
  have n1 : ∀ k : Fin m, 0 ≤ (asRaw svd ps).s.getD k 0 := fun k => by
    rw [List.getD_eq_getElem _ _ (by rw [hl]; exact k.2)]; exact hn _ (List.getElem_mem _)
  have := eigs_unique (asRaw svd ps).U V (hsvd ps.length (asCols ps)).orthU hV (fun i => (asRaw svd ps).s.getD i 0 ^ 2) b
    (fun i j hij => pow_le_pow_left₀ (n1 j) (ha hij) 2) hb hC
  have h1 : (asRaw svd ps).s.getD k 0 ^ 2 = b k := congrFun this k
  rw [← h1, Real.sqrt_sq (n1 k)]

/-- Gradients `(2, 0)` and `(0, 1)`: both singular values are simple. -/
example (svd : SvdFn 2) (hsvd : SvdSpec svd) : ∃ r, asFit svd [![2, 0], ![0, 1]] (some [1, 1]) = .ok r ∧ ∀ k : Fin 2, Simple r.s k := by
  obtain ⟨r, hr⟩ := (asFit_ok_iff svd [![2, 0], ![0, 1]] [1, 1]).2 ⟨by simp, by simp, by simp⟩
  have hC := asFit_C svd hsvd _ _ (by simp) r hr
  have hC' : r.C = 1 * Matrix.diagonal ![4, 1] * (1 : Matrix (Fin 2) (Fin 2) ℝ)ᵀ := by
    rw [hC]
    ext i j
    fin_cases i <;> fin_cases j <;> simp [vecMulVec] <;> norm_num
  have hs := fun k => asFit_singvals svd hsvd _ _ r hr 1 (by simp) ![4, 1] (by intro i j; fin_cases i <;> fin_cases j <;> simp) hC' k
  refine ⟨r, hr, fun k j hjk => ?_⟩
  rw [hs, hs]
  have h4 : Real.sqrt 4 = 2 := by rw [show (4 : ℝ) = 2 ^ 2 by norm_num, Real.sqrt_sq (by norm_num)]
  fin_cases k <;> fin_cases j <;> simp [h4] at hjk ⊢

end Verif.Misc
