import Verif.Lipschitz.OptProps
import Mathlib.Data.Fin.Tuple.Sort
import Mathlib.LinearAlgebra.FiniteDimensional.Lemmas

/-!
# C158: the leading directions of a Lipschitz matrix are the best coordinates for reduced models

`fit` reports directions `U`.  A reduced model of a function uses the first `n` coordinates `U[:, :n]ᵀ x` only.
-/

namespace Verif.Lip

open Verif Matrix

variable {m : ℕ}

/-! ## Specification -/

/-- The coordinates of `x` along the first `n` directions: `U[:, :n].T.dot(x)`. -/
def lead (U : Matrix (Fin m) (Fin m) ℝ) (n : ℕ) (hn : n ≤ m) (x : Pt m) : Fin n → ℝ := fun k => ucol U (Fin.castLE hn k) ⬝ᵥ x

/-- `f` changes on `D` no more than the Lipschitz matrix says. -/
def LipIn (L : Matrix (Fin m) (Fin m) ℝ) (D : Set (Pt m)) (f : Pt m → ℝ) : Prop := ∀ x ∈ D, ∀ y ∈ D, |f x - f y| ≤ lnorm L (x - y)

/-- The reduced coordinates `c` suffice for accuracy `e`: some function of `c x` is within `e` of `f` on `D`. -/
def Reduces (c : Pt m → (Fin n → ℝ)) (D : Set (Pt m)) (f : Pt m → ℝ) (e : ℝ) : Prop := ∃ g : (Fin n → ℝ) → ℝ, ∀ x ∈ D, |f x - g (c x)| ≤ e

/-- `eigh` returns the eigenvalues in ascending order. -/
def EighAsc (eigh : EighFn m) : Prop := ∀ H : Matrix (Fin m) (Fin m) ℝ, Hᵀ = H → Monotone (eigh H).1

/-! ## Shape of the fit -/

/-- What the fit consists of: orthonormal directions with signs, some of which may be zero, and nonnegative eigenvalues. -/
theorem fit_form {build : Build m} (hb : BuildSpec build) {eigh : EighFn m} (he : EighSpec eigh) {eps : Option ℝ} {X : Option (List (Pt m))}
    {fX : Option (List ℝ)} {grads : Option (List (Pt m))} {r : LipFit m} (h : lipFit build eigh eps X fX grads = .ok r) :
    ∃ (V : Matrix (Fin m) (Fin m) ℝ) (σ w : Fin m → ℝ), Vᵀ * V = 1 ∧ (∀ k, σ k = 0 ∨ σ k * σ k = 1) ∧ r.U = V * Matrix.diagonal σ ∧ (∀ k, 0 ≤ w k) ∧
      r.H = r.U * (Matrix.diagonal w * r.Uᵀ) ∧ (EighAsc eigh → Antitone w) ∧
      ((∀ k, ucol r.U k ≠ 0) → ∀ k, σ k * σ k = 1) ∧ ((grads.getD [] = []) → ∀ k, σ k * σ k = 1) := by
  obtain ⟨data, g, H, hp, -, hbd, rfl⟩ := lipFit_ok h
  have hH := (hb _ _ _ _ hbd).1
  obtain ⟨h1, -⟩ := he H hH
  obtain ⟨σ, hσ, h01, h11⟩ := fixSigns_form (Matrix.of (fun i j : Fin m => (eigh H).2 i j.rev)) (scaleData (fitScale data g) data) (scaleGrads (fitScale data g) g)
  refine ⟨_, σ, fun k => fitScale data g ^ 2 * max ((eigh H).1 k.rev) 0, rev_orthonormal _ h1, h01, hσ, fun k => by positivity, ?_, fun ha i j hij => ?_,
    fun hne k => ?_, fun hg => h11 (Or.inl ?_)⟩
  · simp only [finishFit]
    rw [← Matrix.mul_smul, ← Matrix.smul_mul]
    congr 2
    ext i j
    by_cases hij : i = j
    · subst hij; simp
    · simp [hij]
  · refine mul_le_mul_of_nonneg_left (max_le_max ?_ (le_refl _)) (sq_nonneg _)
    exact ha H hH (Fin.rev_le_rev.2 hij)
  · rcases h01 k with h0 | h0
    · exact absurd (by simp only [finishFit]; rw [hσ, ucol_mul_diagonal, h0, zero_smul]) (hne k)
    · exact h0
  · have : g = grads.getD [] := by
      unfold prepare at hp
      split at hp
      · cases hp
      · split at hp
        · cases hp
        · exact (Prod.mk.inj (Except.ok.inj hp)).2.symm
    rw [this, hg]; rfl

/-- Parseval. -/
theorem sum_coords (V : Matrix (Fin m) (Fin m) ℝ) (hV : Vᵀ * V = 1) (z : Pt m) : ∑ k, (ucol V k ⬝ᵥ z) ^ 2 = nrm z ^ 2 := by
  have hV' : V * Vᵀ = 1 := mul_eq_one_comm.1 hV
  have h := quad_diag V (fun _ => 1) z
  rw [show (Matrix.diagonal (fun _ : Fin m => (1 : ℝ))) = 1 from Matrix.diagonal_one, Matrix.one_mul, hV', quad, Matrix.one_mulVec] at h
  rw [nrm_sq, h]
  simp

theorem ucol_orth (V : Matrix (Fin m) (Fin m) ℝ) (hV : Vᵀ * V = 1) (i j : Fin m) : ucol V i ⬝ᵥ ucol V j = if i = j then 1 else 0 := by
  have := congrFun (congrFun hV i) j
  rw [Matrix.mul_apply, Matrix.one_apply] at this
  exact this

/-- The change along a direction reported by the fit. -/
theorem fit_spread {V : Matrix (Fin m) (Fin m) ℝ} {σ w : Fin m → ℝ} (hV : Vᵀ * V = 1) (h01 : ∀ k, σ k = 0 ∨ σ k * σ k = 1) {U H : Matrix (Fin m) (Fin m) ℝ}
    (hU : U = V * Matrix.diagonal σ) (hH : H = U * (Matrix.diagonal w * Uᵀ)) (k : Fin m) : quad H (ucol U k) = w k * σ k ^ 2 := by
  rw [hH, quad_diag, Finset.sum_eq_single k]
  · rw [hU, ucol_mul_diagonal, smul_dotProduct, dotProduct_smul, ucol_orth V hV, if_pos rfl]
    rcases h01 k with h | h
    · simp [h]
    · simp only [smul_eq_mul, mul_one]; rw [h, pow_two (σ k), h]; ring
  · intro j _ hj
    rw [hU, ucol_mul_diagonal, ucol_mul_diagonal, smul_dotProduct, dotProduct_smul, ucol_orth V hV, if_neg hj]
    simp
  · simp

/-! ## Reduced coordinates suffice -/

/-- **C158**: two points with the same leading coordinates: the function differs by at most the largest change along the remaining directions times the distance. -/
theorem lead_same {build : Build m} (hb : BuildSpec build) {eigh : EighFn m} (he : EighSpec eigh) {eps : Option ℝ} {X : Option (List (Pt m))}
    {fX : Option (List ℝ)} {grads : Option (List (Pt m))} {r : LipFit m} (h : lipFit build eigh eps X fX grads = .ok r) {n : ℕ} (hn : n ≤ m)
    {t : ℝ} (ht : 0 ≤ t) (htail : ∀ k : Fin m, n ≤ k → lnorm r.L (ucol r.U k) ≤ t) {x y : Pt m} (hxy : lead r.U n hn x = lead r.U n hn y) :
    lnorm r.L (x - y) ≤ t * nrm (x - y) := by
  have hq := (fit_gram hb he h).2.2.2
  obtain ⟨V, σ, w, hV, h01, hU, hw, hH, -, -, -⟩ := fit_form hb he h
  refine (sq_le_sq₀ (nrm_nonneg _) (mul_nonneg ht (nrm_nonneg _))).1 ?_
  change lnorm r.L (x - y) ^ 2 ≤ _
  rw [← hq, mul_pow, ← sum_coords V hV, Finset.mul_sum, hH, quad_diag]
  refine Finset.sum_le_sum fun k _ => ?_
  by_cases hk : (k : ℕ) < n
  · have := congrFun hxy ⟨k, hk⟩
    simp only [lead, Fin.castLE_mk, Fin.eta] at this
    rw [dotProduct_sub, this, sub_self, zero_pow two_ne_zero, mul_zero]
    exact mul_nonneg (sq_nonneg _) (sq_nonneg _)
  · have h1 := htail k (not_lt.1 hk)
    have h2 : w k * σ k ^ 2 ≤ t ^ 2 := by
      rw [← fit_spread hV h01 hU hH k, hq]
      exact pow_le_pow_left₀ (Real.sqrt_nonneg _) h1 2
    rw [hU, ucol_mul_diagonal, smul_dotProduct, smul_eq_mul, mul_pow, ← mul_assoc]
    exact mul_le_mul_of_nonneg_right h2 (sq_nonneg _)

/-- Values that never differ by more than `2 e` on points with equal coordinates: a function of the coordinates is within `e`. -/
theorem reduces_of {c : Pt m → (Fin n → ℝ)} {D : Set (Pt m)} {f : Pt m → ℝ} {e : ℝ}
    (h : ∀ x ∈ D, ∀ y ∈ D, c x = c y → |f x - f y| ≤ 2 * e) : Reduces c D f e := by
  classical
  refine ⟨fun s => sSup (f '' {x | x ∈ D ∧ c x = s}) - e, fun x hx => ?_⟩
  have hne : (f '' {y | y ∈ D ∧ c y = c x}).Nonempty := ⟨f x, x, ⟨hx, rfl⟩, rfl⟩
  have hub : ∀ v ∈ f '' {y | y ∈ D ∧ c y = c x}, v ≤ f x + 2 * e := by
    rintro v ⟨y, ⟨hy, hc⟩, rfl⟩
    have := (abs_le.1 (h y hy x hx hc)).2
    linarith
  have h1 : sSup (f '' {y | y ∈ D ∧ c y = c x}) ≤ f x + 2 * e := csSup_le hne hub
  have h2 : f x ≤ sSup (f '' {y | y ∈ D ∧ c y = c x}) := le_csSup ⟨_, hub⟩ ⟨x, ⟨hx, rfl⟩, rfl⟩
  rw [abs_le]
  constructor <;> linarith

/-- **C158**: on a set of diameter `δ` every function with this Lipschitz matrix is, up to `t δ / 2`, a function of the leading coordinates; `t` bounds the change
along each of the remaining directions. -/
theorem lead_reduces {build : Build m} (hb : BuildSpec build) {eigh : EighFn m} (he : EighSpec eigh) {eps : Option ℝ} {X : Option (List (Pt m))}
    {fX : Option (List ℝ)} {grads : Option (List (Pt m))} {r : LipFit m} (h : lipFit build eigh eps X fX grads = .ok r) {n : ℕ} (hn : n ≤ m)
    {t : ℝ} (ht : 0 ≤ t) (htail : ∀ k : Fin m, n ≤ k → lnorm r.L (ucol r.U k) ≤ t) {D : Set (Pt m)} {δ : ℝ} (hD : ∀ x ∈ D, ∀ y ∈ D, nrm (x - y) ≤ δ)
    {f : Pt m → ℝ} (hf : LipIn r.L D f) : Reduces (lead r.U n hn) D f (t * δ / 2) := by
  refine reduces_of fun x hx y hy hc => (hf x hx y hy).trans ?_
  have h1 := lead_same hb he h hn ht htail hc
  have h2 := mul_le_mul_of_nonneg_left (hD x hx y hy) ht
  linarith

/-- All coordinates, or as many as the matrix has nonzero directions: nothing is lost. -/
theorem lead_exact {build : Build m} (hb : BuildSpec build) {eigh : EighFn m} (he : EighSpec eigh) {eps : Option ℝ} {X : Option (List (Pt m))}
    {fX : Option (List ℝ)} {grads : Option (List (Pt m))} {r : LipFit m} (h : lipFit build eigh eps X fX grads = .ok r) {n : ℕ} (hn : n ≤ m)
    (htail : ∀ k : Fin m, n ≤ k → r.L *ᵥ ucol r.U k = 0) {D : Set (Pt m)} {f : Pt m → ℝ} (hf : LipIn r.L D f) : Reduces (lead r.U n hn) D f 0 := by
  refine reduces_of fun x hx y hy hc => (hf x hx y hy).trans ?_
  have := lead_same hb he h hn (le_refl (0 : ℝ)) (fun k hk => by rw [lnorm, htail k hk]; simp [nrm]) hc
  linarith

/-! ## No other coordinates do better -/

/-- The directions are ordered: each changes the function no more than the one before, if no direction was lost. -/
theorem lead_antitone {build : Build m} (hb : BuildSpec build) {eigh : EighFn m} (he : EighSpec eigh) (ha : EighAsc eigh) {eps : Option ℝ}
    {X : Option (List (Pt m))} {fX : Option (List ℝ)} {grads : Option (List (Pt m))} {r : LipFit m} (h : lipFit build eigh eps X fX grads = .ok r)
    (hne : ∀ k, ucol r.U k ≠ 0) : Antitone fun k => lnorm r.L (ucol r.U k) := by
  have hq := (fit_gram hb he h).2.2.2
  obtain ⟨V, σ, w, hV, h01, hU, hw, hH, hanti, h11, -⟩ := fit_form hb he h
  intro i j hij
  refine (sq_le_sq₀ (nrm_nonneg _) (nrm_nonneg _)).1 ?_
  change lnorm r.L (ucol r.U j) ^ 2 ≤ lnorm r.L (ucol r.U i) ^ 2
  rw [← hq, ← hq, fit_spread hV h01 hU hH, fit_spread hV h01 hU hH, pow_two, pow_two, h11 hne, h11 hne, mul_one, mul_one]
  exact hanti ha hij

/-- Any `n` linear coordinates leave a direction along which the matrix is at least as large as along the `n`-th reported direction (counted from 0). -/
theorem lead_kernel {build : Build m} (hb : BuildSpec build) {eigh : EighFn m} (he : EighSpec eigh) (ha : EighAsc eigh) {eps : Option ℝ}
    {X : Option (List (Pt m))} {fX : Option (List ℝ)} {grads : Option (List (Pt m))} {r : LipFit m} (h : lipFit build eigh eps X fX grads = .ok r)
    (hne : ∀ k, ucol r.U k ≠ 0) (q : Fin m) (W : Matrix (Fin m) (Fin q) ℝ) :
    ∃ v : Pt m, nrm v = 1 ∧ Wᵀ *ᵥ v = 0 ∧ lnorm r.L (ucol r.U q) ≤ lnorm r.L v := by
  have hq := (fit_gram hb he h).2.2.2
  obtain ⟨V, σ, w, hV, h01, hU, hw, hH, hanti, h11, -⟩ := fit_form hb he h
  have hq1 : (q : ℕ) + 1 ≤ m := q.2
  -- combinations of the first q + 1 directions
  let P : Matrix (Fin m) (Fin (q + 1)) ℝ := Matrix.of fun i k => V i (Fin.castLE hq1 k)
  obtain ⟨c, hc, hc0⟩ : ∃ c : Fin (q + 1) → ℝ, (Wᵀ * P) *ᵥ c = 0 ∧ c ≠ 0 := by
    have := LinearMap.ker_ne_bot_of_finrank_lt (f := (Wᵀ * P).mulVecLin) (by simp)
    obtain ⟨c, hc, hc0⟩ := Submodule.exists_mem_ne_zero_of_ne_bot this
    exact ⟨c, LinearMap.mem_ker.1 hc, hc0⟩
  let v : Pt m := P *ᵥ c
  have hcoord : ∀ k : Fin m, ucol V k ⬝ᵥ v = if hk : (k : ℕ) < q + 1 then c ⟨k, hk⟩ else 0 := by
    intro k
    have h1 : ucol V k ⬝ᵥ v = ∑ j, (ucol V k ⬝ᵥ ucol V (Fin.castLE hq1 j)) * c j := by
      change ucol V k ⬝ᵥ (P *ᵥ c) = _
      rw [Matrix.dotProduct_mulVec]
      rfl
    rw [h1]
    simp only [ucol_orth V hV]
    split
    · rename_i hk
      rw [Finset.sum_eq_single ⟨k, hk⟩]
      · simp
      · intro j _ hj
        rw [if_neg, zero_mul]
        intro e; apply hj; ext; simp [e]
      · simp
    · rename_i hk
      refine Finset.sum_eq_zero fun j _ => ?_
      rw [if_neg, zero_mul]
      intro e; apply hk; rw [e]; exact j.2
  have hv0 : nrm v ≠ 0 := by
    intro e
    have h2 := sum_coords V hV v
    rw [e, zero_pow two_ne_zero, Finset.sum_eq_zero_iff_of_nonneg (fun _ _ => sq_nonneg _)] at h2
    apply hc0
    ext k
    have h3 := h2 (Fin.castLE hq1 k) (Finset.mem_univ _)
    rw [hcoord, dif_pos (show ((Fin.castLE hq1 k : Fin m) : ℕ) < q + 1 from k.2), pow_eq_zero_iff two_ne_zero] at h3
    exact h3
  have hge : lnorm r.L (ucol r.U q) * nrm v ≤ lnorm r.L v := by
    refine (sq_le_sq₀ (mul_nonneg (nrm_nonneg _) (nrm_nonneg _)) (nrm_nonneg _)).1 ?_
    change (lnorm r.L (ucol r.U q) * nrm v) ^ 2 ≤ lnorm r.L v ^ 2
    rw [mul_pow, ← hq, ← hq, fit_spread hV h01 hU hH, pow_two (σ q), h11 hne, mul_one, ← sum_coords V hV, Finset.mul_sum, hH, quad_diag]
    refine Finset.sum_le_sum fun k _ => ?_
    rw [hU, ucol_mul_diagonal, smul_dotProduct, smul_eq_mul, mul_pow, pow_two (σ k), h11 hne, one_mul, hcoord]
    split
    · rename_i hk
      exact mul_le_mul_of_nonneg_right (hanti ha (Fin.le_def.2 (Nat.lt_succ_iff.1 hk))) (sq_nonneg _)
    · simp
  have hsm : ∀ (a : ℝ), 0 ≤ a → ∀ z : Pt m, nrm (a • z) = a * nrm z := by
    intro a h0 z
    rw [nrm, nrm, smul_dotProduct, dotProduct_smul, smul_eq_mul, smul_eq_mul, ← mul_assoc, Real.sqrt_mul (mul_self_nonneg a), Real.sqrt_mul_self h0]
  have hpos : 0 < nrm v := lt_of_le_of_ne (Real.sqrt_nonneg _) (Ne.symm hv0)
  refine ⟨(nrm v)⁻¹ • v, ?_, ?_, ?_⟩
  · rw [hsm _ (inv_nonneg.2 hpos.le), inv_mul_cancel₀ hv0]
  · rw [Matrix.mulVec_smul]
    change (nrm v)⁻¹ • (Wᵀ *ᵥ (P *ᵥ c)) = 0
    rw [Matrix.mulVec_mulVec, hc, smul_zero]
  · have h5 : ∀ a : ℝ, 0 ≤ a → lnorm r.L (a • v) = a * lnorm r.L v := by
      intro a h0; rw [lnorm, Matrix.mulVec_smul, hsm a h0, lnorm]
    rw [h5 _ (inv_nonneg.2 hpos.le), ← div_eq_inv_mul, le_div_iff₀ hpos]
    exact hge

/-- **C158**: no `n` linear coordinates do better on a ball of radius `ρ`: some function with this Lipschitz matrix cannot be approximated from them to less than
`ρ` times the change along the `n`-th reported direction. -/
theorem lead_optimal {build : Build m} (hb : BuildSpec build) {eigh : EighFn m} (he : EighSpec eigh) (ha : EighAsc eigh) {eps : Option ℝ}
    {X : Option (List (Pt m))} {fX : Option (List ℝ)} {grads : Option (List (Pt m))} {r : LipFit m} (h : lipFit build eigh eps X fX grads = .ok r)
    (hne : ∀ k, ucol r.U k ≠ 0) (q : Fin m) (W : Matrix (Fin m) (Fin q) ℝ) (z : Pt m) {ρ : ℝ} (hρ : 0 ≤ ρ) :
    ∃ f : Pt m → ℝ, IsLip r.L f ∧ ∀ e, Reduces (fun x => Wᵀ *ᵥ x) {x | nrm (x - z) ≤ ρ} f e → lnorm r.L (ucol r.U q) * ρ ≤ e := by
  obtain ⟨v, hv1, hv0, hge⟩ := lead_kernel hb he ha h hne q W
  have hsm : ∀ a : ℝ, nrm (a • v) = |a| := by
    intro a
    have : (nrm v) ^ 2 = 1 := by rw [hv1]; norm_num
    rw [nrm_sq] at this
    rw [nrm, smul_dotProduct, dotProduct_smul, smul_eq_mul, smul_eq_mul, this, mul_one, Real.sqrt_mul_self_eq_abs]
  refine ⟨fun x => lnorm r.L (x - (z - ρ • v)), fun x y => ?_, fun e => ?_⟩
  · have h1 := lnorm_triangle r.L x y (z - ρ • v)
    have h2 := lnorm_triangle r.L y x (z - ρ • v)
    rw [lnorm_comm r.L y x] at h2
    rw [abs_le]; constructor <;> linarith
  · rintro ⟨g, hg⟩
    have h1 := hg (z + ρ • v) (by simp [hsm, abs_of_nonneg hρ])
    have h2 := hg (z - ρ • v) (by
      have : z - ρ • v - z = (-ρ) • v := by rw [neg_smul]; abel
      change nrm (z - ρ • v - z) ≤ ρ
      rw [this, hsm, abs_neg, abs_of_nonneg hρ])
    have hc : Wᵀ *ᵥ (z + ρ • v) = Wᵀ *ᵥ (z - ρ • v) := by
      rw [Matrix.mulVec_add, Matrix.mulVec_sub, Matrix.mulVec_smul, hv0]; simp
    have h3 : lnorm r.L (z + ρ • v - (z - ρ • v)) = 2 * ρ * lnorm r.L v := by
      have : z + ρ • v - (z - ρ • v) = (2 * ρ) • v := by rw [mul_smul, two_smul]; abel
      rw [this, lnorm, Matrix.mulVec_smul, lnorm, nrm, nrm, smul_dotProduct, dotProduct_smul, smul_eq_mul, smul_eq_mul, ← mul_assoc,
        Real.sqrt_mul (mul_self_nonneg _), Real.sqrt_mul_self (by linarith)]
    have h4 : lnorm r.L (z - ρ • v - (z - ρ • v)) = 0 := by rw [sub_self, lnorm, Matrix.mulVec_zero]; simp [nrm]
    simp only at h1 h2
    rw [hc, h3] at h1
    rw [h4] at h2
    have h5 := (abs_le.1 h1).2
    have h6 := (abs_le.1 h2).1
    have h7 := mul_le_mul_of_nonneg_right hge hρ
    nlinarith

/-- **C158**: on a ball the leading coordinates are a best choice: with the first `q` of them the error is at most the radius times the change along direction `q`, for
every function with this Lipschitz matrix; with any other `q` linear coordinates some function needs that error. -/
theorem lead_ball {build : Build m} (hb : BuildSpec build) {eigh : EighFn m} (he : EighSpec eigh) (ha : EighAsc eigh) {eps : Option ℝ}
    {X : Option (List (Pt m))} {fX : Option (List ℝ)} {grads : Option (List (Pt m))} {r : LipFit m} (h : lipFit build eigh eps X fX grads = .ok r)
    (hne : ∀ k, ucol r.U k ≠ 0) (q : Fin m) (z : Pt m) {ρ : ℝ} (hρ : 0 ≤ ρ) :
    (∀ f, LipIn r.L {x | nrm (x - z) ≤ ρ} f → Reduces (lead r.U q q.2.le) {x | nrm (x - z) ≤ ρ} f (lnorm r.L (ucol r.U q) * ρ)) ∧
    ∀ (W : Matrix (Fin m) (Fin q) ℝ) (e : ℝ), (∀ f, LipIn r.L {x | nrm (x - z) ≤ ρ} f → Reduces (fun x => Wᵀ *ᵥ x) {x | nrm (x - z) ≤ ρ} f e) →
      lnorm r.L (ucol r.U q) * ρ ≤ e := by
  refine ⟨fun f hf => ?_, fun W e hW => ?_⟩
  · have hanti := lead_antitone hb he ha h hne
    have := lead_reduces hb he h (n := q) q.2.le (t := lnorm r.L (ucol r.U q)) (nrm_nonneg _) (fun k hk => hanti (Fin.le_def.2 hk)) (δ := 2 * ρ)
      (D := {x | nrm (x - z) ≤ ρ}) (fun x hx y hy => ?_) hf
    · rwa [show lnorm r.L (ucol r.U q) * (2 * ρ) / 2 = lnorm r.L (ucol r.U q) * ρ by ring] at this
    · have h1 := lnorm_triangle (1 : Matrix (Fin m) (Fin m) ℝ) x z y
      rw [lnorm_comm _ z y] at h1
      simp only [lnorm, Matrix.one_mulVec] at h1
      have h2 : nrm (x - z) ≤ ρ := hx
      have h3 : nrm (y - z) ≤ ρ := hy
      linarith
  · obtain ⟨f, hf, hopt⟩ := lead_optimal hb he ha h hne q W z hρ
    exact hopt e (hW f fun x _ y _ => hf x y)

/-- Without gradients no direction is lost. -/
theorem lead_samples {build : Build m} (hb : BuildSpec build) {eigh : EighFn m} (he : EighSpec eigh) {eps : Option ℝ} {X : Option (List (Pt m))}
    {fX : Option (List ℝ)} {r : LipFit m} (h : lipFit build eigh eps X fX none = .ok r) (k : Fin m) : ucol r.U k ≠ 0 := by
  obtain ⟨V, σ, w, hV, h01, hU, hw, hH, -, -, h11⟩ := fit_form hb he h
  intro h0
  have h1 := ucol_orth V hV k k
  rw [if_pos rfl] at h1
  have h2 : ucol r.U k ⬝ᵥ ucol r.U k = 1 := by
    rw [hU, ucol_mul_diagonal, smul_dotProduct, dotProduct_smul, h1, smul_eq_mul, smul_eq_mul, mul_one]
    exact h11 rfl k
  rw [h0] at h2
  simp at h2

/-! ## A direction can be lost -/

theorem exists_eighAsc (m : ℕ) : ∃ eigh : EighFn m, EighSpec eigh ∧ EighAsc eigh := by
  obtain ⟨eigh, he⟩ := exists_eigh m
  refine ⟨fun H => ((eigh H).1 ∘ Tuple.sort (eigh H).1, Matrix.of fun i j => (eigh H).2 i (Tuple.sort (eigh H).1 j)), fun H hH => ?_, fun H _ => Tuple.monotone_sort _⟩
  obtain ⟨h1, h2⟩ := he H hH
  refine ⟨?_, ?_⟩
  · ext i j
    have := congrFun (congrFun h1 (Tuple.sort (eigh H).1 i)) (Tuple.sort (eigh H).1 j)
    simp only [Matrix.mul_apply, Matrix.transpose_apply, Matrix.of_apply, Matrix.one_apply] at this ⊢
    rw [this]
    simp
  · conv_lhs => rw [h2]
    ext i j
    rw [Matrix.mul_apply, Matrix.mul_apply]
    simp only [Matrix.mul_diagonal, Matrix.transpose_apply, Matrix.of_apply, Function.comp]
    exact (Equiv.sum_comp (Tuple.sort (eigh H).1) (fun x => (eigh H).2 i x * (eigh H).1 x * (eigh H).2 j x)).symm

/-- The gradients of the witness. -/
def flatGrads : List (Pt 2) := [![2, 0], ![-2, 0], ![0, 1]]

theorem flat_scale : fitScale [] flatGrads = 2 := by
  have h1 : nrm (![2, 0] : Pt 2) = 2 := by
    rw [nrm, show (![2, 0] : Pt 2) ⬝ᵥ ![2, 0] = 2 * 2 by simp [dotProduct, Fin.sum_univ_two]]; exact Real.sqrt_mul_self (by norm_num)
  have h2 : nrm (![-2, 0] : Pt 2) = 2 := by
    rw [nrm, show (![-2, 0] : Pt 2) ⬝ᵥ ![-2, 0] = 2 * 2 by simp [dotProduct, Fin.sum_univ_two]]; exact Real.sqrt_mul_self (by norm_num)
  have h3 : nrm (![0, 1] : Pt 2) = 1 := by simp [nrm, dotProduct, Fin.sum_univ_two]
  simp only [fitScale, scale1, flatGrads, scale2, lmax, List.map_cons, List.map_nil, List.foldl_cons, List.foldl_nil, h1, h2, h3]
  norm_num

theorem flat_grads : scaleGrads 2 flatGrads = [![1, 0], ![-1, 0], ![0, 1 / 2]] := by
  simp only [scaleGrads, flatGrads, List.map_cons, List.map_nil]
  congr 1
  · ext i; fin_cases i <;> simp
  · congr 1
    · ext i; fin_cases i <;> simp
    · congr 1
      ext i; fin_cases i <;> simp

theorem quad_two (A : Matrix (Fin 2) (Fin 2) ℝ) (x : Pt 2) : quad A x = A 0 0 * x 0 ^ 2 + (A 0 1 + A 1 0) * (x 0 * x 1) + A 1 1 * x 1 ^ 2 := by
  simp only [quad, dotProduct, Matrix.mulVec, Fin.sum_univ_two]; ring

/-- The only admissible matrix of smallest trace for these gradients. -/
theorem flat_matrix {build : Build 2} (hb : BuildOpt build) {H : Matrix (Fin 2) (Fin 2) ℝ} (h : build [] [![1, 0], ![-1, 0], ![0, 1 / 2]] 0 = some H) :
    H = !![1, 0; 0, 1 / 4] := by
  obtain ⟨h1, h2, -, h4⟩ := hb.feasible _ _ _ _ h
  have hs : H 1 0 = H 0 1 := congrFun (congrFun h1 0) 1
  have ha : ∀ x : Pt 2, x 0 ^ 2 ≤ quad H x := by
    intro x
    have := h4 ![1, 0] (by simp) x
    rw [quad_outer] at this
    simpa [dotProduct, Fin.sum_univ_two] using this
  have hc : ∀ x : Pt 2, (1 / 2 * x 1) ^ 2 ≤ quad H x := by
    intro x
    have := h4 ![0, 1 / 2] (by simp) x
    rw [quad_outer] at this
    simpa [dotProduct, Fin.sum_univ_two] using this
  have hmin := hb.minimal _ _ _ _ !![1, 0; 0, 1 / 4] (le_refl 0) h ⟨by ext i j; fin_cases i <;> fin_cases j <;> simp, fun x => by
      rw [quad_two, quad_two]; simp; positivity, by simp [pairsOf], fun g hg x => by
      rw [quad_outer, quad_two]
      simp only [List.mem_cons, List.not_mem_nil, or_false] at hg
      rcases hg with rfl | rfl | rfl <;> simp [dotProduct, Fin.sum_univ_two] <;> nlinarith [sq_nonneg (x 0), sq_nonneg (x 1)]⟩
  have a0 := ha ![1, 0]
  have c0 := hc ![0, 1]
  rw [quad_two] at a0 c0
  simp at a0 c0
  rw [Matrix.trace_fin_two, Matrix.trace_fin_two] at hmin
  simp at hmin
  have h00 : H 0 0 = 1 := by linarith
  have h11 : H 1 1 = 1 / 4 := by linarith
  have h01 : H 0 1 = 0 := by
    by_contra hne
    have e1 := ha ![-(H 0 1)⁻¹, 1]
    rw [quad_two, h00, h11, hs] at e1
    simp at e1
    have e2 : (H 0 1 + H 0 1) * (H 0 1)⁻¹ = 2 := by field_simp; norm_num
    linarith
  ext i j
  fin_cases i <;> fin_cases j <;> simp [h00, h11, h01, hs]

/-- The eigenvectors of that matrix. -/
theorem flat_eigh {eigh : EighFn 2} (he : EighSpec eigh) (ha : EighAsc eigh) :
    (eigh !![1, 0; 0, 1 / 4]).1 0 = 1 / 4 ∧ (eigh !![1, 0; 0, 1 / 4]).1 1 = 1 ∧ (eigh !![1, 0; 0, 1 / 4]).2 0 0 = 0 ∧ (eigh !![1, 0; 0, 1 / 4]).2 1 1 = 0 ∧
      (eigh !![1, 0; 0, 1 / 4]).2 1 0 ^ 2 = 1 := by
  have hsym : (!![1, 0; 0, 1 / 4] : Matrix (Fin 2) (Fin 2) ℝ)ᵀ = !![1, 0; 0, 1 / 4] := by ext i j; fin_cases i <;> fin_cases j <;> simp
  obtain ⟨h1, h2⟩ := he _ hsym
  have hm := ha _ hsym (show (0 : Fin 2) ≤ 1 by decide)
  generalize (eigh !![1, 0; 0, 1 / 4]).2 = V at *
  generalize (eigh !![1, 0; 0, 1 / 4]).1 = d at *
  have h3 : V * Vᵀ = 1 := mul_eq_one_comm.1 h1
  have h4 : !![1, 0; 0, 1 / 4] * V = V * Matrix.diagonal d := by rw [h2, Matrix.mul_assoc, h1, Matrix.mul_one]
  have o11 := congrFun (congrFun h1 1) 1
  have o00 := congrFun (congrFun h1 0) 0
  have p00 := congrFun (congrFun h3 0) 0
  have e00 := congrFun (congrFun h4 0) 0
  have e01 := congrFun (congrFun h4 0) 1
  have e10 := congrFun (congrFun h4 1) 0
  have e11 := congrFun (congrFun h4 1) 1
  simp [Matrix.mul_apply, Fin.sum_univ_two, Matrix.mul_diagonal] at o11 o00 p00 e00 e01 e10 e11
  have hd1 : d 1 = 1 := by
    by_contra hne
    have hv : V 0 1 = 0 := by
      rcases mul_eq_zero.1 (show V 0 1 * (d 1 - 1) = 0 by linarith) with h | h
      · exact h
      · exact absurd (by linarith) hne
    rw [hv] at o11 p00
    have hv1 : V 1 1 ≠ 0 := by intro h; rw [h] at o11; norm_num at o11
    have hv0 : V 0 0 ≠ 0 := by intro h; rw [h] at p00; norm_num at p00
    have k1 : d 1 = 1 / 4 := by
      rcases mul_eq_zero.1 (show V 1 1 * (d 1 - 1 / 4) = 0 by linarith) with h | h
      · exact absurd h hv1
      · linarith
    have k0 : d 0 = 1 := by
      rcases mul_eq_zero.1 (show V 0 0 * (d 0 - 1) = 0 by linarith) with h | h
      · exact absurd h hv0
      · linarith
    rw [k0, k1] at hm
    norm_num at hm
  have hv11 : V 1 1 = 0 := by rw [hd1] at e11; linarith
  have hv01 : V 0 1 * V 0 1 = 1 := by rw [hv11] at o11; linarith
  have hv00 : V 0 0 = 0 := by
    have : V 0 0 * V 0 0 = 0 := by linarith
    exact mul_self_eq_zero.1 this
  have hv10 : V 1 0 * V 1 0 = 1 := by rw [hv00] at o00; linarith
  have hv10' : V 1 0 ≠ 0 := by intro h; rw [h] at hv10; norm_num at hv10
  refine ⟨?_, hd1, hv00, hv11, by rw [pow_two]; exact hv10⟩
  rcases mul_eq_zero.1 (show V 1 0 * (d 0 - 1 / 4) = 0 by linarith) with h | h
  · exact absurd h hv10'
  · linarith

/-- **C158 is false** with gradients that cancel along the leading direction: the first reported direction is the zero vector, the first reported coordinate is useless,
while another single coordinate determines every function with the reported Lipschitz matrix. -/
theorem lead_false {build : Build 2} (hb : BuildOpt build) {eigh : EighFn 2} (he : EighSpec eigh) (ha : EighAsc eigh) :
    ∃ r, lipFit build eigh none none none (some flatGrads) = .ok r ∧ ucol r.U 0 = 0 ∧
      (∀ D f, LipIn r.L D f → Reduces (fun x => (!![0; 1] : Matrix (Fin 2) (Fin 1) ℝ)ᵀ *ᵥ x) D f 0) ∧
      ∃ f, IsLip r.L f ∧ ∀ e, Reduces (lead r.U 1 one_le_two) {x | nrm (x - 0) ≤ 1} f e → 1 ≤ e := by
  have hp : prepare (m := 2) none none (some flatGrads) = .ok ([], flatGrads) := rfl
  have hs := flat_scale
  have hsd : scaleData (m := 2) 2 [] = [] := rfl
  obtain ⟨H, hH⟩ : ∃ H, build [] [![1, 0], ![-1, 0], ![0, 1 / 2]] 0 = some H := by
    apply hb.complete _ _ _ (le_refl 0)
    refine feasible_exists _ _ _ (fun p hp' => ?_)
    simp [pairsOf] at hp'
  have hHm := flat_matrix hb hH
  subst hHm
  obtain ⟨r, hr⟩ := (lipFit_ok_iff build eigh none none none (some flatGrads)).2 ⟨[], flatGrads, hp, by rw [hs]; norm_num, _, by
    rw [hs, flat_grads, hsd]; simpa using hH⟩
  have hq := (fit_gram hb.feasible he hr).2.2.2
  obtain ⟨data, g, H', hp', -, hbd, rfl⟩ := lipFit_ok hr
  rw [hp] at hp'
  obtain ⟨rfl, rfl⟩ := Prod.mk.inj (Except.ok.inj hp')
  rw [hs, flat_grads, hsd] at hbd
  simp only [Option.getD_none, zero_div] at hbd
  rw [hH] at hbd
  obtain rfl := Option.some.inj hbd
  obtain ⟨d0, d1, v00, v11, v10⟩ := flat_eigh he ha
  rw [hs] at hq hr
  set E := eigh !![1, 0; 0, 1 / 4] with hE
  have hg0 : meanGrad [![1, 0], ![-1, 0], ![0, 1 / 2]] (ucol (Matrix.of (fun i j : Fin 2 => E.2 i j.rev)) 0) = 0 := by
    simp [meanGrad, ucol, dotProduct, Fin.sum_univ_two, v11]
  have hg1 : meanGrad [![1, 0], ![-1, 0], ![0, 1 / 2]] (ucol (Matrix.of (fun i j : Fin 2 => E.2 i j.rev)) 1) ≠ 0 := by
    have : E.2 1 0 ≠ 0 := by intro h; rw [h] at v10; norm_num at v10
    simp [meanGrad, ucol, dotProduct, Fin.sum_univ_two, this]
  have hU : (finishFit eigh [] flatGrads 2 !![1, 0; 0, 1 / 4]).U = Matrix.of (fun i j : Fin 2 => E.2 i j.rev) *
      Matrix.diagonal (fun k => npSign (meanGrad [![1, 0], ![-1, 0], ![0, 1 / 2]] (ucol (Matrix.of (fun i j : Fin 2 => E.2 i j.rev)) k))) := by
    simp only [finishFit, fixSigns, flat_grads]
    rw [if_pos (by simp)]
    rfl
  have hu0 : ucol (finishFit eigh [] flatGrads 2 !![1, 0; 0, 1 / 4]).U 0 = 0 := by
    rw [hU, ucol_mul_diagonal, hg0]; simp [npSign]
  have hu1 : ∀ x : Pt 2, (ucol (finishFit eigh [] flatGrads 2 !![1, 0; 0, 1 / 4]).U 1 ⬝ᵥ x) ^ 2 = x 1 ^ 2 := by
    intro x
    rw [hU, ucol_mul_diagonal, smul_dotProduct, smul_eq_mul, mul_pow, pow_two (npSign _), npSign_sq hg1, one_mul]
    simp [ucol, dotProduct, Fin.sum_univ_two, v00, mul_pow, v10]
  have hqx : ∀ x : Pt 2, quad (finishFit eigh [] flatGrads 2 !![1, 0; 0, 1 / 4]).H x = x 1 ^ 2 := by
    intro x
    have : (finishFit eigh [] flatGrads 2 !![1, 0; 0, 1 / 4]).H = (2 : ℝ) ^ 2 • ((finishFit eigh [] flatGrads 2 !![1, 0; 0, 1 / 4]).U *
        (Matrix.diagonal (fun i : Fin 2 => max (E.1 i.rev) 0) * (finishFit eigh [] flatGrads 2 !![1, 0; 0, 1 / 4]).Uᵀ)) := rfl
    rw [this, quad_smul_mat, quad_diag, Fin.sum_univ_two, hu0, hu1]
    simp [d0]
    ring
  have hl : ∀ x : Pt 2, lnorm (finishFit eigh [] flatGrads 2 !![1, 0; 0, 1 / 4]).L x = |x 1| := by
    intro x
    have h1 := hq x
    rw [hqx] at h1
    have h0 : 0 ≤ lnorm (finishFit eigh [] flatGrads 2 !![1, 0; 0, 1 / 4]).L x := nrm_nonneg _
    have h2 := (sq_eq_sq_iff_abs_eq_abs _ _).1 h1
    rw [abs_of_nonneg h0] at h2
    exact h2.symm
  refine ⟨_, hr, hu0, fun D f hf => ?_, fun x => x 1, fun x y => ?_, ?_⟩
  · refine reduces_of fun x hx y hy hc => (hf x hx y hy).trans ?_
    have := congrFun hc 0
    simp [Matrix.mulVec, dotProduct, Fin.sum_univ_two] at this
    rw [hl, Pi.sub_apply, this]
    simp
  · rw [hl]; rfl
  · rintro e ⟨g, hg⟩
    have hc : ∀ x, lead (finishFit eigh [] flatGrads 2 !![1, 0; 0, 1 / 4]).U 1 one_le_two x = 0 := by
      intro x
      ext k
      have : Fin.castLE one_le_two k = (0 : Fin 2) := by ext; simp
      simp only [lead]
      rw [this, hu0]; simp
    have h1 := hg ![0, 1] (by simp [nrm, dotProduct, Fin.sum_univ_two])
    have h2 := hg ![0, -1] (by simp [nrm, dotProduct, Fin.sum_univ_two])
    rw [hc] at h1 h2
    simp at h1 h2
    have := (abs_le.1 h1).2
    have := (abs_le.1 h2).1
    linarith

/-- The hypotheses can be met: samples at two points of the plane, fitted with a solver and an eigenvalue routine as required. -/
example : ∃ (build : Build 2) (eigh : EighFn 2) (r : LipFit 2), BuildSpec build ∧ EighSpec eigh ∧ EighAsc eigh ∧
    lipFit build eigh none (some [![0, 0], ![1, 2]]) (some [0, 3]) none = .ok r ∧ ∀ k, ucol r.U k ≠ 0 := by
  obtain ⟨build, hb⟩ := exists_buildOpt 2
  obtain ⟨eigh, he, ha⟩ := exists_eighAsc 2
  have hp : prepare (m := 2) (some [![0, 0], ![1, 2]]) (some [0, 3]) none = .ok ([(![0, 0], 0), (![1, 2], 3)], []) := rfl
  have hs : fitScale (m := 2) [(![0, 0], 0), (![1, 2], 3)] [] ≠ 0 := by
    rw [Ne, fitScale_zero_iff]; simp
  have hf : ∃ H, CvxpyFeasible (scaleData (fitScale (m := 2) [(![0, 0], 0), (![1, 2], 3)] []) [(![0, 0], 0), (![1, 2], 3)])
      (scaleGrads (fitScale (m := 2) [(![0, 0], 0), (![1, 2], 3)] []) []) ((none : Option ℝ).getD 0 / fitScale (m := 2) [(![0, 0], 0), (![1, 2], 3)] []) H := by
    refine feasible_exists _ _ _ (fun p hp' _ heq => ?_)
    rw [scaleData, pairsOf_map] at hp'
    obtain ⟨q, hq, rfl⟩ := List.mem_map.1 hp'
    simp [pairsOf] at hq
    subst hq
    have := congrFun heq 0
    simp at this
  obtain ⟨H, hH⟩ := hb.complete _ _ _ (by simp) hf
  obtain ⟨r, hr⟩ := (lipFit_ok_iff build eigh none (some [![0, 0], ![1, 2]]) (some [0, 3]) none).2 ⟨_, _, hp, hs, H, hH⟩
  exact ⟨build, eigh, r, hb.feasible, he, ha, hr, lead_samples hb.feasible he hr⟩

end Verif.Lip
