import Verif.Func.AltModel
import Verif.Func.FinishProps
import Verif.Func.VarproRun
import Verif.Func.VecProps
import Verif.Opt.SeqLPProps
import Mathlib.Algebra.MvPolynomial.Monad

/-!
# C109: the alternating fit of the polynomial ridge approximation

The specification uses `pnorm`, `RespectsBound` and `Ridge.eval` (values of the fitted function, the bound the user asked for) and
`IsPolyBasis` (the columns of the basis are the polynomials of total degree at most `d`).
-/

namespace Verif.Func

open Verif.Domain Verif.Lip Verif.Opt Matrix

variable {M m n N : ℕ}

/-! ## Packing -/

theorem partU_pack (U : Matrix (Fin m) (Fin n) ℝ) (c : Pt N) : partU (packUc U c) = U := by
  unfold partU packUc
  simp only [Fin.append_left]
  exact unflat_flat U

theorem partC_pack (U : Matrix (Fin m) (Fin n) ℝ) (c : Pt N) : partC (packUc U c) = c := by
  unfold partC packUc
  simp only [Fin.append_right]

theorem liftE_ok {α : Type} {e : Except Err α} {y : α} (h : liftE e = .ok y) : e = .ok y := by
  cases e with
  | error e => cases h
  | ok x => cases h; rfl

/-- What `_fit_coef` leaves as basis. -/
theorem fitCoef_basis {S : FitSolver} {mk : (Fin M → Pt n) → BasisObj n N} {p : PNorm} {bound : Bound} {X : Fin M → Pt m} {fX : Pt M}
    {U : Matrix (Fin m) (Fin n) ℝ} {B : BasisObj n N} {c : Pt N} (h : fitCoef S mk p bound X fX U = .ok (B, c)) :
    B = mk fun i => projY U (X i) := by
  unfold fitCoef at h
  cases bound <;> cases p <;> first | cases h | (obtain ⟨c, -, e⟩ := map_ok h; cases e; rfl)

/-! ## The basis the residual reads -/

/-- **C109**: the residual of the starting point is computed with the basis of the starting point. -/
theorem residual_after_fit {S : FitSolver} {mk : (Fin M → Pt n) → BasisObj n N} {p : PNorm} {bound : Bound} {X : Fin M → Pt m} {fX : Pt M}
    {U : Matrix (Fin m) (Fin n) ℝ} {B : BasisObj n N} {c : Pt N} (h : fitCoef S mk p bound X fX U = .ok (B, c)) :
    altResidual B X fX (packUc U c) = (fun i => (⟨B, c, U⟩ : Ridge m n N).eval (X i)) - fX ∧
      B = mk fun i => projY (partU (packUc U c)) (X i) := by
  constructor
  · unfold altResidual
    rw [partU_pack, partC_pack]
    rfl
  · rw [partU_pack]
    exact fitCoef_basis h

/-- **C109**: the residual of a trial point is computed with the basis of the trial point, since `_trajectory` has just set it. -/
theorem residual_after_trajectory {S : FitSolver} {mk : (Fin M → Pt n) → BasisObj n N} {p : PNorm} {bound : Bound} {hn : n ≤ m}
    {svd : Matrix (Fin m) (Fin n) ℝ → TSvd m n}
    {qr : Matrix (Fin m) (Fin n) ℝ → Matrix (Fin m) (Fin n) ℝ × Matrix (Fin n) (Fin n) ℝ} {X : Fin M → Pt m} {fX : Pt M}
    {x d y : Pt (m * n + N)} {t : ℝ} {B : BasisObj n N} (h : altTrajectory S mk p bound hn svd qr X fX x d t = .ok (B, y)) :
    B = (mk fun i => projY (partU y) (X i)) ∧ fitCoef S mk p bound X fX (partU y) = .ok (B, partC y) ∧ y = packUc (partU y) (partC y) := by
  obtain ⟨bc, hbc, e⟩ := map_ok h
  cases e
  rw [partU_pack, partC_pack]
  exact ⟨fitCoef_basis hbc, hbc, rfl⟩

/-! ## The bounds handed to the optimizer -/

theorem violation_zero_iff {q : ℕ} (lb ub : Option (Pt q)) (v : Pt q) :
    violation lb ub v = 0 ↔ (∀ l, lb = some l → ∀ i, l i ≤ v i) ∧ ∀ u, ub = some u → ∀ i, v i ≤ u i := by
  have key : ∀ a b : Pt q, (∑ i, (if a i ≤ b i then 0 else |v i - v i + (b i - a i)|)) = 0 ↔ ∀ i, a i ≤ b i := by
    intro a b
    rw [Finset.sum_eq_zero_iff_of_nonneg (fun i _ => by split <;> positivity)]
    refine ⟨fun h i => ?_, fun h i _ => if_pos (h i)⟩
    by_contra hlt
    have := h i (Finset.mem_univ i)
    rw [if_neg hlt, sub_self, zero_add, abs_eq_zero] at this
    exact hlt (by linarith)
  have hl : ∀ l : Pt q, (∑ i, (if l i ≤ v i then 0 else |v i - l i|)) = 0 ↔ ∀ i, l i ≤ v i := fun l => by
    rw [← key l v]; simp
  have hu : ∀ u : Pt q, (∑ i, (if v i ≤ u i then 0 else |v i - u i|)) = 0 ↔ ∀ i, v i ≤ u i := fun u => by
    rw [← key v u]; simp [abs_sub_comm]
  have hl0 : ∀ l : Pt q, 0 ≤ ∑ i, (if l i ≤ v i then 0 else |v i - l i|) := fun l => Finset.sum_nonneg fun i _ => by split <;> positivity
  have hu0 : ∀ l : Pt q, 0 ≤ ∑ i, (if v i ≤ l i then 0 else |v i - l i|) := fun l => Finset.sum_nonneg fun i _ => by split <;> positivity
  unfold violation
  cases lb <;> cases ub
  · simp
  · simp [hu]
  · simp [hl]
  · rename_i l u
    simp only [Option.some.injEq, forall_eq']
    rw [add_eq_zero_iff_of_nonneg (hl0 l) (hu0 u), hl, hu]

/-- **C109**: the bounds handed to the optimizer say exactly that the approximation is on the requested side of the data. -/
theorem alt_bounds_iff (S : FitSolver) (mk : (Fin M → Pt n) → BasisObj n N) (p : PNorm) (bound : Bound) (hn : n ≤ m)
    (svd : Matrix (Fin m) (Fin n) ℝ → TSvd m n)
    (qr : Matrix (Fin m) (Fin n) ℝ → Matrix (Fin m) (Fin n) ℝ × Matrix (Fin n) (Fin n) ℝ) (X : Fin M → Pt m) (fX : Pt M)
    (maxiter btMax : ℕ) (tolDx tolObj : ℝ) (verbose : Bool)
    (solve : Pt (m * n + N) → Pt M → Matrix (Fin M) (Fin (m * n + N)) ℝ → Option ℝ → LPRes (m * n + N)) (v : Pt M) :
    violation (altArgs S mk p bound hn svd qr X fX maxiter btMax tolDx tolObj verbose solve).lb
      (altArgs S mk p bound hn svd qr X fX maxiter btMax tolDx tolObj verbose solve).ub (v - fX) = 0 ↔ RespectsBound bound v fX := by
  rw [violation_zero_iff]
  cases bound <;> simp [altArgs, RespectsBound]

/-- **C109**: with exact solvers no trial point is rejected because of the bounds: the coefficients fitted along the trajectory respect them. -/
theorem alt_bounds_met {S : FitSolver} (hS : S.Exact) {mk : (Fin M → Pt n) → BasisObj n N} {p : PNorm} {bound : Bound} {hn : n ≤ m}
    {svd : Matrix (Fin m) (Fin n) ℝ → TSvd m n}
    {qr : Matrix (Fin m) (Fin n) ℝ → Matrix (Fin m) (Fin n) ℝ × Matrix (Fin n) (Fin n) ℝ} {X : Fin M → Pt m} {fX : Pt M}
    (maxiter btMax : ℕ) (tolDx tolObj : ℝ) (verbose : Bool)
    (solve : Pt (m * n + N) → Pt M → Matrix (Fin M) (Fin (m * n + N)) ℝ → Option ℝ → LPRes (m * n + N))
    {x d y : Pt (m * n + N)} {t : ℝ} {v : Pt M}
    (h : (altArgs S mk p bound hn svd qr X fX maxiter btMax tolDx tolObj verbose solve).T x d t = .ok y)
    (hv : (altArgs S mk p bound hn svd qr X fX maxiter btMax tolDx tolObj verbose solve).f y = .ok v) :
    violation (altArgs S mk p bound hn svd qr X fX maxiter btMax tolDx tolObj verbose solve).lb
      (altArgs S mk p bound hn svd qr X fX maxiter btMax tolDx tolObj verbose solve).ub v = 0 := by
  obtain ⟨⟨B, y'⟩, hy, e⟩ := map_ok (liftE_ok h)
  obtain rfl : y' = y := e
  obtain ⟨e1, e2, e3⟩ := residual_after_trajectory hy
  have hv' := Except.ok.inj hv
  rw [← e1] at hv'
  rw [e3, (residual_after_fit e2).1] at hv'
  rw [← hv', alt_bounds_iff]
  have hfit := e2
  unfold fitCoef at hfit
  cases bound with
  | none => trivial
  | lower =>
    obtain ⟨c, hc, ec⟩ := map_ok hfit
    have hge := (hS.ge _ _ _ _ (ofSolver_ok hc)).1
    intro i
    have := hge i
    have ec1 : c = partC y' := congrArg Prod.snd ec
    rw [Matrix.neg_mulVec, Pi.neg_apply, Pi.neg_apply, neg_le_neg_iff, ec1] at this
    rw [e1]
    exact this
  | upper =>
    obtain ⟨c, hc, ec⟩ := map_ok hfit
    have hge := (hS.ge _ _ _ _ (ofSolver_ok hc)).1
    intro i
    have := hge i
    have ec1 : c = partC y' := congrArg Prod.snd ec
    rw [ec1] at this
    rw [e1]
    exact this
  | other => trivial

/-! ## Orthonormality -/

/-- **C109**: a step from an orthonormal matrix arrives at an orthonormal matrix, whatever the search direction. -/
theorem altMove_orthonormal (hn : n ≤ m) (svd : Matrix (Fin m) (Fin n) ℝ → TSvd m n) (hsvd : ∀ A, IsTSvd A (svd A))
    (qr : Matrix (Fin m) (Fin n) ℝ → Matrix (Fin m) (Fin n) ℝ × Matrix (Fin n) (Fin n) ℝ) (hqr : ∀ A, IsRQr A (qr A))
    {x : Pt (m * n + N)} (hx : (partU x)ᵀ * partU x = 1) (p : Pt (m * n + N)) (t : ℝ) :
    (altMove hn svd qr x p t)ᵀ * altMove hn svd qr x p t = 1 := by
  unfold altMove
  rw [orth_fix hx (hqr _)]
  have ht : (partU x)ᵀ * (partU p - partU x * ((partU x)ᵀ * partU p)) = 0 := by
    rw [Matrix.mul_sub, ← Matrix.mul_assoc (partU x)ᵀ (partU x), hx, Matrix.one_mul, sub_self]
  have := geodesic_orthonormal hx ht (hsvd _) t
  set G := geodesic (partU x) (svd (partU p - partU x * ((partU x)ᵀ * partU p))) t
  have e := Matrix.submatrix_mul_equiv Gᵀ G (finCongr (min_eq_right hn).symm) (Equiv.refl (Fin m)) (finCongr (min_eq_right hn).symm)
  rw [Equiv.coe_refl] at e
  rw [Matrix.transpose_submatrix, e, this]
  exact Matrix.submatrix_one_equiv _

/-- The objective of the solver is the norm of the fit. -/
theorem objfun_pnorm {p : PNorm} (hp : p ≠ .other) {v : Pt M} {o : ℝ} (h : objfun p.toS v = .ok o) : o = pnorm p v := by
  cases p with
  | one => cases h; rfl
  | two => cases h; rfl
  | inf =>
    unfold PNorm.toS objfun at h
    simp only at h
    split at h
    · rename_i hM
      cases h
      haveI : Nonempty (Fin M) := ⟨⟨0, hM⟩⟩
      unfold pnorm
      rw [Finset.sup'_univ_eq_ciSup]
    · cases h
  | other => exact absurd rfl hp

/-! ## The run -/

/-- The situation before and after every accepted step. -/
def AltGood (S : FitSolver) (mk : (Fin M → Pt n) → BasisObj n N) (p : PNorm) (bound : Bound) (X : Fin M → Pt m) (fX : Pt M)
    (x : Pt (m * n + N)) : Prop :=
  (partU x)ᵀ * partU x = 1 ∧ fitCoef S mk p bound X fX (partU x) = .ok ((mk fun i => projY (partU x) (X i)), partC x)

/-- **C109**: the optimizer returns an orthonormal matrix with the coefficients fitted for it, and the fit is at least as good as at the
start. -/
theorem alt_search (S : FitSolver) (mk : (Fin M → Pt n) → BasisObj n N) (p : PNorm) (hp : p ≠ .other) (bound : Bound) (hn : n ≤ m)
    (svd : Matrix (Fin m) (Fin n) ℝ → TSvd m n) (hsvd : ∀ A, IsTSvd A (svd A))
    (qr : Matrix (Fin m) (Fin n) ℝ → Matrix (Fin m) (Fin n) ℝ × Matrix (Fin n) (Fin n) ℝ) (hqr : ∀ A, IsRQr A (qr A))
    (X : Fin M → Pt m) (fX : Pt M) (maxiter btMax : ℕ) (tolDx tolObj : ℝ) (verbose : Bool)
    (solve : Pt (m * n + N) → Pt M → Matrix (Fin M) (Fin (m * n + N)) ℝ → Option ℝ → LPRes (m * n + N))
    (U0 : Matrix (Fin m) (Fin n) ℝ) (hU0 : U0ᵀ * U0 = 1) (B0 : BasisObj n N) (c0 : Pt N)
    (h0 : fitCoef S mk p bound X fX U0 = .ok (B0, c0)) (x : Pt (m * n + N))
    (h : sequentialLP (altArgs S mk p bound hn svd qr X fX maxiter btMax tolDx tolObj verbose solve) (packUc U0 c0) = .ok x) :
    AltGood S mk p bound X fX x ∧
      pnorm p ((fun i => (⟨mk fun i => projY (partU x) (X i), partC x, partU x⟩ : Ridge m n N).eval (X i)) - fX) ≤
        pnorm p ((fun i => (⟨B0, c0, U0⟩ : Ridge m n N).eval (X i)) - fX) := by
  constructor
  · obtain ⟨fx, ob, J, s, hf, ho, hs, rfl⟩ := sequentialLP_ok h
    refine lpLoop_induct _ (fun x _ _ => AltGood S mk p bound X fX x) ?_ _ _ s J ?_ hs
    · intro s s' h1 h2
      obtain ⟨d, J, r, -, ht⟩ := h2.step
      obtain ⟨⟨B, y⟩, hy, e⟩ := map_ok (liftE_ok ht)
      obtain rfl : y = s'.x := e
      obtain ⟨e1, e2, -⟩ := residual_after_trajectory hy
      refine ⟨?_, by rw [e2, e1]⟩
      obtain ⟨bc, -, e3⟩ := map_ok hy
      have : s'.x = packUc (altMove hn svd qr s.x d 1) bc.2 := (congrArg Prod.snd e3).symm
      rw [this, partU_pack]
      exact altMove_orthonormal hn svd hsvd qr hqr h1.1 _ _
    · unfold AltGood
      rw [partU_pack, partC_pack]
      exact ⟨hU0, by rw [h0, fitCoef_basis h0]⟩
  · obtain ⟨v0, v, o0, o, h1, h2, h3, h4, h5⟩ := seqlp_decrease _ _ _ h
    rw [objfun_pnorm hp h3, objfun_pnorm hp h4] at h5
    have e1 : v0 = altResidual (mk fun i => projY U0 (X i)) X fX (packUc U0 c0) := by
      have := Except.ok.inj h1
      rw [← this]
      rw [partU_pack]
    have e2 : v = altResidual (mk fun i => projY (partU x) (X i)) X fX x := (Except.ok.inj h2).symm
    rw [e1, e2] at h5
    have e3 := (residual_after_fit h0).1
    rw [fitCoef_basis h0] at e3 ⊢
    rw [e3] at h5
    exact h5

/-! ## Polynomials of rotated variables -/

theorem totalDegree_bind_le {σ τ : Type*} (g : σ → MvPolynomial τ ℝ) (hg : ∀ i, (g i).totalDegree ≤ 1) (q : MvPolynomial σ ℝ) :
    (MvPolynomial.bind₁ g q).totalDegree ≤ q.totalDegree := by
  unfold MvPolynomial.bind₁
  rw [MvPolynomial.aeval_def, MvPolynomial.eval₂_eq]
  refine MvPolynomial.totalDegree_finsetSum_le fun d hd => ?_
  refine (MvPolynomial.totalDegree_mul _ _).trans ?_
  rw [MvPolynomial.algebraMap_eq, MvPolynomial.totalDegree_C, zero_add]
  refine (MvPolynomial.totalDegree_finset_prod _ _).trans ?_
  refine le_trans ?_ (MvPolynomial.le_totalDegree hd)
  refine Finset.sum_le_sum fun i _ => ?_
  refine (MvPolynomial.totalDegree_pow _ _).trans ?_
  exact (Nat.mul_le_mul_left _ (hg i)).trans (by simp)

/-- A polynomial ridge function of `U` is one of `U Q` for every invertible `Q`. -/
theorem ridge_recoord {d : ℕ} {B B' : BasisObj n N} (hB : IsPolyBasis d B) (hB' : IsPolyBasis d B') (U : Matrix (Fin m) (Fin n) ℝ)
    {Q P : Matrix (Fin n) (Fin n) ℝ} (hQ : Q * P = 1) (c : Pt N) :
    ∃ c' : Pt N, ∀ x, (⟨B', c', U * Q⟩ : Ridge m n N).eval x = (⟨B, c, U⟩ : Ridge m n N).eval x := by
  obtain ⟨q, hq, he⟩ := poly_of_coef hB c
  obtain ⟨c', hc'⟩ := coef_of_poly hB' (q := MvPolynomial.bind₁ (fun i => ∑ j, MvPolynomial.C (Pᵀ i j) * MvPolynomial.X j) q) (by
    refine (totalDegree_bind_le _ (fun i => ?_) q).trans hq
    refine MvPolynomial.totalDegree_finsetSum_le fun j _ => ?_
    refine (MvPolynomial.totalDegree_mul _ _).trans ?_
    rw [MvPolynomial.totalDegree_C, zero_add, MvPolynomial.totalDegree_X])
  refine ⟨c', fun x => ?_⟩
  unfold Ridge.eval
  rw [hc', he]
  rw [MvPolynomial.eval, MvPolynomial.eval₂Hom_bind₁]
  change MvPolynomial.eval _ q = _
  congr 2
  funext i
  simp only [map_sum, map_mul, MvPolynomial.eval₂Hom_C, MvPolynomial.eval₂Hom_X', RingHom.id_apply]
  change (Pᵀ *ᵥ projY (U * Q) x) i = projY U x i
  refine congrFun ?_ i
  unfold projY
  rw [Matrix.mulVec_mulVec, Matrix.transpose_mul, ← Matrix.mul_assoc, ← Matrix.transpose_mul, hQ, Matrix.transpose_one, Matrix.one_mul]

/-- Fits in the same subspace are equally good. -/
theorem fit_same_subspace {d : ℕ} (S : FitSolver) (hS : S.Exact) (mk : (Fin M → Pt n) → BasisObj n N) (hmk : ∀ Y, IsPolyBasis d (mk Y))
    (p : PNorm) (bound : Bound) (X : Fin M → Pt m) (fX : Pt M) (U : Matrix (Fin m) (Fin n) ℝ) {Q P : Matrix (Fin n) (Fin n) ℝ} (hQ : Q * P = 1)
    {B B' : BasisObj n N} {c c' : Pt N} (hB : IsPolyBasis d B)
    (h : fitCoef S mk p bound X fX (U * Q) = .ok (B', c'))
    (hc : RespectsBound bound (fun i => (⟨B, c, U⟩ : Ridge m n N).eval (X i)) fX) :
    pnorm p ((fun i => (⟨B', c', U * Q⟩ : Ridge m n N).eval (X i)) - fX) ≤
      pnorm p ((fun i => (⟨B, c, U⟩ : Ridge m n N).eval (X i)) - fX) := by
  obtain ⟨-, h2⟩ := fitCoef_bound S hS mk p bound X fX (U * Q) B' c' h
  have hB' : IsPolyBasis d B' := by
    have := fitCoef_basis h
    rw [this]
    exact hmk _
  obtain ⟨c'', hc''⟩ := ridge_recoord hB hB' U hQ c
  have e : (fun i => (⟨B', c'', U * Q⟩ : Ridge m n N).eval (X i)) = fun i => (⟨B, c, U⟩ : Ridge m n N).eval (X i) := by
    funext i
    exact hc'' _
  have := h2 c'' (by rw [e]; exact hc)
  rwa [e] at this

/-- The matrix returned by `_finish` spans inside the given subspace. -/
theorem finish_factor {S : FitSolver} {mk : (Fin M → Pt n) → BasisObj n N} {svdU : (Fin M → Pt n) → Matrix (Fin n) (Fin n) ℝ}
    {p : PNorm} {bound : Bound} {rotate : Bool} {X : Fin M → Pt m} {fX : Pt M} {U : Matrix (Fin m) (Fin n) ℝ} {R : Ridge m n N}
    (h : finish S mk svdU p bound rotate X fX U = .ok R) :
    (∃ Q : Matrix (Fin n) (Fin n) ℝ, R.U = U * Q) ∧ fitCoef S mk p bound X fX R.U = .ok (R.basis, R.coef) := by
  obtain ⟨U1, h1, h2, h3⟩ := finish_ok h
  refine ⟨?_, h3⟩
  have e1 : ∃ Q : Matrix (Fin n) (Fin n) ℝ, U1 = U * Q := by
    unfold finishRotate at h1
    split at h1
    · obtain ⟨bc, -, e⟩ := map_ok h1
      exact ⟨_, e.symm⟩
    · cases h1; exact ⟨1, by rw [Matrix.mul_one]⟩
  have e2 : ∃ Q : Matrix (Fin n) (Fin n) ℝ, R.U = U1 * Q := by
    unfold finishSigns at h2
    split at h2
    · obtain ⟨bc, -, e⟩ := map_ok h2
      exact ⟨_, e.symm⟩
    · have := Except.ok.inj h2
      exact ⟨1, by rw [Matrix.mul_one, this]⟩
  obtain ⟨Q1, e1⟩ := e1
  obtain ⟨Q2, e2⟩ := e2
  exact ⟨Q1 * Q2, by rw [e2, e1, Matrix.mul_assoc]⟩

/-- **C109**: the fitted ridge function respects the requested bound, and it is at least as close to the data as every polynomial ridge
function of the starting subspace that respects the bound. The hypothesis `hfin` excludes the case in which the final choice of signs
erases a direction (`finish_sign_false`); without `rotate` it always holds (`alt_fit_plain`). -/
theorem alt_fit_partial {d : ℕ} (S : FitSolver) (hS : S.Exact) (mk : (Fin M → Pt n) → BasisObj n N) (hmk : ∀ Y, IsPolyBasis d (mk Y))
    (svdU : (Fin M → Pt n) → Matrix (Fin n) (Fin n) ℝ) (p : PNorm) (hp : p ≠ .other) (bound : Bound) (rotate : Bool) (hn : n ≤ m)
    (svd : Matrix (Fin m) (Fin n) ℝ → TSvd m n) (hsvd : ∀ A, IsTSvd A (svd A))
    (qr : Matrix (Fin m) (Fin n) ℝ → Matrix (Fin m) (Fin n) ℝ × Matrix (Fin n) (Fin n) ℝ) (hqr : ∀ A, IsRQr A (qr A))
    (X : Fin M → Pt m) (fX : Pt M) (maxiter btMax : ℕ) (tolDx tolObj : ℝ) (verbose : Bool)
    (solve : Pt (m * n + N) → Pt M → Matrix (Fin M) (Fin (m * n + N)) ℝ → Option ℝ → LPRes (m * n + N))
    (U0 : Matrix (Fin m) (Fin n) ℝ) (hU0 : U0ᵀ * U0 = 1) (R : Ridge m n N)
    (h : fitAlternating S mk svdU p bound rotate X fX (altArgs S mk p bound hn svd qr X fX maxiter btMax tolDx tolObj verbose solve) U0 = .ok R)
    (hfin : R.Uᵀ * R.U = 1) :
    RespectsBound bound (fun i => R.eval (X i)) fX ∧
      ∀ (B : BasisObj n N) (c : Pt N), IsPolyBasis d B → RespectsBound bound (fun i => (⟨B, c, U0⟩ : Ridge m n N).eval (X i)) fX →
        pnorm p ((fun i => R.eval (X i)) - fX) ≤ pnorm p ((fun i => (⟨B, c, U0⟩ : Ridge m n N).eval (X i)) - fX) := by
  unfold fitAlternating at h
  split at h
  · cases h
  · rename_i B0 c0 h0
    split at h
    · cases h
    · rename_i x hx
      obtain ⟨⟨Q, hQ⟩, hR⟩ := finish_factor (liftE_ok h)
      obtain ⟨⟨g1, g2⟩, g3⟩ := alt_search S mk p hp bound hn svd hsvd qr hqr X fX maxiter btMax tolDx tolObj verbose solve U0 hU0 B0 c0 h0 x hx
      refine ⟨(fitCoef_bound S hS mk p bound X fX R.U R.basis R.coef hR).1, fun B c hB hc => ?_⟩
      have hQQ : Q * Qᵀ = 1 := by
        refine mul_eq_one_comm.1 ?_
        rw [hQ, Matrix.transpose_mul, Matrix.mul_assoc, ← Matrix.mul_assoc _ _ Q, g1, Matrix.one_mul] at hfin
        exact hfin
      rw [hQ] at hR
      have k1 := fit_same_subspace S hS mk hmk p bound X fX (partU x) hQQ (hmk fun i => projY (partU x) (X i)) hR
        (fitCoef_bound S hS mk p bound X fX _ _ _ g2).1
      have k2 := fit_same_subspace (Q := 1) (P := 1) S hS mk hmk p bound X fX U0 (by simp) hB (by rw [Matrix.mul_one]; exact h0) hc
      rw [Matrix.mul_one] at k2
      have e : R = ⟨R.basis, R.coef, partU x * Q⟩ := by rw [← hQ]
      rw [e]
      exact (k1.trans g3).trans k2

/-- **C109**: without `rotate` the columns of the result are orthonormal, so the guarantee holds without further assumptions. -/
theorem alt_fit_plain {d : ℕ} (S : FitSolver) (hS : S.Exact) (mk : (Fin M → Pt n) → BasisObj n N) (hmk : ∀ Y, IsPolyBasis d (mk Y))
    (svdU : (Fin M → Pt n) → Matrix (Fin n) (Fin n) ℝ) (p : PNorm) (hp : p ≠ .other) (bound : Bound) (hn : n ≤ m)
    (svd : Matrix (Fin m) (Fin n) ℝ → TSvd m n) (hsvd : ∀ A, IsTSvd A (svd A))
    (qr : Matrix (Fin m) (Fin n) ℝ → Matrix (Fin m) (Fin n) ℝ × Matrix (Fin n) (Fin n) ℝ) (hqr : ∀ A, IsRQr A (qr A))
    (X : Fin M → Pt m) (fX : Pt M) (maxiter btMax : ℕ) (tolDx tolObj : ℝ) (verbose : Bool)
    (solve : Pt (m * n + N) → Pt M → Matrix (Fin M) (Fin (m * n + N)) ℝ → Option ℝ → LPRes (m * n + N))
    (U0 : Matrix (Fin m) (Fin n) ℝ) (hU0 : U0ᵀ * U0 = 1) (R : Ridge m n N)
    (h : fitAlternating S mk svdU p bound false X fX (altArgs S mk p bound hn svd qr X fX maxiter btMax tolDx tolObj verbose solve) U0 = .ok R) :
    R.Uᵀ * R.U = 1 ∧ RespectsBound bound (fun i => R.eval (X i)) fX ∧
      ∀ (B : BasisObj n N) (c : Pt N), IsPolyBasis d B → RespectsBound bound (fun i => (⟨B, c, U0⟩ : Ridge m n N).eval (X i)) fX →
        pnorm p ((fun i => R.eval (X i)) - fX) ≤ pnorm p ((fun i => (⟨B, c, U0⟩ : Ridge m n N).eval (X i)) - fX) := by
  have hfin : R.Uᵀ * R.U = 1 := by
    unfold fitAlternating at h
    split at h
    · cases h
    · rename_i B0 c0 h0
      split at h
      · cases h
      · rename_i x hx
        rw [finish_no_rotate S mk svdU p bound X fX (partU x) R (liftE_ok h)]
        exact (alt_search S mk p hp bound hn svd hsvd qr hqr X fX maxiter btMax tolDx tolObj verbose solve U0 hU0 B0 c0 h0 x hx).1.1
  exact ⟨hfin, alt_fit_partial S hS mk hmk svdU p hp bound false hn svd hsvd qr hqr X fX maxiter btMax tolDx tolObj verbose solve U0 hU0 R h hfin⟩

/-! ## The Jacobian -/

/-- **C109**: the Jacobian is the derivative of the residual (with the basis the object then holds) in every direction. -/
theorem altJacobian_deriv {d : ℕ} (mk : (Fin M → Pt n) → BasisObj n N) (hmk : ∀ Y, IsPolyBasis d (mk Y)) (X : Fin M → Pt m) (fX : Pt M)
    (x p : Pt (m * n + N)) (i : Fin M) :
    HasDerivAt (fun t : ℝ => altResidual (altJacobian mk X x).1 X fX (x + t • p) i) (((altJacobian mk X x).2 *ᵥ p) i) 0 := by
  set B := (altJacobian mk X x).1 with hBdef
  have hB : IsPolyBasis d B := hmk _
  have eU : ∀ t : ℝ, partU (x + t • p) = partU x + t • partU p := fun t => by
    ext k l; simp [partU, unflat]
  have eC : ∀ t : ℝ, partC (x + t • p) = partC x + t • partC p := fun t => by
    funext j; simp [partC]
  have e : (fun t : ℝ => altResidual B X fX (x + t • p) i) =
      fun t : ℝ => ∑ j, vandU B X (partU x + t • partU p) i j * (partC x j + t * partC p j) - fX i := by
    funext t
    unfold altResidual
    rw [eU, eC]
    rfl
  rw [e]
  have hd : ∀ j, HasDerivAt (fun t : ℝ => vandU B X (partU x + t • partU p) i j * (partC x j + t * partC p j))
      (dirV B X (partU x) (partU p) i j * partC x j + vandU B X (partU x) i j * partC p j) 0 := by
    intro j
    have h1 := hasDerivAt_vand hB X (partU x) (partU p) i j
    have h2 : HasDerivAt (fun t : ℝ => partC x j + t * partC p j) (partC p j) 0 := by
      simpa using ((hasDerivAt_id (0 : ℝ)).mul_const (partC p j)).const_add (partC x j)
    have := h1.fun_mul h2
    simpa using this
  have := (HasDerivAt.fun_sum fun j (_ : j ∈ Finset.univ) => hd j).sub_const (fX i)
  refine this.congr_deriv ?_
  symm
  rw [Finset.sum_add_distrib]
  change ∑ q, (altJacobianOf B X x) i q * p q = _
  rw [Fin.sum_univ_add]
  congr 1
  · simp only [altJacobianOf, Matrix.of_apply, Fin.append_left, dirV, Matrix.sum_apply, Matrix.smul_apply, dvdu, smul_eq_mul, flat]
    rw [← finProdFinEquiv.sum_comp, Fintype.sum_prod_type]
    simp only [Equiv.symm_apply_apply, Finset.sum_mul]
    rw [Finset.sum_comm]
    conv_rhs => rw [Finset.sum_comm]
    conv_rhs => enter [2, k]; rw [Finset.sum_comm]
    rw [Finset.sum_comm]
    refine Finset.sum_congr rfl fun k _ => Finset.sum_congr rfl fun l _ => ?_
    rw [Finset.mul_sum, Finset.sum_mul]
    refine Finset.sum_congr rfl fun j _ => ?_
    simp only [partU, unflat, Matrix.of_apply]
    ring
  · refine Finset.sum_congr rfl fun j _ => ?_
    simp only [altJacobianOf, Matrix.of_apply, Fin.append_right]
    rfl

end Verif.Func
