import Verif.Opt.GNModel
import Verif.Lipschitz.BoundProps
import Verif.Geometry.GeoProps

/-!
# Properties C57 (line search) and C58 (Gauss-Newton)
-/

namespace Verif.Opt

open Verif.Domain Verif.Lip Matrix

variable {m M : ℕ}

/-! ## C57: the line search -/

/-- Specification: the step length `alpha` along `p` from `x0` leads to a point `x` with residual `fx`
that satisfies the sufficient decrease condition with slope `s`, measured from the residual norm `n0`. -/
def SuffDecr (f : Resid m M) (T : Traj m) (p x0 : Pt m) (n0 ftol s alpha : ℝ) (x : Pt m) (fx : Pt M) : Prop :=
  T x0 p alpha = .ok x ∧ f x = .ok fx ∧ nrm fx < n0 + alpha * ftol * s

/-- What the loop of the line search achieves (see `armijo_spec` for the statement about the call). -/
def LoopOut (f : Resid m M) (T : Traj m) (p x0 : Pt m) (bt : ℝ) (bound : ℝ → ℝ) (k : ℕ) (al : ℝ) : Option (LS m M) → Prop
  | some r => ∃ j < k, r.alpha = al * bt ^ j ∧ T x0 p r.alpha = .ok r.x ∧ f r.x = .ok r.fx ∧ nrm r.fx < bound r.alpha ∧
      ∀ i < j, ∀ x fx, T x0 p (al * bt ^ i) = .ok x → f x = .ok fx → ¬ nrm fx < bound (al * bt ^ i)
  | none => ∀ i < k, ∀ x fx, T x0 p (al * bt ^ i) = .ok x → f x = .ok fx → ¬ nrm fx < bound (al * bt ^ i)

theorem armijoLoop_spec (f : Resid m M) (T : Traj m) (p x0 : Pt m) (bt : ℝ) (bound : ℝ → ℝ) (k : ℕ) (al : ℝ)
    (o : Option (LS m M)) (tr : List (Pt m)) (h : armijoLoop f T p x0 bt bound k al = .ok (o, tr)) :
    tr.length ≤ k ∧ LoopOut f T p x0 bt bound k al o := by
  induction k generalizing al o tr with
  | zero =>
    simp only [armijoLoop] at h
    cases h
    simp [LoopOut]
  | succ k ih =>
    -- the case in which the first trial fails and the loop goes on
    have cont : ∀ (tr' : List (Pt m)), armijoLoop f T p x0 bt bound k (al * bt) = .ok (o, tr') →
        (∀ x fx, T x0 p al = .ok x → f x = .ok fx → ¬ nrm fx < bound al) → tr.length ≤ tr'.length + 1 →
        tr.length ≤ k + 1 ∧ LoopOut f T p x0 bt bound (k + 1) al o := by
      intro tr' h' h0 hl
      obtain ⟨i1, i2⟩ := ih (al * bt) o tr' h'
      refine ⟨by omega, ?_⟩
      have shift : ∀ j, al * bt * bt ^ j = al * bt ^ (j + 1) := fun j => by ring
      cases o with
      | none =>
        simp only [LoopOut] at i2 ⊢
        intro i hi x fx hx hf
        cases i with
        | zero => simp only [pow_zero, mul_one] at hx ⊢; exact h0 x fx hx hf
        | succ i => rw [← shift] at hx ⊢; exact i2 i (by omega) x fx hx hf
      | some r =>
        simp only [LoopOut] at i2 ⊢
        obtain ⟨j, hj, e, a, b, c, d⟩ := i2
        refine ⟨j + 1, by omega, by rw [e, shift], a, b, c, ?_⟩
        intro i hi x fx hx hf
        cases i with
        | zero => simp only [pow_zero, mul_one] at hx ⊢; exact h0 x fx hx hf
        | succ i => rw [← shift] at hx ⊢; exact d i (by omega) x fx hx hf
    unfold armijoLoop at h
    split at h
    · rename_i hT
      exact cont tr h (fun x fx hx => by rw [hT] at hx; cases hx) (by omega)
    · cases h
    · rename_i x hT
      split at h
      · rename_i hf
        cases hh : armijoLoop f T p x0 bt bound k (al * bt) with
        | error e => rw [hh] at h; cases h
        | ok r =>
          rw [hh] at h
          simp only [Except.map, Except.ok.injEq, Prod.mk.injEq] at h
          obtain ⟨rfl, rfl⟩ := h
          exact cont r.2 hh (fun x' fx' hx hf' => by rw [hT] at hx; cases hx; rw [hf] at hf'; cases hf') (by simp)
      · cases h
      · rename_i fx hf
        split at h
        · rename_i hb
          cases h
          refine ⟨by simp, 0, by omega, by simp, hT, hf, hb, by simp⟩
        · rename_i hb
          cases hh : armijoLoop f T p x0 bt bound k (al * bt) with
          | error e => rw [hh] at h; cases h
          | ok r =>
            rw [hh] at h
            simp only [Except.map, Except.ok.injEq, Prod.mk.injEq] at h
            obtain ⟨rfl, rfl⟩ := h
            refine cont r.2 hh (fun x' fx' hx hf' => ?_) (by simp)
            rw [hT] at hx; cases hx; rw [hf] at hf'; cases hf'
            exact hb

/-- **C57**: the line search either returns a step `bt^j`, with `j` the first trial that satisfies the
sufficient decrease condition, together with the point on the trajectory and the residual there; or
none of the `maxiter` trials does and it returns step `0`, the starting point and its residual. It
evaluates the residual at most `maxiter` times (after the start). -/
theorem armijo_spec (o : ArmijoOpt) (f : Resid m M) (g p x0 : Pt m) (T : Traj m) (fx0 : Option (Pt M)) (v : Pt M)
    (hv : fx0 = some v ∨ fx0 = none ∧ f x0 = .ok v) (r : LS m M) (tr : List (Pt m))
    (h : armijo o f g p x0 T fx0 = .ok (r, tr)) :
    tr.length ≤ o.maxiter ∧
    ((∃ j < o.maxiter, r.alpha = o.bt ^ j ∧ SuffDecr f T p x0 (nrm v) o.ftol (g ⬝ᵥ p) r.alpha r.x r.fx ∧
        ∀ i < j, ∀ x fx, ¬ SuffDecr f T p x0 (nrm v) o.ftol (g ⬝ᵥ p) (o.bt ^ i) x fx) ∨
      (r.alpha = 0 ∧ r.x = x0 ∧ r.fx = v ∧
        ∀ i < o.maxiter, ∀ x fx, ¬ SuffDecr f T p x0 (nrm v) o.ftol (g ⬝ᵥ p) (o.bt ^ i) x fx)) := by
  unfold armijo at h
  split at h
  · cases h
  · have hstart : startVal f x0 fx0 = .ok v := by
      rcases hv with rfl | ⟨rfl, h0⟩
      · rfl
      · exact h0
    rw [hstart] at h
    simp only at h
    split at h
    · cases h
    · rename_i r' tr' hl
      cases h
      obtain ⟨a, j, hj, e, b, c, d, g'⟩ := armijoLoop_spec _ _ _ _ _ _ _ _ _ _ hl
      refine ⟨a, Or.inl ⟨j, hj, by rw [e, one_mul], ⟨b, c, d⟩, ?_⟩⟩
      intro i hi x fx ⟨s1, s2, s3⟩
      exact g' i hi x fx (by rw [one_mul]; exact s1) s2 (by rw [one_mul]; exact s3)
    · rename_i tr' hl
      cases h
      obtain ⟨a, g'⟩ := armijoLoop_spec _ _ _ _ _ _ _ _ _ _ hl
      refine ⟨a, Or.inr ⟨rfl, rfl, rfl, ?_⟩⟩
      intro i hi x fx ⟨s1, s2, s3⟩
      exact g' i hi x fx (by rw [one_mul]; exact s1) s2 (by rw [one_mul]; exact s3)

/-- **C57**: consequently the residual norm never grows. -/
theorem armijo_decrease (o : ArmijoOpt) (hbt : 0 ≤ o.bt) (hft : 0 ≤ o.ftol) (f : Resid m M) (g p x0 : Pt m) (T : Traj m)
    (v : Pt M) (fx0 : Option (Pt M)) (hv : fx0 = some v ∨ fx0 = none ∧ f x0 = .ok v) (r : LS m M) (tr : List (Pt m))
    (h : armijo o f g p x0 T fx0 = .ok (r, tr)) :
    nrm r.fx < nrm v ∨ r.alpha = 0 ∧ r.x = x0 ∧ r.fx = v := by
  have hdg : g ⬝ᵥ p ≤ 0 := by
    unfold armijo at h
    split at h
    · cases h
    · rename_i hn; exact not_not.1 hn
  obtain ⟨-, ⟨j, -, e, ⟨-, -, s⟩, -⟩ | ⟨a, b, c, -⟩⟩ := armijo_spec o f g p x0 T fx0 v hv r tr h
  · left
    have : 0 ≤ r.alpha * o.ftol := mul_nonneg (by rw [e]; exact pow_nonneg hbt j) hft
    nlinarith
  · exact Or.inr ⟨a, b, c⟩

/-- The line search with the default options: it returns the first of the steps `1, 1/2, ..., 2⁻³⁹` with sufficient decrease, and step zero only if none of
the forty has it. -/
theorem armijo_default (f : Resid m M) (g p x0 : Pt m) (T : Traj m) (v : Pt M) (hv : f x0 = .ok v) (r : LS m M) (h : armijoLS f g p x0 T = .ok r) :
    (∃ j < 40, r.alpha = (1 / 2) ^ j ∧ SuffDecr f T p x0 (nrm v) (1 / 10000) (g ⬝ᵥ p) r.alpha r.x r.fx ∧
        ∀ i < j, ∀ x fx, ¬ SuffDecr f T p x0 (nrm v) (1 / 10000) (g ⬝ᵥ p) ((1 / 2) ^ i) x fx) ∨
      (r.alpha = 0 ∧ r.x = x0 ∧ r.fx = v ∧ ∀ i < 40, ∀ x fx, ¬ SuffDecr f T p x0 (nrm v) (1 / 10000) (g ⬝ᵥ p) ((1 / 2) ^ i) x fx) := by
  unfold armijoLS at h
  cases ha : armijo armijoDefault f g p x0 T none with
  | error e => rw [ha] at h; cases h
  | ok q =>
    rw [ha] at h
    cases h
    exact (armijo_spec armijoDefault f g p x0 T none v (Or.inr ⟨rfl, hv⟩) q.1 q.2 ha).2

/-- **C57**: the call fails exactly if the direction is not a descent direction, or evaluating the start
fails, or a trial before the first acceptable one fails with something other than `BadStep`. Stated for
functions that raise nothing but `BadStep`. -/
theorem armijo_ok_iff (o : ArmijoOpt) (f : Resid m M) (g p x0 : Pt m) (T : Traj m) (fx0 : Option (Pt M))
    (hf : ∀ x e, f x = .error e → e = .badStep) (hT : ∀ x p t e, T x p t = .error e → e = .badStep) :
    (∃ r, armijo o f g p x0 T fx0 = .ok r) ↔ g ⬝ᵥ p ≤ 0 ∧ (fx0 = none → ∃ v, f x0 = .ok v) := by
  have loop : ∀ (bound : ℝ → ℝ) k al, ∃ r, armijoLoop f T p x0 o.bt bound k al = .ok r := by
    intro bound k
    induction k with
    | zero => intro al; exact ⟨_, rfl⟩
    | succ k ih =>
      intro al
      obtain ⟨r, hr⟩ := ih (al * o.bt)
      unfold armijoLoop
      split
      · exact ⟨r, hr⟩
      · rename_i e he1 he2; exact absurd (hT _ _ _ _ he2) (by rintro rfl; exact he1 rfl)
      · split
        · rw [hr]; exact ⟨_, rfl⟩
        · rename_i e he1 he2; exact absurd (hf _ _ he2) (by rintro rfl; exact he1 rfl)
        · split
          · exact ⟨_, rfl⟩
          · rw [hr]; exact ⟨_, rfl⟩
  unfold armijo
  by_cases hd : g ⬝ᵥ p ≤ 0
  · rw [if_neg (not_not.2 hd)]
    cases fx0 with
    | some v =>
      simp only [startVal, hd, true_and, reduceCtorEq, false_implies, iff_true]
      obtain ⟨⟨o', tr⟩, hr⟩ := loop (fun alpha => nrm v + alpha * o.ftol * (g ⬝ᵥ p)) o.maxiter 1
      rw [hr]
      cases o' <;> exact ⟨_, rfl⟩
    | none =>
      simp only [hd, true_and, true_implies]
      cases hv : f x0 with
      | error e => simp [startVal, hv]
      | ok v =>
        simp only [startVal, hv, Except.ok.injEq, exists_eq', iff_true]
        obtain ⟨⟨o', tr⟩, hr⟩ := loop (fun alpha => nrm v + alpha * o.ftol * (g ⬝ᵥ p)) o.maxiter 1
        rw [hr]
        cases o' <;> exact ⟨_, rfl⟩
  · rw [if_pos hd]
    simp [hd]

/-- A search that meets the hypotheses: `f(x) = x` from `1` in the direction `-1`. -/
example : ∃ r, armijo (m := 1) (M := 1) armijoDefault (fun x => .ok x) 1 (-1) 1 trajLinear none = .ok r :=
  (armijo_ok_iff _ _ _ _ _ _ _ (by simp) (by simp [trajLinear])).2 ⟨by simp, fun _ => ⟨1, rfl⟩⟩

/-! ## C58: Gauss-Newton -/

/-- Specification of a line search: the residual it returns is the residual at the point it returns. -/
def LSGood (ls : LineSearch m M) (f : Resid m M) (T : Traj m) : Prop :=
  ∀ g p x r, ls f g p x T = .ok r → f r.x = .ok r.fx

/-- Specification of a line search: when it makes no progress it returns the residual it started with. -/
def LSStays (ls : LineSearch m M) (f : Resid m M) (T : Traj m) : Prop :=
  ∀ g p x r v, ls f g p x T = .ok r → f x = .ok v → nrm v ≤ nrm r.fx → r.fx = v

theorem armijoLS_cases {f : Resid m M} {T : Traj m} {g p x : Pt m} {r : LS m M} (h : armijoLS f g p x T = .ok r) :
    ∃ v, f x = .ok v ∧ f r.x = .ok r.fx ∧ (nrm r.fx < nrm v ∨ r.fx = v) := by
  unfold armijoLS at h
  cases ha : armijo armijoDefault f g p x T none with
  | error e => rw [ha] at h; cases h
  | ok q =>
    rw [ha] at h
    obtain ⟨r', tr⟩ := q
    simp only [Except.map, Except.ok.injEq] at h
    subst h
    cases hv : f x with
    | error e =>
      unfold armijo at ha
      split at ha
      · cases ha
      · simp only [startVal, hv] at ha; cases ha
    | ok v =>
      refine ⟨v, rfl, ?_, ?_⟩
      · obtain ⟨-, ⟨j, -, -, ⟨-, s, -⟩, -⟩ | ⟨-, b, c, -⟩⟩ := armijo_spec armijoDefault f g p x T none v (Or.inr ⟨rfl, hv⟩) r' tr ha
        · exact s
        · rw [b, c]; exact hv
      · rcases armijo_decrease armijoDefault (by norm_num [armijoDefault]) (by norm_num [armijoDefault]) f g p x T v none
          (Or.inr ⟨rfl, hv⟩) r' tr ha with h | ⟨-, -, h⟩
        · exact Or.inl h
        · exact Or.inr h

/-- The default line search meets both specifications. -/
theorem armijoLS_good (f : Resid m M) (T : Traj m) : LSGood (armijoLS) f T := by
  intro g p x r h
  obtain ⟨v, -, h2, -⟩ := armijoLS_cases h
  exact h2

theorem armijoLS_stays (f : Resid m M) (T : Traj m) : LSStays (armijoLS) f T := by
  intro g p x r v h hv hle
  obtain ⟨v', h1, -, h3⟩ := armijoLS_cases h
  rw [hv] at h1
  cases h1
  rcases h3 with h3 | h3
  · exact absurd hle (not_le.2 h3)
  · exact h3

/-- The direction passed to the line search is always a descent direction, so its assertion never fires. -/
theorem gnDir_descent (g dx : Pt m) : g ⬝ᵥ gnDir g dx ≤ 0 := by
  unfold gnDir
  split
  · rw [dotProduct_neg]
    have := dotProduct_self_nonneg' g
    linarith
  · rename_i h
    exact (not_le.1 h).le

theorem gnStep_ok {a : GNArgs m M} {s s' : GNState m M} {inc : Bool} (h : gnStep a s = .ok (s', inc)) :
    ∃ dx r, a.ls a.f s.grad (gnDir s.grad dx) s.x a.T = .ok r ∧ (inc = true ↔ nrm s.fe ≤ nrm r.fx) ∧
      s'.x = (if inc then s.x else r.x) ∧ s'.fe = (if inc then s.fe else r.fx) ∧ a.F s'.x = .ok s'.Fe ∧
      s'.grad = s'.Feᵀ *ᵥ r.fx ∧ s'.fnew = r.fx ∧ s'.normgrad = (if a.verbose ≥ 1 then nrm s'.grad else s.normgrad) := by
  unfold gnStep at h
  split at h
  · cases h
  · cases h
  · rename_i dx0 sv hs
    simp only at h
    split at h
    · cases h
    · rename_i r hr
      split at h
      · cases h
      · rename_i Fe hF
        split at h
        · cases h
        · cases h
          refine ⟨dx0, r, hr, by simp, ?_, ?_, ?_, rfl, rfl, rfl⟩ <;> simp_all

/-- The loop invariant: the stored residual and Jacobian are those of the current point. -/
def GNInv (a : GNArgs m M) (s : GNState m M) : Prop := a.f s.x = .ok s.fe ∧ a.F s.x = .ok s.Fe

theorem gnStep_inv {a : GNArgs m M} (hg : LSGood a.ls a.f a.T) {s s' : GNState m M} {inc : Bool} (hi : GNInv a s)
    (h : gnStep a s = .ok (s', inc)) : GNInv a s' ∧ nrm s'.fe ≤ nrm s.fe := by
  obtain ⟨dx, r, hr, hinc, hx, hfe, hF, -, -, -⟩ := gnStep_ok h
  cases inc with
  | true =>
    simp only [if_true] at hx hfe
    exact ⟨⟨by rw [hx, hfe]; exact hi.1, hF⟩, by rw [hfe]⟩
  | false =>
    simp only [Bool.false_eq_true, if_false] at hx hfe
    refine ⟨⟨by rw [hx, hfe]; exact hg _ _ _ _ hr, hF⟩, ?_⟩
    rw [hfe]
    simp only [Bool.false_eq_true, false_iff, not_le] at hinc
    exact hinc.le

theorem gnLoop_inv {a : GNArgs m M} (hg : LSGood a.ls a.f a.T) {tol : ℝ} {k : ℕ} {s s' : GNState m M} {l : Bool} (hi : GNInv a s)
    (h : gnLoop a tol k s = .ok (s', l)) : GNInv a s' ∧ nrm s'.fe ≤ nrm s.fe := by
  induction k generalizing s with
  | zero =>
    unfold gnLoop at h
    split at h
    · cases h
    · rename_i s1 inc hs
      cases h
      exact gnStep_inv hg hi hs
  | succ k ih =>
    unfold gnLoop at h
    split at h
    · cases h
    · rename_i s1 inc hs
      have h1 := gnStep_inv hg hi hs
      split at h
      · cases h; exact h1
      · split at h
        · cases h; exact h1
        · split at h
          · cases h; exact h1
          · have h2 := ih h1.1 h
            exact ⟨h2.1, h2.2.trans h1.2⟩

theorem gnStart_ok {a : GNArgs m M} {x0 : Pt m} {s : GNState m M} (h : gnStart a x0 = .ok s) :
    s.x = x0 ∧ GNInv a s ∧ s.grad = s.Feᵀ *ᵥ s.fe ∧ s.fnew = s.fe ∧ s.normgrad = nrm s.grad := by
  unfold gnStart at h
  split at h
  · cases h
  · rename_i fe hf
    split at h
    · cases h
    · rename_i Fe hF
      cases h
      exact ⟨rfl, ⟨hf, hF⟩, rfl, rfl, rfl⟩

theorem gaussNewton_ok {a : GNArgs m M} {x0 x : Pt m} {i : ℕ} (hm : 0 < a.maxiter) (h : gaussNewton a x0 = .ok (x, i)) :
    ∃ s0 s l, gnStart a x0 = .ok s0 ∧ gnLoop a (gnTol a.tol s0.normgrad) (a.maxiter.toNat - 1) s0 = .ok (s, l) ∧
      gnInfo a (gnTol a.tol s0.normgrad) s l = .ok i ∧ s.x = x := by
  unfold gaussNewton at h
  rw [if_neg (not_le.2 hm)] at h
  split at h
  · cases h
  · rename_i s0 hs0
    split at h
    · cases h
    · rename_i s l hl
      cases hi : gnInfo a (gnTol a.tol s0.normgrad) s l with
      | error e => rw [hi] at h; cases h
      | ok j =>
        rw [hi] at h
        simp only [Except.map, Except.ok.injEq, Prod.mk.injEq] at h
        exact ⟨s0, s, l, hs0, hl, by rw [hi, h.2], h.1⟩

/-- **C58**, monotonicity: the residual norm at the returned point is at most the one at the start. -/
theorem gn_monotone (a : GNArgs m M) (hg : LSGood a.ls a.f a.T) (x0 x : Pt m) (i : ℕ) (v0 : Pt M) (h0 : a.f x0 = .ok v0)
    (h : gaussNewton a x0 = .ok (x, i)) : ∃ v, a.f x = .ok v ∧ nrm v ≤ nrm v0 := by
  by_cases hm : a.maxiter ≤ 0
  · unfold gaussNewton at h
    rw [if_pos hm] at h
    cases h
    exact ⟨v0, h0, le_rfl⟩
  · obtain ⟨s0, s, l, hs0, hl, -, rfl⟩ := gaussNewton_ok (not_le.1 hm) h
    obtain ⟨hx, hinv, -⟩ := gnStart_ok hs0
    obtain ⟨h1, h2⟩ := gnLoop_inv hg hinv hl
    have := hinv.1
    rw [hx, h0] at this
    cases this
    exact ⟨s.fe, h1.1, h2⟩

/-- **C58** with the default line search. -/
theorem gn_monotone_default (a : GNArgs m M) (hls : a.ls = armijoLS) (x0 x : Pt m) (i : ℕ) (v0 : Pt M) (h0 : a.f x0 = .ok v0)
    (h : gaussNewton a x0 = .ok (x, i)) : ∃ v, a.f x = .ok v ∧ nrm v ≤ nrm v0 :=
  gn_monotone a (by rw [hls]; exact armijoLS_good _ _) x0 x i v0 h0 h

/-- Why the loop ended. -/
theorem gnLoop_end {a : GNArgs m M} {tol : ℝ} {k : ℕ} {s s' : GNState m M} {l : Bool} (h : gnLoop a tol k s = .ok (s', l)) :
    l = true ∨ s'.normgrad < tol ∨ s'.normdx < a.tolDx ∨ nrm s'.fe ≤ nrm s'.fnew := by
  induction k generalizing s with
  | zero =>
    unfold gnLoop at h
    split at h
    · cases h
    · cases h; exact Or.inl rfl
  | succ k ih =>
    unfold gnLoop at h
    split at h
    · cases h
    · rename_i s1 inc hs
      split at h
      · rename_i h1; cases h; exact Or.inr (Or.inl h1)
      · split at h
        · rename_i h1; cases h; exact Or.inr (Or.inr (Or.inl h1))
        · split at h
          · rename_i h1
            cases h
            obtain ⟨dx, r, hr, hinc, hx, hfe, hF, -, hn, -⟩ := gnStep_ok hs
            rw [h1] at hfe
            simp only [if_true] at hfe
            refine Or.inr (Or.inr (Or.inr ?_))
            rw [hfe, hn]
            exact hinc.1 h1
          · exact ih h

/-- **C58**: the status is always determined, i.e. the exception at the end of the function (gn.py 265) is
unreachable; the status is one of 0, 1, 2, 3. -/
theorem gn_info_total {a : GNArgs m M} {tol : ℝ} {k : ℕ} {s s' : GNState m M} {l : Bool} (h : gnLoop a tol k s = .ok (s', l)) :
    ∃ i ≤ 3, gnInfo a tol s' l = .ok i := by
  unfold gnInfo
  split
  · exact ⟨0, by omega, rfl⟩
  · split
    · exact ⟨1, by omega, rfl⟩
    · split
      · exact ⟨2, by omega, rfl⟩
      · split
        · exact ⟨3, by omega, rfl⟩
        · rename_i h1 h2 h3 h4
          rcases gnLoop_end h with h' | h' | h' | h'
          · exact absurd h' h3
          · exact absurd h'.le h1
          · exact absurd h'.le h2
          · exact absurd h' h4

/-- **C58**: status 4 means exactly that no iteration was allowed; then the starting point is returned without evaluating anything.
Otherwise the status is one of 0, 1, 2, 3. -/
theorem gn_status (a : GNArgs m M) (x0 x : Pt m) (i : ℕ) (h : gaussNewton a x0 = .ok (x, i)) :
    (i = 4 ↔ a.maxiter ≤ 0) ∧ (a.maxiter ≤ 0 → x = x0) ∧ i ≤ 4 := by
  by_cases hm : a.maxiter ≤ 0
  · unfold gaussNewton at h
    rw [if_pos hm] at h
    cases h
    simp [hm]
  · obtain ⟨s0, s, l, -, hl, hi, -⟩ := gaussNewton_ok (not_le.1 hm) h
    obtain ⟨j, hj, e⟩ := gn_info_total hl
    rw [hi] at e
    cases e
    refine ⟨⟨fun e => by omega, fun e => absurd e hm⟩, fun e => absurd e hm, by omega⟩

theorem gnLoop_normgrad {a : GNArgs m M} (hv : a.verbose ≥ 1) (hst : LSStays a.ls a.f a.T) (hg : LSGood a.ls a.f a.T)
    {tol : ℝ} {k : ℕ} {s s' : GNState m M} {l : Bool} (hi : GNInv a s)
    (h : gnLoop a tol k s = .ok (s', l)) : s'.normgrad = nrm (s'.Feᵀ *ᵥ s'.fe) := by
  have step : ∀ {s s' : GNState m M} {inc : Bool}, GNInv a s → gnStep a s = .ok (s', inc) → s'.normgrad = nrm (s'.Feᵀ *ᵥ s'.fe) := by
    intro s s' inc hi h
    obtain ⟨dx, r, hr, hinc, hx, hfe, hF, hgr, -, hn⟩ := gnStep_ok h
    rw [hn, if_pos hv, hgr]
    cases inc with
    | true =>
      simp only [if_true] at hfe
      rw [hfe, hst _ _ _ _ _ hr hi.1 (hinc.1 rfl)]
    | false => simp only [Bool.false_eq_true, if_false] at hfe; rw [hfe]
  induction k generalizing s with
  | zero =>
    unfold gnLoop at h
    split at h
    · cases h
    · rename_i s1 inc hs
      cases h
      exact step hi hs
  | succ k ih =>
    unfold gnLoop at h
    split at h
    · cases h
    · rename_i s1 inc hs
      split at h
      · cases h; exact step hi hs
      · split at h
        · cases h; exact step hi hs
        · split at h
          · cases h; exact step hi hs
          · exact ih (gnStep_inv hg hi hs).1 h

/-- **C58**, status 0, when called with `verbose >= 1`: the gradient at the returned point is below the
effective tolerance (`tol` relative to the initial gradient, at least `1e-14`). Missing: `verbose = 0`,
for which it is false (`gn_quiet_zero_iff`, `gn_quiet_false`). -/
theorem gn_converged_partial (a : GNArgs m M) (hv : a.verbose ≥ 1) (hls : a.ls = armijoLS) (x0 x : Pt m)
    (h : gaussNewton a x0 = .ok (x, 0)) (hm : 0 < a.maxiter) :
    ∃ v J v0 J0, a.f x = .ok v ∧ a.F x = .ok J ∧ a.f x0 = .ok v0 ∧ a.F x0 = .ok J0 ∧
      nrm (Jᵀ *ᵥ v) ≤ max (a.tol * nrm (J0ᵀ *ᵥ v0)) (1 / 10 ^ 14) := by
  obtain ⟨s0, s, l, hs0, hl, hi, rfl⟩ := gaussNewton_ok hm h
  obtain ⟨hx, hinv, hg0, -, hn0⟩ := gnStart_ok hs0
  have hgood : LSGood a.ls a.f a.T := by rw [hls]; exact armijoLS_good _ _
  have hst : LSStays a.ls a.f a.T := by rw [hls]; exact armijoLS_stays _ _
  obtain ⟨h1, -⟩ := gnLoop_inv hgood hinv hl
  have hng := gnLoop_normgrad hv hst hgood hinv hl
  refine ⟨s.fe, s.Fe, s0.fe, s0.Fe, h1.1, h1.2, by rw [← hx]; exact hinv.1, by rw [← hx]; exact hinv.2, ?_⟩
  rw [← hng, ← hg0, ← hn0]
  unfold gnInfo at hi
  split at hi
  · rename_i hle; exact hle
  · split at hi
    · cases hi
    · split at hi
      · cases hi
      · split at hi <;> cases hi

/-! ### The effect of verbosity -/

theorem gnLoop_quiet {a : GNArgs m M} (hv : ¬ a.verbose ≥ 1) {tol : ℝ} {k : ℕ} {s s' : GNState m M} {l : Bool}
    (h : gnLoop a tol k s = .ok (s', l)) : s'.normgrad = s.normgrad := by
  induction k generalizing s with
  | zero =>
    unfold gnLoop at h
    split at h
    · cases h
    · rename_i s1 inc hs
      cases h
      obtain ⟨dx, r, -, -, -, -, -, -, -, hn⟩ := gnStep_ok hs
      rw [hn, if_neg hv]
  | succ k ih =>
    unfold gnLoop at h
    split at h
    · cases h
    · rename_i s1 inc hs
      obtain ⟨dx, r, -, -, -, -, -, -, -, hn⟩ := gnStep_ok hs
      rw [if_neg hv] at hn
      split at h
      · cases h; exact hn
      · split at h
        · cases h; exact hn
        · split at h
          · cases h; exact hn
          · rw [ih h, hn]

/-- **C58 fails for `verbose = 0`**: the status is 0 exactly if the gradient *at the start* is below the
tolerance, whatever the returned point is. In particular, for `tol < 1` and an initial gradient above
`1e-14`, a quiet run never reports convergence. -/
theorem gn_quiet_zero_iff (a : GNArgs m M) (hv : ¬ a.verbose ≥ 1) (hm : 0 < a.maxiter) (x0 x : Pt m) (i : ℕ)
    (v0 : Pt M) (J0 : Matrix (Fin M) (Fin m) ℝ) (h0 : a.f x0 = .ok v0) (hJ : a.F x0 = .ok J0)
    (h : gaussNewton a x0 = .ok (x, i)) :
    i = 0 ↔ nrm (J0ᵀ *ᵥ v0) ≤ max (a.tol * nrm (J0ᵀ *ᵥ v0)) (1 / 10 ^ 14) := by
  obtain ⟨s0, s, l, hs0, hl, hi, rfl⟩ := gaussNewton_ok hm h
  obtain ⟨hx, hinv, hg0, -, hn0⟩ := gnStart_ok hs0
  have e1 := hinv.1
  have e2 := hinv.2
  rw [hx, h0] at e1
  rw [hx, hJ] at e2
  cases e1
  cases e2
  rw [hg0] at hn0
  rw [← hn0, ← gnTol]
  have hq := gnLoop_quiet hv hl
  unfold gnInfo at hi
  rw [hq] at hi
  constructor
  · rintro rfl
    by_contra hc
    rw [if_neg hc] at hi
    split at hi
    · cases hi
    · split at hi
      · cases hi
      · split at hi <;> cases hi
  · intro hc
    rw [if_pos hc] at hi
    cases hi
    rfl

theorem gn_quiet_never (a : GNArgs m M) (hv : ¬ a.verbose ≥ 1) (hm : 0 < a.maxiter) (ht : a.tol < 1) (x0 x : Pt m) (i : ℕ)
    (v0 : Pt M) (J0 : Matrix (Fin M) (Fin m) ℝ) (h0 : a.f x0 = .ok v0) (hJ : a.F x0 = .ok J0) (hbig : 1 / 10 ^ 14 < nrm (J0ᵀ *ᵥ v0))
    (h : gaussNewton a x0 = .ok (x, i)) : i ≠ 0 := by
  rw [Ne, gn_quiet_zero_iff a hv hm x0 x i v0 J0 h0 hJ h, not_le, max_lt_iff]
  refine ⟨?_, hbig⟩
  have : (0:ℝ) < nrm (J0ᵀ *ᵥ v0) := lt_trans (by positivity) hbig
  nlinarith

/-- Two states that agree in everything but the stored gradient norm. -/
def SameButNorm (s t : GNState m M) : Prop := ∃ n, t = { s with normgrad := n }

theorem gnStep_same {a b : GNArgs m M} (hab : b = { a with verbose := b.verbose }) {s t s' : GNState m M} {inc : Bool}
    (hst : SameButNorm s t) (h : gnStep a s = .ok (s', inc)) : ∃ t', gnStep b t = .ok (t', inc) ∧ SameButNorm s' t' := by
  obtain ⟨n, rfl⟩ := hst
  rw [hab]
  unfold gnStep at h ⊢
  simp only
  split at h
  · cases h
  · cases h
  · rename_i dx0 sv hs
    simp only at h ⊢
    split at h
    · cases h
    · rename_i r hr
      try rw [hr]
      try simp only
      split at h
      · cases h
      · rename_i Fe hF
        try rw [hF]
        try simp only
        split at h
        · cases h
        · rename_i hsv
          cases h
          try rw [if_neg hsv]
          exact ⟨_, rfl, _, rfl⟩

/-- **C58**, verbosity: if a verbose run does not stop because of the gradient (status not 0), a quiet
run returns the same point and the same status. -/
theorem gn_quiet_same (a : GNArgs m M) (hv : a.verbose ≥ 1) (w : ℤ) (hw : ¬ w ≥ 1) (hm : 0 < a.maxiter) (x0 x : Pt m) (i : ℕ)
    (v0 : Pt M) (J0 : Matrix (Fin M) (Fin m) ℝ) (h0 : a.f x0 = .ok v0) (hJ : a.F x0 = .ok J0)
    (hbig : max (a.tol * nrm (J0ᵀ *ᵥ v0)) (1 / 10 ^ 14) < nrm (J0ᵀ *ᵥ v0))
    (h : gaussNewton a x0 = .ok (x, i)) (hi0 : i ≠ 0) : gaussNewton { a with verbose := w } x0 = .ok (x, i) := by
  obtain ⟨s0, s, l, hs0, hl, hi, rfl⟩ := gaussNewton_ok hm h
  obtain ⟨hx, hinv, hg0, -, hn0⟩ := gnStart_ok hs0
  have e1 := hinv.1
  have e2 := hinv.2
  rw [hx, h0] at e1
  rw [hx, hJ] at e2
  cases e1
  cases e2
  rw [hg0] at hn0
  rw [← hn0, ← gnTol] at hbig
  set b : GNArgs m M := { a with verbose := w } with hb
  have key : ∀ (k : ℕ) (s t s' : GNState m M) (l : Bool), gnLoop a (gnTol a.tol s0.normgrad) k s = .ok (s', l) →
      gnTol a.tol s0.normgrad < s'.normgrad → SameButNorm s t → t.normgrad = s0.normgrad →
      ∃ t', gnLoop b (gnTol a.tol s0.normgrad) k t = .ok (t', l) ∧ SameButNorm s' t' ∧ t'.normgrad = s0.normgrad := by
    intro k
    induction k with
    | zero =>
      intro s t s' l hl hlt hst htn
      unfold gnLoop at hl ⊢
      split at hl
      · cases hl
      · rename_i s1 inc hs
        cases hl
        obtain ⟨t', ht', hs'⟩ := gnStep_same (b := b) rfl hst hs
        obtain ⟨dx, r, -, -, -, -, -, -, -, hn⟩ := gnStep_ok ht'
        rw [if_neg hw, htn] at hn
        rw [ht']
        exact ⟨t', rfl, hs', hn⟩
    | succ k ih =>
      intro s t s' l hl hlt hst htn
      unfold gnLoop at hl ⊢
      split at hl
      · cases hl
      · rename_i s1 inc hs
        obtain ⟨t', ht', hs'⟩ := gnStep_same (b := b) rfl hst hs
        obtain ⟨dx, r, -, -, -, -, -, -, -, hn⟩ := gnStep_ok ht'
        rw [if_neg hw, htn] at hn
        rw [ht']
        simp only
        rw [if_neg (by rw [hn]; exact not_lt.2 hbig.le)]
        have hdx : t'.normdx = s1.normdx := by obtain ⟨n, hn'⟩ := hs'; rw [hn']
        split at hl
        · rename_i hlt'
          cases hl
          exact absurd hlt' (not_lt.2 hlt.le)
        · split at hl
          · rename_i h1
            cases hl
            rw [if_pos (by rw [hdx]; exact h1)]
            exact ⟨t', rfl, hs', hn⟩
          · rename_i h1
            rw [if_neg (by rw [hdx]; exact h1)]
            split at hl
            · rename_i h2
              cases hl
              rw [if_pos h2]
              exact ⟨t', rfl, hs', hn⟩
            · rename_i h2
              rw [if_neg h2]
              exact ih s1 t' s' l hl hlt hs' hn
  have hgt : gnTol a.tol s0.normgrad < s.normgrad := by
    by_contra hc
    unfold gnInfo at hi
    rw [if_pos (not_lt.1 hc)] at hi
    cases hi
    exact hi0 rfl
  obtain ⟨t, ht, hst, htn⟩ := key _ s0 s0 s l hl hgt ⟨_, rfl⟩ rfl
  unfold gaussNewton
  rw [if_neg (not_le.2 hm)]
  have hs0' : gnStart b x0 = .ok s0 := hs0
  rw [hs0']
  simp only
  have : gnLoop b (gnTol b.tol s0.normgrad) (b.maxiter.toNat - 1) s0 = .ok (t, l) := ht
  rw [this]
  simp only
  have e : gnInfo b (gnTol b.tol s0.normgrad) t l = .ok i := by
    obtain ⟨n, rfl⟩ := hst
    unfold gnInfo at hi ⊢
    rw [if_neg (not_le.2 hgt)] at hi
    simp only at htn ⊢
    rw [htn]
    rw [if_neg (not_le.2 hbig)]
    exact hi
  rw [e]
  obtain ⟨n, rfl⟩ := hst
  rfl

/-! ### Witness that verbosity changes the result -/

/-- `f(x) = x` with its Jacobian, a search direction of half the Newton step, tolerance `3/5` relative to
the initial gradient, two iterations. -/
noncomputable def halfArgs (w : ℤ) : GNArgs 1 1 where
  f := fun x => .ok x
  F := fun _ => .ok 1
  tol := 3 / 5
  tolDx := 1 / 10 ^ 12
  maxiter := 2
  ls := armijoLS
  verbose := w
  T := trajLinear
  solver := fun _ v => .ok (some (-(1 / 2 : ℝ) • v), [1])

/-- The point of the line with coordinate `t`. -/
def p1 (t : ℝ) : Pt 1 := fun _ => t

theorem nrm_p1 (t : ℝ) : nrm (p1 t) = |t| := Geo.nrm_one t

theorem half_ls (w : ℤ) (t : ℝ) (ht : 0 < t) (ht1 : t ≤ 1) :
    (halfArgs w).ls (halfArgs w).f (p1 t) (p1 (-(t / 2))) (p1 t) (halfArgs w).T = .ok ⟨p1 (t / 2), 1, p1 (t / 2)⟩ := by
  have hx : (trajLinear (p1 t) (p1 (-(t / 2))) 1 : Except Exn (Pt 1)) = .ok (p1 (t / 2)) := by
    unfold trajLinear
    congr 1
    funext i
    simp only [Pi.add_apply, Pi.smul_apply, smul_eq_mul, p1]
    ring
  have hd : p1 t ⬝ᵥ p1 (-(t / 2)) = -(t ^ 2 / 2) := by simp [dotProduct, p1]; ring
  show (armijo armijoDefault _ _ _ _ _ none).map _ = _
  unfold armijo
  rw [if_neg (by rw [not_not, hd]; nlinarith [sq_nonneg t])]
  simp only [halfArgs, armijoDefault, startVal]
  unfold armijoLoop
  rw [hx]
  simp only
  rw [if_pos]
  · rfl
  · rw [nrm_p1, nrm_p1, hd, abs_of_pos ht, abs_of_pos (by linarith)]
    nlinarith

theorem half_dir (t : ℝ) (ht : 0 < t) : gnDir (p1 t) (-(1 / 2 : ℝ) • p1 t) = p1 (-(t / 2)) := by
  have e : -(1 / 2 : ℝ) • p1 t = p1 (-(t / 2)) := by
    funext i
    simp only [Pi.smul_apply, smul_eq_mul, p1]
    ring
  rw [e, gnDir, if_neg]
  simp only [dotProduct, p1, Finset.univ_unique, Finset.sum_singleton, ge_iff_le, not_le]
  nlinarith

theorem half_step (w : ℤ) (t ng nd : ℝ) (fn : Pt 1) (ht : 0 < t) (ht1 : t ≤ 1) :
    gnStep (halfArgs w) ⟨p1 t, p1 t, 1, p1 t, fn, ng, nd⟩ =
      .ok (⟨p1 (t / 2), p1 (t / 2), 1, p1 (t / 2), p1 (t / 2), if w ≥ 1 then t / 2 else ng, t / 2⟩, false) := by
  have hls := half_ls w t ht ht1
  have hinc : decide (nrm (p1 (t / 2)) ≥ nrm (p1 t)) = false := by
    rw [decide_eq_false_iff_not, nrm_p1, nrm_p1, abs_of_pos ht, abs_of_pos (by linarith)]
    linarith
  unfold gnStep
  have hsol : (halfArgs w).solver 1 (p1 t) = .ok (some (-(1 / 2 : ℝ) • p1 t), [1]) := rfl
  simp only [hsol, half_dir t ht, hls, hinc]
  simp only [Bool.false_eq_true, if_false]
  have hF : (halfArgs w).F (p1 (t / 2)) = .ok 1 := rfl
  simp only [hF, Matrix.transpose_one, Matrix.one_mulVec, nrm_p1, abs_of_pos (show 0 < t / 2 by linarith), abs_neg]
  rfl

theorem half_start (w : ℤ) : gnStart (halfArgs w) (p1 1) = .ok ⟨p1 1, p1 1, 1, p1 1, p1 1, 1, 1⟩ := by
  have hf : (halfArgs w).f (p1 1) = .ok (p1 1) := rfl
  have hF : (halfArgs w).F (p1 1) = .ok 1 := rfl
  unfold gnStart
  simp only [hf, hF, Matrix.transpose_one, Matrix.one_mulVec, nrm_p1, abs_one]

/-- **C58 is false**: the same problem, solved with `verbose = 1` and with `verbose = 0`. The verbose run
stops after one step at `1/2` with status 0; the quiet run goes on to `1/4` and reports that it did not
converge. -/
theorem gn_quiet_false : gaussNewton (halfArgs 1) (p1 1) = .ok (p1 (1 / 2), 0) ∧
    gaussNewton (halfArgs 0) (p1 1) = .ok (p1 (1 / 4), 2) := by
  constructor
  · unfold gaussNewton
    rw [if_neg (by simp [halfArgs]), half_start]
    simp only
    have : (halfArgs 1).maxiter.toNat - 1 = 1 := rfl
    rw [this]
    unfold gnLoop
    rw [half_step 1 1 1 1 (p1 1) one_pos le_rfl]
    simp only
    have ht : gnTol (halfArgs 1).tol 1 = 3 / 5 := by
      show max ((3 / 5 : ℝ) * 1) _ = _
      rw [max_eq_left] <;> norm_num
    rw [ht, if_pos (by norm_num)]
    simp only [gnInfo]
    rw [if_pos (by norm_num)]
    rfl
  · unfold gaussNewton
    rw [if_neg (by simp [halfArgs]), half_start]
    simp only
    have : (halfArgs 0).maxiter.toNat - 1 = 1 := rfl
    rw [this]
    have ht : gnTol (halfArgs 0).tol 1 = 3 / 5 := by
      show max ((3 / 5 : ℝ) * 1) _ = _
      rw [max_eq_left] <;> norm_num
    have hd : (halfArgs 0).tolDx = 1 / 10 ^ 12 := rfl
    rw [ht]
    unfold gnLoop
    rw [half_step 0 1 1 1 (p1 1) one_pos le_rfl]
    simp only [ge_iff_le, Int.reduceLE, if_false]
    rw [if_neg (by norm_num), hd, if_neg (by norm_num)]
    simp only [Bool.false_eq_true, if_false]
    unfold gnLoop
    rw [half_step 0 (1 / 2) 1 (1 / 2) (p1 (1 / 2)) (by norm_num) (by norm_num)]
    simp only [gnInfo]
    rw [if_neg (by norm_num), hd, if_neg (by norm_num), if_pos trivial]
    norm_num [Except.map]

/-- The hypotheses of `gn_monotone`, `gn_converged_partial` and `gn_quiet_zero_iff` are met by these runs. -/
example : LSGood (halfArgs 1).ls (halfArgs 1).f (halfArgs 1).T ∧ 0 < (halfArgs 1).maxiter ∧ (halfArgs 1).verbose ≥ 1 ∧
    ¬ (halfArgs 0).verbose ≥ 1 := ⟨armijoLS_good _ _, by simp [halfArgs], by simp [halfArgs], by simp [halfArgs]⟩

end Verif.Opt
