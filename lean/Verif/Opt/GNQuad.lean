import Verif.Opt.GNRate
import Verif.Domain.ChebProps
import Verif.Lipschitz.ConstProps

/-!
# Gauss-Newton converges quadratically near a solution (C170)

Source: `/repo/psdr/gn.py`, with the default line search, trajectory and solver.
-/

namespace Verif.Opt

open Verif.Domain Verif.Lip Matrix

variable {m M : ℕ}

/-! ### Specification -/

/-- `xs` solves `f = 0`; within the distance `r` of `xs`: first order expansions with the Jacobian `J` have errors of at most `γ/2` times the square of the distance, the
Jacobian stretches every vector at least by `σ`, and the residual is not large (see `gn_linear_stuck` for the need). -/
structure ZeroResid (f : Pt m → Pt M) (J : Pt m → Matrix (Fin M) (Fin m) ℝ) (xs : Pt m) (r σ γ : ℝ) : Prop where
  zero : f xs = 0
  hσ : 0 < σ
  hγ : 0 < γ
  taylor : ∀ x y, nrm (x - xs) ≤ r → nrm (y - xs) ≤ r → nrm (f y - f x - J x *ᵥ (y - x)) ≤ γ / 2 * nrm (y - x) ^ 2
  steep : ∀ x, nrm (x - xs) ≤ r → ∀ v, σ * nrm v ≤ nrm (J x *ᵥ v)
  units : ∀ x, nrm (x - xs) ≤ r → nrm (f x) ≤ 5000

/-- The arguments of `gauss_newton`: the residual `f`, its Jacobian `J`, and the defaults for the line search, the trajectory and the solver. -/
def Usual (a : GNArgs m M) (f : Pt m → Pt M) (J : Pt m → Matrix (Fin M) (Fin m) ℝ) : Prop :=
  (a.f = fun x => .ok (f x)) ∧ (a.F = fun x => .ok (J x)) ∧ a.ls = armijoLS ∧ a.T = trajLinear ∧ LsqSolver a.solver

/-! ### One step -/

theorem nrm_zero_eq {k : ℕ} {v : Pt k} (h : nrm v = 0) : v = 0 := eq_zero_of_nrm_sq v (by rw [h]; norm_num)

variable {f : Pt m → Pt M} {J : Pt m → Matrix (Fin M) (Fin m) ℝ} {xs : Pt m} {r σ γ : ℝ}

/-- The Gauss-Newton step from a point close to the solution. -/
theorem gn_step_bounds (h : ZeroResid f J xs r σ γ) {x dx : Pt m} (hr : nrm (x - xs) ≤ r) (hs : 4 * γ * nrm (x - xs) ≤ σ)
    (hdx : ∀ y, nrm (J x *ᵥ dx + f x) ≤ nrm (J x *ᵥ y + f x)) :
    2 * σ * nrm (x + dx - xs) ≤ γ * nrm (x - xs) ^ 2 ∧ 8 * nrm (x + dx - xs) ≤ nrm (x - xs) ∧ 7 * nrm (x - xs) ≤ 8 * nrm dx ∧ 8 * nrm dx ≤ 9 * nrm (x - xs) ∧
      ((J x)ᵀ *ᵥ f x) ⬝ᵥ dx = -nrm (J x *ᵥ dx) ^ 2 ∧ 2 * nrm (J x *ᵥ dx + f x) ≤ γ * nrm (x - xs) ^ 2 ∧
      nrm (f x) ^ 2 = nrm (J x *ᵥ dx) ^ 2 + nrm (J x *ᵥ dx + f x) ^ 2 := by
  have hnorm : (J x)ᵀ *ᵥ (J x *ᵥ dx + f x) = 0 := (lsq_normal (J x) (f x) dx).1 hdx
  have hperp : ∀ v, (J x *ᵥ dx + f x) ⬝ᵥ (J x *ᵥ v) = 0 := fun v => by rw [← tmul_dot, hnorm, zero_dotProduct]
  have he0 : 0 ≤ nrm (x - xs) := nrm_nonneg _
  have hr0 : (0 : ℝ) ≤ r := he0.trans hr
  -- the residual of the linear model at the solution
  have hlin : nrm (f x - J x *ᵥ (x - xs)) ≤ γ / 2 * nrm (x - xs) ^ 2 := by
    have h1 := h.taylor x xs hr (by rw [sub_self, nrm_zero]; exact hr0)
    rw [h.zero, nrm_sub_comm xs x, ← nrm_neg] at h1
    have e : -(0 - f x - J x *ᵥ (xs - x)) = f x - J x *ᵥ (x - xs) := by
      rw [← neg_sub x xs, Matrix.mulVec_neg]; abel
    rwa [e] at h1
  have hsplit : f x - J x *ᵥ (x - xs) = (J x *ᵥ dx + f x) + J x *ᵥ (-(x + dx - xs)) := by
    rw [Matrix.mulVec_neg, show x + dx - xs = dx + (x - xs) by abel, Matrix.mulVec_add]; abel
  have hpyth : nrm (f x - J x *ᵥ (x - xs)) ^ 2 = nrm (J x *ᵥ dx + f x) ^ 2 + nrm (J x *ᵥ (x + dx - xs)) ^ 2 := by
    rw [hsplit, nrm_sq_add, hperp, Matrix.mulVec_neg, nrm_neg]; ring
  have hJ0 : 0 ≤ nrm (J x *ᵥ (x + dx - xs)) := nrm_nonneg _
  have hρ0 : 0 ≤ nrm (J x *ᵥ dx + f x) := nrm_nonneg _
  have hb0 : 0 ≤ nrm (f x - J x *ᵥ (x - xs)) := nrm_nonneg _
  have hJ1 : nrm (J x *ᵥ (x + dx - xs)) ≤ nrm (f x - J x *ᵥ (x - xs)) := (sq_le_sq₀ hJ0 hb0).1 (by rw [hpyth]; nlinarith)
  have hρ1 : nrm (J x *ᵥ dx + f x) ≤ nrm (f x - J x *ᵥ (x - xs)) := (sq_le_sq₀ hρ0 hb0).1 (by rw [hpyth]; nlinarith)
  have hst := h.steep x hr (x + dx - xs)
  have hq : 2 * σ * nrm (x + dx - xs) ≤ γ * nrm (x - xs) ^ 2 := by linarith
  have h8 : 8 * nrm (x + dx - xs) ≤ nrm (x - xs) := by
    have h1 : γ * nrm (x - xs) ^ 2 ≤ σ * nrm (x - xs) / 4 := by nlinarith
    have h2 : σ * (8 * nrm (x + dx - xs)) ≤ σ * nrm (x - xs) := by linarith
    exact le_of_mul_le_mul_left h2 h.hσ
  have ht1 : nrm (x - xs) ≤ nrm (x + dx - xs) + nrm dx := by
    have := nrm_add_le (x + dx - xs) (-dx)
    rw [nrm_neg, show x + dx - xs + -dx = x - xs by abel] at this
    exact this
  have ht2 : nrm dx ≤ nrm (x + dx - xs) + nrm (x - xs) := by
    have := nrm_add_le (x + dx - xs) (-(x - xs))
    rw [nrm_neg, show x + dx - xs + -(x - xs) = dx by abel] at this
    exact this
  obtain ⟨hgd, hsq⟩ := linear_along (J x) (f x) dx hnorm 1
  rw [one_smul, add_comm (f x)] at hsq
  exact ⟨hq, h8, by linarith, by linarith, hgd, by linarith, by linarith⟩

/-- The full step satisfies the sufficient decrease condition. -/
theorem gn_full_step (h : ZeroResid f J xs r σ γ) {x dx : Pt m} (hr : nrm (x - xs) ≤ r) (hs : 4 * γ * nrm (x - xs) ≤ σ) (hx : x ≠ xs)
    (hdx : ∀ y, nrm (J x *ᵥ dx + f x) ≤ nrm (J x *ᵥ y + f x)) :
    nrm (f (x + dx)) < nrm (f x) + 1 * (1 / 10000) * (((J x)ᵀ *ᵥ f x) ⬝ᵥ dx) ∧ ((J x)ᵀ *ᵥ f x) ⬝ᵥ dx < 0 := by
  obtain ⟨-, h8, h7, h9, hgd, hρ, hsq⟩ := gn_step_bounds h hr hs hdx
  have he : 0 < nrm (x - xs) := lt_of_le_of_ne (nrm_nonneg _) fun e => hx (sub_eq_zero.1 (nrm_zero_eq e.symm))
  have hd : 0 < nrm dx := by linarith
  have hj := h.steep x hr dx
  have hσd : 0 < σ * nrm dx := mul_pos h.hσ hd
  have hj0 : 0 < nrm (J x *ᵥ dx) := by linarith
  have hnew : nrm (x + dx - xs) ≤ r := by linarith [nrm_nonneg (x + dx - xs)]
  have htay := h.taylor x (x + dx) hr hnew
  rw [add_sub_cancel_left] at htay
  have htri : nrm (f (x + dx)) ≤ nrm (J x *ᵥ dx + f x) + γ / 2 * nrm dx ^ 2 := by
    have := nrm_add_le (J x *ᵥ dx + f x) (f (x + dx) - f x - J x *ᵥ dx)
    rw [show J x *ᵥ dx + f x + (f (x + dx) - f x - J x *ᵥ dx) = f (x + dx) by abel] at this
    linarith
  have hjf : nrm (J x *ᵥ dx) ≤ nrm (f x) := (sq_le_sq₀ hj0.le (nrm_nonneg _)).1 (by rw [hsq]; nlinarith [sq_nonneg (nrm (J x *ᵥ dx + f x))])
  have hu := h.units x hr
  rw [hgd]
  refine ⟨?_, by nlinarith⟩
  set e := nrm (x - xs)
  set d := nrm dx
  set j := nrm (J x *ᵥ dx)
  have a1 : γ * e ^ 2 ≤ σ * e / 4 := by nlinarith
  have a2 : σ * e ≤ 8 / 7 * (σ * d) := by nlinarith [h.hσ]
  have a3 : γ * d ^ 2 ≤ 9 / 32 * (σ * d) := by
    have : γ * d ≤ γ * (9 / 8 * e) := mul_le_mul_of_nonneg_left (by linarith) h.hγ.le
    have : γ * d ≤ 9 / 32 * σ := by linarith
    nlinarith
  have a4 : j * j ≤ 5000 * j := by nlinarith
  nlinarith

/-! ### The loop -/

/-- The state belongs to its point. -/
def AtPoint (f : Pt m → Pt M) (J : Pt m → Matrix (Fin M) (Fin m) ℝ) (s : GNState m M) : Prop :=
  s.fe = f s.x ∧ s.Fe = J s.x ∧ s.grad = (J s.x)ᵀ *ᵥ s.fe

/-- A pass squares the error, up to a factor. -/
theorem gnStep_quadratic {a : GNArgs m M} (ha : Usual a f J) (h : ZeroResid f J xs r σ γ) {s : GNState m M} (hs : AtPoint f J s) (hr : nrm (s.x - xs) ≤ r)
    (hσ : 4 * γ * nrm (s.x - xs) ≤ σ) : ∃ s' inc, gnStep a s = .ok (s', inc) ∧ AtPoint f J s' ∧ 2 * σ * nrm (s'.x - xs) ≤ γ * nrm (s.x - xs) ^ 2 ∧
      8 * nrm (s'.x - xs) ≤ nrm (s.x - xs) ∧ 7 * nrm (s'.x - xs) ≤ s'.normdx ∧ (s'.normgrad = nrm s'.grad ∨ s'.normgrad = s.normgrad) ∧ (inc = true → s'.x = xs) := by
  obtain ⟨hf, hF, hls, hT, hsol⟩ := ha
  obtain ⟨h1, h2, h3⟩ := hs
  obtain ⟨dx, sv, he, hsv, hmin⟩ := hsol s.Fe s.fe
  rw [h2, h1] at hmin
  obtain ⟨b1, b2, b3, b4, b5, b6, b7⟩ := gn_step_bounds h hr hσ hmin
  by_cases hx : s.x = xs
  · -- at the solution
    have hfe : s.fe = 0 := by rw [h1, hx, h.zero]
    have hg : s.grad = 0 := by rw [h3, hfe, mulVec_zero]
    have hd : gnDir s.grad dx = 0 := by rw [hg, gnDir, if_pos (by simp), neg_zero]
    have hfx : a.f s.x = .ok s.fe := by rw [hf, h1]
    obtain ⟨⟨q, tr⟩, hq⟩ := (armijo_ok_iff armijoDefault a.f s.grad (gnDir s.grad dx) s.x trajLinear none
      (by rw [hf]; intro x e hx; cases hx) (by intro x p t e hx; cases hx)).2 ⟨gnDir_descent _ _, fun _ => ⟨s.fe, hfx⟩⟩
    have hq' : armijoLS a.f s.grad (gnDir s.grad dx) s.x trajLinear = .ok q := by
      show (armijo _ _ _ _ _ _ _).map _ = _
      rw [hq]; rfl
    have hq0 := hq'
    rw [hd] at hq0
    obtain ⟨e1, e2⟩ := armijo_zero_dir hfx hq0
    have hls' : a.ls a.f s.grad (gnDir s.grad dx) s.x a.T = .ok q := by rw [hls, hT]; exact hq'
    refine ⟨⟨s.x, s.fe, J s.x, (J s.x)ᵀ *ᵥ q.fx, q.fx, if a.verbose ≥ 1 then nrm ((J s.x)ᵀ *ᵥ q.fx) else s.normgrad, nrm (gnDir s.grad dx)⟩, true, ?_,
      ⟨h1, rfl, by simp only; rw [e2]⟩, ?_, ?_, ?_, ?_, fun _ => hx⟩
    · unfold gnStep
      simp only [he, hls', hF]
      rw [if_neg hsv]
      simp [e2]
    · simp [hx, nrm_zero]
    · simp only [hx, sub_self, nrm_zero, mul_zero]; exact le_rfl
    · simp only [hx, sub_self, nrm_zero, mul_zero]; exact nrm_nonneg _
    · simp only
      split_ifs <;> simp
  · obtain ⟨hacc, hneg⟩ := gn_full_step h hr hσ hx hmin
    have hd : gnDir s.grad dx = dx := by
      rw [gnDir, if_neg]
      rw [h3, h1]
      exact not_le.2 hneg
    have harm : armijoLS a.f s.grad dx s.x trajLinear = .ok ⟨s.x + dx, 1, f (s.x + dx)⟩ := by
      show (armijo _ _ _ _ _ _ _).map _ = _
      unfold armijo
      have hg : ¬ ¬ s.grad ⬝ᵥ dx ≤ 0 := by rw [not_not, h3, h1]; exact hneg.le
      rw [if_neg hg]
      simp only [startVal, hf, armijoDefault, armijoLoop, trajLinear, one_smul]
      rw [if_pos (by rw [h3, h1]; exact hacc)]
      rfl
    have hls' : a.ls a.f s.grad (gnDir s.grad dx) s.x a.T = .ok ⟨s.x + dx, 1, f (s.x + dx)⟩ := by rw [hls, hT, hd]; exact harm
    have hlt : nrm (f (s.x + dx)) < nrm (f s.x) := by linarith
    refine ⟨⟨s.x + dx, f (s.x + dx), J (s.x + dx), (J (s.x + dx))ᵀ *ᵥ f (s.x + dx), f (s.x + dx),
      if a.verbose ≥ 1 then nrm ((J (s.x + dx))ᵀ *ᵥ f (s.x + dx)) else s.normgrad, nrm (gnDir s.grad dx)⟩, false, ?_, ⟨rfl, rfl, rfl⟩, b1, b2, ?_, ?_, fun hc => by cases hc⟩
    · unfold gnStep
      have hinc : ¬ nrm (f (s.x + dx)) ≥ nrm s.fe := by rw [h1]; exact not_le.2 hlt
      simp only [he, hls', hF, hinc, decide_false]
      rw [if_neg hsv]
      rfl
    · simp only [hd]
      linarith
    · simp only
      split_ifs <;> simp

/-- The gradient tells the distance from the solution. -/
theorem gn_grad_error (h : ZeroResid f J xs r σ γ) {x : Pt m} (hr : nrm (x - xs) ≤ r) (hs : 4 * γ * nrm (x - xs) ≤ σ) :
    7 * σ ^ 2 * nrm (x - xs) ≤ 8 * nrm ((J x)ᵀ *ᵥ f x) := by
  have he0 : 0 ≤ nrm (x - xs) := nrm_nonneg _
  have hr0 : (0 : ℝ) ≤ r := he0.trans hr
  have hlin : nrm (f x - J x *ᵥ (x - xs)) ≤ γ / 2 * nrm (x - xs) ^ 2 := by
    have h1 := h.taylor x xs hr (by rw [sub_self, nrm_zero]; exact hr0)
    rw [h.zero, nrm_sub_comm xs x, ← nrm_neg] at h1
    have e : -(0 - f x - J x *ᵥ (xs - x)) = f x - J x *ᵥ (x - xs) := by
      rw [← neg_sub x xs, Matrix.mulVec_neg]; abel
    rwa [e] at h1
  have h1 : ((J x)ᵀ *ᵥ f x) ⬝ᵥ (x - xs) = nrm (J x *ᵥ (x - xs)) ^ 2 + (f x - J x *ᵥ (x - xs)) ⬝ᵥ (J x *ᵥ (x - xs)) := by
    rw [tmul_dot, sub_dotProduct, nrm_sq]; ring
  have h2 := dot_le_nrm ((J x)ᵀ *ᵥ f x) (x - xs)
  have h3 := dot_le_nrm (-(f x - J x *ᵥ (x - xs))) (J x *ᵥ (x - xs))
  rw [neg_dotProduct, nrm_neg] at h3
  have h4 := h.steep x hr (x - xs)
  set e := nrm (x - xs) with he
  set j := nrm (J x *ᵥ (x - xs)) with hj
  set b := nrm (f x - J x *ᵥ (x - xs)) with hb
  set G := nrm ((J x)ᵀ *ᵥ f x) with hG
  rcases he0.eq_or_lt with e0 | e0
  · rw [← e0, mul_zero]
    exact mul_nonneg (by norm_num) (nrm_nonneg _)
  have hσe : 0 < σ * e := mul_pos h.hσ e0
  have a1 : b ≤ σ * e / 8 := by nlinarith
  have a2 : j * (j - b) ≤ G * e := by nlinarith
  have a3 : σ * e * (7 / 8 * (σ * e)) ≤ j * (j - b) := by
    apply mul_le_mul h4 (by linarith) (by positivity) (hσe.le.trans h4)
  have a4 : e * (7 * σ ^ 2 * e) ≤ e * (8 * G) := by nlinarith
  exact le_of_mul_le_mul_left a4 e0

/-- **C170**: near a solution Gauss-Newton converges quadratically.  Started at a distance `e` from the solution with `e ≤ r` and `e ≤ σ/(4γ)`, it returns a point which is at
least eight times closer, and: the distance is at most a seventh of the tolerance for steps, or with `q = γ/(2σ)` it is at most `(q e)^(2^maxiter) / q`, or the
method reports that the gradient is small and the distance is at most `8/(7σ²)` times the tolerance for gradients. -/
theorem gn_quadratic {a : GNArgs m M} (ha : Usual a f J) (h : ZeroResid f J xs r σ γ) (hm : 0 < a.maxiter) {x0 : Pt m} (hr : nrm (x0 - xs) ≤ r)
    (hσ : 4 * γ * nrm (x0 - xs) ≤ σ) : ∃ x i, gaussNewton a x0 = .ok (x, i) ∧ 8 * nrm (x - xs) ≤ nrm (x0 - xs) ∧
      (7 * nrm (x - xs) ≤ a.tolDx ∨ γ / (2 * σ) * nrm (x - xs) ≤ (γ / (2 * σ) * nrm (x0 - xs)) ^ 2 ^ a.maxiter.toNat ∨
        i = 0 ∧ 7 * σ ^ 2 * nrm (x - xs) ≤ 8 * max (a.tol * nrm ((J x0)ᵀ *ᵥ f x0)) (1 / 10 ^ 14)) := by
  have hσ0 := h.hσ
  have hγ0 := h.hγ
  set q := γ / (2 * σ) with hq
  have hq0 : 0 < q := by positivity
  change ∃ x i, _ ∧ _ ∧ (_ ∨ _ ∨ _ ∧ _ ≤ 8 * gnTol a.tol (nrm ((J x0)ᵀ *ᵥ f x0)))
  set tol := gnTol a.tol (nrm ((J x0)ᵀ *ᵥ f x0)) with htol
  have hsq : ∀ {u v : ℝ}, 2 * σ * u ≤ γ * v ^ 2 → q * u ≤ (q * v) ^ 2 := by
    intro u v huv
    rw [mul_pow, hq, div_mul_eq_mul_div, div_pow, div_mul_eq_mul_div, div_le_div_iff₀ (by positivity) (by positivity)]
    nlinarith [mul_le_mul_of_nonneg_left huv (by positivity : 0 ≤ γ * (2 * σ))]
  -- the invariant after `n` passes
  have hstep : ∀ (n : ℕ) (s : GNState m M), AtPoint f J s → nrm (s.x - xs) ≤ nrm (x0 - xs) → q * nrm (s.x - xs) ≤ (q * nrm (x0 - xs)) ^ 2 ^ n →
      7 * σ ^ 2 * nrm (s.x - xs) ≤ 8 * s.normgrad → ∃ s' inc, gnStep a s = .ok (s', inc) ∧ AtPoint f J s' ∧ 8 * nrm (s'.x - xs) ≤ nrm (x0 - xs) ∧
        q * nrm (s'.x - xs) ≤ (q * nrm (x0 - xs)) ^ 2 ^ (n + 1) ∧ 7 * σ ^ 2 * nrm (s'.x - xs) ≤ 8 * s'.normgrad ∧ 7 * nrm (s'.x - xs) ≤ s'.normdx ∧
        (inc = true → s'.x = xs) := by
    intro n s hs hle hn hg
    obtain ⟨s', inc, g1, g2, g3, g4, g5, g6, g7⟩ := gnStep_quadratic ha h hs (hle.trans hr)
      ((mul_le_mul_of_nonneg_left hle (by positivity)).trans hσ)
    have h0 := nrm_nonneg (s'.x - xs)
    have hle' : nrm (s'.x - xs) ≤ nrm (s.x - xs) := by linarith
    refine ⟨s', inc, g1, g2, by linarith, ?_, ?_, g5, g7⟩
    · calc q * nrm (s'.x - xs) ≤ (q * nrm (s.x - xs)) ^ 2 := hsq g3
        _ ≤ ((q * nrm (x0 - xs)) ^ 2 ^ n) ^ 2 := pow_le_pow_left₀ (mul_nonneg hq0.le (nrm_nonneg _)) hn 2
        _ = _ := by rw [← pow_mul, pow_succ]
    · rcases g6 with g6 | g6
      · have hnear : nrm (s'.x - xs) ≤ nrm (x0 - xs) := hle'.trans hle
        have := gn_grad_error h (hnear.trans hr) ((mul_le_mul_of_nonneg_left hnear (by positivity)).trans hσ)
        rwa [g6, g2.2.2, g2.1]
      · rw [g6]
        exact (mul_le_mul_of_nonneg_left hle' (by positivity)).trans hg
  have hloop : ∀ (k n : ℕ) (s : GNState m M), AtPoint f J s → nrm (s.x - xs) ≤ nrm (x0 - xs) → q * nrm (s.x - xs) ≤ (q * nrm (x0 - xs)) ^ 2 ^ n →
      7 * σ ^ 2 * nrm (s.x - xs) ≤ 8 * s.normgrad → ∃ s' l, gnLoop a tol k s = .ok (s', l) ∧ 8 * nrm (s'.x - xs) ≤ nrm (x0 - xs) ∧
        7 * σ ^ 2 * nrm (s'.x - xs) ≤ 8 * s'.normgrad ∧
        (7 * nrm (s'.x - xs) ≤ a.tolDx ∨ q * nrm (s'.x - xs) ≤ (q * nrm (x0 - xs)) ^ 2 ^ (n + k + 1) ∨ s'.normgrad ≤ tol) := by
    intro k
    induction k with
    | zero =>
      intro n s hs hle hn hg
      obtain ⟨s', inc, g1, g2, g3, g4, g5, g6, g7⟩ := hstep n s hs hle hn hg
      exact ⟨s', true, by rw [gnLoop, g1], g3, g5, Or.inr (Or.inl g4)⟩
    | succ k ih =>
      intro n s hs hle hn hg
      obtain ⟨s', inc, g1, g2, g3, g4, g5, g6, g7⟩ := hstep n s hs hle hn hg
      rw [gnLoop, g1]
      simp only
      by_cases c1 : s'.normgrad < tol
      · exact ⟨s', false, by rw [if_pos c1], g3, g5, Or.inr (Or.inr c1.le)⟩
      by_cases c2 : s'.normdx < a.tolDx
      · exact ⟨s', false, by rw [if_neg c1, if_pos c2], g3, g5, Or.inl (by linarith)⟩
      by_cases c3 : inc = true
      · refine ⟨s', false, by rw [if_neg c1, if_neg c2, if_pos c3], g3, g5, Or.inr (Or.inl ?_)⟩
        rw [g7 c3, sub_self, nrm_zero, mul_zero]
        exact pow_nonneg (mul_nonneg hq0.le (nrm_nonneg _)) _
      rw [if_neg c1, if_neg c2, if_neg c3]
      obtain ⟨t, l, k1, k2, k3, k4⟩ := ih (n + 1) s' g2 (by linarith [nrm_nonneg (s'.x - xs)]) g4 g5
      refine ⟨t, l, k1, k2, k3, ?_⟩
      rwa [show n + (k + 1) + 1 = n + 1 + k + 1 by ring]
  obtain ⟨hf, hF, -, -, -⟩ := id ha
  have hst : gnStart a x0 = .ok ⟨x0, f x0, J x0, (J x0)ᵀ *ᵥ f x0, f x0, nrm ((J x0)ᵀ *ᵥ f x0), 1⟩ := by
    unfold gnStart
    simp only [hf, hF]
  obtain ⟨s', l, k1, k2, k3, k6⟩ := hloop (a.maxiter.toNat - 1) 0 ⟨x0, f x0, J x0, (J x0)ᵀ *ᵥ f x0, f x0, nrm ((J x0)ᵀ *ᵥ f x0), 1⟩ ⟨rfl, rfl, rfl⟩ le_rfl
    (by simp) (gn_grad_error h hr hσ)
  obtain ⟨i, -, hi⟩ := gn_info_total k1
  refine ⟨s'.x, i, ?_, k2, ?_⟩
  · unfold gaussNewton
    rw [if_neg (by omega), hst]
    simp only
    rw [← htol, k1]
    simp only [hi]
    rfl
  · rcases k6 with k6 | k6 | k6
    · exact Or.inl k6
    · refine Or.inr (Or.inl ?_)
      rwa [show 0 + (a.maxiter.toNat - 1) + 1 = a.maxiter.toNat by omega] at k6
    · refine Or.inr (Or.inr ⟨?_, by linarith⟩)
      unfold gnInfo at hi
      rw [if_pos k6] at hi
      exact (Except.ok.inj hi).symm

/-- The equation `x² = 1` near its solution `1`. -/
theorem squareResid : ZeroResid (m := 1) (M := 1) (fun x => fun _ => x 0 ^ 2 - 1) (fun x => !![2 * x 0]) (fun _ => 1) (1 / 2) 1 2 := by
  have hn : ∀ v : Pt 1, nrm v = |v 0| := fun v => by simp [nrm, dotProduct, Real.sqrt_mul_self_eq_abs]
  refine ⟨by funext i; norm_num, one_pos, two_pos, fun x y _ _ => ?_, fun x hx v => ?_, fun x hx => ?_⟩
  · rw [hn, hn]
    simp [mulVec, dotProduct, sq_abs]
    rw [show y 0 ^ 2 - x 0 ^ 2 - 2 * x 0 * (y 0 - x 0) = (y 0 - x 0) ^ 2 by ring, abs_of_nonneg (sq_nonneg _)]
  · rw [hn] at hx
    rw [hn, hn]
    simp [mulVec, dotProduct] at hx ⊢
    have : 1 ≤ 2 * |x 0| := by
      rw [abs_le] at hx
      rw [abs_of_nonneg (by linarith [hx.1])]; linarith [hx.1]
    exact le_mul_of_one_le_left (abs_nonneg (v 0)) this
  · rw [hn] at hx ⊢
    simp at hx ⊢
    rw [abs_le] at hx ⊢
    constructor <;> nlinarith [hx.1, hx.2]

/-- Five passes for `x² = 1` from a start within `1/8` of the solution leave an error of at most `8⁻³²`, unless a tolerance stopped the method. -/
example (s : GNSolver 1 1) (hs : LsqSolver s) (x0 : Pt 1) (h0 : nrm (x0 - fun _ => 1) ≤ 1 / 8) :
    ∃ x i, gaussNewton ⟨fun x => .ok fun _ => x 0 ^ 2 - 1, fun x => .ok !![2 * x 0], 1 / 10 ^ 5, 0, 5, armijoLS, 0, trajLinear, s⟩ x0 = .ok (x, i) ∧
      (nrm (x - fun _ => 1) ≤ (1 / 8) ^ 32 ∨ i = 0) := by
  obtain ⟨x, i, h1, h2, h3⟩ := gn_quadratic (a := ⟨fun x => .ok fun _ => x 0 ^ 2 - 1, fun x => .ok !![2 * x 0], 1 / 10 ^ 5, 0, 5, armijoLS, 0, trajLinear, s⟩)
    ⟨rfl, rfl, rfl, rfl, hs⟩ squareResid (by norm_num) (x0 := x0) (h0.trans (by norm_num)) (by linarith)
  refine ⟨x, i, h1, ?_⟩
  rcases h3 with h3 | h3 | h3
  · simp only at h3
    exact Or.inl ((by linarith : nrm (x - fun _ => 1) ≤ 0).trans (by positivity))
  · refine Or.inl ?_
    have e : (2 : ℝ) / (2 * 1) = 1 := by norm_num
    rw [e, one_mul, one_mul] at h3
    exact h3.trans (pow_le_pow_left₀ (nrm_nonneg _) h0 _)
  · exact Or.inr h3.1

example : ∃ s : GNSolver 1 1, LsqSolver s := exists_lsqSolver 1 1

end Verif.Opt
