import Verif.Opt.GNProps
import Verif.Misc.LstsqExists

/-!
# What Gauss-Newton with its line search achieves (gn.py)

Two questions about `gauss_newton` with the default line search. On a linear least-squares problem: is the
minimizer found? On any problem: how small does the slope get in a run that uses up its iterations?

The sufficient decrease condition of the line search compares the *norm* of the residual with the slope of
*half its square* (gn.py 70 with gn.py 182). So it is not invariant under a change of units, and no step at
all is accepted on a linear problem once the residual norm is `10^4`.
-/

namespace Verif.Opt

open Verif.Domain Verif.Lip Matrix

variable {m M : ℕ}

/-! ### Specification -/

/-- What `lstsq` promises: a minimizer of `‖J p + v‖`, with the singular values of `J` (at least one). -/
def LsqSolver (solver : GNSolver m M) : Prop := ∀ J v, ∃ dx sv, solver J v = .ok (some dx, sv) ∧ sv ≠ [] ∧
  ∀ y, nrm (J *ᵥ dx + v) ≤ nrm (J *ᵥ y + v)

/-- The linear least-squares problem with matrix `A` and offset `b`, and the defaults for everything but the
tolerances, the number of iterations and the verbosity. -/
def LinearProblem (a : GNArgs m M) (A : Matrix (Fin M) (Fin m) ℝ) (b : Pt M) : Prop :=
  (a.f = fun x => .ok (A *ᵥ x + b)) ∧ (a.F = fun _ => .ok A) ∧ a.ls = armijoLS ∧ a.T = trajLinear ∧ LsqSolver a.solver

/-- The point minimizes the norm of the residual. -/
def LsqMin (A : Matrix (Fin M) (Fin m) ℝ) (b : Pt M) (x : Pt m) : Prop := ∀ y, nrm (A *ᵥ x + b) ≤ nrm (A *ᵥ y + b)

/-! ### Normal equations -/

theorem nrm_sq_add (v w : Pt M) : nrm (v + w) ^ 2 = nrm v ^ 2 + 2 * (v ⬝ᵥ w) + nrm w ^ 2 := by
  rw [nrm_sq, nrm_sq, nrm_sq]
  simp only [dotProduct_add, add_dotProduct]
  rw [dotProduct_comm w v]
  ring

theorem eq_zero_of_nrm_sq (v : Pt M) (h : nrm v ^ 2 = 0) : v = 0 := by
  rw [nrm_sq] at h
  exact dotProduct_self_eq_zero.1 h

theorem tmul_dot (A : Matrix (Fin M) (Fin m) ℝ) (v : Pt M) (y : Pt m) : (Aᵀ *ᵥ v) ⬝ᵥ y = v ⬝ᵥ (A *ᵥ y) := by
  rw [mulVec_transpose, dotProduct_mulVec]

theorem lsq_normal (A : Matrix (Fin M) (Fin m) ℝ) (b : Pt M) (x : Pt m) : LsqMin A b x ↔ Aᵀ *ᵥ (A *ᵥ x + b) = 0 := by
  have exp : ∀ y, A *ᵥ y + b = (A *ᵥ x + b) + A *ᵥ (y - x) := by
    intro y
    rw [Matrix.mulVec_sub]
    abel
  constructor
  · intro h
    set r := A *ᵥ x + b with hr
    set g := Aᵀ *ᵥ r with hg
    by_contra hne
    have hgg : 0 < g ⬝ᵥ g := lt_of_le_of_ne (dotProduct_self_nonneg' g) fun e => hne (dotProduct_self_eq_zero.1 e.symm)
    -- a small step along the gradient
    set q := nrm (A *ᵥ g) ^ 2 with hq
    have hq0 : 0 ≤ q := sq_nonneg _
    set t : ℝ := (g ⬝ᵥ g) / (q + 1) with ht
    have ht0 : 0 < t := div_pos hgg (by linarith)
    have h1 := h (x - t • g)
    rw [exp (x - t • g), ← hr] at h1
    have e1 : A *ᵥ (x - t • g - x) = -t • (A *ᵥ g) := by
      rw [show x - t • g - x = (-t) • g by rw [neg_smul]; abel, mulVec_smul]
    rw [e1] at h1
    have h2 := pow_le_pow_left₀ (nrm_nonneg _) h1 2
    rw [nrm_sq_add r, Geo.nrm_smul, mul_pow, sq_abs, dotProduct_smul, smul_eq_mul, ← tmul_dot, ← hg] at h2
    have h3 : t * (q + 1) = g ⬝ᵥ g := by rw [ht]; field_simp
    nlinarith
  · intro h y
    rw [exp y]
    have h1 : nrm ((A *ᵥ x + b) + A *ᵥ (y - x)) ^ 2 = nrm (A *ᵥ x + b) ^ 2 + nrm (A *ᵥ (y - x)) ^ 2 := by
      rw [nrm_sq_add, ← tmul_dot, h, zero_dotProduct]
      ring
    exact (sq_le_sq₀ (nrm_nonneg _) (nrm_nonneg _)).1 (by rw [h1]; nlinarith [sq_nonneg (nrm (A *ᵥ (y - x)))])

/-- A solver meeting the specification exists. -/
theorem exists_lsqSolver (m M : ℕ) : ∃ s : GNSolver m M, LsqSolver s := by
  have key : ∀ (J : Matrix (Fin M) (Fin m) ℝ) (v : Pt M), ∃ dx : Pt m, ∀ y, nrm (J *ᵥ dx + v) ≤ nrm (J *ᵥ y + v) := by
    intro J v
    obtain ⟨a, ha⟩ := Misc.exists_lstsq_min (List.ofFn fun i : Fin M => (J i, -v i))
    refine ⟨a, fun y => ?_⟩
    have e : ∀ z, Misc.resid (List.ofFn fun i : Fin M => (J i, -v i)) z = nrm (J *ᵥ z + v) ^ 2 := by
      intro z
      unfold Misc.resid
      rw [List.map_ofFn, List.sum_ofFn, nrm_sq, dotProduct]
      refine Finset.sum_congr rfl fun i _ => ?_
      simp only [Function.comp_apply, Pi.add_apply, mulVec]
      ring
    have h := ha y
    rw [e, e] at h
    exact (sq_le_sq₀ (nrm_nonneg _) (nrm_nonneg _)).1 h
  choose dx hdx using key
  exact ⟨fun J v => .ok (some (dx J v), [1]), fun J v => ⟨dx J v, [1], rfl, by simp, hdx J v⟩⟩

/-! ### The line search on a linear problem -/

/-- Along the direction to the minimizer: the slope and the squared residual norm. -/
theorem linear_along (A : Matrix (Fin M) (Fin m) ℝ) (v : Pt M) (p : Pt m) (hp : Aᵀ *ᵥ (A *ᵥ p + v) = 0) (t : ℝ) :
    (Aᵀ *ᵥ v) ⬝ᵥ p = -nrm (A *ᵥ p) ^ 2 ∧ nrm (v + t • (A *ᵥ p)) ^ 2 = nrm v ^ 2 - (2 * t - t ^ 2) * nrm (A *ᵥ p) ^ 2 := by
  have h1 : (A *ᵥ p + v) ⬝ᵥ (A *ᵥ p) = 0 := by rw [← tmul_dot, hp, zero_dotProduct]
  have h2 : v ⬝ᵥ (A *ᵥ p) = -nrm (A *ᵥ p) ^ 2 := by
    rw [add_dotProduct, ← nrm_sq] at h1
    linarith
  refine ⟨by rw [tmul_dot, h2], ?_⟩
  rw [nrm_sq_add, Geo.nrm_smul, mul_pow, sq_abs, dotProduct_smul, smul_eq_mul, h2]
  ring

/-- **C162**: on a linear problem, in the direction of the minimizer, a step `0 < t ≤ 1` satisfies the
sufficient decrease condition exactly if the residual norm `n` at the start is below `10^4` and the step is short enough:
`t (1 - (d/10^4)^2) < 2 (1 - n/10^4)`, with `d` the distance of the residual from the optimal one. -/
theorem linear_accept_iff (A : Matrix (Fin M) (Fin m) ℝ) (v : Pt M) (p : Pt m) (hp : Aᵀ *ᵥ (A *ᵥ p + v) = 0) (hA : A *ᵥ p ≠ 0)
    (t : ℝ) (ht : 0 < t) (ht1 : t ≤ 1) :
    nrm (v + t • (A *ᵥ p)) < nrm v + t * (1 / 10000) * ((Aᵀ *ᵥ v) ⬝ᵥ p) ↔
      nrm v < 10000 ∧ t * (1 - (nrm (A *ᵥ p) / 10000) ^ 2) < 2 * (1 - nrm v / 10000) := by
  obtain ⟨hs, hn⟩ := linear_along A v p hp t
  obtain ⟨-, hn1⟩ := linear_along A v p hp 1
  rw [hs]
  set d := nrm (A *ᵥ p) with hd
  set n := nrm v with hnn
  set w := nrm (v + t • (A *ᵥ p)) with hw
  have hd0 : 0 < d := lt_of_le_of_ne (nrm_nonneg _) fun e => hA (eq_zero_of_nrm_sq _ (by rw [← hd, ← e]; norm_num))
  have hn0 : 0 ≤ n := nrm_nonneg _
  have hw0 : 0 ≤ w := nrm_nonneg _
  have hdn : d ≤ n := by
    refine (sq_le_sq₀ hd0.le hn0).1 ?_
    have := sq_nonneg (nrm (v + (1 : ℝ) • (A *ᵥ p)))
    nlinarith
  have hdd : 0 < d ^ 2 := by positivity
  have htd : 0 < t * d ^ 2 := by positivity
  constructor
  · intro h
    have hb : 0 ≤ n + t * (1 / 10000) * -d ^ 2 := hw0.trans h.le
    have h2 : w ^ 2 < (n + t * (1 / 10000) * -d ^ 2) ^ 2 := pow_lt_pow_left₀ h hw0 (by norm_num)
    rw [hn] at h2
    have h3 : t * d ^ 2 * (t * (1 - (d / 10000) ^ 2)) < t * d ^ 2 * (2 * (1 - n / 10000)) := by nlinarith
    have h4 := lt_of_mul_lt_mul_left h3 htd.le
    refine ⟨?_, h4⟩
    by_contra hge
    push Not at hge
    -- `w ≥ n - t d²/n ≥ n - t d²/10^4`
    have h5 : t * (1 - (d / 10000) ^ 2) < 0 ∨ t * (1 - (d / 10000) ^ 2) < 2 * (1 - n / 10000) := Or.inr h4
    have hnpos : 0 < n := by linarith
    have h6 : (n - t * d ^ 2 / n) ^ 2 ≤ w ^ 2 := by
      rw [hn]
      have h7 : (t * d ^ 2 / n) ^ 2 ≤ t ^ 2 * d ^ 2 := by
        rw [div_pow, div_le_iff₀ (by positivity)]
        have : d ^ 2 ≤ n ^ 2 := pow_le_pow_left₀ hd0.le hdn 2
        have h8 : 0 ≤ t ^ 2 * d ^ 2 := by positivity
        nlinarith
      have h8 : n * (t * d ^ 2 / n) = t * d ^ 2 := by field_simp
      nlinarith
    have h7 : t * d ^ 2 / n ≤ t * d ^ 2 / 10000 := div_le_div_of_nonneg_left htd.le (by norm_num) hge
    have h8 : n - t * d ^ 2 / n ≤ w := le_of_sq_le_sq' h6 hw0
    linarith
  · rintro ⟨hlt, h⟩
    have hb : 0 ≤ n + t * (1 / 10000) * -d ^ 2 := by
      have : d * d ≤ 10000 * n := by nlinarith
      nlinarith
    refine lt_of_pow_lt_pow_left₀ 2 hb ?_
    rw [hn]
    have h3 := mul_lt_mul_of_pos_left h htd
    nlinarith
where
  le_of_sq_le_sq' {a b : ℝ} (h : a ^ 2 ≤ b ^ 2) (hb : 0 ≤ b) : a ≤ b := abs_le_of_sq_le_sq' h hb |>.2

/-! ### The method on a linear problem -/

/-- The state belongs to its point. -/
def LinSt (A : Matrix (Fin M) (Fin m) ℝ) (b : Pt M) (s : GNState m M) : Prop :=
  s.fe = A *ᵥ s.x + b ∧ s.Fe = A ∧ s.grad = Aᵀ *ᵥ s.fe

theorem gnStep_linear {a : GNArgs m M} {A : Matrix (Fin M) (Fin m) ℝ} {b : Pt M} (h : LinearProblem a A b) {s : GNState m M}
    (hs : LinSt A b s) : ∃ s' inc r dx, gnStep a s = .ok (s', inc) ∧ LinSt A b s' ∧ Aᵀ *ᵥ (A *ᵥ dx + s.fe) = 0 ∧
      armijoLS a.f s.grad (gnDir s.grad dx) s.x trajLinear = .ok r ∧ (inc = true ↔ nrm s.fe ≤ nrm r.fx) ∧
      s'.x = (if inc then s.x else r.x) ∧ s'.normdx = nrm (gnDir s.grad dx) := by
  obtain ⟨hf, hF, hls, hT, hsol⟩ := h
  obtain ⟨h1, h2, h3⟩ := hs
  obtain ⟨dx, sv, he, hsv, hmin⟩ := hsol s.Fe s.fe
  have hdx : Aᵀ *ᵥ (A *ᵥ dx + s.fe) = 0 := by
    rw [h2] at hmin
    exact (lsq_normal A s.fe dx).1 hmin
  have hfx : a.f s.x = .ok s.fe := by rw [hf, h1]
  obtain ⟨⟨r, tr⟩, hr⟩ := (armijo_ok_iff armijoDefault a.f s.grad (gnDir s.grad dx) s.x trajLinear none
    (by rw [hf]; intro x e hx; cases hx) (by intro x p t e hx; cases hx)).2 ⟨gnDir_descent _ _, fun _ => ⟨s.fe, hfx⟩⟩
  have hr' : armijoLS a.f s.grad (gnDir s.grad dx) s.x trajLinear = .ok r := by
    show (armijo _ _ _ _ _ _ _).map _ = _
    rw [hr]
    rfl
  have hgood := armijoLS_good a.f trajLinear _ _ _ _ hr'
  have hstay := fun hle => armijoLS_stays a.f trajLinear _ _ _ _ s.fe hr' hfx hle
  rw [hf] at hgood
  have hrx : r.fx = A *ᵥ r.x + b := (Except.ok.inj hgood).symm
  have hls' : a.ls a.f s.grad (gnDir s.grad dx) s.x a.T = .ok r := by rw [hls, hT]; exact hr'
  by_cases hinc : nrm s.fe ≤ nrm r.fx
  · refine ⟨⟨s.x, s.fe, A, Aᵀ *ᵥ r.fx, r.fx, if a.verbose ≥ 1 then nrm (Aᵀ *ᵥ r.fx) else s.normgrad, nrm (gnDir s.grad dx)⟩, true, r, dx,
      ?_, ⟨h1, rfl, by simp only; rw [hstay hinc]⟩, hdx, hr', by simp [hinc], rfl, rfl⟩
    unfold gnStep
    simp only [he, hls', hF]
    rw [if_neg hsv]
    simp [hinc]
  · refine ⟨⟨r.x, r.fx, A, Aᵀ *ᵥ r.fx, r.fx, if a.verbose ≥ 1 then nrm (Aᵀ *ᵥ r.fx) else s.normgrad, nrm (gnDir s.grad dx)⟩, false, r, dx,
      ?_, ⟨hrx, rfl, rfl⟩, hdx, hr', by simp [hinc], rfl, rfl⟩
    unfold gnStep
    simp only [he, hls', hF]
    rw [if_neg hsv]
    simp [hinc]

theorem gnLoop_total {a : GNArgs m M} {tol : ℝ} (P : GNState m M → Prop)
    (hstep : ∀ s, P s → ∃ s' inc, gnStep a s = .ok (s', inc) ∧ P s') :
    ∀ (k : ℕ) (s : GNState m M), (∃ s' inc, gnStep a s = .ok (s', inc) ∧ P s') → ∃ s' l, gnLoop a tol k s = .ok (s', l) ∧ P s' := by
  intro k
  induction k with
  | zero =>
    rintro s ⟨s', inc, h1, h2⟩
    exact ⟨s', true, by rw [gnLoop, h1], h2⟩
  | succ k ih =>
    rintro s ⟨s', inc, h1, h2⟩
    rw [gnLoop, h1]
    simp only
    by_cases c1 : s'.normgrad < tol
    · exact ⟨s', false, by rw [if_pos c1], h2⟩
    by_cases c2 : s'.normdx < a.tolDx
    · exact ⟨s', false, by rw [if_neg c1, if_pos c2], h2⟩
    by_cases c3 : inc = true
    · exact ⟨s', false, by rw [if_neg c1, if_neg c2, if_pos c3], h2⟩
    rw [if_neg c1, if_neg c2, if_neg c3]
    exact ih s' (hstep s' h2)

theorem gn_run {a : GNArgs m M} {A : Matrix (Fin M) (Fin m) ℝ} {b : Pt M} (h : LinearProblem a A b) (hm : 0 < a.maxiter) (x0 : Pt m)
    (P : GNState m M → Prop) (hfirst : ∀ s, LinSt A b s → s.x = x0 → ∃ s' inc, gnStep a s = .ok (s', inc) ∧ P s')
    (hstep : ∀ s, P s → ∃ s' inc, gnStep a s = .ok (s', inc) ∧ P s') :
    ∃ s i, gaussNewton a x0 = .ok (s.x, i) ∧ P s := by
  obtain ⟨hf, hF, hls, hT, hsol⟩ := h
  unfold gaussNewton
  rw [if_neg (by omega)]
  have hst : gnStart a x0 = .ok ⟨x0, A *ᵥ x0 + b, A, Aᵀ *ᵥ (A *ᵥ x0 + b), A *ᵥ x0 + b, nrm (Aᵀ *ᵥ (A *ᵥ x0 + b)), 1⟩ := by
    unfold gnStart
    simp only [hf, hF]
  rw [hst]
  simp only
  obtain ⟨s', l, h1, h2⟩ := gnLoop_total (tol := gnTol a.tol (nrm (Aᵀ *ᵥ (A *ᵥ x0 + b)))) P hstep (a.maxiter.toNat - 1) _
    (hfirst ⟨x0, A *ᵥ x0 + b, A, Aᵀ *ᵥ (A *ᵥ x0 + b), A *ᵥ x0 + b, nrm (Aᵀ *ᵥ (A *ᵥ x0 + b)), 1⟩ ⟨rfl, rfl, rfl⟩ rfl)
  obtain ⟨i, -, hi⟩ := gn_info_total h1
  refine ⟨s', i, ?_, h2⟩
  rw [h1]
  simp only [hi]
  rfl

theorem gnDir_linear {A : Matrix (Fin M) (Fin m) ℝ} {v : Pt M} {dx : Pt m} (hdx : Aᵀ *ᵥ (A *ᵥ dx + v) = 0) :
    (A *ᵥ dx = 0 → Aᵀ *ᵥ v = 0 ∧ gnDir (Aᵀ *ᵥ v) dx = 0) ∧ (A *ᵥ dx ≠ 0 → gnDir (Aᵀ *ᵥ v) dx = dx) := by
  obtain ⟨hs, -⟩ := linear_along A v dx hdx 1
  constructor
  · intro h0
    rw [h0, zero_add] at hdx
    refine ⟨hdx, ?_⟩
    rw [hdx, gnDir, if_pos (by simp), neg_zero]
  · intro h0
    rw [gnDir, if_neg]
    rw [hs]
    have : 0 < nrm (A *ᵥ dx) ^ 2 := lt_of_le_of_ne (sq_nonneg _) fun e => h0 (eq_zero_of_nrm_sq _ e.symm)
    linarith

/-- A line search along the zero direction stays. -/
theorem armijo_zero_dir {f : Resid m M} {g x : Pt m} {v : Pt M} (hv : f x = .ok v) {r : LS m M}
    (h : armijoLS f g 0 x trajLinear = .ok r) : r.x = x ∧ r.fx = v := by
  rcases armijo_default f g 0 x trajLinear v hv r h with ⟨j, -, -, ⟨hT, hf, hlt⟩, -⟩ | ⟨-, h1, h2, -⟩
  · exfalso
    have e : r.x = x := by
      have := Except.ok.inj hT
      simpa using this.symm
    rw [e, hv] at hf
    rw [← Except.ok.inj hf] at hlt
    simp at hlt
  · exact ⟨h1, h2⟩

/-- At a minimizer nothing moves. -/
theorem gnStep_opt {a : GNArgs m M} {A : Matrix (Fin M) (Fin m) ℝ} {b : Pt M} (h : LinearProblem a A b) {s : GNState m M}
    (hs : LinSt A b s) (ho : LsqMin A b s.x) : ∃ s' inc, gnStep a s = .ok (s', inc) ∧ LinSt A b s' ∧ s'.x = s.x := by
  obtain ⟨s', inc, r, dx, h1, h2, h3, h4, h5, h6, -⟩ := gnStep_linear h hs
  refine ⟨s', inc, h1, h2, ?_⟩
  have hg : s.grad = 0 := by rw [hs.2.2, hs.1]; exact (lsq_normal A b s.x).1 ho
  have hd : gnDir s.grad dx = 0 := by rw [hg, gnDir, if_pos (by simp), neg_zero]
  rw [hd] at h4
  have := (armijo_zero_dir (show a.f s.x = .ok s.fe by rw [h.1, hs.1]) h4).1
  rw [h6, this]
  simp

/-- **C162**: on a linear least-squares problem Gauss-Newton returns a minimizer, after one step, if the residual
norms at the start and at the minimizer add up to less than `10^4`. This holds for every tolerance, number of
iterations (at least one), verbosity and matrix, of full rank or not. Missing: residuals that are not small in this
sense, for which it is false (`gn_linear_stuck`). -/
theorem gn_linear_partial (a : GNArgs m M) (A : Matrix (Fin M) (Fin m) ℝ) (b : Pt M) (h : LinearProblem a A b) (hm : 0 < a.maxiter)
    (x0 xs : Pt m) (hxs : LsqMin A b xs) (hsmall : nrm (A *ᵥ x0 + b) + nrm (A *ᵥ xs + b) < 10000) :
    ∃ x i, gaussNewton a x0 = .ok (x, i) ∧ LsqMin A b x := by
  obtain ⟨s, i, h1, h2⟩ := gn_run h hm x0 (fun s => LinSt A b s ∧ LsqMin A b s.x) (fun s hs hx => by
      obtain ⟨s', inc, r, dx, g1, g2, g3, g4, g5, g6, -⟩ := gnStep_linear h hs
      refine ⟨s', inc, g1, g2, ?_⟩
      have hfx : a.f s.x = .ok s.fe := by rw [h.1, hs.1]
      obtain ⟨d0, d1⟩ := gnDir_linear g3
      rw [hs.2.2] at g4
      by_cases hA : A *ᵥ dx = 0
      · rw [(d0 hA).2] at g4
        have := (armijo_zero_dir hfx g4).1
        have hx' : s'.x = s.x := by rw [g6, this]; simp
        rw [hx', lsq_normal, ← hs.1]
        exact (d0 hA).1
      · rw [d1 hA] at g4
        -- the minimizer along the direction
        have hmin : LsqMin A b (s.x + dx) := by
          rw [lsq_normal, Matrix.mulVec_add A, show A *ᵥ s.x + A *ᵥ dx + b = A *ᵥ dx + s.fe by rw [hs.1]; abel]
          exact g3
        have hn : nrm (s.fe + (1 : ℝ) • (A *ᵥ dx)) = nrm (A *ᵥ xs + b) := by
          have e : s.fe + (1 : ℝ) • (A *ᵥ dx) = A *ᵥ (s.x + dx) + b := by rw [one_smul, Matrix.mulVec_add, hs.1]; abel
          rw [e]
          exact le_antisymm (hmin xs) (hxs _)
        have hacc := (linear_accept_iff A s.fe dx g3 hA 1 one_pos le_rfl).2 (by
          obtain ⟨-, hq⟩ := linear_along A s.fe dx g3 1
          have hfe : nrm s.fe = nrm (A *ᵥ x0 + b) := by rw [hs.1, hx]
          rw [← hfe] at hsmall
          rw [hn] at hq
          have p1 := nrm_nonneg (A *ᵥ xs + b)
          have p2 := nrm_nonneg s.fe
          have hlt : nrm (A *ᵥ xs + b) < nrm s.fe := by
            refine lt_of_pow_lt_pow_left₀ 2 p2 ?_
            have : 0 < nrm (A *ᵥ dx) ^ 2 := lt_of_le_of_ne (sq_nonneg _) fun e => hA (eq_zero_of_nrm_sq _ e.symm)
            nlinarith
          refine ⟨by linarith, ?_⟩
          have hd : nrm (A *ᵥ dx) ^ 2 = nrm s.fe ^ 2 - nrm (A *ᵥ xs + b) ^ 2 := by linarith
          rw [div_pow, hd]
          nlinarith)
        have hfull : SuffDecr a.f trajLinear dx s.x (nrm s.fe) (1 / 10000) ((Aᵀ *ᵥ s.fe) ⬝ᵥ dx) ((1 / 2) ^ 0) (s.x + dx) (A *ᵥ (s.x + dx) + b) := by
          refine ⟨by simp [trajLinear], by rw [h.1], ?_⟩
          rw [show A *ᵥ (s.x + dx) + b = s.fe + (1 : ℝ) • (A *ᵥ dx) by rw [one_smul, Matrix.mulVec_add, hs.1]; abel]
          simpa using hacc
        rcases armijo_default a.f _ dx s.x trajLinear s.fe hfx r g4 with ⟨j, -, hal, ⟨hT, hf, hlt⟩, hno⟩ | ⟨-, -, -, hno⟩
        · have hj : j = 0 := by
            by_contra hj
            exact hno 0 (Nat.pos_of_ne_zero hj) _ _ hfull
          have hrx : r.x = s.x + dx := by
            rw [hal, hj] at hT
            have := Except.ok.inj hT
            simpa using this.symm
          have hinc : inc = false := by
            by_contra hc
            have := g5.1 (by simpa using hc)
            have hneg := (linear_along A s.fe dx g3 1).1
            have hα : 0 ≤ r.alpha := by rw [hal]; positivity
            rw [hneg] at hlt
            nlinarith [sq_nonneg (nrm (A *ᵥ dx)), mul_nonneg hα (sq_nonneg (nrm (A *ᵥ dx)))]
          rw [g6, hinc]
          simp only [Bool.false_eq_true, if_false]
          rw [hrx]
          exact hmin
        · exact absurd hfull (hno 0 (by norm_num) _ _))
    (fun s hs => by
      obtain ⟨s', inc, g1, g2, g3⟩ := gnStep_opt h hs.1 hs.2
      exact ⟨s', inc, g1, g2, by rw [g3]; exact hs.2⟩)
  exact ⟨s.x, i, h1, h2.2⟩

/-- **C162 is false for large residuals**: if the residual norm at the start is `10^4` or more, Gauss-Newton returns the
starting point, on every linear least-squares problem and for all options. -/
theorem gn_linear_stuck (a : GNArgs m M) (A : Matrix (Fin M) (Fin m) ℝ) (b : Pt M) (h : LinearProblem a A b) (hm : 0 < a.maxiter)
    (x0 : Pt m) (hbig : 10000 ≤ nrm (A *ᵥ x0 + b)) : ∃ i, gaussNewton a x0 = .ok (x0, i) := by
  have hstep : ∀ s, LinSt A b s ∧ s.x = x0 → ∃ s' inc, gnStep a s = .ok (s', inc) ∧ (LinSt A b s' ∧ s'.x = x0) := by
    rintro s ⟨hs, hx⟩
    obtain ⟨s', inc, r, dx, g1, g2, g3, g4, g5, g6, -⟩ := gnStep_linear h hs
    refine ⟨s', inc, g1, g2, ?_⟩
    have hfx : a.f s.x = .ok s.fe := by rw [h.1, hs.1]
    obtain ⟨d0, d1⟩ := gnDir_linear g3
    rw [hs.2.2] at g4
    have hrx : r.x = s.x := by
      by_cases hA : A *ᵥ dx = 0
      · rw [(d0 hA).2] at g4
        exact (armijo_zero_dir hfx g4).1
      · rw [d1 hA] at g4
        rcases armijo_default a.f _ dx s.x trajLinear s.fe hfx r g4 with ⟨j, -, hal, ⟨hT, hf, hlt⟩, hno⟩ | ⟨-, h1, -, -⟩
        · exfalso
          have hr : r.x = s.x + r.alpha • dx := (Except.ok.inj hT).symm
          rw [h.1, hr] at hf
          have hf' : s.fe + r.alpha • (A *ᵥ dx) = r.fx := by
            rw [← Except.ok.inj hf, Matrix.mulVec_add, Matrix.mulVec_smul, hs.1]
            abel
          rw [← hf'] at hlt
          have hp : 0 < r.alpha := by rw [hal]; positivity
          have h1 : r.alpha ≤ 1 := by rw [hal]; exact pow_le_one₀ (by norm_num) (by norm_num)
          have := ((linear_accept_iff A s.fe dx g3 hA r.alpha hp h1).1 hlt).1
          rw [hs.1, hx] at this
          linarith
        · exact h1
    rw [g6, hrx, hx]
    simp
  obtain ⟨s, i, h1, h2⟩ := gn_run h hm x0 (fun s => LinSt A b s ∧ s.x = x0) (fun s hs hx => hstep s ⟨hs, hx⟩) hstep
  exact ⟨i, by rw [h1, h2.2]⟩

/-- The problem `f(x) = c x` on the line. -/
noncomputable def lineArgs (c : ℝ) (s : GNSolver 1 1) : GNArgs 1 1 where
  f := fun x => .ok ((c • (1 : Matrix (Fin 1) (Fin 1) ℝ)) *ᵥ x + 0)
  F := fun _ => .ok (c • 1)
  tol := 1 / 10 ^ 12
  tolDx := 1 / 10 ^ 12
  maxiter := 100
  ls := armijoLS
  verbose := 0
  T := trajLinear
  solver := s

theorem lineArgs_linear (c : ℝ) {s : GNSolver 1 1} (hs : LsqSolver s) : LinearProblem (lineArgs c s) (c • 1) 0 := ⟨rfl, rfl, rfl, rfl, hs⟩

/-- **C162 is false**: the equation `c x = 0`, solved from `x = 1`. Measured in one unit (`c = 1`) the solution is found;
measured in another (`c = 10^4`) the starting point is returned. -/
theorem gn_units_false (s : GNSolver 1 1) (hs : LsqSolver s) :
    (∃ i, gaussNewton (lineArgs 1 s) (p1 1) = .ok (p1 0, i)) ∧ (∃ i, gaussNewton (lineArgs 10000 s) (p1 1) = .ok (p1 1, i)) := by
  have hone : ∀ c t : ℝ, nrm ((c • (1 : Matrix (Fin 1) (Fin 1) ℝ)) *ᵥ p1 t + 0) = |c * t| := by
    intro c t
    rw [add_zero, smul_mulVec, one_mulVec, ← nrm_p1]
    rfl
  constructor
  · have hz : LsqMin (m := 1) ((1 : ℝ) • (1 : Matrix (Fin 1) (Fin 1) ℝ)) 0 (p1 0) := by
      intro y
      rw [hone]
      simpa using nrm_nonneg _
    obtain ⟨x, i, h1, h2⟩ := gn_linear_partial _ _ _ (lineArgs_linear 1 hs) (by simp [lineArgs]) (p1 1) (p1 0) hz
      (by rw [hone, hone]; norm_num)
    refine ⟨i, ?_⟩
    rw [h1]
    have hx : x = p1 (x 0) := by
      funext j
      rw [Fin.eq_zero j]
      rfl
    have := h2 (p1 0)
    rw [hx, hone, hone] at this
    have h0 : x 0 = 0 := by
      have h3 : |x 0| ≤ 0 := by simpa using this
      exact abs_eq_zero.1 (le_antisymm h3 (abs_nonneg _))
    rw [hx, h0]
  · exact gn_linear_stuck _ _ _ (lineArgs_linear 10000 hs) (by simp [lineArgs]) (p1 1) (by rw [hone]; norm_num)

/-- A solver that meets the hypothesis exists. -/
example : ∃ s : GNSolver 1 1, LsqSolver s ∧ ∃ i, gaussNewton (lineArgs 10000 s) (p1 1) = .ok (p1 1, i) :=
  (exists_lsqSolver 1 1).imp fun s hs => ⟨hs, (gn_units_false s hs).2⟩

/-! ### Any problem: how small the slope gets -/

/-- The states of the passes of the loop that did not stop because the residual did not decrease. -/
inductive GNReach (a : GNArgs m M) : GNState m M → GNState m M → Prop
  | refl (s) : GNReach a s s
  | step {s s' t} : gnStep a s = .ok (s', false) → GNReach a s' t → GNReach a s t

/-- The slope of `½‖f‖²` at the state, along the direction the solver and gn.py 201-203 choose. -/
def GNSlope (a : GNArgs m M) (t : GNState m M) (σ : ℝ) : Prop :=
  ∃ dx sv, a.solver t.Fe t.fe = .ok (some dx, sv) ∧ σ = t.grad ⬝ᵥ gnDir t.grad dx

/-- One accepted pass decreases the residual norm in proportion to the slope. -/
theorem gnStep_decrease {a : GNArgs m M} (hls : a.ls = armijoLS) {s s' : GNState m M} (hi : GNInv a s) (h : gnStep a s = .ok (s', false)) :
    ∃ σ, GNSlope a s σ ∧ σ ≤ 0 ∧ nrm s'.fe < nrm s.fe + (1 / 2) ^ 39 * (1 / 10000) * σ := by
  unfold gnStep at h
  split at h
  · cases h
  · cases h
  · rename_i dx0 sv hs
    simp only at h
    split at h
    · cases h
    · rename_i r hr
      split at h
      · cases h
      · rename_i Fe hF
        split at h
        · cases h
        · simp only [Except.ok.injEq, Prod.mk.injEq] at h
          obtain ⟨h1, h2⟩ := h
          have hfe : s'.fe = r.fx := by rw [← h1]; simp only [h2]; simp
          refine ⟨_, ⟨dx0, sv, hs, rfl⟩, gnDir_descent _ _, ?_⟩
          rw [hfe]
          rw [hls] at hr
          have hd := gnDir_descent s.grad dx0
          rcases armijo_default a.f _ _ s.x a.T s.fe hi.1 r hr with ⟨j, hj, hal, ⟨hT, hf, hlt⟩, -⟩ | ⟨-, -, e, -⟩
          · refine lt_of_lt_of_le hlt ?_
            have : (1 / 2 : ℝ) ^ 39 ≤ r.alpha := by
              rw [hal]
              exact pow_le_pow_of_le_one (by norm_num) (by norm_num) (by omega)
            nlinarith
          · rw [e] at h2
            simp at h2

theorem gnLoop_slopes {a : GNArgs m M} (hls : a.ls = armijoLS) {tol B : ℝ} : ∀ (k : ℕ) (s s' : GNState m M), GNInv a s →
    gnLoop a tol k s = .ok (s', true) → (∀ t σ, GNReach a s t → GNSlope a t σ → B ≤ -σ) →
    k * ((1 / 2) ^ 39 * (1 / 10000) * B) ≤ nrm s.fe ∧ (0 < k → k * ((1 / 2) ^ 39 * (1 / 10000) * B) < nrm s.fe) := by
  intro k
  induction k with
  | zero =>
    intro s s' _ _ _
    simpa using nrm_nonneg _
  | succ k ih =>
    intro s s' hi h hB
    rw [gnLoop] at h
    split at h
    · cases h
    · rename_i s1 inc hst
      split at h
      · cases h
      split at h
      · cases h
      split at h
      · cases h
      · rename_i hinc
        have hinc' : inc = false := by simpa using hinc
        subst hinc'
        obtain ⟨σ, hσ, -, hlt⟩ := gnStep_decrease hls hi hst
        have hi1 := (gnStep_inv (by rw [hls]; exact armijoLS_good _ _) hi hst).1
        have h1 := (ih s1 s' hi1 h fun t σ ht => hB t σ (GNReach.step hst ht)).1
        have h2 := hB s σ (GNReach.refl s) hσ
        push_cast
        have : (1 / 2 : ℝ) ^ 39 * (1 / 10000) * B ≤ (1 / 2) ^ 39 * (1 / 10000) * -σ := mul_le_mul_of_nonneg_left h2 (by positivity)
        constructor
        · linarith
        · intro _
          linarith

/-- **C162**: a run that ends because the iterations are used up (status 2) has passed through a state whose slope is at
most `10^4 2^39 ‖f(x0)‖ / (maxiter - 1)` in size. No assumption on the residual, its Jacobian, the trajectory or the solver. -/
theorem gn_slope_rate (a : GNArgs m M) (hls : a.ls = armijoLS) (hm : 2 ≤ a.maxiter) (x0 x : Pt m) (h : gaussNewton a x0 = .ok (x, 2)) :
    ∃ s0 t σ, gnStart a x0 = .ok s0 ∧ GNReach a s0 t ∧ GNSlope a t σ ∧
      -σ ≤ 10000 * 2 ^ 39 * nrm s0.fe / ((a.maxiter : ℝ) - 1) := by
  unfold gaussNewton at h
  rw [if_neg (by omega)] at h
  split at h
  · cases h
  · rename_i s0 hs0
    split at h
    · cases h
    · rename_i s last hl
      have hlast : last = true := by
        by_contra hc
        have hc' : last = false := by simpa using hc
        subst hc'
        unfold gnInfo at h
        by_cases c1 : s.normgrad ≤ gnTol a.tol s0.normgrad
        · rw [if_pos c1] at h
          simp [Except.map] at h
        rw [if_neg c1] at h
        by_cases c2 : s.normdx ≤ a.tolDx
        · rw [if_pos c2] at h
          simp [Except.map] at h
        rw [if_neg c2, if_neg (by simp)] at h
        by_cases c3 : nrm s.fnew ≥ nrm s.fe
        · rw [if_pos c3] at h
          simp [Except.map] at h
        · rw [if_neg c3] at h
          simp [Except.map] at h
      subst hlast
      by_contra hno
      have hk : ((a.maxiter.toNat - 1 : ℕ) : ℝ) = (a.maxiter : ℝ) - 1 := by
        have e : ((a.maxiter.toNat - 1 : ℕ) : ℤ) = a.maxiter - 1 := by omega
        have := congrArg (fun z : ℤ => (z : ℝ)) e
        simpa using this
      have hpos : (0 : ℝ) < (a.maxiter : ℝ) - 1 := by
        have : (2 : ℝ) ≤ (a.maxiter : ℝ) := by exact_mod_cast hm
        linarith
      have hi : GNInv a s0 := by
        unfold gnStart at hs0
        split at hs0
        · cases hs0
        split at hs0
        · cases hs0
        cases hs0
        exact ⟨by assumption, by assumption⟩
      have := (gnLoop_slopes hls (B := 10000 * 2 ^ 39 * nrm s0.fe / ((a.maxiter : ℝ) - 1)) _ s0 s hi hl fun t σ ht hσ => by
        by_contra hc
        exact hno ⟨s0, t, σ, hs0, ht, hσ, (not_le.1 hc).le⟩).2 (by omega)
      rw [hk] at this
      have e : ((a.maxiter : ℝ) - 1) * ((1 / 2) ^ 39 * (1 / 10000) * (10000 * 2 ^ 39 * nrm s0.fe / ((a.maxiter : ℝ) - 1))) = nrm s0.fe := by
        field_simp
      rw [e] at this
      exact lt_irrefl _ this

/-- The stored gradient is the gradient of half the squared residual norm. -/
def GradInv (s : GNState m M) : Prop := s.grad = s.Feᵀ *ᵥ s.fe

theorem gnReach_inv {a : GNArgs m M} (hls : a.ls = armijoLS) {s t : GNState m M} (h : GNReach a s t) (hi : GNInv a s) (hg : GradInv s) :
    GNInv a t ∧ GradInv t ∧ nrm t.fe ≤ nrm s.fe := by
  induction h with
  | refl => exact ⟨hi, hg, le_rfl⟩
  | step hst _ ih =>
    have hi1 := gnStep_inv (by rw [hls]; exact armijoLS_good _ _) hi hst
    obtain ⟨dx, r, -, -, -, hfe, -, hgr, -, -⟩ := gnStep_ok hst
    obtain ⟨g1, g2, g3⟩ := ih hi1.1 (by
      simp only [Bool.false_eq_true, if_false] at hfe
      unfold GradInv
      rw [hgr, hfe])
    exact ⟨g1, g2, g3.trans hi1.2⟩

/-- **C162**: with a solver that solves the linearized problem and Jacobians bounded by `L` where the residual is no larger
than at the start, a run that uses up its iterations has passed through a point where the gradient of `½‖f‖²` satisfies
`‖g‖² ≤ L² 10^4 2^39 ‖f(x0)‖ / (maxiter - 1)`. -/
theorem gn_gradient_rate (a : GNArgs m M) (hls : a.ls = armijoLS) (hsol : LsqSolver a.solver) (hm : 2 ≤ a.maxiter) (x0 x : Pt m)
    (v0 : Pt M) (h0 : a.f x0 = .ok v0) (L : ℝ)
    (hL : ∀ y v J, a.f y = .ok v → nrm v ≤ nrm v0 → a.F y = .ok J → ∀ w, nrm (Jᵀ *ᵥ w) ≤ L * nrm w)
    (h : gaussNewton a x0 = .ok (x, 2)) :
    ∃ s0 t, gnStart a x0 = .ok s0 ∧ GNReach a s0 t ∧ a.f t.x = .ok t.fe ∧ a.F t.x = .ok t.Fe ∧
      nrm (t.Feᵀ *ᵥ t.fe) ^ 2 ≤ L ^ 2 * (10000 * 2 ^ 39 * nrm v0 / ((a.maxiter : ℝ) - 1)) := by
  obtain ⟨s0, t, σ, hs0, ht, ⟨dx, sv, hdx, rfl⟩, hle⟩ := gn_slope_rate a hls hm x0 x h
  have hi : GNInv a s0 ∧ GradInv s0 ∧ s0.fe = v0 := by
    unfold gnStart at hs0
    split at hs0
    · cases hs0
    split at hs0
    · cases hs0
    rename_i v hv _ _ _
    cases hs0
    refine ⟨⟨by assumption, by assumption⟩, rfl, ?_⟩
    rw [h0] at hv
    exact (Except.ok.inj hv).symm
  obtain ⟨g1, g2, g3⟩ := gnReach_inv hls ht hi.1 hi.2.1
  rw [hi.2.2] at hle g3
  refine ⟨s0, t, hs0, ht, g1.1, g1.2, ?_⟩
  obtain ⟨dx', sv', e, -, hmin⟩ := hsol t.Fe t.fe
  rw [hdx] at e
  obtain ⟨rfl, -⟩ : dx = dx' ∧ sv = sv' := by simpa using e
  have hn : t.Feᵀ *ᵥ (t.Fe *ᵥ dx + t.fe) = 0 := (lsq_normal _ _ _).1 hmin
  have hgr : t.Feᵀ *ᵥ t.fe = -(t.Feᵀ *ᵥ (t.Fe *ᵥ dx)) := by
    rw [Matrix.mulVec_add] at hn
    exact eq_neg_of_add_eq_zero_right hn
  obtain ⟨d0, d1⟩ := gnDir_linear hn
  have hslope : nrm (t.Fe *ᵥ dx) ^ 2 ≤ 10000 * 2 ^ 39 * nrm v0 / ((a.maxiter : ℝ) - 1) := by
    refine le_trans ?_ hle
    by_cases hz : t.Fe *ᵥ dx = 0
    · rw [hz, nrm_zero, g2, (d0 hz).1]
      norm_num
    · rw [g2, d1 hz, (linear_along _ _ _ hn 1).1, neg_neg]
  have hb := hL t.x t.fe t.Fe g1.1 g3 g1.2 (t.Fe *ᵥ dx)
  rw [hgr, nrm_neg]
  calc nrm (t.Feᵀ *ᵥ (t.Fe *ᵥ dx)) ^ 2 ≤ (L * nrm (t.Fe *ᵥ dx)) ^ 2 := pow_le_pow_left₀ (nrm_nonneg _) hb 2
    _ = L ^ 2 * nrm (t.Fe *ᵥ dx) ^ 2 := by ring
    _ ≤ _ := mul_le_mul_of_nonneg_left hslope (sq_nonneg _)

/-- The hypotheses of `gn_slope_rate` are met by the quiet run of `gn_quiet_false`, which ends with status 2. -/
example : (halfArgs 0).ls = armijoLS ∧ 2 ≤ (halfArgs 0).maxiter ∧ gaussNewton (halfArgs 0) (p1 1) = .ok (p1 (1 / 4), 2) :=
  ⟨rfl, le_rfl, gn_quiet_false.2⟩

end Verif.Opt
