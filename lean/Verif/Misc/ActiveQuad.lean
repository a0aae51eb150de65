import Verif.Misc.ActiveExact
import Verif.Misc.ActiveLimit
import Verif.Misc.QuadLin

/-!
# C187: `fit_function` converges with the number of gradients

`ActiveSubspace.fit_function(fun, N)` (subspace.py 341-353) for any function whose gradient is continuous, on a domain with the default quadrature rule: as `N` grows the
matrix `C` converges to the integral of the outer products of the gradient over the domain, the squared singular values to its eigenvalues, and the leading directions to
its leading eigenspaces.
-/

namespace Verif.Misc

open Verif Verif.Domain Verif.Lip Matrix MeasureTheory Filter Topology

variable {m n : ℕ} {svd : SvdFn m} {eigh : EighAll} {D : QDom} {l h : Fin m → ℝ} {g : Pt m → Pt m} {r : ℕ → ASState m}

/-- The domains considered: full-dimensional bounding box `[l, h]`, no equality constraints, not the single point of `PointDomain`, no truncated normal, bounded, and a
boundary of measure zero. -/
structure Regular (D : QDom) (l h : Fin m → ℝ) : Prop where
  box : QBox D l h
  trunc : D.truncNormal = false
  point : D.isPoint = false
  bounded : D.isUnbounded = false
  noEq : D.hasEq = false
  meas : MeasurableSet (D.region m)
  null : volume (frontier (D.region m)) = 0

/-- The set the domain describes. -/
def domSet (D : QDom) (l h : Fin m → ℝ) : Set (Fin m → ℝ) := Set.Icc l h ∩ D.region m

/-- `r N` is the state after `fit_function(fun, N)` for all large `N`; the rounds of the loop choosing the quadrature rule may depend on `N`. -/
def ReportedQ (svd : SvdFn m) (eigh : EighAll) (D : QDom) (g : Pt m → Pt m) (r : ℕ → ASState m) : Prop :=
  ∀ᶠ N in atTop, ∃ fuel, asFitFunction svd (domainRule m eigh D fuel) (fun X => .ok (X.map g)) N = .ok (r N)

theorem fitFunction_inv {fuel N : ℕ} {s : ASState m} (hs : asFitFunction svd (domainRule m eigh D fuel) (fun X => .ok (X.map g)) N = .ok s) :
    ∃ X w, quadRule eigh D N .auto fuel = some (.ok (some (X, w))) ∧ asFit svd ((X.map (toPt m)).map g) (some w) = .ok s := by
  rw [asFitFunction, domainRule] at hs
  cases hq : quadRule eigh D N .auto fuel with
  | none => rw [hq] at hs; cases hs
  | some R =>
    cases R with
    | error e => rw [hq] at hs; cases hs
    | ok o =>
      cases o with
      | none => rw [hq] at hs; cases hs
      | some p => rw [hq] at hs; exact ⟨p.1, p.2, rfl, hs⟩

theorem regular_gauss (hD : Regular D l h) (hm : 1 ≤ m) {N : ℕ} (hN : 2 ^ m ≤ N) : quadMethod D N .auto = .gauss := by
  have hlen : D.lo.length = m := by rw [hD.box.lo, List.length_ofFn]
  exact (quadMethod_auto hD.bounded hD.noEq (by rw [hlen]; exact hm)).2 (by rw [hlen]; exact hN)

theorem fitFunction_fit (he : ∀ n, EighSpec (eigh n)) (hD : Regular D l h) (hm : 1 ≤ m) {fuel N : ℕ} (hN : 2 ^ m ≤ N) {s : ASState m}
    (hs : asFitFunction svd (domainRule m eigh D fuel) (fun X => .ok (X.map g)) N = .ok s) :
    ∃ X w, quadRule eigh D N .auto fuel = some (.ok (some (X, w))) ∧ w.length = ((X.map (toPt m)).map g).length ∧
      asFit svd ((X.map (toPt m)).map g) (some w) = .ok s := by
  obtain ⟨X, w, hr, hfit⟩ := fitFunction_inv hs
  obtain ⟨hl, -, -, -⟩ := quadRule_sound he hD.box hm (Nat.one_le_two_pow.trans hN) hD.trunc hD.point (regular_gauss hD hm hN) hr
  exact ⟨X, w, hr, by rw [List.length_map, List.length_map, hl], hfit⟩

theorem sum_outer (X : List Vec) (w : List ℝ) (g : Pt m → Pt m) (i j : Fin m) :
    ((w.zip ((X.map (toPt m)).map g)).map (fun p => p.1 • vecMulVec p.2 p.2)).sum i j = applyRule X w fun v => g (toPt m v) i * g (toPt m v) j := by
  rw [applyRule_list, List.map_map, List.zip_map_right, List.map_map]
  generalize w.zip X = L
  induction L with
  | nil => simp
  | cons p L ih =>
    simp only [List.map_cons, List.sum_cons, Matrix.add_apply, ih]
    congr 1

theorem outer_integrable (hg : ContinuousOn g (Set.Icc l h)) (a b : Fin m) :
    Integrable (fun x => g x a * g x b) (volume.restrict (domSet D l h)) := by
  have hc : ContinuousOn (fun x => g x a * g x b) (Set.Icc l h) :=
    ((continuous_apply a).comp_continuousOn hg).mul ((continuous_apply b).comp_continuousOn hg)
  exact (hc.integrableOn_compact isCompact_Icc).mono_set Set.inter_subset_left

/-- **`fit_function` returns** for all large `N` on a domain with an interior. -/
theorem fitFunction_returns (svd : SvdFn m) (he : ∀ n, EighSpec (eigh n)) (hD : Regular D l h) (hm : 1 ≤ m)
    (hint : (interior (D.region m) ∩ interior (Set.Icc l h)).Nonempty) (g : Pt m → Pt m) :
    ∃ N0, ∀ N ≥ N0, ∃ fuel0 s, ∀ fuel ≥ fuel0, asFitFunction svd (domainRule m eigh D fuel) (fun X => .ok (X.map g)) N = .ok s := by
  have hlen : D.lo.length = m := by rw [hD.box.lo, List.length_ofFn]
  obtain ⟨n0, hn0⟩ := eventually_atTop.1 (quadPts_many he hD.box hm hint 0)
  refine ⟨(max (n0 + 1) 2) ^ m, fun N hN => ?_⟩
  have hN2 : 2 ^ m ≤ N := (Nat.pow_le_pow_left (le_max_right _ _) m).trans hN
  have hmg := regular_gauss hD hm hN2
  obtain ⟨fuel0, X, w, hX⟩ := quadRule_terminates he hD.box hm hD.trunc hD.point N .auto hmg hint
  obtain ⟨hl, -, -, hw⟩ := quadRule_sound he hD.box hm (Nat.one_le_two_pow.trans hN2) hD.trunc hD.point hmg (hX fuel0 le_rfl)
  have hne : X ≠ [] := by
    obtain ⟨R, hR, rfl, -⟩ := quadRule_gauss_inv hD.trunc hD.point hmg (hX fuel0 le_rfl)
    obtain ⟨q', h1, h2, -, -⟩ := quadGauss_spec hR
    have hq := le_quadQ hm hN
    rw [hlen] at h1
    have hp := hn0 (q' - 1) (by omega)
    rw [show q' - 1 + 1 = q' by omega, ← h2] at hp
    intro e
    rw [List.map_eq_nil_iff] at e
    rw [e] at hp
    exact absurd hp (lt_irrefl _)
  obtain ⟨s, hs⟩ := (asFit_ok_iff svd ((X.map (toPt m)).map g) w).2
    ⟨by simpa using hne, hw, Or.inl (by rw [List.length_map, List.length_map, hl])⟩
  refine ⟨fuel0, s, fun fuel hf => ?_⟩
  rw [asFitFunction, domainRule, hX fuel hf]
  exact hs

/-- Hence there is a sequence of reported states. -/
theorem exists_reportedQ (svd : SvdFn m) (he : ∀ n, EighSpec (eigh n)) (hD : Regular D l h) (hm : 1 ≤ m)
    (hint : (interior (D.region m) ∩ interior (Set.Icc l h)).Nonempty) (g : Pt m → Pt m) : ∃ r, ReportedQ svd eigh D g r := by
  obtain ⟨N0, hN0⟩ := fitFunction_returns svd he hD hm hint g
  choose f s hs using hN0
  refine ⟨fun N => s (max N0 N) (le_max_left _ _), eventually_atTop.2 ⟨N0, fun N hN => ⟨f N hN, ?_⟩⟩⟩
  have := hs N hN (f N hN) le_rfl
  simpa only [max_eq_right hN] using this

/-- **The matrix converges** to the integral over the domain. -/
theorem fitFunction_C_limit (hsvd : SvdSpec svd) (he : ∀ n, EighSpec (eigh n)) (hD : Regular D l h) (hm : 1 ≤ m) (hg : ContinuousOn g (Set.Icc l h))
    (hr : ReportedQ svd eigh D g r) (i j : Fin m) : Tendsto (fun N => (r N).C i j) atTop (𝓝 (∫ x in Set.Icc l h ∩ D.region m, g x i * g x j)) := by
  rw [Metric.tendsto_atTop']
  intro ε hε
  have hF : ContinuousOn (fun x : Fin m → ℝ => (fun v : Vec => g (toPt m v) i * g (toPt m v) j) (List.ofFn x)) (Set.Icc l h) := by
    simp only [toPt_ofFn]
    exact ((continuous_apply i).comp_continuousOn hg).mul ((continuous_apply j).comp_continuousOn hg)
  obtain ⟨N0, hN0⟩ := quadRule_converges he hD.box hm hD.trunc hD.point hD.bounded hD.noEq .auto (Or.inl rfl) hD.meas hD.null
    (fun v : Vec => g (toPt m v) i * g (toPt m v) j) hF ε hε
  obtain ⟨N1, hN1⟩ := eventually_atTop.1 hr
  refine ⟨max (max N0 N1) (2 ^ m), fun N hN => ?_⟩
  have a0 : N0 ≤ N := (le_max_left _ _).trans ((le_max_left _ _).trans hN.le)
  have a1 : N1 ≤ N := (le_max_right _ _).trans ((le_max_left _ _).trans hN.le)
  have a2 : 2 ^ m ≤ N := (le_max_right _ _).trans hN.le
  obtain ⟨fuel, hs⟩ := hN1 N a1
  obtain ⟨X, w, hq, hl, hfit⟩ := fitFunction_fit he hD hm a2 hs
  have := hN0 N a0 fuel X w hq
  simp only [toPt_ofFn] at this
  rw [Real.dist_eq, asFit_C svd hsvd _ w hl (r N) hfit, sum_outer]
  exact this

theorem fitFunction_gap (hsvd : SvdSpec svd) (he : ∀ n, EighSpec (eigh n)) (hD : Regular D l h) (hm : 1 ≤ m) (hg : ContinuousOn g (Set.Icc l h))
    (hr : ReportedQ svd eigh D g r) : Tendsto (fun N => gapC (volume.restrict (domSet D l h)) g (r N).C) atTop (𝓝 0) := by
  have : Tendsto (fun N => ∑ a, ∑ b, |(r N).C a b - meanOuter (volume.restrict (domSet D l h)) g a b|) atTop (𝓝 (∑ _a : Fin m, ∑ _b : Fin m, (0 : ℝ))) := by
    refine tendsto_finset_sum _ fun a _ => tendsto_finset_sum _ fun b _ => ?_
    have h1 := (fitFunction_C_limit hsvd he hD hm hg hr a b).sub_const (meanOuter (volume.restrict (domSet D l h)) g a b)
    have e : (∫ x in Set.Icc l h ∩ D.region m, g x a * g x b) - meanOuter (volume.restrict (domSet D l h)) g a b = 0 := sub_self _
    rw [e] at h1
    have := h1.abs
    rwa [abs_zero] at this
  simpa [gapC] using this

/-- **The directions become optimal**: up to `ε` the first `n` reported directions capture at least as much of the integrated gradient as any `n` orthonormal directions. -/
theorem fitFunction_limit_partial (hsvd : SvdSpec svd) (he : ∀ n, EighSpec (eigh n)) (hD : Regular D l h) (hm : 1 ≤ m) (hg : ContinuousOn g (Set.Icc l h))
    (hr : ReportedQ svd eigh D g r) (hz : ∀ᶠ N in atTop, ∀ k, ucol (r N).U k ≠ 0) (hn : n ≤ m) {ε : ℝ} (hε : 0 < ε) :
    ∀ᶠ N in atTop, ∀ Q : Matrix (Fin m) (Fin n) ℝ, Qᵀ * Q = 1 →
      ∫ x in domSet D l h, (Qᵀ *ᵥ g x) ⬝ᵥ (Qᵀ *ᵥ g x) ≤
        (∫ x in domSet D l h, ((headCols (r N).U hn)ᵀ *ᵥ g x) ⬝ᵥ ((headCols (r N).U hn)ᵀ *ᵥ g x)) + ε := by
  have hlim := (fitFunction_gap hsvd he hD hm hg hr).const_mul (n : ℝ) |>.const_mul 2
  rw [mul_zero, mul_zero] at hlim
  filter_upwards [hlim.eventually_lt_const hε, eventually_ge_atTop (2 ^ m), hz, hr] with N h1 hN hzN ⟨fuel, hs⟩ Q hQ
  obtain ⟨X, w, hq, hl, hfit⟩ := fitFunction_fit he hD hm hN hs
  have := asFit_stable (outer_integrable (D := D) hg) svd hsvd _ w hl (r N) hfit hzN hn Q hQ
  rw [meanCaptured, meanCaptured] at this
  linarith

/-- **The squared singular values converge** to the eigenvalues of the integral, whatever the directions. -/
theorem fitFunction_values_limit (hsvd : SvdSpec svd) (he : ∀ n, EighSpec (eigh n)) (hD : Regular D l h) (hm : 1 ≤ m) (hg : ContinuousOn g (Set.Icc l h))
    (hr : ReportedQ svd eigh D g r) (V : Matrix (Fin m) (Fin m) ℝ) (hV : Vᵀ * V = 1) (a : Fin m → ℝ) (ha : Antitone a)
    (hC : ∀ i j, ∫ x in domSet D l h, g x i * g x j = (V * Matrix.diagonal a * Vᵀ) i j) (k : Fin m) :
    Tendsto (fun N => (r N).s.getD k 0 ^ 2) atTop (𝓝 (a k)) := by
  have hM : meanOuter (volume.restrict (domSet D l h)) g = V * Matrix.diagonal a * Vᵀ := by
    ext i j; exact hC i j
  have hgap := fitFunction_gap hsvd he hD hm hg hr
  have hsum : ∀ n (hn : n ≤ m), Tendsto (fun N => ∑ j : Fin n, (r N).s.getD (Fin.castLE hn j : Fin m) 0 ^ 2) atTop (𝓝 (∑ j : Fin n, a (Fin.castLE hn j))) := by
    intro n hn
    rw [tendsto_iff_norm_sub_tendsto_zero]
    have hlim := hgap.const_mul (n : ℝ)
    rw [mul_zero] at hlim
    refine squeeze_zero' (Eventually.of_forall fun _ => norm_nonneg _) ?_ hlim
    filter_upwards [hr] with N ⟨fuel, hs⟩
    obtain ⟨X, w, hq, hfit⟩ := fitFunction_inv hs
    obtain ⟨ps, _, _, _, e⟩ := asFit_ok svd _ _ (r N) hfit
    obtain ⟨hl, hnn, hant⟩ := asRaw_s svd hsvd ps
    have n1 : ∀ k : Fin m, 0 ≤ (asRaw svd ps).s.getD k 0 := fun k => by
      rw [List.getD_eq_getElem _ _ (by rw [hl]; exact k.2)]; exact hnn _ (List.getElem_mem _)
    have := head_diff (asRaw svd ps).U V (hsvd ps.length (asCols ps)).orthU hV (fun i => (asRaw svd ps).s.getD i 0 ^ 2) a
      (fun i j hij => pow_le_pow_left₀ (n1 j) (hant hij) 2) ha hn
    rw [← hM] at this
    rw [Real.norm_eq_abs, e]
    exact this
  have h1 := hsum (k + 1) k.2
  have h0 := hsum k k.2.le
  have hd := h1.sub h0
  have e1 : ∀ f : Fin m → ℝ, (∑ j : Fin ((k : ℕ) + 1), f (Fin.castLE k.2 j)) - ∑ j : Fin (k : ℕ), f (Fin.castLE k.2.le j) = f k := by
    intro f
    rw [Fin.sum_univ_castSucc]
    have : (Fin.castLE k.2 (Fin.last (k : ℕ))) = k := Fin.ext rfl
    rw [this]
    exact add_sub_cancel_left _ _
  rw [e1 a] at hd
  refine hd.congr fun N => ?_
  exact e1 fun j => (r N).s.getD j 0 ^ 2

/-- **The reported subspace converges** if the integral has a gap after its `n`-th eigenvalue (and no direction is reported as zero). -/
theorem fitFunction_subspace_limit_partial (hsvd : SvdSpec svd) (he : ∀ n, EighSpec (eigh n)) (hD : Regular D l h) (hm : 1 ≤ m)
    (hg : ContinuousOn g (Set.Icc l h)) (hr : ReportedQ svd eigh D g r) (hz : ∀ᶠ N in atTop, ∀ k, ucol (r N).U k ≠ 0)
    (V : Matrix (Fin m) (Fin m) ℝ) (hV : Vᵀ * V = 1) (a : Fin m → ℝ) (ha : Antitone a)
    (hC : ∀ i j, ∫ x in domSet D l h, g x i * g x j = (V * Matrix.diagonal a * Vᵀ) i j) (hn : n ≤ m)
    (hgap : ∀ i k : Fin m, (i : ℕ) < n → n ≤ (k : ℕ) → a k < a i) (i j : Fin m) :
    Tendsto (fun N => (headCols (r N).U hn * (headCols (r N).U hn)ᵀ) i j) atTop (𝓝 ((headCols V hn * (headCols V hn)ᵀ) i j)) := by
  have hM : meanOuter (volume.restrict (domSet D l h)) g = V * Matrix.diagonal a * Vᵀ := by
    ext i j; exact hC i j
  have hlim := (fitFunction_gap hsvd he hD hm hg hr).const_mul (n : ℝ) |>.const_mul 2
  rw [mul_zero, mul_zero] at hlim
  refine proj_limit hV ha hM hn hgap hlim ?_ i j
  filter_upwards [eventually_ge_atTop (2 ^ m), hz, hr] with N hN hzN ⟨fuel, hs⟩
  obtain ⟨X, w, hq, hl, hfit⟩ := fitFunction_fit he hD hm hN hs
  have hi := outer_integrable (D := D) hg
  obtain ⟨o1, _, _⟩ := asFit_optimal_partial svd hsvd _ w hl (r N) hfit hzN hn
  have hst := asFit_stable hi svd hsvd _ w hl (r N) hfit hzN hn (headCols V hn) (headCols_orth hV hn)
  rw [meanCaptured_eq hi, meanCaptured_eq hi] at hst
  exact ⟨o1, by linarith⟩

/-! ### Domains that meet the hypotheses -/

/-- Bounded linear-quadratic domains without equality constraints that contain a point. -/
theorem linQ_regular (nnls : NNLS) {TOL : ℝ} (hT : 0 < TOL) {d : LQ} (hd : d.WF) (hn : d.n = m) (hE : d.Aeq = []) (hlh : ∀ i, l i < h i) (x0 : Fin m → ℝ)
    (hx0 : x0 ∈ Set.Icc l h) (hh : d.Holds (List.ofFn x0)) (sample vol) :
    Regular (linQ nnls TOL d (List.ofFn l) (List.ofFn h) sample vol) l h ∧
      (interior ((linQ nnls TOL d (List.ofFn l) (List.ofFn h) sample vol).region m) ∩ interior (Set.Icc l h)).Nonempty := by
  set D := linQ nnls TOL d (List.ofFn l) (List.ofFn h) sample vol with hDdef
  have hreg : D.region m = {x | d.inAll TOL (List.ofFn x)} := by
    ext x
    exact mem_linQ hn
  have hq : D.hasEq = false := by simp [hDdef, linQ, hE]
  have hclosed : IsClosed (D.region m) := by rw [hreg]; exact inAll_closed hd hn hE TOL
  refine ⟨⟨⟨rfl, rfl, fun i => (hlh i).le⟩, rfl, rfl, rfl, hq, hclosed.measurableSet, ?_⟩, ?_⟩
  · rw [hreg]
    exact (inAll_convexSet d TOL).addHaar_frontier volume
  · have h1 : ∀ᶠ x in 𝓝 x0, x ∈ interior (D.region m) := by
      rw [eventually_mem_set, interior_mem_nhds, hreg]
      exact inAll_nhds hd hn hE hT hh
    have h2 : x0 ∈ closure (interior (Set.Icc l h)) := by
      rw [← Set.pi_univ_Icc, interior_pi_set Set.finite_univ, closure_pi_set]
      simp only [interior_Icc, closure_Ioo (hlh _).ne]
      rw [Set.pi_univ_Icc]
      exact hx0
    obtain ⟨x, hx⟩ := (mem_closure_iff_frequently.1 h2).and_eventually h1 |>.exists
    exact ⟨x, hx.2, hx.1⟩

/-- Any function with a continuous gradient on the triangle `x, y ≥ 0, x + y ≤ 1`: there are reported states, and their matrices converge. -/
example (nnls : NNLS) (sample vol) (g : Pt 2 → Pt 2) (hg : Continuous g) : ∃ (svd : SvdFn 2) (eigh : EighAll) (r : ℕ → ASState 2),
    ReportedQ svd eigh (linQ nnls (1 / 1000000) triangleLQ (List.ofFn fun _ : Fin 2 => 0) (List.ofFn fun _ : Fin 2 => 1) sample vol) g r ∧
    ∀ i j, ∃ c, Tendsto (fun N => (r N).C i j) atTop (𝓝 c) := by
  obtain ⟨svd, hsvd⟩ := exists_svd 2
  choose eigh he using fun n => exists_eigh (n + 1)
  obtain ⟨h1, h2⟩ := linQ_regular (m := 2) (l := fun _ => 0) (h := fun _ => 1) nnls (TOL := 1 / 1000000) (by norm_num) triangleLQ_wf rfl rfl
    (fun _ => by norm_num) (fun _ => 1 / 4) ⟨fun _ => by norm_num, fun _ => by norm_num⟩ triangleLQ_holds sample vol
  obtain ⟨r, hr⟩ := exists_reportedQ svd he h1 (by norm_num) h2 g
  exact ⟨svd, eigh, r, hr, fun i j => ⟨_, fitFunction_C_limit hsvd he h1 (by norm_num) hg.continuousOn hr i j⟩⟩

/-! ### Where the claim fails -/

/-- **C187**, refuted: for `f(x) = x²` on `[-1, 1]` and any number of gradients from two on the projection onto the one reported direction is zero, though the only
direction there is spans the active subspace. -/
theorem fitFunction_subspace_false (svd : SvdFn 1) (hsvd : SvdSpec svd) (eigh : EighAll) (he : ∀ n, EighSpec (eigh n)) :
    ∃ r : ℕ → ASState 1, ReportedQ svd eigh segQ (fun x _ => 2 * x 0) r ∧
      Tendsto (fun N => (headCols (r N).U (le_refl 1) * (headCols (r N).U (le_refl 1))ᵀ) 0 0) atTop (𝓝 0) ∧
      Tendsto (fun N => (r N).C 0 0) atTop (𝓝 (8 / 3)) := by
  have h1 : ∀ N, ∃ s, 2 ≤ N → asFitFunction svd (domainRule 1 eigh segQ 0) (fun X => .ok (X.map fun x _ => 2 * x 0)) N = .ok s ∧ s.U = 0 ∧ s.C 0 0 = 8 / 3 := by
    intro N
    by_cases hN : 2 ≤ N
    · obtain ⟨s, hs⟩ := (asFitFunction_square_false svd hsvd eigh he 0 N hN).2
      exact ⟨s, fun _ => hs⟩
    · obtain ⟨s, hs⟩ := (asFitFunction_square_false svd hsvd eigh he 0 2 le_rfl).2
      exact ⟨s, fun h => absurd h hN⟩
  choose r hr using h1
  refine ⟨r, eventually_atTop.2 ⟨2, fun N hN => ⟨0, (hr N hN).1⟩⟩, ?_, ?_⟩
  · refine tendsto_const_nhds.congr' ?_
    filter_upwards [eventually_ge_atTop 2] with N hN
    rw [(hr N hN).2.1]
    have : headCols (0 : Matrix (Fin 1) (Fin 1) ℝ) (le_refl 1) = 0 := by ext i j; rfl
    rw [this]
    simp
  · refine tendsto_const_nhds.congr' ?_
    filter_upwards [eventually_ge_atTop 2] with N hN
    rw [(hr N hN).2.2]

/-- **C187**, refuted for the average of the documentation: for `f(x) = x²` on `[-1, 1]` the matrix is the integral `8/3` of `4 x²` and not its average `4/3`. -/
theorem fitFunction_average_false (svd : SvdFn 1) (hsvd : SvdSpec svd) (eigh : EighAll) (he : ∀ n, EighSpec (eigh n)) (fuel N : ℕ) (hN : 2 ≤ N) :
    ∃ s, asFitFunction svd (domainRule 1 eigh segQ fuel) (fun X => .ok (X.map fun x _ => 2 * x 0)) N = .ok s ∧
      s.C 0 0 = 2 * ((1 / 2) * ∫ x in (-1 : ℝ)..1, (2 * x) * (2 * x)) ∧ s.C 0 0 ≠ (1 / 2) * ∫ x in (-1 : ℝ)..1, (2 * x) * (2 * x) := by
  obtain ⟨s, h1, -, h3⟩ := (asFitFunction_square_false svd hsvd eigh he fuel N hN).2
  have hi : ∫ x in (-1 : ℝ)..1, (2 * x) * (2 * x) = 8 / 3 := by
    have : ∀ x : ℝ, (2 * x) * (2 * x) = 4 * x ^ 2 := fun x => by ring
    simp only [this]
    rw [intervalIntegral.integral_const_mul, integral_pow]
    norm_num
  refine ⟨s, h1, ?_, ?_⟩
  · rw [h3, hi]; norm_num
  · rw [h3, hi]; norm_num

end Verif.Misc
