import Verif.Misc.ActivePerturb
import Verif.Func.FunctionFd
import Mathlib.Analysis.Calculus.MeanValue

/-!
# Finite difference gradients of smooth functions, and active subspaces computed from them (C182)
-/

namespace Verif.Misc

open Verif Verif.Domain Verif.Func Lip

variable {V : Type} {m : ℕ}

/-- `f` has one output, in normalized coordinates the real function `F`, and takes its gradients by finite differences. -/
structure Response (f : Fn V) (F : Vec → ℝ) : Prop where
  fd : f.fdGrad = true
  value : ∃ g, f.funs = [g] ∧ ∀ z, z.length = f.dom.len → g.one (f.dom.unnormalize f.fb z) f.kw = [F z]

/-- `F` is at `z` differentiable along the coordinate `j` with derivative `d`, with an error of at most `K t²` for a step `t`. -/
def CurvedAlong (F : Vec → ℝ) (z : Vec) (j : ℕ) (d K t : ℝ) : Prop := |F (z.set j (z.getD j 0 + t)) - F z - d * t| ≤ K * t ^ 2

/-- Derivatives that are Lipschitz along the coordinate give that. -/
theorem curvedAlong_of_deriv {F : Vec → ℝ} {z : Vec} {j : ℕ} {K h : ℝ} (hh : 0 ≤ h) (φ' : ℝ → ℝ)
    (hd : ∀ t ∈ Set.Icc 0 h, HasDerivAt (fun t => F (z.set j (z.getD j 0 + t))) (φ' t) t) (hL : ∀ t ∈ Set.Icc 0 h, |φ' t - φ' 0| ≤ K * t) (hK : 0 ≤ K) :
    CurvedAlong F z j (φ' 0) K h := by
  have hz : z.set j (z.getD j 0 + 0) = z := by
    rw [add_zero]
    apply List.ext_getElem (by simp)
    intro i h1 h2
    rw [List.getElem_set]
    split_ifs with e
    · subst e; simp [List.getElem?_eq_getElem h2]
    · rfl
  have := Convex.norm_image_sub_le_of_norm_hasDerivWithin_le (f := fun t => F (z.set j (z.getD j 0 + t)) - φ' 0 * t) (f' := fun t => φ' t - φ' 0) (s := Set.Icc 0 h) (C := K * h)
    (fun t ht => ((hd t ht).sub (by simpa using (hasDerivAt_id t).const_mul (φ' 0))).hasDerivWithinAt)
    (fun t ht => by rw [Real.norm_eq_abs]; exact (hL t ht).trans (mul_le_mul_of_nonneg_left ht.2 hK)) (convex_Icc 0 h) (Set.left_mem_Icc.2 hh) (Set.right_mem_Icc.2 hh)
  simp only [hz, mul_zero, sub_zero, Real.norm_eq_abs] at this
  unfold CurvedAlong
  rw [abs_of_nonneg hh] at this
  calc _ = |F (z.set j (z.getD j 0 + h)) - φ' 0 * h - F z| := by congr 1; ring
    _ ≤ K * h * h := this
    _ = K * h ^ 2 := by ring

/-- The table of finite differences. -/
theorem fd_table {f : Fn V} {F : Vec → ℝ} (hf : Response f F) (h : ℝ) {Z : List Vec} (hZ : Z ≠ []) (hz : ∀ z ∈ Z, z.length = f.dom.len) :
    f.grad h (.many Z) (fun _ => none) = .ok (.mat (Z.map fun z => (List.range z.length).map fun j => (F (z.set j (z.getD j 0 + h)) - F z) / h)) := by
  obtain ⟨g, hg, hv⟩ := hf.value
  have m0 : ∀ k : Kw V, merge k (fun _ => none) = k := fun k => by funext s; simp [merge]
  have mi : merge f.kw f.kw = f.kw := by
    have := merge_idem f.kw (fun _ => none)
    rwa [m0] at this
  have hrow : ∀ z ∈ Z, f.fdRow h (merge f.kw fun _ => none) z = .ok ((List.range z.length).map fun j => (F (z.set j (z.getD j 0 + h)) - F z) / h) := by
    intro z hzZ
    have lz := hz z hzZ
    have e0 : f.eval1 z (fun _ => none) = .ok [F z] := by simp [Fn.eval1, hg, m0, hv z lz, hstack1]
    simp only [Fn.fdRow, e0]
    refine sequence_map_ok _ _ _ fun i hi => ?_
    have e1 : f.eval1 (bump z i h) (merge f.kw fun _ => none) = .ok [F (bump z i h)] := by simp [Fn.eval1, hg, m0, mi, hv (bump z i h) (by simp [bump, lz]), hstack1]
    simp only [e1, fdEntry]
    rfl
  simp only [Fn.grad, hf.fd, if_true, In.rows]
  rw [sequence_map_ok _ _ _ hrow]
  simp only [List.map_map]
  exact shapeGrad_pack f.dom.len 1 (.many Z) (fun z => [(List.range z.length).map fun j => (F (z.set j (z.getD j 0 + h)) - F z) / h]) hZ (fun _ _ => rfl)

/-- **C182**: the finite difference gradient of a smooth function is wrong by at most its curvature times the step, in every
coordinate and at every point. -/
theorem fd_rate {f : Fn V} {F : Vec → ℝ} (hf : Response f F) {h K : ℝ} (hh : 0 < h) {Z : List Vec} (hZ : Z ≠ []) (hz : ∀ z ∈ Z, z.length = f.dom.len) (D : Vec → ℕ → ℝ)
    (hD : ∀ z ∈ Z, ∀ j < f.dom.len, CurvedAlong F z j (D z j) K h) :
    ∃ T, f.grad h (.many Z) (fun _ => none) = .ok (.mat T) ∧ T.length = Z.length ∧ ∀ (i : ℕ) (z r : Vec), Z[i]? = some z → T[i]? = some r →
      r.length = f.dom.len ∧ ∀ j < f.dom.len, |r.getD j 0 - D z j| ≤ K * h := by
  refine ⟨_, fd_table hf h hZ hz, by simp, fun i z r h1 h2 => ?_⟩
  rw [List.getElem?_map, h1] at h2
  simp only [Option.map_some, Option.some.injEq] at h2
  subst h2
  have hzZ := List.mem_of_getElem? h1
  have lz := hz z hzZ
  refine ⟨by simp [lz], fun j hj => ?_⟩
  have hd := hD z hzZ j hj
  unfold CurvedAlong at hd
  have e : ((List.range z.length).map fun j => (F (z.set j (z.getD j 0 + h)) - F z) / h).getD j 0 = (F (z.set j (z.getD j 0 + h)) - F z) / h := by
    simp [show j < z.length by omega]
  rw [e]
  have e2 : (F (z.set j (z.getD j 0 + h)) - F z) / h - D z j = (F (z.set j (z.getD j 0 + h)) - F z - D z j * h) / h := by field_simp
  rw [e2, abs_div, abs_of_pos hh, div_le_iff₀ hh]
  calc _ ≤ K * h ^ 2 := hd
    _ = K * h * h := by ring

/-- Rows of a table as gradients for `ActiveSubspace.fit`. -/
def rowsPt (m : ℕ) (T : List Vec) : List (Pt m) := T.map fun r => fun j : Fin m => r.getD j 0

theorem gradErr_le {w : List ℝ} (hw : ∀ a ∈ w, 0 ≤ a) {gs gs' : List (Pt m)} {e : ℝ}
    (he : ∀ (i : ℕ) (g g' : Pt m), gs[i]? = some g → gs'[i]? = some g' → ∀ j, |g' j - g j| ≤ e) : gradErr w gs gs' ≤ w.sum * (m * e ^ 2) := by
  induction w generalizing gs gs' with
  | nil => simp [gradErr]
  | cons a w ih =>
    have ha := hw a (by simp)
    have hm0 : (0 : ℝ) ≤ m * e ^ 2 := by positivity
    have hws : 0 ≤ w.sum := List.sum_nonneg fun b hb => hw b (by simp [hb])
    cases gs with
    | nil => simp only [gradErr, List.zip_nil_left, List.zip_nil_right, List.map_nil, List.sum_nil, List.sum_cons]; positivity
    | cons g gs =>
      cases gs' with
      | nil => simp only [gradErr, List.zip_nil_right, List.map_nil, List.sum_nil, List.sum_cons]; positivity
      | cons g' gs' =>
        have h1 := ih (fun b hb => hw b (by simp [hb])) (gs := gs) (gs' := gs') fun i u u' hu hu' => he (i + 1) u u' (by simpa using hu) (by simpa using hu')
        have h2 : (g - g') ⬝ᵥ (g - g') ≤ m * e ^ 2 := by
          calc (g - g') ⬝ᵥ (g - g') = ∑ j, (g j - g' j) ^ 2 := by simp [dotProduct, sq]
            _ ≤ ∑ _j : Fin m, e ^ 2 := Finset.sum_le_sum fun j _ => by
              have := he 0 g g' rfl rfl j
              rw [← sq_abs, abs_sub_comm]
              exact pow_le_pow_left₀ (abs_nonneg _) this 2
            _ = m * e ^ 2 := by simp
        have h3 := mul_le_mul_of_nonneg_left h2 ha
        unfold gradErr at h1 ⊢
        simp only [List.zip_cons_cons, List.map_cons, List.sum_cons]
        linarith [add_mul a w.sum ((m : ℝ) * e ^ 2)]

/-- What the user of finite differences has: the true gradients `gs` at the points, and the table returned by `grad`. -/
theorem fd_gradErr {f : Fn V} {F : Vec → ℝ} (hf : Response f F) {h K : ℝ} (hh : 0 < h) {Z : List Vec} (hZ : Z ≠ []) (hz : ∀ z ∈ Z, z.length = f.dom.len) (D : Vec → Pt f.dom.len)
    (hD : ∀ z ∈ Z, ∀ j : Fin f.dom.len, CurvedAlong F z j (D z j) K h) {w : List ℝ} (hw : ∀ a ∈ w, 0 ≤ a) :
    ∃ T, f.grad h (.many Z) (fun _ => none) = .ok (.mat T) ∧ (rowsPt f.dom.len T).length = Z.length ∧
      gradErr w (Z.map D) (rowsPt f.dom.len T) ≤ w.sum * (f.dom.len * (K * h) ^ 2) := by
  obtain ⟨T, hT, hl, hr⟩ := fd_rate hf hh hZ hz (fun z j => if hj : j < f.dom.len then D z ⟨j, hj⟩ else 0) (fun z hzZ j hj => by
    rw [dif_pos hj]
    exact hD z hzZ ⟨j, hj⟩)
  refine ⟨T, hT, by simp [rowsPt, hl], gradErr_le hw fun i g g' h1 h2 j => ?_⟩
  rw [List.getElem?_map] at h1
  rw [rowsPt, List.getElem?_map] at h2
  cases hz' : Z[i]? with
  | none => rw [hz'] at h1; simp at h1
  | some z =>
    cases hr' : T[i]? with
    | none => rw [hr'] at h2; simp at h2
    | some r =>
      rw [hz'] at h1
      rw [hr'] at h2
      simp only [Option.map_some, Option.some.injEq] at h1 h2
      subst h1 h2
      have := (hr i z r hz' hr').2 j j.2
      rwa [dif_pos j.2] at this

/-- **C182**: directions found from finite differences capture as much of the true gradients as the best directions do, up to a
multiple of the step. -/
theorem fd_active_near {f : Fn V} {F : Vec → ℝ} (hf : Response f F) {h K : ℝ} (hh : 0 < h) (hK : 0 ≤ K) {Z : List Vec} (hZ : Z ≠ []) (hz : ∀ z ∈ Z, z.length = f.dom.len)
    (D : Vec → Pt f.dom.len) (hD : ∀ z ∈ Z, ∀ j : Fin f.dom.len, CurvedAlong F z j (D z j) K h) (svd : SvdFn f.dom.len) (hsvd : SvdSpec svd) {w : List ℝ}
    (hw : w.length = Z.length) {T : List Vec} (hT : f.grad h (.many Z) (fun _ => none) = .ok (.mat T)) {r : ASState f.dom.len}
    (hr : asFit svd (rowsPt f.dom.len T) (some w) = .ok r) (hnz : ∀ k, ucol r.U k ≠ 0) {n : ℕ} (hn : n ≤ f.dom.len) (Q : Matrix (Fin f.dom.len) (Fin n) ℝ) (hQ : Q.transpose * Q = 1) :
    Real.sqrt (captured (w.zip (Z.map D)) Q) - 2 * Real.sqrt (w.sum * f.dom.len) * K * h ≤ Real.sqrt (captured (w.zip (Z.map D)) (headCols r.U hn)) := by
  have hw0 : ∀ a ∈ w, 0 ≤ a := ((asFit_ok_iff svd _ w).1 ⟨r, hr⟩).2.1
  obtain ⟨T', hT', hl, he⟩ := fd_gradErr hf hh hZ hz D hD hw0
  rw [hT] at hT'
  injection hT' with hT'
  injection hT' with hT'
  subst hT'
  have h1 := (asFit_near svd hsvd w (Z.map D) (rowsPt f.dom.len T) (by simpa using hw) (by rw [hl]; exact hw) r hr hnz hn Q hQ).2
  have h2 : Real.sqrt (gradErr w (Z.map D) (rowsPt f.dom.len T)) ≤ Real.sqrt (w.sum * f.dom.len) * K * h := by
    refine (Real.sqrt_le_sqrt he).trans (le_of_eq ?_)
    rw [show w.sum * (f.dom.len * (K * h) ^ 2) = (w.sum * f.dom.len) * (K * h) ^ 2 by ring, Real.sqrt_mul (mul_nonneg (List.sum_nonneg hw0) (by positivity)),
      Real.sqrt_sq (by positivity)]
    ring
  linarith

/-- **C182**: with a gap behind the chosen directions, the subspace found from finite differences comes as close as wanted to the
one of the true gradients as the step becomes small. -/
theorem fd_active_converges {f : Fn V} {F : Vec → ℝ} (hf : Response f F) {K h1 : ℝ} (hh1 : 0 < h1) {Z : List Vec} (hZ : Z ≠ []) (hz : ∀ z ∈ Z, z.length = f.dom.len)
    (D : Vec → Pt f.dom.len) (hD : ∀ h, 0 < h → h ≤ h1 → ∀ z ∈ Z, ∀ j : Fin f.dom.len, CurvedAlong F z j (D z j) K h) (svd : SvdFn f.dom.len) (hsvd : SvdSpec svd) {w : List ℝ}
    (hw : w.length = Z.length) {r : ASState f.dom.len} (hr : asFit svd (Z.map D) (some w) = .ok r) {n : ℕ} (hgap : r.s.getD (n + 1) 0 < r.s.getD n 0) {ε : ℝ} (hε : 0 < ε) :
    ∃ h0 > 0, ∀ h, 0 < h → h ≤ h0 → ∃ T, f.grad h (.many Z) (fun _ => none) = .ok (.mat T) ∧ ∃ r', asFit svd (rowsPt f.dom.len T) (some w) = .ok r' ∧ tilt (n + 1) r.U r'.U ≤ ε := by
  have hok := (asFit_ok_iff svd _ w).1 ⟨r, hr⟩
  have hw0 := hok.2.1
  obtain ⟨δ, hδ, hnear⟩ := asFit_tilt_vanishes svd hsvd w (Z.map D) (by simpa using hw) r hr n hgap ε hε
  have hc : Filter.Tendsto (fun h : ℝ => w.sum * (f.dom.len * (K * h) ^ 2)) (nhdsWithin 0 (Set.Ioi 0)) (nhds 0) := by
    have : Continuous fun h : ℝ => w.sum * (f.dom.len * (K * h) ^ 2) := by fun_prop
    have h2 := this.tendsto 0
    simp only [mul_zero, ne_eq, OfNat.ofNat_ne_zero, not_false_eq_true, zero_pow] at h2
    exact h2.mono_left nhdsWithin_le_nhds
  have hev := (hc.eventually (gt_mem_nhds hδ))
  obtain ⟨u, hu, hsub⟩ := mem_nhdsGT_iff_exists_Ioc_subset.1 hev
  refine ⟨min u h1, lt_min hu hh1, fun h hh hle => ?_⟩
  obtain ⟨T, hT, hl, he⟩ := fd_gradErr hf hh hZ hz D (hD h hh (hle.trans (min_le_right _ _))) hw0
  have hlen : w.length = (rowsPt f.dom.len T).length := by rw [hl]; exact hw
  have hlen2 : (rowsPt f.dom.len T).length = (Z.map D).length := by rw [hl]; simp
  obtain ⟨r', hr'⟩ : ∃ r', asFit svd (rowsPt f.dom.len T) (some w) = .ok r' := by
    refine (asFit_ok_iff svd _ w).2 ⟨?_, hw0, ?_⟩
    · intro hnil
      rw [hnil] at hl
      exact hZ (List.length_eq_zero_iff.1 hl.symm)
    · exact Or.inl hlen
  exact ⟨T, hT, r', hr', hnear _ r' hlen (he.trans (hsub ⟨hh, hle.trans (min_le_left _ _)⟩).le) hr'⟩

/-- A function of one variable on `[-1, 1]`. -/
noncomputable def lineFn (Φ : ℝ → ℝ) : Fn ℝ :=
  ⟨[⟨fun x _ => [Φ (x.getD 0 0)], fun X _ => .flat (X.map fun x => Φ (x.getD 0 0)), fun x _ => ([Φ (x.getD 0 0)], [[0]]), fun X _ => (.flat (X.map fun x => Φ (x.getD 0 0)), X.map fun _ => [0])⟩],
    none, true, false, fun _ => none, false, unitBox, infOracle⟩

theorem lineFn_response (Φ : ℝ → ℝ) : Response (lineFn Φ) fun z => Φ (z.getD 0 0) := by
  refine ⟨rfl, _, rfl, fun z hz => ?_⟩
  have hl : z.length = 1 := hz
  match z, hl with
  | [t], _ =>
    have : (lineFn Φ).dom.unnormalize (lineFn Φ).fb [t] = [t] := unitBox_unnormalize t
    show [Φ (List.getD _ 0 0)] = [Φ (List.getD _ 0 0)]
    rw [this]

/-- The order of the error is right: for the square at zero the finite difference is the step, the derivative zero, the curvature one. -/
theorem fd_rate_sharp {h : ℝ} (hh : 0 < h) :
    (lineFn fun t => t ^ 2).grad h (.many [[0]]) (fun _ => none) = .ok (.mat [[h]]) ∧ ∀ s, 0 < s → CurvedAlong (fun z => (z.getD 0 0) ^ 2) [0] 0 0 1 s := by
  constructor
  · rw [fd_table (lineFn_response _) h (by simp) (by simp only [List.mem_singleton, forall_eq]; rfl)]
    simp
    field_simp
  · intro s _
    simp [CurvedAlong]

/-- **C182 fails for the fixed step**: whatever the step, there is an analytic function with derivative one at zero whose finite difference is zero. -/
theorem fd_fixed_step_false {h : ℝ} (hh : 0 < h) : ∃ Φ : ℝ → ℝ, ContDiff ℝ ⊤ Φ ∧ HasDerivAt Φ 1 0 ∧
    (lineFn Φ).grad h (.many [[0]]) (fun _ => none) = .ok (.mat [[0]]) := by
  refine ⟨fun t => h / (2 * Real.pi) * Real.sin (2 * Real.pi / h * t), by fun_prop, ?_, ?_⟩
  · have := (((hasDerivAt_id (0 : ℝ)).const_mul (2 * Real.pi / h)).sin).const_mul (h / (2 * Real.pi))
    simp only [id, mul_zero, Real.cos_zero, one_mul, mul_one] at this
    have hp := Real.pi_pos
    rwa [div_mul_div_cancel₀ (by positivity), div_self hh.ne'] at this
  · rw [fd_table (lineFn_response _) h (by simp) (by simp only [List.mem_singleton, forall_eq]; rfl)]
    simp [hh.ne']

/-- The hypotheses together: a curved function, its derivatives, and a step. -/
example : Response (lineFn fun t => t ^ 2) (fun z => (z.getD 0 0) ^ 2) ∧ ∀ s, 0 < s → s ≤ 1 → ∀ z ∈ [[0], [1]], ∀ j : Fin 1,
    CurvedAlong (fun z => (z.getD 0 0) ^ 2) z j (2 * z.getD 0 0) 1 s := by
  refine ⟨lineFn_response _, fun s _ _ z hz j => ?_⟩
  obtain rfl : j = 0 := Subsingleton.elim _ _
  simp only [List.mem_cons, List.not_mem_nil, or_false] at hz
  rcases hz with rfl | rfl
  · simp [CurvedAlong]
  · simp only [CurvedAlong]
    rw [abs_le]
    constructor <;> simp <;> nlinarith

end Verif.Misc
