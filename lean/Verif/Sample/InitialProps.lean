import Verif.Sample.InitialModel
import Verif.Geometry.VsampleProps
import Verif.Geometry.GeoProps

/-!
# C98: `initial_sample` and `coefficients`
-/

namespace Verif.Samp

open Verif Verif.Domain Verif.Geo Matrix

variable {k m p : ℕ}

/-! ## Specification -/

/-- Nonnegative numbers with sum one. -/
def IsConvexWeights (n : ℕ) (α : List ℝ) : Prop := α.length = n ∧ (∀ a ∈ α, 0 ≤ a) ∧ α.sum = 1

/-- The points that are convex combinations of `pts`. -/
def InHull (pts : List (Lip.Pt m)) (x : Lip.Pt m) : Prop := ∃ α, IsConvexWeights pts.length α ∧ combo pts α = x

/-- The squared residual of the least squares problem with the extra row of ones. -/
noncomputable def nnlsRes (pts : List (Lip.Pt p)) (x : Lip.Pt p) (α : List ℝ) : ℝ := (∑ i, (combo pts α i - x i) ^ 2) + (α.sum - 1) ^ 2

/-- Contract of `nnls`: nonnegative coefficients with the smallest residual. -/
def Nnls.Exact (nnls : Nnls p) : Prop := ∀ pts x, (nnls pts x).length = pts.length ∧ (∀ a ∈ nnls pts x, 0 ≤ a) ∧
  ∀ β : List ℝ, β.length = pts.length → (∀ b ∈ β, 0 ≤ b) → nnlsRes pts x (nnls pts x) ≤ nnlsRes pts x β

/-- Contract of `corner` (C13, C14): the farthest point of `S` in the direction. -/
def CornerOf (S : Set (Lip.Pt m)) (corner : Lip.Pt m → Except Err (Lip.Pt m)) : Prop := ∀ v x, corner v = .ok x → x ∈ S ∧ ∀ z ∈ S, v ⬝ᵥ z ≤ v ⬝ᵥ x

/-- Contract of the samples of a hull (C22): as many as asked for, all in the hull. -/
def HullSampler (hull : List (Lip.Pt p) → ℕ → Except Err (List (Lip.Pt p))) : Prop := ∀ pts n Y, hull pts n = .ok Y → Y.length = n ∧ ∀ y ∈ Y, InHull pts y

/-! ## Combinations -/

theorem combo_nil (α : List ℝ) : combo ([] : List (Lip.Pt m)) α = 0 := by simp [combo]

theorem combo_cons (x : Lip.Pt m) (pts : List (Lip.Pt m)) (a : ℝ) (α : List ℝ) : combo (x :: pts) (a :: α) = a • x + combo pts α := by simp [combo]

theorem combo_mulVec (J : Matrix (Fin p) (Fin m) ℝ) : ∀ (pts : List (Lip.Pt m)) (α : List ℝ), J *ᵥ combo pts α = combo (pts.map (J *ᵥ ·)) α
  | [], α => by simp [combo_nil]
  | x :: pts, [] => by simp [combo]
  | x :: pts, a :: α => by rw [combo_cons, List.map_cons, combo_cons, Matrix.mulVec_add, Matrix.mulVec_smul, combo_mulVec J pts α]

theorem combo_norm (w c : Lip.Pt p) : ∀ (pts : List (Lip.Pt p)) (α : List ℝ), α.length = pts.length → ∀ i,
    combo (pts.map (hullNorm w c)) α i = w i * (combo pts α i - α.sum * c i)
  | [], α, h, i => by
    have : α = [] := List.length_eq_zero_iff.1 h
    subst this
    simp [combo_nil]
  | x :: pts, [], h, i => by simp at h
  | x :: pts, a :: α, h, i => by
    have ih := combo_norm w c pts α (by simpa using h) i
    rw [List.map_cons, combo_cons, combo_cons, Pi.add_apply, ih, Pi.add_apply, List.sum_cons]
    simp only [Pi.smul_apply, smul_eq_mul, hullNorm]
    ring

/-- Convex combinations of points of a convex set stay in it. -/
theorem combo_mem {S : Set (Lip.Pt m)} (hS : Convex ℝ S) : ∀ (pts : List (Lip.Pt m)) (α : List ℝ), (∀ x ∈ pts, x ∈ S) → α.length = pts.length → (∀ a ∈ α, 0 ≤ a) →
    α.sum = 1 → combo pts α ∈ S := by
  have key : ∀ (pts : List (Lip.Pt m)) (α : List ℝ), (∀ x ∈ pts, x ∈ S) → α.length = pts.length → (∀ a ∈ α, 0 ≤ a) → 0 < α.sum → ∃ y ∈ S, combo pts α = α.sum • y := by
    intro pts
    induction pts with
    | nil =>
      intro α _ hl _ hs
      have : α = [] := List.length_eq_zero_iff.1 hl
      subst this
      simp at hs
    | cons x pts ih =>
      intro α hx hl h0 hs
      cases α with
      | nil => simp at hl
      | cons a α =>
        have ha : 0 ≤ a := h0 a (by simp)
        have hα : ∀ b ∈ α, 0 ≤ b := fun b hb => h0 b (by simp [hb])
        have hsum : 0 ≤ α.sum := List.sum_nonneg hα
        rcases hsum.eq_or_lt with hz | hz
        · have hzero : ∀ (pts : List (Lip.Pt m)) (α : List ℝ), (∀ b ∈ α, 0 ≤ b) → α.sum = 0 → combo pts α = 0 := by
            intro pts
            induction pts with
            | nil => intro α _ _; exact combo_nil α
            | cons y pts ih2 =>
              intro α h0 hs
              cases α with
              | nil => simp [combo]
              | cons b α =>
                have hb := h0 b (by simp)
                have hr : 0 ≤ α.sum := List.sum_nonneg fun c hc => h0 c (by simp [hc])
                rw [List.sum_cons] at hs
                have hb0 : b = 0 := by linarith
                rw [combo_cons, hb0, zero_smul, zero_add, ih2 α (fun c hc => h0 c (by simp [hc])) (by linarith)]
          refine ⟨x, hx x (by simp), ?_⟩
          rw [combo_cons, hzero pts α hα hz.symm, List.sum_cons, ← hz, add_zero, add_zero]
        · obtain ⟨y, hy, e⟩ := ih α (fun z hz => hx z (by simp [hz])) (by simpa using hl) hα hz
          rw [List.sum_cons] at hs ⊢
          refine ⟨(a / (a + α.sum)) • x + (α.sum / (a + α.sum)) • y, hS (hx x (by simp)) hy (by positivity) (by positivity) (by field_simp), ?_⟩
          rw [combo_cons, e, smul_add, smul_smul, smul_smul, mul_div_cancel₀ _ hs.ne', mul_div_cancel₀ _ hs.ne']
  intro pts α hx hl h0 hs
  obtain ⟨y, hy, e⟩ := key pts α hx hl h0 (by rw [hs]; exact one_pos)
  rw [e, hs, one_smul]
  exact hy

/-- C98: `coefficients(x)` are nonnegative, and for a point of the hull they are the weights of a convex combination equal to it, whatever the scaling. -/
theorem coef_exact {nnls : Nnls p} (hn : nnls.Exact) {w c : Lip.Pt p} (hw : ∀ i, w i ≠ 0) (pts : List (Lip.Pt p)) (x : Lip.Pt p) :
    (hullCoef nnls w c pts x).length = pts.length ∧ (∀ a ∈ hullCoef nnls w c pts x, 0 ≤ a) ∧
    (InHull pts x ↔ (hullCoef nnls w c pts x).sum = 1 ∧ combo pts (hullCoef nnls w c pts x) = x) := by
  obtain ⟨h1, h2, h3⟩ := hn (pts.map (hullNorm w c)) (hullNorm w c x)
  rw [List.length_map] at h1
  refine ⟨h1, h2, ?_, fun h => ⟨_, ⟨h1, h2, h.1⟩, h.2⟩⟩
  rintro ⟨β, ⟨b1, b2, b3⟩, rfl⟩
  have h4 := h3 β (by rw [List.length_map, b1]) b2
  set α := nnls (pts.map (hullNorm w c)) (hullNorm w c (combo pts β)) with hα
  have hz : nnlsRes (pts.map (hullNorm w c)) (hullNorm w c (combo pts β)) β = 0 := by
    rw [nnlsRes, b3, sub_self]
    simp only [combo_norm w c pts β b1, b3, one_mul, hullNorm, sub_self, ne_eq, OfNat.ofNat_ne_zero, not_false_eq_true, zero_pow, Finset.sum_const_zero, add_zero]
  rw [hz, nnlsRes] at h4
  have hs1 : 0 ≤ ∑ i, (combo (pts.map (hullNorm w c)) α i - hullNorm w c (combo pts β) i) ^ 2 := Finset.sum_nonneg fun i _ => sq_nonneg _
  have hs2 := sq_nonneg (α.sum - 1)
  have e1 : α.sum = 1 := by
    have : (α.sum - 1) ^ 2 = 0 := by linarith
    have := pow_eq_zero_iff (two_ne_zero) |>.1 this
    linarith
  have e2 : ∀ i, combo (pts.map (hullNorm w c)) α i - hullNorm w c (combo pts β) i = 0 := by
    have h0 : ∑ i, (combo (pts.map (hullNorm w c)) α i - hullNorm w c (combo pts β) i) ^ 2 = 0 := by linarith
    intro i
    have := (Finset.sum_eq_zero_iff_of_nonneg fun i _ => sq_nonneg _).1 h0 i (Finset.mem_univ i)
    exact pow_eq_zero_iff two_ne_zero |>.1 this
  refine ⟨e1, ?_⟩
  funext i
  have := e2 i
  rw [combo_norm w c pts α h1, e1, one_mul, hullNorm, ← mul_sub] at this
  have := (mul_eq_zero.1 this).resolve_left (hw i)
  change combo pts α i = _
  linarith

/-! ## The samples -/

theorem select_map {α β : Type*} (f : α → β) : ∀ (X : List α) (I : List Bool), (select X I).map f = select (X.map f) I
  | [], I => by simp [select]
  | x :: X, [] => by simp [select]
  | x :: X, b :: I => by
    rw [List.map_cons, select_cons, select_cons]
    cases b <;> simp [select_map f X I]

/-- A second removal of duplicates removes nothing. -/
theorem unique_again (X : List (Lip.Pt m)) (h : X.Pairwise fun x y => atol < Lip.nrm (x - y)) : select X (uniquePoints X) = X := by
  induction X with
  | nil => simp [select]
  | cons x t ih =>
    obtain ⟨b, e, hb⟩ := uniquePoints_head x t
    rw [List.pairwise_cons] at h
    rw [e, select_cons, if_pos (hb.2 h.1), ih h.2]

theorem hullPoints_spec {S : Set (Lip.Pt m)} {corner : Lip.Pt m → Except Err (Lip.Pt m)} (hc : CornerOf S corner) {J : Matrix (Fin p) (Fin m) ℝ}
    {U : Matrix (Fin m) (Fin p) ℝ} {zs : List (Lip.Pt p)} {cs : List (Lip.Pt m)} {Lcs : List (Lip.Pt p)} (h : hullPoints corner J U zs = .ok (cs, Lcs)) :
    Lcs = cs.map (J *ᵥ ·) ∧ (∀ x ∈ cs, x ∈ S) ∧ Lcs.Pairwise fun x y => atol < Lip.nrm (x - y) := by
  simp only [hullPoints] at h
  split at h
  · simp at h
  · rename_i C hC
    simp only [Except.ok.injEq, Prod.mk.injEq] at h
    obtain ⟨rfl, rfl⟩ := h
    refine ⟨(select_map _ _ _).symm, fun x hx => ?_, unique_separated _⟩
    obtain ⟨z, -, hz⟩ := forall₂_right (mapE_ok hC) x (select_subset _ _ x hx)
    exact (hc _ _ hz).1

/-- C98: exactly as many points as asked for, all in the convex domain, and their images are the samples of the hull of the images of the corners. -/
theorem initialLow_spec {S : Set (Lip.Pt m)} (hS : Convex ℝ S) {corner : Lip.Pt m → Except Err (Lip.Pt m)} (hc : CornerOf S corner) {nnls : Nnls p} (hn : nnls.Exact)
    {nw nc : List (Lip.Pt p) → Lip.Pt p} (hw : ∀ pts i, nw pts i ≠ 0) {hull : List (Lip.Pt p) → ℕ → Except Err (List (Lip.Pt p))} (hh : HullSampler hull)
    {J : Matrix (Fin p) (Fin m) ℝ} {U : Matrix (Fin m) (Fin p) ℝ} {sphere : List (Lip.Pt p)} {N : ℕ} {X : List (Lip.Pt m)}
    (h : initialLow corner nnls nw nc hull J U sphere N = .ok X) : X.length = N ∧ (∀ x ∈ X, x ∈ S) ∧
    ∃ cs Lcs, hullPoints corner J U (directions p sphere) = .ok (cs, Lcs) ∧ hull Lcs N = .ok (X.map (J *ᵥ ·)) := by
  simp only [initialLow] at h
  split at h
  · simp at h
  · rename_i cs Lcs hp
    obtain ⟨p1, p2, p3⟩ := hullPoints_spec hc hp
    rw [unique_again Lcs p3] at h
    split at h
    · simp at h
    · rename_i Y hY
      obtain ⟨y1, y2⟩ := hh _ _ _ hY
      have hf := mapE_ok h
      have hpt : ∀ y x, y ∈ Y → (if (hullCoef nnls (nw Lcs) (nc Lcs) Lcs y).length = cs.length then Except.ok (combo cs (hullCoef nnls (nw Lcs) (nc Lcs) Lcs y)) else
          .error .valueError : Except Err (Lip.Pt m)) = .ok x → x ∈ S ∧ J *ᵥ x = y := by
        intro y x hy hx
        obtain ⟨c1, c2, c3⟩ := coef_exact hn (w := nw Lcs) (c := nc Lcs) (hw Lcs) Lcs y
        obtain ⟨c4, c5⟩ := c3.1 (y2 y hy)
        split_ifs at hx with hl
        simp only [Except.ok.injEq] at hx
        subst hx
        exact ⟨combo_mem hS _ _ p2 hl c2 c4, by rw [combo_mulVec, ← p1, c5]⟩
      refine ⟨hf.length_eq.symm.trans y1, fun x hx => ?_, cs, Lcs, hp, ?_⟩
      · obtain ⟨y, hy, e⟩ := forall₂_right hf x hx
        exact (hpt y x hy e).1
      · rw [hY]
        congr 1
        clear hY y1 y2 h
        induction hf with
        | nil => rfl
        | cons e _ ih =>
          rw [List.map_cons, (hpt _ _ (by simp) e).2, ← ih (fun y x hy => hpt y x (by simp [hy]))]

/-- C98: with one direction, the hull is the whole range of the metric on the domain, if the two ends are farther apart than the tolerance. -/
theorem initial_range {S : Set (Lip.Pt m)} {corner : Lip.Pt m → Except Err (Lip.Pt m)} (hc : CornerOf S corner) {J : Matrix (Fin 1) (Fin m) ℝ}
    {U : Matrix (Fin m) (Fin 1) ℝ} {r : ℝ} (hqr : Jᵀ = r • U) {sphere : List (Lip.Pt 1)} {cs : List (Lip.Pt m)} {Lcs : List (Lip.Pt 1)}
    (h : hullPoints corner J U (directions 1 sphere) = .ok (cs, Lcs)) (h2 : Lcs.length = 2) : ∀ z ∈ S, InHull Lcs (J *ᵥ z) := by
  intro z hz
  obtain ⟨p1, -, -⟩ := hullPoints_spec hc h
  simp only [hullPoints, directions, if_true] at h
  split at h
  · simp at h
  · rename_i C hC
    simp only [Except.ok.injEq, Prod.mk.injEq] at h
    obtain ⟨rfl, rfl⟩ := h
    obtain ⟨c1, C1, e1, hC1, rfl⟩ := List.forall₂_cons_left_iff.1 (mapE_ok hC)
    obtain ⟨c2, C2, e2, hC2, rfl⟩ := List.forall₂_cons_left_iff.1 hC1
    obtain rfl := List.forall₂_nil_left_iff.1 hC2
    have hsel : select (List.map (J *ᵥ ·) [c1, c2]) (uniquePoints (List.map (J *ᵥ ·) [c1, c2])) = [J *ᵥ c1, J *ᵥ c2] := by
      exact (select_sublist _ _).eq_of_length (by rw [h2]; simp)
    rw [hsel]
    have hu : ∀ (a : ℝ) (x : Lip.Pt m), (U *ᵥ fun _ => a) ⬝ᵥ x = a * (Uᵀ *ᵥ x) 0 := by
      intro a x
      simp only [dotProduct, mulVec, transpose_apply, Fin.sum_univ_one, Fin.isValue, Finset.mul_sum]
      exact Finset.sum_congr rfl fun i _ => by ring
    have hJ : ∀ x : Lip.Pt m, (J *ᵥ x) = fun _ => r * (Uᵀ *ᵥ x) 0 := by
      intro x
      have : J = r • Uᵀ := by rw [← Matrix.transpose_transpose J, hqr, Matrix.transpose_smul]
      rw [this, Matrix.smul_mulVec]
      funext i
      rw [Subsingleton.elim i 0]
      simp
    have l1 := (hc _ _ e1).2 z hz
    have l2 := (hc _ _ e2).2 z hz
    rw [hu, hu] at l1 l2
    rw [hJ, hJ, hJ]
    set a := (Uᵀ *ᵥ c1) 0
    set b := (Uᵀ *ᵥ c2) 0
    set t := (Uᵀ *ᵥ z) 0
    have h1 : a ≤ t := by linarith
    have h2' : t ≤ b := by linarith
    rcases (h1.trans h2').eq_or_lt with hab | hab
    · refine ⟨[1, 0], ⟨rfl, by simp, by simp⟩, ?_⟩
      have : t = a := by linarith
      rw [this]
      funext i; simp [combo]
    · refine ⟨[(b - t) / (b - a), (t - a) / (b - a)], ⟨rfl, ?_, ?_⟩, ?_⟩
      · have : 0 < b - a := by linarith
        simp only [List.mem_cons, List.not_mem_nil, or_false, forall_eq_or_imp, forall_eq]
        exact ⟨div_nonneg (by linarith) this.le, div_nonneg (by linarith) this.le⟩
      · have : b - a ≠ 0 := by linarith
        simp only [List.sum_cons, List.sum_nil]
        field_simp
        ring
      · have : b - a ≠ 0 := by linarith
        funext i
        simp only [combo, List.zipWith_cons_cons, List.zipWith_nil_right, List.sum_cons, List.sum_nil, Pi.add_apply, Pi.smul_apply, smul_eq_mul, Pi.zero_apply, add_zero]
        field_simp
        ring

/-- C98: for a multiple of the identity the samples are those of the domain. -/
theorem initialSample_scalar (sample : ℕ → Except Err (List (Lip.Pt m))) (a : ℝ) (low : Except Err (List (Lip.Pt m))) (N : ℕ) (hm : 0 < m) :
    initialSample sample (a • (1 : Matrix (Fin m) (Fin m) ℝ)) low N = sample N := by
  rw [initialSample, if_pos]
  refine ⟨rfl, a, fun i j hi hj => ?_, ?_⟩
  · have : i = j := Fin.ext (by omega)
    simp [this]
  · have : ∀ i j : Fin m, (if i.val = j.val then a else 0) - (a • (1 : Matrix (Fin m) (Fin m) ℝ)) i j = 0 := by
      intro i j
      by_cases h : i = j
      · simp [h]
      · simp [h, Fin.val_ne_of_ne h]
    simp only [this]
    norm_num

/-- C98: a metric with fewer rows than columns, or the reverse, never takes the first branch. -/
theorem initialSample_low (sample : ℕ → Except Err (List (Lip.Pt m))) (L : Matrix (Fin k) (Fin m) ℝ) (hk : k ≠ m) (low : Except Err (List (Lip.Pt m))) (N : ℕ) :
    initialSample sample L low N = low := by
  rw [initialSample, if_neg fun h => hk h.1]

/-! ## Existence -/

theorem combo_continuous (pts : List (Lip.Pt p)) : Continuous fun a : Fin pts.length → ℝ => combo pts (List.ofFn a) := by
  induction pts with
  | nil => simp only [combo_nil]; exact continuous_const
  | cons x pts ih =>
    have e : (fun a : Fin (x :: pts).length → ℝ => combo (x :: pts) (List.ofFn a)) =
        fun a => a ⟨0, by simp⟩ • x + combo pts (List.ofFn fun i : Fin pts.length => a ⟨i.val + 1, by simp⟩) := by
      funext a
      have : List.ofFn a = a ⟨0, by simp⟩ :: List.ofFn fun i : Fin pts.length => a ⟨i.val + 1, by simp⟩ := List.ofFn_succ
      rw [this, combo_cons]
    rw [e]
    refine Continuous.add (by fun_prop) ?_
    exact ih.comp (continuous_pi fun i => continuous_apply _)

/-- Exact nonnegative least squares solvers exist. -/
theorem exists_nnls (p : ℕ) : ∃ nnls : Nnls p, nnls.Exact := by
  have key : ∀ (pts : List (Lip.Pt p)) (x : Lip.Pt p), ∃ α : List ℝ, α.length = pts.length ∧ (∀ a ∈ α, 0 ≤ a) ∧
      ∀ β : List ℝ, β.length = pts.length → (∀ b ∈ β, 0 ≤ b) → nnlsRes pts x α ≤ nnlsRes pts x β := by
    intro pts x
    set R := ∑ i, (x i) ^ 2 + 1 with hR
    have hR0 : 1 ≤ R := by
      have : 0 ≤ ∑ i, (x i) ^ 2 := Finset.sum_nonneg fun i _ => sq_nonneg _
      linarith
    let K : Set (Fin pts.length → ℝ) := Set.Icc 0 fun _ => 1 + R
    have hK : IsCompact K := isCompact_Icc
    have hsum : Continuous fun a : Fin pts.length → ℝ => (List.ofFn a).sum := by
      simp only [List.sum_ofFn]
      fun_prop
    have hcont : Continuous fun a : Fin pts.length → ℝ => nnlsRes pts x (List.ofFn a) := by
      unfold nnlsRes
      refine Continuous.add (continuous_finset_sum _ fun i _ => ?_) ((hsum.sub continuous_const).pow 2)
      exact (((continuous_apply i).comp (combo_continuous pts)).sub continuous_const).pow 2
    obtain ⟨a, ha, hmin⟩ := hK.exists_isMinOn ⟨0, ⟨le_rfl, fun _ => by change (0 : ℝ) ≤ 1 + R; linarith⟩⟩ hcont.continuousOn
    refine ⟨List.ofFn a, by simp, fun b hb => ?_, fun β hl h0 => ?_⟩
    · obtain ⟨i, rfl⟩ := (List.mem_ofFn' a b).1 hb
      exact ha.1 i
    · -- either `β` is in the box or its residual exceeds that of zero
      obtain ⟨b, rfl⟩ : ∃ b : Fin pts.length → ℝ, β = List.ofFn b := by
        refine ⟨fun i => β[i.val]'(by omega), ?_⟩
        refine List.ext_getElem (by simp [hl]) fun i h1 h2 => by simp
      have hb0 : ∀ i, 0 ≤ b i := fun i => h0 _ ((List.mem_ofFn' b _).2 ⟨i, rfl⟩)
      by_cases hbK : b ∈ K
      · exact hmin hbK
      · have h1 := hmin (⟨le_rfl, fun _ => by change (0 : ℝ) ≤ 1 + R; linarith⟩ : (0 : Fin pts.length → ℝ) ∈ K)
        have hz : nnlsRes pts x (List.ofFn (0 : Fin pts.length → ℝ)) = R := by
          have hc : combo pts (List.ofFn (0 : Fin pts.length → ℝ)) = 0 := by
            have : ∀ (q : List (Lip.Pt p)) (β : List ℝ), (∀ b ∈ β, b = 0) → combo q β = 0 := by
              intro q
              induction q with
              | nil => intro β _; exact combo_nil β
              | cons y q ih =>
                intro β hβ
                cases β with
                | nil => simp [combo]
                | cons c β => rw [combo_cons, hβ c (by simp), zero_smul, zero_add, ih β fun b hb => hβ b (by simp [hb])]
            refine this _ _ fun b hb => ?_
            obtain ⟨i, rfl⟩ := (List.mem_ofFn' _ b).1 hb
            rfl
          rw [nnlsRes, hc, List.sum_ofFn]
          simp [hR]
        have h2 : R ≤ nnlsRes pts x (List.ofFn b) := by
          have : ∃ i, 1 + R < b i := by
            by_contra hcon
            push Not at hcon
            exact hbK ⟨hb0, hcon⟩
          obtain ⟨i, hi⟩ := this
          have h3 : b i ≤ (List.ofFn b).sum := by
            rw [List.sum_ofFn]
            exact Finset.single_le_sum (fun j _ => hb0 j) (Finset.mem_univ i)
          have h4 : 0 ≤ ∑ i, (combo pts (List.ofFn b) i - x i) ^ 2 := Finset.sum_nonneg fun i _ => sq_nonneg _
          rw [nnlsRes]
          nlinarith
        exact (h1.trans hz.le).trans h2
  choose f h1 h2 h3 using key
  exact ⟨f, fun pts x => ⟨h1 pts x, h2 pts x, h3 pts x⟩⟩

end Verif.Samp
