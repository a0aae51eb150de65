import Verif.Domain.DimModel
import Verif.Sample.LowRankProps
import Mathlib.LinearAlgebra.AffineSpace.AffineSubspace.Basic
import Mathlib.LinearAlgebra.FiniteDimensional.Lemmas
import Mathlib.Analysis.Convex.Hull
import Mathlib.Analysis.Convex.Combination

/-!
# The basis of forbidden directions

Source: `/repo/psdr/domains/euclidean.py` 675-682, 815-824; `/repo/psdr/domains/convexhull.py` 305-326.
-/

namespace Verif.Domain

open Verif Matrix Classical

variable {n p M : ℕ}

/-! ### Specification -/

/-- Orthonormal vectors. -/
def OrthoCols (Q : List (Lip.Pt n)) : Prop := Q.Pairwise (fun a b => a ⬝ᵥ b = 0) ∧ ∀ q ∈ Q, q ⬝ᵥ q = 1

/-- The span of a list of vectors. -/
noncomputable def lspan (Q : List (Lip.Pt n)) : Submodule ℝ (Lip.Pt n) := Submodule.span ℝ {q | q ∈ Q}

/-- `scipy.linalg.orth`: orthonormal vectors with the same span. -/
def IsOrth (orth : List (Lip.Pt n) → List (Lip.Pt n)) : Prop := ∀ l, OrthoCols (orth l) ∧ lspan (orth l) = lspan l

/-- The `Q` of `scipy.linalg.qr(., mode = 'full')`: orthonormal columns, of which the first ones express the factored columns. -/
def IsQr (qr : List (Lip.Pt n) → Fin n → Lip.Pt n) : Prop :=
  ∀ l, (∀ i j, qr l i ⬝ᵥ qr l j = if i = j then 1 else 0) ∧ ∀ a ∈ l, a ∈ Submodule.span ℝ {q | ∃ i : Fin n, (i : ℕ) < l.length ∧ q = qr l i}

/-- A direction in which a feasible point of a hull with equality constraints can have a feasible neighbour: one that the equality constraints allow and that is
parallel to the hull. -/
def LegalDir (Aeq : List (Lip.Pt n)) (X : Fin M → Lip.Pt n) (v : Lip.Pt n) : Prop :=
  (∀ a ∈ Aeq, a ⬝ᵥ v = 0) ∧ v ∈ vectorSpan ℝ (convexHull ℝ (Set.range X))

/-! ### The projection -/

theorem proj_dot {Q : List (Lip.Pt n)} (h : OrthoCols Q) (v : Lip.Pt n) : ∀ q ∈ Q, q ⬝ᵥ (Q.map fun q => (q ⬝ᵥ v) • q).sum = q ⬝ᵥ v := by
  induction Q with
  | nil => simp
  | cons a Q ih =>
    have hQ : OrthoCols Q := ⟨(List.pairwise_cons.mp h.1).2, fun q hq => h.2 q (List.mem_cons_of_mem _ hq)⟩
    have ha := (List.pairwise_cons.mp h.1).1
    have hz : ∀ Q' : List (Lip.Pt n), (∀ q ∈ Q', a ⬝ᵥ q = 0) → a ⬝ᵥ (Q'.map fun q => (q ⬝ᵥ v) • q).sum = 0 := by
      intro Q'
      induction Q' with
      | nil => simp
      | cons b Q' ih' =>
        intro hb
        rw [List.map_cons, List.sum_cons, dotProduct_add, dotProduct_smul, hb b (by simp), ih' (fun q hq => hb q (by simp [hq]))]
        simp
    intro q hq
    rw [List.map_cons, List.sum_cons, dotProduct_add, dotProduct_smul]
    rcases List.mem_cons.mp hq with rfl | hq
    · rw [hz Q ha, h.2 q (by simp)]
      simp
    · rw [ih hQ q hq, dotProduct_comm q a, ha q hq]
      simp

/-- **C126** The projected vector is orthogonal to the basis. -/
theorem projDir_orth {Q : List (Lip.Pt n)} (h : OrthoCols Q) (v : Lip.Pt n) : ∀ q ∈ Q, q ⬝ᵥ projDir Q v = 0 := by
  intro q hq
  unfold projDir
  rw [dotProduct_sub, proj_dot h v q hq, sub_self]

/-- **C126** Vectors orthogonal to the basis are not changed. -/
theorem projDir_fix {Q : List (Lip.Pt n)} {v : Lip.Pt n} (h : ∀ q ∈ Q, q ⬝ᵥ v = 0) : projDir Q v = v := by
  unfold projDir
  have : (Q.map fun q => (q ⬝ᵥ v) • q).sum = 0 := by
    apply List.sum_eq_zero
    intro x hx
    obtain ⟨q, hq, rfl⟩ := List.mem_map.mp hx
    rw [h q hq, zero_smul]
  rw [this, sub_zero]

theorem proj_mem (Q : List (Lip.Pt n)) (v : Lip.Pt n) : v - projDir Q v ∈ lspan Q := by
  unfold projDir
  rw [sub_sub_cancel]
  apply list_sum_mem
  intro x hx
  obtain ⟨q, hq, rfl⟩ := List.mem_map.mp hx
  exact Submodule.smul_mem _ _ (Submodule.subset_span hq)

theorem dot_zero_lspan {l : List (Lip.Pt n)} {v : Lip.Pt n} : (∀ q ∈ l, q ⬝ᵥ v = 0) ↔ ∀ q ∈ lspan l, q ⬝ᵥ v = 0 := by
  constructor
  · intro h q hq
    induction hq using Submodule.span_induction with
    | mem x hx => exact h x hx
    | zero => simp
    | add x y _ _ hx hy => rw [add_dotProduct, hx, hy, add_zero]
    | smul c x _ hx => rw [smul_dotProduct, hx, smul_zero]
  · intro h q hq
    exact h q (Submodule.subset_span hq)

theorem orth_dot {orth : List (Lip.Pt n) → List (Lip.Pt n)} (ho : IsOrth orth) {l : List (Lip.Pt n)} {v : Lip.Pt n} :
    (∀ q ∈ orth l, q ⬝ᵥ v = 0) ↔ ∀ q ∈ l, q ⬝ᵥ v = 0 := by
  rw [dot_zero_lspan, (ho l).2, ← dot_zero_lspan]

/-! ### The oracles exist -/

/-- Gram-Schmidt. -/
noncomputable def gs (Q : List (Lip.Pt n)) : List (Lip.Pt n) → List (Lip.Pt n)
  | [] => Q
  | a :: l => if projDir Q a = 0 then gs Q l else gs (Q ++ [(1 / √(projDir Q a ⬝ᵥ projDir Q a)) • projDir Q a]) l

theorem gs_append (Q l m : List (Lip.Pt n)) : gs Q (l ++ m) = gs (gs Q l) m := by
  induction l generalizing Q with
  | nil => rfl
  | cons a l ih =>
    rw [List.cons_append, gs, gs]
    split_ifs
    · exact ih _
    · exact ih _

theorem lspan_append (l m : List (Lip.Pt n)) : lspan (l ++ m) = lspan l ⊔ lspan m := by
  unfold lspan
  rw [← Submodule.span_union]
  congr 1
  ext q
  simp

theorem gs_prefix (Q l : List (Lip.Pt n)) : Q <+: gs Q l ∧ (gs Q l).length ≤ Q.length + l.length := by
  induction l generalizing Q with
  | nil => exact ⟨List.prefix_rfl, by simp [gs]⟩
  | cons a l ih =>
    rw [gs]
    split_ifs with h
    · exact ⟨(ih Q).1, (ih Q).2.trans (by simp)⟩
    · refine ⟨List.IsPrefix.trans (List.prefix_append _ _) (ih _).1, (ih _).2.trans ?_⟩
      simp
      omega

theorem gs_spec {Q : List (Lip.Pt n)} (hQ : OrthoCols Q) (l : List (Lip.Pt n)) : OrthoCols (gs Q l) ∧ lspan (gs Q l) = lspan Q ⊔ lspan l := by
  induction l generalizing Q with
  | nil =>
    refine ⟨hQ, ?_⟩
    have : lspan ([] : List (Lip.Pt n)) = ⊥ := by
      unfold lspan
      simp
    rw [this, sup_bot_eq]
    rfl
  | cons a l ih =>
    have hcons : lspan (a :: l) = lspan [a] ⊔ lspan l := lspan_append [a] l
    rw [gs, hcons]
    split_ifs with h
    · refine ⟨(ih hQ).1, ?_⟩
      rw [(ih hQ).2, ← sup_assoc]
      congr 1
      symm
      rw [sup_eq_left]
      unfold lspan
      rw [Submodule.span_le]
      intro q hq
      have hq' : q = a := by simpa using hq
      have := proj_mem Q a
      rw [h, sub_zero] at this
      rw [hq']
      exact this
    · set w := projDir Q a with hw
      have hpos : 0 < w ⬝ᵥ w := by
        have h0 : 0 ≤ w ⬝ᵥ w := Finset.sum_nonneg fun i _ => mul_self_nonneg (w i)
        refine lt_of_le_of_ne h0 fun h1 => h ?_
        exact dotProduct_self_eq_zero.mp h1.symm
      have hQ' : OrthoCols (Q ++ [(1 / √(w ⬝ᵥ w)) • w]) := by
        constructor
        · rw [List.pairwise_append]
          refine ⟨hQ.1, by simp, ?_⟩
          intro q hq b hb
          have : b = (1 / √(w ⬝ᵥ w)) • w := by simpa using hb
          rw [this, dotProduct_smul, projDir_orth hQ a q hq, smul_zero]
        · intro q hq
          rcases List.mem_append.mp hq with hq | hq
          · exact hQ.2 q hq
          · have : q = (1 / √(w ⬝ᵥ w)) • w := by simpa using hq
            rw [this, dotProduct_smul, smul_dotProduct, smul_eq_mul, smul_eq_mul, ← mul_assoc, div_mul_div_comm, Real.mul_self_sqrt hpos.le]
            field_simp
      refine ⟨(ih hQ').1, ?_⟩
      rw [(ih hQ').2, lspan_append, ← sup_assoc]
      congr 1
      have hs : √(w ⬝ᵥ w) ≠ 0 := (Real.sqrt_pos.mpr hpos).ne'
      apply le_antisymm
      · refine sup_le le_sup_left ?_
        unfold lspan
        rw [Submodule.span_le]
        intro q hq
        have : q = (1 / √(w ⬝ᵥ w)) • w := by simpa using hq
        rw [this]
        refine Submodule.smul_mem _ _ ?_
        have h1 : a ∈ Submodule.span ℝ {q | q ∈ Q} ⊔ Submodule.span ℝ {q | q ∈ [a]} := Submodule.mem_sup_right (Submodule.subset_span (by simp))
        have h2 : a - w ∈ Submodule.span ℝ {q | q ∈ Q} ⊔ Submodule.span ℝ {q | q ∈ [a]} := Submodule.mem_sup_left (proj_mem Q a)
        have h3 := Submodule.sub_mem _ h1 h2
        rwa [sub_sub_cancel] at h3
      · refine sup_le le_sup_left ?_
        unfold lspan
        rw [Submodule.span_le]
        intro q hq
        have : q = a := by simpa using hq
        rw [this]
        have h1 : a - w ∈ Submodule.span ℝ {q | q ∈ Q} ⊔ Submodule.span ℝ {q | q ∈ [(1 / √(w ⬝ᵥ w)) • w]} := Submodule.mem_sup_left (proj_mem Q a)
        have h2 : (1 / √(w ⬝ᵥ w)) • w ∈ Submodule.span ℝ {q | q ∈ Q} ⊔ Submodule.span ℝ {q | q ∈ [(1 / √(w ⬝ᵥ w)) • w]} :=
          Submodule.mem_sup_right (Submodule.subset_span (by simp))
        have h3 := Submodule.add_mem _ h1 (Submodule.smul_mem _ (√(w ⬝ᵥ w)) h2)
        rw [smul_smul, mul_one_div_cancel hs, one_smul, sub_add_cancel] at h3
        exact h3

theorem orthoCols_nil : OrthoCols ([] : List (Lip.Pt n)) := ⟨List.Pairwise.nil, by simp⟩

/-- `orth` exists. -/
theorem exists_isOrth : ∃ orth : List (Lip.Pt n) → List (Lip.Pt n), IsOrth orth := by
  refine ⟨gs [], fun l => ⟨(gs_spec orthoCols_nil l).1, ?_⟩⟩
  rw [(gs_spec orthoCols_nil l).2]
  have : lspan ([] : List (Lip.Pt n)) = ⊥ := by
    unfold lspan
    simp
  rw [this, bot_sup_eq]

theorem ortho_get {Q : List (Lip.Pt n)} (h : OrthoCols Q) (i j : Fin Q.length) : Q.get i ⬝ᵥ Q.get j = if i = j then 1 else 0 := by
  split_ifs with hij
  · rw [hij]
    exact h.2 _ (List.get_mem _ _)
  · rcases lt_or_gt_of_ne hij with hlt | hlt
    · exact List.pairwise_iff_get.mp h.1 i j hlt
    · rw [dotProduct_comm]
      exact List.pairwise_iff_get.mp h.1 j i hlt

theorem ortho_independent {Q : List (Lip.Pt n)} (h : OrthoCols Q) : LinearIndependent ℝ Q.get := by
  rw [Fintype.linearIndependent_iff]
  intro g hg i
  have h1 := congrArg (fun v => Q.get i ⬝ᵥ v) hg
  simp only [dotProduct_sum, dotProduct_smul, ortho_get h, dotProduct_zero, smul_eq_mul] at h1
  simpa using h1

theorem lspan_range (Q : List (Lip.Pt n)) : lspan Q = Submodule.span ℝ (Set.range Q.get) := by
  unfold lspan
  congr 1
  ext q
  rw [Set.mem_range]
  exact List.mem_iff_get

theorem ortho_finrank {Q : List (Lip.Pt n)} (h : OrthoCols Q) : Module.finrank ℝ (lspan Q) = Q.length := by
  rw [lspan_range, finrank_span_eq_card (ortho_independent h), Fintype.card_fin]

/-- The full QR factorization exists. -/
theorem exists_isQr : ∃ qr : List (Lip.Pt n) → Fin n → Lip.Pt n, IsQr qr := by
  let std : List (Lip.Pt n) := List.ofFn fun i => Pi.single i 1
  have hstd : lspan std = ⊤ := by
    rw [eq_top_iff]
    intro v _
    have : v = ∑ i, v i • (Pi.single i 1 : Lip.Pt n) := by
      funext j
      simp [Finset.sum_apply, Pi.single_apply]
    rw [this]
    refine Submodule.sum_mem _ fun i _ => Submodule.smul_mem _ _ (Submodule.subset_span ?_)
    change _ ∈ List.ofFn _
    rw [List.mem_ofFn]
    exact ⟨i, rfl⟩
  have hall : ∀ l : List (Lip.Pt n), (gs [] (l ++ std)).length = n := by
    intro l
    have h := gs_spec orthoCols_nil (l ++ std)
    rw [← ortho_finrank h.1, h.2, lspan_append, hstd, sup_top_eq, sup_top_eq, finrank_top]
    exact Module.finrank_fin_fun ℝ
  refine ⟨fun l i => (gs [] (l ++ std)).get (Fin.cast (hall l).symm i), fun l => ⟨?_, ?_⟩⟩
  · intro i j
    rw [ortho_get (gs_spec orthoCols_nil (l ++ std)).1]
    simp [Fin.ext_iff]
  · intro a ha
    have h1 : a ∈ lspan (gs [] l) := by
      rw [(gs_spec orthoCols_nil l).2]
      exact Submodule.mem_sup_right (Submodule.subset_span ha)
    have hle := (gs_prefix [] l).2
    have hpre : gs [] l <+: gs [] (l ++ std) := by
      rw [gs_append]
      exact (gs_prefix _ _).1
    refine Submodule.span_mono ?_ h1
    intro q hq
    obtain ⟨k, hk, rfl⟩ := List.getElem_of_mem hq
    have hkn : k < (gs [] (l ++ std)).length := lt_of_lt_of_le hk hpre.length_le
    refine ⟨⟨k, by rw [← hall l]; exact hkn⟩, ?_, ?_⟩
    · simp at hle
      exact lt_of_lt_of_le hk hle
    · exact hpre.getElem hk

/-! ### The hull basis -/

/-- The last columns of a full QR factorization of orthonormal vectors are orthogonal exactly to the span of these. -/
theorem qr_complement {qr : List (Lip.Pt n) → Fin n → Lip.Pt n} (hq : IsQr qr) {l : List (Lip.Pt n)} (hl : OrthoCols l) (v : Lip.Pt n) :
    (∀ q ∈ ((List.finRange n).drop l.length).map (qr l), q ⬝ᵥ v = 0) ↔ v ∈ lspan l := by
  obtain ⟨ho, hs⟩ := hq l
  have hmem : ∀ i : Fin n, i ∈ (List.finRange n).drop l.length ↔ l.length ≤ (i : ℕ) := by
    intro i
    rw [List.mem_drop_iff_getElem]
    constructor
    · rintro ⟨j, hj, rfl⟩
      simp
    · intro h
      refine ⟨i - l.length, by simp; omega, ?_⟩
      simp only [List.getElem_finRange]
      ext
      simp
      omega
  set S := Submodule.span ℝ {q | ∃ i : Fin n, (i : ℕ) < l.length ∧ q = qr l i} with hS
  have hle : lspan l ≤ S := Submodule.span_le.mpr hs
  have hQ : (Matrix.of (qr l)) * (Matrix.of (qr l))ᵀ = 1 := by
    ext i j
    rw [Matrix.mul_apply, Matrix.one_apply]
    exact ho i j
  have hexp : ∀ w : Lip.Pt n, w = ∑ i, (qr l i ⬝ᵥ w) • qr l i := by
    intro w
    have h1 : (Matrix.of (qr l))ᵀ * (Matrix.of (qr l)) = 1 := mul_eq_one_comm.mp hQ
    have h2 : (Matrix.of (qr l))ᵀ *ᵥ ((Matrix.of (qr l)) *ᵥ w) = w := by rw [Matrix.mulVec_mulVec, h1, Matrix.one_mulVec]
    refine h2.symm.trans ?_
    funext j
    rw [Finset.sum_apply]
    change ∑ i : Fin n, (Matrix.of (qr l))ᵀ j i * (Matrix.of (qr l) *ᵥ w) i = _
    refine Finset.sum_congr rfl fun i _ => ?_
    rw [Pi.smul_apply, smul_eq_mul, mul_comm]
    rfl
  have heq : lspan l = S := by
    apply Submodule.eq_of_le_of_finrank_le hle
    rw [ortho_finrank hl]
    have h1 : S = Submodule.span ℝ (((Finset.univ.filter fun i : Fin n => (i : ℕ) < l.length).image (qr l) : Finset (Lip.Pt n)) : Set (Lip.Pt n)) := by
      rw [hS]
      congr 1
      ext q
      simp [eq_comm]
    rw [h1]
    refine (finrank_span_finset_le_card _).trans (Finset.card_image_le.trans ?_)
    have h2 : ((Finset.univ.filter fun i : Fin n => (i : ℕ) < l.length).image fun i : Fin n => (i : ℕ)) ⊆ Finset.range l.length := by
      intro k hk
      obtain ⟨i, hi, rfl⟩ := Finset.mem_image.mp hk
      simpa using hi
    have h3 := Finset.card_le_card h2
    rw [Finset.card_image_of_injective _ Fin.val_injective, Finset.card_range] at h3
    exact h3
  rw [heq]
  constructor
  · intro h
    rw [hexp v]
    refine Submodule.sum_mem _ fun i _ => ?_
    by_cases hi : (i : ℕ) < l.length
    · exact Submodule.smul_mem _ _ (Submodule.subset_span ⟨i, hi, rfl⟩)
    · rw [h (qr l i) (List.mem_map.mpr ⟨i, (hmem i).mpr (by omega), rfl⟩), zero_smul]
      exact Submodule.zero_mem _
  · intro h q hq'
    obtain ⟨i, hi, rfl⟩ := List.mem_map.mp hq'
    rw [hmem] at hi
    induction h using Submodule.span_induction with
    | mem x hx =>
      obtain ⟨j, hj, rfl⟩ := hx
      rw [ho, if_neg]
      rintro rfl
      omega
    | zero => simp
    | add x y _ _ hx hy => rw [dotProduct_add, hx, hy, add_zero]
    | smul c x _ hx => rw [dotProduct_smul, hx, smul_zero]

theorem kept_ortho {L : Matrix (Fin M) (Fin n) ℝ} {d : Samp.Svd p n} (h : Samp.IsSvd L d) : OrthoCols (hullKept d) := by
  have hVV : ∀ i j, d.VT i ⬝ᵥ d.VT j = if i = j then 1 else 0 := by
    intro i j
    have := congrFun (congrFun h.2.1 i) j
    rw [Matrix.mul_apply, Matrix.one_apply] at this
    exact this
  constructor
  · unfold hullKept
    rw [List.pairwise_map]
    have hnd : (Samp.keptIdx d).Nodup := (List.nodup_finRange p).filter _
    refine hnd.imp ?_
    intro a b hab
    rw [hVV, if_neg hab]
  · intro q hq
    obtain ⟨i, _, rfl⟩ := List.mem_map.mp hq
    rw [hVV, if_pos rfl]

theorem kept_span {L : Matrix (Fin M) (Fin n) ℝ} {d : Samp.Svd p n} (h : Samp.IsSvd L d) (hz : ∀ i, d.s i ≤ Samp.svTol → d.s i = 0) :
    lspan (hullKept d) = Submodule.span ℝ (Set.range L) := by
  obtain ⟨⟨U, hU, hL⟩, hV, hs, -⟩ := h
  have hrow : ∀ i, L i = ∑ a, (U i a * d.s a) • d.VT a := by
    intro i
    funext j
    rw [hL, Matrix.mul_apply, Finset.sum_apply]
    refine Finset.sum_congr rfl fun a _ => ?_
    rw [Matrix.mul_diagonal]
    rfl
  have hcol : ∀ a, d.s a • d.VT a = ∑ i, U i a • L i := by
    intro a
    have h1 : Uᵀ * L = Matrix.diagonal d.s * d.VT := by rw [hL, ← Matrix.mul_assoc, ← Matrix.mul_assoc, hU, Matrix.one_mul]
    funext j
    have := congrFun (congrFun h1 a) j
    rw [Matrix.diagonal_mul, Matrix.mul_apply] at this
    rw [Finset.sum_apply]
    exact this.symm
  apply le_antisymm
  · unfold lspan
    rw [Submodule.span_le]
    intro q hq
    obtain ⟨a, ha, rfl⟩ := List.mem_map.mp hq
    rw [Samp.keptIdx_mem] at ha
    have hsa : d.s a ≠ 0 := by
      intro h0
      rw [h0, abs_zero] at ha
      exact absurd ha (not_lt.mpr Samp.svTol_pos.le)
    have h2 : d.VT a = (d.s a)⁻¹ • ∑ i, U i a • L i := by
      rw [← hcol, smul_smul, inv_mul_cancel₀ hsa, one_smul]
    change d.VT a ∈ _
    rw [h2]
    exact Submodule.smul_mem _ _ (Submodule.sum_mem _ fun i _ => Submodule.smul_mem _ _ (Submodule.subset_span ⟨i, rfl⟩))
  · rw [Submodule.span_le]
    rintro _ ⟨i, rfl⟩
    change L i ∈ _
    rw [hrow]
    refine Submodule.sum_mem _ fun a _ => ?_
    by_cases hsa : d.s a ≤ Samp.svTol
    · rw [hz a hsa, mul_zero, zero_smul]
      exact Submodule.zero_mem _
    · refine Submodule.smul_mem _ _ (Submodule.subset_span (List.mem_map.mpr ⟨a, ?_, rfl⟩))
      rw [Samp.keptIdx_mem, abs_of_nonneg (hs a)]
      exact not_le.mp hsa

theorem diff_span (hM : 0 < M) (X : Fin M → Lip.Pt n) : Submodule.span ℝ (Set.range (hullDiff X)) = vectorSpan ℝ (convexHull ℝ (Set.range X)) := by
  have h0 : vectorSpan ℝ (convexHull ℝ (Set.range X)) = vectorSpan ℝ (Set.range X) := by
    rw [← direction_affineSpan, affineSpan_convexHull, direction_affineSpan]
  have hMr : (M : ℝ) ≠ 0 := by exact_mod_cast hM.ne'
  rw [h0]
  apply le_antisymm
  · rw [Submodule.span_le]
    rintro _ ⟨i, rfl⟩
    have h1 : hullDiff X i = (1 / (M : ℝ)) • ∑ j, (X i - X j) := by
      rw [Finset.sum_sub_distrib, Finset.sum_const, Finset.card_univ, Fintype.card_fin, smul_sub, ← Nat.cast_smul_eq_nsmul ℝ, smul_smul, one_div, inv_mul_cancel₀ hMr, one_smul]
      unfold hullDiff
      rw [one_div]
      rfl
    change hullDiff X i ∈ vectorSpan ℝ (Set.range X)
    rw [h1]
    exact Submodule.smul_mem _ _ (Submodule.sum_mem _ fun j _ => vsub_mem_vectorSpan ℝ ⟨i, rfl⟩ ⟨j, rfl⟩)
  · unfold vectorSpan
    rw [Submodule.span_le]
    rintro _ ⟨_, ⟨i, rfl⟩, _, ⟨j, rfl⟩, rfl⟩
    have h2 : (fun x1 x2 : Lip.Pt n => x1 -ᵥ x2) (X i) (X j) = hullDiff X i - hullDiff X j := by
      unfold hullDiff
      change X i - X j = (X i - _) - (X j - _)
      abel
    rw [h2]
    exact Submodule.sub_mem _ (Submodule.subset_span ⟨i, rfl⟩) (Submodule.subset_span ⟨j, rfl⟩)

theorem eqBasis_dot {orth : List (Lip.Pt n) → List (Lip.Pt n)} (ho : IsOrth orth) (Aeq : List (Lip.Pt n)) (v : Lip.Pt n) :
    (∀ q ∈ eqBasis orth Aeq, q ⬝ᵥ v = 0) ↔ ∀ a ∈ Aeq, a ⬝ᵥ v = 0 := by
  unfold eqBasis
  split_ifs with h
  · rw [List.length_eq_zero_iff.mp h]
  · exact orth_dot ho

theorem eqBasis_ortho {orth : List (Lip.Pt n) → List (Lip.Pt n)} (ho : IsOrth orth) (Aeq : List (Lip.Pt n)) : OrthoCols (eqBasis orth Aeq) := by
  unfold eqBasis
  split_ifs
  · exact orthoCols_nil
  · exact (ho _).1

theorem hullEqBasis_ortho {orth : List (Lip.Pt n) → List (Lip.Pt n)} (ho : IsOrth orth) (qr : List (Lip.Pt n) → Fin n → Lip.Pt n) (Aeq : List (Lip.Pt n)) (d : Samp.Svd p n) :
    OrthoCols (hullEqBasis orth qr Aeq d) := by
  unfold hullEqBasis
  split_ifs
  · exact (ho _).1
  · exact eqBasis_ortho ho Aeq

/-- If all singular values of the centred points are nonzero, there are enough points to span the space. -/
theorem full_rank {X : Fin M → Lip.Pt n} (hM : 0 < M) {d : Samp.Svd p n} (hp : p = min M n) (h : Samp.IsSvd (hullDiff X) d) (hs : ∀ i, d.s i ≠ 0) : p = n := by
  obtain ⟨⟨U, hU, hL⟩, hV, -, -⟩ := h
  have hMr : (M : ℝ) ≠ 0 := by exact_mod_cast hM.ne'
  have h1 : (fun _ => (1 : ℝ)) ᵥ* hullDiff X = 0 := by
    funext j
    change ∑ i, 1 * (X i j - ((1 / (M : ℝ)) • ∑ k, X k) j) = 0
    simp only [one_mul, Finset.sum_sub_distrib, Finset.sum_const, Finset.card_univ, Fintype.card_fin, Pi.smul_apply, Finset.sum_apply, smul_eq_mul, nsmul_eq_mul]
    rw [← mul_assoc, mul_one_div_cancel hMr, one_mul, sub_self]
  have h2 : (fun _ => (1 : ℝ)) ᵥ* U = 0 := by
    have h3 : ((fun _ => (1 : ℝ)) ᵥ* hullDiff X) ᵥ* d.VTᵀ = 0 := by rw [h1, Matrix.zero_vecMul]
    rw [hL, Matrix.vecMul_vecMul, Matrix.mul_assoc, hV, Matrix.mul_one, ← Matrix.vecMul_vecMul] at h3
    funext a
    have h4 := congrFun h3 a
    rw [Matrix.vecMul_diagonal] at h4
    exact (mul_eq_zero.mp h4).resolve_right (hs a)
  by_contra hpn
  have hpM : p = M := by omega
  subst hpM
  have h5 : U * Uᵀ = 1 := mul_eq_one_comm.mp hU
  have h6 : (fun _ => (1 : ℝ)) ᵥ* (U * Uᵀ) = 0 := by rw [← Matrix.vecMul_vecMul, h2, Matrix.zero_vecMul]
  rw [h5, Matrix.vecMul_one] at h6
  have := congrFun h6 ⟨0, hM⟩
  simp at this

/-- **C126** A direction is orthogonal to the basis of a hull exactly if it is legal, provided the singular values of the centred points are zero or not
close to zero. -/
theorem hull_basis_partial {orth : List (Lip.Pt n) → List (Lip.Pt n)} (ho : IsOrth orth) {qr : List (Lip.Pt n) → Fin n → Lip.Pt n} (hq : IsQr qr)
    (Aeq : List (Lip.Pt n)) {X : Fin M → Lip.Pt n} (hM : 0 < M) {d : Samp.Svd p n} (hp : p = min M n) (h : Samp.IsSvd (hullDiff X) d)
    (hz : ∀ i, d.s i ≤ Samp.svTol → d.s i = 0) (v : Lip.Pt n) :
    (∀ q ∈ hullEqBasis orth qr Aeq d, q ⬝ᵥ v = 0) ↔ LegalDir Aeq X v := by
  unfold hullEqBasis LegalDir
  have hlen : (hullKept d).length = (Samp.keptIdx d).length := List.length_map _
  split_ifs with hc
  · rw [orth_dot ho, ← diff_span hM, ← kept_span h hz, ← qr_complement hq (kept_ortho h), ← eqBasis_dot ho Aeq v, hlen]
    constructor
    · intro hh
      exact ⟨fun q hq => hh q (List.mem_append_left _ hq), fun q hq => hh q (List.mem_append_right _ hq)⟩
    · rintro ⟨h1, h2⟩ q hq
      rcases List.mem_append.mp hq with hq | hq
      · exact h1 q hq
      · exact h2 q hq
  · rw [eqBasis_dot ho]
    have hall : ∀ i : Fin p, i ∈ Samp.keptIdx d := by
      have h1 : (Samp.keptIdx d).length = (List.finRange p).length := by
        have : (Samp.keptIdx d).length ≤ (List.finRange p).length := List.length_filter_le _ _
        rw [List.length_finRange] at this ⊢
        omega
      have h2 : Samp.keptIdx d = List.finRange p := List.Sublist.eq_of_length List.filter_sublist h1
      intro i
      rw [h2]
      exact List.mem_finRange i
    have hs : ∀ i, d.s i ≠ 0 := by
      intro i h0
      have := (Samp.keptIdx_mem d i).mp (hall i)
      rw [h0, abs_zero] at this
      exact absurd this (not_lt.mpr Samp.svTol_pos.le)
    have hpn := full_rank hM hp h hs
    have htop : lspan (hullKept d) = ⊤ := by
      apply Submodule.eq_top_of_finrank_eq
      rw [ortho_finrank (kept_ortho h), hlen, Module.finrank_fin_fun]
      have : (Samp.keptIdx d).length ≤ (List.finRange p).length := List.length_filter_le _ _
      rw [List.length_finRange] at this
      omega
    rw [← diff_span hM, ← kept_span h hz, htop]
    exact ⟨fun h => ⟨h, Submodule.mem_top⟩, fun h => h.1⟩

/-- **C126** What `random_direction` tries: the projection of the random vector is legal, and legal vectors are not changed. -/
theorem hull_direction_partial {orth : List (Lip.Pt n) → List (Lip.Pt n)} (ho : IsOrth orth) {qr : List (Lip.Pt n) → Fin n → Lip.Pt n} (hq : IsQr qr)
    (Aeq : List (Lip.Pt n)) {X : Fin M → Lip.Pt n} (hM : 0 < M) {d : Samp.Svd p n} (hp : p = min M n) (h : Samp.IsSvd (hullDiff X) d)
    (hz : ∀ i, d.s i ≤ Samp.svTol → d.s i = 0) (v : Lip.Pt n) :
    LegalDir Aeq X (projDir (hullEqBasis orth qr Aeq d) v) ∧ (LegalDir Aeq X v → projDir (hullEqBasis orth qr Aeq d) v = v) :=
  ⟨(hull_basis_partial ho hq Aeq hM hp h hz _).mp (projDir_orth (hullEqBasis_ortho ho qr Aeq d) v),
    fun hv => projDir_fix ((hull_basis_partial ho hq Aeq hM hp h hz v).mpr hv)⟩

/-- **C126** For the other domains: the projection is allowed by the equality constraints, and allowed vectors are not changed. -/
theorem eq_direction {orth : List (Lip.Pt n) → List (Lip.Pt n)} (ho : IsOrth orth) (Aeq : List (Lip.Pt n)) (v : Lip.Pt n) :
    (∀ a ∈ Aeq, a ⬝ᵥ projDir (eqBasis orth Aeq) v = 0) ∧ ((∀ a ∈ Aeq, a ⬝ᵥ v = 0) → projDir (eqBasis orth Aeq) v = v) :=
  ⟨(eqBasis_dot ho Aeq _).mp (projDir_orth (eqBasis_ortho ho Aeq) v), fun hv => projDir_fix ((eqBasis_dot ho Aeq v).mpr hv)⟩

/-! ### A tiny hull -/

/-- The ends of a short interval. -/
noncomputable def tinyX : Fin 2 → Lip.Pt 1 := ![fun _ => 0, fun _ => 2 / 10 ^ 9]

/-- The singular value decomposition of the centred ends. -/
noncomputable def tinyHullSvd : Samp.Svd 1 1 := ⟨fun _ => √2 / 10 ^ 9, Matrix.of fun _ _ => 1⟩

theorem tinyHullSvd_isSvd : Samp.IsSvd (hullDiff tinyX) tinyHullSvd := by
  have h2 : √2 * √2 = (2 : ℝ) := Real.mul_self_sqrt (by norm_num)
  refine ⟨⟨Matrix.of ![![-(√2 / 2)], ![√2 / 2]], ?_, ?_⟩, ?_, ?_, ?_⟩
  · ext i j
    fin_cases i
    fin_cases j
    simp [Matrix.mul_apply, Fin.sum_univ_two]
    nlinarith
  · ext i j
    fin_cases j
    fin_cases i
    · rw [Matrix.mul_apply]
      simp [hullDiff, tinyX, tinyHullSvd, Matrix.mul_diagonal, Fin.sum_univ_two]
      nlinarith
    · rw [Matrix.mul_apply]
      simp [hullDiff, tinyX, tinyHullSvd, Matrix.mul_diagonal, Fin.sum_univ_two]
      nlinarith
  · ext i j
    fin_cases i
    fin_cases j
    rw [Matrix.mul_apply]
    simp [tinyHullSvd]
  · intro i
    simp only [tinyHullSvd]
    positivity
  · intro i j _
    exact le_rfl

/-- **C126** is false of short hulls: no direction is left for the interval of length `2e-9`, although the line is legal. -/
theorem hull_direction_tiny_false {orth : List (Lip.Pt 1) → List (Lip.Pt 1)} (ho : IsOrth orth) {qr : List (Lip.Pt 1) → Fin 1 → Lip.Pt 1} (hq : IsQr qr) :
    LegalDir [] tinyX (fun _ => 1) ∧ ∀ v, projDir (hullEqBasis orth qr [] tinyHullSvd) v = 0 := by
  constructor
  · refine ⟨by simp, ?_⟩
    have h1 : tinyX 1 -ᵥ tinyX 0 ∈ vectorSpan ℝ (convexHull ℝ (Set.range tinyX)) :=
      vsub_mem_vectorSpan ℝ (subset_convexHull ℝ _ ⟨1, rfl⟩) (subset_convexHull ℝ _ ⟨0, rfl⟩)
    have h2 := Submodule.smul_mem _ (10 ^ 9 / 2 : ℝ) h1
    have h3 : (10 ^ 9 / 2 : ℝ) • (tinyX 1 -ᵥ tinyX 0) = (fun _ => 1 : Lip.Pt 1) := by
      funext j
      simp [tinyX]
    rw [h3] at h2
    exact h2
  · intro v
    have hk : Samp.keptIdx tinyHullSvd = [] := by
      rw [List.eq_nil_iff_forall_not_mem]
      intro i hi
      rw [Samp.keptIdx_mem] at hi
      have h1 : |tinyHullSvd.s i| ≤ Samp.svTol := by
        simp only [tinyHullSvd, Samp.svTol]
        have h3 : √2 ≤ (2 : ℝ) := by
          rw [Real.sqrt_le_left (by norm_num)]
          norm_num
        rw [abs_of_nonneg (by positivity)]
        norm_num
        linarith
      exact absurd hi (not_lt.mpr h1)
    have hb := projDir_orth (hullEqBasis_ortho ho qr [] tinyHullSvd) v
    set w := projDir (hullEqBasis orth qr [] tinyHullSvd) v
    unfold hullEqBasis at hb
    rw [hk] at hb
    rw [if_pos (by simp), orth_dot ho] at hb
    have hl : hullKept tinyHullSvd = [] := by
      unfold hullKept
      rw [hk]
      rfl
    have h4 := (qr_complement hq orthoCols_nil w).mp (by
      intro q hq'
      rw [← hl] at hq'
      refine hb q (List.mem_append_right _ ?_)
      rw [hl] at hq' ⊢
      exact hq')
    have h5 : lspan ([] : List (Lip.Pt 1)) = ⊥ := by
      unfold lspan
      simp
    rw [h5] at h4
    exact (Submodule.mem_bot ℝ).mp h4

/-! ### A concrete case -/

/-- A segment in the plane. -/
noncomputable def segX : Fin 2 → Lip.Pt 2 := ![![-1, 0], ![1, 0]]

/-- The hypotheses of `hull_basis_partial` hold for a segment in the plane. -/
example : ∃ d : Samp.Svd 2 2, Samp.IsSvd (hullDiff segX) d ∧ ∀ i, d.s i ≤ Samp.svTol → d.s i = 0 := by
  have h2 : √2 * √2 = (2 : ℝ) := Real.mul_self_sqrt (by norm_num)
  have h3 : (1 : ℝ) ≤ √2 := by
    rw [Real.one_le_sqrt]
    norm_num
  refine ⟨⟨![√2, 0], 1⟩, ⟨⟨Matrix.of ![![-(√2 / 2), √2 / 2], ![√2 / 2, √2 / 2]], ?_, ?_⟩, ?_, ?_, ?_⟩, ?_⟩
  · ext i j
    fin_cases i <;> fin_cases j <;> simp [Matrix.mul_apply, Fin.sum_univ_two] <;> nlinarith
  · ext i j
    rw [Matrix.mul_one, Matrix.mul_diagonal]
    fin_cases i <;> fin_cases j <;> simp [hullDiff, segX, Fin.sum_univ_two] <;> nlinarith
  · simp
  · intro i
    fin_cases i <;> simp
  · intro i j hij
    fin_cases i <;> fin_cases j <;> simp at hij ⊢
  · intro i hi
    fin_cases i
    · simp [Samp.svTol] at hi
      norm_num at hi
      linarith
    · simp

end Verif.Domain
