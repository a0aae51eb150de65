import Verif.Opt.KktModel
import Verif.Opt.SeqLPProps
import Mathlib.Analysis.Convex.Topology
import Mathlib.Analysis.LocallyConvex.Separation
import Mathlib.Analysis.Convex.Combination

/-!
# C107: the stationarity measure

Source: `/repo/psdr/seqlp.py` 86-122.
-/

namespace Verif.Opt

open Classical Verif.Domain Verif.Lip Matrix

variable {m q : ℕ}

/-! ### Specification -/

/-- The residual of nonnegative least squares: attained and minimal. -/
def NnlsExact (nnls : NnlsRes) : Prop := ∀ (ι κ : Type) [Fintype ι] [Fintype κ] (A : ι → κ → ℝ) (b : κ → ℝ),
  (∃ c : ι → ℝ, (∀ i, 0 ≤ c i) ∧ nnls ι κ A b = Real.sqrt (∑ k, (∑ i, c i * A i k - b k) ^ 2)) ∧
  ∀ c : ι → ℝ, (∀ i, 0 ≤ c i) → nnls ι κ A b ≤ Real.sqrt (∑ k, (∑ i, c i * A i k - b k) ^ 2)

/-- No step decreases the linearization of the objective. -/
def Stationary (n : SNorm) (fx : Pt q) (J : Matrix (Fin q) (Fin m) ℝ) : Prop :=
  ∀ p : Pt m, ∀ a b, objfun n fx = .ok a → objfun n (fx + J *ᵥ p) = .ok b → a ≤ b

/-! ### Consistency of the system -/

theorem nnls_zero_iff {nnls : NnlsRes} (hn : NnlsExact nnls) (ι κ : Type) [Fintype ι] [Fintype κ] (A : ι → κ → ℝ) (b : κ → ℝ) :
    nnls ι κ A b = 0 ↔ ∃ c : ι → ℝ, (∀ i, 0 ≤ c i) ∧ ∀ k, ∑ i, c i * A i k = b k := by
  have hz : ∀ c : ι → ℝ, Real.sqrt (∑ k, (∑ i, c i * A i k - b k) ^ 2) = 0 ↔ ∀ k, ∑ i, c i * A i k = b k := by
    intro c
    rw [Real.sqrt_eq_zero (Finset.sum_nonneg fun k _ => sq_nonneg _), Finset.sum_eq_zero_iff_of_nonneg fun k _ => sq_nonneg _]
    simp [sub_eq_zero]
  obtain ⟨⟨c, hc, e⟩, hmin⟩ := hn ι κ A b
  constructor
  · intro h
    exact ⟨c, hc, (hz c).1 (e ▸ h)⟩
  · rintro ⟨c', hc', h⟩
    have h1 := hmin c' hc'
    rw [(hz c').2 h] at h1
    rw [e] at h1 ⊢
    exact le_antisymm h1 (Real.sqrt_nonneg _)

/-! ### Alternative theorem -/

/-- A finite family of vectors has zero as a convex combination, or there is a direction with negative products. -/
theorem gordan {ι : Type} [Fintype ι] (g : ι → Pt m) :
    (∃ c : ι → ℝ, (∀ i, 0 ≤ c i) ∧ ∑ i, c i = 1 ∧ ∀ j, ∑ i, c i * g i j = 0) ∨ ∃ p : Pt m, ∀ i, g i ⬝ᵥ p < 0 := by
  by_cases h0 : (0 : Pt m) ∈ convexHull ℝ (Set.range g)
  · left
    obtain ⟨κ, _, w, a, hw0, hw1, ha, hs⟩ := mem_convexHull_iff_exists_fintype.1 h0
    choose idx hidx using ha
    refine ⟨fun i => ∑ k, if idx k = i then w k else 0, fun i => Finset.sum_nonneg fun k _ => ?_, ?_, fun j => ?_⟩
    · split_ifs
      · exact hw0 k
      · exact le_rfl
    · rw [Finset.sum_comm]
      simpa using hw1
    · have h := congrFun hs j
      rw [Finset.sum_apply] at h
      simp only [Pi.smul_apply, smul_eq_mul, Pi.zero_apply, ← hidx] at h
      refine Eq.trans ?_ h
      simp only [Finset.sum_mul]
      rw [Finset.sum_comm]
      refine Finset.sum_congr rfl fun k _ => ?_
      rw [Finset.sum_eq_single (idx k)]
      · simp
      · intro b _ hb
        rw [if_neg (fun h => hb h.symm), zero_mul]
      · simp
  · right
    have hc : IsCompact (convexHull ℝ (Set.range g)) := (Set.finite_range g).isCompact_convexHull ℝ
    obtain ⟨f, u, h1, h2⟩ := geometric_hahn_banach_closed_point (convex_convexHull ℝ _) hc.isClosed h0
    refine ⟨fun j => f (Pi.single j 1), fun i => ?_⟩
    have hf : f (g i) = g i ⬝ᵥ fun j => f (Pi.single j 1) := by
      conv_lhs => rw [pi_eq_sum_univ' (g i)]
      simp [dotProduct]
    rw [← hf]
    have := h1 (g i) (subset_convexHull ℝ _ ⟨i, rfl⟩)
    rw [map_zero] at h2
    linarith

/-! ### The Euclidean norm -/

theorem nrm_expand (fx v : Pt q) : nrm (fx + v) ^ 2 = nrm fx ^ 2 + 2 * (fx ⬝ᵥ v) + nrm v ^ 2 := by
  rw [nrm_sq, nrm_sq, nrm_sq]
  simp only [dotProduct_add, add_dotProduct]
  rw [dotProduct_comm v fx]
  ring

theorem nrm_zero_iff (v : Pt q) : nrm v = 0 ↔ v = 0 := by
  constructor
  · intro h
    have := nrm_sq v
    rw [h] at this
    exact dotProduct_self_eq_zero.1 (by simpa using this.symm)
  · rintro rfl
    have := nrm_sq (0 : Pt q)
    simpa using this

/-- **C107** for the Euclidean norm: the measure is zero exactly at the stationary points. -/
theorem kkt_two (nnls : NnlsRes) (fx : Pt q) (J : Matrix (Fin q) (Fin m) ℝ) :
    kktNorm nnls .two fx J = .ok (some 0) ↔ Stationary .two fx J := by
  have hl : kktNorm nnls .two fx J = .ok (some 0) ↔ Jᵀ *ᵥ fx = 0 := by
    simp [kktNorm, nrm_zero_iff]
  rw [hl]
  have hdot : ∀ p, fx ⬝ᵥ (J *ᵥ p) = (Jᵀ *ᵥ fx) ⬝ᵥ p := by
    intro p
    rw [dotProduct_mulVec, Matrix.mulVec_transpose]
  have hst : Stationary .two fx J ↔ ∀ p : Pt m, nrm fx ≤ nrm (fx + J *ᵥ p) := by
    simp [Stationary, objfun]
  rw [hst]
  constructor
  · intro h p
    have e := nrm_expand fx (J *ᵥ p)
    rw [hdot, h, zero_dotProduct] at e
    have h0 := nrm_nonneg fx
    have h1 := nrm_nonneg (fx + J *ᵥ p)
    nlinarith [sq_nonneg (nrm (J *ᵥ p))]
  · intro h
    by_contra hne
    set g := Jᵀ *ᵥ fx with hg
    have hgg : 0 < g ⬝ᵥ g := lt_of_le_of_ne (dotProduct_self_nonneg' g) fun h0 => hne (dotProduct_self_eq_zero.1 h0.symm)
    set c := nrm (J *ᵥ g) ^ 2 with hc
    have hc0 : 0 ≤ c := sq_nonneg _
    -- a short step along the negative gradient
    set t := (g ⬝ᵥ g) / (c + 1) with ht
    have ht0 : 0 < t := div_pos hgg (by linarith)
    have hs := h (-t • g)
    have e := nrm_expand fx (J *ᵥ (-t • g))
    rw [hdot, dotProduct_smul] at e
    have e2 : nrm (J *ᵥ (-t • g)) ^ 2 = t ^ 2 * c := by
      rw [Matrix.mulVec_smul, hc, nrm_sq, nrm_sq, smul_dotProduct, dotProduct_smul]
      simp only [smul_eq_mul]
      ring
    rw [e2, smul_eq_mul] at e
    have h3 : t * (c + 1) = g ⬝ᵥ g := div_mul_cancel₀ _ (by linarith)
    have h0 := nrm_nonneg fx
    have hsq : nrm fx ^ 2 ≤ nrm (fx + J *ᵥ (-t • g)) ^ 2 := pow_le_pow_left₀ h0 hs 2
    rw [e] at hsq
    nlinarith

/-! ### The maximum norm -/

theorem maxAbs_spec (hq : 0 < q) (fx : Pt q) : (∀ i, |fx i| ≤ maxAbs hq fx) ∧ ∃ i, maxAbs hq fx = |fx i| := by
  constructor
  · intro i
    exact Finset.le_sup' (fun i => |fx i|) (Finset.mem_univ i)
  · obtain ⟨i, -, hi⟩ := Finset.exists_mem_eq_sup' (s := Finset.univ) ⟨⟨0, hq⟩, Finset.mem_univ _⟩ fun i : Fin q => |fx i|
    exact ⟨i, hi⟩

theorem kkt_inf_iff {nnls : NnlsRes} (hn : NnlsExact nnls) (hq : 0 < q) (fx : Pt q) (J : Matrix (Fin q) (Fin m) ℝ) :
    kktNorm nnls .inf fx J = .ok (some 0) ↔ ∃ c : {s // |conInf (maxAbs hq fx) fx s| < 1e-10} → ℝ, (∀ s, 0 ≤ c s) ∧ ∑ s, c s = 1 ∧
      ∀ j, ∑ s, c s * gradInf J s.1 (.inl j) = 0 := by
  have : kktNorm nnls .inf fx J = .ok (some 0) ↔
      nnls {s // |conInf (maxAbs hq fx) fx s| < 1e-10} (Fin m ⊕ Unit) (fun s => gradInf J s.1) rhsInf = 0 := by
    simp [kktNorm, hq]
  rw [this, nnls_zero_iff hn]
  refine exists_congr fun c => and_congr_right fun _ => ?_
  constructor
  · intro h
    refine ⟨?_, fun j => h (.inl j)⟩
    have := h (.inr ())
    have e : ∀ s : {s // |conInf (maxAbs hq fx) fx s| < 1e-10}, c s * gradInf J s.1 (.inr ()) = -c s := by
      rintro ⟨s | s, hs⟩ <;> simp [gradInf]
    simp only [e, Finset.sum_neg_distrib, rhsInf] at this
    linarith
  · rintro ⟨h1, h2⟩ (j | j)
    · exact h2 j
    · have e : ∀ s : {s // |conInf (maxAbs hq fx) fx s| < 1e-10}, c s * gradInf J s.1 (.inr j) = -c s := by
        rintro ⟨s | s, hs⟩ <;> simp [gradInf]
      simp only [e, Finset.sum_neg_distrib, rhsInf, h1]

/-- The signed value of a component. -/
def signed (v : Pt q) : Fin q ⊕ Fin q → ℝ
  | .inl i => v i
  | .inr i => -v i

theorem signed_le (hq : 0 < q) (v : Pt q) (s : Fin q ⊕ Fin q) : signed v s ≤ maxAbs hq v := by
  cases s with
  | inl i => exact (le_abs_self _).trans ((maxAbs_spec hq v).1 i)
  | inr i => exact (neg_le_abs _).trans ((maxAbs_spec hq v).1 i)

theorem maxAbs_lt (hq : 0 < q) (v : Pt q) {t : ℝ} (h : ∀ s, signed v s < t) : maxAbs hq v < t := by
  obtain ⟨i, hi⟩ := (maxAbs_spec hq v).2
  rw [hi]
  exact abs_lt.2 ⟨by have := h (.inr i); simp only [signed] at this; linarith, h (.inl i)⟩

theorem conInf_eq (t : ℝ) (fx : Pt q) (s : Fin q ⊕ Fin q) : conInf t fx s = signed fx s - t := by
  cases s <;> rfl

theorem signed_step (fx : Pt q) (J : Matrix (Fin q) (Fin m) ℝ) (p : Pt m) (s : Fin q ⊕ Fin q) :
    signed (fx + J *ᵥ p) s = signed fx s + (fun j => gradInf J s (.inl j)) ⬝ᵥ p := by
  cases s with
  | inl i => simp [signed, gradInf, Matrix.mulVec, dotProduct]
  | inr i => simp [signed, gradInf, Matrix.mulVec, dotProduct]; ring

/-- **C107** for the maximum norm: when the measure is zero, no step decreases the linearization by more than the threshold
`1e-10` that decides which components are active. -/
theorem kkt_inf_stationary {nnls : NnlsRes} (hn : NnlsExact nnls) (hq : 0 < q) (fx : Pt q) (J : Matrix (Fin q) (Fin m) ℝ)
    (h : kktNorm nnls .inf fx J = .ok (some 0)) (p : Pt m) : maxAbs hq fx - 1e-10 ≤ maxAbs hq (fx + J *ᵥ p) := by
  obtain ⟨c, h0, h1, h2⟩ := (kkt_inf_iff hn hq fx J).1 h
  have e1 : ∑ s, c s * signed (fx + J *ᵥ p) s.1 = ∑ s, c s * signed fx s.1 := by
    simp only [signed_step, mul_add, Finset.sum_add_distrib]
    have : ∑ s, c s * ((fun j => gradInf J s.1 (.inl j)) ⬝ᵥ p) = 0 := by
      simp only [dotProduct, Finset.mul_sum]
      rw [Finset.sum_comm]
      refine Finset.sum_eq_zero fun j _ => ?_
      have := h2 j
      calc ∑ s, c s * (gradInf J s.1 (.inl j) * p j) = (∑ s, c s * gradInf J s.1 (.inl j)) * p j := by
            rw [Finset.sum_mul]; exact Finset.sum_congr rfl fun s _ => by ring
        _ = 0 := by rw [this, zero_mul]
    rw [this, add_zero]
  have e2 : maxAbs hq fx - 1e-10 ≤ ∑ s, c s * signed fx s.1 := by
    calc maxAbs hq fx - 1e-10 = ∑ s, c s * (maxAbs hq fx - 1e-10) := by rw [← Finset.sum_mul, h1, one_mul]
      _ ≤ ∑ s, c s * signed fx s.1 := Finset.sum_le_sum fun s _ => by
          refine mul_le_mul_of_nonneg_left ?_ (h0 s)
          have := s.2
          rw [conInf_eq, abs_lt] at this
          linarith [this.1]
  have e3 : ∑ s, c s * signed (fx + J *ᵥ p) s.1 ≤ maxAbs hq (fx + J *ᵥ p) := by
    calc ∑ s, c s * signed (fx + J *ᵥ p) s.1 ≤ ∑ s, c s * maxAbs hq (fx + J *ᵥ p) := Finset.sum_le_sum fun s _ =>
          mul_le_mul_of_nonneg_left (signed_le hq _ _) (h0 s)
      _ = maxAbs hq (fx + J *ᵥ p) := by rw [← Finset.sum_mul, h1, one_mul]
  linarith

/-- **C107** for the maximum norm: the measure is zero at stationary points. -/
theorem kkt_inf_zero {nnls : NnlsRes} (hn : NnlsExact nnls) (hq : 0 < q) (fx : Pt q) (J : Matrix (Fin q) (Fin m) ℝ)
    (h : Stationary .inf fx J) : kktNorm nnls .inf fx J = .ok (some 0) := by
  have hst : ∀ p : Pt m, maxAbs hq fx ≤ maxAbs hq (fx + J *ᵥ p) := by
    intro p
    exact h p _ _ (by simp [objfun, hq, maxAbs]) (by simp [objfun, hq, maxAbs])
  rw [kkt_inf_iff hn hq]
  rcases gordan (fun (s : {s // |conInf (maxAbs hq fx) fx s| < 1e-10}) (j : Fin m) => gradInf J s.1 (.inl j)) with hc | ⟨p, hp⟩
  · exact hc
  exfalso
  -- a short step decreases all signed components
  set B : ℝ := ∑ s : Fin q ⊕ Fin q, |(fun j => gradInf J s (.inl j)) ⬝ᵥ p| with hB
  have hB0 : 0 ≤ B := Finset.sum_nonneg fun s _ => abs_nonneg _
  have hBs : ∀ s, |(fun j => gradInf J s (.inl j)) ⬝ᵥ p| ≤ B := fun s =>
    Finset.single_le_sum (f := fun s => |(fun j => gradInf J s (.inl j)) ⬝ᵥ p|) (fun s _ => abs_nonneg _) (Finset.mem_univ s)
  set t : ℝ := 1e-11 / (B + 1) with ht
  have ht0 : 0 < t := div_pos (by norm_num) (by linarith)
  have htB : t * (B + 1) = 1e-11 := div_mul_cancel₀ _ (by linarith)
  refine absurd (hst (t • p)) (not_le.2 (maxAbs_lt hq _ fun s => ?_))
  rw [signed_step, dotProduct_smul, smul_eq_mul]
  by_cases hs : |conInf (maxAbs hq fx) fx s| < 1e-10
  · have h1 := hp ⟨s, hs⟩
    have h2 := signed_le hq fx s
    nlinarith
  · rw [conInf_eq, abs_of_nonpos (by linarith [signed_le hq fx s])] at hs
    push Not at hs
    have h1 := (abs_le.1 (hBs s)).2
    have h2 : t * ((fun j => gradInf J s (.inl j)) ⬝ᵥ p) ≤ t * (B + 1) := mul_le_mul_of_nonneg_left (by linarith) ht0.le
    rw [htB] at h2
    norm_num at hs h2 ⊢
    linarith

/-! ### The 1-norm -/

theorem con_one_active (fx : Pt q) (s : Fin q ⊕ Fin q) : |conOne fx s| = 0 ↔ (match s with | .inl i => 0 ≤ fx i | .inr i => fx i ≤ 0) := by
  cases s with
  | inl i =>
    simp only [conOne, abs_eq_zero, sub_eq_zero]
    rw [eq_comm, abs_eq_self]
  | inr i =>
    simp only [conOne, abs_eq_zero, sub_eq_zero]
    rw [eq_comm, abs_eq_neg_self]

theorem kkt_one_system {nnls : NnlsRes} (hn : NnlsExact nnls) (hq : 0 < q) (fx : Pt q) (J : Matrix (Fin q) (Fin m) ℝ) :
    kktNorm nnls .one fx J = .ok (some 0) ↔ ∃ c : {s // |conOne fx s| = 0} → ℝ, (∀ s, 0 ≤ c s) ∧ ∑ s, c s = 1 ∧
      ∀ j, ∑ s, c s * gradOne J s.1 (.inl j) = 0 := by
  have : kktNorm nnls .one fx J = .ok (some 0) ↔
      nnls {s // |conOne fx s| = 0} (Fin m ⊕ Fin q) (fun s => gradOne J s.1) rhsOne = 0 := by
    simp [kktNorm]
  rw [this, nnls_zero_iff hn]
  refine exists_congr fun c => and_congr_right fun _ => ?_
  have e : ∀ (k : Fin q) (s : {s // |conOne fx s| = 0}), c s * gradOne J s.1 (.inr k) = -c s := by
    rintro k ⟨s | s, hs⟩ <;> simp [gradOne]
  constructor
  · intro h
    refine ⟨?_, fun j => h (.inl j)⟩
    have := h (.inr ⟨0, hq⟩)
    simp only [e, Finset.sum_neg_distrib, rhsOne] at this
    linarith
  · rintro ⟨h1, h2⟩ (j | j)
    · exact h2 j
    · simp only [e, Finset.sum_neg_distrib, rhsOne, h1]

theorem gradOne_dot (J : Matrix (Fin q) (Fin m) ℝ) (p : Pt m) (s : Fin q ⊕ Fin q) :
    (fun j => gradOne J s (.inl j)) ⬝ᵥ p = signed (J *ᵥ p) s := by
  cases s with
  | inl i => simp [signed, gradOne, Matrix.mulVec, dotProduct]
  | inr i => simp [signed, gradOne, Matrix.mulVec, dotProduct]

/-- **C107** for the 1-norm: what the measure decides. It is zero exactly if no step decreases all components at once. -/
theorem kkt_one_iff {nnls : NnlsRes} (hn : NnlsExact nnls) (hq : 0 < q) (fx : Pt q) (J : Matrix (Fin q) (Fin m) ℝ) :
    kktNorm nnls .one fx J = .ok (some 0) ↔ ∀ p : Pt m, ∃ i, |fx i| ≤ |(fx + J *ᵥ p) i| := by
  rw [kkt_one_system hn hq]
  constructor
  · rintro ⟨c, h0, h1, h2⟩ p
    by_contra hno
    push Not at hno
    have e : ∑ s, c s * signed (J *ᵥ p) s.1 = 0 := by
      simp only [← gradOne_dot, dotProduct, Finset.mul_sum]
      rw [Finset.sum_comm]
      refine Finset.sum_eq_zero fun j _ => ?_
      calc ∑ s, c s * (gradOne J s.1 (.inl j) * p j) = (∑ s, c s * gradOne J s.1 (.inl j)) * p j := by
            rw [Finset.sum_mul]; exact Finset.sum_congr rfl fun s _ => by ring
        _ = 0 := by rw [h2, zero_mul]
    have hneg : ∀ s : {s // |conOne fx s| = 0}, signed (J *ᵥ p) s.1 < 0 := by
      rintro ⟨s, hs⟩
      rw [con_one_active] at hs
      cases s with
      | inl i =>
        have := hno i
        simp only at hs
        rw [abs_of_nonneg hs] at this
        have h3 := (le_abs_self _).trans_lt this
        simp only [Pi.add_apply] at h3
        simp only [signed]
        linarith
      | inr i =>
        have := hno i
        simp only at hs
        rw [abs_of_nonpos hs] at this
        have h3 := (neg_le_abs _).trans_lt this
        simp only [Pi.add_apply] at h3
        simp only [signed]
        linarith
    obtain ⟨s, -, hs⟩ : ∃ s ∈ Finset.univ, 0 < c s := by
      by_contra hc
      push Not at hc
      have : ∑ s, c s ≤ 0 := Finset.sum_nonpos hc
      linarith
    have : ∑ s, c s * signed (J *ᵥ p) s.1 < 0 := Finset.sum_neg' (fun s _ => mul_nonpos_of_nonneg_of_nonpos (h0 s) (hneg s).le)
      ⟨s, Finset.mem_univ s, mul_neg_of_pos_of_neg hs (hneg s)⟩
    linarith
  · intro h
    rcases gordan (fun (s : {s // |conOne fx s| = 0}) (j : Fin m) => gradOne J s.1 (.inl j)) with hc | ⟨p, hp⟩
    · exact hc
    exfalso
    have hp' : ∀ s, |conOne fx s| = 0 → signed (J *ᵥ p) s < 0 := fun s hs => by
      have := hp ⟨s, hs⟩
      rwa [gradOne_dot] at this
    have hpos : ∀ i, 0 ≤ fx i → (J *ᵥ p) i < 0 := fun i hi => hp' (.inl i) ((con_one_active _ _).2 hi)
    have hneg : ∀ i, fx i ≤ 0 → 0 < (J *ᵥ p) i := fun i hi => by
      have := hp' (.inr i) ((con_one_active _ _).2 hi)
      simp only [signed] at this
      linarith
    have hne : ∀ i, fx i ≠ 0 := fun i hi => lt_asymm (hpos i hi.ge) (hneg i hi.le)
    obtain ⟨i0, -, hi0⟩ := Finset.exists_min_image Finset.univ (fun i => |fx i|) ⟨⟨0, hq⟩, Finset.mem_univ _⟩
    have hδ : 0 < |fx i0| := abs_pos.2 (hne i0)
    set B : ℝ := ∑ i, |(J *ᵥ p) i| with hB
    have hBs : ∀ i, |(J *ᵥ p) i| ≤ B := fun i => Finset.single_le_sum (f := fun i => |(J *ᵥ p) i|) (fun s _ => abs_nonneg _) (Finset.mem_univ i)
    have hB0 : 0 ≤ B := Finset.sum_nonneg fun s _ => abs_nonneg _
    set t : ℝ := |fx i0| / (B + 1) with ht
    have ht0 : 0 < t := div_pos hδ (by linarith)
    have htB : t * (B + 1) = |fx i0| := div_mul_cancel₀ _ (by linarith)
    obtain ⟨i, hi⟩ := h (t • p)
    refine absurd hi (not_le.2 ?_)
    have hmin := hi0 i (Finset.mem_univ i)
    have hb := hBs i
    rw [Matrix.mulVec_smul, Pi.add_apply, Pi.smul_apply, smul_eq_mul]
    rcases le_total 0 (fx i) with hs | hs
    · have h1 := hpos i hs
      rw [abs_of_nonneg hs] at hmin ⊢
      rw [abs_of_neg h1] at hb
      rw [abs_of_nonneg (by nlinarith)]
      nlinarith
    · have h1 := hneg i hs
      rw [abs_of_nonpos hs] at hmin ⊢
      rw [abs_of_pos h1] at hb
      rw [abs_of_nonpos (by nlinarith)]
      nlinarith

theorem objfun_one (fx : Pt q) : objfun .one fx = .ok (∑ i, |fx i|) := by
  simp [objfun]

/-- **C107** for the 1-norm: the measure is zero at stationary points. -/
theorem kkt_one_zero {nnls : NnlsRes} (hn : NnlsExact nnls) (fx : Pt q) (J : Matrix (Fin q) (Fin m) ℝ)
    (h : Stationary .one fx J) : kktNorm nnls .one fx J = .ok (some 0) := by
  rcases Nat.eq_zero_or_pos q with rfl | hq
  · have : nnls {s // |conOne fx s| = 0} (Fin m ⊕ Fin 0) (fun s => gradOne J s.1) rhsOne = 0 := by
      rw [nnls_zero_iff hn]
      refine ⟨fun _ => 0, fun _ => le_rfl, ?_⟩
      rintro (j | j)
      · simp [rhsOne]
      · exact j.elim0
    simp [kktNorm, this]
  · rw [kkt_one_iff hn hq]
    intro p
    by_contra hno
    push Not at hno
    have := h p _ _ (objfun_one _) (objfun_one _)
    exact absurd this (not_le.2 (Finset.sum_lt_sum_of_nonempty ⟨⟨0, hq⟩, Finset.mem_univ _⟩ fun i _ => hno i))

/-- **C107** fails for the 1-norm: the measure is zero as soon as one component is zero, whatever the others are. -/
theorem kkt_one_component {nnls : NnlsRes} (hn : NnlsExact nnls) (fx : Pt q) (J : Matrix (Fin q) (Fin m) ℝ) (i : Fin q) (hi : fx i = 0) :
    kktNorm nnls .one fx J = .ok (some 0) :=
  (kkt_one_iff hn i.pos fx J).2 fun p => ⟨i, by rw [hi, abs_zero]; exact abs_nonneg _⟩

/-- **C107** fails for the 1-norm: with `f = (0, 1)` and `J = (0, 1)` the step `-1` reaches the minimum, but the measure is zero. -/
theorem kkt_one_false {nnls : NnlsRes} (hn : NnlsExact nnls) :
    kktNorm nnls .one (![0, 1] : Pt 2) !![0; 1] = .ok (some 0) ∧ ¬ Stationary .one (![0, 1] : Pt 2) (!![0; 1] : Matrix (Fin 2) (Fin 1) ℝ) := by
  refine ⟨kkt_one_component hn _ _ 0 rfl, fun h => ?_⟩
  have := h ![-1] _ _ (objfun_one _) (objfun_one _)
  simp [Matrix.mulVec, dotProduct, Fin.sum_univ_two] at this
  norm_num at this

/-! ### The remaining cases -/

/-- **C107**: for the other norms no measure is computed. -/
theorem kkt_nan (nnls : NnlsRes) (fx : Pt q) (J : Matrix (Fin q) (Fin m) ℝ) :
    kktNorm nnls .none fx J = .ok none ∧ kktNorm nnls .hinge fx J = .ok none := ⟨rfl, rfl⟩

/-- **C107**: the measure fails only for the maximum norm of an empty vector. -/
theorem kkt_ok_iff (nnls : NnlsRes) (n : SNorm) (fx : Pt q) (J : Matrix (Fin q) (Fin m) ℝ) :
    (∃ v, kktNorm nnls n fx J = .ok v) ↔ (n = .inf → 0 < q) := by
  cases n <;> simp [kktNorm]
  split_ifs with h <;> simp [h]

/-- **C107**: the measure is never negative. -/
theorem kkt_nonneg {nnls : NnlsRes} (hn : NnlsExact nnls) (n : SNorm) (fx : Pt q) (J : Matrix (Fin q) (Fin m) ℝ) {v : ℝ}
    (h : kktNorm nnls n fx J = .ok (some v)) : 0 ≤ v := by
  have key : ∀ (ι κ : Type) [Fintype ι] [Fintype κ] (A : ι → κ → ℝ) (b : κ → ℝ), 0 ≤ nnls ι κ A b := by
    intro ι κ _ _ A b
    obtain ⟨⟨c, -, e⟩, -⟩ := hn ι κ A b
    rw [e]
    exact Real.sqrt_nonneg _
  cases n with
  | inf =>
    simp only [kktNorm] at h
    split_ifs at h
    simp only [Except.ok.injEq, Option.some.injEq] at h
    exact h ▸ key _ _ _ _
  | one =>
    simp only [kktNorm, Except.ok.injEq, Option.some.injEq] at h
    exact h ▸ key _ _ _ _
  | two =>
    simp only [kktNorm, Except.ok.injEq, Option.some.injEq] at h
    exact h ▸ nrm_nonneg _
  | none => simp [kktNorm] at h
  | hinge => simp [kktNorm] at h

/-! ### Exact nonnegative least squares exists -/

theorem sum_extend {ι κ : Type} [Fintype ι] (A : ι → κ → ℝ) (P : ι → Prop) (g : {i // P i} → ℝ) :
    ∑ i, (if h : P i then g ⟨i, h⟩ else 0) • A i = ∑ i : {i // P i}, g i • A i.1 := by
  symm
  refine Finset.sum_of_injOn Subtype.val Subtype.val_injective.injOn (fun _ _ => Finset.mem_coe.2 (Finset.mem_univ _)) (fun i _ hi => ?_) (fun i _ => ?_)
  · rw [dif_neg, zero_smul]
    intro h
    exact hi ⟨⟨i, h⟩, by simp, rfl⟩
  · rw [dif_pos i.2]

/-- Nonnegative combinations can be taken of linearly independent vectors. -/
theorem conic_independent {ι κ : Type} [Fintype ι] [Fintype κ] (A : ι → κ → ℝ) :
    ∀ (n : ℕ) (c : ι → ℝ), (Finset.univ.filter fun i => c i ≠ 0).card = n → (∀ i, 0 ≤ c i) →
      ∃ c' : ι → ℝ, (∀ i, 0 ≤ c' i) ∧ ∑ i, c' i • A i = ∑ i, c i • A i ∧ LinearIndependent ℝ fun i : {i // c' i ≠ 0} => A i.1 := by
  intro n
  induction n using Nat.strong_induction_on with
  | _ n ih =>
    intro c hn h0
    by_cases hli : LinearIndependent ℝ fun i : {i // c i ≠ 0} => A i.1
    · exact ⟨c, h0, rfl, hli⟩
    obtain ⟨g, hg, i1, hi1⟩ := Fintype.not_linearIndependent_iff.1 hli
    -- a relation with a positive coefficient, supported in the support of `c`
    obtain ⟨g, hgs, hg, i1, hi1⟩ : ∃ g : ι → ℝ, (∀ i, c i = 0 → g i = 0) ∧ ∑ i, g i • A i = 0 ∧ ∃ i, 0 < g i := by
      have key : ∀ g : {i // c i ≠ 0} → ℝ, ∑ i, g i • A i.1 = 0 → ∀ i1, 0 < g i1 →
          ∃ g : ι → ℝ, (∀ i, c i = 0 → g i = 0) ∧ ∑ i, g i • A i = 0 ∧ ∃ i, 0 < g i := by
        intro g hg i1 hi1
        refine ⟨fun i => if h : c i ≠ 0 then g ⟨i, h⟩ else 0, fun i hi => by simp [hi], ?_, i1.1, by simpa [i1.2] using hi1⟩
        rw [← hg]
        convert sum_extend A (fun i => c i ≠ 0) g
      rcases lt_or_gt_of_ne hi1 with h | h
      · exact key (fun i => -g i) (by simp [hg]) i1 (by linarith)
      · exact key g hg i1 h
    obtain ⟨i0, hi0, hmin⟩ := Finset.exists_min_image (Finset.univ.filter fun i => 0 < g i) (fun i => c i / g i) ⟨i1, by simp [hi1]⟩
    simp only [Finset.mem_filter, Finset.mem_univ, true_and] at hi0 hmin
    set t := c i0 / g i0 with ht
    have ht0 : 0 ≤ t := div_nonneg (h0 i0) hi0.le
    have hc0 : c i0 ≠ 0 := fun h => by rw [hgs i0 h] at hi0; exact lt_irrefl _ hi0
    have h0' : ∀ i, 0 ≤ c i - t * g i := by
      intro i
      rcases lt_or_ge 0 (g i) with h | h
      · have := (le_div_iff₀ h).1 (hmin i h)
        linarith
      · nlinarith [h0 i]
    have hlt : (Finset.univ.filter fun i => c i - t * g i ≠ 0).card < n := by
      rw [← hn]
      refine Finset.card_lt_card ⟨fun i hi => ?_, fun hsub => ?_⟩
      · simp only [Finset.mem_filter, Finset.mem_univ, true_and] at hi ⊢
        intro h
        exact hi (by rw [h, hgs i h]; ring)
      · have := hsub (by simp [hc0] : i0 ∈ Finset.univ.filter fun i => c i ≠ 0)
        simp only [Finset.mem_filter, Finset.mem_univ, true_and] at this
        exact this (by rw [ht, div_mul_cancel₀ _ hi0.ne', sub_self])
    obtain ⟨c', e1, e2, e3⟩ := ih _ hlt (fun i => c i - t * g i) rfl h0'
    refine ⟨c', e1, ?_, e3⟩
    rw [e2]
    simp only [sub_smul, Finset.sum_sub_distrib, mul_smul]
    rw [← Finset.smul_sum, hg, smul_zero, sub_zero]

/-- The nonnegative combinations of finitely many vectors form a closed set. -/
theorem conic_closed {ι κ : Type} [Fintype ι] [Fintype κ] (A : ι → κ → ℝ) :
    IsClosed {y : κ → ℝ | ∃ c : ι → ℝ, (∀ i, 0 ≤ c i) ∧ ∑ i, c i • A i = y} := by
  have : {y : κ → ℝ | ∃ c : ι → ℝ, (∀ i, 0 ≤ c i) ∧ ∑ i, c i • A i = y} =
      ⋃ I ∈ {I : Set ι | LinearIndependent ℝ fun i : I => A i.1}, (fun c : I → ℝ => ∑ i, c i • A i.1) '' {c | ∀ i, 0 ≤ c i} := by
    ext y
    simp only [Set.mem_setOf_eq, Set.mem_iUnion, Set.mem_image, exists_prop]
    constructor
    · rintro ⟨c, h0, rfl⟩
      obtain ⟨c', e1, e2, e3⟩ := conic_independent A _ c rfl h0
      refine ⟨{i | c' i ≠ 0}, e3, fun i => c' i.1, fun i => e1 i.1, ?_⟩
      rw [← e2]
      refine (sum_extend A (fun i => c' i ≠ 0) fun i => c' i.1).symm.trans (Finset.sum_congr rfl fun i _ => ?_)
      by_cases h : c' i = 0 <;> simp [h]
    · rintro ⟨I, -, c, h0, rfl⟩
      refine ⟨fun i => if h : i ∈ I then c ⟨i, h⟩ else 0, fun i => ?_, ?_⟩
      · dsimp only
        split_ifs
        · exact h0 _
        · exact le_rfl
      · exact sum_extend A (· ∈ I) c
  rw [this]
  refine Set.Finite.isClosed_biUnion (Set.toFinite _) fun I hI => ?_
  have hcl := (LinearMap.isClosedEmbedding_of_injective (f := Fintype.linearCombination ℝ fun i : I => A i.1)
    (LinearMap.ker_eq_bot.2 (linearIndependent_iff_injective_fintypeLinearCombination.1 hI))).isClosedMap
  refine hcl _ ?_
  simp only [Set.setOf_forall]
  exact isClosed_iInter fun i => isClosed_le continuous_const (continuous_apply i)

/-- Exact nonnegative least squares exists. -/
theorem exists_nnls_exact : ∃ nnls : NnlsRes, NnlsExact nnls := by
  have key : ∀ (ι κ : Type) [Fintype ι] [Fintype κ] (A : ι → κ → ℝ) (b : κ → ℝ), ∃ r : ℝ,
      (∃ c : ι → ℝ, (∀ i, 0 ≤ c i) ∧ r = Real.sqrt (∑ k, (∑ i, c i * A i k - b k) ^ 2)) ∧
      ∀ c : ι → ℝ, (∀ i, 0 ≤ c i) → r ≤ Real.sqrt (∑ k, (∑ i, c i * A i k - b k) ^ 2) := by
    intro ι κ _ _ A b
    have hcl : IsClosed {y : EuclideanSpace ℝ κ | ∃ c : ι → ℝ, (∀ i, 0 ≤ c i) ∧ ∑ i, c i • A i = WithLp.ofLp y} :=
      (conic_closed A).preimage (PiLp.continuous_ofLp 2 _)
    have hd : ∀ c : ι → ℝ, dist (WithLp.toLp 2 b : EuclideanSpace ℝ κ) (WithLp.toLp 2 (∑ i, c i • A i)) =
        Real.sqrt (∑ k, (∑ i, c i * A i k - b k) ^ 2) := by
      intro c
      rw [dist_comm, EuclideanSpace.dist_eq]
      congr 1
      refine Finset.sum_congr rfl fun k _ => ?_
      rw [Real.dist_eq, sq_abs]
      simp [Finset.sum_apply]
    obtain ⟨y, ⟨c, h0, hy⟩, hmin⟩ := hcl.exists_infDist_eq_dist ⟨0, 0, fun _ => le_rfl, by simp⟩ (WithLp.toLp 2 b)
    have hy' : y = WithLp.toLp 2 (∑ i, c i • A i) := by rw [hy]
    refine ⟨dist (WithLp.toLp 2 b : EuclideanSpace ℝ κ) y, ⟨c, h0, by rw [hy', hd]⟩, fun c' h0' => ?_⟩
    rw [← hd, ← hmin]
    exact Metric.infDist_le_dist_of_mem ⟨c', h0', rfl⟩
  choose nnls h using key
  exact ⟨nnls, h⟩

/-! ### Non-vacuity -/

/-- Two components, one parameter: at `f = (1, -1)` with `J = (1, 1)` no step decreases the maximum, and the measure is zero. -/
example : ∃ nnls : NnlsRes, NnlsExact nnls ∧ Stationary .inf (![1, -1] : Pt 2) (!![1; 1] : Matrix (Fin 2) (Fin 1) ℝ) ∧
    kktNorm nnls .inf (![1, -1] : Pt 2) (!![1; 1] : Matrix (Fin 2) (Fin 1) ℝ) = .ok (some 0) := by
  obtain ⟨nnls, hn⟩ := exists_nnls_exact
  have hst : Stationary .inf (![1, -1] : Pt 2) (!![1; 1] : Matrix (Fin 2) (Fin 1) ℝ) := by
    intro p a b ha hb
    have h2 : 0 < 2 := by norm_num
    have ha' : a = maxAbs h2 (![1, -1] : Pt 2) := by simpa [objfun, maxAbs] using ha.symm
    have hb' : b = maxAbs h2 ((![1, -1] : Pt 2) + (!![1; 1] : Matrix (Fin 2) (Fin 1) ℝ) *ᵥ p) := by
      simpa [objfun, maxAbs] using hb.symm
    rw [ha', hb']
    have e : maxAbs h2 (![1, -1] : Pt 2) = 1 := by
      obtain ⟨i, hi⟩ := (maxAbs_spec h2 (![1, -1] : Pt 2)).2
      rw [hi]
      fin_cases i <;> simp
    have e' : (![1, -1] : Pt 2) + (!![1; 1] : Matrix (Fin 2) (Fin 1) ℝ) *ᵥ p = ![1 + p 0, -1 + p 0] := by
      ext i; fin_cases i <;> simp [Matrix.mulVec, dotProduct]
    rw [e, e']
    have h0 := signed_le h2 ![1 + p 0, -1 + p 0] (.inl 0)
    have h1 := signed_le h2 ![1 + p 0, -1 + p 0] (.inr 1)
    simp [signed] at h0 h1
    linarith
  exact ⟨nnls, hn, hst, kkt_inf_zero hn (by norm_num) _ _ hst⟩

/-- At `f = (1, 1)` with the same Jacobian the step `-1` decreases the maximum: the measure is not zero. -/
example (nnls : NnlsRes) (hn : NnlsExact nnls) :
    kktNorm nnls .inf (![1, 1] : Pt 2) (!![1; 1] : Matrix (Fin 2) (Fin 1) ℝ) ≠ .ok (some 0) := by
  intro h
  have h2 : 0 < 2 := by norm_num
  have h1 := kkt_inf_stationary hn h2 _ _ h ![-1]
  have e : (![1, 1] : Pt 2) + (!![1; 1] : Matrix (Fin 2) (Fin 1) ℝ) *ᵥ ![-1] = 0 := by
    ext i; fin_cases i <;> simp [Matrix.mulVec, dotProduct]
  rw [e] at h1
  obtain ⟨i, hi⟩ := (maxAbs_spec h2 (0 : Pt 2)).2
  have h3 := signed_le h2 (![1, 1] : Pt 2) (.inl 0)
  simp only [signed] at h3
  rw [hi] at h1
  norm_num at h1 h3
  linarith

end Verif.Opt
