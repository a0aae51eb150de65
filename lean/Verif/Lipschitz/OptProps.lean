import Verif.Lipschitz.FitExists
import Verif.Lipschitz.ConstProps
import Mathlib.Topology.Order.Compact
import Mathlib.Topology.Instances.Matrix

/-!
# The Lipschitz matrix is a smallest one, and its symmetries (C129)
-/

namespace Verif.Lip

open Verif Matrix

variable {m : ℕ}

/-! ## Specification -/

/-- `H` is symmetric, positive semidefinite, and consistent up to `e` with the samples and gradients. -/
structure Admissible (e : ℝ) (data : List (Pt m × ℝ)) (grads : List (Pt m)) (H : Matrix (Fin m) (Fin m) ℝ) : Prop where
  symm : Hᵀ = H
  psd : ∀ x, 0 ≤ quad H x
  samples : ∀ d ∈ data, ∀ d' ∈ data, |d.2 - d'.2| ≤ √(quad H (d.1 - d'.1)) + e
  grads : ∀ g ∈ grads, ∀ v, |g ⬝ᵥ v| ≤ √(quad H v)

/-- A Lipschitz matrix of the data: consistent, of smallest trace. -/
def IsLipMatrix (e : ℝ) (data : List (Pt m × ℝ)) (grads : List (Pt m)) (H : Matrix (Fin m) (Fin m) ℝ) : Prop :=
  Admissible e data grads H ∧ ∀ H', Admissible e data grads H' → trace H ≤ trace H'

/-- What the semidefinite solvers are trusted with: a feasible matrix of smallest trace, and an answer whenever there is a feasible matrix. -/
structure BuildOpt (build : Build m) : Prop where
  feasible : BuildSpec build
  minimal : ∀ data grads e H H', 0 ≤ e → build data grads e = some H → CvxpyFeasible data grads e H' → trace H ≤ trace H'
  complete : ∀ data grads e, 0 ≤ e → (∃ H, CvxpyFeasible data grads e H) → ∃ H, build data grads e = some H

/-! ## The constraints -/

theorem quad_smul_mat (c : ℝ) (A : Matrix (Fin m) (Fin m) ℝ) (x : Pt m) : quad (c • A) x = c * quad A x := by
  simp [quad, smul_mulVec, dotProduct_smul]

theorem feasible_admissible {e : ℝ} (he : 0 ≤ e) (data : List (Pt m × ℝ)) (grads : List (Pt m)) (H : Matrix (Fin m) (Fin m) ℝ) :
    CvxpyFeasible data grads e H ↔ Admissible e data grads H := by
  constructor
  · rintro ⟨h1, h2, h3, h4⟩
    have h2' : ∀ x, 0 ≤ quad H x := fun x => by have := h2 x; rwa [quad_zero] at this
    have hpair : ∀ p ∈ pairsOf data, |p.1.2 - p.2.2| ≤ √(quad H (p.1.1 - p.2.1)) + e := by
      intro p hp
      by_cases hlt : e < |p.1.2 - p.2.2|
      · have := h3 p hp ((slack2_pos_iff _ _ _).2 hlt)
        unfold slack2 at this
        rw [max_eq_left (by linarith)] at this
        have := Real.le_sqrt_of_sq_le this
        linarith
      · linarith [Real.sqrt_nonneg (quad H (p.1.1 - p.2.1))]
    refine ⟨h1, h2', fun d hd d' hd' => ?_, fun g hg v => ?_⟩
    · rcases pairsOf_cases hd hd' with rfl | h | h
      · rw [sub_self, abs_zero]; linarith [Real.sqrt_nonneg (quad H (d.1 - d.1))]
      · exact hpair _ h
      · have := hpair _ h
        rw [abs_sub_comm, show d.1 - d'.1 = (-1 : ℝ) • (d'.1 - d.1) by simp, quad_smul]
        simpa using this
    · have := h4 g hg v
      rw [quad_outer] at this
      rw [← Real.sqrt_sq_eq_abs]
      exact Real.sqrt_le_sqrt this
  · rintro ⟨h1, h2, h3, h4⟩
    refine ⟨h1, fun x => by rw [quad_zero]; exact h2 x, fun p hp hpos => ?_, fun g hg x => ?_⟩
    · have hlt := (slack2_pos_iff _ _ _).1 hpos
      obtain ⟨hm1, hm2⟩ := pairsOf_mem hp
      have := h3 _ hm1 _ hm2
      unfold slack2
      rw [max_eq_left (by linarith)]
      have h5 : |p.1.2 - p.2.2| - e ≤ √(quad H (p.1.1 - p.2.1)) := by linarith
      calc (|p.1.2 - p.2.2| - e) ^ 2 ≤ √(quad H (p.1.1 - p.2.1)) ^ 2 := pow_le_pow_left₀ (by linarith) h5 2
        _ = _ := Real.sq_sqrt (h2 _)
    · rw [quad_outer, ← Real.sq_sqrt (h2 x), ← sq_abs]
      exact pow_le_pow_left₀ (abs_nonneg _) (h4 g hg x) 2

/-- Changing the units of the output, and shifting it. -/
theorem admissible_output {e : ℝ} {c d : ℝ} (hc : c ≠ 0) (data : List (Pt m × ℝ)) (grads : List (Pt m)) (H : Matrix (Fin m) (Fin m) ℝ) :
    Admissible (|c| * e) (data.map fun p => (p.1, c * p.2 + d)) (grads.map fun g => c • g) (c ^ 2 • H) ↔ Admissible e data grads H := by
  have hc2 : 0 < c ^ 2 := by positivity
  have hca : 0 < |c| := abs_pos.2 hc
  have hsq : ∀ x, √(quad (c ^ 2 • H) x) = |c| * √(quad H x) := fun x => by
    rw [quad_smul_mat, Real.sqrt_mul hc2.le, Real.sqrt_sq_eq_abs]
  constructor
  · rintro ⟨h1, h2, h3, h4⟩
    refine ⟨?_, fun x => ?_, fun p hp q hq => ?_, fun g hg v => ?_⟩
    · rw [transpose_smul] at h1
      exact smul_right_injective _ hc2.ne' h1
    · have := h2 x
      rw [quad_smul_mat] at this
      exact (mul_nonneg_iff_of_pos_left hc2).1 this
    · have := h3 _ (List.mem_map.2 ⟨p, hp, rfl⟩) _ (List.mem_map.2 ⟨q, hq, rfl⟩)
      simp only at this
      rw [hsq, show c * p.2 + d - (c * q.2 + d) = c * (p.2 - q.2) by ring, abs_mul, ← mul_add] at this
      exact (mul_le_mul_iff_right₀ hca).1 this
    · have := h4 _ (List.mem_map.2 ⟨g, hg, rfl⟩) v
      rw [hsq, smul_dotProduct, smul_eq_mul, abs_mul] at this
      exact (mul_le_mul_iff_right₀ hca).1 this
  · rintro ⟨h1, h2, h3, h4⟩
    refine ⟨by rw [transpose_smul, h1], fun x => by rw [quad_smul_mat]; exact mul_nonneg hc2.le (h2 x), fun p hp q hq => ?_, fun g hg v => ?_⟩
    · obtain ⟨p, hp', rfl⟩ := List.mem_map.1 hp
      obtain ⟨q, hq', rfl⟩ := List.mem_map.1 hq
      simp only
      rw [hsq, show c * p.2 + d - (c * q.2 + d) = c * (p.2 - q.2) by ring, abs_mul, ← mul_add]
      exact mul_le_mul_of_nonneg_left (h3 p hp' q hq') hca.le
    · obtain ⟨g, hg', rfl⟩ := List.mem_map.1 hg
      rw [hsq, smul_dotProduct, smul_eq_mul, abs_mul]
      exact mul_le_mul_of_nonneg_left (h4 g hg' v) hca.le

/-- C129: changing the units of the output. -/
theorem lipMatrix_output {e : ℝ} {c d : ℝ} (hc : c ≠ 0) (data : List (Pt m × ℝ)) (grads : List (Pt m)) (H : Matrix (Fin m) (Fin m) ℝ) :
    IsLipMatrix (|c| * e) (data.map fun p => (p.1, c * p.2 + d)) (grads.map fun g => c • g) (c ^ 2 • H) ↔ IsLipMatrix e data grads H := by
  have hc2 : 0 < c ^ 2 := by positivity
  unfold IsLipMatrix
  rw [admissible_output hc]
  refine and_congr_right fun _ => ⟨fun h H' hH' => ?_, fun h H' hH' => ?_⟩
  · have := h _ ((admissible_output (d := d) hc data grads H').2 hH')
    simp only [trace_smul, smul_eq_mul] at this
    exact (mul_le_mul_iff_right₀ hc2).1 this
  · have hH'' : H' = c ^ 2 • ((c ^ 2)⁻¹ • H') := by rw [smul_smul, mul_inv_cancel₀ hc2.ne', one_smul]
    rw [hH''] at hH' ⊢
    have := h _ ((admissible_output (d := d) hc data grads _).1 hH')
    simp only [trace_smul, smul_eq_mul] at this ⊢
    exact mul_le_mul_of_nonneg_left this hc2.le

/-- Rotating, reflecting and shifting the input. -/
theorem admissible_rotate {e : ℝ} {Q : Matrix (Fin m) (Fin m) ℝ} (hQ : Qᵀ * Q = 1) (t : Pt m) (data : List (Pt m × ℝ)) (grads : List (Pt m))
    (H : Matrix (Fin m) (Fin m) ℝ) :
    Admissible e (data.map fun p => (Q *ᵥ p.1 + t, p.2)) (grads.map fun g => Q *ᵥ g) (Q * H * Qᵀ) ↔ Admissible e data grads H := by
  have hQ' : Q * Qᵀ = 1 := mul_eq_one_comm.1 hQ
  have hq : ∀ x, quad (Q * H * Qᵀ) x = quad H (Qᵀ *ᵥ x) := fun x => by
    unfold quad
    rw [← mulVec_mulVec, ← mulVec_mulVec, dotProduct_mulVec, ← mulVec_transpose]
  have hq' : ∀ x, quad (Q * H * Qᵀ) (Q *ᵥ x) = quad H x := fun x => by rw [hq, mulVec_mulVec, hQ, one_mulVec]
  have hd : ∀ p q : Pt m × ℝ, (Q *ᵥ p.1 + t) - (Q *ᵥ q.1 + t) = Q *ᵥ (p.1 - q.1) := fun p q => by rw [mulVec_sub]; abel
  have hback : ∀ x, Q *ᵥ (Qᵀ *ᵥ x) = x := fun x => by rw [mulVec_mulVec, hQ', one_mulVec]
  have hdot : ∀ g x, (Q *ᵥ g) ⬝ᵥ (Q *ᵥ x) = g ⬝ᵥ x := fun g x => by
    rw [dotProduct_mulVec, ← mulVec_transpose, mulVec_mulVec, hQ, one_mulVec]
  constructor
  · rintro ⟨h1, h2, h3, h4⟩
    refine ⟨?_, fun x => by rw [← hq']; exact h2 _, fun p hp q hq1 => ?_, fun g hg v => ?_⟩
    · have := congrArg (fun M => Qᵀ * M * Q) h1
      simp only [transpose_mul, transpose_transpose] at this
      have e1 : ∀ M : Matrix (Fin m) (Fin m) ℝ, Qᵀ * (Q * (M * Qᵀ)) * Q = M := fun M => by
        rw [← Matrix.mul_assoc Qᵀ Q, hQ, Matrix.one_mul, Matrix.mul_assoc, hQ, Matrix.mul_one]
      rw [Matrix.mul_assoc Q H, e1, e1] at this
      exact this
    · have := h3 _ (List.mem_map.2 ⟨p, hp, rfl⟩) _ (List.mem_map.2 ⟨q, hq1, rfl⟩)
      simp only [hd, hq'] at this
      exact this
    · have := h4 _ (List.mem_map.2 ⟨g, hg, rfl⟩) (Q *ᵥ v)
      rwa [hq', hdot] at this
  · rintro ⟨h1, h2, h3, h4⟩
    refine ⟨by rw [transpose_mul, transpose_mul, transpose_transpose, h1, Matrix.mul_assoc], fun x => by rw [hq]; exact h2 _, fun p hp q hq1 => ?_, fun g hg v => ?_⟩
    · obtain ⟨p, hp', rfl⟩ := List.mem_map.1 hp
      obtain ⟨q, hq2, rfl⟩ := List.mem_map.1 hq1
      simp only [hd, hq']
      exact h3 p hp' q hq2
    · obtain ⟨g, hg', rfl⟩ := List.mem_map.1 hg
      rw [hq]
      have := h4 g hg' (Qᵀ *ᵥ v)
      rwa [← hdot, hback] at this

theorem trace_rotate {Q : Matrix (Fin m) (Fin m) ℝ} (hQ : Qᵀ * Q = 1) (H : Matrix (Fin m) (Fin m) ℝ) : trace (Q * H * Qᵀ) = trace H := by
  rw [trace_mul_comm, ← Matrix.mul_assoc, hQ, Matrix.one_mul]

/-- C129: rotating, reflecting and shifting the input. -/
theorem lipMatrix_rotate {e : ℝ} {Q : Matrix (Fin m) (Fin m) ℝ} (hQ : Qᵀ * Q = 1) (t : Pt m) (data : List (Pt m × ℝ)) (grads : List (Pt m))
    (H : Matrix (Fin m) (Fin m) ℝ) :
    IsLipMatrix e (data.map fun p => (Q *ᵥ p.1 + t, p.2)) (grads.map fun g => Q *ᵥ g) (Q * H * Qᵀ) ↔ IsLipMatrix e data grads H := by
  have hQ' : Q * Qᵀ = 1 := mul_eq_one_comm.1 hQ
  unfold IsLipMatrix
  rw [admissible_rotate hQ, trace_rotate hQ]
  refine and_congr_right fun _ => ⟨fun h H' hH' => ?_, fun h H' hH' => ?_⟩
  · have := h _ ((admissible_rotate hQ t data grads H').2 hH')
    rwa [trace_rotate hQ] at this
  · have e1 : H' = Q * (Qᵀ * H' * Q) * Qᵀ := by
      rw [Matrix.mul_assoc Qᵀ, ← Matrix.mul_assoc Q, hQ', Matrix.one_mul, Matrix.mul_assoc, hQ', Matrix.mul_one]
    rw [e1] at hH' ⊢
    rw [trace_rotate hQ]
    exact h _ ((admissible_rotate hQ t data grads _).1 hH')

/-- C129: more data never allow a smaller matrix; the order of the data and repetitions are irrelevant. -/
theorem lipMatrix_mono {e e' : ℝ} (he : e' ≤ e) {data data' : List (Pt m × ℝ)} {grads grads' : List (Pt m)} (hd : data ⊆ data') (hg : grads ⊆ grads')
    {H H' : Matrix (Fin m) (Fin m) ℝ} (h : IsLipMatrix e data grads H) (h' : IsLipMatrix e' data' grads' H') : trace H ≤ trace H' :=
  h.2 H' ⟨h'.1.symm, h'.1.psd, fun d hd1 d' hd2 => (h'.1.samples d (hd hd1) d' (hd hd2)).trans (by linarith), fun g hg1 => h'.1.grads g (hg hg1)⟩

theorem lipMatrix_same {e : ℝ} {data data' : List (Pt m × ℝ)} {grads grads' : List (Pt m)} (hd : ∀ d, d ∈ data ↔ d ∈ data') (hg : ∀ g, g ∈ grads ↔ g ∈ grads')
    (H : Matrix (Fin m) (Fin m) ℝ) : IsLipMatrix e data grads H ↔ IsLipMatrix e data' grads' H := by
  have : ∀ H, Admissible e data grads H ↔ Admissible e data' grads' H := fun H =>
    ⟨fun ⟨a, b, c, d⟩ => ⟨a, b, fun p hp q hq => c p ((hd p).2 hp) q ((hd q).2 hq), fun g hg' => d g ((hg g).2 hg')⟩,
     fun ⟨a, b, c, d⟩ => ⟨a, b, fun p hp q hq => c p ((hd p).1 hp) q ((hd q).1 hq), fun g hg' => d g ((hg g).1 hg')⟩⟩
  unfold IsLipMatrix
  simp only [this]

/-- C129: the Lipschitz matrix is never larger than that of the Lipschitz constant. -/
theorem lipMatrix_constant {e c : ℝ} {data : List (Pt m × ℝ)} {grads : List (Pt m)} (hc : ConstOk e data grads c) {H : Matrix (Fin m) (Fin m) ℝ}
    (h : IsLipMatrix e data grads H) : trace H ≤ m * c ^ 2 := by
  obtain ⟨h1, h2⟩ := constant_matrix hc
  have hq : ∀ x, quad (c ^ 2 • (1 : Matrix (Fin m) (Fin m) ℝ)) x = lnorm (c • (1 : Matrix (Fin m) (Fin m) ℝ)) x ^ 2 := fun x => by
    rw [quad_smul_one]
    unfold lnorm
    rw [nrm_sq, smul_mulVec, one_mulVec, smul_dotProduct, dotProduct_smul]
    simp only [smul_eq_mul]; ring
  have hs : ∀ x, √(quad (c ^ 2 • (1 : Matrix (Fin m) (Fin m) ℝ)) x) = lnorm (c • (1 : Matrix (Fin m) (Fin m) ℝ)) x := fun x => by
    rw [hq]; exact Real.sqrt_sq (nrm_nonneg _)
  have := h.2 (c ^ 2 • 1) ⟨by simp, fun x => by rw [hq]; positivity, fun d hd d' hd' => by rw [hs]; exact h1 d hd d' hd', fun g hg v => by rw [hs]; exact h2 g hg v⟩
  rw [trace_smul, trace_one, Fintype.card_fin, smul_eq_mul, mul_comm] at this
  exact this

/-- C129: directions orthogonal to all gradients and to all differences of samples are ignored. -/
theorem lipMatrix_ignores {e : ℝ} {data : List (Pt m × ℝ)} {grads : List (Pt m)} {H : Matrix (Fin m) (Fin m) ℝ} (h : IsLipMatrix e data grads H) (u : Pt m)
    (hd : ∀ d ∈ data, ∀ d' ∈ data, u ⬝ᵥ (d.1 - d'.1) = 0) (hg : ∀ g ∈ grads, u ⬝ᵥ g = 0) : H *ᵥ u = 0 := by
  obtain ⟨⟨h1, h2, h3, h4⟩, hmin⟩ := h
  by_cases hu : u = 0
  · rw [hu, mulVec_zero]
  have hn : 0 < u ⬝ᵥ u := by
    have := nrm_pos_of_ne hu
    rw [← nrm_sq]; positivity
  set P : Matrix (Fin m) (Fin m) ℝ := 1 - (u ⬝ᵥ u)⁻¹ • outer u with hP
  have houter : ∀ x, outer u *ᵥ x = (u ⬝ᵥ x) • u := fun x => by
    ext i
    simp only [mulVec, dotProduct, outer, of_apply, Pi.smul_apply, smul_eq_mul, Finset.sum_mul]
    exact Finset.sum_congr rfl fun j _ => by ring
  have hPx : ∀ x, P *ᵥ x = x - ((u ⬝ᵥ u)⁻¹ * (u ⬝ᵥ x)) • u := fun x => by
    rw [hP, sub_mulVec, one_mulVec, smul_mulVec, houter, smul_smul]
  have hPfix : ∀ x, u ⬝ᵥ x = 0 → P *ᵥ x = x := fun x hx => by rw [hPx, hx, mul_zero, zero_smul, sub_zero]
  have hPs : Pᵀ = P := by
    rw [hP, transpose_sub, transpose_one, transpose_smul]
    congr 2
    ext i j; simp [outer, mul_comm]
  have hPP : P * P = P := by
    have key : ∀ x, (P * P) *ᵥ x = P *ᵥ x := fun x => by
      rw [← mulVec_mulVec]
      apply hPfix
      rw [hPx, dotProduct_sub, dotProduct_smul, smul_eq_mul]
      field_simp
      ring
    exact Matrix.ext_of_mulVec_single fun i => key _
  have hq : ∀ x, quad (P * H * P) x = quad H (P *ᵥ x) := fun x => by
    unfold quad
    rw [← mulVec_mulVec, ← mulVec_mulVec, dotProduct_mulVec, ← mulVec_transpose, hPs]
  have hdotP : ∀ g, u ⬝ᵥ g = 0 → ∀ v, g ⬝ᵥ v = g ⬝ᵥ (P *ᵥ v) := fun g hgu v => by
    rw [hPx, dotProduct_sub, dotProduct_smul, dotProduct_comm g u, hgu, smul_zero, sub_zero]
  have hadm : Admissible e data grads (P * H * P) := by
    refine ⟨by rw [transpose_mul, transpose_mul, hPs, h1, Matrix.mul_assoc], fun x => by rw [hq]; exact h2 _, fun d hd1 d' hd2 => ?_, fun g hg1 v => ?_⟩
    · rw [hq, hPfix _ (hd d hd1 d' hd2)]; exact h3 d hd1 d' hd2
    · rw [hq, hdotP g (hg g hg1)]; exact h4 g hg1 _
  have htr : trace (P * H * P) = trace H - (u ⬝ᵥ u)⁻¹ * quad H u := by
    rw [trace_mul_comm, ← Matrix.mul_assoc, hPP, hP, Matrix.sub_mul, Matrix.one_mul, trace_sub, smul_mul, trace_smul, smul_eq_mul]
    congr 2
    simp only [trace, diag, mul_apply, outer, of_apply, quad, dotProduct, mulVec, Finset.mul_sum]
    rw [Finset.sum_comm]
    refine Finset.sum_congr rfl fun i _ => Finset.sum_congr rfl fun j _ => ?_
    ring
  have hle := hmin _ hadm
  rw [htr] at hle
  have hq0 : quad H u = 0 := by
    have h5 : (u ⬝ᵥ u)⁻¹ * quad H u ≤ 0 := by linarith
    have h6 : 0 < (u ⬝ᵥ u)⁻¹ := inv_pos.2 hn
    nlinarith [h2 u]
  -- a positive semidefinite form vanishing at `u` has `u` in its kernel
  by_contra hne
  set w := H *ᵥ u with hw
  have hw0 : 0 < w ⬝ᵥ w := by
    have := nrm_pos_of_ne hne
    rw [← nrm_sq]; positivity
  have hexp : ∀ t : ℝ, quad H (u + t • w) = 2 * t * (w ⬝ᵥ w) + t ^ 2 * quad H w := fun t => by
    have hsw : u ⬝ᵥ (H *ᵥ w) = w ⬝ᵥ w := by
      rw [dotProduct_mulVec, ← mulVec_transpose, h1]
    have : quad H (u + t • w) = quad H u + t * (u ⬝ᵥ (H *ᵥ w)) + t * (w ⬝ᵥ (H *ᵥ u)) + t ^ 2 * quad H w := by
      unfold quad
      simp only [mulVec_add, mulVec_smul, dotProduct_add, add_dotProduct, smul_dotProduct, dotProduct_smul, smul_eq_mul]
      ring
    rw [this, hq0, hsw, ← hw]; ring
  have hqw := h2 w
  have := h2 (u + (-(w ⬝ᵥ w) / (quad H w + 1)) • w)
  rw [hexp] at this
  have hp : 0 < quad H w + 1 := by linarith
  set t := -(w ⬝ᵥ w) / (quad H w + 1) with ht
  have htm : t * (quad H w + 1) = -(w ⬝ᵥ w) := by rw [ht]; field_simp
  have htn : t < 0 := by rw [ht]; exact div_neg_of_neg_of_pos (by linarith) hp
  nlinarith [mul_pos_of_neg_of_neg htn htn]

/-! ## The fit -/

theorem scaled_admissible {e s : ℝ} (hs : 0 < s) (data : List (Pt m × ℝ)) (grads : List (Pt m)) (H : Matrix (Fin m) (Fin m) ℝ) :
    Admissible (e / s) (scaleData s data) (scaleGrads s grads) H ↔ Admissible e data grads (s ^ 2 • H) := by
  have h := admissible_output (e := e) (c := s⁻¹) (d := 0) (inv_ne_zero hs.ne') data grads (s ^ 2 • H)
  rw [smul_smul, inv_pow, inv_mul_cancel₀ (by positivity), one_smul, abs_of_pos (inv_pos.2 hs)] at h
  rw [← h, div_eq_inv_mul]
  have e1 : scaleData s data = data.map fun p => (p.1, s⁻¹ * p.2 + 0) := by
    unfold scaleData
    exact List.map_congr_left fun p _ => by rw [add_zero, div_eq_inv_mul]
  rw [e1]; rfl

/-- The answer of the solver in the original units, if no column of the eigenvectors is given the sign zero. -/
theorem finishFit_H (eigh : EighFn m) (he : EighSpec eigh) (data : List (Pt m × ℝ)) (g : List (Pt m)) (s : ℝ) (H : Matrix (Fin m) (Fin m) ℝ)
    (hH : Hᵀ = H) (hpsd : ∀ x, 0 ≤ quad H x) (hsg : g = [] ∨ ∀ k, meanGrad (scaleGrads s g) (ucol (eigh H).2 k) ≠ 0) :
    (finishFit eigh data g s H).H = s ^ 2 • H := by
  obtain ⟨h1, h2⟩ := he H hH
  obtain ⟨σ, hσ, -, h11⟩ := fixSigns_form (Matrix.of (fun i j : Fin m => (eigh H).2 i j.rev)) (scaleData s data) (scaleGrads s g)
  have hs1 : ∀ k, σ k * σ k = 1 := by
    apply h11
    rcases hsg with rfl | h
    · left; rfl
    · right; intro k
      exact h k.rev
  have hew : ∀ k, 0 ≤ (eigh H).1 k := by
    intro k
    have h3 : 0 ≤ quad ((eigh H).2 * (diagonal (eigh H).1 * (eigh H).2ᵀ)) (ucol (eigh H).2 k) := by
      rw [← Matrix.mul_assoc, ← h2]; exact hpsd _
    rw [quad_diag, Finset.sum_eq_single k] at h3
    · have : ucol (eigh H).2 k ⬝ᵥ ucol (eigh H).2 k = 1 := by
        have := congrFun (congrFun h1 k) k
        rwa [Matrix.mul_apply, Matrix.one_apply_eq] at this
      rwa [this, one_pow, mul_one] at h3
    · intro j _ hj
      have : ucol (eigh H).2 j ⬝ᵥ ucol (eigh H).2 k = 0 := by
        have := congrFun (congrFun h1 j) k
        rwa [Matrix.mul_apply, Matrix.one_apply_ne hj] at this
      rw [this]; ring
    · simp
  simp only [finishFit]
  rw [hσ]
  congr 1
  conv_rhs => rw [h2, rev_form]
  rw [transpose_mul, diagonal_transpose, Matrix.mul_assoc]
  congr 1
  rw [← Matrix.mul_assoc, ← Matrix.mul_assoc, diagonal_mul_diagonal, diagonal_mul_diagonal]
  congr 2
  ext k
  rw [max_eq_left (hew _), mul_comm, ← mul_assoc, hs1, one_mul]

/-- C129: the fitted matrix is consistent with the data, and no matrix consistent with the data has a smaller trace. -/
theorem fit_minimal_partial {build : Build m} (hb : BuildOpt build) {eigh : EighFn m} (he : EighSpec eigh) {eps : Option ℝ} (heps : 0 ≤ eps.getD 0)
    {X : Option (List (Pt m))} {fX : Option (List ℝ)} {grads : Option (List (Pt m))} {r : LipFit m} (h : lipFit build eigh eps X fX grads = .ok r)
    {data : List (Pt m × ℝ)} {g : List (Pt m)} (hp : prepare X fX grads = .ok (data, g))
    (hsg : g = [] ∨ ∀ H, Hᵀ = H → ∀ k, meanGrad (scaleGrads (fitScale data g) g) (ucol (eigh H).2 k) ≠ 0) :
    IsLipMatrix (eps.getD 0) data g r.H := by
  obtain ⟨data', g', H, hp', hs, hbd, rfl⟩ := lipFit_ok h
  rw [hp] at hp'
  obtain ⟨rfl, rfl⟩ := Prod.mk.inj (Except.ok.inj hp')
  have hpos : 0 < fitScale data g := lt_of_le_of_ne (fitScale_nonneg _ _) (Ne.symm hs)
  have hes : 0 ≤ eps.getD 0 / fitScale data g := div_nonneg heps hpos.le
  have hadm := (feasible_admissible hes _ _ _).1 (hb.feasible _ _ _ _ hbd)
  rw [finishFit_H eigh he data g _ H hadm.symm hadm.psd (hsg.imp id (fun h => h H hadm.symm))]
  refine ⟨(scaled_admissible hpos _ _ _).1 hadm, fun H' hH' => ?_⟩
  have e1 : H' = fitScale data g ^ 2 • ((fitScale data g ^ 2)⁻¹ • H') := by rw [smul_smul, mul_inv_cancel₀ (by positivity), one_smul]
  rw [e1] at hH' ⊢
  have := hb.minimal _ _ _ _ _ hes hbd ((feasible_admissible hes _ _ _).2 ((scaled_admissible hpos _ _ _).2 hH'))
  rw [trace_smul, trace_smul]
  exact mul_le_mul_of_nonneg_left this (by positivity)

/-! ## Existence -/

theorem quad_single (H : Matrix (Fin m) (Fin m) ℝ) (i : Fin m) : quad H (Pi.single i 1) = H i i := by
  simp [quad]

theorem psd_entry {H : Matrix (Fin m) (Fin m) ℝ} (hs : Hᵀ = H) (hp : ∀ x, 0 ≤ quad H x) (i j : Fin m) : |H i j| ≤ trace H := by
  have hd : ∀ k, 0 ≤ H k k := fun k => by rw [← quad_single H k]; exact hp _
  have htr : ∀ k, H k k ≤ trace H := fun k => Finset.single_le_sum (f := fun k => H k k) (fun k _ => hd k) (Finset.mem_univ k)
  have hsy : H j i = H i j := congrFun (congrFun hs i) j
  have hexp : ∀ t : ℝ, quad H (Pi.single i 1 + t • Pi.single j 1) = H i i + 2 * t * H i j + t ^ 2 * H j j := fun t => by
    unfold quad
    simp only [mulVec_add, mulVec_smul, dotProduct_add, add_dotProduct, smul_dotProduct, dotProduct_smul, smul_eq_mul, mulVec_single_one, single_one_dotProduct]
    simp only [col_apply, hsy]
    ring
  have h1 := hp (Pi.single i 1 + (1 : ℝ) • Pi.single j 1)
  have h2 := hp (Pi.single i 1 + (-1 : ℝ) • Pi.single j 1)
  rw [hexp] at h1 h2
  rw [abs_le]
  constructor <;> linarith [htr i, htr j]

theorem continuous_quad (x : Pt m) : Continuous fun H : Matrix (Fin m) (Fin m) ℝ => quad H x := by
  unfold quad
  exact Continuous.dotProduct continuous_const (Continuous.matrix_mulVec continuous_id continuous_const)

theorem isClosed_admissible (e : ℝ) (data : List (Pt m × ℝ)) (grads : List (Pt m)) : IsClosed {H : Matrix (Fin m) (Fin m) ℝ | Admissible e data grads H} := by
  have : {H : Matrix (Fin m) (Fin m) ℝ | Admissible e data grads H} = {H | Hᵀ = H} ∩ (⋂ x, {H | 0 ≤ quad H x}) ∩
      (⋂ d ∈ data, ⋂ d' ∈ data, {H | |d.2 - d'.2| ≤ √(quad H (d.1 - d'.1)) + e}) ∩ (⋂ g ∈ grads, ⋂ v, {H | |g ⬝ᵥ v| ≤ √(quad H v)}) := by
    ext H
    simp only [Set.mem_inter_iff, Set.mem_iInter, Set.mem_ofPred_eq]
    exact ⟨fun h => ⟨⟨⟨h.symm, h.psd⟩, h.samples⟩, h.grads⟩, fun h => ⟨h.1.1.1, h.1.1.2, h.1.2, h.2⟩⟩
  rw [this]
  refine IsClosed.inter (IsClosed.inter (IsClosed.inter ?_ ?_) ?_) ?_
  · exact isClosed_eq (Continuous.matrix_transpose continuous_id) continuous_id
  · exact isClosed_iInter fun x => isClosed_le continuous_const (continuous_quad x)
  · exact isClosed_iInter fun d => isClosed_iInter fun _ => isClosed_iInter fun d' => isClosed_iInter fun _ =>
      isClosed_le continuous_const ((Real.continuous_sqrt.comp (continuous_quad _)).add continuous_const)
  · exact isClosed_iInter fun g => isClosed_iInter fun _ => isClosed_iInter fun v =>
      isClosed_le continuous_const (Real.continuous_sqrt.comp (continuous_quad _))

/-- C129: there is a Lipschitz matrix whenever some matrix is consistent with the data. -/
theorem lipMatrix_exists {e : ℝ} {data : List (Pt m × ℝ)} {grads : List (Pt m)} {H0 : Matrix (Fin m) (Fin m) ℝ} (h0 : Admissible e data grads H0) :
    ∃ H, IsLipMatrix e data grads H := by
  have hbox : IsCompact (Set.pi Set.univ fun _ : Fin m => Set.pi Set.univ fun _ : Fin m => Set.Icc (-trace H0) (trace H0)) :=
    isCompact_univ_pi fun _ => isCompact_univ_pi fun _ => isCompact_Icc
  have hc : Continuous fun H : Matrix (Fin m) (Fin m) ℝ => trace H := Continuous.matrix_trace continuous_id
  have hK : IsCompact ({H : Matrix (Fin m) (Fin m) ℝ | Admissible e data grads H} ∩ {H | trace H ≤ trace H0}) := by
    refine IsCompact.of_isClosed_subset hbox ((isClosed_admissible _ _ _).inter (isClosed_le hc continuous_const)) ?_
    rintro H ⟨h1, h2⟩ i - j -
    have := abs_le.1 ((psd_entry h1.symm h1.psd i j).trans h2)
    exact ⟨this.1, this.2⟩
  obtain ⟨H, ⟨h1, h2⟩, hmin⟩ := hK.exists_isMinOn ⟨H0, h0, by simp⟩ hc.continuousOn
  refine ⟨H, h1, fun H' hH' => ?_⟩
  by_cases hle : trace H' ≤ trace H0
  · exact hmin ⟨hH', hle⟩
  · exact le_trans h2 (not_le.1 hle).le

/-- A solver with the assumed properties exists. -/
theorem exists_buildOpt (m : ℕ) : ∃ build : Build m, BuildOpt build := by
  classical
  refine ⟨fun data grads e => if h : 0 ≤ e ∧ ∃ H, IsLipMatrix e data grads H then some h.2.choose else none, ?_, ?_, ?_⟩
  · intro data grads e H h
    simp only at h
    split at h
    · rename_i hx
      rw [← Option.some.inj h]
      exact (feasible_admissible hx.1 _ _ _).2 hx.2.choose_spec.1
    · cases h
  · intro data grads e H H' he h hH'
    split at h
    · rename_i hx
      rw [← Option.some.inj h]
      exact hx.2.choose_spec.2 _ ((feasible_admissible hx.1 _ _ _).1 hH')
    · cases h
  · rintro data grads e he ⟨H, hH⟩
    have hx : 0 ≤ e ∧ ∃ H, IsLipMatrix e data grads H := ⟨he, lipMatrix_exists ((feasible_admissible he _ _ _).1 hH)⟩
    exact ⟨hx.2.choose, dif_pos hx⟩

/-- C129: `fit` with an optimal solver succeeds unless the values and gradients vanish or two equal points have values more than `epsilon` apart. -/
theorem fit_succeeds_iff {build : Build m} (hb : BuildOpt build) (eigh : EighFn m) {eps : Option ℝ} (heps : 0 ≤ eps.getD 0)
    {X : Option (List (Pt m))} {fX : Option (List ℝ)} {grads : Option (List (Pt m))} {data : List (Pt m × ℝ)} {g : List (Pt m)}
    (hp : prepare X fX grads = .ok (data, g)) (hs : fitScale data g ≠ 0) :
    (∃ r, lipFit build eigh eps X fX grads = .ok r) ↔ ∀ d ∈ data, ∀ d' ∈ data, d.1 = d'.1 → |d.2 - d'.2| ≤ eps.getD 0 := by
  have hpos : 0 < fitScale data g := lt_of_le_of_ne (fitScale_nonneg _ _) (Ne.symm hs)
  have hes : 0 ≤ eps.getD 0 / fitScale data g := div_nonneg heps hpos.le
  constructor
  · rintro ⟨r, hr⟩ d hd d' hd' heq
    obtain ⟨data', g', H, hp', -, hbd, -⟩ := lipFit_ok hr
    rw [hp] at hp'
    obtain ⟨rfl, rfl⟩ := Prod.mk.inj (Except.ok.inj hp')
    have hadm := (scaled_admissible hpos _ _ _).1 ((feasible_admissible hes _ _ _).1 (hb.feasible _ _ _ _ hbd))
    have := hadm.samples d hd d' hd'
    rwa [heq, sub_self, show quad (fitScale data g ^ 2 • H) 0 = 0 by simp [quad], Real.sqrt_zero, zero_add] at this
  · intro h
    have hf : ∃ H, CvxpyFeasible (scaleData (fitScale data g) data) (scaleGrads (fitScale data g) g) (eps.getD 0 / fitScale data g) H := by
      refine feasible_exists _ _ _ (fun p hp' hlt heq => ?_)
      rw [scaleData, pairsOf_map] at hp'
      obtain ⟨q, hq, rfl⟩ := List.mem_map.1 hp'
      obtain ⟨h1, h2⟩ := pairsOf_mem hq
      have := h _ h1 _ h2 heq
      rw [← sub_div, abs_div, abs_of_pos hpos, div_lt_div_iff_of_pos_right hpos] at hlt
      linarith
    obtain ⟨H, hH⟩ := hb.complete _ _ _ hes hf
    refine (lipFit_ok_iff build eigh eps X fX grads).2 ⟨_, _, hp, hs, H, ?_⟩
    exact hH

/-- The fit of samples only: no sign vanishes. -/
theorem fit_minimal_samples {build : Build m} (hb : BuildOpt build) {eigh : EighFn m} (he : EighSpec eigh) {X : List (Pt m)} {fX : List ℝ} {r : LipFit m}
    (h : lipFit build eigh none (some X) (some fX) none = .ok r) : IsLipMatrix 0 (X.zip fX) [] r.H := by
  obtain ⟨data, g, H, hp, -⟩ := lipFit_ok h
  have := fit_minimal_partial hb he (le_refl _) h hp
  unfold prepare at hp
  split at hp
  · cases hp
  · split at hp
    · cases hp
    · rename_i data' hpu
      obtain ⟨rfl, rfl⟩ := Prod.mk.inj (Except.ok.inj hp)
      unfold pairUp at hpu
      simp only at hpu
      split at hpu
      · rw [← Except.ok.inj hpu] at this
        exact this (Or.inl rfl)
      · cases hpu

/-- C129: fitting more samples never lowers the trace of the matrix. -/
theorem fit_trace_mono {build : Build m} (hb : BuildOpt build) {eigh : EighFn m} (he : EighSpec eigh) {X X' : List (Pt m)} {fX fX' : List ℝ} {r r' : LipFit m}
    (h : lipFit build eigh none (some X) (some fX) none = .ok r) (h' : lipFit build eigh none (some X') (some fX') none = .ok r')
    (hsub : X.zip fX ⊆ X'.zip fX') : trace r.H ≤ trace r'.H :=
  lipMatrix_mono (le_refl _) hsub (List.Subset.refl _) (fit_minimal_samples hb he h) (fit_minimal_samples hb he h')

/-- C129: scaling and shifting the values scales the trace by the square. -/
theorem fit_trace_output {build : Build m} (hb : BuildOpt build) {eigh : EighFn m} (he : EighSpec eigh) {X : List (Pt m)} {fX : List ℝ} {r r' : LipFit m} {c d : ℝ}
    (hc : c ≠ 0) (h : lipFit build eigh none (some X) (some fX) none = .ok r)
    (h' : lipFit build eigh none (some X) (some (fX.map fun f => c * f + d)) none = .ok r') : trace r'.H = c ^ 2 * trace r.H := by
  have h1 := fit_minimal_samples hb he h
  have h2 := fit_minimal_samples hb he h'
  have h3 := (lipMatrix_output (d := d) hc _ _ _).2 h1
  have e1 : X.zip (fX.map fun f => c * f + d) = (X.zip fX).map fun p => (p.1, c * p.2 + d) := by
    rw [List.zip_map_right]; rfl
  rw [mul_zero, ← e1] at h3
  have := le_antisymm (h2.2 _ h3.1) (h3.2 _ h2.1)
  rwa [trace_smul, smul_eq_mul] at this

/-- C129: rotating and shifting the inputs leaves the trace unchanged. -/
theorem fit_trace_rotate {build : Build m} (hb : BuildOpt build) {eigh : EighFn m} (he : EighSpec eigh) {X : List (Pt m)} {fX : List ℝ} {r r' : LipFit m}
    {Q : Matrix (Fin m) (Fin m) ℝ} (hQ : Qᵀ * Q = 1) (t : Pt m) (h : lipFit build eigh none (some X) (some fX) none = .ok r)
    (h' : lipFit build eigh none (some (X.map fun x => Q *ᵥ x + t)) (some fX) none = .ok r') : trace r'.H = trace r.H := by
  have h1 := fit_minimal_samples hb he h
  have h2 := fit_minimal_samples hb he h'
  have h3 := (lipMatrix_rotate hQ t _ _ _).2 h1
  have e1 : (X.map fun x => Q *ᵥ x + t).zip fX = (X.zip fX).map fun p => (Q *ᵥ p.1 + t, p.2) := by
    rw [List.zip_map_left]; rfl
  rw [← e1] at h3
  have := le_antisymm (h2.2 _ h3.1) (h3.2 _ h2.1)
  rwa [trace_rotate hQ] at this

/-- C129: the fitted matrix `L` maps to zero every direction orthogonal to all differences of samples. -/
theorem fit_ignores {build : Build m} (hb : BuildOpt build) {eigh : EighFn m} (he : EighSpec eigh) {X : List (Pt m)} {fX : List ℝ} {r : LipFit m}
    (h : lipFit build eigh none (some X) (some fX) none = .ok r) (u : Pt m) (hu : ∀ x ∈ X, ∀ x' ∈ X, u ⬝ᵥ (x - x') = 0) : r.L *ᵥ u = 0 := by
  have h1 := fit_minimal_samples hb he h
  have h2 := lipMatrix_ignores h1 u (fun d hd d' hd' => hu _ (List.of_mem_zip hd).1 _ (List.of_mem_zip hd').1) (by simp)
  have h3 := (fit_gram hb.feasible he h).2.2.2 u
  rw [quad, h2, dotProduct_zero] at h3
  unfold lnorm at h3
  have : nrm (r.L *ᵥ u) = 0 := by
    have := h3.symm
    simpa using this
  by_contra hne
  exact absurd this (nrm_pos_of_ne hne).ne'

/-- Samples alone need not reveal a direction in which the function is constant: for `f(x) = x₀` sampled at `(0,0)` and `(1,1)` the smallest
trace is `1/2`, the matrix for `x₀` has trace one, and the second coordinate is not ignored. -/
theorem samples_hide_false : ∃ (data : List (Pt 2 × ℝ)), (∀ d ∈ data, d.2 = d.1 0) ∧ (∃ H, IsLipMatrix 0 data [] H) ∧
    ∀ H, IsLipMatrix 0 data [] H → H *ᵥ ![0, 1] ≠ 0 := by
  refine ⟨[(![0, 0], 0), (![1, 1], 1)], by simp, ?_, ?_⟩
  · refine lipMatrix_exists (H0 := 1) ⟨by simp, fun x => ?_, fun d hd d' hd' => ?_, by simp⟩
    · have := quad_smul_one 1 x
      rw [one_smul, one_mul] at this
      rw [this]; exact dotProduct_self_nonneg' x
    · have hq : ∀ x : Pt 2, quad 1 x = x 0 ^ 2 + x 1 ^ 2 := fun x => by
        have := quad_smul_one 1 x
        rw [one_smul, one_mul] at this
        rw [this]; simp [dotProduct, Fin.sum_univ_two, pow_two]
      have h1 : (1 : ℝ) ≤ √(1 + 1) := Real.le_sqrt_of_sq_le (by norm_num)
      simp only [List.mem_cons, List.not_mem_nil, or_false] at hd hd'
      rcases hd with rfl | rfl <;> rcases hd' with rfl | rfl <;> simp [hq] <;> simpa using h1
  · intro H hH h0
    have hd := lipMatrix_ignores hH ![1, -1] (by
      intro d hd d' hd'
      simp only [List.mem_cons, List.not_mem_nil, or_false] at hd hd'
      rcases hd with rfl | rfl <;> rcases hd' with rfl | rfl <;> simp [dotProduct, Fin.sum_univ_two]) (by simp)
    have hs := hH.1.samples (![1, 1], 1) (by simp) (![0, 0], 0) (by simp)
    have e1 : ((![1, 1] : Pt 2) - ![0, 0]) = ![1, -1] + (2 : ℝ) • ![0, 1] := by
      ext i; fin_cases i <;> simp; norm_num
    have : quad H (![1, 1] - ![0, 0]) = 0 := by
      rw [quad, e1, mulVec_add, mulVec_smul, hd, h0]; simp
    rw [show ((![1, 1], 1) : Pt 2 × ℝ).1 = ![1, 1] from rfl, show ((![0, 0], 0) : Pt 2 × ℝ).1 = ![0, 0] from rfl, this] at hs
    norm_num at hs

/-- The hypotheses can be met: an optimal solver, a fit that succeeds. -/
example : ∃ (build : Build 2) (eigh : EighFn 2) (r : LipFit 2), BuildOpt build ∧ EighSpec eigh ∧
    lipFit build eigh none (some [![0, 0], ![1, 2]]) (some [0, 3]) none = .ok r ∧ IsLipMatrix 0 [(![0, 0], 0), (![1, 2], 3)] [] r.H := by
  obtain ⟨build, hb⟩ := exists_buildOpt 2
  obtain ⟨eigh, he⟩ := exists_eigh 2
  have hp : prepare (m := 2) (some [![0, 0], ![1, 2]]) (some [0, 3]) none = .ok ([(![0, 0], 0), (![1, 2], 3)], []) := rfl
  have hs : fitScale (m := 2) [(![0, 0], 0), (![1, 2], 3)] [] ≠ 0 := by
    rw [Ne, fitScale_zero_iff]; simp
  obtain ⟨r, hr⟩ := (fit_succeeds_iff hb eigh (eps := none) (le_refl _) hp hs).2 (by
    intro d hd d' hd' heq
    simp only [List.mem_cons, List.not_mem_nil, or_false] at hd hd'
    have := congrFun heq 0
    rcases hd with rfl | rfl <;> rcases hd' with rfl | rfl <;> simp at this ⊢)
  exact ⟨build, eigh, r, hb, he, hr, fit_minimal_samples hb he hr⟩

end Verif.Lip
