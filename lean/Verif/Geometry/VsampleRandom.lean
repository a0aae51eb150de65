import Verif.Geometry.VsampleProps

/-!
# C92: `voronoi_vertex_sample` with randomization (the default)

vertex.py 121-314 with `randomize = True`: where the search direction vanishes a random direction is used instead.
-/

namespace Verif.Geo

open Verif Verif.Domain Matrix

variable {k m : ℕ}

/-! ## Specification -/

/-- The pass approaches no sample slowly, and a direction taken for zero is zero. -/
def SurePass (qr : QRcols m) (D : SDomain m) (L : Matrix (Fin k) (Fin m) ℝ) (Xhat : List (Lip.Pt m)) (it : ℕ) (rnd x : Lip.Pt m) : Prop :=
  ∀ near rest, (near :: rest).Perm Xhat → (∀ z ∈ Xhat, Lip.ldist L x near ≤ Lip.ldist L x z) →
    NoSlow L Xhat near (direction qr true rnd (nullCols D L it near rest x) ((Lᵀ * L) *ᵥ (x - near))) ∧
    (nullCols D L it near rest x ≠ [] → |Lip.nrm (projOut (qr (nullCols D L it near rest x)) ((Lᵀ * L) *ᵥ (x - near)))| ≤ atol →
      projOut (qr (nullCols D L it near rest x)) ((Lᵀ * L) *ᵥ (x - near)) = 0)

/-- Every randomized pass from `x` is such a pass. -/
def SureRun (sort : SortBy m) (qr : QRcols m) (D : SDomain m) (L : Matrix (Fin k) (Fin m) ℝ) (Xhat : List (Lip.Pt m)) (rnd : ℕ → Lip.Pt m) (n : ℕ)
    (x : Lip.Pt m) : Prop := ∀ i < n, ∀ y, vpasses sort qr D L true Xhat rnd i x = .ok y → SurePass qr D L Xhat i (rnd i) y

/-! ## Proofs -/

theorem combo_mem_span (Q : List (Lip.Pt m)) (g : Lip.Pt m) : (Q.map fun q => (q ⬝ᵥ g) • q).sum ∈ Submodule.span ℝ {q | q ∈ Q} := by
  refine list_sum_mem fun v hv => ?_
  obtain ⟨q, hq, rfl⟩ := List.mem_map.1 hv
  exact Submodule.smul_mem _ _ (Submodule.subset_span hq)

theorem direction_sure {qr : QRcols m} (hq : qr.Exact) (rnd : Lip.Pt m) (cols : List (Lip.Pt m)) (h : Lip.Pt m)
    (hz : cols ≠ [] → |Lip.nrm (projOut (qr cols) h)| ≤ atol → projOut (qr cols) h = 0) : 0 ≤ h ⬝ᵥ direction qr true rnd cols h := by
  obtain ⟨h1, h2, -⟩ := hq cols
  rw [direction]
  split
  · exact Lip.dotProduct_self_nonneg' h
  · rename_i hcols
    split
    · rename_i hsm
      have he : h = ((qr cols).map fun q => (q ⬝ᵥ h) • q).sum := by
        have := hz hcols hsm.1
        rw [projOut, sub_eq_zero] at this
        exact this
      have hs : h ∈ Submodule.span ℝ {q | q ∈ qr cols} := by rw [he]; exact combo_mem_span _ _
      rw [projOut_span h1 h2 rnd hs]
    · rw [projOut_self h1 h2]
      exact Lip.dotProduct_self_nonneg' _

/-- C92: a randomized pass never decreases the distance to the nearest sample, if no sample is approached slowly and no direction is nearly zero. -/
theorem vstep_nearest_random {sort : SortBy m} (hs : sort.Sorts) {qr : QRcols m} (hq : qr.Exact) {D : SDomain m} {L : Matrix (Fin k) (Fin m) ℝ}
    {Xhat : List (Lip.Pt m)} {it : ℕ} {rnd x y : Lip.Pt m} (hf : SurePass qr D L Xhat it rnd x) (h : vstep sort qr D L true Xhat it rnd x = .ok y) :
    nearest L Xhat x ≤ nearest L Xhat y := by
  obtain ⟨near, hne, rest, hmin, e, rfl⟩ := vstep_ok hs h
  have hperm : (near :: rest).Perm Xhat := by rw [← e]; exact (hs _ _).1
  obtain ⟨hno, hzero⟩ := hf near rest hperm hmin
  have h1 := direction_sure hq rnd (nullCols D L it near rest x) ((Lᵀ * L) *ᵥ (x - near)) hzero
  set d := direction qr true rnd (nullCols D L it near rest x) ((Lᵀ * L) *ᵥ (x - near)) with hd
  obtain ⟨z, hz, ez⟩ := nearest_mem L (List.ne_nil_of_mem hne) (x + stepLength D L Xhat near x d • d)
  obtain ⟨h2, h3, -, -, -⟩ := stepLength_spec D L Xhat near x d
  rw [ez]
  refine le_trans ?_ (plane_stays (hmin z hz) h2 (hno z hz) (h3 z hz))
  refine (nearest_le L hne x).trans ((sq_le_sq₀ (ldist_nn ..) (ldist_nn ..)).1 ?_)
  have h4 := Lip.dotProduct_self_nonneg' (L *ᵥ d)
  rw [ldist_move]
  have := mul_nonneg h2 h1
  have := mul_nonneg (sq_nonneg (stepLength D L Xhat near x d)) h4
  linarith

theorem vpasses_nearest_random {sort : SortBy m} (hs : sort.Sorts) {qr : QRcols m} (hq : qr.Exact) {D : SDomain m} {L : Matrix (Fin k) (Fin m) ℝ}
    {Xhat : List (Lip.Pt m)} {rnd : ℕ → Lip.Pt m} : ∀ (n : ℕ) {x y : Lip.Pt m}, SureRun sort qr D L Xhat rnd n x →
    vpasses sort qr D L true Xhat rnd n x = .ok y → nearest L Xhat x ≤ nearest L Xhat y
  | 0, x, y, _, h => by simp only [vpasses, Except.ok.injEq] at h; rw [h]
  | n + 1, x, y, hf, h => by
    simp only [vpasses] at h
    split at h
    · simp at h
    · rename_i z hz
      exact (vpasses_nearest_random hs hq n (fun i hi => hf i (by omega)) hz).trans (vstep_nearest_random hs hq (hf n (by omega) z hz) h)

/-- C92: with randomization each point returned is at least as far from its nearest sample as its starting point, if no pass approaches a sample at a positive rate
below `1e-8` and no direction has a positive size below `1e-8`. -/
theorem vertexSample_nearest_random {sort : SortBy m} (hs : sort.Sorts) {qr : QRcols m} (hq : qr.Exact) {D : SDomain m} {L : Matrix (Fin k) (Fin m) ℝ}
    {Xhat : List (Lip.Pt m)} {X0 : List (Lip.Pt m × (ℕ → Lip.Pt m))} {V : List (Lip.Pt m)} (h : vertexSample sort qr D L true Xhat X0 = .ok V)
    (hf : ∀ p ∈ X0, SureRun sort qr D L Xhat p.2 (passes D L true) p.1) : List.Forall₂ (fun x v => nearest L Xhat x.1 ≤ nearest L Xhat v) X0 V := by
  rw [vertexSample] at h
  split at h
  · simp at h
  · have := mapE_ok h
    clear h
    induction this with
    | nil => exact .nil
    | cons h1 _ ih => exact .cons (vpasses_nearest_random hs hq _ (hf _ (by simp)) h1) (ih fun p hp => hf p (by simp [hp]))

/-- The hypotheses can be met: on `[-1, 1]` with the sample `0` a randomized pass from `1/4` is such a pass. -/
example (qr : QRcols 1) : SurePass qr segment (1 : Matrix (Fin 1) (Fin 1) ℝ) [pt1 0] 0 0 (pt1 (1 / 4)) := by
  intro near rest hp _
  have h1 : near ∈ [pt1 0] := hp.mem_iff.1 (by simp)
  have h1 := List.mem_singleton.1 h1
  subst h1
  have hcl1 : ¬isClose (1 / 4) 1 := by rw [isClose, atol, abs_le]; norm_num
  have hcl2 : ¬isClose (-(1 / 4)) 1 := by rw [isClose, atol, abs_le]; norm_num
  have hn : nullCols segment (1 : Matrix (Fin 1) (Fin 1) ℝ) 0 (pt1 0) rest (pt1 (1 / 4)) = [] := by
    have h1 : (fun _ => (1 : ℝ)) ⬝ᵥ pt1 (1 / 4) = 1 / 4 := by simp [pt1, dotProduct]
    have h2 : (fun _ => (-1 : ℝ)) ⬝ᵥ pt1 (1 / 4) = -(1 / 4) := by simp [pt1, dotProduct]
    simp only [nullCols, segment, List.take_zero, List.filter_nil, List.map_nil, List.append_nil, List.nil_append, List.filter_cons, h1, h2, hcl1, hcl2]
    simp
  refine ⟨fun y hy => ?_, fun hne => absurd hn hne⟩
  rw [List.mem_singleton.1 hy]; simp [closing]

end Verif.Geo
