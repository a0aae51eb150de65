import Mathlib.Analysis.Calculus.Deriv.Mul
import Mathlib.Analysis.Calculus.Deriv.Comp
import Mathlib.Analysis.Calculus.Deriv.Add
import Mathlib.Tactic.FieldSimp
import Verif.Basis.TensorModel
import Verif.Basis.IndexProps
import Verif.Domain.HullProps

/-!
# Properties C25, C26, C27, C28: tensor-product polynomial bases
-/

namespace Verif.Basis

open Verif Verif.Domain

/-! ## Specification of the scalar polynomials -/

/-- The value at `x` of the polynomial with coefficients `c`. -/
noncomputable def Family.series (F : Family) (c : List ℝ) (x : ℝ) : ℝ := (c.mapIdx (fun n a => a * F.phi n x)).sum

/-- What is assumed of the scalar polynomials: the first one is constant, and `der` computes the coefficients of first
and second derivatives. -/
structure Family.Good (F : Family) : Prop where
  const : ∀ x, HasDerivAt (F.phi 0) 0 x
  der1 : ∀ c : List ℝ, 2 ≤ c.length → (F.der c 1).length + 1 = c.length ∧ ∀ x, HasDerivAt (F.series c) (F.series (F.der c 1) x) x
  der2 : ∀ c : List ℝ, c ≠ [] → (F.der c 2).length ≤ c.length ∧ ∀ x, HasDerivAt (deriv (F.series c)) (F.series (F.der c 2) x) x

/-- The scaling does not divide by zero. -/
def Scaling.Nondeg : Scaling → ℕ → Prop
  | .none, _ => True
  | .minmax lb ub, dim => ∀ k, k < dim → ub.getD k 0 ≠ lb.getD k 0
  | .meanstd _ std, dim => ∀ k, k < dim → std.getD k 0 ≠ 0

/-! ## Lemmas -/

theorem prodLoop_eq (dim : ℕ) (f : ℕ → ℝ) : prodLoop dim f = ∏ i ∈ Finset.range dim, f i := by
  unfold prodLoop
  induction dim with
  | zero => simp
  | succ n ih => rw [List.range_succ, List.foldl_append, ih, Finset.prod_range_succ]; simp

theorem dot_vander (F : Family) (c : List ℝ) (x : ℝ) (n : ℕ) (h : c.length ≤ n) :
    Vec.dot ((List.range n).map (fun i => F.phi i x)) c = F.series c x := by
  unfold Family.series
  have : ∀ (c : List ℝ) (n s : ℕ), c.length ≤ n →
      Vec.dot ((List.range' s n).map (fun i => F.phi i x)) c = (c.mapIdx (fun i a => a * F.phi (s + i) x)).sum := by
    intro c
    induction c with
    | nil => intro n s _; simp
    | cons a c ih =>
      intro n s h
      rcases n with _ | n
      · simp at h
      · rw [List.range'_succ, List.map_cons, Vec.dot_cons, ih n (s + 1) (by simpa using h), List.mapIdx_cons, List.sum_cons]
        simp only [add_zero, mul_comm a]
        congr 3
        funext i a
        rw [show s + 1 + i = s + (i + 1) by omega]
  rw [List.range_eq_range', this c n 0 h]
  simp

theorem vander_dropLast (F : Family) (x : ℝ) (deg : ℕ) : (F.vander x deg).dropLast = (List.range deg).map (fun i => F.phi i x) := by
  unfold Family.vander
  rw [List.range_succ, List.map_append]
  simp

theorem vander_getD (F : Family) (x : ℝ) {deg a : ℕ} (h : a ≤ deg) : (F.vander x deg).getD a 0 = F.phi a x := by
  unfold Family.vander
  rw [List.getD_eq_getElem?_getD, List.getElem?_map, List.getElem?_range (by omega)]
  rfl

theorem unitVec_length (n j : ℕ) : (unitVec n j).length = n := by simp [unitVec]

theorem series_unitVec (F : Family) {n j : ℕ} (h : j < n) (x : ℝ) : F.series (unitVec n j) x = F.phi j x := by
  unfold Family.series unitVec
  have : ∀ n, (List.mapIdx (fun n a => a * F.phi n x) ((List.range n).map (fun i => if i = j then (1:ℝ) else 0))).sum =
      if j < n then F.phi j x else 0 := by
    intro n
    induction n with
    | zero => simp
    | succ n ih =>
      rw [List.range_succ, List.map_append, List.mapIdx_append, List.sum_append, ih]
      simp only [List.map_cons, List.map_nil, List.mapIdx_cons, List.mapIdx_nil, List.length_map, List.length_range, zero_add,
        List.sum_cons, List.sum_nil]
      rcases lt_trichotomy j n with h | h | h
      · rw [if_pos h, if_neg (by omega), if_pos (by omega)]; simp
      · subst h; simp
      · rw [if_neg (by omega), if_neg (by omega), if_neg (by omega)]; simp
  rw [this, if_pos h]

/-- The first derivative factor. -/
theorem d1_deriv {B : TBasis} (hF : B.F.Good) {a : ℕ} (ha : a ≤ B.degree) (z : ℝ) :
    HasDerivAt (B.F.phi a) (Vec.dot (B.F.vander z B.degree).dropLast (B.dmat a)) z := by
  rw [vander_dropLast]
  unfold TBasis.dmat
  by_cases h0 : B.degree = 0
  · rw [if_pos h0]
    have : a = 0 := by omega
    subst this
    simpa using hF.const z
  · rw [if_neg h0]
    obtain ⟨h1, h2⟩ := hF.der1 (unitVec (B.degree + 1) a) (by rw [unitVec_length]; omega)
    rw [unitVec_length] at h1
    rw [dot_vander _ _ _ _ (by omega)]
    have := h2 z
    have e : B.F.series (unitVec (B.degree + 1) a) = B.F.phi a := by
      funext x; exact series_unitVec _ (by omega) x
    rwa [e] at this

theorem d2_deriv {B : TBasis} (hF : B.F.Good) {a : ℕ} (ha : a ≤ B.degree) (z : ℝ) :
    HasDerivAt (fun z => Vec.dot (B.F.vander z B.degree).dropLast (B.dmat a))
      (Vec.dot ((B.F.vander z B.degree).take (B.F.der (unitVec (B.degree + 1) a) 2).length) (B.F.der (unitVec (B.degree + 1) a) 2)) z := by
  have e1 : (fun z => Vec.dot (B.F.vander z B.degree).dropLast (B.dmat a)) = deriv (B.F.phi a) := by
    funext z; exact (d1_deriv hF ha z).deriv.symm
  rw [e1]
  have hne : unitVec (B.degree + 1) a ≠ [] := by
    intro h
    have := unitVec_length (B.degree + 1) a
    rw [h] at this
    simp at this
  obtain ⟨h1, h2⟩ := hF.der2 _ hne
  rw [unitVec_length] at h1
  have e : B.F.series (unitVec (B.degree + 1) a) = B.F.phi a := by
    funext x; exact series_unitVec _ (by omega) x
  have := h2 z
  rw [e] at this
  have e2 : Vec.dot ((B.F.vander z B.degree).take (B.F.der (unitVec (B.degree + 1) a) 2).length) (B.F.der (unitVec (B.degree + 1) a) 2)
      = B.F.series (B.F.der (unitVec (B.degree + 1) a) 2) z := by
    unfold Family.vander
    rw [← List.map_take, List.take_range, Nat.min_eq_left h1]
    exact dot_vander _ _ _ _ (le_refl _)
  rw [e2]
  exact this

/-- Scalar form of the scaling at one coordinate. -/
noncomputable def Scaling.at' : Scaling → ℕ → ℝ → ℝ
  | .none, _, t => t
  | .minmax lb ub, q, t => 2 * (t - lb.getD q 0) / (ub.getD q 0 - lb.getD q 0) - 1
  | .meanstd mean std, q, t => (t - mean.getD q 0) / std.getD q 0 / Real.sqrt 2

theorem scale_getD (s : Scaling) {x : Vec} {q : ℕ} (h : q < x.length) : (s.scale x).getD q 0 = s.at' q (x.getD q 0) := by
  cases s <;>
    simp [Scaling.scale, Scaling.at', List.getD_eq_getElem?_getD, List.getElem?_mapIdx, List.getElem?_eq_getElem h]

theorem at_deriv (s : Scaling) (q : ℕ) (t : ℝ) : HasDerivAt (s.at' q) (s.dscale q) t := by
  cases s with
  | none => exact hasDerivAt_id t
  | minmax lb ub =>
    have := ((((hasDerivAt_id t).sub_const (lb.getD q 0)).const_mul 2).div_const (ub.getD q 0 - lb.getD q 0)).sub_const 1
    show HasDerivAt (fun t => 2 * (t - lb.getD q 0) / (ub.getD q 0 - lb.getD q 0) - 1) _ t
    exact HasDerivAt.congr_deriv this (by simp [Scaling.dscale])
  | meanstd mean std =>
    have := (((hasDerivAt_id t).sub_const (mean.getD q 0)).div_const (std.getD q 0)).div_const (Real.sqrt 2)
    show HasDerivAt (fun t => (t - mean.getD q 0) / std.getD q 0 / Real.sqrt 2) _ t
    exact HasDerivAt.congr_deriv this (by simp [Scaling.dscale])

theorem getD_set {x : Vec} {k q : ℕ} (hk : k < x.length) (t : ℝ) : (x.set k t).getD q 0 = if q = k then t else x.getD q 0 := by
  rw [List.getD_eq_getElem?_getD, List.getElem?_set]
  by_cases h : k = q
  · subst h; simp [hk]
  · simp [h, Ne.symm h]

theorem vc_eq (B : TBasis) {x : Vec} (hx : x.length = B.dim) {q : ℕ} (hq : q < B.dim) :
    B.vc x q = B.F.vander (B.sc.at' q (x.getD q 0)) B.degree := by
  unfold TBasis.vc
  rw [scale_getD _ (by omega)]

theorem index_le {B : TBasis} (hd : 1 ≤ B.dim) {alpha : List ℕ} (h : alpha ∈ B.indices) (q : ℕ) : alpha.getD q 0 ≤ B.degree := by
  obtain ⟨h1, h2⟩ := (mem_indexSet _ _ hd _).1 h
  by_cases hq : q < alpha.length
  · rw [List.getD_eq_getElem?_getD, List.getElem?_eq_getElem hq]
    exact le_trans (List.single_le_sum (by simp) _ (List.getElem_mem hq)) h2
  · rw [List.getD_eq_getElem?_getD, List.getElem?_eq_none (by omega)]; simp

/-- Derivative of a product of functions of the single coordinates with respect to one of them. -/
theorem prod_deriv (n : ℕ) (k : ℕ) (hk : k < n) (g : ℕ → ℝ → ℝ) (g' : ℝ) (x : ℕ → ℝ) (h : HasDerivAt (g k) g' (x k)) :
    HasDerivAt (fun t => ∏ q ∈ Finset.range n, g q (if q = k then t else x q))
      (∏ q ∈ Finset.range n, if q = k then g' else g q (x q)) (x k) := by
  have hm : k ∈ Finset.range n := Finset.mem_range.2 hk
  have e1 : (fun t => ∏ q ∈ Finset.range n, g q (if q = k then t else x q)) =
      fun t => g k t * ∏ q ∈ (Finset.range n).erase k, g q (x q) := by
    funext t
    rw [← Finset.mul_prod_erase _ _ hm, if_pos rfl]
    congr 1
    refine Finset.prod_congr rfl (fun q hq => ?_)
    rw [if_neg (Finset.ne_of_mem_erase hq)]
  rw [e1, ← Finset.mul_prod_erase _ _ hm, if_pos rfl]
  have e2 : (∏ q ∈ (Finset.range n).erase k, if q = k then g' else g q (x q)) = ∏ q ∈ (Finset.range n).erase k, g q (x q) :=
    Finset.prod_congr rfl (fun q hq => by rw [if_neg (Finset.ne_of_mem_erase hq)])
  rw [e2]
  exact h.mul_const _

/-! ## Properties -/

/-- **C25**: `VC` raises exactly if the number of coefficients is wrong. -/
theorem VC_ok_iff (B : TBasis) (x : Vec) (w : ℕ) (cs : List Vec) :
    (∃ out, B.VC x w cs = .ok out) ↔ cs.length = B.indices.length := by
  unfold TBasis.VC
  by_cases h : B.indices.length = cs.length
  · simp [h]
  · simp [h, Ne.symm h]

open Classical in
/-- **C25**: `VC` is the product of the Vandermonde matrix and the coefficients, whatever coefficients vanish. -/
theorem VC_entries (B : TBasis) (x : Vec) (w : ℕ) (cs : List Vec) (hw : ∀ c ∈ cs, c.length = w) {out : Vec}
    (h : B.VC x w cs = .ok out) :
    out.length = w ∧ ∀ k, out.getD k 0 = Vec.dot (B.V x) (cs.map (fun c => c.getD k 0)) := by
  unfold TBasis.VC at h
  split at h
  case isFalse => cases h
  case isTrue hl =>
    cases h
    unfold vcLoop TBasis.V
    generalize B.indices = I at *
    have hadd : ∀ (a b : Vec) (k : ℕ), a.length = b.length → (Vec.add a b).getD k 0 = a.getD k 0 + b.getD k 0 := by
      intro a b k hab
      simp only [List.getD_eq_getElem?_getD, Vec.add, List.getElem?_zipWith]
      by_cases hk : k < a.length
      · rw [List.getElem?_eq_getElem hk, List.getElem?_eq_getElem (by omega)]; rfl
      · rw [List.getElem?_eq_none (by omega), List.getElem?_eq_none (by omega)]; simp
    have hsm : ∀ (s : ℝ) (b : Vec) (k : ℕ), (Vec.smul s b).getD k 0 = s * b.getD k 0 := by
      intro s b k
      simp only [List.getD_eq_getElem?_getD, Vec.smul, List.getElem?_map]
      by_cases hk : k < b.length
      · rw [List.getElem?_eq_getElem hk]; rfl
      · rw [List.getElem?_eq_none (by omega)]; simp
    have key : ∀ (I : List (List ℕ)) (cs : List Vec) (out0 : Vec), I.length = cs.length → (∀ c ∈ cs, c.length = w) → out0.length = w →
        ((I.zip cs).foldl (fun out jc => if anyNonzero jc.2 then
          Vec.add out (Vec.smul (prodLoop B.dim (fun l => (B.vc x l).getD (jc.1.getD l 0) 0)) jc.2) else out) out0).length = w ∧
        ∀ k, ((I.zip cs).foldl (fun out jc => if anyNonzero jc.2 then
          Vec.add out (Vec.smul (prodLoop B.dim (fun l => (B.vc x l).getD (jc.1.getD l 0) 0)) jc.2) else out) out0).getD k 0 =
          out0.getD k 0 + Vec.dot (I.map (fun alpha => prodLoop B.dim (fun k => (B.vc x k).getD (alpha.getD k 0) 0))) (cs.map (fun c => c.getD k 0)) := by
      intro I
      induction I with
      | nil => intro cs out0 _ _ h0; simp [h0]
      | cons a I ih =>
        intro cs out0 hl hw h0
        rcases cs with _ | ⟨c, cs⟩
        · simp at hl
        · simp only [List.zip_cons_cons, List.foldl_cons, List.map_cons, Vec.dot_cons]
          have hc : c.length = w := hw c (by simp)
          by_cases hz : anyNonzero c
          · rw [if_pos hz]
            obtain ⟨i1, i2⟩ := ih cs (Vec.add out0 (Vec.smul (prodLoop B.dim (fun l => (B.vc x l).getD (a.getD l 0) 0)) c))
              (by simpa using hl) (fun c h => hw c (by simp [h])) (by simp [Vec.length_add, h0, hc])
            refine ⟨i1, fun k => ?_⟩
            rw [i2 k, hadd _ _ _ (by simp [h0, hc]), hsm]
            ring
          · rw [if_neg hz]
            obtain ⟨i1, i2⟩ := ih cs out0 (by simpa using hl) (fun c h => hw c (by simp [h])) h0
            refine ⟨i1, fun k => ?_⟩
            have : c.getD k 0 = 0 := by
              unfold anyNonzero at hz
              push Not at hz
              by_cases hk : k < c.length
              · rw [List.getD_eq_getElem?_getD, List.getElem?_eq_getElem hk]
                exact hz _ (List.getElem_mem hk)
              · rw [List.getD_eq_getElem?_getD, List.getElem?_eq_none (by omega)]; rfl
            rw [i2 k, this]
            ring
    obtain ⟨k1, k2⟩ := key I cs (List.replicate w 0) hl hw (by simp)
    refine ⟨k1, fun k => ?_⟩
    rw [k2 k]
    have : (List.replicate w (0:ℝ)).getD k 0 = 0 := by
      rw [List.getD_eq_getElem?_getD, List.getElem?_replicate]
      split <;> rfl
    rw [this, zero_add]

theorem V_entry (B : TBasis) (hd : 1 ≤ B.dim) {x : Vec} (hx : x.length = B.dim) {j : ℕ} {alpha : List ℕ} (hj : B.indices[j]? = some alpha) :
    (B.V x).getD j 0 = ∏ q ∈ Finset.range B.dim, B.F.phi (alpha.getD q 0) (B.sc.at' q (x.getD q 0)) := by
  unfold TBasis.V
  rw [List.getD_eq_getElem?_getD, List.getElem?_map, hj]
  simp only [Option.map_some, Option.getD_some]
  rw [prodLoop_eq]
  refine Finset.prod_congr rfl (fun q hq => ?_)
  rw [vc_eq B hx (Finset.mem_range.1 hq), vander_getD _ _ (index_le hd (List.mem_of_getElem? hj) q)]

/-- **C26**: `DV[i,j,k]` is the partial derivative of column `j` of `V` at the point `x` in coordinate `k`, in the
caller's coordinates. -/
theorem DV_deriv (B : TBasis) (hF : B.F.Good) (_hs : B.sc.Nondeg B.dim) {x : Vec} (hx : x.length = B.dim) {j : ℕ} {alpha : List ℕ}
    (hj : B.indices[j]? = some alpha) {k : ℕ} (hk : k < B.dim) :
    HasDerivAt (fun t => (B.V (x.set k t)).getD j 0) (B.DV x alpha k) (x.getD k 0) := by
  have hd : 1 ≤ B.dim := by omega
  have hm := List.mem_of_getElem? hj
  have e1 : (fun t => (B.V (x.set k t)).getD j 0) =
      fun t => ∏ q ∈ Finset.range B.dim, (fun q t => B.F.phi (alpha.getD q 0) (B.sc.at' q t)) q (if q = k then t else x.getD q 0) := by
    funext t
    rw [V_entry B hd (by simp [hx]) hj]
    refine Finset.prod_congr rfl (fun q _ => ?_)
    rw [getD_set (by omega)]
  have hg : HasDerivAt ((fun q t => B.F.phi (alpha.getD q 0) (B.sc.at' q t)) k) (B.d1 x k (alpha.getD k 0) * B.sc.dscale k) (x.getD k 0) := by
    have h1 := d1_deriv hF (index_le hd hm k) (B.sc.at' k (x.getD k 0))
    have := h1.comp (x.getD k 0) (at_deriv B.sc k (x.getD k 0))
    unfold TBasis.d1
    rw [vc_eq B hx hk]
    exact this
  have := prod_deriv B.dim k hk (fun q t => B.F.phi (alpha.getD q 0) (B.sc.at' q t)) _ (fun q => x.getD q 0) hg
  rw [e1]
  refine this.congr_deriv (Eq.symm ?_)
  unfold TBasis.DV
  rw [prodLoop_eq, ← Finset.mul_prod_erase _ _ (Finset.mem_range.2 hk), ← Finset.mul_prod_erase _ _ (Finset.mem_range.2 hk),
    if_pos rfl, if_pos rfl, mul_right_comm]
  congr 1
  refine Finset.prod_congr rfl (fun q hq => ?_)
  have hq' := Finset.ne_of_mem_erase hq
  rw [if_neg hq', if_neg hq', vc_eq B hx (Finset.mem_range.1 (Finset.mem_of_mem_erase hq)), vander_getD _ _ (index_le hd hm q)]

/-- `DV` entry as a product of functions of the single coordinates. -/
theorem DV_entry (B : TBasis) (hd : 1 ≤ B.dim) {x : Vec} (hx : x.length = B.dim) {alpha : List ℕ} (hm : alpha ∈ B.indices) (k : ℕ) :
    B.DV x alpha k = (∏ q ∈ Finset.range B.dim, if q = k then
        Vec.dot (B.F.vander (B.sc.at' q (x.getD q 0)) B.degree).dropLast (B.dmat (alpha.getD q 0))
      else B.F.phi (alpha.getD q 0) (B.sc.at' q (x.getD q 0))) * B.sc.dscale k := by
  unfold TBasis.DV
  rw [prodLoop_eq]
  congr 1
  refine Finset.prod_congr rfl (fun q hq => ?_)
  unfold TBasis.d1
  rw [vc_eq B hx (Finset.mem_range.1 hq), vander_getD _ _ (index_le hd hm q)]

theorem ddvUpper_comm_entry (B : TBasis) (x : Vec) (alpha : List ℕ) (k l : ℕ) : B.ddvUpper x alpha k l = B.ddvUpper x alpha l k := by
  unfold TBasis.ddvUpper
  rw [mul_comm (B.sc.dscale k)]
  congr 2
  funext q
  by_cases h : k = l
  · subst h; rfl
  · have e1 : ¬ (q = k ∧ k = l) := fun hh => h hh.2
    have e2 : ¬ (q = l ∧ l = k) := fun hh => h hh.2.symm
    rw [if_neg e1, if_neg e2]
    by_cases h1 : q = k
    · rw [if_pos (.inl h1), if_pos (.inr h1)]
    · by_cases h2 : q = l
      · rw [if_pos (.inr h2), if_pos (.inl h2)]
      · rw [if_neg (by tauto), if_neg (by tauto)]

/-- **C27**: `DDV` is symmetric. -/
theorem DDV_symm (B : TBasis) (x : Vec) (alpha : List ℕ) (k l : ℕ) : B.DDV x alpha k l = B.DDV x alpha l k := by
  unfold TBasis.DDV
  by_cases h : k ≤ l
  · by_cases h' : l ≤ k
    · have : k = l := by omega
      subst this; rfl
    · rw [if_pos h, if_neg h']
  · rw [if_neg h, if_pos (by omega)]

/-- **C27**: `DDV[i,j,k,l]` is the partial derivative of `DV[i,j,k]` in coordinate `l`, hence (with C26) the second
partial derivative of column `j` of `V`. -/
theorem DDV_deriv (B : TBasis) (hF : B.F.Good) (_hs : B.sc.Nondeg B.dim) {x : Vec} (hx : x.length = B.dim) {alpha : List ℕ}
    (hm : alpha ∈ B.indices) {k l : ℕ} (hl : l < B.dim) :
    HasDerivAt (fun t => B.DV (x.set l t) alpha k) (B.DDV x alpha k l) (x.getD l 0) := by
  have hd : 1 ≤ B.dim := by omega
  have e0 : B.DDV x alpha k l = B.ddvUpper x alpha k l := by
    unfold TBasis.DDV
    by_cases h : k ≤ l
    · rw [if_pos h]
    · rw [if_neg h, ddvUpper_comm_entry]
  rw [e0]
  let G : ℕ → ℝ → ℝ := fun q t => if q = k then
        Vec.dot (B.F.vander (B.sc.at' q t) B.degree).dropLast (B.dmat (alpha.getD q 0))
      else B.F.phi (alpha.getD q 0) (B.sc.at' q t)
  have e1 : (fun t => B.DV (x.set l t) alpha k) =
      fun t => (∏ q ∈ Finset.range B.dim, G q (if q = l then t else x.getD q 0)) * B.sc.dscale k := by
    funext t
    rw [DV_entry B hd (by simp [hx]) hm]
    congr 1
    refine Finset.prod_congr rfl (fun q _ => ?_)
    rw [getD_set (by omega)]
  let g' : ℝ := (if l = k then B.d2 x l (alpha.getD l 0) else B.d1 x l (alpha.getD l 0)) * B.sc.dscale l
  have hg : HasDerivAt (G l) g' (x.getD l 0) := by
    by_cases h : l = k
    · have e2 : G l = (fun z => Vec.dot (B.F.vander z B.degree).dropLast (B.dmat (alpha.getD l 0))) ∘ (B.sc.at' l) := by
        funext t; simp only [G, if_pos h]; rfl
      rw [e2]
      simp only [g', if_pos h]
      unfold TBasis.d2
      rw [vc_eq B hx hl]
      exact (d2_deriv hF (index_le hd hm l) _).comp (x.getD l 0) (at_deriv B.sc l (x.getD l 0))
    · have e2 : G l = (B.F.phi (alpha.getD l 0)) ∘ (B.sc.at' l) := by
        funext t; simp only [G, if_neg h]; rfl
      rw [e2]
      simp only [g', if_neg h]
      unfold TBasis.d1
      rw [vc_eq B hx hl]
      exact (d1_deriv hF (index_le hd hm l) _).comp (x.getD l 0) (at_deriv B.sc l (x.getD l 0))
  have hp := (prod_deriv B.dim l hl G g' (fun q => x.getD q 0) hg).mul_const (B.sc.dscale k)
  rw [e1]
  refine hp.congr_deriv (Eq.symm ?_)
  unfold TBasis.ddvUpper
  rw [prodLoop_eq, ← Finset.mul_prod_erase _ _ (Finset.mem_range.2 hl), ← Finset.mul_prod_erase _ _ (Finset.mem_range.2 hl), if_pos rfl]
  have e3 : (∏ q ∈ (Finset.range B.dim).erase l, if q = k ∧ k = l then B.d2 x q (alpha.getD q 0)
      else if q = k ∨ q = l then B.d1 x q (alpha.getD q 0) else (B.vc x q).getD (alpha.getD q 0) 0) =
      ∏ q ∈ (Finset.range B.dim).erase l, if q = l then g' else G q (x.getD q 0) := by
    refine Finset.prod_congr rfl (fun q hq => ?_)
    have hq' := Finset.ne_of_mem_erase hq
    have hqd := Finset.mem_range.1 (Finset.mem_of_mem_erase hq)
    rw [if_neg hq', if_neg (fun h => hq' (h.1.trans h.2))]
    simp only [G, hq', or_false]
    unfold TBasis.d1
    rw [vc_eq B hx hqd, vander_getD _ _ (index_le hd hm q)]
  rw [e3]
  have e4 : (if l = k ∧ k = l then B.d2 x l (alpha.getD l 0) else if l = k ∨ l = l then B.d1 x l (alpha.getD l 0)
      else (B.vc x l).getD (alpha.getD l 0) 0) = if l = k then B.d2 x l (alpha.getD l 0) else B.d1 x l (alpha.getD l 0) := by
    by_cases h : l = k
    · rw [if_pos ⟨h, h.symm⟩, if_pos h]
    · rw [if_neg (fun hh => h hh.1), if_neg h, if_pos (.inr rfl)]
  rw [e4]
  simp only [g']
  ring

/-- **C27**: the second partial derivatives of the columns of `V`. -/
theorem DDV_second_deriv (B : TBasis) (hF : B.F.Good) (hs : B.sc.Nondeg B.dim) {x : Vec} (hx : x.length = B.dim) {j : ℕ} {alpha : List ℕ}
    (hj : B.indices[j]? = some alpha) {k l : ℕ} (hk : k < B.dim) (hl : l < B.dim) :
    HasDerivAt (fun t => deriv (fun s => (B.V ((x.set l t).set k s)).getD j 0) ((x.set l t).getD k 0)) (B.DDV x alpha k l) (x.getD l 0) := by
  have e : (fun t => deriv (fun s => (B.V ((x.set l t).set k s)).getD j 0) ((x.set l t).getD k 0)) = fun t => B.DV (x.set l t) alpha k := by
    funext t
    exact (DV_deriv B hF hs (by simp [hx]) hj hk).deriv
  rw [e]
  exact DDV_deriv B hF hs hx (List.mem_of_getElem? hj) hl

/-! ## Scaling and roots -/

theorem columns_getD {n q : ℕ} (hq : q < n) (X : List Vec) (f : List ℝ → ℝ) :
    ((columns n X).map f).getD q 0 = f (X.map (fun r => r.getD q 0)) := by
  unfold columns
  rw [List.getD_eq_getElem?_getD, List.map_map, List.getElem?_map, List.getElem?_range hq]
  rfl

/-- **C28**: after `set_scale(X)` every data coordinate lies in `[-1, 1]`, the smallest at `-1` and the largest at `1`. -/
theorem setScale_range {dim : ℕ} {X : List Vec} (hX : ∀ r ∈ X, r.length = dim) {q : ℕ} (hq : q < dim)
    (hnd : ∃ r ∈ X, ∃ s ∈ X, r.getD q 0 ≠ s.getD q 0) :
    (∀ r ∈ X, -1 ≤ ((setScale dim X).scale r).getD q 0 ∧ ((setScale dim X).scale r).getD q 0 ≤ 1) ∧
    (∃ r ∈ X, ((setScale dim X).scale r).getD q 0 = -1 ∧ ∀ s ∈ X, r.getD q 0 ≤ s.getD q 0) ∧
    (∃ r ∈ X, ((setScale dim X).scale r).getD q 0 = 1 ∧ ∀ s ∈ X, s.getD q 0 ≤ r.getD q 0) := by
  obtain ⟨r0, hr0, s0, hs0, hne⟩ := hnd
  have hcne : X.map (fun r => r.getD q 0) ≠ [] := by
    intro h
    rw [List.map_eq_nil_iff] at h
    rw [h] at hr0
    cases hr0
  obtain ⟨m1, m2⟩ := minL_spec hcne
  obtain ⟨M1, M2⟩ := maxL_spec hcne
  set lo := minL (X.map (fun r => r.getD q 0)) with hlo
  set hi := maxL (X.map (fun r => r.getD q 0)) with hhi
  have hmm : ∀ r ∈ X, lo ≤ r.getD q 0 ∧ r.getD q 0 ≤ hi := fun r hr =>
    ⟨m2 _ (List.mem_map.2 ⟨r, hr, rfl⟩), M2 _ (List.mem_map.2 ⟨r, hr, rfl⟩)⟩
  have hlt : lo < hi := by
    have a := hmm r0 hr0
    have b := hmm s0 hs0
    rcases lt_or_gt_of_ne hne with h | h <;> linarith
  have hval : ∀ r ∈ X, ((setScale dim X).scale r).getD q 0 = 2 * (r.getD q 0 - lo) / (hi - lo) - 1 := by
    intro r hr
    rw [scale_getD _ (by rw [hX r hr]; exact hq)]
    simp only [setScale, Scaling.at']
    rw [columns_getD hq, columns_getD hq]
  have hpos : 0 < hi - lo := by linarith
  refine ⟨fun r hr => ?_, ?_, ?_⟩
  · rw [hval r hr]
    obtain ⟨a, b⟩ := hmm r hr
    constructor
    · have : 0 ≤ 2 * (r.getD q 0 - lo) / (hi - lo) := by
        apply div_nonneg <;> linarith
      linarith
    · have : 2 * (r.getD q 0 - lo) / (hi - lo) ≤ 2 := by
        rw [div_le_iff₀ hpos]; linarith
      linarith
  · obtain ⟨r, hr, he⟩ := List.mem_map.1 m1
    refine ⟨r, hr, ?_, fun s hs => by rw [he]; exact (hmm s hs).1⟩
    rw [hval r hr, he, sub_self]; simp
  · obtain ⟨r, hr, he⟩ := List.mem_map.1 M1
    refine ⟨r, hr, ?_, fun s hs => by rw [he]; exact (hmm s hs).2⟩
    rw [hval r hr, he, mul_div_assoc, div_self hpos.ne']; norm_num

/-- The inverse of the scaling at a coordinate. -/
theorem root_image {B : TBasis} (hs : B.sc.Nondeg B.dim) (hd : B.dim = 1) {polyroots : List ℝ → List ℝ} {coef rs : List ℝ}
    (h : B.roots polyroots coef = .ok rs) :
    rs.map (B.sc.at' 0) = polyroots coef := by
  unfold TBasis.roots at h
  rw [if_neg (by omega)] at h
  rcases hsc : B.sc with _ | ⟨lb, ub⟩ | ⟨mean, std⟩
  · rw [hsc] at h; cases h
  · rw [hsc] at h hs
    cases h
    have := hs 0 (by omega)
    have h1 : ub.getD 0 0 - lb.getD 0 0 ≠ 0 := sub_ne_zero.2 this
    rw [List.map_map]
    conv_rhs => rw [← List.map_id (polyroots coef)]
    apply List.map_congr_left
    intro r _
    simp only [Function.comp, Scaling.at', id]
    field_simp
    ring
  · rw [hsc] at h hs
    cases h
    have h1 := hs 0 (by omega)
    have h2 : Real.sqrt 2 ≠ 0 := by positivity
    rw [List.map_map]
    conv_rhs => rw [← List.map_id (polyroots coef)]
    apply List.map_congr_left
    intro r _
    simp only [Function.comp, Scaling.at', id]
    field_simp
    ring

theorem indexSet_one (p : ℕ) : indexSet p 1 = (List.range (p + 1)).map (fun n => [n]) := by
  unfold indexSet
  have h : (List.range' 1 p).flatMap (fun i => fullIndexSet i 1) = (List.range' 1 p).map (fun i => [i]) := by
    induction (List.range' 1 p) with
    | nil => rfl
    | cons a l ih => rw [List.flatMap_cons, ih]; rfl
  rw [h, List.range_eq_range', List.range'_succ]
  simp

theorem at_injective {s : Scaling} (hs : s.Nondeg 1) {a b : ℝ} (h : s.at' 0 a = s.at' 0 b) : a = b := by
  cases s with
  | none => exact h
  | minmax lb ub =>
    have h1 : ub.getD 0 0 - lb.getD 0 0 ≠ 0 := sub_ne_zero.2 (hs 0 one_pos)
    simp only [Scaling.at'] at h
    field_simp at h
    linarith
  | meanstd mean std =>
    have h1 := hs 0 one_pos
    simp only [Scaling.at'] at h
    have h2 : Real.sqrt 2 ≠ 0 := by positivity
    field_simp at h
    linarith

/-- In one dimension the Vandermonde matrix times the coefficients is the value of the polynomial at the scaled point. -/
theorem V_one_dim {B : TBasis} (hd : B.dim = 1) (t : ℝ) (coef : List ℝ) (hc : coef.length = B.degree + 1) :
    Vec.dot (B.V [t]) coef = B.F.series coef (B.sc.at' 0 t) := by
  have e : B.V [t] = (List.range (B.degree + 1)).map (fun n => B.F.phi n (B.sc.at' 0 t)) := by
    unfold TBasis.V TBasis.indices
    rw [hd, indexSet_one, List.map_map]
    apply List.map_congr_left
    intro n hn
    simp only [Function.comp, prodLoop_eq, Finset.prod_range_one]
    rw [vc_eq B (by simp [hd]) (by omega)]
    exact vander_getD _ _ (by have := List.mem_range.1 hn; simp; omega)
  rw [e, dot_vander _ _ _ _ (by omega)]

/-- **C28**: the values returned by `roots` are exactly the zeros, in the caller's coordinates, of the polynomial that
`V` evaluates, when the scalar routine returns exactly the real zeros of the scalar polynomial. -/
theorem roots_exact {B : TBasis} (hs : B.sc.Nondeg B.dim) (hd : B.dim = 1) {polyroots : List ℝ → List ℝ} {coef rs : List ℝ}
    (hc : coef.length = B.degree + 1) (hp : ∀ z, z ∈ polyroots coef ↔ B.F.series coef z = 0) (h : B.roots polyroots coef = .ok rs) (t : ℝ) :
    t ∈ rs ↔ Vec.dot (B.V [t]) coef = 0 := by
  have him := root_image hs hd h
  rw [V_one_dim hd t coef hc, ← hp, ← him, List.mem_map]
  constructor
  · exact fun ht => ⟨t, ht, rfl⟩
  · rintro ⟨u, hu, he⟩
    rw [hd] at hs
    rwa [← at_injective hs he]

/-- **C28**: every value returned is a zero, when the scalar routine returns zeros. -/
theorem roots_sound {B : TBasis} (hs : B.sc.Nondeg B.dim) (hd : B.dim = 1) {polyroots : List ℝ → List ℝ} {coef rs : List ℝ}
    (hc : coef.length = B.degree + 1) (hp : ∀ z ∈ polyroots coef, B.F.series coef z = 0) (h : B.roots polyroots coef = .ok rs) :
    ∀ t ∈ rs, Vec.dot (B.V [t]) coef = 0 := by
  intro t ht
  rw [V_one_dim hd t coef hc]
  apply hp
  rw [← root_image hs hd h]
  exact List.mem_map.2 ⟨t, ht, rfl⟩

/-- `roots` works only for one-dimensional bases built from points. -/
theorem roots_ok_iff (B : TBasis) (polyroots : List ℝ → List ℝ) (coef : List ℝ) :
    (∃ rs, B.roots polyroots coef = .ok rs) ↔ B.dim ≤ 1 ∧ B.sc ≠ .none := by
  unfold TBasis.roots
  by_cases h : 1 < B.dim
  · rw [if_pos h]
    constructor
    · rintro ⟨_, h⟩; cases h
    · rintro ⟨h', -⟩; omega
  · rw [if_neg h]
    rcases B.sc with _ | _ | _ <;> simp <;> omega

/-- **C28** is false for a basis built with `dim` instead of points: `V` works but `roots` raises AttributeError. -/
theorem roots_unscaled_false (F : Family) (deg : ℕ) (polyroots : List ℝ → List ℝ) (coef : List ℝ) :
    TBasis.roots ⟨F, deg, 1, .none⟩ polyroots coef = .error .attributeError := rfl

end Verif.Basis
