import Verif.Domain.DimModel
import Verif.Domain.HitUniform
import Mathlib.LinearAlgebra.Matrix.Rank
import Mathlib.LinearAlgebra.AffineSpace.AffineSubspace.Basic
import Mathlib.LinearAlgebra.FiniteDimensional.Lemmas

/-!
# Intrinsic dimension

Source: `/repo/psdr/domains/euclidean.py` 444-447.
-/

namespace Verif.Domain

open Verif Matrix Classical

/-! ### Specification -/

/-- The point satisfies the equality constraints, and every other constraint strictly. -/
structure LQ.Strict (q : LQ) (x : Vec) : Prop where
  lb : ∀ (i : ℕ) (r xi : ℝ), q.lb[i]? = some (XR.fin r) → x[i]? = some xi → r < xi
  ub : ∀ (i : ℕ) (r xi : ℝ), q.ub[i]? = some (XR.fin r) → x[i]? = some xi → xi < r
  ineq : ∀ (i : ℕ) (row : Vec) (bi : ℝ), q.A[i]? = some row → q.b[i]? = some bi → Vec.dot row x < bi
  eq : ∀ (i : ℕ) (row : Vec) (bi : ℝ), q.Aeq[i]? = some row → q.beq[i]? = some bi → Vec.dot row x = bi
  quad : ∀ (i : ℕ) (L : List Vec) (y : Vec) (rho : ℝ), q.Ls[i]? = some L → q.ys[i]? = some y →
    q.rhos[i]? = some rho → Vec.norm (Vec.mulVec L (Vec.sub x y)) < rho

/-- The equality constraints as a matrix. -/
def LQ.eqMat (q : LQ) : Matrix (Fin q.Aeq.length) (Fin q.n) ℝ := Matrix.of fun i j => (q.Aeq.get i).getD j 0

/-- The dimension of the set of points of a domain: that of the differences of its points. -/
noncomputable def Dom.dimension (D : Dom) : ℕ := Module.finrank ℝ (vectorSpan ℝ D.pts)

/-! ### Proofs -/

theorem dot_ofFn {n : ℕ} {r : Vec} (hr : r.length = n) (x : Fin n → ℝ) : Vec.dot r (List.ofFn x) = (fun j : Fin n => r.getD j 0) ⬝ᵥ x := by
  induction n generalizing r with
  | zero => 
    rw [List.length_eq_zero_iff.mp hr]
    simp [Vec.dot, dotProduct]
  | succ n ih =>
    cases r with
    | nil => simp at hr
    | cons a r =>
      have := ih (by simpa using hr) (fun i => x i.succ)
      rw [List.ofFn_succ]
      simp only [Vec.dot, List.zipWith_cons_cons, List.sum_cons] at this ⊢
      rw [this]
      unfold dotProduct
      rw [Fin.sum_univ_succ]
      simp

theorem eqMat_mulVec {q : LQ} (hw : q.WF) (x : Fin q.n → ℝ) (i : Fin q.Aeq.length) : (q.eqMat *ᵥ x) i = Vec.dot (q.Aeq.get i) (List.ofFn x) := by
  rw [dot_ofFn (hw.Aeq_w _ (List.get_mem _ _))]
  rfl

theorem eq_iff_mulVec {q : LQ} (hw : q.WF) {x y : Fin q.n → ℝ}
    (hx : ∀ (i : ℕ) (row : Vec) (bi : ℝ), q.Aeq[i]? = some row → q.beq[i]? = some bi → Vec.dot row (List.ofFn x) = bi) :
    (∀ (i : ℕ) (row : Vec) (bi : ℝ), q.Aeq[i]? = some row → q.beq[i]? = some bi → Vec.dot row (List.ofFn y) = bi) ↔ q.eqMat *ᵥ (y - x) = 0 := by
  rw [Matrix.mulVec_sub, sub_eq_zero]
  constructor
  · intro hy
    funext i
    rw [eqMat_mulVec hw, eqMat_mulVec hw]
    have h1 : q.Aeq[(i : ℕ)]? = some (q.Aeq.get i) := by simp
    have h2 : q.beq[(i : ℕ)]? = some (q.beq[(i : ℕ)]'(by rw [← hw.Aeq_len]; exact i.2)) := by simp
    rw [hy i _ _ h1 h2, hx i _ _ h1 h2]
  · intro h i row bi hr hb
    have hi : i < q.Aeq.length := by
      by_contra hge
      rw [List.getElem?_eq_none (by omega)] at hr
      cases hr
    have he := congrFun h ⟨i, hi⟩
    rw [eqMat_mulVec hw, eqMat_mulVec hw] at he
    have hrow : q.Aeq.get ⟨i, hi⟩ = row := by
      rw [List.getElem?_eq_getElem hi] at hr
      exact Option.some.inj hr
    rw [hrow] at he
    rw [he]
    exact hx i row bi hr hb

/-- From a strictly feasible point a small step in any direction allowed by the equality constraints is possible. -/
theorem strict_step {q : LQ} (hw : q.WF) {x v : Fin q.n → ℝ} (hx : q.Strict (List.ofFn x)) (hv : q.eqMat *ᵥ v = 0) :
    ∃ t : ℝ, 0 < t ∧ q.Holds (List.ofFn (x + t • v)) := by
  have hline : Continuous fun t : ℝ => x + t • v := by fun_prop
  have key : ∀ (f : (Fin q.n → ℝ) → ℝ), Continuous f → ∀ c, f x < c → ∀ᶠ t in nhds (0 : ℝ), f (x + t • v) ≤ c := by
    intro f hf c hc
    have h1 : Filter.Tendsto (fun t : ℝ => f (x + t • v)) (nhds 0) (nhds (f x)) := by
      have := (hf.comp hline).tendsto 0
      simp only [Function.comp_def, zero_smul, add_zero] at this
      exact this
    exact (h1.eventually (gt_mem_nhds hc)).mono fun t ht => le_of_lt ht
  have hlb : ∀ᶠ t in nhds (0 : ℝ), ∀ i : Fin q.n, ∀ r, q.lb[(i : ℕ)]? = some (XR.fin r) → r ≤ (x + t • v) i := by
    rw [Filter.eventually_all]
    intro i
    by_cases h : ∃ r, q.lb[(i : ℕ)]? = some (XR.fin r)
    · obtain ⟨r, hr⟩ := h
      have := key (fun y => - y i) (by fun_prop) (-r) (by
        have := hx.lb i r (x i) hr (by simp)
        linarith)
      filter_upwards [this] with t ht r' hr'
      rw [hr] at hr'
      cases hr'
      linarith
    · filter_upwards with t r hr
      exact absurd ⟨r, hr⟩ h
  have hub : ∀ᶠ t in nhds (0 : ℝ), ∀ i : Fin q.n, ∀ r, q.ub[(i : ℕ)]? = some (XR.fin r) → (x + t • v) i ≤ r := by
    rw [Filter.eventually_all]
    intro i
    by_cases h : ∃ r, q.ub[(i : ℕ)]? = some (XR.fin r)
    · obtain ⟨r, hr⟩ := h
      have := key (fun y => y i) (by fun_prop) r (hx.ub i r (x i) hr (by simp))
      filter_upwards [this] with t ht r' hr'
      rw [hr] at hr'
      cases hr'
      exact ht
    · filter_upwards with t r hr
      exact absurd ⟨r, hr⟩ h
  have hin : ∀ᶠ t in nhds (0 : ℝ), ∀ i : Fin q.A.length, ∀ row bi, q.A[(i : ℕ)]? = some row → q.b[(i : ℕ)]? = some bi → Vec.dot row (List.ofFn (x + t • v)) ≤ bi := by
    rw [Filter.eventually_all]
    intro i
    by_cases h : ∃ row bi, q.A[(i : ℕ)]? = some row ∧ q.b[(i : ℕ)]? = some bi
    · obtain ⟨row, bi, hr, hb⟩ := h
      have := key _ (cont_dot row) bi (hx.ineq i row bi hr hb)
      filter_upwards [this] with t ht row' bi' hr' hb'
      rw [hr] at hr'
      rw [hb] at hb'
      cases hr'
      cases hb'
      exact ht
    · filter_upwards with t row bi hr hb
      exact absurd ⟨row, bi, hr, hb⟩ h
  have hqd : ∀ᶠ t in nhds (0 : ℝ), ∀ i : Fin q.Ls.length, ∀ L y rho, q.Ls[(i : ℕ)]? = some L → q.ys[(i : ℕ)]? = some y → q.rhos[(i : ℕ)]? = some rho →
      Vec.norm (Vec.mulVec L (Vec.sub (List.ofFn (x + t • v)) y)) ≤ rho := by
    rw [Filter.eventually_all]
    intro i
    by_cases h : ∃ L y rho, q.Ls[(i : ℕ)]? = some L ∧ q.ys[(i : ℕ)]? = some y ∧ q.rhos[(i : ℕ)]? = some rho
    · obtain ⟨L, y, rho, h1, h2, h3⟩ := h
      have hy : y.length = q.n := hw.ys_w y (List.mem_of_getElem? h2)
      have := key _ (cont_quad L hy) rho (hx.quad i L y rho h1 h2 h3)
      filter_upwards [this] with t ht L' y' rho' h1' h2' h3'
      rw [h1] at h1'
      rw [h2] at h2'
      rw [h3] at h3'
      cases h1'
      cases h2'
      cases h3'
      exact ht
    · filter_upwards with t L y rho h1 h2 h3
      exact absurd ⟨L, y, rho, h1, h2, h3⟩ h
  have hall := (((hlb.and hub).and hin).and hqd)
  have hpos : ∃ᶠ t in nhds (0 : ℝ), 0 < t := by
    rw [frequently_nhds_iff]
    intro U hU hUo
    obtain ⟨ε, hε, hb⟩ := Metric.isOpen_iff.mp hUo 0 hU
    refine ⟨ε / 2, hb ?_, by positivity⟩
    rw [Metric.mem_ball, dist_zero_right, Real.norm_of_nonneg (by positivity)]
    linarith
  obtain ⟨t, ht, ⟨⟨h1, h2⟩, h3⟩, h4⟩ := (hpos.and_eventually hall).exists
  have hget : ∀ (i : ℕ) (xi : ℝ), (List.ofFn (x + t • v))[i]? = some xi → ∃ hi : i < q.n, xi = (x + t • v) ⟨i, hi⟩ := by
    intro i xi h
    rw [List.getElem?_ofFn] at h
    split_ifs at h with hi
    exact ⟨hi, (Option.some.inj h).symm⟩
  have hlt : ∀ {α : Type} (l : List α) (i : ℕ) (a : α), l[i]? = some a → i < l.length := by
    intro α l i a h
    by_contra hge
    rw [List.getElem?_eq_none (by omega)] at h
    cases h
  refine ⟨t, ht, ?_, ?_, ?_, ?_, ?_⟩
  · intro i r xi hr hxi
    obtain ⟨hi, rfl⟩ := hget i xi hxi
    exact h1 ⟨i, hi⟩ r hr
  · intro i r xi hr hxi
    obtain ⟨hi, rfl⟩ := hget i xi hxi
    exact h2 ⟨i, hi⟩ r hr
  · intro i row bi hr hb
    exact h3 ⟨i, hlt _ _ _ hr⟩ row bi hr hb
  · refine (eq_iff_mulVec hw (fun i row bi => hx.eq i row bi)).mpr ?_
    rw [add_sub_cancel_left, mulVec_smul, hv, smul_zero]
  · intro i L y rho h5 h6 h7
    exact h4 ⟨i, hlt _ _ _ h5⟩ L y rho h5 h6 h7

theorem strict_holds {q : LQ} {x : Vec} (hx : q.Strict x) : q.Holds x :=
  ⟨fun i r xi h1 h2 => (hx.lb i r xi h1 h2).le, fun i r xi h1 h2 => (hx.ub i r xi h1 h2).le, fun i r b h1 h2 => (hx.ineq i r b h1 h2).le, hx.eq,
    fun i L y rho h1 h2 h3 => (hx.quad i L y rho h1 h2 h3).le⟩

/-- The points of constraint data. -/
def LQ.set (q : LQ) : Set (Fin q.n → ℝ) := {x | q.Holds (List.ofFn x)}

/-- The differences of points of a domain with a strictly feasible point span the solutions of the homogeneous equality constraints. -/
theorem vectorSpan_eq_ker {q : LQ} (hw : q.WF) {x : Fin q.n → ℝ} (hx : q.Strict (List.ofFn x)) :
    vectorSpan ℝ q.set = LinearMap.ker (q.eqMat).mulVecLin := by
  apply le_antisymm
  · unfold vectorSpan
    rw [Submodule.span_le]
    rintro v ⟨a, ha, b, hb, rfl⟩
    change (q.eqMat).mulVecLin (a - b) = 0
    exact (eq_iff_mulVec hw (fun i row bi => hb.eq i row bi)).mp (fun i row bi => ha.eq i row bi)
  · intro v hv
    have hv' : q.eqMat *ᵥ v = 0 := hv
    obtain ⟨t, ht, hh⟩ := strict_step hw hx hv'
    have h1 : x + t • v ∈ q.set := hh
    have h2 : x ∈ q.set := strict_holds hx
    have h3 := vsub_mem_vectorSpan ℝ h1 h2
    have h4 : (x + t • v) -ᵥ x = t • v := by
      change x + t • v - x = _
      abel
    rw [h4] at h3
    have h5 := Submodule.smul_mem (vectorSpan ℝ q.set) t⁻¹ h3
    rw [smul_smul, inv_mul_cancel₀ ht.ne', one_smul] at h5
    exact h5

theorem set_dimension {q : LQ} (hw : q.WF) {x : Fin q.n → ℝ} (hx : q.Strict (List.ofFn x)) :
    Module.finrank ℝ (vectorSpan ℝ q.set) + q.eqMat.rank = q.n := by
  have h1 := LinearMap.finrank_range_add_finrank_ker (q.eqMat).mulVecLin
  rw [Module.finrank_fin_fun] at h1
  rw [vectorSpan_eq_ker hw hx]
  unfold Matrix.rank
  omega

theorem plain_set {d : Base} (hp : d.Plain) : (Dom.base d).pts = d.acc.set := by
  ext x
  constructor
  · intro h
    exact h.2.1
  · intro h
    refine ⟨List.length_ofFn, h, fun X q e => ?_⟩
    subst e
    exact hp.elim

/-- **C126** For a domain with a point that is strictly inside all constraints but the equality constraints, the dimension is the number of variables minus
the rank of the equality constraints. -/
theorem dimension_eq {d : Base} (hp : d.Plain) (hw : d.acc.WF) {x : Fin d.acc.n → ℝ} (hx : d.acc.Strict (List.ofFn x)) :
    (Dom.base d).dimension + d.acc.eqMat.rank = (Dom.base d).len := by
  unfold Dom.dimension
  rw [plain_set hp]
  exact set_dimension hw hx

/-- **C126** A domain with a point has at most that dimension. -/
theorem dimension_le {d : Base} (hw : d.acc.WF) : (Dom.base d).dimension + d.acc.eqMat.rank ≤ (Dom.base d).len := by
  have h1 := LinearMap.finrank_range_add_finrank_ker (d.acc.eqMat).mulVecLin
  rw [Module.finrank_fin_fun] at h1
  have h2 : vectorSpan ℝ d.acc.set ≤ LinearMap.ker (d.acc.eqMat).mulVecLin := by
    unfold vectorSpan
    rw [Submodule.span_le]
    rintro v ⟨a, ha, b, hb, rfl⟩
    change (d.acc.eqMat).mulVecLin (a - b) = 0
    exact (eq_iff_mulVec hw (fun i row bi => hb.eq i row bi)).mp (fun i row bi => ha.eq i row bi)
  have h5 : Module.finrank ℝ (LinearMap.range (d.acc.eqMat).mulVecLin) = d.acc.eqMat.rank := rfl
  have h4 : ∀ S : Set (Fin d.acc.n → ℝ), S ⊆ d.acc.set → Module.finrank ℝ (vectorSpan ℝ S) + d.acc.eqMat.rank ≤ d.acc.n := by
    intro S h3
    have := Submodule.finrank_mono (le_trans (vectorSpan_mono ℝ h3) h2)
    omega
  exact h4 _ fun x hx => hx.2.1

/-- **C126** The property `intrinsic_dimension` is at most the dimension of such a domain, with equality exactly if the rows of `A_eq` are linearly
independent. -/
theorem intrinsic_dimension_partial {d : Base} (hp : d.Plain) (hw : d.acc.WF) {x : Fin d.acc.n → ℝ} (hx : d.acc.Strict (List.ofFn x)) :
    (Dom.base d).intrinsicDim ≤ (Dom.base d).dimension ∧
      ((Dom.base d).intrinsicDim = (Dom.base d).dimension ↔ LinearIndependent ℝ d.acc.eqMat.row) := by
  have h := dimension_eq hp hw hx
  have hr : d.acc.eqMat.rank ≤ d.acc.Aeq.length := by
    have := d.acc.eqMat.rank_le_card_height
    simpa using this
  have hi : (Dom.base d).intrinsicDim = ((Dom.base d).len : ℤ) - d.acc.Aeq.length := rfl
  have hrank : LinearIndependent ℝ d.acc.eqMat.row ↔ d.acc.eqMat.rank = d.acc.Aeq.length := by
    rw [Matrix.rank_eq_finrank_span_row, linearIndependent_iff_card_eq_finrank_span, Fintype.card_fin]
    exact eq_comm
  rw [hrank, hi]
  constructor
  · omega
  · omega

/-! ### Where the property is wrong -/

/-- The point `0` on the line, with its equation given twice. -/
def twiceZero : Base := .linineq ⟨1, [.ninf], [.pinf], [], [], [[1], [1]], [0, 0], [], [], []⟩

/-- **C126** is false with redundant equality constraints: a point gets dimension `-1`. -/
theorem intrinsic_dimension_redundant_false : (Dom.base twiceZero).intrinsicDim = -1 ∧ (Dom.base twiceZero).dimension = 0 := by
  constructor
  · rfl
  · unfold Dom.dimension
    have : (Dom.base twiceZero).pts ⊆ {0} := by
      intro x hx
      have h1 : (Base.acc twiceZero).Holds (List.ofFn x) := hx.2.1
      have h2 : Vec.dot [1] (List.ofFn x) = 0 := h1.eq 0 [1] 0 rfl rfl
      have h3 : (List.ofFn x) = [x (0 : Fin 1)] := rfl
      rw [h3] at h2
      have h4 : x (0 : Fin 1) = 0 := by simpa [Vec.dot] using h2
      funext i
      have hi : i = (0 : Fin 1) := Subsingleton.elim (α := Fin 1) _ _
      rw [hi]
      exact h4
    have h5 := vectorSpan_mono ℝ this
    rw [vectorSpan_singleton, le_bot_iff] at h5
    rw [h5, finrank_bot]

/-- **C126** is false for bounds that fix a variable: the point `[0, 0]` of the line as a box gets dimension one. -/
theorem intrinsic_dimension_point_false : (Dom.base (.box [.fin 0] [.fin 0])).intrinsicDim = 1 ∧ (Dom.base (.box [.fin 0] [.fin 0])).dimension = 0 := by
  constructor
  · rfl
  · unfold Dom.dimension
    have : (Dom.base (.box [.fin 0] [.fin 0])).pts ⊆ {0} := by
      intro x hx
      have h1 : (Base.acc (.box [.fin 0] [.fin 0])).Holds (List.ofFn x) := hx.2.1
      have h2 : (0 : ℝ) ≤ x (0 : Fin 1) := h1.lb 0 0 (x (0 : Fin 1)) rfl rfl
      have h3 : x (0 : Fin 1) ≤ 0 := h1.ub 0 0 (x (0 : Fin 1)) rfl rfl
      funext i
      have hi : i = (0 : Fin 1) := Subsingleton.elim (α := Fin 1) _ _
      rw [hi]
      exact le_antisymm h3 h2
    have h5 := vectorSpan_mono ℝ this
    rw [vectorSpan_singleton, le_bot_iff] at h5
    rw [h5, finrank_bot]

/-- A concrete case of `intrinsic_dimension_partial`: the open half of a line in the plane, of dimension one. -/
example : (Dom.base (.linineq ⟨2, [.fin 0, .ninf], [.pinf, .pinf], [], [], [[1, 1]], [3], [], [], []⟩)).dimension = 1 := by
  have h := dimension_eq (d := .linineq ⟨2, [.fin 0, .ninf], [.pinf, .pinf], [], [], [[1, 1]], [3], [], [], []⟩) trivial
    ⟨rfl, rfl, by simp [Base.acc, XR.okLower], by simp [Base.acc, XR.okUpper], by simp [Base.acc], rfl, by simp [Base.acc], rfl, rfl, rfl, by simp [Base.acc], by simp [Base.acc], by simp [Base.acc]⟩ (x := ![1, 2])
    ⟨by
      intro i r xi h1 h2
      rcases i with _ | _ | i
      · simp [Base.acc] at h1 h2
        subst h1 h2
        norm_num
      · simp [Base.acc] at h1
      · simp [Base.acc] at h1, by
      intro i r xi h1 h2
      rcases i with _ | _ | i <;> simp [Base.acc] at h1, by simp [Base.acc], by
      intro i row bi h1 h2
      rcases i with _ | i
      · simp [Base.acc] at h1 h2
        subst h1 h2
        have h3 : (List.ofFn (![1, 2] : Fin 2 → ℝ)) = [1, 2] := by simp [List.ofFn_succ]
        change Vec.dot [1, 1] (List.ofFn (![1, 2] : Fin 2 → ℝ)) = 3
        rw [h3]
        norm_num [Vec.dot]
      · simp [Base.acc] at h1, by simp [Base.acc]⟩
  have hrk : (Base.acc (.linineq ⟨2, [.fin 0, .ninf], [.pinf, .pinf], [], [], [[1, 1]], [3], [], [], []⟩)).eqMat.rank = 1 := by
    apply le_antisymm
    · exact Matrix.rank_le_card_height _
    · by_contra hlt
      push Not at hlt
      have h0 : (Base.acc (.linineq ⟨2, [.fin 0, .ninf], [.pinf, .pinf], [], [], [[1, 1]], [3], [], [], []⟩)).eqMat.rank = 0 := by omega
      unfold Matrix.rank at h0
      rw [Submodule.finrank_eq_zero, LinearMap.range_eq_bot] at h0
      have := congrFun (LinearMap.congr_fun h0 ![1, 0]) ⟨0, by simp [Base.acc]⟩
      change (∑ j : Fin 2, ([1, 1] : List ℝ).getD j 0 * (![1, 0] : Fin 2 → ℝ) j) = (0 : ℝ) at this
      simp [Fin.sum_univ_two] at this
  rw [hrk] at h
  have hl : (Dom.base (.linineq ⟨2, [.fin 0, .ninf], [.pinf, .pinf], [], [], [[1, 1]], [3], [], [], []⟩)).len = 2 := rfl
  omega

end Verif.Domain
