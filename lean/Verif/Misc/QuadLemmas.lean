import Verif.Misc.QuadModel
import Verif.Misc.QuadLimit
import Verif.Misc.GaussNodes

/-!
# Tensor rules as positive functionals

Facts about the tensor rule behind `quadrature_rule`, `/repo/psdr/domains/euclidean.py` 743-766.
-/

namespace Verif.Misc

open Classical Verif.Lip Verif.Domain MeasureTheory Filter Topology

section Lists

variable {α β : Type*}

theorem mem_cart {xs : List (List α)} {r : List α} : r ∈ cart xs ↔ List.Forall₂ (fun v x => v ∈ x) r xs := by
  induction xs generalizing r with
  | nil => simp [cart]
  | cons x xs ih =>
    simp only [cart, List.mem_flatMap, List.mem_map]
    constructor
    · rintro ⟨v, hv, s, hs, rfl⟩
      exact List.Forall₂.cons hv (ih.1 hs)
    · intro h
      cases h with
      | cons hv hs => exact ⟨_, hv, _, ih.2 hs, rfl⟩

theorem cart_map (f : α → β) (xs : List (List α)) : cart (xs.map (List.map f)) = (cart xs).map (List.map f) := by
  induction xs with
  | nil => simp [cart]
  | cons x xs ih => simp [cart, ih, List.flatMap_map, List.map_flatMap, Function.comp_def]

theorem swap01_map (f : α → β) (l : List α) : swap01 (l.map f) = (swap01 l).map f := by
  match l with
  | [] => rfl
  | [_] => rfl
  | _ :: _ :: _ => rfl

theorem mesh_map (f : α → β) (xs : List (List α)) : mesh (xs.map (List.map f)) = (mesh xs).map (List.map f) := by
  unfold mesh
  rw [swap01_map, cart_map, List.map_map, List.map_map]
  refine List.map_congr_left fun r _ => ?_
  simp [swap01_map]

/-- Both orders list the same rows. -/
theorem mesh_perm (xs : List (List α)) : (mesh xs).Perm (cart xs) := by
  match xs with
  | [] => simp [mesh, swap01, cart]
  | [x] =>
    have : mesh [x] = cart [x] := by
      simp only [mesh, swap01, cart, List.map_flatMap]
      rfl
    rw [this]
  | x :: y :: l =>
    have e : mesh (x :: y :: l) = y.flatMap fun b => x.flatMap fun a => (cart l).map fun r => a :: b :: r := by
      simp [mesh, swap01, cart, List.map_flatMap, Function.comp_def]
    have e2 : cart (x :: y :: l) = x.flatMap fun a => y.flatMap fun b => (cart l).map fun r => a :: b :: r := by
      simp [cart, List.map_flatMap, Function.comp_def]
    rw [e, e2, ← Multiset.coe_eq_coe]
    have := Multiset.bind_bind (y : Multiset α) (x : Multiset α) (f := fun b a => (((cart l).map fun r => a :: b :: r : List (List α)) : Multiset (List α)))
    simpa [Multiset.coe_bind] using this

theorem length_cart (xs : List (List α)) : (cart xs).length = (xs.map List.length).prod := by
  induction xs with
  | nil => simp [cart]
  | cons x xs ih => simp [cart, List.length_flatMap, ih]

end Lists

/-- The coordinates of a row. -/
noncomputable def toPt (m : ℕ) (x : Vec) : Fin m → ℝ := fun i => x.getD i 0

theorem ofFn_toPt {m : ℕ} {x : Vec} (h : x.length = m) : List.ofFn (toPt m x) = x := by
  subst h
  apply List.ext_getElem
  · simp
  · intro i h1 h2
    simp [toPt, h2]

theorem toPt_ofFn {m : ℕ} (x : Fin m → ℝ) : toPt m (List.ofFn x) = x := by
  funext i
  simp [toPt]

/-- Points and weights on one axis. -/
noncomputable def axisZ (eigh : EighAll) (q : ℕ) (a b : ℝ) : List (ℝ × ℝ) :=
  List.ofFn fun k => ((gauss (q - 1) a b (eigh (q - 1))).1 k, (gauss (q - 1) a b (eigh (q - 1))).2 k)

theorem axisX_eq (eigh : EighAll) (q : ℕ) (a b : ℝ) : axisX eigh q a b = (axisZ eigh q a b).map Prod.fst := by
  simp [axisX, axisZ, List.map_ofFn, Function.comp_def]

theorem axisW_eq (eigh : EighAll) (q : ℕ) (a b : ℝ) : axisW eigh q a b = (axisZ eigh q a b).map Prod.snd := by
  simp [axisW, axisZ, List.map_ofFn, Function.comp_def]

/-- The point and the weight of a choice of one entry per axis. -/
noncomputable def pairOf (r : List (ℝ × ℝ)) : Vec × ℝ := (r.map Prod.fst, (r.map Prod.snd).prod)

/-- Points and weights of the tensor rule are in the same order. -/
theorem zip_mesh (eigh : EighAll) (q : ℕ) (lo hi : Vec) :
    (mesh (List.zipWith (axisX eigh q) lo hi)).zip ((mesh (List.zipWith (axisW eigh q) lo hi)).map List.prod) =
      (mesh (List.zipWith (axisZ eigh q) lo hi)).map pairOf := by
  have e1 : List.zipWith (axisX eigh q) lo hi = (List.zipWith (axisZ eigh q) lo hi).map (List.map Prod.fst) := by
    rw [List.map_zipWith]
    congr 1
    funext a b
    exact axisX_eq eigh q a b
  have e2 : List.zipWith (axisW eigh q) lo hi = (List.zipWith (axisZ eigh q) lo hi).map (List.map Prod.snd) := by
    rw [List.map_zipWith]
    congr 1
    funext a b
    exact axisW_eq eigh q a b
  rw [e1, e2, mesh_map, mesh_map, List.map_map, List.zip_map']
  rfl

theorem quadPts_eq (eigh : EighAll) (D : QDom) (q : ℕ) :
    quadPts eigh D q = ((mesh (List.zipWith (axisZ eigh q) D.lo D.hi)).map pairOf).filter fun p => decide (D.inside p.1) := by
  rw [quadPts, zip_mesh]

theorem quadPts_perm (eigh : EighAll) (D : QDom) (q : ℕ) : (quadPts eigh D q).Perm
    (((cart (List.zipWith (axisZ eigh q) D.lo D.hi)).map pairOf).filter fun p => decide (D.inside p.1)) := by
  rw [quadPts_eq]
  exact ((mesh_perm _).map _).filter _

variable {m : ℕ}

theorem zipWith_ofFn {α β γ : Type*} (f : α → β → γ) (x : Fin m → α) (y : Fin m → β) :
    List.zipWith f (List.ofFn x) (List.ofFn y) = List.ofFn fun i => f (x i) (y i) := by
  apply List.ext_getElem <;> simp

/-- Sums of products over all choices are products of sums. -/
theorem cart_sum (Z : Fin m → List (ℝ × ℝ)) (g : Fin m → ℝ → ℝ) :
    ((cart (List.ofFn Z)).map fun r => (pairOf r).2 * ∏ i, g i (toPt m (pairOf r).1 i)).sum =
      ∏ i, ((Z i).map fun p => p.2 * g i p.1).sum := by
  induction m with
  | zero => simp [cart, pairOf]
  | succ m ih =>
    rw [List.ofFn_succ, cart, List.map_flatMap, Fin.prod_univ_succ]
    have h := ih (fun i => Z i.succ) (fun i => g i.succ)
    have e : ∀ v : ℝ × ℝ, (((cart (List.ofFn fun i => Z i.succ)).map fun r => v :: r).map fun r =>
        (pairOf r).2 * ∏ i, g i (toPt (m + 1) (pairOf r).1 i)).sum =
        (v.2 * g 0 v.1) * ∏ i : Fin m, ((Z i.succ).map fun p => p.2 * g i.succ p.1).sum := by
      intro v
      rw [← h, ← List.sum_map_mul_left, List.map_map]
      congr 1
      refine List.map_congr_left fun r _ => ?_
      simp only [Function.comp, pairOf, List.map_cons, List.prod_cons, Fin.prod_univ_succ, toPt, List.getD_cons_zero,
        Fin.val_zero, Fin.val_succ, List.getD_cons_succ]
      ring
    rw [List.flatMap_def, List.sum_flatten, List.map_map]
    simp only [Function.comp_def, e]
    rw [List.sum_map_mul_right]

/-- The tensor rule without restriction to the domain. -/
noncomputable def tenQ (eigh : EighAll) (q : ℕ) (l h : Fin m → ℝ) (f : (Fin m → ℝ) → ℝ) : ℝ :=
  ((cart (List.ofFn fun i => axisZ eigh q (l i) (h i))).map fun r => (pairOf r).2 * f (toPt m (pairOf r).1)).sum

theorem mem_axisZ {eigh : EighAll} (he : ∀ n, EighSpec (eigh n)) {q : ℕ} {a b : ℝ} (hab : a ≤ b) {p : ℝ × ℝ}
    (hp : p ∈ axisZ eigh q a b) : p.1 ∈ Set.Icc a b ∧ 0 ≤ p.2 := by
  obtain ⟨k, rfl⟩ := (List.mem_ofFn' _ _).1 hp
  exact ⟨gauss_mem_Icc a b hab _ (he _) k, gauss_nonneg a b hab _ k⟩

theorem forall2_ofFn {α β : Type*} {R : α → β → Prop} {r : List α} {Z : Fin m → β} (h : List.Forall₂ R r (List.ofFn Z)) :
    r.length = m ∧ ∀ (i : ℕ) (hi : i < m) (hr : i < r.length), R r[i] (Z ⟨i, hi⟩) := by
  have hl := h.length_eq
  rw [List.length_ofFn] at hl
  refine ⟨hl, fun i hi hr => ?_⟩
  have := h.get hr (by simpa using hi)
  simpa using this

/-- Rows of the tensor rule: points in the box, weights nonnegative. -/
theorem mem_tensor {eigh : EighAll} (he : ∀ n, EighSpec (eigh n)) {q : ℕ} {l h : Fin m → ℝ} (hlh : ∀ i, l i ≤ h i)
    {r : List (ℝ × ℝ)} (hr : r ∈ cart (List.ofFn fun i => axisZ eigh q (l i) (h i))) :
    r.length = m ∧ toPt m (pairOf r).1 ∈ Set.Icc l h ∧ 0 ≤ (pairOf r).2 := by
  obtain ⟨hlen, hR⟩ := forall2_ofFn (mem_cart.1 hr)
  have hall : ∀ i : Fin m, toPt m (pairOf r).1 i ∈ Set.Icc (l i) (h i) := by
    intro i
    have hi : (i : ℕ) < r.length := by omega
    have := (mem_axisZ he (hlh i) (hR i i.2 hi)).1
    simpa [toPt, pairOf, hi] using this
  refine ⟨hlen, ⟨fun i => (hall i).1, fun i => (hall i).2⟩, ?_⟩
  refine List.prod_nonneg fun c hc => ?_
  obtain ⟨p, hp, rfl⟩ := List.mem_map.1 hc
  obtain ⟨i, hi, rfl⟩ := List.getElem_of_mem hp
  exact (mem_axisZ he (hlh ⟨i, by omega⟩) (hR i (by omega) hi)).2

theorem tenQ_pos {eigh : EighAll} (he : ∀ n, EighSpec (eigh n)) (q : ℕ) {l h : Fin m → ℝ} (hlh : ∀ i, l i ≤ h i) :
    PosRule (Set.Icc l h) (tenQ eigh q l h) where
  add f g := by
    simp only [tenQ, ← List.sum_map_add, mul_add]
  smul c f := by
    simp only [tenQ, ← List.sum_map_mul_left]
    congr 1
    refine List.map_congr_left fun r _ => ?_
    ring
  mono f g hfg := by
    refine List.sum_le_sum fun r hr => ?_
    obtain ⟨-, h1, h2⟩ := mem_tensor he hlh hr
    exact mul_le_mul_of_nonneg_left (hfg _ h1) h2

theorem axisZ_sum (eigh : EighAll) (q : ℕ) (a b : ℝ) (g : ℝ → ℝ) : ((axisZ eigh q a b).map fun p => p.2 * g p.1).sum =
    ∑ k, (gauss (q - 1) a b (eigh (q - 1))).2 k * g ((gauss (q - 1) a b (eigh (q - 1))).1 k) := by
  rw [axisZ, List.map_ofFn, List.sum_ofFn]
  rfl

/-- The integral of a product over a box. -/
theorem box_integral_prod (l h : Fin m → ℝ) (hlh : ∀ i, l i ≤ h i) (g : Fin m → ℝ → ℝ) :
    ∫ x in Set.Icc l h, ∏ i, g i (x i) = ∏ i, ∫ t in (l i)..(h i), g i t := by
  rw [← Set.pi_univ_Icc, volume_pi, Measure.restrict_pi_pi, integral_fintype_prod_eq_prod]
  refine Finset.prod_congr rfl fun i _ => ?_
  rw [intervalIntegral.integral_of_le (hlh i), integral_Icc_eq_integral_Ioc]

/-- The tensor rule with `q` points per axis is exact for polynomials of degree at most `2 q - 1` in each coordinate. -/
theorem tenQ_exact {eigh : EighAll} (he : ∀ n, EighSpec (eigh n)) {q : ℕ} (hq : 1 ≤ q) {l h : Fin m → ℝ}
    (hlh : ∀ i, l i ≤ h i) (p : MvPolynomial (Fin m) ℝ) (hp : ∀ i, p.degreeOf i ≤ 2 * q - 1) :
    tenQ eigh q l h (fun x => MvPolynomial.eval x p) = ∫ x in Set.Icc l h, MvPolynomial.eval x p := by
  have hsum : ∀ (s : Finset (Fin m →₀ ℕ)) (F : (Fin m →₀ ℕ) → (Fin m → ℝ) → ℝ),
      tenQ eigh q l h (fun x => ∑ d ∈ s, F d x) = ∑ d ∈ s, tenQ eigh q l h (F d) := by
    intro s F
    induction s using Finset.induction_on with
    | empty =>
      have := (tenQ_pos he q hlh).smul 0 (fun _ => 0)
      simpa using this
    | insert a s ha ih =>
      simp only [Finset.sum_insert ha]
      rw [(tenQ_pos he q hlh).add, ih]
  have hev : ∀ x, MvPolynomial.eval x p = ∑ d ∈ p.support, p.coeff d * ∏ i, x i ^ d i := fun x =>
    MvPolynomial.eval_eq' x p
  simp only [hev]
  rw [hsum, integral_finset_sum]
  · refine Finset.sum_congr rfl fun d hd => ?_
    rw [(tenQ_pos he q hlh).smul, integral_const_mul, box_integral_prod l h hlh fun i t => t ^ d i]
    congr 1
    rw [tenQ, cart_sum _ fun i t => t ^ d i]
    refine Finset.prod_congr rfl fun i _ => ?_
    rw [axisZ_sum _ _ _ _ fun t => t ^ d i]
    have hdi : d i ≤ 2 * q - 1 := (MvPolynomial.monomial_le_degreeOf i hd).trans (hp i)
    have := gauss_exact (l i) (h i) (eigh (q - 1)) (he _) (Polynomial.X ^ d i) (by
      rw [Polynomial.natDegree_X_pow]
      omega)
    simpa using this
  · intro d _
    refine (Continuous.continuousOn ?_).integrableOn_compact isCompact_Icc
    fun_prop

/-- The tensor rules converge for continuous functions. -/
theorem tenQ_converges {eigh : EighAll} (he : ∀ n, EighSpec (eigh n)) {l h : Fin m → ℝ} (hlh : ∀ i, l i ≤ h i)
    (f : (Fin m → ℝ) → ℝ) (hf : ContinuousOn f (Set.Icc l h)) :
    Tendsto (fun q => tenQ eigh q l h f) atTop (𝓝 (∫ x in Set.Icc l h, f x)) := by
  refine rule_converges (fun q => tenQ_pos he q hlh) (fun p => ?_) f hf
  filter_upwards [eventually_ge_atTop (p.totalDegree + 1)] with q hq
  refine tenQ_exact he (by omega) hlh p fun i => ?_
  have := MvPolynomial.degreeOf_le_totalDegree p i
  omega

/-- The tensor rules restricted to a set with boundary of measure zero converge for continuous functions. -/
theorem tenQ_cut {eigh : EighAll} (he : ∀ n, EighSpec (eigh n)) {l h : Fin m → ℝ} (hlh : ∀ i, l i ≤ h i)
    (D : Set (Fin m → ℝ)) (hDm : MeasurableSet D) (hD : volume (frontier D) = 0) (f : (Fin m → ℝ) → ℝ)
    (hf : ContinuousOn f (Set.Icc l h)) :
    Tendsto (fun q => tenQ eigh q l h (D.indicator f)) atTop (𝓝 (∫ x in Set.Icc l h ∩ D, f x)) :=
  rule_cut isCompact_Icc (fun q => tenQ_pos he q hlh) (fun f hf => tenQ_converges he hlh f hf) D hDm hD f hf

end Verif.Misc
