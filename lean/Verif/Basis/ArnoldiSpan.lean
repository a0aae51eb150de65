import Mathlib.LinearAlgebra.Dimension.Constructions
import Verif.Basis.ArnoldiProps

/-!
# C29: orthonormality, consistency and span of the Arnoldi basis
-/

namespace Verif.Basis

open Verif

theorem dot_eq_sum (a b : Vec) (M : ℕ) (h : a.length ≤ M) : Vec.dot a b = ∑ r ∈ Finset.range M, a.getD r 0 * b.getD r 0 := by
  induction a generalizing b M with
  | nil => simp
  | cons t a ih =>
    obtain ⟨M, rfl⟩ : ∃ M', M = M' + 1 := ⟨M - 1, by simp at h; omega⟩
    cases b with
    | nil => simp
    | cons u b =>
      rw [Finset.sum_range_succ', Vec.dot_cons, ih b M (by simpa using h)]
      simp [add_comm]

theorem dot_eq_sum' (a b : Vec) (M : ℕ) (h : b.length ≤ M) : Vec.dot a b = ∑ r ∈ Finset.range M, a.getD r 0 * b.getD r 0 := by
  rw [Vec.dot_comm, dot_eq_sum b a M h]
  exact Finset.sum_congr rfl (fun _ _ => mul_comm _ _)

/-- The exponents of an index. -/
noncomputable def expo (m : ℕ) (a : List ℕ) : Fin m →₀ ℕ := Finsupp.equivFunOnFinite.symm (fun i => a.getD i 0)

open MvPolynomial in
theorem finrank_le (p m : ℕ) (hm : 1 ≤ m) : Module.finrank ℝ (restrictTotalDegree (Fin m) ℝ p) ≤ (indexSet p m).length := by
  classical
  let S : Finset (MvPolynomial (Fin m) ℝ) := (indexSet p m).toFinset.image (fun a => monomial (expo m a) 1)
  have hle : restrictTotalDegree (Fin m) ℝ p ≤ Submodule.span ℝ (S : Set (MvPolynomial (Fin m) ℝ)) := by
    intro g hg
    rw [mem_restrictTotalDegree] at hg
    rw [MvPolynomial.as_sum g]
    apply Submodule.sum_mem
    intro s hs
    have e : (monomial s) (coeff s g) = (coeff s g) • (monomial s (1 : ℝ)) := by
      rw [smul_monomial]; simp
    rw [e]
    apply Submodule.smul_mem
    apply Submodule.subset_span
    rw [Finset.mem_coe, Finset.mem_image]
    refine ⟨List.ofFn s, ?_, ?_⟩
    · rw [List.mem_toFinset, mem_indexSet p m hm]
      refine ⟨by simp, ?_⟩
      have h1 := le_totalDegree hs
      rw [List.sum_ofFn]
      rw [Finsupp.sum_fintype _ _ (fun _ => rfl)] at h1
      omega
    · congr 1
      ext i
      simp [expo, List.getD_eq_getElem?_getD]
  have h1 := Submodule.finrank_mono hle
  have h2 := finrank_span_finset_le_card (R := ℝ) S
  have h3 : S.card ≤ (indexSet p m).length := Finset.card_image_le.trans (List.toFinset_card_le _)
  exact h1.trans (h2.trans h3)

section
variable {c : ℝ} {X : List Vec} {P : List (ℕ × ℕ)} {m : ℕ}

open MvPolynomial in
theorem eval_point (hP : PlanOk P) (hX : ∀ x ∈ X, x.length = m) {r : ℕ} (hr : r < X.length) (k : ℕ) :
    eval (pt m X[r]) ((polyX m P (arnoldi c X P).2).getD k 0) = (((arnoldi c X P).1).getD k []).getD r 0 := by
  have h := polyX_eval P (arnoldi c X P).2 (hX X[r] (List.getElem_mem hr))
  rw [arnoldi_eval c X P hP r hr] at h
  rw [← getD_map_col, ← h]
  simp only [List.getD_eq_getElem?_getD, List.getElem?_map]
  cases (polyX m P (arnoldi c X P).2)[k]? <;> simp

theorem ortho_getD {Q : List Vec} (ho : Ortho c Q) {a b : ℕ} (ha : a < Q.length) (hb : b < Q.length) :
    Vec.dot (Q.getD a []) (Q.getD b []) = if a = b then c else 0 := by
  have hg : ∀ j (h : j < Q.length), Q.getD j [] = Q[j] := fun j h => by
    rw [List.getD_eq_getElem?_getD, List.getElem?_eq_getElem h]; rfl
  rw [hg a ha, hg b hb]
  split
  · rename_i h; subst h; exact ho.2 _ (List.getElem_mem ha)
  · rename_i h
    rcases Nat.lt_or_ge a b with h' | h'
    · exact List.pairwise_iff_getElem.1 ho.1 a b ha hb h'
    · rw [Vec.dot_comm]; exact List.pairwise_iff_getElem.1 ho.1 b a hb ha (by omega)

theorem coef_zero (hc : 0 < c) (hP : PlanOk P) (hb : NoBreakdown (arnoldi c X P).2) (g : Fin (P.length + 1) → ℝ)
    (hz : ∀ r, r < X.length → ∑ k : Fin (P.length + 1), g k * (((arnoldi c X P).1).getD k []).getD r 0 = 0) (s : Fin (P.length + 1)) :
    g s = 0 := by
  obtain ⟨s1, -, s3, -⟩ := arnoldi_shape c X P hP
  have ho := arnoldi_ortho hc X P hP hb
  have hsum : ∑ k : Fin (P.length + 1), g k * Vec.dot (((arnoldi c X P).1).getD s []) (((arnoldi c X P).1).getD k []) = 0 := by
    have hs : (((arnoldi c X P).1).getD s []).length ≤ X.length := (getD_length_of s3 (by rw [s1]; exact s.2)).le
    simp only [dot_eq_sum _ _ X.length hs, Finset.mul_sum]
    rw [Finset.sum_comm]
    apply Finset.sum_eq_zero
    intro r hr
    have := hz r (Finset.mem_range.1 hr)
    calc _ = ((((arnoldi c X P).1).getD s []).getD r 0) * ∑ k : Fin (P.length + 1), g k * (((arnoldi c X P).1).getD k []).getD r 0 := by
          rw [Finset.mul_sum]; exact Finset.sum_congr rfl (fun k _ => by ring)
      _ = 0 := by rw [this, mul_zero]
  have : ∑ k : Fin (P.length + 1), g k * (if (s : ℕ) = k then c else 0) = 0 := by
    refine Eq.trans (Finset.sum_congr rfl (fun k _ => ?_)) hsum
    rw [ortho_getD ho (by rw [s1]; exact s.2) (by rw [s1]; exact k.2)]
  simp only [← Fin.ext_iff, mul_ite, mul_zero, Finset.sum_ite_eq, Finset.mem_univ, if_true] at this
  exact (mul_eq_zero.1 this).resolve_right hc.ne'

open MvPolynomial in
theorem polyX_independent (hc : 0 < c) (hP : PlanOk P) (hX : ∀ x ∈ X, x.length = m) (hb : NoBreakdown (arnoldi c X P).2) :
    LinearIndependent ℝ (fun k : Fin (P.length + 1) => (polyX m P (arnoldi c X P).2).getD k 0) := by
  rw [Fintype.linearIndependent_iff]
  intro g hg s
  refine coef_zero hc hP hb g (fun r hr => ?_) s
  have := congrArg (eval (pt m X[r])) hg
  rw [map_sum, map_zero] at this
  refine Eq.trans (Finset.sum_congr rfl (fun k _ => ?_)) this
  rw [smul_eval, eval_point hP hX hr]

end

theorem graded_getD (p m : ℕ) (hm : 1 ≤ m) {a b : ℕ} (hab : a ≤ b) (hb : b < (indexSet p m).length) :
    ((indexSet p m).getD a []).sum ≤ ((indexSet p m).getD b []).sum := by
  rcases hab.eq_or_lt with rfl | h
  · exact le_refl _
  · have := List.pairwise_iff_getElem.1 (indexSet_graded p m hm) a b (by omega) hb h
    rw [List.getD_eq_getElem?_getD, List.getElem?_eq_getElem (by omega : a < _), List.getD_eq_getElem?_getD, List.getElem?_eq_getElem hb]
    exact this

open MvPolynomial in
/-- Every polynomial of the right degree is a combination of the columns. -/
theorem span_all {c : ℝ} (hc : 0 < c) {X : List Vec} {P : List (ℕ × ℕ)} {p m : ℕ} (hm : 1 ≤ m) (hplan : plan (indexSet p m) = some P)
    (hX : ∀ x ∈ X, x.length = m) (hb : NoBreakdown (arnoldi c X P).2) (g : MvPolynomial (Fin m) ℝ) :
    g.totalDegree ≤ p ↔ ∃ d : Vec, d.length = (indexSet p m).length ∧
      g = ∑ k : Fin (P.length + 1), d.getD k 0 • (polyX m P (arnoldi c X P).2).getD k 0 := by
  obtain ⟨P', h1, h2, h3⟩ := plan_ok p m hm
  obtain rfl : P = P' := by rw [hplan] at h1; exact Option.some.inj h1
  have hP : PlanOk P := fun k hk => (h3 k hk).1
  obtain ⟨s1, s2, s3, s4⟩ := arnoldi_shape c X P hP
  have hdeg : ∀ k, k ≤ P.length → ((polyX m P (arnoldi c X P).2).getD k 0).totalDegree ≤ p := by
    intro k hk
    have := polyX_degree (m := m) (fun k => ((indexSet p m).getD k []).sum) P (arnoldi c X P).2 s2
      (fun k hk => ⟨(h3 k hk).1, (h3 k hk).2.2.le⟩) (fun a b hab hb => graded_getD p m hm hab (by omega)) k hk
    refine this.trans ?_
    have hk' : k < (indexSet p m).length := by omega
    rw [List.getD_eq_getElem?_getD, List.getElem?_eq_getElem hk']
    exact ((mem_indexSet p m hm _).1 (List.getElem_mem hk')).2
  have hind := polyX_independent hc hP hX hb
  have hspan : Submodule.span ℝ (Set.range (fun k : Fin (P.length + 1) => (polyX m P (arnoldi c X P).2).getD k 0)) =
      restrictTotalDegree (Fin m) ℝ p := by
    apply Submodule.eq_of_le_of_finrank_le
    · rw [Submodule.span_le]
      rintro _ ⟨k, rfl⟩
      rw [SetLike.mem_coe, mem_restrictTotalDegree]
      exact hdeg k (by have := k.2; omega)
    · rw [finrank_span_eq_card hind, Fintype.card_fin, h2]
      exact finrank_le p m hm
  rw [← mem_restrictTotalDegree, ← hspan, Submodule.mem_span_range_iff_exists_fun]
  constructor
  · rintro ⟨f, hf⟩
    refine ⟨List.ofFn f, by simp [h2], ?_⟩
    rw [← hf]
    apply Finset.sum_congr rfl
    intro k _
    rw [List.getD_eq_getElem?_getD (l := List.ofFn f), List.getElem?_ofFn, dif_pos k.2]
    rfl
  · rintro ⟨d, -, hd⟩
    exact ⟨fun k => d.getD k 0, hd.symm⟩

open MvPolynomial in
theorem eval_sum_eq {m : ℕ} {P : List (ℕ × ℕ)} {R : List (List ℝ)} (hl : R.length = P.length + 1) (d : Vec) {x : Vec} (hx : x.length = m) :
    eval (pt m x) (∑ k : Fin (P.length + 1), d.getD k 0 • (polyX m P R).getD k 0) = Vec.dot d (evalX P R x) := by
  rw [map_sum, dot_eq_sum' _ _ (P.length + 1) (evalX_length hl x).le, Finset.sum_range]
  apply Finset.sum_congr rfl
  intro k _
  rw [smul_eval]
  congr 1
  rw [← polyX_eval P R hx]
  simp only [List.getD_eq_getElem?_getD, List.getElem?_map]
  cases (polyX m P R)[(k : ℕ)]? <;> simp

/-! ## The property -/

/-- **C29**: the construction never raises. -/
theorem arnoldiBasis_total (p m : ℕ) (hm : 1 ≤ m) (X : List Vec) : (arnoldiBasis p m X).isSome ∧ (vandermondeArnoldi X p m).isSome := by
  obtain ⟨P, h1, -⟩ := plan_ok p m hm
  unfold arnoldiBasis vandermondeArnoldi
  rw [planPrefix_eq p m hm, h1]
  simp

/-- **C29**: `Q` has one column for each index, its columns are orthonormal, column `k` of `R` has `k + 1` entries, and
`Q` satisfies the recurrence `X_i * Q_j = Σ_{s ≤ k} R[s,k] Q_s` with an earlier column `j`. -/
theorem arnoldi_orthonormal {p m : ℕ} (hm : 1 ≤ m) {X Q : List Vec} {R : List (List ℝ)} (h : arnoldiBasis p m X = some (Q, R))
    (hb : NoBreakdown R) :
    Q.length = (indexSet p m).length ∧ R.length = (indexSet p m).length ∧
    (∀ a b, a < Q.length → b < Q.length → Vec.dot (Q.getD a []) (Q.getD b []) = if a = b then 1 else 0) ∧
    (∀ k, k < R.length → (R.getD k []).length = k + 1) ∧
    (∀ r, r < X.length → (R.getD 0 []).getD 0 0 * (Q.getD 0 []).getD r 0 = 1) ∧
    ∀ k, 0 < k → k < Q.length → ∃ i j, i < m ∧ j < k ∧
      (Raises ((indexSet p m).getD j []) ((indexSet p m).getD k []) i) ∧
      ∀ r (hr : r < X.length), X[r].getD i 0 * (Q.getD j []).getD r 0 =
        Vec.dot (R.getD k []) (Q.map (fun q => q.getD r 0)) := by
  obtain ⟨P, h1, h2, h3⟩ := plan_ok p m hm
  have hP : PlanOk P := fun k hk => (h3 k hk).1
  unfold arnoldiBasis at h
  rw [h1, Option.map_some] at h
  have e := Option.some.inj h
  have eQ : (arnoldi 1 X P).1 = Q := congrArg Prod.fst e
  have eR : (arnoldi 1 X P).2 = R := congrArg Prod.snd e
  obtain ⟨s1, s2, s3, s4⟩ := arnoldi_shape 1 X P hP
  have ho := arnoldi_ortho one_pos X P hP (by rw [eR]; exact hb)
  have hev := fun r hr => arnoldi_eval 1 X P hP r hr
  rw [eQ] at s1 s3 ho
  rw [eR] at s2 s4
  simp only [eQ, eR] at hev
  have hrec := fun x => eval_recurrence P R s2 hP (fun k hk => s4 k (by omega)) hb x
  refine ⟨by omega, by omega, fun a b ha hb => ortho_getD ho ha hb, fun k hk => s4 k (by omega), fun r hr => ?_, fun k hk hkl => ?_⟩
  · have := (hrec X[r]).1
    rwa [hev r hr, getD_map_col] at this
  · obtain ⟨k, rfl⟩ : ∃ k', k = k' + 1 := ⟨k - 1, by omega⟩
    have hkP : k < P.length := by omega
    obtain ⟨i, j, hu, hj, hi, hR⟩ := updateVec_parent p m hm (k + 1) (by omega) (by omega)
    have hPk : P[k] = (i, j) := by
      obtain ⟨P', g1, g2, g3⟩ := mapM_some (updateVec (indexSet p m)) (indexSet p m).tail (fun a ha => by
        obtain ⟨k, hk, rfl⟩ := List.getElem_of_mem ha
        have hk' := hk
        rw [List.length_tail] at hk'
        obtain ⟨i, j, h, -⟩ := updateVec_parent p m hm (k + 1) (by omega) (by omega)
        exact ⟨(i, j), by simpa using h⟩)
      obtain rfl : P' = P := by
        have := h1
        unfold plan at this
        rw [g1] at this
        exact Option.some.inj this
      have := g3 k (by rw [List.length_tail]; omega) hkP
      rw [List.getElem_tail, hu] at this
      exact (Option.some.inj this).symm
    refine ⟨i, j, hi, hj, ?_, fun r hr => ?_⟩
    · rw [List.getD_eq_getElem?_getD (i := k + 1), List.getElem?_eq_getElem (by omega : k + 1 < _)]
      exact hR
    · have := (hrec X[r]).2 k hkP
      rw [hev r hr, hPk, getD_map_col] at this
      exact this

/-- **C29**: evaluating the basis at the construction points with the stored `R` returns `Q`; for the basis class and for the
functions of `vandermonde.py`. -/
theorem arnoldi_consistent {p m : ℕ} (hm : 1 ≤ m) {X Q : List Vec} {R : List (List ℝ)} {P : List (ℕ × ℕ)}
    (hp : plan (indexSet p m) = some P)
    (h : arnoldiBasis p m X = some (Q, R) ∨ vandermondeArnoldi X p m = some (Q, R)) (r : ℕ) (hr : r < X.length) :
    evalX P R X[r] = Q.map (fun q => q.getD r 0) := by
  obtain ⟨P', h1, h2, h3⟩ := plan_ok p m hm
  obtain rfl : P = P' := by rw [hp] at h1; exact Option.some.inj h1
  have hP : PlanOk P := fun k hk => (h3 k hk).1
  unfold arnoldiBasis vandermondeArnoldi at h
  rw [planPrefix_eq p m hm, h1, Option.map_some, Option.map_some] at h
  rcases h with h | h
  · have e := Option.some.inj h
    have := arnoldi_eval 1 X P hP r hr
    rwa [e] at this
  · have e := Option.some.inj h
    have := arnoldi_eval X.length X P hP r hr
    rwa [e] at this

open MvPolynomial in
/-- **C29**: the functions `x ↦ V(x) @ d` are exactly the polynomials of total degree at most `p`. -/
theorem arnoldi_span {p m : ℕ} (hm : 1 ≤ m) {X Q : List Vec} {R : List (List ℝ)} {P : List (ℕ × ℕ)}
    (hp : plan (indexSet p m) = some P) (hne : X ≠ []) (hX : ∀ x ∈ X, x.length = m)
    (h : arnoldiBasis p m X = some (Q, R) ∨ vandermondeArnoldi X p m = some (Q, R)) (hb : NoBreakdown R) :
    (∀ g : MvPolynomial (Fin m) ℝ, g.totalDegree ≤ p → ∃ d : Vec, d.length = (indexSet p m).length ∧
      ∀ x : Vec, x.length = m → eval (pt m x) g = Vec.dot d (evalX P R x)) ∧
    (∀ d : Vec, d.length = (indexSet p m).length → ∃ g : MvPolynomial (Fin m) ℝ, g.totalDegree ≤ p ∧
      ∀ x : Vec, x.length = m → eval (pt m x) g = Vec.dot d (evalX P R x)) := by
  have key : ∃ c : ℝ, 0 < c ∧ (arnoldi c X P).2 = R := by
    unfold arnoldiBasis vandermondeArnoldi at h
    rw [planPrefix_eq p m hm, hp, Option.map_some, Option.map_some] at h
    rcases h with h | h
    · exact ⟨1, one_pos, congrArg Prod.snd (Option.some.inj h)⟩
    · exact ⟨X.length, by exact_mod_cast List.length_pos_of_ne_nil hne, congrArg Prod.snd (Option.some.inj h)⟩
  obtain ⟨c, hc, rfl⟩ := key
  have hs := span_all hc hm hp hX hb
  obtain ⟨P', h1, h2, h3⟩ := plan_ok p m hm
  obtain rfl : P = P' := by rw [hp] at h1; exact Option.some.inj h1
  have hP : PlanOk P := fun k hk => (h3 k hk).1
  have hl := (arnoldi_shape c X P hP).2.1
  constructor
  · intro g hg
    obtain ⟨d, hd, rfl⟩ := (hs g).1 hg
    exact ⟨d, hd, fun x hx => eval_sum_eq hl d hx⟩
  · intro d hd
    exact ⟨_, (hs _).2 ⟨d, hd, rfl⟩, fun x hx => eval_sum_eq hl d hx⟩

end Verif.Basis
