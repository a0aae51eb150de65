import Verif.Func.ApproxProps

/-!
# Property C133: what `PolynomialApproximation` and `fit_fixed_subspace` return
-/

namespace Verif.Func

open Verif.Domain Verif.Lip Verif.Basis Matrix

variable {M m n N : ℕ}

/-! ## The constructors -/

theorem parseNorm_ne {a : NormArg} {p : PNorm} (h : parseNorm a = some p) : p ≠ .other := by
  cases a with
  | num x =>
    simp only [parseNorm] at h
    split at h
    · rw [← Option.some.inj h]; simp
    · split at h
      · rw [← Option.some.inj h]; simp
      · cases h
  | infinity => cases h; simp
  | str s => cases h

/-- **C133**: `PolynomialApproximation(degree, basis, norm, bound)` is accepted exactly for a degree above `-1`, one of the six names as written, a norm
`1`, `2` or `inf`, and a bound `None`, `'lower'` or `'upper'`; a fractional degree is rounded down. -/
theorem approxInit_ok_iff (degree : ℝ) (basis : String) (norm : NormArg) (bound : Option String) (o : ApproxOpts) :
    approxInit degree basis norm bound = .ok o ↔ -1 < degree ∧ parseBasis basis = some o.basis ∧ parseNorm norm = some o.norm ∧
      parseBound bound = some o.bound ∧ ((o.degree : ℝ) ≤ max degree 0 ∧ max degree 0 < o.degree + 1) := by
  have h0 : 0 ≤ pyInt degree ↔ -1 < degree := by
    unfold pyInt
    split
    · rename_i h
      exact ⟨fun _ => by linarith, fun _ => Int.floor_nonneg.2 h⟩
    · rw [← Int.sub_one_lt_iff, Int.lt_ceil]
      norm_num
  have h1 : -1 < degree → ((pyInt degree).toNat : ℝ) ≤ max degree 0 ∧ max degree 0 < (pyInt degree).toNat + 1 := by
    intro hd
    have hc : (((pyInt degree).toNat : ℤ) : ℝ) = (pyInt degree : ℝ) := by rw [Int.toNat_of_nonneg (h0.2 hd)]
    rw [Int.cast_natCast] at hc
    rw [hc]
    unfold pyInt
    split
    · rename_i h
      rw [max_eq_left h]
      exact ⟨Int.floor_le _, Int.lt_floor_add_one _⟩
    · rename_i h
      have : ⌈degree⌉ = 0 := Int.ceil_eq_zero_iff.2 ⟨hd, (not_le.1 h).le⟩
      rw [max_eq_right (not_le.1 h).le, this]
      norm_num
  have hu : ∀ k : ℕ, ∀ x : ℝ, -1 < degree → (k : ℝ) ≤ max degree 0 ∧ max degree 0 < k + 1 → k = (pyInt degree).toNat := by
    intro k _ hd hk
    obtain ⟨a, b⟩ := h1 hd
    have l1 : (k : ℝ) < (pyInt degree).toNat + 1 := lt_of_le_of_lt hk.1 b
    have l2 : ((pyInt degree).toNat : ℝ) < k + 1 := lt_of_le_of_lt a hk.2
    have l3 : k < (pyInt degree).toNat + 1 := by exact_mod_cast l1
    have l4 : (pyInt degree).toNat < k + 1 := by exact_mod_cast l2
    omega
  unfold approxInit
  constructor
  · intro h
    split at h
    · rename_i hd
      rw [h0] at hd
      split at h
      · cases h
      · rename_i b hb
        split at h
        · cases h
        · rename_i bd hbd
          split at h
          · cases h
          · rename_i p hp
            cases h
            exact ⟨hd, hb, hp, hbd, h1 hd⟩
    · cases h
  · rintro ⟨hd, hb, hp, hbd, hk⟩
    rw [if_pos (h0.2 hd), hb, hbd, hp]
    simp only
    rw [← hu o.degree 0 hd hk]

/-- **C133**: `PolynomialRidgeApproximation(degree, subspace_dimension, ...)` is accepted exactly for an integer degree that is not negative, an integer
dimension that is positive, one of the six names in any case, a norm `1`, `2`, `inf` or `'inf'`, and a valid bound. It keeps the dimension, but a polynomial
of degree one gets dimension one and a constant gets dimension zero. -/
theorem ridgeInit_ok_iff (degree dim : IntArg) (basis : String) (norm : NormArg) (bound : Option String) (o : RidgeOpts) :
    ridgeInit degree dim basis norm bound = .ok o ↔ ∃ k : ℕ, degree = .int o.degree ∧ dim = .int k ∧ 1 ≤ k ∧ parseBasis (lowerName basis) = some o.basis ∧
      (parseNorm norm = some o.norm ∨ norm = .str "inf" ∧ o.norm = .inf) ∧ parseBound bound = some o.bound ∧
      (o.degree = 0 ∧ o.dim = 0 ∨ o.degree = 1 ∧ o.dim = 1 ∨ 2 ≤ o.degree ∧ o.dim = k) := by
  have hn : ∀ p : PNorm, parseNormRidge norm = some p ↔ parseNorm norm = some p ∨ norm = .str "inf" ∧ p = .inf := by
    intro p
    cases norm with
    | num x => simp [parseNormRidge]
    | infinity => simp [parseNormRidge]
    | str s =>
      simp only [parseNormRidge, parseNorm, NormArg.str.injEq]
      split <;> simp_all [eq_comm]
  constructor
  · intro h
    unfold ridgeInit at h
    split at h
    · rename_i d k
      split at h
      · rename_i hdk
        split at h
        · cases h
        · rename_i b hb
          split at h
          · cases h
          · rename_i p hp
            split at h
            · cases h
            · rename_i bd hbd
              cases h
              refine ⟨k.toNat, ?_, ?_, ?_, hb, (hn p).1 hp, hbd, ?_⟩
              · simp only [IntArg.int.injEq]; omega
              · simp only [IntArg.int.injEq]; omega
              · omega
              · simp only [storedDim]
                split
                · left; constructor <;> simp_all
                · split <;> omega
      · cases h
    · cases h
  · rintro ⟨k, rfl, rfl, hk, hb, hp, hbd, hd⟩
    unfold ridgeInit
    simp only
    rw [if_pos ⟨by omega, by omega⟩, hb]
    simp only
    rw [(hn _).2 hp, hbd]
    simp only
    congr
    unfold storedDim
    split
    · omega
    · split <;> omega

/-! ## The bases span the polynomials -/

theorem sampleRows_mem {X : Fin M → Pt m} {r : Vec} : r ∈ sampleRows X ↔ ∃ i, r = List.ofFn (X i) := by
  simp [sampleRows, List.mem_ofFn, eq_comm]

theorem sampleRows_length (X : Fin M → Pt m) : ∀ r ∈ sampleRows X, r.length = m := by
  intro r hr
  obtain ⟨i, rfl⟩ := sampleRows_mem.1 hr
  simp

theorem pt_ofFn (y : Pt m) : pt m (List.ofFn y) = y := funext fun i => ofFn_getD y i

/-- An Arnoldi basis that did not break down is a basis of the polynomials. -/
theorem arnoldi_polyBasis {d : ℕ} (hm : 1 ≤ m) {X Q : List Vec} {R : List (List ℝ)} {P : List (ℕ × ℕ)} (hX : ∀ x ∈ X, x.length = m)
    (hP : plan (indexSet d m) = some P) (h : arnoldiBasis d m X = some (Q, R)) (hb : NoBreakdown R) :
    IsPolyBasis d (arnoldiObj (m := m) (indexSet d m).length P R) := by
  obtain ⟨P', h1, h2, h3⟩ := plan_ok d m hm
  obtain rfl : P = P' := by rw [hP] at h1; exact Option.some.inj h1
  have hPo : PlanOk P := fun k hk => (h3 k hk).1
  have hR : (arnoldi 1 X P).2 = R := by
    unfold arnoldiBasis at h
    rw [hP, Option.map_some] at h
    exact congrArg Prod.snd (Option.some.inj h)
  obtain ⟨-, s2, -, s4⟩ := arnoldi_shape 1 X P hPo
  rw [hR] at s2 s4
  have hev : ∀ (y : Pt m) (j : ℕ), (evalX P R (List.ofFn y)).getD j 0 = MvPolynomial.eval y ((polyX m P R).getD j 0) := by
    intro y j
    rw [← polyX_eval (m := m) P R (by simp : (List.ofFn y).length = m), pt_ofFn]
    rw [List.getD_eq_getElem?_getD, List.getD_eq_getElem?_getD, List.getElem?_map]
    cases (polyX m P R)[j]? <;> simp
  refine ⟨fun j => (polyX m P R).getD j 0, fun y j => hev y j, fun y j l => ?_, ?_⟩
  · have hd := arnoldi_DV_deriv P R s2 hPo (fun k hk => s4 k (by omega)) (List.ofFn y) l (by simp) j (by omega)
    rw [ofFn_getD] at hd
    have h2 := hasDerivAt_poly ((polyX m P R).getD j 0) y (Pi.single l 1)
    have e : (fun t : ℝ => (evalX P R ((List.ofFn y).set l t)).getD j 0) = fun t => MvPolynomial.eval (Function.update y l t) ((polyX m P R).getD j 0) := by
      funext t
      rw [← ofFn_update, hev]
    rw [e] at hd
    have hd' : HasDerivAt (fun t : ℝ => MvPolynomial.eval (y + t • (Pi.single l 1 : Pt m)) ((polyX m P R).getD j 0))
        ((evalDV P R (List.ofFn y) l).getD j 0) 0 := by
      have hline : HasDerivAt (fun t : ℝ => y l + t) 1 0 := by simpa using (hasDerivAt_id (0 : ℝ)).const_add (y l)
      have hd0 : HasDerivAt (fun t => MvPolynomial.eval (Function.update y l t) ((polyX m P R).getD j 0)) ((evalDV P R (List.ofFn y) l).getD j 0) (y l + 0) := by
        rw [add_zero]; exact hd
      have := HasDerivAt.comp (0 : ℝ) hd0 hline
      rw [mul_one] at this
      refine this.congr_of_eventuallyEq (Filter.Eventually.of_forall fun t => ?_)
      simp only [Function.comp]
      congr 2
      funext i
      by_cases hi : i = l
      · subst hi; simp
      · simp [hi]
    change (evalDV P R (List.ofFn y) l).getD j 0 = _
    rw [hd'.unique h2, Finset.sum_eq_single l]
    · simp
    · intro i _ hi
      rw [Pi.single_eq_of_ne hi, zero_mul]
    · simp
  · subst hR
    have hall := span_all one_pos hm hP hX hb
    ext g
    rw [MvPolynomial.mem_restrictTotalDegree, hall g, Submodule.mem_span_range_iff_exists_fun]
    constructor
    · rintro ⟨c, hc⟩
      refine ⟨List.ofFn c, by simp, ?_⟩
      rw [← hc, ← Fin.sum_congr' _ h2]
      refine Finset.sum_congr rfl fun k _ => ?_
      congr 1
      have := ofFn_getD c (Fin.cast h2 k)
      simpa using this.symm
    · rintro ⟨e, he, rfl⟩
      refine ⟨fun k => e.getD k 0, ?_⟩
      rw [← Fin.sum_congr' _ h2]
      rfl

theorem family_ok (b : BasisName) : Graded (familyOf b) ∧ (familyOf b).Good := by
  cases b
  · exact ⟨leg_graded, leg_good⟩
  · exact ⟨leg_graded, leg_good⟩
  · exact ⟨mono_graded, mono_good⟩
  · exact ⟨cheb_graded, cheb_good⟩
  · exact ⟨lag_graded, lag_good⟩
  · exact ⟨herm_graded, herm_good⟩

/-- Every basis that `fit` builds is a basis of the polynomials of total degree at most the degree. -/
theorem basisFor_poly {b : BasisName} {d : ℕ} {X : Fin M → Pt m} (hm : 1 ≤ m) {B : BasisObj m (indexSet d m).length} (h : basisFor b d X = .ok B) :
    IsPolyBasis d B := by
  unfold basisFor at h
  split at h
  · unfold arnoldiFor at h
    split at h
    · rename_i P Q R hP hR
      split at h
      · rename_i hb
        cases h
        exact arnoldi_polyBasis hm (sampleRows_length X) hP hR hb
      · cases h
    · cases h
  · unfold tensorFor at h
    split at h
    · rename_i hs
      cases h
      exact tensor_polyBasis ⟨familyOf b, d, m, scaleFor b X⟩ (family_ok b).1 (family_ok b).2 hs hm
    · cases h

/-! ## When there is a basis -/

theorem std_ne_zero {c : Vec} : std c ≠ 0 ↔ ∃ a ∈ c, ∃ b ∈ c, a ≠ b := by
  constructor
  · intro h
    by_contra hn
    push Not at hn
    apply h
    unfold std mean
    cases c with
    | nil => simp
    | cons a l =>
      have hall : ∀ t ∈ a :: l, t = a := fun t ht => (hn a (by simp) t ht).symm
      have hrep : a :: l = List.replicate (l.length + 1) a := List.eq_replicate_iff.2 ⟨by simp, hall⟩
      rw [hrep]
      have hne : (l.length : ℝ) + 1 ≠ 0 := by positivity
      simp [mul_div_assoc, hne]
  · rintro ⟨a, ha, b, hb, hab⟩ h
    unfold std at h
    have hnn : ∀ t ∈ c.map (fun t => (t - mean c) ^ 2), 0 ≤ t := by
      intro t ht
      obtain ⟨s, -, rfl⟩ := List.mem_map.1 ht
      positivity
    have hlen : 0 < (c.length : ℝ) := by exact_mod_cast List.length_pos_of_mem ha
    have hsum : 0 ≤ (c.map (fun t => (t - mean c) ^ 2)).sum := List.sum_nonneg hnn
    have hm0 : mean (c.map (fun t => (t - mean c) ^ 2)) = 0 := by
      refine (Real.sqrt_eq_zero ?_).1 h
      exact div_nonneg hsum (by positivity)
    have hs0 : (c.map (fun t => (t - mean c) ^ 2)).sum = 0 := by
      rw [mean, List.length_map, div_eq_zero_iff] at hm0
      exact hm0.resolve_right hlen.ne'
    have hz : ∀ t ∈ c, t = mean c := by
      intro t ht
      have h1 : (t - mean c) ^ 2 ≤ (c.map (fun t => (t - mean c) ^ 2)).sum := List.single_le_sum hnn _ (List.mem_map.2 ⟨t, ht, rfl⟩)
      rw [hs0] at h1
      have := pow_eq_zero_iff (n := 2) (by norm_num) |>.1 (le_antisymm h1 (sq_nonneg _))
      linarith
    exact hab ((hz a ha).trans (hz b hb).symm)

theorem minmax_ne {c : Vec} : maxL c ≠ minL c ↔ ∃ a ∈ c, ∃ b ∈ c, a ≠ b := by
  constructor
  · intro h
    have hne : c ≠ [] := by
      rintro rfl
      exact h rfl
    exact ⟨_, (maxL_spec hne).1, _, (minL_spec hne).1, h⟩
  · rintro ⟨a, ha, b, hb, hab⟩ h
    have hne := List.ne_nil_of_mem ha
    have l1 := (maxL_spec hne).2
    have l2 := (minL_spec hne).2
    rw [h] at l1
    exact hab (le_antisymm ((l1 a ha).trans (l2 b hb)) ((l1 b hb).trans (l2 a ha)))

/-- **C133**: a fit with a tensor basis has a basis exactly if the samples take two values in every coordinate, and with the Arnoldi basis exactly if the
samples determine the polynomials of the degree. -/
theorem basisFor_ok_iff (hm : 1 ≤ m) (b : BasisName) (d : ℕ) (X : Fin M → Pt m) :
    (∃ B, basisFor b d X = .ok B) ↔ if b = .arnoldi then Unisolvent d X else ∀ k, ∃ i j, X i k ≠ X j k := by
  unfold basisFor
  split
  · rename_i hb
    unfold arnoldiFor
    obtain ⟨P, h1, h2, h3⟩ := plan_ok d m hm
    obtain ⟨⟨Q, R⟩, h⟩ := Option.isSome_iff_exists.1 (arnoldiBasis_total d m hm (sampleRows X)).1
    rw [h1, h]
    have huni : Basis.Unisolvent d m (sampleRows X) ↔ Unisolvent d X := by
      constructor
      · intro hu q hq h0
        refine hu q hq fun x hx => ?_
        obtain ⟨i, rfl⟩ := sampleRows_mem.1 hx
        rw [pt_ofFn]; exact h0 i
      · intro hu q hq h0
        refine hu q hq fun i => ?_
        have := h0 _ (sampleRows_mem.2 ⟨i, rfl⟩)
        rwa [pt_ofFn] at this
    have hiff : NoBreakdown R ↔ Unisolvent d X := by
      by_cases hne : sampleRows X = []
      · have hM : M = 0 := by
          have := congrArg List.length hne
          simpa [sampleRows] using this
        subst hM
        constructor
        · intro hb
          obtain ⟨g1, -, g3, -⟩ := arnoldi_orthonormal hm h hb
          exfalso
          have hpos : 0 < Q.length := by rw [g1, ← h2]; omega
          have := g3 0 0 hpos hpos
          have hPo : PlanOk P := fun k hk => (h3 k hk).1
          obtain ⟨-, -, s3, -⟩ := arnoldi_shape 1 (sampleRows X) P hPo
          have hQ : (arnoldi 1 (sampleRows X) P).1 = Q := by
            unfold arnoldiBasis at h
            rw [h1, Option.map_some] at h
            exact congrArg Prod.fst (Option.some.inj h)
          rw [hQ, hne] at s3
          have hq : Q.getD 0 [] = [] := by
            rw [List.getD_eq_getElem?_getD, List.getElem?_eq_getElem hpos]
            exact List.eq_nil_of_length_eq_zero (s3 _ (List.getElem_mem hpos))
          rw [hq] at this
          simp [Vec.dot] at this
        · intro hu
          exfalso
          have := hu 1 (by simp) fun i => i.elim0
          exact one_ne_zero this
      · exact (arnoldi_breakdown_iff hm (sampleRows_length X) hne (.inl h)).trans huni
    simp only
    constructor
    · rintro ⟨B, hB⟩
      split at hB
      · rename_i hbr
        exact hiff.1 hbr
      · cases hB
    · intro hu
      rw [if_pos (hiff.2 hu)]
      exact ⟨_, rfl⟩
  · rename_i hb
    have hcol : ∀ k : Fin m, (∃ a ∈ (sampleRows X).map (fun r => r.getD k 0), ∃ c ∈ (sampleRows X).map (fun r => r.getD k 0), a ≠ c) ↔ ∃ i j, X i k ≠ X j k := by
      intro k
      constructor
      · rintro ⟨a, ha, c, hc, hac⟩
        obtain ⟨r, hr, rfl⟩ := List.mem_map.1 ha
        obtain ⟨s, hs, rfl⟩ := List.mem_map.1 hc
        obtain ⟨i, rfl⟩ := sampleRows_mem.1 hr
        obtain ⟨j, rfl⟩ := sampleRows_mem.1 hs
        refine ⟨i, j, ?_⟩
        rwa [ofFn_getD, ofFn_getD] at hac
      · rintro ⟨i, j, hij⟩
        refine ⟨X i k, List.mem_map.2 ⟨_, sampleRows_mem.2 ⟨i, rfl⟩, ofFn_getD _ _⟩, X j k, List.mem_map.2 ⟨_, sampleRows_mem.2 ⟨j, rfl⟩, ofFn_getD _ _⟩, hij⟩
    have hnd : (scaleFor b X).Nondeg m ↔ ∀ k : Fin m, ∃ i j, X i k ≠ X j k := by
      unfold scaleFor
      split
      · unfold setScaleHermite Scaling.Nondeg
        constructor
        · intro h k
          have := h k k.2
          rw [columns_getD k.2] at this
          exact (hcol k).1 (std_ne_zero.1 this)
        · intro h k hk
          rw [columns_getD hk]
          exact std_ne_zero.2 ((hcol ⟨k, hk⟩).2 (h ⟨k, hk⟩))
      · unfold setScale Scaling.Nondeg
        constructor
        · intro h k
          have := h k k.2
          rw [columns_getD k.2, columns_getD k.2] at this
          exact (hcol k).1 (minmax_ne.1 this)
        · intro h k hk
          rw [columns_getD hk, columns_getD hk]
          exact minmax_ne.2 ((hcol ⟨k, hk⟩).2 (h ⟨k, hk⟩))
    unfold tensorFor
    rw [← hnd]
    constructor
    · rintro ⟨B, hB⟩
      split at hB
      · assumption
      · cases hB
    · intro h
      rw [if_pos h]
      exact ⟨_, rfl⟩

/-! ## `PolynomialApproximation.fit` -/

theorem approxFit_ok {S : FitSolver} {o : ApproxOpts} {X : Fin M → Pt m} {fX : Pt M} {r} (h : approxFit S o X fX = .ok r) :
    basisFor o.basis o.degree X = .ok r.1 ∧ polyFit S (fun _ => r.1) o.norm o.bound X fX = .ok r := by
  unfold approxFit at h
  cases hB : basisFor o.basis o.degree X with
  | error e => rw [hB] at h; cases h
  | ok B =>
    rw [hB] at h
    have h' : polyFit S (fun _ => B) o.norm o.bound X fX = .ok r := h
    obtain ⟨c, hc, e⟩ := map_ok h'
    subst e
    exact ⟨rfl, h'⟩

theorem best_of_basis {d : ℕ} {B : BasisObj m N} (hB : IsPolyBasis d B) {p : PNorm} {bound : Bound} {X : Fin M → Pt m} {fX : Pt M} {c : Pt N}
    (h1 : RespectsBound bound (fun i => B.V (X i) ⬝ᵥ c) fX)
    (h2 : ∀ c', RespectsBound bound (fun i => B.V (X i) ⬝ᵥ c') fX → pnorm p ((fun i => B.V (X i) ⬝ᵥ c) - fX) ≤ pnorm p ((fun i => B.V (X i) ⬝ᵥ c') - fX)) :
    BestPoly p bound d X fX fun x => B.V x ⬝ᵥ c := by
  refine ⟨poly_of_coef hB c, h1, fun q hq hb => ?_⟩
  obtain ⟨c', hc'⟩ := coef_of_poly hB hq
  simp only [← hc'] at hb ⊢
  exact h2 c' hb

/-- **C133**: the fitted function is a polynomial of total degree at most the degree that respects the bound at the samples, and no such polynomial is closer
to the data in the norm: for every basis, norm and bound. -/
theorem approxFit_best (S : FitSolver) (hS : S.Exact) (o : ApproxOpts) (hm : 1 ≤ m) {X : Fin M → Pt m} {fX : Pt M} {B c}
    (h : approxFit S o X fX = .ok (B, c)) : BestPoly o.norm o.bound o.degree X fX (polyEval B c) := by
  obtain ⟨h1, h2⟩ := approxFit_ok h
  obtain ⟨g1, g2⟩ := polyFit_bound S hS _ _ _ _ _ _ _ h2
  exact best_of_basis (basisFor_poly hm h1) g1 g2

theorem approxFit_norm {S : FitSolver} {o : ApproxOpts} {X : Fin M → Pt m} {fX : Pt M} {r} (h : approxFit S o X fX = .ok r) : o.norm ≠ .other := by
  obtain ⟨x, hx, -⟩ := map_ok (approxFit_ok h).2
  exact ((linearFit_ok_iff _ _ _ _ _).1 ⟨x, hx⟩).1

/-- **C133**: data of a polynomial of at most the degree are reproduced at the samples, in every norm and with every bound; if the samples determine the
polynomials of the degree, then the fit is that polynomial everywhere. -/
theorem approxFit_recovers (S : FitSolver) (hS : S.Exact) (o : ApproxOpts) (hm : 1 ≤ m) {X : Fin M → Pt m} {fX : Pt M} {B c}
    (h : approxFit S o X fX = .ok (B, c)) {q : MvPolynomial (Fin m) ℝ} (hq : q.totalDegree ≤ o.degree) (hf : ∀ i, fX i = MvPolynomial.eval (X i) q) :
    (∀ i, polyEval B c (X i) = fX i) ∧ (Unisolvent o.degree X → ∀ x, polyEval B c x = MvPolynomial.eval x q) := by
  have hb := approxFit_best S hS o hm h
  have h1 := hb.exact (approxFit_norm h) hq hf
  refine ⟨h1, fun hu x => ?_⟩
  have := same_of_unisolvent hu (g := polyEval B c) (g' := fun x => MvPolynomial.eval x q) hb.1 ⟨q, hq, fun x => rfl⟩ fun i => by rw [h1, hf]
  exact congrFun this x

/-- **C133**: with the Arnoldi basis a fit exists only if the samples determine the polynomials of the degree, so polynomial data are always recovered
everywhere. -/
theorem approxFit_arnoldi (S : FitSolver) (hS : S.Exact) (o : ApproxOpts) (ho : o.basis = .arnoldi) (hm : 1 ≤ m) {X : Fin M → Pt m} {fX : Pt M} {B c}
    (h : approxFit S o X fX = .ok (B, c)) {q : MvPolynomial (Fin m) ℝ} (hq : q.totalDegree ≤ o.degree) (hf : ∀ i, fX i = MvPolynomial.eval (X i) q) (x : Pt m) :
    polyEval B c x = MvPolynomial.eval x q := by
  have := (basisFor_ok_iff hm o.basis o.degree X).1 ⟨B, (approxFit_ok h).1⟩
  rw [if_pos ho] at this
  exact (approxFit_recovers S hS o hm h hq hf).2 this x

theorem BestPoly.conv {p p' : PNorm} {bound bound' : Bound} {d d' : ℕ} {X : Fin M → Pt m} {fX : Pt M} {g : Pt m → ℝ} (h : BestPoly p' bound' d' X fX g)
    (hd : d' = d) (hp : p' = p) (hb : bound' = bound) : BestPoly p bound d X fX g := by
  subst hd hp hb
  exact h

/-- **C133**: the basis does not matter: two fits of the same degree, norm and bound to the same data are equally far from the data, in the 2-norm they have
the same values at the samples, and if moreover the samples determine the polynomials they are the same function. -/
theorem approxFit_basis_free (S S' : FitSolver) (hS : S.Exact) (hS' : S'.Exact) (o o' : ApproxOpts) (hd : o'.degree = o.degree) (hp : o'.norm = o.norm)
    (hbd : o'.bound = o.bound) (hm : 1 ≤ m) {X : Fin M → Pt m} {fX : Pt M} {B c B' c'}
    (h : approxFit S o X fX = .ok (B, c)) (h' : approxFit S' o' X fX = .ok (B', c')) :
    pnorm o.norm ((fun i => polyEval B c (X i)) - fX) = pnorm o.norm ((fun i => polyEval B' c' (X i)) - fX) ∧
    (o.norm = .two → (∀ i, polyEval B c (X i) = polyEval B' c' (X i)) ∧ (Unisolvent o.degree X → polyEval B c = polyEval B' c')) := by
  have hb := approxFit_best S hS o hm h
  have hb' := (approxFit_best S' hS' o' hm h').conv hd hp hbd
  refine ⟨hb.same_error hb', fun h2 => ?_⟩
  rw [h2] at hb hb'
  have h1 := hb.two_unique hb'
  exact ⟨h1, fun hu => same_of_unisolvent hu hb.1 hb'.1 h1⟩

/-- **C133**: scaling the data by a positive number and adding a polynomial of at most the degree does the same to the 2-norm fit; the basis may differ. -/
theorem approxFit_data (S S' : FitSolver) (hS : S.Exact) (hS' : S'.Exact) (o o' : ApproxOpts) (hd : o'.degree = o.degree) (hp : o.norm = .two) (hp' : o'.norm = .two)
    (hbd : o'.bound = o.bound) (hm : 1 ≤ m) {X : Fin M → Pt m} {fX : Pt M} {a : ℝ} (ha : 0 < a) {r : MvPolynomial (Fin m) ℝ} (hr : r.totalDegree ≤ o.degree) {B c B' c'}
    (h : approxFit S o X fX = .ok (B, c)) (h' : approxFit S' o' X (fun i => a * fX i + MvPolynomial.eval (X i) r) = .ok (B', c')) (i : Fin M) :
    polyEval B' c' (X i) = a * polyEval B c (X i) + MvPolynomial.eval (X i) r := by
  have hb := (approxFit_best S hS o hm h).scale ha hr
  have hb' := (approxFit_best S' hS' o' hm h').conv hd hp' hbd
  rw [hp] at hb
  exact hb'.two_unique hb i

/-- **C133**: the fit from below to the negated data is the negated fit from above (2-norm). -/
theorem approxFit_neg (S S' : FitSolver) (hS : S.Exact) (hS' : S'.Exact) (o o' : ApproxOpts) (hd : o'.degree = o.degree) (hp : o.norm = .two) (hp' : o'.norm = .two)
    (hbd : o'.bound = o.bound.flip) (hm : 1 ≤ m) {X : Fin M → Pt m} {fX : Pt M} {B c B' c'}
    (h : approxFit S o X fX = .ok (B, c)) (h' : approxFit S' o' X (fun i => -fX i) = .ok (B', c')) (i : Fin M) :
    polyEval B' c' (X i) = -polyEval B c (X i) := by
  have hb := (approxFit_best S hS o hm h).neg
  have hb' := (approxFit_best S' hS' o' hm h').conv hd hp' hbd
  rw [hp] at hb
  exact hb'.two_unique hb i

/-- **C133**: an invertible affine change of the inputs and a change of the order of the samples do not change the 2-norm fit at the samples. -/
theorem approxFit_inputs (S S' : FitSolver) (hS : S.Exact) (hS' : S'.Exact) (o o' : ApproxOpts) (hd : o'.degree = o.degree) (hp : o.norm = .two) (hp' : o'.norm = .two)
    (hbd : o'.bound = o.bound) (hm : 1 ≤ m) {X : Fin M → Pt m} {fX : Pt M} {A A' : Matrix (Fin m) (Fin m) ℝ} (hA : A' * A = 1) (t : Pt m) (σ : Equiv.Perm (Fin M)) {B c B' c'}
    (h : approxFit S o X fX = .ok (B, c)) (h' : approxFit S' o' (fun i => A *ᵥ X (σ i) + t) (fun i => fX (σ i)) = .ok (B', c')) (i : Fin M) :
    polyEval B' c' (A *ᵥ X (σ i) + t) = polyEval B c (X (σ i)) := by
  have hb := ((approxFit_best S hS o hm h).perm σ).inputs hA t
  have hb' := (approxFit_best S' hS' o' hm h').conv hd hp' hbd
  rw [hp] at hb
  have := hb'.two_unique hb i
  rw [this, add_sub_cancel_right, Matrix.mulVec_mulVec, hA, Matrix.one_mulVec]

/-- A solver that answers whenever there is a best answer. -/
structure FitSolver.Answers (S : FitSolver) : Prop where
  free : ∀ {M N : ℕ} (p : PNorm) (A : Matrix (Fin M) (Fin N) ℝ) (b : Pt M), (∃ x, ∀ x', pnorm p (A *ᵥ x - b) ≤ pnorm p (A *ᵥ x' - b)) → (S.free p A b).isSome
  ge : ∀ {M N : ℕ} (p : PNorm) (A : Matrix (Fin M) (Fin N) ℝ) (b : Pt M),
    (∃ x, (∀ i, b i ≤ (A *ᵥ x) i) ∧ ∀ x', (∀ i, b i ≤ (A *ᵥ x') i) → pnorm p (A *ᵥ x - b) ≤ pnorm p (A *ᵥ x' - b)) → (S.ge p A b).isSome
  le : ∀ {M N : ℕ} (p : PNorm) (A : Matrix (Fin M) (Fin N) ℝ) (b : Pt M),
    (∃ x, (∀ i, (A *ᵥ x) i ≤ b i) ∧ ∀ x', (∀ i, (A *ᵥ x') i ≤ b i) → pnorm p (A *ᵥ x - b) ≤ pnorm p (A *ᵥ x' - b)) → (S.le p A b).isSome

theorem idealSolver_answers : idealSolver.Answers where
  free := fun p A b h => by simp only [idealSolver]; rw [dif_pos h]; rfl
  ge := fun p A b h => by simp only [idealSolver]; rw [dif_pos h]; rfl
  le := fun p A b h => by simp only [idealSolver]; rw [dif_pos h]; rfl

/-- **C133**: for every degree, basis, norm and bound that the constructor accepts, all data can be fitted, if the samples take two values in every
coordinate (tensor bases) or determine the polynomials of the degree (Arnoldi basis); otherwise the fit fails. -/
theorem approxFit_ok_iff (S : FitSolver) (hS : S.Answers) {degree : ℝ} {basis : String} {norm : NormArg} {bound : Option String} {o : ApproxOpts}
    (ho : approxInit degree basis norm bound = .ok o) (hm : 1 ≤ m) (X : Fin M → Pt m) (fX : Pt M) :
    (∃ r, approxFit S o X fX = .ok r) ↔ if o.basis = .arnoldi then Unisolvent o.degree X else ∀ k, ∃ i j, X i k ≠ X j k := by
  rw [← basisFor_ok_iff hm]
  constructor
  · rintro ⟨r, hr⟩
    exact ⟨_, (approxFit_ok hr).1⟩
  · rintro ⟨B, hB⟩
    have hpoly := basisFor_poly hm hB
    obtain ⟨-, -, hp, hbd, -⟩ := (approxInit_ok_iff _ _ _ _ _).1 ho
    have hpn := parseNorm_ne hp
    have hbn : o.bound ≠ .other := by
      unfold parseBound at hbd
      split at hbd
      · intro h; simp_all
      · split at hbd
        · intro h; simp_all
        · split at hbd
          · intro h; simp_all
          · cases hbd
    have hone : ∃ e : Pt _, ∀ i, ((Matrix.of fun i => B.V (X i)) *ᵥ e) i = 1 := by
      obtain ⟨e, he⟩ := coef_of_poly hpoly (q := 1) (by simp)
      exact ⟨e, fun i => (he (X i)).trans (by simp)⟩
    obtain ⟨e, he⟩ := hone
    have hfeas : ∃ c, RespectsBound o.bound ((Matrix.of fun i => B.V (X i)) *ᵥ c) fX := by
      cases o.bound with
      | none => exact ⟨0, trivial⟩
      | other => exact ⟨0, trivial⟩
      | lower => exact (bound_feasible _ e he fX).1
      | upper => exact (bound_feasible _ e he fX).2
    obtain ⟨c, h1, h2⟩ := best_exists hpn o.bound _ fX hfeas
    have hlin : ∃ x, linearFit S (Matrix.of fun i => B.V (X i)) fX o.norm o.bound = .ok x := by
      rw [linearFit_ok_iff]
      refine ⟨hpn, ?_⟩
      cases hbo : o.bound with
      | none =>
        rw [hbo] at h2
        exact .inl ⟨rfl, hS.free _ _ _ ⟨c, fun x' => h2 x' trivial⟩⟩
      | lower =>
        rw [hbo] at h1 h2
        exact .inr (.inl ⟨rfl, hS.le _ _ _ ⟨c, h1, h2⟩⟩)
      | upper =>
        rw [hbo] at h1 h2
        exact .inr (.inr ⟨rfl, hS.ge _ _ _ ⟨c, h1, h2⟩⟩)
      | other => exact absurd hbo hbn
    obtain ⟨x, hx⟩ := hlin
    refine ⟨(B, x), ?_⟩
    unfold approxFit
    rw [hB]
    change polyFit S (fun _ => B) o.norm o.bound X fX = _
    unfold polyFit
    rw [hx]
    rfl

/-! ## `fit_fixed_subspace` -/

/-- **C133**: the matrix has to have as many rows as the samples have coordinates and as many columns as the dimension of the ridge. -/
theorem fitFixed_shape (S : FitSolver) (mk : (Fin M → Pt n) → BasisObj n N) (svdU : (Fin M → Pt n) → Matrix (Fin n) (Fin n) ℝ)
    (p : PNorm) (bound : Bound) (rotate : Bool) (X : Fin M → Pt m) (fX : Pt M) {r c : ℕ} (U : Matrix (Fin r) (Fin c) ℝ) (h : r ≠ m ∨ c ≠ n) :
    fitFixed S mk svdU p bound rotate X fX U = .error .assertion := by
  unfold fitFixed
  rw [dif_neg (by rintro ⟨h1, h2⟩; rcases h with h | h <;> contradiction)]

/-- **C133**: `fit_fixed_subspace` returns a best polynomial of `Uᵀ x`, when the final choice of signs erases no direction (`hfin`; it can, see
`finish_sign_false`). -/
theorem fitFixed_partial {d : ℕ} (S : FitSolver) (hS : S.Exact) (mk : (Fin M → Pt n) → BasisObj n N) (hmk : ∀ Y, IsPolyBasis d (mk Y))
    (svdU : (Fin M → Pt n) → Matrix (Fin n) (Fin n) ℝ) (p : PNorm) (bound : Bound) (rotate : Bool) (X : Fin M → Pt m) (fX : Pt M)
    (U : Matrix (Fin m) (Fin n) ℝ) (R : Ridge m n N) (h : fitFixed S mk svdU p bound rotate X fX U = .ok R)
    (hfin : rotate = false ∨ Uᵀ * U = 1 ∧ R.Uᵀ * R.U = 1) :
    ∃ g : Pt n → ℝ, BestPoly p bound d (fun i => projY U (X i)) fX g ∧ ∀ x, R.eval x = g (projY U x) := by
  have h' : finish S mk svdU p bound rotate X fX U = .ok R := by
    unfold fitFixed at h
    rw [dif_pos ⟨rfl, rfl⟩] at h
    exact h
  obtain ⟨⟨Q, hQ⟩, hfit⟩ := finish_factor h'
  have hbest : BestPoly p bound d (fun i => projY R.U (X i)) fX fun y => R.basis.V y ⬝ᵥ R.coef := by
    obtain ⟨g1, g2⟩ := fitCoef_bound S hS mk p bound X fX R.U _ _ hfit
    refine best_of_basis ?_ g1 g2
    rw [fitCoef_basis hfit]
    exact hmk _
  rcases hfin with hr | ⟨hU, hRU⟩
  · subst hr
    have hRU : R.U = U := finish_no_rotate S mk svdU p bound X fX U R h'
    rw [hRU] at hbest
    refine ⟨_, hbest, fun x => ?_⟩
    unfold Ridge.eval
    rw [hRU]
  · have hQQ : Qᵀ * Q = 1 := by
      rw [hQ, Matrix.transpose_mul, Matrix.mul_assoc, ← Matrix.mul_assoc Uᵀ, hU, Matrix.one_mul] at hRU
      exact hRU
    have hQQ' : Q * Qᵀ = 1 := mul_eq_one_comm.1 hQQ
    have hproj : ∀ x, projY R.U x = Qᵀ *ᵥ projY U x := by
      intro x
      unfold projY
      rw [hQ, Matrix.transpose_mul, Matrix.mulVec_mulVec]
    have hb2 := hbest.inputs (A := Q) (B := Qᵀ) hQQ 0
    refine ⟨fun x => R.basis.V (Qᵀ *ᵥ (x - 0)) ⬝ᵥ R.coef, ?_, fun x => ?_⟩
    · have e : (fun i => Q *ᵥ projY R.U (X i) + 0) = fun i => projY U (X i) := by
        funext i
        rw [hproj, Matrix.mulVec_mulVec, hQQ', Matrix.one_mulVec, add_zero]
      rw [e] at hb2
      exact hb2
    · simp only [sub_zero]
      unfold Ridge.eval
      rw [hproj]

/-- **C133**: data that are a polynomial of `Uᵀ x` are reproduced by `fit_fixed_subspace` with `U`, in every norm and with every bound, and the polynomial
itself is returned if the projected samples determine it (again if the choice of signs erases no direction). -/
theorem fitFixed_recovers_partial {d : ℕ} (S : FitSolver) (hS : S.Exact) (mk : (Fin M → Pt n) → BasisObj n N) (hmk : ∀ Y, IsPolyBasis d (mk Y))
    (svdU : (Fin M → Pt n) → Matrix (Fin n) (Fin n) ℝ) (p : PNorm) (hp : p ≠ .other) (bound : Bound) (rotate : Bool) (X : Fin M → Pt m) (fX : Pt M)
    (U : Matrix (Fin m) (Fin n) ℝ) (R : Ridge m n N) (h : fitFixed S mk svdU p bound rotate X fX U = .ok R)
    (hfin : rotate = false ∨ Uᵀ * U = 1 ∧ R.Uᵀ * R.U = 1)
    {q : MvPolynomial (Fin n) ℝ} (hq : q.totalDegree ≤ d) (hf : ∀ i, fX i = MvPolynomial.eval (projY U (X i)) q) :
    (∀ i, R.eval (X i) = fX i) ∧ (Unisolvent d (fun i => projY U (X i)) → ∀ x, R.eval x = MvPolynomial.eval (projY U x) q) := by
  obtain ⟨g, hg, he⟩ := fitFixed_partial S hS mk hmk svdU p bound rotate X fX U R h hfin
  have h1 := hg.exact hp hq hf
  refine ⟨fun i => by rw [he]; exact h1 i, fun hu x => ?_⟩
  have := same_of_unisolvent hu (g := g) (g' := fun x => MvPolynomial.eval x q) hg.1 ⟨q, hq, fun x => rfl⟩ fun i => by rw [h1, hf]
  rw [he, this]

/-- **C133** without the hypothesis on the signs is false: the data `x²` at `-1, 0, 1` with `U = [1]` are not reproduced. -/
theorem fitFixed_recovers_false (svdU : (Fin 3 → Pt 1) → Matrix (Fin 1) (Fin 1) ℝ) (S : FitSolver) (hS : S.Exact) (R : Ridge 1 1 3)
    (h : fitFixed S (fun _ => quadBasis) svdU .two .none true parX parF (1 : Matrix (Fin 1) (Fin 1) ℝ) = .ok R) :
    (∀ i, parF i = MvPolynomial.eval (projY (1 : Matrix (Fin 1) (Fin 1) ℝ) (parX i)) (MvPolynomial.X 0 ^ 2)) ∧ ∃ i, R.eval (parX i) ≠ parF i := by
  refine ⟨fun i => ?_, ?_⟩
  · fin_cases i <;> simp [parF, parX, projY]
  · unfold fitFixed at h
    rw [dif_pos ⟨rfl, rfl⟩] at h
    exact (finish_sign_false svdU S hS R h).2

/-- **C133**: outside the 2-norm best polynomials are not determined at the samples: for the data `0, 1` the constants `0` and `1` are both best in the
1-norm. -/
theorem best_one_not_unique : ∃ (X : Fin 2 → Pt 1) (fX : Pt 2) (g g' : Pt 1 → ℝ), BestPoly .one .none 0 X fX g ∧ BestPoly .one .none 0 X fX g' ∧
    ∀ i, g (X i) ≠ g' (X i) := by
  have key : ∀ q : MvPolynomial (Fin 1) ℝ, q.totalDegree ≤ 0 → (1 : ℝ) ≤ pnorm .one ((fun i : Fin 2 => MvPolynomial.eval ((![![0], ![1]] : Fin 2 → Pt 1) i) q) - ![0, 1]) := by
    intro q hq
    obtain ⟨c, rfl⟩ : ∃ c, q = MvPolynomial.C c := ⟨_, (MvPolynomial.totalDegree_eq_zero_iff_eq_C).1 (Nat.le_zero.1 hq)⟩
    simp only [pnorm, MvPolynomial.eval_C, Fin.sum_univ_two, Pi.sub_apply, cons_val_zero, cons_val_one, sub_zero]
    have h1 := neg_abs_le (c - 1)
    have h2 := le_abs_self c
    linarith
  refine ⟨![![0], ![1]], ![0, 1], fun _ => 0, fun _ => 1, ⟨⟨0, by simp, by simp⟩, trivial, fun q hq _ => le_trans (le_of_eq ?_) (key q hq)⟩,
    ⟨⟨1, by simp, by simp⟩, trivial, fun q hq _ => le_trans (le_of_eq ?_) (key q hq)⟩, fun i => zero_ne_one⟩
  · simp [pnorm, Fin.sum_univ_two]
  · simp [pnorm, Fin.sum_univ_two]

/-! ## The hypotheses are met -/

/-- The options of a quadratic fit from below in the 1-norm with the Arnoldi basis. -/
theorem quad_opts : approxInit 2 "arnoldi" (.num 1) (some "lower") = .ok ⟨2, .arnoldi, .one, .lower⟩ := by
  rw [approxInit_ok_iff]
  refine ⟨by norm_num, by decide, by simp [parseNorm], rfl, ?_⟩
  simp only
  norm_num

/-- The degree `2.7` gives a quadratic, `-0.5` a constant. -/
example : (∃ o, approxInit 2.7 "hermite" .infinity none = .ok o ∧ o.degree = 2) ∧ ∃ o, approxInit (-0.5) "hermite" .infinity none = .ok o ∧ o.degree = 0 :=
  ⟨⟨⟨2, .hermite, .inf, .none⟩, (approxInit_ok_iff _ _ _ _ _).2 ⟨by norm_num, by decide, rfl, rfl, by norm_num⟩, rfl⟩,
    ⟨⟨0, .hermite, .inf, .none⟩, (approxInit_ok_iff _ _ _ _ _).2 ⟨by norm_num, by decide, rfl, rfl, by norm_num⟩, rfl⟩⟩

/-- A quadratic ridge approximation of dimension two; a linear one gets dimension one. -/
example : (∃ o, ridgeInit (.int 2) (.int 2) "Legendre" (.str "inf") none = .ok o ∧ o.dim = 2 ∧ o.norm = .inf) ∧
    ∃ o, ridgeInit (.int 1) (.int 2) "Legendre" (.num 2) none = .ok o ∧ o.dim = 1 := by
  have hl : parseBasis (lowerName "Legendre") = some .legendre := by decide
  exact ⟨⟨⟨2, 2, .legendre, .inf, .none⟩, (ridgeInit_ok_iff _ _ _ _ _ _).2 ⟨2, rfl, rfl, by norm_num, hl, .inr ⟨rfl, rfl⟩, rfl, by simp⟩, rfl, rfl⟩,
    ⟨⟨1, 1, .legendre, .two, .none⟩, (ridgeInit_ok_iff _ _ _ _ _ _).2 ⟨2, rfl, rfl, by norm_num, hl, .inl (by simp [parseNorm]), rfl, by simp⟩, rfl⟩⟩

/-- The fit of that quadratic from below to data at `0, 1, 2, 3` exists and recovers every quadratic. -/
example (q : MvPolynomial (Fin 1) ℝ) (hq : q.totalDegree ≤ 2) :
    ∃ B c, approxFit idealSolver ⟨2, .arnoldi, .one, .lower⟩ (fun i : Fin 4 => fun _ : Fin 1 => (i : ℝ)) (fun i => MvPolynomial.eval (fun _ => (i : ℝ)) q) = .ok (B, c) ∧
      ∀ x, polyEval B c x = MvPolynomial.eval x q := by
  have hu : Unisolvent 2 (fun i : Fin 4 => fun _ : Fin 1 => (i : ℝ)) := unisolvent_line (by norm_num) fun i j h => Fin.ext (by exact_mod_cast h)
  obtain ⟨⟨B, c⟩, h⟩ := (approxFit_ok_iff idealSolver idealSolver_answers quad_opts le_rfl _ _).2 (by rw [if_pos rfl]; exact hu)
  exact ⟨B, c, h, approxFit_arnoldi idealSolver idealSolver_exact _ rfl le_rfl h hq fun i => rfl⟩

/-- One sample cannot be fitted with a scaled tensor basis, even by a constant. -/
example (S : FitSolver) (hS : S.Answers) (fX : Pt 1) : ¬ ∃ r, approxFit S ⟨0, .legendre, .two, .none⟩ (fun _ : Fin 1 => fun _ : Fin 1 => (0 : ℝ)) fX = .ok r := by
  have ho : approxInit 0 "legendre" (.num 2) none = .ok ⟨0, .legendre, .two, .none⟩ := by
    rw [approxInit_ok_iff]
    exact ⟨by norm_num, by decide, by simp [parseNorm], rfl, by norm_num⟩
  rw [approxFit_ok_iff S hS ho le_rfl]
  simp

/-- `fit_fixed_subspace` in the direction `(1, 0)` returns a cubic without rotation, for all data; data that depend on the first coordinate only through a cubic
are reproduced. -/
example {M : ℕ} (X : Fin M → Pt 2) (svdU : (Fin M → Pt 1) → Matrix (Fin 1) (Fin 1) ℝ) (q : MvPolynomial (Fin 1) ℝ) (hq : q.totalDegree ≤ 3) :
    ∃ R, fitFixed idealSolver (tensorMk monoFamily 3 1 fun _ => .none) svdU .inf .none false X (fun i => MvPolynomial.eval (fun _ => X i 0) q) !![1; 0] = .ok R ∧
      ∀ i, R.eval (X i) = MvPolynomial.eval (fun _ => X i 0) q := by
  have hp : ∀ x : Pt 2, projY !![1; 0] x = fun _ : Fin 1 => x 0 := by
    intro x
    funext k
    simp [projY, Matrix.mulVec, dotProduct, Fin.sum_univ_two]
  have hrun : ∃ R, fitFixed idealSolver (tensorMk monoFamily 3 1 fun _ => .none) svdU .inf .none false X (fun i => MvPolynomial.eval (fun _ => X i 0) q) !![1; 0] = .ok R := by
    unfold fitFixed
    rw [dif_pos ⟨rfl, rfl⟩]
    obtain ⟨c, hc⟩ := best_exists (p := .inf) (by simp) .none
      (Matrix.of fun i => (tensorMk monoFamily 3 1 (fun _ => Scaling.none) fun i => projY !![1; 0] (X i)).V (projY !![1; 0] (X i)))
      (fun i => MvPolynomial.eval (fun _ => X i 0) q) ⟨0, trivial⟩
    obtain ⟨c', hc'⟩ := ideal_answers (p := .inf) (x := c) (fun x' => hc.2 x' trivial)
    refine ⟨⟨tensorMk monoFamily 3 1 (fun _ => Scaling.none) fun i => projY !![1; 0] (X i), c', !![1; 0]⟩, ?_⟩
    change (do
      let bc ← fitCoef idealSolver _ .inf .none X _ !![1; 0]
      return (⟨bc.1, bc.2, !![1; 0]⟩ : Ridge 2 1 _)) = _
    unfold fitCoef
    simp only
    rw [hc']
    rfl
  obtain ⟨R, hR⟩ := hrun
  refine ⟨R, hR, (fitFixed_recovers_partial idealSolver idealSolver_exact _ (tensorMk_poly mono_graded mono_good 3 le_rfl _) svdU .inf (by simp) .none false X _ _ R hR
    (.inl rfl) hq fun i => by rw [hp]).1⟩

end Verif.Func
