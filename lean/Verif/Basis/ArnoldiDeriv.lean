import Verif.Basis.ArnoldiSpan

/-!
# C72 and C73: derivatives of the Arnoldi basis, and fitting with it
-/

namespace Verif.Basis

open Verif

/-! ## Derivatives -/

theorem foldl_derStep_congr (x V V' : Vec) (ell : ℕ) (l : List ((ℕ × ℕ) × List ℝ)) (D : List ℝ) (h : ∀ e ∈ l, V.getD e.1.2 0 = V'.getD e.1.2 0) :
    l.foldl (derStep x V ell) D = l.foldl (derStep x V' ell) D := by
  induction l generalizing D with
  | nil => rfl
  | cons e l ih =>
    simp only [List.foldl_cons]
    have : derStep x V ell D e = derStep x V' ell D e := by
      simp only [derStep, h e (by simp)]
    rw [this]
    exact ih _ (fun e he => h e (by simp [he]))

theorem evalDV_snoc {P : List (ℕ × ℕ)} {R : List (List ℝ)} {ij : ℕ × ℕ} (h : R.length = P.length + 1) (hP : PlanOk (P ++ [ij])) (r : List ℝ)
    (x : Vec) (ell : ℕ) :
    evalDV (P ++ [ij]) (R ++ [r]) x ell = derStep x (evalX P R x) ell (evalDV P R x ell) (ij, r) := by
  obtain ⟨hP1, hj⟩ := planOk_snoc hP
  have hW := evalX_length h x
  have hWs := evalX_snoc h ij r x
  have hV : ∀ j, j ≤ P.length → (evalX (P ++ [ij]) (R ++ [r]) x).getD j 0 = (evalX P R x).getD j 0 := by
    intro j hj
    rw [hWs, evalStep, getD_append_left (by omega)]
  obtain ⟨a, R, rfl⟩ : ∃ a R', R = a :: R' := by
    cases R with
    | nil => simp at h
    | cons a R => exact ⟨a, R, rfl⟩
  unfold evalDV
  simp only [List.cons_append, List.tail_cons] at *
  rw [List.zip_append (by simpa using h.symm), List.foldl_append]
  rw [foldl_derStep_congr x (evalX (P ++ [ij]) (a :: (R ++ [r])) x) (evalX P (a :: R) x) ell (List.zip P R)]
  · simp only [List.zip_cons_cons, List.zip_nil_left, List.foldl_cons, List.foldl_nil]
    simp only [derStep, hV _ hj]
  · intro e he
    obtain ⟨k, hk, rfl⟩ := List.getElem_of_mem he
    rw [List.getElem_zip]
    have hkP : k < P.length := by rw [List.length_zip] at hk; omega
    exact hV _ (by have := hP1 k hkP; simp only; omega)

theorem evalDV_length {P : List (ℕ × ℕ)} {R : List (List ℝ)} (h : R.length = P.length + 1) (x : Vec) (ell : ℕ) :
    (evalDV P R x ell).length = P.length + 1 := by
  unfold evalDV
  have : ∀ (l : List ((ℕ × ℕ) × List ℝ)) (V D : List ℝ), (l.foldl (derStep x V ell) D).length = D.length + l.length := by
    intro l V
    induction l with
    | nil => simp
    | cons e l ih => intro D; rw [List.foldl_cons, ih]; simp [derStep]; omega
  rw [this]
  simp [h]; omega

theorem dot_hasDerivAt {W : ℝ → List ℝ} {D : List ℝ} {n : ℕ} {t : ℝ} (hW : ∀ t, (W t).length = n) (hD : D.length = n)
    (h : ∀ k, k < n → HasDerivAt (fun t => (W t).getD k 0) (D.getD k 0) t) (r : List ℝ) :
    HasDerivAt (fun t => Vec.dot r (W t)) (Vec.dot D r) t := by
  have e : (fun t => Vec.dot r (W t)) = fun t => ∑ k ∈ Finset.range n, r.getD k 0 * (W t).getD k 0 := by
    funext t; exact dot_eq_sum' _ _ _ (hW t).le
  rw [e, Vec.dot_comm, dot_eq_sum' _ _ n hD.le]
  exact HasDerivAt.fun_sum (fun k hk => (h k (Finset.mem_range.1 hk)).const_mul _)

/-- **C72**: `DV(X)[:,k,ell]` is the derivative of column `k` of `V(X)` with respect to coordinate `ell`, for every column, point and
coordinate; also without orthonormality. -/
theorem arnoldi_DV_deriv (P : List (ℕ × ℕ)) (R : List (List ℝ)) (hl : R.length = P.length + 1) (hP : PlanOk P)
    (hR : ∀ k, k < R.length → (R.getD k []).length = k + 1) (x : Vec) (ell : ℕ) (hell : ell < x.length) :
    ∀ k, k < P.length + 1 → HasDerivAt (fun t => (evalX P R (x.set ell t)).getD k 0) ((evalDV P R x ell).getD k 0) (x.getD ell 0) := by
  induction P using List.reverseRecOn generalizing R with
  | nil =>
    intro k hk
    obtain rfl : k = 0 := by simpa using hk
    simp only [evalX, evalDV, List.zip_nil_left, List.foldl_nil]
    simpa using hasDerivAt_const _ _
  | append_singleton P ij ih =>
    obtain ⟨R, r, rfl⟩ : ∃ R' r, R = R' ++ [r] := by
      have : R ≠ [] := by intro h'; simp [h'] at hl
      exact ⟨R.dropLast, R.getLast this, (List.dropLast_append_getLast this).symm⟩
    have hl' : R.length = P.length + 1 := by simpa using hl
    obtain ⟨hP1, hj⟩ := planOk_snoc hP
    have hR' : ∀ k, k < R.length → (R.getD k []).length = k + 1 := by
      intro k hk
      have := hR k (by simp; omega)
      rwa [getD_append_left hk] at this
    have hr : r.length = R.length + 1 := by
      have := hR R.length (by simp)
      rwa [getD_snoc_last] at this
    have ih := ih R hl' hP1 hR'
    have hWl : ∀ t, (evalX P R (x.set ell t)).length = P.length + 1 := fun t => evalX_length hl' _
    have hDl := evalDV_length hl' x ell
    have hxx : x.set ell (x.getD ell 0) = x := by
      apply List.ext_getElem (by simp)
      intro i h1 h2
      rw [List.getElem_set]
      split
      · rename_i h; subst h
        rw [List.getD_eq_getElem?_getD, List.getElem?_eq_getElem h2]; rfl
      · rfl
    intro k hk
    rw [evalDV_snoc hl' hP]
    simp only [evalX_snoc hl', evalStep, derStep, hWl]
    by_cases hk' : k < P.length + 1
    · rw [getD_append_left (by omega)]
      have e : (fun t => (evalX P R (x.set ell t) ++ [subLoop r (evalX P R (x.set ell t))
          ((x.set ell t).getD ij.1 0 * (evalX P R (x.set ell t)).getD ij.2 0) / r.getD (P.length + 1) 0]).getD k 0) =
          fun t => (evalX P R (x.set ell t)).getD k 0 := by
        funext t
        rw [getD_append_left (by rw [hWl]; omega)]
      rw [e]
      exact ih k hk'
    · obtain rfl : k = P.length + 1 := by simp at hk; omega
      have e : (fun t => (evalX P R (x.set ell t) ++ [subLoop r (evalX P R (x.set ell t))
          ((x.set ell t).getD ij.1 0 * (evalX P R (x.set ell t)).getD ij.2 0) / r.getD (P.length + 1) 0]).getD (P.length + 1) 0) =
          fun t => ((x.set ell t).getD ij.1 0 * (evalX P R (x.set ell t)).getD ij.2 0 - Vec.dot r (evalX P R (x.set ell t))) / r.getD (P.length + 1) 0 := by
        funext t
        rw [← hWl t, getD_snoc_last, subLoop_eq]
      rw [e, ← hDl, getD_snoc_last, hDl]
      apply HasDerivAt.div_const
      have hdot := dot_hasDerivAt hWl hDl (t := x.getD ell 0) ih r
      have hWj := ih ij.2 (by omega)
      by_cases hi : ij.1 = ell
      · rw [if_pos hi]
        have hx : HasDerivAt (fun t : ℝ => (x.set ell t).getD ij.1 0) 1 (x.getD ell 0) := by
          have : (fun t : ℝ => (x.set ell t).getD ij.1 0) = fun t => t := by
            funext t
            rw [hi, List.getD_eq_getElem?_getD, List.getElem?_set_self hell]; rfl
          rw [this]
          exact hasDerivAt_id' _
        refine HasDerivAt.congr_deriv ((hx.mul hWj).sub hdot) ?_
        rw [hxx, one_mul]
      · rw [if_neg hi]
        have hx : (fun t : ℝ => (x.set ell t).getD ij.1 0) = fun t => x.getD ij.1 0 := by
          funext t
          rw [List.getD_eq_getElem?_getD, List.getElem?_set_ne (by omega), ← List.getD_eq_getElem?_getD]
        have h2 := (hWj.const_mul (x.getD ij.1 0)).sub hdot
        have e2 : (fun t => (x.set ell t).getD ij.1 0 * (evalX P R (x.set ell t)).getD ij.2 0 - Vec.dot r (evalX P R (x.set ell t))) =
            fun t => x.getD ij.1 0 * (evalX P R (x.set ell t)).getD ij.2 0 - Vec.dot r (evalX P R (x.set ell t)) := by
          funext t
          rw [congrFun hx t]
        rw [e2]
        exact h2

/-! ## Fitting -/

theorem findDegree_spec (m : ℕ) (hm : 1 ≤ m) (p fuel : ℕ) (hf : p < fuel) :
    findDegree m (Nat.choose (m + p) p) fuel 0 = some p := by
  have : ∀ fuel q, q ≤ p → p < q + fuel → findDegree m (Nat.choose (m + p) p) fuel q = some p := by
    intro fuel
    induction fuel with
    | zero => intro q h1 h2; omega
    | succ f ih =>
      intro q h1 h2
      unfold findDegree
      rcases h1.eq_or_lt with rfl | h1
      · rw [if_pos (le_refl _)]
      · rw [if_neg]
        · exact ih (q + 1) h1 (by omega)
        · rw [not_le, ← Nat.choose_symm_of_eq_add (show m + q = m + q by rfl), ← Nat.choose_symm_of_eq_add (show m + p = m + p by rfl)]
          have hmono : StrictMono (fun q => Nat.choose (m + q) m) := by
            apply strictMono_nat_of_lt_succ
            intro n
            obtain ⟨m, rfl⟩ : ∃ m', m = m' + 1 := ⟨m - 1, by omega⟩
            have e : m + 1 + (n + 1) = (m + 1 + n) + 1 := by omega
            simp only [e]
            rw [Nat.choose_succ_succ]
            have := Nat.choose_pos (show m ≤ m + 1 + n by omega)
            simp only [Nat.succ_eq_add_one] at *
            omega
          exact hmono h1
  exact this fuel 0 (Nat.zero_le _) (by omega)

/-- The sum of squared residuals of a prediction. -/
noncomputable def residual (X : List Vec) (fX : Vec) (g : Vec → ℝ) : ℝ := Vec.sumSq (Vec.sub (X.map g) fX)

/-- What `np.linalg.lstsq(Q, fX)` returns, vandermonde.py 83: a minimiser of the residual; `Q` is given by columns. -/
def IsLstsq (M : ℕ) (Q : List Vec) (fX d : Vec) : Prop := d.length = Q.length ∧ ∀ d' : Vec, d'.length = Q.length →
  Vec.sumSq (Vec.sub ((List.range M).map (fun r => Vec.dot d (Q.map (fun q => q.getD r 0)))) fX) ≤
  Vec.sumSq (Vec.sub ((List.range M).map (fun r => Vec.dot d' (Q.map (fun q => q.getD r 0)))) fX)

open MvPolynomial in
/-- **C73**: `polyvalA(*polyfitA(X, fX, p), ·)` finds the degree, does not raise, and evaluates a polynomial of total degree at
most `p` whose sum of squared residuals on the data is the smallest among all such polynomials. -/
theorem polyfitA_best {p m : ℕ} (hm : 1 ≤ m) {X Q : List Vec} {H : List (List ℝ)} (hne : X ≠ []) (hX : ∀ x ∈ X, x.length = m)
    (h : vandermondeArnoldi X p m = some (Q, H)) (hb : NoBreakdown H) {fX d : Vec} (hd : IsLstsq X.length Q fX d)
    (fuel : ℕ) (hf : p < fuel) :
    ∃ g : MvPolynomial (Fin m) ℝ, g.totalDegree ≤ p ∧
      (∀ x : Vec, x.length = m → polyvalA fuel d H x = some (eval (pt m x) g)) ∧
      ∀ g' : MvPolynomial (Fin m) ℝ, g'.totalDegree ≤ p →
        residual X fX (fun x => eval (pt m x) g) ≤ residual X fX (fun x => eval (pt m x) g') := by
  obtain ⟨P, h1, h2, h3⟩ := plan_ok p m hm
  have hP : PlanOk P := fun k hk => (h3 k hk).1
  have hs := arnoldi_span hm h1 hne hX (Or.inr h) hb
  have hcons := arnoldi_consistent hm h1 (Or.inr h)
  have hQH : Q.length = (indexSet p m).length ∧ H.length = (indexSet p m).length := by
    unfold vandermondeArnoldi at h
    rw [planPrefix_eq p m hm, h1, Option.map_some] at h
    have e := Option.some.inj h
    obtain ⟨s1, s2, -, -⟩ := arnoldi_shape X.length X P hP
    rw [e] at s1 s2
    exact ⟨s1.trans h2, s2.trans h2⟩
  have hdl : d.length = (indexSet p m).length := hd.1.trans hQH.1
  obtain ⟨g, hg, hge⟩ := hs.2 d hdl
  have hres : ∀ (d' : Vec) (g' : MvPolynomial (Fin m) ℝ), (∀ x : Vec, x.length = m → eval (pt m x) g' = Vec.dot d' (evalX P H x)) →
      X.map (fun x => eval (pt m x) g') = (List.range X.length).map (fun r => Vec.dot d' (Q.map (fun q => q.getD r 0))) := by
    intro d' g' hg'
    apply List.ext_getElem (by simp)
    intro r r1 r2
    have hr : r < X.length := by simpa using r1
    rw [List.getElem_map, List.getElem_map, List.getElem_range, hg' _ (hX _ (List.getElem_mem hr)), hcons r hr]
  refine ⟨g, hg, fun x hx => ?_, fun g' hg' => ?_⟩
  · unfold polyvalA
    rw [hx, hdl, indexSet_length p m hm, findDegree_spec m hm p fuel hf]
    simp only
    rw [if_pos hQH.2.symm, planPrefix_eq p m hm, h1, Option.map_some, hge x hx, Vec.dot_comm]
  · obtain ⟨d', hd', hge'⟩ := hs.1 g' hg'
    unfold residual
    rw [hres d g hge, hres d' g' hge']
    exact hd.2 d' (hd'.trans hQH.1.symm)

end Verif.Basis
