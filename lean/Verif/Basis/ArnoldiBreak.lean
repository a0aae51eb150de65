import Verif.Basis.ArnoldiDeriv

/-!
# C29: the construction breaks down exactly for point sets that do not determine the polynomials
-/

namespace Verif.Basis

open Verif

/-! ## The order of the indices -/

/-- Comparison from the last entry. -/
def RevLex (a b : List ℕ) : Prop := ∃ l, a.getD l 0 < b.getD l 0 ∧ ∀ s, l < s → a.getD s 0 = b.getD s 0

/-- Comparison from the first entry. -/
def FwdLex (a b : List ℕ) : Prop := ∃ l, a.getD l 0 < b.getD l 0 ∧ ∀ s, s < l → a.getD s 0 = b.getD s 0

/-- The order of the index set: by total degree, then from the last entry. -/
def Before (a b : List ℕ) : Prop := a.sum < b.sum ∨ (a.sum = b.sum ∧ RevLex a b)

theorem fullIndexSet_sorted (n d : ℕ) : (fullIndexSet n d).Pairwise FwdLex := by
  induction d generalizing n with
  | zero => simp [fullIndexSet]
  | succ d ih =>
    cases d with
    | zero => simp [fullIndexSet]
    | succ d =>
      simp only [fullIndexSet]
      rw [List.pairwise_flatMap]
      refine ⟨fun i _ => ?_, ?_⟩
      · rw [List.pairwise_map]
        refine (ih (n - i)).imp ?_
        rintro a b ⟨l, h1, h2⟩
        refine ⟨l + 1, by simpa using h1, fun s hs => ?_⟩
        rcases s with _ | s
        · simp
        · simpa using h2 s (by omega)
      · refine List.pairwise_lt_range.imp ?_
        intro i j hij a ha b hb
        obtain ⟨r, -, rfl⟩ := List.mem_map.1 ha
        obtain ⟨r', -, rfl⟩ := List.mem_map.1 hb
        exact ⟨0, by simpa using hij, fun s hs => by omega⟩

theorem reverse_getD {a : List ℕ} {m s : ℕ} (ha : a.length = m) (hs : s < m) : a.reverse.getD s 0 = a.getD (m - 1 - s) 0 := by
  rw [List.getD_eq_getElem?_getD, List.getD_eq_getElem?_getD, List.getElem?_reverse (by omega), ha]

theorem revLex_reverse {a b : List ℕ} (h : FwdLex a b) (hl : a.length = b.length) : RevLex a.reverse b.reverse := by
  obtain ⟨l, h1, h2⟩ := h
  have hlt : l < b.length := by
    by_contra hc
    rw [List.getD_eq_getElem?_getD (l := b), List.getElem?_eq_none (by omega)] at h1
    simp at h1
  refine ⟨b.length - 1 - l, ?_, fun s hs => ?_⟩
  · rw [reverse_getD hl (by omega), reverse_getD rfl (by omega)]
    have : b.length - 1 - (b.length - 1 - l) = l := by omega
    rw [this]; exact h1
  · by_cases hs' : s < b.length
    · rw [reverse_getD hl hs', reverse_getD rfl hs']
      exact h2 _ (by omega)
    · rw [List.getD_eq_getElem?_getD, List.getD_eq_getElem?_getD, List.getElem?_eq_none (by simp; omega), List.getElem?_eq_none (by simp; omega)]

theorem indexSet_sorted (p m : ℕ) (hm : 1 ≤ m) : (indexSet p m).Pairwise Before := by
  obtain ⟨m, rfl⟩ := Nat.exists_eq_add_of_le' hm
  unfold indexSet
  rw [List.pairwise_map, List.pairwise_cons]
  constructor
  · intro b hb
    left
    obtain ⟨i, hi, hb⟩ := List.mem_flatMap.1 hb
    have := ((mem_fullIndexSet _ _ _).1 hb).2
    rw [List.mem_range'_1] at hi
    rw [List.sum_reverse, List.sum_reverse, this]
    simp; omega
  · rw [List.pairwise_flatMap]
    constructor
    · intro i _
      refine List.Pairwise.imp_of_mem (fun {a b} ha hb h => ?_) (fullIndexSet_sorted i (m + 1))
      have ha := (mem_fullIndexSet _ _ _).1 ha
      have hb := (mem_fullIndexSet _ _ _).1 hb
      right
      refine ⟨by rw [List.sum_reverse, List.sum_reverse, ha.2, hb.2], revLex_reverse h (by rw [ha.1, hb.1])⟩
    · refine (List.pairwise_lt_range' (s := 1) (n := p)).imp ?_
      intro i j hij a ha b hb
      left
      rw [List.sum_reverse, List.sum_reverse, ((mem_fullIndexSet _ _ _).1 ha).2, ((mem_fullIndexSet _ _ _).1 hb).2]
      exact hij

theorem revLex_asymm {a b : List ℕ} (h : RevLex a b) (h' : RevLex b a) : False := by
  obtain ⟨l, h1, h2⟩ := h
  obtain ⟨l', h1', h2'⟩ := h'
  rcases Nat.lt_trichotomy l l' with h | rfl | h
  · have := h2 l' h; omega
  · omega
  · have := h2' l h; omega

theorem before_asymm {a b : List ℕ} (h : Before a b) (h' : Before b a) : False := by
  rcases h with h | ⟨h, hl⟩ <;> rcases h' with h' | ⟨h', hl'⟩
  · omega
  · omega
  · omega
  · exact revLex_asymm hl hl'

theorem before_raise {a a' b b' : List ℕ} {i : ℕ} {m : ℕ} (hm : i < m) (la : a.length = m) (la' : a'.length = m) (lb : b.length = m)
    (lb' : b'.length = m) (h : Before a b) (ha : Raises a a' i) (hb : Raises b b' i) :
    Before a' b' := by
  have e1 := raises_sum (by rw [la, la']) (by omega) ha
  have e2 := raises_sum (by rw [lb, lb']) (by omega) hb
  rcases h with h | ⟨h, l, h1, h2⟩
  · left; omega
  · right
    refine ⟨by omega, l, ?_, fun s hs => ?_⟩
    · rw [ha, hb]; omega
    · rw [ha, hb, h2 s hs]

/-! ## Leading coefficients -/

open MvPolynomial in
/-- `T` on polynomials before the division. -/
noncomputable def polyT (m : ℕ) (W : List (MvPolynomial (Fin m) ℝ)) (ij : ℕ × ℕ) (h : List ℝ) : MvPolynomial (Fin m) ℝ :=
  (List.zip h W).foldl (fun w p => w - C p.1 * p.2) (coord m ij.1 * W.getD ij.2 0)

open MvPolynomial in
theorem coeff_loop {m : ℕ} (s : Fin m →₀ ℕ) (h : List ℝ) (W : List (MvPolynomial (Fin m) ℝ)) (hW : ∀ w ∈ W, coeff s w = 0) (w : MvPolynomial (Fin m) ℝ) :
    coeff s ((List.zip h W).foldl (fun w p => w - C p.1 * p.2) w) = coeff s w := by
  induction h generalizing W w with
  | nil => simp
  | cons a h ih =>
    cases W with
    | nil => simp
    | cons b W =>
      rw [List.zip_cons_cons, List.foldl_cons, ih W (fun w hw => hW w (by simp [hw])), coeff_sub, coeff_C_mul, hW b (by simp)]
      simp

theorem expo_raises {m i : ℕ} {a b : List ℕ} (hi : i < m) (h : Raises a b i) :
    expo m b = Finsupp.single (⟨i, hi⟩ : Fin m) 1 + expo m a := by
  ext l
  have := h l
  simp only [expo, Finsupp.equivFunOnFinite_symm_apply_apply, Finsupp.coe_add, Pi.add_apply]
  rw [this, Finsupp.single_apply, add_comm]
  congr 1
  by_cases hl : (l : ℕ) = i
  · rw [if_pos hl, if_pos (Fin.ext hl.symm)]
  · rw [if_neg hl, if_neg (fun h => hl (by rw [← h]))]

open MvPolynomial in
/-- The leading index of each polynomial in the list is its position. -/
def Lead (p m : ℕ) (W : List (MvPolynomial (Fin m) ℝ)) : Prop := ∀ k, k < W.length →
  coeff (expo m ((indexSet p m).getD k [])) (W.getD k 0) ≠ 0 ∧
  ∀ s, k < s → s < (indexSet p m).length → coeff (expo m ((indexSet p m).getD s [])) (W.getD k 0) = 0

open MvPolynomial in
theorem lead_step {p m : ℕ} (hm : 1 ≤ m) {W : List (MvPolynomial (Fin m) ℝ)} (hW : Lead p m W) (hlen : W.length < (indexSet p m).length)
    {i j : ℕ} (hi : i < m) (hj : j < W.length) (hR : Raises ((indexSet p m).getD j []) ((indexSet p m).getD W.length []) i) (h : List ℝ) :
    coeff (expo m ((indexSet p m).getD W.length [])) (polyT m W (i, j) h) ≠ 0 ∧
    ∀ s, W.length < s → s < (indexSet p m).length → coeff (expo m ((indexSet p m).getD s [])) (polyT m W (i, j) h) = 0 := by
  have hg : ∀ j (h : j < (indexSet p m).length), (indexSet p m).getD j [] = (indexSet p m)[j] := fun j h => by
    rw [List.getD_eq_getElem?_getD, List.getElem?_eq_getElem h]; rfl
  have hlm : ∀ j, j < (indexSet p m).length → ((indexSet p m).getD j []).length = m := fun j h => by
    rw [hg j h]; exact ((mem_indexSet p m hm _).1 (List.getElem_mem h)).1
  have hbef : ∀ a b, a < b → b < (indexSet p m).length → Before ((indexSet p m).getD a []) ((indexSet p m).getD b []) := by
    intro a b hab hb
    rw [hg a (by omega), hg b hb]
    exact List.pairwise_iff_getElem.1 (indexSet_sorted p m hm) a b (by omega) hb hab
  have hcoef : ∀ s, W.length ≤ s → s < (indexSet p m).length →
      coeff (expo m ((indexSet p m).getD s [])) (polyT m W (i, j) h) = coeff (expo m ((indexSet p m).getD s [])) (coord m i * W.getD j 0) := by
    intro s hs hs'
    apply coeff_loop
    intro w hw
    obtain ⟨k, hk, rfl⟩ := List.getElem_of_mem hw
    have := (hW k hk).2 s (by omega) hs'
    rwa [List.getD_eq_getElem?_getD (l := W), List.getElem?_eq_getElem hk] at this
  have hco : coord m i = X ⟨i, hi⟩ := by unfold coord; rw [dif_pos hi]
  refine ⟨?_, fun s hs hs' => ?_⟩
  · rw [hcoef _ (le_refl _) hlen, hco, expo_raises hi hR, coeff_X_mul]
    exact (hW j hj).1
  · rw [hcoef s hs.le hs', hco, coeff_X_mul']
    split
    · rename_i hsup
      have hpos : 0 < ((indexSet p m).getD s []).getD i 0 := by
        rw [Finsupp.mem_support_iff] at hsup
        simp only [expo, Finsupp.equivFunOnFinite_symm_apply_apply] at hsup
        exact Nat.pos_of_ne_zero hsup
      -- the index with one less
      obtain ⟨a, hal, haR⟩ : ∃ a : List ℕ, a.length = m ∧ Raises a ((indexSet p m).getD s []) i := by
        refine ⟨((indexSet p m).getD s []).set i (((indexSet p m).getD s []).getD i 0 - 1), by simpa using hlm s hs', fun l => ?_⟩
        by_cases hl : l = i
        · subst hl
          rw [if_pos rfl, List.getD_eq_getElem?_getD (l := List.set _ _ _), List.getElem?_set_self (by rw [hlm s hs']; exact hi)]
          simp only [Option.getD_some]
          omega
        · rw [if_neg hl, List.getD_eq_getElem?_getD (l := List.set _ _ _), List.getElem?_set_ne (by omega), ← List.getD_eq_getElem?_getD, add_zero]
      have hsum := raises_sum (by rw [hal, hlm s hs']) (by rw [hlm s hs']; exact hi) haR
      have hmem : a ∈ indexSet p m := by
        rw [mem_indexSet p m hm]
        refine ⟨hal, ?_⟩
        have := ((mem_indexSet p m hm _).1 (List.getElem_mem hs')).2
        rw [← hg s hs'] at this
        omega
      obtain ⟨u, hu, hau⟩ := List.getElem_of_mem hmem
      have hau' : (indexSet p m).getD u [] = a := by rw [hg u hu]; exact hau
      have hlt : j < u := by
        by_contra hc
        rcases (not_lt.1 hc).eq_or_lt with rfl | hlt
        · -- equal parents give equal indices
          rw [hau'] at hR
          have : (indexSet p m).getD s [] = (indexSet p m).getD W.length [] := by
            apply getD_ext (by rw [hlm s hs', hlm _ hlen])
            intro l
            rw [haR l, hR l]
          have hb := hbef W.length s hs hs'
          rw [this] at hb
          exact before_asymm hb hb
        · have hb := before_raise hi (hlm u hu) (hlm s hs') (hlm j (by omega)) (hlm W.length hlen) (hbef u j hlt (by omega))
            (by rw [hau']; exact haR) hR
          exact before_asymm hb (hbef W.length s hs hs')
      have he := expo_raises hi haR
      rw [he, add_tsub_cancel_left, ← hau']
      exact (hW j hj).2 u hlt hu
    · rfl

/-- The points determine the polynomials of total degree at most `p`: only the zero polynomial vanishes at all of them. -/
def Unisolvent (p m : ℕ) (X : List Vec) : Prop :=
  ∀ g : MvPolynomial (Fin m) ℝ, g.totalDegree ≤ p → (∀ x ∈ X, MvPolynomial.eval (pt m x) g = 0) → g = 0

open MvPolynomial in
theorem lead_polyX {p m : ℕ} (hm : 1 ≤ m) (P : List (ℕ × ℕ)) (R : List (List ℝ)) (hl : R.length = P.length + 1)
    (hP : ∀ k (h : k < P.length), P[k].2 ≤ k ∧ P[k].1 < m ∧ Raises ((indexSet p m).getD P[k].2 []) ((indexSet p m).getD (k + 1) []) P[k].1)
    (hlen : P.length + 1 ≤ (indexSet p m).length) (hb : NoBreakdown R) : Lead p m (polyX m P R) := by
  induction P using List.reverseRecOn generalizing R with
  | nil =>
    have e : (indexSet p m).getD 0 [] = List.replicate m 0 := by simp [indexSet]
    have hexp : expo m (List.replicate m 0) = 0 := by
      ext l; simp [expo]
    intro k hk
    obtain rfl : k = 0 := by simpa [polyX] using hk
    have h0 := hb 0 (by omega)
    simp only [polyX, List.zip_nil_left, List.foldl_nil]
    rw [e, hexp]
    refine ⟨by simpa using h0, fun s hs hs' => ?_⟩
    have hg : (indexSet p m).getD s [] = (indexSet p m)[s] := by
      rw [List.getD_eq_getElem?_getD, List.getElem?_eq_getElem hs']; rfl
    have hbef := List.pairwise_iff_getElem.1 (indexSet_sorted p m hm) 0 s (by omega) hs' hs
    have e0 : (indexSet p m)[0] = List.replicate m 0 := by simp [indexSet]
    have hl1 := ((mem_indexSet p m hm _).1 (List.getElem_mem hs')).1
    have hrep : ∀ l, (List.replicate m 0).getD l 0 = 0 := by
      intro l
      rw [List.getD_eq_getElem?_getD, List.getElem?_replicate]
      split <;> rfl
    have hne : expo m (indexSet p m)[s] ≠ 0 := by
      intro hz
      have : (indexSet p m)[s] = List.replicate m 0 := by
        apply getD_ext (by rw [hl1]; simp)
        intro l
        by_cases hl : l < m
        · have := DFunLike.congr_fun hz (⟨l, hl⟩ : Fin m)
          simp only [expo, Finsupp.equivFunOnFinite_symm_apply_apply, Finsupp.coe_zero, Pi.zero_apply] at this
          rw [this, hrep]
        · rw [List.getD_eq_getElem?_getD, List.getElem?_eq_none (by omega), hrep]; rfl
      rw [e0, this] at hbef
      exact before_asymm hbef hbef
    simp only [List.getD_cons_zero]
    rw [hg, coeff_C, if_neg (fun h => hne h.symm)]
  | append_singleton P ij ih =>
    obtain ⟨R, r, rfl⟩ : ∃ R' r, R = R' ++ [r] := by
      have : R ≠ [] := by intro h'; simp [h'] at hl
      exact ⟨R.dropLast, R.getLast this, (List.dropLast_append_getLast this).symm⟩
    have hl' : R.length = P.length + 1 := by simpa using hl
    obtain ⟨hb1, hb2⟩ := noBreakdown_snoc hb
    have hP' : ∀ k (h : k < P.length), P[k].2 ≤ k ∧ P[k].1 < m ∧ Raises ((indexSet p m).getD P[k].2 []) ((indexSet p m).getD (k + 1) []) P[k].1 := by
      intro k hk
      have := hP k (by simp; omega)
      rwa [List.getElem_append_left hk] at this
    have hlast := hP P.length (by simp)
    rw [show (P ++ [ij])[P.length]'(by simp) = ij by simp] at hlast
    have hlen' : P.length + 1 < (indexSet p m).length := by simp at hlen; omega
    have ih := ih R hl' hP' hlen'.le hb1
    have hWl := polyX_length (m := m) P R hl'
    rw [polyX_snoc hl']
    generalize polyX m P R = W at *
    rw [← hWl] at hlast hlen'
    have hst := lead_step hm ih hlen' hlast.2.1 (by omega) hlast.2.2 r
    intro k hk
    simp only [polyStep, List.length_append, List.length_singleton] at hk ⊢
    by_cases hk' : k < W.length
    · rw [getD_append_left hk']
      exact ih k hk'
    · obtain rfl : k = W.length := by omega
      rw [getD_snoc_last]
      rw [hl', ← hWl] at hb2
      refine ⟨?_, fun s hs hs' => ?_⟩
      · rw [coeff_C_mul]
        exact mul_ne_zero (one_div_ne_zero hb2) hst.1
      · rw [coeff_C_mul]
        have := hst.2 s hs hs'
        unfold polyT at this
        rw [this, mul_zero]

open MvPolynomial in
theorem noBreakdown_of_unisolvent {p m : ℕ} (hm : 1 ≤ m) {X : List Vec} (hX : ∀ x ∈ X, x.length = m) (hu : Unisolvent p m X) {c : ℝ} (hc : 0 < c)
    (P : List (ℕ × ℕ))
    (hP : ∀ k (h : k < P.length), P[k].2 ≤ k ∧ P[k].1 < m ∧ Raises ((indexSet p m).getD P[k].2 []) ((indexSet p m).getD (k + 1) []) P[k].1)
    (hlen : P.length + 1 ≤ (indexSet p m).length) : NoBreakdown (arnoldi c X P).2 := by
  have hs0 : Real.sqrt c ≠ 0 := (Real.sqrt_pos.2 hc).ne'
  have hnorm : ∀ v : Vec, Vec.norm v = 0 → ∀ r, v.getD r 0 = 0 := by
    intro v hv r
    have h0 : Vec.sumSq v = 0 := (Real.sqrt_eq_zero (Vec.sumSq_nonneg v)).1 hv
    clear hv
    induction v generalizing r with
    | nil => simp
    | cons a v ih =>
      rw [Vec.sumSq_cons] at h0
      have h1 := Vec.sumSq_nonneg v
      have ha : a = 0 := by nlinarith [sq_nonneg a]
      have hv : Vec.sumSq v = 0 := by nlinarith [sq_nonneg a]
      rcases r with _ | r
      · simpa using ha
      · simpa using ih r hv
  induction P using List.reverseRecOn with
  | nil =>
    intro k hk
    simp only [arnoldi, List.foldl_nil, finishCol_nil] at hk ⊢
    obtain rfl : k = 0 := by simpa using hk
    simp only [List.getD_cons_zero]
    refine div_ne_zero (fun h => ?_) hs0
    have hne : X ≠ [] := by
      rintro rfl
      have := hu 1 (by simp) (by simp)
      exact one_ne_zero this
    have := hnorm _ h 0
    obtain ⟨x, X, rfl⟩ := List.exists_cons_of_ne_nil hne
    simp [List.replicate_succ] at this
  | append_singleton P ij ih =>
    have hP' : ∀ k (h : k < P.length), P[k].2 ≤ k ∧ P[k].1 < m ∧ Raises ((indexSet p m).getD P[k].2 []) ((indexSet p m).getD (k + 1) []) P[k].1 := by
      intro k hk
      have := hP k (by simp; omega)
      rwa [List.getElem_append_left hk] at this
    have hlast := hP P.length (by simp)
    rw [show (P ++ [ij])[P.length]'(by simp) = ij by simp] at hlast
    have hlen' : P.length + 1 < (indexSet p m).length := by simp at hlen; omega
    have ih := ih hP' hlen'.le
    have hPo : PlanOk P := fun k hk => (hP' k hk).1
    obtain ⟨i1, i2, i3, i4⟩ := arnoldi_shape c X P hPo
    have hq : (Vec.mul (X.map (fun x => x.getD ij.1 0)) ((arnoldi c X P).1.getD ij.2 [])).length = X.length := by
      rw [Vec.length_mul, getD_length_of i3 (by omega)]; simp
    obtain ⟨m1, m2, m3⟩ := mgs_spec c (arnoldi c X P).1 _ i3 hq
    have hlead := lead_polyX hm P (arnoldi c X P).2 i2 hP' hlen'.le ih
    have hWl := polyX_length (m := m) P (arnoldi c X P).2 i2
    rw [arnoldi_snoc]
    intro k hk
    simp only [colStep, finishCol] at hk ⊢
    by_cases hk' : k < (arnoldi c X P).2.length
    · rw [getD_append_left hk']
      exact ih k hk'
    · obtain rfl : k = (arnoldi c X P).2.length := by simp only [List.length_append, List.length_singleton] at hk; omega
      rw [getD_snoc_last, i2, ← i1, ← m1, getD_snoc_last]
      refine div_ne_zero (fun h => ?_) hs0
      have hz := hnorm _ h
      have hst := lead_step hm hlead (by omega) (i := ij.1) (j := ij.2) hlast.2.1 (by omega) (by rw [hWl]; exact hlast.2.2)
        (mgs c (arnoldi c X P).1 (Vec.mul (X.map (fun x => x.getD ij.1 0)) ((arnoldi c X P).1.getD ij.2 []))).1
      apply hst.1
      have hT : polyT m (polyX m P (arnoldi c X P).2) (ij.1, ij.2)
          (mgs c (arnoldi c X P).1 (Vec.mul (X.map (fun x => x.getD ij.1 0)) ((arnoldi c X P).1.getD ij.2 []))).1 = 0 := by
        apply hu
        · -- the degree: scale a list one longer
          have hd := polyX_degree (m := m) (fun k => ((indexSet p m).getD k []).sum) (P ++ [ij])
            ((arnoldi c X P).2 ++ [(mgs c (arnoldi c X P).1 (Vec.mul (X.map (fun x => x.getD ij.1 0)) ((arnoldi c X P).1.getD ij.2 []))).1 ++ [1]])
            (by simp [i2]) (fun k hk => by
              obtain ⟨a1, a2, a3⟩ := hP k hk
              refine ⟨a1, ?_⟩
              have hkl : k + 1 < (indexSet p m).length := by simp at hk; omega
              have hg : ∀ j (h : j < (indexSet p m).length), ((indexSet p m).getD j []).length = m := fun j h => by
                rw [List.getD_eq_getElem?_getD, List.getElem?_eq_getElem h]
                exact ((mem_indexSet p m hm _).1 (List.getElem_mem h)).1
              exact (raises_sum (by rw [hg _ hkl, hg ((P ++ [ij])[k].2) (by omega)]) (by rw [hg _ hkl]; exact a2) a3).symm.le)
            (fun a b hab hb => graded_getD p m hm hab (by simp at hb; omega)) (P.length + 1) (by simp)
          rw [polyX_snoc i2] at hd
          simp only [polyStep] at hd
          rw [← hWl, getD_snoc_last, hWl, ← i1, ← m1, getD_snoc_last] at hd
          simp only [div_one, C_1, one_mul] at hd
          have hz2 : ∀ (h : List ℝ) (W : List (MvPolynomial (Fin m) ℝ)), h.length = W.length → List.zip (h ++ [1]) W = List.zip h W := by
            intro h W hl
            have := List.zip_append hl (r₁ := [(1 : ℝ)]) (r₂ := ([] : List (MvPolynomial (Fin m) ℝ)))
            simpa using this
          rw [hz2 _ _ (by rw [m1, i1, hWl])] at hd
          unfold polyT
          refine hd.trans ?_
          rw [m1, i1]
          rw [List.getD_eq_getElem?_getD, List.getElem?_eq_getElem hlen']
          exact ((mem_indexSet p m hm _).1 (List.getElem_mem hlen')).2
        · intro x hx
          obtain ⟨r, hr, rfl⟩ := List.getElem_of_mem hx
          have hxl := hX _ hx
          have hloop : ∀ (h : List ℝ) (W : List (MvPolynomial (Fin m) ℝ)) (w : MvPolynomial (Fin m) ℝ),
              eval (pt m X[r]) ((List.zip h W).foldl (fun w p => w - C p.1 * p.2) w) = subLoop h (W.map (eval (pt m X[r]))) (eval (pt m X[r]) w) := by
            intro h
            induction h with
            | nil => intro W w; simp [subLoop]
            | cons a h ih =>
              intro W w
              cases W with
              | nil => simp [subLoop]
              | cons b W =>
                rw [List.zip_cons_cons, List.foldl_cons, ih]
                simp [subLoop]
          unfold polyT
          rw [hloop, polyX_eval _ _ hxl, arnoldi_eval c X P hPo r hr, map_mul, eval_coord hxl, eval_point hPo hX hr]
          have e1 := m3 r
          rw [hz r, mul_getD (by rw [getD_length_of i3 (by omega)]; simp)] at e1
          have : (X.map (fun x => x.getD ij.1 0)).getD r 0 = X[r].getD ij.1 0 := by
            simp [List.getD_eq_getElem?_getD, List.getElem?_map, hr]
          rw [this] at e1
          exact e1.symm
      rw [hT]
      simp

/-- **C29**: the construction divides by zero exactly if some nonzero polynomial of total degree at most `p` vanishes at all the
points. -/
theorem arnoldi_breakdown_iff {p m : ℕ} (hm : 1 ≤ m) {X Q : List Vec} {R : List (List ℝ)} (hX : ∀ x ∈ X, x.length = m) (hne : X ≠ [])
    (h : arnoldiBasis p m X = some (Q, R) ∨ vandermondeArnoldi X p m = some (Q, R)) : NoBreakdown R ↔ Unisolvent p m X := by
  obtain ⟨P, h1, h2, h3⟩ := plan_ok p m hm
  have hPR : ∀ k (h : k < P.length), P[k].2 ≤ k ∧ P[k].1 < m ∧ Raises ((indexSet p m).getD P[k].2 []) ((indexSet p m).getD (k + 1) []) P[k].1 := by
    intro k hkP
    obtain ⟨i, j, hu, hj, hi, hR⟩ := updateVec_parent p m hm (k + 1) (by omega) (by omega)
    have hPk : P[k] = (i, j) := by
      obtain ⟨P', g1, g2, g3⟩ := mapM_some (updateVec (indexSet p m)) (indexSet p m).tail (fun a ha => by
        obtain ⟨k, hk, rfl⟩ := List.getElem_of_mem ha
        have hk' := hk
        rw [List.length_tail] at hk'
        obtain ⟨i, j, h, -⟩ := updateVec_parent p m hm (k + 1) (by omega) (by omega)
        exact ⟨(i, j), by simpa using h⟩)
      obtain rfl : P' = P := by
        have := h1
        unfold plan at this
        rw [g1] at this
        exact Option.some.inj this
      have := g3 k (by rw [List.length_tail]; omega) hkP
      rw [List.getElem_tail, hu] at this
      exact (Option.some.inj this).symm
    rw [hPk]
    refine ⟨by simp only; omega, hi, ?_⟩
    rw [List.getD_eq_getElem?_getD (i := k + 1), List.getElem?_eq_getElem (by omega : k + 1 < _)]
    exact hR
  have hP : PlanOk P := fun k hk => (h3 k hk).1
  have key : ∃ c : ℝ, 0 < c ∧ (arnoldi c X P).2 = R := by
    unfold arnoldiBasis vandermondeArnoldi at h
    rw [planPrefix_eq p m hm, h1, Option.map_some, Option.map_some] at h
    rcases h with h | h
    · exact ⟨1, one_pos, congrArg Prod.snd (Option.some.inj h)⟩
    · exact ⟨X.length, by exact_mod_cast List.length_pos_of_ne_nil hne, congrArg Prod.snd (Option.some.inj h)⟩
  obtain ⟨c, hc, rfl⟩ := key
  constructor
  · intro hb g hg hz
    obtain ⟨d, -, rfl⟩ := (span_all hc hm h1 hX hb g).1 hg
    have hd : ∀ k : Fin (P.length + 1), d.getD k 0 = 0 := by
      refine coef_zero hc hP hb (fun k => d.getD k 0) (fun r hr => ?_)
      have := hz X[r] (List.getElem_mem hr)
      rw [map_sum] at this
      refine Eq.trans (Finset.sum_congr rfl (fun k _ => ?_)) this
      rw [MvPolynomial.smul_eval, eval_point hP hX hr]
    apply Finset.sum_eq_zero
    intro k _
    rw [hd k, zero_smul]
  · intro hu
    exact noBreakdown_of_unisolvent hm hX hu hc P hPR (by omega)

end Verif.Basis

namespace Verif.Basis

open Verif

/-! ## The hypotheses are met -/

open MvPolynomial in
/-- Two points on the line determine the polynomials of degree one. -/
theorem unisolvent_example : Unisolvent 1 1 [[0], [1]] := by
  intro g hg hz
  have h0 := hz [0] (by simp)
  have h1 := hz [1] (by simp)
  have hform : g = C (coeff 0 g) + C (coeff (Finsupp.single 0 1) g) * X 0 := by
    ext s
    rw [coeff_add, coeff_C, coeff_C_mul, coeff_X']
    have hs : s = Finsupp.single 0 (s 0) := by
      refine Finsupp.ext (fun i => ?_); rw [Subsingleton.elim i 0]; simp
    generalize s 0 = n at hs
    subst hs
    rcases n with _ | _ | n
    · simp
    · have : (0 : Fin 1 →₀ ℕ) ≠ Finsupp.single 0 1 := fun h => by
        have := DFunLike.congr_fun h 0
        simp at this
      simp [this]
    · have : coeff (Finsupp.single (0 : Fin 1) (n + 1 + 1)) g = 0 := by
        apply coeff_eq_zero_of_totalDegree_lt
        refine lt_of_le_of_lt hg ?_
        rw [Finsupp.support_single_ne_zero _ (by omega)]
        simp
      rw [this]
      have e1 : ¬ ((0 : Fin 1 →₀ ℕ) = Finsupp.single 0 (n + 1 + 1)) := fun h => by
        have := DFunLike.congr_fun h 0
        simp at this
      have e2 : ¬ (Finsupp.single (0 : Fin 1) 1 = Finsupp.single 0 (n + 1 + 1)) := fun h => by
        have := DFunLike.congr_fun h 0
        simp at this
      rw [if_neg e1, if_neg e2]; simp
  rw [hform] at h0 h1 ⊢
  simp [pt] at h0 h1
  rw [h0] at h1 ⊢
  simp at h1
  rw [h1]; simp

example : ∃ Q R, arnoldiBasis 1 1 [[0], [1]] = some (Q, R) ∧ NoBreakdown R := by
  obtain ⟨⟨Q, R⟩, h⟩ := Option.isSome_iff_exists.1 (arnoldiBasis_total 1 1 (le_refl _) [[0], [1]]).1
  exact ⟨Q, R, h, (arnoldi_breakdown_iff (le_refl _) (by simp) (by simp) (Or.inl h)).2 unisolvent_example⟩

/-- The construction at the points `0, 1, 3` of the line with degree one: it does not break down. -/
theorem arnoldi_line_example : ∃ Q R P, arnoldiBasis 1 1 [[0], [1], [3]] = some (Q, R) ∧ NoBreakdown R ∧ plan (indexSet 1 1) = some P := by
  obtain ⟨⟨Q, R⟩, h⟩ := Option.isSome_iff_exists.1 (arnoldiBasis_total 1 1 (le_refl _) [[0], [1], [3]]).1
  obtain ⟨P, hP, -⟩ := plan_ok 1 1 (le_refl _)
  refine ⟨Q, R, P, h, (arnoldi_breakdown_iff (le_refl _) (by simp) (by simp) (Or.inl h)).2 fun g hg hz => ?_, hP⟩
  exact unisolvent_example g hg fun x hx => hz x (by
    rcases List.mem_cons.1 hx with rfl | hx
    · simp
    · rcases List.mem_cons.1 hx with rfl | hx
      · simp
      · cases hx)

/-- `arnoldi_orthonormal`, `arnoldi_consistent` and `arnoldi_span` apply to it. -/
example : ∃ Q R P, arnoldiBasis 1 1 [[0], [1], [3]] = some (Q, R) ∧ Q.length = 2 ∧ Vec.dot (Q.getD 0 []) (Q.getD 1 []) = 0 ∧
    evalX P R [3] = Q.map (fun q => q.getD 2 0) ∧
    ∃ d : Vec, ∀ x : Vec, x.length = 1 → MvPolynomial.eval (pt 1 x) (MvPolynomial.X 0) = Vec.dot d (evalX P R x) := by
  obtain ⟨Q, R, P, h, hb, hP⟩ := arnoldi_line_example
  have h1 := arnoldi_orthonormal (le_refl _) h hb
  have hlen : Q.length = 2 := by rw [h1.1, indexSet_length 1 1 (le_refl _)]; decide
  obtain ⟨d, -, hd⟩ := (arnoldi_span (le_refl _) hP (by simp) (by simp) (Or.inl h) hb).1 (MvPolynomial.X 0) (MvPolynomial.totalDegree_X _).le
  exact ⟨Q, R, P, h, hlen, by rw [h1.2.2.1 0 1 (by omega) (by omega)]; rfl,
    arnoldi_consistent (le_refl _) hP (Or.inl h) 2 (by decide), d, hd⟩

/-- `arnoldi_DV_deriv` for the basis `1, (x - 1) / 2`. -/
example : HasDerivAt (fun t => (evalX [(0, 0)] [[1], [1, 2]] [t]).getD 1 0) ((evalDV [(0, 0)] [[1], [1, 2]] [5] 0).getD 1 0) 5 :=
  arnoldi_DV_deriv [(0, 0)] [[1], [1, 2]] rfl (by intro k hk; simp at hk; subst hk; simp) (by
    intro k hk
    match k, hk with
    | 0, _ => rfl
    | 1, _ => rfl) [5] 0 (by decide) 1 (by decide)

/-- The hypotheses of `polyfitA_best` are met by data that the polynomials of degree one can match. -/
example : ∃ (Q : List Vec) (H : List (List ℝ)) (fX : Vec), vandermondeArnoldi [[0], [1], [3]] 1 1 = some (Q, H) ∧ NoBreakdown H ∧
    IsLstsq 3 Q fX [1, 2] := by
  obtain ⟨⟨Q, H⟩, h⟩ := Option.isSome_iff_exists.1 (arnoldiBasis_total 1 1 (le_refl _) [[0], [1], [3]]).2
  obtain ⟨Q', R', P, h', hb', -⟩ := arnoldi_line_example
  have hb : NoBreakdown H := (arnoldi_breakdown_iff (le_refl _) (by simp) (by simp) (Or.inr h)).2
    ((arnoldi_breakdown_iff (le_refl _) (by simp) (by simp) (Or.inl h')).1 hb')
  have hlen : Q.length = 2 := by
    obtain ⟨P, h1, h2, h3⟩ := plan_ok 1 1 (le_refl _)
    unfold vandermondeArnoldi at h
    rw [planPrefix_eq 1 1 (le_refl _), h1, Option.map_some] at h
    have s1 := (arnoldi_shape (([[0], [1], [3]] : List Vec).length : ℝ) [[0], [1], [3]] P (fun k hk => (h3 k hk).1)).1
    rw [Option.some.inj h] at s1
    rw [s1, h2, indexSet_length 1 1 (le_refl _)]; decide
  refine ⟨Q, H, (List.range 3).map (fun r => Vec.dot [1, 2] (Q.map (fun q => q.getD r 0))), h, hb, hlen.symm, fun d' hd' => ?_⟩
  refine le_trans (le_of_eq ?_) (Vec.sumSq_nonneg _)
  simp [List.range, List.range.loop, Vec.sub, Vec.sumSq]

end Verif.Basis
