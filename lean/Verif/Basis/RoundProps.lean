import Verif.Basis.RoundModel
import Verif.Domain.RoundNorm
import Mathlib.Data.List.Forall2
import Mathlib.Data.List.Perm.Basic

/-!
# Polynomials of the monomial basis in rounded arithmetic: backward stability
-/

namespace Verif.Round

open Verif Verif.Domain

variable {F : FP} {lib : Lib}

/-! ## Specification -/

/-- The value of a monomial: the product of the `x_k ^ alpha_k`. -/
noncomputable def monomialVal (alpha : List ℕ) (x : Vec) : ℝ := ((alpha.zip x).map fun p => p.2 ^ p.1).prod

/-- The value of a polynomial with the given coefficients. -/
noncomputable def polyVal (idx : List (List ℕ)) (c x : Vec) : ℝ := ((idx.zip c).map fun p => p.2 * monomialVal p.1 x).sum

/-- The coefficients `c'` agree with `c` up to a relative error of `k` roundings. -/
def NearCoef (F : FP) (k : ℕ) (c c' : Vec) : Prop := List.Forall₂ (fun a b => |b - a| ≤ ((1 + F.u) ^ k - 1) * |a|) c c'

/-! ## Relative errors as factors -/

theorem rd_factor (t : ℝ) : ∃ δ, |δ| ≤ F.u ∧ F.rd t = (1 + δ) * t := by
  by_cases h : t = 0
  · exact ⟨0, by simpa using F.u_nonneg, by simp [h, rd_zero]⟩
  · refine ⟨(F.rd t - t) / t, ?_, by field_simp; ring⟩
    rw [abs_div, div_le_iff₀ (abs_pos.2 h)]
    exact F.err t

theorem rel_weaken {v w : ℝ} {j k : ℕ} (hjk : j ≤ k) (h : |v - w| ≤ ((1 + F.u) ^ j - 1) * |w|) : |v - w| ≤ ((1 + F.u) ^ k - 1) * |w| :=
  h.trans (mul_le_mul_of_nonneg_right (sub_le_sub_right (pow_u_mono hjk) 1) (abs_nonneg _))

/-- A pair with its second entry perturbed. -/
def Pert (F : FP) (k : ℕ) (p q : ℝ × ℝ) : Prop := q.1 = p.1 ∧ |q.2 - p.2| ≤ ((1 + F.u) ^ k - 1) * |p.2|

theorem Pert.weaken {j k : ℕ} (h : j ≤ k) {l l' : List (ℝ × ℝ)} (hl : List.Forall₂ (Pert F j) l l') : List.Forall₂ (Pert F k) l l' :=
  hl.imp fun _ _ hp => ⟨hp.1, rel_weaken h hp.2⟩

theorem Pert.scale {k : ℕ} {δ : ℝ} (hδ : |δ| ≤ F.u) {l l' : List (ℝ × ℝ)} (hl : List.Forall₂ (Pert F k) l l') :
    List.Forall₂ (Pert F (k + 1)) l (l'.map fun q => (q.1, (1 + δ) * q.2)) := by
  rw [List.forall₂_map_right_iff]
  refine hl.imp fun p q hp => ⟨hp.1, ?_⟩
  have := rel_mul (F := F) (v := q.2) (w := p.2) (c := 1 + δ) (d := 1) (j := k) (k := 1) hp.2 (by simpa using hδ)
  rw [one_mul, add_comm 1 k] at this
  exact this

theorem exactSum_scale (δ : ℝ) (l : List (ℝ × ℝ)) : exactSum (l.map fun q => (q.1, (1 + δ) * q.2)) = (1 + δ) * exactSum l := by
  simp only [exactSum, List.map_map]
  rw [← List.sum_map_mul_left]
  congr 1
  apply List.map_congr_left
  intro q _
  simp only [Function.comp]
  ring

/-- The computed inner product is the exact inner product with a perturbed vector. -/
theorem DotTree.backward (t : DotTree) : ∃ l, List.Forall₂ (Pert F t.terms.length) t.terms l ∧ t.eval F = exactSum l := by
  induction t with
  | term a x =>
    obtain ⟨δ, hδ, e⟩ := rd_factor (F := F) (a * x)
    refine ⟨[(a, (1 + δ) * x)], ?_, ?_⟩
    · simp only [terms, List.forall₂_cons, List.length_cons, List.length_nil, List.Forall₂.nil, and_true, Pert, true_and]
      rw [show (1 + δ) * x - x = δ * x by ring, abs_mul]
      simpa using mul_le_mul_of_nonneg_right hδ (abs_nonneg x)
    · simp only [eval, e, exactSum, List.map_cons, List.map_nil, List.sum_cons, List.sum_nil]
      ring
  | add l r hl hr =>
    obtain ⟨l1, p1, e1⟩ := hl
    obtain ⟨l2, p2, e2⟩ := hr
    obtain ⟨δ, hδ, e⟩ := rd_factor (F := F) (l.eval F + r.eval F)
    have nl := DotTree.terms_ne l
    have nr := DotTree.terms_ne r
    refine ⟨(l1 ++ l2).map fun q => (q.1, (1 + δ) * q.2), ?_, ?_⟩
    · have h := Pert.scale hδ (List.rel_append (Pert.weaken (k := l.terms.length + r.terms.length - 1) (by omega) p1) (Pert.weaken (by omega) p2))
      rw [Nat.sub_add_cancel (by omega)] at h
      simpa only [terms, List.length_append] using h
    · rw [eval, e, e1, e2, exactSum_scale]
      simp [exactSum]
  | fma l a x hl =>
    obtain ⟨l1, p1, e1⟩ := hl
    obtain ⟨δ, hδ, e⟩ := rd_factor (F := F) (l.eval F + a * x)
    have nl := DotTree.terms_ne l
    refine ⟨(l1 ++ [(a, x)]).map fun q => (q.1, (1 + δ) * q.2), ?_, ?_⟩
    · have h0 : List.Forall₂ (Pert F l.terms.length) [(a, x)] [(a, x)] := by
        simp only [List.forall₂_cons, List.Forall₂.nil, and_true, Pert, true_and, sub_self, abs_zero]
        exact mul_nonneg (sub_nonneg.2 (one_le_pow_u _)) (abs_nonneg _)
      have h := Pert.scale hδ (List.rel_append p1 h0)
      simpa only [terms, List.length_append, List.length_cons, List.length_nil, zero_add] using h
    · rw [eval, e, e1, exactSum_scale]
      simp [exactSum]

/-- **Backward stability of an inner product**, whatever the order of summation. -/
theorem Computes.backward {a x : Vec} {v : ℝ} (h : Computes F a x v) : ∃ l, List.Forall₂ (Pert F (a.zip x).length) (a.zip x) l ∧ v = exactSum l := by
  rcases h with ⟨h0, rfl⟩ | ⟨t, ht, rfl⟩
  · exact ⟨[], by simp [h0], by simp [exactSum]⟩
  · obtain ⟨l, hl, e⟩ := t.backward (F := F)
    rw [ht.length_eq] at hl
    obtain ⟨l', hl', hp⟩ := List.perm_comp_forall₂ ht.symm hl
    exact ⟨l', hl', by rw [e]; exact (hp.map _).sum_eq.symm⟩

/-! ## Monomials -/

theorem powF_rel (n : ℕ) (x : ℝ) : |powF F n x - x ^ n| ≤ ((1 + F.u) ^ n - 1) * |x ^ n| := by
  have h0 : ∀ w : ℝ, |w - w| ≤ ((1 + F.u) ^ 0 - 1) * |w| := by simp
  match n with
  | 0 => simp [powF]
  | 1 => simpa [powF] using mul_nonneg F.u_nonneg (abs_nonneg x)
  | n + 2 =>
    have ih := powF_rel (n + 1) x
    have := rel_step (rel_mul (h0 x) ih)
    rw [powF, pow_succ x (n + 1)]
    simpa using this

theorem colF_loop (l : List (ℕ × ℝ)) : ∀ (acc w : ℝ) (k : ℕ), |acc - w| ≤ ((1 + F.u) ^ k - 1) * |w| →
    |l.foldl (fun acc q => F.rd (acc * powF F q.1 q.2)) acc - w * (l.map fun p => p.2 ^ p.1).prod| ≤
      ((1 + F.u) ^ (k + (l.map Prod.fst).sum + l.length) - 1) * |w * (l.map fun p => p.2 ^ p.1).prod| := by
  induction l with
  | nil => intro acc w k h; simpa using h
  | cons q l ih =>
    intro acc w k h
    have := ih _ _ _ (rel_step (rel_mul (powF_rel (F := F) q.1 q.2) h))
    rw [List.foldl_cons, List.map_cons, List.prod_cons, ← mul_assoc]
    rw [show k + (List.map Prod.fst (q :: l)).sum + (q :: l).length = k + q.1 + 1 + (l.map Prod.fst).sum + l.length by simp; ring]
    exact this

theorem zip_fst_sum (alpha : List ℕ) (x : Vec) : ((alpha.zip x).map Prod.fst).sum ≤ alpha.sum := by
  induction alpha generalizing x with
  | nil => simp
  | cons a as ih =>
    cases x with
    | nil => simp
    | cons t x => simpa using ih x

/-- **Accuracy of the monomial Vandermonde matrix**: every entry has a small relative error. -/
theorem colF_rel (alpha : List ℕ) (x : Vec) {d : ℕ} (hd : alpha.sum ≤ d) :
    |colF F (powF F) x alpha - monomialVal alpha x| ≤ ((1 + F.u) ^ (d + x.length) - 1) * |monomialVal alpha x| := by
  have := colF_loop (F := F) (alpha.zip x) 1 1 0 (by simp)
  rw [one_mul] at this
  refine rel_weaken ?_ this
  have := zip_fst_sum alpha x
  rw [List.length_zip]
  omega

/-- Moving the errors of the matrix entries into the coefficients. -/
theorem polyVal_of_pert {d : ℕ} {x : Vec} {k : ℕ} : ∀ (idx : List (List ℕ)) (c : Vec) (l : List (ℝ × ℝ)), (∀ alpha ∈ idx, alpha.sum ≤ d) → idx.length = c.length →
    List.Forall₂ (Pert F k) ((rowF F (powF F) idx x).zip c) l → ∃ c', NearCoef F (d + x.length + k) c c' ∧ exactSum l = polyVal idx c' x
  | [], [], l, _, _, h => by
    simp only [rowF, List.map_nil, List.zip_nil_left, List.forall₂_nil_left_iff] at h
    exact ⟨[], List.Forall₂.nil, by simp [h, exactSum, polyVal]⟩
  | [], _ :: _, _, _, h, _ => by simp at h
  | _ :: _, [], _, _, h, _ => by simp at h
  | alpha :: idx, a :: c, l, hd, hl, h => by
    simp only [rowF, List.map_cons, List.zip_cons_cons, List.forall₂_cons_left_iff] at h
    obtain ⟨q, l', hq, hl', rfl⟩ := h
    obtain ⟨c', hc', e⟩ := polyVal_of_pert idx c l' (fun b hb => hd b (by simp [hb])) (by simpa using hl) hl'
    have hr := colF_rel (F := F) alpha x (hd alpha (by simp))
    have key : ∃ b, |b - a| ≤ ((1 + F.u) ^ (d + x.length + k) - 1) * |a| ∧ colF F (powF F) x alpha * q.2 = b * monomialVal alpha x := by
      by_cases hm : monomialVal alpha x = 0
      · rw [hm] at hr
        have h0 : colF F (powF F) x alpha = 0 := by simpa using hr
        refine ⟨a, ?_, by rw [hm, h0]; ring⟩
        rw [sub_self, abs_zero]
        exact mul_nonneg (sub_nonneg.2 (one_le_pow_u _)) (abs_nonneg _)
      · refine ⟨colF F (powF F) x alpha / monomialVal alpha x * q.2, ?_, by field_simp⟩
        have h1 : |colF F (powF F) x alpha / monomialVal alpha x - 1| ≤ ((1 + F.u) ^ (d + x.length) - 1) * |1| := by
          rw [show colF F (powF F) x alpha / monomialVal alpha x - 1 = (colF F (powF F) x alpha - monomialVal alpha x) / monomialVal alpha x by field_simp,
            abs_div, div_le_iff₀ (abs_pos.2 hm), abs_one, mul_one]
          exact hr
        have := rel_mul (F := F) hq.2 h1
        rwa [one_mul] at this
    obtain ⟨b, hb, eb⟩ := key
    refine ⟨b :: c', List.Forall₂.cons hb hc', ?_⟩
    simp only [exactSum, polyVal, List.map_cons, List.sum_cons, List.zip_cons_cons] at e ⊢
    rw [e, hq.1, eb]

/-- **Evaluation of a polynomial is backward stable**: the computed value is the exact value, at the same point, of a polynomial whose coefficients agree with the given
ones up to `degree + dimension + number of terms` roundings. -/
theorem evalF_backward (hlib : lib.Ok F) {idx : List (List ℕ)} {x c : Vec} {d : ℕ} (hd : ∀ alpha ∈ idx, alpha.sum ≤ d) (hl : idx.length = c.length) :
    ∃ c', NearCoef F (d + x.length + c.length) c c' ∧ evalF F lib (powF F) idx x c = [polyVal idx c' x] := by
  have h := hlib.mv [rowF F (powF F) idx x] c
  rw [List.forall₂_cons_left_iff] at h
  obtain ⟨v, w, hv, hw, e⟩ := h
  rw [List.forall₂_nil_left_iff] at hw
  subst hw
  obtain ⟨l, p, rfl⟩ := hv.backward
  have hlen : ((rowF F (powF F) idx x).zip c).length = c.length := by simp [rowF, hl]
  rw [hlen] at p
  obtain ⟨c', hc, e'⟩ := polyVal_of_pert idx c l hd hl p
  exact ⟨c', hc, by rw [evalF, e, e']⟩

/-! ## The product without the matrix -/

theorem vcF_float (l : List (List ℕ × Vec)) (φ : ℕ → ℝ → ℝ) (x : Vec) (k : ℕ) : ∀ out, F.rd out = out →
    l.foldl (fun out q => F.rd (out + F.rd (q.2.getD k 0 * colF F φ x q.1))) out =
      (open Classical in l.foldl (fun out q => if Basis.anyNonzero q.2 then F.rd (out + F.rd (q.2.getD k 0 * colF F φ x q.1)) else out) out) := by
  induction l with
  | nil => intro out _; rfl
  | cons q l ih =>
    intro out h
    rw [List.foldl_cons, List.foldl_cons]
    by_cases hq : Basis.anyNonzero q.2
    · rw [if_pos hq]
      exact ih _ (F.idem _)
    · rw [if_neg hq]
      have h0 : q.2.getD k 0 = 0 := by
        by_contra hne
        apply hq
        refine ⟨q.2.getD k 0, ?_, hne⟩
        have hk : k < q.2.length := by
          by_contra hk
          exact hne (by simp [Nat.le_of_not_lt hk])
        simp [hk]
      rw [h0, zero_mul, rd_zero, add_zero, h]
      exact ih _ h

theorem seq_computes (a x : Vec) : Computes F a x ((a.zip x).foldl (fun out q => F.rd (out + F.rd (q.2 * q.1))) 0) := by
  have key : ∀ (l : List (ℝ × ℝ)) (t : DotTree), l.foldl (fun out q => F.rd (out + F.rd (q.2 * q.1))) (t.eval F) =
      (l.foldl (fun t q => DotTree.add t (.term q.1 q.2)) t).eval F := by
    intro l
    induction l with
    | nil => intro t; rfl
    | cons q l ih =>
      intro t
      rw [List.foldl_cons, List.foldl_cons, ← ih]
      simp only [DotTree.eval, mul_comm]
  cases e : a.zip x with
  | nil => exact Or.inl ⟨e, rfl⟩
  | cons q l =>
    refine Or.inr ⟨l.foldl (fun t q => DotTree.add t (.term q.1 q.2)) (.term q.1 q.2), ?_, ?_⟩
    · rw [foldl_terms, e]
      rfl
    · rw [← key, List.foldl_cons, zero_add, F.idem]
      simp only [DotTree.eval, mul_comm]

/-- **The product without the matrix** is backward stable too, for every column. -/
theorem vcF_backward {idx : List (List ℕ)} {x : Vec} {cs : List Vec} {d : ℕ} (hd : ∀ alpha ∈ idx, alpha.sum ≤ d) (hl : idx.length = cs.length) (k : ℕ) :
    ∃ c', NearCoef F (d + x.length + cs.length) (cs.map fun r => r.getD k 0) c' ∧ vcF F (powF F) idx x cs k = polyVal idx c' x := by
  have e : vcF F (powF F) idx x cs k = ((rowF F (powF F) idx x).zip (cs.map fun r => r.getD k 0)).foldl (fun out q => F.rd (out + F.rd (q.2 * q.1))) 0 := by
    rw [vcF, ← vcF_float _ _ _ _ _ rd_zero, rowF, List.zip_map, List.foldl_map]
    rfl
  obtain ⟨l, p, hv⟩ := (seq_computes (F := F) (rowF F (powF F) idx x) (cs.map fun r => r.getD k 0)).backward
  have hlen : ((rowF F (powF F) idx x).zip (cs.map fun r => r.getD k 0)).length = cs.length := by simp [rowF, hl]
  rw [hlen] at p
  obtain ⟨c', hc, e'⟩ := polyVal_of_pert idx _ l hd (by simpa using hl) p
  exact ⟨c', hc, by rw [e, hv, e']⟩

/-! ## Scaling -/

/-- **Points between the bounds are scaled into `[-1, 1]`**, exactly, in every format in which doubling is exact and which contains `1` and `-1`; the bounds become the
ends. -/
theorem scaleF_mem (h2 : ∀ t, F.Float t → F.Float (2 * t)) (h1 : F.Float 1) (h1' : F.Float (-1)) {l h x : ℝ} (hlh : l < h) (hl : l ≤ x) (hh : x ≤ h) :
    -1 ≤ scaleF F l h x ∧ scaleF F l h x ≤ 1 ∧ scaleF F l h l = -1 ∧ scaleF F l h h = 1 := by
  have hw : 0 < F.rd (h - l) := lt_of_le_of_ne (rd_nonneg (by linarith)) (Ne.symm (rd_ne_zero (by linarith)))
  have e2 : F.rd 2 = 2 := by
    have := h2 1 h1
    rwa [mul_one] at this
  have e1 : F.rd 1 = 1 := h1
  have e1' : F.rd (-1) = -1 := h1'
  have dbl : ∀ y, F.rd (2 * F.rd (y - l)) = 2 * F.rd (y - l) := fun y => h2 _ (F.idem _)
  have a0 : 0 ≤ F.rd (x - l) := rd_nonneg (by linarith)
  have a1 : F.rd (x - l) ≤ F.rd (h - l) := F.mono (by linarith)
  have q0 : 0 ≤ F.rd (2 * F.rd (x - l) / F.rd (h - l)) := rd_nonneg (by positivity)
  have q1 : F.rd (2 * F.rd (x - l) / F.rd (h - l)) ≤ 2 := by
    refine (F.mono (show 2 * F.rd (x - l) / F.rd (h - l) ≤ 2 by rw [div_le_iff₀ hw]; linarith)).trans e2.le
  refine ⟨?_, ?_, ?_, ?_⟩
  · rw [scaleF, dbl]
    calc (-1 : ℝ) = F.rd (-1) := e1'.symm
      _ ≤ _ := F.mono (by linarith)
  · rw [scaleF, dbl]
    calc _ ≤ F.rd 1 := F.mono (by linarith)
      _ = 1 := e1
  · simp [scaleF, rd_zero, e1']
  · rw [scaleF, dbl, mul_div_assoc, div_self hw.ne', mul_one, e2]
    norm_num [e1]

/-- Double precision is such a format. -/
theorem double_scale : (∀ t, double.Float t → double.Float (2 * t)) ∧ double.Float 1 ∧ double.Float (-1) := by
  refine ⟨?_, ?_, ?_⟩
  · intro t ht
    obtain ⟨k, e, hk, h⟩ := rdBin_form nearest (show 1 ≤ 53 by norm_num) t
    have ht' : t = (k : ℝ) * 2 ^ e := by rw [← h]; exact ht.symm
    have := double_fix k (e + 1) hk
    rw [zpow_add_one₀ (by norm_num : (2 : ℝ) ≠ 0), ← mul_assoc, mul_comm _ (2 : ℝ), ← ht'] at this
    exact this
  · change double.rd 1 = 1
    simpa using double_int 1 (by norm_num)
  · change double.rd (-1) = -1
    simpa using double_int (-1) (by norm_num)

/-! ## The hypotheses can be met -/

/-- A quadratic polynomial in two variables, in double precision. -/
example : ∃ c', NearCoef double (2 + 2 + 3) [1, -3, 5] c' ∧
    evalF double (seqLib double) (powF double) [[0, 0], [1, 0], [1, 1]] [3, 7] [1, -3, 5] = [polyVal [[0, 0], [1, 0], [1, 1]] c' [3, 7]] :=
  evalF_backward (seqLib_ok double) (idx := [[0, 0], [1, 0], [1, 1]]) (x := [3, 7]) (c := [1, -3, 5]) (d := 2) (by decide) rfl

example : polyVal [[0, 0], [1, 0], [1, 1]] [1, -3, 5] [3, 7] = 97 := by norm_num [polyVal, monomialVal]

example : -1 ≤ scaleF double 1 4 2 ∧ scaleF double 1 4 2 ≤ 1 :=
  have h := scaleF_mem double_scale.1 double_scale.2.1 double_scale.2.2 (l := 1) (h := 4) (x := 2) (by norm_num) (by norm_num) (by norm_num)
  ⟨h.1, h.2.1⟩

end Verif.Round
