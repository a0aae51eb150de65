import Verif.Domain.RoundModel
import Verif.Domain.Exact
import Mathlib.Algebra.BigOperators.Group.List.Lemmas
import Mathlib.Algebra.Order.BigOperators.Group.List
import Mathlib.Tactic.Positivity
import Mathlib.Tactic.GCongr

/-!
# Rounding errors: lemmas
-/

namespace Verif.Round

open Verif Verif.Domain

variable {F : FP}

theorem rd_zero : F.rd 0 = 0 := by
  have := F.err 0
  simpa using this

theorem rd_nonneg {t : ℝ} (h : 0 ≤ t) : 0 ≤ F.rd t := by
  have := F.mono h
  rwa [rd_zero] at this

theorem abs_rd_le (t : ℝ) : |F.rd t| ≤ (1 + F.u) * |t| := by
  have h := F.err t
  have : |F.rd t| ≤ |F.rd t - t| + |t| := by simpa using abs_add_le (F.rd t - t) t
  linarith

/-- The sum of the absolute values of the products. -/
noncomputable def absSum (l : List (ℝ × ℝ)) : ℝ := (l.map fun p => |p.1 * p.2|).sum

/-- The exact sum of the products. -/
noncomputable def exactSum (l : List (ℝ × ℝ)) : ℝ := (l.map fun p => p.1 * p.2).sum

theorem absSum_nonneg (l : List (ℝ × ℝ)) : 0 ≤ absSum l := by
  apply List.sum_nonneg
  intro t ht
  simp only [List.mem_map] at ht
  obtain ⟨p, _, rfl⟩ := ht
  exact abs_nonneg _

theorem abs_exactSum_le (l : List (ℝ × ℝ)) : |exactSum l| ≤ absSum l := by
  induction l with
  | nil => simp [exactSum, absSum]
  | cons p l ih =>
    simp only [exactSum, absSum, List.map_cons, List.sum_cons] at *
    exact (abs_add_le _ _).trans (by linarith)

theorem DotTree.terms_ne (t : DotTree) : 1 ≤ t.terms.length := by
  induction t with
  | term => simp [terms]
  | add l r hl _ => simp [terms]; omega
  | fma l a x h => simp [terms]

theorem one_le_pow_u (n : ℕ) : 1 ≤ (1 + F.u) ^ n := one_le_pow₀ (by linarith [F.u_nonneg])

theorem pow_u_mono {n k : ℕ} (h : n ≤ k) : (1 + F.u) ^ n ≤ (1 + F.u) ^ k := pow_le_pow_right₀ (by linarith [F.u_nonneg]) h

/-- One rounded operation: if the operand is off by a factor `G` of the scale `S`, the result is off by `(1 + u) (1 + G) - 1`. -/
theorem rd_step {v w G S : ℝ} (h : |v - w| ≤ G * S) (hw : |w| ≤ S) : |F.rd v - w| ≤ ((1 + G) * (1 + F.u) - 1) * S := by
  have h1 := F.err v
  have h2 : |v| ≤ |v - w| + |w| := by simpa using abs_add_le (v - w) w
  have h3 : |F.rd v - w| ≤ |F.rd v - v| + |v - w| := by simpa using abs_add_le (F.rd v - v) (v - w)
  have h4 : F.u * |v| ≤ F.u * (G * S + S) := mul_le_mul_of_nonneg_left (by linarith) F.u_nonneg
  nlinarith

theorem DotTree.err (t : DotTree) : |t.eval F - exactSum t.terms| ≤ ((1 + F.u) ^ t.terms.length - 1) * absSum t.terms := by
  induction t with
  | term a x =>
    have := F.err (a * x)
    simpa [eval, terms, exactSum, absSum] using this
  | add l r hl hr =>
    have e1 : exactSum (terms (.add l r)) = exactSum l.terms + exactSum r.terms := by simp [exactSum, terms]
    have e2 : absSum (terms (.add l r)) = absSum l.terms + absSum r.terms := by simp [absSum, terms]
    have e3 : (terms (.add l r)).length = l.terms.length + r.terms.length := by simp [terms]
    have nl := absSum_nonneg l.terms
    have nr := absSum_nonneg r.terms
    have ll := DotTree.terms_ne l
    have lr := DotTree.terms_ne r
    set k := l.terms.length + r.terms.length - 1 with hk
    have kl : (1 + F.u) ^ l.terms.length ≤ (1 + F.u) ^ k := pow_u_mono (by omega)
    have kr : (1 + F.u) ^ r.terms.length ≤ (1 + F.u) ^ k := pow_u_mono (by omega)
    have hs : |(l.eval F + r.eval F) - exactSum (terms (.add l r))| ≤ ((1 + F.u) ^ k - 1) * absSum (terms (.add l r)) := by
      rw [e1, e2]
      have : |(l.eval F + r.eval F) - (exactSum l.terms + exactSum r.terms)| ≤ |l.eval F - exactSum l.terms| + |r.eval F - exactSum r.terms| := by
        have := abs_add_le (l.eval F - exactSum l.terms) (r.eval F - exactSum r.terms)
        rwa [show l.eval F - exactSum l.terms + (r.eval F - exactSum r.terms) = (l.eval F + r.eval F) - (exactSum l.terms + exactSum r.terms) by ring] at this
      have h1 := mul_le_mul_of_nonneg_right (sub_le_sub_right kl 1) nl
      have h2 := mul_le_mul_of_nonneg_right (sub_le_sub_right kr 1) nr
      linarith
    have := rd_step (F := F) hs (abs_exactSum_le _)
    rw [show (1 + ((1 + F.u) ^ k - 1)) * (1 + F.u) = (1 + F.u) ^ (k + 1) by ring, show k + 1 = (terms (.add l r)).length by rw [e3]; omega] at this
    exact this
  | fma l a x hl =>
    have e1 : exactSum (terms (.fma l a x)) = exactSum l.terms + a * x := by simp [exactSum, terms]
    have e2 : absSum (terms (.fma l a x)) = absSum l.terms + |a * x| := by simp [absSum, terms]
    have e3 : (terms (.fma l a x)).length = l.terms.length + 1 := by simp [terms]
    have hs : |(l.eval F + a * x) - exactSum (terms (.fma l a x))| ≤ ((1 + F.u) ^ l.terms.length - 1) * absSum (terms (.fma l a x)) := by
      rw [e1, e2, show l.eval F + a * x - (exactSum l.terms + a * x) = l.eval F - exactSum l.terms by ring]
      have h0 : 0 ≤ (1 + F.u) ^ l.terms.length - 1 := sub_nonneg.2 (one_le_pow_u _)
      nlinarith [mul_nonneg h0 (abs_nonneg (a * x))]
    have := rd_step (F := F) hs (abs_exactSum_le _)
    rw [show (1 + ((1 + F.u) ^ l.terms.length - 1)) * (1 + F.u) = (1 + F.u) ^ (l.terms.length + 1) by ring, ← e3] at this
    exact this

theorem exactSum_zip (a x : Vec) : exactSum (a.zip x) = Vec.dot a x := by
  simp [exactSum, Vec.dot, List.zip, List.map_zipWith]

/-- **Error of an inner product**, whatever the order of summation. -/
theorem Computes.err {a x : Vec} {v : ℝ} (h : Computes F a x v) {n : ℕ} (hn : x.length ≤ n) :
    |v - Vec.dot a x| ≤ ((1 + F.u) ^ n - 1) * absSum (a.zip x) := by
  rw [← exactSum_zip]
  rcases h with ⟨h0, rfl⟩ | ⟨t, ht, rfl⟩
  · simp [h0, exactSum, absSum]
  · have e1 : exactSum t.terms = exactSum (a.zip x) := (ht.map _).sum_eq
    have e2 : absSum t.terms = absSum (a.zip x) := (ht.map _).sum_eq
    have h := t.err (F := F)
    rw [e1, e2] at h
    have hl : t.terms.length ≤ n := by rw [ht.length_eq, List.length_zip]; omega
    exact h.trans (mul_le_mul_of_nonneg_right (sub_le_sub_right (pow_u_mono hl) 1) (absSum_nonneg _))

/-! ## An inner product with one nonzero term -/

theorem DotTree.eval_idem (t : DotTree) : F.rd (t.eval F) = t.eval F := by
  cases t <;> exact F.idem _

theorem DotTree.eval_zero (t : DotTree) (h : ∀ p ∈ t.terms, p.1 * p.2 = 0) : t.eval F = 0 := by
  induction t with
  | term a x => rw [eval, h (a, x) (by simp [terms]), rd_zero]
  | add l r hl hr =>
    rw [eval, hl fun p hp => h p (by simp [terms, hp]), hr fun p hp => h p (by simp [terms, hp]), add_zero, rd_zero]
  | fma l a x hl => rw [eval, hl fun p hp => h p (by simp [terms, hp]), h (a, x) (by simp [terms]), add_zero, rd_zero]

theorem DotTree.eval_single (t : DotTree) (l r : List (ℝ × ℝ)) (a x : ℝ) (ht : t.terms.Perm (l ++ (a, x) :: r)) (hl : ∀ p ∈ l ++ r, p.1 * p.2 = 0) :
    t.eval F = F.rd (a * x) := by
  have hp : t.terms.Perm ((a, x) :: (l ++ r)) := ht.trans List.perm_middle
  clear ht
  generalize l ++ r = z at hp hl
  induction t generalizing z with
  | term b y =>
    have : z = [] := by
      have := hp.length_eq
      simp [terms] at this
      exact this
    subst this
    have := List.perm_singleton.1 hp
    simp only [terms, List.cons.injEq, Prod.mk.injEq, and_true] at this
    rw [eval, this.1, this.2]
  | add s t hs ht =>
    have hm : (a, x) ∈ s.terms ++ t.terms := hp.mem_iff.2 (by simp)
    rcases List.mem_append.1 hm with h | h
    · obtain ⟨s1, s2, e⟩ := List.append_of_mem h
      have h1 : s.terms.Perm ((a, x) :: (s1 ++ s2)) := by rw [e]; exact List.perm_middle
      have h2 : ((s1 ++ s2) ++ t.terms).Perm z := by
        refine (List.perm_cons (a, x)).1 (List.Perm.trans ?_ hp)
        exact (h1.symm.append_right t.terms)
      rw [eval, hs _ h1 fun p hp' => hl p (h2.mem_iff.1 (List.mem_append_left _ hp')), DotTree.eval_zero t fun p hp' => hl p (h2.mem_iff.1 (List.mem_append_right _ hp')),
        add_zero, F.idem]
    · obtain ⟨s1, s2, e⟩ := List.append_of_mem h
      have h1 : t.terms.Perm ((a, x) :: (s1 ++ s2)) := by rw [e]; exact List.perm_middle
      have h2 : (s.terms ++ (s1 ++ s2)).Perm z := by
        refine (List.perm_cons (a, x)).1 (List.Perm.trans ?_ hp)
        refine List.Perm.trans List.perm_middle.symm ?_
        exact h1.symm.append_left s.terms
      rw [eval, ht _ h1 fun p hp' => hl p (h2.mem_iff.1 (List.mem_append_right _ hp')), DotTree.eval_zero s fun p hp' => hl p (h2.mem_iff.1 (List.mem_append_left _ hp')),
        zero_add, F.idem]
  | fma s b y hs =>
    have hm : (a, x) ∈ s.terms ++ [(b, y)] := hp.mem_iff.2 (by simp)
    rcases List.mem_append.1 hm with h | h
    · obtain ⟨s1, s2, e⟩ := List.append_of_mem h
      have h1 : s.terms.Perm ((a, x) :: (s1 ++ s2)) := by rw [e]; exact List.perm_middle
      have h2 : ((s1 ++ s2) ++ [(b, y)]).Perm z := by
        refine (List.perm_cons (a, x)).1 (List.Perm.trans ?_ hp)
        exact (h1.symm.append_right _)
      have h3 : b * y = 0 := hl (b, y) (h2.mem_iff.1 (by simp))
      rw [eval, hs _ h1 fun p hp' => hl p (h2.mem_iff.1 (List.mem_append_left _ hp')), h3, add_zero, F.idem]
    · simp only [List.mem_singleton, Prod.mk.injEq] at h
      obtain ⟨rfl, rfl⟩ := h
      have h2 : s.terms.Perm z := by
        refine (List.perm_cons (a, x)).1 (List.Perm.trans ?_ hp)
        exact (List.perm_append_singleton _ _).symm
      rw [eval, DotTree.eval_zero s fun p hp' => hl p (h2.mem_iff.1 hp'), zero_add]

/-! ## Norms -/

theorem mink2 (b B c C : ℝ) : Real.sqrt ((b + c) ^ 2 + (B + C) ^ 2) ≤ Real.sqrt (b ^ 2 + B ^ 2) + Real.sqrt (c ^ 2 + C ^ 2) := by
  have h1 := Real.sqrt_nonneg (b ^ 2 + B ^ 2)
  have h2 := Real.sqrt_nonneg (c ^ 2 + C ^ 2)
  have e1 := Real.sq_sqrt (show 0 ≤ b ^ 2 + B ^ 2 by positivity)
  have e2 := Real.sq_sqrt (show 0 ≤ c ^ 2 + C ^ 2 by positivity)
  apply Real.sqrt_le_iff.2
  refine ⟨by positivity, ?_⟩
  have : b * c + B * C ≤ Real.sqrt (b ^ 2 + B ^ 2) * Real.sqrt (c ^ 2 + C ^ 2) := by
    apply le_of_sq_le_sq _ (by positivity)
    rw [mul_pow, e1, e2]
    nlinarith [sq_nonneg (b * C - B * c)]
  nlinarith

theorem norm_cons (a : ℝ) (v : Vec) : Vec.norm (a :: v) = Real.sqrt (a ^ 2 + Vec.norm v ^ 2) := by
  rw [Vec.norm, Vec.norm, Real.sq_sqrt (Vec.sumSq_nonneg v), Vec.sumSq_cons]

theorem norm_near {v w N : Vec} {g : ℝ} (hg : 0 ≤ g) (h : List.Forall₂ (fun p c => |p.1 - p.2| ≤ g * c) (v.zip w) N) (hl : v.length = w.length) :
    Vec.norm v ≤ Vec.norm w + g * Vec.norm N := by
  induction v generalizing w N with
  | nil =>
    cases w with
    | nil => cases h; simp [Vec.norm]
    | cons _ _ => simp at hl
  | cons a v ih =>
    cases w with
    | nil => simp at hl
    | cons b w =>
      simp only [List.zip_cons_cons] at h
      cases h with
      | @cons _ c _ N h1 h2 =>
        have hi := ih h2 (by simpa using hl)
        rw [norm_cons, norm_cons, norm_cons]
        have n1 := Vec.norm_nonneg v
        have hab : |a| ≤ |b| + g * c := by
          have : |a| ≤ |a - b| + |b| := by simpa using abs_add_le (a - b) b
          linarith [h1]
        have s1 : a ^ 2 + Vec.norm v ^ 2 ≤ (|b| + g * c) ^ 2 + (Vec.norm w + g * Vec.norm N) ^ 2 := by
          rw [← sq_abs a]
          gcongr
        refine (Real.sqrt_le_sqrt s1).trans ((mink2 _ _ _ _).trans ?_)
        rw [sq_abs, mul_pow, mul_pow, ← mul_add, Real.sqrt_mul (sq_nonneg g), Real.sqrt_sq hg]

end Verif.Round
