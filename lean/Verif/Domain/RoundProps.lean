import Verif.Domain.RoundLemmas

/-!
# Membership in rounded arithmetic
-/

namespace Verif.Round

open Verif Verif.Domain

variable {F : FP} {lib : Lib}

/-! ## Specification -/

/-- The rounding errors of the membership test for `d` at the point `x` are at most `e`: the bounds are, up to the small factors of the form `(1 + u)^k - 1`, the
magnitudes of the numbers added up in each constraint. -/
structure Slack (F : FP) (d : LQ) (tol e : ℝ) (x : Vec) : Prop where
  lb : ∀ r, XR.fin r ∈ d.lb → F.u * (|r| + tol) ≤ e
  ub : ∀ r, XR.fin r ∈ d.ub → F.u * (|r| + tol) ≤ e
  ineq : ∀ q ∈ d.A.zip d.b, ((1 + F.u) ^ x.length - 1) * absSum (q.1.zip x) + F.u * (|q.2| + tol) ≤ e
  eq : ∀ q ∈ d.Aeq.zip d.beq, ((1 + F.u) ^ (x.length + 1) - 1) * (absSum (q.1.zip x) + |q.2|) ≤ e
  quad : ∀ q ∈ d.Ls.zip (d.ys.zip d.rhos), ((1 + F.u) ^ (x.length + q.1.length + 2) - 1) *
    Vec.norm (q.1.map fun row => absSum (row.zip (Vec.sub x q.2.1))) + F.u * (|q.2.2| + tol) ≤ e

/-! ## Single constraints -/

theorem rd_bound (t s tol : ℝ) (ht : 0 ≤ tol) (hs : |s| ≤ tol) : |F.rd (t + s) - (t + s)| ≤ F.u * (|t| + tol) :=
  (F.err _).trans (mul_le_mul_of_nonneg_left ((abs_add_le _ _).trans (by linarith)) F.u_nonneg)

theorem zip_of_mv {A : List Vec} {x w : Vec} {b : List ℝ} (h : List.Forall₂ (fun row v => Computes F row x v) A w) :
    (∀ q ∈ w.zip b, ∃ row, (row, q.2) ∈ A.zip b ∧ (Vec.dot row x, q.2) ∈ (Vec.mulVec A x).zip b ∧ Computes F row x q.1) ∧
    ∀ q ∈ (Vec.mulVec A x).zip b, ∃ row v, (row, q.2) ∈ A.zip b ∧ q.1 = Vec.dot row x ∧ (v, q.2) ∈ w.zip b ∧ Computes F row x v := by
  induction h generalizing b with
  | nil => simp [Vec.mulVec]
  | @cons row v A w h1 h2 ih =>
    cases b with
    | nil => simp [Vec.mulVec]
    | cons c b =>
      obtain ⟨i1, i2⟩ := ih (b := b)
      constructor
      · intro q hq
        simp only [List.zip_cons_cons, List.mem_cons] at hq
        rcases hq with rfl | hq
        · exact ⟨row, by simp, by simp [Vec.mulVec], h1⟩
        · obtain ⟨r, a1, a2, a3⟩ := i1 q hq
          exact ⟨r, by simp [a1], by simp only [Vec.mulVec, List.map_cons, List.zip_cons_cons, List.mem_cons] at a2 ⊢; exact Or.inr a2, a3⟩
      · intro q hq
        simp only [Vec.mulVec, List.map_cons, List.zip_cons_cons, List.mem_cons] at hq
        rcases hq with rfl | hq
        · exact ⟨row, v, by simp, rfl, by simp, h1⟩
        · obtain ⟨r, v', a1, a2, a3, a4⟩ := i2 q hq
          exact ⟨r, v', by simp [a1], a2, by simp [a3], a4⟩

theorem mv_near {L : List Vec} {D E w : Vec} {n : ℕ} (h : List.Forall₂ (fun row v => Computes F row D v) L w) (hn : D.length ≤ n)
    (hD : List.Forall₂ (fun a b => |a - b| ≤ F.u * |b|) D E) :
    List.Forall₂ (fun p c => |p.1 - p.2| ≤ ((1 + F.u) ^ (n + 1) - 1) * c) (w.zip (Vec.mulVec L E)) (L.map fun row => absSum (row.zip E)) ∧
    w.length = (Vec.mulVec L E).length := by
  have key : ∀ row v, Computes F row D v → |v - Vec.dot row E| ≤ ((1 + F.u) ^ (n + 1) - 1) * absSum (row.zip E) := by
    intro row v hv
    have h1 := hv.err hn
    have h2 : absSum (row.zip D) ≤ (1 + F.u) * absSum (row.zip E) ∧ |Vec.dot row D - Vec.dot row E| ≤ F.u * absSum (row.zip E) := by
      clear h hn hv h1
      induction hD generalizing row with
      | nil => simp [absSum]
      | @cons a b D E hab _ ih =>
        cases row with
        | nil => simp [absSum]
        | cons r row =>
          obtain ⟨i1, i2⟩ := ih row
          have ha : |a| ≤ (1 + F.u) * |b| := by
            have : |a| ≤ |a - b| + |b| := by simpa using abs_add_le (a - b) b
            linarith
          have e : ∀ X : List (ℝ × ℝ), ∀ p, absSum (p :: X) = |p.1 * p.2| + absSum X := by intro X p; simp [absSum]
          simp only [List.zip_cons_cons, e, Vec.dot_cons, abs_mul] at i1 i2 ⊢
          constructor
          · nlinarith [mul_le_mul_of_nonneg_left ha (abs_nonneg r)]
          · have : r * a + Vec.dot row D - (r * b + Vec.dot row E) = r * (a - b) + (Vec.dot row D - Vec.dot row E) := by ring
            rw [this]
            refine (abs_add_le _ _).trans ?_
            rw [abs_mul]
            nlinarith [mul_le_mul_of_nonneg_left hab (abs_nonneg r)]
    have h3 : |v - Vec.dot row E| ≤ |v - Vec.dot row D| + |Vec.dot row D - Vec.dot row E| := by
      simpa using abs_add_le (v - Vec.dot row D) (Vec.dot row D - Vec.dot row E)
    have h0 : 0 ≤ (1 + F.u) ^ n - 1 := sub_nonneg.2 (one_le_pow_u _)
    have h4 := mul_le_mul_of_nonneg_left h2.1 h0
    rw [pow_succ]
    nlinarith
  induction h with
  | nil => simp [Vec.mulVec]
  | @cons row v L w h1 _ ih =>
    refine ⟨?_, by simpa [Vec.mulVec] using ih.2⟩
    simp only [Vec.mulVec, List.map_cons, List.zip_cons_cons]
    exact List.Forall₂.cons (key row v h1) ih.1

theorem DotTree.eval_nonneg (t : DotTree) (h : ∀ p ∈ t.terms, 0 ≤ p.1 * p.2) : 0 ≤ t.eval F := by
  induction t with
  | term a x => exact rd_nonneg (h (a, x) (by simp [terms]))
  | add l r hl hr => exact rd_nonneg (add_nonneg (hl fun p hp => h p (by simp [terms, hp])) (hr fun p hp => h p (by simp [terms, hp])))
  | fma l a x hl => exact rd_nonneg (add_nonneg (hl fun p hp => h p (by simp [terms, hp])) (h (a, x) (by simp [terms])))

theorem zip_self_mem {w : Vec} {p : ℝ × ℝ} (h : p ∈ w.zip w) : p.1 = p.2 := by
  induction w with
  | nil => simp at h
  | cons a w ih =>
    simp only [List.zip_cons_cons, List.mem_cons] at h
    rcases h with rfl | h
    · rfl
    · exact ih h

theorem absSum_self (w : Vec) : absSum (w.zip w) = Vec.norm w ^ 2 ∧ Vec.dot w w = Vec.norm w ^ 2 := by
  rw [Vec.norm, Real.sq_sqrt (Vec.sumSq_nonneg w)]
  induction w with
  | nil => simp [absSum]
  | cons a w ih =>
    have e : ∀ X : List (ℝ × ℝ), ∀ p, absSum (p :: X) = |p.1 * p.2| + absSum X := by intro X p; simp [absSum]
    refine ⟨?_, ?_⟩
    · rw [List.zip_cons_cons, e, ih.1, Vec.sumSq_cons]; dsimp only; rw [abs_mul_self]; ring
    · rw [Vec.dot_cons, ih.2, Vec.sumSq_cons]; ring

theorem sq_near {w : Vec} {s : ℝ} (h : Computes F w w s) {k : ℕ} (hk : w.length ≤ k) :
    |Real.sqrt s - Vec.norm w| ≤ ((1 + F.u) ^ k - 1) * Vec.norm w := by
  have h1 := h.err hk
  rw [(absSum_self w).1, (absSum_self w).2] at h1
  have hs : 0 ≤ s := by
    rcases h with ⟨_, rfl⟩ | ⟨t, ht, rfl⟩
    · exact le_refl _
    · apply DotTree.eval_nonneg
      intro p hp
      rw [zip_self_mem (ht.mem_iff.1 hp)]
      exact mul_self_nonneg _
  have hV := Vec.norm_nonneg w
  have hR := Real.sqrt_nonneg s
  have hsq := Real.sq_sqrt hs
  rcases hV.lt_or_eq with hpos | h0
  · have e : Real.sqrt s - Vec.norm w = (s - Vec.norm w ^ 2) / (Real.sqrt s + Vec.norm w) := by
      rw [eq_div_iff (by positivity)]
      nlinarith
    rw [e, abs_div, abs_of_pos (show 0 < Real.sqrt s + Vec.norm w by positivity), div_le_iff₀ (by positivity)]
    have hg : 0 ≤ (1 + F.u) ^ k - 1 := sub_nonneg.2 (one_le_pow_u _)
    nlinarith [mul_nonneg (mul_nonneg hg hV) hR]
  · rw [← h0] at h1 ⊢
    simp at h1
    simp [h1]

theorem subF_near (x y : Vec) : List.Forall₂ (fun a b => |a - b| ≤ F.u * |b|) (subF F x y) (Vec.sub x y) := by
  induction x generalizing y with
  | nil => simp [subF]
  | cons a x ih =>
    cases y with
    | nil => simp [subF]
    | cons b y => exact List.Forall₂.cons (F.err _) (ih y)

theorem norm_mulVec_le (L : List Vec) (E : Vec) : Vec.norm (Vec.mulVec L E) ≤ Vec.norm (L.map fun row => absSum (row.zip E)) := by
  induction L with
  | nil => simp [Vec.mulVec]
  | cons row L ih =>
    simp only [Vec.mulVec, List.map_cons] at ih ⊢
    rw [norm_cons, norm_cons]
    apply Real.sqrt_le_sqrt
    have h1 : |Vec.dot row E| ≤ absSum (row.zip E) := by rw [← exactSum_zip]; exact abs_exactSum_le _
    rw [← sq_abs (Vec.dot row E)]
    have := Vec.norm_nonneg (List.map (fun a => Vec.dot a E) L)
    gcongr

/-- **Error of the length measured by a quadratic constraint**: the number of coordinates and of rows of the matrix and the lengths of the products matter. -/
theorem quad_err (hlib : lib.Ok F) (L : List Vec) (x y : Vec) :
    |F.rd (Real.sqrt (lib.sq (lib.mv L (subF F x y)))) - Vec.norm (Vec.mulVec L (Vec.sub x y))| ≤
      ((1 + F.u) ^ (x.length + L.length + 2) - 1) * Vec.norm (L.map fun row => absSum (row.zip (Vec.sub x y))) := by
  have hw := hlib.mv L (subF F x y)
  set w := lib.mv L (subF F x y) with hwd
  set E := Vec.sub x y with hE
  set N := Vec.norm (L.map fun row => absSum (row.zip E)) with hN
  set n := x.length
  have hlen : (subF F x y).length ≤ n := by simp [subF, n]
  obtain ⟨h1, h2⟩ := mv_near hw hlen (subF_near x y)
  have g1 : 0 ≤ (1 + F.u) ^ (n + 1) - 1 := sub_nonneg.2 (one_le_pow_u _)
  have gk : 0 ≤ (1 + F.u) ^ L.length - 1 := sub_nonneg.2 (one_le_pow_u _)
  have a1 : Vec.norm w ≤ Vec.norm (Vec.mulVec L E) + ((1 + F.u) ^ (n + 1) - 1) * N := norm_near g1 h1 h2
  have h1' : List.Forall₂ (fun p c => |p.1 - p.2| ≤ ((1 + F.u) ^ (n + 1) - 1) * c) ((Vec.mulVec L E).zip w) (L.map fun row => absSum (row.zip E)) := by
    rw [← List.zip_swap, List.forall₂_map_left_iff]
    exact h1.imp fun p c hp => by rw [Prod.fst_swap, Prod.snd_swap, abs_sub_comm]; exact hp
  have a2 : Vec.norm (Vec.mulVec L E) ≤ Vec.norm w + ((1 + F.u) ^ (n + 1) - 1) * N := norm_near g1 h1' h2.symm
  have a3 : Vec.norm (Vec.mulVec L E) ≤ N := norm_mulVec_le L E
  have hwl : w.length ≤ L.length := by rw [hw.length_eq]
  have a4 := sq_near (hlib.sq w) hwl
  have hN0 : 0 ≤ N := Vec.norm_nonneg _
  have a5 : |Real.sqrt (lib.sq w) - Vec.norm (Vec.mulVec L E)| ≤ ((1 + F.u) ^ (n + L.length + 1) - 1) * N := by
    have : |Real.sqrt (lib.sq w) - Vec.norm (Vec.mulVec L E)| ≤ |Real.sqrt (lib.sq w) - Vec.norm w| + |Vec.norm w - Vec.norm (Vec.mulVec L E)| := by
      simpa using abs_add_le (Real.sqrt (lib.sq w) - Vec.norm w) (Vec.norm w - Vec.norm (Vec.mulVec L E))
    have b1 : |Vec.norm w - Vec.norm (Vec.mulVec L E)| ≤ ((1 + F.u) ^ (n + 1) - 1) * N := abs_le.2 ⟨by linarith, by linarith⟩
    have b2 : Vec.norm w ≤ (1 + F.u) ^ (n + 1) * N := by linarith
    have b3 := mul_le_mul_of_nonneg_left b2 gk
    have e : (1 + F.u) ^ (n + L.length + 1) = (1 + F.u) ^ L.length * (1 + F.u) ^ (n + 1) := by rw [← pow_add]; congr 1; omega
    rw [e]
    nlinarith
  have a6 : |Vec.norm (Vec.mulVec L E)| ≤ N := by rwa [abs_of_nonneg (Vec.norm_nonneg _)]
  have := rd_step (F := F) a5 a6
  rwa [show (1 + ((1 + F.u) ^ (n + L.length + 1) - 1)) * (1 + F.u) = (1 + F.u) ^ (n + L.length + 2) by ring] at this

theorem eq_err {row x : Vec} {v b : ℝ} (h : Computes F row x v) :
    |F.rd (v - b) - (Vec.dot row x - b)| ≤ ((1 + F.u) ^ (x.length + 1) - 1) * (absSum (row.zip x) + |b|) := by
  have h1 := h.err (le_refl _)
  have g : 0 ≤ (1 + F.u) ^ x.length - 1 := sub_nonneg.2 (one_le_pow_u _)
  have h2 : |(v - b) - (Vec.dot row x - b)| ≤ ((1 + F.u) ^ x.length - 1) * (absSum (row.zip x) + |b|) := by
    rw [show (v - b) - (Vec.dot row x - b) = v - Vec.dot row x by ring]
    nlinarith [mul_nonneg g (abs_nonneg b)]
  have h3 : |Vec.dot row x - b| ≤ absSum (row.zip x) + |b| := by
    have := abs_exactSum_le (row.zip x)
    rw [exactSum_zip] at this
    exact (abs_sub _ _).trans (by linarith)
  have := rd_step (F := F) h2 h3
  rwa [show (1 + ((1 + F.u) ^ x.length - 1)) * (1 + F.u) = (1 + F.u) ^ (x.length + 1) by ring] at this

/-! ## The theorems -/

/-- **What the computed test accepts is inside.**  A point accepted in rounded arithmetic with tolerance `tol` satisfies all constraints of the domain up to `tol` and the
rounding errors, whatever order of summation the library uses. -/
theorem insideF_inside (hlib : lib.Ok F) {d : LQ} {tol e : ℝ} {x : Vec} (ht : 0 ≤ tol) (hs : Slack F d tol e x) (h : insideF F lib d tol x) :
    d.inAll (tol + e) x := by
  obtain ⟨⟨hb1, hb2⟩, hi, he, hq⟩ := h
  refine ⟨⟨?_, ?_⟩, ?_, ?_, ?_⟩
  · intro q hq r hr
    have h1 := hb1 q hq r hr
    have h2 := rd_bound (F := F) r (-tol) tol ht (by rw [abs_neg, abs_of_nonneg ht])
    have h3 := hs.lb r (hr ▸ (List.of_mem_zip hq).1)
    have h4 := (abs_le.1 h2).1
    rw [← sub_eq_add_neg] at h4
    linarith
  · intro q hq r hr
    have h1 := hb2 q hq r hr
    have h2 := rd_bound (F := F) r tol tol ht (abs_of_nonneg ht).le
    have h3 := hs.ub r (hr ▸ (List.of_mem_zip hq).1)
    have h4 := (abs_le.1 h2).2
    linarith
  · intro q hq
    obtain ⟨row, v, a1, a2, a3, a4⟩ := (zip_of_mv (b := d.b) (hlib.mv d.A x)).2 q hq
    have h1 := hi _ a3
    have h2 := hs.ineq _ a1
    have h3 := (abs_le.1 (a4.err (le_refl _))).1
    have h4 := (abs_le.1 (rd_bound (F := F) q.2 tol tol ht (abs_of_nonneg ht).le)).2
    rw [a2]
    linarith
  · intro q hq
    obtain ⟨row, v, a1, a2, a3, a4⟩ := (zip_of_mv (b := d.beq) (hlib.mv d.Aeq x)).2 q hq
    have h1 := he _ a3
    have h2 := hs.eq _ a1
    have h3 := eq_err (b := q.2) a4
    rw [a2]
    have h4 : |Vec.dot row x - q.2| ≤ |F.rd (v - q.2) - (Vec.dot row x - q.2)| + |F.rd (v - q.2)| := by
      rw [abs_sub_comm (F.rd _)]
      simpa using abs_add_le ((Vec.dot row x - q.2) - F.rd (v - q.2)) (F.rd (v - q.2))
    dsimp only at h1 h2 h3
    linarith
  · intro q hq'
    have h1 := hq q hq'
    have h2 := hs.quad q hq'
    have h3 := (abs_le.1 (quad_err hlib q.1 x q.2.1)).1
    have h4 := (abs_le.1 (rd_bound (F := F) q.2.2 tol tol ht (abs_of_nonneg ht).le)).2
    change Vec.norm _ ≤ _
    linarith

/-- **What is well inside is accepted.**  A point which satisfies all constraints up to `tol` less the rounding errors is accepted. -/
theorem inside_insideF (hlib : lib.Ok F) {d : LQ} {tol e : ℝ} {x : Vec} (ht : 0 ≤ tol) (hs : Slack F d tol e x) (h : d.inAll (tol - e) x) :
    insideF F lib d tol x := by
  obtain ⟨⟨hb1, hb2⟩, hi, he, hq⟩ := h
  refine ⟨⟨?_, ?_⟩, ?_, ?_, ?_⟩
  · intro q hq r hr
    have h1 := hb1 q hq r hr
    have h2 := rd_bound (F := F) r (-tol) tol ht (by rw [abs_neg, abs_of_nonneg ht])
    have h3 := hs.lb r (hr ▸ (List.of_mem_zip hq).1)
    have h4 := (abs_le.1 h2).2
    rw [← sub_eq_add_neg] at h4
    linarith
  · intro q hq r hr
    have h1 := hb2 q hq r hr
    have h2 := rd_bound (F := F) r tol tol ht (abs_of_nonneg ht).le
    have h3 := hs.ub r (hr ▸ (List.of_mem_zip hq).1)
    have h4 := (abs_le.1 h2).1
    linarith
  · intro q hq
    obtain ⟨row, a1, a2, a4⟩ := (zip_of_mv (b := d.b) (hlib.mv d.A x)).1 q hq
    have h1 := hi _ a2
    have h2 := hs.ineq _ a1
    have h3 := (abs_le.1 (a4.err (le_refl _))).2
    have h4 := (abs_le.1 (rd_bound (F := F) q.2 tol tol ht (abs_of_nonneg ht).le)).1
    dsimp only at h1 h2
    linarith
  · intro q hq
    obtain ⟨row, a1, a2, a4⟩ := (zip_of_mv (b := d.beq) (hlib.mv d.Aeq x)).1 q hq
    have h1 := he _ a2
    have h2 := hs.eq _ a1
    have h3 := eq_err (b := q.2) a4
    have h4 : |F.rd (q.1 - q.2)| ≤ |F.rd (q.1 - q.2) - (Vec.dot row x - q.2)| + |Vec.dot row x - q.2| := by
      simpa using abs_add_le (F.rd (q.1 - q.2) - (Vec.dot row x - q.2)) (Vec.dot row x - q.2)
    dsimp only at h1 h2 h3
    linarith
  · intro q hq'
    have h1 : Vec.norm (Vec.mulVec q.1 (Vec.sub x q.2.1)) ≤ _ := hq q hq'
    have h2 := hs.quad q hq'
    have h3 := (abs_le.1 (quad_err hlib q.1 x q.2.1)).2
    have h4 := (abs_le.1 (rd_bound (F := F) q.2.2 tol tol ht (abs_of_nonneg ht).le)).1
    linarith

/-- For points whose coordinates are numbers of the format, the computed test of the bounds accepts everything the exact test accepts. -/
theorem inBounds_inBoundsF {lb ub : List XR} {tol : ℝ} {x : Vec} (hx : ∀ t ∈ x, F.Float t) (h : inBounds lb ub tol x) : inBoundsF F lb ub tol x := by
  constructor
  · intro q hq r hr
    have h1 := F.mono (h.1 q hq r hr)
    rwa [hx q.2 (List.of_mem_zip hq).2] at h1
  · intro q hq r hr
    have h1 := F.mono (h.2 q hq r hr)
    rwa [hx q.2 (List.of_mem_zip hq).2] at h1

/-! ## Numbers -/

/-- The factors are about as large as the number of operations times `u`. -/
theorem pow_u_le {k : ℕ} (h : 2 * (k * F.u) ≤ 1) : (1 + F.u) ^ k - 1 ≤ 2 * (k * F.u) := by
  have h0 := F.u_nonneg
  have key : (1 + F.u) ^ k * (1 - k * F.u) ≤ 1 := by
    clear h
    induction k with
    | zero => simp
    | succ k ih =>
      have hp : 0 ≤ (1 + F.u) ^ k := by positivity
      push_cast
      rw [pow_succ]
      nlinarith [mul_nonneg hp (mul_nonneg (show (0 : ℝ) ≤ k + 1 by positivity) (mul_nonneg h0 h0))]
  have hk : 0 ≤ k * F.u := by positivity
  have hp : 0 ≤ (1 + F.u) ^ k := by positivity
  nlinarith

/-- **Double precision and the default tolerance.**  With unit roundoff `2^-53`, at most a thousand operations per constraint and all sums of absolute values at most a
million, the rounding errors are below a tenth of the default tolerance. -/
theorem slack_default (hu : F.u ≤ 1 / 2 ^ 53) {d : LQ} {x : Vec} (hlb : ∀ r, XR.fin r ∈ d.lb → |r| ≤ 10 ^ 6) (hub : ∀ r, XR.fin r ∈ d.ub → |r| ≤ 10 ^ 6)
    (hi : ∀ q ∈ d.A.zip d.b, absSum (q.1.zip x) ≤ 10 ^ 6 ∧ |q.2| ≤ 10 ^ 6) (he : ∀ q ∈ d.Aeq.zip d.beq, absSum (q.1.zip x) + |q.2| ≤ 10 ^ 6)
    (hq : ∀ q ∈ d.Ls.zip (d.ys.zip d.rhos), x.length + q.1.length + 2 ≤ 1000 ∧ Vec.norm (q.1.map fun row => absSum (row.zip (Vec.sub x q.2.1))) ≤ 10 ^ 6 ∧ |q.2.2| ≤ 10 ^ 6)
    (hn : x.length + 1 ≤ 1000) : Slack F d (1 / 10 ^ 5) (1 / 10 ^ 6) x := by
  have h0 := F.u_nonneg
  have hg : ∀ k : ℕ, k ≤ 1000 → ∀ S : ℝ, 0 ≤ S → S ≤ 10 ^ 6 → ((1 + F.u) ^ k - 1) * S ≤ 5 / 10 ^ 7 := by
    intro k hk S hS0 hS
    have hk' : (k : ℝ) ≤ 1000 := by exact_mod_cast hk
    have h1 : (k : ℝ) * F.u ≤ 1000 * (1 / 2 ^ 53) := by gcongr
    have h2 := pow_u_le (F := F) (k := k) (by norm_num at h1 ⊢; linarith)
    have h3 : 0 ≤ (1 + F.u) ^ k - 1 := sub_nonneg.2 (one_le_pow_u _)
    calc ((1 + F.u) ^ k - 1) * S ≤ (2 * (1000 * (1 / 2 ^ 53))) * 10 ^ 6 := by
          apply mul_le_mul (by linarith) hS hS0 (by norm_num)
      _ ≤ 5 / 10 ^ 7 := by norm_num
  have hr : ∀ r : ℝ, |r| ≤ 10 ^ 6 → F.u * (|r| + 1 / 10 ^ 5) ≤ 5 / 10 ^ 7 := by
    intro r hr
    calc F.u * (|r| + 1 / 10 ^ 5) ≤ (1 / 2 ^ 53) * (10 ^ 6 + 1 / 10 ^ 5) := by
          apply mul_le_mul hu (by linarith) (by positivity) (by norm_num)
      _ ≤ 5 / 10 ^ 7 := by norm_num
  constructor
  · intro r h; have := hr r (hlb r h); linarith
  · intro r h; have := hr r (hub r h); linarith
  · intro q h
    have h1 := hg x.length (by omega) _ (absSum_nonneg _) (hi q h).1
    have h2 := hr _ (hi q h).2
    linarith
  · intro q h
    have h1 := hg (x.length + 1) hn _ (add_nonneg (absSum_nonneg _) (abs_nonneg _)) (he q h)
    linarith
  · intro q h
    have h1 := hg _ (hq q h).1 _ (Vec.norm_nonneg _) (hq q h).2.1
    have h2 := hr _ (hq q h).2.2
    linarith

end Verif.Round
