import Verif.Lipschitz.RoundConstModel
import Verif.Lipschitz.RoundProps
import Verif.Lipschitz.SignProps
import Verif.Lipschitz.ConstProps

/-!
# The Lipschitz constant in rounded arithmetic (C155)
-/

namespace Verif.Round

open Verif Verif.Domain

variable {F : FP} {lib : Lib}

/-! ## Specification -/

/-- `c` is consistent with the samples and the gradients. -/
def ConstFor (data : List (Vec × ℝ)) (grads : List Vec) (c : ℝ) : Prop :=
  0 ≤ c ∧ (∀ d ∈ data, ∀ d' ∈ data, |d.2 - d'.2| ≤ c * Vec.norm (Vec.sub d.1 d'.1)) ∧ ∀ g ∈ grads, Vec.norm g ≤ c

/-- The smallest such number. -/
def LeastFor (data : List (Vec × ℝ)) (grads : List Vec) (c : ℝ) : Prop := ConstFor data grads c ∧ ∀ c', ConstFor data grads c' → c ≤ c'

/-- Distinct points of one dimension. -/
structure Points (n : ℕ) (data : List (Vec × ℝ)) (grads : List Vec) : Prop where
  distinct : ∀ p ∈ Lip.pairsOf data, p.1.1 ≠ p.2.1
  dim : ∀ d ∈ data, d.1.length = n
  gdim : ∀ g ∈ grads, g.length = n

/-! ## Norms -/

theorem norm_map_abs (v : Vec) : Vec.norm (v.map fun t => |t|) = Vec.norm v := by
  unfold Vec.norm
  congr 1
  induction v with
  | nil => rfl
  | cons a v ih => rw [List.map_cons, Vec.sumSq_cons, Vec.sumSq_cons, ih, sq_abs]

theorem subF_norm {x y : Vec} (hl : x.length = y.length) : |Vec.norm (subF F x y) - Vec.norm (Vec.sub x y)| ≤ F.u * Vec.norm (Vec.sub x y) := by
  have hlen : (subF F x y).length = (Vec.sub x y).length := by simp [subF, Vec.sub]
  have key : ∀ {w v : Vec}, List.Forall₂ (fun a b => |a - b| ≤ F.u * |b|) w v →
      List.Forall₂ (fun (p : ℝ × ℝ) c => |p.1 - p.2| ≤ F.u * c) (w.zip v) (v.map fun t => |t|) ∧
      List.Forall₂ (fun (p : ℝ × ℝ) c => |p.1 - p.2| ≤ F.u * c) (v.zip w) (v.map fun t => |t|) := by
    intro w v h
    induction h with
    | nil => simp
    | cons h _ ih => exact ⟨List.Forall₂.cons h ih.1, List.Forall₂.cons (by rw [abs_sub_comm]; exact h) ih.2⟩
  obtain ⟨k1, k2⟩ := key (subF_near (F := F) x y)
  have a1 := norm_near F.u_nonneg k1 hlen
  have a2 := norm_near F.u_nonneg k2 hlen.symm
  rw [norm_map_abs] at a1 a2
  rw [abs_le]
  constructor <;> linarith

/-- Computed lengths of gradients. -/
theorem normF_err (hlib : lib.Ok F) {g : Vec} {n : ℕ} (hn : g.length ≤ n) : |normF F lib g - Vec.norm g| ≤ ((1 + F.u) ^ (n + 1) - 1) * Vec.norm g := by
  have h := rd_step (F := F) (sq_near (hlib.sq g) hn) (by rw [abs_of_nonneg (Vec.norm_nonneg g)])
  unfold normF
  rwa [show (1 + ((1 + F.u) ^ n - 1)) * (1 + F.u) - 1 = (1 + F.u) ^ (n + 1) - 1 by ring] at h

/-- Computed distances are relatively accurate. -/
theorem dist_rel (hlib : lib.Ok F) {x y : Vec} {n : ℕ} (hx : x.length = n) (hy : y.length = n) :
    |distF F lib x y - Vec.norm (Vec.sub x y)| ≤ ((1 + F.u) ^ (n + 2) - 1) * Vec.norm (Vec.sub x y) := by
  set V := Vec.norm (Vec.sub x y) with hV
  have hV0 : 0 ≤ V := Vec.norm_nonneg _
  have a1 := subF_norm (F := F) (x := x) (y := y) (by rw [hx, hy])
  rw [← hV] at a1
  have hlen : (subF F x y).length ≤ n := by simp [subF, hx]
  have a2 := sq_near (hlib.sq (subF F x y)) hlen
  have g0 : 0 ≤ (1 + F.u) ^ n - 1 := sub_nonneg.2 (one_le_pow_u _)
  have a3 : Vec.norm (subF F x y) ≤ (1 + F.u) * V := by linarith [(abs_le.1 a1).2]
  have a4 : |Real.sqrt (lib.sq (subF F x y)) - V| ≤ ((1 + F.u) ^ (n + 1) - 1) * V := by
    have b : |Real.sqrt (lib.sq (subF F x y)) - V| ≤ |Real.sqrt (lib.sq (subF F x y)) - Vec.norm (subF F x y)| + |Vec.norm (subF F x y) - V| := by
      simpa using abs_add_le (Real.sqrt (lib.sq (subF F x y)) - Vec.norm (subF F x y)) (Vec.norm (subF F x y) - V)
    have b2 := mul_le_mul_of_nonneg_left a3 g0
    have e : (1 + F.u) ^ (n + 1) = (1 + F.u) ^ n * (1 + F.u) := pow_succ _ _
    rw [e]
    nlinarith
  have := rd_step (F := F) a4 (by rw [abs_of_nonneg hV0])
  unfold distF
  rwa [show (1 + ((1 + F.u) ^ (n + 1) - 1)) * (1 + F.u) - 1 = (1 + F.u) ^ (n + 2) - 1 by ring] at this

theorem norm_sub_pos {x y : Vec} (hl : x.length = y.length) (hne : x ≠ y) : 0 < Vec.norm (Vec.sub x y) := by
  refine lt_of_le_of_ne (Vec.norm_nonneg _) fun h => hne ?_
  have h0 : Vec.sumSq (Vec.sub x y) = 0 := by
    have := Real.sq_sqrt (Vec.sumSq_nonneg (Vec.sub x y))
    unfold Vec.norm at h
    rw [← h] at this
    simpa using this.symm
  clear h hne
  induction x generalizing y with
  | nil => cases y with
    | nil => rfl
    | cons b y => simp at hl
  | cons a x ih => cases y with
    | nil => simp at hl
    | cons b y =>
      have e : Vec.sub (a :: x) (b :: y) = (a - b) :: Vec.sub x y := rfl
      rw [e, Vec.sumSq_cons] at h0
      have h1 := Vec.sumSq_nonneg (Vec.sub x y)
      have h2 : (a - b) ^ 2 = 0 := by nlinarith [sq_nonneg (a - b)]
      have h3 : Vec.sumSq (Vec.sub x y) = 0 := by nlinarith [sq_nonneg (a - b)]
      have h4 : a = b := by
        have := pow_eq_zero_iff (two_ne_zero) |>.1 h2
        linarith
      rw [h4, ih (by simpa using hl) h3]

theorem norm_sub_swap (x y : Vec) : Vec.norm (Vec.sub x y) = Vec.norm (Vec.sub y x) := by
  unfold Vec.norm
  congr 1
  unfold Vec.sub
  induction x generalizing y with
  | nil => cases y <;> rfl
  | cons a x ih => cases y with
    | nil => rfl
    | cons b y =>
      rw [List.zipWith_cons_cons, List.zipWith_cons_cons, Vec.sumSq_cons, Vec.sumSq_cons, ih]
      ring

/-- One quotient. -/
theorem ratioF_near (hlib : lib.Ok F) {n : ℕ} (hu : (1 + F.u) ^ (n + 2) < 2) {p : (Vec × ℝ) × (Vec × ℝ)} (h1 : p.1.1.length = n) (h2 : p.2.1.length = n) (hne : p.1.1 ≠ p.2.1) :
    (1 - F.u) ^ 2 / (1 + F.u) ^ (n + 2) * (|p.1.2 - p.2.2| / Vec.norm (Vec.sub p.1.1 p.2.1)) ≤ ratioF F lib p ∧
    ratioF F lib p ≤ (1 + F.u) ^ 2 / (2 - (1 + F.u) ^ (n + 2)) * (|p.1.2 - p.2.2| / Vec.norm (Vec.sub p.1.1 p.2.1)) := by
  set V := Vec.norm (Vec.sub p.1.1 p.2.1) with hV
  have hVp : 0 < V := norm_sub_pos (by rw [h1, h2]) hne
  have hd := dist_rel hlib h1 h2
  rw [← hV] at hd
  obtain ⟨hd1, hd2⟩ := abs_le.1 hd
  set G := (1 + F.u) ^ (n + 2) with hG
  have hGpos : 0 < G := by rw [hG]; exact pow_pos (by linarith [F.u_nonneg]) _
  have hGd : 0 < 2 - G := by linarith
  set D := distF F lib p.1.1 p.2.1 with hD
  have hDlo : (2 - G) * V ≤ D := by linarith
  have hDhi : D ≤ G * V := by linarith
  have hDp : 0 < D := lt_of_lt_of_le (mul_pos hGd hVp) hDlo
  set t := |p.1.2 - p.2.2| with ht
  have ht0 : 0 ≤ t := abs_nonneg _
  have hf := F.err (p.1.2 - p.2.2)
  set s := |F.rd (p.1.2 - p.2.2)| with hs
  have hs1 : (1 - F.u) * t ≤ s := by
    have := abs_sub_abs_le_abs_sub (p.1.2 - p.2.2) (F.rd (p.1.2 - p.2.2))
    rw [abs_sub_comm (p.1.2 - p.2.2) (F.rd _)] at this
    linarith
  have hs2 : s ≤ (1 + F.u) * t := by
    have := abs_sub_abs_le_abs_sub (F.rd (p.1.2 - p.2.2)) (p.1.2 - p.2.2)
    linarith
  have hu1 : 0 ≤ 1 - F.u := by linarith [F.u_lt]
  have hs0 : 0 ≤ s := abs_nonneg _
  have hq0 : 0 ≤ s / D := div_nonneg hs0 hDp.le
  have hr := F.err (s / D)
  rw [abs_of_nonneg hq0] at hr
  obtain ⟨hr1, hr2⟩ := abs_le.1 hr
  have hq1 : (1 - F.u) * t / (G * V) ≤ s / D := div_le_div₀ hs0 hs1 hDp hDhi
  have hq2 : s / D ≤ (1 + F.u) * t / ((2 - G) * V) := div_le_div₀ (mul_nonneg (by linarith [F.u_nonneg]) ht0) hs2 (mul_pos hGd hVp) hDlo
  have e1 : (1 - F.u) ^ 2 / G * (t / V) = (1 - F.u) * ((1 - F.u) * t / (G * V)) := by field_simp
  have e2 : (1 + F.u) ^ 2 / (2 - G) * (t / V) = (1 + F.u) * ((1 + F.u) * t / ((2 - G) * V)) := by field_simp
  rw [e1, e2]
  have k1 := mul_le_mul_of_nonneg_left hq1 hu1
  have k2 := mul_le_mul_of_nonneg_left hq2 (show 0 ≤ 1 + F.u by linarith [F.u_nonneg])
  change _ ≤ F.rd (s / D) ∧ F.rd (s / D) ≤ _
  constructor <;> linarith

/-- **C155**: in rounded arithmetic, for distinct points, `LipschitzConstant.fit` returns the smallest consistent constant up to the relative errors of a few
operations, however close the points and the values are. -/
theorem constF_near (hlib : lib.Ok F) {n : ℕ} (hu : (1 + F.u) ^ (n + 2) < 2) {data : List (Vec × ℝ)} {grads : List Vec} (hp : Points n data grads) (h1 : data.length ≠ 1)
    {c : ℝ} (hc : LeastFor data grads c) :
    ∃ c', constF F lib data grads = .ok c' ∧ (1 - F.u) ^ 2 * (2 - (1 + F.u) ^ (n + 2)) * c ≤ c' ∧ c' ≤ (1 + F.u) ^ 2 / (2 - (1 + F.u) ^ (n + 2)) * c := by
  set α := (1 - F.u) ^ 2 * (2 - (1 + F.u) ^ (n + 2)) with hα
  set β := (1 + F.u) ^ 2 / (2 - (1 + F.u) ^ (n + 2)) with hβ
  have hu0 := F.u_nonneg
  have hu1 : 0 < 1 - F.u := by linarith [F.u_lt]
  have hGpos : (0 : ℝ) < (1 + F.u) ^ (n + 2) := pow_pos (by linarith) _
  have hαp : 0 < α := mul_pos (pow_pos hu1 2) (by linarith)
  have hβp : 0 < β := div_pos (pow_pos (by linarith) 2) (by linarith)
  -- the samples
  have hsamp : ∃ s, constSampF F lib data = .ok s ∧ 0 ≤ s ∧ (∀ p ∈ Lip.pairsOf data, ratioF F lib p ≤ s) ∧ (s = 0 ∨ ∃ p ∈ Lip.pairsOf data, s = ratioF F lib p) := by
    unfold constSampF
    by_cases hlen : data.length > 0
    · rw [if_pos hlen]
      cases hq : Lip.pairsOf data with
      | nil =>
        exfalso
        match data, h1, hlen, hq with
        | [_], h1, _, _ => exact h1 rfl
        | a :: b :: l, _, _, hq => simp [Lip.pairsOf] at hq
      | cons q qs =>
        have hM := Lip.lmax_spec (ratioF F lib q) (qs.map (ratioF F lib))
        refine ⟨_, rfl, le_max_left _ _, fun p hp' => ?_, ?_⟩
        · exact (hM.2 _ (by rw [← List.map_cons]; exact List.mem_map_of_mem (f := ratioF F lib) hp')).trans (le_max_right _ _)
        · rcases max_choice 0 (Lip.lmax (ratioF F lib q) (qs.map (ratioF F lib))) with h | h
          · exact Or.inl h
          · right
            have hmem := hM.1
            rw [← List.map_cons] at hmem
            obtain ⟨p, hp', e⟩ := List.mem_map.1 hmem
            exact ⟨p, hp', by rw [h, e]⟩
    · rw [if_neg hlen]
      have : data = [] := List.length_eq_zero_iff.1 (by omega)
      subst this
      exact ⟨0, rfl, le_refl _, by simp [Lip.pairsOf], Or.inl rfl⟩
  obtain ⟨s, hs, hs0, hs1, hs2⟩ := hsamp
  have hpos : ∀ p ∈ Lip.pairsOf data, 0 < Vec.norm (Vec.sub p.1.1 p.2.1) := fun p hpp =>
    norm_sub_pos (by rw [hp.dim _ (Lip.pairsOf_mem hpp).1, hp.dim _ (Lip.pairsOf_mem hpp).2]) (hp.distinct p hpp)
  have hnear : ∀ p ∈ Lip.pairsOf data, α * (|p.1.2 - p.2.2| / Vec.norm (Vec.sub p.1.1 p.2.1)) ≤ ratioF F lib p ∧
      ratioF F lib p ≤ β * (|p.1.2 - p.2.2| / Vec.norm (Vec.sub p.1.1 p.2.1)) := by
    intro p hpp
    obtain ⟨h1, h2⟩ := ratioF_near hlib hu (hp.dim _ (Lip.pairsOf_mem hpp).1) (hp.dim _ (Lip.pairsOf_mem hpp).2) (hp.distinct p hpp)
    refine ⟨le_trans (mul_le_mul_of_nonneg_right ?_ (div_nonneg (abs_nonneg _) (hpos p hpp).le)) h1, h2⟩
    rw [hα, div_eq_mul_inv]
    refine mul_le_mul_of_nonneg_left ?_ (sq_nonneg _)
    rw [← one_div, le_div_iff₀ hGpos]
    nlinarith [sq_nonneg ((1 + F.u) ^ (n + 2) - 1)]
  -- the gradients
  have hg : ∀ g ∈ grads, α * Vec.norm g ≤ normF F lib g ∧ normF F lib g ≤ β * Vec.norm g := by
    intro g hgg
    have hN := Vec.norm_nonneg g
    obtain ⟨a1, a2⟩ := abs_le.1 (normF_err hlib (hp.gdim g hgg).le)
    set K := (1 + F.u) ^ (n + 1) with hK
    have hK1 : 1 ≤ K := one_le_pow_u _
    have hGK : (1 + F.u) ^ (n + 2) = K * (1 + F.u) := pow_succ _ _
    have hKG : K ≤ (1 + F.u) ^ (n + 2) := by rw [hGK]; nlinarith
    have b1 : α ≤ 2 - K := by
      have : (1 - F.u) ^ 2 ≤ 1 := by nlinarith
      rw [hα]
      nlinarith
    have b2 : K ≤ β := by
      rw [hβ, le_div_iff₀ (by linarith)]
      nlinarith [sq_nonneg (K - 1)]
    exact ⟨by nlinarith, by nlinarith⟩
  -- all together
  have htot : ∃ c', constF F lib data grads = .ok c' ∧ s ≤ c' ∧ (∀ g ∈ grads, normF F lib g ≤ c') ∧ (c' = s ∨ ∃ g ∈ grads, c' = normF F lib g) := by
    unfold constF
    rw [hs]
    cases grads with
    | nil => exact ⟨s, rfl, le_refl _, by simp, Or.inl rfl⟩
    | cons g gs =>
      have hM := Lip.lmax_spec (normF F lib g) (gs.map (normF F lib))
      refine ⟨_, rfl, le_max_left _ _, fun g' hg' => ?_, ?_⟩
      · exact (hM.2 _ (by rw [← List.map_cons]; exact List.mem_map_of_mem (f := normF F lib) hg')).trans (le_max_right _ _)
      · rcases max_choice s (Lip.lmax (normF F lib g) (gs.map (normF F lib))) with h | h
        · exact Or.inl h
        · right
          have hmem := hM.1
          rw [← List.map_cons] at hmem
          obtain ⟨g', hg', e⟩ := List.mem_map.1 hmem
          exact ⟨g', hg', by rw [h, e]⟩
  obtain ⟨c', he, hsc, hgc, hcase⟩ := htot
  have hc'0 : 0 ≤ c' := hs0.trans hsc
  refine ⟨c', he, ?_, ?_⟩
  · have hadm : ConstFor data grads (c' / α) := by
      refine ⟨div_nonneg hc'0 hαp.le, ?_, ?_⟩
      · have hpair : ∀ p ∈ Lip.pairsOf data, |p.1.2 - p.2.2| ≤ c' / α * Vec.norm (Vec.sub p.1.1 p.2.1) := by
          intro p hpp
          have h2 := (hnear p hpp).1.trans ((hs1 p hpp).trans hsc)
          rw [← div_le_iff₀ (hpos p hpp), le_div_iff₀ hαp]
          linarith
        intro d hd d' hd'
        rcases Lip.pairsOf_cases hd hd' with h | h | h
        · subst h
          simpa using mul_nonneg (div_nonneg hc'0 hαp.le) (Vec.norm_nonneg _)
        · exact hpair (d, d') h
        · have := hpair (d', d) h
          rw [abs_sub_comm, norm_sub_swap]
          exact this
      · intro g hgg
        rw [le_div_iff₀ hαp]
        linarith [(hg g hgg).1, hgc g hgg]
    have := hc.2 _ hadm
    rw [le_div_iff₀ hαp] at this
    linarith
  · have hcβ : 0 ≤ β * c := mul_nonneg hβp.le hc.1.1
    rcases hcase with h | ⟨g, hgg, h⟩
    · rcases hs2 with h2 | ⟨p, hpp, h2⟩
      · rw [h, h2]; exact hcβ
      · rw [h, h2]
        refine (hnear p hpp).2.trans (mul_le_mul_of_nonneg_left ?_ hβp.le)
        rw [div_le_iff₀ (hpos p hpp)]
        exact hc.1.2.1 _ (Lip.pairsOf_mem hpp).1 _ (Lip.pairsOf_mem hpp).2
    · rw [h]
      exact (hg g hgg).2.trans (mul_le_mul_of_nonneg_left (hc.1.2.2 g hgg) hβp.le)

theorem pow_lt_two {n : ℕ} {m : ℝ} (hm : (n : ℝ) + 2 ≤ m) (hu : m * F.u ≤ 1 / 2) : (1 + F.u) ^ (n + 2) ≤ 1 + 2 * (m * F.u) := by
  have hu0 := F.u_nonneg
  have key : ∀ k : ℕ, (k : ℝ) * F.u ≤ 1 / 2 → (1 + F.u) ^ k ≤ 1 + 2 * (k * F.u) := by
    intro k
    induction k with
    | zero => intro _; simp
    | succ k ih =>
      intro h
      push_cast at h ⊢
      have h' : (k : ℝ) * F.u ≤ 1 / 2 := by nlinarith
      have := ih h'
      rw [pow_succ]
      have hk0 : (0 : ℝ) ≤ k := Nat.cast_nonneg k
      nlinarith [mul_nonneg hk0 hu0]
  have hle : ((n : ℝ) + 2) * F.u ≤ m * F.u := mul_le_mul_of_nonneg_right hm hu0
  have := key (n + 2) (by push_cast; linarith)
  push_cast at this
  linarith

/-- **C155**: in double precision the relative error is at most `10 (n + 2) 2⁻⁵³` in up to a million dimensions. -/
theorem const_double (hlib : lib.Ok double) {n : ℕ} (hn : n ≤ 1000000) {data : List (Vec × ℝ)} {grads : List Vec} (hp : Points n data grads) (h1 : data.length ≠ 1)
    {c : ℝ} (hc : LeastFor data grads c) : ∃ c', constF double lib data grads = .ok c' ∧ |c' - c| ≤ 10 * (n + 2) / 2 ^ 53 * c := by
  have hnR : (n : ℝ) ≤ 1000000 := by exact_mod_cast hn
  have hn0 : (0 : ℝ) ≤ n := Nat.cast_nonneg n
  have hud := double_u
  set d : ℝ := ((n : ℝ) + 2) * double.u with hd
  have hd1 : d ≤ 1 / 1000 := by rw [hd, hud]; norm_num; linarith
  have hd0 : double.u ≤ d / 2 := by rw [hd]; nlinarith [double.u_nonneg]
  have hu0 := double.u_nonneg
  have hG := pow_lt_two (F := double) (n := n) (m := (n : ℝ) + 2) (le_refl _) (by linarith)
  rw [← hd] at hG
  obtain ⟨c', he, hlo, hhi⟩ := constF_near hlib (by linarith : (1 + double.u) ^ (n + 2) < 2) hp h1 hc
  refine ⟨c', he, ?_⟩
  have hc0 := hc.1.1
  rw [show (10 : ℝ) * (n + 2) / 2 ^ 53 = 10 * d by rw [hd, hud]; ring]
  set G := (1 + double.u) ^ (n + 2) with hGdef
  have hlo' : 1 - 10 * d ≤ (1 - double.u) ^ 2 * (2 - G) := by
    have q1 : 1 - 2 * double.u ≤ (1 - double.u) ^ 2 := by nlinarith [sq_nonneg double.u]
    have q2 : (1 - 2 * double.u) * (2 - G) ≤ (1 - double.u) ^ 2 * (2 - G) := mul_le_mul_of_nonneg_right q1 (by linarith)
    have q3 : (1 - 2 * double.u) * (1 - 2 * d) ≤ (1 - 2 * double.u) * (2 - G) := mul_le_mul_of_nonneg_left (by linarith) (by linarith)
    nlinarith [mul_nonneg hu0 (hu0.trans hd0)]
  have hhi' : (1 + double.u) ^ 2 / (2 - G) ≤ 1 + 10 * d := by
    rw [div_le_iff₀ (by linarith)]
    nlinarith
  rw [abs_le]
  constructor
  · nlinarith [mul_le_mul_of_nonneg_right hlo' hc0]
  · nlinarith [mul_le_mul_of_nonneg_right hhi' hc0]

/-- A single sample is refused, whatever the arithmetic. -/
theorem constF_error (F : FP) (lib : Lib) (data : List (Vec × ℝ)) (grads : List Vec) : constF F lib data grads = .error .valueError ↔ data.length = 1 := by
  unfold constF constSampF
  match data with
  | [] => cases grads <;> simp
  | [a] => simp [Lip.pairsOf]
  | a :: b :: l => cases grads <;> simp [Lip.pairsOf]

/-- **C155 fails as stated**: values 2 and 0 at the points 3 and 0: the returned constant is below 2/3, so it is not a Lipschitz constant of the data. -/
theorem const_lower_false : ∃ c, constF double (seqLib double) [([3], 2), ([0], 0)] [] = .ok c ∧ ¬ ConstFor [([3], 2), ([0], 0)] [] c := by
  have r2 : double.rd 2 = 2 := by simpa using double_int 2 (by norm_num)
  have r3 : double.rd 3 = 3 := by simpa using double_int 3 (by norm_num)
  have r9 : double.rd 9 = 9 := by simpa using double_int 9 (by norm_num)
  have r23 : double.rd (2 / 3) = 6004799503160661 / 2 ^ 53 := by
    rw [double_half (k := 6004799503160661) (by norm_num) (by norm_num) (by norm_num) (by norm_num)]
    norm_num
  have sq9 : Real.sqrt 9 = 3 := by rw [show (9 : ℝ) = 3 ^ 2 by norm_num]; exact Real.sqrt_sq (by norm_num)
  have hd : distF double (seqLib double) [3] [0] = 3 := by
    have : (seqLib double).sq [3] = 9 := by
      have sq : ∀ t : ℝ, (seqLib double).sq [t] = double.rd (t * t) := by
        intro t
        simp [seqLib, seqDot, seqTree, DotTree.eval]
      rw [sq, show (3 : ℝ) * 3 = 9 by norm_num, r9]
    rw [distF, show subF double [3] [0] = [3] by simp [subF, r3], this, sq9, r3]
  have hr : ratioF double (seqLib double) (([3], 2), ([0], 0)) = 6004799503160661 / 2 ^ 53 := by
    simp only [ratioF]
    rw [hd, sub_zero, r2, abs_of_pos (by norm_num), r23]
  refine ⟨6004799503160661 / 2 ^ 53, ?_, ?_⟩
  · simp only [constF, constSampF, Lip.pairsOf, List.map_cons, List.map_nil, List.append_nil, List.length_cons, List.length_nil, hr, Lip.lmax]
    norm_num
  · rintro ⟨-, h, -⟩
    have := h ([3], 2) (by simp) ([0], 0) (by simp)
    rw [show Vec.sub [3] [0] = [3] by simp [Vec.sub], show Vec.norm [3] = 3 by
      unfold Vec.norm; rw [Vec.sumSq_cons]; simp [Vec.sumSq]] at this
    norm_num at this

/-- The hypotheses of `constF_near` and `const_double` hold for two samples of slope 2 and a gradient of length 1, and the smallest constant is 2. -/
example : Points 1 [([0], 0), ([1], 2)] [[1]] ∧ LeastFor [([0], 0), ([1], 2)] [[1]] 2 := by
  have n1 : Vec.norm (Vec.sub [1] [0]) = 1 := by simp [Vec.sub, Vec.norm, Vec.sumSq]
  have n2 : Vec.norm (Vec.sub [0] [1]) = 1 := by simp [Vec.sub, Vec.norm, Vec.sumSq]
  refine ⟨⟨by simp [Lip.pairsOf], by simp, by simp⟩, ⟨by norm_num, ?_, ?_⟩, fun c' h => ?_⟩
  · intro d hd d' hd'
    simp only [List.mem_cons, List.not_mem_nil, or_false] at hd hd'
    rcases hd with rfl | rfl <;> rcases hd' with rfl | rfl
    · simp [Vec.norm_nonneg]
    · change |(0 : ℝ) - 2| ≤ 2 * Vec.norm (Vec.sub [0] [1])
      rw [n2]; norm_num
    · change |(2 : ℝ) - 0| ≤ 2 * Vec.norm (Vec.sub [1] [0])
      rw [n1]; norm_num
    · simp [Vec.norm_nonneg]
  · simp [Vec.norm, Vec.sumSq]
  · have := h.2.1 ([1], 2) (by simp) ([0], 0) (by simp)
    rw [n1] at this
    norm_num at this
    exact this

end Verif.Round
