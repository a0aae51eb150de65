import Mathlib.Data.Fintype.EquivFin
import Mathlib.Tactic.FieldSimp
import Mathlib.Tactic.Linarith
import Mathlib.Tactic.Positivity
import Verif.Sample.LatinModel
import Verif.Lipschitz.ParamProps
import Verif.Domain.HullProps

/-!
# C40: Latin hypercube designs
-/

namespace Verif.Samp

open Verif Verif.Domain

variable {m N : ℕ}

/-- Stratum `k` of `[lb, ub]` cut into `N` equal pieces. -/
def InStratum (lb ub : ℝ) (N k : ℕ) (x : ℝ) : Prop := lb + k * ((ub - lb) / N) ≤ x ∧ x < lb + (k + 1) * ((ub - lb) / N)

/-- A design is Latin for the box: in every coordinate in which the box has positive width, every stratum contains exactly one
point. -/
def IsLatin (lb ub : Fin m → ℝ) (X : Fin N → Lip.Pt m) : Prop :=
  ∀ i, lb i < ub i → ∀ k : Fin N, ∃! p : Fin N, InStratum (lb i) (ub i) N k (X p i)

theorem midAt_stratum {lb ub : ℝ} (h : lb < ub) (hN : 0 < N) (j k : ℕ) : InStratum lb ub N k (midAt lb ub N j) ↔ j = k := by
  have hw : 0 < (ub - lb) / N := div_pos (by linarith) (by exact_mod_cast hN)
  unfold InStratum midAt linspaceAt
  set w := (ub - lb) / N
  have e : (lb + ((j + 1 : ℕ) : ℝ) * w + (lb + (j : ℝ) * w)) / 2 = lb + (j + 1 / 2) * w := by push_cast; ring
  rw [e]
  constructor
  · rintro ⟨h1, h2⟩
    have a : (k : ℝ) ≤ j + 1 / 2 := le_of_mul_le_mul_right (by linarith) hw
    have b : (j : ℝ) + 1 / 2 < k + 1 := lt_of_mul_lt_mul_right (by linarith) hw.le
    have a' : (k : ℝ) < j + 1 := by linarith
    have b' : (j : ℝ) < k + 1 := by linarith
    have a2 : k < j + 1 := by exact_mod_cast a'
    have b2 : j < k + 1 := by exact_mod_cast b'
    omega
  · rintro rfl
    constructor
    · have := mul_le_mul_of_nonneg_right (show (j : ℝ) ≤ j + 1 / 2 by linarith) hw.le
      linarith
    · have := mul_lt_mul_of_pos_right (show (j : ℝ) + 1 / 2 < j + 1 by linarith) hw
      linarith

theorem latinPoints_latin (lb ub : Fin m → ℝ) (π : Fin m → Fin N → Fin N) (hπ : ∀ i, Function.Bijective (π i)) :
    IsLatin lb ub (latinPoints lb ub π) := by
  intro i hi k
  have hN : 0 < N := lt_of_le_of_lt (Nat.zero_le _) k.2
  obtain ⟨p, hp⟩ := (hπ i).2 k
  refine ⟨p, ?_, fun q hq => ?_⟩
  · show InStratum (lb i) (ub i) N k (midAt (lb i) (ub i) N (π i p))
    rw [hp]; exact (midAt_stratum hi hN _ _).2 rfl
  · unfold latinPoints at hq
    have := (midAt_stratum hi hN _ _).1 hq
    exact (hπ i).1 (by rw [hp]; exact Fin.ext this)

/-- Every point of such a design lies in the box. -/
theorem latinPoints_inside (lb ub : Fin m → ℝ) (h : ∀ i, lb i ≤ ub i) (π : Fin m → Fin N → Fin N) (p : Fin N) (i : Fin m) :
    lb i ≤ latinPoints lb ub π p i ∧ latinPoints lb ub π p i ≤ ub i := by
  have hN : 0 < N := lt_of_le_of_lt (Nat.zero_le _) p.2
  have hN' : (0 : ℝ) < N := by exact_mod_cast hN
  have hw : 0 ≤ (ub i - lb i) / N := div_nonneg (by linarith [h i]) hN'.le
  have hk : ((π i p : ℕ) : ℝ) + 1 ≤ N := by exact_mod_cast (π i p).2
  have hk0 : (0 : ℝ) ≤ ((π i p : ℕ) : ℝ) := by positivity
  have hNw : (N : ℝ) * ((ub i - lb i) / N) = ub i - lb i := by field_simp
  unfold latinPoints midAt linspaceAt
  push_cast
  constructor <;> nlinarith

/-- C40: the design drawn by `_latin_hypercube_sample_box` is Latin and inside the box, for every random stream. -/
theorem latinBox_latin (lb ub : Fin m → ℝ) (h : ∀ i, lb i ≤ ub i) (draw : Fin m → Equiv.Perm (Fin N)) :
    IsLatin lb ub (latinBox lb ub draw) ∧ ∀ p i, lb i ≤ latinBox lb ub draw p i ∧ latinBox lb ub draw p i ≤ ub i :=
  ⟨latinPoints_latin lb ub _ (fun i => (draw i).bijective), fun p i => latinPoints_inside lb ub h _ p i⟩

example : IsLatin (m := 1) (N := 2) (fun _ => 0) (fun _ => 1) (latinBox (fun _ => 0) (fun _ => 1) (fun _ => Equiv.swap 0 1)) :=
  (latinBox_latin _ _ (fun _ => by norm_num) _).1

theorem swapPerms_bijective (π : Fin m → Fin N → Fin N) (hπ : ∀ i, Function.Bijective (π i)) (d : LatinDraw m N) (i : Fin m) :
    Function.Bijective (swapPerms π d i) := by
  by_cases hI : swapMask d.r i
  · have : swapPerms π d i = π i ∘ Equiv.swap d.i d.j := by
      funext p
      unfold swapPerms
      rw [if_pos hI, Function.comp_apply]
      by_cases h1 : p = d.j
      · subst h1; rw [if_pos rfl, Equiv.swap_apply_right]
      · rw [if_neg h1]
        by_cases h2 : p = d.i
        · subst h2; rw [if_pos rfl, Equiv.swap_apply_left]
        · rw [if_neg h2, Equiv.swap_apply_of_ne_of_ne h2 h1]
    rw [this]
    exact (hπ i).comp (Equiv.bijective _)
  · have : swapPerms π d i = π i := by funext p; unfold swapPerms; rw [if_neg hI]
    rw [this]; exact hπ i

/-- What the loop maintains. -/
def LatinInv (lb ub : Fin m → ℝ) (s : LatinState m N) : Prop :=
  (∀ i, Function.Bijective (s.perms i)) ∧ (∀ X, s.X = some X → X = latinPoints lb ub s.perms ∧ s.best = score X) ∧
    (s.X = none → s.best = List.replicate N 0)

theorem latinStep_inv (lb ub : Fin m → ℝ) (s : LatinState m N) (h : LatinInv lb ub s) (d : LatinDraw m N) :
    LatinInv lb ub (latinStep lb ub s d) := by
  unfold latinStep
  by_cases hs : tupleLt s.best (score (latinPoints lb ub (swapPerms s.perms d)))
  · rw [if_pos hs]
    refine ⟨swapPerms_bijective _ h.1 d, fun X hX => ?_, fun hX => by cases hX⟩
    cases hX; exact ⟨rfl, rfl⟩
  · rw [if_neg hs]; exact h

theorem latin_fold_inv (lb ub : Fin m → ℝ) (draws : List (LatinDraw m N)) (s : LatinState m N) (h : LatinInv lb ub s) :
    LatinInv lb ub (draws.foldl (latinStep lb ub) s) := by
  induction draws generalizing s with
  | nil => exact h
  | cons d l ih => rw [List.foldl_cons]; exact ih _ (latinStep_inv lb ub s h d)

theorem latin_init_inv (lb ub : Fin m → ℝ) (init : Fin m → Equiv.Perm (Fin N)) :
    LatinInv lb ub (⟨fun i => init i, none, List.replicate N 0⟩ : LatinState m N) :=
  ⟨fun i => (init i).bijective, fun X h => (by cases h), fun _ => rfl⟩

/-- C40: whatever the random stream and the number of iterations, a design returned by `latin_hypercube_maximin` on a box is Latin
and inside the box. -/
theorem latinMaximin_latin (lb ub : Fin m → ℝ) (h : ∀ i, lb i ≤ ub i) (init : Fin m → Equiv.Perm (Fin N)) (draws : List (LatinDraw m N))
    (X : Fin N → Lip.Pt m) (hX : latinMaximin lb ub init draws = some X) :
    IsLatin lb ub X ∧ ∀ p i, lb i ≤ X p i ∧ X p i ≤ ub i := by
  have hi := latin_fold_inv lb ub draws _ (latin_init_inv lb ub init)
  obtain ⟨e, _⟩ := hi.2.1 X hX
  rw [e]
  exact ⟨latinPoints_latin lb ub _ hi.1, fun p i => latinPoints_inside lb ub h _ p i⟩

/-! ### The score of the returned design -/

theorem tupleLt_trans {a b c : List ℝ} (h1 : tupleLt a b) (h2 : tupleLt b c) : tupleLt a c := by
  induction a generalizing b c with
  | nil => cases b <;> cases c <;> simp_all [tupleLt]
  | cons x a ih =>
    cases b with
    | nil => simp [tupleLt] at h1
    | cons y b =>
      cases c with
      | nil => simp [tupleLt] at h2
      | cons z c =>
        simp only [tupleLt] at h1 h2 ⊢
        rcases h1 with h1 | ⟨rfl, h1⟩ <;> rcases h2 with h2 | ⟨rfl, h2⟩
        · exact Or.inl (h1.trans h2)
        · exact Or.inl h1
        · exact Or.inl h2
        · exact Or.inr ⟨rfl, ih h1 h2⟩

theorem tupleLt_trichotomy (a b : List ℝ) : tupleLt a b ∨ a = b ∨ tupleLt b a := by
  induction a generalizing b with
  | nil => cases b <;> simp [tupleLt]
  | cons x a ih =>
    cases b with
    | nil => simp [tupleLt]
    | cons y b =>
      simp only [tupleLt]
      rcases lt_trichotomy x y with h | rfl | h
      · exact Or.inl (Or.inl h)
      · rcases ih b with h | rfl | h
        · exact Or.inl (Or.inr ⟨rfl, h⟩)
        · exact Or.inr (Or.inl rfl)
        · exact Or.inr (Or.inr (Or.inr ⟨rfl, h⟩))
      · exact Or.inr (Or.inr (Or.inl h))

theorem tupleLt_irrefl (a : List ℝ) : ¬ tupleLt a a := by
  induction a with
  | nil => simp [tupleLt]
  | cons x a ih => simp [tupleLt, ih]

/-- The designs visited by the loop from a state. -/
noncomputable def visited (lb ub : Fin m → ℝ) : LatinState m N → List (LatinDraw m N) → List (Fin N → Lip.Pt m)
  | _, [] => []
  | s, d :: l => latinPoints lb ub (swapPerms s.perms d) :: visited lb ub (latinStep lb ub s d) l

theorem latin_fold_best (lb ub : Fin m → ℝ) (draws : List (LatinDraw m N)) (s : LatinState m N) :
    (∀ X ∈ visited lb ub s draws, ¬ tupleLt (draws.foldl (latinStep lb ub) s).best (score X)) ∧
      ¬ tupleLt (draws.foldl (latinStep lb ub) s).best s.best := by
  induction draws generalizing s with
  | nil => exact ⟨fun X h => (by cases h), tupleLt_irrefl _⟩
  | cons d l ih =>
    rw [List.foldl_cons]
    obtain ⟨h1, h2⟩ := ih (latinStep lb ub s d)
    have hge : ¬ tupleLt (latinStep lb ub s d).best s.best ∧ ¬ tupleLt (latinStep lb ub s d).best (score (latinPoints lb ub (swapPerms s.perms d))) := by
      unfold latinStep
      by_cases hs : tupleLt s.best (score (latinPoints lb ub (swapPerms s.perms d)))
      · rw [if_pos hs]
        exact ⟨fun h => tupleLt_irrefl _ (tupleLt_trans h hs), tupleLt_irrefl _⟩
      · rw [if_neg hs]; exact ⟨tupleLt_irrefl _, hs⟩
    have step : ∀ c, ¬ tupleLt (latinStep lb ub s d).best c → ¬ tupleLt (l.foldl (latinStep lb ub) (latinStep lb ub s d)).best c := by
      intro c hc hlt
      rcases tupleLt_trichotomy (latinStep lb ub s d).best c with h | h | h
      · exact hc h
      · rw [← h] at hlt; exact h2 hlt
      · exact h2 (tupleLt_trans hlt h)
    refine ⟨fun X hX => ?_, step _ hge.1⟩
    rcases List.mem_cons.1 hX with rfl | hX
    · exact step _ hge.2
    · exact h1 X hX

/-- The returned design has the best score among all designs visited. -/
theorem latinMaximin_best (lb ub : Fin m → ℝ) (init : Fin m → Equiv.Perm (Fin N)) (draws : List (LatinDraw m N))
    (X : Fin N → Lip.Pt m) (hX : latinMaximin lb ub init draws = some X) :
    ∀ Y ∈ visited lb ub ⟨fun i => init i, none, List.replicate N 0⟩ draws, ¬ tupleLt (score X) (score Y) := by
  intro Y hY
  have h := (latin_fold_best lb ub draws ⟨fun i => init i, none, List.replicate N 0⟩).1 Y hY
  have hi := latin_fold_inv lb ub draws _ (latin_init_inv lb ub init)
  rw [(hi.2.1 X hX).2] at h
  exact h

theorem score_ge {X : Fin N → Lip.Pt m} (hN : 2 ≤ N) {c : ℝ} (hd : ∀ p q, p ≠ q → c ≤ Lip.nrm (X p - X q)) : ∀ s ∈ score X, c ≤ s := by
  intro s hs
  unfold score at hs
  rw [List.mem_insertionSort] at hs
  obtain ⟨j, _, rfl⟩ := List.mem_map.1 hs
  have hne : (List.finRange N).map (fun i => scoreMat X i j) ≠ [] := by
    intro h; have := List.map_eq_nil_iff.1 h
    have := congrArg List.length this
    simp at this; omega
  obtain ⟨i, _, hi⟩ := List.mem_map.1 (minL_spec hne).1
  unfold minDist
  rw [← hi]
  by_cases hij : i = j
  · unfold scoreMat
    rw [if_pos hij]
    set l := (List.finRange N).flatMap (fun a => (List.finRange N).map (fun b => Lip.nrm (X a - X b))) with hl
    have hm : Lip.nrm (X ⟨0, by omega⟩ - X ⟨1, by omega⟩) ∈ l :=
      List.mem_flatMap.2 ⟨_, List.mem_finRange _, List.mem_map.2 ⟨_, List.mem_finRange _, rfl⟩⟩
    exact (hd _ _ (by simp)).trans ((maxL_spec (List.ne_nil_of_mem hm)).2 _ hm)
  · unfold scoreMat
    rw [if_neg hij]; exact hd _ _ hij

/-- C40: no design visited has a larger smallest pairwise distance than the one returned. -/
theorem latinMaximin_maximin (lb ub : Fin m → ℝ) (hN : 2 ≤ N) (init : Fin m → Equiv.Perm (Fin N)) (draws : List (LatinDraw m N))
    (X : Fin N → Lip.Pt m) (hX : latinMaximin lb ub init draws = some X) (Y : Fin N → Lip.Pt m)
    (hY : Y ∈ visited lb ub ⟨fun i => init i, none, List.replicate N 0⟩ draws) (c : ℝ)
    (hc : ∀ p q, p ≠ q → c ≤ Lip.nrm (Y p - Y q)) : ∀ p q, p ≠ q → c ≤ Lip.nrm (X p - X q) := by
  have hb := latinMaximin_best lb ub init draws X hX Y hY
  have hY' := score_ge hN hc
  intro p q hpq
  have hq : minDist X q ∈ score X := by
    unfold score; rw [List.mem_insertionSort]; exact List.mem_map.2 ⟨q, List.mem_finRange _, rfl⟩
  have hsorted : (score X).Pairwise (· ≤ ·) := List.pairwise_insertionSort (· ≤ ·) _
  have hle : minDist X q ≤ Lip.nrm (X p - X q) := by
    have hm : scoreMat X p q ∈ (List.finRange N).map (fun i => scoreMat X i q) := List.mem_map.2 ⟨p, List.mem_finRange _, rfl⟩
    have := (minL_spec (List.ne_nil_of_mem hm)).2 _ hm
    unfold scoreMat at this
    rw [if_neg hpq] at this
    exact this
  refine le_trans ?_ hle
  have hlen : (score Y).length = N := by simp [score]
  cases hsX : score X with
  | nil => rw [hsX] at hq; cases hq
  | cons a l =>
    cases hsY : score Y with
    | nil => rw [hsY] at hlen; simp at hlen; omega
    | cons b k =>
      rw [hsX, hsY] at hb
      rw [hsX] at hq hsorted
      have hab : b ≤ a := by
        by_contra hlt
        exact hb (Or.inl (not_le.1 hlt))
      have hcb : c ≤ b := hY' b (by rw [hsY]; exact List.mem_cons_self)
      have haq : a ≤ minDist X q := by
        rcases List.mem_cons.1 hq with h | h
        · exact h.symm.le
        · exact (List.pairwise_cons.1 hsorted).1 _ h
      linarith

/-! ### When a design is returned -/

theorem mid_injective {lb ub : ℝ} (h : lb < ub) (hN : 0 < N) {j k : ℕ} (he : midAt lb ub N j = midAt lb ub N k) : j = k :=
  (midAt_stratum h hN j k).1 (by rw [he]; exact (midAt_stratum h hN k k).2 rfl)

/-- The points of a Latin design are distinct once one coordinate has positive width. -/
theorem latinPoints_distinct (lb ub : Fin m → ℝ) (i : Fin m) (hi : lb i < ub i) (π : Fin m → Fin N → Fin N)
    (hπ : ∀ i, Function.Bijective (π i)) {p q : Fin N} (hpq : p ≠ q) : latinPoints lb ub π p ≠ latinPoints lb ub π q := by
  intro h
  have := congrFun h i
  have hN : 0 < N := lt_of_le_of_lt (Nat.zero_le _) p.2
  exact hpq ((hπ i).1 (Fin.ext (mid_injective hi hN this)))

theorem score_pos {X : Fin N → Lip.Pt m} (hN : 2 ≤ N) (hd : ∀ p q, p ≠ q → X p ≠ X q) : ∀ s ∈ score X, 0 < s := by
  intro s hs
  unfold score at hs
  rw [List.mem_insertionSort] at hs
  obtain ⟨j, _, rfl⟩ := List.mem_map.1 hs
  have hpos : ∀ p q : Fin N, p ≠ q → 0 < Lip.nrm (X p - X q) := fun p q h => Lip.nrm_pos_of_ne (sub_ne_zero.2 (hd p q h))
  have hne : (List.finRange N).map (fun i => scoreMat X i j) ≠ [] := by
    intro h; have := List.map_eq_nil_iff.1 h
    have := congrArg List.length this
    simp at this; omega
  obtain ⟨i, _, hi⟩ := List.mem_map.1 (minL_spec hne).1
  unfold minDist
  rw [← hi]
  by_cases hij : i = j
  · unfold scoreMat
    rw [if_pos hij]
    set l := (List.finRange N).flatMap (fun a => (List.finRange N).map (fun b => Lip.nrm (X a - X b))) with hl
    have hm : Lip.nrm (X ⟨0, by omega⟩ - X ⟨1, by omega⟩) ∈ l :=
      List.mem_flatMap.2 ⟨_, List.mem_finRange _, List.mem_map.2 ⟨_, List.mem_finRange _, rfl⟩⟩
    exact lt_of_lt_of_le (hpos _ _ (by simp)) ((maxL_spec (List.ne_nil_of_mem hm)).2 _ hm)
  · unfold scoreMat
    rw [if_neg hij]; exact hpos _ _ hij

theorem tupleLt_zero {l : List ℝ} {n : ℕ} (hn : 0 < n) (hl : l.length = n) (h : ∀ s ∈ l, 0 < s) : tupleLt (List.replicate n 0) l := by
  cases l with
  | nil => simp at hl; omega
  | cons a l =>
    cases n with
    | zero => omega
    | succ n =>
      rw [List.replicate_succ]
      exact Or.inl (h a List.mem_cons_self)

theorem latin_fold_some (lb ub : Fin m → ℝ) (draws : List (LatinDraw m N)) (s : LatinState m N) (h : s.X ≠ none) :
    (draws.foldl (latinStep lb ub) s).X ≠ none := by
  induction draws generalizing s with
  | nil => exact h
  | cons d l ih =>
    rw [List.foldl_cons]
    refine ih _ ?_
    unfold latinStep
    split
    · simp
    · exact h

/-- C40: with at least one iteration, two points and a box of positive width in some coordinate, a design is always returned: the
first design already improves the initial score of zero. -/
theorem latinMaximin_some (lb ub : Fin m → ℝ) (i : Fin m) (hi : lb i < ub i) (hN : 2 ≤ N) (init : Fin m → Equiv.Perm (Fin N))
    (draws : List (LatinDraw m N)) (hd : draws ≠ []) : latinMaximin lb ub init draws ≠ none := by
  cases draws with
  | nil => exact absurd rfl hd
  | cons d l =>
    unfold latinMaximin
    rw [List.foldl_cons]
    refine latin_fold_some lb ub l _ ?_
    have hb := swapPerms_bijective (m := m) (fun i => init i) (fun i => (init i).bijective) d
    have hlt : tupleLt (List.replicate N 0) (score (latinPoints lb ub (swapPerms (fun i => init i) d))) := by
      refine tupleLt_zero (by omega) ?_ (score_pos hN fun p q => latinPoints_distinct lb ub i hi _ hb)
      simp [score]
    unfold latinStep
    rw [if_pos hlt]
    simp

/-- Without iterations nothing is returned. -/
theorem latinMaximin_none (lb ub : Fin m → ℝ) (init : Fin m → Equiv.Perm (Fin N)) : latinMaximin lb ub init [] = none := rfl

/-- C40, disagreement: on a box reduced to a point every score is zero, so nothing is ever returned, whatever the number of
iterations. -/
theorem latinMaximin_point (lb : Fin m → ℝ) (init : Fin m → Equiv.Perm (Fin N)) (draws : List (LatinDraw m N)) :
    latinMaximin lb lb init draws = none := by
  have hz : ∀ π : Fin m → Fin N → Fin N, score (latinPoints lb lb π) = List.replicate N 0 := by
    intro π
    have hX : ∀ p, latinPoints lb lb π p = lb := fun p => by
      funext i; unfold latinPoints midAt linspaceAt; simp
    have hall : ∀ i j, scoreMat (latinPoints lb lb π) i j = 0 := by
      intro i j
      unfold scoreMat
      simp only [hX, sub_self, Lip.nrm_zero]
      split
      · have hne : ((List.finRange N).flatMap (fun _ => (List.finRange N).map (fun _ => (0 : ℝ)))) ≠ [] :=
          List.ne_nil_of_mem (List.mem_flatMap.2 ⟨i, List.mem_finRange _, List.mem_map.2 ⟨i, List.mem_finRange _, rfl⟩⟩)
        obtain ⟨a, _, h2⟩ := List.mem_flatMap.1 (maxL_spec hne).1
        obtain ⟨b, _, h3⟩ := List.mem_map.1 h2
        exact h3.symm
      · rfl
    have hmin : ∀ j, minDist (latinPoints lb lb π) j = 0 := by
      intro j
      unfold minDist
      have hne : (List.finRange N).map (fun i => scoreMat (latinPoints lb lb π) i j) ≠ [] :=
        List.ne_nil_of_mem (List.mem_map.2 ⟨j, List.mem_finRange _, rfl⟩)
      obtain ⟨i, _, hi⟩ := List.mem_map.1 (minL_spec hne).1
      rw [← hi, hall]
    refine List.eq_replicate_iff.2 ⟨by simp [score], fun b hb => ?_⟩
    unfold score at hb
    rw [List.mem_insertionSort] at hb
    obtain ⟨j, _, rfl⟩ := List.mem_map.1 hb
    exact hmin j
  have : ∀ (l : List (LatinDraw m N)) (s : LatinState m N), s.best = List.replicate N 0 → l.foldl (latinStep lb lb) s = s := by
    intro l
    induction l with
    | nil => intro s _; rfl
    | cons d l ih =>
      intro s hs
      rw [List.foldl_cons]
      have : latinStep lb lb s d = s := by
        unfold latinStep
        rw [if_neg]
        rw [hs, hz]; exact tupleLt_irrefl _
      rw [this]; exact ih s hs
  unfold latinMaximin
  rw [this _ _ rfl]

example : latinMaximin (m := 1) (N := 2) (fun _ => 0) (fun _ => 1) (fun _ => 1) [⟨0, 1, by decide, fun _ => 0⟩] ≠ none :=
  latinMaximin_some _ _ 0 (by norm_num) (le_refl 2) _ _ (by simp)

end Verif.Samp
