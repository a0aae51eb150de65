import Verif.Domain.RoundGridModel
import Verif.Domain.RoundNorm
import Verif.Domain.RoundExists
import Verif.Domain.GridProps

/-!
# Grids, sweeps and Latin hypercube designs in rounded arithmetic (C172)
-/

namespace Verif.Round

open Verif Verif.Domain

variable {F : FP}

/-! ### Specification -/

/-- Entry `k` of `n` evenly spaced numbers from `l` to `h`. -/
noncomputable def evenly (l h : ℝ) (n k : ℕ) : ℝ := l + k * ((h - l) / ((n : ℝ) - 1))

/-- The format is binary: doubling is exact. -/
def Doubles (F : FP) : Prop := ∀ t, F.rd (2 * t) = 2 * F.rd t

/-- The number of points is small compared with the precision (for double precision: less than about `3·10^15`). -/
def Few (F : FP) (n : ℕ) : Prop := (1 + F.u) ^ 3 * ((n : ℝ) - 2) ≤ (n : ℝ) - 1

/-! ### Evenly spaced numbers -/

theorem rd_two_sided {t : ℝ} (h : 0 ≤ t) : 0 ≤ F.rd t ∧ F.rd t ≤ (1 + F.u) * t := by
  have := abs_rd_le (F := F) t
  have h2 := rd_nonneg (F := F) h
  rw [abs_of_nonneg h2, abs_of_nonneg h] at this
  exact ⟨h2, this⟩

/-- The computed step. -/
theorem stepF_bounds {l h : ℝ} (hlh : l ≤ h) {n : ℕ} (hn : 1 < n) : 0 ≤ F.rd (F.rd (h - l) / ((n : ℝ) - 1)) ∧
    F.rd (F.rd (h - l) / ((n : ℝ) - 1)) ≤ (1 + F.u) ^ 2 * ((h - l) / ((n : ℝ) - 1)) := by
  have hn' : (0 : ℝ) < (n : ℝ) - 1 := by have : (1 : ℝ) < n := by exact_mod_cast hn
                                         linarith
  obtain ⟨a1, a2⟩ := rd_two_sided (F := F) (sub_nonneg.2 hlh)
  obtain ⟨b1, b2⟩ := rd_two_sided (F := F) (div_nonneg a1 hn'.le)
  refine ⟨b1, b2.trans ?_⟩
  have : F.rd (h - l) / ((n : ℝ) - 1) ≤ (1 + F.u) * (h - l) / ((n : ℝ) - 1) := by gcongr
  calc (1 + F.u) * (F.rd (h - l) / ((n : ℝ) - 1)) ≤ (1 + F.u) * ((1 + F.u) * (h - l) / ((n : ℝ) - 1)) :=
        mul_le_mul_of_nonneg_left this (by linarith [F.u_nonneg])
    _ = _ := by ring

/-- **C172**: evenly spaced numbers start and end exactly at the bounds. -/
theorem linF_ends {l h : ℝ} (hl : F.Float l) {n : ℕ} : linAtF F l h n 0 = l ∧ (1 < n → linAtF F l h n (n - 1) = h) := by
  constructor
  · unfold linAtF
    split_ifs with h1 h2
    · rw [Nat.cast_zero, zero_mul, rd_zero, zero_add]; exact hl
    · omega
    · rw [Nat.cast_zero, zero_mul, rd_zero, zero_add]; exact hl
  · intro hn
    unfold linAtF
    rw [if_neg (by omega), if_pos rfl]

/-- **C172**: they lie between the bounds. -/
theorem linF_inside {l h : ℝ} (hl : F.Float l) (hh : F.Float h) (hlh : l ≤ h) {n k : ℕ} (hf : Few F n) (hk : k < n) :
    l ≤ linAtF F l h n k ∧ linAtF F l h n k ≤ h ∧ F.Float (linAtF F l h n k) := by
  rcases Nat.lt_or_ge 1 n with hn | hn
  · by_cases hkn : k = n - 1
    · rw [hkn, (linF_ends hl).2 hn]; exact ⟨hlh, le_rfl, hh⟩
    unfold linAtF
    rw [if_neg (by omega), if_neg hkn]
    obtain ⟨s1, s2⟩ := stepF_bounds (F := F) hlh hn
    have hk0 : (0 : ℝ) ≤ k := Nat.cast_nonneg k
    have hk2 : (k : ℝ) ≤ (n : ℝ) - 2 := by
      have : k + 2 ≤ n := by omega
      have : ((k + 2 : ℕ) : ℝ) ≤ n := by exact_mod_cast this
      push_cast at this; linarith
    have hn' : (0 : ℝ) < (n : ℝ) - 1 := by linarith
    obtain ⟨p1, p2⟩ := rd_two_sided (F := F) (mul_nonneg hk0 s1)
    refine ⟨?_, ?_, F.idem _⟩
    · have := F.mono (show l ≤ F.rd (k * F.rd (F.rd (h - l) / ((n : ℝ) - 1))) + l by linarith)
      rwa [hl] at this
    · have hu := F.u_nonneg
      have hd : 0 ≤ (h - l) / ((n : ℝ) - 1) := div_nonneg (by linarith) hn'.le
      have h1 : F.rd (k * F.rd (F.rd (h - l) / ((n : ℝ) - 1))) ≤ h - l := by
        calc _ ≤ (1 + F.u) * (k * F.rd (F.rd (h - l) / ((n : ℝ) - 1))) := p2
          _ ≤ (1 + F.u) * (((n : ℝ) - 2) * ((1 + F.u) ^ 2 * ((h - l) / ((n : ℝ) - 1)))) := by
            have : (0 : ℝ) ≤ (n : ℝ) - 2 := hk0.trans hk2
            gcongr
          _ = (1 + F.u) ^ 3 * ((n : ℝ) - 2) * ((h - l) / ((n : ℝ) - 1)) := by ring
          _ ≤ ((n : ℝ) - 1) * ((h - l) / ((n : ℝ) - 1)) := mul_le_mul_of_nonneg_right hf hd
          _ = h - l := by field_simp
      have := F.mono (show F.rd (k * F.rd (F.rd (h - l) / ((n : ℝ) - 1))) + l ≤ h by linarith)
      rwa [hh] at this
  · have hk0 : k = 0 := by omega
    rw [hk0, (linF_ends hl).1]
    exact ⟨le_rfl, hlh, hl⟩

/-- **C172**: they never decrease. -/
theorem linF_mono {l h : ℝ} (hl : F.Float l) (hh : F.Float h) (hlh : l ≤ h) {n j k : ℕ} (hf : Few F n) (hjk : j ≤ k) (hk : k < n) :
    linAtF F l h n j ≤ linAtF F l h n k := by
  by_cases hkn : k = n - 1
  · rcases Nat.lt_or_ge 1 n with hn | hn
    · rw [hkn, (linF_ends hl).2 hn]
      exact (linF_inside hl hh hlh hf (by omega)).2.1
    · have : j = k := by omega
      rw [this]
  · unfold linAtF
    rw [if_neg (by omega), if_neg (by omega), if_neg (by omega), if_neg hkn]
    have hs := (stepF_bounds (F := F) hlh (show 1 < n by omega)).1
    have : (j : ℝ) ≤ k := by exact_mod_cast hjk
    exact F.mono (add_le_add_left (F.mono (mul_le_mul_of_nonneg_right this hs)) l)

theorem rd_rel {t s e : ℝ} (hs : 0 ≤ s) (ht : |t - s| ≤ e * s) : |F.rd t - s| ≤ ((1 + e) * (1 + F.u) - 1) * s :=
  rd_step ht (by rw [abs_of_nonneg hs])

/-- **C172**: they are accurate. -/
theorem linF_error {l h : ℝ} (hlh : l ≤ h) {n k : ℕ} (hn : 1 < n) (hk : k < n) :
    |linAtF F l h n k - evenly l h n k| ≤ ((1 + F.u) ^ 4 - 1) * (|l| + (h - l)) := by
  have hu := F.u_nonneg
  have hn' : (0 : ℝ) < (n : ℝ) - 1 := by have : (1 : ℝ) < n := by exact_mod_cast hn
                                         linarith
  have h4 : (1 : ℝ) ≤ (1 + F.u) ^ 4 := one_le_pow_u 4
  have hB : 0 ≤ |l| + (h - l) := add_nonneg (abs_nonneg _) (by linarith)
  by_cases hkn : k = n - 1
  · have : evenly l h n k = h := by
      have : (k : ℝ) = (n : ℝ) - 1 := by rw [hkn, Nat.cast_sub (by omega), Nat.cast_one]
      rw [evenly, this]; field_simp; ring
    rw [this, linAtF, if_neg (by omega), if_pos hkn, sub_self, abs_zero]
    exact mul_nonneg (by linarith) hB
  have hk0 : (0 : ℝ) ≤ k := Nat.cast_nonneg k
  have hk1 : (k : ℝ) ≤ (n : ℝ) - 1 := by
    have : ((k + 1 : ℕ) : ℝ) ≤ n := by exact_mod_cast hk
    push_cast at this; linarith
  have hd : 0 ≤ h - l := by linarith
  rw [linAtF, if_neg (by omega), if_neg hkn, evenly]
  have e1 : |F.rd (h - l) - (h - l)| ≤ F.u * (h - l) := by
    have := F.err (h - l); rwa [abs_of_nonneg hd] at this
  have e2 : |F.rd (h - l) / ((n : ℝ) - 1) - (h - l) / ((n : ℝ) - 1)| ≤ F.u * ((h - l) / ((n : ℝ) - 1)) := by
    rw [← sub_div, abs_div, abs_of_pos hn', ← mul_div_assoc]; gcongr
  have e3 := rd_rel (F := F) (div_nonneg hd hn'.le) e2
  have e4 : |k * F.rd (F.rd (h - l) / ((n : ℝ) - 1)) - k * ((h - l) / ((n : ℝ) - 1))| ≤ ((1 + F.u) * (1 + F.u) - 1) * (k * ((h - l) / ((n : ℝ) - 1))) := by
    rw [← mul_sub, abs_mul, abs_of_nonneg hk0]
    calc _ ≤ k * (((1 + F.u) * (1 + F.u) - 1) * ((h - l) / ((n : ℝ) - 1))) := mul_le_mul_of_nonneg_left e3 hk0
      _ = _ := by ring
  have e5 := rd_rel (F := F) (mul_nonneg hk0 (div_nonneg hd hn'.le)) e4
  set s := (k : ℝ) * ((h - l) / ((n : ℝ) - 1)) with hs
  set r := F.rd (k * F.rd (F.rd (h - l) / ((n : ℝ) - 1)))
  have hs0 : 0 ≤ s := mul_nonneg hk0 (div_nonneg hd hn'.le)
  have hs1 : s ≤ h - l := by
    calc s ≤ ((n : ℝ) - 1) * ((h - l) / ((n : ℝ) - 1)) := mul_le_mul_of_nonneg_right hk1 (div_nonneg hd hn'.le)
      _ = h - l := by field_simp
  have e6 : |r + l - (l + s)| ≤ ((1 + F.u) ^ 3 - 1) * (|l| + (h - l)) := by
    rw [show r + l - (l + s) = r - s by ring]
    have h3 : (1 : ℝ) ≤ (1 + F.u) ^ 3 := one_le_pow_u 3
    calc |r - s| ≤ ((1 + F.u) ^ 3 - 1) * s := by convert e5 using 2; ring
      _ ≤ _ := mul_le_mul_of_nonneg_left (by linarith [abs_nonneg l]) (by linarith)
  have e7 := rd_step (F := F) e6 (by
    calc |l + s| ≤ |l| + |s| := abs_add_le _ _
      _ ≤ _ := by rw [abs_of_nonneg hs0]; linarith)
  refine e7.trans (le_of_eq ?_)
  ring

/-- **C172**: they are all different when the spacing exceeds the rounding errors. -/
theorem linF_strict {l h : ℝ} (hlh : l ≤ h) {n j k : ℕ} (hjk : j < k) (hk : k < n)
    (hs : 2 * (((1 + F.u) ^ 4 - 1) * (|l| + (h - l))) < (h - l) / ((n : ℝ) - 1)) : linAtF F l h n j < linAtF F l h n k := by
  have hn : 1 < n := by omega
  have hn' : (0 : ℝ) < (n : ℝ) - 1 := by have : (1 : ℝ) < n := by exact_mod_cast hn
                                         linarith
  have a := abs_le.1 (linF_error (F := F) hlh hn (show j < n by omega))
  have b := abs_le.1 (linF_error (F := F) hlh hn hk)
  have c : evenly l h n j + (h - l) / ((n : ℝ) - 1) ≤ evenly l h n k := by
    unfold evenly
    have : ((j + 1 : ℕ) : ℝ) ≤ k := by exact_mod_cast hjk
    push_cast at this
    nlinarith [div_nonneg (sub_nonneg.2 hlh) hn'.le]
  linarith [a.2, b.1]

/-- **C172, false in general**: if no number of the format lies between the bounds, three or more of them are not all different. -/
theorem linF_distinct_false {l h : ℝ} (hl : F.Float l) (hh : F.Float h) (hlh : l ≤ h) (hgap : ∀ t, F.Float t → l ≤ t → t ≤ h → t = l ∨ t = h) {n : ℕ} (hn : 3 ≤ n)
    (hf : Few F n) : ¬ (linF F l h n).Nodup := by
  intro hnd
  have hsub : linF F l h n ⊆ [l, h] := by
    intro t ht
    obtain ⟨k, hk, rfl⟩ := List.mem_map.1 ht
    obtain ⟨a, b, c⟩ := linF_inside hl hh hlh hf (List.mem_range.1 hk)
    rcases hgap _ c a b with e | e <;> simp [e]
  have := (hnd.subperm hsub).length_le
  simp [linF] at this
  omega

/-! ### Grids -/

theorem inBoundsF_of_between {lb ub x : Vec} {tol : ℝ} (ht : 0 ≤ tol) (hl : ∀ l ∈ lb, F.Float l) (hu : ∀ h ∈ ub, F.Float h)
    (h1 : ∀ p ∈ lb.zip x, p.1 ≤ p.2) (h2 : ∀ p ∈ ub.zip x, p.2 ≤ p.1) : inBoundsF F (lb.map XR.fin) (ub.map XR.fin) tol x := by
  constructor
  · intro q hq r hr
    rw [List.zip_map_left, List.mem_map] at hq
    obtain ⟨p, hp, rfl⟩ := hq
    have e : p.1 = r := by simpa using hr
    have hf := hl p.1 (List.of_mem_zip hp).1
    have := F.mono (show p.1 - tol ≤ p.1 by linarith)
    rw [hf] at this
    show F.rd (r - tol) ≤ p.2
    rw [← e]
    exact this.trans (h1 p hp)
  · intro q hq r hr
    rw [List.zip_map_left, List.mem_map] at hq
    obtain ⟨p, hp, rfl⟩ := hq
    have e : p.1 = r := by simpa using hr
    have hf := hu p.1 (List.of_mem_zip hp).1
    have := F.mono (show p.1 ≤ p.1 + tol by linarith)
    rw [hf] at this
    show p.2 ≤ F.rd (r + tol)
    rw [← e]
    exact (h2 p hp).trans this

/-- **C172**: `sample_grid` of a box loses no point: it returns `n^m` points, all choices of evenly spaced numbers, for every tolerance of the membership test including zero. -/
theorem gridF_all {lb ub : Vec} (hlen : lb.length = ub.length) (hl : ∀ l ∈ lb, F.Float l) (hu : ∀ h ∈ ub, F.Float h) (hlh : ∀ p ∈ lb.zip ub, p.1 ≤ p.2) {n : ℕ}
    (hf : Few F n) {tol : ℝ} (ht : 0 ≤ tol) : gridF F tol lb ub n = gridRows (List.zipWith (fun l h => linF F l h n) lb ub) ∧
      (gridF F tol lb ub n).length = n ^ lb.length ∧ ∀ x ∈ gridF F tol lb ub n, x.length = lb.length ∧ (∀ p ∈ lb.zip x, p.1 ≤ p.2) ∧ ∀ p ∈ ub.zip x, p.2 ≤ p.1 := by
  have hmem : ∀ (lb ub : Vec), lb.length = ub.length → (∀ l ∈ lb, F.Float l) → (∀ h ∈ ub, F.Float h) → (∀ p ∈ lb.zip ub, p.1 ≤ p.2) →
      ∀ x ∈ gridRows (List.zipWith (fun l h => linF F l h n) lb ub), x.length = lb.length ∧ (∀ p ∈ lb.zip x, p.1 ≤ p.2) ∧ ∀ p ∈ ub.zip x, p.2 ≤ p.1 := by
    intro lb
    induction lb with
    | nil =>
      intro ub hlen _ _ _ x hx
      have : ub = [] := List.length_eq_zero_iff.1 hlen.symm
      subst this
      simp [gridRows] at hx
      subst hx
      simp
    | cons l lb ih =>
      intro ub hlen hl hu hlh x hx
      rcases ub with _ | ⟨h, ub⟩
      · simp at hlen
      simp only [List.zipWith_cons_cons, gridRows, List.mem_flatMap, List.mem_map] at hx
      obtain ⟨v, hv, r, hr, rfl⟩ := hx
      obtain ⟨i1, i2, i3⟩ := ih ub (by simpa using hlen) (fun a ha => hl a (by simp [ha])) (fun a ha => hu a (by simp [ha])) (fun p hp => hlh p (by simp [hp])) r hr
      obtain ⟨k, hk, rfl⟩ := List.mem_map.1 hv
      obtain ⟨a, b, -⟩ := linF_inside (hl l (by simp)) (hu h (by simp)) (hlh (l, h) (by simp)) hf (List.mem_range.1 hk)
      refine ⟨by simp [i1], fun p hp => ?_, fun p hp => ?_⟩
      · simp only [List.zip_cons_cons, List.mem_cons] at hp
        rcases hp with rfl | hp
        · exact a
        · exact i2 p hp
      · simp only [List.zip_cons_cons, List.mem_cons] at hp
        rcases hp with rfl | hp
        · exact b
        · exact i3 p hp
  have hall : gridF F tol lb ub n = gridRows (List.zipWith (fun l h => linF F l h n) lb ub) := by
    unfold gridF
    rw [List.filter_eq_self]
    intro x hx
    obtain ⟨-, h1, h2⟩ := hmem lb ub hlen hl hu hlh x hx
    simpa using inBoundsF_of_between ht hl hu h1 h2
  refine ⟨hall, ?_, fun x hx => hmem lb ub hlen hl hu hlh x (by rwa [← hall])⟩
  rw [hall]
  clear hmem hall hl hu hlh
  induction lb generalizing ub with
  | nil => simp [gridRows]
  | cons l lb ih =>
    rcases ub with _ | ⟨h, ub⟩
    · simp at hlen
    have := ih (ub := ub) (by simpa using hlen)
    simp only [List.zipWith_cons_cons, gridRows, List.length_flatMap, List.length_map, this, List.length_cons]
    rw [List.map_const', List.sum_replicate]
    simp [linF, pow_succ, mul_comm]

/-! ### Latin hypercubes -/

/-- **C172**: in a binary format the coordinates of Latin hypercube designs lie in their strata, hence in the box. -/
theorem midF_stratum (hd : Doubles F) {l h : ℝ} (hl : F.Float l) (hh : F.Float h) (hlh : l ≤ h) {N k : ℕ} (hf : Few F (N + 1)) (hk : k < N) :
    linAtF F l h (N + 1) k ≤ midF F l h N k ∧ midF F l h N k ≤ linAtF F l h (N + 1) (k + 1) := by
  obtain ⟨-, -, a⟩ := linF_inside hl hh hlh hf (show k < N + 1 by omega)
  obtain ⟨-, -, b⟩ := linF_inside hl hh hlh hf (show k + 1 < N + 1 by omega)
  have hm := linF_mono hl hh hlh hf (Nat.le_succ k) (show k + 1 < N + 1 by omega)
  unfold midF
  set x := linAtF F l h (N + 1) k
  set y := linAtF F l h (N + 1) (k + 1)
  constructor
  · have h1 := F.mono (show 2 * x ≤ y + x by linarith)
    rw [hd, a] at h1
    have h2 := F.mono (show x ≤ F.rd (y + x) / 2 by linarith)
    rwa [a] at h2
  · have h1 := F.mono (show y + x ≤ 2 * y by linarith)
    rw [hd, b] at h1
    have h2 := F.mono (show F.rd (y + x) / 2 ≤ y by linarith)
    rwa [b] at h2

theorem midF_inside (hd : Doubles F) {l h : ℝ} (hl : F.Float l) (hh : F.Float h) (hlh : l ≤ h) {N k : ℕ} (hf : Few F (N + 1)) (hk : k < N) :
    l ≤ midF F l h N k ∧ midF F l h N k ≤ h := by
  obtain ⟨a, b⟩ := midF_stratum hd hl hh hlh hf hk
  exact ⟨(linF_inside hl hh hlh hf (show k < N + 1 by omega)).1.trans a, b.trans (linF_inside hl hh hlh hf (show k + 1 < N + 1 by omega)).2.1⟩

/-! ### Sweeps -/

/-- **C172**: a sweep starts and ends exactly at its end points, and every point of it is near the exact one. -/
theorem sweepF_ends (h1 : F.Float 1) {c1 c2 : ℝ} (hc1 : F.Float c1) (hc2 : F.Float c2) {n : ℕ} (hn : 1 < n) :
    sweepF F c1 c2 n 0 = c1 ∧ sweepF F c1 c2 n (n - 1) = c2 := by
  have h0 : F.Float 0 := rd_zero
  constructor
  · unfold sweepF
    rw [(linF_ends h0).1, sub_zero, h1, one_mul, zero_mul, rd_zero, add_zero, hc1, hc1]
  · unfold sweepF
    rw [(linF_ends h0).2 hn, sub_self, rd_zero, zero_mul, rd_zero, zero_add, one_mul, hc2, hc2]

theorem sweepF_error (h1 : F.Float 1) {c1 c2 B : ℝ} (hc1 : |c1| ≤ B) (hc2 : |c2| ≤ B) {n k : ℕ} (hf : Few F n) (hk : k < n) :
    ∃ t, 0 ≤ t ∧ t ≤ 1 ∧ |sweepF F c1 c2 n k - ((1 - t) * c1 + t * c2)| ≤ ((1 + F.u) ^ 3 - 1) * B := by
  have h0 : F.Float 0 := rd_zero
  obtain ⟨t0, t1, -⟩ := linF_inside h0 h1 zero_le_one hf hk
  refine ⟨linAtF F 0 1 n k, t0, t1, ?_⟩
  unfold sweepF
  set t := linAtF F 0 1 n k
  have hu := F.u_nonneg
  have hB : 0 ≤ B := (abs_nonneg _).trans hc1
  have e1 : |F.rd (1 - t) - (1 - t)| ≤ F.u * (1 - t) := by
    have := F.err (1 - t); rwa [abs_of_nonneg (by linarith : (0 : ℝ) ≤ 1 - t)] at this
  have e2 : |F.rd (1 - t) * c1 - (1 - t) * c1| ≤ F.u * ((1 - t) * B) := by
    rw [← sub_mul, abs_mul]
    calc _ ≤ F.u * (1 - t) * B := mul_le_mul e1 hc1 (abs_nonneg _) (mul_nonneg hu (by linarith))
      _ = _ := by ring
  have e3 := rd_step (F := F) e2 (by rw [abs_mul, abs_of_nonneg (by linarith : (0 : ℝ) ≤ 1 - t)]; exact mul_le_mul_of_nonneg_left hc1 (by linarith))
  have e4 : |F.rd (t * c2) - t * c2| ≤ F.u * (t * B) := by
    refine (F.err _).trans (mul_le_mul_of_nonneg_left ?_ hu)
    rw [abs_mul, abs_of_nonneg t0]
    exact mul_le_mul_of_nonneg_left hc2 t0
  have e5 : |F.rd (F.rd (1 - t) * c1) + F.rd (t * c2) - ((1 - t) * c1 + t * c2)| ≤ ((1 + F.u) ^ 2 - 1) * B := by
    have : F.rd (F.rd (1 - t) * c1) + F.rd (t * c2) - ((1 - t) * c1 + t * c2) = (F.rd (F.rd (1 - t) * c1) - (1 - t) * c1) + (F.rd (t * c2) - t * c2) := by ring
    rw [this]
    refine (abs_add_le _ _).trans ?_
    have h2 : F.u * (t * B) ≤ ((1 + F.u) ^ 2 - 1) * (t * B) := mul_le_mul_of_nonneg_right (by nlinarith) (mul_nonneg t0 hB)
    nlinarith
  have e6 := rd_step (F := F) e5 (by
    calc |(1 - t) * c1 + t * c2| ≤ |(1 - t) * c1| + |t * c2| := abs_add_le _ _
      _ ≤ (1 - t) * B + t * B := by
        rw [abs_mul, abs_mul, abs_of_nonneg t0, abs_of_nonneg (by linarith : (0 : ℝ) ≤ 1 - t)]
        exact add_le_add (mul_le_mul_of_nonneg_left hc1 (by linarith)) (mul_le_mul_of_nonneg_left hc2 t0)
      _ = B := by ring)
  refine e6.trans (le_of_eq ?_)
  ring

/-- **C172**: between two points of an interval a sweep leaves the interval by at most the rounding errors. -/
theorem sweepF_inside (h1 : F.Float 1) {l h c1 c2 B : ℝ} (hc1 : l ≤ c1 ∧ c1 ≤ h) (hc2 : l ≤ c2 ∧ c2 ≤ h) (hl : |l| ≤ B) (hh : |h| ≤ B) {n k : ℕ} (hf : Few F n)
    (hk : k < n) : l - ((1 + F.u) ^ 3 - 1) * B ≤ sweepF F c1 c2 n k ∧ sweepF F c1 c2 n k ≤ h + ((1 + F.u) ^ 3 - 1) * B := by
  have hb : ∀ c, l ≤ c ∧ c ≤ h → |c| ≤ B := fun c hc => abs_le.2 ⟨by linarith [(abs_le.1 hl).1, hc.1], by linarith [(abs_le.1 hh).2, hc.2]⟩
  obtain ⟨t, t0, t1, ht⟩ := sweepF_error h1 (hb c1 hc1) (hb c2 hc2) hf hk
  rw [abs_le] at ht
  have a : l ≤ (1 - t) * c1 + t * c2 := by nlinarith
  have b : (1 - t) * c1 + t * c2 ≤ h := by nlinarith
  exact ⟨by linarith [ht.1], by linarith [ht.2]⟩

/-- **C172**: the points of a sweep pass the membership test of the box, coordinate by coordinate, when the tolerance exceeds the rounding errors. -/
theorem sweepF_accepted (h1 : F.Float 1) {l h c1 c2 B tol : ℝ} (hc1 : l ≤ c1 ∧ c1 ≤ h) (hc2 : l ≤ c2 ∧ c2 ≤ h) (hl : |l| ≤ B) (hh : |h| ≤ B) (ht : 0 ≤ tol)
    (htol : ((1 + F.u) ^ 3 - 1) * B + F.u * (B + tol) ≤ tol) {n k : ℕ} (hf : Few F n) (hk : k < n) :
    F.rd (l - tol) ≤ sweepF F c1 c2 n k ∧ sweepF F c1 c2 n k ≤ F.rd (h + tol) := by
  obtain ⟨a, b⟩ := sweepF_inside h1 hc1 hc2 hl hh hf hk
  have el := (abs_le.1 (F.err (l - tol))).2
  have eh := (abs_le.1 (F.err (h + tol))).1
  have bl : |l - tol| ≤ B + tol := by
    refine (abs_sub _ _).trans ?_
    rw [abs_of_nonneg ht]; linarith
  have bh : |h + tol| ≤ B + tol := by
    refine (abs_add_le _ _).trans ?_
    rw [abs_of_nonneg ht]; linarith
  have ml := mul_le_mul_of_nonneg_left bl F.u_nonneg
  have mh := mul_le_mul_of_nonneg_left bh F.u_nonneg
  constructor <;> linarith

/-- Double precision, the default tolerance and bounds up to a million meet the condition. -/
example : ((1 + double.u) ^ 3 - 1) * 10 ^ 6 + double.u * (10 ^ 6 + 1 / 10 ^ 5) ≤ 1 / 10 ^ 5 := by rw [double_u]; norm_num

/-! ### Double precision -/

theorem scale_two {p : ℕ} {t : ℝ} (ht : t ≠ 0) : scale p (2 * t) = scale p t / 2 := by
  have h : Int.log 2 |2 * t| = Int.log 2 |t| + 1 := by
    have hp : 0 < |t| := abs_pos.2 ht
    have a1 := Int.zpow_log_le_self (b := 2) (by norm_num) hp
    have a2 := Int.lt_zpow_succ_log_self (b := 2) (by norm_num) |t|
    rw [abs_mul, abs_two]
    apply le_antisymm
    · have : (2 : ℝ) * |t| < ((2 : ℕ) : ℝ) ^ (Int.log 2 |t| + 1 + 1) := by
        rw [zpow_add_one₀ (by norm_num)]; push_cast at a2 ⊢; linarith
      have := (Int.lt_zpow_iff_log_lt (b := 2) (by norm_num) (by positivity : (0:ℝ) < 2 * |t|)).1 this
      omega
    · apply (Int.zpow_le_iff_le_log (b := 2) (by norm_num) (by positivity : (0:ℝ) < 2 * |t|)).1
      rw [zpow_add_one₀ (by norm_num)]; push_cast at a1 ⊢; linarith
  unfold scale
  rw [h, ← sub_sub, zpow_sub_one₀ (by norm_num)]
  rfl

theorem double_doubles : Doubles double := by
  intro t
  show rdBin nearest 53 (2 * t) = 2 * rdBin nearest 53 t
  by_cases ht : t = 0
  · simp [rdBin, ht]
  · have hs := scale_pos 53 t
    rw [rdBin, rdBin, if_neg ht, if_neg (by simpa using ht), scale_two ht, show 2 * t * (scale 53 t / 2) = t * scale 53 t by ring]
    field_simp

/-- Up to a million points are few in double precision. -/
theorem double_few {n : ℕ} (hn : n ≤ 10 ^ 6) : Few double n := by
  unfold Few
  rw [double_u]
  have h : (n : ℝ) ≤ 10 ^ 6 := by exact_mod_cast hn
  rcases le_or_gt (2 : ℝ) n with h2 | h2
  · have : ((1 : ℝ) + 1 / 2 ^ 53) ^ 3 ≤ 1 + 1 / 10 ^ 6 := by norm_num
    nlinarith [mul_le_mul_of_nonneg_right this (by linarith : (0 : ℝ) ≤ n - 2)]
  · have : (1 : ℝ) ≤ (1 + 1 / 2 ^ 53) ^ 3 := by norm_num
    nlinarith [mul_le_mul_of_nonpos_right this (by linarith : (n : ℝ) - 2 ≤ 0)]

/-- Between `1` and the next number of double precision there is none. -/
theorem double_gap (t : ℝ) (ht : double.Float t) (h1 : 1 ≤ t) (h2 : t ≤ 1 + 1 / 2 ^ 52) : t = 1 ∨ t = 1 + 1 / 2 ^ 52 := by
  have ht' : rdBin nearest 53 t = t := ht
  have hlog : Int.log 2 |t| = 0 := by
    rw [abs_of_nonneg (by linarith)]
    apply le_antisymm
    · have : t < ((2 : ℕ) : ℝ) ^ (1 : ℤ) := by norm_num at h2 ⊢; linarith
      have := (Int.lt_zpow_iff_log_lt (b := 2) (by norm_num) (by linarith : (0:ℝ) < t)).1 this
      omega
    · apply (Int.zpow_le_iff_le_log (b := 2) (by norm_num) (by linarith : (0:ℝ) < t)).1
      simpa using h1
  have hsc : scale 53 t = 2 ^ 52 := by unfold scale; rw [hlog]; norm_num
  rw [rdBin, if_neg (by linarith), hsc] at ht'
  set z := nearest.ρ (t * 2 ^ 52)
  have hz : (z : ℝ) = t * 2 ^ 52 := by field_simp at ht'; linarith
  have z1 : (2 ^ 52 : ℤ) ≤ z := by
    have : ((2 ^ 52 : ℤ) : ℝ) ≤ z := by rw [hz]; push_cast; linarith
    exact_mod_cast this
  have z2 : z ≤ 2 ^ 52 + 1 := by
    have : (z : ℝ) ≤ ((2 ^ 52 + 1 : ℤ) : ℝ) := by rw [hz]; push_cast; linarith
    exact_mod_cast this
  rcases (by omega : z = 2 ^ 52 ∨ z = 2 ^ 52 + 1) with e | e
  · left; rw [e] at hz; push_cast at hz; linarith
  · right; rw [e] at hz; push_cast at hz; linarith

/-- The hypotheses for grids of `[0, 3] × [-1, 7]` with up to a million points in each direction. -/
example (n : ℕ) (hn : n ≤ 10 ^ 6) : (gridF double 0 [0, -1] [3, 7] n).length = n ^ 2 := by
  have e0 : double.Float 0 := rd_zero
  have e1 : double.Float (-1) := by have := double_int (-1) (by norm_num); push_cast at this; exact this
  have e3 : double.Float 3 := by have := double_int 3 (by norm_num); push_cast at this; exact this
  have e7 : double.Float 7 := by have := double_int 7 (by norm_num); push_cast at this; exact this
  have := (gridF_all (F := double) (lb := [0, -1]) (ub := [3, 7]) rfl (by simp [e0, e1]) (by simp [e3, e7]) (by simp; norm_num) (double_few hn) le_rfl).2.1
  simpa using this

theorem double_next : double.Float (1 + 1 / 2 ^ 52) := by
  have := double_fix (2 ^ 52 + 1) (-52) (by norm_num)
  unfold FP.Float
  convert this using 2 <;> (push_cast; norm_num)

/-- Three evenly spaced numbers between `1` and its successor are not all different, in double precision. -/
example : ¬ (linF double 1 (1 + 1 / 2 ^ 52) 3).Nodup :=
  linF_distinct_false (by have := double_int 1 (by norm_num); push_cast at this; exact this) double_next (by norm_num) double_gap le_rfl (double_few (by norm_num))

end Verif.Round
