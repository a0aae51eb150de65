import Verif.Sample.GreedyProps
import Verif.Lipschitz.BoundProps

/-!
# Designs and the width of uncertainty intervals (C156)

How narrow `LipschitzMatrix.uncertainty` can be made by choosing where to sample: the worst case over all functions with the given Lipschitz matrix is twice the
fill distance of the design, no adaptive choice of the points does better than the best fixed design, and the greedy design of
`maximin_coffeehouse` is within a factor of two of it.
-/

namespace Verif.Samp

open Verif Verif.Domain

variable {k m : ℕ}

/-! ## Specification -/

/-- The interval is bounded and at most `w` wide. -/
def WidthLe (b : XR × XR) (w : ℝ) : Prop := ∃ lo hi : ℝ, b = (.fin lo, .fin hi) ∧ hi - lo ≤ w

/-- Samples of a function. -/
def samplesOf (f : Lip.Pt m → ℝ) (X : List (Lip.Pt m)) : List (Lip.Pt m × ℝ) := X.map fun x => (x, f x)

/-- Whatever the function with Lipschitz matrix `L`, all intervals in the domain computed from its samples at `X` are at most `w` wide. -/
def Guarantees (L : Matrix (Fin k) (Fin m) ℝ) (inside : Lip.Pt m → Prop) (eps : Option ℝ) (X : List (Lip.Pt m)) (w : ℝ) : Prop :=
  ∀ f, Lip.IsLip L f → ∀ z, inside z → WidthLe (Lip.uncertainty L eps (samplesOf f X) z) w

/-- Samples taken one after the other, each point chosen from the values seen so far. -/
def asked (choose : List ℝ → Lip.Pt m) (f : Lip.Pt m → ℝ) : ℕ → List (Lip.Pt m × ℝ)
  | 0 => []
  | n + 1 => asked choose f n ++ [(choose ((asked choose f n).map Prod.snd), f (choose ((asked choose f n).map Prod.snd)))]

/-- The same for `N` samples whose points are chosen adaptively. -/
def AdaptiveGuarantees (L : Matrix (Fin k) (Fin m) ℝ) (inside : Lip.Pt m → Prop) (eps : Option ℝ) (choose : List ℝ → Lip.Pt m) (N : ℕ) (w : ℝ) : Prop :=
  ∀ f, Lip.IsLip L f → ∀ z, inside z → WidthLe (Lip.uncertainty L eps (asked choose f N) z) w

/-! ## The width for one design -/

theorem isLip_zero (L : Matrix (Fin k) (Fin m) ℝ) : Lip.IsLip L (fun _ => 0) := by
  intro x y
  rw [sub_self, abs_zero]
  exact Lip.nrm_nonneg _

theorem samplesOf_ne {f : Lip.Pt m → ℝ} {X : List (Lip.Pt m)} (h : X ≠ []) : samplesOf f X ≠ [] := by simpa [samplesOf] using h

/-- An interval is at most twice the distance to any sample wide. -/
theorem width_le_dist (L : Matrix (Fin k) (Fin m) ℝ) (eps : Option ℝ) {data : List (Lip.Pt m × ℝ)} {d : Lip.Pt m × ℝ} (hd : d ∈ data) (z : Lip.Pt m) :
    WidthLe (Lip.uncertainty L eps data z) (2 * Lip.ldist L d.1 z + 2 * eps.getD 0) := by
  obtain ⟨lo, hi, h1, -, h2, -, h3⟩ := Lip.uncertainty_spec L eps z (List.ne_nil_of_mem hd)
  refine ⟨_, _, h1, ?_⟩
  have a := h2 d hd
  have b := h3 d hd
  rw [← Lip.ldist_eq, Lip.ldist_comm] at a b
  linarith

/-- If all values are zero it is exactly twice the distance to the nearest sample wide. -/
theorem zero_width {L : Matrix (Fin k) (Fin m) ℝ} {eps : Option ℝ} {data : List (Lip.Pt m × ℝ)} (h0 : ∀ d ∈ data, d.2 = 0) {z : Lip.Pt m} {w : ℝ}
    (h : WidthLe (Lip.uncertainty L eps data z) w) : ∃ d ∈ data, 2 * Lip.ldist L d.1 z + 2 * eps.getD 0 ≤ w := by
  obtain ⟨lo', hi', e, hw⟩ := h
  have hne : data ≠ [] := by
    rintro rfl
    cases eps <;> simp [Lip.uncertainty, XR.sub, XR.add] at e
  obtain ⟨lo, hi, h1, ⟨d, hd, h2⟩, h3, ⟨d', hd', h4⟩, h5⟩ := Lip.uncertainty_spec L eps z hne
  rw [h1] at e
  simp only [Prod.mk.injEq, XR.fin.injEq] at e
  have a := h5 d hd
  have b := h3 d' hd'
  rw [h0 d' hd'] at b h4
  rw [h0 d hd] at a h2
  refine ⟨d', hd', ?_⟩
  rw [Lip.ldist_comm, Lip.ldist_eq]
  linarith [e.1, e.2]

/-- **C156**: the guaranteed width of a design is twice its fill distance, plus twice the noise level. -/
theorem guarantees_iff (L : Matrix (Fin k) (Fin m) ℝ) (inside : Lip.Pt m → Prop) (eps : Option ℝ) (X : List (Lip.Pt m)) (w : ℝ) :
    Guarantees L inside eps X w ↔ ∀ z, inside z → ∃ x ∈ X, 2 * Lip.ldist L x z + 2 * eps.getD 0 ≤ w := by
  constructor
  · intro h z hz
    obtain ⟨d, hd, hle⟩ := zero_width (by simp [samplesOf]) (h _ (isLip_zero L) z hz)
    simp only [samplesOf, List.mem_map] at hd
    obtain ⟨x, hx, rfl⟩ := hd
    exact ⟨x, hx, hle⟩
  · intro h f _ z hz
    obtain ⟨x, hx, hle⟩ := h z hz
    obtain ⟨lo, hi, e, hw⟩ := width_le_dist L eps (data := samplesOf f X) (d := (x, f x)) (List.mem_map_of_mem hx) z
    exact ⟨lo, hi, e, hw.trans hle⟩

theorem asked_length (choose : List ℝ → Lip.Pt m) (f : Lip.Pt m → ℝ) (n : ℕ) : (asked choose f n).length = n := by
  induction n with
  | zero => rfl
  | succ n ih => simp [asked, ih]

theorem asked_values (choose : List ℝ → Lip.Pt m) (f : Lip.Pt m → ℝ) (n : ℕ) : ∀ d ∈ asked choose f n, d.2 = f d.1 := by
  induction n with
  | zero => simp [asked]
  | succ n ih =>
    intro d hd
    rcases List.mem_append.1 hd with h | h
    · exact ih d h
    · rw [List.mem_singleton.1 h]

/-- **C156**: choosing the points from the values seen so far guarantees no more than some fixed design with as many points. -/
theorem adaptive_no_better {L : Matrix (Fin k) (Fin m) ℝ} {inside : Lip.Pt m → Prop} {eps : Option ℝ} {choose : List ℝ → Lip.Pt m} {N : ℕ} {w : ℝ}
    (h : AdaptiveGuarantees L inside eps choose N w) : ∃ Y : List (Lip.Pt m), Y.length = N ∧ Guarantees L inside eps Y w := by
  refine ⟨(asked choose (fun _ => 0) N).map Prod.fst, by rw [List.length_map, asked_length], (guarantees_iff L inside eps _ w).2 fun z hz => ?_⟩
  obtain ⟨d, hd, hle⟩ := zero_width (asked_values choose (fun _ => 0) N) (h _ (isLip_zero L) z hz)
  exact ⟨d.1, List.mem_map_of_mem hd, hle⟩

/-! ## Greedy designs -/

/-- A greedy design can be continued. -/
theorem coffee_continue {L : Matrix (Fin k) (Fin m) ℝ} {inside : Lip.Pt m → Prop} {cand : List (Lip.Pt m) → List (Lip.Pt m)} (hc : FarthestCand L inside cand)
    {x0 : Lip.Pt m} (h0 : inside x0) {N : ℕ} (hN : 1 ≤ N) {X : List (Lip.Pt m)} (h : coffeehouse L cand x0 N = .ok X) :
    ∃ X', coffeehouse L cand x0 (N + 1) = .ok X' ∧ X'.take N = X := by
  have hl := (coffee_length hN h).1
  have hne : X ≠ [] := by rintro rfl; simp at hl; omega
  obtain ⟨c, hcm, -⟩ := (hc X hne (coffee_inside hc h0 hN h)).2 x0 h0
  have hstep : ∃ X', coffeehouse L cand x0 (N + 1) = .ok X' := by
    unfold coffeehouse at h ⊢
    obtain ⟨n, rfl⟩ : ∃ n, N = n + 1 := ⟨N - 1, by omega⟩
    rw [Nat.add_sub_cancel] at h ⊢
    rw [coffeeRun, h]
    cases hq : cand X with
    | nil => rw [hq] at hcm; cases hcm
    | cons a as => exact ⟨X ++ [Geo.argmaxL (Geo.nearest L X) a as], by simp only [Bind.bind, Except.bind, coffeeStep, hq]⟩
  obtain ⟨X', hX'⟩ := hstep
  refine ⟨X', hX', ?_⟩
  have := coffee_nested hN (Nat.le_succ N) hX'
  rw [h] at this
  exact (Except.ok.inj this).symm

/-- Covering by as many balls as the greedy design has points. -/
theorem coffee_fill {L : Matrix (Fin k) (Fin m) ℝ} {inside : Lip.Pt m → Prop} {cand : List (Lip.Pt m) → List (Lip.Pt m)} (hc : FarthestCand L inside cand)
    {x0 : Lip.Pt m} (h0 : inside x0) {N : ℕ} (hN : 1 ≤ N) {X : List (Lip.Pt m)} (h : coffeehouse L cand x0 N = .ok X) {d : ℝ} {Y : List (Lip.Pt m)}
    (hY : Y.length ≤ N) (hYd : ∀ z, inside z → ∃ y ∈ Y, Lip.ldist L y z ≤ d) : ∀ z, inside z → ∃ x ∈ X, Lip.ldist L x z ≤ 2 * d := by
  obtain ⟨X', hX', ht⟩ := coffee_continue hc h0 hN h
  obtain ⟨y0, hy0, -⟩ := hYd x0 h0
  rw [← ht]
  refine coffee_minimax_half hc h0 hN hX' (Y := Y ++ List.replicate (N - Y.length) y0) (by simp; omega) fun z hz => ?_
  obtain ⟨y, hy, hle⟩ := hYd z hz
  exact ⟨y, List.mem_append_left _ hy, hle⟩

/-- **C156**: if some design with at most as many points guarantees the width `w`, the greedy design guarantees `2 w`. -/
theorem greedy_design {L : Matrix (Fin k) (Fin m) ℝ} {inside : Lip.Pt m → Prop} {cand : List (Lip.Pt m) → List (Lip.Pt m)} (hc : FarthestCand L inside cand)
    {x0 : Lip.Pt m} (h0 : inside x0) {N : ℕ} (hN : 1 ≤ N) {X : List (Lip.Pt m)} (h : coffeehouse L cand x0 N = .ok X) {w : ℝ} {Y : List (Lip.Pt m)}
    (hY : Y.length ≤ N) (hw : Guarantees L inside none Y w) : Guarantees L inside none X (2 * w) := by
  rw [guarantees_iff] at hw ⊢
  intro z hz
  obtain ⟨x, hx, hle⟩ := coffee_fill hc h0 hN h (d := w / 2) hY (fun z hz => by
    obtain ⟨y, hy, hle⟩ := hw z hz
    exact ⟨y, hy, by simp at hle; linarith⟩) z hz
  exact ⟨x, hx, by simp; linarith⟩

/-- **C156**: and so it is within a factor of two of every adaptive choice. -/
theorem greedy_adaptive {L : Matrix (Fin k) (Fin m) ℝ} {inside : Lip.Pt m → Prop} {cand : List (Lip.Pt m) → List (Lip.Pt m)} (hc : FarthestCand L inside cand)
    {x0 : Lip.Pt m} (h0 : inside x0) {N : ℕ} (hN : 1 ≤ N) {X : List (Lip.Pt m)} (h : coffeehouse L cand x0 N = .ok X) {w : ℝ} {choose : List ℝ → Lip.Pt m}
    (hw : AdaptiveGuarantees L inside none choose N w) : Guarantees L inside none X (2 * w) := by
  obtain ⟨Y, hY, hYw⟩ := adaptive_no_better hw
  exact greedy_design hc h0 hN h hY.le hYw

/-! ## Rates -/

/-- The midpoints of `n` equal parts of an interval. -/
theorem midpoint_near {a b t : ℝ} (h1 : a ≤ t) (h2 : t ≤ b) {n : ℕ} (hn : 1 ≤ n) : ∃ j : Fin n, |a + (b - a) * ((2 * (j : ℕ) + 1) / (2 * n)) - t| ≤ (b - a) / (2 * n) := by
  have hn0 : (0 : ℝ) < n := by exact_mod_cast hn
  rcases eq_or_lt_of_le (h1.trans h2) with hab | hab
  · refine ⟨⟨0, by omega⟩, ?_⟩
    have : t = a := le_antisymm (by linarith) h1
    rw [this, ← hab]; simp
  have hb : 0 < b - a := by linarith
  set s := (t - a) / (b - a) * n with hs
  have hs0 : 0 ≤ s := mul_nonneg (div_nonneg (by linarith) hb.le) hn0.le
  have hsn : s ≤ n := by
    have : (t - a) / (b - a) ≤ 1 := (div_le_one hb).2 (by linarith)
    nlinarith
  have key : ∃ j : Fin n, ((j : ℕ) : ℝ) ≤ s ∧ s ≤ (j : ℕ) + 1 := by
    by_cases hlt : ⌊s⌋₊ < n
    · exact ⟨⟨⌊s⌋₊, hlt⟩, Nat.floor_le hs0, (Nat.lt_floor_add_one s).le⟩
    · have : (n : ℝ) ≤ s := (Nat.le_floor_iff hs0).1 (not_lt.1 hlt)
      refine ⟨⟨n - 1, by omega⟩, ?_, ?_⟩
      · simp only
        rw [Nat.cast_sub hn]; push_cast; linarith
      · simp only
        rw [Nat.cast_sub hn]; push_cast; linarith
  obtain ⟨j, hj1, hj2⟩ := key
  refine ⟨j, ?_⟩
  have ht : t = a + (b - a) * (s / n) := by
    rw [hs]; field_simp; ring
  rw [ht, show a + (b - a) * ((2 * ((j : ℕ) : ℝ) + 1) / (2 * n)) - (a + (b - a) * (s / n)) = (b - a) * (((j : ℕ) + 1 / 2 - s) / n) by field_simp; ring]
  rw [abs_mul, abs_of_pos hb, abs_div, abs_of_pos hn0, div_eq_mul_one_div (b - a)]
  refine mul_le_mul_of_nonneg_left ?_ hb.le
  rw [show 1 / (2 * (n : ℝ)) = 1 / 2 / n by rw [div_div]]
  exact div_le_div_of_nonneg_right (by rw [abs_le]; constructor <;> linarith) hn0.le

/-- **C156**: rate of convergence.  If the domain is contained in a box and `L` stretches lengths by at most `Λ`, the greedy design with `nᵐ` points or more
guarantees the width `2 Λ ‖b - a‖ / n`. -/
theorem greedy_rate {L : Matrix (Fin k) (Fin m) ℝ} {inside : Lip.Pt m → Prop} {cand : List (Lip.Pt m) → List (Lip.Pt m)} (hc : FarthestCand L inside cand)
    {x0 : Lip.Pt m} (h0 : inside x0) {a b : Lip.Pt m} (hbox : ∀ z, inside z → ∀ i, a i ≤ z i ∧ z i ≤ b i) {Λ : ℝ} (hΛ : ∀ v, Lip.nrm (L.mulVec v) ≤ Λ * Lip.nrm v)
    {n N : ℕ} (hn : 1 ≤ n) (hN : n ^ m ≤ N) {X : List (Lip.Pt m)} (h : coffeehouse L cand x0 N = .ok X) :
    Guarantees L inside none X (2 * Λ * Lip.nrm (b - a) / n) := by
  have hn0 : (0 : ℝ) < n := by exact_mod_cast hn
  have hN1 : 1 ≤ N := le_trans (Nat.one_le_pow _ _ hn) hN
  have hab : ∀ i, 0 ≤ b i - a i := fun i => by linarith [(hbox x0 h0 i).1, (hbox x0 h0 i).2]
  let g : (Fin m → Fin n) → Lip.Pt m := fun j i => a i + (b i - a i) * ((2 * ((j i : ℕ) : ℝ) + 1) / (2 * n))
  have hlen : ((Finset.univ : Finset (Fin m → Fin n)).toList.map g).length ≤ N := by
    rw [List.length_map, Finset.length_toList, Finset.card_univ]
    simpa using hN
  have hΛ0 : 0 ≤ Λ * Lip.nrm (b - a) := (Lip.nrm_nonneg _).trans (hΛ (b - a))
  have hcov : ∀ z, inside z → ∃ y ∈ (Finset.univ : Finset (Fin m → Fin n)).toList.map g, Lip.ldist L y z ≤ Λ * Lip.nrm (b - a) / (2 * n) := by
    intro z hz
    choose j hj using fun i => midpoint_near (hbox z hz i).1 (hbox z hz i).2 hn
    refine ⟨g j, List.mem_map_of_mem (by simp), ?_⟩
    have hle : Lip.nrm (g j - z) ≤ Lip.nrm (b - a) / (2 * n) := by
      have h2n : (0 : ℝ) < 2 * n := by linarith
      rw [le_div_iff₀ h2n]
      refine le_of_sq_le_sq ?_ (Lip.nrm_nonneg _)
      rw [mul_pow, Lip.nrm_sq, Lip.nrm_sq]
      unfold dotProduct
      rw [Finset.sum_mul]
      refine Finset.sum_le_sum fun i _ => ?_
      have h1 := hj i
      rw [le_div_iff₀ h2n] at h1
      have h3 : (|g j i - z i| * (2 * n)) ^ 2 ≤ (b i - a i) ^ 2 := pow_le_pow_left₀ (mul_nonneg (abs_nonneg _) h2n.le) h1 2
      rw [mul_pow, sq_abs] at h3
      simp only [Pi.sub_apply]
      nlinarith
    rw [Lip.ldist_eq]
    have h1 := hΛ (g j - z)
    have hΛn : Λ * Lip.nrm (g j - z) ≤ Λ * Lip.nrm (b - a) / (2 * n) := by
      by_cases hl : 0 ≤ Λ
      · rw [mul_div_assoc]; exact mul_le_mul_of_nonneg_left hle hl
      · have : Λ * Lip.nrm (g j - z) ≤ 0 := mul_nonpos_of_nonpos_of_nonneg (not_le.1 hl).le (Lip.nrm_nonneg _)
        exact this.trans (div_nonneg hΛ0 (by linarith))
    exact h1.trans hΛn
  rw [guarantees_iff]
  intro z hz
  obtain ⟨x, hx, hle⟩ := coffee_fill hc h0 hN1 h hlen hcov z hz
  refine ⟨x, hx, ?_⟩
  have e : 2 * (2 * (Λ * Lip.nrm (b - a) / (2 * n))) = 2 * Λ * Lip.nrm (b - a) / n := by field_simp
  simp only [Option.getD_none]
  linarith

/-- Every matrix stretches lengths by a bounded factor. -/
theorem stretch_exists (L : Matrix (Fin k) (Fin m) ℝ) : ∃ Λ : ℝ, 0 ≤ Λ ∧ ∀ v, Lip.nrm (L.mulVec v) ≤ Λ * Lip.nrm v := by
  refine ⟨Real.sqrt (∑ i, ∑ j, L i j ^ 2), Real.sqrt_nonneg _, fun v => ?_⟩
  unfold Lip.nrm
  have hS : 0 ≤ ∑ i, ∑ j, L i j ^ 2 := Finset.sum_nonneg fun i _ => Finset.sum_nonneg fun j _ => sq_nonneg _
  rw [← Real.sqrt_mul hS]
  refine Real.sqrt_le_sqrt ?_
  rw [Finset.sum_mul]
  unfold dotProduct
  refine Finset.sum_le_sum fun i _ => ?_
  have := Finset.sum_mul_sq_le_sq_mul_sq Finset.univ (fun j => L i j) v
  rw [← pow_two]
  refine this.trans (le_of_eq ?_)
  congr 1
  exact Finset.sum_congr rfl fun j _ => pow_two _

/-- **C156**: in a bounded domain the guaranteed width of the greedy designs tends to zero. -/
theorem greedy_limit {L : Matrix (Fin k) (Fin m) ℝ} {inside : Lip.Pt m → Prop} {cand : List (Lip.Pt m) → List (Lip.Pt m)} (hc : FarthestCand L inside cand)
    {x0 : Lip.Pt m} (h0 : inside x0) {a b : Lip.Pt m} (hbox : ∀ z, inside z → ∀ i, a i ≤ z i ∧ z i ≤ b i) {w : ℝ} (hw : 0 < w) :
    ∃ N₀, ∀ N, N₀ ≤ N → ∃ X, coffeehouse L cand x0 N = .ok X ∧ Guarantees L inside none X w := by
  obtain ⟨Λ, hΛ0, hΛ⟩ := stretch_exists L
  have hex : ∀ N, ∃ X, coffeehouse L cand x0 (N + 1) = .ok X := by
    intro N
    induction N with
    | zero => exact ⟨[x0], rfl⟩
    | succ N ih =>
      obtain ⟨X, hX⟩ := ih
      obtain ⟨X', hX', -⟩ := coffee_continue hc h0 (by omega) hX
      exact ⟨X', hX'⟩
  obtain ⟨n, hn⟩ := exists_nat_gt (2 * Λ * Lip.nrm (b - a) / w)
  refine ⟨(n + 1) ^ m + 1, fun N hN => ?_⟩
  obtain ⟨X, hX⟩ := hex (N - 1)
  rw [show N - 1 + 1 = N by omega] at hX
  refine ⟨X, hX, fun f hf z hz => ?_⟩
  obtain ⟨lo, hi, e, hle⟩ := greedy_rate hc h0 hbox hΛ (n := n + 1) (by omega) (by omega) hX f hf z hz
  refine ⟨lo, hi, e, hle.trans ?_⟩
  have hn1 : (0 : ℝ) < ((n + 1 : ℕ) : ℝ) := by positivity
  rw [div_lt_iff₀ hw] at hn
  rw [div_le_iff₀ hn1]
  push_cast
  nlinarith

/-- **C156**: on an interval the candidates of `voronoi_vertex` do, so that `N` greedy samples of a function with constant `ℓ` guarantee the width
`2 ℓ (b - a) / N`. -/
theorem greedy_interval {ℓ a b : ℝ} (hℓ : 0 ≤ ℓ) (hab : a ≤ b) {x0 : ℝ} (h1 : a ≤ x0) (h2 : x0 ≤ b) {N : ℕ} (hN : 1 ≤ N) :
    ∃ X, coffeehouse (ℓ • (1 : Matrix (Fin 1) (Fin 1) ℝ)) (fun X => (Geo.voronoi1d a b (X.map (fun x => x 0))).map Geo.pt1) (Geo.pt1 x0) N = .ok X ∧
      Guarantees (ℓ • (1 : Matrix (Fin 1) (Fin 1) ℝ)) (fun z => a ≤ z 0 ∧ z 0 ≤ b) none X (2 * ℓ * (b - a) / N) := by
  have hc := farthestCand_1d (ℓ • (1 : Matrix (Fin 1) (Fin 1) ℝ)) hab
  have h0 : (fun z : Lip.Pt 1 => a ≤ z 0 ∧ z 0 ≤ b) (Geo.pt1 x0) := ⟨h1, h2⟩
  have hex : ∀ N, ∃ X, coffeehouse (ℓ • (1 : Matrix (Fin 1) (Fin 1) ℝ)) (fun X => (Geo.voronoi1d a b (X.map (fun x => x 0))).map Geo.pt1) (Geo.pt1 x0) (N + 1) = .ok X := by
    intro N
    induction N with
    | zero => exact ⟨_, rfl⟩
    | succ N ih =>
      obtain ⟨X, hX⟩ := ih
      obtain ⟨X', hX', -⟩ := coffee_continue hc h0 (by omega) hX
      exact ⟨X', hX'⟩
  obtain ⟨X, hX⟩ := hex (N - 1)
  rw [show N - 1 + 1 = N by omega] at hX
  refine ⟨X, hX, ?_⟩
  have := greedy_rate hc h0 (a := Geo.pt1 a) (b := Geo.pt1 b) (fun z hz i => by rw [Subsingleton.elim i 0]; exact hz) (Λ := ℓ) (fun v => ?_) hN (by simp) hX
  · have e : Lip.nrm (Geo.pt1 b - Geo.pt1 a) = b - a := by
      simp only [Lip.nrm, dotProduct, Fin.sum_univ_one, Pi.sub_apply, Geo.pt1]
      rw [Real.sqrt_mul_self (by linarith)]
    rwa [e] at this
  · rw [Matrix.smul_mulVec, Matrix.one_mulVec]
    unfold Lip.nrm
    rw [dotProduct_smul, smul_dotProduct, smul_eq_mul, smul_eq_mul, ← mul_assoc, Real.sqrt_mul (mul_nonneg hℓ hℓ), Real.sqrt_mul_self hℓ]

/-- The hypotheses of the theorems on greedy designs hold on `[0, 1]`, where a design of three points exists. -/
example : FarthestCand (1 : Matrix (Fin 1) (Fin 1) ℝ) (fun z => 0 ≤ z 0 ∧ z 0 ≤ 1) (fun X => (Geo.voronoi1d 0 1 (X.map (fun x => x 0))).map Geo.pt1) ∧
    ∃ X, coffeehouse (1 : Matrix (Fin 1) (Fin 1) ℝ) (fun X => (Geo.voronoi1d 0 1 (X.map (fun x => x 0))).map Geo.pt1) (Geo.pt1 0) 3 = .ok X := by
  have hc := farthestCand_1d (1 : Matrix (Fin 1) (Fin 1) ℝ) (zero_le_one' ℝ)
  refine ⟨hc, ?_⟩
  obtain ⟨X, hX, -⟩ := coffee_continue hc (x0 := Geo.pt1 0) ⟨le_refl _, zero_le_one⟩ (le_refl 1) (X := [Geo.pt1 0]) rfl
  obtain ⟨X', hX', -⟩ := coffee_continue hc (x0 := Geo.pt1 0) ⟨le_refl _, zero_le_one⟩ (by norm_num) hX
  exact ⟨X', hX'⟩

/-- Asking always at the middle of `[0, 1]` guarantees the width one. -/
example : AdaptiveGuarantees (1 : Matrix (Fin 1) (Fin 1) ℝ) (fun z => 0 ≤ z 0 ∧ z 0 ≤ 1) none (fun _ => Geo.pt1 (1 / 2)) 1 1 := by
  intro f _ z hz
  obtain ⟨lo, hi, e, h⟩ := width_le_dist (1 : Matrix (Fin 1) (Fin 1) ℝ) none (data := asked (fun _ => Geo.pt1 (1 / 2)) f 1) (d := (Geo.pt1 (1 / 2), f (Geo.pt1 (1 / 2)))) (by simp [asked]) z
  refine ⟨lo, hi, e, h.trans ?_⟩
  have hd : Lip.ldist (1 : Matrix (Fin 1) (Fin 1) ℝ) (Geo.pt1 (1 / 2)) z ≤ 1 / 2 := by
    rw [Lip.ldist, Matrix.one_mulVec, Matrix.one_mulVec, Lip.nrm]
    simp only [dotProduct, Fin.sum_univ_one, Pi.sub_apply, Geo.pt1]
    rw [Real.sqrt_mul_self_eq_abs, abs_le]
    constructor <;> linarith [hz.1, hz.2]
  simp only [Option.getD_none]
  linarith

end Verif.Samp
