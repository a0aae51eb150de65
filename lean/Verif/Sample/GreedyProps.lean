import Mathlib.Data.Fintype.Pigeonhole
import Verif.Sample.GreedyModel
import Verif.Geometry.GeoProps

/-!
# C45: greedy designs
-/

namespace Verif.Samp

open Verif Verif.Domain

variable {k m : ℕ}

theorem coffeeStep_ok {L : Matrix (Fin k) (Fin m) ℝ} {cand : List (Lip.Pt m) → List (Lip.Pt m)} {X Y : List (Lip.Pt m)} (h : coffeeStep L cand X = .ok Y) :
    ∃ c ∈ cand X, Y = X ++ [c] ∧ ∀ c' ∈ cand X, Geo.nearest L X c' ≤ Geo.nearest L X c := by
  unfold coffeeStep at h
  cases hc : cand X with
  | nil => rw [hc] at h; cases h
  | cons c cs =>
    rw [hc] at h
    cases h
    exact ⟨_, Geo.argmaxL_mem _ _ _, rfl, Geo.argmaxL_max _ _ _⟩

theorem coffeeRun_succ {L : Matrix (Fin k) (Fin m) ℝ} {cand : List (Lip.Pt m) → List (Lip.Pt m)} {n : ℕ} {X Y : List (Lip.Pt m)}
    (h : coffeeRun L cand (n + 1) X = .ok Y) : ∃ Z, coffeeRun L cand n X = .ok Z ∧ coffeeStep L cand Z = .ok Y := by
  rw [coffeeRun] at h
  cases hz : coffeeRun L cand n X with
  | error e => rw [hz] at h; cases h
  | ok Z => rw [hz] at h; exact ⟨Z, rfl, h⟩

theorem coffeeRun_length {L : Matrix (Fin k) (Fin m) ℝ} {cand : List (Lip.Pt m) → List (Lip.Pt m)} {n : ℕ} {X Y : List (Lip.Pt m)}
    (h : coffeeRun L cand n X = .ok Y) : Y.length = X.length + n := by
  induction n generalizing Y with
  | zero => cases h; rfl
  | succ n ih =>
    obtain ⟨Z, hz, hs⟩ := coffeeRun_succ h
    obtain ⟨c, _, rfl, _⟩ := coffeeStep_ok hs
    rw [List.length_append, ih hz]; simp; omega

theorem coffeeRun_split {L : Matrix (Fin k) (Fin m) ℝ} {cand : List (Lip.Pt m) → List (Lip.Pt m)} {n : ℕ} {X Y : List (Lip.Pt m)}
    (h : coffeeRun L cand n X = .ok Y) : ∀ n' ≤ n, coffeeRun L cand n' X = .ok (Y.take (X.length + n')) := by
  induction n generalizing Y with
  | zero => intro n' hn; cases Nat.le_zero.1 hn; cases h; simp [coffeeRun]
  | succ n ih =>
    obtain ⟨Z, hz, hs⟩ := coffeeRun_succ h
    obtain ⟨c, _, e, _⟩ := coffeeStep_ok hs
    have hl := coffeeRun_length hz
    intro n' hn
    by_cases hn' : n' = n + 1
    · subst hn'
      rw [h, List.take_of_length_le (by rw [coffeeRun_length h])]
    · rw [ih hz n' (by omega), e, List.take_append_of_le_length (by omega)]

/-- C45: the design has the requested number of points, starting with the first sample. -/
theorem coffee_length {L : Matrix (Fin k) (Fin m) ℝ} {cand : List (Lip.Pt m) → List (Lip.Pt m)} {x0 : Lip.Pt m} {N : ℕ} (hN : 1 ≤ N) {X : List (Lip.Pt m)}
    (h : coffeehouse L cand x0 N = .ok X) : X.length = N ∧ X[0]? = some x0 := by
  refine ⟨by rw [coffeeRun_length h]; simp; omega, ?_⟩
  have := coffeeRun_split h 0 (by omega)
  rw [coffeeRun] at this
  cases X with
  | nil => simp at this
  | cons a t => simp at this; simp [this]

/-- C45: designs are nested: the design with `n` points is the beginning of the design with `N ≥ n` points, for the same candidates. -/
theorem coffee_nested {L : Matrix (Fin k) (Fin m) ℝ} {cand : List (Lip.Pt m) → List (Lip.Pt m)} {x0 : Lip.Pt m} {N n : ℕ} (hn : 1 ≤ n) (hnN : n ≤ N)
    {X : List (Lip.Pt m)} (h : coffeehouse L cand x0 N = .ok X) : coffeehouse L cand x0 n = .ok (X.take n) := by
  have := coffeeRun_split h (n - 1) (by omega)
  rw [List.length_singleton] at this
  rw [coffeehouse, this]
  congr 2; omega

/-- C45: each point after the first is a candidate, and among the candidates at that stage none is farther from the points chosen
before it. -/
theorem coffee_greedy {L : Matrix (Fin k) (Fin m) ℝ} {cand : List (Lip.Pt m) → List (Lip.Pt m)} {x0 : Lip.Pt m} {N : ℕ} {X : List (Lip.Pt m)}
    (h : coffeehouse L cand x0 N = .ok X) (j : ℕ) (hj0 : 1 ≤ j) (hj : j < X.length) :
    X[j] ∈ cand (X.take j) ∧ ∀ c ∈ cand (X.take j), Geo.nearest L (X.take j) c ≤ Geo.nearest L (X.take j) X[j] := by
  have hl := coffeeRun_length h
  rw [List.length_singleton] at hl
  have hj' := coffeeRun_split h j (by omega)
  rw [List.length_singleton] at hj'
  obtain ⟨n, rfl⟩ : ∃ n, j = n + 1 := ⟨j - 1, by omega⟩
  obtain ⟨Z, hz, hs⟩ := coffeeRun_succ hj'
  have hZ : Z = X.take (n + 1) := by
    have := coffeeRun_split h n (by omega)
    rw [this] at hz
    cases hz
    rw [List.length_singleton, Nat.add_comm]
  obtain ⟨c, hc, e, hmax⟩ := coffeeStep_ok hs
  rw [hZ] at hc e hmax
  have hlen : (X.take (n + 1)).length = n + 1 := by rw [List.length_take]; omega
  have : X[n + 1] = c := by
    have e2 : (X.take (1 + (n + 1)))[n + 1]? = some c := by
      rw [e, List.getElem?_append_right (by omega), hlen]; simp
    rw [List.getElem?_take, if_pos (by omega), List.getElem?_eq_getElem hj] at e2
    exact Option.some.inj e2
  rw [this]
  exact ⟨hc, hmax⟩

/-- C45: the call succeeds exactly when there is a candidate at every stage reached. -/
theorem coffee_ok_iff (L : Matrix (Fin k) (Fin m) ℝ) (cand : List (Lip.Pt m) → List (Lip.Pt m)) (x0 : Lip.Pt m) (N : ℕ) :
    (∃ X, coffeehouse L cand x0 N = .ok X) ↔ ∀ n, 1 ≤ n → n < N → ∀ Y, coffeehouse L cand x0 n = .ok Y → cand Y ≠ [] := by
  constructor
  · rintro ⟨X, h⟩ n hn hnN Y hY hc
    have h1 := coffee_nested (n := n + 1) (by omega) (by omega) h
    rw [coffeehouse, Nat.add_sub_cancel] at h1
    obtain ⟨n', rfl⟩ : ∃ n', n = n' + 1 := ⟨n - 1, by omega⟩
    obtain ⟨Z, hz, hs⟩ := coffeeRun_succ h1
    rw [coffeehouse, Nat.add_sub_cancel, hz] at hY
    cases hY
    rw [coffeeStep, hc] at hs
    cases hs
  · intro h
    unfold coffeehouse
    have key : ∀ n, n ≤ N - 1 → ∃ X, coffeeRun L cand n [x0] = .ok X := by
      intro n
      induction n with
      | zero => intro _; exact ⟨_, rfl⟩
      | succ n ih =>
        intro hn
        obtain ⟨Z, hz⟩ := ih (by omega)
        have := h (n + 1) (by omega) (by omega) Z (by rw [coffeehouse, Nat.add_sub_cancel, hz])
        rw [coffeeRun, hz]
        cases hc : cand Z with
        | nil => exact absurd hc this
        | cons c cs => exact ⟨_, by simp only [Bind.bind, Except.bind, coffeeStep, hc]; rfl⟩
    exact key (N - 1) (le_refl _)

/-! ### Efficiency -/

/-- For points of the domain, the candidates are in the domain and include a point of the domain farthest from the given points. -/
def FarthestCand (L : Matrix (Fin k) (Fin m) ℝ) (inside : Lip.Pt m → Prop) (cand : List (Lip.Pt m) → List (Lip.Pt m)) : Prop :=
  ∀ X, X ≠ [] → (∀ x ∈ X, inside x) → (∀ c ∈ cand X, inside c) ∧ ∀ z, inside z → ∃ c ∈ cand X, Geo.nearest L X z ≤ Geo.nearest L X c

theorem nearest_append_le (L : Matrix (Fin k) (Fin m) ℝ) {X Y : List (Lip.Pt m)} (hX : X ≠ []) (hXY : X ⊆ Y) (z : Lip.Pt m) : Geo.nearest L Y z ≤ Geo.nearest L X z := by
  obtain ⟨x, hx, e⟩ := Geo.nearest_mem L hX z
  rw [e]; exact Geo.nearest_le L (hXY hx) z

theorem take_ne_nil {α : Type*} {X : List α} {j : ℕ} (hj0 : 1 ≤ j) (hX : 0 < X.length) : X.take j ≠ [] := by
  cases X with
  | nil => simp at hX
  | cons a t => obtain ⟨n, rfl⟩ : ∃ n, j = n + 1 := ⟨j - 1, by omega⟩; simp

/-- C45: all points are in the domain. -/
theorem coffee_inside {L : Matrix (Fin k) (Fin m) ℝ} {inside : Lip.Pt m → Prop} {cand : List (Lip.Pt m) → List (Lip.Pt m)} (hc : FarthestCand L inside cand)
    {x0 : Lip.Pt m} (h0 : inside x0) {N : ℕ} (hN : 1 ≤ N) {X : List (Lip.Pt m)} (h : coffeehouse L cand x0 N = .ok X) : ∀ x ∈ X, inside x := by
  have key : ∀ j (hj : j < X.length), inside X[j] := by
    intro j
    induction j using Nat.strong_induction_on with
    | _ j ih =>
      intro hj
      cases j with
      | zero =>
        have := (coffee_length hN h).2
        rw [List.getElem?_eq_getElem hj] at this
        rw [Option.some.inj this]; exact h0
      | succ j =>
        refine (hc _ (take_ne_nil (by omega) (by omega)) fun x hx => ?_).1 _ (coffee_greedy h (j + 1) (by omega) hj).1
        obtain ⟨i, hi, rfl⟩ := List.mem_take_iff_getElem.1 hx
        exact ih i (by omega) _
  intro x hx
  obtain ⟨j, hj, rfl⟩ := List.getElem_of_mem hx
  exact key j hj

/-- Every point of the domain is at most as far from the points chosen up to stage `j` as the point chosen at stage `j`. -/
theorem coffee_cover {L : Matrix (Fin k) (Fin m) ℝ} {inside : Lip.Pt m → Prop} {cand : List (Lip.Pt m) → List (Lip.Pt m)} (hc : FarthestCand L inside cand)
    {x0 : Lip.Pt m} (h0 : inside x0) {N : ℕ} (hN : 1 ≤ N) {X : List (Lip.Pt m)} (h : coffeehouse L cand x0 N = .ok X) (j : ℕ) (hj0 : 1 ≤ j)
    (hj : j < X.length) {z : Lip.Pt m} (hz : inside z) : Geo.nearest L (X.take j) z ≤ Geo.nearest L (X.take j) X[j] := by
  obtain ⟨c, hcm, hle⟩ := (hc _ (take_ne_nil hj0 (by omega)) fun x hx => coffee_inside hc h0 hN h x (List.mem_of_mem_take hx)).2 z hz
  exact hle.trans ((coffee_greedy h j hj0 hj).2 c hcm)

/-- The selection distance of the last point bounds all pairwise distances from below. -/
theorem coffee_spacing {L : Matrix (Fin k) (Fin m) ℝ} {inside : Lip.Pt m → Prop} {cand : List (Lip.Pt m) → List (Lip.Pt m)} (hc : FarthestCand L inside cand)
    {x0 : Lip.Pt m} (h0 : inside x0) {N : ℕ} (hN : 1 ≤ N) {X : List (Lip.Pt m)} (h : coffeehouse L cand x0 N = .ok X) (n : ℕ) (hn : n + 1 = X.length) (hn0 : 1 ≤ n) :
    ∀ i j (hi : i < X.length) (hj : j < X.length), i < j → Geo.nearest L (X.take n) (X[n]'(by omega)) ≤ Lip.ldist L X[i] X[j] := by
  intro i j hi hj hij
  have hmem : X[i] ∈ X.take j := List.mem_take_iff_getElem.2 ⟨i, by omega, rfl⟩
  have hin := coffee_inside hc h0 hN h
  have hne : X.take j ≠ [] := List.ne_nil_of_mem hmem
  calc Geo.nearest L (X.take n) (X[n]'(by omega)) ≤ Geo.nearest L (X.take j) (X[n]'(by omega)) :=
        nearest_append_le L hne (List.take_subset_take_left X (by omega)) _
    _ ≤ Geo.nearest L (X.take j) X[j] := coffee_cover hc h0 (by omega) h j (by omega) hj (hin _ (List.getElem_mem _))
    _ ≤ Lip.ldist L X[i] X[j] := Geo.nearest_le L hmem _

/-- Pigeonhole: if every one of `Y`'s points is within `d` of one of the points of `X`, and `Y` has more points than `X`, two points of
`Y` are within `2 d`. -/
theorem close_of_cover (L : Matrix (Fin k) (Fin m) ℝ) {X Y : List (Lip.Pt m)} {d : ℝ} (hlen : X.length < Y.length)
    (h : ∀ y ∈ Y, ∃ x ∈ X, Lip.ldist L x y ≤ d) : ∃ i j, ∃ hi : i < Y.length, ∃ hj : j < Y.length, i < j ∧ Lip.ldist L Y[i] Y[j] ≤ 2 * d := by
  have hch : ∀ a : Fin Y.length, ∃ b : Fin X.length, Lip.ldist L X[b] Y[a] ≤ d := by
    intro a
    obtain ⟨x, hx, hle⟩ := h Y[a] (List.getElem_mem _)
    obtain ⟨b, hb, rfl⟩ := List.getElem_of_mem hx
    exact ⟨⟨b, hb⟩, hle⟩
  choose f hf using hch
  obtain ⟨a, b, hab, he⟩ := Fintype.exists_ne_map_eq_of_card_lt f (by simpa using hlen)
  have key : ∀ a b : Fin Y.length, f a = f b → Lip.ldist L Y[a] Y[b] ≤ 2 * d := by
    intro a b he
    have h1 := hf a
    have h2 := hf b
    rw [← he] at h2
    have := Lip.ldist_triangle L Y[a] X[f a] Y[b]
    rw [Lip.ldist_comm L Y[a] X[f a]] at this
    linarith
  rcases lt_trichotomy a.1 b.1 with hlt | heq | hlt
  · exact ⟨a, b, a.2, b.2, hlt, key a b he⟩
  · exact absurd (Fin.ext heq) hab
  · exact ⟨b, a, b.2, a.2, hlt, key b a he.symm⟩

/-- C45: half efficiency for maximin: if the candidates always include a farthest point of the domain, no design with as many points has
all its spacings more than twice as large as the smallest spacing of the greedy design. -/
theorem coffee_maximin_half {L : Matrix (Fin k) (Fin m) ℝ} {inside : Lip.Pt m → Prop} {cand : List (Lip.Pt m) → List (Lip.Pt m)} (hc : FarthestCand L inside cand)
    {x0 : Lip.Pt m} (h0 : inside x0) {N : ℕ} (hN : 2 ≤ N) {X : List (Lip.Pt m)} (h : coffeehouse L cand x0 N = .ok X) {s : ℝ} {Y : List (Lip.Pt m)}
    (hY : Y.length = N) (hYin : ∀ y ∈ Y, inside y) (hs : Y.Pairwise (fun y y' => s ≤ Lip.ldist L y y')) :
    X.Pairwise (fun x x' => s / 2 ≤ Lip.ldist L x x') := by
  have hl := (coffee_length (by omega) h).1
  obtain ⟨n, rfl⟩ : ∃ n, N = n + 1 := ⟨N - 1, by omega⟩
  have hcov : ∀ y ∈ Y, ∃ x ∈ X.take n, Lip.ldist L x y ≤ Geo.nearest L (X.take n) (X[n]'(by omega)) := by
    intro y hy
    have hne : X.take n ≠ [] := take_ne_nil (by omega) (by omega)
    obtain ⟨x, hx, e⟩ := Geo.nearest_mem L hne y
    refine ⟨x, hx, ?_⟩
    rw [← e]
    exact coffee_cover hc h0 (by omega) h n (by omega) (by omega) (hYin y hy)
  obtain ⟨i, j, hi, hj, hij, hle⟩ := close_of_cover L (by rw [List.length_take]; omega) hcov
  have hsp := List.pairwise_iff_getElem.1 hs i j hi hj hij
  refine List.pairwise_iff_getElem.2 fun i' j' hi' hj' hij' => ?_
  have := coffee_spacing hc h0 (by omega) h n (by omega) (by omega) i' j' hi' hj' hij'
  linarith

/-- C45: half efficiency for covering: if every point of the domain is within `d` of a design `Y` with as many points, every point of the
domain is within `2 d` of the greedy design. -/
theorem coffee_minimax_half {L : Matrix (Fin k) (Fin m) ℝ} {inside : Lip.Pt m → Prop} {cand : List (Lip.Pt m) → List (Lip.Pt m)} (hc : FarthestCand L inside cand)
    {x0 : Lip.Pt m} (h0 : inside x0) {N : ℕ} (hN : 1 ≤ N) {X : List (Lip.Pt m)} (h : coffeehouse L cand x0 (N + 1) = .ok X) {d : ℝ} {Y : List (Lip.Pt m)}
    (hY : Y.length = N) (hYd : ∀ z, inside z → ∃ y ∈ Y, Lip.ldist L y z ≤ d) :
    ∀ z, inside z → ∃ x ∈ X.take N, Lip.ldist L x z ≤ 2 * d := by
  have hl := (coffee_length (by omega) h).1
  have hin := coffee_inside hc h0 (by omega) h
  obtain ⟨i, j, hi, hj, hij, hle⟩ := close_of_cover L (X := Y) (Y := X) (by omega) (fun x hx => hYd x (hin x hx))
  have hsp := coffee_spacing hc h0 (by omega) h N (by omega) hN i j hi hj hij
  intro z hz
  have hne : X.take N ≠ [] := take_ne_nil (by omega) (by omega)
  obtain ⟨x, hx, e⟩ := Geo.nearest_mem L hne z
  refine ⟨x, hx, ?_⟩
  rw [← e]
  exact (coffee_cover hc h0 (by omega) h N hN (by omega) hz).trans (hsp.trans hle)

/-- On an interval `voronoi_vertex` gives candidates of this kind, so the efficiency statements hold without further assumptions. -/
theorem farthestCand_1d (L : Matrix (Fin k) (Fin 1) ℝ) {lb ub : ℝ} (hlu : lb ≤ ub) :
    FarthestCand L (fun z => lb ≤ z 0 ∧ z 0 ≤ ub) (fun X => (Geo.voronoi1d lb ub (X.map (fun x => x 0))).map Geo.pt1) := by
  intro X hne hX
  have hpt : ∀ z : Lip.Pt 1, Geo.pt1 (z 0) = z := fun z => by funext i; rw [Subsingleton.elim i 0]; rfl
  have e : (X.map (fun x => x 0)).map Geo.pt1 = X := by
    rw [List.map_map]
    refine (List.map_congr_left fun z _ => ?_).trans (List.map_id X)
    exact hpt z
  have hX' : ∀ x ∈ X.map (fun x => x 0), lb ≤ x ∧ x ≤ ub := by
    intro x hx
    obtain ⟨z, hz, rfl⟩ := List.mem_map.1 hx
    exact hX z hz
  constructor
  · intro c hc
    obtain ⟨v, hv, rfl⟩ := List.mem_map.1 hc
    exact Geo.voronoi1d_inside hlu hX' v hv
  · intro z hz
    obtain ⟨v, hv, hle⟩ := Geo.voronoi1d_dominates L (X := X.map (fun x => x 0)) (by simpa using hne) hX' hz
    refine ⟨Geo.pt1 v, List.mem_map_of_mem hv, ?_⟩
    rw [e, hpt] at hle
    exact hle

/-- A run with constant candidates. -/
example : coffeehouse (1 : Matrix (Fin 1) (Fin 1) ℝ) (fun _ => [Geo.pt1 1]) (Geo.pt1 0) 2 = .ok [Geo.pt1 0, Geo.pt1 1] := by
  simp [coffeehouse, coffeeRun, coffeeStep, Geo.argmaxL, Bind.bind, Except.bind]

end Verif.Samp
