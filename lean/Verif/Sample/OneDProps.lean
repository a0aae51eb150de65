import Mathlib.Algebra.Order.Floor.Ring
import Mathlib.Algebra.Order.Archimedean.Real.Basic
import Mathlib.Combinatorics.Pigeonhole
import Mathlib.Data.Fintype.EquivFin
import Mathlib.Data.Fintype.Pigeonhole
import Mathlib.Analysis.Convex.Basic
import Mathlib.Tactic.FieldSimp
import Mathlib.Tactic.Linarith
import Mathlib.Tactic.Positivity
import Verif.Sample.OneDModel
import Verif.Lipschitz.BoundProps

/-!
# C44: one-dimensional maximin and minimax designs are optimal
-/

namespace Verif.Samp

open Verif Verif.Domain Matrix

variable {m : ℕ}

/-- The distance between two points in the metric of one row `l`, `|l·x - l·y|`. -/
def dist1 (l x y : Lip.Pt m) : ℝ := |l ⬝ᵥ x - l ⬝ᵥ y|

/-- It is the distance of the matrix with the single row `l`. -/
theorem dist1_eq (l x y : Lip.Pt m) : dist1 l x y = Lip.ldist (Matrix.of (fun _ : Fin 1 => l)) x y := by
  unfold dist1 Lip.ldist Lip.nrm
  have : ∀ v : Lip.Pt 1, v ⬝ᵥ v = v 0 ^ 2 := fun v => by simp [dotProduct, pow_two]
  rw [this, Real.sqrt_sq_eq_abs]
  rfl

/-- The corner solver is exact on the domain `D`: it returns a point of `D` with the largest inner product with the direction. -/
def CornerExact (D : Set (Lip.Pt m)) (corner : Lip.Pt m → Lip.Pt m) : Prop := ∀ p, corner p ∈ D ∧ ∀ x ∈ D, p ⬝ᵥ x ≤ p ⬝ᵥ corner p

theorem corner_range {D : Set (Lip.Pt m)} {corner : Lip.Pt m → Lip.Pt m} (hc : CornerExact D corner) (l : Lip.Pt m) {x : Lip.Pt m} (hx : x ∈ D) :
    l ⬝ᵥ corner (-l) ≤ l ⬝ᵥ x ∧ l ⬝ᵥ x ≤ l ⬝ᵥ corner l := by
  refine ⟨?_, (hc l).2 x hx⟩
  have := (hc (-l)).2 x hx
  rw [neg_dotProduct, neg_dotProduct] at this
  linarith

theorem blend_dot (l c1 c2 : Lip.Pt m) (a : ℝ) : l ⬝ᵥ blend c1 c2 a = l ⬝ᵥ c2 + a * (l ⬝ᵥ c1 - l ⬝ᵥ c2) := by
  unfold blend
  rw [dotProduct_add, dotProduct_smul, dotProduct_smul, smul_eq_mul, smul_eq_mul]; ring

theorem blend_mem {D : Set (Lip.Pt m)} (hD : Convex ℝ D) {c1 c2 : Lip.Pt m} (h1 : c1 ∈ D) (h2 : c2 ∈ D) {a : ℝ} (ha : 0 ≤ a) (ha1 : a ≤ 1) :
    blend c1 c2 a ∈ D := hD h1 h2 ha (by linarith) (by ring)

/-- Pigeonhole on the line: among `n + 2` numbers in an interval of length `R`, two are at distance at most `R/(n+1)`. -/
theorem close_pair (n : ℕ) (lo R : ℝ) (hR : 0 ≤ R) (y : Fin (n + 2) → ℝ) (h1 : ∀ i, lo ≤ y i) (h2 : ∀ i, y i ≤ lo + R) :
    ∃ i j, i ≠ j ∧ |y i - y j| ≤ R / (n + 1) := by
  rcases hR.lt_or_eq with hpos | h0
  · set h := R / (n + 1) with hh
    have hn : (0 : ℝ) < n + 1 := by positivity
    have hhp : 0 < h := div_pos hpos hn
    have hRh : R = (n + 1) * h := by rw [hh]; field_simp
    let bin : Fin (n + 2) → Fin (n + 1) := fun i => ⟨min ⌊(y i - lo) / h⌋₊ n, by omega⟩
    obtain ⟨i, j, hij, hb⟩ := Fintype.exists_ne_map_eq_of_card_lt bin (by simp)
    refine ⟨i, j, hij, ?_⟩
    have hb' : min ⌊(y i - lo) / h⌋₊ n = min ⌊(y j - lo) / h⌋₊ n := congrArg Fin.val hb
    -- a point in bin `b` lies in `[b h, (b+1) h]`
    have key : ∀ k, ((min ⌊(y k - lo) / h⌋₊ n : ℕ) : ℝ) * h ≤ y k - lo ∧ y k - lo ≤ ((min ⌊(y k - lo) / h⌋₊ n : ℕ) + 1 : ℝ) * h := by
      intro k
      have hnn : 0 ≤ (y k - lo) / h := div_nonneg (by linarith [h1 k]) hhp.le
      have f1 := Nat.floor_le hnn
      have f2 := Nat.lt_floor_add_one ((y k - lo) / h)
      have e : (y k - lo) / h * h = y k - lo := by field_simp
      rcases le_total ⌊(y k - lo) / h⌋₊ n with hle | hle
      · rw [min_eq_left hle]
        constructor
        · calc _ ≤ (y k - lo) / h * h := mul_le_mul_of_nonneg_right f1 hhp.le
            _ = _ := e
        · calc y k - lo = (y k - lo) / h * h := e.symm
            _ ≤ _ := mul_le_mul_of_nonneg_right f2.le hhp.le
      · rw [min_eq_right hle]
        constructor
        · have : (n : ℝ) ≤ (y k - lo) / h := le_trans (by exact_mod_cast hle) f1
          calc _ ≤ (y k - lo) / h * h := mul_le_mul_of_nonneg_right this hhp.le
            _ = _ := e
        · rw [← hRh]; linarith [h2 k]
    obtain ⟨a1, a2⟩ := key i
    obtain ⟨b1, b2⟩ := key j
    rw [hb'] at a1 a2
    rw [abs_le]
    constructor <;> nlinarith
  · refine ⟨0, 1, by simp, ?_⟩
    have e : ∀ i, y i = lo := fun i => le_antisymm (by linarith [h2 i]) (h1 i)
    rw [e, e, sub_self, abs_zero, ← h0]; simp

theorem getElem_range_map {α : Type*} (f : ℕ → α) (N : ℕ) (i : ℕ) (h : i < ((List.range N).map f).length) : ((List.range N).map f)[i] = f i := by
  simp

theorem unitLin_diff {N : ℕ} (hN : 2 ≤ N) (i j : ℕ) : unitLin N i - unitLin N j = ((i : ℝ) - j) / (N - 1) := by
  unfold unitLin
  rw [if_neg (by omega), if_neg (by omega)]; ring

theorem unitLin_range {N k : ℕ} (hk : k < N) : 0 ≤ unitLin N k ∧ unitLin N k ≤ 1 := by
  unfold unitLin
  by_cases h : N = 1
  · rw [if_pos h]; norm_num
  · rw [if_neg h]
    have h2 : (2 : ℝ) ≤ N := by exact_mod_cast (by omega : 2 ≤ N)
    have hk' : (k : ℝ) + 1 ≤ N := by exact_mod_cast hk
    exact ⟨div_nonneg (by positivity) (by linarith), (div_le_one (by linarith)).2 (by linarith)⟩

/-- The design in terms of the row and the two corners. -/
theorem maximin1d_ok {corner : Lip.Pt m → Lip.Pt m} {N : ℕ} {L : MetricArg m} {X : List (Lip.Pt m)} (h : maximin1d corner N L = .ok X) :
    ∃ l, oneRow m L = .ok l ∧ X = (List.range N).map (fun k => blend (corner l) (corner (-l)) (unitLin N k)) := by
  unfold maximin1d at h
  cases e : oneRow m L with
  | error r => rw [e] at h; cases h
  | ok l => rw [e] at h; cases h; exact ⟨l, rfl, rfl⟩

/-- The call succeeds exactly when no metric is given on a one-dimensional domain or the metric has one row. -/
theorem oneRow_ok_iff (L : MetricArg m) : (∃ l, oneRow m L = .ok l) ↔ (L = none ∧ m = 1) ∨ ∃ l, L = some [l] := by
  cases L with
  | none =>
    unfold oneRow
    by_cases h : m = 1
    · rw [if_pos h]; exact ⟨fun _ => Or.inl ⟨rfl, h⟩, fun _ => ⟨_, rfl⟩⟩
    · rw [if_neg h]
      constructor
      · rintro ⟨_, h'⟩; cases h'
      · rintro (⟨_, h'⟩ | ⟨_, h'⟩)
        · exact absurd h' h
        · cases h'
  | some rows =>
    match rows with
    | [] => exact ⟨fun ⟨_, h⟩ => (by cases h), by rintro (⟨h, _⟩ | ⟨_, h⟩) <;> cases h⟩
    | [l] => exact ⟨fun _ => Or.inr ⟨l, rfl⟩, fun _ => ⟨l, rfl⟩⟩
    | _ :: _ :: _ => exact ⟨fun ⟨_, h⟩ => (by cases h), by rintro (⟨h, _⟩ | ⟨_, h⟩) <;> cases h⟩

/-- C44: the design returned by `maximin_design_1d` has `N` points, all in the domain, and no other `N` points of the domain have a
larger smallest spacing (in the metric): if all pairs of some design are at distance at least `c`, so are all pairs of the returned
one. -/
theorem maximin1d_optimal {D : Set (Lip.Pt m)} (hD : Convex ℝ D) {corner : Lip.Pt m → Lip.Pt m} (hc : CornerExact D corner) {N : ℕ}
    {L : MetricArg m} {X : List (Lip.Pt m)} (h : maximin1d corner N L = .ok X) : ∃ l, oneRow m L = .ok l ∧
    X.length = N ∧ (∀ x ∈ X, x ∈ D) ∧
    ∀ (Y : Fin N → Lip.Pt m), (∀ i, Y i ∈ D) → ∀ c, (∀ i j, i ≠ j → c ≤ dist1 l (Y i) (Y j)) →
      ∀ i j (hi : i < X.length) (hj : j < X.length), i ≠ j → c ≤ dist1 l X[i] X[j] := by
  obtain ⟨l, hl, rfl⟩ := maximin1d_ok h
  refine ⟨l, hl, by simp, ?_, ?_⟩
  · intro x hx
    obtain ⟨k, hk, rfl⟩ := List.mem_map.1 hx
    have := unitLin_range (List.mem_range.1 hk)
    exact blend_mem hD (hc _).1 (hc _).1 this.1 this.2
  · intro Y hY c hYc i j hi hj hij
    rw [getElem_range_map, getElem_range_map]
    have hi' : i < N := by simpa using hi
    have hj' : j < N := by simpa using hj
    obtain ⟨n, rfl⟩ : ∃ n, N = n + 2 := ⟨N - 2, by omega⟩
    have hR : 0 ≤ l ⬝ᵥ corner l - l ⬝ᵥ corner (-l) := by linarith [(corner_range hc l (hc l).1).1]
    obtain ⟨a, b, hab, hle⟩ := close_pair n (l ⬝ᵥ corner (-l)) _ hR (fun i => l ⬝ᵥ Y i) (fun i => (corner_range hc l (hY i)).1)
      (fun i => by linarith [(corner_range hc l (hY i)).2])
    refine (hYc a b hab).trans (hle.trans ?_)
    unfold dist1
    rw [blend_dot, blend_dot]
    have e : l ⬝ᵥ corner (-l) + unitLin (n + 2) i * (l ⬝ᵥ corner l - l ⬝ᵥ corner (-l)) -
        (l ⬝ᵥ corner (-l) + unitLin (n + 2) j * (l ⬝ᵥ corner l - l ⬝ᵥ corner (-l))) =
        (unitLin (n + 2) i - unitLin (n + 2) j) * (l ⬝ᵥ corner l - l ⬝ᵥ corner (-l)) := by ring
    rw [e, unitLin_diff (by omega), abs_mul, abs_of_nonneg hR, abs_div]
    have hn : |((n + 2 : ℕ) : ℝ) - 1| = n + 1 := by push_cast; rw [abs_of_nonneg (by linarith [Nat.cast_nonneg (α := ℝ) n])]; ring
    rw [hn]
    have h1 : (1 : ℝ) ≤ |(i : ℝ) - j| := by
      rcases lt_or_gt_of_ne hij with h | h
      · have : (i : ℝ) + 1 ≤ j := by exact_mod_cast h
        rw [abs_sub_comm]; exact le_trans (by linarith) (le_abs_self _)
      · have : (j : ℝ) + 1 ≤ i := by exact_mod_cast h
        exact le_trans (by linarith) (le_abs_self _)
    have hn' : (0 : ℝ) < n + 1 := by positivity
    calc (l ⬝ᵥ corner l - l ⬝ᵥ corner (-l)) / (n + 1) = 1 / (n + 1) * (l ⬝ᵥ corner l - l ⬝ᵥ corner (-l)) := by ring
      _ ≤ |(i : ℝ) - j| / (n + 1) * (l ⬝ᵥ corner l - l ⬝ᵥ corner (-l)) :=
        mul_le_mul_of_nonneg_right (div_le_div_of_nonneg_right h1 hn'.le) hR

/-- The one-row branch of `maximin_block` gives the same points in the opposite order. -/
theorem maximinBlock1d_same (corner : Lip.Pt m → Lip.Pt m) (N : ℕ) (hN : N ≠ 1) (l : Lip.Pt m) :
    maximinBlock1d corner N l = ((List.range N).map (fun k => blend (corner l) (corner (-l)) (unitLin N k))).reverse := by
  unfold maximinBlock1d
  refine List.ext_getElem (by simp) fun i h1 h2 => ?_
  rw [List.getElem_reverse, getElem_range_map, getElem_range_map]
  have hi : i < N := by simpa using h1
  have hlen : ((List.range N).map (fun k => blend (corner l) (corner (-l)) (unitLin N k))).length = N := by simp
  rw [hlen]
  unfold blend unitLin
  rw [if_neg hN, if_neg hN]
  have hN2 : (N : ℝ) - 1 ≠ 0 := by
    have : (2 : ℝ) ≤ N := by exact_mod_cast (by omega : 2 ≤ N)
    linarith
  have e : ((N - 1 - i : ℕ) : ℝ) / (N - 1) = 1 - (i : ℝ) / (N - 1) := by
    rw [Nat.cast_sub (by omega), Nat.cast_sub (by omega)]
    field_simp; push_cast; ring
  rw [e, add_comm]
  congr 2
  ring

/-- C44: `minimax_design_1d` returns `N` points of the domain whose covering radius (in the metric) is the smallest possible: if some
`N` points (in the domain or not) cover it with radius `ρ`, the returned points do. -/
theorem minimax1d_optimal {D : Set (Lip.Pt m)} (hD : Convex ℝ D) {corner : Lip.Pt m → Lip.Pt m} (hc : CornerExact D corner) {N : ℕ}
    {L : MetricArg m} {X : List (Lip.Pt m)} (h : minimax1d corner N L = .ok X) : ∃ l, oneRow m L = .ok l ∧
    X.length = N ∧ (∀ x ∈ X, x ∈ D) ∧
    ∀ (Y : Fin N → Lip.Pt m) (ρ : ℝ), (∀ x ∈ D, ∃ i, dist1 l x (Y i) ≤ ρ) → ∀ x ∈ D, ∃ y ∈ X, dist1 l x y ≤ ρ := by
  unfold minimax1d at h
  cases e : oneRow m L with
  | error r => rw [e] at h; cases h
  | ok l =>
    rw [e] at h
    by_cases h0 : N = 0
    · simp only [Bind.bind, Except.bind, if_pos h0] at h; cases h
    simp only [Bind.bind, Except.bind, if_neg h0] at h
    cases h
    have hN : (0 : ℝ) < N := by exact_mod_cast Nat.pos_of_ne_zero h0
    set R := l ⬝ᵥ corner l - l ⬝ᵥ corner (-l) with hRdef
    have hR : 0 ≤ R := by linarith [(corner_range hc l (hc l).1).1]
    refine ⟨l, rfl, by simp, ?_, ?_⟩
    · intro x hx
      obtain ⟨k, hk, rfl⟩ := List.mem_map.1 hx
      have hk' : (k : ℝ) + 1 ≤ N := by exact_mod_cast List.mem_range.1 hk
      refine blend_mem hD (hc _).1 (hc _).1 (by positivity) ?_
      have : 1 / (N : ℝ) / 2 + 1 / (N : ℝ) * k = (k + 1 / 2) / N := by field_simp; ring
      rw [this, div_le_one hN]; linarith
    · intro Y ρ hY x hx
      -- the returned points cover with radius R/(2N)
      obtain ⟨r1, r2⟩ := corner_range hc l hx
      have hcov : ∃ k, k < N ∧ |l ⬝ᵥ x - (l ⬝ᵥ corner (-l) + (1 / (N : ℝ) / 2 + 1 / (N : ℝ) * k) * R)| ≤ R / (2 * N) := by
        rcases hR.lt_or_eq with hpos | hz
        · set w := R / N with hw
          have hwp : 0 < w := div_pos hpos hN
          set q := (l ⬝ᵥ x - l ⬝ᵥ corner (-l)) / w with hq
          have hq0 : 0 ≤ q := div_nonneg (by linarith) hwp.le
          have hqw : q * w = l ⬝ᵥ x - l ⬝ᵥ corner (-l) := by rw [hq]; field_simp
          have hNw : N * w = R := by rw [hw]; field_simp
          have hqN : q ≤ N := by
            have : q * w ≤ N * w := by rw [hqw, hNw]; linarith
            exact le_of_mul_le_mul_right this hwp
          have hpos' : 0 < N := Nat.pos_of_ne_zero h0
          have hform : ∀ k : ℕ, (1 / (N : ℝ) / 2 + 1 / (N : ℝ) * k) * R = (k + 1 / 2) * w := fun k => by rw [← hNw]; field_simp; ring
          have hrad : R / (2 * N) = w / 2 := by rw [← hNw]; field_simp
          rw [hrad]
          refine ⟨min ⌊q⌋₊ (N - 1), by omega, ?_⟩
          rw [hform]
          have f1 := Nat.floor_le hq0
          have f2 := Nat.lt_floor_add_one q
          have key : ((min ⌊q⌋₊ (N - 1) : ℕ) : ℝ) ≤ q ∧ q ≤ ((min ⌊q⌋₊ (N - 1) : ℕ) : ℝ) + 1 := by
            rcases le_total ⌊q⌋₊ (N - 1) with hle | hle
            · rw [min_eq_left hle]; exact ⟨f1, f2.le⟩
            · rw [min_eq_right hle]
              refine ⟨le_trans (by exact_mod_cast hle) f1, ?_⟩
              rw [Nat.cast_sub (by omega)]; push_cast; linarith
          have : l ⬝ᵥ x - (l ⬝ᵥ corner (-l) + (((min ⌊q⌋₊ (N - 1) : ℕ) : ℝ) + 1 / 2) * w) = (q - (min ⌊q⌋₊ (N - 1) : ℕ) - 1 / 2) * w := by
            rw [sub_mul, sub_mul, hqw]; ring
          rw [this, abs_mul, abs_of_pos hwp]
          have : |q - (min ⌊q⌋₊ (N - 1) : ℕ) - 1 / 2| ≤ 1 / 2 := by rw [abs_le]; constructor <;> linarith [key.1, key.2]
          nlinarith
        · refine ⟨0, Nat.pos_of_ne_zero h0, ?_⟩
          rw [← hz]
          have : l ⬝ᵥ x = l ⬝ᵥ corner (-l) := by linarith
          rw [this]; simp
      -- any N points need at least that radius
      have hlow : R / (2 * N) ≤ ρ := by
        let g : Fin (N + 1) → Lip.Pt m := fun k => blend (corner l) (corner (-l)) ((k : ℕ) / (N : ℝ))
        have hg : ∀ k, g k ∈ D := fun k => by
          have : ((k : ℕ) : ℝ) ≤ N := by exact_mod_cast Nat.lt_succ_iff.1 k.2
          exact blend_mem hD (hc _).1 (hc _).1 (by positivity) ((div_le_one hN).2 this)
        choose c hcc using fun k => hY (g k) (hg k)
        obtain ⟨i, j, hij, hb⟩ := Fintype.exists_ne_map_eq_of_card_lt c (by simp)
        have t1 := hcc i
        have t2 := hcc j
        rw [← hb] at t2
        unfold dist1 at t1 t2
        have tri : |l ⬝ᵥ g i - l ⬝ᵥ g j| ≤ 2 * ρ := by
          calc |l ⬝ᵥ g i - l ⬝ᵥ g j| = |(l ⬝ᵥ g i - l ⬝ᵥ Y (c i)) - (l ⬝ᵥ g j - l ⬝ᵥ Y (c i))| := by congr 1; ring
            _ ≤ |l ⬝ᵥ g i - l ⬝ᵥ Y (c i)| + |l ⬝ᵥ g j - l ⬝ᵥ Y (c i)| := abs_sub _ _
            _ ≤ 2 * ρ := by linarith
        have e : l ⬝ᵥ g i - l ⬝ᵥ g j = (((i : ℕ) : ℝ) - (j : ℕ)) / N * R := by
          simp only [g]
          rw [blend_dot, blend_dot, hRdef]; ring
        rw [e, abs_mul, abs_of_nonneg hR, abs_div, abs_of_pos hN] at tri
        have h1 : (1 : ℝ) ≤ |((i : ℕ) : ℝ) - (j : ℕ)| := by
          have hne : (i : ℕ) ≠ j := fun h => hij (Fin.ext h)
          rcases lt_or_gt_of_ne hne with h | h
          · have : ((i : ℕ) : ℝ) + 1 ≤ (j : ℕ) := by exact_mod_cast h
            rw [abs_sub_comm]; exact le_trans (by linarith) (le_abs_self _)
          · have : ((j : ℕ) : ℝ) + 1 ≤ (i : ℕ) := by exact_mod_cast h
            exact le_trans (by linarith) (le_abs_self _)
        have : R / N ≤ 2 * ρ := by
          refine le_trans ?_ tri
          calc R / N = 1 / N * R := by ring
            _ ≤ _ := mul_le_mul_of_nonneg_right (div_le_div_of_nonneg_right h1 hN.le) hR
        have e2 : R / (2 * N) = R / N / 2 := by field_simp
        rw [e2]; linarith
      obtain ⟨k, hk, hkc⟩ := hcov
      refine ⟨_, List.mem_map.2 ⟨k, List.mem_range.2 hk, rfl⟩, ?_⟩
      unfold dist1
      rw [blend_dot]
      exact hkc.trans hlow

/-- The two designs exist for every one-row metric and every positive number of points. -/
theorem oneD_ok_iff (corner : Lip.Pt m → Lip.Pt m) (N : ℕ) (L : MetricArg m) :
    ((∃ X, maximin1d corner N L = .ok X) ↔ ∃ l, oneRow m L = .ok l) ∧ ((∃ X, minimax1d corner N L = .ok X) ↔ (∃ l, oneRow m L = .ok l) ∧ N ≠ 0) := by
  constructor
  · constructor
    · rintro ⟨X, h⟩; obtain ⟨l, hl, _⟩ := maximin1d_ok h; exact ⟨l, hl⟩
    · rintro ⟨l, hl⟩; exact ⟨_, by unfold maximin1d; rw [hl]; rfl⟩
  · unfold minimax1d
    constructor
    · rintro ⟨X, h⟩
      cases e : oneRow m L with
      | error r => rw [e] at h; cases h
      | ok l =>
        rw [e] at h
        refine ⟨⟨l, rfl⟩, fun h0 => ?_⟩
        simp only [Bind.bind, Except.bind, if_pos h0] at h; cases h
    · rintro ⟨⟨l, hl⟩, h0⟩
      rw [hl]
      exact ⟨_, by simp only [Bind.bind, Except.bind, if_neg h0]; rfl⟩

/-- An exact corner solver for the interval `[0, 1]`. -/
example : CornerExact (m := 1) {x | 0 ≤ x 0 ∧ x 0 ≤ 1} (fun p => fun _ => if 0 ≤ p 0 then 1 else 0) := by
  intro p
  by_cases h : 0 ≤ p 0
  · simp only [if_pos h]
    refine ⟨by simp, fun x hx => ?_⟩
    simp [dotProduct]
    nlinarith [hx.1, hx.2]
  · simp only [if_neg h]
    refine ⟨by simp, fun x hx => ?_⟩
    simp [dotProduct]
    nlinarith [hx.1, hx.2]

end Verif.Samp
