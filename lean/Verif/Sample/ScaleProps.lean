import Verif.Sample.ScaleModel
import Verif.Sample.ClusterProps
import Verif.Geometry.VertexProps

/-!
# C97: `minimax_scale`
-/

namespace Verif.Samp

open Verif Verif.Domain Verif.Geo Matrix

variable {k m : ℕ}

/-! ## Specification -/

/-- Contract of the scalar minimizer: a point in `[0, 1]` that is no worse than the middle of the bracket. -/
def ScalarMin.Descends (mins : ScalarMin) : Prop := ∀ f a b c x, mins f (a, b, c) = .ok x → 0 ≤ x ∧ x ≤ 1 ∧ f x ≤ f b

/-- Stronger contract: the smallest value on the bracket, and any bracket with `a < b < c` is accepted. -/
def ScalarMin.Exact (mins : ScalarMin) : Prop :=
  mins.Descends ∧ ∀ f a b c, a < b → b < c → ∃ x, mins f (a, b, c) = .ok x ∧ a ≤ x ∧ x ≤ c ∧ ∀ y, a ≤ y → y ≤ c → f x ≤ f y

theorem argminFrom_spec (d : ℕ → ℝ) : ∀ (l : List ℕ) (best : ℕ), argminFrom d best l ∈ best :: l ∧ ∀ j ∈ best :: l, d (argminFrom d best l) ≤ d j
  | [], best => by simp [argminFrom]
  | i :: l, best => by
    rw [argminFrom]
    split_ifs with h
    · obtain ⟨h1, h2⟩ := argminFrom_spec d l i
      refine ⟨List.mem_cons_of_mem _ h1, fun j hj => ?_⟩
      rcases List.mem_cons.1 hj with rfl | hj
      · exact (h2 i (by simp)).trans h.le
      · exact h2 j hj
    · obtain ⟨h1, h2⟩ := argminFrom_spec d l best
      refine ⟨?_, fun j hj => ?_⟩
      · rcases List.mem_cons.1 h1 with h1 | h1
        · rw [h1]; simp
        · exact List.mem_cons_of_mem _ (List.mem_cons_of_mem _ h1)
      · rcases List.mem_cons.1 hj with rfl | hj
        · exact h2 j (by simp)
        · rcases List.mem_cons.1 hj with rfl | hj
          · exact (h2 best (by simp)).trans (not_lt.1 h)
          · exact h2 j (by simp [hj])

theorem alphaVec_mem {n : ℕ} {a : ℝ} (h : a ∈ alphaVec n) : 1 / 2 ≤ a ∧ a ≤ 1 := by
  obtain ⟨i, hi, rfl⟩ := List.mem_map.1 h
  rw [List.mem_range] at hi
  have h0 : (0 : ℝ) ≤ (i : ℝ) * (1 / 2 / ((n - 1 : ℕ) : ℝ)) := by positivity
  refine ⟨by linarith, ?_⟩
  rcases Nat.eq_zero_or_pos (n - 1) with hn | hn
  · rw [hn]; norm_num
  · have hn' : (0 : ℝ) < ((n - 1 : ℕ) : ℝ) := by exact_mod_cast hn
    have : (i : ℝ) ≤ ((n - 1 : ℕ) : ℝ) := by exact_mod_cast (by omega : i ≤ n - 1)
    have h2 : (i : ℝ) * (1 / 2 / ((n - 1 : ℕ) : ℝ)) ≤ 1 / 2 := by
      rw [← mul_div_assoc, div_le_iff₀ hn']; linarith
    linarith

theorem alphaVec_one {n : ℕ} (h : 2 ≤ n) : (1 : ℝ) ∈ alphaVec n := by
  refine List.mem_map.2 ⟨n - 1, List.mem_range.2 (by omega), ?_⟩
  have hn' : (0 : ℝ) < ((n - 1 : ℕ) : ℝ) := by exact_mod_cast (by omega : 0 < n - 1)
  field_simp
  norm_num

theorem pickScale_spec {mins : ScalarMin} (hm : mins.Descends) {score : ℝ → ℝ} {g : List ℝ} (hg : ∀ a ∈ g, 0 ≤ a ∧ a ≤ 1) {α : ℝ} (h : pickScale mins score g = .ok α) :
    0 ≤ α ∧ α ≤ 1 ∧ ∀ a ∈ g, score α ≤ score a := by
  simp only [pickScale] at h
  set i := argminFrom (fun j => score (g.getD j 0)) 0 (List.range g.length) with hi
  split at h
  · simp at h
  · rename_i b hb
    have hbm : b ∈ g := List.mem_of_getElem? hb
    have hbest : ∀ a ∈ g, score b ≤ score a := by
      intro a ha
      obtain ⟨j, hj⟩ := List.mem_iff_getElem?.1 ha
      have hjl : j < g.length := (List.getElem?_eq_some_iff.1 hj).1
      have := (argminFrom_spec (fun j => score (g.getD j 0)) (List.range g.length) 0).2 j (by simp [hjl])
      rw [← hi] at this
      simpa [List.getD_eq_getElem?_getD, hb, hj] using this
    have done : .ok b = (Except.ok α : Except Err ℝ) → 0 ≤ α ∧ α ≤ 1 ∧ ∀ a ∈ g, score α ≤ score a := by
      intro e
      cases e
      exact ⟨(hg _ hbm).1, (hg _ hbm).2, hbest⟩
    split at h
    · split at h
      · rename_i x hx
        cases h
        obtain ⟨h1, h2, h3⟩ := hm _ _ _ _ _ hx
        exact ⟨h1, h2, fun a ha => h3.trans (hbest a ha)⟩
      · exact done h
      · exact done h
      · simp at h
    · exact done h

/-- C97: the returned design is the one passed in, scaled towards the center by a factor in `[0, 1]` whose score is no larger than that of any factor of the grid. -/
theorem scale_best {mins : ScalarMin} (hm : mins.Descends) {L : Matrix (Fin k) (Fin m) ℝ} {V : List (Lip.Pt m)} {c : Lip.Pt m} {n : ℕ} {A R : List (Lip.Pt m)}
    (h : minimaxScale mins L V c n A = .ok R) : ∃ α, 0 ≤ α ∧ α ≤ 1 ∧ R = A.map (fun x => c + α • (x - c)) ∧
      ∀ i < n, scaleScore L V c A α ≤ scaleScore L V c A (1 / 2 + i * (1 / 2 / ((n - 1 : ℕ) : ℝ))) := by
  rw [minimaxScale] at h
  split at h
  · simp at h
  · rename_i α hα
    simp only [Except.ok.injEq] at h
    obtain ⟨h1, h2, h3⟩ := pickScale_spec hm (fun a ha => ⟨by linarith [(alphaVec_mem ha).1], (alphaVec_mem ha).2⟩) hα
    refine ⟨α, h1, h2, ?_, fun i hi => h3 _ (List.mem_map.2 ⟨i, List.mem_range.2 hi, rfl⟩)⟩
    rw [← h, scaleDesign]
    exact List.map_congr_left fun x _ => add_comm _ _

/-- C97: the design stays in a convex domain that contains the center, with the same number of points. -/
theorem scale_inside {mins : ScalarMin} (hm : mins.Descends) {L : Matrix (Fin k) (Fin m) ℝ} {V : List (Lip.Pt m)} {c : Lip.Pt m} {n : ℕ} {A R : List (Lip.Pt m)}
    {S : Set (Lip.Pt m)} (hS : Convex ℝ S) (hc : c ∈ S) (hA : ∀ a ∈ A, a ∈ S) (h : minimaxScale mins L V c n A = .ok R) : R.length = A.length ∧ ∀ r ∈ R, r ∈ S := by
  obtain ⟨α, h1, h2, rfl, -⟩ := scale_best hm h
  refine ⟨by simp, fun r hr => ?_⟩
  obtain ⟨x, hx, rfl⟩ := List.mem_map.1 hr
  exact hS.add_smul_sub_mem hc (hA x hx) ⟨h1, h2⟩

/-- Every point of `S` is within `r` of the design. -/
def CoversAll (L : Matrix (Fin k) (Fin m) ℝ) (S : Set (Lip.Pt m)) (A : List (Lip.Pt m)) (r : ℝ) : Prop := ∀ z ∈ S, ∃ a ∈ A, Lip.ldist L a z ≤ r

/-- C97: the score never exceeds the covering distance of the scaled design. -/
theorem scaleScore_lower {L : Matrix (Fin k) (Fin m) ℝ} {V : List (Lip.Pt m)} (hV : V ≠ []) {S : Set (Lip.Pt m)} (hVS : ∀ v ∈ V, v ∈ S) {c : Lip.Pt m}
    {A : List (Lip.Pt m)} {α r : ℝ} (h : CoversAll L S (scaleDesign c A α) r) : scaleScore L V c A α ≤ r := by
  obtain ⟨v, hv, e⟩ := fillOver_mem L (scaleDesign c A α) hV
  rw [scaleScore, e]
  obtain ⟨a, ha, hle⟩ := h v (hVS v hv)
  exact (nearest_le L ha v).trans hle

/-- C97: with all Voronoi vertices, the score of the scale one is the covering distance of the design passed in. -/
theorem scaleScore_one {aug : List (Lip.Pt m × ℝ)} (hb : Bornology.IsBounded (domSet aug)) {L : Matrix (Fin k) (Fin m) ℝ} {V : List (Lip.Pt m)} {c : Lip.Pt m}
    {A : List (Lip.Pt m)} (hA : A ≠ []) (hV : ∀ v, IsVoronoiVertex aug L A v → v ∈ V) : CoversAll L (domSet aug) A (scaleScore L V c A 1) := by
  have e : scaleDesign c A 1 = A := by simp [scaleDesign]
  rw [scaleScore, e]
  intro z hz
  obtain ⟨v, hv, hle⟩ := vertex_dominates aug hb L hA hz
  obtain ⟨a, ha, ea⟩ := nearest_mem L hA z
  exact ⟨a, ha, ea ▸ hle.trans (fillOver_le L A (hV v hv))⟩

/-- C97: the score of the result is at most the covering distance of the design passed in, on a grid of at least two points. -/
theorem scale_score_le {mins : ScalarMin} (hm : mins.Descends) {L : Matrix (Fin k) (Fin m) ℝ} {V : List (Lip.Pt m)} {c : Lip.Pt m} {n : ℕ} (hn : 2 ≤ n)
    {A R : List (Lip.Pt m)} (h : minimaxScale mins L V c n A = .ok R) : fillOver L R V ≤ fillOver L A V := by
  rw [minimaxScale] at h
  split at h
  · simp at h
  · rename_i α hα
    simp only [Except.ok.injEq] at h
    obtain ⟨-, -, h3⟩ := pickScale_spec hm (fun a ha => ⟨by linarith [(alphaVec_mem ha).1], (alphaVec_mem ha).2⟩) hα
    have := h3 1 (alphaVec_one hn)
    rwa [scaleScore, scaleScore, h, (by simp [scaleDesign] : scaleDesign c A 1 = A)] at this

/-- C97: the call fails on an empty grid, and otherwise only with an error of the scalar minimizer other than ValueError and IndexError. -/
theorem scale_ok_iff {mins : ScalarMin} (hm : ∀ f b e, mins f b = .error e → e = .valueError ∨ e = .indexError) {L : Matrix (Fin k) (Fin m) ℝ} {V : List (Lip.Pt m)}
    {c : Lip.Pt m} {n : ℕ} {A : List (Lip.Pt m)} : (∃ R, minimaxScale mins L V c n A = .ok R) ↔ 0 < n := by
  have hpick : (∃ α, pickScale mins (scaleScore L V c A) (alphaVec n) = .ok α) ↔ 0 < n := by
    have hl : (alphaVec n).length = n := by simp [alphaVec]
    simp only [pickScale]
    have hmem := (argminFrom_spec (fun j => scaleScore L V c A ((alphaVec n).getD j 0)) (List.range (alphaVec n).length) 0).1
    set i := argminFrom (fun j => scaleScore L V c A ((alphaVec n).getD j 0)) 0 (List.range (alphaVec n).length)
    rcases Nat.eq_zero_or_pos n with rfl | hn
    · have : (alphaVec 0)[i]? = none := by simp [alphaVec]
      rw [this]; simp
    · have hi : i < n := by
        rcases List.mem_cons.1 hmem with h | h
        · omega
        · rw [List.mem_range, hl] at h; exact h
      have : (alphaVec n)[i]? = some ((alphaVec n)[i]'(by omega)) := List.getElem?_eq_getElem _
      rw [this]
      refine iff_of_true ?_ hn
      simp only
      split
      · split
        · exact ⟨_, rfl⟩
        · exact ⟨_, rfl⟩
        · exact ⟨_, rfl⟩
        · rename_i e h1 h2 he
          rcases hm _ _ _ he with rfl | rfl
          · exact absurd rfl h1
          · exact absurd rfl h2
      · exact ⟨_, rfl⟩
  rw [← hpick]
  simp only [minimaxScale]
  split
  · rename_i e he; simp [he]
  · rename_i α hα; simp [hα]

/-! ## Disagreements -/

/-- C97: with one grid point the design is halved, whatever its covering distance. -/
theorem scale_one_false (mins : ScalarMin) (L : Matrix (Fin k) (Fin m) ℝ) (V : List (Lip.Pt m)) (c : Lip.Pt m) (A : List (Lip.Pt m)) :
    minimaxScale mins L V c 1 A = .ok (A.map fun x => (1 / 2 : ℝ) • (x - c) + c) := by
  have : alphaVec 1 = [1 / 2] := by simp [alphaVec]
  simp [minimaxScale, pickScale, this, argminFrom, List.range_succ, scaleDesign]

/-- The witness: three points of `[-1, 1]` with center `0`. -/
def scaleA : List (Lip.Pt 1) := [pt1 (-1), pt1 0, pt1 1]

/-- Its Voronoi vertices. -/
noncomputable def scaleV : List (Lip.Pt 1) := [pt1 (-1), pt1 (-1 / 2), pt1 (1 / 2), pt1 1]

theorem scaleScore_wit {α : ℝ} (h1 : 1 / 2 ≤ α) (h2 : α ≤ 1) : scaleScore (1 : Matrix (Fin 1) (Fin 1) ℝ) scaleV (pt1 0) scaleA α = max (1 - α) (α - 1 / 2) := by
  have hd : scaleDesign (pt1 0) scaleA α = [pt1 (-α), pt1 0, pt1 α] := by
    simp only [scaleDesign, scaleA, List.map_cons, List.map_nil, List.cons.injEq, and_true]
    refine ⟨?_, ?_, ?_⟩ <;> funext i <;> simp [pt1]
  have hn : ∀ v : ℝ, nearest (1 : Matrix (Fin 1) (Fin 1) ℝ) [pt1 (-α), pt1 0, pt1 α] (pt1 v) = min (min |-α - v| |0 - v|) |α - v| := fun v => by
    simp [nearest, minL, ldist_one1, pt1]
  have n1 : min (min |-α - -1| |0 - (-1 : ℝ)|) |α - -1| = 1 - α := by
    rw [abs_of_nonneg (by linarith : 0 ≤ -α - -1), abs_of_nonneg (by norm_num : (0 : ℝ) ≤ 0 - -1), abs_of_nonneg (by linarith : 0 ≤ α - -1),
      min_assoc, min_eq_left (le_min (by linarith) (by linarith))]
    ring
  have n2 : min (min |-α - -1 / 2| |0 - (-1 / 2 : ℝ)|) |α - -1 / 2| = α - 1 / 2 := by
    rw [abs_of_nonpos (by linarith : -α - -1 / 2 ≤ 0), abs_of_nonneg (by norm_num : (0 : ℝ) ≤ 0 - -1 / 2), abs_of_nonneg (by linarith : 0 ≤ α - -1 / 2),
      min_assoc, min_eq_left (le_min (by linarith) (by linarith))]
    ring
  have n3 : min (min |-α - 1 / 2| |0 - (1 / 2 : ℝ)|) |α - 1 / 2| = α - 1 / 2 := by
    rw [abs_of_nonpos (by linarith : -α - 1 / 2 ≤ 0), abs_of_nonpos (by norm_num : (0 : ℝ) - 1 / 2 ≤ 0), abs_of_nonneg (by linarith : 0 ≤ α - 1 / 2),
      min_eq_right (by refine le_min ?_ ?_ <;> linarith)]
  have n4 : min (min |-α - 1| |0 - (1 : ℝ)|) |α - 1| = 1 - α := by
    rw [abs_of_nonpos (by linarith : -α - 1 ≤ 0), abs_of_nonpos (by norm_num : (0 : ℝ) - 1 ≤ 0), abs_of_nonpos (by linarith : α - 1 ≤ 0),
      min_eq_right (by refine le_min ?_ ?_ <;> linarith)]
    ring
  simp only [scaleScore, hd, fillOver, scaleV, List.map_cons, List.map_nil, hn, n1, n2, n3, n4, maxL, List.foldl_cons, List.foldl_nil]
  rw [max_assoc, max_comm (α - 1 / 2) (1 - α), max_self]

/-- C97: the scale returned is not the best one, not even of the grid: `3/4` is taken for a design whose covering distance is then at least `3/8`, although `2/3`, which is on the
grid, gives `1/3`; the vertices used belong to the unscaled design. -/
theorem scale_suboptimal_false {mins : ScalarMin} (hm : mins.Exact) :
    minimaxScale mins (1 : Matrix (Fin 1) (Fin 1) ℝ) scaleV (pt1 0) 7 scaleA = .ok [pt1 (-3 / 4), pt1 0, pt1 (3 / 4)] ∧
    (∀ r, CoversAll (1 : Matrix (Fin 1) (Fin 1) ℝ) {z | z 0 ∈ Set.Icc (-1 : ℝ) 1} [pt1 (-3 / 4), pt1 0, pt1 (3 / 4)] r → 3 / 8 ≤ r) ∧
    2 / 3 ∈ alphaVec 7 ∧ CoversAll (1 : Matrix (Fin 1) (Fin 1) ℝ) {z | z 0 ∈ Set.Icc (-1 : ℝ) 1} (scaleDesign (pt1 0) scaleA (2 / 3)) (1 / 3) := by
  have hg : alphaVec 7 = [1 / 2, 7 / 12, 2 / 3, 3 / 4, 5 / 6, 11 / 12, 1] := by
    simp only [alphaVec, List.range_succ, List.range_zero, List.nil_append, List.cons_append, List.map_cons, List.map_nil]
    norm_num
  refine ⟨?_, ?_, by rw [hg]; simp, ?_⟩
  · set f := scaleScore (1 : Matrix (Fin 1) (Fin 1) ℝ) scaleV (pt1 0) scaleA with hf
    have hs := fun {α} h1 h2 => scaleScore_wit (α := α) h1 h2
    rw [← hf] at hs
    obtain ⟨a1, a2⟩ := argminFrom_spec (fun j => f ((alphaVec 7).getD j 0)) (List.range (alphaVec 7).length) 0
    have hl : (alphaVec 7).length = 7 := by rw [hg]; rfl
    have hi : argminFrom (fun j => f ((alphaVec 7).getD j 0)) 0 (List.range (alphaVec 7).length) = 3 := by
      have a3 := a2 3 (by rw [hl]; simp)
      set i := argminFrom (fun j => f ((alphaVec 7).getD j 0)) 0 (List.range (alphaVec 7).length)
      have hi7 : i < 7 := by
        rcases List.mem_cons.1 a1 with h | h
        · omega
        · rw [hl] at h; exact List.mem_range.1 h
      clear_value i
      rw [hg] at a3
      have h3 : f (3 / 4) = 1 / 4 := by rw [hs (by norm_num) (by norm_num)]; norm_num
      by_contra hne
      have hv : f (([1 / 2, 7 / 12, 2 / 3, 3 / 4, 5 / 6, 11 / 12, 1] : List ℝ).getD i 0) ≤ 1 / 4 := by rw [← h3]; exact a3
      interval_cases i <;> simp only [List.getD_cons_zero, List.getD_cons_succ] at hv <;> first | exact hne rfl | (rw [hs (by norm_num) (by norm_num)] at hv; norm_num at hv)
    have hp : pickScale mins f (alphaVec 7) = .ok (3 / 4) := by
      simp only [pickScale, hi]
      rw [hg]
      simp only [List.getElem?_cons_succ, List.getElem?_cons_zero, if_false, OfNat.ofNat_ne_zero, Nat.add_one_sub_one, Nat.reduceAdd, Nat.reduceSub]
      obtain ⟨x, hx, x1, x2, x3⟩ := hm.2 f (2 / 3) (3 / 4) (5 / 6) (by norm_num) (by norm_num)
      rw [hx]
      have := x3 (3 / 4) (by norm_num) (by norm_num)
      rw [hs (by linarith) (by linarith), hs (by norm_num) (by norm_num)] at this
      have e : max (1 - 3 / 4 : ℝ) (3 / 4 - 1 / 2) = 1 / 4 := by norm_num
      rw [e, max_le_iff] at this
      have : x = 3 / 4 := by linarith [this.1, this.2]
      rw [this]
    simp only [minimaxScale, ← hf, hp, Except.ok.injEq]
    simp only [scaleDesign, scaleA, List.map_cons, List.map_nil, List.cons.injEq, and_true]
    refine ⟨?_, ?_, ?_⟩ <;> funext i <;> simp [pt1]
    norm_num
  · intro r h
    obtain ⟨a, ha, hle⟩ := h (pt1 (3 / 8)) (by simp [pt1]; norm_num)
    rw [ldist_one1] at hle
    simp only [List.mem_cons, List.not_mem_nil, or_false] at ha
    rcases ha with rfl | rfl | rfl <;> simp only [pt1] at hle
    · have := (neg_le_abs (-3 / 4 - 3 / 8 : ℝ)).trans hle; linarith
    · have := (neg_le_abs (0 - 3 / 8 : ℝ)).trans hle; linarith
    · have := (le_abs_self (3 / 4 - 3 / 8 : ℝ)).trans hle; linarith
  · intro z hz
    obtain ⟨hz1, hz2⟩ := hz
    have hd : scaleDesign (pt1 0) scaleA (2 / 3) = [pt1 (-2 / 3), pt1 0, pt1 (2 / 3)] := by
      simp only [scaleDesign, scaleA, List.map_cons, List.map_nil, List.cons.injEq, and_true]
      refine ⟨?_, ?_, ?_⟩ <;> funext i <;> simp [pt1]
      norm_num
    rw [hd]
    rcases le_total (z 0) (-1 / 3) with h | h
    · exact ⟨pt1 (-2 / 3), by simp, by rw [ldist_one1, abs_le]; simp only [pt1]; constructor <;> linarith⟩
    · rcases le_total (z 0) (1 / 3) with h' | h'
      · exact ⟨pt1 0, by simp, by rw [ldist_one1, abs_le]; simp only [pt1]; constructor <;> linarith⟩
      · exact ⟨pt1 (2 / 3), by simp, by rw [ldist_one1, abs_le]; simp only [pt1]; constructor <;> linarith⟩

/-- The weaker contract can be met. -/
example : ScalarMin.Descends fun _ b => if 0 ≤ b.2.1 ∧ b.2.1 ≤ 1 then .ok b.2.1 else .error .valueError := by
  intro f a b c x h
  simp only at h
  split_ifs at h with hb
  cases h
  exact ⟨hb.1, hb.2, le_rfl⟩

end Verif.Samp
