import Verif.Geometry.VsampleModel
import Verif.Geometry.GeoProps
import Verif.Lipschitz.BoundProps
import Mathlib.Analysis.InnerProductSpace.GramSchmidtOrtho

/-!
# C92: `voronoi_vertex_sample` and `fill_distance_estimate`
-/

namespace Verif.Geo

open Verif Verif.Domain Matrix

variable {k m : ℕ}

/-! ## Specification -/

/-- Points satisfying every linear inequality of the domain, and the equalities `A_eq x = b_eq`. -/
def Feasible (D : SDomain m) (beq : Lip.Pt m → ℝ) (x : Lip.Pt m) : Prop := (∀ r ∈ D.aug, r.1 ⬝ᵥ x ≤ r.2) ∧ ∀ a ∈ D.eqs, a ⬝ᵥ x = beq a

/-- Contract of `np.argsort`: the same samples, by increasing key. -/
def SortBy.Sorts (sort : SortBy m) : Prop := ∀ key X, (sort key X).Perm X ∧ (sort key X).Pairwise fun a b => key a ≤ key b

/-- Contract of the QR factorization: the columns of `Q` are orthonormal and every column of the matrix is a combination of them. -/
def QRcols.Exact (qr : QRcols m) : Prop :=
  ∀ cols, (qr cols).Pairwise (fun a b => a ⬝ᵥ b = 0) ∧ (∀ q ∈ qr cols, q ⬝ᵥ q = 1) ∧ ∀ c ∈ cols, c ∈ Submodule.span ℝ {q | q ∈ qr cols}

/-- The contract of the sort can be met. -/
theorem exists_sorts : ∃ sort : SortBy m, sort.Sorts := by
  classical
  refine ⟨fun key X => X.insertionSort fun a b => key a ≤ key b, fun key X => ⟨List.perm_insertionSort _ _, ?_⟩⟩
  haveI : Std.Total fun a b : Lip.Pt m => key a ≤ key b := ⟨fun a b => le_total _ _⟩
  haveI : IsTrans (Lip.Pt m) fun a b => key a ≤ key b := ⟨fun a b c => le_trans⟩
  exact List.pairwise_insertionSort _ _

/-- The contract of the factorization can be met. -/
theorem exists_qr : ∃ qr : QRcols m, qr.Exact := by
  classical
  have key : ∀ cols : List (Lip.Pt m), ∃ Q : List (Lip.Pt m), Q.Pairwise (fun a b => a ⬝ᵥ b = 0) ∧ (∀ q ∈ Q, q ⬝ᵥ q = 1) ∧
      ∀ c ∈ cols, c ∈ Submodule.span ℝ {q | q ∈ Q} := by
    intro cols
    let b := EuclideanSpace.basisFun (Fin m) ℝ
    refine ⟨(List.finRange m).map fun i => Pi.single i 1, ?_, ?_, ?_⟩
    · rw [List.pairwise_map]
      refine (List.nodup_finRange m).imp fun {a b} hab => ?_
      simp [hab]
    · intro q hq
      obtain ⟨i, -, rfl⟩ := List.mem_map.1 hq
      simp
    · intro c _
      have : c = ∑ i, c i • (Pi.single i (1 : ℝ) : Lip.Pt m) := by
        funext j; simp [Finset.sum_apply, Pi.single_apply]
      rw [this]
      exact Submodule.sum_mem _ fun i _ => Submodule.smul_mem _ _ (Submodule.subset_span (List.mem_map.2 ⟨i, List.mem_finRange i, rfl⟩))
  exact ⟨fun cols => (key cols).choose, fun cols => (key cols).choose_spec⟩

/-! ## The projection -/

theorem sum_dot (Q : List (Lip.Pt m)) (h c : Lip.Pt m) : c ⬝ᵥ (Q.map fun q => (q ⬝ᵥ h) • q).sum = (Q.map fun q => (q ⬝ᵥ h) * (c ⬝ᵥ q)).sum := by
  induction Q with
  | nil => simp
  | cons q Q ih => simp [dotProduct_add, dotProduct_smul, ih]

theorem projOut_orth {Q : List (Lip.Pt m)} (h1 : Q.Pairwise fun a b => a ⬝ᵥ b = 0) (h2 : ∀ q ∈ Q, q ⬝ᵥ q = 1) (h : Lip.Pt m) :
    ∀ q ∈ Q, q ⬝ᵥ projOut Q h = 0 := by
  have key : ∀ Q : List (Lip.Pt m), Q.Pairwise (fun a b => a ⬝ᵥ b = 0) → (∀ q ∈ Q, q ⬝ᵥ q = 1) → ∀ q ∈ Q,
      (Q.map fun p => (p ⬝ᵥ h) * (q ⬝ᵥ p)).sum = q ⬝ᵥ h := by
    intro Q
    induction Q with
    | nil => simp
    | cons a Q ih =>
      intro g1 g2 q hq
      rw [List.pairwise_cons] at g1
      rw [List.map_cons, List.sum_cons]
      rcases List.mem_cons.1 hq with rfl | hq
      · rw [g2 q (by simp), mul_one, List.sum_eq_zero, add_zero]
        intro y hy
        obtain ⟨p, hp, rfl⟩ := List.mem_map.1 hy
        rw [g1.1 p hp, mul_zero]
      · rw [ih g1.2 (fun q hq => g2 q (by simp [hq])) q hq, dotProduct_comm q a, g1.1 q hq, mul_zero, zero_add]
  intro q hq
  rw [projOut, dotProduct_sub, sum_dot, key Q h1 h2 q hq, sub_self]

theorem projOut_span {Q : List (Lip.Pt m)} (h1 : Q.Pairwise fun a b => a ⬝ᵥ b = 0) (h2 : ∀ q ∈ Q, q ⬝ᵥ q = 1) (h : Lip.Pt m) {c : Lip.Pt m}
    (hc : c ∈ Submodule.span ℝ {q | q ∈ Q}) : c ⬝ᵥ projOut Q h = 0 := by
  induction hc using Submodule.span_induction with
  | mem x hx => exact projOut_orth h1 h2 h x hx
  | zero => simp
  | add x y _ _ hx hy => rw [add_dotProduct, hx, hy, add_zero]
  | smul a x _ hx => rw [smul_dotProduct, hx, smul_zero]

theorem projOut_self {Q : List (Lip.Pt m)} (h1 : Q.Pairwise fun a b => a ⬝ᵥ b = 0) (h2 : ∀ q ∈ Q, q ⬝ᵥ q = 1) (h : Lip.Pt m) :
    h ⬝ᵥ projOut Q h = projOut Q h ⬝ᵥ projOut Q h := by
  have hs : (Q.map fun q => (q ⬝ᵥ h) • q).sum ⬝ᵥ projOut Q h = 0 := by
    rw [dotProduct_comm, sum_dot, List.sum_eq_zero]
    intro y hy
    obtain ⟨q, hq, rfl⟩ := List.mem_map.1 hy
    rw [dotProduct_comm _ q, projOut_orth h1 h2 h q hq, mul_zero]
  conv_rhs => rw [projOut, sub_dotProduct]
  rw [← projOut, hs, sub_zero]

/-- The direction never changes an equality or an active inequality. -/
theorem direction_null {qr : QRcols m} (hq : qr.Exact) (randomize : Bool) (rnd : Lip.Pt m) {cols : List (Lip.Pt m)} (h : Lip.Pt m) {c : Lip.Pt m}
    (hc : c ∈ cols) : c ⬝ᵥ direction qr randomize rnd cols h = 0 := by
  obtain ⟨h1, h2, h3⟩ := hq cols
  rw [direction, if_neg (List.ne_nil_of_mem hc)]
  split <;> exact projOut_span h1 h2 _ (h3 c hc)

/-- Without randomization the direction has a nonnegative component along the direction it was made from. -/
theorem direction_ascent {qr : QRcols m} (hq : qr.Exact) (rnd : Lip.Pt m) (cols : List (Lip.Pt m)) (h : Lip.Pt m) :
    0 ≤ h ⬝ᵥ direction qr false rnd cols h := by
  obtain ⟨h1, h2, -⟩ := hq cols
  rw [direction]
  split
  · exact Lip.dotProduct_self_nonneg' h
  · rw [if_neg (by simp), projOut_self h1 h2]
    exact Lip.dotProduct_self_nonneg' _

/-! ## The step length -/

theorem minStep_some {a b : Option ℝ} {t : ℝ} (h : minStep a b = some t) :
    (a = some t ∨ b = some t) ∧ (∀ u, a = some u → t ≤ u) ∧ ∀ u, b = some u → t ≤ u := by
  cases a <;> cases b <;> simp_all [minStep]
  rename_i a b
  subst h
  simpa [min_choice] using le_total a b

theorem minStep_none {a b : Option ℝ} (h : minStep a b = none) : a = none ∧ b = none := by
  cases a <;> cases b <;> simp_all [minStep]

theorem foldl_minStep_some (l : List (Option ℝ)) : ∀ (a : Option ℝ) {t : ℝ}, l.foldl minStep a = some t →
    (a = some t ∨ some t ∈ l) ∧ (∀ u, a = some u → t ≤ u) ∧ ∀ u, some u ∈ l → t ≤ u := by
  induction l with
  | nil => intro a t h; simp_all
  | cons b l ih =>
    intro a t h
    obtain ⟨h1, h2, h3⟩ := ih (minStep a b) h
    have key : ∀ u, (a = some u ∨ b = some u) → t ≤ u := by
      intro u hu
      rcases e : minStep a b with _ | w
      · obtain ⟨ea, eb⟩ := minStep_none e
        simp_all
      · obtain ⟨-, g2, g3⟩ := minStep_some e
        have := h2 w e
        rcases hu with hu | hu
        · exact this.trans (g2 u hu)
        · exact this.trans (g3 u hu)
    refine ⟨?_, fun u hu => key u (.inl hu), fun u hu => ?_⟩
    · rcases h1 with h1 | h1
      · rcases (minStep_some h1).1 with h | h
        · exact .inl h
        · exact .inr (by simp [h])
      · exact .inr (by simp [h1])
    · rcases List.mem_cons.1 hu with hu | hu
      · exact key u (.inr hu.symm)
      · exact h3 u hu

theorem foldl_minStep_none (l : List (Option ℝ)) : ∀ (a : Option ℝ), l.foldl minStep a = none → a = none ∧ ∀ u, u ∈ l → u = none := by
  induction l with
  | nil => intro a h; simp_all
  | cons b l ih =>
    intro a h
    obtain ⟨h1, h2⟩ := ih (minStep a b) h
    obtain ⟨ea, eb⟩ := minStep_none h1
    refine ⟨ea, fun u hu => ?_⟩
    rcases List.mem_cons.1 hu with rfl | hu
    · exact eb
    · exact h2 u hu

/-- The step length is zero, or positive-or-zero, below every candidate, and equal to one of them. -/
theorem stepLength_spec (D : SDomain m) (L : Matrix (Fin k) (Fin m) ℝ) (Xhat : List (Lip.Pt m)) (near x h : Lip.Pt m) :
    0 ≤ stepLength D L Xhat near x h ∧
    (∀ xhat ∈ Xhat, ∀ u, planeStep L near xhat x h = some u → stepLength D L Xhat near x h ≤ u) ∧
    (∀ r ∈ D.aug, ∀ u, wallStep r x h = some u → stepLength D L Xhat near x h ≤ u) ∧
    (stepLength D L Xhat near x h ≠ 0 → (∃ xhat ∈ Xhat, planeStep L near xhat x h = some (stepLength D L Xhat near x h)) ∨
      ∃ r ∈ D.aug, wallStep r x h = some (stepLength D L Xhat near x h)) ∧
    ((∀ xhat ∈ Xhat, planeStep L near xhat x h = none) → (∀ r ∈ D.aug, wallStep r x h = none) → stepLength D L Xhat near x h = 0) := by
  have hp : ∀ xhat u, planeStep L near xhat x h = some u → 0 ≤ u := by
    intro xhat u hu
    simp only [planeStep] at hu
    split at hu
    · simp at hu
    · split at hu
      · simp at hu
      · rename_i h2
        rw [← Option.some.inj hu]; exact not_lt.1 h2
  have hw : ∀ r u, wallStep r x h = some u → 0 ≤ u := by
    intro r u hu
    simp only [wallStep] at hu
    split at hu
    · rw [← Option.some.inj hu]
    · split at hu
      · simp at hu
      · split at hu
        · simp at hu
        · rename_i h2
          rw [← Option.some.inj hu]; exact (not_le.1 h2).le
  rcases e : minStep ((Xhat.map fun xhat => planeStep L near xhat x h).foldl minStep none) ((D.aug.map fun r => wallStep r x h).foldl minStep none) with _ | t
  · obtain ⟨e1, e2⟩ := minStep_none e
    obtain ⟨-, f1⟩ := foldl_minStep_none _ _ e1
    obtain ⟨-, f2⟩ := foldl_minStep_none _ _ e2
    have e0 : stepLength D L Xhat near x h = 0 := by rw [stepLength, e]; rfl
    refine ⟨e0.ge, fun xhat hx u hu => ?_, fun r hr u hu => ?_, fun h0 => absurd e0 h0, fun _ _ => e0⟩
    · have := f1 _ (List.mem_map_of_mem hx); rw [hu] at this; simp at this
    · have := f2 _ (List.mem_map_of_mem hr); rw [hu] at this; simp at this
  · obtain ⟨e1, e2, e3⟩ := minStep_some e
    have e0 : stepLength D L Xhat near x h = t := by rw [stepLength, e]; rfl
    rw [e0]
    have hP : ∀ xhat ∈ Xhat, ∀ u, planeStep L near xhat x h = some u → t ≤ u := by
      intro xhat hx u hu
      rcases f : (Xhat.map fun xhat => planeStep L near xhat x h).foldl minStep none with _ | w
      · have := (foldl_minStep_none _ _ f).2 _ (List.mem_map_of_mem hx); rw [hu] at this; simp at this
      · exact (e2 w f).trans ((foldl_minStep_some _ _ f).2.2 u (List.mem_map.2 ⟨xhat, hx, hu⟩))
    have hW : ∀ r ∈ D.aug, ∀ u, wallStep r x h = some u → t ≤ u := by
      intro r hr u hu
      rcases f : (D.aug.map fun r => wallStep r x h).foldl minStep none with _ | w
      · have := (foldl_minStep_none _ _ f).2 _ (List.mem_map_of_mem hr); rw [hu] at this; simp at this
      · exact (e3 w f).trans ((foldl_minStep_some _ _ f).2.2 u (List.mem_map.2 ⟨r, hr, hu⟩))
    have hE : (∃ xhat ∈ Xhat, planeStep L near xhat x h = some t) ∨ ∃ r ∈ D.aug, wallStep r x h = some t := by
      rcases e1 with e1 | e1
      · rcases (foldl_minStep_some _ _ e1).1 with g | g
        · simp at g
        · exact .inl (List.mem_map.1 g)
      · rcases (foldl_minStep_some _ _ e1).1 with g | g
        · simp at g
        · exact .inr (List.mem_map.1 g)
    refine ⟨?_, hP, hW, fun _ => hE, fun g1 g2 => ?_⟩
    · rcases hE with ⟨y, -, hy⟩ | ⟨r, -, hr⟩
      · exact hp _ _ hy
      · exact hw _ _ hr
    · rcases hE with ⟨y, hy, e⟩ | ⟨r, hr, e⟩
      · rw [g1 y hy] at e; simp at e
      · rw [g2 r hr] at e; simp at e

/-! ## Inside the domain -/

theorem isClose_self (a : ℝ) : isClose a a := by
  rw [isClose, sub_self, abs_zero]
  have : 0 ≤ |a| := abs_nonneg a
  unfold atol; positivity

/-- C92: a pass keeps every inequality of the domain and the value of every equality, whatever the random direction. -/
theorem vstep_inside {sort : SortBy m} {qr : QRcols m} (hq : qr.Exact) {D : SDomain m} {L : Matrix (Fin k) (Fin m) ℝ} {randomize : Bool}
    {Xhat : List (Lip.Pt m)} {it : ℕ} {rnd x y : Lip.Pt m} {beq : Lip.Pt m → ℝ} (hx : Feasible D beq x)
    (h : vstep sort qr D L randomize Xhat it rnd x = .ok y) : Feasible D beq y := by
  simp only [vstep] at h
  split at h
  · simp at h
  · rename_i near rest _
    split at h
    · simp at h
    · simp only [Except.ok.injEq] at h
      set cols := nullCols D L it near rest x with hcols
      set d := direction qr randomize rnd cols ((Lᵀ * L) *ᵥ (x - near)) with hd
      obtain ⟨s0, -, s2, -, -⟩ := stepLength_spec D L Xhat near x d
      set t := stepLength D L Xhat near x d with ht
      subst h
      refine ⟨fun r hr => ?_, fun a ha => ?_⟩
      · rw [dotProduct_add, dotProduct_smul, smul_eq_mul]
        by_cases hact : isClose (r.1 ⬝ᵥ x) r.2
        · have : r.1 ⬝ᵥ d = 0 := by
            refine direction_null hq _ _ _ ?_
            simp only [hcols, nullCols, List.mem_append, List.mem_map, List.mem_filter, decide_eq_true_eq]
            exact .inl (.inr ⟨r, ⟨hr, hact⟩, rfl⟩)
          rw [this, mul_zero, add_zero]; exact hx.1 r hr
        · have hlt : r.1 ⬝ᵥ x < r.2 := lt_of_le_of_ne (hx.1 r hr) fun e => hact (by rw [e]; exact isClose_self _)
          rcases le_or_gt (r.1 ⬝ᵥ d) 0 with hn | hp
          · have := mul_nonpos_of_nonneg_of_nonpos s0 hn; linarith
          · have hw := s2 r hr
            by_cases hz : ∀ i, |d i| < 1 / 10 ^ 10
            · have : t ≤ 0 := hw 0 (by rw [wallStep, if_pos hz])
              have : t = 0 := le_antisymm this s0
              rw [this, zero_mul, add_zero]; exact hlt.le
            · have := hw _ (by rw [wallStep, if_neg hz, if_neg hp.ne', if_neg (not_le.2 (div_pos (sub_pos.2 hlt) hp))])
              rw [le_div_iff₀ hp] at this; linarith
      · rw [dotProduct_add, dotProduct_smul, smul_eq_mul, direction_null hq _ _ _ (by simp [hcols, nullCols, ha]), mul_zero, add_zero]
        exact hx.2 a ha

theorem vpasses_inside {sort : SortBy m} {qr : QRcols m} (hq : qr.Exact) {D : SDomain m} {L : Matrix (Fin k) (Fin m) ℝ} {randomize : Bool}
    {Xhat : List (Lip.Pt m)} {rnd : ℕ → Lip.Pt m} {beq : Lip.Pt m → ℝ} : ∀ (n : ℕ) {x y : Lip.Pt m}, Feasible D beq x →
    vpasses sort qr D L randomize Xhat rnd n x = .ok y → Feasible D beq y
  | 0, x, y, hx, h => by simp only [vpasses, Except.ok.injEq] at h; rwa [← h]
  | n + 1, x, y, hx, h => by
    simp only [vpasses] at h
    split at h
    · simp at h
    · rename_i z hz
      exact vstep_inside hq (vpasses_inside hq n hx hz) h

theorem mapE_ok {α β : Type*} {f : α → Except Err β} : ∀ {l : List α} {r : List β}, mapE f l = .ok r → List.Forall₂ (fun a b => f a = .ok b) l r
  | [], r, h => by simp only [mapE, Except.ok.injEq] at h; subst h; exact .nil
  | a :: t, r, h => by
    simp only [mapE] at h
    split at h
    · simp at h
    · rename_i b hb
      split at h
      · simp at h
      · rename_i r' hr
        simp only [Except.ok.injEq] at h
        subst h
        exact .cons hb (mapE_ok hr)

theorem mapE_error {α β : Type*} {f : α → Except Err β} {e : Err} : ∀ {l : List α}, mapE f l = .error e → ∃ a ∈ l, f a = .error e
  | [], h => by simp [mapE] at h
  | a :: t, h => by
    simp only [mapE] at h
    split at h
    · rename_i e' he
      simp only [Except.error.injEq] at h
      exact ⟨a, by simp, by rw [he, h]⟩
    · split at h
      · rename_i e' he
        simp only [Except.error.injEq] at h
        obtain ⟨b, hb, e2⟩ := mapE_error (by rw [he, h] : mapE f t = .error e)
        exact ⟨b, by simp [hb], e2⟩
      · simp at h

theorem forall₂_right {α β : Type*} {R : α → β → Prop} {l : List α} {r : List β} (h : List.Forall₂ R l r) : ∀ b ∈ r, ∃ a ∈ l, R a b := by
  induction h with
  | nil => simp
  | cons h1 _ ih =>
    intro b hb
    rcases List.mem_cons.1 hb with rfl | hb
    · exact ⟨_, by simp, h1⟩
    · obtain ⟨a, ha, h⟩ := ih b hb
      exact ⟨a, by simp [ha], h⟩

theorem forall₂_left {α β : Type*} {R : α → β → Prop} {l : List α} {r : List β} (h : List.Forall₂ R l r) : ∀ a ∈ l, ∃ b ∈ r, R a b := by
  induction h with
  | nil => simp
  | cons h1 _ ih =>
    intro b hb
    rcases List.mem_cons.1 hb with rfl | hb
    · exact ⟨_, by simp, h1⟩
    · obtain ⟨a, ha, h⟩ := ih b hb
      exact ⟨a, by simp [ha], h⟩

/-- C92: every point returned satisfies every constraint its starting point satisfied; there is one point for each starting point, in order. -/
theorem vertexSample_inside {sort : SortBy m} {qr : QRcols m} (hq : qr.Exact) {D : SDomain m} {L : Matrix (Fin k) (Fin m) ℝ} {randomize : Bool}
    {Xhat : List (Lip.Pt m)} {X0 : List (Lip.Pt m × (ℕ → Lip.Pt m))} {V : List (Lip.Pt m)} (h : vertexSample sort qr D L randomize Xhat X0 = .ok V) :
    List.Forall₂ (fun x v => ∀ beq, Feasible D beq x.1 → Feasible D beq v) X0 V := by
  rw [vertexSample] at h
  split at h
  · simp at h
  · exact (mapE_ok h).imp fun x v hv beq hx => vpasses_inside hq _ hx hv

/-! ## Distances -/

theorem ldist_nn (L : Matrix (Fin k) (Fin m) ℝ) (x y : Lip.Pt m) : 0 ≤ Lip.ldist L x y := Lip.nrm_nonneg _

theorem ldist_sq (L : Matrix (Fin k) (Fin m) ℝ) (x y : Lip.Pt m) : Lip.ldist L x y ^ 2 = (L *ᵥ (x - y)) ⬝ᵥ (L *ᵥ (x - y)) := by
  rw [Lip.ldist, Lip.nrm_sq, Matrix.mulVec_sub]

theorem gram_dot (L : Matrix (Fin k) (Fin m) ℝ) (x h : Lip.Pt m) : ((Lᵀ * L) *ᵥ x) ⬝ᵥ h = (L *ᵥ x) ⬝ᵥ (L *ᵥ h) := by
  rw [← Matrix.mulVec_mulVec, dotProduct_comm, Matrix.dotProduct_mulVec, Matrix.vecMul_transpose, dotProduct_comm]

/-- Moving by `t h` changes the squared distance by the gradient term and a square. -/
theorem ldist_move (L : Matrix (Fin k) (Fin m) ℝ) (y x h : Lip.Pt m) (t : ℝ) :
    Lip.ldist L y (x + t • h) ^ 2 = Lip.ldist L y x ^ 2 + 2 * t * (((Lᵀ * L) *ᵥ (x - y)) ⬝ᵥ h) + t ^ 2 * ((L *ᵥ h) ⬝ᵥ (L *ᵥ h)) := by
  rw [Lip.ldist_comm, Lip.ldist_comm L y x, ldist_sq, ldist_sq, gram_dot, add_sub_right_comm, Matrix.mulVec_add, Matrix.mulVec_smul]
  simp only [add_dotProduct, dotProduct_add, smul_dotProduct, dotProduct_smul, smul_eq_mul]
  rw [dotProduct_comm (L *ᵥ h) (L *ᵥ (x - y))]; ring

/-- The gap between the squared distances to another sample and to the nearest one, along the line. -/
theorem gap_move (L : Matrix (Fin k) (Fin m) ℝ) (near y x h : Lip.Pt m) (t : ℝ) :
    Lip.ldist L y (x + t • h) ^ 2 - Lip.ldist L near (x + t • h) ^ 2 =
      2 * (-((L *ᵥ x - (1 / 2 : ℝ) • (L *ᵥ (y + near))) ⬝ᵥ (L *ᵥ (y - near))) - t * ((L *ᵥ (y - near)) ⬝ᵥ (L *ᵥ h))) := by
  rw [Lip.ldist_comm, Lip.ldist_comm L near, ldist_sq, ldist_sq]
  simp only [Matrix.mulVec_add, Matrix.mulVec_sub, Matrix.mulVec_smul, add_dotProduct, dotProduct_add, sub_dotProduct, dotProduct_sub, smul_dotProduct, dotProduct_smul, smul_eq_mul]
  rw [dotProduct_comm (L *ᵥ near) (L *ᵥ x), dotProduct_comm (L *ᵥ y) (L *ᵥ x), dotProduct_comm (L *ᵥ near) (L *ᵥ h), dotProduct_comm (L *ᵥ y) (L *ᵥ h),
    dotProduct_comm (L *ᵥ near) (L *ᵥ y), dotProduct_comm (L *ᵥ x) (L *ᵥ h)]
  ring

theorem vstep_ok {sort : SortBy m} {qr : QRcols m} {D : SDomain m} {L : Matrix (Fin k) (Fin m) ℝ} {randomize : Bool} {Xhat : List (Lip.Pt m)} {it : ℕ}
    {rnd x y : Lip.Pt m} (hs : sort.Sorts) (h : vstep sort qr D L randomize Xhat it rnd x = .ok y) : ∃ near ∈ Xhat, ∃ rest,
      (∀ z ∈ Xhat, Lip.ldist L x near ≤ Lip.ldist L x z) ∧ sort (fun y => Lip.ldist L x y) Xhat = near :: rest ∧
      y = x + stepLength D L Xhat near x (direction qr randomize rnd (nullCols D L it near rest x) ((Lᵀ * L) *ᵥ (x - near))) •
        direction qr randomize rnd (nullCols D L it near rest x) ((Lᵀ * L) *ᵥ (x - near)) := by
  simp only [vstep] at h
  split at h
  · simp at h
  · rename_i near rest e
    split at h
    · simp at h
    · simp only [Except.ok.injEq] at h
      obtain ⟨h1, h2⟩ := hs (fun y => Lip.ldist L x y) Xhat
      rw [e] at h1 h2
      refine ⟨near, h1.mem_iff.1 (by simp), rest, fun z hz => ?_, e, h.symm⟩
      rcases List.mem_cons.1 (h1.mem_iff.2 hz) with rfl | hz
      · exact le_rfl
      · exact (List.pairwise_cons.1 h2).1 z hz

/-- The rate at which the gap between the sample `y` and the nearest sample closes along `h`. -/
noncomputable def closing (L : Matrix (Fin k) (Fin m) ℝ) (near y h : Lip.Pt m) : ℝ := (L *ᵥ (y - near)) ⬝ᵥ (L *ᵥ h)

/-- No sample is approached at a positive rate below the tolerance `1e-8` when moving along `h` away from `near`. -/
def NoSlow (L : Matrix (Fin k) (Fin m) ℝ) (Xhat : List (Lip.Pt m)) (near h : Lip.Pt m) : Prop := ∀ y ∈ Xhat, ¬(0 < closing L near y h ∧ closing L near y h ≤ atol)

/-- Up to the plane step, the nearest sample stays the nearest one. -/
theorem plane_stays {L : Matrix (Fin k) (Fin m) ℝ} {near y x h : Lip.Pt m} (hn : Lip.ldist L x near ≤ Lip.ldist L x y) {t : ℝ} (ht : 0 ≤ t)
    (hs : ¬(0 < closing L near y h ∧ closing L near y h ≤ atol)) (hp : ∀ u, planeStep L near y x h = some u → t ≤ u) :
    Lip.ldist L near (x + t • h) ≤ Lip.ldist L y (x + t • h) := by
  have hgap := gap_move L near y x h t
  have hgap0 := gap_move L near y x h 0
  rw [zero_smul, add_zero, zero_mul, sub_zero] at hgap0
  set num := -((L *ᵥ x - (1 / 2 : ℝ) • (L *ᵥ (y + near))) ⬝ᵥ (L *ᵥ (y - near))) with hnum
  have hc : (L *ᵥ (y - near)) ⬝ᵥ (L *ᵥ h) = closing L near y h := rfl
  rw [hc] at hgap
  have h0 : 0 ≤ num := by
    have := pow_le_pow_left₀ (ldist_nn L x near) hn 2
    rw [Lip.ldist_comm L x, Lip.ldist_comm L x] at this; linarith
  have : 0 ≤ num - t * closing L near y h := by
    rcases le_or_gt (closing L near y h) 0 with hle | hpos
    · have := mul_nonpos_of_nonneg_of_nonpos ht hle; linarith
    · have hbig : atol < closing L near y h := by
        by_contra hcon; exact hs ⟨hpos, not_lt.1 hcon⟩
      have := hp (num / closing L near y h) (by
        simp only [planeStep]
        rw [← hnum, hc, abs_of_pos hpos, if_neg (not_le.2 hbig), if_neg (not_lt.2 (div_nonneg h0 hpos.le))])
      rw [le_div_iff₀ hpos] at this; linarith
  have h2 : Lip.ldist L near (x + t • h) ^ 2 ≤ Lip.ldist L y (x + t • h) ^ 2 := by linarith
  exact (sq_le_sq₀ (ldist_nn ..) (ldist_nn ..)).1 h2

/-- C92: without randomization the point never comes closer to the sample that was nearest. -/
theorem vstep_away {sort : SortBy m} (hs : sort.Sorts) {qr : QRcols m} (hq : qr.Exact) {D : SDomain m} {L : Matrix (Fin k) (Fin m) ℝ}
    {Xhat : List (Lip.Pt m)} {it : ℕ} {rnd x y : Lip.Pt m} (h : vstep sort qr D L false Xhat it rnd x = .ok y) :
    ∃ near ∈ Xhat, Lip.ldist L near x = nearest L Xhat x ∧ Lip.ldist L near x ≤ Lip.ldist L near y := by
  obtain ⟨near, hne, rest, hmin, -, rfl⟩ := vstep_ok hs h
  refine ⟨near, hne, le_antisymm ?_ (nearest_le L hne x), ?_⟩
  · obtain ⟨z, hz, e⟩ := nearest_mem L (List.ne_nil_of_mem hne) x
    rw [e, Lip.ldist_comm, Lip.ldist_comm L z]; exact hmin z hz
  · refine (sq_le_sq₀ (ldist_nn ..) (ldist_nn ..)).1 ?_
    have := ldist_move L near x (direction qr false rnd (nullCols D L it near rest x) ((Lᵀ * L) *ᵥ (x - near)))
      (stepLength D L Xhat near x (direction qr false rnd (nullCols D L it near rest x) ((Lᵀ * L) *ᵥ (x - near))))
    have h1 := direction_ascent hq rnd (nullCols D L it near rest x) ((Lᵀ * L) *ᵥ (x - near))
    have h2 := (stepLength_spec D L Xhat near x (direction qr false rnd (nullCols D L it near rest x) ((Lᵀ * L) *ᵥ (x - near)))).1
    have h3 := Lip.dotProduct_self_nonneg' (L *ᵥ direction qr false rnd (nullCols D L it near rest x) ((Lᵀ * L) *ᵥ (x - near)))
    rw [this]
    have := mul_nonneg h2 h1
    have := mul_nonneg (sq_nonneg (stepLength D L Xhat near x (direction qr false rnd (nullCols D L it near rest x) ((Lᵀ * L) *ᵥ (x - near))))) h3
    linarith

/-- The pass from `x` to `y` approaches no sample slowly: `y` lies on the ray from `x` along some `h` that satisfies `NoSlow`
for every sample nearest to `x`. -/
def FastPass (qr : QRcols m) (D : SDomain m) (L : Matrix (Fin k) (Fin m) ℝ) (Xhat : List (Lip.Pt m)) (it : ℕ) (rnd x : Lip.Pt m) : Prop :=
  ∀ near rest, (near :: rest).Perm Xhat → (∀ z ∈ Xhat, Lip.ldist L x near ≤ Lip.ldist L x z) →
    NoSlow L Xhat near (direction qr false rnd (nullCols D L it near rest x) ((Lᵀ * L) *ᵥ (x - near)))

/-- C92: a pass without randomization never decreases the distance to the nearest sample, if no sample is approached at a positive rate below `1e-8`. -/
theorem vstep_nearest {sort : SortBy m} (hs : sort.Sorts) {qr : QRcols m} (hq : qr.Exact) {D : SDomain m} {L : Matrix (Fin k) (Fin m) ℝ}
    {Xhat : List (Lip.Pt m)} {it : ℕ} {rnd x y : Lip.Pt m} (hf : FastPass qr D L Xhat it rnd x) (h : vstep sort qr D L false Xhat it rnd x = .ok y) :
    nearest L Xhat x ≤ nearest L Xhat y := by
  have h' := h
  obtain ⟨near, hne, rest, hmin, e, rfl⟩ := vstep_ok hs h
  have hperm : (near :: rest).Perm Xhat := by rw [← e]; exact (hs _ _).1
  have hno := hf near rest hperm hmin
  obtain ⟨z, hz, ez⟩ := nearest_mem L (List.ne_nil_of_mem hne) (x + stepLength D L Xhat near x
    (direction qr false rnd (nullCols D L it near rest x) ((Lᵀ * L) *ᵥ (x - near))) • direction qr false rnd (nullCols D L it near rest x) ((Lᵀ * L) *ᵥ (x - near)))
  set d := direction qr false rnd (nullCols D L it near rest x) ((Lᵀ * L) *ᵥ (x - near)) with hd
  obtain ⟨h2, h3, -, -, -⟩ := stepLength_spec D L Xhat near x d
  rw [ez]
  refine le_trans ?_ (plane_stays (hmin z hz) h2 (hno z hz) (h3 z hz))
  refine (nearest_le L hne x).trans ((sq_le_sq₀ (ldist_nn ..) (ldist_nn ..)).1 ?_)
  have h1 := direction_ascent hq rnd (nullCols D L it near rest x) ((Lᵀ * L) *ᵥ (x - near))
  rw [← hd] at h1
  have h4 := Lip.dotProduct_self_nonneg' (L *ᵥ d)
  rw [ldist_move]
  have := mul_nonneg h2 h1
  have := mul_nonneg (sq_nonneg (stepLength D L Xhat near x d)) h4
  linarith

/-- C92: a pass that moves stops exactly on a constraint of the domain it was moving towards, or where the nearest sample and another sample are equally far. -/
theorem vstep_progress {sort : SortBy m} (hs : sort.Sorts) {qr : QRcols m} {D : SDomain m} {L : Matrix (Fin k) (Fin m) ℝ} {randomize : Bool}
    {Xhat : List (Lip.Pt m)} {it : ℕ} {rnd x y : Lip.Pt m} (hx : ∀ r ∈ D.aug, r.1 ⬝ᵥ x ≤ r.2) (h : vstep sort qr D L randomize Xhat it rnd x = .ok y) (hne : y ≠ x) :
    (∃ r ∈ D.aug, r.1 ⬝ᵥ x < r.2 ∧ r.1 ⬝ᵥ y = r.2) ∨
      ∃ a ∈ Xhat, ∃ b ∈ Xhat, a ≠ b ∧ Lip.ldist L a x = nearest L Xhat x ∧ Lip.ldist L a x < Lip.ldist L b x ∧ Lip.ldist L a y = Lip.ldist L b y := by
  obtain ⟨near, hn, rest, hmin, -, rfl⟩ := vstep_ok hs h
  set d := direction qr randomize rnd (nullCols D L it near rest x) ((Lᵀ * L) *ᵥ (x - near)) with hd
  obtain ⟨h0, -, -, h3, -⟩ := stepLength_spec D L Xhat near x d
  set t := stepLength D L Xhat near x d with ht
  have ht0 : t ≠ 0 := by
    intro e; rw [e, zero_smul, add_zero] at hne; exact hne rfl
  have htp : 0 < t := lt_of_le_of_ne h0 (Ne.symm ht0)
  rcases h3 ht0 with ⟨b, hb, e⟩ | ⟨r, hr, e⟩
  · right
    simp only [planeStep] at e
    split at e
    · simp at e
    · rename_i hnh
      split at e
      · simp at e
      · rename_i hnn
        have e := Option.some.inj e
        have hnz : (L *ᵥ (b - near)) ⬝ᵥ (L *ᵥ d) ≠ 0 := by
          intro h0; rw [h0, abs_zero] at hnh; exact hnh (by unfold atol; positivity)
        have hg := gap_move L near b x d t
        have hg0 := gap_move L near b x d 0
        rw [zero_smul, add_zero, zero_mul, sub_zero] at hg0
        rw [div_eq_iff hnz] at e
        rw [e, sub_self, mul_zero, sub_eq_zero] at hg
        have hle := hmin b hb
        rw [Lip.ldist_comm L x, Lip.ldist_comm L x] at hle
        refine ⟨near, hn, b, hb, ?_, le_antisymm ?_ (nearest_le L hn x), lt_of_le_of_ne hle ?_, ?_⟩
        · rintro rfl; rw [sub_self, Matrix.mulVec_zero, zero_dotProduct] at hnz; exact hnz rfl
        · obtain ⟨z, hz, e⟩ := nearest_mem L (List.ne_nil_of_mem hn) x
          rw [e, Lip.ldist_comm, Lip.ldist_comm L z]; exact hmin z hz
        · intro heq
          rw [heq, sub_self] at hg0
          have : t * ((L *ᵥ (b - near)) ⬝ᵥ (L *ᵥ d)) = 0 := by rw [← e]; linarith
          rcases mul_eq_zero.1 this with h | h
          · exact ht0 h
          · exact hnz h
        · exact ((sq_eq_sq₀ (ldist_nn ..) (ldist_nn ..)).1 hg).symm
  · left
    simp only [wallStep] at e
    split at e
    · exact absurd (Option.some.inj e).symm ht0
    · split at e
      · simp at e
      · rename_i hrh
        split at e
        · simp at e
        · have e := Option.some.inj e
          refine ⟨r, hr, lt_of_le_of_ne (hx r hr) fun heq => ?_, ?_⟩
          · rw [heq, sub_self, zero_div] at e; exact ht0 e.symm
          · rw [div_eq_iff hrh] at e
            rw [dotProduct_add, dotProduct_smul, smul_eq_mul, ← e]; ring

/-! ## The whole function -/

/-- Every pass from `x` approaches no sample slowly. -/
def FastRun (sort : SortBy m) (qr : QRcols m) (D : SDomain m) (L : Matrix (Fin k) (Fin m) ℝ) (Xhat : List (Lip.Pt m)) (rnd : ℕ → Lip.Pt m) (n : ℕ)
    (x : Lip.Pt m) : Prop := ∀ i < n, ∀ y, vpasses sort qr D L false Xhat rnd i x = .ok y → FastPass qr D L Xhat i (rnd i) y

theorem vpasses_nearest {sort : SortBy m} (hs : sort.Sorts) {qr : QRcols m} (hq : qr.Exact) {D : SDomain m} {L : Matrix (Fin k) (Fin m) ℝ}
    {Xhat : List (Lip.Pt m)} {rnd : ℕ → Lip.Pt m} : ∀ (n : ℕ) {x y : Lip.Pt m}, FastRun sort qr D L Xhat rnd n x →
    vpasses sort qr D L false Xhat rnd n x = .ok y → nearest L Xhat x ≤ nearest L Xhat y
  | 0, x, y, _, h => by simp only [vpasses, Except.ok.injEq] at h; rw [h]
  | n + 1, x, y, hf, h => by
    simp only [vpasses] at h
    split at h
    · simp at h
    · rename_i z hz
      exact (vpasses_nearest hs hq n (fun i hi => hf i (by omega)) hz).trans (vstep_nearest hs hq (hf n (by omega) z hz) h)

/-- C92: without randomization each point returned is at least as far from its nearest sample as its starting point, if no pass approaches a sample at a
positive rate below `1e-8`.  Missing: slow approaches, for which the claim is false (`fillEstimate_small_false`). -/
theorem vertexSample_nearest_partial {sort : SortBy m} (hs : sort.Sorts) {qr : QRcols m} (hq : qr.Exact) {D : SDomain m} {L : Matrix (Fin k) (Fin m) ℝ}
    {Xhat : List (Lip.Pt m)} {X0 : List (Lip.Pt m × (ℕ → Lip.Pt m))} {V : List (Lip.Pt m)} (h : vertexSample sort qr D L false Xhat X0 = .ok V)
    (hf : ∀ p ∈ X0, FastRun sort qr D L Xhat p.2 (passes D L false) p.1) : List.Forall₂ (fun x v => nearest L Xhat x.1 ≤ nearest L Xhat v) X0 V := by
  rw [vertexSample] at h
  split at h
  · simp at h
  · have := mapE_ok h
    clear h
    induction this with
    | nil => exact .nil
    | cons h1 _ ih => exact .cons (vpasses_nearest hs hq _ (hf _ (by simp)) h1) (ih fun p hp => hf p (by simp [hp]))

theorem vstep_ok_iff {sort : SortBy m} (hs : sort.Sorts) (qr : QRcols m) (D : SDomain m) (L : Matrix (Fin k) (Fin m) ℝ) (randomize : Bool)
    (Xhat : List (Lip.Pt m)) (it : ℕ) (rnd x : Lip.Pt m) :
    (∃ y, vstep sort qr D L randomize Xhat it rnd x = .ok y) ↔ Xhat ≠ [] ∧ D.aug ≠ [] := by
  simp only [vstep]
  have hp := (hs (fun y => Lip.ldist L x y) Xhat).1
  split
  · rename_i e
    rw [e] at hp
    simp [List.nil_perm.1 hp]
  · rename_i near rest e
    rw [e] at hp
    have : Xhat ≠ [] := by rintro rfl; simp at hp
    split <;> simp_all

theorem vpasses_ok_iff {sort : SortBy m} (hs : sort.Sorts) (qr : QRcols m) (D : SDomain m) (L : Matrix (Fin k) (Fin m) ℝ) (randomize : Bool)
    (Xhat : List (Lip.Pt m)) (rnd : ℕ → Lip.Pt m) (x : Lip.Pt m) : ∀ n, (∃ y, vpasses sort qr D L randomize Xhat rnd n x = .ok y) ↔ n = 0 ∨ (Xhat ≠ [] ∧ D.aug ≠ [])
  | 0 => by simp [vpasses]
  | n + 1 => by
    have ih := vpasses_ok_iff hs qr D L randomize Xhat rnd x n
    simp only [vpasses]
    split
    · rename_i e he
      rw [he] at ih
      have h2 := ih.2
      simp only [reduceCtorEq, exists_false] at h2 ⊢
      refine ⟨fun h => h.elim, fun h => h2 (.inr ?_)⟩
      rcases h with h | h
      · exact h.elim
      · exact h
    · rw [vstep_ok_iff hs]; simp

theorem mapE_ok_iff {α β : Type*} (f : α → Except Err β) : ∀ l : List α, (∃ r, mapE f l = .ok r) ↔ ∀ a ∈ l, ∃ b, f a = .ok b
  | [] => by simp [mapE]
  | a :: t => by
    have ih := mapE_ok_iff f t
    simp only [mapE, List.forall_mem_cons]
    rw [← ih]
    split
    · simp_all
    · split <;> simp_all

/-- C92: the call succeeds exactly for domains without quadratic constraints, and, unless there is nothing to do, with at least one sample and one linear
inequality. -/
theorem vertexSample_ok_iff {sort : SortBy m} (hs : sort.Sorts) (qr : QRcols m) (D : SDomain m) (L : Matrix (Fin k) (Fin m) ℝ) (randomize : Bool)
    (Xhat : List (Lip.Pt m)) (X0 : List (Lip.Pt m × (ℕ → Lip.Pt m))) : (∃ V, vertexSample sort qr D L randomize Xhat X0 = .ok V) ↔
      D.quads = 0 ∧ (X0 = [] ∨ passes D L randomize = 0 ∨ (Xhat ≠ [] ∧ D.aug ≠ [])) := by
  rw [vertexSample]
  split
  · simp_all
  · rename_i h
    rw [mapE_ok_iff]
    simp only [vpasses_ok_iff hs]
    have : D.quads = 0 := by simpa using h
    rw [this]
    cases X0 with
    | nil => simp
    | cons a t =>
      simp only [List.forall_mem_cons, true_and, reduceCtorEq, false_or]
      exact ⟨fun h => h.1, fun h => ⟨h, fun _ _ => h⟩⟩

/-- C92: the estimate of `fill_distance_estimate` is the distance from a point of the domain to its nearest sample, so it never exceeds the fill distance. -/
theorem fillEstimate_lower {sort : SortBy m} {qr : QRcols m} (hq : qr.Exact) {D : SDomain m} {beq : Lip.Pt m → ℝ} {L : Matrix (Fin k) (Fin m) ℝ}
    {Xhat X0 : List (Lip.Pt m)} (hX : ∀ x ∈ X0, Feasible D beq x) {d : ℝ} (h : fillEstimate sort qr D L Xhat X0 = .ok d) :
    ∃ v, Feasible D beq v ∧ d = nearest L Xhat v := by
  simp only [fillEstimate] at h
  split at h
  · simp at h
  · simp at h
  · rename_i V hV hok
    simp only [Except.ok.injEq] at h
    have hne : V ≠ [] := fun e => hV (by rw [e])
    obtain ⟨v, hv, e⟩ := fillOver_mem L Xhat hne
    refine ⟨v, ?_, by rw [← h, e]⟩
    obtain ⟨p, hp, hf⟩ := forall₂_right (vertexSample_inside hq hok) v hv
    obtain ⟨x, hx, rfl⟩ := List.mem_map.1 hp
    exact hf beq (hX x hx)

/-- C92: the estimate is at least the largest distance from a starting point to its nearest sample, if no pass approaches a sample at a positive rate
below `1e-8`. -/
theorem fillEstimate_improves {sort : SortBy m} (hs : sort.Sorts) {qr : QRcols m} (hq : qr.Exact) {D : SDomain m} {L : Matrix (Fin k) (Fin m) ℝ}
    {Xhat X0 : List (Lip.Pt m)} (hf : ∀ x ∈ X0, FastRun sort qr D L Xhat (fun _ => 0) (passes D L false) x) {d : ℝ}
    (h : fillEstimate sort qr D L Xhat X0 = .ok d) : ∀ x ∈ X0, nearest L Xhat x ≤ d := by
  intro x hx
  simp only [fillEstimate] at h
  split at h
  · simp at h
  · simp at h
  · rename_i V hV hok
    simp only [Except.ok.injEq] at h
    have := vertexSample_nearest_partial hs hq hok (by
      intro p hp
      obtain ⟨y, hy, rfl⟩ := List.mem_map.1 hp
      exact hf y hy)
    obtain ⟨v, hv, hle⟩ := forall₂_left this _ (List.mem_map_of_mem hx)
    rw [← h]
    exact hle.trans (fillOver_le L Xhat hv)

/-! ## Witnesses -/

/-- The interval `[-1, 1]`. -/
def segment : SDomain 1 := ⟨[(fun _ => 1, 1), (fun _ => -1, 1)], [], 0⟩

theorem segment_feasible (beq : Lip.Pt 1 → ℝ) (x : Lip.Pt 1) : Feasible segment beq x ↔ -1 ≤ x 0 ∧ x 0 ≤ 1 := by
  simp only [Feasible, segment, List.mem_cons, List.not_mem_nil, or_false, forall_eq_or_imp, forall_eq, false_imp_iff, implies_true, and_true, dotProduct,
    Fin.sum_univ_one]
  constructor <;> rintro ⟨h1, h2⟩ <;> constructor <;> linarith

theorem ldist1 (c : ℝ) (x y : Lip.Pt 1) : Lip.ldist (c • (1 : Matrix (Fin 1) (Fin 1) ℝ)) x y = |c * (x 0 - y 0)| := by
  rw [Lip.ldist, Lip.nrm, Matrix.smul_mulVec, Matrix.one_mulVec, Matrix.smul_mulVec, Matrix.one_mulVec]
  simp only [dotProduct, Fin.sum_univ_one, Pi.sub_apply, Pi.smul_apply, smul_eq_mul]
  rw [Real.sqrt_mul_self_eq_abs]; congr 1; ring

theorem passes1 {c : ℝ} (hc : c ≠ 0) (randomize : Bool) : passes segment (c • (1 : Matrix (Fin 1) (Fin 1) ℝ)) randomize = 1 := by
  have : (c • (1 : Matrix (Fin 1) (Fin 1) ℝ)).rank = 1 := by
    rw [Matrix.rank_of_isUnit]
    · simp
    · rw [Matrix.isUnit_iff_isUnit_det]; simp [hc]
  cases randomize <;> simp [passes, segment, this]

/-- C92, against "Points satisfying m constraints": a starting point equal to the only sample is returned unchanged, strictly inside the domain. -/
theorem vertexSample_not_vertex {sort : SortBy 1} (hs : sort.Sorts) (qr : QRcols 1) (rnd : ℕ → Lip.Pt 1) :
    vertexSample sort qr segment (1 : Matrix (Fin 1) (Fin 1) ℝ) true [pt1 0] [(pt1 0, rnd)] = .ok [pt1 0] := by
  have hp := passes1 one_ne_zero true
  rw [one_smul] at hp
  have e : sort (fun y => Lip.ldist (1 : Matrix (Fin 1) (Fin 1) ℝ) (pt1 0) y) [pt1 0] = [pt1 0] := List.perm_singleton.1 (hs _ _).1
  have hcl : ¬isClose 0 1 := by rw [isClose, atol]; norm_num
  have hn : nullCols segment (1 : Matrix (Fin 1) (Fin 1) ℝ) 0 (pt1 0) [] (pt1 0) = [] := by
    have h1 : (fun _ => (1 : ℝ)) ⬝ᵥ pt1 0 = 0 := by simp [pt1, dotProduct]
    have h2 : (fun _ => (-1 : ℝ)) ⬝ᵥ pt1 0 = 0 := by simp [pt1, dotProduct]
    simp [nullCols, segment, h1, h2, hcl]
  have hv : vpasses sort qr segment (1 : Matrix (Fin 1) (Fin 1) ℝ) true [pt1 0] rnd 1 (pt1 0) = .ok (pt1 0) := by
    simp only [vpasses, vstep]
    rw [e]
    simp only [hn]
    rw [if_neg (by simp [segment]), sub_self, Matrix.mulVec_zero, direction, if_pos rfl, smul_zero, add_zero]
  rw [vertexSample, if_neg (by simp [segment]), hp]
  simp only [mapE, hv]

/-- C92: with the metric `1e-4` on `[-1, 1]` and samples `0` and `1`, every separating plane is below the tolerance, so the point `1/4` is moved onto the
sample `1` and the estimated fill distance is zero; the starting point itself has a positive distance. -/
theorem fillEstimate_small_false {sort : SortBy 1} (hs : sort.Sorts) (qr : QRcols 1) :
    fillEstimate sort qr segment ((1 / 10 ^ 4 : ℝ) • (1 : Matrix (Fin 1) (Fin 1) ℝ)) [pt1 0, pt1 1] [pt1 (1 / 4)] = .ok 0 ∧
      0 < nearest ((1 / 10 ^ 4 : ℝ) • (1 : Matrix (Fin 1) (Fin 1) ℝ)) [pt1 0, pt1 1] (pt1 (1 / 4)) := by
  set L := (1 / 10 ^ 4 : ℝ) • (1 : Matrix (Fin 1) (Fin 1) ℝ) with hL
  have hp := passes1 (show (1 / 10 ^ 4 : ℝ) ≠ 0 by norm_num) false
  rw [← hL] at hp
  have hmul : ∀ v : Lip.Pt 1, L *ᵥ v = (1 / 10 ^ 4 : ℝ) • v := fun v => by rw [hL, Matrix.smul_mulVec, Matrix.one_mulVec]
  have hgram : ∀ v : Lip.Pt 1, (Lᵀ * L) *ᵥ v = (1 / 10 ^ 8 : ℝ) • v := fun v => by
    rw [hL, Matrix.transpose_smul, Matrix.transpose_one, Matrix.smul_mul, Matrix.one_mul, smul_smul, Matrix.smul_mulVec, Matrix.one_mulVec]; norm_num
  obtain ⟨rest, e⟩ : ∃ rest, sort (fun y => Lip.ldist L (pt1 (1 / 4)) y) [pt1 0, pt1 1] = pt1 0 :: rest := by
    obtain ⟨h1, h2⟩ := hs (fun y => Lip.ldist L (pt1 (1 / 4)) y) [pt1 0, pt1 1]
    rcases e : sort (fun y => Lip.ldist L (pt1 (1 / 4)) y) [pt1 0, pt1 1] with _ | ⟨a, rest⟩
    · rw [e] at h1; simp at h1
    · rw [e] at h1 h2
      have ha : a ∈ [pt1 0, pt1 1] := h1.mem_iff.1 (by simp)
      have h0 : pt1 0 ∈ a :: rest := h1.mem_iff.2 (by simp)
      simp only [List.mem_cons, List.not_mem_nil, or_false] at ha
      rcases ha with rfl | rfl
      · exact ⟨rest, rfl⟩
      · exfalso
        rcases List.mem_cons.1 h0 with h0 | h0
        · have := congrFun h0 0; simp [pt1] at this
        · have := (List.pairwise_cons.1 h2).1 _ h0
          rw [hL, ldist1, ldist1, abs_mul, abs_mul] at this
          simp only [pt1] at this
          norm_num [abs_of_pos, abs_of_neg] at this
  have hcl1 : ¬isClose (1 / 4) 1 := by rw [isClose, atol, abs_le]; norm_num
  have hcl2 : ¬isClose (-(1 / 4)) 1 := by rw [isClose, atol, abs_le]; norm_num
  have hn : nullCols segment L 0 (pt1 0) rest (pt1 (1 / 4)) = [] := by
    have h1 : (fun _ => (1 : ℝ)) ⬝ᵥ pt1 (1 / 4) = 1 / 4 := by simp [pt1, dotProduct]
    have h2 : (fun _ => (-1 : ℝ)) ⬝ᵥ pt1 (1 / 4) = -(1 / 4) := by simp [pt1, dotProduct]
    simp only [nullCols, segment, List.take_zero, List.filter_nil, List.map_nil, List.append_nil, List.nil_append, List.filter_cons, h1, h2, hcl1, hcl2]
    simp
  have hd : (Lᵀ * L) *ᵥ (pt1 (1 / 4) - pt1 0) = pt1 (1 / (4 * 10 ^ 8)) := by
    rw [hgram]; funext i; simp only [Pi.smul_apply, Pi.sub_apply, pt1, smul_eq_mul]; norm_num
  have hp1 : planeStep L (pt1 0) (pt1 0) (pt1 (1 / 4)) (pt1 (1 / (4 * 10 ^ 8))) = none := by
    simp only [planeStep, hmul, sub_self, smul_zero, zero_dotProduct, abs_zero]
    rw [if_pos (by unfold atol; positivity)]
  have hp2 : planeStep L (pt1 0) (pt1 1) (pt1 (1 / 4)) (pt1 (1 / (4 * 10 ^ 8))) = none := by
    simp only [planeStep, hmul]
    rw [if_pos]
    simp only [dotProduct, Fin.sum_univ_one, Pi.smul_apply, Pi.sub_apply, pt1, smul_eq_mul, atol]
    rw [abs_of_pos (by norm_num)]; norm_num
  have hz : ¬∀ i, |pt1 (1 / (4 * 10 ^ 8)) i| < 1 / 10 ^ 10 := by
    intro h
    have := h 0
    rw [pt1, abs_of_pos (by norm_num)] at this
    norm_num at this
  have hw1 : wallStep (fun _ => 1, 1) (pt1 (1 / 4)) (pt1 (1 / (4 * 10 ^ 8))) = some (3 * 10 ^ 8) := by
    simp only [wallStep]
    rw [if_neg hz]
    simp only [dotProduct, Fin.sum_univ_one, pt1]
    norm_num
  have hw2 : wallStep (fun _ => -1, 1) (pt1 (1 / 4)) (pt1 (1 / (4 * 10 ^ 8))) = none := by
    simp only [wallStep]
    rw [if_neg hz]
    simp only [dotProduct, Fin.sum_univ_one, pt1]
    norm_num
  have ht : stepLength segment L [pt1 0, pt1 1] (pt1 0) (pt1 (1 / 4)) (pt1 (1 / (4 * 10 ^ 8))) = 3 * 10 ^ 8 := by
    simp only [stepLength, segment, List.map_cons, List.map_nil, hp1, hp2, hw1, hw2, List.foldl_cons, List.foldl_nil, minStep, Option.getD_some]
  have hv : vpasses sort qr segment L false [pt1 0, pt1 1] (fun _ => 0) 1 (pt1 (1 / 4)) = .ok (pt1 1) := by
    simp only [vpasses, vstep]
    rw [e]
    simp only [hn]
    rw [if_neg (by simp [segment]), direction, if_pos rfl, hd, ht]
    congr 1
    funext i
    simp only [Pi.add_apply, Pi.smul_apply, pt1, smul_eq_mul]; norm_num
  constructor
  · rw [fillEstimate, vertexSample, if_neg (by simp [segment]), hp]
    simp only [List.map_cons, List.map_nil, mapE, hv]
    congr 1
    obtain ⟨v, hv, ev⟩ := fillOver_mem L [pt1 0, pt1 1] (V := [pt1 1]) (by simp)
    rw [ev, List.mem_singleton.1 hv]
    refine le_antisymm ((nearest_le L (by simp : pt1 1 ∈ [pt1 0, pt1 1]) _).trans_eq (Lip.ldist_self L _)) ?_
    obtain ⟨z, -, ez⟩ := nearest_mem L (X := [pt1 0, pt1 1]) (by simp) (pt1 1)
    rw [ez]; exact ldist_nn ..
  · obtain ⟨z, hz, ez⟩ := nearest_mem L (X := [pt1 0, pt1 1]) (by simp) (pt1 (1 / 4))
    rw [ez, hL, ldist1, abs_pos]
    simp only [List.mem_cons, List.not_mem_nil, or_false] at hz
    rcases hz with rfl | rfl <;> simp only [pt1] <;> norm_num

/-- The hypotheses of the theorems can be met: on `[-1, 1]` with the sample `0` a pass from `1/4` approaches no sample. -/
example (qr : QRcols 1) : FastPass qr segment (1 : Matrix (Fin 1) (Fin 1) ℝ) [pt1 0] 0 0 (pt1 (1 / 4)) := by
  intro near rest hp _ y hy
  have h1 : near ∈ [pt1 0] := hp.mem_iff.1 (by simp)
  rw [List.mem_singleton.1 h1, List.mem_singleton.1 hy]
  simp [closing]

/-- C92: a metric that sees nothing moves nothing: for `L = 0` without randomization the starting points are returned. -/
theorem vertexSample_zero (sort : SortBy m) (qr : QRcols m) (D : SDomain m) (hq : D.quads = 0) (Xhat : List (Lip.Pt m))
    (X0 : List (Lip.Pt m × (ℕ → Lip.Pt m))) : vertexSample sort qr D (0 : Matrix (Fin k) (Fin m) ℝ) false Xhat X0 = .ok (X0.map Prod.fst) := by
  have hp : passes D (0 : Matrix (Fin k) (Fin m) ℝ) false = 0 := by
    rw [passes, if_neg (by simp), Matrix.rank_zero, Nat.min_zero]
  rw [vertexSample, if_neg (not_not.2 hq), hp]
  induction X0 with
  | nil => rfl
  | cons a X0 ih => simp only [mapE, vpasses, List.map_cons] at ih ⊢; rw [ih]

end Verif.Geo
