import Verif.Sample.VorModel
import Verif.Sample.LloydProps
import Verif.Geometry.VsampleProps

/-!
# C132: the sampled Voronoi vertices of `minimax_lloyd`

Specification: `Cell L Xhat a x` says that no node is closer to `x` than `a`.
-/

namespace Verif.Samp

open Verif Verif.Domain Verif.Geo Matrix

variable {k m : ℕ}

/-- The point `x` lies in the Voronoi cell of the node `a`. -/
def Cell (L : Matrix (Fin k) (Fin m) ℝ) (Xhat : List (Lip.Pt m)) (a x : Lip.Pt m) : Prop := ∀ z ∈ Xhat, Lip.ldist L a x ≤ Lip.ldist L z x

/-- Along `h` the distances to any node and to `near` drift apart or together faster than the tolerance `1e-8`, or not at all. -/
def NoDrift (L : Matrix (Fin k) (Fin m) ℝ) (Xhat : List (Lip.Pt m)) (near h : Lip.Pt m) : Prop :=
  ∀ y ∈ Xhat, closing L near y h = 0 ∨ atol < |closing L near y h|

/-- No pass from `x` drifts slowly, whatever the order of the nodes that are equally far. -/
def SteadyRun (sort : SortBy m) (qr : QRcols m) (D : SDomain m) (L : Matrix (Fin k) (Fin m) ℝ) (randomize : Bool) (Xhat : List (Lip.Pt m))
    (rnd : ℕ → Lip.Pt m) (n : ℕ) (x : Lip.Pt m) : Prop :=
  ∀ i < n, ∀ y, vpasses sort qr D L randomize Xhat rnd i x = .ok y → ∀ near rest, (near :: rest).Perm Xhat → Cell L Xhat near y →
    NoDrift L Xhat near (direction qr randomize (rnd i) (nullCols D L i near rest y) ((Lᵀ * L) *ᵥ (y - near)))

theorem vstep_cell {sort : SortBy m} (hs : sort.Sorts) {qr : QRcols m} {D : SDomain m} {L : Matrix (Fin k) (Fin m) ℝ} {randomize : Bool}
    {Xhat : List (Lip.Pt m)} {it : ℕ} {rnd x y a : Lip.Pt m} (ha : a ∈ Xhat) (hc : Cell L Xhat a x)
    (hf : ∀ near rest, (near :: rest).Perm Xhat → Cell L Xhat near x →
      NoDrift L Xhat near (direction qr randomize rnd (nullCols D L it near rest x) ((Lᵀ * L) *ᵥ (x - near))))
    (h : vstep sort qr D L randomize Xhat it rnd x = .ok y) : Cell L Xhat a y := by
  obtain ⟨near, hne, rest, hmin, e, rfl⟩ := vstep_ok hs h
  have hperm : (near :: rest).Perm Xhat := by rw [← e]; exact (hs _ _).1
  have hcn : Cell L Xhat near x := fun z hz => by rw [Lip.ldist_comm, Lip.ldist_comm L z]; exact hmin z hz
  have hno := hf near rest hperm hcn
  set d := direction qr randomize rnd (nullCols D L it near rest x) ((Lᵀ * L) *ᵥ (x - near)) with hd
  obtain ⟨s0, s1, -, -, -⟩ := stepLength_spec D L Xhat near x d
  set t := stepLength D L Xhat near x d with ht
  have hnear : Cell L Xhat near (x + t • d) := fun z hz => by
    refine plane_stays (hmin z hz) s0 (fun hh => ?_) (s1 z hz)
    rcases hno z hz with h0 | h0
    · rw [h0] at hh; exact lt_irrefl _ hh.1
    · rw [abs_of_pos hh.1] at h0; exact absurd hh.2 (not_le.2 h0)
  have htie : Lip.ldist L a x = Lip.ldist L near x := le_antisymm (hc near hne) (hcn a ha)
  have hg0 := gap_move L near a x d 0
  rw [zero_smul, add_zero, zero_mul, sub_zero, htie, sub_self] at hg0
  have hg := gap_move L near a x d t
  have hcl : (L *ᵥ (a - near)) ⬝ᵥ (L *ᵥ d) = closing L near a d := rfl
  rw [hcl] at hg
  set num := -((L *ᵥ x - (1 / 2 : ℝ) • (L *ᵥ (a + near))) ⬝ᵥ (L *ᵥ (a - near))) with hnum
  have hn0 : num = 0 := by linarith
  have htc : t * closing L near a d = 0 := by
    rcases hno a ha with h0 | h0
    · rw [h0, mul_zero]
    · have h1 := s1 a ha 0 (by
        simp only [planeStep]
        rw [← hnum, hcl, if_neg (not_le.2 h0), hn0, zero_div, if_neg (lt_irrefl _)])
      rw [le_antisymm h1 s0, zero_mul]
  rw [hn0, htc, sub_zero, mul_zero, sub_eq_zero] at hg
  have := (sq_eq_sq₀ (ldist_nn ..) (ldist_nn ..)).1 hg
  intro z hz
  rw [this]; exact hnear z hz

theorem vpasses_cell {sort : SortBy m} (hs : sort.Sorts) {qr : QRcols m} {D : SDomain m} {L : Matrix (Fin k) (Fin m) ℝ} {randomize : Bool}
    {Xhat : List (Lip.Pt m)} {rnd : ℕ → Lip.Pt m} {a : Lip.Pt m} (ha : a ∈ Xhat) : ∀ (n : ℕ) {x y : Lip.Pt m}, Cell L Xhat a x →
    SteadyRun sort qr D L randomize Xhat rnd n x → vpasses sort qr D L randomize Xhat rnd n x = .ok y → Cell L Xhat a y
  | 0, x, y, hc, _, h => by simp only [vpasses, Except.ok.injEq] at h; rwa [← h]
  | n + 1, x, y, hc, hf, h => by
    simp only [vpasses] at h
    split at h
    · simp at h
    · rename_i z hz
      exact vstep_cell hs ha (vpasses_cell hs ha n hc (fun i hi => hf i (by omega)) hz) (hf n (by omega) z hz) h

/-- C132: a vertex found from a starting point lies in the Voronoi cell of every node that was nearest to the starting point (with and without randomization). -/
theorem vertexSample_cell {sort : SortBy m} (hs : sort.Sorts) {qr : QRcols m} {D : SDomain m} {L : Matrix (Fin k) (Fin m) ℝ} {randomize : Bool}
    {Xhat : List (Lip.Pt m)} {X0 : List (Lip.Pt m × (ℕ → Lip.Pt m))} {V : List (Lip.Pt m)} (h : vertexSample sort qr D L randomize Xhat X0 = .ok V)
    (hf : ∀ p ∈ X0, SteadyRun sort qr D L randomize Xhat p.2 (passes D L randomize) p.1) :
    List.Forall₂ (fun x v => ∀ a ∈ Xhat, Cell L Xhat a x.1 → Cell L Xhat a v) X0 V := by
  rw [vertexSample] at h
  split at h
  · simp at h
  · have := mapE_ok h
    clear h
    induction this with
    | nil => exact .nil
    | cons h1 _ ih => exact .cons (fun a ha hc => vpasses_cell hs ha _ hc (hf _ (by simp)) h1) (ih fun p hp => hf p (by simp [hp]))

/-! ## The points added for the nodes with few vertices -/

theorem vorExtra_mem {sort : SortBy m} {qr : QRcols m} {D : SDomain m} {L : Matrix (Fin k) (Fin m) ℝ} {Xhat V : List (Lip.Pt m)}
    {draws : ℕ → List (Lip.Pt m × (ℕ → Lip.Pt m))} : ∀ (xs : List (Lip.Pt m)) (j : ℕ) {R : List (Lip.Pt m)},
    vorExtra sort qr D L Xhat V draws j xs = .ok R →
    (∀ w ∈ R, ∃ i x W, xs[i]? = some x ∧ (cellOf L Xhat V x).length < m ∧ vertexSample sort qr D L true Xhat (nearStarts x (draws (j + i))) = .ok W ∧ w ∈ W) ∧
    ∀ i x, xs[i]? = some x → (cellOf L Xhat V x).length < m →
      ∃ W, vertexSample sort qr D L true Xhat (nearStarts x (draws (j + i))) = .ok W ∧ ∀ w ∈ W, w ∈ R
  | [], j, R, h => by
    simp only [vorExtra, Except.ok.injEq] at h
    subst h; simp
  | x :: xs, j, R, h => by
    simp only [vorExtra] at h
    split at h
    · rename_i hlt
      split at h
      · simp at h
      · rename_i W hW
        split at h
        · simp at h
        · rename_i R' hR
          simp only [Except.ok.injEq] at h
          subst h
          obtain ⟨i1, i2⟩ := vorExtra_mem xs (j + 1) hR
          refine ⟨fun w hw => ?_, fun i y hy hl => ?_⟩
          · rcases List.mem_append.1 hw with hw | hw
            · exact ⟨0, x, W, rfl, hlt, hW, hw⟩
            · obtain ⟨i, y, W', h1, h2, h3, h4⟩ := i1 w hw
              exact ⟨i + 1, y, W', h1, h2, by rw [show j + (i + 1) = j + 1 + i by omega]; exact h3, h4⟩
          · cases i with
            | zero =>
              simp only [List.getElem?_cons_zero, Option.some.injEq] at hy
              subst hy
              exact ⟨W, hW, fun w hw => List.mem_append_left _ hw⟩
            | succ i =>
              obtain ⟨W', h1, h2⟩ := i2 i y (by simpa using hy) hl
              exact ⟨W', by rw [show j + (i + 1) = j + 1 + i by omega]; exact h1, fun w hw => List.mem_append_right _ (h2 w hw)⟩
    · rename_i hge
      obtain ⟨i1, i2⟩ := vorExtra_mem xs (j + 1) h
      refine ⟨fun w hw => ?_, fun i y hy hl => ?_⟩
      · obtain ⟨i, y, W', h1, h2, h3, h4⟩ := i1 w hw
        exact ⟨i + 1, y, W', h1, h2, by rw [show j + (i + 1) = j + 1 + i by omega]; exact h3, h4⟩
      · cases i with
        | zero =>
          simp only [List.getElem?_cons_zero, Option.some.injEq] at hy
          subst hy
          exact absurd hl hge
        | succ i =>
          obtain ⟨W', h1, h2⟩ := i2 i y (by simpa using hy) hl
          exact ⟨W', by rw [show j + (i + 1) = j + 1 + i by omega]; exact h1, h2⟩

theorem vorSample_parts {sort : SortBy m} {qr : QRcols m} {D : SDomain m} {L : Matrix (Fin k) (Fin m) ℝ} {draws : ℕ → List (Lip.Pt m × (ℕ → Lip.Pt m))}
    {Xhat : List (Lip.Pt m)} {X0 : List (Lip.Pt m × (ℕ → Lip.Pt m))} {R : List (Lip.Pt m)} (h : vorSample sort qr D L draws Xhat X0 = .ok R) :
    ∃ V E, vertexSample sort qr D L true Xhat X0 = .ok V ∧ vorExtra sort qr D L Xhat (dedup V) draws 0 Xhat = .ok E ∧ R = dedup (dedup V ++ E) := by
  rw [vorSample] at h
  split at h
  · simp at h
  · rename_i V hV
    split at h
    · simp at h
    · rename_i E hE
      exact ⟨V, E, hV, hE, (Except.ok.inj h).symm⟩

/-- C132: no two returned points are within `1e-8`. -/
theorem vorSample_separated {sort : SortBy m} {qr : QRcols m} {D : SDomain m} {L : Matrix (Fin k) (Fin m) ℝ} {draws : ℕ → List (Lip.Pt m × (ℕ → Lip.Pt m))}
    {Xhat : List (Lip.Pt m)} {X0 : List (Lip.Pt m × (ℕ → Lip.Pt m))} {R : List (Lip.Pt m)} (h : vorSample sort qr D L draws Xhat X0 = .ok R) :
    R.Pairwise fun a b => 1 / 10 ^ 8 < Lip.nrm (a - b) := by
  obtain ⟨V, E, -, -, rfl⟩ := vorSample_parts h
  have := unique_separated (dedup V ++ E)
  rw [dedup]
  exact this.imp fun h => by rwa [atol] at h

/-- C132: every returned point is found from a sample or from a node moved by `1e-7` times a draw, and it satisfies every constraint of the domain
that its start satisfies. -/
theorem vorSample_origin {sort : SortBy m} {qr : QRcols m} (hq : qr.Exact) {D : SDomain m} {L : Matrix (Fin k) (Fin m) ℝ}
    {draws : ℕ → List (Lip.Pt m × (ℕ → Lip.Pt m))} {Xhat : List (Lip.Pt m)} {X0 : List (Lip.Pt m × (ℕ → Lip.Pt m))} {R : List (Lip.Pt m)}
    (h : vorSample sort qr D L draws Xhat X0 = .ok R) : ∀ v ∈ R, ∃ s : Lip.Pt m,
      ((∃ p ∈ X0, s = p.1) ∨ ∃ j x, Xhat[j]? = some x ∧ ∃ p ∈ draws j, s = x + (1 / 10 ^ 7 : ℝ) • p.1) ∧ ∀ beq, Feasible D beq s → Feasible D beq v := by
  obtain ⟨V, E, hV, hE, rfl⟩ := vorSample_parts h
  intro v hv
  rcases List.mem_append.1 (select_subset _ _ v hv) with hv | hv
  · obtain ⟨p, hp, hpv⟩ := forall₂_right (vertexSample_inside hq hV) v (select_subset _ _ v hv)
    exact ⟨p.1, .inl ⟨p, hp, rfl⟩, hpv⟩
  · obtain ⟨i, x, W, h1, -, h3, h4⟩ := (vorExtra_mem Xhat 0 hE).1 v hv
    obtain ⟨p, hp, hpv⟩ := forall₂_right (vertexSample_inside hq h3) v h4
    obtain ⟨q, hq', rfl⟩ := List.mem_map.1 hp
    rw [zero_add] at hq'
    exact ⟨_, .inr ⟨i, x, h1, q, hq', rfl⟩, hpv⟩

/-- C132: if the samples and the moved nodes are in the domain, then so are all points returned. Missing: moved nodes outside the domain
(`vorSample_outside_false`). -/
theorem vorSample_inside_partial {sort : SortBy m} {qr : QRcols m} (hq : qr.Exact) {D : SDomain m} {L : Matrix (Fin k) (Fin m) ℝ}
    {draws : ℕ → List (Lip.Pt m × (ℕ → Lip.Pt m))} {Xhat : List (Lip.Pt m)} {X0 : List (Lip.Pt m × (ℕ → Lip.Pt m))} {R : List (Lip.Pt m)}
    (h : vorSample sort qr D L draws Xhat X0 = .ok R) {beq : Lip.Pt m → ℝ} (h0 : ∀ p ∈ X0, Feasible D beq p.1)
    (hd : ∀ j x, Xhat[j]? = some x → ∀ p ∈ draws j, Feasible D beq (x + (1 / 10 ^ 7 : ℝ) • p.1)) : ∀ v ∈ R, Feasible D beq v := by
  intro v hv
  obtain ⟨s, hs | hs, hf⟩ := vorSample_origin hq h v hv
  · obtain ⟨p, hp, rfl⟩ := hs; exact hf _ (h0 p hp)
  · obtain ⟨j, x, hj, p, hp, rfl⟩ := hs; exact hf _ (hd j x hj p hp)

theorem cell_near {L : Matrix (Fin k) (Fin m) ℝ} {Xhat : List (Lip.Pt m)} {x p : Lip.Pt m}
    (h : ∀ z ∈ Xhat, z = x ∨ 2 / 10 ^ 7 * Lip.nrm (L *ᵥ p) ≤ Lip.ldist L x z) : Cell L Xhat x (x + (1 / 10 ^ 7 : ℝ) • p) := by
  intro z hz
  have e : Lip.ldist L x (x + (1 / 10 ^ 7 : ℝ) • p) = 1 / 10 ^ 7 * Lip.nrm (L *ᵥ p) := by
    have h1 := ldist_sq L x (x + (1 / 10 ^ 7 : ℝ) • p)
    rw [show x - (x + (1 / 10 ^ 7 : ℝ) • p) = (-(1 / 10 ^ 7) : ℝ) • p by module, Matrix.mulVec_smul, smul_dotProduct, dotProduct_smul, ← Lip.nrm_sq,
      smul_eq_mul, smul_eq_mul] at h1
    refine (sq_eq_sq₀ (ldist_nn ..) (mul_nonneg (by positivity) (Lip.nrm_nonneg _))).1 ?_
    rw [h1]; ring
  rcases h z hz with rfl | hfar
  · exact le_rfl
  · have := Lip.ldist_triangle L x (x + (1 / 10 ^ 7 : ℝ) • p) z
    rw [Lip.ldist_comm L (x + (1 / 10 ^ 7 : ℝ) • p) z, e] at this
    rw [e]
    linarith

/-- C132, "every node has at least one voronoi vertex associated with it": for every node there is a computed point that has the node among its nearest nodes
(up to `np.isclose`), and it is kept or replaced by one reached through a chain of computed points each within `1e-8` of the previous one.
The draws must be small compared to the distances between the nodes, and no pass may drift slowly.  Missing: other draws and slow drifts. -/
theorem vorSample_node_partial {sort : SortBy m} (hs : sort.Sorts) {qr : QRcols m} {D : SDomain m} {L : Matrix (Fin k) (Fin m) ℝ} (hm : 0 < m)
    {draws : ℕ → List (Lip.Pt m × (ℕ → Lip.Pt m))} {Xhat : List (Lip.Pt m)} {X0 : List (Lip.Pt m × (ℕ → Lip.Pt m))} {R : List (Lip.Pt m)}
    (h : vorSample sort qr D L draws Xhat X0 = .ok R) {j : ℕ} {x : Lip.Pt m} (hx : Xhat[j]? = some x) (hne : draws j ≠ [])
    (hnear : ∀ p ∈ draws j, ∀ z ∈ Xhat, z = x ∨ 2 / 10 ^ 7 * Lip.nrm (L *ᵥ p.1) ≤ Lip.ldist L x z)
    (hf : ∀ p ∈ draws j, SteadyRun sort qr D L true Xhat p.2 (passes D L true) (x + (1 / 10 ^ 7 : ℝ) • p.1)) :
    ∃ v, isclose (Lip.ldist L x v) (nearest L Xhat v) ∧ ∃ w ∈ R, Relation.ReflTransGen (fun a b => Lip.nrm (a - b) ≤ 1 / 10 ^ 8) v w := by
  obtain ⟨V, E, hV, hE, rfl⟩ := vorSample_parts h
  have hxm : x ∈ Xhat := List.mem_of_getElem? hx
  have key : ∃ v ∈ dedup V ++ E, isclose (Lip.ldist L x v) (nearest L Xhat v) := by
    by_cases hl : (cellOf L Xhat (dedup V) x).length < m
    · obtain ⟨W, hW, hWR⟩ := (vorExtra_mem Xhat 0 hE).2 j x hx hl
      rw [zero_add] at hW
      have hcell := vertexSample_cell hs hW (fun p hp => by
        obtain ⟨q, hq, rfl⟩ := List.mem_map.1 hp
        exact hf q hq)
      obtain ⟨p, hp⟩ := List.exists_mem_of_ne_nil _ hne
      obtain ⟨v, hv, hpv⟩ := forall₂_left hcell _ (List.mem_map_of_mem hp)
      have hc := hpv x hxm (cell_near (hnear p hp))
      refine ⟨v, List.mem_append_right _ (hWR v hv), ?_⟩
      have : Lip.ldist L x v = nearest L Xhat v := by
        refine le_antisymm ?_ (nearest_le L hxm v)
        obtain ⟨z, hz, e⟩ := nearest_mem L (List.ne_nil_of_mem hxm) v
        rw [e]; exact hc z hz
      rw [this]
      rw [isclose, decide_eq_true_eq, sub_self, abs_zero]
      positivity
    · have : 0 < (cellOf L Xhat (dedup V) x).length := by omega
      obtain ⟨v, hv⟩ := List.exists_mem_of_ne_nil _ (List.length_pos_iff.1 this)
      rw [cellOf, List.mem_filter] at hv
      exact ⟨v, List.mem_append_left _ hv.1, by simpa using hv.2⟩
  obtain ⟨v, hv, hc⟩ := key
  obtain ⟨w, hw, hch⟩ := unique_linked _ v hv
  refine ⟨v, hc, w, hw, Relation.ReflTransGen.mono (fun a b hab => ?_) _ _ hch⟩
  have := hab.2
  rwa [atol] at this

/-- C132: the call succeeds exactly if the domain has no quadratic constraints and, when there is anything to move, nodes and inequalities exist. -/
theorem vorSample_ok_iff {sort : SortBy m} (hs : sort.Sorts) (qr : QRcols m) (D : SDomain m) (L : Matrix (Fin k) (Fin m) ℝ)
    (draws : ℕ → List (Lip.Pt m × (ℕ → Lip.Pt m))) (Xhat : List (Lip.Pt m)) {X0 : List (Lip.Pt m × (ℕ → Lip.Pt m))} (hX : X0 ≠ []) :
    (∃ R, vorSample sort qr D L draws Xhat X0 = .ok R) ↔ D.quads = 0 ∧ (m - D.eqs.length = 0 ∨ (Xhat ≠ [] ∧ D.aug ≠ [])) := by
  have hp : passes D L true = m - D.eqs.length := by simp [passes]
  constructor
  · rintro ⟨R, h⟩
    obtain ⟨V, E, hV, -, -⟩ := vorSample_parts h
    have := (vertexSample_ok_iff hs qr D L true Xhat X0).1 ⟨V, hV⟩
    rw [hp] at this
    exact ⟨this.1, this.2.resolve_left hX⟩
  · rintro ⟨h1, h2⟩
    have hall : ∀ X1, ∃ V, vertexSample sort qr D L true Xhat X1 = .ok V := fun X1 =>
      (vertexSample_ok_iff hs qr D L true Xhat X1).2 ⟨h1, .inr (by rw [hp]; exact h2)⟩
    have hextra : ∀ (V xs : List (Lip.Pt m)) (j : ℕ), ∃ E, vorExtra sort qr D L Xhat V draws j xs = .ok E := by
      intro V xs
      induction xs with
      | nil => intro j; exact ⟨[], rfl⟩
      | cons x xs ih =>
        intro j
        obtain ⟨E, hE⟩ := ih (j + 1)
        simp only [vorExtra]
        split
        · obtain ⟨W, hW⟩ := hall (nearStarts x (draws j))
          rw [hW, hE]; exact ⟨_, rfl⟩
        · exact ⟨E, hE⟩
    obtain ⟨V, hV⟩ := hall X0
    obtain ⟨E, hE⟩ := hextra (dedup V) Xhat 0
    refine ⟨dedup (dedup V ++ E), ?_⟩
    rw [vorSample, hV]; simp only [hE]

/-! ## Witness -/

/-- The box `[-1, 0] × [-1, 1]`. -/
def halfBox : SDomain 2 := ⟨[(![1, 0], 0), (![-1, 0], 1), (![0, 1], 1), (![0, -1], 1)], [], 0⟩

theorem halfBox_feasible (beq : Lip.Pt 2 → ℝ) (x : Lip.Pt 2) : Feasible halfBox beq x ↔ (-1 ≤ x 0 ∧ x 0 ≤ 0) ∧ -1 ≤ x 1 ∧ x 1 ≤ 1 := by
  simp only [Feasible, halfBox, List.mem_cons, List.not_mem_nil, or_false, forall_eq_or_imp, forall_eq, false_imp_iff, implies_true, and_true, dotProduct,
    Fin.sum_univ_two, Matrix.cons_val_zero, Matrix.cons_val_one]
  constructor
  · rintro ⟨h1, h2, h3, h4⟩; refine ⟨⟨?_, ?_⟩, ?_, ?_⟩ <;> linarith
  · rintro ⟨⟨h1, h2⟩, h3, h4⟩; refine ⟨?_, ?_, ?_, ?_⟩ <;> linarith

theorem vstep_single {sort : SortBy 2} (hs : sort.Sorts) (qr : QRcols 2) (it : ℕ) (rnd x : Lip.Pt 2) :
    vstep sort qr halfBox (1 : Matrix (Fin 2) (Fin 2) ℝ) true [![0, 0]] it rnd x =
      .ok (x + stepLength halfBox (1 : Matrix (Fin 2) (Fin 2) ℝ) [![0, 0]] ![0, 0] x (direction qr true rnd (nullCols halfBox (1 : Matrix (Fin 2) (Fin 2) ℝ) it ![0, 0] [] x) x) •
        direction qr true rnd (nullCols halfBox (1 : Matrix (Fin 2) (Fin 2) ℝ) it ![0, 0] [] x) x) := by
  have e : sort (fun y => Lip.ldist (1 : Matrix (Fin 2) (Fin 2) ℝ) x y) [![0, 0]] = [![0, 0]] := List.perm_singleton.1 (hs _ _).1
  have hz : (![0, 0] : Lip.Pt 2) = 0 := by ext i; fin_cases i <;> rfl
  have hg : ((1 : Matrix (Fin 2) (Fin 2) ℝ)ᵀ * 1) *ᵥ (x - ![0, 0]) = x := by rw [hz, sub_zero, Matrix.transpose_one, Matrix.mul_one, Matrix.one_mulVec]
  simp only [vstep]
  rw [e]
  simp only [hg]
  rw [if_neg (by simp [halfBox])]

theorem nullCols_single (it : ℕ) (x : Lip.Pt 2) : nullCols halfBox (1 : Matrix (Fin 2) (Fin 2) ℝ) it ![0, 0] [] x =
    (halfBox.aug.filter fun r => @decide (isClose (r.1 ⬝ᵥ x) r.2) (Classical.propDecidable _)).map Prod.fst := by
  simp [nullCols, halfBox]

/-- C132, against the claim that bounded Voronoi vertices lie in the domain: on `[-1, 0] × [-1, 1]` with the node `(0, 0)` the draw `(1, 1)` gives the start
`(1e-7, 1e-7)` outside the domain, and the point `(1, 1)`, at distance one from the domain, is returned. -/
theorem vorSample_outside_false {sort : SortBy 2} (hs : sort.Sorts) {qr : QRcols 2} (hq : qr.Exact) :
    ∃ R, vorSample sort qr halfBox (1 : Matrix (Fin 2) (Fin 2) ℝ) (fun _ => [(![1, 1], fun _ => 0)]) [![0, 0]] [(![0, 0], fun _ => 0)] = .ok R ∧
      ![1, 1] ∈ R ∧ ∀ beq, Feasible halfBox beq ![0, 0] ∧ ¬Feasible halfBox beq ![1, 1] := by
  have hz : (![0, 0] : Lip.Pt 2) = 0 := by ext i; fin_cases i <;> rfl
  have hpz : ∀ Q : List (Lip.Pt 2), projOut Q 0 = 0 := fun Q => by
    rw [Geo.projOut, zero_sub, neg_eq_zero, List.sum_eq_zero]
    intro y hy
    obtain ⟨q, -, rfl⟩ := List.mem_map.1 hy
    rw [dotProduct_zero, zero_smul]
  have hdz : ∀ cols, direction qr true 0 cols 0 = 0 := fun cols => by
    rw [direction, hpz]; split <;> [rfl; split <;> rfl]
  have hp : passes halfBox (1 : Matrix (Fin 2) (Fin 2) ℝ) true = 2 := by simp [passes, halfBox]
  have s0 : ∀ it, vstep sort qr halfBox (1 : Matrix (Fin 2) (Fin 2) ℝ) true [![0, 0]] it 0 ![0, 0] = .ok ![0, 0] := fun it => by
    rw [vstep_single hs]
    simp only [hz, hdz, smul_zero, add_zero]
  have v0 : vertexSample sort qr halfBox (1 : Matrix (Fin 2) (Fin 2) ℝ) true [![0, 0]] [(![0, 0], fun _ => 0)] = .ok [![0, 0]] := by
    rw [vertexSample, if_neg (by simp [halfBox]), hp]
    simp only [mapE, vpasses, s0]
  have hs0 : (![0, 0] : Lip.Pt 2) + (1 / 10 ^ 7 : ℝ) • ![1, 1] = ![1 / 10 ^ 7, 1 / 10 ^ 7] := by ext i; fin_cases i <;> simp
  have s1 : vstep sort qr halfBox (1 : Matrix (Fin 2) (Fin 2) ℝ) true [![0, 0]] 0 0 ![1 / 10 ^ 7, 1 / 10 ^ 7] = .ok ![1, 1] := by
    rw [vstep_single hs]
    have hc : nullCols halfBox (1 : Matrix (Fin 2) (Fin 2) ℝ) 0 ![0, 0] [] ![1 / 10 ^ 7, 1 / 10 ^ 7] = [] := by
      rw [nullCols_single, List.map_eq_nil_iff, List.filter_eq_nil_iff]
      intro r hr
      rw [@decide_eq_true_eq _ (Classical.propDecidable _), isClose, atol]
      simp only [halfBox, List.mem_cons, List.not_mem_nil, or_false] at hr
      rcases hr with rfl | rfl | rfl | rfl <;> simp [dotProduct, Fin.sum_univ_two] <;> norm_num [abs_of_nonneg, abs_of_neg]
    rw [hc, direction, if_pos rfl]
    have ht : stepLength halfBox (1 : Matrix (Fin 2) (Fin 2) ℝ) [![0, 0]] ![0, 0] ![1 / 10 ^ 7, 1 / 10 ^ 7] ![1 / 10 ^ 7, 1 / 10 ^ 7] = 10 ^ 7 - 1 := by
      have hpl : planeStep (1 : Matrix (Fin 2) (Fin 2) ℝ) ![0, 0] ![0, 0] ![1 / 10 ^ 7, 1 / 10 ^ 7] ![1 / 10 ^ 7, 1 / 10 ^ 7] = none := by
        simp only [planeStep, sub_self, Matrix.mulVec_zero, zero_dotProduct, abs_zero]
        rw [if_pos (by unfold atol; positivity)]
      have hbig : ¬∀ i, |(![1 / 10 ^ 7, 1 / 10 ^ 7] : Lip.Pt 2) i| < 1 / 10 ^ 10 := fun h => by
        have := h 0
        simp only [Matrix.cons_val_zero] at this
        rw [abs_of_pos (by positivity)] at this
        norm_num at this
      have w1 : wallStep ((![1, 0], 0) : Lip.Pt 2 × ℝ) ![1 / 10 ^ 7, 1 / 10 ^ 7] ![1 / 10 ^ 7, 1 / 10 ^ 7] = none := by
        rw [wallStep, if_neg hbig]; simp [dotProduct, Fin.sum_univ_two]
      have w2 : wallStep ((![-1, 0], 1) : Lip.Pt 2 × ℝ) ![1 / 10 ^ 7, 1 / 10 ^ 7] ![1 / 10 ^ 7, 1 / 10 ^ 7] = none := by
        rw [wallStep, if_neg hbig]; simp [dotProduct, Fin.sum_univ_two]; norm_num
      have w3 : wallStep ((![0, 1], 1) : Lip.Pt 2 × ℝ) ![1 / 10 ^ 7, 1 / 10 ^ 7] ![1 / 10 ^ 7, 1 / 10 ^ 7] = some (10 ^ 7 - 1) := by
        rw [wallStep, if_neg hbig]; norm_num [dotProduct, Fin.sum_univ_two]
      have w4 : wallStep ((![0, -1], 1) : Lip.Pt 2 × ℝ) ![1 / 10 ^ 7, 1 / 10 ^ 7] ![1 / 10 ^ 7, 1 / 10 ^ 7] = none := by
        rw [wallStep, if_neg hbig]; simp [dotProduct, Fin.sum_univ_two]; norm_num
      simp only [stepLength, List.map_cons, List.map_nil, halfBox, hpl, w1, w2, w3, w4, List.foldl_cons, List.foldl_nil, minStep, Option.getD_some]
    rw [ht]
    congr 1
    ext i; fin_cases i <;> norm_num
  have s2 : vstep sort qr halfBox (1 : Matrix (Fin 2) (Fin 2) ℝ) true [![0, 0]] 1 0 ![1, 1] = .ok ![1, 1] := by
    rw [vstep_single hs]
    set cols := nullCols halfBox (1 : Matrix (Fin 2) (Fin 2) ℝ) 1 ![0, 0] [] ![1, 1] with hcols
    set d := direction qr true 0 cols ![1, 1] with hd
    have hmem : (![0, 1] : Lip.Pt 2) ∈ cols := by
      rw [hcols, nullCols_single]
      refine List.mem_map.2 ⟨(![0, 1], 1), List.mem_filter.2 ⟨by simp [halfBox], ?_⟩, rfl⟩
      rw [@decide_eq_true_eq _ (Classical.propDecidable _)]
      have : (![0, 1] : Lip.Pt 2) ⬝ᵥ ![1, 1] = 1 := by simp [dotProduct, Fin.sum_univ_two]
      rw [this]; exact isClose_self 1
    have d1 : d 1 = 0 := by
      have := direction_null hq true 0 ![1, 1] hmem
      rw [← hd] at this
      simpa [dotProduct, Fin.sum_univ_two] using this
    have d0 : 0 ≤ d 0 := by
      obtain ⟨g1, g2, -⟩ := hq cols
      rw [hd, direction, if_neg (List.ne_nil_of_mem hmem)]
      split
      · rw [hpz]; exact le_rfl
      · rename_i hn
        have h1 := projOut_self g1 g2 (![1, 1] : Lip.Pt 2)
        have h2 := Lip.dotProduct_self_nonneg' (projOut (qr cols) (![1, 1] : Lip.Pt 2))
        have h3 : d = projOut (qr cols) ![1, 1] := by rw [hd, direction, if_neg (List.ne_nil_of_mem hmem), if_neg hn]
        rw [← h3] at h1 h2 ⊢
        rw [← h1] at h2
        simpa [dotProduct, Fin.sum_univ_two, d1] using h2
    have ht : stepLength halfBox (1 : Matrix (Fin 2) (Fin 2) ℝ) [![0, 0]] ![0, 0] ![1, 1] d = 0 := by
      have hpl : planeStep (1 : Matrix (Fin 2) (Fin 2) ℝ) ![0, 0] ![0, 0] ![1, 1] d = none := by
        simp only [planeStep, sub_self, Matrix.mulVec_zero, zero_dotProduct, abs_zero]
        rw [if_pos (by unfold atol; positivity)]
      obtain ⟨t0, -, t1, -, t2⟩ := stepLength_spec halfBox (1 : Matrix (Fin 2) (Fin 2) ℝ) [![0, 0]] ![0, 0] ![1, 1] d
      by_cases hbig : ∀ i, |d i| < 1 / 10 ^ 10
      · exact le_antisymm (t1 (![1, 0], 0) (by simp [halfBox]) 0 (by rw [wallStep, if_pos hbig])) t0
      · refine t2 (by simpa using hpl) fun r hr => ?_
        rw [wallStep, if_neg hbig]
        simp only [halfBox, List.mem_cons, List.not_mem_nil, or_false] at hr
        rcases hr with rfl | rfl | rfl | rfl
        · rw [show (![1, 0] : Lip.Pt 2) ⬝ᵥ ![1, 1] = 1 by simp [dotProduct, Fin.sum_univ_two],
            show (![1, 0] : Lip.Pt 2) ⬝ᵥ d = d 0 by simp [dotProduct, Fin.sum_univ_two]]
          split
          · rfl
          · rw [if_pos (div_nonpos_of_nonpos_of_nonneg (by norm_num) d0)]
        · rw [show (![-1, 0] : Lip.Pt 2) ⬝ᵥ ![1, 1] = -1 by simp [dotProduct, Fin.sum_univ_two],
            show (![-1, 0] : Lip.Pt 2) ⬝ᵥ d = -d 0 by simp [dotProduct, Fin.sum_univ_two]]
          split
          · rfl
          · rw [if_pos (div_nonpos_of_nonneg_of_nonpos (by norm_num) (by linarith))]
        · rw [if_pos (by simp [dotProduct, Fin.sum_univ_two, d1])]
        · rw [if_pos (by simp [dotProduct, Fin.sum_univ_two, d1])]
    rw [ht, zero_smul, add_zero]
  have v1 : vertexSample sort qr halfBox (1 : Matrix (Fin 2) (Fin 2) ℝ) true [![0, 0]] (nearStarts ![0, 0] [(![1, 1], fun _ => 0)]) = .ok [![1, 1]] := by
    rw [vertexSample, if_neg (by simp [halfBox]), hp]
    simp only [nearStarts, List.map_cons, List.map_nil, hs0, mapE, vpasses, s1, s2]
  have hd1 : dedup [(![0, 0] : Lip.Pt 2)] = [![0, 0]] := by simp [dedup, uniquePoints, select]
  have hlt : (cellOf (1 : Matrix (Fin 2) (Fin 2) ℝ) [![0, 0]] [![0, 0]] ![0, 0]).length < 2 :=
    lt_of_le_of_lt (List.length_filter_le _ _) (by simp)
  have hx : vorExtra sort qr halfBox (1 : Matrix (Fin 2) (Fin 2) ℝ) [![0, 0]] [![0, 0]] (fun _ => [(![1, 1], fun _ => 0)]) 0 [![0, 0]] = .ok [![1, 1]] := by
    simp only [vorExtra]
    rw [if_pos hlt, v1]; rfl
  refine ⟨dedup ([![0, 0]] ++ [![1, 1]]), ?_, ?_, fun beq => ⟨(halfBox_feasible beq _).2 ?_, fun h => ?_⟩⟩
  · rw [vorSample, v0]; simp only [hd1, hx]
  · obtain ⟨b, e, -⟩ := uniquePoints_head (![0, 0] : Lip.Pt 2) [![1, 1]]
    rw [dedup, List.singleton_append, e, select_cons]
    have : select [(![1, 1] : Lip.Pt 2)] (uniquePoints [![1, 1]]) = [![1, 1]] := by simp [uniquePoints, select]
    rw [this]; split <;> simp
  · simp
  · have := ((halfBox_feasible beq _).1 h).1.2
    simp at this
    linarith

/-- The hypotheses of `vorSample_node_partial` can be met: with a single node nothing drifts. -/
example (sort : SortBy m) (qr : QRcols m) (D : SDomain m) (L : Matrix (Fin k) (Fin m) ℝ) (a x : Lip.Pt m) (rnd : ℕ → Lip.Pt m) (n : ℕ) :
    SteadyRun sort qr D L true [a] rnd n x := by
  intro i _ y _ near rest hp _ z hz
  have h1 : near ∈ [a] := hp.mem_iff.1 (by simp)
  rw [List.mem_singleton.1 h1, List.mem_singleton.1 hz]
  simp [closing]

end Verif.Samp
