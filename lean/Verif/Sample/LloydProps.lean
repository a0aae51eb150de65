import Verif.Sample.LloydModel
import Verif.Geometry.VertexProps
import Verif.Sample.ClusterProps

/-!
# C96: `minimax_lloyd`
-/

namespace Verif.Samp

open Verif Verif.Domain Verif.Geo Matrix

variable {k m : ℕ}

/-! ## Specification -/

/-- Contract of the solver: a point of the domain with the smallest largest distance to the given points. -/
def Circumcenter.Exact (L : Matrix (Fin k) (Fin m) ℝ) (S : Set (Lip.Pt m)) (circ : Circumcenter m) : Prop :=
  ∀ pts y, circ pts = .ok y → y ∈ S ∧ ∀ z ∈ S, ∀ r, (∀ p ∈ pts, Lip.ldist L z p ≤ r) → pts ≠ [] → ∀ p ∈ pts, Lip.ldist L y p ≤ r

/-- All bounded Voronoi vertices of the design are found, and nothing else. -/
def VorUpdate.Full (aug : List (Lip.Pt m × ℝ)) (L : Matrix (Fin k) (Fin m) ℝ) (vor : VorUpdate m) (A : List (Lip.Pt m)) : Prop :=
  ∀ V0 V, vor A V0 = .ok V → ∀ v, v ∈ V ↔ IsVoronoiVertex aug L A v

/-- Every point of `S` is within `r` of the design. -/
def Covers (L : Matrix (Fin k) (Fin m) ℝ) (S : Set (Lip.Pt m)) (A : List (Lip.Pt m)) (r : ℝ) : Prop := ∀ z ∈ S, ∃ a ∈ A, Lip.ldist L a z ≤ r

/-- One step of the method: every point is replaced by the solver's point for its cell. -/
def LloydStep (vor : VorUpdate m) (circ : Circumcenter m) (L : Matrix (Fin k) (Fin m) ℝ) (A B : List (Lip.Pt m)) : Prop :=
  ∃ V0 V, vor A V0 = .ok V ∧ List.Forall₂ (fun a b => circ (cellOf L A V a) = .ok b) A B

/-! ## The steps -/

theorem lloydCenters_ge {circ : Circumcenter m} {L : Matrix (Fin k) (Fin m) ℝ} {A V : List (Lip.Pt m)} : ∀ (M : ℕ) (xs : List (Lip.Pt m)) {B : List (Lip.Pt m)},
    lloydCenters circ L A V M xs = .ok B → xs.length ≤ M → M = xs.length ∧ List.Forall₂ (fun a b => circ (cellOf L A V a) = .ok b) xs B
  | 0, xs, B, h, hl => by
    have : xs = [] := List.length_eq_zero_iff.1 (by omega)
    subst this
    simp only [lloydCenters, List.map_nil, Except.ok.injEq] at h
    subst h
    exact ⟨rfl, .nil⟩
  | M + 1, [], B, h, hl => by simp [lloydCenters] at h
  | M + 1, x :: xs, B, h, hl => by
    simp only [lloydCenters] at h
    split at h
    · simp at h
    · rename_i y hy
      split at h
      · simp at h
      · rename_i ys hys
        simp only [Except.ok.injEq] at h
        subst h
        obtain ⟨h1, h2⟩ := lloydCenters_ge M xs hys (by simpa using hl)
        exact ⟨by simp [h1], .cons hy h2⟩

theorem lloydLoop_chain {vor : VorUpdate m} {circ : Circumcenter m} {L : Matrix (Fin k) (Fin m) ℝ} {M : ℕ} {xtol : ℝ} : ∀ (fuel : ℕ) (A V : List (Lip.Pt m))
    {R : List (Lip.Pt m)}, A.length = M → lloydLoop vor circ L M xtol fuel A V = .ok R → ∃ vis : List (List (Lip.Pt m)), vis.head? = some A ∧
      vis.getLast? = some R ∧ vis.IsChain (LloydStep vor circ L) ∧ vis.length ≤ fuel + 1 ∧
      (vis.length = fuel + 1 ∨ ∃ pre P, vis = pre ++ [P, R] ∧ lloydMove R P < xtol)
  | 0, A, V, R, hl, h => by
    simp only [lloydLoop, Except.ok.injEq] at h
    subst h
    exact ⟨[A], by simp, by simp, by simp, by simp, by simp⟩
  | fuel + 1, A, V, R, hl, h => by
    simp only [lloydLoop] at h
    split at h
    · simp at h
    · rename_i V' hV
      split at h
      · simp at h
      · rename_i B hB
        obtain ⟨h1, h2⟩ := lloydCenters_ge M A hB hl.le
        have hstep : LloydStep vor circ L A B := ⟨V, V', hV, h2⟩
        split_ifs at h with hx
        · simp only [Except.ok.injEq] at h
          subst h
          exact ⟨[A, B], by simp, by simp, by simpa using hstep, by simp, .inr ⟨[], A, by simp, hx⟩⟩
        · obtain ⟨vis, v1, v2, v3, v4, v5⟩ := lloydLoop_chain fuel B V' (by rw [← hl]; exact h2.length_eq.symm) h
          cases vis with
          | nil => simp at v1
          | cons b vis =>
            simp only [List.head?_cons, Option.some.injEq] at v1
            subst v1
            refine ⟨A :: b :: vis, by simp, by simpa using v2, List.isChain_cons_cons.2 ⟨hstep, v3⟩, by simpa using v4, ?_⟩
            rcases v5 with v5 | ⟨pre, P, e, v5⟩
            · left; simpa using v5
            · right; exact ⟨A :: pre, P, by simp [e], v5⟩

theorem lloyd_loop_of {oneD : Except Err (List (Lip.Pt m))} {vor : VorUpdate m} {circ : Circumcenter m} {L : Matrix (Fin k) (Fin m) ℝ} {M : ℕ} {xtol : ℝ}
    {maxiter : ℕ} {A V0 R C : List (Lip.Pt m)} (h : minimaxLloyd oneD vor circ L M xtol maxiter A V0 = .ok (R, C)) :
    (oneD = .ok R ∧ C = A) ∨ (oneD = .error .assertion ∧ C = R ∧ lloydLoop vor circ L M xtol maxiter A V0 = .ok R) := by
  simp only [minimaxLloyd] at h
  split at h
  · simp only [Except.ok.injEq, Prod.mk.injEq] at h
    exact .inl ⟨by rw [h.1], h.2.symm⟩
  · split at h
    · simp at h
    · rename_i X hX
      simp only [Except.ok.injEq, Prod.mk.injEq] at h
      exact .inr ⟨rfl, by rw [← h.1, ← h.2], by rw [hX, h.1]⟩
  · simp at h

/-- C96: outside the one dimensional case the design is made by at most `maxiter` steps of the method; fewer only if the last one moved no point by `xtol`. -/
theorem lloyd_steps {vor : VorUpdate m} {circ : Circumcenter m} {L : Matrix (Fin k) (Fin m) ℝ} {M : ℕ} {xtol : ℝ} {maxiter : ℕ} {A V0 R C : List (Lip.Pt m)}
    (hl : A.length = M) (h : minimaxLloyd (.error .assertion) vor circ L M xtol maxiter A V0 = .ok (R, C)) : ∃ vis : List (List (Lip.Pt m)), vis.head? = some A ∧
      vis.getLast? = some R ∧ vis.IsChain (LloydStep vor circ L) ∧ vis.length ≤ maxiter + 1 ∧
      (vis.length = maxiter + 1 ∨ ∃ pre P, vis = pre ++ [P, R] ∧ ∀ p ∈ P.zip R, Lip.nrm (p.2 - p.1) < xtol) := by
  rcases lloyd_loop_of h with ⟨h, -⟩ | ⟨-, -, h⟩
  · simp at h
  · obtain ⟨vis, v1, v2, v3, v4, v5⟩ := lloydLoop_chain maxiter A V0 hl h
    refine ⟨vis, v1, v2, v3, v4, v5.imp id ?_⟩
    rintro ⟨pre, P, e, hx⟩
    refine ⟨pre, P, e, fun p hp => lt_of_le_of_lt ?_ hx⟩
    rw [lloydMove]
    have hm : Lip.nrm (p.2 - p.1) ∈ List.zipWith (fun a b => Lip.nrm (a - b)) R P := by
      obtain ⟨i, hi⟩ := List.mem_iff_getElem?.1 hp
      rw [List.getElem?_zip_eq_some] at hi
      exact List.mem_of_getElem? (i := i) (List.getElem?_zipWith_eq_some.2 ⟨_, _, hi.2, hi.1, rfl⟩)
    exact (maxL_spec (List.ne_nil_of_mem hm)).2 _ hm

theorem lloydStep_length {vor : VorUpdate m} {circ : Circumcenter m} {L : Matrix (Fin k) (Fin m) ℝ} {A B : List (Lip.Pt m)} (h : LloydStep vor circ L A B) :
    B.length = A.length := by
  obtain ⟨_, _, _, h⟩ := h
  exact h.length_eq.symm

theorem lloydStep_inside {vor : VorUpdate m} {circ : Circumcenter m} {L : Matrix (Fin k) (Fin m) ℝ} {S : Set (Lip.Pt m)} (hc : circ.Exact L S) {A B : List (Lip.Pt m)}
    (h : LloydStep vor circ L A B) : ∀ b ∈ B, b ∈ S := by
  obtain ⟨_, _, _, h⟩ := h
  intro b hb
  obtain ⟨a, _, h⟩ := forall₂_right h b hb
  exact (hc _ _ h).1

/-- C96: the design stays in the domain and keeps its number of points. -/
theorem lloyd_inside {vor : VorUpdate m} {circ : Circumcenter m} {L : Matrix (Fin k) (Fin m) ℝ} {S : Set (Lip.Pt m)} (hc : circ.Exact L S) {M : ℕ} {xtol : ℝ}
    {maxiter : ℕ} {A V0 R C : List (Lip.Pt m)} (hl : A.length = M) (hA : ∀ a ∈ A, a ∈ S)
    (h : minimaxLloyd (.error .assertion) vor circ L M xtol maxiter A V0 = .ok (R, C)) : R.length = M ∧ ∀ r ∈ R, r ∈ S := by
  obtain ⟨vis, v1, v2, v3, -, -⟩ := lloyd_steps hl h
  exact mem_chain_induct (P := fun B => B.length = M ∧ ∀ b ∈ B, b ∈ S) (fun a b hab ha => ⟨(lloydStep_length hab).trans ha.1, lloydStep_inside hc hab⟩) vis v1
    ⟨hl, hA⟩ v3 R (List.mem_of_getLast? v2)

/-! ## The fill distance -/

/-- Every point of a cell is in the hull of the vertices of the cell. -/
theorem cell_hull (aug : List (Lip.Pt m × ℝ)) (hb : Bornology.IsBounded (domSet aug)) (L : Matrix (Fin k) (Fin m) ℝ) (A : List (Lip.Pt m)) {x z : Lip.Pt m}
    (hz : z ∈ cellSet aug L A x) : z ∈ convexHull ℝ ((cellSet aug L A x).extremePoints ℝ) := by
  have hbc : Bornology.IsBounded (cellSet aug L A x) := hb.subset fun w hw => hw.1
  rw [cellSet_poly] at hz hbc ⊢
  rw [poly_hull _ hbc]
  exact hz

/-- C96: with all Voronoi vertices, one step does not increase the fill distance, up to the tolerance with which ties are recognized. -/
theorem lloydStep_fill {aug : List (Lip.Pt m × ℝ)} (hb : Bornology.IsBounded (domSet aug)) {vor : VorUpdate m} {circ : Circumcenter m} {L : Matrix (Fin k) (Fin m) ℝ}
    (hc : circ.Exact L (domSet aug)) {A B : List (Lip.Pt m)} (hv : vor.Full aug L A) (hA : ∀ a ∈ A, a ∈ domSet aug) (h : LloydStep vor circ L A B) {r : ℝ}
    (hr : Covers L (domSet aug) A r) : Covers L (domSet aug) B ((1 + 1 / 10 ^ 5) * r + 1 / 10 ^ 8) := by
  obtain ⟨V0, V, hV, h⟩ := h
  intro z hz
  have hne : A ≠ [] := by
    obtain ⟨a, ha, -⟩ := hr z hz
    exact List.ne_nil_of_mem ha
  obtain ⟨x, hx, e⟩ := nearest_mem L hne z
  have hzc : z ∈ cellSet aug L A x := ⟨hz, fun x' hx' => e ▸ nearest_le L hx' z⟩
  obtain ⟨b, hbB, hcb⟩ := forall₂_left h x hx
  obtain ⟨-, hopt⟩ := hc _ _ hcb
  refine ⟨b, hbB, ?_⟩
  -- a vertex of the cell that is at least as far from `b`
  obtain ⟨v, hvx, hle⟩ := (nrm_convex b L).exists_ge_of_mem_convexHull (Set.subset_univ _) (cell_hull aug hb L A hzc)
  have hvV : v ∈ V := (hv V0 V hV v).2 ⟨x, hx, hvx⟩
  have hvn : nearest L A v = Lip.ldist L x v := by
    obtain ⟨x', hx', e'⟩ := nearest_mem L hne v
    exact le_antisymm (nearest_le L hx v) (e' ▸ hvx.1.2 x' hx')
  have hvc : v ∈ cellOf L A V x := by
    refine List.mem_filter.2 ⟨hvV, ?_⟩
    rw [isclose, decide_eq_true_eq, hvn, sub_self, abs_zero]
    positivity
  refine hle.trans (hopt x (hA x hx) _ (fun p hp => ?_) (List.ne_nil_of_mem hvc) v hvc)
  obtain ⟨hpV, hpc⟩ := List.mem_filter.1 hp
  rw [isclose, decide_eq_true_eq] at hpc
  obtain ⟨y, hy, hyp⟩ := (hv V0 V hV p).1 hpV
  obtain ⟨a, ha, hle⟩ := hr p hyp.1.1
  have h1 : nearest L A p ≤ r := (nearest_le L ha p).trans hle
  have h2 : 0 ≤ nearest L A p := by
    obtain ⟨q, -, e⟩ := nearest_mem L hne p
    rw [e]; exact ldist_nn _ _ _
  rw [abs_of_nonneg h2] at hpc
  have := (abs_le.1 hpc).2
  nlinarith

/-- Without near ties, one step does not increase the fill distance at all. -/
theorem lloydStep_fill_exact {aug : List (Lip.Pt m × ℝ)} (hb : Bornology.IsBounded (domSet aug)) {vor : VorUpdate m} {circ : Circumcenter m}
    {L : Matrix (Fin k) (Fin m) ℝ} (hc : circ.Exact L (domSet aug)) {A B : List (Lip.Pt m)} (hv : vor.Full aug L A) (hA : ∀ a ∈ A, a ∈ domSet aug)
    (hsep : ∀ v, IsVoronoiVertex aug L A v → ∀ a ∈ A, isclose (Lip.ldist L a v) (nearest L A v) = true → Lip.ldist L a v = nearest L A v)
    (h : LloydStep vor circ L A B) {r : ℝ} (hr : Covers L (domSet aug) A r) : Covers L (domSet aug) B r := by
  obtain ⟨V0, V, hV, h⟩ := h
  intro z hz
  have hne : A ≠ [] := by
    obtain ⟨a, ha, -⟩ := hr z hz
    exact List.ne_nil_of_mem ha
  obtain ⟨x, hx, e⟩ := nearest_mem L hne z
  have hzc : z ∈ cellSet aug L A x := ⟨hz, fun x' hx' => e ▸ nearest_le L hx' z⟩
  obtain ⟨b, hbB, hcb⟩ := forall₂_left h x hx
  obtain ⟨-, hopt⟩ := hc _ _ hcb
  refine ⟨b, hbB, ?_⟩
  obtain ⟨v, hvx, hle⟩ := (nrm_convex b L).exists_ge_of_mem_convexHull (Set.subset_univ _) (cell_hull aug hb L A hzc)
  have hvV : v ∈ V := (hv V0 V hV v).2 ⟨x, hx, hvx⟩
  have hvn : nearest L A v = Lip.ldist L x v := by
    obtain ⟨x', hx', e'⟩ := nearest_mem L hne v
    exact le_antisymm (nearest_le L hx v) (e' ▸ hvx.1.2 x' hx')
  have hvc : v ∈ cellOf L A V x := by
    refine List.mem_filter.2 ⟨hvV, ?_⟩
    rw [isclose, decide_eq_true_eq, hvn, sub_self, abs_zero]
    positivity
  refine hle.trans (hopt x (hA x hx) _ (fun p hp => ?_) (List.ne_nil_of_mem hvc) v hvc)
  obtain ⟨hpV, hpc⟩ := List.mem_filter.1 hp
  have hpv := (hv V0 V hV p).1 hpV
  rw [hsep p hpv x hx hpc]
  obtain ⟨y, hy, hyp⟩ := hpv
  obtain ⟨a, ha, hle⟩ := hr p hyp.1.1
  exact (nearest_le L ha p).trans hle

/-- C96: the whole run: every step multiplies the fill distance by at most `1 + 1e-5` and adds at most `1e-8`. -/
theorem lloyd_fill {aug : List (Lip.Pt m × ℝ)} (hb : Bornology.IsBounded (domSet aug)) {vor : VorUpdate m} {circ : Circumcenter m} {L : Matrix (Fin k) (Fin m) ℝ}
    (hc : circ.Exact L (domSet aug)) {M : ℕ} {xtol : ℝ} {maxiter : ℕ} {A V0 R C : List (Lip.Pt m)} (hl : A.length = M)
    (hv : ∀ B, Relation.ReflTransGen (LloydStep vor circ L) A B → vor.Full aug L B)
    (hA : ∀ a ∈ A, a ∈ domSet aug) (h : minimaxLloyd (.error .assertion) vor circ L M xtol maxiter A V0 = .ok (R, C)) {r : ℝ} (hr0 : 0 ≤ r)
    (hr : Covers L (domSet aug) A r) : Covers L (domSet aug) R ((1 + 1 / 10 ^ 5) ^ maxiter * (r + maxiter * (1 / 10 ^ 8))) := by
  obtain ⟨vis, v1, v2, v3, v4, -⟩ := lloyd_steps hl h
  have key : ∀ (vis : List (List (Lip.Pt m))) (n : ℕ) (A : List (Lip.Pt m)) (r : ℝ), vis.length ≤ n + 1 → vis.head? = some A → vis.IsChain (LloydStep vor circ L) →
      (∀ a ∈ A, a ∈ domSet aug) → (∀ B, Relation.ReflTransGen (LloydStep vor circ L) A B → vor.Full aug L B) → 0 ≤ r → Covers L (domSet aug) A r → ∀ R, vis.getLast? = some R →
      Covers L (domSet aug) R ((1 + 1 / 10 ^ 5) ^ n * (r + n * (1 / 10 ^ 8))) := by
    intro vis
    induction vis with
    | nil => intro n A r _ h; simp at h
    | cons B vis ih =>
      intro n A r hn h1 h2 hA hv h0 hr R hR
      simp only [List.head?_cons, Option.some.injEq] at h1
      subst h1
      cases vis with
      | nil =>
        simp only [List.getLast?_singleton, Option.some.injEq] at hR
        subst hR
        intro z hz
        obtain ⟨a, ha, hle⟩ := hr z hz
        refine ⟨a, ha, hle.trans ?_⟩
        have : (1 : ℝ) ≤ (1 + 1 / 10 ^ 5) ^ n := one_le_pow₀ (by norm_num)
        have h2 : 0 ≤ (n : ℝ) * (1 / 10 ^ 8) := by positivity
        nlinarith
      | cons B2 vis =>
        obtain ⟨n, rfl⟩ : ∃ n', n = n' + 1 := ⟨n - 1, by simp at hn; omega⟩
        rw [List.isChain_cons_cons] at h2
        have hs := lloydStep_fill hb hc (hv _ .refl) hA h2.1 hr
        have := ih n B2 ((1 + 1 / 10 ^ 5) * r + 1 / 10 ^ 8) (by simpa using hn) (by simp) h2.2 (lloydStep_inside hc h2.1)
          (fun B hB => hv B (.head h2.1 hB)) (by positivity) hs R (by simpa using hR)
        intro z hz
        obtain ⟨a, ha, hle⟩ := this z hz
        refine ⟨a, ha, hle.trans ?_⟩
        rw [pow_succ (1 + 1 / 10 ^ 5 : ℝ) n, mul_assoc]
        refine mul_le_mul_of_nonneg_left ?_ (by positivity)
        push_cast
        have h2 : 0 ≤ (n : ℝ) * (1 / 10 ^ 8) := by positivity
        nlinarith
  exact key vis maxiter A r v4 v1 v3 hA hv hr0 hr R v2

/-- The exact Voronoi vertices (C91) meet the contract as long as no two of them are within the tolerance. -/
theorem lloyd_full_vor {hsi : HSI m} (hh : hsi.Exact) {center : List (Lip.Pt m × ℝ) → Lip.Pt m} {D : VDomain m} (hD : domSet D.aug ⊆ {x | D.inside x})
    {L : Matrix (Fin m) (Fin m) ℝ} {A : List (Lip.Pt m)} (hsep : VertexSeparated D.aug L A) :
    VorUpdate.Full D.aug L (fun A _ => voronoiVertex hsi center D (some L) A) A := by
  intro _ V h v
  exact voronoi_spec (L := some L) hh hD hsep h v

/-! ## Disagreements -/

theorem lloydCenters_extra {circ : Circumcenter m} {L : Matrix (Fin k) (Fin m) ℝ} {A V : List (Lip.Pt m)} : ∀ (M : ℕ) (xs : List (Lip.Pt m)) {B : List (Lip.Pt m)},
    lloydCenters circ L A V M xs = .ok B → B.length = xs.length ∧ ∀ i, M ≤ i → i < xs.length → B[i]? = some 0
  | 0, xs, B, h => by
    simp only [lloydCenters, Except.ok.injEq] at h
    subst h
    refine ⟨by simp, fun i _ hi => by simp [hi]⟩
  | M + 1, [], B, h => by simp [lloydCenters] at h
  | M + 1, x :: xs, B, h => by
    simp only [lloydCenters] at h
    split at h
    · simp at h
    · split at h
      · simp at h
      · rename_i ys hys
        simp only [Except.ok.injEq] at h
        subst h
        obtain ⟨h1, h2⟩ := lloydCenters_extra M xs hys
        refine ⟨by simp [h1], fun i hi hl => ?_⟩
        obtain ⟨i, rfl⟩ : ∃ j, i = j + 1 := ⟨i - 1, by omega⟩
        simpa using h2 i (by omega) (by simpa using hl)

/-- C96: the points of a given design beyond the requested number are moved to the origin, wherever the domain is. -/
theorem lloyd_extra_false {vor : VorUpdate m} {circ : Circumcenter m} {L : Matrix (Fin k) (Fin m) ℝ} {M : ℕ} {xtol : ℝ} {maxiter : ℕ} (hm : 0 < maxiter)
    {A V0 R C : List (Lip.Pt m)} (h : minimaxLloyd (.error .assertion) vor circ L M xtol maxiter A V0 = .ok (R, C)) : ∀ i, M ≤ i → i < A.length →
    R[i]? = some 0 := by
  rcases lloyd_loop_of h with ⟨h, -⟩ | ⟨-, -, h⟩
  · simp at h
  · have key : ∀ (fuel : ℕ) (A V : List (Lip.Pt m)), 0 < fuel → lloydLoop vor circ L M xtol fuel A V = .ok R → ∀ i, M ≤ i → i < A.length → R[i]? = some 0 := by
      intro fuel
      induction fuel with
      | zero => intro A V h; exact absurd h (lt_irrefl _)
      | succ fuel ih =>
        intro A V _ h i hi hl
        simp only [lloydLoop] at h
        split at h
        · simp at h
        · split at h
          · simp at h
          · rename_i B hB
            obtain ⟨h1, h2⟩ := lloydCenters_extra M A hB
            split_ifs at h
            · simp only [Except.ok.injEq] at h
              subst h
              exact h2 i hi hl
            · rcases Nat.eq_zero_or_pos fuel with rfl | hf
              · simp only [lloydLoop, Except.ok.injEq] at h
                subst h
                exact h2 i hi hl
              · exact ih B _ hf h i hi (by omega)
    exact key maxiter A V0 hm h

/-- C96: the array passed in is overwritten with the result. -/
theorem lloyd_overwrites {vor : VorUpdate m} {circ : Circumcenter m} {L : Matrix (Fin k) (Fin m) ℝ} {M : ℕ} {xtol : ℝ} {maxiter : ℕ}
    {A V0 R C : List (Lip.Pt m)} (h : minimaxLloyd (.error .assertion) vor circ L M xtol maxiter A V0 = .ok (R, C)) : C = R := by
  rcases lloyd_loop_of h with ⟨h, -⟩ | ⟨-, h, -⟩
  · simp at h
  · exact h

theorem ldist_two (a b : Lip.Pt 2) : Lip.ldist (1 : Matrix (Fin 2) (Fin 2) ℝ) a b ^ 2 = (a 0 - b 0) ^ 2 + (a 1 - b 1) ^ 2 := by
  rw [Geo.ldist_sq, one_mulVec, dotProduct, Fin.sum_univ_two]
  simp only [Pi.sub_apply]
  ring

/-- C96: a design passed in is changed: a single point at a corner of the unit square. -/
theorem lloyd_overwrites_false {S : Set (Lip.Pt 2)} (hS : ![1 / 2, 1 / 2] ∈ S) {vor : VorUpdate 2} (hv : ∀ V0, vor [![0, 0]] V0 = .ok [![0, 0], ![0, 1], ![1, 0], ![1, 1]])
    {circ : Circumcenter 2} (hc : circ.Exact (1 : Matrix (Fin 2) (Fin 2) ℝ) S) {V0 R C : List (Lip.Pt 2)}
    (h : minimaxLloyd (.error .assertion) vor circ (1 : Matrix (Fin 2) (Fin 2) ℝ) 1 (1 / 10 ^ 5) 1 [![0, 0]] V0 = .ok (R, C)) : C ≠ [![0, 0]] := by
  rcases lloyd_loop_of h with ⟨h, -⟩ | ⟨-, rfl, h⟩
  · simp at h
  · have hn : ∀ v : Lip.Pt 2, nearest (1 : Matrix (Fin 2) (Fin 2) ℝ) [![0, 0]] v = Lip.ldist (1 : Matrix (Fin 2) (Fin 2) ℝ) ![0, 0] v := fun v => by
      simp [nearest, minL]
    have hcell : cellOf (1 : Matrix (Fin 2) (Fin 2) ℝ) [![0, 0]] [![0, 0], ![0, 1], ![1, 0], ![1, 1]] ![0, 0] = [![0, 0], ![0, 1], ![1, 0], ![1, 1]] := by
      rw [cellOf, List.filter_eq_self]
      intro v _
      rw [hn, isclose, decide_eq_true_eq, sub_self, abs_zero]
      positivity
    simp only [lloydLoop, hv, lloydCenters, hcell, List.map_nil] at h
    rintro rfl
    have hy : circ [![0, 0], ![0, 1], ![1, 0], ![1, 1]] = .ok ![0, 0] := by
      split at h
      · simp at h
      · rename_i X hX
        split at hX
        · simp at hX
        · rename_i y hy
          simp only [Except.ok.injEq] at hX
          subst hX
          have : [y] = [![0, 0]] := by
            split_ifs at h <;> simpa using h
          rw [hy, List.singleton_inj.1 this]
    have := (hc _ _ hy).2 _ hS 1 (fun p hp => ?_) (by simp) ![1, 1] (by simp)
    · have h2 := ldist_two ![0, 0] ![1, 1]
      have h3 := ldist_nn (1 : Matrix (Fin 2) (Fin 2) ℝ) ![0, 0] ![1, 1]
      norm_num at h2
      nlinarith
    · have h3 := ldist_nn (1 : Matrix (Fin 2) (Fin 2) ℝ) ![1 / 2, 1 / 2] p
      have h2 : Lip.ldist (1 : Matrix (Fin 2) (Fin 2) ℝ) ![1 / 2, 1 / 2] p ^ 2 = 1 / 2 := by
        rw [ldist_two]
        simp only [List.mem_cons, List.not_mem_nil, or_false] at hp
        rcases hp with rfl | rfl | rfl | rfl <;> norm_num
      nlinarith

/-- Exact solvers exist for every compact nonempty domain. -/
theorem exists_circ (L : Matrix (Fin k) (Fin m) ℝ) {S : Set (Lip.Pt m)} (hS : IsCompact S) (hne : S.Nonempty) : ∃ circ : Circumcenter m, circ.Exact L S ∧
    ∀ pts, ∃ y, circ pts = .ok y := by
  classical
  have hcont : ∀ p : Lip.Pt m, Continuous fun y => Lip.ldist L y p := fun p => by
    unfold Lip.ldist Lip.nrm
    fun_prop
  have key : ∀ pts : List (Lip.Pt m), ∃ f : Lip.Pt m → ℝ, Continuous f ∧ ∀ y r, f y ≤ r ↔ 0 ≤ r ∧ ∀ p ∈ pts, Lip.ldist L y p ≤ r := by
    intro pts
    induction pts with
    | nil => exact ⟨fun _ => 0, continuous_const, by simp⟩
    | cons p pts ih =>
      obtain ⟨f, h1, h2⟩ := ih
      refine ⟨fun y => max (Lip.ldist L y p) (f y), (hcont p).max h1, fun y r => ?_⟩
      rw [max_le_iff, h2, List.forall_mem_cons]
      tauto
  choose f hf1 hf2 using key
  have hmin := fun pts => hS.exists_isMinOn hne (hf1 pts).continuousOn
  choose y hy1 hy2 using hmin
  refine ⟨fun pts => .ok (y pts), fun pts y' h => ?_, fun pts => ⟨_, rfl⟩⟩
  simp only [Except.ok.injEq] at h
  subst h
  refine ⟨hy1 pts, fun z hz r hr hne p hp => ?_⟩
  obtain ⟨q, hq⟩ := List.exists_mem_of_ne_nil _ hne
  have h0 : 0 ≤ r := (ldist_nn _ _ _).trans (hr q hq)
  exact ((hf2 pts _ _).1 ((hy2 pts hz).trans ((hf2 pts _ _).2 ⟨h0, hr⟩))).2 p hp

end Verif.Samp
