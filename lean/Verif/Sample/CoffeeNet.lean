import Verif.Sample.GreedyProps
import Verif.Sample.DesignFill
import Verif.Geometry.VsampleRandom

/-!
# C186: coffee-house designs from sampled Voronoi vertices

`maximin_coffeehouse(domain, N, L, N0, full = False)`, maximin_coffeehouse.py 45-66: the starting points `X0` are drawn once, and every pass moves them towards Voronoi
vertices of the points chosen so far and takes the farthest result.
-/

namespace Verif.Samp

open Verif Verif.Domain Verif.Geo Matrix Filter MeasureTheory ProbabilityTheory Topology

variable {k m : ℕ}

/-! ## Specification -/

/-- While the design `X` is built, the candidates of every pass include, for each starting point, one at least as far from the points chosen so far. -/
def CoversStarts (L : Matrix (Fin k) (Fin m) ℝ) (X0 : List (Lip.Pt m)) (cand : List (Lip.Pt m) → List (Lip.Pt m)) (X : List (Lip.Pt m)) : Prop :=
  ∀ j, 0 < j → j < X.length → ∀ s ∈ X0, ∃ c ∈ cand (X.take j), nearest L (X.take j) s ≤ nearest L (X.take j) c

/-! ## Proofs -/

/-- A bounded set holds only finitely many points with given distances. -/
theorem packing {S : Set (Lip.Pt m)} (hS : Bornology.IsBounded S) (L : Matrix (Fin k) (Fin m) ℝ) {r : ℝ} (hr : 0 < r) :
    ∃ P, ∀ X : List (Lip.Pt m), (∀ x ∈ X, x ∈ S) → (X.Pairwise fun a b => r < Lip.ldist L a b) → X.length ≤ P := by
  classical
  obtain ⟨t, -, ht⟩ := hS.isCompact_closure.elim_nhds_subcover (fun c => {z | Lip.ldist L z c < r / 2}) fun c _ =>
    (isOpen_lt (continuous_ldist L c) continuous_const).mem_nhds (by simpa [Lip.ldist_self] using half_pos hr)
  have hex : ∀ z, z ∈ S → ∃ c ∈ t, Lip.ldist L z c < r / 2 := by
    intro z hz
    obtain ⟨c, hc⟩ := Set.mem_iUnion.1 (ht (subset_closure hz))
    obtain ⟨hct, hc⟩ := Set.mem_iUnion.1 hc
    exact ⟨c, hct, hc⟩
  let f : Lip.Pt m → Lip.Pt m := fun z => if h : z ∈ S then (hex z h).choose else 0
  have hf : ∀ z, z ∈ S → f z ∈ t ∧ Lip.ldist L z (f z) < r / 2 := fun z hz => by
    simp only [f, dif_pos hz]; exact (hex z hz).choose_spec
  refine ⟨t.card, fun X hX hp => ?_⟩
  have hnd : (X.map f).Nodup := by
    rw [List.nodup_iff_pairwise_ne, List.pairwise_map]
    refine hp.imp_of_mem fun {a b} ha hb hab he => ?_
    have h1 := (hf a (hX a ha)).2
    have h2 := (hf b (hX b hb)).2
    have h3 := Lip.ldist_triangle L a (f a) b
    rw [he] at h3 h1
    rw [Lip.ldist_comm L (f b)] at h3
    linarith
  have := List.toFinset_card_of_nodup hnd
  rw [List.length_map] at this
  rw [← this]
  refine Finset.card_le_card fun c hc => ?_
  obtain ⟨x, hx, rfl⟩ := List.mem_map.1 (List.mem_toFinset.1 hc)
  exact (hf x (hX x hx)).1

theorem nearest_take_ge (L : Matrix (Fin k) (Fin m) ℝ) (X : List (Lip.Pt m)) {j : ℕ} (hj : X.take j ≠ []) (z : Lip.Pt m) :
    nearest L X z ≤ nearest L (X.take j) z := by
  obtain ⟨x, hx, e⟩ := nearest_mem L hj z
  rw [e]
  exact nearest_le L (List.mem_of_mem_take hx) z

/-- The points of a design are as far apart as the starting point that is farthest from the design. -/
theorem coffee_apart {L : Matrix (Fin k) (Fin m) ℝ} {X0 : List (Lip.Pt m)} {cand : List (Lip.Pt m) → List (Lip.Pt m)} {x0 : Lip.Pt m}
    {N : ℕ} {X : List (Lip.Pt m)} (hc : CoversStarts L X0 cand X) (h : coffeehouse L cand x0 N = .ok X) {s : Lip.Pt m} (hs : s ∈ X0) {r : ℝ} (hr : r < nearest L X s) :
    X.Pairwise fun a b => r < Lip.ldist L a b := by
  rw [List.pairwise_iff_getElem]
  intro i j hi hj hij
  have hne : X.take j ≠ [] := by
    intro e
    have := congrArg List.length e
    rw [List.length_take, List.length_nil] at this
    omega
  obtain ⟨-, hg⟩ := coffee_greedy h j (by omega) hj
  obtain ⟨c, hcm, hle⟩ := hc j (by omega) hj s hs
  have h1 := nearest_take_ge L X hne s
  have h2 : X[i] ∈ X.take j := by
    rw [List.mem_take_iff_getElem]
    exact ⟨i, by omega, rfl⟩
  have h3 := nearest_le L h2 X[j]
  linarith [hg c hcm]

/-- **C186**: on a bounded domain there is a number of points, the same for all starting points, from which on every coffee-house design comes within `r` of every
starting point, hence within `r + δ` of every point that has a starting point within `δ`. -/
theorem coffee_net {S : Set (Lip.Pt m)} (hS : Bornology.IsBounded S) (L : Matrix (Fin k) (Fin m) ℝ) {r : ℝ} (hr : 0 < r) :
    ∃ N0, ∀ N ≥ N0, ∀ (X0 : List (Lip.Pt m)) (cand : List (Lip.Pt m) → List (Lip.Pt m)) (x0 : Lip.Pt m) (X : List (Lip.Pt m)), CoversStarts L X0 cand X →
      coffeehouse L cand x0 N = .ok X → (∀ x ∈ X, x ∈ S) →
        (∀ s ∈ X0, nearest L X s ≤ r) ∧ ∀ δ a, (∃ s ∈ X0, Lip.ldist L s a ≤ δ) → nearest L X a ≤ r + δ := by
  obtain ⟨P, hP⟩ := packing hS L hr
  refine ⟨P + 1, fun N hN X0 cand x0 X hc h hX => ?_⟩
  have hlen := coffeeRun_length h
  rw [List.length_singleton] at hlen
  have hs : ∀ s ∈ X0, nearest L X s ≤ r := by
    intro s hs
    by_contra hlt
    have := hP X hX (coffee_apart hc h hs (not_le.1 hlt))
    omega
  refine ⟨hs, fun δ a ⟨s, hsm, hle⟩ => ?_⟩
  have := nearest_close L (X := X) (by rintro rfl; simp at hlen; omega) s a
  linarith [hs s hsm]

/-- **C186**: with at least as many independent starting points as points in the design, the designs almost surely fill a bounded domain as their size grows. -/
theorem coffee_almost_sure {Ω : Type*} [MeasurableSpace Ω] {μ : Measure Ω} [IsProbabilityMeasure μ] {Y : ℕ → Ω → Lip.Pt m} {P : Measure (Lip.Pt m)}
    [IsProbabilityMeasure P] (h : Misc.Iid μ Y P) {S : Set (Lip.Pt m)} (hb : Bornology.IsBounded S) (hS : ∀ᵐ y ∂P, y ∈ S)
    (hpos : ∀ a ∈ S, ∀ U : Set (Lip.Pt m), IsOpen U → a ∈ U → P U ≠ 0) (L : Matrix (Fin k) (Fin m) ℝ) :
    ∀ᵐ ω ∂μ, ∀ ε > 0, ∃ N1, ∀ N ≥ N1, ∀ M ≥ N, ∀ (cand : List (Lip.Pt m) → List (Lip.Pt m)) (x0 : Lip.Pt m) (X : List (Lip.Pt m)),
      CoversStarts L (Lip.firstPts (fun i => Y i ω) M) cand X → coffeehouse L cand x0 N = .ok X → (∀ x ∈ X, x ∈ S) → ∀ a ∈ S, nearest L X a ≤ ε := by
  filter_upwards [Lip.iid_fills h hS hpos] with ω hω ε hε
  obtain ⟨N0, hN0⟩ := coffee_net hb L (half_pos hε)
  -- the first draws are a net
  obtain ⟨t, ht, hcov⟩ := hb.isCompact_closure.elim_nhds_subcover (fun c => {z | Lip.ldist L z c < ε / 4}) fun c _ =>
    (isOpen_lt (continuous_ldist L c) continuous_const).mem_nhds (by simp only [Set.mem_setOf_eq, Lip.ldist_self]; linarith)
  have hcl : closure S ⊆ closure (Set.range fun i => Y i ω) := closure_minimal hω.dense isClosed_closure
  have hi : ∀ c, ∃ i, c ∈ t → Lip.ldist L (Y i ω) c < ε / 4 := by
    intro c
    by_cases hct : c ∈ t
    · obtain ⟨z, hz, i, rfl⟩ := mem_closure_iff.1 (hcl (ht c hct)) _ (isOpen_lt (continuous_ldist L c) continuous_const)
        (show Lip.ldist L c c < ε / 4 by rw [Lip.ldist_self]; linarith)
      exact ⟨i, fun _ => hz⟩
    · exact ⟨0, fun h => absurd h hct⟩
  choose i hi using hi
  refine ⟨max N0 (t.sup i + 1), fun N hN M hM cand x0 X hc hX hin a ha => ?_⟩
  obtain ⟨c, hc1⟩ := Set.mem_iUnion.1 (hcov (subset_closure ha))
  obtain ⟨hct, hac⟩ := Set.mem_iUnion.1 hc1
  have hac : Lip.ldist L a c < ε / 4 := hac
  have hic : i c ≤ t.sup i := Finset.le_sup hct
  have h1 := hi c hct
  have h2 := Lip.ldist_triangle L (Y (i c) ω) c a
  rw [Lip.ldist_comm L c] at h2
  have := (hN0 N (le_trans (le_max_left _ _) hN) _ cand x0 X hc hX hin).2 (ε / 2) a ⟨Y (i c) ω, by
    simp only [Lip.firstPts, List.mem_map, List.mem_range]
    exact ⟨i c, by have := le_max_right N0 (t.sup i + 1); omega, rfl⟩, by linarith⟩
  linarith

/-- The hypotheses can be met: with the starting points themselves as candidates. -/
example (L : Matrix (Fin k) (Fin m) ℝ) (X0 X : List (Lip.Pt m)) : CoversStarts L X0 (fun _ => X0) X := fun _ _ _ s hs => ⟨s, hs, le_rfl⟩

/-- **C186**: the candidates of `voronoi_vertex_sample`, called with randomization as in the code, cover the starting points if no sample is approached slowly and
no direction is nearly zero while the design is built; `rnd` are the random directions of each pass. -/
theorem covers_of_sure {sort : SortBy m} (hs : sort.Sorts) {qr : QRcols m} (hq : qr.Exact) {D : SDomain m} {L : Matrix (Fin k) (Fin m) ℝ} {X0 X : List (Lip.Pt m)}
    {rnd : ℕ → Lip.Pt m → ℕ → Lip.Pt m} {cand : List (Lip.Pt m) → List (Lip.Pt m)}
    (hc : ∀ j, 0 < j → j < X.length → vertexSample sort qr D L true (X.take j) (X0.map fun x => (x, rnd j x)) = .ok (cand (X.take j)))
    (hf : ∀ j, 0 < j → j < X.length → ∀ x ∈ X0, SureRun sort qr D L (X.take j) (rnd j x) (passes D L true) x) : CoversStarts L X0 cand X := by
  intro j h0 hj s hsm
  have := vertexSample_nearest_random hs hq (hc j h0 hj) (by
    intro p hp
    obtain ⟨y, hy, rfl⟩ := List.mem_map.1 hp
    exact hf j h0 hj y hy)
  obtain ⟨v, hv, hle⟩ := forall₂_left this _ (List.mem_map_of_mem hsm)
  exact ⟨v, hv, hle⟩

/-- **C186**: designs whose first point and candidates are in the domain stay in the domain. -/
theorem coffee_stays {S : Set (Lip.Pt m)} {L : Matrix (Fin k) (Fin m) ℝ} {cand : List (Lip.Pt m) → List (Lip.Pt m)} (hc : ∀ Xhat, Xhat ≠ [] → ∀ c ∈ cand Xhat, c ∈ S)
    {x0 : Lip.Pt m} (h0 : x0 ∈ S) {N : ℕ} (hN : 1 ≤ N) {X : List (Lip.Pt m)} (h : coffeehouse L cand x0 N = .ok X) : ∀ x ∈ X, x ∈ S := by
  intro x hx
  obtain ⟨j, hj, rfl⟩ := List.getElem_of_mem hx
  rcases Nat.eq_zero_or_pos j with rfl | hpos
  · have := (coffee_length hN h).2
    rw [List.getElem?_eq_getElem hj] at this
    rw [Option.some.inj this]; exact h0
  · refine hc (X.take j) (fun e => ?_) _ (coffee_greedy h j hpos hj).1
    have := congrArg List.length e
    rw [List.length_take, List.length_nil] at this
    omega

end Verif.Samp
