import Verif.Sample.SeqProps
import Verif.Sample.StopProps
import Verif.Geometry.FillLimit

/-!
# C185: sequential maximin designs fill the domain

`seq_maximin_sample` (seqmaximin.py 11-221) called again and again, each time with fresh random starting points for the search of the Voronoi vertices (seqmaximin.py 86-104, fill.py 75-80).
-/

namespace Verif.Samp

open Verif Verif.Domain Verif.Geo Matrix Filter MeasureTheory ProbabilityTheory Topology

variable {k m : ℕ}

/-! ## Specification -/

/-- Each point after the first is, up to the factor `θ` and the tolerance `η`, at least as far from all points before as the start `y n`. -/
def Follows (L : Matrix (Fin k) (Fin m) ℝ) (θ η : ℝ) (y x : ℕ → Lip.Pt m) : Prop :=
  ∀ n, θ * (nearest L (Lip.firstPts x (n + 1)) (y n) - η) ≤ nearest L (Lip.firstPts x (n + 1)) (x (n + 1))

/-- Infinitely often the starts come close to every point of `S`. -/
def Recurs (y : ℕ → Lip.Pt m) (S : Set (Lip.Pt m)) : Prop := ∀ N, Lip.Fills (fun i => y (i + N)) S

/-! ## Proofs -/

theorem often_close {S : Set (Lip.Pt m)} (hS : Bornology.IsBounded S) (L : Matrix (Fin k) (Fin m) ℝ) {r : ℝ} (hr : 0 < r) {s : Set ℕ} (hs : s.Infinite)
    {a : ℕ → Lip.Pt m} (ha : ∀ n ∈ s, a n ∈ S) : ∃ c, {n | n ∈ s ∧ Lip.ldist L (a n) c < r}.Infinite := by
  obtain ⟨t, -, ht⟩ := hS.isCompact_closure.elim_nhds_subcover (fun c => {z | Lip.ldist L z c < r}) fun c _ =>
    (isOpen_lt (continuous_ldist L c) continuous_const).mem_nhds (by simpa [Lip.ldist_self] using hr)
  by_contra hno
  push Not at hno
  refine hs ((t.finite_toSet.biUnion fun c _ => hno c).subset fun n hn => ?_)
  obtain ⟨c, hc⟩ := Set.mem_iUnion.1 (ht (subset_closure (ha n hn)))
  obtain ⟨hct, hc⟩ := Set.mem_iUnion.1 hc
  exact Set.mem_biUnion hct ⟨hn, hc⟩

theorem nearest_first_le (L : Matrix (Fin k) (Fin m) ℝ) (x : ℕ → Lip.Pt m) {i n : ℕ} (h : i < n) (z : Lip.Pt m) :
    nearest L (Lip.firstPts x n) z ≤ Lip.ldist L (x i) z :=
  nearest_le L (by simp only [Lip.firstPts, List.mem_map, List.mem_range]; exact ⟨i, h, rfl⟩) z

theorem nearest_first_antitone (L : Matrix (Fin k) (Fin m) ℝ) (x : ℕ → Lip.Pt m) {n n' : ℕ} (h0 : 0 < n) (h : n ≤ n') (z : Lip.Pt m) :
    nearest L (Lip.firstPts x n') z ≤ nearest L (Lip.firstPts x n) z := by
  obtain ⟨p, hp, e⟩ := nearest_mem L (X := Lip.firstPts x n) (by simp [Lip.firstPts]; omega) z
  simp only [Lip.firstPts, List.mem_map, List.mem_range] at hp
  obtain ⟨i, hi, rfl⟩ := hp
  rw [e]
  exact nearest_first_le L x (by omega) z

/-- **C185**: a design on a bounded domain that follows recurring starts leaves, in the end, no point of the domain farther than the tolerance from the design. -/
theorem design_fills {S : Set (Lip.Pt m)} (hS : Bornology.IsBounded S) {L : Matrix (Fin k) (Fin m) ℝ} {θ η : ℝ} (hθ : 0 < θ) {x y : ℕ → Lip.Pt m}
    (hx : ∀ i, x i ∈ S) (hy : Recurs y S) (hf : Follows L θ η y x) {ε : ℝ} (hε : 0 < ε) :
    ∃ N, ∀ n ≥ N, ∀ a ∈ S, nearest L (Lip.firstPts x n) a ≤ η + ε := by
  by_contra hno
  push Not at hno
  have hex : ∀ n, ∃ a ∈ S, η + ε < nearest L (Lip.firstPts x (n + 1)) a := by
    intro n
    obtain ⟨n', hn', a, ha, hlt⟩ := hno (n + 1)
    exact ⟨a, ha, hlt.trans_le (nearest_first_antitone L x (by omega) hn' a)⟩
  choose a haS ha using hex
  obtain ⟨c, hc⟩ := often_close hS L (r := ε / 4) (by linarith) Set.infinite_univ (a := a) fun n _ => haS n
  have hfar : ∀ z, Lip.ldist L z c < ε / 4 → ∀ n, η + ε / 2 < nearest L (Lip.firstPts x (n + 1)) z := by
    intro z hz n
    obtain ⟨n', ⟨-, hn'⟩, hlt⟩ := hc.exists_gt n
    have h1 := nearest_close L (X := Lip.firstPts x (n' + 1)) (by simp [Lip.firstPts]) z (a n')
    have h2 := Lip.ldist_triangle L z c (a n')
    rw [Lip.ldist_comm L c] at h2
    have h3 := nearest_first_antitone L x (by omega : 0 < n + 1) (by omega : n + 1 ≤ n' + 1) z
    have := ha n'
    linarith
  have hU : IsOpen {z | Lip.ldist L z c < ε / 4} := isOpen_lt (continuous_ldist L c) continuous_const
  obtain ⟨n0, -, hn0⟩ := hc.nonempty
  have hoft : {n | Lip.ldist L (y n) c < ε / 4}.Infinite := by
    refine Set.infinite_of_not_bddAbove fun ⟨M, hM⟩ => ?_
    obtain ⟨z, hz, i, rfl⟩ := mem_closure_iff.1 ((hy (M + 1)).dense (haS n0)) _ hU hn0
    have := hM (show i + (M + 1) ∈ {n | Lip.ldist L (y n) c < ε / 4} from hz)
    omega
  obtain ⟨c', hc'⟩ := often_close hS L (r := θ * ε / 4) (by positivity) hoft (a := fun n => x (n + 1)) fun n _ => hx (n + 1)
  obtain ⟨n1, hn1⟩ := hc'.nonempty
  obtain ⟨n2, hn2, hlt⟩ := hc'.exists_gt n1
  have h1 := hfar _ hn2.1 n2
  have h2 := hf n2
  have h3 := nearest_first_le L x (by omega : n1 + 1 < n2 + 1) (x (n2 + 1))
  have h4 := Lip.ldist_triangle L (x (n1 + 1)) c' (x (n2 + 1))
  rw [Lip.ldist_comm L c'] at h4
  have h5 := hn1.2
  have h6 := hn2.2
  have h7 : θ * (ε / 2) ≤ θ * (nearest L (Lip.firstPts x (n2 + 1)) (y n2) - η) := mul_le_mul_of_nonneg_left (by linarith) hθ.le
  linarith

/-- **C185**: without tolerance and in a metric that separates points the design is dense in the domain. -/
theorem design_dense {S : Set (Lip.Pt m)} (hS : Bornology.IsBounded S) {L : Matrix (Fin k) (Fin m) ℝ} (hL : Function.Injective fun v => L *ᵥ v) {θ : ℝ}
    (hθ : 0 < θ) {x y : ℕ → Lip.Pt m} (hx : ∀ i, x i ∈ S) (hy : Recurs y S) (hf : Follows L θ 0 y x) : Lip.Fills x S := by
  refine ⟨hx, fun a ha => ?_⟩
  by_contra hno
  -- the points of the design stay away from `a`
  set F := closure S ∩ closure (Set.range x) with hF
  have hcomp : IsCompact F := hS.isCompact_closure.inter_right isClosed_closure
  have hne : F.Nonempty := ⟨x 0, subset_closure (hx 0), subset_closure ⟨0, rfl⟩⟩
  obtain ⟨b, hb, hmin⟩ := hcomp.exists_isMinOn hne (continuous_ldist L a).continuousOn
  have hpos : 0 < Lip.ldist L b a := by
    refine lt_of_le_of_ne (ldist_nn ..) fun h0 => hno ?_
    have h1 : L *ᵥ b - L *ᵥ a = 0 := by
      rw [Lip.ldist, Lip.nrm] at h0
      have := (Real.sqrt_eq_zero (Finset.sum_nonneg fun i _ => mul_self_nonneg _)).1 h0.symm
      exact dotProduct_self_eq_zero.1 this
    have : b = a := hL (sub_eq_zero.1 h1)
    exact this ▸ hb.2
  obtain ⟨N, hN⟩ := design_fills hS hθ hx hy hf (half_pos hpos)
  have h1 := hN (N + 1) (by omega) a ha
  obtain ⟨p, hp, e⟩ := nearest_mem L (X := Lip.firstPts x (N + 1)) (by simp [Lip.firstPts]) a
  simp only [Lip.firstPts, List.mem_map, List.mem_range] at hp
  obtain ⟨i, -, rfl⟩ := hp
  have h2 : Lip.ldist L b a ≤ Lip.ldist L (x i) a := hmin (show x i ∈ F from ⟨subset_closure (hx i), subset_closure ⟨i, rfl⟩⟩)
  linarith

/-- Independent starts recur. -/
theorem iid_recurs {Ω : Type*} [MeasurableSpace Ω] {μ : Measure Ω} [IsProbabilityMeasure μ] {Y : ℕ → Ω → Lip.Pt m} {P : Measure (Lip.Pt m)}
    [IsProbabilityMeasure P] (h : Misc.Iid μ Y P) {S : Set (Lip.Pt m)} (hS : ∀ᵐ y ∂P, y ∈ S)
    (hpos : ∀ a ∈ S, ∀ U : Set (Lip.Pt m), IsOpen U → a ∈ U → P U ≠ 0) : ∀ᵐ ω ∂μ, Recurs (fun i => Y i ω) S := by
  refine ae_all_iff.2 fun N => ?_
  exact Lip.iid_fills (X := fun i => Y (i + N)) ⟨fun i => h.meas (i + N), fun i => h.law (i + N), fun i j hij => h.indep (by omega)⟩ hS hpos

/-- **C185**: with independent starts from a law that charges every neighbourhood of the points of a bounded domain, almost surely every design that follows the
starts fills the domain. -/
theorem design_almost_sure {Ω : Type*} [MeasurableSpace Ω] {μ : Measure Ω} [IsProbabilityMeasure μ] {Y : ℕ → Ω → Lip.Pt m} {P : Measure (Lip.Pt m)}
    [IsProbabilityMeasure P] (h : Misc.Iid μ Y P) {S : Set (Lip.Pt m)} (hb : Bornology.IsBounded S) (hS : ∀ᵐ y ∂P, y ∈ S)
    (hpos : ∀ a ∈ S, ∀ U : Set (Lip.Pt m), IsOpen U → a ∈ U → P U ≠ 0) (L : Matrix (Fin k) (Fin m) ℝ) {θ η : ℝ} (hθ : 0 < θ) :
    ∀ᵐ ω ∂μ, ∀ x : ℕ → Lip.Pt m, (∀ i, x i ∈ S) → Follows L θ η (fun i => Y i ω) x →
      ∀ ε > 0, ∃ N, ∀ n ≥ N, ∀ a ∈ S, nearest L (Lip.firstPts x n) a ≤ η + ε := by
  filter_upwards [iid_recurs h hS hpos] with ω hω x hx hf ε hε
  exact design_fills hb hθ hx hω hf hε

/-- **C185**: designs built by calling `seq_maximin_sample` with one metric again and again follow the starts, if each search keeps a vertex at least as far from
the samples as the start, up to the tolerance, and its candidates are separated. -/
theorem seq_follows {S : Set (Lip.Pt m)} {o : ℕ → SeqOracle m} (ho : ∀ n, (o n).Exact S) {L : Metric m} {slack η : ℝ} (hs : 0 ≤ slack) {x y : ℕ → Lip.Pt m}
    {raw : ℕ → List (Lip.Pt m)} (hraw : ∀ n, (o n).raw L = .ok (raw n))
    (hkeep : ∀ n, ∃ w ∈ select (raw n) (uniquePoints ((raw n).map fun v => L.2 *ᵥ v)),
      nearest L.2 (Lip.firstPts x (n + 1)) (y n) - η ≤ nearest L.2 (Lip.firstPts x (n + 1)) w)
    (hsep : ∀ n X, seqLoop (seqCtx (o n) [L] [metricVerts (o n).sort L (Lip.firstPts x (n + 1)) (raw n)] (Lip.firstPts x (n + 1))) [L] (Lip.firstPts x (n + 1)) slack 100 []
      (seqIdx (o n) [L] [metricVerts (o n).sort L (Lip.firstPts x (n + 1)) (raw n)] (Lip.firstPts x (n + 1))) [] = .ok X → ∀ a ∈ X, ∀ b ∈ X, b ≠ a → atol < Lip.nrm (a - b))
    (h : ∀ n, seqMaximin (o n) [L] (Lip.firstPts x (n + 1)) slack = .ok (x (n + 1))) : Follows L.2 slack η y x := by
  intro n
  obtain ⟨w, hw, hle⟩ := hkeep n
  exact (mul_le_mul_of_nonneg_left hle hs).trans (seq_single (ho n) hs (hraw n) (hsep n) (h n) w hw)

/-- **C185**: the designs of `seq_maximin_sample` stay in the domain. -/
theorem seq_stays {S : Set (Lip.Pt m)} {o : ℕ → SeqOracle m} (ho : ∀ n, (o n).Exact S) {Ls : List (Metric m)} {slack : ℝ} {x : ℕ → Lip.Pt m} (h0 : x 0 ∈ S)
    (h : ∀ n, seqMaximin (o n) Ls (Lip.firstPts x (n + 1)) slack = .ok (x (n + 1))) : ∀ i, x i ∈ S
  | 0 => h0
  | n + 1 => (seq_spec (ho n) (h n)).1

/-! ## A case that meets the hypotheses -/

theorem one_vertex_kept {S : Set (Lip.Pt m)} {o : SeqOracle m} (ho : o.Exact S) (p : Lip.Pt m) (L : Metric m) (Xhat : List (Lip.Pt m)) :
    select [p] (uniquePoints (([p] : List (Lip.Pt m)).map fun v => L.2 *ᵥ v)) = [p] := by
  refine (List.sublist_singleton.1 (select_sublist _ _)).resolve_left fun h => ?_
  have := metricVerts_ne ho L Xhat (raw := [p]) (by simp)
  exact this (List.eq_nil_iff_forall_not_mem.2 fun y hy => by rw [metricVerts_mem ho, h] at hy; simp at hy)

theorem one_vertex_sep {S : Set (Lip.Pt m)} {o : SeqOracle m} (ho : o.Exact S) {p : Lip.Pt m} (hp : p ∈ S)
    (hcand : ∀ C, o.empty C = false → ∃ y, o.cand C = .ok [y]) (L : Metric m) (Xhat : List (Lip.Pt m)) (slack : ℝ) (X : List (Lip.Pt m))
    (hX : seqLoop (seqCtx o [L] [metricVerts o.sort L Xhat [p]] Xhat) [L] Xhat slack 100 [] (seqIdx o [L] [metricVerts o.sort L Xhat [p]] Xhat) [] = .ok X) :
    ∀ a ∈ X, ∀ b ∈ X, b ≠ a → atol < Lip.nrm (a - b) := by
  have hK := one_vertex_kept ho p L Xhat
  have hM : metricVerts o.sort L Xhat [p] = [p] := by
    have := ho.sort_perm _ (fun v => -nearest L.2 Xhat v) (select [p] (uniquePoints (([p] : List (Lip.Pt m)).map fun v => L.2 *ᵥ v)))
    rw [hK] at this
    rw [metricVerts, hK]
    exact List.perm_singleton.1 this
  have hI : seqIdx o [L] [[p]] Xhat = [[0]] := by
    have ht : tuples (([[p]] : List (List (Lip.Pt m))).map fun v => min v.length (maxVerts [L].length)) = [[0]] := by
      have : min 1 (maxVerts 1) = 1 := min_eq_left (le_trans (by norm_num) (two_le_maxVerts 1))
      simp [tuples, this]
    have := ho.sort_perm _ (fun i => -((List.range [L].length).map (vertDist [L] [[p]] Xhat i)).prod) [[0]]
    rw [seqIdx, ht]
    exact List.perm_singleton.1 this
  rw [hM, hI, show (100 : ℕ) = 99 + 1 from rfl, seqLoop] at hX
  simp only [nextNew, List.not_mem_nil, if_false, List.nil_append] at hX
  have h00 : o.empty [] = false := by
    rw [← Bool.not_eq_true, ho.empty_iff]
    exact not_not.2 ⟨p, hp, by simp [Meets]⟩
  obtain ⟨y, hy⟩ := hcand _ (addCons_nonempty h00 ((seqCtx o [L] [[p]] Xhat).pick [0]) ((seqCtx o [L] [[p]] Xhat).order [0]))
  have hy' : (seqCtx o [L] [[p]] Xhat).cand (addCons (seqCtx o [L] [[p]] Xhat).empty ((seqCtx o [L] [[p]] Xhat).pick [0]) ((seqCtx o [L] [[p]] Xhat).order [0]) [] []).1 =
    .ok [y] := hy
  rw [hy'] at hX
  have hX2 : X = [y] := by
    simp only at hX
    split_ifs at hX
    · cases hX; rfl
    · rw [show (99 : ℕ) = 98 + 1 from rfl, seqLoop] at hX
      simp only [nextNew] at hX
      cases hX; rfl
  subst hX2
  intro a ha b hb hne
  rw [List.mem_singleton] at ha hb
  exact absurd (hb.trans ha.symm) hne

/-- The hypotheses of `seq_follows` and `design_fills` can be met: on any set, in any metric that separates points, with searches that find exactly the start. -/
theorem exists_seq_design {S : Set (Lip.Pt m)} {x0 : Lip.Pt m} {y : ℕ → Lip.Pt m} (hy : ∀ n, y n ∈ S) {L : Metric m} (hL : Function.Injective fun v => L.2 *ᵥ v)
    {slack : ℝ} (h1 : slack ≤ 1) : ∃ (o : ℕ → SeqOracle m) (x : ℕ → Lip.Pt m), x 0 = x0 ∧ (∀ n, (o n).Exact S) ∧ (∀ n, (o n).raw L = .ok [y n]) ∧
      (∀ n, ∃ w ∈ select [y n] (uniquePoints (([y n] : List (Lip.Pt m)).map fun v => L.2 *ᵥ v)),
        nearest L.2 (Lip.firstPts x (n + 1)) (y n) - 0 ≤ nearest L.2 (Lip.firstPts x (n + 1)) w) ∧
      (∀ n X, seqLoop (seqCtx (o n) [L] [metricVerts (o n).sort L (Lip.firstPts x (n + 1)) [y n]] (Lip.firstPts x (n + 1))) [L] (Lip.firstPts x (n + 1)) slack 100 []
        (seqIdx (o n) [L] [metricVerts (o n).sort L (Lip.firstPts x (n + 1)) [y n]] (Lip.firstPts x (n + 1))) [] = .ok X →
          ∀ a ∈ X, ∀ b ∈ X, b ≠ a → atol < Lip.nrm (a - b)) ∧
      ∀ n, seqMaximin (o n) [L] (Lip.firstPts x (n + 1)) slack = .ok (x (n + 1)) := by
  choose o ho hraw hcand using fun n => exists_seqOracle (hy n)
  refine ⟨o, fun n => Nat.casesOn n x0 y, rfl, ho, fun n => hraw n L, fun n => ⟨y n, ?_, by simp⟩, fun n X hX => ?_, fun n => ?_⟩
  · rw [one_vertex_kept (ho n) (y n) L []]; simp
  · exact one_vertex_sep (ho n) (hy n) (hcand n) L _ slack X hX
  · obtain ⟨x, hx⟩ := seq_ok ⟨y n, hy n⟩ (ho n) (Ls := [L]) (by simp) (fun L _ => ⟨y n, [], hraw n L⟩)
      (fun C hC => by obtain ⟨z, h⟩ := hcand n C hC; exact ⟨z, [], h⟩) (Lip.firstPts (fun n => Nat.casesOn n x0 y) (n + 1)) h1
    obtain ⟨F, -, hF, hm⟩ := seq_meets (ho n) hx
    obtain ⟨j, hj⟩ := List.exists_mem_of_ne_nil _ hF
    obtain ⟨L', raw, v, e1, e2, hv, e3⟩ := hm j hj
    have hL' : L' = L := by
      rcases j with _ | j
      · simpa using e1.symm
      · simp at e1
    subst hL'
    rw [hraw n L'] at e2
    cases e2
    rw [List.mem_singleton] at hv
    subst hv
    rw [hx, hL e3]

end Verif.Samp
