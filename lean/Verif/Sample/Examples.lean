import Verif.Sample.LloydProps
import Verif.Sample.InitialProps
import Verif.Sample.GreedyProps
import Verif.Sample.LowRankProps

/-!
# The hypotheses of the theorems on designs are met
-/

namespace Verif.Samp

open Verif Verif.Domain Verif.Geo Matrix

variable {k m p : ℕ}

/-! ## Lloyd's method -/

theorem voronoi_finite (aug : List (Lip.Pt m × ℝ)) (L : Matrix (Fin k) (Fin m) ℝ) (A : List (Lip.Pt m)) : {v | IsVoronoiVertex aug L A v}.Finite := by
  have : {v | IsVoronoiVertex aug L A v} = ⋃ x ∈ A.toFinset, (cellSet aug L A x).extremePoints ℝ := by
    ext v
    simp [IsVoronoiVertex]
  rw [this]
  refine A.toFinset.finite_toSet.biUnion fun x _ => ?_
  rw [cellSet_poly]
  exact extreme_finite _

theorem lloydCenters_total {circ : Circumcenter m} (hc : ∀ pts, ∃ y, circ pts = .ok y) (L : Matrix (Fin k) (Fin m) ℝ) (A V : List (Lip.Pt m)) :
    ∀ (M : ℕ) (xs : List (Lip.Pt m)), xs.length = M → ∃ B, lloydCenters circ L A V M xs = .ok B ∧ B.length = M
  | 0, [], _ => ⟨[], rfl, rfl⟩
  | M + 1, x :: xs, h => by
    obtain ⟨y, hy⟩ := hc (cellOf L A V x)
    obtain ⟨B, hB, hl⟩ := lloydCenters_total hc L A V M xs (by simpa using h)
    exact ⟨y :: B, by rw [lloydCenters, hy]; simp only [hB], by simp [hl]⟩

/-- For every bounded polyhedron that is not empty there are solvers meeting the contracts of `lloyd_steps`, `lloyd_inside`, `lloyd_fill`,
`lloydStep_fill`, with which every call returns a design. -/
theorem lloyd_example (aug : List (Lip.Pt m × ℝ)) (hb : Bornology.IsBounded (domSet aug)) (hne : (domSet aug).Nonempty) (L : Matrix (Fin k) (Fin m) ℝ) :
    ∃ (vor : VorUpdate m) (circ : Circumcenter m), circ.Exact L (domSet aug) ∧ (∀ A, vor.Full aug L A) ∧
      ∀ (A V0 : List (Lip.Pt m)) xtol maxiter, ∃ R, minimaxLloyd (.error .assertion) vor circ L A.length xtol maxiter A V0 = .ok (R, R) := by
  have hcl : IsClosed (domSet aug) := by
    have : domSet aug = ⋂ r ∈ aug, {x | r.1 ⬝ᵥ x ≤ r.2} := by
      ext y; simp [domSet]
    rw [this]
    exact isClosed_biInter fun r _ => isClosed_le (by fun_prop) continuous_const
  obtain ⟨circ, h1, h2⟩ := exists_circ L (Metric.isCompact_of_isClosed_isBounded hcl hb) hne
  have hloop : ∀ (vor : VorUpdate m), (∀ A V0, ∃ V, vor A V0 = .ok V) → ∀ M xtol fuel (A V : List (Lip.Pt m)), A.length = M →
      ∃ R, lloydLoop vor circ L M xtol fuel A V = .ok R := by
    intro vor hv M xtol fuel
    induction fuel with
    | zero => exact fun A V _ => ⟨A, rfl⟩
    | succ fuel ih =>
      intro A V hA
      obtain ⟨V', hV'⟩ := hv A V
      obtain ⟨B, hB, hBl⟩ := lloydCenters_total h2 L A V' M A hA
      rw [lloydLoop, hV']
      simp only [hB]
      split
      · exact ⟨_, rfl⟩
      · exact ih B V' hBl
  refine ⟨fun A _ => .ok (voronoi_finite aug L A).toFinset.toList, circ, h1, fun A V0 V h v => ?_, fun A V0 xtol maxiter => ?_⟩
  · cases h; simp
  · obtain ⟨R, hR⟩ := hloop (fun A _ => .ok (voronoi_finite aug L A).toFinset.toList) (fun A V0 => ⟨_, rfl⟩) A.length xtol maxiter A V0 rfl
    exact ⟨R, by rw [minimaxLloyd]; simp only [hR]⟩

/-- The unit interval is such a polyhedron. -/
example : ∃ (vor : VorUpdate 1) (circ : Circumcenter 1) (R : List (Lip.Pt 1)), minimaxLloyd (.error .assertion) vor circ (1 : Matrix (Fin 1) (Fin 1) ℝ) 2
      (1 / 10 ^ 5) 50 [fun _ => 0, fun _ => 1] [] = .ok (R, R) ∧ R.length = 2 ∧ ∀ r ∈ R, 0 ≤ r 0 ∧ r 0 ≤ 1 := by
  have hd : ∀ x : Lip.Pt 1, x ∈ domSet [((fun _ => 1 : Lip.Pt 1), (1 : ℝ)), (fun _ => -1, 0)] ↔ 0 ≤ x 0 ∧ x 0 ≤ 1 := by
    intro x
    simp [domSet, dotProduct]
    tauto
  obtain ⟨vor, circ, h1, -, h3⟩ := lloyd_example [((fun _ => 1 : Lip.Pt 1), (1 : ℝ)), (fun _ => -1, 0)] (by
      refine (Metric.isBounded_closedBall (x := (0 : Lip.Pt 1)) (r := 1)).subset fun x hx => ?_
      rw [hd] at hx
      rw [mem_closedBall_zero_iff, pi_norm_le_iff_of_nonneg zero_le_one]
      intro i
      rw [Subsingleton.elim i 0, Real.norm_eq_abs, abs_le]
      constructor <;> linarith [hx.1, hx.2]) ⟨fun _ => 0, (hd _).2 (by norm_num)⟩ (1 : Matrix (Fin 1) (Fin 1) ℝ)
  obtain ⟨R, hR⟩ := h3 [fun _ => 0, fun _ => 1] [] (1 / 10 ^ 5) 50
  have := lloyd_inside h1 (A := [fun _ => 0, fun _ => 1]) rfl (by
    intro a ha
    rw [hd]
    simp at ha
    rcases ha with rfl | rfl <;> norm_num) hR
  exact ⟨vor, circ, R, hR, this.1, fun r hr => (hd r).1 (this.2 r hr)⟩

/-! ## Greedy designs -/

/-- `coffee_maximin_half` on the unit interval: the greedy design with two points starting at `0`. -/
example : ∃ X, coffeehouse (1 : Matrix (Fin 1) (Fin 1) ℝ) (fun X => (Geo.voronoi1d 0 1 (X.map (fun x => x 0))).map Geo.pt1) (Geo.pt1 0) 2 = .ok X ∧
    X.Pairwise (fun x x' => 1 / 2 ≤ Lip.ldist (1 : Matrix (Fin 1) (Fin 1) ℝ) x x') := by
  have hf := farthestCand_1d (1 : Matrix (Fin 1) (Fin 1) ℝ) (zero_le_one (α := ℝ))
  obtain ⟨X, hX⟩ := (coffee_ok_iff (1 : Matrix (Fin 1) (Fin 1) ℝ) (fun X => (Geo.voronoi1d 0 1 (X.map (fun x => x 0))).map Geo.pt1) (Geo.pt1 0) 2).2 (by
    intro n hn hn2 Y hY he
    have hne : Y ≠ [] := by
      intro h
      have := (coffee_length hn hY).1
      rw [h] at this
      simp at this
      omega
    obtain ⟨c, hc, -⟩ := (hf Y hne (coffee_inside hf (by simp [Geo.pt1]) hn hY)).2 (Geo.pt1 0) (by simp [Geo.pt1])
    have hc' : c ∈ (Geo.voronoi1d 0 1 (Y.map (fun x => x 0))).map Geo.pt1 := hc
    rw [he] at hc'
    cases hc')
  refine ⟨X, hX, ?_⟩
  refine coffee_maximin_half hf (by simp [Geo.pt1]) (le_refl _) hX (Y := [Geo.pt1 0, Geo.pt1 1]) rfl (by simp [Geo.pt1]) ?_
  simp [Lip.ldist, Lip.nrm, Geo.pt1, dotProduct]

/-! ## Low-rank metrics -/

/-- `lowRank_close`, `lowRank_metric_partial`, `lowRank_rows`: the metric `diag(2, 0)`. -/
example (x : Lip.Pt 2) : Lip.nrm ((lowRankL (Matrix.diagonal ![2, 0]) (⟨![2, 0], 1⟩ : Svd 2 2)).2 *ᵥ x) =
    Lip.nrm ((Matrix.diagonal ![2, 0] : Matrix (Fin 2) (Fin 2) ℝ) *ᵥ x) := by
  refine lowRank_metric_partial ⟨⟨1, by simp, by simp⟩, by simp, ?_, ?_⟩ (Fin.forall_fin_two.2 ⟨fun h => by norm_num [svTol] at h, fun _ => by simp⟩) x
  · intro i; fin_cases i <;> simp
  · intro i j hij; fin_cases i <;> fin_cases j <;> simp at hij ⊢

/-! ## Initial samples -/

theorem exists_cornerOf {S : Set (Lip.Pt m)} (hS : IsCompact S) (hne : S.Nonempty) : ∃ corner : Lip.Pt m → Except Err (Lip.Pt m), CornerOf S corner ∧
    ∀ v, ∃ x, corner v = .ok x := by
  have : ∀ v : Lip.Pt m, ∃ x ∈ S, ∀ z ∈ S, v ⬝ᵥ z ≤ v ⬝ᵥ x := fun v => by
    obtain ⟨x, hx, hm⟩ := hS.exists_isMaxOn hne (f := fun z => v ⬝ᵥ z) (by fun_prop)
    exact ⟨x, hx, fun z hz => hm hz⟩
  choose x h1 h2 using this
  exact ⟨fun v => .ok (x v), fun v y h => by cases h; exact ⟨h1 v, h2 v⟩, fun v => ⟨_, rfl⟩⟩

/-- A sampler of hulls: the first point, repeated. -/
theorem exists_hullSampler (p : ℕ) : ∃ hull : List (Lip.Pt p) → ℕ → Except Err (List (Lip.Pt p)), HullSampler hull ∧ ∀ pts n, pts ≠ [] → ∃ Y, hull pts n = .ok Y := by
  classical
  refine ⟨fun pts n => match pts with | [] => .error .valueError | q :: _ => .ok (List.replicate n q), ?_, ?_⟩
  · intro pts n Y h
    cases pts with
    | nil => cases h
    | cons q pts =>
      cases h
      refine ⟨by simp, fun y hy => ?_⟩
      rw [(List.mem_replicate.1 hy).2]
      have hz : ∀ l : List (Lip.Pt p), combo l (List.replicate l.length 0) = 0 := by
        intro l
        induction l with
        | nil => simp [combo]
        | cons a l ih => simpa [combo, List.replicate_succ] using ih
      refine ⟨1 :: List.replicate pts.length 0, ⟨by simp, ?_, by simp⟩, ?_⟩
      · intro a ha
        simp at ha
        rcases ha with rfl | ⟨-, rfl⟩ <;> norm_num
      · have := hz pts
        simp [combo] at this ⊢
        exact this
  · intro pts n h
    cases pts with
    | nil => exact absurd rfl h
    | cons q pts => exact ⟨_, rfl⟩

end Verif.Samp
