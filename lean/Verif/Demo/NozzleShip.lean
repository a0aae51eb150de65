import Verif.Demo.NozzleLayer

/-!
# Constraints of the shipped nozzle before and after cleaning up (C117, C118)
-/

namespace Verif.Demo

open Finset

/-- A row whose quantities are all fixed has no entries after elimination. -/
theorem elimRow_fixed (n : ℕ) (v : List ℕ) (k : Con) (h : ∀ q ∈ k.entries, v.getD q.1 0 = 0) (j : ℕ) : elimRow n v k.row j = 0 := by
  have hrow : ∀ es : List (ℕ × ℝ), ∀ r : ℕ → ℝ, ∀ i, i ∉ es.map Prod.fst → (es.foldl (fun r q => Function.update r q.1 q.2) r) i = r i := by
    intro es
    induction es with
    | nil => intro r i _; rfl
    | cons q es ih =>
      intro r i hi
      simp only [List.map_cons, List.mem_cons, not_or] at hi
      rw [List.foldl_cons, ih _ i hi.2, Function.update_of_ne hi.1]
  refine Finset.sum_eq_zero fun i _ => ?_
  split
  · rename_i hv
    refine hrow _ _ _ fun hm => ?_
    obtain ⟨q, hq, rfl⟩ := List.mem_map.1 hm
    rw [h q hq] at hv
    omega
  · rfl

/-- After cleaning up, a design is feasible if it satisfies the constraints that involve a variable; it satisfies every constraint whose row keeps an
entry. -/
theorem cleanup_eliminate {n : ℕ} {v : List ℕ} {x : List ℝ} {cons : List Con} {S T : LinSys} (hS : eliminate n v x cons = .ok S)
    (hT : cleanup [S] = .ok T) (p : ℕ → ℝ) :
    ((∀ k ∈ cons, (∃ q ∈ k.entries, v.getD q.1 0 ≠ 0) → k.Sat n (control v x p)) → T.Holds p) ∧
    (T.Holds p → ∀ k ∈ cons, (∃ j, j < maxVar v ∧ elimRow n v k.row j ≠ 0) → k.Sat n (control v x p)) := by
  rw [cleanup_iff hT]
  have hv : n ≤ v.length := ((eliminate_ok_iff n v x cons).1 ⟨S, hS⟩).2.1
  unfold eliminate at hS
  split at hS
  · cases hS
  split at hS
  · cases hS
  split at hS
  · cases hS
  injection hS with hS
  subst hS
  simp only [List.mem_singleton, forall_eq, List.forall_mem_map]
  constructor
  · rintro h k hk ⟨j, _, hj⟩
    rw [elim_row n v x k.row k.rhs p hv]
    refine h k hk ?_
    by_contra hn
    push Not at hn
    exact hj (elimRow_fixed n v k hn j)
  · intro h k hk hj
    exact (elim_row n v x k.row k.rhs p hv).1 (h k hk hj)

/-! ## Layers -/

/-- The thermal layer and the load layers of the shipped design domain with thickness `t`, `/repo/psdr/demos/_multif_domains3d.py` 69-72 and
171-174. -/
noncomputable def shippedLayer (t : ℝ) : Layer :=
  ⟨[0, 0.5, 1], [0, 90, 180, 270], List.replicate 12 t, [0, 1, 0, 0, 0, 0, 0, 2, 3, 4, 5, 6, 7, 8, 9, 10, 11, 12, 13], -0.2, 0.2, some 0, some 1, 0.15,
    some 60, some 0.01⟩

/-- The designs with constant thickness and the break in the middle. -/
noncomputable def flat (t : ℝ) (j : ℕ) : ℝ := if j = 0 then 0.5 else t

theorem flat_control (t : ℝ) : control (shippedLayer t).v ((shippedLayer t).x ++ (shippedLayer t).y ++ (shippedLayer t).z) (flat t) 0 = 0 ∧
    control (shippedLayer t).v ((shippedLayer t).x ++ (shippedLayer t).y ++ (shippedLayer t).z) (flat t) 1 = 0.5 ∧
    control (shippedLayer t).v ((shippedLayer t).x ++ (shippedLayer t).y ++ (shippedLayer t).z) (flat t) 2 = 1 ∧
    ∀ i < 3, ∀ j < 4, control (shippedLayer t).v ((shippedLayer t).x ++ (shippedLayer t).y ++ (shippedLayer t).z) (flat t) ((shippedLayer t).zi i j) = t := by
  refine ⟨by simp [control, shippedLayer], by simp [control, shippedLayer, flat], by simp [control, shippedLayer], ?_⟩
  intro i hi j hj
  have h1 : i = 0 ∨ i = 1 ∨ i = 2 := by omega
  have h2 : j = 0 ∨ j = 1 ∨ j = 2 ∨ j = 3 := by omega
  rcases h1 with rfl | rfl | rfl <;> rcases h2 with rfl | rfl | rfl | rfl <;>
    simp [control, shippedLayer, Layer.zi, flat]

/-- C118 where the code fails: no design satisfies the constraints of the shipped layers, whatever their thickness (the first angle, 0, is compared with
the last location, 1); only because cleaning up drops the violated rows the designs with constant thickness become feasible. -/
theorem shippedLayer_infeasible (t : ℝ) : ∃ S T, piecewiseBilinearAxial (shippedLayer t) = .ok S ∧ (∀ p, ¬ S.Holds p) ∧ cleanup [S] = .ok T ∧
    T.Holds (flat t) := by
  obtain ⟨S, hS⟩ := (layer_ok_iff (shippedLayer t) (by simp [shippedLayer]) (by simp [shippedLayer])).2
    ⟨by simp [shippedLayer], by simp [shippedLayer], by simp [shippedLayer, Layer.rowCount]⟩
  obtain ⟨T, hT⟩ := (cleanup_ok_iff [S]).2 (by simp)
  refine ⟨S, T, hS, fun p hp => ?_, hT, ?_⟩
  · have := ((layer_iff _ hS (by simp [shippedLayer]) (Or.inr (by simp [shippedLayer])) p).1 hp).2 60 rfl 0 (by simp [shippedLayer])
    simp [control, shippedLayer] at this
    norm_num at this
  · obtain ⟨hz, hv, ⟨i1, i2, i3, i4, i5⟩, -, he⟩ := layer_cons hS
    refine (cleanup_eliminate he hT _).1 ?_
    obtain ⟨w0, w1, w2, wz⟩ := flat_control t
    generalize hw : control (shippedLayer t).v ((shippedLayer t).x ++ (shippedLayer t).y ++ (shippedLayer t).z) (flat t) = w at w0 w1 w2 wz ⊢
    have hx : (shippedLayer t).x.length = 3 := rfl
    have hy : (shippedLayer t).y.length = 4 := rfl
    have hvl : (shippedLayer t).v.length = 19 := rfl
    intro k hk ⟨q, hq, hq0⟩
    simp only [List.mem_append] at hk
    rcases hk with (((hk | hk) | hk) | hk) | hk
    · have hd : (shippedLayer t).deltax = 0.15 := rfl
      simp only [Layer.crossX, List.mem_append] at hk
      rcases hk with (hk | hk) | hk
      · have : k = ⟨[(0, -1)], -(shippedLayer t).deltax - 0⟩ := by simpa [shippedLayer] using hk
        subst this
        rw [List.mem_singleton.1 hq] at hq0
        exact absurd rfl hq0
      · obtain ⟨i, hi, rfl⟩ := List.mem_map.1 hk
        rw [mem_rangeFrom] at hi
        have h12 : i = 1 ∨ i = 2 := by omega
        rcases h12 with rfl | rfl
        · rw [sat2 w _ _ _ (by omega) (by omega) (by omega)]
          simp only [Nat.sub_self, w0, w1, hd]; norm_num
        · rw [sat2 w _ _ _ (by omega) (by omega) (by omega)]
          simp only [Nat.add_one_sub_one, w1, w2, hd]; norm_num
      · have : k = ⟨[(2, 1)], 1 - (shippedLayer t).deltax⟩ := by simpa [shippedLayer] using hk
        subst this
        rw [List.mem_singleton.1 hq] at hq0
        exact absurd rfl hq0
    · have : k ∈ (rangeFrom 3 6).map fun i => (⟨[(i, -1), (i - 1, 1)], -60⟩ : Con) := hk
      obtain ⟨i, hi, rfl⟩ := List.mem_map.1 this
      rw [mem_rangeFrom] at hi
      have h3 : i = 3 ∨ i = 4 ∨ i = 5 := by omega
      exfalso
      rcases h3 with rfl | rfl | rfl <;> simp at hq <;> rcases hq with rfl | rfl <;> simp [shippedLayer] at hq0
    · refine (lo_iff _ w i3).2 ?_ k hk
      intro i h1 h2 j hj
      rw [wz i (by omega) j (by omega), wz (i - 1) (by omega) j (by omega)]
      have hd : (shippedLayer t).slopeMin = -0.2 := rfl
      have h12 : i = 1 ∨ i = 2 := by omega
      rcases h12 with rfl | rfl
      · simp only [Nat.sub_self, w0, w1, hd]; norm_num
      · simp only [Nat.add_one_sub_one, w1, w2, hd]; norm_num
    · refine (hi_iff _ w i4).2 ?_ k hk
      intro i h1 h2 j hj
      rw [wz i (by omega) j (by omega), wz (i - 1) (by omega) j (by omega)]
      have hd : (shippedLayer t).slopeMax = 0.2 := rfl
      have h12 : i = 1 ∨ i = 2 := by omega
      rcases h12 with rfl | rfl
      · simp only [Nat.sub_self, w0, w1, hd]; norm_num
      · simp only [Nat.add_one_sub_one, w1, w2, hd]; norm_num
    · refine (thick_iff _ w i5 (Or.inr (by omega)) (by rw [hvl, hx, hy])).2 ⟨?_, ?_⟩ k hk
      · intro d hd i hi
        have hd' : d = 0.01 := (Option.some.inj hd).symm
        rw [wz i (by omega) 0 (by omega), wz i (by omega) _ (by omega), sub_self, abs_zero, hd']; norm_num
      · intro d hd i hi j h1 h2
        have hd' : d = 0.01 := (Option.some.inj hd).symm
        rw [wz i (by omega) j (by omega), wz i (by omega) _ (by omega), sub_self, abs_zero, hd']; norm_num

/-! ## The centreline -/

/-- The baseline values of the variables of the centreline. -/
noncomputable def centerlineBase (j : ℕ) : ℝ := [0.575, 1.15, 1.7262, 0.12, 0.14, 0.17].getD j 0

/-- C117 where the code fails: the baseline of the shipped centreline is infeasible also after cleaning up; its height at the first variable control
point is 0.12, and the largest radius passed is 0.1. -/
theorem centerline_base_infeasible : ∃ S T, bspline centerline = .ok S ∧ cleanup [S] = .ok T ∧ ¬ T.Holds centerlineBase := by
  obtain ⟨S, hS⟩ := bspline_ok centerline rfl (by decide) (by decide) (Or.inl rfl) le_rfl trivial trivial trivial trivial
  obtain ⟨T, hT⟩ := (cleanup_ok_iff [S]).2 (by simp)
  refine ⟨S, T, hS, hT, fun h => ?_⟩
  unfold bspline at hS
  obtain ⟨cs, h1, h2⟩ := (nozBind_ok_iff _ _ _).1 hS
  have hmem : (⟨[(12, 1)], 0.1⟩ : Con) ∈ cs := by
    unfold Wall.cons at h1
    simp only [nozBind_ok_iff] at h1
    obtain ⟨r1, e1, r2, e2, r3, e3, r4, e4, l5, _, r5, e5, l6, _, r6, e6, l7, _, r7, e7, l8, _, e8⟩ := h1
    rw [(emit_ok e8).1, (emit_ok e7).1, (emit_ok e6).1, (emit_ok e5).1, (emit_ok e4).1]
    have : (⟨[(12, 1)], 0.1⟩ : Con) ∈ centerline.radii := by
      unfold Wall.radii
      refine List.mem_append_right _ (List.mem_map.2 ⟨12, mem_rangeFrom.2 ⟨by decide, by decide⟩, rfl⟩)
    simp [this]
  have := (cleanup_eliminate h2 hT _).2 h _ hmem ⟨3, by decide, ?_⟩
  · rw [sat1 _ _ _ (by decide)] at this
    norm_num [control, centerline, centerlineBase] at this
  · have hn : centerline.n = 18 := rfl
    unfold elimRow
    rw [hn, Finset.sum_eq_single 12]
    · simp [centerline, Con.row]
    · intro i hi hne
      split
      · simp [Con.row, Function.update_of_ne hne]
      · rfl
    · simp

end Verif.Demo
