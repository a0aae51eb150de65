import Verif.Sample.PsoModel
import Verif.Sample.ClusterProps

/-!
# C95: `minimax_cluster_pso`
-/

namespace Verif.Samp

open Verif Verif.Domain Verif.Geo Matrix

variable {k m : ℕ}

/-! ## Specification -/

/-- Contract of `_align_vector` (C33 uses the same assignment solver): the second design in another order. -/
def Aligns (align : PDesign m → PDesign m → PDesign m) : Prop := ∀ A B, A.length = B.length → (align A B).Perm B

/-- The box with corners `lo` and `hi`. -/
def InBox (lo hi x : Lip.Pt m) : Prop := ∀ i, lo i ≤ x i ∧ x i ≤ hi i

/-- A design of `N` points in `S`. -/
def InSet (S : Lip.Pt m → Prop) (N : ℕ) (A : PDesign m) : Prop := A.length = N ∧ ∀ x ∈ A, S x

/-- The weights are nonnegative and do not vanish together, and the random point lies in `S`. -/
def GoodDraw (S : Lip.Pt m → Prop) (w : Weights) (d : Draw m) : Prop :=
  (∀ i, 0 ≤ w.a1 * d.u1 i ∧ 0 ≤ w.a2 * d.u2 i ∧ 0 ≤ w.a3 * d.u3 i ∧ 0 ≤ w.a4 * d.u4 i ∧ 0 < w.a1 * d.u1 i + w.a2 * d.u2 i + w.a3 * d.u3 i + w.a4 * d.u4 i) ∧ S d.z

/-- An operation whose inputs lie in `S`. -/
def GoodOp (S : Lip.Pt m → Prop) (w : Weights) (N : ℕ) : PsoOp m → Prop
  | .update _ centers draws => InSet S N centers ∧ draws.length = N ∧ ∀ d ∈ draws, GoodDraw S w d
  | .reset _ X => InSet S N X

/-- All designs of the state lie in `S`. -/
def GoodSwarm (S : Lip.Pt m → Prop) (N : ℕ) (s : Swarm m) : Prop := (∀ A ∈ s.cur, InSet S N A) ∧ (∀ B ∈ s.loc, InSet S N B.1) ∧ InSet S N s.glob.1

/-- The designs scored along a run. -/
noncomputable def scored (align : PDesign m → PDesign m → PDesign m) (w : Weights) (L : Matrix (Fin k) (Fin m) ℝ) (X : List (Lip.Pt m)) : List (PsoOp m) → Swarm m →
    List (PDesign m)
  | [], _ => []
  | o :: os, s =>
    match psoStep align w L X s o with
    | .error _ => []
    | .ok s' =>
      match o with
      | .update j _ _ => s'.cur.getD j [] :: scored align w L X os s'
      | .reset _ _ => scored align w L X os s'

/-! ## Inside -/

/-- One point stays in a box. -/
theorem psoMove_box {w : Weights} {d : Draw m} {lo hi p1 p2 p3 : Lip.Pt m} (hd : GoodDraw (InBox lo hi) w d) (h1 : InBox lo hi p1) (h2 : InBox lo hi p2)
    (h3 : InBox lo hi p3) : InBox lo hi (psoMove w d p1 p2 p3) := by
  intro i
  obtain ⟨hw, hz⟩ := hd
  obtain ⟨g1, g2, g3, g4, g5⟩ := hw i
  have hs : 0 < aSum w d i := g5
  have e : psoMove w d p1 p2 p3 i = (w.a1 * d.u1 i * p1 i + w.a2 * d.u2 i * p2 i + w.a3 * d.u3 i * p3 i + w.a4 * d.u4 i * d.z i) / aSum w d i := by
    rw [psoMove]; field_simp
  rw [e, le_div_iff₀ hs, div_le_iff₀ hs, aSum]
  obtain ⟨a1, b1⟩ := h1 i
  obtain ⟨a2, b2⟩ := h2 i
  obtain ⟨a3, b3⟩ := h3 i
  obtain ⟨a4, b4⟩ := hz i
  constructor
  · have := mul_le_mul_of_nonneg_left a1 g1
    have := mul_le_mul_of_nonneg_left a2 g2
    have := mul_le_mul_of_nonneg_left a3 g3
    have := mul_le_mul_of_nonneg_left a4 g4
    linarith
  · have := mul_le_mul_of_nonneg_left b1 g1
    have := mul_le_mul_of_nonneg_left b2 g2
    have := mul_le_mul_of_nonneg_left b3 g3
    have := mul_le_mul_of_nonneg_left b4 g4
    linarith

theorem psoDesign_box {w : Weights} {lo hi : Lip.Pt m} : ∀ {N : ℕ} {ds : List (Draw m)} {P1 P2 P3 : PDesign m}, ds.length = N → (∀ d ∈ ds, GoodDraw (InBox lo hi) w d) →
    InSet (InBox lo hi) N P1 → InSet (InBox lo hi) N P2 → InSet (InBox lo hi) N P3 → InSet (InBox lo hi) N (psoDesign w ds P1 P2 P3)
  | 0, ds, P1, P2, P3, hl, hd, h1, h2, h3 => by
    have := List.length_eq_zero_iff.1 hl
    subst this
    simp [psoDesign, InSet]
  | N + 1, ds, P1, P2, P3, hl, hd, h1, h2, h3 => by
    obtain ⟨d, ds, rfl⟩ := List.exists_cons_of_length_eq_add_one hl
    obtain ⟨p1, P1, rfl⟩ := List.exists_cons_of_length_eq_add_one h1.1
    obtain ⟨p2, P2, rfl⟩ := List.exists_cons_of_length_eq_add_one h2.1
    obtain ⟨p3, P3, rfl⟩ := List.exists_cons_of_length_eq_add_one h3.1
    obtain ⟨g1, g2⟩ := psoDesign_box (w := w) (N := N) (ds := ds) (by simpa using hl) (fun d hd' => hd d (by simp [hd']))
      (P1 := P1) (P2 := P2) (P3 := P3) ⟨by simpa using h1.1, fun x hx => h1.2 x (by simp [hx])⟩ ⟨by simpa using h2.1, fun x hx => h2.2 x (by simp [hx])⟩
      ⟨by simpa using h3.1, fun x hx => h3.2 x (by simp [hx])⟩
    refine ⟨by simp [psoDesign, g1], fun x hx => ?_⟩
    simp only [psoDesign, List.mem_cons] at hx
    rcases hx with rfl | hx
    · exact psoMove_box (hd d (by simp)) (h1.2 p1 (by simp)) (h2.2 p2 (by simp)) (h3.2 p3 (by simp))
    · exact g2 x hx

theorem keepBest_mem (d : ℝ) (A : PDesign m) (b : PDesign m × Option ℝ) : (keepBest d A b).1 = A ∨ (keepBest d A b).1 = b.1 := by
  obtain ⟨B, b⟩ := b
  cases b with
  | none => simp [keepBest]
  | some b => simp only [keepBest]; split_ifs <;> simp

theorem align_inSet {align : PDesign m → PDesign m → PDesign m} (ha : Aligns align) {S : Lip.Pt m → Prop} {N : ℕ} {A B : PDesign m} (hA : A.length = N) (hB : InSet S N B) :
    InSet S N (align A B) := by
  have := ha A B (hA.trans hB.1.symm)
  exact ⟨this.length_eq.trans hB.1, fun x hx => hB.2 x (this.mem_iff.1 hx)⟩

theorem psoStep_box {align : PDesign m → PDesign m → PDesign m} (ha : Aligns align) {w : Weights} {lo hi : Lip.Pt m} {L : Matrix (Fin k) (Fin m) ℝ} {X : List (Lip.Pt m)}
    {N : ℕ} {s s' : Swarm m} {o : PsoOp m} (hs : GoodSwarm (InBox lo hi) N s) (ho : GoodOp (InBox lo hi) w N o) (h : psoStep align w L X s o = .ok s') :
    GoodSwarm (InBox lo hi) N s' := by
  obtain ⟨h1, h2, h3⟩ := hs
  cases o with
  | update j centers draws =>
    obtain ⟨o1, o2, o3⟩ := ho
    simp only [psoStep] at h
    split at h
    · rename_i A B hA hB
      have hA' := h1 A (List.mem_of_getElem? hA)
      have hB' := h2 B (List.mem_of_getElem? hB)
      have hN := psoDesign_box o2 o3 (align_inSet ha hA'.1 o1) (align_inSet ha hA'.1 hB') (align_inSet ha hA'.1 h3)
      simp only [Except.ok.injEq] at h
      subst h
      refine ⟨fun C hC => ?_, fun C hC => ?_, ?_⟩
      · rcases List.mem_or_eq_of_mem_set hC with hC | rfl
        · exact h1 C hC
        · exact hN
      · rcases List.mem_or_eq_of_mem_set hC with hC | rfl
        · exact h2 C hC
        · rcases keepBest_mem (scoreOf L X (psoDesign w draws (align A centers) (align A B.1) (align A s.glob.1))) (psoDesign w draws (align A centers) (align A B.1) (align A s.glob.1)) B with e | e <;> rw [e]
          · exact hN
          · exact hB'
      · simp only
        rcases keepBest_mem (scoreOf L X (psoDesign w draws (align A centers) (align A B.1) (align A s.glob.1))) (psoDesign w draws (align A centers) (align A B.1) (align A s.glob.1)) s.glob with e | e <;> rw [e]
        · exact hN
        · exact h3
    · simp at h
  | reset j Y =>
    simp only [psoStep] at h
    split at h
    · simp only [Except.ok.injEq] at h
      subst h
      refine ⟨fun C hC => ?_, h2, h3⟩
      rcases List.mem_or_eq_of_mem_set hC with hC | rfl
      · exact h1 C hC
      · exact ho
    · simp at h

theorem psoRun_box {align : PDesign m → PDesign m → PDesign m} (ha : Aligns align) {w : Weights} {lo hi : Lip.Pt m} {L : Matrix (Fin k) (Fin m) ℝ} {X : List (Lip.Pt m)}
    {N : ℕ} : ∀ (ops : List (PsoOp m)) {s s' : Swarm m}, GoodSwarm (InBox lo hi) N s → (∀ o ∈ ops, GoodOp (InBox lo hi) w N o) → psoRun align w L X ops s = .ok s' →
    GoodSwarm (InBox lo hi) N s'
  | [], s, s', hs, _, h => by simp only [psoRun, Except.ok.injEq] at h; subst h; exact hs
  | o :: os, s, s', hs, ho, h => by
    simp only [psoRun] at h
    split at h
    · simp at h
    · rename_i s1 h1
      exact psoRun_box ha os (psoStep_box ha hs (ho o (by simp)) h1) (fun o' ho' => ho o' (by simp [ho'])) h

/-- C95, for boxes: the design returned has the right number of points and lies in the box, if the initial designs, the cluster centers and the random points do.
Missing: other convex domains, for which it is false (`pso_outside_false`). -/
theorem pso_inside_partial {align : PDesign m → PDesign m → PDesign m} (ha : Aligns align) {w : Weights} {lo hi : Lip.Pt m} {L : Matrix (Fin k) (Fin m) ℝ}
    {X : List (Lip.Pt m)} {N : ℕ} {ops : List (PsoOp m)} {X0 : PDesign m} {Xs : List (PDesign m)} (hX : ∀ A ∈ X0 :: Xs, InSet (InBox lo hi) N A)
    (ho : ∀ o ∈ ops, GoodOp (InBox lo hi) w N o) {R : PDesign m × Option ℝ} (h : minimaxPso align w L X ops X0 Xs = .ok R) : InSet (InBox lo hi) N R.1 := by
  rw [minimaxPso] at h
  split at h
  · simp at h
  · rename_i s hs
    simp only [Except.ok.injEq] at h
    subst h
    refine (psoRun_box ha ops ?_ ho hs).2.2
    refine ⟨hX, fun B hB => ?_, hX X0 (by simp)⟩
    obtain ⟨A, hA, rfl⟩ := List.mem_map.1 hB
    exact hX A hA

/-! ## The best design -/

theorem keepBest_score (L : Matrix (Fin k) (Fin m) ℝ) (X A : List (Lip.Pt m)) (best : List (Lip.Pt m) × Option ℝ) (hb : ∀ b, best.2 = some b → scoreOf L X best.1 = b) :
    ∀ b, (keepBest (scoreOf L X A) A best).2 = some b → scoreOf L X (keepBest (scoreOf L X A) A best).1 = b := by
  intro b h
  rw [(keepBest_spec L X A best hb).1] at h
  exact Option.some.inj h

theorem psoRun_best {align : PDesign m → PDesign m → PDesign m} {w : Weights} {L : Matrix (Fin k) (Fin m) ℝ} {X : List (Lip.Pt m)} : ∀ (ops : List (PsoOp m))
    {s s' : Swarm m}, (∀ b, s.glob.2 = some b → scoreOf L X s.glob.1 = b) → psoRun align w L X ops s = .ok s' →
    (∀ b, s'.glob.2 = some b → scoreOf L X s'.glob.1 = b) ∧ (s'.glob = s.glob ∨ (s'.glob.1 ∈ scored align w L X ops s ∧ s'.glob.2 ≠ none)) ∧
    (∀ A ∈ scored align w L X ops s, s'.glob.2 ≠ none ∧ scoreOf L X s'.glob.1 ≤ scoreOf L X A) ∧ (∀ b, s.glob.2 = some b → s'.glob.2 ≠ none ∧ scoreOf L X s'.glob.1 ≤ b)
  | [], s, s', hs, h => by
    simp only [psoRun, Except.ok.injEq] at h
    subst h
    refine ⟨hs, .inl rfl, by simp [scored], fun b hb => ⟨by simp [hb], (hs b hb).le⟩⟩
  | o :: os, s, s', hs, h => by
    simp only [psoRun] at h
    split at h
    · simp at h
    · rename_i s1 h1
      cases o with
      | update j centers draws =>
        have h1' := h1
        simp only [psoStep] at h1
        split at h1
        · rename_i A B hA hB
          simp only [Except.ok.injEq] at h1
          set N := psoDesign w draws (align A centers) (align A B.1) (align A s.glob.1) with hN
          obtain ⟨k1, k2, k3, k4⟩ := keepBest_spec L X N s.glob hs
          have hg : s1.glob = keepBest (scoreOf L X N) N s.glob := by rw [← h1]
          have hcur : s1.cur.getD j [] = N := by
            have hj : j < s.cur.length := (List.getElem?_eq_some_iff.1 hA).1
            rw [← h1]
            simp [List.getD_eq_getElem?_getD, hj]
          rw [← hg] at k1 k2 k3 k4
          obtain ⟨i1, i2, i3, i4⟩ := psoRun_best os (s := s1) (by rw [hg]; exact keepBest_score L X N s.glob hs) h
          have hsc : scored align w L X (.update j centers draws :: os) s = N :: scored align w L X os s1 := by
            simp only [scored, h1']
            rw [hcur]
          have i5 := i4 _ k1
          rw [hsc]
          refine ⟨i1, ?_, ?_, fun b hb => ⟨i5.1, i5.2.trans (k4 b hb)⟩⟩
          · rcases i2 with i2 | i2
            · rcases k2 with k2 | ⟨k2, k2'⟩
              · right
                refine ⟨by rw [i2, k2]; simp, i5.1⟩
              · rcases hb : s.glob.2 with _ | b
                · exact absurd hb k2
                · left
                  rw [i2]
                  refine Prod.ext k2' ?_
                  rw [k1, k2', hs b hb, hb]
            · right; exact ⟨by simp [i2.1], i2.2⟩
          · intro C hC
            rcases List.mem_cons.1 hC with rfl | hC
            · exact ⟨i5.1, i5.2.trans k3⟩
            · exact i3 C hC
        · simp at h1
      | reset j Y =>
        have h1' := h1
        simp only [psoStep] at h1
        split at h1
        · simp only [Except.ok.injEq] at h1
          have hg : s1.glob = s.glob := by rw [← h1]
          obtain ⟨i1, i2, i3, i4⟩ := psoRun_best os (s := s1) (by rw [hg]; exact hs) h
          have hsc : scored align w L X (.reset j Y :: os) s = scored align w L X os s1 := by
            simp only [scored, h1']
          rw [hsc]
          rw [hg] at i2 i4
          exact ⟨i1, i2, i3, i4⟩
        · simp at h1

/-- C95: as soon as one design has been scored, the result is a scored design together with its score, and no scored design has a smaller one. -/
theorem pso_best {align : PDesign m → PDesign m → PDesign m} {w : Weights} {L : Matrix (Fin k) (Fin m) ℝ} {X : List (Lip.Pt m)} {ops : List (PsoOp m)} {X0 : PDesign m}
    {Xs : List (PDesign m)} {R : PDesign m × Option ℝ} (h : minimaxPso align w L X ops X0 Xs = .ok R) (hne : scored align w L X ops (psoInit Xs X0) ≠ []) :
    R.1 ∈ scored align w L X ops (psoInit Xs X0) ∧ R.2 = some (scoreOf L X R.1) ∧ ∀ A ∈ scored align w L X ops (psoInit Xs X0), scoreOf L X R.1 ≤ scoreOf L X A := by
  rw [minimaxPso] at h
  split at h
  · simp at h
  · rename_i s hs
    simp only [Except.ok.injEq] at h
    subst h
    obtain ⟨h1, h2, h3, -⟩ := psoRun_best ops (s := psoInit Xs X0) (by simp [psoInit]) hs
    obtain ⟨A, hA⟩ := List.exists_mem_of_ne_nil _ hne
    have hn := (h3 A hA).1
    refine ⟨?_, ?_, fun A hA => (h3 A hA).2⟩
    · rcases h2 with h2 | h2
      · rw [h2] at hn; exact absurd rfl hn
      · exact h2.1
    · rcases hb : s.glob.2 with _ | b
      · exact absurd hb hn
      · rw [h1 b hb]

/-! ## Disagreements -/

/-- The triangle `x ≥ 0, y ≥ 0, x + y ≤ 1`. -/
def Triangle (x : Lip.Pt 2) : Prop := 0 ≤ x 0 ∧ 0 ≤ x 1 ∧ x 0 + x 1 ≤ 1

/-- C95: "taking convex combinations" does not keep the points in a convex domain, because the weights are drawn for every entry: with the default weights, a
cluster center `(1,0)` and best points `(0,1)` in the triangle there are draws in `[0,1)` that give `(1,1)`, which is returned. -/
theorem pso_outside_false {align : PDesign 2 → PDesign 2 → PDesign 2} (ha : Aligns align) (L : Matrix (Fin k) (Fin 2) ℝ) (X : List (Lip.Pt 2)) : ∃ d : Draw 2,
    GoodDraw Triangle ⟨10, 1, 1, 0⟩ d ∧ (∀ i, d.u1 i ∈ Set.Ico (0 : ℝ) 1 ∧ d.u2 i ∈ Set.Ico (0 : ℝ) 1 ∧ d.u3 i ∈ Set.Ico (0 : ℝ) 1 ∧ d.u4 i ∈ Set.Ico (0 : ℝ) 1) ∧
    Triangle ![1, 0] ∧ Triangle ![0, 1] ∧ ¬Triangle ![1, 1] ∧
    ∃ v, minimaxPso align ⟨10, 1, 1, 0⟩ L X [.update 0 [![1, 0]] [d]] [![0, 1]] [] = .ok ([![1, 1]], v) := by
  refine ⟨⟨![1 / 2, 0], ![0, 1 / 2], ![0, 0], ![0, 0], ![0, 0]⟩, ⟨?_, ?_⟩, ?_, ?_, ?_, ?_, some (scoreOf L X [![1, 1]]), ?_⟩
  · intro i; fin_cases i <;> norm_num
  · norm_num [Triangle]
  · intro i; fin_cases i <;> norm_num
  · norm_num [Triangle]
  · norm_num [Triangle]
  · norm_num [Triangle]
  · have al : ∀ a b : Lip.Pt 2, align [a] [b] = [b] := fun a b => List.perm_singleton.1 (ha [a] [b] rfl)
    have hm : psoMove ⟨10, 1, 1, 0⟩ ⟨![1 / 2, 0], ![0, 1 / 2], ![0, 0], ![0, 0], ![0, 0]⟩ ![1, 0] ![0, 1] ![0, 1] = ![1, 1] := by
      funext i; fin_cases i <;> norm_num [psoMove, aSum]
    simp only [minimaxPso, psoRun, psoStep, psoInit, List.map_cons, List.map_nil, List.getElem?_cons_zero, al, psoDesign, hm, keepBest]

theorem randomRest_spec : ∀ (cands : List (List (Lip.Pt m))) {X : PDesign m}, randomRest cands = .ok X → List.Forall₂ (fun c x => c[0]? = some x) cands X
  | [], X, h => by simp only [randomRest, Except.ok.injEq] at h; subst h; exact .nil
  | c :: cs, X, h => by
    simp only [randomRest] at h
    split at h
    · simp at h
    · rename_i x hx
      split at h
      · simp at h
      · rename_i Y hY
        simp only [Except.ok.injEq] at h
        subst h
        exact .cons hx (randomRest_spec cs hY)

/-- C95: the initial designs are not spread out: the first candidate is always taken, wherever the other candidates and the points chosen before are. -/
theorem randomInit_first {first : Lip.Pt m} {cands : List (List (Lip.Pt m))} {X : PDesign m} (h : randomInit first cands = .ok X) :
    ∃ Y, X = first :: Y ∧ List.Forall₂ (fun c x => c[0]? = some x) cands Y := by
  rw [randomInit] at h
  split at h
  · simp at h
  · rename_i Y hY
    simp only [Except.ok.injEq] at h
    exact ⟨Y, h.symm, randomRest_spec cands hY⟩

/-- The contract of the alignment can be met. -/
example : Aligns (m := m) fun _ B => B := fun _ _ _ => List.Perm.refl _

end Verif.Samp
