import Verif.Misc.AngleProps
import Verif.Misc.ActiveModel
import Verif.Lipschitz.CoordModel

/-!
# Convergence studies

Source: `/repo/psdr/study.py` 1-57.
-/

namespace Verif.Misc

open Verif Verif.Domain Verif.Lip

variable {m : ℕ} {σ δ : Type}

/-- The subspace found depends on the samples of this fit only: `g X` are the columns found from the samples `X`. -/
def Fresh (E : StudyEnv σ δ m) (data : StudyData) (g : List (Pt m) → Except Err (List (Pt m))) : Prop :=
  ∀ s X, (do let s1 ← studyFit E data s X; let U ← E.getU s1; pure U.1) = g X

/-- The domain that is sampled. -/
def StudyDomain (E : StudyEnv σ δ m) (domain : Option δ) (dom : δ) : Prop := domain = some dom ∨ domain = none ∧ E.funDomain = .ok dom

theorem except_bind_ok {α β : Type} {x : Except Err α} {f : α → Except Err β} {b : β} (h : (Bind.bind x f) = .ok b) : ∃ a, x = .ok a ∧ f a = .ok b := by
  cases x with
  | error e => cases h
  | ok a => exact ⟨a, rfl, h⟩

/-- One round of the loop. -/
theorem studyLoop_cons {E : StudyEnv σ δ m} {data : StudyData} {dom : δ} {d i : ℕ} {s : σ} {N : ℕ} {Ns : List ℕ} {r : List (List (Pt m)) × List ℕ × σ}
    (h : studyLoop E data dom d i s (N :: Ns) = .ok r) : ∃ X s1 U q, E.sampler i dom N = .ok X ∧ studyFit E data s X = .ok s1 ∧ E.getU s1 = .ok U ∧
      studyLoop E data dom d (i + 1) U.2 Ns = .ok q ∧ r = (U.1.take d :: q.1, X.length :: q.2.1, q.2.2) := by
  unfold studyLoop at h
  obtain ⟨X, hX, h⟩ := except_bind_ok h
  obtain ⟨s1, hs1, h⟩ := except_bind_ok h
  obtain ⟨U, hU, h⟩ := except_bind_ok h
  obtain ⟨q, hq, h⟩ := except_bind_ok h
  refine ⟨X, s1, U, q, hX, hs1, hU, hq, ?_⟩
  cases h
  rfl

/-- What the loop returns. -/
theorem studyLoop_spec (E : StudyEnv σ δ m) (data : StudyData) (dom : δ) (d : ℕ) (Ns : List ℕ) : ∀ (i : ℕ) (s : σ) (r : List (List (Pt m)) × List ℕ × σ),
    studyLoop E data dom d i s Ns = .ok r → r.1.length = Ns.length ∧ r.2.1.length = Ns.length ∧
      ∀ k N, Ns[k]? = some N → ∃ X, E.sampler (i + k) dom N = .ok X ∧ r.2.1[k]? = some X.length ∧
        ∃ s0 s1 U, studyFit E data s0 X = .ok s1 ∧ E.getU s1 = .ok U ∧ r.1[k]? = some (U.1.take d) := by
  induction Ns with
  | nil =>
    intro i s r h
    cases h
    exact ⟨rfl, rfl, fun k N hk => by simp at hk⟩
  | cons N Ns ih =>
    intro i s r h
    obtain ⟨X, s1, U, q, hX, hs1, hU, hq, rfl⟩ := studyLoop_cons h
    obtain ⟨l1, l2, hk⟩ := ih (i + 1) U.2 q hq
    refine ⟨by simp [l1], by simp [l2], ?_⟩
    intro k N' hN
    cases k with
    | zero =>
      simp only [List.getElem?_cons_zero, Option.some.injEq] at hN
      subst hN
      exact ⟨X, hX, rfl, s, s1, U, hs1, hU, rfl⟩
    | succ k =>
      obtain ⟨X', hX', hM, rest⟩ := hk k N' (by simpa using hN)
      exact ⟨X', by rw [← hX']; congr 1; omega, by simpa using hM, by simpa using rest⟩

/-- What the list of angles holds. -/
theorem studyAngles_spec (E : StudyEnv σ δ m) : ∀ (Us : List (List (Pt m))) (a : List ℝ), studyAngles E Us = .ok a →
    a.length = Us.length - 1 ∧ ∀ k U V, Us[k]? = some U → Us[k + 1]? = some V → ∃ θ, a[k]? = some θ ∧ E.ang U V = .ok θ
  | [], a, h => by
    cases h
    exact ⟨rfl, fun k U V hU => by simp at hU⟩
  | [U], a, h => by
    cases h
    exact ⟨rfl, fun k U V _ hV => by simp at hV⟩
  | U :: V :: r, a, h => by
    unfold studyAngles at h
    obtain ⟨θ, hθ, h⟩ := except_bind_ok h
    obtain ⟨t, ht, h⟩ := except_bind_ok h
    cases h
    obtain ⟨l, hk⟩ := studyAngles_spec E (V :: r) t ht
    refine ⟨by simp [l], ?_⟩
    intro k U' V' hU hV
    cases k with
    | zero =>
      simp only [List.getElem?_cons_zero, Option.some.injEq, zero_add, List.getElem?_cons_succ] at hU hV
      subst hU hV
      exact ⟨θ, rfl, hθ⟩
    | succ k =>
      obtain ⟨θ', h1, h2⟩ := hk k U' V' (by simpa using hU) (by simpa using hV)
      exact ⟨θ', by simpa using h1, h2⟩

theorem study_parts {E : StudyEnv σ δ m} {s : σ} {Ns : List ℕ} {domain : Option δ} {data : StudyData} {d : ℕ} {angles : List ℝ} {Ms : List ℕ}
    (h : subspaceConvergence E s Ns domain data d = .ok (angles, Ms)) : ∃ dom r a, StudyDomain E domain dom ∧ data ≠ .other ∧
      studyLoop E data dom d 0 s Ns = .ok r ∧ studyAngles E r.1 = .ok a ∧ angles = Real.pi / 2 :: a ∧ Ms = r.2.1 := by
  unfold subspaceConvergence at h
  obtain ⟨dom, hd, h⟩ := except_bind_ok h
  unfold studyOn at h
  by_cases ho : data = .other
  · rw [if_pos ho] at h
    cases h
  rw [if_neg ho] at h
  obtain ⟨r, hr, h⟩ := except_bind_ok h
  obtain ⟨a, ha, h⟩ := except_bind_ok h
  cases h
  refine ⟨dom, r, a, ?_, ho, hr, ha, rfl, rfl⟩
  cases domain with
  | none => exact Or.inr ⟨rfl, hd⟩
  | some D =>
    cases hd
    exact Or.inl rfl

/-- **C124** Sizes: with at least one number of samples there is one angle and one number of points for each; the first angle is `π/2`; the numbers
of points are those the sampler returned. -/
theorem study_sizes_partial {E : StudyEnv σ δ m} {s : σ} {Ns : List ℕ} {domain : Option δ} {data : StudyData} {d : ℕ} {angles : List ℝ} {Ms : List ℕ}
    (h : subspaceConvergence E s Ns domain data d = .ok (angles, Ms)) (hne : Ns ≠ []) :
    angles.length = Ns.length ∧ Ms.length = Ns.length ∧ angles.head? = some (Real.pi / 2) ∧
      ∃ dom, StudyDomain E domain dom ∧ ∀ k N, Ns[k]? = some N → ∃ X, E.sampler k dom N = .ok X ∧ Ms[k]? = some X.length := by
  obtain ⟨dom, r, a, hd, -, hr, ha, rfl, rfl⟩ := study_parts h
  obtain ⟨l1, l2, hk⟩ := studyLoop_spec E data dom d Ns 0 s r hr
  obtain ⟨l3, -⟩ := studyAngles_spec E _ _ ha
  have hpos : 0 < Ns.length := List.length_pos_iff.mpr hne
  refine ⟨by simp only [List.length_cons]; omega, l2, rfl, dom, hd, ?_⟩
  intro k N hN
  obtain ⟨X, hX, hM, -⟩ := hk k N hN
  exact ⟨X, by simpa using hX, hM⟩

/-- **C124** fails without any number of samples: there is one angle for no subspace at all. -/
theorem study_empty_false (E : StudyEnv σ δ m) (s : σ) (D : δ) (data : StudyData) (hd : data ≠ .other) (d : ℕ) :
    subspaceConvergence E s [] (some D) data d = .ok ([Real.pi / 2], []) := by
  change studyOn E s [] data d D = _
  unfold studyOn
  rw [if_neg hd]
  rfl

/-- **C124** A kind of data other than `'eval'` and `'grad'` is refused before anything is sampled. -/
theorem study_data_error (E : StudyEnv σ δ m) (s : σ) (Ns : List ℕ) (D : δ) (d : ℕ) :
    subspaceConvergence E s Ns (some D) .other d = .error .assertion := by
  change studyOn E s Ns .other d D = _
  unfold studyOn
  rw [if_pos rfl]

/-- **C124** The angles: if a fit depends on its own data only, then entry `k + 1` is an angle `θ` in `[0, π/2]` between the subspaces found in rounds `k` and
`k + 1`. It is zero exactly if one of them contains the other one, `π/2` exactly if a unit vector of the one with the smaller dimension is orthogonal
to the other one. -/
theorem study_angles {E : StudyEnv σ δ m} (hang : AngSpec E.ang) {s : σ} {Ns : List ℕ} {domain : Option δ} {data : StudyData} {d : ℕ} {angles : List ℝ}
    {Ms : List ℕ} {g : List (Pt m) → Except Err (List (Pt m))} (hg : Fresh E data g)
    (h : subspaceConvergence E s Ns domain data d = .ok (angles, Ms)) (k N N' : ℕ) (hN : Ns[k]? = some N) (hN' : Ns[k + 1]? = some N') :
    ∃ dom X X' U U' θ, StudyDomain E domain dom ∧ E.sampler k dom N = .ok X ∧ E.sampler (k + 1) dom N' = .ok X' ∧ g X = .ok U ∧ g X' = .ok U' ∧
      angles[k + 1]? = some θ ∧ 0 ≤ θ ∧ θ ≤ Real.pi / 2 ∧
      (θ = 0 ↔ colSpan (U.take d) ≤ colSpan (U'.take d) ∨ colSpan (U'.take d) ≤ colSpan (U.take d)) ∧
      (Module.finrank ℝ (colSpan (U.take d)) ≤ Module.finrank ℝ (colSpan (U'.take d)) →
        (θ = Real.pi / 2 ↔ ∃ x ∈ colSpan (U.take d), ‖x‖ = 1 ∧ ∀ y ∈ colSpan (U'.take d), inner ℝ x y = 0)) := by
  obtain ⟨dom, r, a, hd, -, hr, ha, rfl, rfl⟩ := study_parts h
  obtain ⟨l1, l2, hk⟩ := studyLoop_spec E data dom d Ns 0 s r hr
  obtain ⟨l3, hka⟩ := studyAngles_spec E _ _ ha
  obtain ⟨X, hX, -, s0, s1, U, hf, hU, hr1⟩ := hk k N hN
  obtain ⟨X', hX', -, s0', s1', U', hf', hU', hr1'⟩ := hk (k + 1) N' hN'
  obtain ⟨θ, hθ, hA⟩ := hka k _ _ hr1 hr1'
  have hgX : g X = .ok U.1 := by
    rw [← hg s0 X, hf]
    change (Bind.bind (E.getU s1) _) = _
    rw [hU]
    rfl
  have hgX' : g X' = .ok U'.1 := by
    rw [← hg s0' X', hf']
    change (Bind.bind (E.getU s1') _) = _
    rw [hU']
    rfl
  obtain ⟨hbot, hok⟩ := hang (U.1.take d) (U'.1.take d)
  have hS : colSpan (U.1.take d) ≠ ⊥ := by
    intro hb
    rw [hbot (Or.inl hb)] at hA
    cases hA
  have hT : colSpan (U'.1.take d) ≠ ⊥ := by
    intro hb
    rw [hbot (Or.inr hb)] at hA
    cases hA
  obtain ⟨θ', h1, h0, h2, hc⟩ := hok hS hT
  rw [hA] at h1
  cases h1
  refine ⟨dom, X, X', U.1, U'.1, θ, hd, by simpa using hX, by simpa using hX', hgX, hgX', by simpa using hθ, h0, h2, ?_, ?_⟩
  · rw [← principalCos_eq_one_iff hS hT, ← hc]
    constructor
    · rintro rfl
      exact Real.cos_zero
    · intro h1
      have hpi := Real.pi_pos
      exact (Real.cos_eq_one_iff_of_lt_of_lt (by linarith) (by linarith)).mp h1
  · intro hdim
    rw [← minCos_eq_zero_iff hS]
    have : principalCos (colSpan (U.1.take d)) (colSpan (U'.1.take d)) = minCos (colSpan (U.1.take d)) (colSpan (U'.1.take d)) := if_pos hdim
    rw [← this, ← hc]
    constructor
    · rintro rfl
      exact Real.cos_pi_div_two
    · intro hc0
      by_contra hne
      have hpi := Real.pi_pos
      have := Real.cos_pos_of_mem_Ioo (x := θ) ⟨by linarith, lt_of_le_of_ne h2 hne⟩
      linarith

/-- **C124** The study succeeds exactly if every call of the sampler and every fit succeeds and, with two or more rounds, every subspace found is not
zero. -/
theorem study_ok_iff {E : StudyEnv σ δ m} (hang : AngSpec E.ang) (s : σ) (Ns : List ℕ) (D : δ) {data : StudyData} (hdata : data ≠ .other) (d : ℕ)
    {g : List (Pt m) → Except Err (List (Pt m))} (hg : Fresh E data g) :
    (∃ r, subspaceConvergence E s Ns (some D) data d = .ok r) ↔
      ∀ k N, Ns[k]? = some N → ∃ X U, E.sampler k D N = .ok X ∧ g X = .ok U ∧ (2 ≤ Ns.length → colSpan (U.take d) ≠ ⊥) := by
  constructor
  · rintro ⟨⟨angles, Ms⟩, h⟩ k N hN
    obtain ⟨dom, r, a, hd, -, hr, ha, rfl, rfl⟩ := study_parts h
    have hdom : D = dom := by
      rcases hd with hd | ⟨hd, -⟩ <;> cases hd
      rfl
    subst hdom
    obtain ⟨l1, l2, hk⟩ := studyLoop_spec E data D d Ns 0 s r hr
    obtain ⟨l3, hka⟩ := studyAngles_spec E _ _ ha
    obtain ⟨X, hX, -, s0, s1, U, hf, hU, hr1⟩ := hk k N hN
    have hgX : g X = .ok U.1 := by
      rw [← hg s0 X, hf]
      change (Bind.bind (E.getU s1) _) = _
      rw [hU]
      rfl
    refine ⟨X, U.1, by simpa using hX, hgX, fun h2 hb => ?_⟩
    have hkl : k < Ns.length := (List.getElem?_eq_some_iff.mp hN).1
    rcases Nat.lt_or_ge (k + 1) Ns.length with hlt | hge
    · obtain ⟨V, hV⟩ : ∃ V, r.1[k + 1]? = some V := ⟨_, List.getElem?_eq_getElem (by omega)⟩
      obtain ⟨θ, -, hA⟩ := hka k _ _ hr1 hV
      rw [(hang _ _).1 (Or.inl hb)] at hA
      cases hA
    · obtain ⟨j, rfl⟩ : ∃ j, k = j + 1 := ⟨k - 1, by omega⟩
      obtain ⟨V, hV⟩ : ∃ V, r.1[j]? = some V := ⟨_, List.getElem?_eq_getElem (by omega)⟩
      obtain ⟨θ, -, hA⟩ := hka j _ _ hV hr1
      rw [(hang _ _).1 (Or.inr hb)] at hA
      cases hA
  · intro hall
    -- the loop succeeds
    have hloop : ∀ (L : List ℕ) (i : ℕ) (t : σ), (∀ k N, L[k]? = some N → ∃ X U, E.sampler (i + k) D N = .ok X ∧ g X = .ok U ∧
        (2 ≤ Ns.length → colSpan (U.take d) ≠ ⊥)) → ∃ r, studyLoop E data D d i t L = .ok r ∧ r.1.length = L.length ∧
          (2 ≤ Ns.length → ∀ A ∈ r.1, colSpan A ≠ ⊥) := by
      intro L
      induction L with
      | nil => exact fun i t _ => ⟨_, rfl, rfl, fun _ A hA => by simp at hA⟩
      | cons N L ih =>
        intro i t hL
        obtain ⟨X, U, hX, hgX, hU⟩ := hL 0 N rfl
        rw [← hg t X] at hgX
        obtain ⟨s1, hs1, hgX⟩ := except_bind_ok hgX
        obtain ⟨W, hW, hgX⟩ := except_bind_ok hgX
        cases hgX
        obtain ⟨r, hr, hl, hb⟩ := ih (i + 1) W.2 (fun k N' hN' => by
          have := hL (k + 1) N' (by simpa using hN')
          rwa [show i + (k + 1) = i + 1 + k by ring] at this)
        refine ⟨(W.1.take d :: r.1, X.length :: r.2.1, r.2.2), ?_, by simp [hl], ?_⟩
        · unfold studyLoop
          rw [show E.sampler i D N = .ok X from hX]
          change (Bind.bind (studyFit E data t X) _) = _
          rw [hs1]
          change (Bind.bind (E.getU s1) _) = _
          rw [hW]
          change (Bind.bind (studyLoop E data D d (i + 1) W.2 L) _) = _
          rw [hr]
          rfl
        · intro h2 A hA
          simp only [List.mem_cons] at hA
          rcases hA with rfl | hA
          · exact hU h2
          · exact hb h2 A hA
    obtain ⟨r, hr, hl, hb⟩ := hloop Ns 0 s (fun k N hN => by
      obtain ⟨X, U, h1, h2, h3⟩ := hall k N hN
      exact ⟨X, U, by simpa using h1, h2, h3⟩)
    have hangles : ∀ Us : List (List (Pt m)), (2 ≤ Us.length → ∀ A ∈ Us, colSpan A ≠ ⊥) → ∃ a, studyAngles E Us = .ok a := by
      intro Us
      induction Us with
      | nil => exact fun _ => ⟨_, rfl⟩
      | cons U r ih =>
        intro hU
        cases r with
        | nil => exact ⟨_, rfl⟩
        | cons V r =>
          have hall := hU (by simp)
          obtain ⟨θ, hθ, -⟩ := (hang U V).2 (hall U (by simp)) (hall V (by simp))
          obtain ⟨t, ht⟩ := ih (fun _ A hA => hall A (by simp [hA]))
          refine ⟨θ :: t, ?_⟩
          unfold studyAngles
          rw [hθ]
          change (Bind.bind (studyAngles E (V :: r)) _) = _
          rw [ht]
          rfl
    obtain ⟨a, ha⟩ := hangles r.1 (fun h2 => hb (by omega))
    refine ⟨(Real.pi / 2 :: a, r.2.1), ?_⟩
    change studyOn E s Ns data d D = _
    unfold studyOn
    rw [if_neg hdata]
    change (Bind.bind (studyLoop E data D d 0 s Ns) _) = _
    rw [hr]
    change (Bind.bind (studyAngles E r.1) _) = _
    rw [ha]
    rfl

/-- The loop depends on the object through its fits and its subspace only. -/
theorem studyLoop_congr (E E' : StudyEnv σ δ m) (data : StudyData) (hs : E'.sampler = E.sampler) (hU : E'.getU = E.getU)
    (hf : ∀ s X, studyFit E' data s X = studyFit E data s X) (dom : δ) (d : ℕ) (Ns : List ℕ) :
    ∀ i s, studyLoop E' data dom d i s Ns = studyLoop E data dom d i s Ns := by
  induction Ns with
  | nil => exact fun i s => rfl
  | cons N Ns ih =>
    intro i s
    simp only [studyLoop, hs, hU, hf, ih]

theorem studyAngles_congr (E E' : StudyEnv σ δ m) (ha : E'.ang = E.ang) (Us : List (List (Pt m))) : studyAngles E' Us = studyAngles E Us := by
  induction Us with
  | nil => rfl
  | cons U r ih =>
    cases r with
    | nil => rfl
    | cons V r => simp only [studyAngles, ha] at ih ⊢; rw [ih]

/-- **C124** With `data = 'eval'` only evaluations are used: the gradients of the function, and what the object does with gradients, are irrelevant (the
function need not have any). -/
theorem study_eval_only (E : StudyEnv σ δ m) (gr : List (Pt m) → Except Err (List (Pt m))) (fg : σ → List (Pt m) → Except Err σ) (s : σ) (Ns : List ℕ)
    (domain : Option δ) (d : ℕ) :
    subspaceConvergence { E with grad := gr, fitGrad := fg } s Ns domain .eval d = subspaceConvergence E s Ns domain .eval d := by
  unfold subspaceConvergence
  change (studyDomain E domain).bind _ = _
  congr 1
  funext dom
  unfold studyOn
  rw [studyLoop_congr E { E with grad := gr, fitGrad := fg } .eval rfl rfl (fun _ _ => rfl)]
  simp only [studyAngles_congr E { E with grad := gr, fitGrad := fg } rfl]

/-- **C124** With `data = 'grad'` only gradients are used. -/
theorem study_grad_only (E : StudyEnv σ δ m) (ev : List (Pt m) → Except Err (List ℝ)) (fe : σ → List (Pt m) → List ℝ → Except Err σ) (s : σ) (Ns : List ℕ)
    (domain : Option δ) (d : ℕ) :
    subspaceConvergence { E with eval := ev, fitEval := fe } s Ns domain .grad d = subspaceConvergence E s Ns domain .grad d := by
  unfold subspaceConvergence
  change (studyDomain E domain).bind _ = _
  congr 1
  funext dom
  unfold studyOn
  rw [studyLoop_congr E { E with eval := ev, fitEval := fe } .grad rfl rfl (fun _ _ => rfl)]
  simp only [studyAngles_congr E { E with eval := ev, fitEval := fe } rfl]

/-! ### The active subspace -/

/-- The columns of a matrix. -/
def colList {p : ℕ} (U : Matrix (Fin m) (Fin p) ℝ) : List (Pt m) := List.ofFn fun j i => U i j

/-- A study with `psdr.ActiveSubspace()` and gradients. -/
noncomputable def asEnv (svd : SvdFn m) (E : StudyEnv (Option (ASState m)) δ m) : StudyEnv (Option (ASState m)) δ m :=
  { E with
    fitGrad := fun _ g => (asFit svd g none).map some
    getU := fun s => match s with
      | none => .error .attributeError
      | some r => .ok (colList r.U, s) }

/-- A fit of the active subspace depends on its own data only, so `study_angles` and `study_ok_iff` apply. -/
theorem as_fresh (svd : SvdFn m) (E : StudyEnv (Option (ASState m)) δ m) :
    Fresh (asEnv svd E) .grad (fun X => do let g ← E.grad X; (asFit svd g none).map fun r => colList r.U) := by
  intro s X
  change (Bind.bind (Bind.bind (E.grad X) _) _) = Bind.bind (E.grad X) _
  cases E.grad X with
  | error e => rfl
  | ok g =>
    change (Bind.bind ((asFit svd g none).map some) _) = (asFit svd g none).map _
    cases asFit svd g none with
    | error e => rfl
    | ok r => rfl

/-! ### Coordinate based reduction -/

/-- The exceptions of a fit of a Lipschitz matrix. -/
def ofLErr : LErr → Err := fun _ => .valueError

/-- A study with `psdr.DiagonalLipschitzMatrix()`. -/
noncomputable def diagEnv (sort : Argsort m) (method : Method) (build : Build m) (eps : Option ℝ) (E : StudyEnv (DiagObj m) δ m) : StudyEnv (DiagObj m) δ m :=
  { E with
    fitEval := fun s X fX => match diagStep sort method build eps s (.fit (some X) (some fX) none) with
      | (_, .fitError e) => .error (ofLErr e)
      | (s1, _) => .ok s1
    fitGrad := fun s g => match diagStep sort method build eps s (.fit none none (some g)) with
      | (_, .fitError e) => .error (ofLErr e)
      | (s1, _) => .ok s1
    getU := fun s => match diagStep sort method build eps s .getU with
      | (s1, .mat U) => .ok (colList U, s1)
      | _ => .error .attributeError }

theorem diag_fit_U {sort : Argsort m} {method : Method} {build : Build m} {eps : Option ℝ} {E : StudyEnv (DiagObj m) δ m} {data : StudyData} {s s1 : DiagObj m}
    {X : List (Pt m)} (h : studyFit (diagEnv sort method build eps E) data s X = .ok s1) : s1.U = s.U := by
  have hstep : ∀ a b c (q : DiagObj m), (match diagStep sort method build eps s (.fit a b c) with
      | (_, .fitError e) => (.error (ofLErr e) : Except Err (DiagObj m))
      | (s1, _) => .ok s1) = .ok q → q.U = s.U := by
    intro a b c q hq
    simp only [diagStep] at hq
    cases hd : diagFit method build eps a b c with
    | error e => simp [hd] at hq
    | ok r =>
      simp only [hd] at hq
      cases hq
      rfl
  cases data with
  | eval =>
    obtain ⟨fX, -, h⟩ := except_bind_ok h
    exact hstep _ _ _ _ h
  | grad =>
    obtain ⟨g, -, h⟩ := except_bind_ok h
    exact hstep _ _ _ _ h
  | other =>
    cases h
    rfl

/-- After the first access every later answer is the same matrix. -/
theorem diag_loop_same {sort : Argsort m} {method : Method} {build : Build m} {eps : Option ℝ} {E : StudyEnv (DiagObj m) δ m} {data : StudyData} {dom : δ} {d : ℕ}
    (Ns : List ℕ) : ∀ (i : ℕ) (s : DiagObj m) (r : List (List (Pt m)) × List ℕ × DiagObj m) (U : Matrix (Fin m) (Fin m) ℝ), s.U = some U →
      studyLoop (diagEnv sort method build eps E) data dom d i s Ns = .ok r → ∀ A ∈ r.1, A = (colList U).take d := by
  induction Ns with
  | nil =>
    intro i s r U hU h
    cases h
    intro A hA
    simp at hA
  | cons N Ns ih =>
    intro i s r U hU h
    obtain ⟨X, s1, W, q, hX, hs1, hW, hq, rfl⟩ := studyLoop_cons h
    have h1 : s1.U = some U := (diag_fit_U hs1).trans hU
    have hW' : W = (colList U, s1) := by
      simp only [diagEnv, diagStep, h1] at hW
      exact (Except.ok.inj hW).symm
    subst hW'
    intro A hA
    simp only [List.mem_cons] at hA
    rcases hA with rfl | hA
    · rfl
    · exact ih (i + 1) s1 q U h1 hq A hA

/-- **C124** fails for `DiagonalLipschitzMatrix`: its `U` is computed once and kept, so the study reports perfect convergence (all angles after the first are
zero) whatever the samples, the function and the solver are. -/
theorem study_coord_false (sort : Argsort m) (method : Method) (build : Build m) (eps : Option ℝ) (E : StudyEnv (DiagObj m) δ m) (hang : AngSpec E.ang)
    {s : DiagObj m} {Ns : List ℕ} {domain : Option δ} {data : StudyData} {d : ℕ} {angles : List ℝ} {Ms : List ℕ}
    (h : subspaceConvergence (diagEnv sort method build eps E) s Ns domain data d = .ok (angles, Ms)) : ∀ θ ∈ angles.tail, θ = 0 := by
  obtain ⟨dom, r, a, hd, -, hr, ha, rfl, rfl⟩ := study_parts h
  -- all matrices agree
  have hsame : ∃ A, ∀ B ∈ r.1, B = A := by
    cases Ns with
    | nil =>
      cases hr
      exact ⟨[], fun B hB => by simp at hB⟩
    | cons N Ns =>
      obtain ⟨X, s1, W, q, hX, hs1, hW, hq, rfl⟩ := studyLoop_cons hr
      have hW2 : ∃ U, W.2.U = some U ∧ W.1 = colList U := by
        cases hU : s1.U with
        | some U =>
          simp only [diagEnv, diagStep, hU] at hW
          cases hW
          exact ⟨U, hU, rfl⟩
        | none =>
          cases hsc : s1.score with
          | none => simp [diagEnv, diagStep, hU, hsc] at hW
          | some v =>
            simp only [diagEnv, diagStep, hU, hsc] at hW
            cases hW
            exact ⟨_, rfl, rfl⟩
      obtain ⟨U, hU, hW1⟩ := hW2
      refine ⟨(colList U).take d, fun B hB => ?_⟩
      simp only [List.mem_cons] at hB
      rcases hB with rfl | hB
      · rw [hW1]
      · exact diag_loop_same Ns 1 W.2 q U hU hq B hB
  obtain ⟨A, hA⟩ := hsame
  have hz : ∀ θ, E.ang A A = .ok θ → θ = 0 := by
    intro θ hθ
    by_cases hb : colSpan A = ⊥
    · rw [(hang A A).1 (Or.inl hb)] at hθ
      cases hθ
    · obtain ⟨θ', h1, h0, h2, hc⟩ := (hang A A).2 hb hb
      rw [hθ] at h1
      cases h1
      rw [(principalCos_eq_one_iff hb hb).mpr (Or.inl le_rfl)] at hc
      have hpi := Real.pi_pos
      exact (Real.cos_eq_one_iff_of_lt_of_lt (by linarith) (by linarith)).mp hc
  obtain ⟨l3, hka⟩ := studyAngles_spec _ _ _ ha
  intro θ hθ
  simp only [List.tail_cons] at hθ
  obtain ⟨k, hk, rfl⟩ := List.getElem_of_mem hθ
  have e1 : r.1[k]? = some A := by
    rw [List.getElem?_eq_getElem (by omega)]
    exact congrArg some (hA _ (List.getElem_mem _))
  have e2 : r.1[k + 1]? = some A := by
    rw [List.getElem?_eq_getElem (by omega)]
    exact congrArg some (hA _ (List.getElem_mem _))
  obtain ⟨θ, h1, h2⟩ := hka k A A e1 e2
  rw [List.getElem?_eq_getElem hk] at h1
  rw [Option.some.inj h1]
  exact hz θ h2

/-! ### A concrete study -/

theorem colSpan_single_ne (a : Pt m) (ha : a ≠ 0) : colSpan [a] ≠ ⊥ := by
  intro h
  have hm : WithLp.toLp 2 a ∈ colSpan [a] := Submodule.subset_span ⟨a, by simp, rfl⟩
  rw [h, Submodule.mem_bot] at hm
  exact ha (by simpa using congrArg WithLp.ofLp hm)

/-- Two rounds; the first finds the first coordinate direction, the second one the second. -/
noncomputable def demoStudy (ang : List (Pt 2) → List (Pt 2) → Except Err ℝ) : StudyEnv (List (Pt 2)) Unit 2 where
  sampler k _ _ := .ok [if k = 0 then ![1, 0] else ![0, 1]]
  funDomain := .ok ()
  eval X := .ok (X.map fun _ => 0)
  grad X := .ok X
  fitEval s _ _ := .ok s
  fitGrad _ g := .ok g
  getU s := .ok (s, s)
  ang := ang

/-- The hypotheses of `study_ok_iff` and `study_angles` are met, and the reported angle is `π/2`. -/
example : ∃ ang, AngSpec ang ∧ ∃ angles Ms, subspaceConvergence (demoStudy ang) [] [3, 4] none .grad 1 = .ok (angles, Ms) ∧
    angles[1]? = some (Real.pi / 2) ∧ Ms = [1, 1] := by
  obtain ⟨ang, hang⟩ := angSpec_exists 2
  have hf : Fresh (demoStudy ang) .grad (fun X => .ok X) := fun s X => rfl
  have hne0 : (![1, 0] : Pt 2) ≠ 0 := fun h => by simpa using congrFun h 0
  have hne1 : (![0, 1] : Pt 2) ≠ 0 := fun h => by simpa using congrFun h 1
  obtain ⟨⟨angles, Ms⟩, hr⟩ := (study_ok_iff (E := demoStudy ang) hang [] [3, 4] () (data := .grad) (by decide) 1 hf).mpr (by
    intro k N hN
    refine ⟨_, _, rfl, rfl, fun _ => ?_⟩
    by_cases hk : k = 0
    · subst hk
      exact colSpan_single_ne _ hne0
    · simp only [hk, if_false, List.take_succ_cons, List.take_zero]
      exact colSpan_single_ne _ hne1)
  refine ⟨ang, hang, angles, Ms, hr, ?_, ?_⟩
  · obtain ⟨dom, X, X', U, U', θ, -, hX, hX', hU, hU', hθ, -, -, -, hpi⟩ := study_angles (E := demoStudy ang) hang hf hr 0 3 4 rfl rfl
    cases hX
    cases hX'
    cases hU
    cases hU'
    rw [hθ]
    congr 1
    have e0 : ([if (0 : ℕ) = 0 then ![1, 0] else ![0, 1]] : List (Pt 2)).take 1 = [![1, 0]] := rfl
    have e1 : ([if (0 + 1 : ℕ) = 0 then ![1, 0] else ![0, 1]] : List (Pt 2)).take 1 = [![0, 1]] := rfl
    rw [e0, e1] at hpi
    have hset : ∀ a : Pt 2, colSpan [a] = Submodule.span ℝ {WithLp.toLp 2 a} := by
      intro a
      unfold colSpan
      congr 1
      ext x
      simp
    have hfr : ∀ a : Pt 2, a ≠ 0 → Module.finrank ℝ (colSpan [a]) = 1 := by
      intro a ha
      rw [hset]
      exact finrank_span_singleton (by simpa using ha)
    refine (hpi (by rw [hfr _ hne0, hfr _ hne1])).mpr ⟨WithLp.toLp 2 ![1, 0], Submodule.subset_span ⟨_, by simp, rfl⟩, ?_, ?_⟩
    · rw [EuclideanSpace.norm_eq]
      simp
    · intro y hy
      rw [hset, Submodule.mem_span_singleton] at hy
      obtain ⟨c, rfl⟩ := hy
      simp [PiLp.inner_apply]
  · obtain ⟨-, hl, -, dom, -, hM⟩ := study_sizes_partial hr (by simp)
    obtain ⟨X, hX, h0⟩ := hM 0 3 rfl
    obtain ⟨X', hX', h1⟩ := hM 1 4 rfl
    cases hX
    cases hX'
    match Ms, hl with
    | [a, b], _ =>
      simp at h0 h1
      rw [h0, h1]

end Verif.Misc
