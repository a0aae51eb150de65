import Verif.Domain.HitRunModel
import Verif.Domain.HullProps
import Verif.Domain.SolverProps

/-!
# Property C21: hit-and-run sampling stays inside
-/

namespace Verif.Domain

open Classical Verif

/-! ## The Chebyshev center -/

/-- The augmented inequalities describe the bounds and the inequalities. -/
theorem augRows_iff {q : LQ} {x : Vec} (hx : x.length = q.n) :
    (∀ r ∈ augRows q, Vec.dot r.1 x ≤ r.2) ↔
      (∀ (i : ℕ) (r xi : ℝ), q.lb[i]? = some (XR.fin r) → x[i]? = some xi → r ≤ xi) ∧
      (∀ (i : ℕ) (r xi : ℝ), q.ub[i]? = some (XR.fin r) → x[i]? = some xi → xi ≤ r) ∧
      (∀ (i : ℕ) (row : Vec) (bi : ℝ), q.A[i]? = some row → q.b[i]? = some bi → Vec.dot row x ≤ bi) := by
  have heye : ∀ i : ℕ, i < q.n → ∀ xi, x[i]? = some xi → ∃ row, (eyeRows q.n)[i]? = some row ∧ Vec.dot row x = xi := by
    intro i hi xi hxi
    refine ⟨(List.range q.n).map (fun j => if i = j then 1 else 0), ?_, ?_⟩
    · unfold eyeRows
      rw [List.getElem?_map, List.getElem?_range hi]; rfl
    · rw [dot_unitRow q.n i x hx hi, List.getD_eq_getElem?_getD, hxi]; rfl
  constructor
  · intro h
    refine ⟨?_, ?_, ?_⟩
    · intro i r xi h1 h2
      have hi : i < q.n := by have := (List.getElem?_eq_some_iff.1 h2).1; omega
      obtain ⟨row, hr, hd⟩ := heye i hi xi h2
      have := h (Vec.smul (-1) row, -r) (by
        unfold augRows
        refine List.mem_append_left _ (List.mem_append_right _ (List.mem_filterMap.2 ⟨(row, .fin r), ?_, ?_⟩))
        · exact List.mem_of_getElem? (List.getElem?_zip_eq_some.2 ⟨hr, h1⟩)
        · simp [XR.isFinite, XR.toReal])
      rw [Vec.dot_comm, Vec.dot_smul_right, Vec.dot_comm, hd] at this
      linarith
    · intro i r xi h1 h2
      have hi : i < q.n := by have := (List.getElem?_eq_some_iff.1 h2).1; omega
      obtain ⟨row, hr, hd⟩ := heye i hi xi h2
      have := h (row, r) (by
        unfold augRows
        refine List.mem_append_right _ (List.mem_filterMap.2 ⟨(row, .fin r), ?_, ?_⟩)
        · exact List.mem_of_getElem? (List.getElem?_zip_eq_some.2 ⟨hr, h1⟩)
        · simp [XR.isFinite, XR.toReal])
      rw [hd] at this
      exact this
    · intro i row bi h1 h2
      exact h (row, bi) (by
        unfold augRows
        exact List.mem_append_left _ (List.mem_append_left _ (List.mem_of_getElem? (List.getElem?_zip_eq_some.2 ⟨h1, h2⟩))))
  · rintro ⟨h1, h2, h3⟩ r hr
    have hget : ∀ i : ℕ, ∀ row, (eyeRows q.n)[i]? = some row → ∃ xi, x[i]? = some xi ∧ Vec.dot row x = xi := by
      intro i row hrow
      have hi : i < q.n := by
        have := (List.getElem?_eq_some_iff.1 hrow).1
        simpa [eyeRows] using this
      obtain ⟨row', hr', hd⟩ := heye i hi x[i] (List.getElem?_eq_getElem (by omega))
      rw [hrow] at hr'; cases hr'
      exact ⟨_, List.getElem?_eq_getElem (by omega), hd⟩
    unfold augRows at hr
    rcases List.mem_append.1 hr with hr | hr
    · rcases List.mem_append.1 hr with hr | hr
      · obtain ⟨i, hi⟩ := List.mem_iff_getElem?.1 hr
        obtain ⟨k1, k2⟩ := List.getElem?_zip_eq_some.1 hi
        exact h3 i _ _ k1 k2
      · obtain ⟨⟨row, l⟩, hz, he⟩ := List.mem_filterMap.1 hr
        obtain ⟨i, hi⟩ := List.mem_iff_getElem?.1 hz
        obtain ⟨k1, k2⟩ := List.getElem?_zip_eq_some.1 hi
        cases l <;> simp [XR.isFinite, XR.toReal] at he
        subst he
        obtain ⟨xi, hxi, hd⟩ := hget i row k1
        have := h1 i _ _ k2 hxi
        dsimp only
        rw [Vec.dot_comm, Vec.dot_smul_right, Vec.dot_comm, hd]
        linarith
    · obtain ⟨⟨row, l⟩, hz, he⟩ := List.mem_filterMap.1 hr
      obtain ⟨i, hi⟩ := List.mem_iff_getElem?.1 hz
      obtain ⟨k1, k2⟩ := List.getElem?_zip_eq_some.1 hi
      cases l <;> simp [XR.isFinite, XR.toReal] at he
      subst he
      obtain ⟨xi, hxi, hd⟩ := hget i row k1
      dsimp only
      rw [hd]
      exact h2 i _ _ k2 hxi

/-- The Chebyshev center satisfies the linear constraints, if they are consistent. -/
theorem chebLQ_holds {S : Solver} (hS : ExactSolver S) {q : LQ} (hq : q.Ls = []) {x y : Vec} (h : chebLQ S q = .ok x)
    (hyl : y.length = q.n) (hyq : q.Holds y) : x.length = q.n ∧ q.Holds x := by
  unfold chebLQ at h
  split at h
  · rename_i z hz
    cases h
    obtain ⟨zl, zf, zm⟩ := hS.optimal _ _ _ _ hz
    have hf : chebFeas q (y ++ [0]) := by
      have ht : (y ++ [0]).take q.n = y := by rw [← hyl]; simp
      have hg : (y ++ [0]).getD q.n 0 = 0 := by rw [← hyl]; simp
      unfold chebFeas
      rw [ht, hg]
      refine ⟨fun r hr => ?_, fun i row bi h1 h2 => hyq.eq i row bi h1 h2⟩
      rw [mul_zero, add_zero]
      exact (augRows_iff hyl).2 ⟨hyq.lb, hyq.ub, hyq.ineq⟩ r hr
    have hr := zm (y ++ [0]) (by simp [hyl]) hf
    have hg : (y ++ [0]).getD q.n 0 = 0 := by rw [← hyl]; simp
    dsimp only at hr
    rw [hg] at hr
    have hr0 : 0 ≤ z.getD q.n 0 := by linarith
    have htl : (z.take q.n).length = q.n := by simp [zl]
    refine ⟨htl, ?_⟩
    obtain ⟨k1, k2, k3⟩ := (augRows_iff htl).1 (fun r hr => by
      have := zf.1 r hr
      have := mul_nonneg (Vec.norm_nonneg r.1) hr0
      linarith)
    refine ⟨k1, k2, k3, zf.2, ?_⟩
    intro i L y' rho h1
    rw [hq] at h1; simp at h1
  · cases h
  · cases h

/-- The Chebyshev center of a nonempty domain is in the domain. -/
theorem cheb_holds {S : Solver} (hS : ExactSolver S) {D : Dom} (hD : D.WF) {x : Vec} (h : D.cheb S = .ok x) (hne : ∃ y, D.Holds y) :
    D.Holds x := by
  obtain ⟨y, hy⟩ := hne
  unfold Dom.cheb at h
  split at h
  · rename_i q
    have hq : (Base.linineq q).acc = q := by
      obtain ⟨-, e1, e2, e3⟩ := hD
      show ({ q with Ls := [], ys := [], rhos := [] } : LQ) = q
      rw [← e1, ← e2, ← e3]
    have hyq := hy.2.1
    rw [hq] at hyq
    obtain ⟨h1, h2⟩ := chebLQ_holds hS hD.2.1 h hy.1 hyq
    exact ⟨h1, by rw [hq]; exact h2, by simp⟩
  · obtain ⟨h1, h2⟩ := chebLQ_holds hS rfl h hy.1 hy.2.1
    exact ⟨h1, h2, by simp⟩
  · obtain ⟨h1, h2⟩ := chebLQ_holds hS rfl h hy.1 hy.2.1
    exact ⟨h1, h2, by simp⟩
  · cases h
  · cases h

/-- The property `center` is in the domain. -/
theorem centerProp_holds {S : Solver} (hS : ExactSolver S) {D : Dom} (hD : D.WF) {x : Vec} (h : D.centerProp S = .ok x) (hne : ∃ y, D.Holds y) :
    D.Holds x := by
  refine cheb_holds hS hD (S := S) ?_ hne
  unfold Dom.centerProp at h
  split at h
  · cases h
  · exact h

/-! ## Flags after single calls -/

section
variable {S : Solver} (hS : ExactSolver S) (nnls : NNLS) (TOL : ℝ) {fb : CornerOracle} (ho : OracleLen fb) {D : Dom} (hD : D.WF)
  (hg : D.Scaled fb)
include hS ho hD hg

theorem flag_corner {e : Option Bool} (he : FlagSound D e) (p : Vec) : FlagSound D (D.corner S fb e p).2 :=
  flag_sound_history (fun _ _ => []) 0 ho ([], []) hD hg [(S, .corner p)] (by simp [hS]) e he

theorem flag_closest {e : Option Bool} (he : FlagSound D e) (x : Vec) (L : Option (List Vec)) :
    FlagSound D (D.closest S nnls TOL fb e x L).2 :=
  flag_sound_history nnls TOL ho ([], []) hD hg [(S, .closest x L)] (by simp [hS]) e he

/-- `closest_point` returns points inside the domain. -/
theorem closest_ok_inside (hn : SolvesConsistent nnls) (ht : 0 < TOL) {e : Option Bool} (he : FlagSound D e) {x0 x : Vec}
    {L : Option (List Vec)} (h : (D.closest S nnls TOL fb e x0 L).1 = .ok x) : D.isInside nnls TOL x := by
  have := closest_reply_partial hS nnls TOL ho hD hg he x0 L
  rw [h] at this
  rcases this with ⟨h1, rfl⟩ | ⟨h1, -⟩
  · exact h1
  · exact dom_holds_isInside_all hn ht hD h1

theorem pointLoop_spec (hb : ∀ l u, D ≠ .base (.box l u)) (U : List Vec) (e : Option Bool) (he : FlagSound D e) :
    FlagSound D (pointLoop (D.corner S fb) e U).2 ∧
      (U ≠ [] → (pointLoop (D.corner S fb) e U).1 = .ok true → ∃ y, D.Holds y) := by
  induction U generalizing e with
  | nil => exact ⟨he, fun h => absurd rfl h⟩
  | cons u us ih =>
    have f1 := flag_corner hS ho hD hg he u
    have r1 := corner_reply_partial hS ho hD hg hb he u
    simp only [pointLoop]
    rcases hc : D.corner S fb e u with ⟨r, e1⟩
    rw [hc] at f1 r1
    dsimp only at f1 r1
    cases r with
    | error r => cases r <;> exact ⟨f1, fun _ h => by simp at h⟩
    | ok x1 =>
      have f2 := flag_corner hS ho hD hg f1 (Vec.smul (-1) u)
      dsimp only
      rcases hc2 : D.corner S fb e1 (Vec.smul (-1) u) with ⟨r2, e2⟩
      rw [hc2] at f2
      dsimp only at f2
      cases r2 with
      | error r => cases r <;> exact ⟨f2, fun _ h => by simp at h⟩
      | ok x2 =>
        dsimp only
        split
        · exact ⟨(ih e2 f2).1, fun _ _ => ⟨x1, r1.1⟩⟩
        · exact ⟨f2, fun _ h => by simp at h⟩

theorem cornerLoop_flag (U : List Vec) (i : ℕ) (e : Option Bool) (he : FlagSound D e) (X : List Vec) :
    FlagSound D (cornerLoop (D.corner S fb) i e U X).2 := by
  induction U generalizing i e X with
  | nil => exact he
  | cons u us ih =>
    have f1 := flag_corner hS ho hD hg he u
    simp only [cornerLoop]
    rcases hc : D.corner S fb e u with ⟨r, e1⟩
    rw [hc] at f1
    dsimp only at f1
    cases r with
    | error r => exact f1
    | ok x1 =>
      have f2 := flag_corner hS ho hD hg f1 (Vec.smul (-1) u)
      dsimp only
      rcases hc2 : D.corner S fb e1 (Vec.smul (-1) u) with ⟨r2, e2⟩
      rw [hc2] at f2
      dsimp only at f2
      cases r2 with
      | error r => exact f2
      | ok x2 =>
        dsimp only
        split
        · exact f2
        · exact ih (i + 1) e2 f2 _

end

/-! ## The invariant -/

/-- What holds between calls: the object never wrongly remembers to be empty; it remembers to be a point only if it
is not empty; the state of a nonempty domain is inside. -/
structure HRInv (nnls : NNLS) (TOL : ℝ) (D : Dom) (s : HR) : Prop where
  empty : FlagSound D s.empty
  pt : s.pt = some true → ∃ y, D.Holds y
  hit : ∀ x, s.hit = some x → (∃ y, D.Holds y) → D.isInside nnls TOL x

theorem hrInv_fresh (nnls : NNLS) (TOL : ℝ) (D : Dom) : HRInv nnls TOL D {} :=
  ⟨fun h => (Option.some_ne_none _ h.symm).elim, fun h => (Option.some_ne_none _ h.symm).elim, fun _ h => by cases h⟩

section
variable {nnls : NNLS} (hn : SolvesConsistent nnls) {TOL : ℝ} (ht : 0 < TOL) {fb : CornerOracle} (ho : OracleLen fb) {D : Dom} (hD : D.WF)
  (hg : D.Scaled fb) (hb : ∀ l u, D ≠ .base (.box l u))
include hn ht ho hD hg

theorem hrInit_inv {S : Solver} (hS : ExactSolver S) (U : List Vec) {s : HR} (hs : HRInv nnls TOL D s) :
    HRInv nnls TOL D (D.hrInit S nnls TOL fb U s).2 ∧
      ∀ x, (D.hrInit S nnls TOL fb U s).1 = .ok x → (D.hrInit S nnls TOL fb U s).2.hit = some x := by
  have hcc : HRInv nnls TOL D (D.hrCornerInit S nnls TOL fb U s).2 ∧
      ∀ x, (D.hrCornerInit S nnls TOL fb U s).1 = .ok x → (D.hrCornerInit S nnls TOL fb U s).2.hit = some x := by
    have hf := cornerLoop_flag hS ho hD hg U 0 s.empty hs.empty []
    unfold Dom.hrCornerInit Dom.cornerCenter
    rcases hl : cornerLoop (D.corner S fb) 0 s.empty U [] with ⟨r, e1⟩
    rw [hl] at hf
    dsimp only at hf
    cases r with
    | error r => exact ⟨⟨hf, hs.pt, hs.hit⟩, fun x h => by cases h⟩
    | ok X =>
      dsimp only
      generalize (Vec.smul (1 / (X.length : ℝ)) (comb D.len (List.replicate X.length 1) X)) = c
      have hf2 := flag_closest hS nnls TOL ho hD hg hf c none
      have hin : ∀ x, _ → _ := fun x => closest_ok_inside hS nnls TOL ho hD hg hn ht hf (x0 := c) (x := x) (L := none)
      rcases hc : D.closest S nnls TOL fb e1 c none with ⟨r, e2⟩
      rw [hc] at hf2 hin
      dsimp only at hf2 hin
      cases r with
      | error r => exact ⟨⟨hf2, hs.pt, hs.hit⟩, fun x h => by cases h⟩
      | ok x => exact ⟨⟨hf2, hs.pt, fun y hy _ => by cases hy; exact hin x rfl⟩, fun y h => by cases h; rfl⟩
  unfold Dom.hrInit
  rcases hh : s.hit with _ | x
  · dsimp only
    rcases hch : D.cheb S with r | x
    · have other : ∀ r', HRInv nnls TOL D ((.error r', s) : Except Err Vec × HR).2 ∧
          ∀ x, ((.error r', s) : Except Err Vec × HR).1 = .ok x → ((.error r', s) : Except Err Vec × HR).2.hit = some x :=
        fun r' => ⟨hs, fun x h => by cases h⟩
      cases r with
      | attributeError => exact hcc
      | notImplemented => exact hcc
      | _ => exact other _
    · refine ⟨⟨hs.empty, hs.pt, ?_⟩, fun y h => by cases h; rfl⟩
      intro y hy hne
      cases hy
      exact dom_holds_isInside_all hn ht hD (cheb_holds hS hD hch hne)
  · exact ⟨hs, fun y h => by cases h; exact hh⟩

include hb in
omit hn ht in
theorem isPoint_inv {S : Solver} (hS : ExactSolver S) {U : List Vec} (hU : U ≠ []) {s : HR} (hs : HRInv nnls TOL D s) :
    HRInv nnls TOL D (D.isPointQuery S fb U s).2 ∧ (D.isPointQuery S fb U s).2.hit = s.hit ∧
      ((D.isPointQuery S fb U s).1 = .ok true → ∃ y, D.Holds y) := by
  unfold Dom.isPointQuery
  rcases hp : s.pt with _ | b
  · dsimp only
    obtain ⟨p1, p2⟩ := pointLoop_spec hS ho hD hg hb U s.empty hs.empty
    rcases hl : pointLoop (D.corner S fb) s.empty U with ⟨r, e⟩
    rw [hl] at p1 p2
    dsimp only at p1 p2
    cases r with
    | error r => exact ⟨⟨p1, fun h => (by cases h), hs.hit⟩, rfl, fun h => by cases h⟩
    | ok b =>
      refine ⟨⟨p1, fun h => p2 hU (by cases h; rfl), hs.hit⟩, rfl, fun h => p2 hU h⟩
  · exact ⟨hs, rfl, fun h => hs.pt (by rw [hp]; simpa using h)⟩

theorem hrLoop_inv {S : Solver} (hS : ExactSolver S) (extent : Vec → Except Err XR) (Q : List Vec) (x0 : Vec) {s : HR}
    (hs : HRInv nnls TOL D s) (sts : List HRStep) {r : Except Err Vec × HR}
    (h : hrLoop extent (fun y => D.closest S nnls TOL fb s.empty y none) Q x0 s sts = some (some r)) :
    HRInv nnls TOL D r.2 ∧ ∀ x, r.1 = .ok x → D.isInside nnls TOL x := by
  induction sts with
  | nil => simp [hrLoop] at h
  | cons st sts ih =>
    unfold hrLoop at h
    split at h
    · cases h
    · cases h
      exact ⟨hs, fun x h => by cases h⟩
    · rename_i p hp
      dsimp only at h
      split at h
      · cases h
        exact ⟨hs, fun x h => by cases h⟩
      · split at h
        · cases h
          exact ⟨hs, fun x h => by cases h⟩
        · split at h
          · split at h
            · cases h
              exact ⟨hs, fun x h => by cases h⟩
            · rename_i a ha
              have hf := flag_closest hS nnls TOL ho hD hg hs.empty (Vec.step x0 a (Vec.smul (1 / Vec.norm p) p)) none
              have hin : ∀ x, _ → _ := fun x => closest_ok_inside hS nnls TOL ho hD hg hn ht hs.empty
                (x0 := Vec.step x0 a (Vec.smul (1 / Vec.norm p) p)) (x := x) (L := none)
              rcases hc : D.closest S nnls TOL fb s.empty (Vec.step x0 a (Vec.smul (1 / Vec.norm p) p)) none with ⟨q, e⟩
              rw [hc] at hf hin h
              dsimp only at hf hin
              cases q with
              | error q =>
                cases h
                exact ⟨⟨hf, hs.pt, hs.hit⟩, fun x h => by cases h⟩
              | ok x =>
                cases h
                refine ⟨⟨hf, hs.pt, fun y hy _ => ?_⟩, fun y hy => ?_⟩
                · cases hy; exact hin x rfl
                · cases hy; exact hin x rfl
          · exact ih h

include hb in
theorem hitRun_inv (tol : ℝ) (he : HullExtent) (Q : List Vec) (as : List HRAttempt) (has : ∀ a ∈ as, ExactSolver a.S ∧ a.Up ≠ [])
    {s : HR} (hs : HRInv nnls TOL D s) {r : Except Err Vec × HR} (h : D.hitRun nnls TOL tol he fb Q as s = some r) :
    HRInv nnls TOL D r.2 ∧ ∀ x, r.1 = .ok x → D.isInside nnls TOL x := by
  induction as generalizing s with
  | nil =>
    cases h
    exact ⟨hs, fun x h => by cases h⟩
  | cons a as ih =>
    obtain ⟨hS, hU⟩ := has a (by simp)
    unfold Dom.hitRun at h
    obtain ⟨i1, i2⟩ := hrInit_inv hn ht ho hD hg hS a.Uc hs
    rcases hi : D.hrInit a.S nnls TOL fb a.Uc s with ⟨q, s1⟩
    rw [hi] at i1 i2 h
    dsimp only at i1 i2
    cases q with
    | error q =>
      cases h
      exact ⟨i1, fun x h => by cases h⟩
    | ok x0 =>
      dsimp only at h
      obtain ⟨p1, p2, p3⟩ := isPoint_inv ho hD hg hb hS hU i1
      rcases hp : D.isPointQuery a.S fb a.Up s1 with ⟨q, s2⟩
      rw [hp] at p1 p2 p3 h
      dsimp only at p1 p2 p3
      rcases q with q | (_ | _)
      · cases h
        exact ⟨p1, fun x h => by cases h⟩
      · dsimp only at h
        split at h
        · cases h
        · rename_i hl
          cases h
          exact hrLoop_inv hn ht ho hD hg hS _ _ _ p1 _ hl
        · exact ih (fun a ha => has a (by simp [ha])) (s := { s2 with hit := none }) ⟨p1.empty, p1.pt, fun x h => by cases h⟩ h
      · cases h
        refine ⟨p1, fun x hx => ?_⟩
        cases hx
        exact p1.hit x0 (by rw [p2]; exact i2 x0 rfl) (p3 rfl)

include hb in
/-- **C21** (partial): for every history of hit-and-run calls and solver operations on a fresh object, all random choices
and all runs of an exact solver, every point returned by hit-and-run is inside the domain, and so is the
remembered state (of a nonempty domain).  Restricted, like C14 and C15, to domains whose normalization is
right; boxes and points use their own samplers (C19). -/
theorem hitRun_inside_partial (tol : ℝ) (he : HullExtent) (fbD : List XR × List XR) (Q : List Vec) (ks : List HRCall)
    (hks : ∀ k ∈ ks, match k with
      | .hitRun as => ∀ a ∈ as, ExactSolver a.S ∧ a.Up ≠ []
      | .op S _ => ExactSolver S) {r : List Vec × HR}
    (h : D.hrRun nnls TOL tol he fb fbD Q {} ks = some r) :
    (∀ x ∈ r.1, D.isInside nnls TOL x) ∧ ((∃ y, D.Holds y) → ∀ x, r.2.hit = some x → D.isInside nnls TOL x) := by
  have key : ∀ s, HRInv nnls TOL D s → ∀ r, D.hrRun nnls TOL tol he fb fbD Q s ks = some r →
      (∀ x ∈ r.1, D.isInside nnls TOL x) ∧ HRInv nnls TOL D r.2 := by
    clear h r
    induction ks with
    | nil =>
      intro s hs r h
      cases h
      exact ⟨by simp, hs⟩
    | cons k ks ih =>
      intro s hs r h
      have ih' := ih (fun k hk => hks k (by simp [hk]))
      cases k with
      | op S k =>
        have hS : ExactSolver S := hks (.op S k) (by simp)
        simp only [Dom.hrRun] at h
        refine ih' { s with empty := (D.scall S nnls TOL fb fbD s.empty k).2 } ⟨?_, hs.pt, hs.hit⟩ r h
        exact flag_sound_history nnls TOL ho fbD hD hg [(S, k)] (by simp [hS]) s.empty hs.empty
      | hitRun as =>
        have has : ∀ a ∈ as, ExactSolver a.S ∧ a.Up ≠ [] := hks (.hitRun as) (by simp)
        simp only [Dom.hrRun] at h
        rcases hh : D.hitRun nnls TOL tol he fb Q as s with _ | ⟨q, s1⟩
        · rw [hh] at h; cases h
        · rw [hh] at h
          obtain ⟨i1, i2⟩ := hitRun_inv hn ht ho hD hg hb tol he Q as has hs hh
          dsimp only at i1 i2
          cases q with
          | error q => exact ih' s1 i1 r h
          | ok x =>
            simp only [Option.map_eq_some_iff] at h
            obtain ⟨r', hr', rfl⟩ := h
            obtain ⟨j1, j2⟩ := ih' s1 i1 r' hr'
            refine ⟨?_, j2⟩
            intro y hy
            rcases List.mem_cons.1 hy with rfl | hy
            · exact i2 y rfl
            · exact j1 y hy
  obtain ⟨k1, k2⟩ := key {} (hrInv_fresh nnls TOL D) r h
  exact ⟨k1, fun hne x hx => k2.hit x hx hne⟩

include hb in
theorem hitMany_inv (tol : ℝ) (he : HullExtent) (Q : List Vec) (ass : List (List HRAttempt))
    (has : ∀ as ∈ ass, ∀ a ∈ as, ExactSolver a.S ∧ a.Up ≠ [])
    {s : HR} (hs : HRInv nnls TOL D s) {r : Except Err (List Vec) × HR} (h : D.hitMany nnls TOL tol he fb Q ass s = some r) :
    HRInv nnls TOL D r.2 ∧ ∀ X, r.1 = .ok X → X.length = ass.length ∧ ∀ x ∈ X, D.isInside nnls TOL x := by
  induction ass generalizing s r with
  | nil =>
    cases h
    exact ⟨hs, fun X h => by cases h; simp⟩
  | cons as ass ih =>
    unfold Dom.hitMany at h
    rcases hh : D.hitRun nnls TOL tol he fb Q as s with _ | ⟨q, s1⟩
    · rw [hh] at h; cases h
    · rw [hh] at h
      obtain ⟨i1, i2⟩ := hitRun_inv hn ht ho hD hg hb tol he Q as (has as (by simp)) hs hh
      dsimp only at i1 i2
      cases q with
      | error q =>
        cases h
        exact ⟨i1, fun X h => by cases h⟩
      | ok x =>
        dsimp only at h
        rcases hm : D.hitMany nnls TOL tol he fb Q ass s1 with _ | ⟨q, s2⟩
        · rw [hm] at h; cases h
        · rw [hm] at h
          obtain ⟨j1, j2⟩ := ih (fun as h => has as (by simp [h])) i1 hm
          dsimp only at j1 j2
          cases q with
          | error q =>
            cases h
            exact ⟨j1, fun X h => by cases h⟩
          | ok X =>
            cases h
            refine ⟨j1, fun Y hY => ?_⟩
            cases hY
            obtain ⟨k1, k2⟩ := j2 X rfl
            refine ⟨by simp [k1], fun y hy => ?_⟩
            rcases List.mem_cons.1 hy with rfl | hy
            · exact i2 y rfl
            · exact k2 y hy

include hb in
/-- **C19**, default sampler (partial): after any history leaving the object in a sound state (a fresh one, see
`hrInv_fresh`; kept by every call, see `hitRun_inv`), when `sample(draw)` returns, it returns exactly `draw`
points, all inside, for every permutation and all random choices.  Restricted as C21. -/
theorem defaultSample_good_partial (tol : ℝ) (he : HullExtent) (Q : List Vec) {S : Solver} (hS : ExactSolver S) {U : List Vec} (hU : U ≠ [])
    {ass : List (List HRAttempt)} (has : ∀ as ∈ ass, ∀ a ∈ as, ExactSolver a.S ∧ a.Up ≠ []) {draw : ℕ} (hl : ass.length = 3 * draw)
    {perm : List ℕ} (hperm : perm.Perm (List.range (3 * draw)))
    {s : HR} (hs : HRInv nnls TOL D s) {X : List Vec} {s' : HR}
    (h : D.defaultSample nnls TOL tol he fb Q S U ass perm draw s = some (.ok X, s')) :
    HRInv nnls TOL D s' ∧ X.length = draw ∧ ∀ x ∈ X, D.isInside nnls TOL x := by
  unfold Dom.defaultSample at h
  obtain ⟨p1, p2, p3⟩ := isPoint_inv ho hD hg hb hS hU hs
  rcases hp : D.isPointQuery S fb U s with ⟨q, s1⟩
  rw [hp] at p1 p2 p3 h
  dsimp only at p1 p2 p3
  rcases q with q | (_ | _)
  · cases h
  · dsimp only at h
    rcases hm : D.hitMany nnls TOL tol he fb Q ass s1 with _ | ⟨q, s2⟩
    · rw [hm] at h; cases h
    · rw [hm] at h
      obtain ⟨j1, j2⟩ := hitMany_inv hn ht ho hD hg hb tol he Q ass has p1 hm
      dsimp only at j1 j2
      cases q with
      | error q => cases h
      | ok Y =>
        cases h
        obtain ⟨k1, k2⟩ := j2 Y rfl
        have hpl : perm.length = 3 * draw := by rw [hperm.length_eq, List.length_range]
        refine ⟨j1, by rw [List.length_map, List.length_take, hpl]; omega, fun x hx => ?_⟩
        obtain ⟨i, hi, rfl⟩ := List.mem_map.1 hx
        have hi' : i < 3 * draw := List.mem_range.1 (hperm.mem_iff.1 (List.mem_of_mem_take hi))
        rw [List.getD_eq_getElem?_getD, List.getElem?_eq_getElem (by omega)]
        exact k2 _ (List.getElem_mem _)
  · dsimp only at h
    rcases hc : D.centerProp S with r | c
    · rw [hc] at h; cases h
    · rw [hc] at h
      cases h
      refine ⟨p1, by simp, fun x hx => ?_⟩
      rw [List.eq_of_mem_replicate hx]
      exact dom_holds_isInside_all hn ht hD (centerProp_holds hS hD hc (p3 rfl))

end

/-- The sampling of a domain with a single point fails for the classes without a `center`. -/
theorem defaultSample_point_false (nnls : NNLS) (TOL tol : ℝ) (he : HullExtent) (fb : CornerOracle) (Q : List Vec) (S : Solver)
    (U : List Vec) (ass : List (List HRAttempt)) (perm : List ℕ) (draw : ℕ) (q : LQ) {s : HR} (hs : s.pt = some true) :
    (Dom.base (.linquad q)).defaultSample nnls TOL tol he fb Q S U ass perm draw s = some (.error .attributeError, s) := by
  unfold Dom.defaultSample Dom.isPointQuery
  rw [hs]
  rfl

/-! ## The hypotheses are met -/

/-- There are a solver and a least squares routine as assumed, and a history that calls hit-and-run on a product
of a box and a truncated normal domain. -/
example : ∃ (S : Solver) (nnls : NNLS), ExactSolver S ∧ SolvesConsistent nnls ∧
    (∀ k ∈ [HRCall.hitRun [⟨S, [[1, 0], [0, 1]], [[1, 0], [0, 1]], [⟨[[1, 1]], 1 / 2⟩]⟩]], match k with
      | .hitRun as => ∀ a ∈ as, ExactSolver a.S ∧ a.Up ≠ []
      | .op S _ => ExactSolver S) := by
  obtain ⟨S, hS⟩ := completeSolver_exists
  obtain ⟨nnls, hn⟩ := solvesConsistent_exists
  refine ⟨S, nnls, hS.toExactSolver, hn, ?_⟩
  intro k hk
  rw [List.mem_singleton.1 hk]
  intro a ha
  rw [List.mem_singleton.1 ha]
  exact ⟨hS.toExactSolver, by simp⟩

end Verif.Domain
