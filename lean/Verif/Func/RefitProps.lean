import Verif.Func.RefitModel
import Verif.Func.ApproxFit
import Verif.Func.AffineProps
import Verif.Func.UphillProps
import Verif.Lipschitz.ApproxProps
import Verif.Misc.SvdExists

/-!
# Property C141: refits forget the past, failed fits change nothing
-/

namespace Verif.Refit

open Verif Verif.Domain Verif.Basis Verif.Lip Matrix

variable {σ D ε Q A : Type} {m n N : ℕ}

/-! ## Specification -/

/-- A new object can be fitted to the data. -/
def Est.Good (E : Est σ D ε Q A) (d : D) : Prop := (E.fit d E.init).1 = .ok ()

/-- After any sequence of fits, a fit succeeds exactly if it succeeds for a new object, and then the object answers as the new object does. -/
def Est.Forgets (E : Est σ D ε Q A) (q : Q) : Prop :=
  ∀ ds d, ((E.fit d (E.after ds)).1 = .ok () ↔ E.Good d) ∧ (E.Good d → E.ask (E.after (ds ++ [d])) q = E.ask (E.after [d]) q)

/-- A failed fit does not change the answer. -/
def Est.Keeps (E : Est σ D ε Q A) (q : Q) : Prop := ∀ ds d, ¬ E.Good d → E.ask (E.after (ds ++ [d])) q = E.ask (E.after ds) q

open Classical in
/-- After any sequence of fits the object answers as a new object fitted to the last data of the sequence that could be fitted. -/
def Est.Remembers (E : Est σ D ε Q A) (q : Q) : Prop :=
  ∀ ds, E.ask (E.after ds) q = match (ds.filter fun d => E.Good d).getLast? with
    | none => E.ask E.init q
    | some d => E.ask (E.after [d]) q

/-! ## The three together -/

theorem after_append (E : Est σ D ε Q A) (ds : List D) (d : D) : E.after (ds ++ [d]) = (E.fit d (E.after ds)).2 := by
  simp [Est.after, List.foldl_append]

theorem remembers_of (E : Est σ D ε Q A) (q : Q) (h1 : ∀ ds d, E.Good d → E.ask (E.after (ds ++ [d])) q = E.ask (E.after [d]) q) (h2 : E.Keeps q) : E.Remembers q := by
  intro ds
  induction ds using List.reverseRecOn with
  | nil => simp [Est.after]
  | append_singleton ds d ih =>
    by_cases h : E.Good d
    · rw [List.filter_append, h1 ds d h]
      simp [h]
    · rw [List.filter_append, h2 ds d h, ih]
      simp [h]

/-- An object remembers the last successful fit exactly if successful fits forget and failed fits change nothing. -/
theorem remembers_iff (E : Est σ D ε Q A) (q : Q) :
    E.Remembers q ↔ (∀ ds d, E.Good d → E.ask (E.after (ds ++ [d])) q = E.ask (E.after [d]) q) ∧ E.Keeps q := by
  refine ⟨fun h => ⟨fun ds d hd => ?_, fun ds d hd => ?_⟩, fun h => remembers_of E q h.1 h.2⟩
  · rw [h (ds ++ [d]), h [d], List.filter_append]
    simp [hd]
  · rw [h (ds ++ [d]), h ds, List.filter_append]
    simp [hd]

/-- A fit whose outcome, and whose attributes in case of success, do not depend on the attributes before. -/
theorem forgets_of (E : Est σ D ε Q A) (q : Q) (h1 : ∀ d s, (E.fit d s).1 = (E.fit d E.init).1)
    (h2 : ∀ d s, (E.fit d s).1 = .ok () → E.ask (E.fit d s).2 q = E.ask (E.fit d E.init).2 q) : E.Forgets q := by
  intro ds d
  refine ⟨by rw [h1]; rfl, fun h => ?_⟩
  have e : E.after [d] = (E.fit d E.init).2 := rfl
  rw [after_append, e]
  exact h2 d _ ((h1 d _).trans h)

/-! ## Polynomial approximations -/

theorem poly_ok (S : Func.FitSolver) (o : Func.ApproxOpts) (d : PData m) (s s' : PState m (indexSet o.degree m).length) :
    (polyFit S o d s).1 = (polyFit S o d s').1 ∧ ((polyFit S o d s).1 = .ok () → (polyFit S o d s).2 = (polyFit S o d s').2) := by
  unfold polyFit
  split
  · exact ⟨rfl, fun h => by cases h⟩
  · cases Func.basisFor o.basis o.degree d.X with
    | error e => exact ⟨rfl, fun h => by cases h⟩
    | ok B =>
      simp only
      split
      · cases Func.linearFit S (Matrix.of fun i => B.V (d.X i)) (fun i => d.fX.get (Fin.cast (Eq.symm ‹_›) i)) o.norm o.bound with
        | error e => exact ⟨rfl, fun h => by cases h⟩
        | ok c => exact ⟨rfl, fun _ => rfl⟩
      · exact ⟨rfl, fun h => by cases h⟩

/-- **C141**: polynomial approximations. -/
theorem poly_forgets (S : Func.FitSolver) (o : Func.ApproxOpts) (m : ℕ) (x : Pt m) : (polyEst S o m).Forgets x :=
  forgets_of _ _ (fun d s => (poly_ok S o d s {}).1) fun d s h => congrArg (polyAsk · x) ((poly_ok S o d s {}).2 h)

theorem poly_fit_state (S : Func.FitSolver) (o : Func.ApproxOpts) {M : ℕ} (X : Fin M → Pt m) (fX : Pt M) (B c) (hM : M ≠ 0) (h : Func.approxFit S o X fX = .ok (B, c))
    (s : PState m (indexSet o.degree m).length) : polyFit S o ⟨M, X, List.ofFn fX⟩ s = (.ok (), ⟨some (some B), some c⟩) := by
  obtain ⟨h1, h2⟩ := Func.approxFit_ok h
  obtain ⟨c', hc, e⟩ := Func.map_ok h2
  cases e
  unfold polyFit
  simp only at h1
  rw [if_neg (by tauto)]
  simp only [h1]
  rw [dif_pos (by simp)]
  have : (fun i => (List.ofFn fX).get (Fin.cast (by simp) i)) = fX := by
    funext i
    simp
  rw [this, hc]

/-- A successful fit is the fit of the functional model. -/
theorem poly_fit_value (S : Func.FitSolver) (o : Func.ApproxOpts) {M : ℕ} (X : Fin M → Pt m) (fX : Pt M) (B c) (hM : M ≠ 0) (h : Func.approxFit S o X fX = .ok (B, c))
    (ds : List (PData m)) (x : Pt m) : (polyEst S o m).ask ((polyEst S o m).after (ds ++ [⟨M, X, List.ofFn fX⟩])) x = .val (Func.polyEval B c x) := by
  rw [after_append]
  show polyAsk (polyFit S o ⟨M, X, List.ofFn fX⟩ _).2 x = _
  rw [poly_fit_state S o X fX B c hM h]
  rfl

/-- A failed fit of polynomials changes the answers unless there are no samples: the basis is replaced and the coefficients are kept. -/
theorem poly_failed (S : Func.FitSolver) (o : Func.ApproxOpts) (d : PData m) (s : PState m (indexSet o.degree m).length) (h : (polyFit S o d s).1 ≠ .ok ()) :
    (polyFit S o d s).2 = if d.M = 0 ∧ o.basis ≠ .arnoldi then s else
      { basis := some (match Func.basisFor o.basis o.degree d.X with | .ok B => some B | .error _ => none), coef := s.coef } := by
  revert h
  unfold polyFit
  split
  · exact fun _ => rfl
  · cases Func.basisFor o.basis o.degree d.X with
    | error e => exact fun _ => rfl
    | ok B =>
      simp only
      split
      · cases Func.linearFit S (Matrix.of fun i => B.V (d.X i)) (fun i => d.fX.get (Fin.cast (Eq.symm ‹_›) i)) o.norm o.bound with
        | error e => exact fun _ => rfl
        | ok c => exact fun h => absurd rfl h
      · exact fun _ => rfl

/-- C141 for histories in which the failing fits have no samples (missing: see `poly_keeps_false`). -/
theorem poly_keeps_partial (S : Func.FitSolver) (o : Func.ApproxOpts) (ho : o.basis ≠ .arnoldi) (m : ℕ) (x : Pt m) (ds : List (PData m)) (d : PData m) (hd : d.M = 0) :
    ¬ (polyEst S o m).Good d ∧ (polyEst S o m).ask ((polyEst S o m).after (ds ++ [d])) x = (polyEst S o m).ask ((polyEst S o m).after ds) x := by
  have e : ∀ s, polyFit S o d s = (.error .valueError, s) := fun s => by unfold polyFit; rw [if_pos ⟨hd, ho⟩]
  refine ⟨fun h => ?_, ?_⟩
  · have : (polyFit S o d {}).1 = .ok () := h
    rw [e] at this
    cases this
  · rw [after_append]
    show polyAsk (polyFit S o d _).2 x = _
    rw [e]
    rfl

/-! ## Ridge approximations -/

theorem coefStep_fst (E : RidgeEnv n N) (d : RData m n) (U : Matrix (Fin m) (Fin n) ℝ) (s s' : RState m n N) : (coefStep E d U s).1 = (coefStep E d U s').1 := rfl

theorem ridge_ok (E : RidgeEnv n N) (d : RData m n) (s s' : RState m n N) :
    (ridgeFit E d s).1 = (ridgeFit E d s').1 ∧ ((ridgeFit E d s).1 = .ok () → (ridgeFit E d s).2 = (ridgeFit E d s').2) := by
  have h1 : (rotateStep E d s).1 = (rotateStep E d s').1 := by
    unfold rotateStep coefStep
    split
    · simp only
      split <;> split <;> simp_all
    · rfl
  have h1U : ∀ (s : RState m n N) U, (rotateStep E d s).1 = .ok U → (rotateStep E d s).2.U = some U := by
    intro s U
    unfold rotateStep coefStep
    split
    · simp only
      split <;> intro h <;> simp_all
    · intro h; cases h; rfl
  have h2 : ∀ U (s s' : RState m n N), (signStep E d U s).1 = (signStep E d U s').1 := by
    intro U s s'
    unfold signStep coefStep
    split
    · simp only
      split <;> split <;> simp_all
    · rfl
  have h2U : ∀ U U' (s : RState m n N), s.U = some U → (signStep E d U s).1 = .ok U' → (signStep E d U s).2.U = some U' := by
    intro U U' s hs
    unfold signStep coefStep
    split
    · simp only
      split <;> intro h <;> simp_all
    · intro h; cases h; exact hs
  unfold ridgeFit
  rcases hr : rotateStep E d s with ⟨r, t⟩
  rcases hr' : rotateStep E d s' with ⟨r', t'⟩
  rw [hr, hr'] at h1
  simp only at h1
  subst h1
  cases r with
  | error e => exact ⟨rfl, fun h => by cases h⟩
  | ok U1 =>
    have a := h1U s U1 (by rw [hr])
    have a' := h1U s' U1 (by rw [hr'])
    rw [hr] at a
    rw [hr'] at a'
    simp only at a a' ⊢
    have b := h2 U1 t t'
    rcases hs : signStep E d U1 t with ⟨q, v⟩
    rcases hs' : signStep E d U1 t' with ⟨q', v'⟩
    rw [hs, hs'] at b
    simp only at b
    subst b
    cases q with
    | error e => exact ⟨rfl, fun h => by cases h⟩
    | ok U2 =>
      have c := h2U U1 U2 t a (by rw [hs])
      have c' := h2U U1 U2 t' a' (by rw [hs'])
      rw [hs] at c
      rw [hs'] at c'
      simp only at c c' ⊢
      unfold coefStep
      split
      · rename_i hh
        simp only [Prod.mk.injEq] at hh
        rw [hh.1]
        exact ⟨rfl, fun h => by cases h⟩
      · rename_i hh
        simp only [Prod.mk.injEq] at hh
        rw [hh.1]
        refine ⟨rfl, fun _ => ?_⟩
        rw [← hh.2]
        simp only [c, c']

/-- **C141**: ridge approximations with a fixed subspace. -/
theorem ridge_forgets (E : RidgeEnv n N) (m : ℕ) (x : Pt m) : (ridgeEst E m).Forgets x :=
  forgets_of _ _ (fun d s => (ridge_ok E d s {}).1) fun d s h => congrArg (ridgeAsk · x) ((ridge_ok E d s {}).2 h)

/-! ## Lipschitz approximations -/

theorem lipApprox_ok {k : ℕ} (sol : CompatSolver k m) (p : Func.PNorm) (L : Matrix (Fin k) (Fin m) ℝ) (inside : Pt m → Prop) (d : LData m) (s s' : LState m) :
    (lipApproxFit sol p L inside d s).1 = (lipApproxFit sol p L inside d s').1 ∧
      ((lipApproxFit sol p L inside d s).1 = .ok () → (lipApproxFit sol p L inside d s).2 = (lipApproxFit sol p L inside d s').2) := by
  unfold lipApproxFit
  simp only
  split
  · exact ⟨rfl, fun h => by cases h⟩
  · split
    · split
      · exact ⟨rfl, fun h => by cases h⟩
      · split
        · exact ⟨rfl, fun h => by cases h⟩
        · exact ⟨rfl, fun _ => rfl⟩
    · exact ⟨rfl, fun h => by cases h⟩

/-- **C141**: Lipschitz approximations. -/
theorem lipApprox_forgets {k : ℕ} (sol : CompatSolver k m) (p : Func.PNorm) (L : Matrix (Fin k) (Fin m) ℝ) (inside : Pt m → Prop) (x : Pt m) :
    (lipApproxEst sol p L inside).Forgets x :=
  forgets_of _ _ (fun d s => (lipApprox_ok sol p L inside d s {}).1) fun d s h => congrArg (lipApproxAsk L · x) ((lipApprox_ok sol p L inside d s {}).2 h)

/-- A failed fit always replaces the samples. -/
theorem lipApprox_samples {k : ℕ} (sol : CompatSolver k m) (p : Func.PNorm) (L : Matrix (Fin k) (Fin m) ℝ) (inside : Pt m → Prop) (d : LData m) (s : LState m) :
    (lipApproxFit sol p L inside d s).2.X = some (List.ofFn d.X) := by
  unfold lipApproxFit
  simp only
  split
  · rfl
  · split
    · split
      · rfl
      · split <;> rfl
    · rfl

/-! ## Lipschitz constants and matrices -/

theorem const_ok (epsilon : Option ℝ) (d : MData) (s s' : CState) :
    (constFit epsilon d s).1 = (constFit epsilon d s').1 ∧ ((constFit epsilon d s).1 = .ok () → (constFit epsilon d s).2 = (constFit epsilon d s').2) := by
  unfold constFit
  split
  · exact ⟨rfl, fun h => by cases h⟩
  · split
    · exact ⟨rfl, fun h => by cases h⟩
    · exact ⟨rfl, fun _ => rfl⟩

/-- **C141**: the Lipschitz constant. -/
theorem const_forgets (epsilon : Option ℝ) : (constEst epsilon).Forgets () :=
  forgets_of _ _ (fun d s => (const_ok epsilon d s {}).1) fun d s h => congrArg (constAsk · ()) ((const_ok epsilon d s {}).2 h)

/-- C141 for the Lipschitz constant if all data have the same dimension (missing: see `const_keeps_false`). -/
theorem const_keeps_partial (epsilon : Option ℝ) (ds : List MData) (d : MData) (hd : ¬ (constEst epsilon).Good d)
    (hdim : ∀ e ∈ ds, e.m = d.m) :
    (constEst epsilon).ask ((constEst epsilon).after (ds ++ [d])) () = (constEst epsilon).ask ((constEst epsilon).after ds) () := by
  have key : ∀ ds : List MData, (∀ e ∈ ds, e.m = d.m) → ((constEst epsilon).after ds).L = none ∨ ((constEst epsilon).after ds).dim = d.m := by
    intro ds
    induction ds using List.reverseRecOn with
    | nil => intro _; exact .inl rfl
    | append_singleton ds e ih =>
      intro h
      have he := h e (by simp)
      have := ih fun e he => h e (by simp [he])
      rw [after_append]
      show (constFit epsilon e _).2.L = none ∨ (constFit epsilon e _).2.dim = d.m
      unfold constFit
      split
      · exact this
      · split
        · exact .inr he
        · exact .inr he
  rw [after_append]
  have hne : (constFit epsilon d ((constEst epsilon).after ds)).1 ≠ .ok () := by
    rw [(const_ok epsilon d _ {}).1]; exact hd
  show constAsk (constFit epsilon d _).2 () = constAsk ((constEst epsilon).after ds) ()
  revert hne
  unfold constFit
  split
  · exact fun _ => rfl
  · split
    · intro _
      rcases key ds hdim with h | h
      · simp [constAsk, h]
      · simp [constAsk, h]
    · exact fun h => absurd rfl h

theorem mat_ok (build : ∀ m, Build m) (eigh : ∀ m, Lip.EighFn m) (epsilon : Option ℝ) (d : MData) (s s' : MState) :
    (matFit build eigh epsilon d s).1 = (matFit build eigh epsilon d s').1 ∧
      ((matFit build eigh epsilon d s).1 = .ok () → (matFit build eigh epsilon d s).2 = (matFit build eigh epsilon d s').2) ∧
      ((matFit build eigh epsilon d s).1 ≠ .ok () → (matFit build eigh epsilon d s).2.att = s.att) := by
  unfold matFit
  split
  · exact ⟨rfl, (fun h => by cases h), fun _ => rfl⟩
  · split
    · exact ⟨rfl, (fun h => by cases h), fun _ => rfl⟩
    · exact ⟨rfl, (fun _ => rfl), fun h => absurd rfl h⟩

/-- **C141**: Lipschitz matrices, all answers. -/
theorem mat_forgets (build : ∀ m, Build m) (eigh : ∀ m, Lip.EighFn m) (epsilon : Option ℝ) (q : MQuery) : (matEst build eigh epsilon).Forgets q :=
  forgets_of _ _ (fun d s => (mat_ok build eigh epsilon d s {}).1) fun d s h => congrArg (matAsk · q) ((mat_ok build eigh epsilon d s {}).2.1 h)

/-- **C141**: after any sequence of fits `U`, `H` and `L` of a Lipschitz matrix are those of the last successful fit. -/
theorem mat_remembers (build : ∀ m, Build m) (eigh : ∀ m, Lip.EighFn m) (epsilon : Option ℝ) : (matEst build eigh epsilon).Remembers .attributes := by
  refine remembers_of _ _ (fun ds d hd => (mat_forgets build eigh epsilon .attributes ds d).2 hd) fun ds d hd => ?_
  rw [after_append]
  have hne : (matFit build eigh epsilon d ((matEst build eigh epsilon).after ds)).1 ≠ .ok () := by
    rw [(mat_ok build eigh epsilon d _ {}).1]; exact hd
  exact congrArg MAns.attributes ((mat_ok build eigh epsilon d _ {}).2.2 hne)

/-! ## Active subspaces -/

theorem as_ok (svd : ∀ m, Misc.SvdFn m) (d : AData) (s s' : AState) :
    (asFit svd d s).1 = (asFit svd d s').1 ∧ ((asFit svd d s).1 = .ok () → (asFit svd d s).2 = (asFit svd d s').2) ∧
      ((asFit svd d s).1 ≠ .ok () → (asFit svd d s).2.att = s.att) := by
  unfold asFit
  split
  · exact ⟨rfl, (fun h => by cases h), fun _ => rfl⟩
  · split
    · exact ⟨rfl, (fun h => by cases h), fun _ => rfl⟩
    · exact ⟨rfl, (fun _ => rfl), fun h => absurd rfl h⟩

/-- **C141**: after any sequence of fits `U`, the singular values and `C` of an active subspace are those of the last successful fit. -/
theorem as_remembers (svd : ∀ m, Misc.SvdFn m) : (asEst svd).Remembers () := by
  have hf : (asEst svd).Forgets () := forgets_of _ _ (fun d s => (as_ok svd d s {}).1) fun d s h => congrArg (asAsk · ()) ((as_ok svd d s {}).2.1 h)
  refine remembers_of _ _ (fun ds d hd => (hf ds d).2 hd) fun ds d hd => ?_
  rw [after_append]
  have hne : (asFit svd d ((asEst svd).after ds)).1 ≠ .ok () := by
    rw [(as_ok svd d _ {}).1]; exact hd
  exact (as_ok svd d _ {}).2.2 hne

/-! ## The values after a successful fit -/

/-- A successful fit is the fit of the functional model. -/
theorem ridge_fit_value (E : RidgeEnv n N) {M : ℕ} (X : Fin M → Pt m) (fX : Pt M) (U : Matrix (Fin m) (Fin n) ℝ) (R : Func.Ridge m n N)
    (h : Func.finish E.S (E.basisOf M) (E.svdU M) E.norm E.bound E.rotate X fX U = .ok R) (ds : List (RData m n)) (x : Pt m) :
    (ridgeEst E m).ask ((ridgeEst E m).after (ds ++ [⟨M, X, List.ofFn fX, U⟩])) x = .val (R.eval x) := by
  obtain ⟨U1, h1, h2, h3⟩ := Func.finish_ok h
  have hget : (fun i => (List.ofFn fX).get (Fin.cast (by simp) i)) = fX := by
    funext i
    simp
  set d : RData m n := ⟨M, X, List.ofFn fX, U⟩ with hd
  have hcs : ∀ V (s : RState m n N), coefStep E d V s = (Func.fitCoef E.S (E.basisOf M) E.norm E.bound X fX V,
      { s with basis := some (E.basisOf M fun i => Func.projY V (X i)) }) := by
    intro V s
    unfold coefStep
    rw [dif_pos (by simp [hd])]
    exact congrArg (fun g => (Func.fitCoef E.S (E.basisOf M) E.norm E.bound X g V, _)) hget
  rw [after_append]
  show ridgeAsk (ridgeFit E d _).2 x = _
  generalize (ridgeEst E m).after ds = s
  have r1 : ∃ s1, rotateStep E d s = (.ok U1, s1) ∧ s1.U = some U1 := by
    unfold Func.finishRotate at h1
    unfold rotateStep
    split at h1
    · rename_i hc
      rw [if_pos hc, hcs]
      obtain ⟨bc, hbc, e⟩ := Func.map_ok h1
      have hbc' : Func.fitCoef E.S (E.basisOf M) E.norm E.bound X fX d.U = .ok bc := hbc
      rw [hbc']
      exact ⟨_, Prod.ext (congrArg Except.ok e) rfl, congrArg some e⟩
    · rename_i hc
      rw [if_neg hc]
      cases h1
      exact ⟨_, rfl, rfl⟩
  obtain ⟨s1, r1, u1⟩ := r1
  have r2 : ∃ s2, signStep E d U1 s1 = (.ok R.U, s2) ∧ s2.U = some R.U := by
    unfold Func.finishSigns at h2
    unfold signStep
    split at h2
    · rename_i hc
      rw [if_pos hc, hcs]
      obtain ⟨bc, hbc, e⟩ := Func.map_ok h2
      rw [hbc]
      exact ⟨_, Prod.ext (congrArg Except.ok e) rfl, congrArg some e⟩
    · rename_i hc
      rw [if_neg hc]
      cases h2
      exact ⟨_, rfl, u1⟩
  obtain ⟨s2, r2, u2⟩ := r2
  unfold ridgeFit
  rw [r1]
  simp only
  rw [r2]
  simp only
  rw [hcs, h3]
  simp only [ridgeAsk, u2]
  rw [← Func.fitCoef_basis h3]

/-- A successful fit is the fit of the functional model. -/
theorem lipApprox_fit_value {k M M' : ℕ} (sol : CompatSolver k m) (p : Func.PNorm) (L : Matrix (Fin k) (Fin m) ℝ) (inside : Pt m → Prop) (X : Fin M → Pt m) (fX : Pt M')
    (a : Lip.Approx m M) (h : Lip.approxFit sol p L inside X fX = .ok a) (ds : List (LData m)) (x : Pt m) :
    (lipApproxEst sol p L inside).ask ((lipApproxEst sol p L inside).after (ds ++ [⟨M, M', X, fX⟩])) x = some (Lip.approxEval L a x) := by
  rw [after_append]
  show lipApproxAsk L (lipApproxFit sol p L inside ⟨M, M', X, fX⟩ _).2 x = _
  unfold Lip.approxFit at h
  unfold lipApproxFit
  simp only
  split at h
  · cases h
  · rename_i hin
    rw [if_neg hin]
    split at h
    · rename_i hM
      rw [dif_pos hM]
      split at h
      · cases h
      · rename_i y hy
        have hy' : sol p L X (fX ∘ Fin.cast hM) = some y := hy
        rw [hy']
        simp only
        split at h
        · cases h
        · rename_i h0
          rw [if_neg h0]
          cases h
          have : (List.ofFn X).zip (List.ofFn y) = List.ofFn fun i => (X i, y i) := by
            apply List.ext_getElem <;> simp
          simp only [lipApproxAsk, Lip.approxEval, this]
    · cases h

/-! ## Failed fits that change the answers -/

theorem leg_scale (b : ℝ) (hb : 0 < b) : Func.scaleFor .legendre (![![0], ![b]] : Fin 2 → Pt 1) = .minmax [0] [b] := by
  unfold Func.scaleFor
  rw [if_neg (by decide)]
  have : Func.sampleRows (![![0], ![b]] : Fin 2 → Pt 1) = [[0], [b]] := by simp [Func.sampleRows, List.ofFn_succ]
  rw [this]
  simp [setScale, columns, minL, maxL, hb.le]

theorem leg_basis (b : ℝ) (hb : 0 < b) : Func.basisFor .legendre 1 (![![0], ![b]] : Fin 2 → Pt 1) =
    .ok (Func.tensorObj ⟨legFamily, 1, 1, .minmax [0] [b]⟩ 1) := by
  unfold Func.basisFor Func.tensorFor
  rw [if_neg (by decide), if_pos, leg_scale b hb]
  · rfl
  · rw [leg_scale b hb]
    intro k hk
    obtain rfl : k = 0 := by omega
    simpa using hb.ne'

/-- **C141** is false for polynomial approximations: after a fit of `x` on `[0, 1]` and a fit with missing values on `[0, 2]`, which raises, the value at
2 is 1 instead of 2. -/
theorem poly_keeps_false (S : Func.FitSolver) (hS : S.Exact) (hA : S.Answers) :
    ∃ d1 d2 : PData 1, (polyEst S ⟨1, .legendre, .two, .none⟩ 1).Good d1 ∧ ¬ (polyEst S ⟨1, .legendre, .two, .none⟩ 1).Good d2 ∧
      (polyEst S ⟨1, .legendre, .two, .none⟩ 1).ask ((polyEst S ⟨1, .legendre, .two, .none⟩ 1).after [d1]) ![2] = .val 2 ∧
      (polyEst S ⟨1, .legendre, .two, .none⟩ 1).ask ((polyEst S ⟨1, .legendre, .two, .none⟩ 1).after [d1, d2]) ![2] = .val 1 := by
  set o : Func.ApproxOpts := ⟨1, .legendre, .two, .none⟩ with ho
  have hinit : Func.approxInit 1 "legendre" (.num 2) none = .ok o := by
    rw [Func.approxInit_ok_iff]
    exact ⟨by norm_num, by decide, by simp [Func.parseNorm, ho], rfl, by simp [ho]⟩
  obtain ⟨⟨B, c⟩, hr⟩ := (Func.approxFit_ok_iff S hA hinit (by norm_num) (![![0], ![1]] : Fin 2 → Pt 1) ![0, 1]).2 (by
    rw [if_neg (by simp [ho])]
    intro k
    exact ⟨0, 1, by fin_cases k; simp⟩)
  have hB : B = Func.tensorObj ⟨legFamily, 1, 1, .minmax [0] [1]⟩ 1 := by
    have := (Func.approxFit_ok hr).1
    rw [leg_basis 1 one_pos] at this
    exact (Except.ok.inj this).symm
  have hrec := (Func.approxFit_recovers S hS o (by norm_num) hr (q := MvPolynomial.X 0) (by simp [ho]) (by intro i; fin_cases i <;> simp)).2 (by
    have := Func.unisolvent_line (d := 1) (M := 2) (by norm_num) (t := ![0, 1]) (by intro i j; fin_cases i <;> fin_cases j <;> simp)
    convert this using 1
    funext i
    fin_cases i <;> funext j <;> fin_cases j <;> rfl)
  have hfit := poly_fit_state S o (![![0], ![1]] : Fin 2 → Pt 1) ![0, 1] B c (by norm_num) hr
  have hfail : ∀ s, polyFit S o ⟨2, ![![0], ![2]], []⟩ s = (.error .valueError, { s with basis := some (some (Func.tensorObj ⟨legFamily, 1, 1, .minmax [0] [2]⟩ 1)) }) := by
    intro s
    have hb : Func.basisFor o.basis o.degree (![![0], ![2]] : Fin 2 → Pt 1) = _ := leg_basis 2 two_pos
    unfold polyFit
    rw [if_neg (by simp)]
    simp only [hb]
    rw [dif_neg (by simp)]
  have hscale : (Func.tensorObj ⟨legFamily, 1, 1, .minmax [0] [2]⟩ 1).V ![2] = (Func.tensorObj ⟨legFamily, 1, 1, .minmax [0] [1]⟩ 1).V ![1] := by
    funext j
    simp only [Func.tensorObj, TBasis.V, TBasis.vc, Scaling.scale]
    norm_num [TBasis.indices]
  refine ⟨⟨2, ![![0], ![1]], List.ofFn (![0, 1] : Pt 2)⟩, ⟨2, ![![0], ![2]], []⟩, ?_, ?_, ?_, ?_⟩
  · show (polyFit S o _ _).1 = _
    rw [hfit]
  · show ¬ (polyFit S o _ _).1 = _
    rw [hfail]
    simp
  · show polyAsk (polyFit S o _ _).2 _ = _
    rw [hfit]
    simp only [polyAsk, hrec]
    simp
  · show polyAsk (polyFit S o _ (polyFit S o _ _).2).2 _ = _
    rw [hfit, hfail]
    simp only [polyAsk]
    have h1 := hrec ![1]
    unfold Func.polyEval at h1 ⊢
    rw [hB] at h1
    rw [hscale, h1]
    simp

/-- **C141** is false for ridge approximations: after a fit with `U = 1` and a fit with `U = -1` and missing values, which raises, the sign of the
approximation of `x` is wrong. -/
theorem ridge_keeps_false (S : Func.FitSolver) (hS : S.Exact) (hA : S.Answers) (svdU : (M : ℕ) → (Fin M → Pt 1) → Matrix (Fin 1) (Fin 1) ℝ) :
    ∃ d1 d2 : RData 1 1, let E := ridgeEst ⟨S, fun _ _ => Func.affLin, svdU, .two, .none, false⟩ 1
      E.Good d1 ∧ ¬ E.Good d2 ∧ E.ask (E.after [d1]) ![1] = .val 1 ∧ E.ask (E.after [d1, d2]) ![1] = .val (-1) := by
  set V : RidgeEnv 1 2 := ⟨S, fun _ _ => Func.affLin, svdU, .two, .none, false⟩ with hV
  obtain ⟨⟨B, c⟩, hc⟩ := Func.fitCoef_ok_two hA (fun _ => Func.affLin) (![![0], ![1]] : Fin 2 → Pt 1) ![0, 1] (1 : Matrix (Fin 1) (Fin 1) ℝ)
  have hBl : B = Func.affLin := Func.fitCoef_basis hc
  obtain ⟨-, hbest⟩ := Func.fitCoef_bound S hS (fun _ => Func.affLin) .two .none (![![0], ![1]] : Fin 2 → Pt 1) ![0, 1] 1 _ _ hc
  have hb := hbest ![0, 1] trivial
  have hc01 : c 0 = 0 ∧ c 1 = 1 := by
    have hev : ∀ c' : Pt 2, (fun i => (⟨B, c', 1⟩ : Func.Ridge 1 1 2).eval ((![![0], ![1]] : Fin 2 → Pt 1) i)) = ![c' 0, c' 1 + c' 0] := by
      intro c'
      funext i
      simp only [Func.Ridge.eval, hBl, Func.affLin_val]
      fin_cases i <;> simp [Func.projY]
    rw [hev, hev] at hb
    have h0 : (![(![0, 1] : Pt 2) 0, (![0, 1] : Pt 2) 1 + (![0, 1] : Pt 2) 0] : Pt 2) - ![0, 1] = 0 := by
      funext i
      fin_cases i <;> simp
    rw [h0, pnorm_zero] at hb
    have := sub_eq_zero.1 (pnorm_eq_zero (by simp) hb)
    have e0 := congrFun this 0
    have e1 := congrFun this 1
    simp at e0 e1
    exact ⟨e0, by linarith⟩
  have hfit : ∀ s, ridgeFit V ⟨2, ![![0], ![1]], List.ofFn (![0, 1] : Pt 2), (1 : Matrix (Fin 1) (Fin 1) ℝ)⟩ s = (.ok (), ⟨some Func.affLin, some c, some 1⟩) := by
    intro s
    have hget : (fun i => (List.ofFn (![0, 1] : Pt 2)).get (Fin.cast (by simp) i)) = (![0, 1] : Pt 2) := by
      funext i
      fin_cases i <;> simp
    have hcs : ∀ s : RState 1 1 2, coefStep V ⟨2, ![![0], ![1]], List.ofFn (![0, 1] : Pt 2), (1 : Matrix (Fin 1) (Fin 1) ℝ)⟩ 1 s = (.ok (B, c), { s with basis := some Func.affLin }) := by
      intro s
      unfold coefStep
      rw [dif_pos (by simp)]
      exact congrArg (fun r => (r, _)) ((congrArg (fun g => Func.fitCoef S (fun _ => Func.affLin) .two .none (![![0], ![1]] : Fin 2 → Pt 1) g 1) hget).trans hc)
    simp only [ridgeFit, rotateStep, signStep, hV]
    simp only [lt_irrefl, false_and, if_false, Bool.false_eq_true]
    have := hcs { s with U := some 1 }
    simp only [hV] at this
    rw [this]
  have hfail : ∀ s, ridgeFit V ⟨2, ![![0], ![1]], [], (-1 : Matrix (Fin 1) (Fin 1) ℝ)⟩ s = (.error .valueError, ⟨some Func.affLin, s.coef, some (-1)⟩) := by
    intro s
    simp only [ridgeFit, rotateStep, signStep, coefStep, hV]
    norm_num
  have hev : ∀ U : Matrix (Fin 1) (Fin 1) ℝ, Func.Ridge.eval ⟨Func.affLin, c, U⟩ ![1] = U 0 0 := by
    intro U
    unfold Func.Ridge.eval
    simp only [Func.affLin_val, hc01]
    simp [Func.projY, Matrix.mulVec, dotProduct]
  refine ⟨⟨2, ![![0], ![1]], List.ofFn (![0, 1] : Pt 2), (1 : Matrix (Fin 1) (Fin 1) ℝ)⟩, ⟨2, ![![0], ![1]], [], (-1 : Matrix (Fin 1) (Fin 1) ℝ)⟩, ?_, ?_, ?_, ?_⟩
  · show (ridgeFit V _ _).1 = _
    rw [hfit]
  · show ¬ (ridgeFit V _ _).1 = _
    rw [hfail]
    simp
  · show ridgeAsk (ridgeFit V _ _).2 _ = _
    rw [hfit]
    simp [ridgeAsk, hev]
  · show ridgeAsk (ridgeFit V _ (ridgeFit V _ _).2).2 _ = _
    rw [hfit, hfail]
    simp [ridgeAsk, hev]

/-- **C141** is false for Lipschitz approximations: after a fit of `x` on `[0, 1]` and a fit with samples 2 and 3 outside of the domain, which raises, the
value at the sample 1 is 0 instead of 1. -/
theorem lipApprox_keeps_false (sol : CompatSolver 1 1) (hs : sol.Exact) (hex : ∀ {M : ℕ} (X : Fin M → Pt 1) fX, ∃ y, sol .two (1 : Matrix (Fin 1) (Fin 1) ℝ) X fX = some y) :
    ∃ d1 d2 : LData 1, let E := lipApproxEst sol .two (1 : Matrix (Fin 1) (Fin 1) ℝ) fun x : Pt 1 => x 0 ∈ Set.Icc (0 : ℝ) 1
      E.Good d1 ∧ ¬ E.Good d2 ∧ E.ask (E.after [d1]) ![1] = some (.fin 1) ∧ E.ask (E.after [d1, d2]) ![1] = some (.fin 0) := by
  have hin : ∀ i, (![![0], ![1]] : Fin 2 → Pt 1) i 0 ∈ Set.Icc (0 : ℝ) 1 := by intro i; fin_cases i <;> simp
  have hout : ¬ ∀ i, (![![2], ![3]] : Fin 2 → Pt 1) i 0 ∈ Set.Icc (0 : ℝ) 1 := by intro h; have := (h 0).2; norm_num at this
  have hd : ∀ x y : ℝ, ldist (1 : Matrix (Fin 1) (Fin 1) ℝ) ![x] ![y] = |x - y| := by
    intro x y
    simp [ldist, nrm, dotProduct, ← pow_two, Real.sqrt_sq_eq_abs]
  have hc : Lip.Compatible (1 : Matrix (Fin 1) (Fin 1) ℝ) (![![0], ![1]] : Fin 2 → Pt 1) (![0, 1] : Pt 2) := by
    intro i j
    rw [← ldist_eq]
    fin_cases i <;> fin_cases j <;> simp [hd]
  obtain ⟨y, hy⟩ := hex (![![0], ![1]] : Fin 2 → Pt 1) (![0, 1] : Pt 2)
  obtain rfl : y = ![0, 1] := by
    have := (hs _ _ _ _ _ hy).2 _ ((Lip.compatFeasible_iff _ _ _).2 hc)
    rw [sub_self, pnorm_zero] at this
    exact sub_eq_zero.1 (pnorm_eq_zero (by simp) this)
  set ins : Pt 1 → Prop := fun x : Pt 1 => x 0 ∈ Set.Icc (0 : ℝ) 1 with hins
  have hfit : ∀ s, lipApproxFit sol .two (1 : Matrix (Fin 1) (Fin 1) ℝ) ins ⟨2, 2, ![![0], ![1]], ![0, 1]⟩ s = (.ok (), ⟨some [![0], ![1]], some [0, 1], some 0⟩) := by
    intro s
    unfold lipApproxFit
    rw [if_neg (not_not.2 hin), dif_pos rfl]
    have : sol .two (1 : Matrix (Fin 1) (Fin 1) ℝ) (![![0], ![1]] : Fin 2 → Pt 1) ((![0, 1] : Pt 2) ∘ Fin.cast rfl) = some ![0, 1] := hy
    simp only [this]
    rw [if_neg (by norm_num)]
    refine Prod.ext rfl ?_
    simp [List.ofFn_succ]
  have hfail : ∀ s, lipApproxFit sol .two (1 : Matrix (Fin 1) (Fin 1) ℝ) ins ⟨2, 2, ![![2], ![3]], ![0, 1]⟩ s = (.error .assertion, { s with X := some [![2], ![3]] }) := by
    intro s
    unfold lipApproxFit
    rw [if_pos hout]
    simp [List.ofFn_succ]
  refine ⟨⟨2, 2, ![![0], ![1]], ![0, 1]⟩, ⟨2, 2, ![![2], ![3]], ![0, 1]⟩, ?_, ?_, ?_, ?_⟩
  · show (lipApproxFit sol .two 1 ins _ _).1 = _
    rw [hfit]
  · show ¬ (lipApproxFit sol .two 1 ins _ _).1 = _
    rw [hfail]
    simp
  · show lipApproxAsk 1 (lipApproxFit sol .two 1 ins _ _).2 _ = _
    rw [hfit]
    simp only [lipApproxAsk, uncertainty, boundStep, List.zip_cons_cons, List.zip_nil_right, List.foldl_cons, List.foldl_nil, hd]
    norm_num [XR.max, XR.min, XR.sub, XR.add, XR.smul]
  · show lipApproxAsk 1 (lipApproxFit sol .two 1 ins _ (lipApproxFit sol .two 1 ins _ _).2).2 _ = _
    rw [hfit, hfail]
    simp only [lipApproxAsk, uncertainty, boundStep, List.zip_cons_cons, List.zip_nil_right, List.foldl_cons, List.foldl_nil, hd]
    norm_num [XR.max, XR.min, XR.sub, XR.add, XR.smul]

/-- **C141** is false for the Lipschitz constant: after a fit in one dimension and a fit in two dimensions without values, which raises, `L` is two by two. -/
theorem const_keeps_false : ∃ d1 d2 : MData, (constEst none).Good d1 ∧ ¬ (constEst none).Good d2 ∧
    (∃ L, (constEst none).ask ((constEst none).after [d1]) () = some (L, 1)) ∧ ∃ L, (constEst none).ask ((constEst none).after [d1, d2]) () = some (L, 2) := by
  have h1 : ∃ L, Lip.constantFit (m := 1) none none none (some [![1]]) = .ok L := ⟨Lip.pyMax2 (.fin 0) (.fin (lmax (nrm ![1]) [])), by
    simp [Lip.constantFit, Lip.prepare, Lip.constFit, Lip.initDim, Lip.pairUp, Lip.constSamp]⟩
  obtain ⟨L, hL⟩ := h1
  have hfit : ∀ s, constFit none ⟨1, none, none, some [![1]]⟩ s = (.ok (), ⟨1, some L⟩) := by
    intro s
    simp only [constFit, Lip.initDim, hL]
  have hfail : ∀ s, constFit none ⟨2, some [![0, 0]], none, none⟩ s = (.error .assertion, { s with dim := 2 }) := fun s => rfl
  refine ⟨⟨1, none, none, some [![1]]⟩, ⟨2, some [![0, 0]], none, none⟩, ?_, ?_, ⟨L, ?_⟩, L, ?_⟩
  · show (constFit none _ _).1 = _
    rw [hfit]
  · show ¬ (constFit none _ _).1 = _
    rw [hfail]
    simp
  · show constAsk (constFit none ⟨1, none, none, some [![1]]⟩ {}).2 () = _
    rw [hfit]
    rfl
  · show constAsk (constFit none ⟨2, some [![0, 0]], none, none⟩ (constFit none ⟨1, none, none, some [![1]]⟩ {}).2).2 () = _
    rw [hfit, hfail]
    rfl

/-- **C141** is false for `len` of a Lipschitz matrix: after a fit that raises, a new object has a length. -/
theorem len_keeps_false (build : ∀ m, Build m) (eigh : ∀ m, Lip.EighFn m) (epsilon : Option ℝ) :
    ∃ d, ¬ (matEst build eigh epsilon).Good d ∧ (matEst build eigh epsilon).ask ((matEst build eigh epsilon).after []) .len = .len none ∧
      (matEst build eigh epsilon).ask ((matEst build eigh epsilon).after [d]) .len = .len (some 2) := by
  have hf : ∀ s, matFit build eigh epsilon ⟨2, some [![0, 0]], none, none⟩ s = (.error .assertion, { s with dim := some 2 }) := by
    intro s
    rfl
  refine ⟨⟨2, some [![0, 0]], none, none⟩, ?_, rfl, ?_⟩
  · show ¬ (matFit build eigh epsilon _ _).1 = _
    rw [hf]
    simp
  · show matAsk (matFit build eigh epsilon ⟨2, some [![0, 0]], none, none⟩ {}).2 .len = _
    rw [hf]
    rfl

/-! ## Examples -/

/-- Solvers that meet the hypotheses of the counterexamples exist. -/
example : (∃ S : Func.FitSolver, S.Exact ∧ S.Answers) ∧
    ∃ sol : CompatSolver 1 1, sol.Exact ∧ ∀ {M : ℕ} (X : Fin M → Pt 1) fX, ∃ y, sol .two (1 : Matrix (Fin 1) (Fin 1) ℝ) X fX = some y := by
  refine ⟨⟨Func.idealSolver, Func.idealSolver_exact, Func.idealSolver_answers⟩, ?_⟩
  obtain ⟨sol, h1, h2⟩ := exists_compatSolver (k := 1) (m := 1)
  exact ⟨sol, h1, fun X fX => h2 _ _ X fX (by simp)⟩

/-- A history of an active subspace: a fit, a fit with a missing weight, which fails, a fit without gradients; the first fit stays. -/
example (svd : ∀ m, Misc.SvdFn m) (a : Misc.ASState 1) (h : Misc.asFit (svd 1) [![1]] none = .ok a) (e : Err)
    (h2 : Misc.asFit (svd 1) [![2]] (some []) = .error e) :
    (asEst svd).ask ((asEst svd).after [⟨1, [![1]], none⟩, ⟨1, [![2]], some []⟩, ⟨1, [], none⟩]) () = some ⟨1, a⟩ := by
  have g1 : (asEst svd).Good ⟨1, [![1]], none⟩ := by
    show (asFit svd _ _).1 = _
    simp [asFit, h]
  have g2 : ¬ (asEst svd).Good ⟨1, [![2]], some []⟩ := by
    show ¬ (asFit svd _ _).1 = _
    simp [asFit, h2]
  have g3 : ¬ (asEst svd).Good ⟨1, [], none⟩ := by
    show ¬ (asFit svd _ _).1 = _
    simp [asFit]
  rw [as_remembers svd]
  simp only [List.filter_cons, g1, g2, g3]
  simp [Est.after, asEst, asFit, h, asAsk]

end Verif.Refit
