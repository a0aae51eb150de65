import Verif.Domain.SolverProps

/-!
# An answer that a domain is empty is final

Once `closest_point` or `constrained_least_squares` have raised `EmptyDomainException`, the domain object remembers it: every later call of
these methods and of `corner` raises the same exception, whatever the solver would say.  `corner` itself does not remember.
Sources: `/repo/psdr/domains/euclidean.py` 173-379.
-/

namespace Verif.Domain

open Verif

/-- The call fits the domain: vectors and matrices have the right sizes. -/
def SCall.Fits (n : ℕ) : SCall → Prop
  | .corner p => p.length = n
  | .closest x0 L => x0.length = n ∧ ∀ r ∈ L.getD [], r.length = n
  | .cls A b => (∀ r ∈ A, r.length = n) ∧ b.length = A.length

/-- The call is `corner`. -/
def SCall.isCorner : SCall → Prop
  | .corner _ => True
  | _ => False

/-- A domain that remembers to be empty keeps doing so. -/
theorem scall_keeps (S : Solver) (nnls : NNLS) (TOL : ℝ) (fb : CornerOracle) (fbD : List XR × List XR) (D : Dom) (k : SCall) :
    (D.scall S nnls TOL fb fbD (some true) k).2 = some true := by
  cases k with
  | corner p =>
    simp only [Dom.scall]
    unfold Dom.corner
    split
    · rfl
    · split <;> simp
  | closest x0 L =>
    simp only [Dom.scall]
    unfold Dom.closest
    split
    · rfl
    · split <;> simp
  | cls A b =>
    simp only [Dom.scall]
    unfold Dom.cls
    split <;> simp

/-- The same after any number of calls. -/
theorem afterCalls_keeps (nnls : NNLS) (TOL : ℝ) (fb : CornerOracle) (fbD : List XR × List XR) (D : Dom) (ks : List (Solver × SCall)) :
    D.afterCalls nnls TOL fb fbD (some true) ks = some true := by
  induction ks with
  | nil => rfl
  | cons k ks ih =>
    obtain ⟨S, k⟩ := k
    simp only [Dom.afterCalls]
    rw [scall_keeps, ih]

/-- The exception is remembered by the two methods that look for a point of the domain. -/
theorem scall_remembers (S : Solver) (nnls : NNLS) (TOL : ℝ) (fb : CornerOracle) (fbD : List XR × List XR) (D : Dom) (e : Option Bool) (k : SCall)
    (hk : ¬ k.isCorner) (h : (D.scall S nnls TOL fb fbD e k).1 = .error .emptyDomain) :
    (D.scall S nnls TOL fb fbD e k).2 = some true := by
  cases k with
  | corner p => exact absurd trivial hk
  | closest x0 L =>
    simp only [Dom.scall] at h ⊢
    by_cases hpt : ∃ x, D = .base (.point x)
    · obtain ⟨x, rfl⟩ := hpt
      unfold Dom.closest at h
      split_ifs at h <;> simp at h
    by_cases hun : ∃ n, D = .base (.unbounded n)
    · obtain ⟨n, rfl⟩ := hun
      unfold Dom.closest at h
      split_ifs at h <;> simp at h
    push Not at hpt hun
    rw [closest_eq hpt hun] at h ⊢
    split_ifs at h ⊢ with h1 h2 h3 h4
    all_goals first
      | exact h2
      | (simp at h; done)
      | (split at h <;> first | rfl | (simp at h; done))
  | cls A b =>
    simp only [Dom.scall] at h ⊢
    unfold Dom.cls at h ⊢
    split_ifs at h ⊢ with h1 h2 h3
    all_goals first
      | exact h2
      | (simp at h; done)
      | (split at h <;> first | rfl | (simp at h; done))

/-- A domain that remembers to be empty refuses every well-formed call, without running the solver. -/
theorem scall_refuses (S : Solver) (nnls : NNLS) (TOL : ℝ) (fb : CornerOracle) (fbD : List XR × List XR) (D : Dom)
    (hp : ∀ x, D ≠ .base (.point x)) (hu : ∀ n, D ≠ .base (.unbounded n)) (k : SCall)
    (hb : k.isCorner → ∀ l u, D ≠ .base (.box l u)) (hf : k.Fits D.len) :
    (D.scall S nnls TOL fb fbD (some true) k).1 = .error .emptyDomain := by
  cases k with
  | corner p =>
    simp only [Dom.scall]
    unfold Dom.corner
    rw [if_neg (not_not.mpr (show p.length = D.len from hf))]
    split
    · exact absurd rfl (hp _)
    · exact absurd rfl (hb trivial _ _)
    · simp
  | closest x0 L =>
    have hn : ¬ (x0.length ≠ D.len ∨ ∃ r ∈ L.getD [], r.length ≠ D.len) := by
      rintro (h | ⟨r, hr, h⟩)
      · exact h hf.1
      · exact h (hf.2 r hr)
    simp only [Dom.scall]
    unfold Dom.closest
    rw [if_neg hn]
    split
    · exact absurd rfl (hp _)
    · exact absurd rfl (hu _)
    · simp
  | cls A b =>
    have hn : ¬ ((∃ r ∈ A, r.length ≠ D.len) ∨ b.length ≠ A.length) := by
      rintro (⟨r, hr, h⟩ | h)
      · exact h (hf.1 r hr)
      · exact h hf.2
    simp only [Dom.scall]
    unfold Dom.cls
    rw [if_neg hn]
    simp

/-- **C123** An answer that the domain is empty is final: if `closest_point` or `constrained_least_squares` has raised `EmptyDomainException` after
any history of calls, then after any further history every well-formed call of these two methods and of `corner` raises `EmptyDomainException` too,
whatever the solvers reply. -/
theorem empty_answer_final (nnls : NNLS) (TOL : ℝ) (fb : CornerOracle) (fbD : List XR × List XR) (D : Dom)
    (before after : List (Solver × SCall)) (S : Solver) (k : SCall) (hk : ¬ k.isCorner)
    (h : (D.scall S nnls TOL fb fbD (D.afterCalls nnls TOL fb fbD none before) k).1 = .error .emptyDomain)
    (hp : ∀ x, D ≠ .base (.point x)) (hu : ∀ n, D ≠ .base (.unbounded n))
    (S' : Solver) (k' : SCall) (hb : k'.isCorner → ∀ l u, D ≠ .base (.box l u)) (hf : k'.Fits D.len) :
    (D.scall S' nnls TOL fb fbD (D.afterCalls nnls TOL fb fbD none (before ++ (S, k) :: after)) k').1 = .error .emptyDomain := by
  have happ : ∀ (e : Option Bool) (l r : List (Solver × SCall)), D.afterCalls nnls TOL fb fbD e (l ++ r) =
      D.afterCalls nnls TOL fb fbD (D.afterCalls nnls TOL fb fbD e l) r := by
    intro e l r
    induction l generalizing e with
    | nil => rfl
    | cons a l ih =>
      obtain ⟨T, c⟩ := a
      simp only [List.cons_append, Dom.afterCalls]
      exact ih _
  have hflag : D.afterCalls nnls TOL fb fbD none (before ++ (S, k) :: after) = some true := by
    rw [happ]
    simp only [Dom.afterCalls]
    rw [scall_remembers S nnls TOL fb fbD D _ k hk h, afterCalls_keeps]
  rw [hflag]
  exact scall_refuses S' nnls TOL fb fbD D hp hu k' hb hf

/-- **C123** is false for `corner`: a linear inequality domain whose `corner` has just raised `EmptyDomainException` does not remember it, and a
second call asks the solver again (here a solver that fails the second time, so that the caller sees a different exception). -/
theorem corner_forgets_false (nnls : NNLS) (TOL : ℝ) (fb : CornerOracle) (fbD : List XR × List XR) :
    ∃ (D : Dom) (S S' : Solver) (p : Vec), p.length = D.len ∧
      (D.scall S nnls TOL fb fbD none (.corner p)).1 = .error .emptyDomain ∧
      ∃ e, (D.scall S' nnls TOL fb fbD (D.afterCalls nnls TOL fb fbD none [(S, .corner p)]) (.corner p)).1 = .error e ∧ e ≠ .emptyDomain := by
  refine ⟨.tensor [.box [.fin 0] [.fin 1]], fun _ _ _ => .infeasible, fun _ _ _ => .other, [1], rfl, ?_, ?_⟩
  · simp only [Dom.scall]
    unfold Dom.corner
    rw [if_neg (by simp [Dom.len, Base.len, Base.acc])]
    have : ¬ (Dom.tensor [.box [.fin 0] [.fin 1]]).hasUnbounded := by
      rintro ⟨d, hd, n, h⟩
      simp at hd
      rw [hd] at h
      cases h
    simp [this]
  · have hu : ¬ (Dom.tensor [.box [.fin 0] [.fin 1]]).hasUnbounded := by
      rintro ⟨d, hd, n, h⟩
      simp at hd
      rw [hd] at h
      cases h
    have hfl : (Dom.tensor [.box [.fin 0] [.fin 1]]).afterCalls nnls TOL fb fbD none [(fun _ _ _ => .infeasible, .corner [1])] = none := by
      simp only [Dom.afterCalls, Dom.scall]
      unfold Dom.corner
      rw [if_neg (by simp [Dom.len, Base.len, Base.acc])]
      simp [hu]
    rw [hfl]
    simp only [Dom.scall]
    unfold Dom.corner
    rw [if_neg (by simp [Dom.len, Base.len, Base.acc])]
    by_cases hn : (Dom.tensor [.box [.fin 0] [.fin 1]]).noConstraints fb
    · exact ⟨.unboundedDomain, by simp [hu, hn], by decide⟩
    · exact ⟨.solverError, by simp [hu, hn], by decide⟩

/-- The hypotheses of `empty_answer_final` are met: a solver that finds the program infeasible. -/
example (nnls : NNLS) (TOL : ℝ) (fb : CornerOracle) (fbD : List XR × List XR) :
    ((Dom.tensor [.box [.fin 1] [.fin 0]]).scall (fun _ _ _ => .infeasible) nnls TOL fb fbD none (.cls [[1]] [0])).1 = .error .emptyDomain := by
  have hu : ¬ (Dom.tensor [.box [.fin 1] [.fin 0]]).hasUnbounded := by
    rintro ⟨d, hd, n, h⟩
    simp at hd
    rw [hd] at h
    cases h
  simp only [Dom.scall]
  unfold Dom.cls
  rw [if_neg (by simp [Dom.len, Base.len, Base.acc])]
  simp [hu]

end Verif.Domain
