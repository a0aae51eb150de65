import Verif.Func.BaseModel

/-!
# C139: calling a function is evaluating it
-/

namespace Verif.Func.BaseFn

open Verif.Domain

variable {KW X R G : Type}

/-- The outcome of an override, as seen by the caller. -/
def seen {α : Type} : Except Err α → Except Exn α
  | .ok a => .ok a
  | .error e => .error (.py e)

theorem own_eq {α : Type} (ev : Ev) (r : Except Err α) : own ev r = ([ev], seen r) := by cases r <;> rfl

/-- C139: if the class defines how to evaluate, then evaluating, calling and predicting are the same, evaluate once
and pass keyword arguments on. -/
theorem call_is_eval {c : Cls KW X R G} {e : KW → X → Except Err R} (he : c.eval = some e) (hc : c.call = none) (nokw kw : KW) (x : X) (n : ℕ) :
    evalM c nokw (n + 1) kw x = ([.eval], seen (e kw x)) ∧ callM c nokw (n + 2) kw x = ([.eval], seen (e kw x)) ∧
      predictM c nokw (n + 3) x = ([.eval], seen (e nokw x)) := by
  have h1 : ∀ kw, evalM c nokw (n + 1) kw x = ([.eval], seen (e kw x)) := by
    intro kw
    rw [evalM]
    simp only [he, own_eq]
  have h2 : ∀ kw, callM c nokw (n + 2) kw x = ([.eval], seen (e kw x)) := by
    intro kw
    rw [callM]
    simp only [hc, h1]
  exact ⟨h1 kw, h2 kw, by rw [predictM, h2]⟩

/-- C139: with value and gradient defined, calling with `return_grad` gives both, running each once, the value first;
an exception of the value prevents the gradient. -/
theorem call_grad_is_both {c : Cls KW X R G} {e : KW → X → Except Err R} {g : X → Except Err G} (he : c.eval = some e) (hg : c.grad = some g)
    (hc : c.call = none) (nokw kw : KW) (x : X) (n : ℕ) :
    callGradM c nokw (n + 2) kw x = match e kw x, g x with
      | .ok r, .ok d => ([.eval, .grad], .ok (r, d))
      | .error er, _ => ([.eval], .error (.py er))
      | .ok _, .error er => ([.eval, .grad], .error (.py er)) := by
  rw [callGradM]
  simp only [hc]
  rw [(call_is_eval he hc nokw kw x n).1, gradM]
  simp only [hg, own_eq]
  cases e kw x with
  | error er => simp [seen, Run.andThen]
  | ok r => cases g x <;> simp [seen, Run.andThen]

/-- C139: if the class defines calling, then the base class evaluates by calling (without keyword arguments), and takes the
gradient from the call. -/
theorem eval_is_call {c : Cls KW X R G} {k : KW → X → Except Err R} {kg : KW → X → Except Err (R × G)} (he : c.eval = none) (hg : c.grad = none)
    (hc : c.call = some (k, kg)) (nokw kw : KW) (x : X) (n : ℕ) :
    evalM c nokw (n + 2) kw x = ([.call], seen (k nokw x)) ∧
      gradM c nokw (n + 2) x = ([.call], seen ((kg nokw x).map Prod.snd)) := by
  constructor
  · rw [evalM]
    simp only [he]
    rw [callM]
    simp only [hc, own_eq]
  · rw [gradM]
    simp only [hg]
    rw [callGradM]
    simp only [hc, own_eq]
    cases kg nokw x <;> simp [seen, Run.andThen, Except.map]

/-- C139: classes that define neither evaluation nor calling raise `RecursionError` whatever the limit. -/
theorem abstract_recursion {c : Cls KW X R G} (he : c.eval = none) (hc : c.call = none) (nokw : KW) (x : X) (n : ℕ) :
    (∀ kw, evalM c nokw n kw x = ([], .error .recursion)) ∧ (∀ kw, callM c nokw n kw x = ([], .error .recursion)) := by
  induction n with
  | zero => exact ⟨fun _ => by rw [evalM], fun _ => by rw [callM]⟩
  | succ n ih =>
    refine ⟨fun kw => ?_, fun kw => ?_⟩
    · rw [evalM]
      simp only [he, ih.2]
    · rw [callM]
      simp only [hc, ih.1]

/-- C139: the hessian of a class that does not define it is refused. -/
theorem hessian_missing {c : Cls KW X R G} (h : c.hessian = none) (x : X) : hessianM c x = .error (.py .notImplemented) := by
  simp [hessianM, h]

/-- **Disagreement**: for a class that defines evaluation but no gradient, asking for the gradient is not refused: it raises
`RecursionError`, after evaluating the function once for every two levels of the limit. -/
theorem grad_missing_false {c : Cls KW X R G} {e : KW → X → Except Err R} (he : c.eval = some e) (hg : c.grad = none) (hc : c.call = none)
    (nokw : KW) (x : X) {r : R} (hr : e nokw x = .ok r) (k : ℕ) :
    gradM c nokw (2 * k + 1) x = (List.replicate k .eval, .error .recursion) ∧
      gradM c nokw (2 * k) x = (List.replicate (k - 1) .eval, .error .recursion) := by
  have step : ∀ n, gradM c nokw (n + 3) x = ((.eval : Ev) :: (gradM c nokw (n + 1) x).1, match (gradM c nokw (n + 1) x).2 with
      | .error er => .error er | .ok g => .ok g) := by
    intro n
    rw [gradM]
    simp only [hg]
    rw [callGradM]
    simp only [hc]
    rw [(call_is_eval he hc nokw nokw x n).1, hr]
    cases h : gradM c nokw (n + 1) x with
    | mk t o => cases o <;> simp [seen, Run.andThen]
  constructor
  · induction k with
    | zero =>
      rw [gradM]
      simp only [hg]
      rw [callGradM]
      simp [Run.andThen]
    | succ k ih =>
      rw [show 2 * (k + 1) + 1 = 2 * k + 3 by ring, step, ih]
      simp [List.replicate_succ]
  · cases k with
    | zero => rw [Nat.mul_zero, gradM]; simp
    | succ k =>
      induction k with
      | zero =>
        rw [show 2 * (0 + 1) = 0 + 1 + 1 by ring, gradM]
        simp only [hg]
        rw [callGradM]
        simp only [hc]
        rw [evalM]
        simp [Run.andThen]
      | succ k ih =>
        rw [show 2 * (k + 1 + 1) = (2 * k + 1) + 3 by ring, step, show 2 * k + 1 + 1 = 2 * (k + 1) by ring, ih]
        simp [List.replicate_succ]

/-- The disagreement for Gaussian processes and Lipschitz approximations, at python's default limit of 1000: `grad` evaluates the
function 499 times and raises `RecursionError`. -/
theorem evalOnly_grad_false (ev : KW → X → Except Err R) (nokw : KW) (x : X) {r : R} (hr : ev nokw x = .ok r) :
    gradM (evalOnly ev : Cls KW X R G) nokw 1000 x = (List.replicate 499 .eval, .error .recursion) :=
  (grad_missing_false (c := evalOnly ev) rfl rfl rfl nokw x hr 500).2

/-- **Disagreement**: keyword arguments given to `eval` of a class that defines calling are dropped silently, while the call uses them. -/
theorem eval_drops_keywords_false : ∃ (c : Cls ℕ Unit ℕ Unit), ∀ n, evalM c 0 (n + 2) 1 () = ([.call], .ok 0) ∧
    callM c 0 (n + 2) 1 () = ([.call], .ok 1) := by
  refine ⟨{ call := some (fun kw _ => .ok kw, fun kw _ => .ok (kw, ())) }, fun n => ⟨?_, ?_⟩⟩
  · exact (eval_is_call (c := { call := some (fun kw _ => .ok kw, fun kw _ => .ok (kw, ())) }) (k := fun kw _ => .ok kw)
      (kg := fun kw _ => .ok (kw, ())) rfl rfl rfl 0 1 () n).1
  · rw [callM]
    rfl

/-- C139 for the surrogates: polynomials, polynomial ridge functions and Lipschitz bounds. -/
theorem surrogate_call (ev : X → Except Err R) (gr : X → Except Err G) (x : X) (n : ℕ) {r : R} {g : G} (hr : ev x = .ok r) (hg : gr x = .ok g) :
    callM (surrogate ev gr) [] (n + 2) [] x = ([.eval], .ok r) ∧ predictM (surrogate ev gr) [] (n + 3) x = ([.eval], .ok r) ∧
      callGradM (surrogate ev gr) [] (n + 2) [] x = ([.eval, .grad], .ok (r, g)) ∧
      gradM (surrogate ev gr) [] (n + 1) x = ([.grad], .ok g) := by
  have h := call_is_eval (c := surrogate ev gr) rfl rfl [] [] x n
  have h2 := call_grad_is_both (c := surrogate ev gr) rfl rfl rfl [] [] x n
  simp only [if_true, hr, hg, seen] at h h2
  refine ⟨h.2.1, h.2.2, h2, ?_⟩
  rw [gradM]
  simp [surrogate, own_eq, hg, seen]

example : callGradM (surrogate (fun x : ℕ => .ok (x * x)) (fun x => .ok (2 * x))) [] 2 [] 3 = ([.eval, .grad], .ok (9, 6)) :=
  (surrogate_call (fun x : ℕ => .ok (x * x)) (fun x => .ok (2 * x)) 3 0 rfl rfl).2.2.1

/-- C139: a keyword argument given to a surrogate is a `TypeError`, and nothing is returned. -/
theorem surrogate_keywords (ev : X → Except Err R) (gr : X → Except Err G) {kw : List String} (hk : kw ≠ []) (x : X) (n : ℕ) :
    callM (surrogate ev gr) [] (n + 2) kw x = ([.eval], .error (.py .typeError)) ∧
      callGradM (surrogate ev gr) [] (n + 2) kw x = ([.eval], .error (.py .typeError)) := by
  have h := call_is_eval (c := surrogate ev gr) rfl rfl [] kw x n
  have h2 := call_grad_is_both (c := surrogate ev gr) rfl rfl rfl [] kw x n
  simp only [if_neg hk, seen] at h h2
  exact ⟨h.2.1, h2⟩

example : callM (surrogate (fun x : ℕ => .ok (x * x)) (fun x => .ok (2 * x))) [] 2 ["dask"] 3 = ([.eval], .error (.py .typeError)) :=
  (surrogate_keywords (fun x : ℕ => .ok (x * x)) (fun x => .ok (2 * x)) (by simp) 3 0).1

end Verif.Func.BaseFn
