import Verif.Demo.ExpModel
import Mathlib.Analysis.SpecialFunctions.Trigonometric.DerivHyp

/-!
# Evaluating demo expressions: where it succeeds, and what it returns
-/

namespace Verif.Demo
namespace Exp

variable {n : ℕ}

/-- The value of an expression when every operation is extended to all real numbers. -/
noncomputable def val : Exp n → (Fin n → ℝ) → ℝ
  | c r, _ => r
  | x i, v => v i
  | add a b, v => a.val v + b.val v
  | sub a b, v => a.val v - b.val v
  | mul a b, v => a.val v * b.val v
  | div a b, v => a.val v / b.val v
  | neg a, v => -a.val v
  | npow a k, v => a.val v ^ k
  | rpow a r, v => a.val v ^ r
  | sqrt a, v => Real.sqrt (a.val v)
  | log a, v => Real.log (a.val v)
  | cos a, v => Real.cos (a.val v)
  | sin a, v => Real.sin (a.val v)
  | tan a, v => Real.tan (a.val v)
  | tanh a, v => Real.tanh (a.val v)
  | sinh a, v => Real.sinh (a.val v)

/-- Every operation of the expression is applied to arguments it is defined for. -/
def Ok : Exp n → (Fin n → ℝ) → Prop
  | c _, _ => True
  | x _, _ => True
  | add a b, v => a.Ok v ∧ b.Ok v
  | sub a b, v => a.Ok v ∧ b.Ok v
  | mul a b, v => a.Ok v ∧ b.Ok v
  | div a b, v => a.Ok v ∧ b.Ok v ∧ b.val v ≠ 0
  | neg a, v => a.Ok v
  | npow a _, v => a.Ok v
  | rpow a _, v => a.Ok v ∧ 0 < a.val v
  | sqrt a, v => a.Ok v ∧ 0 ≤ a.val v
  | log a, v => a.Ok v ∧ 0 < a.val v
  | cos a, v => a.Ok v
  | sin a, v => a.Ok v
  | tan a, v => a.Ok v ∧ Real.cos (a.val v) ≠ 0
  | tanh a, v => a.Ok v
  | sinh a, v => a.Ok v

theorem eval_eq (e : Exp n) (v : Fin n → ℝ) [Decidable (e.Ok v)] :
    e.eval v = if e.Ok v then some (e.val v) else none := by
  classical
  have key : (e.Ok v → e.eval v = some (e.val v)) ∧ (¬ e.Ok v → e.eval v = none) := by
    have two : ∀ (a b : Exp n) (f : ℝ → ℝ → Option ℝ) (g : ℝ) (Q : Prop),
        ((a.Ok v → a.eval v = some (a.val v)) ∧ (¬ a.Ok v → a.eval v = none)) →
        ((b.Ok v → b.eval v = some (b.val v)) ∧ (¬ b.Ok v → b.eval v = none)) →
        (Q → f (a.val v) (b.val v) = some g) → (¬ Q → f (a.val v) (b.val v) = none) →
        ((a.Ok v ∧ b.Ok v ∧ Q → ((a.eval v).bind fun p => (b.eval v).bind fun q => f p q) = some g) ∧
         (¬ (a.Ok v ∧ b.Ok v ∧ Q) → ((a.eval v).bind fun p => (b.eval v).bind fun q => f p q) = none)) := by
      intro a b f g Q ha hb h1 h2
      refine ⟨fun ⟨p, q, r⟩ => by rw [ha.1 p, hb.1 q]; exact h1 r, fun h => ?_⟩
      by_cases p : a.Ok v
      · rw [ha.1 p]
        by_cases q : b.Ok v
        · rw [hb.1 q]
          exact h2 fun r => h ⟨p, q, r⟩
        · rw [hb.2 q]; rfl
      · rw [ha.2 p]; rfl
    have one : ∀ (a : Exp n) (f : ℝ → Option ℝ) (g : ℝ) (Q : Prop),
        ((a.Ok v → a.eval v = some (a.val v)) ∧ (¬ a.Ok v → a.eval v = none)) →
        (Q → f (a.val v) = some g) → (¬ Q → f (a.val v) = none) →
        ((a.Ok v ∧ Q → (a.eval v).bind f = some g) ∧ (¬ (a.Ok v ∧ Q) → (a.eval v).bind f = none)) := by
      intro a f g Q ha h1 h2
      refine ⟨fun ⟨p, r⟩ => by rw [ha.1 p]; exact h1 r, fun h => ?_⟩
      by_cases p : a.Ok v
      · rw [ha.1 p]
        exact h2 fun r => h ⟨p, r⟩
      · rw [ha.2 p]; rfl
    have two' : ∀ (a b : Exp n) (f : ℝ → ℝ → ℝ),
        ((a.Ok v → a.eval v = some (a.val v)) ∧ (¬ a.Ok v → a.eval v = none)) →
        ((b.Ok v → b.eval v = some (b.val v)) ∧ (¬ b.Ok v → b.eval v = none)) →
        ((a.Ok v ∧ b.Ok v → ((a.eval v).bind fun p => (b.eval v).bind fun q => some (f p q))
            = some (f (a.val v) (b.val v))) ∧
         (¬ (a.Ok v ∧ b.Ok v) →
            ((a.eval v).bind fun p => (b.eval v).bind fun q => some (f p q)) = none)) := by
      intro a b f ha hb
      have := two a b (fun p q => some (f p q)) (f (a.val v) (b.val v)) True ha hb
        (fun _ => rfl) (fun h => absurd trivial h)
      simpa using this
    have one' : ∀ (a : Exp n) (f : ℝ → ℝ),
        ((a.Ok v → a.eval v = some (a.val v)) ∧ (¬ a.Ok v → a.eval v = none)) →
        ((a.Ok v → ((a.eval v).bind fun p => some (f p)) = some (f (a.val v))) ∧
         (¬ a.Ok v → ((a.eval v).bind fun p => some (f p)) = none)) := by
      intro a f ha
      have := one a (fun p => some (f p)) (f (a.val v)) True ha (fun _ => rfl) (fun h => absurd trivial h)
      simpa using this
    induction e with
    | c r => exact ⟨fun _ => rfl, fun h => absurd trivial h⟩
    | x i => exact ⟨fun _ => rfl, fun h => absurd trivial h⟩
    | add a b ha hb => exact two' a b (· + ·) (ha) (hb)
    | sub a b ha hb => exact two' a b (· - ·) (ha) (hb)
    | mul a b ha hb => exact two' a b (· * ·) (ha) (hb)
    | div a b ha hb =>
      exact two a b (fun p q => if q = 0 then none else some (p / q)) _ _ (ha) (hb)
        (fun h => if_neg h) (fun h => if_pos (not_not.mp h))
    | neg a ha => exact one' a (fun p => -p) (ha)
    | npow a k ha => exact one' a (fun p => p ^ k) (ha)
    | rpow a r ha =>
      exact one a (fun p => if p ≤ 0 then none else some (p ^ r)) _ _ (ha)
        (fun h => if_neg (not_le.mpr h)) (fun h => if_pos (not_lt.mp h))
    | sqrt a ha =>
      exact one a (fun p => if p < 0 then none else some (Real.sqrt p)) _ _ (ha)
        (fun h => if_neg (not_lt.mpr h)) (fun h => if_pos (not_le.mp h))
    | log a ha =>
      exact one a (fun p => if p ≤ 0 then none else some (Real.log p)) _ _ (ha)
        (fun h => if_neg (not_le.mpr h)) (fun h => if_pos (not_lt.mp h))
    | cos a ha => exact one' a Real.cos (ha)
    | sin a ha => exact one' a Real.sin (ha)
    | tan a ha =>
      exact one a (fun p => if Real.cos p = 0 then none else some (Real.tan p)) _ _ (ha)
        (fun h => if_neg h) (fun h => if_pos (not_not.mp h))
    | tanh a ha => exact one' a Real.tanh (ha)
    | sinh a ha => exact one' a Real.sinh (ha)
  split
  · next h => exact key.1 h
  · next h => exact key.2 h

/-- Evaluation returns a value exactly when every operation is defined. -/
theorem eval_eq_some_iff (e : Exp n) (v : Fin n → ℝ) (r : ℝ) :
    e.eval v = some r ↔ e.Ok v ∧ e.val v = r := by
  classical
  rw [eval_eq]
  by_cases h : e.Ok v <;> simp [h]

theorem eval_eq_none_iff (e : Exp n) (v : Fin n → ℝ) : e.eval v = none ↔ ¬ e.Ok v := by
  classical
  rw [eval_eq]
  by_cases h : e.Ok v <;> simp [h]

variable (a b : Exp n) (v : Fin n → ℝ)

theorem val_c (r : ℝ) : (c r : Exp n).val v = r := rfl
theorem val_x (i : Fin n) : (x i).val v = v i := rfl
theorem val_add : (a + b).val v = a.val v + b.val v := rfl
theorem val_sub : (a - b).val v = a.val v - b.val v := rfl
theorem val_mul : (a * b).val v = a.val v * b.val v := rfl
theorem val_div : (a / b).val v = a.val v / b.val v := rfl
theorem val_neg : (-a).val v = -a.val v := rfl
theorem val_npow (k : ℕ) : (a ^ k).val v = a.val v ^ k := rfl
theorem val_rpow (r : ℝ) : (a.rpow r).val v = a.val v ^ r := rfl
theorem val_sqrt : (a.sqrt).val v = Real.sqrt (a.val v) := rfl
theorem val_log : (a.log).val v = Real.log (a.val v) := rfl
theorem val_cos : (a.cos).val v = Real.cos (a.val v) := rfl
theorem val_sin : (a.sin).val v = Real.sin (a.val v) := rfl
theorem val_tan : (a.tan).val v = Real.tan (a.val v) := rfl
theorem val_tanh : (a.tanh).val v = Real.tanh (a.val v) := rfl
theorem val_sinh : (a.sinh).val v = Real.sinh (a.val v) := rfl
theorem val_pi : (pi : Exp n).val v = Real.pi := rfl
theorem val_ofNat (k : ℕ) [OfNat ℝ k] : (no_index (OfNat.ofNat k) : Exp n).val v = OfNat.ofNat k := rfl
theorem val_ofScientific (m : ℕ) (s : Bool) (e : ℕ) :
    (OfScientific.ofScientific m s e : Exp n).val v = OfScientific.ofScientific m s e := rfl

theorem ok_c (r : ℝ) : (c r : Exp n).Ok v = True := rfl
theorem ok_x (i : Fin n) : (x i).Ok v = True := rfl
theorem ok_add : (a + b).Ok v = (a.Ok v ∧ b.Ok v) := rfl
theorem ok_sub : (a - b).Ok v = (a.Ok v ∧ b.Ok v) := rfl
theorem ok_mul : (a * b).Ok v = (a.Ok v ∧ b.Ok v) := rfl
theorem ok_div : (a / b).Ok v = (a.Ok v ∧ b.Ok v ∧ b.val v ≠ 0) := rfl
theorem ok_neg : (-a).Ok v = a.Ok v := rfl
theorem ok_npow (k : ℕ) : (a ^ k).Ok v = a.Ok v := rfl
theorem ok_rpow (r : ℝ) : (a.rpow r).Ok v = (a.Ok v ∧ 0 < a.val v) := rfl
theorem ok_sqrt : (a.sqrt).Ok v = (a.Ok v ∧ 0 ≤ a.val v) := rfl
theorem ok_log : (a.log).Ok v = (a.Ok v ∧ 0 < a.val v) := rfl
theorem ok_cos : (a.cos).Ok v = a.Ok v := rfl
theorem ok_sin : (a.sin).Ok v = a.Ok v := rfl
theorem ok_tan : (a.tan).Ok v = (a.Ok v ∧ Real.cos (a.val v) ≠ 0) := rfl
theorem ok_tanh : (a.tanh).Ok v = a.Ok v := rfl
theorem ok_sinh : (a.sinh).Ok v = a.Ok v := rfl
theorem ok_pi : (pi : Exp n).Ok v = True := rfl
theorem ok_ofNat (k : ℕ) [OfNat ℝ k] : (no_index (OfNat.ofNat k) : Exp n).Ok v = True := rfl
theorem ok_ofScientific (m : ℕ) (s : Bool) (e : ℕ) :
    (OfScientific.ofScientific m s e : Exp n).Ok v = True := rfl

end Exp

theorem evalAll_eq_some_iff {n : ℕ} (l : List (Exp n)) (v : Fin n → ℝ) (r : List ℝ) :
    evalAll l v = some r ↔ (∀ e ∈ l, e.Ok v) ∧ l.map (fun e => e.val v) = r := by
  induction l generalizing r with
  | nil => simp [evalAll, List.mapM_nil, eq_comm]
  | cons a l ih =>
    have e : evalAll (a :: l) v = (a.eval v).bind fun p => (evalAll l v).bind fun q => some (p :: q) := by
      simp [evalAll, List.mapM_cons]
    rw [e, Option.bind_eq_some_iff]
    constructor
    · rintro ⟨p, hp, h⟩
      obtain ⟨q, hq, h⟩ := Option.bind_eq_some_iff.mp h
      obtain ⟨h1, h2⟩ := (Exp.eval_eq_some_iff a v p).mp hp
      obtain ⟨h3, h4⟩ := (ih q).mp hq
      refine ⟨by simpa using ⟨h1, h3⟩, ?_⟩
      rw [List.map_cons, h2, h4]
      exact Option.some.inj h
    · rintro ⟨h, hr⟩
      refine ⟨a.val v, (Exp.eval_eq_some_iff a v _).mpr ⟨h a (by simp), rfl⟩, ?_⟩
      rw [(ih _).mpr ⟨fun e he => h e (by simp [he]), rfl⟩]
      rw [← hr]; rfl

theorem evalAll_eq_none_iff {n : ℕ} (l : List (Exp n)) (v : Fin n → ℝ) :
    evalAll l v = none ↔ ∃ e ∈ l, ¬ e.Ok v := by
  rw [Option.eq_none_iff_forall_ne_some]
  constructor
  · intro h
    by_contra hc
    push Not at hc
    exact h _ ((evalAll_eq_some_iff l v _).mpr ⟨hc, rfl⟩)
  · rintro ⟨e, he, hn⟩ r hr
    exact hn (((evalAll_eq_some_iff l v r).mp hr).1 e he)

end Verif.Demo
