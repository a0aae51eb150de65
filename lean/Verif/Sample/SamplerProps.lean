import Mathlib.Data.List.Basic
import Verif.Sample.SamplerModel

/-!
# C46: the sampling loop keeps points and values aligned
-/

namespace Verif.Samp

open Verif.Domain

variable {α β : Type*}

/-- The stored values are the function values of the stored points, in order. -/
def Aligned (g : α → β) (s : SamplerState α β) : Prop := s.fX = some (s.X.map g) ∨ s.X = [] ∧ s.fX = none

theorem drawLoop_spec (next : Option (List α → Except Err α)) (n : ℕ) (X new : List α) :
    ∃ more, (drawLoop next n (X, new)).1 = (X ++ more, new ++ more) ∧ more.length ≤ n ∧ ((drawLoop next n (X, new)).2 = none → more.length = n) := by
  induction n generalizing X new with
  | zero => exact ⟨[], by simp [drawLoop]⟩
  | succ n ih =>
    cases next with
    | none => exact ⟨[], by simp [drawLoop]⟩
    | some f =>
      rw [drawLoop]
      cases hf : f X with
      | error e => exact ⟨[], by simp⟩
      | ok x =>
        obtain ⟨more, h1, h2, h3⟩ := ih (X ++ [x]) (new ++ [x])
        refine ⟨x :: more, ?_, by simpa using h2, fun h => ?_⟩
        · rw [h1]; simp
        · simp [h3 h]

/-- C46: after a successful call the points are the old points followed by exactly `draw` new ones; no old point is lost, moved or
changed, and the new values are those of the new points. -/
theorem seqSample_ok (next : Option (List α → Except Err α)) (eval : List α → Except Err (List β)) (draw : ℕ) (s : SamplerState α β)
    (h : (seqSample next eval draw s).2 = none) :
    ∃ new v, new.length = draw ∧ eval new = .ok v ∧ (seqSample next eval draw s).1 = ⟨s.X ++ new, storeValues s.fX v⟩ := by
  obtain ⟨more, h1, _, h3⟩ := drawLoop_spec next draw s.X []
  rw [List.nil_append] at h1
  unfold seqSample at h ⊢
  cases hd : drawLoop next draw (s.X, []) with
  | mk p o =>
    rw [hd] at h h1 h3
    obtain ⟨X, new⟩ := p
    simp only at h1
    obtain ⟨rfl, rfl⟩ := Prod.mk.inj h1
    cases o with
    | some e => simp at h
    | none =>
      simp only at h ⊢
      cases he : eval new with
      | error e => rw [he] at h; simp at h
      | ok v => exact ⟨new, v, h3 rfl, he, rfl⟩

/-- C46: a successful call keeps the alignment, for every function, every way of choosing points and every number of draws. -/
theorem seqSample_aligned_partial (g : α → β) (next : Option (List α → Except Err α)) (eval : List α → Except Err (List β))
    (hev : ∀ xs v, eval xs = .ok v → v = xs.map g) (draw : ℕ) (s : SamplerState α β) (hs : Aligned g s) (h : (seqSample next eval draw s).2 = none) :
    Aligned g (seqSample next eval draw s).1 := by
  obtain ⟨new, v, _, he, e⟩ := seqSample_ok next eval draw s h
  rw [e, hev _ _ he]
  left
  rcases hs with hs | ⟨h1, h2⟩
  · simp [hs, storeValues]
  · simp [h1, h2, storeValues]

/-- C46: the same for any number of successful calls. -/
theorem seqHistory_aligned_partial (g : α → β) (next : Option (List α → Except Err α)) (eval : List α → Except Err (List β))
    (hev : ∀ xs v, eval xs = .ok v → v = xs.map g) (draws : List ℕ) (s : SamplerState α β) (hs : Aligned g s)
    (h : ∀ pre d, pre ++ [d] <+: draws → (seqSample next eval d (seqHistory next eval pre s)).2 = none) :
    Aligned g (seqHistory next eval draws s) ∧ (seqHistory next eval draws s).X.length = s.X.length + draws.sum := by
  induction draws using List.reverseRecOn with
  | nil => exact ⟨hs, by simp [seqHistory]⟩
  | append_singleton ds d ih =>
    obtain ⟨i1, i2⟩ := ih (fun pre d' hp => h pre d' (hp.trans (List.prefix_append ds [d])))
    have hok := h ds d (List.prefix_refl _)
    have e : seqHistory next eval (ds ++ [d]) s = (seqSample next eval d (seqHistory next eval ds s)).1 := by simp [seqHistory]
    rw [e]
    refine ⟨seqSample_aligned_partial g next eval hev d _ i1 hok, ?_⟩
    obtain ⟨new, v, hl, _, e2⟩ := seqSample_ok next eval d _ hok
    rw [e2]
    simp [i2, hl]; omega

/-- C46: whatever happens, also after exceptions, no stored point is ever lost or changed: the old points and the old values are a
prefix of the new ones. -/
theorem seqSample_prefix (next : Option (List α → Except Err α)) (eval : List α → Except Err (List β)) (draw : ℕ) (s : SamplerState α β) :
    s.X <+: (seqSample next eval draw s).1.X ∧ ∀ v, s.fX = some v → ∃ w, (seqSample next eval draw s).1.fX = some w ∧ v <+: w := by
  obtain ⟨more, h1, _, _⟩ := drawLoop_spec next draw s.X []
  rw [List.nil_append] at h1
  unfold seqSample
  cases hd : drawLoop next draw (s.X, []) with
  | mk p o =>
    rw [hd] at h1
    obtain ⟨X, new⟩ := p
    simp only at h1
    obtain ⟨rfl, rfl⟩ := Prod.mk.inj h1
    cases o with
    | some e => exact ⟨List.prefix_append _ _, fun v hv => ⟨v, hv, List.prefix_refl _⟩⟩
    | none =>
      simp only
      cases he : eval new with
      | error e => exact ⟨List.prefix_append _ _, fun v hv => ⟨v, hv, List.prefix_refl _⟩⟩
      | ok w => exact ⟨List.prefix_append _ _, fun v hv => ⟨v ++ w, by simp [storeValues, hv], List.prefix_append _ _⟩⟩

/-- C46: as shipped, the name of the point chooser is not bound: every call with a positive number of draws raises a `NameError` and
changes nothing. -/
theorem seqSample_shipped (eval : List α → Except Err (List β)) (draw : ℕ) (hd : 1 ≤ draw) (s : SamplerState α β) :
    seqSample none eval draw s = (s, some .nameError) := by
  obtain ⟨n, rfl⟩ : ∃ n, draw = n + 1 := ⟨draw - 1, by omega⟩
  simp [seqSample, drawLoop]

/-- C46: so every history of calls of the shipped code leaves the state as it was. -/
theorem seqHistory_shipped (eval : List α → Except Err (List β)) (draws : List ℕ) (hd : ∀ d ∈ draws, 1 ≤ d) (s : SamplerState α β) :
    seqHistory none eval draws s = s := by
  unfold seqHistory
  induction draws with
  | nil => rfl
  | cons d ds ih =>
    rw [List.foldl_cons, seqSample_shipped eval d (hd d List.mem_cons_self)]
    exact ih (fun d' h => hd d' (List.mem_cons_of_mem _ h))

/-- C46, disagreement: if evaluating the function fails, the points have been stored already, and after a later successful call the
values are those of other points. -/
theorem seqSample_failure_false : ∃ (next : List ℕ → Except Err ℕ) (evalFail evalOk : List ℕ → Except Err (List ℕ)) (s : SamplerState ℕ ℕ),
    Aligned id s ∧ (∀ xs v, evalOk xs = .ok v → v = xs.map id) ∧ (seqSample (some next) evalFail 1 s).2 = some .valueError ∧
      (seqSample (some next) evalOk 1 (seqSample (some next) evalFail 1 s).1).2 = none ∧
      (seqSample (some next) evalOk 1 (seqSample (some next) evalFail 1 s).1).1 = ⟨[0, 1], some [1]⟩ := by
  refine ⟨fun X => .ok X.length, fun _ => .error .valueError, fun xs => .ok xs, ⟨[], none⟩, .inr ⟨rfl, rfl⟩, ?_, rfl, rfl, rfl⟩
  intro xs v h
  cases h
  simp

/-- C46, disagreement: a sampler given points without values stores only the values of the new points. -/
theorem seqSample_novalues_false : ∃ (next : List ℕ → Except Err ℕ) (s : SamplerState ℕ ℕ),
    samplerInit (β := ℕ) (fun _ => true) (some [7]) none = .ok s ∧ seqSample (some next) (fun xs => .ok xs) 1 s = (⟨[7, 1], some [1]⟩, none) :=
  ⟨fun X => .ok X.length, ⟨[7], none⟩, rfl, rfl⟩

/-- C46: the constructor accepts exactly matching numbers of points and values, and keeps what it is given. -/
theorem samplerInit_ok_iff (dimOk : List α → Bool) (X : Option (List α)) (fX : Option (List β)) (s : SamplerState α β) :
    samplerInit dimOk X fX = .ok s ↔ s = ⟨X.getD [], fX⟩ ∧ (∀ x, X = some x → dimOk x = true) ∧ ∀ v, fX = some v → v.length = (X.getD []).length := by
  unfold samplerInit
  cases X with
  | none =>
    cases fX with
    | none => simp [@eq_comm _ s]
    | some v => by_cases h : v.length = 0 <;> simp_all [@eq_comm _ s]
  | some x =>
    by_cases hd : dimOk x = true
    · cases fX with
      | none => simp [hd, @eq_comm _ s]
      | some v => by_cases h : v.length = x.length <;> simp [hd, h, @eq_comm _ s]
    · simp [hd]

/-- C46: with values for the given points, the new sampler is aligned. -/
theorem samplerInit_aligned (g : α → β) (dimOk : List α → Bool) (X : List α) (h : dimOk X = true) :
    ∃ s, samplerInit dimOk (some X) (some (X.map g)) = .ok s ∧ Aligned g s :=
  ⟨⟨X, some (X.map g)⟩, by simp [samplerInit, h], .inl rfl⟩

/-- C46: the asynchronous call and the stretched sampler raise and change nothing. -/
theorem async_unchanged (s : SamplerState α β) (d : ℕ) : sampleAsync s = (s, some .notImplemented) ∧ stretchedSample s d = (s, some .typeError) := ⟨rfl, rfl⟩

example : seqSample (some (fun X : List ℕ => .ok X.length)) (fun xs => .ok (xs.map (· + 10))) 2 ⟨[], none⟩ = (⟨[0, 1], some [10, 11]⟩, none) := rfl

end Verif.Samp
