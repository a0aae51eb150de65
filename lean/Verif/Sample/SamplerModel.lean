import Verif.Domain.Model

/-!
# Model of the sampler objects

Source: `/repo/psdr/sample/sample.py` 26-168 (`Sampler`, `SequentialMaximinSampler`, `StretchedSampler`).

Points are values of a type `α`, rows of function values are values of a type `β`; `fun.eval` on a list of points is a parameter that
may raise. The function `seq_maximin_sample` that chooses the next point is looked up when the loop body runs: `next = none` models
the module as it is (sample.py 1-20 does not import that name), `next = some f` a module where the name is bound. Printing and the
shapes of the arrays (`vstack` against `hstack`) are left out: both append the new rows after the old ones.
-/

namespace Verif.Samp

open Verif.Domain

variable {α β : Type*}

/-- `self._X`, `self._fX`. -/
structure SamplerState (α β : Type*) where
  X : List α
  fX : Option (List β)

/-- `Sampler.__init__`, sample.py 38-55; the columns of `X` are checked by `dimOk`. -/
def samplerInit (dimOk : List α → Bool) (X : Option (List α)) (fX : Option (List β)) : Except Err (SamplerState α β) :=
  match X with
  | none => match fX with
    | none => .ok ⟨[], none⟩
    | some v => if v.length = 0 then .ok ⟨[], some v⟩ else .error .assertion
  | some X => if dimOk X then
      match fX with
      | none => .ok ⟨X, none⟩
      | some v => if v.length = X.length then .ok ⟨X, some v⟩ else .error .assertion
    else .error .assertion

/-- The drawing loop, sample.py 132-138: `self._X` is extended point by point. Returns the object's points and the new ones. -/
def drawLoop (next : Option (List α → Except Err α)) : ℕ → List α × List α → (List α × List α) × Option Err
  | 0, p => (p, none)
  | n + 1, p =>
    match next with
    | none => (p, some .nameError)
    | some f =>
      match f p.1 with
      | .error e => (p, some e)
      | .ok x => drawLoop next n (p.1 ++ [x], p.2 ++ [x])

/-- `self._fX` after the new values, sample.py 143-149. -/
def storeValues (fX : Option (List β)) (v : List β) : Option (List β) :=
  match fX with
  | none => some v
  | some w => some (w ++ v)

/-- `SequentialMaximinSampler._sample(draw)`, sample.py 130-149: the state after the call, and the exception if one was raised. -/
def seqSample (next : Option (List α → Except Err α)) (eval : List α → Except Err (List β)) (draw : ℕ) (s : SamplerState α β) :
    SamplerState α β × Option Err :=
  match drawLoop next draw (s.X, []) with
  | ((X, _), some e) => (⟨X, s.fX⟩, some e)
  | ((X, new), none) =>
    match eval new with
    | .error e => (⟨X, s.fX⟩, some e)
    | .ok v => (⟨X, storeValues s.fX v⟩, none)

/-- A history of calls `sample(d₁), sample(d₂), …` in which exceptions are caught by the caller. -/
def seqHistory (next : Option (List α → Except Err α)) (eval : List α → Except Err (List β)) (draws : List ℕ) (s : SamplerState α β) : SamplerState α β :=
  draws.foldl (fun s d => (seqSample next eval d s).1) s

/-- `Sampler.sample_async`, sample.py 69-81: not implemented by any class. -/
def sampleAsync (s : SamplerState α β) : SamplerState α β × Option Err := (s, some .notImplemented)

/-- `StretchedSampler._sample`, sample.py 163-168: nothing is drawn; `sample(draw)` passes the keyword `verbose`, which this method does
not take. -/
def stretchedSample (s : SamplerState α β) (_draw : ℕ) : SamplerState α β × Option Err := (s, some .typeError)

end Verif.Samp
