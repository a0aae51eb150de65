import Verif.Geometry.VsampleModel
import Verif.Sample.ClusterModel
import Mathlib.Analysis.SpecialFunctions.Pow.Real
import Mathlib.Data.Real.Archimedean

/-!
# Model of `seq_maximin_sample`

Source: `/repo/psdr/sample/seqmaximin.py` 11-221.

The Voronoi vertices of every metric (C92, starting from C98), the emptiness test of a domain with added equality constraints, the candidates drawn from such a domain (C98, C92) and
`corner` (C13, C14) are parameters, as is the order returned by `np.argsort`.
-/

namespace Verif.Samp

open Verif Verif.Domain Verif.Geo Matrix

variable {m : ℕ}

/-- A metric given by a matrix with any number of rows. -/
abbrev Metric (m : ℕ) := Σ k : ℕ, Matrix (Fin k) (Fin m) ℝ

/-- The added constraints `L x = L v`, as pairs. -/
abbrev EqCons (m : ℕ) := List (Metric m × Lip.Pt m)

/-- The product of the distances to the nearest sample in all metrics, seqmaximin.py 172-178. -/
noncomputable def prodScore (Ls : List (Metric m)) (Xhat : List (Lip.Pt m)) (x : Lip.Pt m) : ℝ := (Ls.map fun L => nearest L.2 Xhat x).prod

/-- The constraints added greedily in the given order until the domain becomes empty, seqmaximin.py 147-156, and the metrics they belong to. -/
def addCons (empty : EqCons m → Bool) (pick : ℕ → Metric m × Lip.Pt m) : List ℕ → EqCons m → List ℕ → EqCons m × List ℕ
  | [], C, F => (C, F)
  | k :: ks, C, F => if empty (C ++ [pick k]) then (C, F) else addCons empty pick ks (C ++ [pick k]) (F ++ [k])

/-- `found_idx`: the indices of the vertices used, `-1` where no constraint was added. -/
def foundIdx (idx F : List ℕ) : List ℤ := idx.mapIdx fun k i => if k ∈ F then (i : ℤ) else -1

/-- `np.argsort` applied to the values `key`, used to reorder a list. -/
abbrev Sorter := ∀ α : Type, (α → ℝ) → List α → List α

/-- The vertices of one metric, seqmaximin.py 93-104: duplicates in the metric removed, ordered by decreasing distance to the samples. -/
noncomputable def metricVerts (sort : Sorter) (L : Metric m) (Xhat raw : List (Lip.Pt m)) : List (Lip.Pt m) :=
  sort _ (fun v => -nearest L.2 Xhat v) (select raw (uniquePoints (raw.map fun v => L.2 *ᵥ v)))

/-- `max(2, int(np.floor(1e2**(1./len(Ls) ))))`, seqmaximin.py 112. -/
noncomputable def maxVerts (n : ℕ) : ℕ := max 2 ⌊(100 : ℝ) ^ (1 / (n : ℝ))⌋₊

/-- `itertools.product` of the ranges, seqmaximin.py 115-126. -/
def tuples : List ℕ → List (List ℕ)
  | [] => [[]]
  | n :: ns => (List.range n).flatMap fun a => (tuples ns).map fun t => a :: t

/-- The vertex of metric `k` named by the tuple `i`. -/
def vertOf (V : List (List (Lip.Pt m))) (i : List ℕ) (k : ℕ) : Lip.Pt m := (V.getD k []).getD (i.getD k 0) 0

/-- Its distance to the samples. -/
noncomputable def vertDist (Ls : List (Metric m)) (V : List (List (Lip.Pt m))) (Xhat : List (Lip.Pt m)) (i : List ℕ) (k : ℕ) : ℝ :=
  nearest (Ls.getD k ⟨0, 0⟩).2 Xhat (vertOf V i k)

/-- The oracles: emptiness of the domain with added constraints, candidates from such a domain, Voronoi vertices of the domain in a metric, and sorting. -/
structure SeqOracle (m : ℕ) where
  empty : EqCons m → Bool
  cand : EqCons m → Except Err (List (Lip.Pt m))
  raw : Metric m → Except Err (List (Lip.Pt m))
  sort : Sorter

/-- What does not change during the search: the oracles, the constraint of metric `k` for the tuple `i`, and the order in which the metrics are treated. -/
structure SeqCtx (m : ℕ) where
  empty : EqCons m → Bool
  cand : EqCons m → Except Err (List (Lip.Pt m))
  pick : List ℕ → ℕ → Metric m × Lip.Pt m
  order : List ℕ → List ℕ

/-- The data of the search for the vertices `V`, seqmaximin.py 147-150. -/
noncomputable def seqCtx (o : SeqOracle m) (Ls : List (Metric m)) (V : List (List (Lip.Pt m))) (Xhat : List (Lip.Pt m)) : SeqCtx m where
  empty := o.empty
  cand := o.cand
  pick i k := (Ls.getD k ⟨0, 0⟩, vertOf V i k)
  order i := o.sort _ (fun k => -vertDist Ls V Xhat i k) (List.range Ls.length)

/-- The tuples in decreasing order of the product of the distances, seqmaximin.py 124-131 (the code sorts by the sum of the logarithms). -/
noncomputable def seqIdx (o : SeqOracle m) (Ls : List (Metric m)) (V : List (List (Lip.Pt m))) (Xhat : List (Lip.Pt m)) : List (List ℕ) :=
  o.sort _ (fun i => -((List.range Ls.length).map (vertDist Ls V Xhat i)).prod) (tuples (V.map fun v => min v.length (maxVerts Ls.length)))

/-- `while len(idx) > 0`, seqmaximin.py 138-163: the first tuple that leads to constraints not used before, with the remaining tuples. -/
def nextNew (c : SeqCtx m) (used : List (List ℤ)) : List (List ℕ) → Option (EqCons m × List ℕ × List ℤ × List (List ℕ))
  | [] => none
  | i :: idx =>
    let r := addCons c.empty (c.pick i) (c.order i) [] []
    if foundIdx i r.2 ∈ used then nextNew c used idx else some (r.1, r.2, foundIdx i r.2, idx)

open Classical in
/-- `for it in range(100)`, seqmaximin.py 136-189: the candidates found. -/
noncomputable def seqLoop (c : SeqCtx m) (Ls : List (Metric m)) (Xhat : List (Lip.Pt m)) (slack : ℝ) : ℕ → List (List ℤ) → List (List ℕ) → List (Lip.Pt m) →
    Except Err (List (Lip.Pt m))
  | 0, _, _, X => .ok X
  | fuel + 1, used, idx, X =>
    match nextNew c used idx with
    | none => .ok X
    | some (C, F, f, rest) =>
      match c.cand C with
      | .error e => .error e
      | .ok [] => .error .valueError
      | .ok (y :: ys) =>
        if maxL ((y :: ys).map (prodScore Ls Xhat)) < slack * maxL ((X ++ y :: ys).map (prodScore Ls Xhat)) ∧ F.length = Ls.length then .ok (X ++ y :: ys)
        else seqLoop c Ls Xhat slack fuel (used ++ [f]) rest (X ++ y :: ys)

open Classical in
/-- The final choice, seqmaximin.py 193-221. -/
noncomputable def seqPick (Ls : List (Metric m)) (Xhat : List (Lip.Pt m)) (slack : ℝ) (X : List (Lip.Pt m)) : Except Err (Lip.Pt m) :=
  let K := select X (uniquePoints X)
  let G := K.filter fun x => maxL (K.map (prodScore Ls Xhat)) * slack ≤ prodScore Ls Xhat x
  match G[argminFrom (fun j => -nearest (1 : Matrix (Fin m) (Fin m) ℝ) Xhat (G.getD j 0)) 0 (List.range G.length)]? with
  | some x => .ok x
  | none => .error .valueError

/-- The search and the final choice, seqmaximin.py 126-221. -/
noncomputable def seqSearch (c : SeqCtx m) (Ls : List (Metric m)) (Xhat : List (Lip.Pt m)) (slack : ℝ) (idx : List (List ℕ)) : Except Err (Lip.Pt m) :=
  match seqLoop c Ls Xhat slack 100 [] idx [] with
  | .error e => .error e
  | .ok [] => .error .valueError
  | .ok X => seqPick Ls Xhat slack X

/-- `seq_maximin_sample` with at least one sample. -/
noncomputable def seqMaximin (o : SeqOracle m) (Ls : List (Metric m)) (Xhat : List (Lip.Pt m)) (slack : ℝ) : Except Err (Lip.Pt m) :=
  match mapE o.raw Ls with
  | .error e => .error e
  | .ok R =>
    if Ls = [] then .error .zeroDivision else
    let V := List.zipWith (fun L raw => metricVerts o.sort L Xhat raw) Ls R
    seqSearch (seqCtx o Ls V Xhat) Ls Xhat slack (seqIdx o Ls V Xhat)

/-- `seq_maximin_sample` without samples, seqmaximin.py 63-70: `V` are the right singular vectors that belong to singular values close to the largest one, `g` the
random numbers. -/
def seqFirst {n : ℕ} (corner : Lip.Pt m → Except Err (Lip.Pt m)) (V : Fin n → Lip.Pt m) (g : Fin n → ℝ) : Except Err (Lip.Pt m) := corner (∑ i, g i • V i)

end Verif.Samp
