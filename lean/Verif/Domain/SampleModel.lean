import Verif.Domain.HullModel
import Verif.Domain.QueryModel
import Verif.Domain.SweepModel

/-!
# Model of `sample`

Sources: `/repo/psdr/domains/euclidean.py` 570-600, `box.py` 59-63, `point.py` 47-48, `normal.py` 96-110,
`convexhull.py` 221-246, `tensor.py` 65-69.

The random number generators are parameters.  Samples are lists of rows; for `draw == 1` the code
flattens the single row (euclidean.py 597-598), which is not modelled.  `none` means that the call has
not returned (the rejection loop of `NormalDomain` is still running after the given number of rounds).
-/

namespace Verif.Domain

open Classical Verif

/-- The random numbers seen by one `_sample` call. -/
structure Rand where
  /-- `np.random.uniform(0, 1)` by row and column -/
  unif : ℕ → ℕ → ℝ
  /-- the standard normal rows: round of the rejection loop, then row -/
  gauss : ℕ → ℕ → Vec

/-- `np.random.uniform(lb, ub)` for one entry: `lb + (ub - lb)*u`. -/
noncomputable def unifEntry (l u : XR) (w : ℝ) : ℝ := l.toReal + (u.toReal - l.toReal) * w

/-- One row of the box sample. -/
noncomputable def unifRow (lb ub : List XR) (w : ℕ → ℝ) : Vec :=
  (List.zip lb ub).mapIdx (fun j lu => unifEntry lu.1 lu.2 (w j))

/-- `BoxDomain._sample`, box.py 59-63; `empty` is the remembered `_empty`; numpy raises OverflowError for
infinite ranges. -/
noncomputable def boxSample (lb ub : List XR) (empty : Option Bool) (r : Rand) (draw : ℕ) : Except Err (List Vec) :=
  if (empty.getD (boxEmpty lb ub)) = true then .error .emptyDomain
  else if ∃ v ∈ lb ++ ub, ¬ v.isFinite then .error .overflow
  else .ok ((List.range draw).map (fun i => unifRow lb ub (r.unif i)))

/-- One round of the rejection loop of `NormalDomain._sample`, normal.py 103-106.  (Row `i` of round `k` takes the
fresh row `gauss k i`; the generator is arbitrary, so the order in which fresh rows are used is immaterial.) -/
noncomputable def rejectRound (clip : ℝ) (g : ℕ → Vec) (X : List Vec) : List Vec :=
  X.mapIdx (fun i z => if Vec.sumSq z > clip then g i else z)

/-- The rejection loop, normal.py 101-106, for at most `fuel` rounds, starting with round `k`. -/
noncomputable def rejectLoop (clip : ℝ) (g : ℕ → ℕ → Vec) : ℕ → ℕ → List Vec → Option (List Vec)
  | 0, _, _ => none
  | fuel + 1, k, X =>
    if ∀ z ∈ X, ¬ Vec.sumSq z > clip then some X
    else rejectLoop clip g fuel (k + 1) (rejectRound clip (g k) X)

/-- `NormalDomain._sample`, normal.py 96-110; `L` is the Cholesky factor (rows). -/
noncomputable def normalSample (mean : Vec) (L : List Vec) (clip : Option ℝ) (fuel : ℕ) (r : Rand) (draw : ℕ) :
    Option (List Vec) :=
  let X0 := (List.range draw).map (r.gauss 0)
  let Z := match clip with
    | none => some X0
    | some c => rejectLoop c r.gauss fuel 1 X0
  Z.map (fun X => X.map (fun z => Vec.add mean (Vec.mulVec L z)))

/-- The two-point sampler of a hull with its assertions, convexhull.py 225-237. -/
noncomputable def twoPointSample (TOL : ℝ) (X : List Vec) (d : LQ) (r : Rand) (draw : ℕ) : Option (List Vec) :=
  match X with
  | [x0, x1] =>
    let Y := (List.range draw).map (fun i => twoPoint x0 x1 (r.unif i 0))
    if ∀ y ∈ Y, d.inAll TOL y then some Y else none
  | _ => none

/-- The remaining ingredients of a sample: the Cholesky factor of normal domains, the conversion of hulls,
the default sampler (hit-and-run, `HitRunModel`), the number of rounds, the remembered `_empty` of boxes. -/
structure SampleEnv where
  chol : Base → List Vec
  hullO : List Vec → HullOracle
  other : Base → ℕ → Option (Except Err (List Vec))
  fuel : ℕ
  empty : Base → Option Bool

/-- `_sample(draw)` by class. -/
noncomputable def Base.sampleRaw (E : SampleEnv) (TOL : ℝ) (r : Rand) (draw : ℕ) (d : Base) : Option (Except Err (List Vec)) :=
  match d with
  | .box lb ub => some (boxSample lb ub (E.empty (.box lb ub)) r draw)
  | .point x => some (.ok (List.replicate draw x))
  | .normal mean Linv clip => (normalSample mean (E.chol (.normal mean Linv clip)) clip E.fuel r draw).map .ok
  | .hull X q =>
    if X.length = 1 then some (.ok (List.replicate draw (X.headD [])))
    else match twoPointSample TOL X q r draw with
      | some Y => some (.ok Y)
      | none => if q.n ≤ 3 then E.other (.linquad (hullToLinineq (E.hullO X) X q)) draw
          else E.other (.hull X q) draw
  | d => E.other d draw

/-- `sample(draw)`, euclidean.py 570-600. -/
noncomputable def Base.sample (E : SampleEnv) (TOL : ℝ) (r : Rand) (draw : ℤ) (d : Base) : Option (Except Err (List Vec)) :=
  if draw ≤ 0 then some (.ok []) else d.sampleRaw E TOL r draw.toNat

/-- `np.hstack` of the factors' samples, tensor.py 65-69 (one factor after the other; errors propagate). -/
noncomputable def stackSamples (E : SampleEnv) (TOL : ℝ) (draw : ℤ) : List (Base × Rand) → Option (Except Err (List Vec))
  | [] => some (.error .valueError)
  | [(d, r)] => d.sample E TOL r draw
  | (d, r) :: ds =>
    match d.sample E TOL r draw with
    | none => none
    | some (.error e) => some (.error e)
    | some (.ok X) => match stackSamples E TOL draw ds with
      | none => none
      | some (.error e) => some (.error e)
      | some (.ok Y) => some (.ok (List.zipWith (· ++ ·) X Y))

/-- `sample(draw)` of a domain; `rs` are the random numbers of the factors. -/
noncomputable def Dom.sample (E : SampleEnv) (TOL : ℝ) (rs : ℕ → Rand) (draw : ℤ) : Dom → Option (Except Err (List Vec))
  | .base d => d.sample E TOL (rs 0) draw
  | .tensor ds => if draw ≤ 0 then some (.ok []) else stackSamples E TOL draw (ds.mapIdx (fun i d => (d, rs i)))

end Verif.Domain
