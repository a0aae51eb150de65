import Mathlib.Data.Real.Basic
import Mathlib.Algebra.BigOperators.Fin
import Mathlib.Algebra.BigOperators.Intervals
import Mathlib.Algebra.Order.BigOperators.Group.Finset

/-!
# Model of the linear constraints of the nozzle demo

Source: `/repo/psdr/demos/_multif_linear_constraints.py`.

Rows are written entry by entry into a matrix of zeros, in the order of the code (a later entry overwrites an earlier one); then the columns of
fixed quantities are moved to the right hand side. Indices are natural numbers; vectors are functions of the index together with their
length. The printed messages are left out. (For `piecewiseBilinearAxial` there is at least one x-coordinate, otherwise Python's negative
indices would come in.)
-/

namespace Verif.Demo

open Finset

/-- What can go wrong: an index outside an array, `max` of an empty sequence, a wrong number of slope limits (the function then returns
`0, 0`), and the `RuntimeError` of `piecewiseBilinearAxial`. -/
inductive NozErr where
  | indexError
  | valueError
  | wrongLimits
  | runtimeError
  deriving DecidableEq

/-- One constraint: the entries assigned, in order, and the right hand side. -/
structure Con where
  entries : List (ℕ × ℝ)
  rhs : ℝ

/-- The row of `B`, zero where nothing is assigned. -/
noncomputable def Con.row (k : Con) : ℕ → ℝ := k.entries.foldl (fun r q => Function.update r q.1 q.2) 0

/-- `B` has 100 rows and `n` columns (lines 38-41 and 220-223): append constraints, or `IndexError`. -/
def emit (n : ℕ) (done new : List Con) : Except NozErr (List Con) :=
  if (∀ k ∈ new, ∀ q ∈ k.entries, q.1 < n) ∧ done.length + new.length ≤ 100 then .ok (done ++ new) else .error .indexError

/-- A linear system `A p <= b` with `cols` columns. -/
structure LinSys where
  cols : ℕ
  rows : List ((ℕ → ℝ) × ℝ)

/-- The system is satisfied by `p`. -/
def LinSys.Holds (S : LinSys) (p : ℕ → ℝ) : Prop := ∀ r ∈ S.rows, ∑ k ∈ range S.cols, r.1 k * p k ≤ r.2

/-- The largest entry, `max(v)`. -/
def maxVar : List ℕ → ℕ := fun v => v.foldr max 0

/-- One row of `A`: column `v[i]-1` gets the entries of the variables, lines 175-179. -/
noncomputable def elimRow (n : ℕ) (v : List ℕ) (r : ℕ → ℝ) : ℕ → ℝ :=
  fun k => ∑ i ∈ range n, if v.getD i 0 = k + 1 then r i else 0

/-- One entry of `b`: the fixed quantities are moved to the right hand side, lines 175-177. -/
noncomputable def elimRhs (n : ℕ) (v : List ℕ) (x : List ℝ) (r : ℕ → ℝ) (c : ℝ) : ℝ :=
  c - ∑ i ∈ range n, if v.getD i 0 = 0 then x.getD i 0 * r i else 0

/-- "Remove columns from B that are not design variables", lines 171-179, 276-285 and 320-329, for `n` local quantities with values `x` and
variable numbers `v` (0: not a variable). -/
noncomputable def eliminate (n : ℕ) (v : List ℕ) (x : List ℝ) (cons : List Con) : Except NozErr LinSys :=
  if v = [] then .error .valueError
  else if v.length < n then .error .indexError
  else if ∃ i, i < n ∧ v.getD i 0 = 0 ∧ x.length ≤ i then .error .indexError
  else .ok ⟨maxVar v, cons.map (fun k => (elimRow n v k.row, elimRhs n v x k.row k.rhs))⟩

/-! ## `bspline`, lines 28-184 -/

/-- A slope limit: absent, one number, or a list. -/
inductive Lim where
  | none
  | one (s : ℝ)
  | each (l : List ℝ)

/-- `m_bound`, e.g. lines 98-108: one limit for each of `nseg` segments. -/
noncomputable def Lim.bounds (nseg : ℕ) : Lim → Except NozErr (Option (List ℝ))
  | .none => .ok Option.none
  | .one s => .ok (some (List.replicate nseg s))
  | .each l => if l.length = nseg then .ok (some l) else .error .wrongLimits

/-- The arguments of `bspline`. -/
structure Wall where
  x : List ℝ
  v : List ℕ
  throat : ℕ
  preLo : Lim
  preHi : Lim
  postLo : Lim
  postHi : Lim
  xleft : Option ℝ
  xright : Option ℝ
  delta : ℝ
  lowest : Bool
  minThroat : Option ℝ
  maxThroat : Option ℝ

/-- `n_local`, line 34. -/
def Wall.n (W : Wall) : ℕ := W.x.length
/-- `nx`, line 35. -/
def Wall.nx (W : Wall) : ℕ := W.n / 2

/-- The gaps of lines 48-51: `0.05` next to the throat, `delta` elsewhere. -/
noncomputable def Wall.gap (W : Wall) (i : ℕ) : ℝ :=
  if i = W.throat ∨ i = W.throat + 1 ∨ i = W.throat + 2 then 0.05 else W.delta

/-- The integers `a, …, b - 1`. -/
def rangeFrom (a b : ℕ) : List ℕ := (List.range (b - a)).map (fun j => a + j)

/-- Cross-over of x-coordinates, lines 43-53. -/
noncomputable def Wall.cross (W : Wall) : List Con :=
  (match W.xleft with
    | some xl => [⟨[(0, -1)], -W.delta - xl⟩]
    | Option.none => []) ++
  (rangeFrom 1 W.nx).map (fun i => ⟨[(i, -1), (i - 1, 1)], -W.gap i⟩) ++
  (match W.xright with
    | some xr => [⟨[(W.nx - 1, 1)], xr - W.delta⟩]
    | Option.none => [])

/-- Width of the throat, lines 57-63. -/
noncomputable def Wall.width (W : Wall) : List Con :=
  if W.throat ≠ 0 then
    [⟨[(W.throat + 2, 1), (W.throat + 1, -1)], 0.1⟩, ⟨[(W.throat, 1), (W.throat - 1, -1)], 0.1⟩]
  else []

/-- The throat is the lowest point, lines 67-81. -/
noncomputable def Wall.low (W : Wall) : List Con :=
  if W.lowest = true ∧ W.throat ≠ 0 then
    ⟨[(W.nx + W.throat, 1), (W.nx + W.throat - 1, -1)], -0.01⟩ ::
      (rangeFrom (W.nx + W.throat + 1) W.n).map (fun i => ⟨[(i, -1), (W.nx + W.throat, 1)], -0.01⟩)
  else []

/-- Least and largest radius, lines 83-95. -/
noncomputable def Wall.radii (W : Wall) : List Con :=
  (match W.minThroat with
    | some r => (rangeFrom W.nx W.n).map (fun i => ⟨[(i, -1)], -r⟩)
    | Option.none => []) ++
  (match W.maxThroat with
    | some r => (rangeFrom W.nx W.n).map (fun i => ⟨[(i, 1)], r⟩)
    | Option.none => [])

/-- Lower bounds of slopes of the segments `a, …, b - 1`, lines 109-111 and 146-148. -/
noncomputable def slopeLo (nx a b : ℕ) : Option (List ℝ) → List Con
  | some l => (List.range (b - a)).map (fun j =>
      ⟨[(a + j, l.getD j 0), (a + j - 1, -l.getD j 0), (a + j + nx, -1), (a + j + nx - 1, 1)], 0⟩)
  | Option.none => []

/-- Upper bounds of slopes of the segments `a, …, b - 1`, lines 127-129 and 165-167. -/
noncomputable def slopeHi (nx a b : ℕ) : Option (List ℝ) → List Con
  | some l => (List.range (b - a)).map (fun j =>
      ⟨[(a + j, -l.getD j 0), (a + j - 1, l.getD j 0), (a + j + nx, 1), (a + j + nx - 1, -1)], 0⟩)
  | Option.none => []

/-- A limit that only counts if there is a throat, lines 98 and 116. -/
def ifThroat (t : ℕ) (l : Lim) : Lim := if t ≠ 0 then l else .none

/-- All constraints of `bspline`. -/
noncomputable def Wall.cons (W : Wall) : Except NozErr (List Con) := do
  let r ← emit W.n [] W.cross
  let r ← emit W.n r W.width
  let r ← emit W.n r W.low
  let r ← emit W.n r W.radii
  let l ← (ifThroat W.throat W.preLo).bounds (W.throat - 1)
  let r ← emit W.n r (slopeLo W.nx 1 W.throat l)
  let l ← (ifThroat W.throat W.preHi).bounds (W.throat - 1)
  let r ← emit W.n r (slopeHi W.nx 1 W.throat l)
  let l ← W.postLo.bounds (W.nx - 1 - (W.throat + 2))
  let r ← emit W.n r (slopeLo W.nx (W.throat + 3) W.nx l)
  let l ← W.postHi.bounds (W.nx - 1 - (W.throat + 2))
  emit W.n r (slopeHi W.nx (W.throat + 3) W.nx l)

/-- `bspline`. -/
noncomputable def bspline (W : Wall) : Except NozErr LinSys := do
  let cons ← W.cons
  eliminate W.n W.v W.x cons

/-! ## `piecewiseBilinearAxial`, lines 200-290 -/

/-- The arguments of `piecewiseBilinearAxial`. -/
structure Layer where
  x : List ℝ
  y : List ℝ
  z : List ℝ
  v : List ℕ
  slopeMin : ℝ
  slopeMax : ℝ
  xleft : Option ℝ
  xright : Option ℝ
  deltax : ℝ
  deltay : Option ℝ
  deltaz : Option ℝ

/-- Cross-over of x-coordinates, lines 225-231. -/
noncomputable def Layer.crossX (K : Layer) : List Con :=
  (match K.xleft with
    | some xl => [⟨[(0, -1)], -K.deltax - xl⟩]
    | none => []) ++
  (rangeFrom 1 K.x.length).map (fun i => ⟨[(i, -1), (i - 1, 1)], -K.deltax⟩) ++
  (match K.xright with
    | some xr => [⟨[(K.x.length - 1, 1)], xr - K.deltax⟩]
    | none => [])

/-- Cross-over of y-coordinates, lines 236-240: `range(1+nx-1, ny+nx-1)`. -/
noncomputable def Layer.crossY (K : Layer) : List Con :=
  match K.deltay with
  | some d => (rangeFrom K.x.length (K.y.length + K.x.length - 1)).map (fun i => ⟨[(i, -1), (i - 1, 1)], -d⟩)
  | none => []

/-- The place of `z(x_i, y_j)`. -/
def Layer.zi (K : Layer) (i j : ℕ) : ℕ := K.x.length + K.y.length + j * K.x.length + i

/-- Lower bounds of slopes, lines 244-248. -/
noncomputable def Layer.lo (K : Layer) : List Con :=
  (rangeFrom 1 K.x.length).flatMap (fun i => (List.range K.y.length).map (fun j =>
    ⟨[(i, K.slopeMin), (i - 1, -K.slopeMin), (K.zi i j - 1, 1), (K.zi i j, -1)], 0⟩))

/-- Upper bounds of slopes, lines 252-256. -/
noncomputable def Layer.hi (K : Layer) : List Con :=
  (rangeFrom 1 K.x.length).flatMap (fun i => (List.range K.y.length).map (fun j =>
    ⟨[(i, -K.slopeMax), (i - 1, K.slopeMax), (K.zi i j - 1, -1), (K.zi i j, 1)], 0⟩))

/-- Differences of thickness around the circumference, lines 260-272. (The second index of the first pair is `nx + ny + i + (ny-1)*nx`.) -/
noncomputable def Layer.thick (K : Layer) : List Con :=
  match K.deltaz with
  | some d => (List.range K.x.length).flatMap (fun i =>
      [⟨[(K.zi i 0, 1), (K.zi i (K.y.length - 1), -1)], d⟩, ⟨[(K.zi i 0, -1), (K.zi i (K.y.length - 1), 1)], d⟩] ++
      (rangeFrom 1 K.y.length).flatMap (fun j =>
        [⟨[(K.zi i j, 1), (K.zi i (j - 1), -1)], d⟩, ⟨[(K.zi i j, -1), (K.zi i (j - 1), 1)], d⟩]))
  | none => []

/-- `piecewiseBilinearAxial`. -/
noncomputable def piecewiseBilinearAxial (K : Layer) : Except NozErr LinSys := do
  if K.z.length ≠ K.x.length * K.y.length ∨ K.v.length ≠ K.x.length + K.y.length + K.z.length then throw .runtimeError
  let r ← emit K.v.length [] K.crossX
  let r ← emit K.v.length r K.crossY
  let r ← emit K.v.length r K.lo
  let r ← emit K.v.length r K.hi
  let r ← emit K.v.length r K.thick
  eliminate K.v.length K.v (K.x ++ K.y ++ K.z) r

/-! ## `baffles` and `cleanupConstraintMatrix`, lines 303-375 -/

/-- The constraints of `baffles`, lines 305-317. -/
noncomputable def baffleCons (nx : ℕ) (lo hi : ℝ) : List Con :=
  (rangeFrom 1 nx).flatMap (fun i => [⟨[(i, 1), (i - 1, -1)], hi⟩, ⟨[(i, -1), (i - 1, 1)], -lo⟩])

/-- `baffles`; here the matrix has exactly the rows needed. -/
noncomputable def baffles (x t : List ℝ) (v : List ℕ) (lo hi : ℝ) : Except NozErr LinSys :=
  if ∀ k ∈ baffleCons x.length lo hi, ∀ q ∈ k.entries, q.1 < v.length then
    eliminate v.length v (x ++ t) (baffleCons x.length lo hi)
  else .error .indexError

open Classical in
/-- `cleanupConstraintMatrix`: the rows of all systems, padded by zeros, except those without entries; `np.max` of no systems raises. -/
noncomputable def cleanup (Ss : List LinSys) : Except NozErr LinSys :=
  if Ss = [] then .error .valueError
  else
    let cols := maxVar (Ss.map LinSys.cols)
    let rows := Ss.flatMap (fun S => S.rows.map (fun r => (fun k => if k < S.cols then r.1 k else 0, r.2)))
    .ok ⟨cols, rows.filter (fun r => decide (∃ k, k < cols ∧ r.1 k ≠ 0))⟩

end Verif.Demo
