import Mathlib.Algebra.Order.Floor.Ring
import Mathlib.Algebra.Order.Archimedean.Real.Basic
import Verif.Domain.Model
import Verif.Lipschitz.BoundModel

/-!
# Model of Poisson disk sampling

Source: `/repo/psdr/sample/poisson.py` 6-58 (`poisson_disk_sample`) and 61-147 (`poisson_disk_sample_grid`).

Every random quantity is an arbitrary input: the first sample, the choice among the active points, the directions and the radii. The
loops run over a list of draws, one per pass of the outer loop; `none` (or `.ok none`) means that the loop has not ended when the draws
are used up. A direction `p` with `‖L p‖ = 0` makes the code divide by zero, and the trial point then has no finite coordinates; such a
trial is taken to be rejected.
-/

namespace Verif.Samp

open Verif Verif.Domain Matrix

variable {k m : ℕ}

/-- The draws of one pass of the outer loop: the choice among the active indices and the trials (direction and radius). -/
structure DiskDraw (m : ℕ) where
  pick : List ℕ → ℕ
  pick_mem : ∀ l, l ≠ [] → pick l ∈ l
  trials : List (Lip.Pt m × ℝ)

/-- The points found so far and the active flags. -/
structure DiskState (m : ℕ) where
  X : List (Lip.Pt m)
  active : List Bool

/-- `np.argwhere(active)`. -/
def activeIdx (a : List Bool) : List ℕ := (List.range a.length).filter (fun i => a.getD i false)

/-- The trial point `X[i] + ri*p` with `p /= np.linalg.norm(L.dot(p))`, poisson.py 37-44. -/
noncomputable def trialPoint (L : Matrix (Fin k) (Fin m) ℝ) (x : Lip.Pt m) (t : Lip.Pt m × ℝ) : Lip.Pt m :=
  x + (t.2 / Lip.nrm (L *ᵥ t.1)) • t.1

/-- The acceptance test, poisson.py 46-49: inside and farther than `r` from all points. -/
def diskOk (L : Matrix (Fin k) (Fin m) ℝ) (inside : Lip.Pt m → Prop) (r : ℝ) (X : List (Lip.Pt m)) (xc : Lip.Pt m) : Prop :=
  inside xc ∧ ∀ y ∈ X, r < Lip.ldist L xc y

open Classical in
/-- The loop over the trials, poisson.py 35-53: the first accepted trial point. -/
noncomputable def firstTrial (L : Matrix (Fin k) (Fin m) ℝ) (ok : Lip.Pt m → Prop) (x : Lip.Pt m) (trials : List (Lip.Pt m × ℝ)) :
    Option (Lip.Pt m) :=
  (trials.find? (fun t => decide (Lip.nrm (L *ᵥ t.1) ≠ 0 ∧ ok (trialPoint L x t)))).map (trialPoint L x)

/-- One pass of the outer loop, poisson.py 26-56, for the chosen active index. -/
noncomputable def diskStep (L : Matrix (Fin k) (Fin m) ℝ) (inside : Lip.Pt m → Prop) (r : ℝ) (s : DiskState m) (d : DiskDraw m) : DiskState m :=
  match firstTrial L (diskOk L inside r s.X) (s.X.getD (d.pick (activeIdx s.active)) 0) d.trials with
  | some xc => ⟨s.X ++ [xc], s.active ++ [true]⟩
  | none => ⟨s.X, s.active.set (d.pick (activeIdx s.active)) false⟩

open Classical in
/-- The outer loop, poisson.py 26-58: it ends when no point is active. -/
noncomputable def diskRun (L : Matrix (Fin k) (Fin m) ℝ) (inside : Lip.Pt m → Prop) (r : ℝ) : List (DiskDraw m) → DiskState m → Option (List (Lip.Pt m))
  | [], s => if activeIdx s.active = [] then some s.X else none
  | d :: ds, s => if activeIdx s.active = [] then some s.X else diskRun L inside r ds (diskStep L inside r s d)

/-- `poisson_disk_sample(domain, r, L)`, poisson.py 6-58, with the first sample `x0`. -/
noncomputable def poissonDisk (L : Matrix (Fin k) (Fin m) ℝ) (inside : Lip.Pt m → Prop) (r : ℝ) (x0 : Lip.Pt m) (ds : List (DiskDraw m)) :
    Option (List (Lip.Pt m)) := diskRun L inside r ds ⟨[x0], [true]⟩

/-! ### The variant with a grid -/

/-- The background grid: cell size, start and number of cells in each direction. -/
structure Grid (k : ℕ) where
  size : ℝ
  start : Fin k → ℝ
  dims : Fin k → ℤ

/-- Setting up the grid from the extreme values `lo`, `hi` of `L x` over the domain, poisson.py 78-91. -/
noncomputable def mkGrid (r : ℝ) (lo hi : Fin k → ℝ) : Grid k :=
  ⟨r / Real.sqrt k, lo, fun i => ⌈(hi i - lo i) / (r / Real.sqrt k)⌉⟩

/-- `grid_coord(x)`, poisson.py 93-97. -/
noncomputable def gridCoord (L : Matrix (Fin k) (Fin m) ℝ) (G : Grid k) (x : Lip.Pt m) : Fin k → ℤ :=
  fun i => ⌊((L *ᵥ x) i - G.start i) / G.size⌋

/-- The position addressed by an index tuple: negative entries count from the end, as in numpy; `none` is an `IndexError`. -/
def address (dims idx : Fin k → ℤ) : Option (Fin k → ℤ) :=
  if ∀ i, -dims i ≤ idx i ∧ idx i < dims i then some (fun i => if idx i < 0 then idx i + dims i else idx i) else none

/-- The state with the grid contents (`0` for an empty cell, otherwise the number of the point counted from one). -/
structure GridState (k m : ℕ) where
  X : List (Lip.Pt m)
  active : List Bool
  cells : (Fin k → ℤ) → ℕ

/-- `grid_rad`, poisson.py 124. -/
noncomputable def gridRad (k : ℕ) : ℤ := 2 * ⌈Real.sqrt k⌉ + 1

/-- The acceptance test of the grid variant, poisson.py 121-141: only the points recorded in the cells of the neighbourhood are
compared (cells outside the array are skipped); with no neighbours the distance is taken as `2 r`. -/
noncomputable def gridOk (L : Matrix (Fin k) (Fin m) ℝ) (inside : Lip.Pt m → Prop) (r : ℝ) (G : Grid k) (s : GridState k m) (xc : Lip.Pt m) : Prop :=
  inside xc ∧ r < 2 * r ∧ ∀ idx : Fin k → ℤ, (∀ i, gridCoord L G xc i - gridRad k ≤ idx i ∧ idx i ≤ gridCoord L G xc i + gridRad k) →
    (∀ i, 0 ≤ idx i ∧ idx i < G.dims i) → s.cells idx ≠ 0 → r < Lip.ldist L xc (s.X.getD (s.cells idx - 1) 0)

open Classical in
/-- `grid[tuple(idx)] = n`, poisson.py 103 and 145; an index out of range raises. -/
noncomputable def gridWrite (G : Grid k) (cells : (Fin k → ℤ) → ℕ) (idx : Fin k → ℤ) (n : ℕ) : Except Err ((Fin k → ℤ) → ℕ) :=
  match address G.dims idx with
  | none => .error .indexError
  | some a => .ok (fun c => if c = a then n else cells c)

/-- Recording an accepted point, poisson.py 142-146. -/
noncomputable def gridAccept (L : Matrix (Fin k) (Fin m) ℝ) (G : Grid k) (s : GridState k m) (xc : Lip.Pt m) : Except Err (GridState k m) :=
  match gridWrite G s.cells (gridCoord L G xc) (s.X.length + 1) with
  | .error e => .error e
  | .ok cells => .ok ⟨s.X ++ [xc], s.active ++ [true], cells⟩

/-- One pass of the outer loop of the grid variant, poisson.py 104-146. -/
noncomputable def gridStep (L : Matrix (Fin k) (Fin m) ℝ) (inside : Lip.Pt m → Prop) (r : ℝ) (G : Grid k) (s : GridState k m) (d : DiskDraw m) :
    Except Err (GridState k m) :=
  match firstTrial L (gridOk L inside r G s) (s.X.getD (d.pick (activeIdx s.active)) 0) d.trials with
  | some xc => gridAccept L G s xc
  | none => .ok ⟨s.X, s.active.set (d.pick (activeIdx s.active)) false, s.cells⟩

open Classical in
/-- The outer loop of the grid variant. -/
noncomputable def gridRun (L : Matrix (Fin k) (Fin m) ℝ) (inside : Lip.Pt m → Prop) (r : ℝ) (G : Grid k) :
    List (DiskDraw m) → GridState k m → Except Err (Option (List (Lip.Pt m)))
  | [], s => if activeIdx s.active = [] then .ok (some s.X) else .ok none
  | d :: ds, s =>
    if activeIdx s.active = [] then .ok (some s.X)
    else match gridStep L inside r G s d with
      | .error e => .error e
      | .ok s' => gridRun L inside r G ds s'

/-- `poisson_disk_sample_grid(domain, r, L)`, poisson.py 61-147. -/
noncomputable def poissonGrid (L : Matrix (Fin k) (Fin m) ℝ) (inside : Lip.Pt m → Prop) (r : ℝ) (lo hi : Fin k → ℝ) (x0 : Lip.Pt m)
    (ds : List (DiskDraw m)) : Except Err (Option (List (Lip.Pt m))) :=
  match gridWrite (mkGrid r lo hi) (fun _ => 0) (gridCoord L (mkGrid r lo hi) x0) 1 with
  | .error e => .error e
  | .ok cells => gridRun L inside r (mkGrid r lo hi) ds ⟨[x0], [true], cells⟩

end Verif.Samp
