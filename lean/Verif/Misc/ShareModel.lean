import Verif.Domain.SweepModel

/-!
# Model of arrays shared between objects and their callers

Sources: the constructors, fits and properties cited at each class below; `/repo/psdr/domains/euclidean.py` 387-442 (`sweep`),
`/repo/psdr/lipschitz_utils.py` 150-180 (the iterative projection), `/repo/psdr/sample/maximin.py` 86-116, `/repo/psdr/geometry/vertex.py`
187-306, `/repo/psdr/sample/minimax_lloyd.py` 56-141, `/repo/psdr/sample/minimax.py` 318-319.

Arrays live at addresses of a heap. Only the entries are modelled, not the shape. `np.copy(x)`, `np.array(x)`, fancy indexing and every arithmetic
operation give a new array; an assignment `self._x = x`, `np.atleast_2d(x)` and `x.reshape(..)` of an array refer to the memory of `x`.
Plain attributes that are not properties or methods of the documented interface are not offered to the caller.
-/

namespace Verif.Share

open Verif

/-- Addresses of arrays. -/
abbrev Ref := ℕ

/-- The memory: the entries of the arrays, and the first free address. -/
structure Heap where
  at' : Ref → Vec
  next : Ref

/-- A new array. -/
def Heap.alloc (h : Heap) (v : Vec) : Heap × Ref := (⟨Function.update h.at' h.next v, h.next + 1⟩, h.next)

/-- Overwrite the entries of an array in place. -/
def Heap.write (h : Heap) (r : Ref) (v : Vec) : Heap := ⟨Function.update h.at' r v, h.next⟩

/-- How an object comes to an array: it refers to the `i`-th argument, or to a new array computed from the arguments. -/
inductive Build
  | keep (i : ℕ)
  | fresh (f : List Vec → Vec)

/-- What a property or method returns: the `i`-th array of the object itself, or a new array with its entries. -/
inductive Getter
  | share (i : ℕ)
  | copy (i : ℕ)

/-- A class: the number of array arguments, its arrays, and its properties. -/
structure Cls where
  arity : ℕ
  build : List Build
  getters : List Getter

/-- Constructing (or fitting) an object: the arrays of the object. -/
def construct : List Build → Heap → List Ref → Heap × List Ref
  | [], h, _ => (h, [])
  | .keep i :: bs, h, args =>
    let r := construct bs h args
    (r.1, args.getD i 0 :: r.2)
  | .fresh f :: bs, h, args =>
    let a := h.alloc (f (args.map h.at'))
    let r := construct bs a.1 args
    (r.1, a.2 :: r.2)

/-- What the caller does: write into an array known to them, make an array, or read the `k`-th property of the object. -/
inductive Act
  | write (r : Ref) (v : Vec)
  | new (v : Vec)
  | get (k : ℕ)

open Classical in
/-- One action of a caller who knows the arrays in the set. -/
noncomputable def act (c : Cls) (o : List Ref) (s : Heap × Set Ref) : Act → Heap × Set Ref
  | .write r v => if r ∈ s.2 then (s.1.write r v, s.2) else s
  | .new v => let a := s.1.alloc v; (a.1, insert a.2 s.2)
  | .get k =>
    match c.getters[k]? with
    | some (.share i) => (s.1, insert (o.getD i 0) s.2)
    | some (.copy i) => let a := s.1.alloc (s.1.at' (o.getD i 0)); (a.1, insert a.2 s.2)
    | none => s

/-- A history of actions. -/
noncomputable def history (c : Cls) (o : List Ref) (s : Heap × Set Ref) (as : List Act) : Heap × Set Ref := as.foldl (act c o) s

/-- The entries of the arrays of an object: everything its answers depend on. -/
def content (h : Heap) (o : List Ref) : List Vec := o.map h.at'

/-! ## The classes -/

/-- Copying one argument. -/
def cp (i : ℕ) : Build := .fresh fun vs => vs.getD i []

/-- Domains given by constraints (`LinQuadDomain`, `LinIneqDomain`, `BoxDomain`): `lb`, `ub`, `A`, `b`, `A_eq`, `b_eq` and the matrices and centres of quadratic
constraints (one of each), linquad.py 124-206, 213-240. -/
def linQuadCls : Cls := ⟨8, [cp 0, cp 1, cp 2, cp 3, cp 4, cp 5, cp 6, cp 7],
  [.share 0, .share 1, .share 2, .share 3, .share 4, .share 5, .share 6, .share 7]⟩

/-- `ConvexHullDomain`: `unique` are the points kept, convexhull.py 144-146, 214-215 (constraints as in `linQuadCls`, left out). -/
def hullCls (unique : Vec → Vec) : Cls := ⟨1, [.fresh fun vs => unique (vs.getD 0 [])], [.copy 0]⟩

/-- `PointDomain`: the point and two copies as bounds, point.py 22-38; `closest_point` and `corner` return copies of the point. -/
def pointCls : Cls := ⟨1, [cp 0, cp 0, cp 0], [.copy 0, .share 1, .share 2]⟩

/-- `Sampler`, sample.py 38-53, 83-94. -/
def samplerCls : Cls := ⟨2, [cp 0, cp 1], [.copy 0, .copy 1]⟩

/-- A fitted `ActiveSubspace`: gradients, weights, directions, singular values, matrix; subspace.py 325-339, 357-367. -/
def activeCls (U s C : List Vec → Vec) : Cls := ⟨2, [cp 0, cp 1, .fresh U, .fresh s, .fresh C], [.copy 2, .share 3, .share 4]⟩

/-- A fitted `LipschitzMatrix`: `U`, `H`, `L`; lipschitz.py 160-178, 191-203. -/
def lipFitCls (U H L : List Vec → Vec) : Cls := ⟨3, [.fresh U, .fresh H, .fresh L], [.copy 0, .share 1, .share 2]⟩

/-- `LipschitzMatrix(L = L)`, lipschitz.py 78-79. -/
def lipGivenCls : Cls := ⟨1, [.keep 0], [.share 0]⟩

/-- A fitted `PartialLipschitzMatrix`: `U` and `J`, lipschitz_partial.py 96-104, 123-131. -/
def partialCls (U J : List Vec → Vec) : Cls := ⟨3, [.fresh U, .fresh J], [.share 0, .share 1]⟩

/-- `PolynomialRidgeFunction(basis, coef, U)`, polyridge.py 26-30 and ridge.py 11-13. -/
def ridgeCls : Cls := ⟨2, [cp 0, cp 1], [.share 1]⟩

/-- A fitted `LipschitzApproximation` (arguments `L`, `X`, `fX`), lipschitz_approx.py 48-64; `U` is the property of ridge functions. -/
def lipApproxCls (U y : List Vec → Vec) : Cls := ⟨3, [cp 0, .fresh U, cp 1, cp 2, .fresh y], [.share 0, .copy 1]⟩

/-- A fitted `GaussianProcess`: samples, values and parameters, gp.py 290-291, 323-324, 363; it has no properties. -/
def gpCls (ell : List Vec → Vec) : Cls := ⟨2, [cp 0, cp 1, .fresh ell], []⟩

/-- The tensor bases: the points and the scaling, basis.py 103-107, 127-137; `V()` computes from them. -/
def tensorCls (lb ub : List Vec → Vec) : Cls := ⟨1, [.keep 0, .fresh lb, .fresh ub], []⟩

/-- `ArnoldiPolynomialBasis`: the points, `Q` and `R`; `V()` returns `Q`; basis.py 438-443, 513-515. -/
def arnoldiCls (Q R : List Vec → Vec) : Cls := ⟨1, [cp 0, .fresh Q, .fresh R], [.share 1]⟩

/-- `LowerBound` and `UpperBound` of the Lipschitz bounds (`L`, `X`, `fX`), lipschitz.py 648-651, 668-671. -/
def boundCls (Y : List Vec → Vec) : Cls := ⟨3, [.keep 0, .fresh Y, .keep 2], []⟩

/-- `domain.copy()`: a deep copy of the arrays, domain.py 18-19; its properties are those of `linQuadCls`. -/
def deepCopy (h : Heap) (o : List Ref) : Heap × List Ref := construct ((List.range o.length).map cp) h o

/-! ## Functions that work in place -/

/-- A loop that updates an array in place, after copying its argument or not; the address of the result. -/
def inPlace (copyFirst : Bool) (steps : List (Vec → Vec)) (h : Heap) (r : Ref) : Heap × Ref :=
  let a := if copyFirst then h.alloc (h.at' r) else (h, r)
  (steps.foldl (fun g f => g.write a.2 (f (g.at' a.2))) a.1, a.2)

/-- The iterative projection onto the constraints of evaluations: `H = np.copy(H)` and `H += ...`, lipschitz_utils.py 166-177. The updates are the steps. -/
def projectHeap := inPlace true

/-- `maximin_block`: `X = np.array(X0)` and `X[i] = x`, maximin.py 91-115. -/
def maximinBlockHeap := inPlace true

/-- `voronoi_vertex_sample`: `X0 = np.atleast_2d(np.array(X0)).copy()` and `X0 += ...`, vertex.py 190, 306. -/
def vertexHeap := inPlace true

/-- `minimax_lloyd` with a start design: `Xhat[:,:] = Xhat_new[:,:]`, minimax_lloyd.py 134, 141. -/
def lloydHeap := inPlace false

/-- The direction given to `sweep`: a list, an array of floats, or an array of integers. -/
inductive Dir
  | list (v : Vec)
  | floats (r : Ref)
  | ints (r : Ref)

open Classical in
/-- `sweep(n, x, p)` with the model of C17, euclidean.py 387-442: `p -= Qeq.dot(Qeq.T.dot(p))` makes a new array for a list, works in place for an array of
floats and is refused for integers (numpy does not cast the float result of the in-place operation back to integers). -/
noncomputable def sweepHeap (nnls : Domain.NNLS) (TOL tol : ℝ) (he : Domain.HullExtent) (Q : List Vec) (D : Domain.Dom) (n : ℤ) (x : Vec) (h : Heap) :
    Dir → Heap × Except Domain.Err Domain.SweepOut
  | .list v => (h, (D.sweep nnls TOL tol he Q n x v).1)
  | .floats r => (h.write r (D.sweep nnls TOL tol he Q n x (h.at' r)).2, (D.sweep nnls TOL tol he Q n x (h.at' r)).1)
  | .ints r =>
    if ¬ D.isInside nnls TOL x then (h, .error .assertion)
    else if (h.at' r).length ≠ D.len then (h, .error .assertion)
    else (h, .error .typeError)

/-- `if 'warm_start' not in solver_opts: solver_opts['warm_start'] = True`, minimax.py 318-319, on the dictionary of the caller. -/
def warmStart (opts : List (String × Bool)) : List (String × Bool) :=
  if (opts.map Prod.fst).contains "warm_start" then opts else opts ++ [("warm_start", true)]

end Verif.Share
