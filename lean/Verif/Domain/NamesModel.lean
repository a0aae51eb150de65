import Verif.Domain.NormModel

/-!
# Model of coordinate names

Sources: `/repo/psdr/domains/euclidean.py` 31-60, `tensor.py` 41-42, `linquad.py` 247-252, 351-360, `linineq.py`
55-58, `box.py` 80-82, `normal.py` 118-123, `convexhull.py` 279-301.
-/

namespace Verif.Domain

open Classical Verif

/-- The argument `names` of the constructors. -/
inductive NameArg where
  | none
  | str (s : String)
  | list (l : List String)

/-- `'%d' % n`. -/
def fmtD (n : ℕ) : String := Nat.repr n

/-- The default names, euclidean.py 46. -/
def defaultNames (n : ℕ) : List String := (List.range n).map (fun i => "x" ++ fmtD i)

/-- `_init_names`, euclidean.py 49-60: the attribute `_names`, if set. -/
def initNames (n : ℕ) : NameArg → Except Err (Option (List String))
  | .none => .ok Option.none
  | .str s => if n = 1 then .ok (some [s]) else .ok (some ((List.range n).map (fun j => s ++ (" " ++ fmtD (j + 1)))))
  | .list l => if n = l.length then .ok (some l) else .error .assertion

/-- A domain object with its names. -/
structure NBase where
  dom : Base
  nm : Option (List String)

/-- Construction of a domain with the argument `names`. -/
noncomputable def mkNamed (d : Base) (a : NameArg) : Except Err NBase := do
  let nm ← initNames d.len a
  pure ⟨d, nm⟩

/-- The property `names`, euclidean.py 40-47. -/
noncomputable def NBase.names (N : NBase) : List String := N.nm.getD (defaultNames N.dom.len)

/-- Domains with names; a tensor product has those of its factors. -/
inductive NDom where
  | base (d : NBase)
  | tensor (ds : List NBase)

/-- The domain without names. -/
def NDom.dom : NDom → Dom
  | .base d => .base d.dom
  | .tensor ds => .tensor (ds.map NBase.dom)

/-- `names`, euclidean.py 40-47 and tensor.py 41-42. -/
noncomputable def NDom.names : NDom → List String
  | .base d => d.names
  | .tensor ds => (ds.map NBase.names).flatten

/-- `normalized_domain` with names: linquad.py 248, linineq.py 56, box.py 81, normal.py 120. -/
noncomputable def NBase.normalized (fb : CornerOracle) (N : NBase) : Except Err NBase := do
  let d ← N.dom.normalizedDomain fb
  mkNamed d (.list (N.names.map (· ++ " (normalized)")))

/-- `normalized_domain` with names; tensor.py 103-105. -/
noncomputable def NDom.normalized (fb : CornerOracle) : NDom → Except Err NDom
  | .base d => (d.normalized fb).map NDom.base
  | .tensor ds => (ds.mapM (NBase.normalized fb)).map NDom.tensor

/-- `add_constraints` with names, linquad.py 351-360 and convexhull.py 300-301. -/
noncomputable def NDom.addConstraints (N : NDom) (a : Args) : Except Err NBase := do
  let d ← N.dom.addConstraints a
  mkNamed d (.list N.names)

/-- `a & b` with names: those of the operand whose method runs (`Dom.and`). -/
noncomputable def NDom.and (a b : NDom) : Except Err NBase := do
  let d ← a.dom.and b.dom
  mkNamed d (.list (if a.dom.isLinQuadClass then a.names else b.names))

end Verif.Domain
