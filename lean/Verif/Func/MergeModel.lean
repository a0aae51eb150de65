import Verif.Func.FunctionModel

/-!
# Model of `misc.merge` on python dictionaries in memory

Source: `/repo/psdr/misc.py` 6-9.  Dictionaries are insertion-ordered association lists; a heap maps
object identities to dictionaries, so that aliasing and mutation are visible.
-/

namespace Verif.Func

/-- Contents of a dictionary in insertion order. -/
abbrev Dict (V : Type) := List (String × V)

variable {V : Type}

/-- `d[k] = v`: overwrite in place, or append a new key. -/
def Dict.setItem (d : Dict V) (k : String) (v : V) : Dict V :=
  if d.any (fun p => p.1 = k) then d.map (fun p => if p.1 = k then (k, v) else p) else d ++ [(k, v)]

/-- `d.update(e)`. -/
def Dict.update (d e : Dict V) : Dict V := e.foldl (fun d p => d.setItem p.1 p.2) d

/-- `d.get(k)`. -/
def Dict.get (d : Dict V) (k : String) : Option V := (d.find? (fun p => p.1 = k)).map Prod.snd

/-- Keys of a dictionary are distinct. -/
def Dict.WF (d : Dict V) : Prop := (d.map Prod.fst).Nodup

/-- Dictionaries in memory: identity `i` is the `i`-th allocated object. -/
abbrev Heap (V : Type) := List (Dict V)

/-- `z = x.copy()`: allocate a new object. -/
def Heap.copy (H : Heap V) (x : ℕ) : Heap V × ℕ := (H ++ [H.getD x []], H.length)

/-- `z.update(y)`: mutate the object `z`. -/
def Heap.updateAt (H : Heap V) (z y : ℕ) : Heap V := H.set z ((H.getD z []).update (H.getD y []))

/-- `merge(x, y)`, misc.py 6-9. -/
def mergeHeap (H : Heap V) (x y : ℕ) : Heap V × ℕ :=
  let p := H.copy x
  (p.1.updateAt p.2 y, p.2)

end Verif.Func
