import Verif.Go.Basic

/-! Model of package `collections/sortedset` (collections/sortedset/sorted_set.go).  The only constructor returns a nil
pointer, so the methods are modelled up to the first use of a field; what `haxmap` (not in the repository) and the tree do with
a real object is a parameter. -/

namespace Gds.SortedSet

/-- sorted_set.go:11-15: the object a `*SortedSet` points to; its fields are opaque. -/
structure Obj (K V : Type) where
  hashmap : K → Option V

/-- sorted_set.go:17-20 `New` -/
def new (K V : Type) : Option (Obj K V) := none

/-- sorted_set.go:22-36 `Set`: `set.hashmap` dereferences the receiver first; `rest` is everything after. -/
def set {K V : Type} (rest : Obj K V → K → V → Res (Obj K V)) (s : Option (Obj K V)) (k : K) (v : V) : Res (Option (Obj K V)) :=
  match s with
  | none => .panic .nilDeref
  | some o => do
    let o ← rest o k v
    return some o

/-- sorted_set.go:38-40 `Get` -/
def get {K V : Type} (s : Option (Obj K V)) (k : K) : Res (Option V) :=
  match s with
  | none => .panic .nilDeref
  | some o => .ok (o.hashmap k)

/-- A call. -/
inductive Call (K V : Type) where
  | set (k : K) (v : V)
  | get (k : K)

/-- A sequence of calls on one set (no citation: the client). -/
def run {K V : Type} (rest : Obj K V → K → V → Res (Obj K V)) (s : Option (Obj K V)) : List (Call K V) → Res (List (Option V))
  | [] => .ok []
  | .set k v :: cs => do
    let s ← set rest s k v
    run rest s cs
  | .get k :: cs => do
    let v ← get s k
    let vs ← run rest s cs
    return v :: vs

end Gds.SortedSet
