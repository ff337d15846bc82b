import Verif.Go.Basic

/-! Model of package `collections/bplustree` (bplustree.go, bplustree_node.go).

Nodes are addresses in a heap, one function per field; a nil pointer is `none` and using it panics.  `values` has `2*degree-1`
slots and `children` has `2*degree`; indexing outside panics.  Nodes are made at fresh addresses.  Slots beyond `num` keep
whatever was last written to them, as in the code.

Simplifications: `degree` is a natural number (a negative degree makes `make` panic just as degree 0 does) and `num` is a natural
number (`num -= 1` is only executed on nodes with `num >= 1`; `Gds.BPlus.structure_all_histories` proves the counts). -/

namespace Gds.BPlus

/-- bplustree_node.go:9-17 `Node`, all nodes, one function for each field. -/
structure Heap (K V : Type) where
  prev : Nat → Option Nat
  next : Nat → Option Nat
  values : Nat → Nat → K × V
  children : Nat → Nat → Option Nat
  num : Nat → Nat
  isLeaf : Nat → Bool

/-- bplustree.go:17-22 `Tree` (the comparator is a parameter of the operations), with the heap of its nodes. -/
structure Tree (K V : Type) where
  h : Heap K V
  fresh : Nat
  root : Option Nat
  size : Int
  degree : Nat

variable {K V : Type}

namespace Tree

/-- `p.values[i]` -/
def getVal (t : Tree K V) (p : Option Nat) (i : Nat) : Res (K × V) :=
  match p with
  | none => .panic .nilDeref
  | some p => if i < 2 * t.degree - 1 then .ok (t.h.values p i) else .panic .indexOutOfRange
/-- `p.values[i] = v` -/
def setVal (t : Tree K V) (p : Option Nat) (i : Nat) (v : K × V) : Res (Tree K V) :=
  match p with
  | none => .panic .nilDeref
  | some p => if i < 2 * t.degree - 1 then
      .ok { t with h := { t.h with values := fun q j => if q = p ∧ j = i then v else t.h.values q j } }
    else .panic .indexOutOfRange
/-- `p.children[i]` -/
def getKid (t : Tree K V) (p : Option Nat) (i : Nat) : Res (Option Nat) :=
  match p with
  | none => .panic .nilDeref
  | some p => if i < 2 * t.degree then .ok (t.h.children p i) else .panic .indexOutOfRange
/-- `p.children[i] = c` -/
def setKid (t : Tree K V) (p : Option Nat) (i : Nat) (c : Option Nat) : Res (Tree K V) :=
  match p with
  | none => .panic .nilDeref
  | some p => if i < 2 * t.degree then
      .ok { t with h := { t.h with children := fun q j => if q = p ∧ j = i then c else t.h.children q j } }
    else .panic .indexOutOfRange
/-- `p.num` -/
def getNum (t : Tree K V) (p : Option Nat) : Res Nat :=
  match p with
  | none => .panic .nilDeref
  | some p => .ok (t.h.num p)
/-- `p.num = n` -/
def setNum (t : Tree K V) (p : Option Nat) (n : Nat) : Res (Tree K V) :=
  match p with
  | none => .panic .nilDeref
  | some p => .ok { t with h := { t.h with num := fun q => if q = p then n else t.h.num q } }
/-- `p.isLeaf` -/
def getLeaf (t : Tree K V) (p : Option Nat) : Res Bool :=
  match p with
  | none => .panic .nilDeref
  | some p => .ok (t.h.isLeaf p)
/-- `p.isLeaf = b` -/
def setLeaf (t : Tree K V) (p : Option Nat) (b : Bool) : Res (Tree K V) :=
  match p with
  | none => .panic .nilDeref
  | some p => .ok { t with h := { t.h with isLeaf := fun q => if q = p then b else t.h.isLeaf q } }
/-- `p.next` -/
def getNext (t : Tree K V) (p : Option Nat) : Res (Option Nat) :=
  match p with
  | none => .panic .nilDeref
  | some p => .ok (t.h.next p)
/-- `p.next = q` -/
def setNext (t : Tree K V) (p c : Option Nat) : Res (Tree K V) :=
  match p with
  | none => .panic .nilDeref
  | some p => .ok { t with h := { t.h with next := fun q => if q = p then c else t.h.next q } }
/-- `p.prev = q` -/
def setPrev (t : Tree K V) (p c : Option Nat) : Res (Tree K V) :=
  match p with
  | none => .panic .nilDeref
  | some p => .ok { t with h := { t.h with prev := fun q => if q = p then c else t.h.prev q } }

/-- The loop `for i := 0; i < n; i++ { dst.values[a+i] = src.values[b+i] }`, the shape of every ascending copy of values in
    the package (bplustree.go:118-120, 258-260, 263-265, 272-275, 351-353, 446-448). -/
def copyValsUp (t : Tree K V) (dst : Option Nat) (a : Nat) (src : Option Nat) (b : Nat) : Nat → Res (Tree K V)
  | 0 => .ok t
  | n + 1 => do
    let v ← t.getVal src b
    let t ← t.setVal dst a v
    copyValsUp t dst (a + 1) src (b + 1) n

/-- The loop `for i := n; i > 0; i-- { p.values[a+i] = p.values[a+i-1] }` (bplustree.go:138-140, 421-423). -/
def shiftValsDown (t : Tree K V) (p : Option Nat) (a : Nat) : Nat → Res (Tree K V)
  | 0 => .ok t
  | n + 1 => do
    let v ← t.getVal p (a + n)
    let t ← t.setVal p (a + n + 1) v
    shiftValsDown t p a n

/-- The loop `for i := 0; i < n; i++ { dst.children[a+i] = src.children[b+i] }`, the shape of every ascending copy of
    children (bplustree.go:123-125, 267-269, 272-275, 452-454). -/
def copyKidsUp (t : Tree K V) (dst : Option Nat) (a : Nat) (src : Option Nat) (b : Nat) : Nat → Res (Tree K V)
  | 0 => .ok t
  | n + 1 => do
    let v ← t.getKid src b
    let t ← t.setKid dst a v
    copyKidsUp t dst (a + 1) src (b + 1) n

/-- The loop `for i := n; i > 0; i-- { p.children[a+i] = p.children[a+i-1] }` (bplustree.go:133-135, 426-428). -/
def shiftKidsDown (t : Tree K V) (p : Option Nat) (a : Nat) : Nat → Res (Tree K V)
  | 0 => .ok t
  | n + 1 => do
    let v ← t.getKid p (a + n)
    let t ← t.setKid p (a + n + 1) v
    shiftKidsDown t p a n

end Tree

open Tree
variable [Inhabited K] [Inhabited V]

/-- bplustree.go:39-47 `NewNode`, the zeroed slots (`degree >= 1`; the new node is `some t.fresh`). -/
def newNode (t : Tree K V) : Tree K V :=
  { t with
    fresh := t.fresh + 1
    h := { prev := fun q => if q = t.fresh then none else t.h.prev q
           next := fun q => if q = t.fresh then none else t.h.next q
           values := fun q j => if q = t.fresh then default else t.h.values q j
           children := fun q j => if q = t.fresh then none else t.h.children q j
           num := fun q => if q = t.fresh then 0 else t.h.num q
           isLeaf := fun q => if q = t.fresh then true else t.h.isLeaf q } }

/-- bplustree.go:24-37 `NewMap`, `Init`.  `make` with a negative length panics. -/
def newMap (degree : Nat) : Res (Tree K V) := do
  if degree = 0 then .panic .sliceBounds
  else
    let t : Tree K V :=
      { h := { prev := fun _ => none, next := fun _ => none, values := fun _ _ => default, children := fun _ _ => none,
               num := fun _ => 0, isLeaf := fun _ => false },
        fresh := 0, root := none, size := 0, degree := degree }
    let t := newNode t
    let t := { t with root := some 0 }
    let t ← t.setPrev t.root t.root
    t.setNext t.root t.root

/-- bplustree.go:111-152 `splitChild`: lines 112-116 make the new node, then the loops and the link update. -/
def splitChild (t : Tree K V) (parent child : Option Nat) (pos : Nat) : Res (Tree K V) := do
  let M := t.degree
  let newChild := some t.fresh
  let t := newNode t
  let lf ← t.getLeaf child
  let t ← t.setLeaf newChild lf
  let t ← t.setNum newChild (M - 1)
  let t ← t.copyValsUp newChild 0 child M (M - 1)
  let t ← if lf = false then t.copyKidsUp newChild 0 child M M else .ok t
  let t ← t.setNum child (if lf then M - 1 + 1 else M - 1)
  let pn ← t.getNum parent
  let t ← t.shiftKidsDown parent (pos + 1) (pn - pos)
  let t ← t.setKid parent (pos + 1) newChild
  let t ← t.shiftValsDown parent pos (pn - pos)
  let v ← t.getVal child (M - 1)
  let t ← t.setVal parent pos v
  let t ← t.setNum parent (pn + 1)
  if lf then
    let cn ← t.getNext child
    let t ← t.setNext newChild cn
    let t ← t.setPrev cn newChild
    let t ← t.setPrev newChild child
    t.setNext child newChild
  else .ok t

/-- bplustree.go:156-160, the loop of the leaf case of `insertNonFull`: shift larger entries up; answers the final `pos`. -/
def leafShift (cmp : Compare K) (t : Tree K V) (node : Option Nat) (key : K) : Nat → Res (Tree K V × Nat)
  | 0 => .ok (t, 0)
  | pos + 1 => do
    let v ← t.getVal node pos
    if cmp key v.1 < 0 then
      let t ← t.setVal node (pos + 1) v
      leafShift cmp t node key pos
    else .ok (t, pos + 1)

/-- bplustree.go:167-170, the loop of the inner case of `insertNonFull`. -/
def descendPos (cmp : Compare K) (t : Tree K V) (node : Option Nat) (key : K) : Nat → Res Nat
  | 0 => .ok 0
  | pos + 1 => do
    let v ← t.getVal node pos
    if cmp key v.1 < 0 then descendPos cmp t node key pos else .ok (pos + 1)

/-- bplustree.go:154-181 `insertNonFull` -/
def insertNonFull (cmp : Compare K) (t : Tree K V) (node : Option Nat) (p : K × V) : Res (Tree K V) := do
  let lf ← t.getLeaf node
  if lf then
    let n ← t.getNum node
    let (t, pos) ← leafShift cmp t node p.1 n
    let t ← t.setVal node pos p
    let t ← t.setNum node (n + 1)
    .ok { t with size := t.size + 1 }
  else
    let n ← t.getNum node
    let pos ← descendPos cmp t node p.1 n
    let c ← t.getKid node pos
    let cn ← t.getNum c
    if 2 * t.degree - 1 = cn then
      let t ← splitChild t node c pos
      let v ← t.getVal node pos
      let c ← t.getKid node (if cmp v.1 p.1 < 0 then pos + 1 else pos)
      insertNonFull cmp t c p
    else
      insertNonFull cmp t c p
partial_fixpoint

/-- bplustree.go:183-198 `insert`, with the assignment of its result to `bt.root` (bplustree.go:239, 248). -/
def insert (cmp : Compare K) (t : Tree K V) (p : K × V) : Res (Tree K V) := do
  if t.root = none then .ok { t with root := none }
  else
    let n ← t.getNum t.root
    if t.degree * 2 - 1 = n then
      let root := t.root
      let node := some t.fresh
      let t := newNode t
      let t ← t.setLeaf node false
      let t ← t.setKid node 0 root
      let t ← splitChild t node root 0
      let t ← insertNonFull cmp t node p
      .ok { t with root := node }
    else
      insertNonFull cmp t t.root p

/-- bplustree.go:210-224, the binary search in one node; `hi` is the code's `r + 1`.  Answers `l`, `mid`, `exist`. -/
def bsearch (cmp : Compare K) (t : Tree K V) (node : Option Nat) (key : K) (l hi mid : Nat) : Res (Nat × Nat × Bool) :=
  if l < hi then do
    let mid := (l + (hi - 1)) / 2
    let v ← t.getVal node mid
    let c := cmp key v.1
    if c < 0 then bsearch cmp t node key l mid mid
    else if 0 < c then bsearch cmp t node key (mid + 1) hi mid
    else .ok (l, mid, true)
  else .ok (l, mid, false)
termination_by hi - l

/-- bplustree.go:204-233, the loop of `search`. -/
def searchLoop (cmp : Compare K) (t : Tree K V) (node : Option Nat) (key : K) : Res (Option Nat × Nat × Bool) := do
  let n ← t.getNum node
  let (l, mid, exist) ← bsearch cmp t node key 0 n 0
  let lf ← t.getLeaf node
  if lf then
    if exist then .ok (node, mid, true) else .ok (node, l, false)
  else
    let c ← t.getKid node l
    searchLoop cmp t c key
partial_fixpoint

/-- bplustree.go:200-233 `search` (always called on `bt.root`); the index `-1` of the empty answer is never used. -/
def search (cmp : Compare K) (t : Tree K V) (key : K) : Res (Option Nat × Nat × Bool) :=
  if t.size = 0 then .ok (none, 0, false) else searchLoop cmp t t.root key

/-- bplustree.go:49-52 `ContainsKey` -/
def containsKey (cmp : Compare K) (t : Tree K V) (key : K) : Res Bool := do
  let (_, _, exist) ← search cmp t key
  .ok exist

/-- bplustree.go:70-76 `GetVerify` -/
def getVerify (cmp : Compare K) (t : Tree K V) (key : K) : Res (V × Bool) := do
  let (node, idx, exist) ← search cmp t key
  if exist then
    let v ← t.getVal node idx
    .ok (v.2, true)
  else .ok (default, false)

/-- bplustree.go:54-60 `Get` -/
def get (cmp : Compare K) (t : Tree K V) (key : K) : Res V := do
  let (node, idx, exist) ← search cmp t key
  if exist then
    let v ← t.getVal node idx
    .ok v.2
  else .ok default

/-- bplustree.go:62-68 `GetEntry`: the entry the returned pointer points to. -/
def getEntry (cmp : Compare K) (t : Tree K V) (key : K) : Res (Option (K × V)) := do
  let (node, idx, exist) ← search cmp t key
  if exist then
    let v ← t.getVal node idx
    .ok (some v)
  else .ok none

/-- bplustree.go:235-241 `InsertEqual` -/
def insertEqual (cmp : Compare K) (t : Tree K V) (key : K) (val : V) : Res (Tree K V × Bool) := do
  let t ← insert cmp t (key, val)
  .ok (t, true)

/-- bplustree.go:243-252 `InsertUnique` -/
def insertUnique (cmp : Compare K) (t : Tree K V) (key : K) (val : V) : Res (Tree K V × Bool) := do
  let b ← containsKey cmp t key
  if !b then
    let t ← insert cmp t (key, val)
    .ok (t, true)
  else .ok (t, false)

/-- bplustree.go:254-286 `mergeChild`.  The loop at 272-275 assigns to `values` and to `children`, which do not affect each
    other: here it is one loop for each. -/
def mergeChild (t : Tree K V) (root y z : Option Nat) (pos : Nat) : Res (Tree K V) := do
  let M := t.degree
  let lf ← t.getLeaf y
  let t ← if lf then (do
      let t ← t.setNum y (2 * M - 2)
      t.copyValsUp y (M - 1) z 0 (M - 1))
    else (do
      let t ← t.setNum y (2 * M - 1)
      let t ← t.copyValsUp y M z 0 (M - 1)
      let v ← t.getVal root pos
      let t ← t.setVal y (M - 1) v
      t.copyKidsUp y M z 0 M)
  let rn ← t.getNum root
  let t ← t.copyValsUp root pos root (pos + 1) (rn - (pos + 1))
  let t ← t.copyKidsUp root (pos + 1) root (pos + 2) (rn - (pos + 1))
  let t ← t.setNum root (rn - 1)
  if lf then
    let zn ← t.getNext z
    let t ← t.setNext y zn
    t.setPrev zn y
  else .ok t

/-- bplustree.go:410-433 `shiftToRightChild` -/
def shiftToRightChild (t : Tree K V) (root y z : Option Nat) (pos : Nat) : Res (Tree K V) := do
  let zn ← t.getNum z
  let t ← t.setNum z (zn + 1)
  let lf ← t.getLeaf z
  let yn ← t.getNum y
  let t ← if lf = false then (do
      let v ← t.getVal root pos
      let t ← t.setVal z 0 v
      let v ← t.getVal y (yn - 1)
      t.setVal root pos v)
    else (do
      let v ← t.getVal y (yn - 1)
      let t ← t.setVal z 0 v
      let v ← if yn < 2 then .panic .indexOutOfRange else t.getVal y (yn - 2)
      t.setVal root pos v)
  let t ← t.shiftValsDown z 0 zn
  let t ← if lf = false then (do
      let t ← t.shiftKidsDown z 0 (zn + 1)
      let c ← t.getKid y yn
      t.setKid z 0 c)
    else .ok t
  t.setNum y (yn - 1)

/-- bplustree.go:435-458 `shiftToLeftChild` -/
def shiftToLeftChild (t : Tree K V) (root y z : Option Nat) (pos : Nat) : Res (Tree K V) := do
  let yn ← t.getNum y
  let t ← t.setNum y (yn + 1)
  let lf ← t.getLeaf z
  let t ← if lf = false then (do
      let v ← t.getVal root pos
      let t ← t.setVal y yn v
      let v ← t.getVal z 0
      t.setVal root pos v)
    else (do
      let v ← t.getVal z 0
      let t ← t.setVal y yn v
      let v ← t.getVal z 0
      t.setVal root pos v)
  let zn ← t.getNum z
  let t ← t.copyValsUp z 0 z 1 (zn - 1)
  let t ← if lf = false then (do
      let c ← t.getKid z 0
      let t ← t.setKid y (yn + 1) c
      t.copyKidsUp z 0 z 1 zn)
    else .ok t
  t.setNum z (zn - 1)

/-- bplustree.go:346-349, 361-365, the loop `for i < root.num && compFunc(root.values[i].Key, p.Key) < 0 { i++ }`, `k` slots
    from the end. -/
def findSlot (cmp : Compare K) (t : Tree K V) (root : Option Nat) (key : K) (i : Nat) : Nat → Res Nat
  | 0 => .ok i
  | k + 1 => do
    let v ← t.getVal root i
    if cmp v.1 key < 0 then findSlot cmp t root key (i + 1) k else .ok i

/-- bplustree.go:343-392 `deleteNonOne` -/
def deleteNonOne (cmp : Compare K) (t : Tree K V) (root : Option Nat) (key : K) : Res (Tree K V) := do
  let M := t.degree
  let lf ← t.getLeaf root
  let n ← t.getNum root
  let i ← findSlot cmp t root key 0 n
  if lf then
    let v ← t.getVal root i
    if cmp key v.1 = 0 then
      let t ← t.copyValsUp root i root (i + 1) (2 * M - 1 - (i + 1))
      let t ← t.setNum root (n - 1)
      .ok { t with size := t.size - 1 }
    else .ok t
  else
    let y ← t.getKid root i
    let z ← if i < n then t.getKid root (i + 1) else .ok none
    let s ← if 0 < i then t.getKid root (i - 1) else .ok none
    let yn ← t.getNum y
    if yn = M - 1 then
      let sn ← if 0 < i then t.getNum s else .ok 0
      if 0 < i ∧ M - 1 < sn then
        let t ← shiftToRightChild t root s y (i - 1)
        deleteNonOne cmp t y key
      else
        let zn ← if i < n then t.getNum z else .ok 0
        if i < n ∧ M - 1 < zn then
          let t ← shiftToLeftChild t root y z i
          deleteNonOne cmp t y key
        else if 0 < i then
          let t ← mergeChild t root s y (i - 1)
          deleteNonOne cmp t s key
        else
          let t ← mergeChild t root y z i
          deleteNonOne cmp t y key
    else
      deleteNonOne cmp t y key
partial_fixpoint

/-- bplustree.go:322-341 `delete`, with the assignment of its result to `bt.root` (bplustree.go:104). -/
def deleteRoot (cmp : Compare K) (t : Tree K V) (key : K) : Res (Tree K V) := do
  let root := t.root
  let n ← t.getNum root
  if 1 = n then
    let y ← t.getKid root 0
    let z ← t.getKid root 1
    if y ≠ none ∧ z ≠ none then
      let yn ← t.getNum y
      let zn ← t.getNum z
      if t.degree - 1 = yn ∧ t.degree - 1 = zn then
        let t ← mergeChild t root y z 0
        let t ← deleteNonOne cmp t y key
        .ok { t with root := y }
      else deleteNonOne cmp t root key
    else deleteNonOne cmp t root key
  else deleteNonOne cmp t root key

/-- bplustree.go:100-109 `Delete` -/
def delete (cmp : Compare K) (t : Tree K V) (key : K) : Res (Tree K V × Bool) := do
  let b ← containsKey cmp t key
  if b then
    let t ← deleteRoot cmp t key
    .ok (t, true)
  else .ok (t, false)

/-- bplustree.go:78-84 `DeleteByWholeMapping` -/
def deleteByWholeMapping (cmp : Compare K) (t : Tree K V) (key : K) (val : V) (compV : Compare V) : Res (Tree K V × Bool) := do
  let (node, idx, exist) ← search cmp t key
  if exist then
    let v ← t.getVal node idx
    if compV v.2 val < 0 then delete cmp t key else .ok (t, false)
  else .ok (t, false)

/-- bplustree.go:86-94 `DeleteByKeys` and bplustree.go:312-320 `DeleteAll`: the same loop, `changed` so far. -/
def deleteAll (cmp : Compare K) (t : Tree K V) (changed : Nat) : List K → Res (Tree K V × Nat)
  | [] => .ok (t, changed)
  | k :: ks => do
    let (t, b) ← delete cmp t k
    deleteAll cmp t (if b then changed + 1 else changed) ks

/-- bplustree.go:96-98 `DeleteEntryByKey` -/
def deleteEntryByKey (cmp : Compare K) (t : Tree K V) (entry : K × V) : Res (Tree K V × Bool) := delete cmp t entry.1

/-- bplustree.go:289-291 `Size` -/
def sizeOf (t : Tree K V) : Int := t.size

/-- bplustree.go:294-296 `IsEmpty` -/
def isEmpty (t : Tree K V) : Bool := t.size = 0

/-- bplustree.go:299-302 `Clear` -/
def clear (t : Tree K V) : Tree K V := { t with size := 0, root := none }

/-- bplustree_node.go:34-36, the loop of `MinimumNode`. -/
def minLoop (t : Tree K V) (y : Option Nat) : Res (Option Nat) := do
  let lf ← t.getLeaf y
  if lf = false then
    let c ← t.getKid y 0
    minLoop t c
  else .ok y
partial_fixpoint

/-- bplustree.go:304-306 `LeftMost` with bplustree_node.go:29-38 `MinimumNode`. -/
def leftMost (t : Tree K V) : Res (Option Nat) :=
  if t.root = none then .ok none else minLoop t t.root

/-- bplustree_node.go:42-44, the loop of `MaximumNode`. -/
def maxLoop (t : Tree K V) (y : Option Nat) : Res (Option Nat) := do
  let lf ← t.getLeaf y
  if lf = false then
    let n ← t.getNum y
    let c ← t.getKid y n
    maxLoop t c
  else .ok y
partial_fixpoint

/-- bplustree.go:308-310 `RightMost` with bplustree_node.go:40-46 `MaximumNode`. -/
def rightMost (t : Tree K V) : Res (Option Nat) := maxLoop t t.root

end Gds.BPlus
