import Verif.Go.Basic
import Verif.Iter.Model

/-! Model of package `collections/rbtree` (redblacktree.go, redblackbtree_node.go, node_buffer.go).

Nodes are addresses in a heap.  Address 0 is the `header` node embedded in the tree, address 1 the `head` node embedded in
the node buffer; node slices are made at fresh addresses, which have never been written and so hold zero nodes.  A nil pointer
is `none`; using it panics.  One tree with its buffer and the nodes taken from it live in one heap. -/

namespace Gds.RBTree

/-- redblackbtree_node.go:5-8 -/
abbrev Red : Bool := false
/-- redblackbtree_node.go:5-8 -/
abbrev Black : Bool := true

/-- redblackbtree_node.go:12-18 `Node`, all nodes, one function for each field. -/
structure Heap (K V : Type) where
  color : Nat → Bool
  parent : Nat → Option Nat
  left : Nat → Option Nat
  right : Nat → Option Nat
  kv : Nat → K × V

variable {K V : Type}

namespace Heap

/-- `p.parent`; redblackbtree_node.go:54-56 `GetParent` -/
def parentOf (m : Heap K V) : Option Nat → Res (Option Nat)
  | none => .panic .nilDeref
  | some i => .ok (m.parent i)
/-- `p.left`; redblackbtree_node.go:46-48 `GetLeft` -/
def leftOf (m : Heap K V) : Option Nat → Res (Option Nat)
  | none => .panic .nilDeref
  | some i => .ok (m.left i)
/-- `p.right`; redblackbtree_node.go:50-52 `GetRight` -/
def rightOf (m : Heap K V) : Option Nat → Res (Option Nat)
  | none => .panic .nilDeref
  | some i => .ok (m.right i)
/-- `p.color` -/
def colorOf (m : Heap K V) : Option Nat → Res Bool
  | none => .panic .nilDeref
  | some i => .ok (m.color i)
/-- `p.kv` -/
def kvOf (m : Heap K V) : Option Nat → Res (K × V)
  | none => .panic .nilDeref
  | some i => .ok (m.kv i)
/-- `p != nil && p.color == Red` -/
def isRed (m : Heap K V) : Option Nat → Bool
  | none => false
  | some i => m.color i == Red
/-- `p == nil || p.color == Black` -/
def isBlack (m : Heap K V) : Option Nat → Bool
  | none => true
  | some i => m.color i == Black
/-- `p.parent = v` -/
def setParent (m : Heap K V) (p v : Option Nat) : Res (Heap K V) :=
  match p with
  | none => .panic .nilDeref
  | some i => .ok { m with parent := fun j => if j = i then v else m.parent j }
/-- `p.left = v` -/
def setLeft (m : Heap K V) (p v : Option Nat) : Res (Heap K V) :=
  match p with
  | none => .panic .nilDeref
  | some i => .ok { m with left := fun j => if j = i then v else m.left j }
/-- `p.right = v` -/
def setRight (m : Heap K V) (p v : Option Nat) : Res (Heap K V) :=
  match p with
  | none => .panic .nilDeref
  | some i => .ok { m with right := fun j => if j = i then v else m.right j }
/-- `p.color = c` -/
def setColor (m : Heap K V) (p : Option Nat) (c : Bool) : Res (Heap K V) :=
  match p with
  | none => .panic .nilDeref
  | some i => .ok { m with color := fun j => if j = i then c else m.color j }
/-- `p.kv = e` -/
def setKv (m : Heap K V) (p : Option Nat) (e : K × V) : Res (Heap K V) :=
  match p with
  | none => .panic .nilDeref
  | some i => .ok { m with kv := fun j => if j = i then e else m.kv j }

end Heap

/-! ### Node methods -/

/-- redblackbtree_node.go:59-65 `MinChildNode` -/
def minChild (m : Heap K V) (n : Option Nat) : Res (Option Nat) := do
  let l ← m.leftOf n
  if l ≠ none then minChild m l else pure n
partial_fixpoint

/-- redblackbtree_node.go:68-74 `MaxChildNode` -/
def maxChild (m : Heap K V) (n : Option Nat) : Res (Option Nat) := do
  let r ← m.rightOf n
  if r ≠ none then maxChild m r else pure n
partial_fixpoint

/-- redblackbtree_node.go:87-91, the loop of `Next` -/
def climbNext (m : Heap K V) (n y : Option Nat) : Res (Option Nat) := do
  if y ≠ none then
    let r ← m.rightOf y
    if n = r then
      let p ← m.parentOf y
      climbNext m y p
    else pure y
  else pure y
partial_fixpoint

/-- redblackbtree_node.go:80-92 `Next` -/
def next (m : Heap K V) (n : Option Nat) : Res (Option Nat) := do
  let r ← m.rightOf n
  if r ≠ none then minChild m r
  else
    let y ← m.parentOf n
    climbNext m n y

/-- redblackbtree_node.go:100-104, the loop of `Prev` -/
def climbPrev (m : Heap K V) (n y : Option Nat) : Res (Option Nat) := do
  if y ≠ none then
    let l ← m.leftOf y
    if l = n then
      let p ← m.parentOf y
      climbPrev m y p
    else pure y
  else pure y
partial_fixpoint

/-- redblackbtree_node.go:94-106 `Prev` -/
def prev (m : Heap K V) (n : Option Nat) : Res (Option Nat) := do
  let l ← m.leftOf n
  if l ≠ none then maxChild m l
  else
    let y ← m.parentOf n
    climbPrev m n y

/-! ### Rotations -/

/-- redblacktree.go:81-102 `leftRotate` -/
def leftRotate (m : Heap K V) (x : Option Nat) : Res (Heap K V) := do
  let y ← m.rightOf x
  let yl ← m.leftOf y
  let m ← m.setRight x yl
  let m ← if yl ≠ none then m.setParent yl x else pure m
  let xp ← m.parentOf x
  let m ← m.setParent y xp
  let m ← if xp = none then m.setParent (some 0) y
    else do
      let l ← m.leftOf xp
      if x = l then m.setLeft xp y else m.setRight xp y
  let m ← m.setLeft y x
  m.setParent x y

/-- redblacktree.go:104-124 `rightRotate` -/
def rightRotate (m : Heap K V) (x : Option Nat) : Res (Heap K V) := do
  let y ← m.leftOf x
  let yr ← m.rightOf y
  let m ← m.setLeft x yr
  let m ← if yr ≠ none then m.setParent yr x else pure m
  let xp ← m.parentOf x
  let m ← m.setParent y xp
  let m ← if xp = none then m.setParent (some 0) y
    else do
      let r ← m.rightOf xp
      if x = r then m.setRight xp y else m.setLeft xp y
  let m ← m.setRight y x
  m.setParent x y

/-! ### Insertion -/

/-- redblacktree.go:408-454 `putRebalanced` -/
def putRebalanced (m : Heap K V) (node : Option Nat) : Res (Heap K V) := do
  let go ← if node = m.parent 0 then pure false
    else do
      let p ← m.parentOf node
      let c ← m.colorOf p
      pure (c == Red)
  if go then
    let p ← m.parentOf node
    let g ← m.parentOf p
    let gl ← m.leftOf g
    if p = gl then
      let u ← m.rightOf g
      if m.isRed u then
        let m ← m.setColor p Black
        let m ← m.setColor u Black
        let m ← m.setColor g Red
        putRebalanced m g
      else
        let pr ← m.rightOf p
        let (m, node) ← if node = pr then do
            let m ← leftRotate m p
            pure (m, p)
          else pure (m, node)
        let p ← m.parentOf node
        let m ← m.setColor p Black
        let g ← m.parentOf p
        let m ← m.setColor g Red
        let m ← rightRotate m g
        putRebalanced m node
    else
      let u ← m.leftOf g
      if m.isRed u then
        let m ← m.setColor p Black
        let m ← m.setColor u Black
        let m ← m.setColor g Red
        putRebalanced m g
      else
        let pl ← m.leftOf p
        let (m, node) ← if node = pl then do
            let m ← rightRotate m p
            pure (m, p)
          else pure (m, node)
        let p ← m.parentOf node
        let m ← m.setColor p Black
        let g ← m.parentOf p
        let m ← m.setColor g Red
        let m ← leftRotate m g
        putRebalanced m node
  else m.setColor (m.parent 0) Black
partial_fixpoint

/-- What the descent of `put` found. -/
inductive Hit where
  | found (i : Nat)
  | missing (parent : Option Nat)

/-- redblacktree.go:359-374 (and 302-317), the descent of `put` and `PutNode`; `comp` is declared anew in the loop, so the
outer one keeps its value 0. -/
def descend (cmp : Compare K) (m : Heap K V) (key : K) (tmp parent : Option Nat) : Res Hit := do
  match tmp with
  | none => pure (.missing parent)
  | some i =>
    let comp := cmp key (m.kv i).1
    if comp = -1 then descend cmp m key (m.left i) tmp
    else if comp = 1 then descend cmp m key (m.right i) tmp
    else pure (.found i)
partial_fixpoint

/-- redblacktree.go:378-405 (and 321-347): linking the new node; `comp` is the outer variable, which is still 0. -/
def link (m : Heap K V) (node parent : Option Nat) : Res (Heap K V) := do
  let comp : Int := 0
  let m ← m.setParent node parent
  let m ← if parent = none then do
      let m ← m.setLeft (some 0) node
      let m ← m.setRight (some 0) node
      m.setParent (some 0) node
    else if comp < 0 then do
      let m ← if m.left 0 = parent then m.setLeft (some 0) node else pure m
      m.setLeft parent node
    else do
      let m ← if m.right 0 = parent then m.setRight (some 0) node else pure m
      m.setRight parent node
  let m ← m.setLeft node none
  let m ← m.setRight node none
  let m ← m.setColor node Red
  putRebalanced m node

/-! ### The node buffer -/

/-- node_buffer.go:3-10 `nodeBuffer`; `base` is the address of `nodes[0]`, the list of freed nodes hangs on `right` of address 1.
`fresh` is the first address not handed out by `make` yet. -/
structure Buf where
  base : Nat
  sliceCursor : Int
  linkedListSize : Int
  bufferedLength : Int
  fresh : Nat

/-- node_buffer.go:64-70 `FillWith` with a new slice of `n` nodes; for `all` = false the callers pass `n = bufferedLength`. -/
def Buf.fillNew (b : Buf) (n : Nat) : Buf :=
  { b with bufferedLength := n, sliceCursor := n - 1, base := b.fresh, fresh := b.fresh + n }

/-- node_buffer.go:58-62 `Fill` -/
def Buf.fill (b : Buf) : Buf := if b.sliceCursor = -1 then b.fillNew b.bufferedLength.toNat else b

/-- node_buffer.go:22-27 `Init` -/
def Buf.init (b : Buf) (m : Heap K V) (n : Nat) : Buf × Heap K V :=
  ({ b with linkedListSize := 0 }.fillNew n, { m with right := fun j => if j = 1 then none else m.right j })

/-- node_buffer.go:72-79 `Free` -/
def Buf.free (b : Buf) (m : Heap K V) (n : Option Nat) : Res (Buf × Heap K V) := do
  if b.linkedListSize = b.bufferedLength then pure (b, m)
  else
    let m ← m.setRight n (m.right 1)
    let m ← m.setRight (some 1) n
    pure ({ b with linkedListSize := b.linkedListSize + 1 }, m)

/-- node_buffer.go:81-100 `Alloc`, with its `goto` -/
def Buf.alloc (b : Buf) (m : Heap K V) : Res (Option Nat × Buf × Heap K V) := do
  if b.sliceCursor ≠ -1 then
    pure (some (b.base + b.sliceCursor.toNat), { b with sliceCursor := b.sliceCursor - 1 }, m)
  else if b.linkedListSize = 0 then Buf.alloc b.fill m
  else
    let n := m.right 1
    let nr ← m.rightOf n
    let m ← m.setRight (some 1) nr
    pure (n, { b with linkedListSize := b.linkedListSize - 1 }, m)
partial_fixpoint

/-! ### The tree -/

/-- redblacktree.go:14-19 `Tree`; the comparator is a parameter of the operations. -/
structure Tree (K V : Type) where
  heap : Heap K V
  size : Int
  buf : Buf

/-- redblacktree.go:31-38 `Init` on a zeroed tree (redblacktree.go:25-29 `New`); `z` is the zero entry. -/
def new (z : K × V) : Tree K V :=
  let m : Heap K V := { color := fun _ => Red, parent := fun _ => none, left := fun _ => none, right := fun _ => none, kv := fun _ => z }
  let m := { m with right := fun j => if j = 0 then some 0 else m.right j, left := fun j => if j = 0 then some 0 else m.left j }
  let r := ({ base := 0, sliceCursor := 0, linkedListSize := 0, bufferedLength := 0, fresh := 2 } : Buf).init m 16
  { heap := r.2, size := 0, buf := r.1 }

/-- redblacktree.go:134-139 `Clear` -/
def clear (t : Tree K V) : Tree K V :=
  { t with size := 0, heap := { t.heap with
      parent := fun j => if j = 0 then none else t.heap.parent j
      right := fun j => if j = 0 then some 0 else t.heap.right j
      left := fun j => if j = 0 then some 0 else t.heap.left j } }

/-- redblacktree.go:40-48 `allocNode` -/
def allocNode (t : Tree K V) (key : K) (val : V) : Res (Option Nat × Tree K V) := do
  let (n, b, m) ← t.buf.alloc t.heap
  let m ← m.setKv n (key, val)
  let m ← m.setColor n Red
  pure (n, { t with heap := m, buf := b })

/-- redblacktree.go:352-406 `put` -/
def putInner (cmp : Compare K) (t : Tree K V) (key : K) (val : V) : Res (Bool × Tree K V) := do
  let h ← descend cmp t.heap key (t.heap.parent 0) none
  match h with
  | .found i => pure (false, { t with heap := { t.heap with kv := fun j => if j = i then ((t.heap.kv i).1, val) else t.heap.kv j } })
  | .missing p =>
    let (n, t) ← allocNode t key val
    let m ← link t.heap n p
    pure (true, { t with heap := m })

/-- redblacktree.go:287-293 `Put` -/
def put (cmp : Compare K) (t : Tree K V) (key : K) (val : V) : Res (Bool × Tree K V) := do
  let (r, t) ← putInner cmp t key val
  if r then pure (true, { t with size := t.size + 1 }) else pure (false, t)

/-- redblacktree.go:295-349 `PutNode` -/
def putNode (cmp : Compare K) (t : Tree K V) (node : Nat) : Res (Bool × Tree K V) := do
  let h ← descend cmp t.heap (t.heap.kv node).1 (t.heap.parent 0) none
  match h with
  | .found i => pure (false, { t with heap := { t.heap with kv := fun j => if j = i then ((t.heap.kv i).1, (t.heap.kv node).2) else t.heap.kv j } })
  | .missing p =>
    let m ← link t.heap (some node) p
    pure (true, { t with heap := m })

/-- redblacktree.go:456-469 `search`, from a node -/
def searchFrom (cmp : Compare K) (m : Heap K V) (key : K) (node : Option Nat) : Res (Option Nat) := do
  match node with
  | none => pure none
  | some i =>
    let comp := cmp key (m.kv i).1
    if comp = -1 then searchFrom cmp m key (m.left i)
    else if comp = 1 then searchFrom cmp m key (m.right i)
    else pure (some i)
partial_fixpoint

/-- redblacktree.go:456-469 `search` -/
def search (cmp : Compare K) (m : Heap K V) (key : K) : Res (Option Nat) := searchFrom cmp m key (m.parent 0)

/-- redblacktree.go:220-225 `Has` -/
def has (cmp : Compare K) (t : Tree K V) (key : K) : Res Bool := do
  let n ← search cmp t.heap key
  pure n.isSome

/-- redblacktree.go:227-233 `Get`; the zero value is `none` -/
def get (cmp : Compare K) (t : Tree K V) (key : K) : Res (Option V) := do
  let n ← search cmp t.heap key
  match n with
  | none => pure none
  | some i => pure (some (t.heap.kv i).2)

/-! ### Deletion -/

/-- redblacktree.go:523-594 `deleteRebalanced` -/
def deleteRebalanced (m : Heap K V) (node parent : Option Nat) : Res (Heap K V) := do
  if node ≠ m.parent 0 ∧ m.isBlack node = true then
    let parent ← if node ≠ none then m.parentOf node else pure parent
    let pl ← m.leftOf parent
    if node = pl then
      let b ← m.rightOf parent
      let bc ← m.colorOf b
      let (m, b) ← if bc = Red then do
          let m ← m.setColor b Black
          let m ← m.setColor parent Red
          let m ← leftRotate m parent
          let b ← m.rightOf parent
          pure (m, b)
        else pure (m, b)
      let bl ← m.leftOf b
      let br ← m.rightOf b
      if m.isBlack bl = true ∧ m.isBlack br = true then
        let m ← m.setColor b Red
        deleteRebalanced m parent parent
      else
        let (m, b) ← if m.isBlack br = true then do
            let m ← if bl ≠ none then m.setColor bl Black else pure m
            let m ← m.setColor b Red
            let m ← rightRotate m b
            let b ← m.rightOf parent
            pure (m, b)
          else pure (m, b)
        let pc ← m.colorOf parent
        let m ← m.setColor b pc
        let m ← m.setColor parent Black
        let br ← m.rightOf b
        let m ← if br ≠ none then m.setColor br Black else pure m
        let m ← leftRotate m parent
        deleteRebalanced m (m.parent 0) parent
    else
      let b ← m.leftOf parent
      let bc ← m.colorOf b
      let (m, b) ← if bc = Red then do
          let m ← m.setColor b Black
          let m ← m.setColor parent Red
          let m ← rightRotate m parent
          let b ← m.leftOf parent
          pure (m, b)
        else pure (m, b)
      let bl ← m.leftOf b
      let br ← m.rightOf b
      if m.isBlack bl = true ∧ m.isBlack br = true then
        let m ← m.setColor b Red
        deleteRebalanced m parent parent
      else
        let (m, b) ← if m.isBlack bl = true then do
            let m ← if br ≠ none then m.setColor br Black else pure m
            let m ← m.setColor b Red
            let m ← leftRotate m b
            let b ← m.leftOf parent
            pure (m, b)
          else pure (m, b)
        let pc ← m.colorOf parent
        let m ← m.setColor b pc
        let m ← m.setColor parent Black
        let bl ← m.leftOf b
        let m ← if bl ≠ none then m.setColor bl Black else pure m
        let m ← rightRotate m parent
        deleteRebalanced m (m.parent 0) parent
  else if node ≠ none then m.setColor node Black
  else pure m
partial_fixpoint

/-- redblacktree.go:473-477: the update of the header's end pointers in `remove`. -/
def removeEnds (cmp : Compare K) (m : Heap K V) (node : Option Nat) : Res (Heap K V) := do
  let kv ← m.kvOf node
  if cmp kv.1 (m.kv 0).1 > -1 then
    let p ← prev m node
    m.setRight (some 0) p
  else
    let hl ← m.kvOf (m.left 0)
    if cmp hl.1 kv.1 > -1 then
      let n ← next m node
      m.setLeft (some 0) n
    else pure m

/-- redblacktree.go:484-520: the rest of `remove`. -/
def unlink (m : Heap K V) (node : Option Nat) : Res (Option Nat × Heap K V) := do
  let l ← m.leftOf node
  let r ← m.rightOf node
  let rm ← if l = none ∨ r = none then pure node else next m node
  let rl ← m.leftOf rm
  let rr ← m.rightOf rm
  let child := if rl ≠ none then rl else rr
  let par ← m.parentOf rm
  let m ← if child ≠ none then m.setParent child par else pure m
  let m ← if par = none then m.setParent (some 0) child
    else do
      let pl ← m.leftOf par
      if rm = pl then m.setLeft par child else m.setRight par child
  let m ← if rm ≠ node then do
      let kv ← m.kvOf rm
      m.setKv node kv
    else pure m
  let c ← m.colorOf rm
  let m ← if c = Black then deleteRebalanced m child par else pure m
  pure (rm, m)

/-- redblacktree.go:471-521 `remove` -/
def remove (cmp : Compare K) (m : Heap K V) (node : Option Nat) : Res (Option Nat × Heap K V) := do
  let m ← removeEnds cmp m node
  unlink m node

/-- redblacktree.go:272-285 `removeNode` (for a node that is not nil), and redblacktree.go:261-269 -/
def removeNode (cmp : Compare K) (t : Tree K V) (node : Nat) : Res (Option Nat × Tree K V) := do
  let (r, m) ← remove cmp t.heap (some node)
  let t : Tree K V := { t with heap := m, size := t.size - 1 }
  if t.size = 0 then
    pure (r, { t with heap := { t.heap with
      right := fun j => if j = 0 then none else t.heap.right j
      left := fun j => if j = 0 then none else t.heap.left j } })
  else pure (r, t)

/-- redblacktree.go:256-270 `Delete` -/
def delete (cmp : Compare K) (t : Tree K V) (key : K) : Res (Option Nat × Tree K V) := do
  let n ← search cmp t.heap key
  match n with
  | none => pure (none, t)
  | some i => removeNode cmp t i

/-- redblacktree.go:50-52 `freeNode` -/
def freeNode (t : Tree K V) (n : Option Nat) : Res (Tree K V) := do
  let (b, m) ← t.buf.free t.heap n
  pure { t with heap := m, buf := b }

/-- redblacktree.go:244-254 `DeleteKeys` -/
def deleteKeys (cmp : Compare K) (t : Tree K V) : List K → Res (Nat × Tree K V)
  | [] => pure (0, t)
  | k :: ks => do
    let (n, t) ← delete cmp t k
    if n ≠ none then
      let t ← freeNode t n
      let (c, t) ← deleteKeys cmp t ks
      pure (c + 1, t)
    else deleteKeys cmp t ks

/-- redblacktree.go:235-242 `DeleteByWholeMapping` -/
def deleteByWholeMapping (cmp : Compare K) (valComp : Compare V) (t : Tree K V) (key : K) (val : V) : Res (Bool × Tree K V) := do
  let n ← search cmp t.heap key
  match n with
  | none => pure (false, t)
  | some i =>
    if valComp val (t.heap.kv i).2 = 0 then
      let (r, t) ← removeNode cmp t i
      let t ← freeNode t r
      pure (true, t)
    else pure (false, t)

/-! ### Iteration -/

/-- redblacktree.go:153-161 `iter`: one call of the iterator whose variable `node` is `n`. -/
def iterCall (m : Heap K V) (n : Option Nat) : Res (Option (K × V) × Option Nat) := do
  match n with
  | none => pure (none, none)
  | some i =>
    let nx ← next m n
    pure (some (m.kv i), nx)

/-- Calling an iterator until it reports the end (a client's loop; also redblacktree.go:54-68 `String` visits these). -/
def drain (m : Heap K V) (n : Option Nat) : Res (List (K × V)) := do
  let (v, nx) ← iterCall m n
  match v with
  | none => pure []
  | some e =>
    let es ← drain m nx
    pure (e :: es)
partial_fixpoint

/-- redblacktree.go:149-151 `Iter`, drained. -/
def toList (t : Tree K V) : Res (List (K × V)) := drain t.heap (t.heap.left 0)

/-- The iterators handed out by `SplitableIter`. -/
inductive SegIter where
  /-- `rbTree.iter(node)` -/
  | whole (node : Option Nat)
  /-- `rbTree.iterStep(step, node)` -/
  | step (step : Int) (node : Option Nat)

/-- redblacktree.go:153-172 `iter` and `iterStep`, one call of a segment iterator. -/
def segNext (m : Heap K V) : SegIter → Res (Option (K × V) × SegIter)
  | .whole node => do
    let r ← iterCall m node
    pure (r.1, .whole r.2)
  | .step st node =>
    match node with
    | some i =>
      if st > 0 then do
        let nx ← next m (some i)
        pure (some (m.kv i), .step (st - 1) nx)
      else pure (none, .step (st - 1) node)
    | none => pure (none, .step (st - 1) node)

/-- redblacktree.go:200-202: advance `node` by at most `k` steps. -/
def advance (m : Heap K V) : Nat → Option Nat → Res (Option Nat)
  | 0, n => pure n
  | _ + 1, none => pure none
  | k + 1, some i => do
    let nx ← next m (some i)
    advance m k nx

/-- redblacktree.go:174-211 `SplitableIter()(parallelism)`, one call of the segmenter: captured variables `idx` and `node`,
initially 0 and `header.left`; Go's `/` is `Int.tdiv`. -/
def splitNext (t : Tree K V) (p : Int) : Int × Option Nat → Res (Option SegIter × (Int × Option Nat)) := fun (idx, node) => do
  let step := if p = 0 then t.size else Int.tdiv t.size p
  if p ≤ 0 then
    if idx = 0 then pure (some (.whole (t.heap.left 0)), (1, node))
    else pure (none, (idx, node))
  else if idx ≥ t.size then pure (none, (idx, node))
  else do
    let node' ← advance t.heap step.toNat node
    if idx + step ≥ t.size then pure (some (.whole node), (idx + step, node'))
    else pure (some (.step step node), (idx + step, node'))

/-- redblacktree.go:130-132 `LeftMost` -/
def leftMost (t : Tree K V) : Option Nat := t.heap.left 0

/-- redblacktree.go:126-128 `RightMost` -/
def rightMost (t : Tree K V) : Option Nat := t.heap.right 0

/-- redblacktree.go:145-147 `Size` -/
def sizeOf (t : Tree K V) : Int := t.size

/-- redblacktree.go:141-143 `IsEmpty` -/
def isEmpty (t : Tree K V) : Bool := t.size = 0

/-- redblackbtree_node.go:30-36 `GetKey` and `GetValue`: the entry of a node (nil panics). -/
def entryAt (m : Heap K V) (n : Option Nat) : Res (K × V) := m.kvOf n

/-- redblackbtree_node.go:42-44 `SetValue`; also a client's `kv.Val = v` through the pointer an iterator delivered
(redblacktree.go:156: `&node.kv`). -/
def setValue (m : Heap K V) (n : Option Nat) (v : V) : Res (Heap K V) := do
  let e ← m.kvOf n
  m.setKv n (e.1, v)

/-- redblackbtree_node.go:38-40 `SetKey` -/
def setKey (m : Heap K V) (n : Option Nat) (k : K) : Res (Heap K V) := do
  let e ← m.kvOf n
  m.setKv n (k, e.2)

/-- redblackbtree_node.go:76-78 `IsValid` -/
def isValid (n : Option Nat) : Bool := n.isSome

/-- redblacktree.go:58-65, the loop of `String`; `fmt e` is `fmt.Sprintf("%v:%v", e.Key, e.Val)`, `buf` what was written so far. -/
def stringLoop (fmt : K × V → String) (m : Heap K V) (buf : String) (n : Option Nat) : Res String := do
  if isValid n then
    let e ← m.kvOf n
    let buf := buf ++ fmt e
    let nx ← next m n
    stringLoop fmt m (if nx ≠ none then buf ++ " " else buf) nx
  else pure buf
partial_fixpoint

/-- redblacktree.go:54-68 `String` -/
def toString (fmt : K × V → String) (t : Tree K V) : Res String := do
  let buf ← stringLoop fmt t.heap "[" (t.heap.left 0)
  pure (buf ++ "]")

/-! ### The rest of the node buffer (the tree does not call these) -/

/-- node_buffer.go:40-42 `Size` -/
def Buf.size (b : Buf) : Int := b.linkedListSize + b.sliceCursor + 1

/-- node_buffer.go:36-38 `IsEmpty` -/
def Buf.isEmpty (b : Buf) : Bool := b.size = 0

/-- node_buffer.go:44-50 `Clear` (`nodes = nil` is not modelled: `base` is read only when `sliceCursor ≠ -1`). -/
def Buf.clear (b : Buf) (m : Heap K V) : Buf × Heap K V :=
  ({ b with linkedListSize := 0, sliceCursor := -1 }, { m with right := fun j => if j = 1 then none else m.right j })

/-- node_buffer.go:52-56 `FillN` -/
def Buf.fillN (b : Buf) (n : Nat) : Buf := if b.sliceCursor = -1 then b.fillNew n else b

end Gds.RBTree
