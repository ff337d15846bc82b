import Verif.Iter.Model

/-! Model of package `collections/skiplist` (collections/skiplist/skiplist.go, skiplist_node.go).

Nodes are addresses; the heap is one map per field of `Node` and `Level` (skiplist_node.go:3-13).  `fwd x i` and
`span x i` are `x.level[i].forward` and `x.level[i].span`, legal for `i < height x = len(x.level)`.
`random` (skiplist.go:27) is not modelled as state: every insertion takes an arbitrary 64-bit draw as
an argument.  `size` and spans are mathematical integers (no 64-bit wrap-around).  The comparator is never nil.
The state after a panic is not modelled. -/

namespace Gds.SkipList

/-- skiplist.go:18-20. -/
def maxLevel : Nat := 32

/-- skiplist.go:22-29 `List` and the nodes. -/
structure St (K V : Type) where
  key : Nat → K
  val : Nat → V
  back : Nat → Option Nat
  height : Nat → Nat
  fwd : Nat → Nat → Option Nat
  span : Nat → Nat → Int
  alloc : Nat
  header : Nat
  tail : Option Nat
  size : Int
  level : Nat

variable {K V : Type}

/-- `x.level[i].forward`. -/
def St.getFwd (s : St K V) (x i : Nat) : Res (Option Nat) :=
  if i < s.height x then .ok (s.fwd x i) else .panic .indexOutOfRange

/-- `x.level[i].span`. -/
def St.getSpan (s : St K V) (x i : Nat) : Res Int :=
  if i < s.height x then .ok (s.span x i) else .panic .indexOutOfRange

/-- `x.level[i].forward = p`. -/
def St.setFwd (s : St K V) (x i : Nat) (p : Option Nat) : Res (St K V) :=
  if i < s.height x then
    .ok { s with fwd := fun y j => if y = x ∧ j = i then p else s.fwd y j }
  else .panic .indexOutOfRange

/-- `x.level[i].span = n`. -/
def St.setSpan (s : St K V) (x i : Nat) (n : Int) : Res (St K V) :=
  if i < s.height x then
    .ok { s with span := fun y j => if y = x ∧ j = i then n else s.span y j }
  else .panic .indexOutOfRange

/-- `x.backward = p`. -/
def St.setBack (s : St K V) (x : Nat) (p : Option Nat) : St K V :=
  { s with back := fun y => if y = x then p else s.back y }

/-- Using a possibly nil pointer. -/
def deref : Option Nat → Res Nat
  | none => .panic .nilDeref
  | some a => .ok a

/-- skiplist.go:31-38 `NewNode`, at a fresh address. -/
def newNode (s : St K V) (level : Nat) (k : K) (v : V) : St K V × Nat :=
  let a := s.alloc
  ({ s with
      key := fun y => if y = a then k else s.key y
      val := fun y => if y = a then v else s.val y
      back := fun y => if y = a then none else s.back y
      height := fun y => if y = a then level else s.height y
      fwd := fun y j => if y = a then none else s.fwd y j
      span := fun y j => if y = a then 0 else s.span y j
      alloc := a + 1 }, a)

/-- skiplist.go:46-55 `Init`; `zk`, `zv` are the zero values of K and V. -/
def init (zk : K) (zv : V) (s : St K V) : St K V :=
  let r := newNode s maxLevel zk zv
  { r.1 with header := r.2, tail := none, level := 1, size := 0 }

/-- skiplist.go:40-44 `New`, in an empty heap. -/
def new (zk : K) (zv : V) : St K V :=
  init zk zv { key := fun _ => zk, val := fun _ => zv, back := fun _ => none, height := fun _ => 0, fwd := fun _ _ => none,
               span := fun _ _ => 0, alloc := 0, header := 0, tail := none, size := 0, level := 0 }

/-- skiplist.go:62-65, the loop of `randomLevel`. -/
def randomLoop (k total levelN : UInt64) (level : Nat) : Res Nat :=
  if total > k then
    let levelN := levelN >>> 1
    let total := total - levelN
    randomLoop k total levelN (level + 1)
  else pure level
partial_fixpoint

/-- skiplist.go:57-67 `randomLevel`; `draw` is the value of `sl.random.Uint64()`. -/
def randomLevel (draw : UInt64) : Res Nat :=
  let total : UInt64 := 4294967295
  let k := draw % total
  let levelN : UInt64 := 2147483648
  randomLoop k (total - levelN) levelN 1

/-- The inner loops of search, Delete, insert, FirstInRange, LastInRange and DeleteRangeByKey
    (e.g. skiplist.go:279-282): follow level i while the next key passes the test, adding up spans. -/
def walk (s : St K V) (i : Nat) (cond : K → Bool) (x : Nat) (r : Int) : Res (Nat × Int) := do
  let f ← s.getFwd x i
  match f with
  | none => pure (x, r)
  | some y =>
    if cond (s.key y) then do
      let sp ← s.getSpan x i
      walk s i cond y (r + sp)
    else pure (x, r)
partial_fixpoint

/-- Arrays `update [MaxLevel]*Node` and `rank [MaxLevel]int`. -/
structure Upd where
  upd : Nat → Option Nat
  rank : Nat → Int

/-- Fresh arrays. -/
def Upd.empty : Upd := ⟨fun _ => none, fun _ => 0⟩

/-- Store into both arrays, with Go's bounds check. -/
def Upd.set (u : Upd) (i x : Nat) (r : Int) : Res Upd :=
  if i < maxLevel then
    .ok ⟨fun j => if j = i then some x else u.upd j, fun j => if j = i then r else u.rank j⟩
  else .panic .indexOutOfRange

/-- The outer loops (skiplist.go:271-284 and, ignoring ranks, 111-117, 466-472): from level `i - 1` down to 0. -/
def descend (s : St K V) (cond : K → Bool) : (i : Nat) → (x : Nat) → (r : Int) → Upd → Res (Nat × Upd)
  | 0, x, _, u => pure (x, u)
  | i + 1, x, r, u => do
    let w ← walk s i cond x r
    let u ← u.set i w.1 w.2
    descend s cond i w.1 w.2 u

/-- skiplist.go:93-104, the loop of `search`. -/
def searchLoop (comp : Compare K) (s : St K V) (key : K) : (i : Nat) → (x : Nat) → (r : Int) → Res (Option Nat × Int)
  | 0, _, _ => pure (none, 0)
  | i + 1, x, r => do
    let w ← walk s i (fun k => comp k key != 1) x r
    if comp (s.key w.1) key = 0 then pure (some w.1, w.2)
    else searchLoop comp s key i w.1 w.2

/-- skiplist.go:89-105 `search`. -/
def search (comp : Compare K) (s : St K V) (key : K) : Res (Option Nat × Int) :=
  searchLoop comp s key s.level s.header 0

/-- skiplist.go:73-79 `Has`. -/
def has (comp : Compare K) (s : St K V) (key : K) : Res Bool := do
  let r ← search comp s key
  match r.1 with
  | none => pure false
  | some _ => pure true

/-- skiplist.go:81-87 `Get`; `zv` is the zero value. -/
def get (comp : Compare K) (zv : V) (s : St K V) (key : K) : Res V := do
  let r ← search comp s key
  match r.1 with
  | none => pure zv
  | some n => pure (s.val n)

/-- skiplist.go:354-360 `Rank`. -/
def rank (comp : Compare K) (s : St K V) (key : K) : Res Int := do
  let r ← search comp s key
  match r.1 with
  | none => pure 0
  | some _ => pure r.2

/-- skiplist.go:296-300, the new levels; `n` levels remain. -/
def raiseLoop (s : St K V) (u : Upd) : (n i : Nat) → Res (St K V × Upd)
  | 0, _ => pure (s, u)
  | n + 1, i => do
    let u ← u.set i s.header 0
    let s' ← s.setSpan s.header i s.size
    raiseLoop s' u n (i + 1)

/-- skiplist.go:304-311, link the new node `x` on `n` levels from `i`. -/
def linkLoop (s : St K V) (u : Upd) (x : Nat) : (n i : Nat) → Res (St K V)
  | 0, _ => pure s
  | n + 1, i => do
    let p ← deref (u.upd i)
    let f ← s.getFwd p i
    let s ← s.setFwd x i f
    let s ← s.setFwd p i (some x)
    let sp ← s.getSpan p i
    let s ← s.setSpan x i (sp - (u.rank 0 - u.rank i))
    let s ← s.setSpan p i ((u.rank 0 - u.rank i) + 1)
    linkLoop s u x n (i + 1)

/-- skiplist.go:314-316, the untouched levels. -/
def spanLoop (s : St K V) (u : Upd) : (n i : Nat) → Res (St K V)
  | 0, _ => pure s
  | n + 1, i => do
    let p ← deref (u.upd i)
    let sp ← s.getSpan p i
    let s ← s.setSpan p i (sp + 1)
    spanLoop s u n (i + 1)

/-- skiplist.go:317-329: back links, tail and size. -/
def insertEnd (s : St K V) (u : Upd) (x : Nat) : Res (St K V) := do
  let s := s.setBack x (if u.upd 0 = some s.header then none else u.upd 0)
  let f ← s.getFwd x 0
  match f with
  | some y =>
    let s := s.setBack y (some x)
    pure { s with size := s.size + 1 }
  | none => pure { s with tail := some x, size := s.size + 1 }

/-- skiplist.go:295-329: the second half of `insert`, for a drawn level. -/
def insertAt (s : St K V) (u : Upd) (key : K) (val : V) (level : Nat) : Res (St K V) := do
  let (s, u) ← (if level > s.level then do
      let r ← raiseLoop s u (level - s.level) s.level
      pure ({ r.1 with level := level }, r.2)
    else pure (s, u))
  let r := newNode s level key val
  let s ← linkLoop r.1 u r.2 level 0
  let s ← spanLoop s u (s.level - level) level
  insertEnd s u r.2

/-- skiplist.go:266-331 `insert`. -/
def insert (comp : Compare K) (s : St K V) (key : K) (val : V) (isUnique : Bool) (draw : UInt64) : Res (St K V × Bool) := do
  let d ← descend s (fun k => comp k key == 0) s.level s.header 0 .empty
  let p ← deref (d.2.upd 0)
  let f ← s.getFwd p 0
  let dup := match f with
    | some y => isUnique && comp (s.key y) key == 0
    | none => false
  if dup then pure (s, false)
  else do
    let level ← randomLevel draw
    let s ← insertAt s d.2 key val level
    pure (s, true)

/-- skiplist.go:194-196 `InsertUnique`, also skiplist.go:69-71 `Put`. -/
def insertUnique (comp : Compare K) (s : St K V) (key : K) (val : V) (draw : UInt64) : Res (St K V × Bool) :=
  insert comp s key val true draw

/-- skiplist.go:198-200 `InsertEquals`. -/
def insertEquals (comp : Compare K) (s : St K V) (key : K) (val : V) (draw : UInt64) : Res (St K V × Bool) :=
  insert comp s key val false draw

/-- skiplist.go:335-342, `n` levels from `i`. -/
def unlinkLoop (s : St K V) (u : Upd) (x : Nat) : (n i : Nat) → Res (St K V)
  | 0, _ => pure s
  | n + 1, i => do
    let p ← deref (u.upd i)
    let f ← s.getFwd p i
    if f = some x then do
      let sp ← s.getSpan p i
      let spx ← s.getSpan x i
      let s ← s.setSpan p i (sp + (spx - 1))
      let fx ← s.getFwd x i
      let s ← s.setFwd p i fx
      unlinkLoop s u x n (i + 1)
    else do
      let sp ← s.getSpan p i
      let s ← s.setSpan p i (sp - 1)
      unlinkLoop s u x n (i + 1)

/-- skiplist.go:348-350: the value of `sl.level` after the loop, started at `l`. -/
def lowerLoop (s : St K V) : (l : Nat) → Res Nat
  | 0 => pure 0
  | l + 1 =>
    if l + 1 > 1 then do
      let f ← s.getFwd s.header l
      if f = none then lowerLoop s l else pure (l + 1)
    else pure (l + 1)

/-- skiplist.go:333-352 `deleteNode`. -/
def deleteNode (s : St K V) (x : Nat) (u : Upd) : Res (St K V) := do
  let s ← unlinkLoop s u x s.level 0
  let f ← s.getFwd x 0
  let s := match f with
    | some y => s.setBack y (s.back x)
    | none => { s with tail := s.back x }
  let l ← lowerLoop s s.level
  pure { s with level := l, size := s.size - 1 }

/-- skiplist.go:107-126 `Delete`. -/
def delete (comp : Compare K) (s : St K V) (key : K) : Res (St K V × Bool) := do
  let d ← descend s (fun k => comp k key == 0) s.level s.header 0 .empty
  let f ← s.getFwd d.1 0
  match f with
  | none => pure (s, false)
  | some x =>
    if comp key (s.key x) = 0 then do
      let s ← deleteNode s x d.2
      pure (s, true)
    else pure (s, false)

/-- skiplist.go:128-135 `DeleteByWholeMapping`. -/
def deleteByWholeMapping (comp : Compare K) (s : St K V) (key : K) (val : V) (valComp : Compare V) : Res (St K V × Bool) := do
  let r ← search comp s key
  match r.1 with
  | none => pure (s, false)
  | some n =>
    if valComp val (s.val n) = 0 then do
      let d ← delete comp s key
      pure (d.1, true)
    else pure (s, false)

/-- skiplist.go:137-145 `DeleteKeys`, continuing with a count. -/
def deleteKeys (comp : Compare K) (s : St K V) : List K → Int → Res (St K V × Int)
  | [], c => pure (s, c)
  | k :: ks, c => do
    let d ← delete comp s k
    deleteKeys comp d.1 ks (if d.2 then c + 1 else c)

/-- skiplist.go:147-150 `Clear`. -/
def clear (zk : K) (zv : V) (s : St K V) : St K V := init zk zv s

/-- skiplist.go:152-154 `IsEmpty`. -/
def isEmpty (s : St K V) : Bool := s.size = 0

/-- skiplist.go:182-184 `First`. -/
def first (s : St K V) : Res (Option Nat) := s.getFwd s.header 0

/-- skiplist.go:186-188 `Last`. -/
def last (s : St K V) : Option Nat := s.tail

/-- skiplist.go:190-192 `Size`. -/
def size (s : St K V) : Int := s.size

/-- skiplist_node.go:19-22 `Next` of a non-nil node. -/
def next (s : St K V) (x : Nat) : Res (Option Nat) := s.getFwd x 0

/-- skiplist_node.go:36-38 `Prev`. -/
def prev (s : St K V) (x : Nat) : Option Nat := s.back x

/-- skiplist_node.go:32-34 `SetValue`. -/
def setValue (s : St K V) (x : Nat) (v : V) : St K V := { s with val := fun y => if y = x then v else s.val y }

/-- skiplist_node.go:15-17 `IsValid`: called on a possibly nil pointer. -/
def isValid (x : Option Nat) : Bool := x.isSome

/-- skiplist_node.go:24-26 `GetKey` and 28-30 `GetValue`. -/
def getKeyValue (s : St K V) (x : Nat) : K × V := (s.key x, s.val x)

/-- skiplist.go:160-167, the loop of `String`; `fmt e` is `fmt.Sprintf("%v:%v", n.key, n.value)`, `buf` what was written so far. -/
def stringLoop (fmt : K × V → String) (s : St K V) (buf : String) (n : Option Nat) : Res String :=
  if isValid n then do
    let x ← deref n
    let buf := buf ++ fmt (getKeyValue s x)
    let nx ← next s x
    stringLoop fmt s (if nx ≠ none then buf ++ " " else buf) nx
  else pure buf
partial_fixpoint

/-- skiplist.go:156-170 `String`. -/
def toString (fmt : K × V → String) (s : St K V) : Res String := do
  let f ← first s
  let buf ← stringLoop fmt s "[" f
  pure (buf ++ "]")

/-- skiplist.go:362-377 `GetByRank`, the inner loop. -/
def rankWalk (s : St K V) (i : Nat) (rk : Int) (x : Nat) (trav : Int) : Res (Nat × Int) := do
  let f ← s.getFwd x i
  match f with
  | none => pure (x, trav)
  | some y => do
    let sp ← s.getSpan x i
    if trav + sp ≤ rk then rankWalk s i rk y (trav + sp) else pure (x, trav)
partial_fixpoint

/-- skiplist.go:362-377 `GetByRank`, the outer loop. -/
def rankLoop (zv : V) (s : St K V) (rk : Int) : (i : Nat) → (x : Nat) → (trav : Int) → Res V
  | 0, _, _ => pure zv
  | i + 1, x, trav => do
    let w ← rankWalk s i rk x trav
    if w.2 = rk then pure (s.val w.1) else rankLoop zv s rk i w.1 w.2

/-- skiplist.go:362-377 `GetByRank`. -/
def getByRank (zv : V) (s : St K V) (rk : Int) : Res V := rankLoop zv s rk s.level s.header 0

/-- skiplist.go:381-398 `IsInAllRange`. -/
def isInAllRange (comp : Compare K) (s : St K V) (min max : K) : Res Bool := do
  if comp min max > -1 then pure false
  else match s.tail with
    | none => pure false
    | some t =>
      if comp (s.key t) min = -1 ∨ comp (s.key t) max = -1 then pure false
      else do
        let f ← s.getFwd s.header 0
        match f with
        | none => pure false
        | some x => if comp (s.key x) max = 1 ∨ comp (s.key x) min = 1 then pure false else pure true

/-- skiplist.go:402-417 `IsInPartOfRange`. -/
def isInPartOfRange (comp : Compare K) (s : St K V) (min max : K) : Res Bool := do
  if comp min max > -1 then pure false
  else match s.tail with
    | none => pure false
    | some t =>
      if comp (s.key t) min = -1 then pure false
      else do
        let f ← s.getFwd s.header 0
        match f with
        | none => pure false
        | some x => if comp (s.key x) max = 1 then pure false else pure true

/-- skiplist.go:419-438 `FirstInRange`; it panics if the walk reaches the end. -/
def firstInRange (comp : Compare K) (s : St K V) (min max : K) : Res (Option Nat) := do
  let b ← isInAllRange comp s min max
  if b then do
    let d ← descend s (fun k => comp k min == -1) s.level s.header 0 .empty
    let f ← s.getFwd d.1 0
    match f with
    | none => .panic .explicit
    | some x => if comp (s.key x) max = 1 then pure none else pure (some x)
  else pure none

/-- skiplist.go:440-459 `LastInRange`. -/
def lastInRange (comp : Compare K) (s : St K V) (min max : K) : Res (Option Nat) := do
  let b ← isInAllRange comp s min max
  if b then do
    let d ← descend s (fun k => comp k max == -1) s.level s.header 0 .empty
    let f ← s.getFwd d.1 0
    match f with
    | none => .panic .explicit
    | some x => if comp (s.key x) min = -1 then pure none else pure (some x)
  else pure none

/-- skiplist.go:476-481, the loop of `DeleteRangeByKey`. -/
def rangeLoop (comp : Compare K) (max : K) (u : Upd) (s : St K V) (x : Option Nat) (removed : Nat) : Res (St K V × Nat) := do
  match x with
  | none => pure (s, removed)
  | some x =>
    if comp (s.key x) max = -1 then do
      let nx ← s.getFwd x 0
      let s ← deleteNode s x u
      rangeLoop comp max u s nx (removed + 1)
    else pure (s, removed)
partial_fixpoint

/-- skiplist.go:461-483 `DeleteRangeByKey`. -/
def deleteRangeByKey (comp : Compare K) (s : St K V) (min max : K) : Res (St K V × Nat) := do
  let d ← descend s (fun k => comp k min == -1) s.level s.header 0 .empty
  let x ← s.getFwd d.1 0
  rangeLoop comp max d.2 s x 0

/-! ### Iterators (no list operation runs between two pulls) -/

/-- skiplist.go:206-214 `iter`, called by 202-204 `Iter` with `First()`: the captured variable is `node`. -/
def iter (s : St K V) : Iter.Next (Option Nat) (K × V) := fun node =>
  match node with
  | none => .ok (none, none)
  | some n => do
    let nx ← next s n
    pure (some (s.key n, s.val n), nx)

/-- The iterators handed out by `SplitableIter`. -/
inductive SegIter where
  /-- `sl.iter(node)` -/
  | whole (node : Option Nat)
  /-- `sl.iterStep(step, node)` -/
  | step (step : Int) (node : Option Nat)

/-- skiplist.go:206-225, one pull of a segment iterator. -/
def segNext (s : St K V) : Iter.Next SegIter (K × V)
  | .whole node => do
    let r ← iter s node
    pure (r.1, .whole r.2)
  | .step st node =>
    match node with
    | some n =>
      if st > 0 then do
        let nx ← next s n
        pure (some (s.key n, s.val n), .step (st - 1) nx)
      else pure (none, .step (st - 1) node)
    | none => pure (none, .step (st - 1) node)

/-- skiplist.go:254-256: advance `node` by at most `k` steps. -/
def advance (s : St K V) : Nat → Option Nat → Res (Option Nat)
  | 0, n => pure n
  | _ + 1, none => pure none
  | k + 1, some n => do
    let nx ← next s n
    advance s k nx

/-- skiplist.go:227-264 `SplitableIter()(parallelism)`: captured variables `idx` and `node`, initially 0 and
    `sl.First()`; Go's `/` is `Int.tdiv`. -/
def splitNext (s : St K V) (p : Int) : Iter.Next (Int × Option Nat) SegIter := fun (idx, node) => do
  let step := if p = 0 then s.size else Int.tdiv s.size p
  if p ≤ 0 then
    if idx = 0 then do
      let f ← first s
      pure (some (.whole f), (1, node))
    else pure (none, (idx, node))
  else if idx ≥ s.size then pure (none, (idx, node))
  else do
    let node' ← advance s step.toNat node
    if idx + step ≥ s.size then pure (some (.whole node), (idx + step, node'))
    else pure (some (.step step node), (idx + step, node'))

end Gds.SkipList
