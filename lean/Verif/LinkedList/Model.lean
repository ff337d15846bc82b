import Verif.Iter.Model

/-! Model of package `collections/linkedlist` (collections/linkedlist/linkedlist.go).

Elements are addresses in a heap.  A `List` is identified with the address of its `root` element (its first
field), so `*List` and `&l.root` are the same number.  Several lists live in one heap.  After a panic the state
is not modelled (no caller of the package recovers). -/

namespace Gds.LinkedList

/-- linkedlist.go:6-19 `Element`. -/
structure Elem (T : Type _) where
  next : Option Nat
  prev : Option Nat
  list : Option Nat
  value : T

/-- All elements and the `len` field of every list (linkedlist.go:39-42). -/
structure St (T : Type _) where
  heap : Nat → Elem T
  len : Nat → Int
  alloc : Nat

variable {T : Type _}

def St.setNext (s : St T) (a : Nat) (p : Option Nat) : St T :=
  { s with heap := fun k => if k = a then { s.heap k with next := p } else s.heap k }
def St.setPrev (s : St T) (a : Nat) (p : Option Nat) : St T :=
  { s with heap := fun k => if k = a then { s.heap k with prev := p } else s.heap k }
def St.setList (s : St T) (a : Nat) (p : Option Nat) : St T :=
  { s with heap := fun k => if k = a then { s.heap k with list := p } else s.heap k }
/-- The caller's assignment `e.Value = v` (linkedlist.go:18, an exported field). -/
def St.setValue (s : St T) (a : Nat) (v : T) : St T :=
  { s with heap := fun k => if k = a then { s.heap k with value := v } else s.heap k }
def St.setLen (s : St T) (l : Nat) (n : Int) : St T :=
  { s with len := fun k => if k = l then n else s.len k }

/-- Using a possibly nil pointer. -/
def deref : Option Nat → Res Nat
  | none => .panic .nilDeref
  | some a => .ok a

/-- `&Element[T]{Value: v}` / `new(List[T])`: a zeroed element at a fresh address. -/
def new (s : St T) (v : T) : St T × Nat :=
  ({ s with
      heap := fun k => if k = s.alloc then { next := none, prev := none, list := none, value := v } else s.heap k
      len := fun k => if k = s.alloc then 0 else s.len k
      alloc := s.alloc + 1 }, s.alloc)

/-- linkedlist.go:22-27 `Next`. -/
def next (s : St T) (e : Nat) : Option Nat :=
  let p := (s.heap e).next
  if (s.heap e).list ≠ none ∧ p ≠ (s.heap e).list then p else none

/-- linkedlist.go:30-35 `Prev`. -/
def prev (s : St T) (e : Nat) : Option Nat :=
  let p := (s.heap e).prev
  if (s.heap e).list ≠ none ∧ p ≠ (s.heap e).list then p else none

/-- linkedlist.go:45-50 `Init`. -/
def init (s : St T) (l : Nat) : St T :=
  let s := s.setNext l (some l)
  let s := s.setPrev l (some l)
  s.setLen l 0

/-- linkedlist.go:53 `New` (the zero value of T in the root is `z`). -/
def newList (s : St T) (z : T) : St T × Nat :=
  let r := new s z
  (init r.1 r.2, r.2)

/-- linkedlist.go:57 `Len`. -/
def len (s : St T) (l : Nat) : Int := s.len l

/-- linkedlist.go:69-72 `Clear`. -/
def clear (s : St T) (l : Nat) : St T :=
  let s := s.setNext l none
  s.setLen l 0

/-- linkedlist.go:145-150 `Front`. -/
def front (s : St T) (l : Nat) : Option Nat := if s.len l = 0 then none else (s.heap l).next

/-- linkedlist.go:153-158 `Back`. -/
def back (s : St T) (l : Nat) : Option Nat := if s.len l = 0 then none else (s.heap l).prev

/-- linkedlist.go:161-165 `lazyInit`. -/
def lazyInit (s : St T) (l : Nat) : St T := if (s.heap l).next = none then init s l else s

/-- linkedlist.go:168-176 `insert`. -/
def insert (s : St T) (l e : Nat) (at' : Option Nat) : Res (St T) := do
  let s := s.setPrev e at'
  let a ← deref at'
  let s := s.setNext e (s.heap a).next
  let p ← deref (s.heap e).prev
  let s := s.setNext p (some e)
  let n ← deref (s.heap e).next
  let s := s.setPrev n (some e)
  let s := s.setList e (some l)
  pure (s.setLen l (s.len l + 1))

/-- linkedlist.go:179-181 `insertValue`. -/
def insertValue (s : St T) (l : Nat) (v : T) (at' : Option Nat) : Res (St T × Nat) := do
  let r := new s v
  let s ← insert r.1 l r.2 at'
  pure (s, r.2)

/-- linkedlist.go:184-191 `remove`. -/
def remove (s : St T) (l e : Nat) : Res (St T) := do
  let p ← deref (s.heap e).prev
  let s := s.setNext p (s.heap e).next
  let n ← deref (s.heap e).next
  let s := s.setPrev n (s.heap e).prev
  let s := s.setNext e none
  let s := s.setPrev e none
  let s := s.setList e none
  pure (s.setLen l (s.len l - 1))

/-- linkedlist.go:194-205 `move`. -/
def move (s : St T) (e : Nat) (at' : Option Nat) : Res (St T) := do
  if some e = at' then pure s
  else
    let p ← deref (s.heap e).prev
    let s := s.setNext p (s.heap e).next
    let n ← deref (s.heap e).next
    let s := s.setPrev n (s.heap e).prev
    let s := s.setPrev e at'
    let a ← deref at'
    let s := s.setNext e (s.heap a).next
    let p ← deref (s.heap e).prev
    let s := s.setNext p (some e)
    let n ← deref (s.heap e).next
    pure (s.setPrev n (some e))

/-- linkedlist.go:210-217 `Remove`. -/
def removeElem (s : St T) (l e : Nat) : Res (St T × T) := do
  let s ← if (s.heap e).list = some l then remove s l e else pure s
  pure (s, (s.heap e).value)

/-- linkedlist.go:220-223 `PushFront`. -/
def pushFront (s : St T) (l : Nat) (v : T) : Res (St T × Nat) :=
  insertValue (lazyInit s l) l v (some l)

/-- linkedlist.go:226-229 `PushBack`. -/
def pushBack (s : St T) (l : Nat) (v : T) : Res (St T × Nat) :=
  let s := lazyInit s l
  insertValue s l v (s.heap l).prev

/-- linkedlist.go:234-240 `InsertBefore`. -/
def insertBefore (s : St T) (l : Nat) (v : T) (mark : Nat) : Res (St T × Option Nat) := do
  if (s.heap mark).list ≠ some l then pure (s, none)
  else
    let r ← insertValue s l v (s.heap mark).prev
    pure (r.1, some r.2)

/-- linkedlist.go:245-251 `InsertAfter`. -/
def insertAfter (s : St T) (l : Nat) (v : T) (mark : Nat) : Res (St T × Option Nat) := do
  if (s.heap mark).list ≠ some l then pure (s, none)
  else
    let r ← insertValue s l v (some mark)
    pure (r.1, some r.2)

/-- linkedlist.go:256-262 `MoveToFront`. -/
def moveToFront (s : St T) (l e : Nat) : Res (St T) :=
  if (s.heap e).list ≠ some l ∨ (s.heap l).next = some e then pure s else move s e (some l)

/-- linkedlist.go:267-273 `MoveToBack`. -/
def moveToBack (s : St T) (l e : Nat) : Res (St T) :=
  if (s.heap e).list ≠ some l ∨ (s.heap l).prev = some e then pure s else move s e (s.heap l).prev

/-- linkedlist.go:278-283 `MoveBefore`. -/
def moveBefore (s : St T) (l e mark : Nat) : Res (St T) :=
  if (s.heap e).list ≠ some l ∨ e = mark ∨ (s.heap mark).list ≠ some l then pure s
  else move s e (s.heap mark).prev

/-- linkedlist.go:288-293 `MoveAfter`. -/
def moveAfter (s : St T) (l e mark : Nat) : Res (St T) :=
  if (s.heap e).list ≠ some l ∨ e = mark ∨ (s.heap mark).list ≠ some l then pure s
  else move s e (some mark)

/-- The loop of linkedlist.go:299-301; `i` counts the remaining rounds. -/
def pushBackLoop (l : Nat) : Nat → Option Nat → St T → Res (St T)
  | 0, _, s => .ok s
  | i + 1, e, s => do
    let a ← deref e
    let r ← insertValue s l (s.heap a).value (s.heap l).prev
    pushBackLoop l i (next r.1 a) r.1

/-- linkedlist.go:297-302 `PushBackList` (a negative `Len` runs no round). -/
def pushBackList (s : St T) (l o : Nat) : Res (St T) :=
  let s := lazyInit s l
  pushBackLoop l (len s o).toNat (front s o) s

/-- The loop of linkedlist.go:308-310. -/
def pushFrontLoop (l : Nat) : Nat → Option Nat → St T → Res (St T)
  | 0, _, s => .ok s
  | i + 1, e, s => do
    let a ← deref e
    let r ← insertValue s l (s.heap a).value (some l)
    pushFrontLoop l i (prev r.1 a) r.1

/-- linkedlist.go:306-311 `PushFrontList`. -/
def pushFrontList (s : St T) (l o : Nat) : Res (St T) :=
  let s := lazyInit s l
  pushFrontLoop l (len s o).toNat (back s o) s

/-! ### Iterators (no list operation runs between two pulls) -/

/-- linkedlist.go:74-82 `Iter`: the captured variable is `n`, initially `&l.root`. -/
def iter (s : St T) (l : Nat) : Iter.Next (Option Nat) T := fun n => do
  let a ← deref n
  let n := (s.heap a).next
  if n ≠ some l then
    let b ← deref n
    pure (some (s.heap b).value, n)
  else pure (none, n)

/-- linkedlist.go:59-67 `ToSlice`: `Iter().All` with an appending callback. -/
def toSlice (s : St T) (l : Nat) : Res (List T) := do
  if s.len l < 0 then .panic .explicit            -- make([]T, 0, len) with a negative capacity
  else
    let r ← Iter.all (iter s l) (fun t (sl : List T) => (true, sl ++ [t])) (some l) []
    pure r.2

/-- linkedlist.go:84-92 `iter` and 94-103 `iterStep`: the captured variables. -/
inductive SegIter where
  /-- the whole list (`l.Iter()`), `n` -/
  | whole (n : Option Nat)
  /-- `l.iter(node)` -/
  | rest (node : Option Nat)
  /-- `l.iterStep(step, node)` -/
  | step (k : Int) (node : Option Nat)
  deriving DecidableEq

/-- One pull of a segment. -/
def segNext (s : St T) (l : Nat) : Iter.Next SegIter T
  | .whole n => do let r ← iter s l n; pure (r.1, .whole r.2)
  | .rest none => pure (none, .rest none)
  | .rest (some a) => pure (some (s.heap a).value, .rest (next s a))
  | .step k node =>
    match node with
    | some a =>
      if 0 < k then pure (some (s.heap a).value, .step (k - 1) (next s a)) else pure (none, .step (k - 1) node)
    | none => pure (none, .step (k - 1) node)

/-- linkedlist.go:132-134: `for j := i; j < i+step && node != nil; j++ { node = node.Next() }`. -/
def advance (s : St T) : Nat → Option Nat → Option Nat
  | 0, node => node
  | _ + 1, none => none
  | k + 1, some a => advance s k (next s a)

/-- linkedlist.go:105-142 `SplitableIter()(parallelism)`: captured variables `idx` and `node`, initially 0 and
    `l.Front()` (`node` is not used when parallelism ≤ 0); `step` is fixed at creation (Go division truncates). -/
def splitNext (s : St T) (l : Nat) (p : Int) : Iter.Next (Int × Option Nat) SegIter := fun (idx, node) =>
  if p ≤ 0 then
    if idx = 0 then .ok (some (.whole (some l)), (idx + 1, node)) else .ok (none, (idx, node))
  else
    let step := Int.tdiv (s.len l) p
    if idx ≥ s.len l then .ok (none, (idx, node))
    else
      let i := idx
      let idx := idx + step
      let n := node
      let node := advance s step.toNat node
      if i + step ≥ s.len l then .ok (some (.rest n), (idx, node))
      else .ok (some (.step step n), (idx, node))

/-! ### Histories -/

/-- Operations of the package; addresses are the pointers the caller passes. -/
inductive Op (T : Type _) where
  | newList
  | zeroList
  | pushFront (l : Nat) (v : T)
  | pushBack (l : Nat) (v : T)
  | insertBefore (l : Nat) (v : T) (mark : Nat)
  | insertAfter (l : Nat) (v : T) (mark : Nat)
  | remove (l e : Nat)
  | moveToFront (l e : Nat)
  | moveToBack (l e : Nat)
  | moveBefore (l e mark : Nat)
  | moveAfter (l e mark : Nat)
  | pushBackList (l o : Nat)
  | pushFrontList (l o : Nat)
  | init (l : Nat)
  | clear (l : Nat)
  | setValue (e : Nat) (v : T)
  | len (l : Nat)
  | front (l : Nat)
  | back (l : Nat)
  | next (e : Nat)
  | prev (e : Nat)
  | value (e : Nat)
  | toSlice (l : Nat)

/-- Results. -/
inductive Out (T : Type _) where
  | unit
  | ptr (p : Option Nat)
  | num (n : Int)
  | val (v : T)
  | vals (vs : List T)

/-- One operation; `z` is the zero value of T. -/
def step (z : T) (s : St T) : Op T → Res (St T × Out T)
  | .newList => let r := newList s z; .ok (r.1, .ptr (some r.2))
  | .zeroList => let r := new s z; .ok (r.1, .ptr (some r.2))
  | .pushFront l v => do let r ← pushFront s l v; pure (r.1, .ptr (some r.2))
  | .pushBack l v => do let r ← pushBack s l v; pure (r.1, .ptr (some r.2))
  | .insertBefore l v m => do let r ← insertBefore s l v m; pure (r.1, .ptr r.2)
  | .insertAfter l v m => do let r ← insertAfter s l v m; pure (r.1, .ptr r.2)
  | .remove l e => do let r ← removeElem s l e; pure (r.1, .val r.2)
  | .moveToFront l e => do let r ← moveToFront s l e; pure (r, .unit)
  | .moveToBack l e => do let r ← moveToBack s l e; pure (r, .unit)
  | .moveBefore l e m => do let r ← moveBefore s l e m; pure (r, .unit)
  | .moveAfter l e m => do let r ← moveAfter s l e m; pure (r, .unit)
  | .pushBackList l o => do let r ← pushBackList s l o; pure (r, .unit)
  | .pushFrontList l o => do let r ← pushFrontList s l o; pure (r, .unit)
  | .init l => .ok (init s l, .unit)
  | .clear l => .ok (clear s l, .unit)
  | .setValue e v => .ok (s.setValue e v, .unit)
  | .len l => .ok (s, .num (len s l))
  | .front l => .ok (s, .ptr (front s l))
  | .back l => .ok (s, .ptr (back s l))
  | .next e => .ok (s, .ptr (next s e))
  | .prev e => .ok (s, .ptr (prev s e))
  | .value e => .ok (s, .val (s.heap e).value)
  | .toSlice l => do let r ← toSlice s l; pure (s, .vals r)

/-- A history. -/
def run (z : T) : St T → List (Op T) → Res (St T × List (Out T))
  | s, [] => .ok (s, [])
  | s, op :: ops => do
    let r ← step z s op
    let r2 ← run z r.1 ops
    pure (r2.1, r.2 :: r2.2)

/-- The heap before any list exists. -/
def St.empty (z : T) : St T :=
  { heap := fun _ => { next := none, prev := none, list := none, value := z }, len := fun _ => 0, alloc := 0 }

end Gds.LinkedList
