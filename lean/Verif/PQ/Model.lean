import Verif.Go.Basic

/-! Model of package `collections/priorityqueue` (collections/priorityqueue/priorityqueue.go).

`int` is unbounded (the overflow guard `j1 < 0` of line 79 never fires).  The element slice is owned by the
queue, so it is modelled by its cells and its length. -/

namespace Gds.PQ

/-- priorityqueue.go:8-12: `elements` is `cell 0 … cell (len-1)`; `comp` is a parameter. -/
structure Queue (T : Type _) where
  cell : Nat → T
  len : Nat
  size : Nat

variable {T : Type _}

/-- `q.elements[i]`. -/
def Queue.get (q : Queue T) (i : Nat) : Res T :=
  if i < q.len then .ok (q.cell i) else .panic .indexOutOfRange

/-- `q.elements[i] = v`. -/
def Queue.set (q : Queue T) (i : Nat) (v : T) : Res (Queue T) :=
  if i < q.len then .ok { q with cell := fun k => if k = i then v else q.cell k } else .panic .indexOutOfRange

/-- `q.elements[i], q.elements[j] = q.elements[j], q.elements[i]`: both right-hand sides are read first. -/
def Queue.swap (q : Queue T) (i j : Nat) : Res (Queue T) := do
  let a ← q.get j
  let b ← q.get i
  let q ← q.set i a
  q.set j b

/-- priorityqueue.go:20-30 `Init` (the zero value `z` fills the fresh slice).  The test of line 22 is the
    wrong way round: with no size given, `size[0]` is read. -/
def init (z : T) (size : List Int) : Res (Queue T) := do
  let s ← if size.length = 0 then
      (match size with
       | s :: _ => (.ok s : Res Int)
       | [] => .panic .indexOutOfRange)
    else .ok 8
  if s < 0 then .panic .explicit
  else pure { cell := fun _ => z, len := s.toNat, size := 0 }

/-- priorityqueue.go:14-18 `New`. -/
def new (z : T) (size : List Int) : Res (Queue T) := init z size

/-- priorityqueue.go:64-73 `percolateUp`.  Go's `/` truncates: (0-1)/2 = 0. -/
def percolateUp (cmp : Compare T) (q : Queue T) (pos : Nat) : Res (Queue T) := do
  let i := (Int.tdiv ((pos : Int) - 1) 2).toNat
  if i = pos then pure q
  else
    let a ← q.get pos
    let b ← q.get i
    if cmp a b ≥ 0 then pure q
    else
      let q ← q.swap i pos
      percolateUp cmp q i
partial_fixpoint

/-- priorityqueue.go:82-85: the smaller child. -/
def minChild (cmp : Compare T) (q : Queue T) (j1 n : Nat) : Res Nat := do
  let j2 := j1 + 1
  if j2 < n then
    let a ← q.get j2
    let b ← q.get j1
    if cmp a b < 0 then pure j2 else pure j1
  else pure j1

/-- priorityqueue.go:75-94 `percolateDown` from `i` (its boolean result is not used by the callers). -/
def percolateDown (cmp : Compare T) (q : Queue T) (i n : Nat) : Res (Queue T) := do
  let j1 := 2 * i + 1
  if j1 ≥ n then pure q
  else
    let j ← minChild cmp q j1 n
    let a ← q.get j
    let b ← q.get i
    if cmp a b ≥ 0 then pure q
    else
      let q ← q.swap i j
      percolateDown cmp q j n
partial_fixpoint

/-- priorityqueue.go:40-49 `Push`.  `append` extends the slice by one cell. -/
def push (cmp : Compare T) (q : Queue T) (val : T) : Res (Queue T) := do
  let q ← if q.size ≥ q.len then
      pure { q with cell := fun k => if k = q.len then val else q.cell k, len := q.len + 1 }
    else q.set q.size val
  let q := { q with size := q.size + 1 }
  percolateUp cmp q (q.size - 1)

/-- priorityqueue.go:51-62 `Pop`. -/
def pop (cmp : Compare T) (q : Queue T) : Res (Option T × Queue T) := do
  if q.size = 0 then pure (none, q)
  else
    let n := q.size - 1
    let q ← q.swap 0 n
    let q ← percolateDown cmp q 0 n
    let q := { q with size := q.size - 1 }
    let val ← q.get q.size
    pure (some val, q)

/-- priorityqueue.go:96-98 `Len`. -/
def Queue.length (q : Queue T) : Nat := q.size

/-- priorityqueue.go:100-105 `Peek`. -/
def peek (q : Queue T) : Res (Option T) := do
  if q.size > 0 then
    let v ← q.get 0
    pure (some v)
  else pure none

/-- priorityqueue.go:32-38 `OfWith`. -/
def ofWith (z : T) (cmp : Compare T) (elements : List T) : Res (Queue T) := do
  let q ← new z []
  elements.foldlM (fun q e => push cmp q e) q

/-- The operations of a history. -/
inductive Op (T : Type _) where
  | push (x : T)
  | pop
  | peek
  | len

/-- Their results. -/
inductive Out (T : Type _) where
  | pushed
  | val (v : Option T)
  | num (n : Nat)

/-- Running one operation. -/
def step (cmp : Compare T) (q : Queue T) : Op T → Res (Queue T × Out T)
  | .push x => do let q ← push cmp q x; pure (q, .pushed)
  | .pop => do let r ← pop cmp q; pure (r.2, .val r.1)
  | .peek => do let r ← peek q; pure (q, .val r)
  | .len => pure (q, .num q.length)

/-- Running a history. -/
def run (cmp : Compare T) : Queue T → List (Op T) → Res (Queue T × List (Out T))
  | q, [] => pure (q, [])
  | q, op :: ops => do
    let r ← step cmp q op
    let r2 ← run cmp r.1 ops
    pure (r2.1, r.2 :: r2.2)

/-- `for { v, ok := q.Pop(); if !ok { break }; out = append(out, v) }`: how a user drains a queue. -/
def drain (cmp : Compare T) (q : Queue T) : Res (List T) := do
  let r ← pop cmp q
  match r.1 with
  | none => pure []
  | some v =>
    let rest ← drain cmp r.2
    pure (v :: rest)
partial_fixpoint

end Gds.PQ
