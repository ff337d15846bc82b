import Verif.Go.Basic

/-! Model of package `collections/queue` (collections/queue/queue.go): nodes are addresses in a heap. -/

namespace Gds.Queue

/-- queue.go:8-11 `Node`. -/
structure Node (T : Type _) where
  val : T
  next : Option Nat

/-- queue.go:28-33 `Linked`: `head` is the field `head.next`; the heap holds all nodes ever allocated
    (addresses below `alloc`). -/
structure St (T : Type _) where
  heap : Nat → Node T
  alloc : Nat
  head : Option Nat
  tail : Option Nat
  count : Int
  locked : Bool

variable {T : Type _}

/-- queue.go:24-26 `New`. -/
def St.new (heap : Nat → Node T) (alloc : Nat) : St T :=
  { heap := heap, alloc := alloc, head := none, tail := none, count := 0, locked := false }

/-- Writing the `next` field of node `a`. -/
def St.setNext (s : St T) (a : Nat) (n : Option Nat) : St T :=
  { s with heap := fun k => if k = a then { s.heap k with next := n } else s.heap k }

/-- queue.go:17-22 `NewNode`. -/
def newNode (s : St T) (v : T) : St T × Nat :=
  ({ s with heap := fun k => if k = s.alloc then { val := v, next := none } else s.heap k, alloc := s.alloc + 1 }, s.alloc)

/-- `q.lock.Lock(); defer q.lock.Unlock(); body`: the deferred unlock also runs when the body panics; locking
    a mutex that is already held (by a sequential caller) never returns. -/
def withLock {α : Type _} (body : St T → St T × Res α) (s : St T) : St T × Res α :=
  if s.locked then (s, .hang)
  else
    let r := body { s with locked := true }
    ({ r.1 with locked := false }, r.2)

/-- queue.go:47-58 `PushNode`. -/
def pushNode (node : Nat) : St T → St T × Res Unit := withLock fun s =>
  match s.head with
  | none =>
    let s := { s with head := some node }
    let s := { s with tail := some node }
    ({ s with count := s.count + 1 }, .ok ())
  | some _ =>
    match s.tail with
    | none => (s, .panic .nilDeref)
    | some t =>
      let s := s.setNext t (some node)
      let s := { s with tail := some node }
      ({ s with count := s.count + 1 }, .ok ())

/-- queue.go:59-63 `PeekNode`. -/
def peekNode : St T → St T × Res (Option Nat) := withLock fun s => (s, .ok s.head)

/-- queue.go:65-75 `PopNode`. -/
def popNode : St T → St T × Res (Option Nat) := withLock fun s =>
  match s.head with
  | none => (s, .panic .nilDeref)          -- line 69: n.next with n == nil
  | some n =>
    let s := { s with head := (s.heap n).next }
    let s := if s.head = none then { s with tail := none } else s
    ({ s with count := s.count - 1 }, .ok (some n))

/-- queue.go:13-15 `Value` on a possibly nil pointer. -/
def value (s : St T) : Option Nat → Res T
  | none => .panic .nilDeref
  | some n => .ok (s.heap n).val

/-- queue.go:35-37 `Push`. -/
def push (v : T) (s : St T) : St T × Res Unit :=
  let r := newNode s v
  pushNode r.2 r.1

/-- queue.go:43-45 `Pop`. -/
def pop (s : St T) : St T × Res T :=
  let r := popNode s
  (r.1, r.2 >>= value r.1)

/-- queue.go:39-41 `Peek`. -/
def peek (s : St T) : St T × Res T :=
  let r := peekNode s
  (r.1, r.2 >>= value r.1)

/-- queue.go:78-80 `Len`. -/
def len (s : St T) : Int := s.count
/-- queue.go:83-85 `Empty`. -/
def empty (s : St T) : Bool := decide (s.count = 0)

/-! ### Histories -/

/-- Value operations. -/
inductive Op (T : Type _) where
  | push (v : T)
  | pop
  | peek
  | len
  | empty

/-- Their results; `panic` is a nil-pointer panic reaching the caller. -/
inductive Out (T : Type _) where
  | unit
  | val (v : T)
  | num (n : Int)
  | bool (b : Bool)
  | panic
  | hang
  deriving DecidableEq

def Out.ofRes {α : Type _} (f : α → Out T) : Res α → Out T
  | .ok a => f a
  | .panic _ => .panic
  | .hang => .hang

/-- One operation. -/
def step (s : St T) : Op T → St T × Out T
  | .push v => let r := push v s; (r.1, Out.ofRes (fun _ => .unit) r.2)
  | .pop => let r := pop s; (r.1, Out.ofRes .val r.2)
  | .peek => let r := peek s; (r.1, Out.ofRes .val r.2)
  | .len => (s, .num (len s))
  | .empty => (s, .bool (empty s))

/-- A history. -/
def run : St T → List (Op T) → St T × List (Out T)
  | s, [] => (s, [])
  | s, op :: ops =>
    let r := step s op
    let r2 := run r.1 ops
    (r2.1, r.2 :: r2.2)

/-! ### Goroutines: one step per load, store or lock operation -/

/-- Where a goroutine is.  Local variables are carried along. -/
inductive Pc (T : Type _) where
  | idle
  -- Push(v): line 36 / NewNode, then PushNode
  | pushLock (node : Nat)               -- before line 48
  | pushTest (node : Nat)               -- line 50
  | pushHead (node : Nat)               -- line 51
  | pushTailNext (node : Nat)           -- line 54
  | pushTail (node : Nat)               -- line 52 / 55
  | pushCount                           -- line 57
  | pushUnlock                          -- deferred unlock
  -- Pop()
  | popLock                             -- before line 66
  | popRead                             -- line 68
  | popNext (n : Option Nat)            -- line 69: load n.next
  | popHead (n : Nat) (nn : Option Nat) -- line 69: store head.next
  | popTest (n : Nat)                   -- line 70
  | popTail (n : Nat)                   -- line 71
  | popCount (n : Nat)                  -- line 73
  | popUnlock (n : Nat)                 -- deferred unlock
  | popPanic                            -- deferred unlock while panicking
  | popValue (n : Nat)                  -- line 44: .Value()
  -- Peek()
  | peekLock
  | peekRead                            -- line 62
  | peekUnlock (n : Option Nat)
  | peekValue (n : Option Nat)          -- line 40: .Value()

/-- Operations that take the lock. -/
inductive LOp (T : Type _) where
  | push (v : T)
  | pop
  | peek

/-- Their results. -/
inductive LOut (T : Type _) where
  | unit
  | val (v : T)
  | panic

/-- Shared state, goroutine positions, the log of lock acquisitions (with the operation acquired for) and the
    log of returns. -/
structure Sys (T : Type _) where
  sh : St T
  pc : Nat → Pc T
  acqs : List (Nat × LOp T)
  rets : List (Nat × LOut T)

def Sys.goto (s : Sys T) (t : Nat) (p : Pc T) : Sys T :=
  { s with pc := fun k => if k = t then p else s.pc k }

def Sys.init (heap : Nat → Node T) (alloc : Nat) : Sys T :=
  { sh := St.new heap alloc, pc := fun _ => .idle, acqs := [], rets := [] }

/-- One atomic step of goroutine `t`.  Goroutines start operations at will (from `idle`). -/
inductive Step (t : Nat) : Sys T → Sys T → Prop where
  | startPush (s) (v : T) : s.pc t = .idle →
      Step t s ({ s with sh := (newNode s.sh v).1 }.goto t (.pushLock (newNode s.sh v).2))
  | pushLock (s node) : s.pc t = .pushLock node → s.sh.locked = false →
      Step t s ({ s with sh := { s.sh with locked := true },
                         acqs := s.acqs ++ [(t, LOp.push (s.sh.heap node).val)] }.goto t (.pushTest node))
  | pushTestNil (s node) : s.pc t = .pushTest node → s.sh.head = none → Step t s (s.goto t (.pushHead node))
  | pushTestSome (s node h) : s.pc t = .pushTest node → s.sh.head = some h →
      Step t s (s.goto t (.pushTailNext node))
  | pushHead (s node) : s.pc t = .pushHead node →
      Step t s ({ s with sh := { s.sh with head := some node } }.goto t (.pushTail node))
  | pushTailNext (s node a) : s.pc t = .pushTailNext node → s.sh.tail = some a →
      Step t s ({ s with sh := s.sh.setNext a (some node) }.goto t (.pushTail node))
  | pushTailNextNil (s node) : s.pc t = .pushTailNext node → s.sh.tail = none →
      Step t s (s.goto t .popPanic)
  | pushTail (s node) : s.pc t = .pushTail node →
      Step t s ({ s with sh := { s.sh with tail := some node } }.goto t .pushCount)
  | pushCount (s) : s.pc t = .pushCount →
      Step t s ({ s with sh := { s.sh with count := s.sh.count + 1 } }.goto t .pushUnlock)
  | pushUnlock (s) : s.pc t = .pushUnlock →
      Step t s ({ s with sh := { s.sh with locked := false }, rets := s.rets ++ [(t, LOut.unit)] }.goto t .idle)
  | startPop (s) : s.pc t = .idle → Step t s (s.goto t .popLock)
  | popLock (s) : s.pc t = .popLock → s.sh.locked = false →
      Step t s ({ s with sh := { s.sh with locked := true }, acqs := s.acqs ++ [(t, LOp.pop)] }.goto t .popRead)
  | popRead (s) : s.pc t = .popRead → Step t s (s.goto t (.popNext s.sh.head))
  | popNext (s n) : s.pc t = .popNext (some n) → Step t s (s.goto t (.popHead n (s.sh.heap n).next))
  | popNextNil (s) : s.pc t = .popNext none → Step t s (s.goto t .popPanic)
  | popHead (s n nn) : s.pc t = .popHead n nn →
      Step t s ({ s with sh := { s.sh with head := nn } }.goto t (.popTest n))
  | popTestNil (s n) : s.pc t = .popTest n → s.sh.head = none → Step t s (s.goto t (.popTail n))
  | popTestSome (s n h) : s.pc t = .popTest n → s.sh.head = some h → Step t s (s.goto t (.popCount n))
  | popTail (s n) : s.pc t = .popTail n →
      Step t s ({ s with sh := { s.sh with tail := none } }.goto t (.popCount n))
  | popCount (s n) : s.pc t = .popCount n →
      Step t s ({ s with sh := { s.sh with count := s.sh.count - 1 } }.goto t (.popUnlock n))
  | popUnlock (s n) : s.pc t = .popUnlock n →
      Step t s ({ s with sh := { s.sh with locked := false } }.goto t (.popValue n))
  | popPanic (s) : s.pc t = .popPanic →
      Step t s ({ s with sh := { s.sh with locked := false }, rets := s.rets ++ [(t, LOut.panic)] }.goto t .idle)
  | popValue (s n) : s.pc t = .popValue n →
      Step t s ({ s with rets := s.rets ++ [(t, LOut.val (s.sh.heap n).val)] }.goto t .idle)
  | startPeek (s) : s.pc t = .idle → Step t s (s.goto t .peekLock)
  | peekLock (s) : s.pc t = .peekLock → s.sh.locked = false →
      Step t s ({ s with sh := { s.sh with locked := true }, acqs := s.acqs ++ [(t, LOp.peek)] }.goto t .peekRead)
  | peekRead (s) : s.pc t = .peekRead → Step t s (s.goto t (.peekUnlock s.sh.head))
  | peekUnlock (s n) : s.pc t = .peekUnlock n →
      Step t s ({ s with sh := { s.sh with locked := false } }.goto t (.peekValue n))
  | peekValue (s n) : s.pc t = .peekValue (some n) →
      Step t s ({ s with rets := s.rets ++ [(t, LOut.val (s.sh.heap n).val)] }.goto t .idle)
  | peekValueNil (s) : s.pc t = .peekValue none →
      Step t s ({ s with rets := s.rets ++ [(t, LOut.panic)] }.goto t .idle)

/-- Reachable states: any interleaving of any goroutines. -/
inductive Reach (heap : Nat → Node T) (alloc : Nat) : Sys T → Prop where
  | init : Reach heap alloc (Sys.init heap alloc)
  | step {s s' t} : Reach heap alloc s → Step t s s' → Reach heap alloc s'

end Gds.Queue
