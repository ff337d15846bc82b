import Verif.PQ.Props

/-! Model of package `collections/delayqueue` (collections/delayqueue/delay_queue.go): any number of goroutines calling
Push, Pop, PopWithCtx and Poll, under every interleaving.

* The priority queue is the model of `collections/priorityqueue` in `Verif.PQ.Model`; a body executed under `dq.mutex` is one
  step (nothing else touches the priority queue), locking and unlocking are steps of their own.
* `time.Now().UnixMilli()` reads `clock`.  With `skewed = false` the clock never goes back and `time.After(delta)` fires once it
  has reached the expiration `delta` was computed from.  With `skewed = true` the clock may be set to any value at any moment
  (UnixMilli is wall time) and `time.After` may fire at any moment (it measures monotonic time, and
  `time.Duration(delta) * time.Millisecond` wraps around for large `delta`).
* `Poll` subtracts `int64`s and wraps around (`sub64`). `Pop` compares first and subtracts then (delay_queue.go:82-83, 150-151): its `delta` wraps only if
  the clock is before 1970; that case (a negative `delta`, then a nil dereference at line 131 or 189) is not modelled.
* `elem.Expiration()` is a function `expir` of the element; the zero `T` is written `none`.
* A context is a number; `done k` says that context `k` is cancelled.
* `Len` (delay_queue.go:209-211) reads the priority queue without the mutex: `len` is its value while nobody is inside a locked
  body; a call that races with one is not modelled. -/

namespace Gds.DelayQueue

variable {T : Type}

/-- delay_queue.go:38-46: the comparison of the priority queue, by expiration. -/
def ecmp : Compare (T × Int) := fun d1 d2 => if d1.2 < d2.2 then -1 else if d1.2 > d2.2 then 1 else 0

/-- delay_queue.go:200: `item.expiration - time.Now().UnixMilli()`, a subtraction of `int64`s, which wraps around. -/
def sub64 (a b : Int) : Int := (BitVec.ofInt 64 (a - b)).toInt

/-- What the locked part of `Pop`/`PopWithCtx` found. -/
inductive Found (T : Type) where
  /-- the queue is empty: `item == nil`, `delta == 0` -/
  | empty
  /-- the head expires later: `item == nil`, `delta == expiration - now` -/
  | undue (expiration : Int)
  /-- the head is due and has been removed: `item` -/
  | due (x : T)

/-- Where a goroutine is; `c` is the context of `PopWithCtx`, `none` for `Pop`. -/
inductive Pc (T : Type) where
  | idle
  /-- delay_queue.go:55 -/
  | pushLock (x : T)
  /-- delay_queue.go:56-60 -/
  | pushBody (x : T)
  /-- delay_queue.go:61, with the peeked element -/
  | pushUnlock (x d : T)
  /-- delay_queue.go:63 -/
  | pushTest (x d : T)
  /-- delay_queue.go:65 -/
  | pushCas
  /-- delay_queue.go:67 -/
  | pushSend
  /-- delay_queue.go:78, 146 -/
  | popLock (c : Option Nat)
  /-- delay_queue.go:79-88, 147-157 -/
  | popBody (c : Option Nat)
  /-- delay_queue.go:90, 159 -/
  | popUnlock (c : Option Nat) (r : Found T)
  /-- delay_queue.go:94, 163; with the expiration waited for -/
  | popStore (c : Option Nat) (o : Option Int)
  /-- the select statements, delay_queue.go:100-105, 108-122, 169-172, 175-184 -/
  | popWait (c : Option Nat) (o : Option Int)
  /-- delay_queue.go:115, 180 -/
  | popSwap (c : Option Nat)
  /-- delay_queue.go:117, 182 -/
  | popRecv (c : Option Nat)
  /-- delay_queue.go:126-132 (PopWithCtx), 189 (Pop) -/
  | popGot (c : Option Nat) (x : T)
  /-- delay_queue.go:135-138 -/
  | popExit (c : Option Nat)
  /-- delay_queue.go:195 -/
  | pollLock
  /-- delay_queue.go:198-206 -/
  | pollBody
  /-- delay_queue.go:196, with the result -/
  | pollUnlock (v : Option T) (ok : Bool)

/-- One removal from the priority queue by a Pop call: who, what, the clock read, and the contents just before. -/
structure Take (T : Type) where
  tid : Nat
  elem : T
  now : Int
  stored : List T

/-- One evaluation of `Poll`: the clock read, the contents, and the result. -/
structure PollRec (T : Type) where
  now : Int
  stored : List T
  val : Option T
  ok : Bool

/-- delay_queue.go:27-33, the goroutines, the environment, and a record of what happened. -/
structure Sys (T : Type) where
  pq : PQ.Queue (T × Int)
  locked : Bool
  sleeping : Bool
  clock : Int
  /-- constant: see above -/
  skewed : Bool
  done : Nat → Bool
  pc : Nat → Pc T
  /-- elements in the order in which Push stored them -/
  pushed : List T
  /-- removals by Pop and PopWithCtx -/
  takes : List (Take T)
  /-- (goroutine, element) returned with ok = true by Pop or PopWithCtx -/
  delivered : List (Nat × T)
  /-- elements removed by a PopWithCtx call that then returned (zero, false) -/
  lost : List (Nat × T)
  polls : List (PollRec T)

/-- Goroutine `t` continues at `p`. -/
def Sys.goto (s : Sys T) (t : Nat) (p : Pc T) : Sys T := { s with pc := fun u => if u = t then p else s.pc u }

/-- The elements stored. -/
def Sys.stored (s : Sys T) : List T := s.pq.elems.map (·.1)

/-- delay_queue.go:209-211 `Len`. -/
def Sys.len (s : Sys T) : Int := s.pq.size

/-- delay_queue.go:35-50 `NewDelayQueue`, with an arbitrary clock and contexts and no goroutine in a call. -/
def Sys.init (pq : PQ.Queue (T × Int)) (clock : Int) (skewed : Bool) (done : Nat → Bool) : Sys T :=
  { pq := pq, locked := false, sleeping := false, clock := clock, skewed := skewed, done := done, pc := fun _ => .idle,
    pushed := [], takes := [], delivered := [], lost := [], polls := [] }

/-- The goroutine is ready to receive from `wakeupC`; with its context. -/
def Pc.receiver : Pc T → Option (Option Nat)
  | .popWait c _ => some c
  | .popRecv c => some c
  | _ => none

/-- One step. -/
inductive Step (comp : Compare T) (expir : T → Int) : Sys T → Sys T → Prop where
  /-- a goroutine calls Push -/
  | startPush (s t x) : s.pc t = .idle → Step comp expir s (s.goto t (.pushLock x))
  /-- delay_queue.go:55 -/
  | pushLock (s t x) : s.pc t = .pushLock x → s.locked = false →
      Step comp expir s ({ s with locked := true }.goto t (.pushBody x))
  /-- delay_queue.go:56-60 -/
  | pushBody (s t x q d) : s.pc t = .pushBody x → PQ.push ecmp s.pq (x, expir x) = .ok q → PQ.peek q = .ok (some d) →
      Step comp expir s ({ s with pq := q, pushed := s.pushed ++ [x] }.goto t (.pushUnlock x d.1))
  /-- delay_queue.go:61 -/
  | pushUnlock (s t x d) : s.pc t = .pushUnlock x d → Step comp expir s ({ s with locked := false }.goto t (.pushTest x d))
  /-- delay_queue.go:63 -/
  | pushSame (s t x d) : s.pc t = .pushTest x d → comp d x = 0 → Step comp expir s (s.goto t .pushCas)
  /-- delay_queue.go:63, 70 -/
  | pushOther (s t x d) : s.pc t = .pushTest x d → comp d x ≠ 0 → Step comp expir s (s.goto t .idle)
  /-- delay_queue.go:65 -/
  | casOk (s t) : s.pc t = .pushCas → s.sleeping = true → Step comp expir s ({ s with sleeping := false }.goto t .pushSend)
  /-- delay_queue.go:65, 70 -/
  | casFail (s t) : s.pc t = .pushCas → s.sleeping = false → Step comp expir s (s.goto t .idle)
  /-- delay_queue.go:67 meets one of 101, 109, 117, 170, 176, 182 -/
  | rendezvous (s t u c) : s.pc t = .pushSend → (s.pc u).receiver = some c →
      Step comp expir s ((s.goto t .idle).goto u (.popLock c))
  /-- a goroutine calls Pop or PopWithCtx -/
  | startPop (s t c) : s.pc t = .idle → Step comp expir s (s.goto t (.popLock c))
  /-- delay_queue.go:78, 146 -/
  | popLock (s t c) : s.pc t = .popLock c → s.locked = false → Step comp expir s ({ s with locked := true }.goto t (.popBody c))
  /-- delay_queue.go:79-80, 147-148 -/
  | popEmpty (s t c) : s.pc t = .popBody c → PQ.peek s.pq = .ok none → Step comp expir s (s.goto t (.popUnlock c .empty))
  /-- delay_queue.go:79-84, 147-152 -/
  | popUndue (s t c d) : s.pc t = .popBody c → PQ.peek s.pq = .ok (some d) → d.2 > s.clock →
      Step comp expir s (s.goto t (.popUnlock c (.undue d.2)))
  /-- delay_queue.go:79-82, 85-87, 147-150, 153-155 -/
  | popDue (s t c d r q) : s.pc t = .popBody c → PQ.peek s.pq = .ok (some d) → ¬ d.2 > s.clock → PQ.pop ecmp s.pq = .ok (r, q) →
      Step comp expir s ({ s with pq := q, takes := s.takes ++ [(⟨t, d.1, s.clock, s.stored⟩ : Take T)] }.goto t (.popUnlock c (.due d.1)))
  /-- delay_queue.go:90, 159 -/
  | popUnlockDue (s t c x) : s.pc t = .popUnlock c (.due x) → Step comp expir s ({ s with locked := false }.goto t (.popGot c x))
  /-- delay_queue.go:90, 159 -/
  | popUnlockEmpty (s t c) : s.pc t = .popUnlock c .empty → Step comp expir s ({ s with locked := false }.goto t (.popStore c none))
  /-- delay_queue.go:90, 159 -/
  | popUnlockUndue (s t c e) : s.pc t = .popUnlock c (.undue e) →
      Step comp expir s ({ s with locked := false }.goto t (.popStore c (some e)))
  /-- delay_queue.go:94, 163 -/
  | popStore (s t c o) : s.pc t = .popStore c o → Step comp expir s ({ s with sleeping := true }.goto t (.popWait c o))
  /-- delay_queue.go:112, 178 -/
  | popTimer (s t c e) : s.pc t = .popWait c (some e) → e ≤ s.clock → Step comp expir s (s.goto t (.popSwap c))
  /-- delay_queue.go:112, 178, too early -/
  | popTimerEarly (s t c e) : s.pc t = .popWait c (some e) → s.skewed = true → Step comp expir s (s.goto t (.popSwap c))
  /-- delay_queue.go:103-104, 120-121 -/
  | popCancel (s t k o) : s.pc t = .popWait (some k) o → s.done k = true → Step comp expir s (s.goto t (.popExit (some k)))
  /-- delay_queue.go:115, 119, 180, 185 -/
  | swapSleeping (s t c) : s.pc t = .popSwap c → s.sleeping = true →
      Step comp expir s ({ s with sleeping := false }.goto t (.popLock c))
  /-- delay_queue.go:115, 180 -/
  | swapAwake (s t c) : s.pc t = .popSwap c → s.sleeping = false → Step comp expir s (s.goto t (.popRecv c))
  /-- delay_queue.go:189 -/
  | gotPop (s t x) : s.pc t = .popGot none x → Step comp expir s ({ s with delivered := s.delivered ++ [(t, x)] }.goto t .idle)
  /-- delay_queue.go:130-131 -/
  | gotCtx (s t k x) : s.pc t = .popGot (some k) x → s.done k = false →
      Step comp expir s ({ s with delivered := s.delivered ++ [(t, x)] }.goto t .idle)
  /-- delay_queue.go:128-129 -/
  | gotCancelled (s t k x) : s.pc t = .popGot (some k) x → s.done k = true →
      Step comp expir s ({ s with lost := s.lost ++ [(t, x)] }.goto t (.popExit (some k)))
  /-- delay_queue.go:135-138 -/
  | popExit (s t c) : s.pc t = .popExit c → Step comp expir s ({ s with sleeping := false }.goto t .idle)
  /-- a goroutine calls Poll -/
  | startPoll (s t) : s.pc t = .idle → Step comp expir s (s.goto t .pollLock)
  /-- delay_queue.go:195 -/
  | pollLock (s t) : s.pc t = .pollLock → s.locked = false → Step comp expir s ({ s with locked := true }.goto t .pollBody)
  /-- delay_queue.go:198-199, 206 -/
  | pollEmpty (s t) : s.pc t = .pollBody → PQ.peek s.pq = .ok none →
      Step comp expir s ({ s with polls := s.polls ++ [(⟨s.clock, s.stored, none, false⟩ : PollRec T)] }.goto t (.pollUnlock none false))
  /-- delay_queue.go:198-201: a bare return with `ok` still true -/
  | pollUndue (s t d) : s.pc t = .pollBody → PQ.peek s.pq = .ok (some d) → sub64 d.2 s.clock > 0 →
      Step comp expir s ({ s with polls := s.polls ++ [(⟨s.clock, s.stored, none, true⟩ : PollRec T)] }.goto t (.pollUnlock none true))
  /-- delay_queue.go:198-200, 202-203 -/
  | pollDue (s t d) : s.pc t = .pollBody → PQ.peek s.pq = .ok (some d) → ¬ sub64 d.2 s.clock > 0 →
      Step comp expir s ({ s with polls := s.polls ++ [(⟨s.clock, s.stored, some d.1, true⟩ : PollRec T)] }.goto t (.pollUnlock (some d.1) true))
  /-- delay_queue.go:196 -/
  | pollUnlock (s t v ok) : s.pc t = .pollUnlock v ok → Step comp expir s ({ s with locked := false }.goto t .idle)
  /-- time passes -/
  | tick (s) (d : Nat) : Step comp expir s { s with clock := s.clock + d }
  /-- somebody sets the clock -/
  | setClock (s) (n : Int) : s.skewed = true → Step comp expir s { s with clock := n }
  /-- a context is cancelled -/
  | cancel (s) (k : Nat) : Step comp expir s { s with done := fun j => if j = k then true else s.done j }

/-- Reachable from a new queue. -/
inductive Reach (comp : Compare T) (expir : T → Int) : Sys T → Prop where
  | init (z : T × Int) (size : Int) (pq clock skewed done) : PQ.new z [size] = .ok pq → Reach comp expir (Sys.init pq clock skewed done)
  | step {s s'} : Reach comp expir s → Step comp expir s s' → Reach comp expir s'

end Gds.DelayQueue
