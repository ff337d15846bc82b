import Verif.Stream.Model

/-! Model of the goroutine branches (`parallelism ≠ 0`) of FoldWith, TryFold and Collect as transition
systems, one step per channel operation, select, callback, segmenter call or pull; and of the shared
counters of Take, Skip and Enumerate, one step per atomic load, atomic add and pull.

Every goroutine is one entry of the list `ws`; a step of "some goroutine" replaces one entry
(`pre ++ w :: post` becomes `pre ++ w' :: post`).  Pulls of different goroutines are single steps:
the pull functions of slices and of Map/Filter/SkipWhile over them touch only variables of their own
segment.  A `parallelism` of -1 or less panics in `make(chan R, p)`; it is not modelled.  `p` is the
value of the field `parallelism`. -/

namespace Gds.Stream

variable {E T R : Type}

/-! ### FoldWith (stream/fold.go:26-51, stream/stream.go:21-38) -/

/-- A goroutine of the parallel FoldWith. -/
inductive FW (s : Stm E T) (R : Type) where
  | run (st : s.S) (acc : R)      -- fold.go:33-35
  | send (acc : R)                -- fold.go:36, blocked on `resChan <- accum`
  | exit

/-- The calling goroutine. -/
inductive FM (s : Stm E T) (R : Type) where
  | seg (g : s.G)                 -- in doParallel's loop (stream.go:25-37)
  | recv (acc : R) (counter : Nat) -- fold.go:40-47
  | done (acc : R)                -- fold.go:48-49, after close(resChan)

/-- State of a parallel FoldWith. -/
structure FSt (s : Stm E T) (R : Type) where
  main : FM s R
  ws : List (FW s R)
  chan : List R                   -- resChan, capacity p
  closed : Bool
  panicked : Bool                 -- a goroutine panicked (send on closed channel)
  l : s.L
  e : E

/-- Entry of the branch: `make(chan R, p)`, `stm.Activate(p)` (fold.go:28-30). -/
def FSt.init (s : Stm E T) (R : Type) (p : Nat) (l : s.L) (e : E) : FSt s R :=
  { main := .seg (s.activate p), ws := [], chan := [], closed := false, panicked := false, l := l, e := e }

/-- One step of a parallel FoldWith. -/
inductive FStep (s : Stm E T) (p : Nat) (ini : R) (f : R → T → R) (comb : R → R → R) :
    FSt s R → FSt s R → Prop where
  /-- stream.go:26-36: the segmenter has a segment; a goroutine is started -/
  | spawn (c : FSt s R) (g st g' l' e') : c.main = .seg g → s.seg g c.l c.e = .ok (some st, g', l', e') →
      FStep s p ini f comb c { c with main := .seg g', ws := c.ws ++ [.run st ini], l := l', e := e' }
  /-- stream.go:27-29: no more segments -/
  | segEnd (c : FSt s R) (g g' l' e') : c.main = .seg g → s.seg g c.l c.e = .ok (none, g', l', e') →
      FStep s p ini f comb c { c with main := .recv ini 0, l := l', e := e' }
  /-- fold.go:33-35: one element -/
  | pull (c : FSt s R) (pre post st acc v st' l' e') : c.ws = pre ++ .run st acc :: post →
      s.pull st c.l c.e = .ok (some v, st', l', e') →
      FStep s p ini f comb c { c with ws := pre ++ .run st' (f acc v) :: post, l := l', e := e' }
  /-- fold.go:33: the segment is exhausted -/
  | pullEnd (c : FSt s R) (pre post st acc st' l' e') : c.ws = pre ++ .run st acc :: post →
      s.pull st c.l c.e = .ok (none, st', l', e') →
      FStep s p ini f comb c { c with ws := pre ++ .send acc :: post, l := l', e := e' }
  /-- fold.go:36: `resChan <- accum` finds room in the buffer -/
  | send (c : FSt s R) (pre post acc) : c.ws = pre ++ .send acc :: post → c.closed = false → c.chan.length < p →
      FStep s p ini f comb c { c with ws := pre ++ .exit :: post, chan := c.chan ++ [acc] }
  /-- fold.go:36 after line 48: send on a closed channel -/
  | sendPanic (c : FSt s R) (pre post acc) : c.ws = pre ++ .send acc :: post → c.closed = true →
      FStep s p ini f comb c { c with panicked := true }
  /-- fold.go:45-46 -/
  | recv (c : FSt s R) (acc k a rest) : c.main = .recv acc k → k ≠ p → c.chan = a :: rest →
      FStep s p ini f comb c { c with main := .recv (comb acc a) (k + 1), chan := rest }
  /-- fold.go:42-44, 48-49 -/
  | close (c : FSt s R) (acc k) : c.main = .recv acc k → k = p →
      FStep s p ini f comb c { c with main := .done acc, closed := true }

/-- States reached by some schedule. -/
inductive FReach (s : Stm E T) (p : Nat) (ini : R) (f : R → T → R) (comb : R → R → R) (l : s.L) (e : E) :
    FSt s R → Prop where
  | init : FReach s p ini f comb l e (.init s R p l e)
  | step {c c'} : FReach s p ini f comb l e c → FStep s p ini f comb c c' → FReach s p ini f comb l e c'

/-! ### Collect (stream/collect.go:21-31, stream/stream.go:21-38) -/

/-- A goroutine of the parallel Collect. -/
inductive CW (s : Stm E T) where
  | run (st : s.S)                -- collect.go:25, before pull()
  | call (v : T) (st : s.S)       -- collect.go:26, before collectTo(v)
  | exit                          -- after wg.Done() (stream.go:34)

/-- The calling goroutine. -/
inductive CM (s : Stm E T) where
  | seg (g : s.G)
  | wait                          -- collect.go:29 `.Wait()`
  | done

/-- State of a parallel Collect; the consumer acts on `e`. -/
structure CSt (s : Stm E T) where
  main : CM s
  ws : List (CW s)
  wg : Nat                        -- counter of the WaitGroup
  l : s.L
  e : E

/-- Entry of the branch (collect.go:23). -/
def CSt.init (s : Stm E T) (p : Nat) (l : s.L) (e : E) : CSt s :=
  { main := .seg (s.activate p), ws := [], wg := 0, l := l, e := e }

/-- One step of a parallel Collect; a call of the consumer is one step. -/
inductive CStep (s : Stm E T) (c : T → E → E) : CSt s → CSt s → Prop where
  /-- stream.go:26-36, wg.Add(1) and go -/
  | spawn (a : CSt s) (g st g' l' e') : a.main = .seg g → s.seg g a.l a.e = .ok (some st, g', l', e') →
      CStep s c a { main := .seg g', ws := a.ws ++ [.run st], wg := a.wg + 1, l := l', e := e' }
  /-- stream.go:27-29 -/
  | segEnd (a : CSt s) (g g' l' e') : a.main = .seg g → s.seg g a.l a.e = .ok (none, g', l', e') →
      CStep s c a { a with main := .wait, l := l', e := e' }
  /-- collect.go:25 -/
  | pull (a : CSt s) (pre post st v st' l' e') : a.ws = pre ++ .run st :: post →
      s.pull st a.l a.e = .ok (some v, st', l', e') →
      CStep s c a { a with ws := pre ++ .call v st' :: post, l := l', e := e' }
  /-- collect.go:26 -/
  | call (a : CSt s) (pre post v st) : a.ws = pre ++ .call v st :: post →
      CStep s c a { a with ws := pre ++ .run st :: post, e := c v a.e }
  /-- collect.go:25 fails, then wg.Done() (stream.go:34) -/
  | pullEnd (a : CSt s) (pre post st st' l' e') : a.ws = pre ++ .run st :: post →
      s.pull st a.l a.e = .ok (none, st', l', e') →
      CStep s c a { a with ws := pre ++ .exit :: post, wg := a.wg - 1, l := l', e := e' }
  /-- collect.go:29: Wait returns when the counter is 0 -/
  | waited (a : CSt s) : a.main = .wait → a.wg = 0 → CStep s c a { a with main := .done }

/-- States reached by some schedule. -/
inductive CReach (s : Stm E T) (p : Nat) (c : T → E → E) (l : s.L) (e : E) : CSt s → Prop where
  | init : CReach s p c l e (.init s p l e)
  | step {a b} : CReach s p c l e a → CStep s c a b → CReach s p c l e b

/-! ### TryFold (stream/tryfold.go:23-65) -/

/-- A goroutine of the parallel TryFold. -/
inductive TW (s : Stm E T) where
  | run (st : s.S) (acc : T)             -- tryfold.go:30, before pull()
  | sel (v : T) (st : s.S) (acc : T)     -- tryfold.go:31, before the select
  | call (v : T) (st : s.S) (acc : T)    -- tryfold.go:35, before the callback
  | cancel                               -- tryfold.go:37, before cancel()
  | send (acc : T)                       -- tryfold.go:42
  | exit

/-- The calling goroutine. -/
inductive TM (s : Stm E T) where
  | seg (g : s.G)
  | recv (acc : T) (counter : Nat) (val : T) -- tryfold.go:47-62; `val` is the named result
  | ret (res : T) (ok : Bool)

/-- State of a parallel TryFold. -/
structure TSt (s : Stm E T) where
  main : TM s
  ws : List (TW s)
  chan : List T
  cancelled : Bool                       -- ctx.Done() is closed
  l : s.L
  e : E

/-- Entry of the branch (tryfold.go:24-27). -/
def TSt.init (s : Stm E T) (p : Nat) (l : s.L) (e : E) : TSt s :=
  { main := .seg (s.activate p), ws := [], chan := [], cancelled := false, l := l, e := e }

/-- One step of a parallel TryFold; `z` is the zero value of `T`.  The channel is never closed. -/
inductive TStep (s : Stm E T) (p : Nat) (z ini : T) (f : T → T → T × Bool) : TSt s → TSt s → Prop where
  /-- stream.go:26-36 -/
  | spawn (c : TSt s) (g st g' l' e') : c.main = .seg g → s.seg g c.l c.e = .ok (some st, g', l', e') →
      TStep s p z ini f c { c with main := .seg g', ws := c.ws ++ [.run st ini], l := l', e := e' }
  /-- stream.go:27-29 -/
  | segEnd (c : TSt s) (g g' l' e') : c.main = .seg g → s.seg g c.l c.e = .ok (none, g', l', e') →
      TStep s p z ini f c { c with main := .recv ini 0 z, l := l', e := e' }
  /-- tryfold.go:30 -/
  | pull (c : TSt s) (pre post st acc v st' l' e') : c.ws = pre ++ .run st acc :: post →
      s.pull st c.l c.e = .ok (some v, st', l', e') →
      TStep s p z ini f c { c with ws := pre ++ .sel v st' acc :: post, l := l', e := e' }
  /-- tryfold.go:30 fails -/
  | pullEnd (c : TSt s) (pre post st acc st' l' e') : c.ws = pre ++ .run st acc :: post →
      s.pull st c.l c.e = .ok (none, st', l', e') →
      TStep s p z ini f c { c with ws := pre ++ .send acc :: post, l := l', e := e' }
  /-- tryfold.go:32-33 -/
  | selDone (c : TSt s) (pre post v st acc) : c.ws = pre ++ .sel v st acc :: post → c.cancelled = true →
      TStep s p z ini f c { c with ws := pre ++ .exit :: post }
  /-- tryfold.go:34: the default case only when ctx.Done() is not ready -/
  | selDefault (c : TSt s) (pre post v st acc) : c.ws = pre ++ .sel v st acc :: post → c.cancelled = false →
      TStep s p z ini f c { c with ws := pre ++ .call v st acc :: post }
  /-- tryfold.go:35, the callback accepts -/
  | callOk (c : TSt s) (pre post v st acc) : c.ws = pre ++ .call v st acc :: post → (f acc v).2 = true →
      TStep s p z ini f c { c with ws := pre ++ .run st (f acc v).1 :: post }
  /-- tryfold.go:35-36, the callback refuses -/
  | callStop (c : TSt s) (pre post v st acc) : c.ws = pre ++ .call v st acc :: post → (f acc v).2 = false →
      TStep s p z ini f c { c with ws := pre ++ .cancel :: post }
  /-- tryfold.go:37-38 -/
  | cancel (c : TSt s) (pre post) : c.ws = pre ++ .cancel :: post →
      TStep s p z ini f c { c with ws := pre ++ .exit :: post, cancelled := true }
  /-- tryfold.go:42 -/
  | send (c : TSt s) (pre post acc) : c.ws = pre ++ .send acc :: post → c.chan.length < p →
      TStep s p z ini f c { c with ws := pre ++ .exit :: post, chan := c.chan ++ [acc] }
  /-- tryfold.go:52-58 -/
  | recvOk (c : TSt s) (acc k val a rest) : c.main = .recv acc k val → k ≠ p → c.chan = a :: rest →
      (f acc a).2 = true →
      TStep s p z ini f c { c with main := .recv (f acc a).1 (k + 1) a, chan := rest }
  /-- tryfold.go:54-57 -/
  | recvStop (c : TSt s) (acc k val a rest) : c.main = .recv acc k val → k ≠ p → c.chan = a :: rest →
      (f acc a).2 = false →
      TStep s p z ini f c { c with main := .ret (f acc a).1 false, chan := rest, cancelled := true }
  /-- tryfold.go:59-60 -/
  | recvDone (c : TSt s) (acc k val) : c.main = .recv acc k val → k ≠ p → c.cancelled = true →
      TStep s p z ini f c { c with main := .ret val false }
  /-- tryfold.go:48-50, 63 -/
  | finish (c : TSt s) (acc k val) : c.main = .recv acc k val → k = p →
      TStep s p z ini f c { c with main := .ret acc true }

/-- States reached by some schedule. -/
inductive TReach (s : Stm E T) (p : Nat) (z ini : T) (f : T → T → T × Bool) (l : s.L) (e : E) : TSt s → Prop where
  | init : TReach s p z ini f l e (.init s p l e)
  | step {c c'} : TReach s p z ini f l e c → TStep s p z ini f c c' → TReach s p z ini f l e c'

/-! ### The counters of Take, Skip and Enumerate under a parallel Collect -/

/-- Which of the three operators wraps the source stream. -/
inductive Op where
  | take (n : Int)        -- take.go:9-37
  | skip (n : Int)        -- skip.go:10-38
  | enum                  -- enumerate.go:10-37

/-- A goroutine pulling from the wrapped segment and delivering. -/
inductive KW (s : Stm E T) where
  | start (st : s.S)               -- at the beginning of the wrapper's pull (or of Skip's loop)
  | loaded (st : s.S)              -- take.go:22 read `curr < l`, before pull()
  | got (v : T) (st : s.S)         -- pull() returned v, before atomic.AddInt64
  | deliver (k : Int) (v : T) (st : s.S)  -- the wrapper's pull returned v; k is the counter value after its add
  | exit

/-- The goroutines of a parallel Collect over the wrapped stream, after doParallel has started some. -/
structure KSt (s : Stm E T) where
  main : CM s
  ws : List (KW s)
  curr : Int                       -- the shared counter
  out : List (Int × T)             -- elements handed to the consumer, with the counter value
  dropped : List T                 -- elements skipped by Skip
  l : s.L
  e : E

/-- First activation: the counter is 0. -/
def KSt.init (s : Stm E T) (p : Nat) (l : s.L) (e : E) : KSt s :=
  { main := .seg (s.activate p), ws := [], curr := 0, out := [], dropped := [], l := l, e := e }

/-- One step. -/
inductive KStep (s : Stm E T) (op : Op) : KSt s → KSt s → Prop where
  /-- stream.go:26-36 -/
  | spawn (a : KSt s) (g st g' l' e') : a.main = .seg g → s.seg g a.l a.e = .ok (some st, g', l', e') →
      KStep s op a { a with main := .seg g', ws := a.ws ++ [.start st], l := l', e := e' }
  /-- stream.go:27-29 -/
  | segEnd (a : KSt s) (g g' l' e') : a.main = .seg g → s.seg g a.l a.e = .ok (none, g', l', e') →
      KStep s op a { a with main := .wait, l := l', e := e' }
  /-- take.go:22, `atomic.LoadInt64(&curr) < l` -/
  | load (a : KSt s) (n pre post st) : op = .take n → a.ws = pre ++ .start st :: post → a.curr < n →
      KStep s op a { a with ws := pre ++ .loaded st :: post }
  /-- take.go:22, the limit is reached: the segment ends -/
  | loadStop (a : KSt s) (n pre post st) : op = .take n → a.ws = pre ++ .start st :: post → n ≤ a.curr →
      KStep s op a { a with ws := pre ++ .exit :: post }
  /-- take.go:23 -/
  | takePull (a : KSt s) (n pre post st v st' l' e') : op = .take n → a.ws = pre ++ .loaded st :: post →
      s.pull st a.l a.e = .ok (some v, st', l', e') →
      KStep s op a { a with ws := pre ++ .got v st' :: post, l := l', e := e' }
  /-- take.go:23 fails -/
  | takeEnd (a : KSt s) (n pre post st st' l' e') : op = .take n → a.ws = pre ++ .loaded st :: post →
      s.pull st a.l a.e = .ok (none, st', l', e') →
      KStep s op a { a with ws := pre ++ .exit :: post, l := l', e := e' }
  /-- skip.go:24, enumerate.go:21 -/
  | pull (a : KSt s) (pre post st v st' l' e') : (∀ n, op ≠ .take n) → a.ws = pre ++ .start st :: post →
      s.pull st a.l a.e = .ok (some v, st', l', e') →
      KStep s op a { a with ws := pre ++ .got v st' :: post, l := l', e := e' }
  /-- skip.go:24, enumerate.go:21 fail -/
  | pullEnd (a : KSt s) (pre post st st' l' e') : (∀ n, op ≠ .take n) → a.ws = pre ++ .start st :: post →
      s.pull st a.l a.e = .ok (none, st', l', e') →
      KStep s op a { a with ws := pre ++ .exit :: post, l := l', e := e' }
  /-- take.go:24, skip.go:25 (not below the limit), enumerate.go:23 -/
  | add (a : KSt s) (pre post v st) : a.ws = pre ++ .got v st :: post → (∀ n, op = .skip n → n ≤ a.curr + 1) →
      KStep s op a { a with ws := pre ++ .deliver (a.curr + 1) v st :: post, curr := a.curr + 1 }
  /-- skip.go:25-27: below the limit, continue the loop -/
  | addSkip (a : KSt s) (n pre post v st) : op = .skip n → a.ws = pre ++ .got v st :: post → a.curr + 1 < n →
      KStep s op a { a with ws := pre ++ .start st :: post, curr := a.curr + 1, dropped := a.dropped ++ [v] }
  /-- collect.go:26 -/
  | deliver (a : KSt s) (pre post k v st) : a.ws = pre ++ .deliver k v st :: post →
      KStep s op a { a with ws := pre ++ .start st :: post, out := a.out ++ [(k, v)] }

/-- States reached by some schedule. -/
inductive KReach (s : Stm E T) (op : Op) (p : Nat) (l : s.L) (e : E) : KSt s → Prop where
  | init : KReach s op p l e (.init s p l e)
  | step {a b} : KReach s op p l e a → KStep s op a b → KReach s op p l e b

end Gds.Stream
