import Verif.Go.Basic

/-! Model of package `iterator` (iterator/iterator.go).

A Go iterator is a closure `func() (T, bool)` over captured variables.  It is modelled by the type
`σ` of the captured variables and a function giving, for the current values, the result of one
call and the new values.  `(v, true)` is `some v`, `(_, false)` is `none`.  A callback
`func(T) bool` with side effects on an environment `E` is `T → E → Bool × E`. -/

namespace Gds.Iter

/-- One call of a pull iterator `Iter[T]` (iterator/iterator.go:13, fn/function.go:91). -/
abbrev Next (σ T : Type _) := σ → Res (Option T × σ)

/-- iterator/iterator.go:88-98 `FromSlice`: captured variables `s` (fixed) and `idx`. -/
def fromSlice {T : Type _} (s : List T) : Next Nat T := fun idx =>
  if h : idx < s.length then .ok (some s[idx], idx + 1) else .ok (none, idx)

/-- iterator/iterator.go:26-35 `CastToPush(next)(yield)`:
    `for { v, ok := next(); if !ok || !yield(v) { break } }`. -/
def castToPush {σ T E : Type _} (next : Next σ T) (yield : T → E → Bool × E) (s : σ) (e : E) :
    Res (σ × E) := do
  let r ← next s
  match r.1 with
  | none => pure (r.2, e)
  | some v =>
    let y := yield v e
    if y.1 then castToPush next yield r.2 y.2 else pure (r.2, y.2)
partial_fixpoint

/-- iterator/iterator.go:82-86 `Iter.All`: `for v, ok := next(); ok; v, ok = next() { yelid(v) }` —
    the callback's result is dropped. -/
def all {σ T E : Type _} (next : Next σ T) (yield : T → E → Bool × E) (s : σ) (e : E) :
    Res (σ × E) := do
  let r ← next s
  match r.1 with
  | none => pure (r.2, e)
  | some v => all next yield r.2 (yield v e).2
partial_fixpoint

/-- Calling `next` k times in a row, collecting the k results (not Go code: the observer). -/
def pulls {σ T : Type _} (next : Next σ T) : Nat → σ → Res (List (Option T) × σ)
  | 0, s => .ok ([], s)
  | k + 1, s => do
    let r ← next s
    let rest ← pulls next k r.2
    pure (r.1 :: rest.1, rest.2)

/-! ### Lines (iterator/iterator.go:58-80) -/

/-- What the file system answers for the file: cannot be opened, or some bytes followed by EOF or
    by a read error. -/
inductive File where
  | cannotOpen
  | data (content : List Char) (readErr : Bool)

/-- `bufio.Reader.ReadString('\n')` (called at iterator/iterator.go:68): everything up to and
    including the first newline and the unread rest, or `none` together with the unread rest if
    there is no newline before the end (the Go call returns the rest together with a non-nil
    error; `Lines` ignores the data in that case). -/
def readString : List Char → Option (List Char × List Char)
  | [] => none
  | c :: cs =>
    if c = '\n' then some ([c], cs)
    else match readString cs with
      | none => none
      | some (l, rest) => some (c :: l, rest)

theorem readString_length {cs l rest : List Char} (h : readString cs = some (l, rest)) :
    rest.length < cs.length := by
  induction cs generalizing l rest with
  | nil => simp [readString] at h
  | cons c cs ih =>
    unfold readString at h
    split at h
    · simp at h; rw [← h.2]; simp
    · split at h
      · simp at h
      · next l' r' heq =>
        simp at h
        have := ih heq
        rw [← h.2]; simp; omega

/-- A value passed to the callback of `Lines`: `(line, nil)` or `("", err)`. -/
inductive LineEvent where
  | line (l : List Char)
  | error
  deriving DecidableEq

/-- iterator/iterator.go:67-78, the loop of `Lines` over the unread bytes. -/
def linesLoop {E : Type _} (readErr : Bool) (yield : LineEvent → E → Bool × E)
    (cs : List Char) (e : E) : E :=
  match h : readString cs with
  | none => if readErr then (yield .error e).2 else e   -- err != io.EOF is reported, then break
  | some (line, rest) =>
    let y := yield (.line line) e
    if y.1 then linesLoop readErr yield rest y.2 else y.2
termination_by cs.length
decreasing_by exact readString_length h

/-- iterator/iterator.go:58-80 `Lines(file)(yield)`. -/
def lines {E : Type _} (f : File) (yield : LineEvent → E → Bool × E) (e : E) : E :=
  match f with
  | .cannotOpen => (yield .error e).2
  | .data cs readErr => linesLoop readErr yield cs e

/-! ### CastToPull (iterator/iterator.go:37-56) as a transition system -/

/-- A push iterator `func(yield func(T) bool)` (iterator/iterator.go:15): in each state it has either
    returned (`none`) or calls `yield(v)` and goes on according to the answer. -/
structure PushFn (T : Type _) where
  P : Type
  start : P
  step : P → Option (T × (Bool → P))

/-- Channel/goroutine state of one `CastToPull(push)`. -/
structure PullSt {T : Type _} (f : PushFn T) where
  prod : f.P               -- goroutine: inside push, at its next yield (or returned)
  closed : Bool            -- close(ch) done (line 50)
  cancelled : Bool         -- stop() called
  waiting : Bool           -- a call of next() is blocked on `<-ch` (line 53)
  got : List (Option T)    -- results returned by next() so far, oldest first

/-- iterator/iterator.go:39-41. -/
def PullSt.init {T : Type _} (f : PushFn T) : PullSt f :=
  { prod := f.start, closed := false, cancelled := false, waiting := false, got := [] }

/-- Labels of the steps. -/
inductive PullLbl where
  | pull | stop | send | cancelSeen | close | recvClosed
  deriving DecidableEq

/-- One atomic step. -/
inductive PullStep {T : Type _} (f : PushFn T) : PullLbl → PullSt f → PullSt f → Prop where
  /-- the consumer calls next() (line 52) -/
  | pull (s) : s.waiting = false → PullStep f .pull s { s with waiting := true }
  /-- the consumer calls stop(), i.e. cf (line 55) -/
  | stop (s) : PullStep f .stop s { s with cancelled := true }
  /-- line 46: `case ch <- v: return true` meets line 53 `val, ok = <-ch` (unbuffered channel) -/
  | send (s v k) : s.closed = false → s.waiting = true → f.step s.prod = some (v, k) →
      PullStep f .send s { s with prod := k true, waiting := false, got := s.got ++ [some v] }
  /-- line 44: `case <-ctx.Done(): return false` -/
  | cancelSeen (s v k) : s.closed = false → s.cancelled = true → f.step s.prod = some (v, k) →
      PullStep f .cancelSeen s { s with prod := k false }
  /-- line 50: push has returned, `close(ch)` -/
  | close (s) : s.closed = false → f.step s.prod = none →
      PullStep f .close s { s with closed := true }
  /-- line 53 on a closed channel -/
  | recvClosed (s) : s.closed = true → s.waiting = true →
      PullStep f .recvClosed s { s with waiting := false, got := s.got ++ [none] }

/-- States reachable from the initial one; the index lists the labels of the run. -/
inductive PullReach {T : Type _} (f : PushFn T) : List PullLbl → PullSt f → Prop where
  | init : PullReach f [] (PullSt.init f)
  | step {ls s l s'} : PullReach f ls s → PullStep f l s s' → PullReach f (ls ++ [l]) s'

/-- A push function over a fixed list that stops as soon as yield answers false — e.g.
    `CastToPush(FromSlice(xs))` (lines 26-35) or `Slice.All` (collections/slice/slice.go:39-45). -/
def PushFn.ofList {T : Type} (xs : List T) : PushFn T where
  P := List T
  start := xs
  step := fun
    | [] => none
    | x :: r => some (x, fun b => if b then r else [])

/-- A push function over a list that ignores the answer, as `Iter.All` does (lines 82-86). -/
def PushFn.ofListDeaf {T : Type} (xs : List T) : PushFn T where
  P := List T
  start := xs
  step := fun
    | [] => none
    | x :: r => some (x, fun _ => r)

end Gds.Iter
