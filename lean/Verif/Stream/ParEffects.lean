import Verif.Stream.Effects

/-! Property C132: parallel pipelines whose callbacks have effects.

The goroutine branches of FoldWith and Collect, one step per callback: between any two callbacks of one goroutine, the
callbacks of the others may run.  A callback itself is one step (it locks what it touches; without that the Go program
has a data race, which no model of the library can answer for).  The pull function of a segment is therefore modelled
as a coroutine that is interrupted before every callback. -/
namespace Gds.Stream
variable {E T R U A : Type}

/-! ### Pipelines of callbacks -/

/-- A pipeline of Map, Filter, SkipWhile and Inspect on top of a source with elements of type `T`. (Take, Skip and
    Enumerate share a counter between the goroutines: C44.) -/
inductive Ops (E T : Type) : Type → Type 1 where
  | source : Ops E T T
  | map {R U : Type} (p : Ops E T R) (f : R → E → U × E) : Ops E T U
  | filter {R : Type} (p : Ops E T R) (q : R → E → Bool × E) : Ops E T R
  | skipWhile {R : Type} (p : Ops E T R) (q : R → E → Bool × E) : Ops E T R
  | inspect {R : Type} (p : Ops E T R) (g : R → E → E) : Ops E T R

/-- What one step of a pull function leads to. -/
inductive Tick (R S : Type) where
  | more (st : S)            -- still running
  | yield (v : R) (st : S)   -- it has returned `(v, true)`
  | stop (st : S)            -- it has returned `(zero, false)`

namespace Ops

/-- The same pipeline, as in C129. -/
def stages : {R : Type} → Ops E T R → Stages E T R
  | _, source => .source
  | _, map p f => p.stages.map f
  | _, filter p q => p.stages.filter q
  | _, skipWhile p q => p.stages.skipWhile q
  | _, inspect p g => p.stages.inspect g

/-- Where the pull function of a segment stands: each stage is asking the stage before it (`inl`), or has its answer
    and is about to call the callback with it (`inr`). -/
def Susp (s : Stm E T) : {R : Type} → Ops E T R → Type
  | _, source => s.S
  | _, map (R := R) p _ => p.Susp s ⊕ (R × p.Susp s)
  | _, filter (R := R) p _ => p.Susp s ⊕ (R × p.Susp s)
  | _, skipWhile (R := R) p _ => p.Susp s ⊕ (R × p.Susp s)
  | _, inspect (R := R) p _ => p.Susp s ⊕ (R × p.Susp s)

/-- The pull function of a fresh segment. -/
def start (s : Stm E T) : {R : Type} → (p : Ops E T R) → s.S → p.Susp s
  | _, source, st => st
  | _, map p _, st => Sum.inl (p.start s st)
  | _, filter p _, st => Sum.inl (p.start s st)
  | _, skipWhile p _, st => Sum.inl (p.start s st)
  | _, inspect p _, st => Sum.inl (p.start s st)

/-- One step of the pull function: a pull of the source, one callback (stream/map.go:17-18, filter.go:16-20,
    skip.go:52-57, inspect.go:17-19), or handing on an answer. -/
def tick (s : Stm E T) : {R : Type} → (p : Ops E T R) → p.Susp s → s.L → E → Res (Tick R (p.Susp s) × s.L × E)
  | _, source, st, l, e => do
    let r ← s.pull st l e
    match r.1 with
    | none => pure (.stop r.2.1, r.2.2)
    | some v => pure (.yield v r.2.1, r.2.2)
  | _, map (R := R) p f, st, l, e =>
    match (st : p.Susp s ⊕ (R × p.Susp s)) with
    | .inl st => do
      let r ← p.tick s st l e
      match r.1 with
      | .more st' => pure (.more (.inl st'), r.2)
      | .yield v st' => pure (.more (.inr (v, st')), r.2)
      | .stop st' => pure (.stop (.inl st'), r.2)
    | .inr (v, st) => pure (.yield (f v e).1 (.inl st), l, (f v e).2)
  | _, filter (R := R) p q, st, l, e =>
    match (st : p.Susp s ⊕ (R × p.Susp s)) with
    | .inl st => do
      let r ← p.tick s st l e
      match r.1 with
      | .more st' => pure (.more (.inl st'), r.2)
      | .yield v st' => pure (.more (.inr (v, st')), r.2)
      | .stop st' => pure (.stop (.inl st'), r.2)
    | .inr (v, st) => pure (if (q v e).1 then .yield v (.inl st) else .more (.inl st), l, (q v e).2)
  | _, skipWhile (R := R) p q, st, l, e =>
    match (st : p.Susp s ⊕ (R × p.Susp s)) with
    | .inl st => do
      let r ← p.tick s st l e
      match r.1 with
      | .more st' => pure (.more (.inl st'), r.2)
      | .yield v st' => pure (.more (.inr (v, st')), r.2)
      | .stop st' => pure (.stop (.inl st'), r.2)
    | .inr (v, st) => pure (if (q v e).1 then .more (.inl st) else .yield v (.inl st), l, (q v e).2)
  | _, inspect (R := R) p g, st, l, e =>
    match (st : p.Susp s ⊕ (R × p.Susp s)) with
    | .inl st => do
      let r ← p.tick s st l e
      match r.1 with
      | .more st' => pure (.more (.inl st'), r.2)
      | .yield v st' => pure (.more (.inr (v, st')), r.2)
      | .stop st' => pure (.stop (.inl st'), r.2)
    | .inr (v, st) => pure (.yield v (.inl st), l, g v e)

/-- The pull function run to its end with nobody else around. -/
def alone (s : Stm E T) (p : Ops E T R) (st : p.Susp s) (l : s.L) (e : E) : Res (Option R × p.Susp s × s.L × E) := do
  let r ← p.tick s st l e
  match r.1 with
  | .more st' => alone s p st' r.2.1 r.2.2
  | .yield v st' => pure (some v, st', r.2)
  | .stop st' => pure (none, st', r.2)
partial_fixpoint

end Ops

/-! ### The goroutines (stream/fold.go:33-36, stream/collect.go:23-29) -/

/-- A goroutine; for Collect the accumulator is of type `Unit`. -/
inductive GW (s : Stm E T) (p : Ops E T R) (A : Type) where
  | ask (st : p.Susp s) (acc : A)               -- fold.go:33, collect.go:25: in pull()
  | call (v : R) (st : p.Susp s) (acc : A)      -- fold.go:34, collect.go:26: before the callback
  | fin (acc : A)                               -- the loop has ended
  | exit                                        -- the goroutine has ended

/-- The goroutines, numbered in the order they are started (stream.go:31), with what they share. -/
structure Pool (s : Stm E T) (p : Ops E T R) (A : Type) where
  ws : List (GW s p A)
  l : s.L
  e : E

/-- Goroutine `i` makes one step inside its loop. -/
inductive PoolStep {s : Stm E T} {p : Ops E T R} (F : A → R → E → A × E) (i : Nat) : Pool s p A → Pool s p A → Prop where
  /-- inside the pull function -/
  | more (c : Pool s p A) (st acc st' l' e') : c.ws[i]? = some (GW.ask st acc) → p.tick s st c.l c.e = .ok (.more st', l', e') →
      PoolStep F i c { ws := c.ws.set i (.ask st' acc), l := l', e := e' }
  /-- fold.go:33, collect.go:25: the pull function has returned an element -/
  | yield (c : Pool s p A) (st acc v st' l' e') : c.ws[i]? = some (GW.ask st acc) → p.tick s st c.l c.e = .ok (.yield v st', l', e') →
      PoolStep F i c { ws := c.ws.set i (.call v st' acc), l := l', e := e' }
  /-- fold.go:33, collect.go:25: the segment is exhausted -/
  | stop (c : Pool s p A) (st acc st' l' e') : c.ws[i]? = some (GW.ask st acc) → p.tick s st c.l c.e = .ok (.stop st', l', e') →
      PoolStep F i c { ws := c.ws.set i (.fin acc), l := l', e := e' }
  /-- fold.go:34, collect.go:26: the callback of the terminal operation -/
  | call (c : Pool s p A) (v st acc) : c.ws[i]? = some (GW.call v st acc) →
      PoolStep F i c { c with ws := c.ws.set i (.ask st (F acc v c.e).1), e := (F acc v c.e).2 }

/-- A segment is started in a goroutine of its own (stream.go:31-35). -/
def Pool.spawn {s : Stm E T} {p : Ops E T R} (c : Pool s p A) (st : s.S) (ini : A) (l : s.L) (e : E) : Pool s p A :=
  { ws := c.ws ++ [.ask (p.start s st) ini], l := l, e := e }

/-- Goroutine `i` ends. -/
def Pool.exit {s : Stm E T} {p : Ops E T R} (c : Pool s p A) (i : Nat) : Pool s p A := { c with ws := c.ws.set i .exit }

/-! ### FoldWith (stream/fold.go:26-51, stream/stream.go:21-38) -/

/-- The calling goroutine. -/
inductive FoldMain (s : Stm E T) (A : Type) where
  | seg (g : s.G)                     -- in doParallel's loop (stream.go:25-37)
  | recv (acc : A) (counter : Nat)    -- fold.go:40-47
  | done (acc : A)                    -- fold.go:48-49, after close(resChan)

/-- State of a parallel FoldWith. -/
structure FoldSt (s : Stm E T) (p : Ops E T R) (A : Type) where
  main : FoldMain s A
  pool : Pool s p A
  chan : List A                       -- resChan, capacity `parallelism`
  closed : Bool
  panicked : Bool                     -- a goroutine has sent on the closed channel

/-- Entry of the branch: `make(chan R, k)`, `stm.Activate(k)` (fold.go:28-30). -/
def FoldSt.init (s : Stm E T) (p : Ops E T R) (A : Type) (k : Nat) (l : s.L) (e : E) : FoldSt s p A :=
  { main := .seg (s.activate k), pool := { ws := [], l := l, e := e }, chan := [], closed := false, panicked := false }

/-- One step of a parallel FoldWith with parallelism `k`; the combiner has no effects. -/
inductive FoldStep {s : Stm E T} {p : Ops E T R} (k : Nat) (ini : A) (F : A → R → E → A × E) (comb : A → A → A) :
    FoldSt s p A → FoldSt s p A → Prop where
  /-- stream.go:26-36 -/
  | spawn (c : FoldSt s p A) (g st g' l' e') : c.main = .seg g → s.seg g c.pool.l c.pool.e = .ok (some st, g', l', e') →
      FoldStep k ini F comb c { c with main := .seg g', pool := c.pool.spawn st ini l' e' }
  /-- stream.go:27-29 -/
  | segEnd (c : FoldSt s p A) (g g' l' e') : c.main = .seg g → s.seg g c.pool.l c.pool.e = .ok (none, g', l', e') →
      FoldStep k ini F comb c { c with main := .recv ini 0, pool := { c.pool with l := l', e := e' } }
  /-- fold.go:33-35 -/
  | work (c : FoldSt s p A) (i pool') : PoolStep F i c.pool pool' → FoldStep k ini F comb c { c with pool := pool' }
  /-- fold.go:36: `resChan <- accum` finds room in the buffer -/
  | send (c : FoldSt s p A) (i : Nat) (acc : A) : c.pool.ws[i]? = some (.fin acc) → c.closed = false → c.chan.length < k →
      FoldStep k ini F comb c { c with pool := c.pool.exit i, chan := c.chan ++ [acc] }
  /-- fold.go:36 after line 48: send on a closed channel -/
  | sendPanic (c : FoldSt s p A) (i : Nat) (acc : A) : c.pool.ws[i]? = some (.fin acc) → c.closed = true →
      FoldStep k ini F comb c { c with panicked := true }
  /-- fold.go:45-46 -/
  | recv (c : FoldSt s p A) (acc n a rest) : c.main = .recv acc n → n ≠ k → c.chan = a :: rest →
      FoldStep k ini F comb c { c with main := .recv (comb acc a) (n + 1), chan := rest }
  /-- fold.go:42-44, 48-49 -/
  | close (c : FoldSt s p A) (acc n) : c.main = .recv acc n → n = k →
      FoldStep k ini F comb c { c with main := .done acc, closed := true }

/-- States reached in `n` steps by some schedule. -/
inductive FoldRun (s : Stm E T) (p : Ops E T R) (k : Nat) (ini : A) (F : A → R → E → A × E) (comb : A → A → A) (l : s.L) (e : E) :
    Nat → FoldSt s p A → Prop where
  | init : FoldRun s p k ini F comb l e 0 (.init s p A k l e)
  | step {n c c'} : FoldRun s p k ini F comb l e n c → FoldStep k ini F comb c c' → FoldRun s p k ini F comb l e (n + 1) c'

/-! ### Collect (stream/collect.go:21-31, stream/stream.go:21-38) -/

/-- The calling goroutine. -/
inductive CollectMain (s : Stm E T) where
  | seg (g : s.G)                     -- in doParallel's loop
  | wait                              -- collect.go:29 `.Wait()`
  | done

/-- State of a parallel Collect. -/
structure CollectSt (s : Stm E T) (p : Ops E T R) where
  main : CollectMain s
  pool : Pool s p Unit
  wg : Nat                            -- counter of the WaitGroup

/-- Entry of the branch (collect.go:23). -/
def CollectSt.init (s : Stm E T) (p : Ops E T R) (k : Nat) (l : s.L) (e : E) : CollectSt s p :=
  { main := .seg (s.activate k), pool := { ws := [], l := l, e := e }, wg := 0 }

/-- One step of a parallel Collect. -/
inductive CollectStep {s : Stm E T} {p : Ops E T R} (C : R → E → E) : CollectSt s p → CollectSt s p → Prop where
  /-- stream.go:26-36, wg.Add(1) and go -/
  | spawn (c : CollectSt s p) (g st g' l' e') : c.main = .seg g → s.seg g c.pool.l c.pool.e = .ok (some st, g', l', e') →
      CollectStep C c { main := .seg g', pool := c.pool.spawn st () l' e', wg := c.wg + 1 }
  /-- stream.go:27-29 -/
  | segEnd (c : CollectSt s p) (g g' l' e') : c.main = .seg g → s.seg g c.pool.l c.pool.e = .ok (none, g', l', e') →
      CollectStep C c { c with main := .wait, pool := { c.pool with l := l', e := e' } }
  /-- collect.go:25-27 -/
  | work (c : CollectSt s p) (i pool') : PoolStep (fun (_ : Unit) v e => ((), C v e)) i c.pool pool' → CollectStep C c { c with pool := pool' }
  /-- stream.go:34 `wg.Done()` -/
  | exit (c : CollectSt s p) (i : Nat) : c.pool.ws[i]? = some (.fin ()) → CollectStep C c { c with pool := c.pool.exit i, wg := c.wg - 1 }
  /-- collect.go:29: Wait returns when the counter is 0 -/
  | waited (c : CollectSt s p) : c.main = .wait → c.wg = 0 → CollectStep C c { c with main := .done }

/-- States reached in `n` steps by some schedule. -/
inductive CollectRun (s : Stm E T) (p : Ops E T R) (k : Nat) (C : R → E → E) (l : s.L) (e : E) : Nat → CollectSt s p → Prop where
  | init : CollectRun s p k C l e 0 (.init s p k l e)
  | step {n c c'} : CollectRun s p k C l e n c → CollectStep C c c' → CollectRun s p k C l e (n + 1) c'

/-! ### Specification -/

/-- A call of a callback, seen from outside: what it does to the environment. -/
abbrev Act (E : Type) := E → E

/-- The calls made one after the other. -/
abbrev perform (acts : List (Act E)) (e : E) : E := acts.foldl (fun e g => g e) e

namespace Ops

/-- No callback's answer depends on the environment. -/
def Steady : {R : Type} → Ops E T R → Prop
  | _, source => True
  | _, map p f => p.Steady ∧ ∀ v e e', (f v e).1 = (f v e').1
  | _, filter p q => p.Steady ∧ ∀ v e e', (q v e).1 = (q v e').1
  | _, skipWhile p q => p.Steady ∧ ∀ v e e', (q v e).1 = (q v e').1
  | _, inspect p _ => p.Steady

/-- What every callback does to the environment satisfies `K`. -/
def Each (K : Act E → Prop) : {R : Type} → Ops E T R → Prop
  | _, source => True
  | _, map p f => p.Each K ∧ ∀ v, K (fun e => (f v e).2)
  | _, filter p q => p.Each K ∧ ∀ v, K (fun e => (q v e).2)
  | _, skipWhile p q => p.Each K ∧ ∀ v, K (fun e => (q v e).2)
  | _, inspect p g => p.Each K ∧ ∀ v, K (g v)

/-- What one element of the source causes: the calls in their order, and what arrives behind the last stage. The
    answers are those given in environment `e₀`. -/
def calls (e₀ : E) : {R : Type} → Ops E T R → T → List (Act E) × Option R
  | _, source, x => ([], some x)
  | _, map p f, x =>
    match p.calls e₀ x with
    | (as, none) => (as, none)
    | (as, some v) => (as ++ [fun e => (f v e).2], some (f v e₀).1)
  | _, filter p q, x =>
    match p.calls e₀ x with
    | (as, none) => (as, none)
    | (as, some v) => (as ++ [fun e => (q v e).2], if (q v e₀).1 then some v else none)
  | _, skipWhile p q, x =>
    match p.calls e₀ x with
    | (as, none) => (as, none)
    | (as, some v) => (as ++ [fun e => (q v e).2], if (q v e₀).1 then none else some v)
  | _, inspect p g, x =>
    match p.calls e₀ x with
    | (as, none) => (as, none)
    | (as, some v) => (as ++ [g v], some v)

/-- What a goroutine does with a segment: the calls in their order, and the value it ends up with. -/
def whole (e₀ : E) (p : Ops E T R) (F : A → R → E → A × E) : A → List T → List (Act E) × A
  | a, [] => ([], a)
  | a, x :: xs =>
    match p.calls e₀ x with
    | (as, none) => (as ++ (p.whole e₀ F a xs).1, (p.whole e₀ F a xs).2)
    | (as, some v) => (as ++ (fun e => (F a v e).2) :: (p.whole e₀ F (F a v e₀).1 xs).1, (p.whole e₀ F (F a v e₀).1 xs).2)

end Ops

/-- An interleaving: `tr` lists calls with the number of the segment they belong to; it has the calls `whole i` of every
    segment `i`, each segment's in their order, and no others. -/
def Interleaves (tr : List (Nat × Act E)) (whole : List (List (Act E))) : Prop :=
  (∀ x ∈ tr, x.1 < whole.length) ∧ ∀ i acts, whole[i]? = some acts → (tr.filter (fun x => x.1 == i)).map (·.2) = acts

end Gds.Stream
