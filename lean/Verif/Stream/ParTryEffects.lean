import Verif.Stream.ParEffects

/-! Property C133: the parallel TryFold (AllMatch, AnyMatch) when its callbacks have effects.

One step per callback, as in `Stream/ParEffects.lean`; here the calling goroutine calls the callback as well. -/
namespace Gds.Stream
variable {E T R : Type}

/-- A goroutine of the parallel TryFold (stream/tryfold.go:28-44). -/
inductive TG (s : Stm E T) (p : Ops E T R) where
  | ask (st : p.Susp s) (acc : R)               -- tryfold.go:30: in pull()
  | sel (v : R) (st : p.Susp s) (acc : R)       -- tryfold.go:31, before the select
  | call (v : R) (st : p.Susp s) (acc : R)      -- tryfold.go:35, before the callback
  | cancel                                      -- tryfold.go:37, before cancel()
  | send (acc : R)                              -- tryfold.go:42
  | exit

/-- The calling goroutine. -/
inductive TryMain (s : Stm E T) (R : Type) where
  | seg (g : s.G)                               -- in doParallel's loop (stream.go:25-37)
  | recv (acc : R) (counter : Nat) (val : R)    -- tryfold.go:45-62; `val` is the named result
  | ret (res : R) (ok : Bool)                   -- TryFold has returned; the goroutines may still run

/-- State of a parallel TryFold; the goroutines are numbered in the order they are started. -/
structure TrySt (s : Stm E T) (p : Ops E T R) where
  main : TryMain s R
  ws : List (TG s p)
  chan : List R                                 -- resChan, capacity `parallelism`, never closed
  cancelled : Bool                              -- ctx.Done() is closed
  l : s.L
  e : E

/-- Entry of the branch (tryfold.go:24-27). -/
def TrySt.init (s : Stm E T) (p : Ops E T R) (k : Nat) (l : s.L) (e : E) : TrySt s p :=
  { main := .seg (s.activate k), ws := [], chan := [], cancelled := false, l := l, e := e }

/-- One step of a parallel TryFold with parallelism `k`; `z` is the zero value of the element type. -/
inductive TryStep {s : Stm E T} {p : Ops E T R} (k : Nat) (z ini : R) (F : R → R → E → (R × Bool) × E) : TrySt s p → TrySt s p → Prop where
  /-- stream.go:26-36 -/
  | spawn (c : TrySt s p) (g st g' l' e') : c.main = .seg g → s.seg g c.l c.e = .ok (some st, g', l', e') →
      TryStep k z ini F c { c with main := .seg g', ws := c.ws ++ [.ask (p.start s st) ini], l := l', e := e' }
  /-- stream.go:27-29 -/
  | segEnd (c : TrySt s p) (g g' l' e') : c.main = .seg g → s.seg g c.l c.e = .ok (none, g', l', e') →
      TryStep k z ini F c { c with main := .recv ini 0 z, l := l', e := e' }
  /-- inside the pull function -/
  | more (c : TrySt s p) (i : Nat) (st acc st' l' e') : c.ws[i]? = some (TG.ask st acc) → p.tick s st c.l c.e = .ok (.more st', l', e') →
      TryStep k z ini F c { c with ws := c.ws.set i (.ask st' acc), l := l', e := e' }
  /-- tryfold.go:30: the pull function has returned an element -/
  | yield (c : TrySt s p) (i : Nat) (st acc v st' l' e') : c.ws[i]? = some (TG.ask st acc) → p.tick s st c.l c.e = .ok (.yield v st', l', e') →
      TryStep k z ini F c { c with ws := c.ws.set i (.sel v st' acc), l := l', e := e' }
  /-- tryfold.go:30: the segment is exhausted -/
  | stop (c : TrySt s p) (i : Nat) (st acc st' l' e') : c.ws[i]? = some (TG.ask st acc) → p.tick s st c.l c.e = .ok (.stop st', l', e') →
      TryStep k z ini F c { c with ws := c.ws.set i (.send acc), l := l', e := e' }
  /-- tryfold.go:32-33 -/
  | selDone (c : TrySt s p) (i : Nat) (v st acc) : c.ws[i]? = some (TG.sel v st acc) → c.cancelled = true →
      TryStep k z ini F c { c with ws := c.ws.set i .exit }
  /-- tryfold.go:34: the default case only when ctx.Done() is not ready -/
  | selDefault (c : TrySt s p) (i : Nat) (v st acc) : c.ws[i]? = some (TG.sel v st acc) → c.cancelled = false →
      TryStep k z ini F c { c with ws := c.ws.set i (.call v st acc) }
  /-- tryfold.go:35, the callback accepts -/
  | callOk (c : TrySt s p) (i : Nat) (v st acc) : c.ws[i]? = some (TG.call v st acc) → (F acc v c.e).1.2 = true →
      TryStep k z ini F c { c with ws := c.ws.set i (.ask st (F acc v c.e).1.1), e := (F acc v c.e).2 }
  /-- tryfold.go:35-36, the callback refuses -/
  | callStop (c : TrySt s p) (i : Nat) (v st acc) : c.ws[i]? = some (TG.call v st acc) → (F acc v c.e).1.2 = false →
      TryStep k z ini F c { c with ws := c.ws.set i .cancel, e := (F acc v c.e).2 }
  /-- tryfold.go:37-38 -/
  | cancel (c : TrySt s p) (i : Nat) : c.ws[i]? = some (TG.cancel) →
      TryStep k z ini F c { c with ws := c.ws.set i .exit, cancelled := true }
  /-- tryfold.go:42 -/
  | send (c : TrySt s p) (i : Nat) (acc) : c.ws[i]? = some (TG.send acc) → c.chan.length < k →
      TryStep k z ini F c { c with ws := c.ws.set i .exit, chan := c.chan ++ [acc] }
  /-- tryfold.go:52-53, 58: the callback accepts the result of a goroutine -/
  | recvOk (c : TrySt s p) (acc n val a rest) : c.main = .recv acc n val → n ≠ k → c.chan = a :: rest → (F acc a c.e).1.2 = true →
      TryStep k z ini F c { c with main := .recv (F acc a c.e).1.1 (n + 1) a, chan := rest, e := (F acc a c.e).2 }
  /-- tryfold.go:52-57: the callback refuses it -/
  | recvStop (c : TrySt s p) (acc n val a rest) : c.main = .recv acc n val → n ≠ k → c.chan = a :: rest → (F acc a c.e).1.2 = false →
      TryStep k z ini F c { c with main := .ret (F acc a c.e).1.1 false, chan := rest, cancelled := true, e := (F acc a c.e).2 }
  /-- tryfold.go:59-60 -/
  | recvDone (c : TrySt s p) (acc n val) : c.main = .recv acc n val → n ≠ k → c.cancelled = true →
      TryStep k z ini F c { c with main := .ret val false }
  /-- tryfold.go:48-50, 63 -/
  | finish (c : TrySt s p) (acc n val) : c.main = .recv acc n val → n = k →
      TryStep k z ini F c { c with main := .ret acc true }

/-- States reached in `n` steps by some schedule. -/
inductive TryRun (s : Stm E T) (p : Ops E T R) (k : Nat) (z ini : R) (F : R → R → E → (R × Bool) × E) (l : s.L) (e : E) : Nat → TrySt s p → Prop where
  | init : TryRun s p k z ini F l e 0 (.init s p k l e)
  | step {n c c'} : TryRun s p k z ini F l e n c → TryStep k z ini F c c' → TryRun s p k z ini F l e (n + 1) c'

/-! ### Specification -/

namespace Ops

/-- A TryFold over `xs`: the calls up to and with the one that refuses, and the value, if none refuses. The answers are those
    given in environment `e₀`. -/
def upto (e₀ : E) (p : Ops E T R) (F : R → R → E → (R × Bool) × E) : R → List T → List (Act E) × Option R
  | a, [] => ([], some a)
  | a, x :: xs =>
    match p.calls e₀ x with
    | (as, none) => (as ++ (p.upto e₀ F a xs).1, (p.upto e₀ F a xs).2)
    | (as, some v) =>
      if (F a v e₀).1.2 then (as ++ (fun e => (F a v e).2) :: (p.upto e₀ F (F a v e₀).1.1 xs).1, (p.upto e₀ F (F a v e₀).1.1 xs).2)
      else (as ++ [fun e => (F a v e).2], none)

/-- What arrives behind the last stage. -/
def arrivals (e₀ : E) (p : Ops E T R) (xs : List T) : List R := xs.filterMap (fun x => (p.calls e₀ x).2)

/-- The calls made until something arrives behind the last stage, and what arrives. -/
def toFirst (e₀ : E) (p : Ops E T R) : List T → List (Act E) × Option R
  | [] => ([], none)
  | x :: xs =>
    match p.calls e₀ x with
    | (as, none) => (as ++ (p.toFirst e₀ xs).1, (p.toFirst e₀ xs).2)
    | (as, some v) => (as, some v)

end Ops

/-- What has been called so far: `tr` lists the calls with the number of the segment they belong to, or the number of segments
    for the calls of the calling goroutine; each segment has made a beginning of what it would do alone, and the calling
    goroutine what a TryFold over the results `rs` does. -/
structure Called (tr : List (Nat × Act E)) (segs : List (List (Act E))) (main : List (Act E)) : Prop where
  who : ∀ x ∈ tr, x.1 ≤ segs.length
  prefixes : ∀ i acts, segs[i]? = some acts → (tr.filter (fun x => x.1 == i)).map (·.2) <+: acts
  caller : (tr.filter (fun x => x.1 == segs.length)).map (·.2) = main

/-- The callback of AllMatch (stream/all_any_match.go:8-13). -/
def allF (q : R → E → Bool × E) (a b : R) (e : E) : (R × Bool) × E := ((a, (q b e).1), (q b e).2)

/-- The callback of AnyMatch (stream/all_any_match.go:22-27). -/
def anyF (q : R → E → Bool × E) (a b : R) (e : E) : (R × Bool) × E := ((a, !(q b e).1), (q b e).2)

/-- The branch of AllMatch and AnyMatch with parallelism `k` (stream/all_any_match.go:3-15, 17-29): First, and then a TryFold that starts
    with what First has found; `ok` is the flag of the TryFold. (`lf`, `l`: the variables of the closures, which no source considered here
    uses.) -/
def MatchRun (s : Stm E T) (p : Ops E T R) (k : Nat) (z : R) (F : R → R → E → (R × Bool) × E) (lf : (p.stages.build s).L) (l : s.L) (e : E) (found ok : Bool) (e' : E) : Prop :=
  ∃ l1 v e1, first z (p.stages.build s) lf e = .ok ((v, found), l1, e1) ∧
    if found then ∃ n c res, TryRun s p k z v F l e1 n c ∧ c.main = .ret res ok ∧ c.e = e' else ok = false ∧ e' = e1

end Gds.Stream
