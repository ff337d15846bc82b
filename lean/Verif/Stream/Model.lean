import Verif.Slice.Model
import Mathlib.Logic.Function.Basic
import Mathlib.Data.List.FinRange

/-! Model of package `stream` (stream/*.go), sequential part: operators and the `parallelism == 0`
branches of the terminal operations.  The goroutine branches are in `Stream/Par.lean`.

A `Stream[T]` value is a closure `Activate` over captured variables.  The variables captured when the
stream value is built (the counters of Take, Skip and Enumerate) have type `L` and survive from one
activation to the next; those of the segmenter returned by `Activate(p)` have type `G`; those of the
pull function returned by the segmenter have type `S`.  `E` is the environment on which user
callbacks (Inspect, Collect) act.

Simplifications.  (1) Callbacks of Map, Filter, SkipWhile, FlatMap and the folds are pure (not so in `Stream/Effects.lean`)
functions.  (2) Each *use* of a stream value inside another operator has its own copy of the
captured counters: `Zip(t, t)` with `t := Take(…)` shares one counter in Go, the model gives two.
(3) A slice is not written to while it is being streamed.  (4) The trace message "KKK" printed by
Chain (chain.go:38) is left out. -/

namespace Gds.Stream

/-- stream/stream.go:10-19 `Stream[T]` and `New`: the behaviour of the closures. -/
structure Stm (E T : Type) where
  L : Type
  G : Type
  S : Type
  /-- values of the captured counters when the stream value is built -/
  init : L
  /-- field `parallelism` -/
  par : Int
  /-- `Activate(p)` : only creates closures -/
  activate : Int → G
  /-- one call of the segmenter -/
  seg : G → L → E → Res (Option S × G × L × E)
  /-- one call of a segment's pull function -/
  pull : S → L → E → Res (Option T × S × L × E)

variable {E T R U : Type}

/-- collections/slice/slice.go:80-85 `Slice.Stream(p)`: `stream.New(s.SplitableIter, p)`; segments
    are iterated with `Slice.Iter` (slice.go:58,74). -/
def ofSlice (m : Slice.Mem T) (s : Slice.Hdr) (p : Int) : Stm E T where
  L := Unit
  G := Int × Int
  S := Slice.Hdr × Nat
  init := ()
  par := p
  activate := fun q => (q, 0)
  seg := fun g l e => do
    let r ← Slice.splitableIter s g.1 g.2
    pure (r.1.map (fun h => (h, 0)), (g.1, r.2), l, e)
  pull := fun st l e => do
    let r ← Slice.iter m st.1 st.2
    pure (r.1, (st.1, r.2), l, e)

/-- stream/stream.go:40-43 `Parallel`. -/
def parallel (s : Stm E T) (p : Int) : Stm E T := { s with par := p }

/-- stream/map.go:5-28 `Map`. -/
def map (s : Stm E T) (f : T → R) : Stm E R where
  L := s.L
  G := s.G
  S := s.S
  init := s.init
  par := s.par
  activate := s.activate
  seg := s.seg
  pull := fun st l e => do
    let r ← s.pull st l e
    pure (r.1.map f, r.2)

/-- stream/filter.go:15-20, the loop of one pull. -/
def filterPull (s : Stm E T) (p : T → Bool) (st : s.S) (l : s.L) (e : E) :
    Res (Option T × s.S × s.L × E) := do
  let r ← s.pull st l e
  match r.1 with
  | none => pure (none, r.2)
  | some t => if p t then pure (some t, r.2) else filterPull s p r.2.1 r.2.2.1 r.2.2.2
partial_fixpoint

/-- stream/filter.go:5-30 `Filter`. -/
def filter (s : Stm E T) (p : T → Bool) : Stm E T where
  L := s.L
  G := s.G
  S := s.S
  init := s.init
  par := s.par
  activate := s.activate
  seg := s.seg
  pull := filterPull s p

/-- stream/inspect.go:5-29 `Inspect`. -/
def inspect (s : Stm E T) (g : T → E → E) : Stm E T where
  L := s.L
  G := s.G
  S := s.S
  init := s.init
  par := s.par
  activate := s.activate
  seg := s.seg
  pull := fun st l e => do
    let r ← s.pull st l e
    match r.1 with
    | some v => pure (some v, r.2.1, r.2.2.1, g v r.2.2.2)
    | none => pure (none, r.2)

/-- stream/zip.go:8-41 `Zip`: both segmenters, and then both pull functions, are always called.
    `t, ok := pull()` (line 23) stands at the level of the function body, so it assigns the named
    result `ok` declared in line 22; the bare `return` of line 32 therefore returns the zero pair
    `z` together with the left stream's `ok`. -/
def zip (z : T × R) (s : Stm E T) (s2 : Stm E R) : Stm E (T × R) where
  L := s.L × s2.L
  G := s.G × s2.G
  S := s.S × s2.S
  init := (s.init, s2.init)
  par := s.par
  activate := fun p => (s.activate p, s2.activate p)
  seg := fun g l e => do
    let a ← s.seg g.1 l.1 e
    let b ← s2.seg g.2 l.2 a.2.2.2
    pure (match a.1, b.1 with
      | some x, some y => some (x, y)
      | _, _ => none, (a.2.1, b.2.1), (a.2.2.1, b.2.2.1), b.2.2.2)
  pull := fun st l e => do
    let a ← s.pull st.1 l.1 e
    let b ← s2.pull st.2 l.2 a.2.2.2
    pure (match a.1, b.1 with
      | some x, some y => some (x, y)
      | some _, none => some z
      | none, _ => none, (a.2.1, b.2.1), (a.2.2.1, b.2.2.1), b.2.2.2)

/-- stream/take.go:9-37 `Take`; the `Int` is `curr` (an int64; it is not incremented past the larger
    of `n` and its start, so it does not overflow). -/
def take (s : Stm E T) (n : Int) : Stm E T where
  L := Int × s.L
  G := s.G
  S := s.S
  init := (0, s.init)
  par := s.par
  activate := s.activate
  seg := fun g l e => do
    let r ← s.seg g l.2 e
    pure (r.1, r.2.1, (l.1, r.2.2.1), r.2.2.2)
  pull := fun st l e =>
    if l.1 < n then do
      let r ← s.pull st l.2 e
      match r.1 with
      | some v => pure (some v, r.2.1, (l.1 + 1, r.2.2.1), r.2.2.2)
      | none => pure (none, r.2.1, (l.1, r.2.2.1), r.2.2.2)
    else pure (none, st, l, e)

/-- stream/skip.go:23-28, the loop of one pull of `Skip`; the counter is unbounded here, an int64 in
    Go (2^63 elements). -/
def skipPull (s : Stm E T) (n : Int) (st : s.S) (l : Int × s.L) (e : E) :
    Res (Option T × s.S × (Int × s.L) × E) := do
  let r ← s.pull st l.2 e
  match r.1 with
  | none => pure (none, r.2.1, (l.1, r.2.2.1), r.2.2.2)
  | some v =>
    if l.1 + 1 < n then skipPull s n r.2.1 (l.1 + 1, r.2.2.1) r.2.2.2
    else pure (some v, r.2.1, (l.1 + 1, r.2.2.1), r.2.2.2)
partial_fixpoint

/-- stream/skip.go:10-38 `Skip`. -/
def skip (s : Stm E T) (n : Int) : Stm E T where
  L := Int × s.L
  G := s.G
  S := s.S
  init := (0, s.init)
  par := s.par
  activate := s.activate
  seg := fun g l e => do
    let r ← s.seg g l.2 e
    pure (r.1, r.2.1, (l.1, r.2.2.1), r.2.2.2)
  pull := skipPull s n

/-- stream/skip.go:51-56, the loop of one pull of `SkipWhile`. -/
def skipWhilePull (s : Stm E T) (p : T → Bool) (st : s.S) (l : s.L) (e : E) :
    Res (Option T × s.S × s.L × E) := do
  let r ← s.pull st l e
  match r.1 with
  | none => pure (none, r.2)
  | some t => if p t then skipWhilePull s p r.2.1 r.2.2.1 r.2.2.2 else pure (some t, r.2)
partial_fixpoint

/-- stream/skip.go:40-66 `SkipWhile`. -/
def skipWhile (s : Stm E T) (p : T → Bool) : Stm E T where
  L := s.L
  G := s.G
  S := s.S
  init := s.init
  par := s.par
  activate := s.activate
  seg := s.seg
  pull := skipWhilePull s p

/-- stream/enumerate.go:10-37 `Enumerate`; the `Int` is `curr`. -/
def enumerate (s : Stm E T) : Stm E (Int × T) where
  L := Int × s.L
  G := s.G
  S := s.S
  init := (0, s.init)
  par := s.par
  activate := s.activate
  seg := fun g l e => do
    let r ← s.seg g l.2 e
    pure (r.1, r.2.1, (l.1, r.2.2.1), r.2.2.2)
  pull := fun st l e => do
    let r ← s.pull st l.2 e
    match r.1 with
    | some v => pure (some (l.1 + 1, v), r.2.1, (l.1 + 1, r.2.2.1), r.2.2.2)
    | none => pure (none, r.2.1, (l.1, r.2.2.1), r.2.2.2)

/-! ### Chain -/

/-- stream/chain.go:19-23: one round over the segmenters, collecting the pull functions of those
    that still have a segment. -/
def chainSegs {n : Nat} (ss : Fin n → Stm E T) :
    List (Σ i, (ss i).G) → (∀ i, (ss i).L) → E →
    Res (List (Σ i, (ss i).S) × List (Σ i, (ss i).G) × (∀ i, (ss i).L) × E)
  | [], l, e => .ok ([], [], l, e)
  | ⟨i, g⟩ :: gs, l, e => do
    let r ← (ss i).seg g (l i) e
    let rest ← chainSegs ss gs (Function.update l i r.2.2.1) r.2.2.2
    pure ((match r.1 with
      | some st => ⟨i, st⟩ :: rest.1
      | none => rest.1), ⟨i, r.2.1⟩ :: rest.2.1, rest.2.2)

/-- Variables captured by the pull function of Chain: `pulls`, `idx`, and the position in `pulls` of
    the function currently in the variable `pull` (chain.go:26-27). -/
structure ChainSt {n : Nat} (ss : Fin n → Stm E T) where
  pulls : List (Σ i, (ss i).S)
  idx : Nat
  cur : Nat

/-- stream/chain.go:28-44, the loop of one pull; `pulls[idx]` out of range panics. -/
def chainPull {n : Nat} (ss : Fin n → Stm E T) (c : ChainSt ss) (l : ∀ i, (ss i).L) (e : E) :
    Res (Option T × ChainSt ss × (∀ i, (ss i).L) × E) :=
  match c.pulls[c.cur]? with
  | none => .panic .indexOutOfRange
  | some ⟨i, st⟩ => do
    let r ← (ss i).pull st (l i) e
    let pulls' := c.pulls.set c.cur ⟨i, r.2.1⟩
    let l' := Function.update l i r.2.2.1
    match r.1 with
    | some v => pure (some v, { c with pulls := pulls' }, l', r.2.2.2)
    | none =>
      if c.idx + 1 = c.pulls.length then
        pure (none, { pulls := pulls', idx := c.idx + 1, cur := c.cur }, l', r.2.2.2)
      else if c.idx + 1 < c.pulls.length then
        chainPull ss { pulls := pulls', idx := c.idx + 1, cur := c.idx + 1 } l' r.2.2.2
      else .panic .indexOutOfRange
partial_fixpoint

/-- stream/chain.go:9-55 `Chain`; every stream is activated with its own parallelism (line 15), the
    result has parallelism 0 (line 53). -/
def chain {n : Nat} (ss : Fin n → Stm E T) : Stm E T where
  L := ∀ i, (ss i).L
  G := List (Σ i, (ss i).G)
  S := ChainSt ss
  init := fun i => (ss i).init
  par := 0
  activate := fun _ => (List.finRange n).map (fun i => ⟨i, (ss i).activate (ss i).par⟩)
  seg := fun gs l e => do
    let r ← chainSegs ss gs l e
    if r.1.length ≠ 0 then pure (some { pulls := r.1, idx := 0, cur := 0 }, r.2)
    else pure (none, r.2)
  pull := chainPull ss

/-! ### FlatMap -/

/-- The variable `iter` of FlatMap (flat_map.go:15): nil, or the pull function of the first segment
    of `flatMap(t)` together with the counters of that freshly built stream. -/
abbrev Inner (f : T → Stm E U) := Option (Σ t, (f t).L × (f t).S)

/-- stream/flat_map.go:20-25 and 43-47: `flatMap(t).Activate(0)()`, nil when it has no segment. -/
def flatOpen (f : T → Stm E U) (t : T) (e : E) : Res (Inner f × E) := do
  let r ← (f t).seg ((f t).activate 0) (f t).init e
  pure (match r.1 with
    | some st => some ⟨t, r.2.2.1, st⟩
    | none => none, r.2.2.2)

/-- stream/flat_map.go:27-55, one pull. -/
def flatMapPull (s : Stm E T) (f : T → Stm E U) (st : s.S × Inner f) (l : s.L) (e : E) :
    Res (Option U × (s.S × Inner f) × s.L × E) :=
  match st.2 with
  | none => .ok (none, st, l, e)                                   -- 29-31: iter == nil
  | some ⟨t, li, sti⟩ => do
    let r ← (f t).pull sti li e
    match r.1 with
    | some v => pure (some v, (st.1, some ⟨t, r.2.2.1, r.2.1⟩), l, r.2.2.2)
    | none =>
      let o ← s.pull st.1 l r.2.2.2
      match o.1 with
      | none => pure (none, (o.2.1, some ⟨t, r.2.2.1, r.2.1⟩), o.2.2.1, o.2.2.2)  -- 50-52
      | some t' => do
        let n ← flatOpen f t' o.2.2.2
        match n.1 with
        | none => pure (none, (o.2.1, none), o.2.2.1, n.2)          -- 44-47
        | some i => flatMapPull s f (o.2.1, some i) o.2.2.1 n.2
partial_fixpoint

/-- stream/flat_map.go:5-61 `FlatMap`: the segmenter already pulls the first element (17-26). -/
def flatMap (s : Stm E T) (f : T → Stm E U) : Stm E U where
  L := s.L
  G := s.G
  S := s.S × Inner f
  init := s.init
  par := s.par
  activate := s.activate
  seg := fun g l e => do
    let r ← s.seg g l e
    match r.1 with
    | none => pure (none, r.2)
    | some st =>
      let o ← s.pull st r.2.2.1 r.2.2.2
      match o.1 with
      | none => pure (some (o.2.1, none), r.2.1, o.2.2.1, o.2.2.2)
      | some t =>
        let n ← flatOpen f t o.2.2.2
        pure (some (o.2.1, n.1), r.2.1, o.2.2.1, n.2)
  pull := flatMapPull s f

/-! ### Terminal operations, `parallelism == 0` -/

/-- stream/fold.go:21-23 (also collect.go:16-18): `for val, ok := pull(); ok; … { acc = f(acc, val) }`;
    `f` may act on the environment. -/
def foldSeg (s : Stm E T) (f : R → T → E → R × E) (st : s.S) (acc : R) (l : s.L) (e : E) :
    Res (R × s.L × E) := do
  let r ← s.pull st l e
  match r.1 with
  | none => pure (acc, r.2.2.1, r.2.2.2)
  | some v =>
    let a := f acc v r.2.2.2
    foldSeg s f r.2.1 a.1 r.2.2.1 a.2
partial_fixpoint

/-- stream/fold.go:16-24 (also collect.go:11-19): the loop over the segments. -/
def foldSegs (s : Stm E T) (f : R → T → E → R × E) (g : s.G) (acc : R) (l : s.L) (e : E) :
    Res (R × s.L × E) := do
  let r ← s.seg g l e
  match r.1 with
  | none => pure (acc, r.2.2.1, r.2.2.2)
  | some st =>
    let a ← foldSeg s f st acc r.2.2.1 r.2.2.2
    foldSegs s f r.2.1 a.1 a.2.1 a.2.2
partial_fixpoint

/-- stream/fold.go:11-25 `FoldWith`, branch `parallelism == 0` (the combiner is not used). -/
def foldWith (s : Stm E T) (init : R) (f : R → T → R) (l : s.L) (e : E) : Res (R × s.L × E) :=
  foldSegs s (fun a v e => (f a v, e)) (s.activate s.par) init l e

/-- stream/fold.go:7-9 `Fold`. -/
def fold (s : Stm E T) (init : T) (f : T → T → T) (l : s.L) (e : E) : Res (T × s.L × E) :=
  foldWith s init f l e

/-- stream/sum.go:7-12 `Sum`; `T` is any integer type with its (wrapping) addition. -/
def sum [Add T] [Zero T] (s : Stm E T) (l : s.L) (e : E) : Res (T × s.L × E) :=
  foldWith s 0 (fun a b => a + b) l e

/-- stream/collect.go:8-20 `Collect`, branch `parallelism == 0`. -/
def collect (s : Stm E T) (c : T → E → E) (l : s.L) (e : E) : Res (s.L × E) := do
  let r ← foldSegs s (fun (_ : Unit) v e => ((), c v e)) (s.activate s.par) () l e
  pure r.2

/-- stream/tryfold.go:15-21, the loop; `ok` is overwritten by the callback and then by the next pull. -/
def tryFoldSeg (s : Stm E T) (f : T → T → T × Bool) (st : s.S) (acc : T) (l : s.L) (e : E) :
    Res ((T × Bool) × s.L × E) := do
  let r ← s.pull st l e
  match r.1 with
  | none => pure ((acc, true), r.2.2.1, r.2.2.2)
  | some v =>
    let a := f acc v
    if a.2 then tryFoldSeg s f r.2.1 a.1 r.2.2.1 r.2.2.2
    else pure ((a.1, false), r.2.2.1, r.2.2.2)
partial_fixpoint

/-- stream/tryfold.go:9-22 `TryFold`, branch `parallelism == 0`: only the first segment is read.
    `z` is the zero value of `T`. -/
def tryFold (z : T) (s : Stm E T) (init : T) (f : T → T → T × Bool) (l : s.L) (e : E) :
    Res ((T × Bool) × s.L × E) := do
  let r ← s.seg (s.activate s.par) l e
  match r.1 with
  | none => pure ((z, false), r.2.2.1, r.2.2.2)
  | some st => tryFoldSeg s f st init r.2.2.1 r.2.2.2

/-- stream/first.go:3-14 `First`. -/
def first (z : T) (s : Stm E T) (l : s.L) (e : E) : Res ((T × Bool) × s.L × E) := do
  let r ← s.seg (s.activate s.par) l e
  match r.1 with
  | none => pure ((z, false), r.2.2.1, r.2.2.2)
  | some st =>
    let o ← s.pull st r.2.2.1 r.2.2.2
    match o.1 with
    | some v => pure ((v, true), o.2.2.1, o.2.2.2)
    | none => pure ((z, false), o.2.2.1, o.2.2.2)

/-- stream/reduce.go:3-9 `Reduce` (parallelism 0): First, and then a fold over a *new* activation. -/
def reduce (z : T) (s : Stm E T) (f : T → T → T) (l : s.L) (e : E) : Res (T × s.L × E) := do
  let r ← first z s l e
  if r.1.2 then foldWith s r.1.1 f r.2.1 r.2.2 else pure (r.1.1, r.2.1, r.2.2)

/-- stream/reduce.go:11-15 `ReduceWith`. -/
def reduceWith (s : Stm E T) (identity : R) (f : R → T → R) (l : s.L) (e : E) : Res (R × s.L × E) :=
  foldWith s identity f l e

/-- stream/max_min.go:12-18 `MaxBy` and 29-36 `MinBy`: the same body as Reduce. -/
def maxBy (z : T) (s : Stm E T) (comp : T → T → T) (l : s.L) (e : E) : Res (T × s.L × E) := do
  let r ← first z s l e
  if r.1.2 then foldWith s r.1.1 comp r.2.1 r.2.2 else pure (r.1.1, r.2.1, r.2.2)

/-- stream/max_min.go:3-10 `Max` (`T ~int`). -/
def max (s : Stm E Int) (l : s.L) (e : E) : Res (Int × s.L × E) :=
  maxBy 0 s (fun a b => if a > b then a else b) l e

/-- stream/max_min.go:20-27 `Min`. -/
def min (s : Stm E Int) (l : s.L) (e : E) : Res (Int × s.L × E) :=
  maxBy 0 s (fun a b => if a < b then a else b) l e

/-- stream/all_any_match.go:3-15 `AllMatch` (`T ~int` in Go; any type here). -/
def allMatch (z : T) (s : Stm E T) (p : T → Bool) (l : s.L) (e : E) : Res (Bool × s.L × E) := do
  let r ← first z s l e
  if r.1.2 then do
    let t ← tryFold z s r.1.1 (fun a b => if p b then (a, true) else (a, false)) r.2.1 r.2.2
    pure (t.1.2, t.2)
  else pure (false, r.2)

/-- stream/all_any_match.go:17-29 `AnyMatch`. -/
def anyMatch (z : T) (s : Stm E T) (p : T → Bool) (l : s.L) (e : E) : Res (Bool × s.L × E) := do
  let r ← first z s l e
  if r.1.2 then do
    let t ← tryFold z s r.1.1 (fun a b => if p b then (a, false) else (a, true)) r.2.1 r.2.2
    pure (!t.1.2, t.2)
  else pure (false, r.2)

end Gds.Stream
