import Verif.Stream.Spec

/-! Specification of sequential pipelines without any side condition: everything a pull function answers, ask by ask, including what
it answers when it is asked again after it has reported its end (Zip does that with its right side, FlatMap with its last inner
sequence), and including panics.

A pull function is asked again and again; its answers are grouped into *rounds*: a round is a list of elements followed by one report
of the end, or by a panic.  Only the first round matters to a terminal operation at the top, but the later rounds matter to the
operators built on top of a stream. -/

namespace Gds.Stream

variable {E T R U : Type}

/-- Elements delivered one by one, each with the effect that happens before it, and then the end, with the effect that happens before
it is reported; `none`: instead of the end there is a panic (index out of range). -/
structure Round (E T : Type) where
  items : List ((E → E) × T)
  fin : Option (E → E)

/-- The rounds of a pull function: the current one and the later ones.  Rounds after a panic mean nothing. -/
structure Life (E T : Type) where
  now : Round E T
  later : Nat → Round E T

/-- The effect of asking for the segment (`none`: that panics) and the life of the segment's pull function. -/
structure Story (E T : Type) where
  start : Option (E → E)
  life : Life E T

namespace Round

/-- The elements only. -/
def vals (r : Round E T) : List T := r.items.map Prod.snd

/-- Panics at the first ask. -/
def broken : Round E T := ⟨[], none⟩

/-- Reports the end at the first ask. -/
def ended : Round E T := ⟨[], some id⟩

/-- Put one element in front. -/
def cons (f : E → E) (x : T) (r : Round E T) : Round E T := ⟨(f, x) :: r.items, r.fin⟩

/-- Let the effect `pre` happen first. -/
def after (pre : E → E) (r : Round E T) : Round E T :=
  match r.items with
  | [] => ⟨[], r.fin.map (· ∘ pre)⟩
  | (f, x) :: t => ⟨(f ∘ pre, x) :: t, r.fin⟩

/-- Deliver `r`, then (if its end is reached) `c`. -/
def append (r c : Round E T) : Round E T :=
  match r.fin with
  | none => r
  | some f => ⟨r.items ++ (c.after f).items, (c.after f).fin⟩

/-- Map. -/
def map (h : T → U) (r : Round E T) : Round E U := ⟨r.items.map (fun it => (it.1, h it.2)), r.fin⟩

/-- Inspect: the callback runs after the element has been fetched and before it is delivered. -/
def inspect (g : T → E → E) (r : Round E T) : Round E T := ⟨r.items.map (fun it => (g it.2 ∘ it.1, it.2)), r.fin⟩

/-- Keep the elements satisfying `p`; the effects of the others still happen. -/
def filter (p : T → Bool) : List ((E → E) × T) → Option (E → E) → Round E T
  | [], fin => ⟨[], fin⟩
  | (f, x) :: r, fin => if p x then cons f x (filter p r fin) else after f (filter p r fin)

/-- The first `n` elements and the number still wanted; nothing is requested once no more are wanted. -/
def take : Nat → List ((E → E) × T) → Option (E → E) → Round E T × Nat
  | 0, _, _ => (ended, 0)
  | n + 1, [], fin => (⟨[], fin⟩, n + 1)
  | n + 1, (f, x) :: r, fin => (cons f x (take n r fin).1, (take n r fin).2)

/-- Without the first `n` elements, and the number still to be dropped; the effects of the dropped elements still happen. -/
def drop : Nat → List ((E → E) × T) → Option (E → E) → Round E T × Nat
  | n, [], fin => (⟨[], fin⟩, n)
  | 0, (f, x) :: r, fin => (cons f x (drop 0 r fin).1, (drop 0 r fin).2)
  | n + 1, (f, _) :: r, fin => (after f (drop n r fin).1, (drop n r fin).2)

/-- Number the elements from `k + 1`; the last number. -/
def number : Int → List ((E → E) × T) → Option (E → E) → Round E (Int × T) × Int
  | k, [], fin => (⟨[], fin⟩, k)
  | k, (f, x) :: r, fin => (cons f (k + 1, x) (number (k + 1) r fin).1, (number (k + 1) r fin).2)

end Round

namespace Life

/-- What is left after the end of the current round. -/
def rest (L : Life E T) : Life E T := ⟨L.later 0, fun k => L.later (k + 1)⟩

/-- One ask: `none` is a panic; otherwise the effect, the answer (`none`: the end) and what is left. -/
def ask (L : Life E T) : Option ((E → E) × Option T × Life E T) :=
  match L.now.items, L.now.fin with
  | (f, x) :: r, fin => some (f, some x, ⟨⟨r, fin⟩, L.later⟩)
  | [], some f => some (f, none, L.rest)
  | [], none => none

/-- The elements `xs`, then the end, and the end again as often as it is asked. -/
def once (xs : List T) : Life E T := ⟨⟨xs.map (fun x => (id, x)), some id⟩, fun _ => Round.ended⟩

/-- The elements `xs`, then the end, then the elements again, and so on for ever. -/
def again (xs : List T) : Life E T := ⟨⟨xs.map (fun x => (id, x)), some id⟩, fun _ => ⟨xs.map (fun x => (id, x)), some id⟩⟩

/-- Nothing, ever. -/
def nothing : Life E T := ⟨Round.ended, fun _ => Round.ended⟩

/-- Round by round. -/
def each (h : Round E T → Round E U) (L : Life E T) : Life E U := ⟨h L.now, fun k => h (L.later k)⟩

/-- The later rounds of `scan`. -/
def scanFrom {σ : Type} (step : σ → Round E T → Round E U × σ) : σ → (Nat → Round E T) → Nat → Round E U
  | s, later, 0 => (step s (later 0)).1
  | s, later, k + 1 => scanFrom step (step s (later 0)).2 (fun j => later (j + 1)) k

/-- Round by round, with a state handed from one round to the next. -/
def scan {σ : Type} (step : σ → Round E T → Round E U × σ) (s : σ) (L : Life E T) : Life E U :=
  ⟨(step s L.now).1, scanFrom step (step s L.now).2 L.later⟩

/-- One round of Zip and what is left of the right side: the right side is asked each time the left side is asked.  A left element
for which the right side has an element gives the pair; one for which the right side reports its end gives the zero pair `z`; the
left side's end is the end of the round. -/
def zipRound (z : T × R) : List ((E → E) × T) → Option (E → E) → Life E R → Round E (T × R) × Life E R
  | [], fin, Q =>
    match Q.ask with
    | none => (Round.broken, Q)
    | some (g, _, Q') => (⟨[], fin.map (g ∘ ·)⟩, Q')
  | (f, x) :: r, fin, Q =>
    match Q.ask with
    | none => (Round.broken, Q)
    | some (g, some y, Q') => (Round.cons (g ∘ f) (x, y) (zipRound z r fin Q').1, (zipRound z r fin Q').2)
    | some (g, none, Q') => (Round.cons (g ∘ f) z (zipRound z r fin Q').1, (zipRound z r fin Q').2)

/-- Chain of `L` and `Ls`: one after the other; asked again after the end, the last one is asked again, and its next end panics. -/
def chain : Life E T → List (Life E T) → Life E T
  | L, [] => ⟨L.now, fun _ => ⟨(L.later 0).items, none⟩⟩
  | L, L' :: Ls => ⟨L.now.append (chain L' Ls).now, (chain L' Ls).later⟩

/-- One round of FlatMap, the current inner sequence being `cur`, and what is left of the last inner sequence: the outer side is
asked each time the inner sequence ends. -/
def flatRound (k : T → Story E U) : List ((E → E) × T) → Option (E → E) → Life E U → Round E U × Life E U
  | [], fin, cur => (cur.now.append ⟨[], fin⟩, cur.rest)
  | (g, t) :: r, fin, cur =>
    match (k t).start with
    | none => (cur.now.append Round.broken, nothing)
    | some s => (cur.now.append ((flatRound k r fin (k t).life).1.after (s ∘ g)), (flatRound k r fin (k t).life).2)

end Life

namespace Story

/-- Map. -/
def map (h : T → U) (t : Story E T) : Story E U := ⟨t.start, t.life.each (Round.map h)⟩

/-- Inspect. -/
def inspect (g : T → E → E) (t : Story E T) : Story E T := ⟨t.start, t.life.each (Round.inspect g)⟩

/-- Filter. -/
def filter (p : T → Bool) (t : Story E T) : Story E T := ⟨t.start, t.life.each (fun r => Round.filter p r.items r.fin)⟩

/-- Take. -/
def take (n : Nat) (t : Story E T) : Story E T := ⟨t.start, t.life.scan (fun n r => Round.take n r.items r.fin) n⟩

/-- Drop the first `n`. -/
def drop (n : Nat) (t : Story E T) : Story E T := ⟨t.start, t.life.scan (fun n r => Round.drop n r.items r.fin) n⟩

/-- Enumerate. -/
def number (t : Story E T) : Story E (Int × T) := ⟨t.start, t.life.scan (fun k r => Round.number k r.items r.fin) 0⟩

/-- Zip. -/
def zip (z : T × R) (t : Story E T) (u : Story E R) : Story E (T × R) :=
  ⟨t.start.bind fun f => u.start.map fun g => g ∘ f, t.life.scan (fun Q r => Life.zipRound z r.items r.fin Q) u.life⟩

/-- The effect of asking for all segments. -/
def startAll : List (Story E T) → Option (E → E)
  | [] => some id
  | t :: ts => t.start.bind fun f => (startAll ts).map fun g => g ∘ f

/-- Chain: all segments are requested first. -/
def chain (t : Story E T) (ts : List (Story E T)) : Story E T :=
  ⟨startAll (t :: ts), Life.chain t.life (ts.map Story.life)⟩

/-- FlatMap: the first element of the outer side is fetched, and its inner sequence opened, when the segment is requested; if there is
no first element the outer side is not asked again. -/
def bind (t : Story E T) (k : T → Story E U) : Story E U :=
  match t.life.ask with
  | none => ⟨none, Life.nothing⟩
  | some (f, none, _) => ⟨t.start.map (f ∘ ·), Life.nothing⟩
  | some (f, some x, O) =>
    ⟨t.start.bind fun s => (k x).start.map fun s' => s' ∘ f ∘ s,
      O.scan (fun cur r => Life.flatRound k r.items r.fin cur) (k x).life⟩

/-- Consuming the first round: `f` is called on each element, in order, with an accumulator and the environment; `none` is a panic. -/
def consume {A : Type} (f : A → T → E → A × E) (t : Story E T) (a : A) (e : E) : Option (A × E) :=
  t.start.bind fun s => t.life.now.fin.map fun g =>
    let z := t.life.now.items.foldl (fun z it => f z.1 it.2 (it.1 z.2)) (a, s e)
    (z.1, g z.2)

/-- Asking once: the first element, if there is one, and the environment afterwards; `none` is a panic. -/
def head (t : Story E T) (e : E) : Option (Option T × E) :=
  t.start.bind fun s => t.life.ask.map fun r => (r.2.1, r.1 (s e))

end Story

/-! ### Sources and pipelines -/

/-- The behaviour of a pull function: the answers it gives are those of `L`, whatever the environment. -/
def LivesStep (s : Stm E T) (P : s.S → s.L → Life E T → Prop) (st : s.S) (l : s.L) (L : Life E T) : Prop :=
  match L.ask with
  | none => ∀ e, s.pull st l e = .panic .indexOutOfRange
  | some (f, o, L') => ∃ st' l', (∀ e, s.pull st l e = .ok (o, st', l', f e)) ∧ P st' l' L'

/-- Asked any number of times, the pull function in state `st` (with counters `l`) answers as `L` says. -/
def Lives (s : Stm E T) (st : s.S) (l : s.L) (L : Life E T) : Prop :=
  ∃ P : s.S → s.L → Life E T → Prop, P st l L ∧ ∀ st l L, P st l L → LivesStep s P st l L

/-- Activating with `p` when the counters are `l` plays the story `t`: one segment (or a panic). -/
def Plays (s : Stm E T) (p : Int) (l : s.L) (t : Story E T) : Prop :=
  match t.start with
  | none => ∀ e, s.seg (s.activate p) l e = .panic .indexOutOfRange
  | some f => ∃ g1 st l1, (∀ e, s.seg (s.activate p) l e = .ok (some st, g1, l1, f e)) ∧ Lives s st l1 t.life ∧
      ∀ l e, ∃ g2, s.seg g1 l e = .ok (none, g2, l, e)

/-- A sequential stream that lives `L` every time it is activated. -/
def Behaving (s : Stm E T) (L : Life E T) : Prop := s.par = 0 ∧ ∀ l, Plays s 0 l ⟨some id, L⟩

/-- A pipeline built from sources (slices, lists, trees, …) with the operators of the package, all sequential; `L` is what the source
answers.  The `z` of Zip is the zero value of the pair type. -/
inductive Flow (E : Type) : Type → Type 1 where
  | src {T : Type} (s : Stm E T) (L : Life E T) (h : Behaving s L) : Flow E T
  | map {T R : Type} (p : Flow E T) (f : T → R) : Flow E R
  | filter {T : Type} (p : Flow E T) (q : T → Bool) : Flow E T
  | inspect {T : Type} (p : Flow E T) (g : T → E → E) : Flow E T
  | zip {T R : Type} (z : T × R) (p : Flow E T) (q : Flow E R) : Flow E (T × R)
  | chain {T : Type} {n : Nat} (ps : Fin (n + 1) → Flow E T) : Flow E T
  | flatMap {T U : Type} (p : Flow E T) (f : T → Flow E U) : Flow E U
  | take {T : Type} (p : Flow E T) (n : Int) : Flow E T
  | skip {T : Type} (p : Flow E T) (n : Int) : Flow E T
  | skipWhile {T : Type} (p : Flow E T) (q : T → Bool) : Flow E T
  | enumerate {T : Type} (p : Flow E T) : Flow E (Int × T)

/-- The stream value the pipeline builds (calls of the modelled constructors). -/
def Flow.stm {E : Type} : {T : Type} → Flow E T → Stm E T
  | _, .src s _ _ => s
  | _, .map p f => Stream.map p.stm f
  | _, .filter p q => Stream.filter p.stm q
  | _, .inspect p g => Stream.inspect p.stm g
  | _, .zip z p q => Gds.Stream.zip z p.stm q.stm
  | _, .chain ps => Stream.chain (fun i => (ps i).stm)
  | _, .flatMap p f => Stream.flatMap p.stm (fun t => (f t).stm)
  | _, .take p n => Stream.take p.stm n
  | _, .skip p n => Stream.skip p.stm n
  | _, .skipWhile p q => Stream.skipWhile p.stm q
  | _, .enumerate p => Stream.enumerate p.stm

/-- What the pipeline does, from what its sources do.  (Skip drops n-1 elements and SkipWhile filters: that is what the code does,
see C34 and C35.) -/
def Flow.story {E : Type} : {T : Type} → Flow E T → Story E T
  | _, .src _ L _ => ⟨some id, L⟩
  | _, .map p f => p.story.map f
  | _, .filter p q => p.story.filter q
  | _, .inspect p g => p.story.inspect g
  | _, .zip z p q => Story.zip z p.story q.story
  | _, .chain ps => Story.chain (ps 0).story (List.ofFn fun i => (ps i.succ).story)
  | _, .flatMap p f => p.story.bind (fun t => (f t).story)
  | _, .take p n => p.story.take n.toNat
  | _, .skip p n => p.story.drop (n - 1).toNat
  | _, .skipWhile p q => p.story.filter (fun t => !q t)
  | _, .enumerate p => p.story.number

/-- The pipeline contains no operator with a counter that survives an activation. -/
def Flow.NoCounter {E : Type} : {T : Type} → Flow E T → Prop
  | _, .src _ _ _ => True
  | _, .map p _ => p.NoCounter
  | _, .filter p _ => p.NoCounter
  | _, .inspect p _ => p.NoCounter
  | _, .zip _ p q => p.NoCounter ∧ q.NoCounter
  | _, .chain ps => ∀ i, (ps i).NoCounter
  | _, .flatMap p _ => p.NoCounter
  | _, .take _ _ => False
  | _, .skip _ _ => False
  | _, .skipWhile p _ => p.NoCounter
  | _, .enumerate _ => False

/-- No source of the pipeline delivers an element after its end. -/
def Flow.Ends {E : Type} : {T : Type} → Flow E T → Prop
  | _, .src _ L _ => L.now.fin ≠ none ∧ ∀ k, (L.later k).items = []
  | _, .map p _ => p.Ends
  | _, .filter p _ => p.Ends
  | _, .inspect p _ => p.Ends
  | _, .zip _ p q => p.Ends ∧ q.Ends
  | _, .chain ps => ∀ i, (ps i).Ends
  | _, .flatMap p f => p.Ends ∧ ∀ t, (f t).Ends
  | _, .take p _ => p.Ends
  | _, .skip p _ => p.Ends
  | _, .skipWhile p _ => p.Ends
  | _, .enumerate p => p.Ends

/-- What the pipeline delivers, in terms of the standard list functions (the same list functions as `Pipe.vals`). -/
def Flow.vals {E : Type} : {T : Type} → Flow E T → List T
  | _, .src _ L _ => L.now.vals
  | _, .map p f => p.vals.map f
  | _, .filter p q => p.vals.filter q
  | _, .inspect p _ => p.vals
  | _, .zip z p q => p.vals.zip q.vals ++ List.replicate (p.vals.length - q.vals.length) z
  | _, .chain ps => (List.ofFn (fun i => (ps i).vals)).flatten
  | _, .flatMap p f => p.vals.flatMap (fun t => (f t).vals)
  | _, .take p n => p.vals.take n.toNat
  | _, .skip p n => p.vals.drop (n - 1).toNat
  | _, .skipWhile p q => p.vals.filter (fun t => !q t)
  | _, .enumerate p => (List.range p.vals.length).zipWith (fun k x => ((k : Int) + 1, x)) p.vals

end Gds.Stream
