import Verif.Stream.Model

/-! Specification of sequential pipelines, independent of the closures of the model: what a pipeline
delivers, as a list of elements, and when the callbacks of `Inspect` run, as an effect in front of
each element. -/

namespace Gds.Stream

variable {E T R U : Type}

/-- Elements delivered one by one; before each element the paired effect happens, and `fin` happens
    when the end is reported. -/
structure Body (E T : Type) where
  items : List ((E → E) × T)
  fin : E → E

namespace Body

/-- The elements only. -/
def vals (b : Body E T) : List T := b.items.map Prod.snd

/-- Elements without effects. -/
def pure (xs : List T) : Body E T := ⟨xs.map (fun x => (id, x)), id⟩

/-- Let the effect `pre` happen first. -/
def after (pre : E → E) (b : Body E T) : Body E T :=
  match b.items with
  | [] => ⟨[], b.fin ∘ pre⟩
  | (f, x) :: r => ⟨(f ∘ pre, x) :: r, b.fin⟩

/-- Put one element in front. -/
def cons (f : E → E) (x : T) (b : Body E T) : Body E T := ⟨(f, x) :: b.items, b.fin⟩

/-- Deliver `b`, then `c`. -/
def append (b c : Body E T) : Body E T :=
  ⟨b.items ++ (c.after b.fin).items, (c.after b.fin).fin⟩

/-- Run a consumer over everything. -/
def run (c : T → E → E) (b : Body E T) (e : E) : E :=
  b.fin (b.items.foldl (fun e it => c it.2 (it.1 e)) e)

/-- Keep the elements satisfying `p`; the effects of the others still happen. -/
def filter (p : T → Bool) : List ((E → E) × T) → (E → E) → Body E T
  | [], fin => ⟨[], fin⟩
  | (f, x) :: r, fin => if p x then cons f x (filter p r fin) else after f (filter p r fin)

/-- The first `n` elements; nothing more is requested afterwards. -/
def take : Nat → List ((E → E) × T) → (E → E) → Body E T
  | 0, _, _ => ⟨[], id⟩
  | _ + 1, [], fin => ⟨[], fin⟩
  | n + 1, (f, x) :: r, fin => cons f x (take n r fin)

/-- Without the first `n` elements; their effects still happen. -/
def drop : Nat → List ((E → E) × T) → (E → E) → Body E T
  | 0, its, fin => ⟨its, fin⟩
  | _ + 1, [], fin => ⟨[], fin⟩
  | n + 1, (f, _) :: r, fin => after f (drop n r fin)

/-- Number the elements from `k + 1`. -/
def number : Int → List ((E → E) × T) → List ((E → E) × (Int × T))
  | _, [] => []
  | k, (f, x) :: r => (f, (k + 1, x)) :: number (k + 1) r

/-- Pairwise; both sides are always asked.  When the right side has ended, every further element of
    the left side is replaced by the pair `z`. -/
def zip (z : T × R) : List ((E → E) × T) → (E → E) → List ((E → E) × R) → (E → E) → Body E (T × R)
  | (f, x) :: r, fin, (g, y) :: r', fin' => cons (g ∘ f) (x, y) (zip z r fin r' fin')
  | (f, _) :: r, fin, [], fin' => cons (fin' ∘ f) z ⟨r.map (fun it => (it.1, z)), fin⟩
  | [], fin, (g, _) :: _, _ => ⟨[], g ∘ fin⟩
  | [], fin, [], fin' => ⟨[], fin' ∘ fin⟩

end Body

/-- A body preceded by the effect of asking for the segment. -/
structure Trace (E T : Type) where
  start : E → E
  body : Body E T

namespace Trace

/-- The elements only. -/
def vals (t : Trace E T) : List T := t.body.vals

/-- The effect of delivering everything to a consumer. -/
def run (c : T → E → E) (t : Trace E T) (e : E) : E := t.body.run c (t.start e)

/-- The rest of a FlatMap once the current inner sequence is being read. -/
def bindRest (k : T → Trace E U) : List ((E → E) × T) → (E → E) → Body E U → Body E U
  | [], fin, cur => cur.append ⟨[], fin⟩
  | (g, t) :: r, fin, cur =>
    cur.append ((bindRest k r fin (k t).body).after ((k t).start ∘ g))

/-- FlatMap: the first inner sequence is opened when the segment is requested. -/
def bind (t : Trace E T) (k : T → Trace E U) : Trace E U :=
  match t.body.items with
  | [] => ⟨t.body.fin ∘ t.start, ⟨[], id⟩⟩
  | (g, x) :: r => ⟨(k x).start ∘ g ∘ t.start, bindRest k r t.body.fin (k x).body⟩

/-- Chain: all segments are requested first, then delivered one after the other. -/
def chain : List (Trace E T) → Trace E T
  | [] => ⟨id, ⟨[], id⟩⟩
  | t :: ts => ⟨(chain ts).start ∘ t.start, t.body.append (chain ts).body⟩

end Trace

/-! ### Sources -/

/-- Pulling from `st` delivers exactly `xs`, one element per call, and then reports the end; if `z` holds, it reports the end as
    often as it is asked.  Neither counters nor environment are touched. -/
inductive Delivers (s : Stm E T) (l : s.L) (z : Prop) : s.S → List T → Prop where
  | done {st st'} (h : ∀ e, s.pull st l e = .ok (none, st', l, e)) (hz : z → ∀ e, s.pull st' l e = .ok (none, st', l, e)) :
      Delivers s l z st []
  | next {st st' x xs} (h : ∀ e, s.pull st l e = .ok (some x, st', l, e)) (r : Delivers s l z st' xs) :
      Delivers s l z st (x :: xs)

/-- A sequential stream that delivers `xs`, in one segment, every time it is activated. -/
def Source (s : Stm E T) (xs : List T) (z : Prop) : Prop :=
  s.par = 0 ∧ ∀ l, ∃ st g1, (∀ e, s.seg (s.activate 0) l e = .ok (some st, g1, l, e)) ∧ Delivers s l z st xs ∧
    ∀ l e, ∃ g2, s.seg g1 l e = .ok (none, g2, l, e)

/-! ### Pipelines of any shape -/

/-- A pipeline built from sources (slices, lists, trees, …) with the operators of the package, all sequential.  The `z` of Zip
    is the zero value of the pair type. -/
inductive Pipe (E : Type) : Type → Type 1 where
  | src {T : Type} (s : Stm E T) (xs : List T) (z : Prop) (h : Source s xs z) : Pipe E T
  | map {T R : Type} (p : Pipe E T) (f : T → R) : Pipe E R
  | filter {T : Type} (p : Pipe E T) (q : T → Bool) : Pipe E T
  | inspect {T : Type} (p : Pipe E T) (g : T → E → E) : Pipe E T
  | zip {T R : Type} (z : T × R) (p : Pipe E T) (q : Pipe E R) : Pipe E (T × R)
  | chain {T : Type} {n : Nat} (ps : Fin (n + 1) → Pipe E T) : Pipe E T
  | flatMap {T U : Type} (p : Pipe E T) (f : T → Pipe E U) : Pipe E U
  | take {T : Type} (p : Pipe E T) (n : Int) : Pipe E T
  | skip {T : Type} (p : Pipe E T) (n : Int) : Pipe E T
  | skipWhile {T : Type} (p : Pipe E T) (q : T → Bool) : Pipe E T
  | enumerate {T : Type} (p : Pipe E T) : Pipe E (Int × T)

/-- The stream value the pipeline builds (calls of the modelled constructors). -/
def Pipe.stm {E : Type} : {T : Type} → Pipe E T → Stm E T
  | _, .src s _ _ _ => s
  | _, .map p f => Stream.map p.stm f
  | _, .filter p q => Stream.filter p.stm q
  | _, .inspect p g => Stream.inspect p.stm g
  | _, .zip z p q => Gds.Stream.zip z p.stm q.stm
  | _, .chain ps => Stream.chain (fun i => (ps i).stm)
  | _, .flatMap p f => Stream.flatMap p.stm (fun t => (f t).stm)
  | _, .take p n => Stream.take p.stm n
  | _, .skip p n => Stream.skip p.stm n
  | _, .skipWhile p q => Stream.skipWhile p.stm q
  | _, .enumerate p => Stream.enumerate p.stm

/-- What the pipeline delivers, in terms of the standard list functions.  (Skip drops n-1 elements
    and SkipWhile filters, and Zip delivers zero pairs once its right side has ended: that is what
    the code does, see C34, C35 and C32.) -/
def Pipe.vals {E : Type} : {T : Type} → Pipe E T → List T
  | _, .src _ xs _ _ => xs
  | _, .map p f => p.vals.map f
  | _, .filter p q => p.vals.filter q
  | _, .inspect p _ => p.vals
  | _, .zip z p q => p.vals.zip q.vals ++ List.replicate (p.vals.length - q.vals.length) z
  | _, .chain ps => (List.ofFn (fun i => (ps i).vals)).flatten
  | _, .flatMap p f => p.vals.flatMap (fun t => (f t).vals)
  | _, .take p n => p.vals.take n.toNat
  | _, .skip p n => p.vals.drop (n - 1).toNat
  | _, .skipWhile p q => p.vals.filter (fun t => !q t)
  | _, .enumerate p => (List.range p.vals.length).zipWith (fun k x => ((k : Int) + 1, x)) p.vals

/-- What the pipeline delivers together with the effects of `Inspect`. -/
def Pipe.trace {E : Type} : {T : Type} → Pipe E T → Trace E T
  | _, .src _ xs _ _ => ⟨id, Body.pure xs⟩
  | _, .map p f => ⟨p.trace.start, ⟨p.trace.body.items.map (fun it => (it.1, f it.2)), p.trace.body.fin⟩⟩
  | _, .filter p q => ⟨p.trace.start, Body.filter q p.trace.body.items p.trace.body.fin⟩
  | _, .inspect p g =>
    ⟨p.trace.start, ⟨p.trace.body.items.map (fun it => (g it.2 ∘ it.1, it.2)), p.trace.body.fin⟩⟩
  | _, .zip z p q => ⟨q.trace.start ∘ p.trace.start,
      Body.zip z p.trace.body.items p.trace.body.fin q.trace.body.items q.trace.body.fin⟩
  | _, .chain ps => Trace.chain (List.ofFn (fun i => (ps i).trace))
  | _, .flatMap p f => Trace.bind p.trace (fun t => (f t).trace)
  | _, .take p n => ⟨p.trace.start, Body.take n.toNat p.trace.body.items p.trace.body.fin⟩
  | _, .skip p n => ⟨p.trace.start, Body.drop (n - 1).toNat p.trace.body.items p.trace.body.fin⟩
  | _, .skipWhile p q => ⟨p.trace.start, Body.filter (fun t => !q t) p.trace.body.items p.trace.body.fin⟩
  | _, .enumerate p => ⟨p.trace.start, ⟨Body.number 0 p.trace.body.items, p.trace.body.fin⟩⟩

/-- Asked again after its end, the pipeline answers "end" again and nothing happens.  (A Chain asked
    again panics; a Zip asked again still asks its right side.) -/
def Pipe.Steady {E : Type} : {T : Type} → Pipe E T → Prop
  | _, .src _ _ z _ => z
  | _, .map p _ => p.Steady
  | _, .filter p _ => p.Steady
  | _, .inspect p _ => p.Steady
  | _, .zip _ p q => p.Steady ∧ q.Steady ∧ q.vals.length ≤ p.vals.length
  | _, .chain _ => False
  | _, .flatMap p f => p.Steady ∧ ∀ t, (f t).Steady
  | _, .take p _ => p.Steady
  | _, .skip p _ => p.Steady
  | _, .skipWhile p _ => p.Steady
  | _, .enumerate p => p.Steady

/-- No Zip of the pipeline asks its right side again after that side's end, unless the right side
    can stand it. -/
def Pipe.Fits {E : Type} : {T : Type} → Pipe E T → Prop
  | _, .src _ _ _ _ => True
  | _, .map p _ => p.Fits
  | _, .filter p _ => p.Fits
  | _, .inspect p _ => p.Fits
  | _, .zip _ p q => p.Fits ∧ q.Fits ∧ (p.vals.length ≤ q.vals.length ∨ q.Steady)
  | _, .chain ps => ∀ i, (ps i).Fits
  | _, .flatMap p f => p.Fits ∧ ∀ t, (f t).Fits
  | _, .take p _ => p.Fits
  | _, .skip p _ => p.Fits
  | _, .skipWhile p _ => p.Fits
  | _, .enumerate p => p.Fits

/-- The contents with Zip being the pairing of list elements (`List.zip`); otherwise as `vals`. -/
def Pipe.listVals {E : Type} : {T : Type} → Pipe E T → List T
  | _, .src _ xs _ _ => xs
  | _, .map p f => p.listVals.map f
  | _, .filter p q => p.listVals.filter q
  | _, .inspect p _ => p.listVals
  | _, .zip _ p q => p.listVals.zip q.listVals
  | _, .chain ps => (List.ofFn (fun i => (ps i).listVals)).flatten
  | _, .flatMap p f => p.listVals.flatMap (fun t => (f t).listVals)
  | _, .take p n => p.listVals.take n.toNat
  | _, .skip p n => p.listVals.drop (n - 1).toNat
  | _, .skipWhile p q => p.listVals.filter (fun t => !q t)
  | _, .enumerate p => (List.range p.listVals.length).zipWith (fun k x => ((k : Int) + 1, x)) p.listVals

/-- Every Zip of the pipeline has a left side that is not longer than its right side. -/
def Pipe.LeftShort {E : Type} : {T : Type} → Pipe E T → Prop
  | _, .src _ _ _ _ => True
  | _, .map p _ => p.LeftShort
  | _, .filter p _ => p.LeftShort
  | _, .inspect p _ => p.LeftShort
  | _, .zip _ p q => p.LeftShort ∧ q.LeftShort ∧ p.listVals.length ≤ q.listVals.length
  | _, .chain ps => ∀ i, (ps i).LeftShort
  | _, .flatMap p f => p.LeftShort ∧ ∀ t, (f t).LeftShort
  | _, .take p _ => p.LeftShort
  | _, .skip p _ => p.LeftShort
  | _, .skipWhile p _ => p.LeftShort
  | _, .enumerate p => p.LeftShort

/-- The pipeline contains no operator with a counter that survives an activation. -/
def Pipe.NoCounter {E : Type} : {T : Type} → Pipe E T → Prop
  | _, .src _ _ _ _ => True
  | _, .map p _ => p.NoCounter
  | _, .filter p _ => p.NoCounter
  | _, .inspect p _ => p.NoCounter
  | _, .zip _ p q => p.NoCounter ∧ q.NoCounter
  | _, .chain ps => ∀ i, (ps i).NoCounter
  | _, .flatMap p _ => p.NoCounter
  | _, .take _ _ => False
  | _, .skip _ _ => False
  | _, .skipWhile p _ => p.NoCounter
  | _, .enumerate _ => False

end Gds.Stream
