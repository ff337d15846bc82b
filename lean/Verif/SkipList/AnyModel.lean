import Verif.SkipList.Calls
import Verif.SkipList.Delete

/-! Property C131, the model: the skip list with a comparator that has state. -/
namespace Gds.SkipList
variable {K V E : Type}

/-- The inner loops of insert, Delete, FirstInRange, LastInRange and DeleteRangeByKey (skiplist.go:112-114, 279-282, 426-428, 447-449, 467-469),
    with the calls of the comparator in the order of the code; `go` is the test of its answer. -/
def goWalkE (go : Int → Prop) [DecidablePred go] (cmp : EComp K E) (s : St K V) (key : K) (i : Nat) (x : Nat) (r : Int) (e : E) :
    Res ((Nat × Int) × E) := do
  let f ← s.getFwd x i
  match f with
  | none => pure ((x, r), e)
  | some y =>
    let c := cmp (s.key y) key e
    if go c.1 then do
      let sp ← s.getSpan x i
      goWalkE go cmp s key i y (r + sp) c.2
    else pure ((x, r), c.2)
partial_fixpoint

/-- The outer loops (skiplist.go:271-284 and, ignoring ranks, 111-117, 425-429, 446-450, 466-472): from level `i - 1` down to 0. -/
def descendE (go : Int → Prop) [DecidablePred go] (cmp : EComp K E) (s : St K V) (key : K) :
    (i : Nat) → (x : Nat) → (r : Int) → Upd → E → Res ((Nat × Upd) × E)
  | 0, x, _, u, e => pure ((x, u), e)
  | i + 1, x, r, u, e => do
    let w ← goWalkE go cmp s key i x r e
    let u ← u.set i w.1.1 w.1.2
    descendE go cmp s key i w.1.1 w.1.2 u w.2

/-- skiplist.go:286-288: the test for a duplicate, evaluated from left to right. -/
def dupE (cmp : EComp K E) (s : St K V) (key : K) (isUnique : Bool) (f : Option Nat) (e : E) : Bool × E :=
  if isUnique then
    match f with
    | some y => (decide ((cmp (s.key y) key e).1 = 0), (cmp (s.key y) key e).2)
    | none => (false, e)
  else (false, e)

/-- skiplist.go:266-331 `insert`. -/
def insertE (cmp : EComp K E) (s : St K V) (key : K) (val : V) (isUnique : Bool) (draw : UInt64) (e : E) : Res ((St K V × Bool) × E) := do
  let d ← descendE (· = 0) cmp s key s.level s.header 0 .empty e
  let p ← deref (d.1.2.upd 0)
  let f ← s.getFwd p 0
  let b := dupE cmp s key isUnique f d.2
  if b.1 then pure ((s, false), b.2)
  else do
    let level ← randomLevel draw
    let s ← insertAt s d.1.2 key val level
    pure ((s, true), b.2)

/-- skiplist.go:107-126 `Delete`. -/
def deleteE (cmp : EComp K E) (s : St K V) (key : K) (e : E) : Res ((St K V × Bool) × E) := do
  let d ← descendE (· = 0) cmp s key s.level s.header 0 .empty e
  let f ← s.getFwd d.1.1 0
  match f with
  | none => pure ((s, false), d.2)
  | some x =>
    let c := cmp key (s.key x) d.2
    if c.1 = 0 then do
      let s ← deleteNode s x d.1.2
      pure ((s, true), c.2)
    else pure ((s, false), c.2)

/-- skiplist.go:128-135 `DeleteByWholeMapping`; the comparator for the values has no state. -/
def deleteByWholeMappingE (cmp : EComp K E) (s : St K V) (key : K) (val : V) (valComp : Compare V) (e : E) : Res ((St K V × Bool) × E) := do
  let r ← searchLoopE cmp s key s.level s.header 0 e
  match r.1.1 with
  | none => pure ((s, false), r.2)
  | some n =>
    if valComp val (s.val n) = 0 then do
      let d ← deleteE cmp s key r.2
      pure ((d.1.1, true), d.2)
    else pure ((s, false), r.2)

/-- skiplist.go:137-145 `DeleteKeys`, continuing with a count. -/
def deleteKeysE (cmp : EComp K E) (s : St K V) : List K → Int → E → Res ((St K V × Int) × E)
  | [], c, e => pure ((s, c), e)
  | k :: ks, c, e => do
    let d ← deleteE cmp s k e
    deleteKeysE cmp d.1.1 ks (if d.1.2 then c + 1 else c) d.2

/-- skiplist.go:476-481, the loop of `DeleteRangeByKey`. -/
def rangeLoopE (cmp : EComp K E) (max : K) (u : Upd) (s : St K V) (x : Option Nat) (removed : Nat) (e : E) : Res ((St K V × Nat) × E) := do
  match x with
  | none => pure ((s, removed), e)
  | some x =>
    let c := cmp (s.key x) max e
    if c.1 = -1 then do
      let nx ← s.getFwd x 0
      let s ← deleteNode s x u
      rangeLoopE cmp max u s nx (removed + 1) c.2
    else pure ((s, removed), c.2)
partial_fixpoint

/-- skiplist.go:461-483 `DeleteRangeByKey`. -/
def deleteRangeByKeyE (cmp : EComp K E) (s : St K V) (min max : K) (e : E) : Res ((St K V × Nat) × E) := do
  let d ← descendE (· = -1) cmp s min s.level s.header 0 .empty e
  let x ← s.getFwd d.1.1 0
  rangeLoopE cmp max d.1.2 s x 0 d.2

/-- skiplist.go:354-360 `Rank`. -/
def rankE (cmp : EComp K E) (s : St K V) (key : K) (e : E) : Res (Int × E) := do
  let r ← searchLoopE cmp s key s.level s.header 0 e
  match r.1.1 with
  | none => pure (0, r.2)
  | some _ => pure (r.1.2, r.2)

/-- skiplist.go:381-398 `IsInAllRange`; `||` is evaluated from left to right. -/
def isInAllRangeE (cmp : EComp K E) (s : St K V) (min max : K) (e : E) : Res (Bool × E) := do
  let a := cmp min max e
  if a.1 > -1 then pure (false, a.2)
  else match s.tail with
    | none => pure (false, a.2)
    | some t =>
      let b := cmp (s.key t) min a.2
      if b.1 = -1 then pure (false, b.2)
      else
        let c := cmp (s.key t) max b.2
        if c.1 = -1 then pure (false, c.2)
        else do
          let f ← s.getFwd s.header 0
          match f with
          | none => pure (false, c.2)
          | some x =>
            let d := cmp (s.key x) max c.2
            if d.1 = 1 then pure (false, d.2)
            else
              let g := cmp (s.key x) min d.2
              if g.1 = 1 then pure (false, g.2) else pure (true, g.2)

/-- skiplist.go:402-417 `IsInPartOfRange`. -/
def isInPartOfRangeE (cmp : EComp K E) (s : St K V) (min max : K) (e : E) : Res (Bool × E) := do
  let a := cmp min max e
  if a.1 > -1 then pure (false, a.2)
  else match s.tail with
    | none => pure (false, a.2)
    | some t =>
      let b := cmp (s.key t) min a.2
      if b.1 = -1 then pure (false, b.2)
      else do
        let f ← s.getFwd s.header 0
        match f with
        | none => pure (false, b.2)
        | some x =>
          let d := cmp (s.key x) max b.2
          if d.1 = 1 then pure (false, d.2) else pure (true, d.2)

/-- skiplist.go:419-438 `FirstInRange`. -/
def firstInRangeE (cmp : EComp K E) (s : St K V) (min max : K) (e : E) : Res (Option Nat × E) := do
  let b ← isInAllRangeE cmp s min max e
  if b.1 then do
    let d ← descendE (· = -1) cmp s min s.level s.header 0 .empty b.2
    let f ← s.getFwd d.1.1 0
    match f with
    | none => .panic .explicit
    | some x =>
      let c := cmp (s.key x) max d.2
      if c.1 = 1 then pure (none, c.2) else pure (some x, c.2)
  else pure (none, b.2)

/-- skiplist.go:440-459 `LastInRange`. -/
def lastInRangeE (cmp : EComp K E) (s : St K V) (min max : K) (e : E) : Res (Option Nat × E) := do
  let b ← isInAllRangeE cmp s min max e
  if b.1 then do
    let d ← descendE (· = -1) cmp s max s.level s.header 0 .empty b.2
    let f ← s.getFwd d.1.1 0
    match f with
    | none => .panic .explicit
    | some x =>
      let c := cmp (s.key x) min d.2
      if c.1 = -1 then pure (none, c.2) else pure (some x, c.2)
  else pure (none, b.2)

/-- One call of a history: the mutating calls of skiplist.go:69-71, 107-150, 194-200 and 461-483, and SetValue of a node reached by First and Next. -/
def stepE (cmp : EComp K E) (zk : K) (zv : V) (s : St K V) (e : E) : Op K V → Res ((St K V × Ans) × E)
  | .put k v d => do let r ← insertE cmp s k v true d e; pure ((r.1.1, .flag r.1.2), r.2)
  | .insertUnique k v d => do let r ← insertE cmp s k v true d e; pure ((r.1.1, .flag r.1.2), r.2)
  | .insertEquals k v d => do let r ← insertE cmp s k v false d e; pure ((r.1.1, .flag r.1.2), r.2)
  | .delete k => do let r ← deleteE cmp s k e; pure ((r.1.1, .flag r.1.2), r.2)
  | .deleteByWholeMapping k v c => do let r ← deleteByWholeMappingE cmp s k v c e; pure ((r.1.1, .flag r.1.2), r.2)
  | .deleteKeys ks => do let r ← deleteKeysE cmp s ks 0 e; pure ((r.1.1, .count r.1.2), r.2)
  | .deleteRange mn mx => do let r ← deleteRangeByKeyE cmp s mn mx e; pure ((r.1.1, .count r.1.2), r.2)
  | .clear => pure ((clear zk zv s, .none), e)
  | .setAt i v => do
    let x ← nodeAt s i
    match x with
    | none => pure ((s, .none), e)
    | some x => pure ((setValue s x v, .none), e)

/-- A history of calls. -/
def runE (cmp : EComp K E) (zk : K) (zv : V) (s : St K V) (e : E) : List (Op K V) → Res ((St K V × List Ans) × E)
  | [] => pure ((s, []), e)
  | op :: ops => do
    let r ← stepE cmp zk zv s e op
    let q ← runE cmp zk zv r.1.1 r.2 ops
    pure ((q.1.1, r.1.2 :: q.1.2), q.2)

end Gds.SkipList
