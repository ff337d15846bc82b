import Verif.Go.Basic

/-!
Model of package `collections/lockfreeskiplist` (collections/lockfreeskiplist/lockfree_skiplist.go).

Nodes are addresses in a growing heap, a `*node` is an address together with the mark bit the code
hides in the pointer.  Goroutines are interleaved at every atomic load, compare-and-swap and add
(`sync/atomic` is sequentially consistent); the plain fields `level` and `value` are written only
before a node is published, so they are constants of the heap.  An address is never handed out twice:
Go's garbage collector does not recycle a node that a goroutine still points to (a tagged pointer
`p|1` is an interior pointer and keeps the node alive).
-/

namespace Gds.LockFree

/-- lockfree_skiplist.go:11 `maxLevel`. -/
def maxLevel : Nat := 20

/-- A `*node`: `nil` is `⟨none, false⟩`; `mark` is the lowest bit. -/
structure Ptr where
  addr : Option Nat
  mark : Bool
  deriving DecidableEq, Repr

/-- lockfree_skiplist.go:278-281 `isMarked`. -/
def isMarked (p : Ptr) : Bool := p.mark
/-- lockfree_skiplist.go:283-287 `getMarked`. -/
def getMarked (p : Ptr) : Ptr := { p with mark := true }
/-- lockfree_skiplist.go:289-292 `getUnmarked`. -/
def getUnmarked (p : Ptr) : Ptr := { p with mark := false }

/-- The plain pointer to node `a`. -/
def ref (a : Nat) : Ptr := ⟨some a, false⟩
def nil : Ptr := ⟨none, false⟩

/-- lockfree_skiplist.go:14-25: the nodes (`lvl`, `val`, `next a l` = `a.nexts[l]`) and the field `size`
    (an `int32`).  The fields `head` and `tail` never change: they are the addresses `0` and `1`. -/
structure Mem (T : Type _) where
  lvl : Nat → Nat
  val : Nat → T
  next : Nat → Nat → Ptr
  alloc : Nat
  size : BitVec 32

variable {T : Type _}

def headA : Nat := 0
def tailA : Nat := 1

/-- Writing one `nexts` slot. -/
def Mem.setNext (m : Mem T) (a l : Nat) (p : Ptr) : Mem T :=
  { m with next := fun b k => if b = a ∧ k = l then p else m.next b k }

/-- lockfree_skiplist.go:266-268 `loadNext`.  Dereferencing `nil` panics, so does an index outside `nexts`;
    dereferencing a tagged pointer (which would read garbage) is counted as a panic as well. -/
def loadNext (m : Mem T) (p : Ptr) (l : Nat) : Res Ptr :=
  match p with
  | ⟨some a, false⟩ => if l < m.lvl a then .ok (m.next a l) else .panic .indexOutOfRange
  | _ => .panic .nilDeref

/-- lockfree_skiplist.go:270-272 `storeNext` (only ever called on nodes not yet published). -/
def storeNext (m : Mem T) (a l : Nat) (p : Ptr) : Mem T := m.setNext a l p

/-- lockfree_skiplist.go:274-276 `casNext`. -/
def casNext (m : Mem T) (p : Ptr) (l : Nat) (expected desire : Ptr) : Res (Mem T × Bool) :=
  match p with
  | ⟨some a, false⟩ =>
    if l < m.lvl a then
      if m.next a l = expected then .ok (m.setNext a l desire, true) else .ok (m, false)
    else .panic .indexOutOfRange
  | _ => .panic .nilDeref

/-- lockfree_skiplist.go:255-264 `newNode`: all `nexts` are nil. -/
def newNode (m : Mem T) (level : Nat) (v : T) : Mem T × Nat :=
  ({ m with
      lvl := fun a => if a = m.alloc then level else m.lvl a
      val := fun a => if a = m.alloc then v else m.val a
      next := fun a l => if a = m.alloc then nil else m.next a l
      alloc := m.alloc + 1 }, m.alloc)

/-- lockfree_skiplist.go:51-53 (and 35-37): `for level := 0; level < top; level++ { nd.storeNext(level, ps[level]) }`. -/
def storeNexts (m : Mem T) (a : Nat) (ps : Nat → Ptr) (top : Nat) : Mem T :=
  (List.range top).foldl (fun m l => storeNext m a l (ps l)) m

/-- lockfree_skiplist.go:28-39 `NewLockFreeSkipList`; `zero` is `var defVal T`. -/
def Mem.new (zero : T) : Mem T :=
  let m : Mem T := { lvl := fun _ => 0, val := fun _ => zero, next := fun _ _ => nil, alloc := 0, size := 0 }
  let (m, h) := newNode m maxLevel zero
  let (m, t) := newNode m maxLevel zero
  storeNexts m h (fun _ => ref t) maxLevel

/-- lockfree_skiplist.go:128-134 `randomLevel`, the loop; `k` counts the iterations `level < maxLevel` still allows and
    `coin level` is the outcome of `rand.Int()&1 == 0` in the iteration that starts with `level`. -/
def randomLevelLoop (coin : Nat → Bool) : Nat → Nat → Nat
  | 0, level => level
  | k + 1, level => if coin level then randomLevelLoop coin k (level + 1) else level

/-- lockfree_skiplist.go:128-134 `randomLevel`. -/
def randomLevel (coin : Nat → Bool) : Nat := randomLevelLoop coin (maxLevel - 1) 1

/-- lockfree_skiplist.go:136-144 `less` (`none` cannot occur: the node has just been dereferenced). -/
def less (cmp : Compare T) (m : Mem T) (nd : Ptr) (v : T) : Bool :=
  if nd = ref headA then true
  else if nd = ref tailA then false
  else match nd.addr with
    | some a => decide (cmp (m.val a) v < 0)
    | none => false

/-- lockfree_skiplist.go:146-151 `equals`. -/
def equals (cmp : Compare T) (m : Mem T) (nd : Ptr) (v : T) : Bool :=
  if nd = ref headA ∨ nd = ref tailA then false
  else match nd.addr with
    | some a => decide (cmp (m.val a) v = 0)
    | none => false

/-- Which atomic access the traversal does next: the load of line 231/240 (160/169, 198/207), the load of
    line 233/241 (162/170, 200/208), the compare-and-swap of line 237 (166, 204). -/
inductive Phase where
  | loadCur
  | loadNext
  | unlink
  deriving DecidableEq

/-- The local variables of `find`, `get` and `getRank` (lines 153-253; the three bodies differ only in what they
    return and in `rank`, which only `getRank` has) and the callers' arrays `prevs` and `nexts`. -/
structure Frame (T : Type _) where
  v : T
  ph : Phase
  level : Nat
  prev : Ptr
  cur : Ptr
  next : Ptr
  prevs : Nat → Ptr
  nexts : Nat → Ptr
  rank : Int

/-- lines 228-230 (157-159, 195-197): the label `retry`; `rank` keeps its value. -/
def Frame.retry (f : Frame T) : Frame T :=
  { f with ph := .loadCur, level := maxLevel - 1, prev := ref headA }

/-- Entering `find`. -/
def Frame.enter (v : T) (prevs nexts : Nat → Ptr) : Frame T :=
  Frame.retry { v := v, ph := .loadCur, level := 0, prev := nil, cur := nil, next := nil, prevs := prevs, nexts := nexts, rank := 1 }

/-- The array write `a[i] = p`. -/
def upd (a : Nat → Ptr) (i : Nat) (p : Ptr) : Nat → Ptr := fun j => if j = i then p else a j

inductive FRes (T : Type _) where
  | cont (f : Frame T)
  | done (f : Frame T)
  | panic (k : Panic)

/-- One atomic access of `find` (lockfree_skiplist.go:224-253), `get` (lockfree_skiplist.go:153-183) or `getRank` (lockfree_skiplist.go:185-222) together with the local
    computation up to the next access. -/
def findStep (cmp : Compare T) (m : Mem T) (f : Frame T) : Mem T × FRes T :=
  match f.ph with
  | .loadCur =>
    match loadNext m f.prev f.level with
    | .ok p => (m, .cont { f with cur := getUnmarked p, ph := .loadNext })
    | .panic k => (m, .panic k)
    | .hang => (m, .cont f)
  | .loadNext =>
    match loadNext m f.cur f.level with
    | .ok n =>
      if isMarked n then (m, .cont { f with next := n, ph := .unlink })
      else if less cmp m f.cur f.v then
        (m, .cont { f with next := n, prev := f.cur, cur := n, rank := f.rank + 1 })
      else
        let f := { f with next := n, prevs := upd f.prevs f.level f.prev, nexts := upd f.nexts f.level f.cur }
        if f.level = 0 then (m, .done f)
        else (m, .cont { f with level := f.level - 1, ph := .loadCur })
    | .panic k => (m, .panic k)
    | .hang => (m, .cont f)
  | .unlink =>
    match casNext m f.prev f.level f.cur (getUnmarked f.next) with
    | .ok (m', true) => (m', .cont { f with ph := .loadCur })
    | .ok (m', false) => (m', .cont f.retry)
    | .panic k => (m, .panic k)
    | .hang => (m, .cont f)

/-- The methods. -/
inductive Op (T : Type _) where
  | add (v : T)
  | del (v : T)
  | has (v : T)
  | get (v : T)
  | rank (v : T)
  | len
  deriving DecidableEq

/-- What they return. -/
inductive Out (T : Type _) where
  | bool (b : Bool)
  | val (v : T)
  | num (n : Int)
  deriving DecidableEq

/-- Where the traversal returns to. -/
inductive Cont where
  | add                                 -- line 46
  | addUp (nn top level : Nat)          -- line 65
  | del                                 -- line 78
  | has                                 -- line 108
  | get                                 -- line 114
  | rank                                -- line 120

/-- The next atomic access of a running method. -/
inductive Ctl (T : Type _) where
  | find (f : Frame T) (k : Cont)
  | addNew (f : Frame T)                              -- lines 49-53
  | addCas (f : Frame T) (nn top : Nat)               -- line 54
  | addUp (f : Frame T) (nn top level : Nat)          -- line 60
  | addSize                                           -- line 70
  | delLoad (r : Ptr) (level : Nat)                   -- lines 83, 87
  | delCas (r : Ptr) (level : Nat) (next : Ptr)       -- line 86
  | delLoad0 (r : Ptr)                                -- line 90
  | delCas0 (r : Ptr) (next : Ptr)                    -- line 95
  | delSize                                           -- line 100
  | rankLen (v : T)                                   -- line 189
  | lenLoad                                           -- line 125
  | ret (o : Out T)
  | panicked (k : Panic)

/-- Entering a method: lines 42-46, 75-78, 105-108, 111-114, 117-120, 124-125. -/
def Op.enter : Op T → Ctl T
  | .add v => .find (Frame.enter v (fun _ => nil) (fun _ => nil)) .add
  | .del v => .find (Frame.enter v (fun _ => nil) (fun _ => nil)) .del
  | .has v => .find (Frame.enter v (fun _ => nil) (fun _ => nil)) .has
  | .get v => .find (Frame.enter v (fun _ => nil) (fun _ => nil)) .get
  | .rank v => .rankLen v
  | .len => .lenLoad

/-- lines 82, 90: the loop over the upper levels of the node to remove goes on with `level`, or is over. -/
def delLevel (r : Ptr) (level : Nat) : Ctl T :=
  if 0 < level then .delLoad r level else .delLoad0 r

/-- line 58: the loop over the upper levels of the new node goes on with `level`, or is over. -/
def addLevel (f : Frame T) (nn top level : Nat) : Ctl T :=
  if level < top then .addUp f nn top level else .addSize

/-- What the caller of `find`, `get`, `getRank` does with the result (lines 46-47, 60-66, 78-82, 108, 181, 220). -/
def Cont.resume (cmp : Compare T) (m : Mem T) (f : Frame T) : Cont → Ctl T
  | .add => if equals cmp m f.cur f.v then .ret (.bool false) else .addNew f
  | .addUp nn top level => .addUp f nn top level
  | .del =>
    if equals cmp m f.cur f.v then
      match (f.nexts 0).addr with
      | some a => delLevel (f.nexts 0) (m.lvl a - 1)
      | none => .panicked .nilDeref
    else .ret (.bool false)
  | .has => .ret (.bool (equals cmp m f.cur f.v))
  | .get =>
    match f.cur.addr with
    | some a => .ret (.val (m.val a))
    | none => .panicked .nilDeref
  | .rank => .ret (.num f.rank)

/-- One atomic access of a running method and the local computation after it.
    lockfree_skiplist.go:42-72 `Add`, lockfree_skiplist.go:75-102 `Del`, lockfree_skiplist.go:105-109 `Has`, lockfree_skiplist.go:111-115 `Get`,
    lockfree_skiplist.go:117-121 `Rank`, lockfree_skiplist.go:124-126 `Len`.
    Allocating and initialising the new node (lines 49-53) is one step: no other goroutine can see the node. -/
def exec (cmp : Compare T) (coin : Nat → Bool) (m : Mem T) : Ctl T → Mem T × Ctl T
  | .find f k =>
    match findStep cmp m f with
    | (m', .cont f') => (m', .find f' k)
    | (m', .done f') => (m', k.resume cmp m' f')
    | (m', .panic e) => (m', .panicked e)
  | .addNew f =>
    let top := randomLevel coin
    let (m, nn) := newNode m top f.v
    (storeNexts m nn f.nexts top, .addCas f nn top)
  | .addCas f nn top =>
    match casNext m (f.prevs 0) 0 (f.nexts 0) (ref nn) with
    | .ok (m', true) => (m', addLevel f nn top 1)
    | .ok (m', false) => (m', .find (Frame.enter f.v f.prevs f.nexts) .add)
    | .panic k => (m, .panicked k)
    | .hang => (m, .addCas f nn top)
  | .addUp f nn top level =>
    match casNext m (f.prevs level) level (f.nexts level) (ref nn) with
    | .ok (m', true) => (m', addLevel f nn top (level + 1))
    | .ok (m', false) => (m', .find (Frame.enter f.v f.prevs f.nexts) (.addUp nn top level))
    | .panic k => (m, .panicked k)
    | .hang => (m, .addUp f nn top level)
  | .addSize => ({ m with size := m.size + 1 }, .ret (.bool true))
  | .delLoad r level =>
    match loadNext m r level with
    | .ok n => (m, if isMarked n then delLevel r (level - 1) else .delCas r level n)
    | .panic k => (m, .panicked k)
    | .hang => (m, .delLoad r level)
  | .delCas r level n =>
    match casNext m r level n (getMarked n) with
    | .ok (m', _) => (m', .delLoad r level)
    | .panic k => (m, .panicked k)
    | .hang => (m, .delCas r level n)
  | .delLoad0 r =>
    match loadNext m r 0 with
    | .ok n => (m, if isMarked n then .ret (.bool false) else .delCas0 r n)
    | .panic k => (m, .panicked k)
    | .hang => (m, .delLoad0 r)
  | .delCas0 r n =>
    match casNext m r 0 n (getMarked n) with
    | .ok (m', true) => (m', .delSize)
    | .ok (m', false) => (m', .delLoad0 r)
    | .panic k => (m, .panicked k)
    | .hang => (m, .delCas0 r n)
  | .delSize => ({ m with size := m.size - 1 }, .ret (.bool true))
  | .rankLen v =>
    (m, if m.size.toInt ≤ 1 then .ret (.num m.size.toInt)
        else .find (Frame.enter v (fun _ => nil) (fun _ => nil)) .rank)
  | .lenLoad => (m, .ret (.num m.size.toInt))
  | .ret o => (m, .ret o)
  | .panicked k => (m, .panicked k)

/-! ### Goroutines -/

/-- A goroutine is between calls or inside the method `op`. -/
inductive Pc (T : Type _) where
  | idle
  | run (op : Op T) (c : Ctl T)

/-- The list and the goroutines using it. -/
structure St (T : Type _) where
  mem : Mem T
  pc : Nat → Pc T

def St.init (zero : T) : St T := { mem := Mem.new zero, pc := fun _ => .idle }

/-- Goroutine `t` goes on with `p`. -/
def St.goto (s : St T) (m : Mem T) (t : Nat) (p : Pc T) : St T :=
  { mem := m, pc := fun u => if u = t then p else s.pc u }

/-- What a step is: a method is called, an atomic access happens inside one, a method returns. -/
inductive Label (T : Type _) where
  | call (t : Nat) (op : Op T)
  | tau (t : Nat)
  | ret (t : Nat) (o : Out T)

def Label.tid : Label T → Nat
  | .call t _ => t
  | .tau t => t
  | .ret t _ => t

/-- Any idle goroutine may call any method, any running one may do its next access (with any coin flips), any one
    that has computed its result may return it. -/
inductive Step (cmp : Compare T) : St T → Label T → St T → Prop where
  | call (s : St T) (t : Nat) (op : Op T) : s.pc t = .idle →
      Step cmp s (.call t op) (s.goto s.mem t (.run op op.enter))
  | tau (s : St T) (t : Nat) (op : Op T) (c : Ctl T) (coin : Nat → Bool) : s.pc t = .run op c →
      (∀ o, c ≠ .ret o) → (∀ k, c ≠ .panicked k) →
      Step cmp s (.tau t) (s.goto (exec cmp coin s.mem c).1 t (.run op (exec cmp coin s.mem c).2))
  | ret (s : St T) (t : Nat) (op : Op T) (o : Out T) : s.pc t = .run op (.ret o) →
      Step cmp s (.ret t o) (s.goto s.mem t .idle)

/-- A run of `n` steps from the empty list. -/
structure IsRun (cmp : Compare T) (zero : T) (tr : Nat → St T) (lab : Nat → Label T) (n : Nat) : Prop where
  start : tr 0 = St.init zero
  step : ∀ k, k < n → Step cmp (tr k) (lab k) (tr (k + 1))

end Gds.LockFree
