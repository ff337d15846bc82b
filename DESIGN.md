# Formal model of ydmxcz/gds in Lean 4 — design

## Method
* Code is read as text only (`/repo`, Go 1.19).  Nothing is built or run.
* Every Go function is modelled by a total computable Lean function whose comment cites file and lines.
* `Verif/Go/Basic.lean`: outcome of a Go call: `Res.ok a | Res.panic k | Res.hang`
  (value / run-time panic / never returns).  Bounded `for` loops are structural recursion; pointer loops are
  `partial_fixpoint` definitions in `Res`, where `hang` is the bottom element: such a definition is the least
  solution of the loop's equation, so a call that does not return is `hang` and every theorem that concludes
  `= .ok _` includes termination.  No fuel occurs in a statement.
* Pointers: `Nat` addresses into a heap `Nat → Node`, nil is `none`.
* Goroutines: explicit small-step transition systems; one transition per atomic instruction
  (mutex, channel operation, atomic load/store/CAS); theorems are invariants over all reachable states.
* Randomness (levels), clocks, callbacks, comparators: universally quantified parameters.
* A property that is *false of the code* gets (a) a theorem `..._refuted` giving a concrete
  counter-example run, and (b) the strongest `_partial` theorem that does hold.

## Layout
`Verif/<Component>/Model.lean` (definitions only), `.../Lemmas*.lean` (helpers), `.../Props.lean`
(property theorems + non-vacuity examples).

## Plan per property
| ids | model | proof |
|---|---|---|
| C01,C02 | `Fn` | case analysis on a linear order; function extensionality |
| C03,C04 | `Iter` : iterator = state + next | induction on the slice / trace of callback |
| C05 | `Iter.Pull`: producer / puller / stop transition system | inductive invariant over all schedules |
| C06 | `Iter.Lines`: byte-level reader | induction on content |
| C07,C08 | `Slice.Split` | arithmetic induction on the segment index |
| C09–C15 | `Slice`: arrays in a heap, slice header (array, off, len, cap) | list lemmas |
| C16–C18 | `PQ`: array heap | heap invariant with one hole, multiset by permutation |
| C19–C21 | `Queue`: pointer heap; lock-step transition system | refinement to `List` |
| C22–C26 | `DelayQueue`: transition system over pushers/poppers/clock/ctx | invariants; concrete bad runs |
| C27–C31 | `LinkedList`: pointer heap with rings | refinement to `List` of addresses |
| C32–C44 | `Stream`: iterator combinators with shared counters; parallel runs as schedules | trace induction; invariants |
| C45–C52 | `SkipList`: pointer heap with levels/spans | positional invariant independent of key order |
| C53–C56 | `LockFree`: multi-level CAS transition system | inductive invariant with history ghost |
| C57–C62 | `RBTree`: pointer heap; node buffer | refinement to functional trees |
| C63–C67 | `BPlus`: nodes with slot arrays | refinement to sorted leaf sequence |
| C68–C70, C74, C75, C85 | `Hasher`: `BitVec 64`; independent XXH64 in `Hasher/XXH64.lean` | explicit inverses; kernel-checked sorting for 16-bit keys; lane-by-lane equality with the published algorithm |
| C71 | `SortedSet` | nil receiver |
| C72, C73 | `SkipList`: ranges, segments | positional invariant of C46 |
| C76, C77, C86–C88 | `RBTree`: termination, returned nodes, segments, ends, soundness of lookups | structural invariant over all histories; simulation for ascending histories |
| C78, C79 | `BPlus`: structure and depth in all histories | invariant of a tree description that is unique |
| C80–C82 | `LockFree`: safety, lock-freedom, order of all levels | the invariant of C53; a potential for lock-freedom |
| C90, C91 | `Stream`: `New` over container iterators, parallel pipelines | refinement to list functions, invariants over all schedules, concrete bad runs |
| C94 | `RBTree`: node methods on the heap | the tree invariant of every history gives one list of nodes; `Next`/`Prev` computed from a context at each node |
| C95 | `RBTree`: `String` with an arbitrary entry format | induction over the nodes from the first; hang by fixpoint induction |
| C96 | `RBTree`: `SetValue`, `SetKey` | pointers and keys unchanged, so searches are unchanged; equality with the state `Put` leaves |
| C97 | `RBTree`: iterator position kept across `Delete`/`Put` | the removed node keeps its own pointers; case analysis of where `Next` leads from it; counterexample of three keys |
| C98 | `SkipList`: `stringLoop`, `toString` | induction on the delivered sequence, for every reachable list |
| C99 | `SkipList`: `drive` interleaves operations with one iterator | invariant: the iterator stands at a position of the representation; an insertion shifts it |
| C100 | `SkipList`: iterator position kept across `DeleteRangeByKey` | the removed nodes' level-0 links are untouched; exact outcome; counterexample 1, 2, 3 |
| C101 | `RBTree`: `put` on any reachable tree | red-black balance: a node without left child has at most one node on its right, so at most one entry is replaced; exact effect; descending keys |
| C102 | `BPlus`: every call on every reachable tree | the specification `Worst`/`WorstTrace` (Spec.lean); `deleteNonOne` carries the relation "one entry smeared, one dropped" through the induction over depth |
| C103 | `BPlus`: entries in order | sortedness through deletion on trees of at most two levels (depth from the number of entries); three-level counterexample by evaluation in the kernel |
| C104 | `RBTree`: every call on any reachable tree | the specification `Effect` on entries and Size (Effect.lean); removal by copying the successor removes exactly one entry; induction over histories for the bounds |
| C105 | `search` on trees built by `insert` | invariant: each separator has the key of the last entry of the child before it; binary search is followed exactly |
| C106 | header pointers in `Put`, `remove` | invariant "header.left is the first node of the in-order sequence and Size >= its length" over all histories of safe calls; exact `iff` for each deletion |
| C107 | the same interleaving model; the traversal of getRank alone | a list of the nodes moved over: distinct, live, below v, none exactly if the search is still at the head, all of them if heights are 1; freshness excludes a failing compare-and-swap |
| C108 | the small-step model of parallel TryFold of C43, any number of segments | the counting invariant of C43 without the hypothesis that there are p segments; explicit schedules for each outcome; a full channel with nobody receiving keeps its senders |
| C109 | the interleaving model of C22-C26 | counting invariant: Pushes handing over plus the flag are at most the waiting consumers (finite sets); a closed set of states for the deaf consumer; explicit runs |
| C110 | each operator as a transformer of rounds (Stream/Story.lean); coinductive relation between pull functions and rounds | coinduction per operator (loops by induction over a round), induction over the pipeline |
| C111 | A row of towers (key, value, height) as specification; walks of the code are rides over the row (walk_ride), insertion places its tower by rides (insert_built); the rest is list reasoning over rows. |
| C112 | Built s T (representation invariant with heights and level = highest tower) is preserved by every operation; deleteNode_row and rangeLoop_row follow the towers through deletions, lowerLoop_tight the level. |
| C113 | put_exact gives the enumeration; leaves_place says where in the order the search leaves; look_swap: a search tree with two neighbours swapped hides exactly one of them, proved by induction on the tree whatever its shape. |
| C114 | A pure functional spec (coloured tree with labels, zipper, textbook repairs) in FSpec.lean with no reference to the heap; a painting function from the heap tree to it, carried through rotations, insertion and removal repair, link, unlink; simulation step by step. |
| C115 | A pure spec (FSpec.lean) with no reference to the heap; a view of the heap as a pure tree, carried through the array loops of split, insert, borrow, merge and delete (View*.lean); simulation step by step (Predict.lean). |
| C116 | An invariant of the way down (Cut): left of some child all separators are below the key, right of it every leaf has a key that is not below it; preserved by both borrows and both merges; trees in order have it for every key the search finds. |
| C117 | removeNode's specification says exactly when it dereferences nil; an invariant with a budget of one low deletion (Marked) for the second part; a kernel-evaluated run for the panic. |
| C118 | A pointer is a node and a slot; a pure tree with FT.modify as specification, and the view of C115 commutes with it; kernel-evaluated runs for the kept pointers. |
| C119 | Extend the relation of C114 by writes to the n-th label (CT.setNth) and to held records; removeNode's specification gives the node lists. |
| C120 | Init's result satisfies the invariants of C112, C114 and C115 for the empty map, over whatever heap and buffer there was. |
| C121 | The transition system of C05 with any number of blocked callers; induction over runs; a decreasing measure after stop. |
| C122 | In the transition system of C121: a run that stops first and then receives everything; and the closed state is absorbing. |
| C123 | Model with a state-passing comparator, instantiated with a call counter; induction over the heap path, permutations by swaps. |
| C124 | Model with a state-passing comparator, instantiated with a call counter; the descent is bounded by the height, the height by the colours, which do not depend on the comparator. |
| C125 | IEEE values in units of the least positive float as integers with infinities; the containers' searches stop at the first node they look at. |
| C126 | The level is 32 - log2 of the remainder modulo 2^32-1, plus one (randomLevel_exact); count remainders in an interval. Coin tosses: induction on the number of tosses. |
| C127 | Loop with the state of the comparator threaded through; induction on the position in the row and on the level. Average: entry by entry in the order of insertion, the rides of a lookup are the weak records of the heights since the last blocking entry (allRides_tally); per level, an invariant over all draws of the rest bounds rides by the ratio of draws of that level to draws above it. |
| C128 | The code with the state of the comparator threaded through; the inductions of insertion and deletion redone without any fact about the answers, counting calls per node. |
| C129 | model the operators with callbacks that act on the environment, give the element-by-element specification for pipelines of any length, and prove by induction on the pipeline that one pull is one step of it; the operators with pure callbacks are the same functions as in the pure model |
| C130 | second model of the functions with a state threaded through the callbacks; firstAnswer (ask in order until answered) and keepE are the specifications |
| C131 | model of every call of the comparator with a state threaded through; invariant Sound: pointers of level i lead to nodes of height above i and every chain is finite, positions on the lowest level grow along forward and shrink along back pointers; insertAt and deleteNode keep it for every content of update |
| C132 | pull function of a segment as a coroutine interrupted before every callback; goroutines numbered in starting order; ghost list of the calls made, tagged with the goroutine; invariant: what a goroutine has called followed by what it still owes is what its segment causes; a bound on the steps to come falls with every step |
| C133 | the goroutines of C132 with the select and the cancellation; ghost list of the calls made, those of the calling goroutine included; invariant: what a goroutine has called followed by what it would still call is what a TryFold over its segment calls; a bound on the steps to come falls with every step |
| C134 | a model of the segmenter with the step fixed when it is made; refinement to names of elements; conservation law: the number of iterators that are still to deliver an element plus the number of times it is delivered from here on never grows, and is constant for elements in the list; under insertions at any place the iterators keep their order and their distances only grow |
| C135 | a generic specification of segmenters over a changing sequence of names (Go/Segments): what the segmenter and its segments are still to deliver is a duplicate-free sublist of the names in order, and insertions keep it one; refinement of the skip list to it, using the positions of Rep |
| C136 | refinement of the tree, in ascending histories, to the generic specification of segmenters over a changing sequence of names (Go/Segments): Puts append a name or change a value; the refutations are runs of the model evaluated by the kernel |
| C137 | the model of C124 with a comparator that may answer `none` (a panic) and the heap of that moment in the result; a simulation by the model of C124 up to the panic |
| C138 | a model of search and insert whose comparator may answer `none` (a panic), with the tree of that moment in the result; the refutations are runs evaluated by the kernel; for one leaf an invariant over all histories; for calls that return, a fixpoint induction against the model of C128 |
| C139 | the model of C123 with a comparator that may answer `none` (a panic) and the queue of that moment in the result; invariant: the cells below `size` are a permutation of the bag; for calls that return, a simulation by the model of C123 |
| C140 | the model of C131 with a comparator that may answer `none` (a panic) and the list of that moment in the result; a simulation by the model of C131 up to the panic |
| C141 | the step relation of C22 with two more steps, a panic at line 58 and one at line 63; the invariants of C22-C25 kept by them, and a dichotomy: the mutex works or it is jammed for ever |
| C142 | the transition system of C53 with a panic step; a run with panics is simulated by a run of more goroutines in which a call that panics stops for ever, and C53, C54, C55, C80, C82 are carried over |
| C143 | the loop of CompactFunc with a callback that may answer by a panic, by induction on the elements left, against the list specification keepP |
| C144 | the calls of C137 with the comparator a field that may be nil; by induction on the history, with C137's simulation step by step |
| C93 | `Stream`: Chain of streams of any parallelism | segments of a Chain as rounds, then the results for any splitting stream; exact outcomes of FoldWith by an existence proof for every choice of segments |
| C92 | `LinkedList`: pulls interleaved with operations | refinement to sequences of element names |
| C83, C84 | `Stream`: goroutine branches of the terminal operations | invariants over all schedules, concrete bad schedules |

## How to read a claim
`MANIFEST.json` names the theorems of every property; `properties.jsonl` has the English.  Status `proved`: the
theorem is the English claim about the model.  Status `partial`: the English claim is **false of the code**
or false in general; then a `_refuted` theorem exhibits the failure (a concrete history or a family of them)
and `_partial` theorems prove the claim for the exactly stated part where it holds.  There is no claim that is
partial only because a proof was not finished.  The specification side of each theorem uses `List`, `Multiset`-like
permutations, `List.Sublist`, sortedness (`List.Pairwise`) and small reference programs in `*/Spec.lean`
(or at the head of `Props.lean`), not the definitions of the model.
Every theorem with hypotheses is followed by an `example` that instantiates it with a non-trivial case.

## Trusted base
1. Lean's kernel (4.33.0), and Mathlib's and core's definitions used in statements (lists, integers, `BitVec`, linear orders).
2. Axioms: only `propext`, `Classical.choice`, `Quot.sound`.  `AXIOMS.md` (generated by `tools/axioms.py` from
   `#print axioms`) lists them for every theorem of the manifest.  No axiom is added, nothing is compiled and trusted.
3. The hand translation from Go to the `Model.lean` files.  Every definition cites file and lines.  `tools/coverage.py` lists
   the Go functions no comment cites.
4. The Go semantics written into the models: below.

### Go semantics assumed
* `int` is unbounded wherever it counts elements, positions or spans (no container reaches 2^63 elements); where wrap-around matters
  it is modelled: all of `util/hasher` (`BitVec 8/16/32/64`), `randomLevel`'s random words, `Poll`'s subtraction of times, and the `int32`
  counter of the lock-free list (hypothesis: fewer than 2^31 elements).
* A nil dereference, an index out of range, a slice out of bounds, a division by zero, a failed type assertion and explicit `panic`
  calls are `Res.panic`; the state after a panic is not modelled (the repository never recovers).
* Memory: allocation never fails and always returns a fresh address; nodes are never recycled by the garbage collector
  while a pointer to them is held.
* `sync/atomic` operations are sequentially consistent and indivisible; plain reads and writes of `collections/queue` are
  separate steps, performed under its spin lock; a body executed under a `sync.Mutex` is one step where all accesses to the
  guarded data are made under that mutex (`delayqueue`).
* Unbuffered and buffered channels, `select`, `sync.WaitGroup` and `sync.Once` follow the Go specification; a blocked goroutine
  is a state with no step.  Schedulers are arbitrary; lock-freedom (C81) quantifies over all infinite runs.
* User comparators are total functions without side effects, except where stateful and arbitrary ones are the subject (C123, C124, C127, C128,
  C130, C131); theorems that need more say so
  (`Compare.Lawful`: a total preorder; `ThreeWay`: answers in {-1,0,1}; `Strict`: 0 only for equal keys).
  `fn.Comp` on a linear order is C01; on float64 with NaN, bit pattern by bit pattern, it is C125.

### What is modelled
| package | modelled | not modelled |
|---|---|---|
| fn | comp.go, function.go: everything | — |
| iterator | iterator.go: FromSlice, Range, All, CastToPush, CastToPull (goroutines), Lines (byte level), FromChan | YieldPrintln (prints) |
| collections/slice | slice.go: everything, on arrays with capacity and aliasing | the growth factor of `append` (any capacity that suffices) |
| collections/priorityqueue | everything | — |
| collections/queue | sequential operations; spin lock with one step per access | — |
| collections/delayqueue | Push, Pop, PopWithCtx, Poll for any number of goroutines; the wall clock may be set and timers may fire early (`skewed`); Len while nobody is inside a locked body; `int64` wrap-around in Poll | `int64` wrap-around of Pop's `delta` (only with a clock before 1970); Len read in the middle of another goroutine's locked body (a data race) |
| collections/linkedlist | everything, any number of lists in one heap; pulls of Iter and of the segments of SplitableIter between edits | — |
| collections/skiplist | everything, `String` with the format of an entry as a parameter | `SetCompareFunc` on a list made without comparator |
| collections/lockfreeskiplist | Add, Del, Has, Get, Rank, Len and their helpers at the granularity of atomic accesses | printing; `util/ptr` is the tagged pointer of the model |
| collections/rbtree | tree, node and node buffer, `String` (with the format of an entry as a parameter) | `SetKey` on a stored node, `addToNext`/`removeSelf` (unused) |
| collections/bplustree | bplustree.go, bplustree_node.go | `display`, `searchPreSuccessor`, `searchSuccessor` (unused); bplustree_iterator.go and bplustree_set.go are commented out in the repository |
| collections/sortedset | methods up to the first use of the nil receiver | `haxmap` (an external dependency) |
| stream | all operators and terminal operations; goroutine branches as transition systems over all schedules | callbacks with side effects in parallel Take/Skip/Enumerate/Zip/FlatMap/Chain pipelines (sequential ones: C129; parallel Map/Filter/SkipWhile/Inspect with Fold, Collect, TryFold, AllMatch, AnyMatch: C132, C133); one stream value used twice in one pipeline (its counters are shared in Go) |
| util/hasher | everything, both int sizes, little-endian | big-endian platforms |

## Where the code disagrees with the property
The refuted claims, i.e. defects found in the repository (details in the theorem comments):

| property | what the code does | theorem |
|---|---|---|
| C02 Function and predicate combinators are pointwise composition and boolean algebra | Everything holds except BinPredicate.Or, which computes And (binPredicate_or_refuted). | `Fn.binPredicate_or_refuted` |
| C04 Push-style traversal visits a prefix and stops when the callback says stop | CastToPush proved for every iterator; Iter.All ignores the callback (refuted). | `Iter.iterAll_stops_refuted` |
| C06 Lines yields exactly the lines of the file | Exactly the newline-terminated lines are shown; an unterminated last line is dropped (refuted). | `Iter.lines_complete_refuted` |
| C08 SplitableIter gives exactly the requested number of segments | Segment count is p iff p divides the length; the unconditional claim is refuted; p > len never finishes. | `Slice.split_count_refuted` |
| C09 Insert, Delete and Replace are list splices with exact panics | Splice results with exact panics on a heap model with capacity; the no-aliasing hypothesis is shown necessary. | `Slice.insert_aliased_refuted` |
| C15 Slice.PushBack makes the element visible to the caller | The claim is false; what the value receiver does is proved exactly. | `Slice.pushBack_refuted` |
| C18 Priority queue constructors return a usable empty queue | New with size works; without it panics. | `PQ.new_default_refuted`, `PQ.ofWith_refuted` |
| C21 Re-pushing a popped node keeps the queue FIFO | Rotation is false beyond singletons. | `Queue.rotate_refuted` |
| C23 DelayQueue neither loses nor duplicates elements | Full conservation (nothing lost, nothing duplicated) for all Push/Pop/Poll histories; with PopWithCtx pushed = stored + removed exactly, but a removed element can be dropped (no_loss_refuted: run that loses an element). | `DelayQueue.no_loss_refuted` |
| C24 A sleeping consumer is woken when an element is due | The claim is false of the code (lost wake-up run; the consumer stays asleep with a due element stored). Proved for one Pop consumer: a published sleeper is woken by a Push that reaches its flag, a timed wait gets back to the queue, a consumer waiting for a claimed wake-up has a sender. | `DelayQueue.wakeup_refuted` |
| C25 Push never blocks forever | False of the code (abandoned Push run). Proved: Push can block only in the wake-up hand-over, the mutex is always released, and with one Pop consumer the hand-over always finds its receiver. | `DelayQueue.push_returns_refuted` |
| C26 Poll takes the expired head or reports that there is none | False for undue heads ((zero,true)), and for a head that expired more than 2^63 ms ago (the `int64` subtraction wraps around); everything else of Poll's contract proved on every schedule. | `DelayQueue.poll_refuted`, `DelayQueue.poll_wraps_refuted` |
| C30 Clear leaves an empty usable list | Len/Front/Back/later pushes are right; ToSlice/Iter on a cleared or zero list and Remove of an old element are refuted. | `LinkedList.clear_toSlice_refuted`, `LinkedList.toSlice_uninitialised_refuted`, `LinkedList.clear_remove_refuted` |
| C32 Sequential Map, Filter, Inspect, Chain, Zip and FlatMap are the list functions | `t, ok := pull()` in Zip assigns the named result, so once the right side has ended every further left element is delivered as a zero pair; an ended Chain asked again panics. | `Stream.zip_refuted`, `Stream.zip_chain_panics` |
| C33 Take(n) delivers the first n elements | First activation proved; a second activation delivers nothing more (refuted as stated). | `Stream.take_refuted` |
| C34 Skip(n) drops exactly the first n elements | Exact behaviour (n-1 dropped) proved for every n; the documented claim is refuted. | `Stream.skip_refuted` |
| C35 SkipWhile(p) drops the longest prefix satisfying p | Exact behaviour (filter) proved; equals dropWhile when no later element satisfies p; refuted in general. | `Stream.skipWhile_refuted` |
| C38 Reduce combines every element exactly once | Exact behaviour (first element twice) proved; equals the reduction when f x0 x0 = x0; refuted in general. | `Stream.reduce_refuted` |
| C39 Max and Min return an extremal element | Proved for all pipelines without shared counters (Take/Skip/Enumerate) and for parallel slices on every schedule; refuted for Take. | `Stream.max_take_refuted` |
| C40 AllMatch and AnyMatch decide for-all and exists | Non-empty streams; AllMatch on the empty stream is refuted. | `Stream.allMatch_empty_refuted` |
| C41 Parallel fold equals sequential fold for commutative monoids | Every schedule when p divides len(s); refuted (lost result and panic) otherwise. | `Stream.parFold_refuted` |
| C44 Parallel Skip and Take count globally | Every schedule; the bound n+p-1 and a run showing that n is not a bound. | `Stream.parTake_refuted` |
| C48 Skip list is a sorted map: Get after Put finds the value | Holds for keys put in strictly decreasing order; refuted for Put 1, Put 2. | `SkipList.sorted_map_refuted` |
| C49 Skip list Has/Get/Rank never report an absent key | All keys that do not compare equal to the zero key; refuted for the zero key. | `SkipList.has_zero_refuted` |
| C50 Skip list Delete removes the key | The property is false; proved instead: nothing is ever removed, on every reachable list. | `SkipList.delete_refuted` |
| C51 Skip list InsertUnique refuses duplicates | The property is false; proved instead: it always inserts and returns true. | `SkipList.insertUnique_refuted` |
| C55 Lock-free skip list Len is the number of elements at quiescence | The counter is an int32: fewer than 2^31 elements are assumed. | `LockFree.len_can_be_negative` |
| C56 Lock-free skip list random level is between 1 and 20 and Get returns the ceiling element | Get is the ceiling at an instant of the call even under concurrency; the refutation shows that Rank is not the position of the element. | `LockFree.rank_is_position_refuted` |
| C57 Red-black tree is a map: Get after Put finds the value | False of the code: the comparison result is shadowed in put, every new node becomes a right child and may drop a subtree. Proved for every history whose new keys exceed all stored keys, with arbitrary deletions. | `RBTree.map_refuted` |
| C60 Red-black tree iteration enumerates the entries in key order | False of the code (hang on an empty tree, stale first node). Proved for non-empty trees after ascending histories that keep the least key; stepping with Next enumerates correctly in every history. | `RBTree.iter_empty_refuted`, `RBTree.iter_stale_refuted` |
| C61 Red-black tree Size counts entries | False of the code (PutNode does not count); proved for ascending histories; for every history without PutNode the enumerable entries are at most Size many. | `RBTree.size_refuted` |
| C64 B+ tree Get finds every stored key and nothing else | Soundness for all histories. Completeness is false of the code; proved for keys that equal no separator (trees made by insertions and deletions of least keys, and all histories with fewer than 2M(M-1) insertions) and for maps with at most 2M-1 insertions. | `BPlus.read_complete_refuted` |
| C65 B+ tree Delete removes exactly the given key | False of the code (borrowing from the left sibling destroys an entry). Proved for deletions of a least key and for maps with at most 2M-1 insertions. | `BPlus.delete_exact_refuted` |
| C66 B+ tree Clear leaves an empty usable map | Size 0 and nothing found is proved; insertions after Clear are reported as successful and lost. | `BPlus.clear_usable_refuted` |
| C67 B+ tree DeleteByWholeMapping deletes iff key and value match | False of the code: it deletes iff the stored value is less than the given one. | `BPlus.deleteByWholeMapping_refuted` |
| C70 Hash is defined for every type admitted by its constraint | False for defined types; proved for all predeclared types on 32- and 64-bit platforms. | `Hasher.hash_defined_refuted` |
| C71 SortedSet built by New is usable | The property is false: every call on the result of New panics. | `SortedSet.new_refuted` |
| C72 Skip list range queries | FirstInRange needs IsInAllRange; LastInRange is refuted and characterised. | `SkipList.lastInRange_refuted`, `SkipList.firstInRange_refuted` |
| C73 Skip list SplitableIter partitions the entries | Refuted for parallelism above Size. | `SkipList.split_too_many_refuted` |
| C74 Equal keys hash equally | False for the two float zeros, true otherwise (for the other types == is equality of bits). | `Hasher.float_equal_refuted` |
| C76 Red-black tree calls return | False in general; no history runs forever, and none panics if no key is below the zero value. | `RBTree.calls_return_refuted` |
| C77 Red-black tree Delete returns the node of the deleted entry | False of the code; in ascending histories the returned node holds the deleted entry or its successor. | `RBTree.delete_returns_refuted` |
| C83 Parallel(p) does not change the result of a terminal operation | False of the code in general; proved for p dividing len(s)>0 (Max, Min, AllMatch, AnyMatch without Filter); refuted for Max behind a Filter. | `Stream.parallel_max_refuted` |
| C84 Terminal operations on parallel streams return | The negative results hold on every schedule; returning is part of parallel_*_partial and of parCollect_slice. | `Stream.foldWith_short_never_returns`, `Stream.collect_short_never_returns`, `Stream.tryFold_short_never_returns` |
| C90 Streams over trees, skip lists and linked lists deliver their elements | Proved for p up to the number of elements; above it Collect never returns; a linked list iterator starts over when asked after its end, so Zip with a shorter list cycles. | `Stream.tree_stream_refuted`, `Stream.skipList_stream_refuted`, `Stream.list_stream_refuted`, `Stream.zip_list_cycles` |
| C91 Parallel pipelines deliver the elements of the sequential pipeline | All shapes and schedules; Zip of different lengths pairs elements of different index. | `Stream.parZip_refuted` |
| C95 rbtree String prints the map | Never returns on a new or cleared map. | `RBTree.string_refuted` |
| C97 rbtree may be changed while it is iterated | Deleting the entry delivered last repeats the next one iff its node had two children and its right child none. | `RBTree.iter_delete_refuted` |
| C100 skiplist range deletion during an iteration | An iterator standing in front of a removed entry still delivers it and the rest of the removed block. | `SkipList.iter_deleteRange_refuted` |
| C101 rbtree Put of a new key keeps all other entries | The new node replaces the right child of the node where the search ended; after one key and any number of smaller ones the tree holds two entries. | `RBTree.put_keeps_refuted`, `RBTree.smaller_keys_lost` |
| C103 B+ tree: keys ascend along the leaves after every history | `shiftToRightChild` on inner nodes overwrites a separator with its left neighbour; a later insertion then lands in the wrong leaf. | `BPlus.order_refuted` |
| C93 Chain concatenates its streams whatever their parallelism | The exact order is round by round; each element exactly once. | `Stream.chain_order_refuted` |
| C92 A linked list may be edited while it is iterated | Holds unless the element delivered last is removed: then the next pull panics. | `LinkedList.live_iter_removed_refuted` |
| C86 rbtree SplitableIter partitions the map | Proved for ascending histories that keep the first node and 1<=p<=Size or p<=0 (empty tree: p>=1); refuted for p>Size (endless empty segments) and for p<=0 on an empty tree (hang). | `RBTree.split_too_many_refuted`, `RBTree.split_empty_hang_refuted` |
| C87 rbtree LeftMost and RightMost are the ends of the map | False of the code: RightMost after deleting a key that is not the greatest is the node of the key before it (or nil), whenever the deleted key is not below the zero key; LeftMost can be a deleted node. Proved: LeftMost for ascending histories that keep the first node, RightMost for ascending Puts. | `RBTree.rightMost_refuted`, `RBTree.iter_stale_refuted` |
| C107 Lock-free skip list: what Rank returns | lockfree Rank keeps its count when it starts again: beside a Has it exceeds the position | rank_disturbed |
| C108 Parallel AllMatch and AnyMatch for every parallelism | AllMatch may be true although an element fails, AnyMatch false although one matches, if p does not divide len(s); a goroutine may be left behind | allMatch_uneven_wrong, anyMatch_uneven_wrong, parTry_leak_reached |
| C109 Delay queue with several consumers | with two consumers in Pop, one of them can be left asleep for ever although elements are pushed and due, without any race | two_consumers_stranded, two_timers_refuted, deaf_for_ever |
| C116 B+ tree: no call panics | Delete can panic with an index out of range on ordinary histories (delete_panics). |
| C117 Red-black tree: when a call panics | Six ordinary calls with the keys -1, -2, 1 make Delete panic (plain_panic). |
| C118 B+ tree: the pointer GetEntry returns | A pointer from GetEntry kept over an insertion points to another entry or to none (held_wrong_entry, held_lost). |
| C119 Red-black tree: nodes in the user's hands | Delete of one key can turn the node of another key into a detached copy (held_node_lost). |
| C122 next after stop | A value can be received by a call begun after stop has returned (stopEnds_refuted, many_after_stop). |
| C133 Parallel AllMatch, AnyMatch and TryFold: which calls they make, and that they end | AllMatch and AnyMatch (tryfold.go:51-53): the calling goroutine calls the predicate once more for each segment, each time with the first element; and goroutines that have passed the select still call it after the operation has returned |
| C134 The segments of a linked list may be pulled while the list is edited | SplitableIter of a linked list counts its segments by number of elements, but starts them at elements: after an insertion into a segment an element between two segments is never delivered, after a removal one is delivered twice, or the ones not handed out yet are lost |
| C135 The segments of a skip list may be pulled in any order while entries are inserted | SplitableIter of a skip list counts its segments by number of entries but starts them at entries: after an insertion into a segment an entry between two segments is never delivered |
| C136 The segments of a red-black tree may be pulled in any order while keys are put in ascending order | segments of a red-black tree deliver an entry twice or never when another entry is deleted meanwhile: Delete moves entries between nodes, and the segmenter compares its count with the current size |
| C138 A comparator that panics leaves a B+ tree as it was | a panic of the comparator during InsertUnique loses stored entries: the shift of insertNonFull writes between comparisons, and the new root is assigned after the recursion |
| C139 A comparator that panics leaves a priority queue as it was | a panic of the comparator during Push or Pop leaves the priority queue out of order, and the element of the Push in it |
| C141 A panic in Expiration or in the comparator leaves a delay queue usable | A panic in Expiration, recovered by the caller of Push, leaves dq.mutex locked for ever (delay_queue.go:55-61, no defer); a panic of comp at line 63 loses the wake-up of a sleeping consumer. |
| C142 When the comparator of a lock-free skip list panics | an Add of the lock-free skip list that panics in the comparator on its second search (line 65) leaves its element in the set without counting it: Len stays one too small for ever. |

## Testing the theorems
`tools/mutate.py` edits a definition in a scratch copy the way a bug would, rebuilds and records which theorems fail;
`seeded/LOG.jsonl` has one line per attempt (definition, edit, claim broken, theorems failed, theorems tightened).
A surviving edit is answered by a stronger statement or, if the edit does not change behaviour, not logged as a kill.
