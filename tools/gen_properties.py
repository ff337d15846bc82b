#!/usr/bin/env python3
# Regenerates ../properties.jsonl (one property per line).
import json, os
P = []
def p(id, title, statement, quantifier, why, anchors):
    P.append(dict(id=id, title=title, statement=statement, quantifier=quantifier, why_tests_cant=why, anchors=anchors))

# ---------------------------------------------------------------- fn
p("C01","fn.Comp is a three-way total order",
  "For values of an ordered type without NaN, Comp(a,b) is exactly -1, 0 or 1; it is 0 iff a = b, -1 iff a < b, 1 iff a > b; Comp(b,a) = -Comp(a,b); and Comp is transitive.",
  "all pairs and triples of values of a linearly ordered type","A test samples pairs; every container relies on the laws for all pairs.",
  ["fn/comp.go:Comp"])
p("C02","Function and predicate combinators are pointwise composition and boolean algebra",
  "Predicate.And/Or/Negate/Not are pointwise and/or/not, Compose(b,c)(x)=c(b(x)), AndThen(c,a)(x)=a(c(x)), Consumer/BinConsumer.AndThen run both effects in order, and BinPredicate.And/Or are pointwise and/or.",
  "all predicates, functions and arguments","Quantifies over all functions. (The BinPredicate.Or part is false of the code: it computes And.)",
  ["fn/function.go:Predicate.And","fn/function.go:Predicate.Or","fn/function.go:BinPredicate.Or","fn/function.go:Compose","fn/function.go:AndThen"])
# ---------------------------------------------------------------- iterator
p("C03","FromSlice and Slice.Iter yield every element once, in order, then stay exhausted",
  "Pulling an iterator made by FromSlice(s) or s.Iter() k times returns s[0..k-1] in order with ok=true, and every pull after len(s) returns (zero,false).",
  "all slices and all numbers of pulls","Unbounded length and unbounded number of pulls.",
  ["iterator/iterator.go:FromSlice","collections/slice/slice.go:Slice.Iter"])
p("C04","Push-style traversal visits a prefix and stops when the callback says stop",
  "CastToPush(it)(yield) and Slice.All(yield) call yield on the elements in order and stop right after the first element on which it returns false. (Iter.All ignores the callback's result and always visits everything: the same claim for Iter.All is false.)",
  "all iterators, all callbacks (stateful or not)","All callbacks and all lengths.",
  ["iterator/iterator.go:CastToPush","iterator/iterator.go:Iter.All","collections/slice/slice.go:Slice.All"])
p("C05","CastToPull delivers the pushed sequence in order on every schedule",
  "For every interleaving of the producer goroutine, the puller and stop(): the values returned by next() form a prefix of the pushed sequence in order; without stop() every value is delivered and then next() returns (zero,false) forever; after stop() and a producer that honours false, next() eventually returns (zero,false) and the goroutine ends; no schedule leaves a blocked pull without an enabled producer step until the channel is closed.",
  "all pushed sequences, all schedules of pull/stop/producer steps","Depends on goroutine interleavings and the nondeterministic select.",
  ["iterator/iterator.go:CastToPull"])
p("C06","Lines yields exactly the lines of the file",
  "For a readable file, Lines yields every line of the file in order (each with its trailing newline when it has one) until the callback stops it. (False for a last line that lacks a newline: it is silently dropped; what holds is that exactly the newline-terminated lines are yielded.)",
  "all file contents and all callbacks","All byte strings.",
  ["iterator/iterator.go:Lines"])
# ---------------------------------------------------------------- slice
p("C07","SplitableIter partitions the slice into consecutive segments",
  "For parallelism p<=0 there is exactly one segment, equal to the whole slice; for 1<=p<=len(s) the segments are non-empty, finite in number and their concatenation is s; for an empty slice and p>=1 there is no segment.",
  "all slices, all parallelism values in range","All lengths and all p.",
  ["collections/slice/slice.go:Slice.SplitableIter"])
p("C08","SplitableIter gives exactly the requested number of segments",
  "For 1<=p<=len(s) the number of segments is p. (False in general: it is p iff p divides len(s), otherwise strictly more; and for p>len(s)>0 the segmenter never finishes and yields only empty segments.)",
  "all slices and all parallelism values","All lengths and all p.",
  ["collections/slice/slice.go:Slice.SplitableIter"])
p("C09","Insert, Delete and Replace are list splices with exact panics",
  "Insert(s,i,v...) = s[:i]++v++s[i:], Delete(s,i,j) = s[:i]++s[j:], Replace(s,i,j,v...) = s[:i]++v++s[j:] whatever the spare capacity, provided v does not share s's array; each panics exactly when its indices are out of range.",
  "all slices, capacities, indices and values","All sizes, capacities and both the in-place and the reallocating path.",
  ["collections/slice/slice.go:Insert","collections/slice/slice.go:Delete","collections/slice/slice.go:Replace"])
p("C10","In-place slice edits touch only their own window of the shared array",
  "Insert, Delete, Replace and Compact change no array cell below the edited index and none outside the slice's capacity window, and when Insert/Replace reallocate the original array is not modified at all.",
  "all arrays, overlapping slices, indices","Aliasing: every other slice over the same array.",
  ["collections/slice/slice.go:Insert","collections/slice/slice.go:Delete","collections/slice/slice.go:Replace","collections/slice/slice.go:Compact"])
p("C11","Compact keeps exactly one element of every run",
  "Compact(s)/CompactFunc(s,eq) return the first element of each maximal run (each element compared with the last kept one); the result is a subsequence of s, has no two equal neighbours, and compacting twice equals compacting once.",
  "all slices and all equality functions","All lengths and contents.",
  ["collections/slice/slice.go:Compact","collections/slice/slice.go:CompactFunc"])
p("C12","Equal, Compare and their Func variants are elementwise equality and lexicographic order",
  "Equal(s1,s2) iff the sequences are equal; EqualFunc iff same length and eq holds pairwise; Compare is the lexicographic three-way order (a total order on sequences); CompareFunc returns the first non-zero pairwise result, else the length comparison.",
  "all pairs of slices","All lengths.",
  ["collections/slice/slice.go:Equal","collections/slice/slice.go:EqualFunc","collections/slice/slice.go:Compare","collections/slice/slice.go:CompareFunc"])
p("C13","Index and Contains find the first occurrence",
  "Index returns the least i with s[i]=v (f(s[i])), or -1 iff there is none; Contains iff some element matches.",
  "all slices and values/predicates","All lengths.",
  ["collections/slice/slice.go:Index","collections/slice/slice.go:Slice.Index","collections/slice/slice.go:Contains"])
p("C14","Clone, Grow and Clip preserve contents and set capacity/aliasing as documented",
  "Clone has the same contents on a fresh array and preserves nil; Grow(s,n) has the same contents and room for n more elements, panicking iff n<0; Clip has the same contents and cap=len.",
  "all slices, capacities and n","All sizes and capacities.",
  ["collections/slice/slice.go:Clone","collections/slice/slice.go:Grow","collections/slice/slice.go:Clip"])
p("C15","Slice.PushBack makes the element visible to the caller",
  "After s.PushBack(x), s ends with x. (False for every slice: the method has a value receiver, so the caller's length and elements never change; likewise the Insert method never changes the caller's length.)",
  "all slices and elements","All slices.",
  ["collections/slice/slice.go:Slice.PushBack","collections/slice/slice.go:Slice.Insert"])
# ---------------------------------------------------------------- priorityqueue
p("C16","Priority queue: any history of Push/Pop/Peek/Len behaves like a multiset with extract-min",
  "In every history, Pop and Peek return ok=false exactly when the queue is empty; otherwise the value returned is one of the stored elements and no stored element is smaller; Pop removes exactly that element, Push adds exactly its argument, Peek changes nothing and Len is the number of stored elements.",
  "all operation histories and all total-preorder comparators","All histories and array growth points.",
  ["collections/priorityqueue/priorityqueue.go:Queue.Push","collections/priorityqueue/priorityqueue.go:Queue.Pop","collections/priorityqueue/priorityqueue.go:Queue.Peek"])
p("C17","Draining a priority queue sorts",
  "Pushing any list of elements and popping until empty returns a permutation of the list in non-decreasing order.",
  "all lists and comparators","All lists.",
  ["collections/priorityqueue/priorityqueue.go:Queue.Push","collections/priorityqueue/priorityqueue.go:Queue.Pop"])
p("C18","Priority queue constructors return a usable empty queue",
  "New(comp), New(comp,size) and OfWith(comp, xs...) return a queue holding nothing, nothing and xs respectively. (False: New without a size, and therefore OfWith always, panics with index out of range; New with a size works and ignores the size.)",
  "all comparators, sizes and element lists","All element lists.",
  ["collections/priorityqueue/priorityqueue.go:New","collections/priorityqueue/priorityqueue.go:Queue.Init","collections/priorityqueue/priorityqueue.go:OfWith"])
# ---------------------------------------------------------------- queue
p("C19","Linked queue is FIFO for every history of Push/Pop/Peek/Len/Empty",
  "Every history of value operations behaves like a list: Push appends, Pop removes and returns the oldest, Peek returns it without removal, Len/Empty report the length; Pop/Peek on an empty queue panic, leave the queue unchanged and release the lock.",
  "all operation histories","All histories.",
  ["collections/queue/queue.go:Linked.PushNode","collections/queue/queue.go:Linked.PopNode","collections/queue/queue.go:Linked.PeekNode","collections/queue/queue.go:Linked.Len"])
p("C20","Linked queue operations are atomic under every interleaving",
  "With any number of goroutines running Push/Pop/Peek whose critical sections are split into individual loads and stores, at most one is inside its critical section and the results are those of running the operations one after another in lock-acquisition order on a FIFO list.",
  "all goroutine schedules","Schedules.",
  ["collections/queue/queue.go:Linked.PushNode","collections/queue/queue.go:Linked.PopNode","collections/queue/queue.go:Linked.PeekNode"])
p("C21","Re-pushing a popped node keeps the queue FIFO",
  "PushNode(PopNode()) rotates the queue. (False: PushNode does not clear node.next, so a recycled node drags its old successors along and a drained queue hands out already removed nodes; it holds exactly when the pushed node's next is nil.)",
  "all histories mixing PushNode and PopNode","All histories of node reuse.",
  ["collections/queue/queue.go:Linked.PushNode","collections/queue/queue.go:Linked.PopNode"])
# ---------------------------------------------------------------- delayqueue
p("C22","DelayQueue never delivers an element early and always the earliest one",
  "On every schedule, an element returned by Pop, PopWithCtx or Poll (with ok=true from the expired branch) has an expiration not later than the clock value read by that call, and no element stored at that moment expires earlier.",
  "all schedules of pushers and poppers, all clock readings","Schedules and clock values.",
  ["collections/delayqueue/delay_queue.go:DelayQueue.Pop","collections/delayqueue/delay_queue.go:DelayQueue.PopWithCtx","collections/delayqueue/delay_queue.go:DelayQueue.Poll"])
p("C23","DelayQueue neither loses nor duplicates elements",
  "On every schedule the multiset of pushed elements equals those stored plus those delivered plus those held by a call that has not returned yet. (False once PopWithCtx is used: it may remove an element and then return (zero,false) because the context is done; it holds for Push/Pop/Poll histories.)",
  "all schedules","Schedules and cancellation points.",
  ["collections/delayqueue/delay_queue.go:DelayQueue.Push","collections/delayqueue/delay_queue.go:DelayQueue.Pop","collections/delayqueue/delay_queue.go:DelayQueue.PopWithCtx"])
p("C24","A sleeping consumer is woken when an element is due",
  "A goroutine blocked in Pop on an empty queue is woken by the next Push. (False: Pop publishes its sleeping flag after releasing the mutex, so a Push in between does not wake it and it stays blocked although the queue holds a due element.)",
  "all schedules","A race of two instructions.",
  ["collections/delayqueue/delay_queue.go:DelayQueue.Pop","collections/delayqueue/delay_queue.go:DelayQueue.Push"])
p("C25","Push never blocks forever",
  "Push returns. (False: a Push that has claimed the sleeping flag blocks on the wake-up channel for ever when the consumer leaves through its cancelled context.)",
  "all schedules","Schedules and cancellation points.",
  ["collections/delayqueue/delay_queue.go:DelayQueue.Push","collections/delayqueue/delay_queue.go:DelayQueue.PopWithCtx"])
p("C26","Poll takes the expired head or reports that there is none",
  "Poll returns ok=true with an element iff the earliest element is due. (False: for an undue head it returns (zero,true); what holds: it never modifies the queue, returns the head when due - unless it expired more than 2^63 ms ago and the int64 subtraction wraps around - and ok=false when empty.)",
  "all queue contents and clock values","All states and clock values.",
  ["collections/delayqueue/delay_queue.go:DelayQueue.Poll"])
# ---------------------------------------------------------------- linkedlist
p("C27","Linked list behaves like a sequence of elements for every history",
  "For every history of PushFront/PushBack/InsertBefore/InsertAfter/Remove/MoveToFront/MoveToBack/MoveBefore/MoveAfter/PushBackList/PushFrontList/Init/Clear and assignments to an element's Value over any number of lists, each list's forward traversal is the abstract sequence, the backward traversal is its reverse, Len is its length, Front/Back are its ends and Next/Prev its neighbours.",
  "all histories over any number of lists and elements","All histories.",
  ["collections/linkedlist/linkedlist.go:List.insert","collections/linkedlist/linkedlist.go:List.remove","collections/linkedlist/linkedlist.go:List.move","collections/linkedlist/linkedlist.go:Element.Next","collections/linkedlist/linkedlist.go:Element.Prev"])
p("C28","Operations with an element of another list change nothing",
  "Remove, InsertBefore, InsertAfter, MoveToFront, MoveToBack, MoveBefore and MoveAfter called with an element (or mark) that is not currently in the receiver leave every list unchanged; Insert* return nil and Remove still returns the element's value.",
  "all reachable states and elements","All states.",
  ["collections/linkedlist/linkedlist.go:List.Remove","collections/linkedlist/linkedlist.go:List.InsertBefore","collections/linkedlist/linkedlist.go:List.MoveBefore"])
p("C29","PushBackList/PushFrontList append/prepend a copy, also of the list itself",
  "l.PushBackList(o) makes l's values l++o and l.PushFrontList(o) makes them o++l, leaves o unchanged if o is another list, and works when o is l.",
  "all pairs of lists including l=o","All lengths and the self-aliasing case.",
  ["collections/linkedlist/linkedlist.go:List.PushBackList","collections/linkedlist/linkedlist.go:List.PushFrontList"])
p("C30","Clear leaves an empty usable list",
  "After Clear, Len is 0, Front/Back are nil, ToSlice is empty and later pushes build a fresh list. (False for ToSlice/Iter, which dereference nil on a cleared or zero-value list, and for Remove of an element that was in the list at Clear time, which drives Len negative.)",
  "all lists","All states.",
  ["collections/linkedlist/linkedlist.go:List.Clear","collections/linkedlist/linkedlist.go:List.ToSlice","collections/linkedlist/linkedlist.go:List.Iter"])
p("C31","Linked list ToSlice, Iter and SplitableIter enumerate the sequence",
  "ToSlice returns the values in order; for 1<=p<=Len the segments of SplitableIter concatenate to the values in order, for p<=0 there is exactly one segment with all values.",
  "all lists and parallelism values","All lengths and p.",
  ["collections/linkedlist/linkedlist.go:List.ToSlice","collections/linkedlist/linkedlist.go:List.SplitableIter","collections/linkedlist/linkedlist.go:List.Iter"])
# ---------------------------------------------------------------- stream
p("C32","Sequential Map, Filter, Inspect, Chain, Zip and FlatMap are the list functions",
  "Collecting Map/Filter/Inspect/Chain/Zip/FlatMap of sequential streams delivers map/filter/id/append/zip/flatMap of the source contents in order; Inspect runs its callback exactly once per delivered element, before it is delivered. (False for Zip with a longer left side: it delivers a zero pair for every surplus element, and panics if its right side is a Chain.)",
  "all sources, functions and nesting of operators","All lengths, functions and compositions.",
  ["stream/map.go:Map","stream/filter.go:Filter","stream/inspect.go:Inspect","stream/chain.go:Chain","stream/zip.go:Zip","stream/flat_map.go:FlatMap","stream/collect.go:Collect"])
p("C33","Take(n) delivers the first n elements",
  "Collecting Take(s,n) of a sequential stream delivers the first n elements. (True for the first activation only: the counter is shared by all activations, so a second Collect, or Max/Reduce which activate twice, sees fewer; on parallel streams more than n can be delivered.)",
  "all sources, n, numbers of activations, schedules","All n, repeated activations and schedules.",
  ["stream/take.go:Take"])
p("C34","Skip(n) drops exactly the first n elements",
  "Collecting Skip(s,n) of a sequential stream delivers all but the first n elements. (False: it drops n-1; the counter is shared by all activations.)",
  "all sources and n","All n.",
  ["stream/skip.go:Skip"])
p("C35","SkipWhile(p) drops the longest prefix satisfying p",
  "Collecting SkipWhile(s,p) delivers dropWhile p. (False: it removes every element satisfying p, i.e. it is Filter(not p).)",
  "all sources and predicates","All sequences.",
  ["stream/skip.go:SkipWhile"])
p("C36","Enumerate numbers elements consecutively from 1",
  "On every schedule, the indices handed out during the first activation of Enumerate are 1..n, each exactly once, and sequentially the i-th element gets index i.",
  "all sources and schedules","Schedules of the segment goroutines.",
  ["stream/enumerate.go:Enumerate"])
p("C37","Sequential Fold/FoldWith/Sum/Collect are left folds over all elements",
  "With parallelism 0, FoldWith(s,init,f,_) is the left fold of f over the contents, Sum is the sum, Collect calls the consumer on each element once in order.",
  "all sources and functions","All lengths.",
  ["stream/fold.go:FoldWith","stream/sum.go:Sum","stream/collect.go:Collect"])
p("C38","Reduce combines every element exactly once",
  "Reduce(s,f) on a non-empty sequential stream is x0 f x1 f ... f xn. (False: the first element is used twice; it holds when f(x0,x0)=x0.)",
  "all sources and operators","All operators.",
  ["stream/reduce.go:Reduce","stream/first.go:First"])
p("C39","Max and Min return an extremal element",
  "On a non-empty stream (sequential, or parallel with p dividing the length, on every schedule) Max/Min return an element that is >=/<= all others; on an empty sequential stream they return the zero value.",
  "all sources and schedules","All lengths and schedules.",
  ["stream/max_min.go:Max","stream/max_min.go:Min","stream/max_min.go:MaxBy"])
p("C40","AllMatch and AnyMatch decide for-all and exists",
  "AllMatch(s,p) is true iff every element satisfies p, AnyMatch(s,p) iff some element does. (AllMatch is false on the empty stream; both hold on non-empty sequential streams.)",
  "all sources and predicates","All lengths.",
  ["stream/all_any_match.go:AllMatch","stream/all_any_match.go:AnyMatch","stream/tryfold.go:TryFold"])
p("C41","Parallel fold equals sequential fold for commutative monoids",
  "For an associative commutative f with identity init, FoldWith over s.Stream(p) returns the sequential fold on every schedule and never panics. (False unless p divides len(s): only p of the more than p segment results are combined, and a late goroutine can send on the closed channel; true when p divides len(s)>0.)",
  "all sources, p, monoids, schedules","Schedules.",
  ["stream/fold.go:FoldWith","stream/stream.go:doParallel","collections/slice/slice.go:Slice.SplitableIter"])
p("C42","Parallel Collect delivers every element exactly once",
  "On every schedule, Collect over s.Stream(p) with 1<=p<=len(s) (also through Map/Filter) calls the consumer exactly once per element and returns only after all calls are done.",
  "all sources, p and schedules","Schedules.",
  ["stream/collect.go:Collect","stream/stream.go:doParallel"])
p("C43","Parallel AllMatch/AnyMatch agree with the sequential answer",
  "On every schedule, when p divides len(s)>0, AllMatch over s.Stream(p) returns whether all elements satisfy p and AnyMatch whether some does.",
  "all sources, predicates, schedules","Schedules and cancellation races.",
  ["stream/tryfold.go:TryFold","stream/all_any_match.go:AllMatch"])
p("C44","Parallel Skip and Take count globally",
  "On every schedule the first activation of Skip(s,n) over p segments drops exactly min(n-1,total) elements, and Take(s,n) delivers at most n+p-1 elements (at most n is false).",
  "all schedules, n, segments","Schedules.",
  ["stream/skip.go:Skip","stream/take.go:Take"])
# ---------------------------------------------------------------- skiplist
p("C45","Skip list random level is between 1 and MaxLevel",
  "For every random 64-bit draw randomLevel returns a level in 1..32, so no array of MaxLevel entries is ever indexed out of range.",
  "all 2^64 random draws","2^64 inputs.",
  ["collections/skiplist/skiplist.go:List.randomLevel"])
p("C46","Skip list structure: every history keeps order links, spans, back links, tail and size consistent",
  "After every history of Put/InsertUnique/InsertEquals/Delete/DeleteRangeByKey/Clear and every random level choice: Iter from First enumerates Size() entries, Last is the last of them, following Prev from Last is the reverse enumeration, and GetByRank(r) is the value of the r-th entry for 1<=r<=Size().",
  "all histories, all level choices, all comparators","All histories and random choices.",
  ["collections/skiplist/skiplist.go:List.insert","collections/skiplist/skiplist.go:List.deleteNode","collections/skiplist/skiplist.go:List.GetByRank","collections/skiplist/skiplist.go:List.Iter"])
p("C47","Skip list keeps every inserted entry",
  "Without DeleteRangeByKey and Clear, the entries enumerated by Iter are a permutation of the entries ever inserted, and Size is their number.",
  "all histories and level choices","All histories.",
  ["collections/skiplist/skiplist.go:List.insert","collections/skiplist/skiplist.go:List.Size"])
p("C48","Skip list is a sorted map: Get after Put finds the value",
  "After Put(k,v), Has(k) and Get(k)=v, and Iter is sorted by key. (False: insertion walks on equality instead of less-than, so entries are pushed at the front; it holds for keys inserted in strictly decreasing order.)",
  "all histories and level choices","All histories.",
  ["collections/skiplist/skiplist.go:List.insert","collections/skiplist/skiplist.go:List.search","collections/skiplist/skiplist.go:List.Get"])
p("C49","Skip list Has/Get/Rank never report an absent key",
  "If Has(k) then some stored entry has key k, Get(k) is the value of an entry with key k and Rank(k) its 1-based position. (False for the zero key, which is found in the header of every list; true for all other keys.)",
  "all reachable lists and keys","All states.",
  ["collections/skiplist/skiplist.go:List.search","collections/skiplist/skiplist.go:List.Rank"])
p("C50","Skip list Delete removes the key",
  "Delete(k) returns true and removes an entry with key k iff there is one. (False: Delete never removes anything and always returns false.)",
  "all reachable lists and keys","All states.",
  ["collections/skiplist/skiplist.go:List.Delete","collections/skiplist/skiplist.go:List.DeleteKeys"])
p("C51","Skip list InsertUnique refuses duplicates",
  "InsertUnique/Put returns false and changes nothing when the key is present. (False: it always inserts and returns true.)",
  "all reachable lists and keys","All states.",
  ["collections/skiplist/skiplist.go:List.InsertUnique","collections/skiplist/skiplist.go:List.Put"])
p("C52","Skip list DeleteRangeByKey removes a contiguous block and reports its size",
  "DeleteRangeByKey(min,max) removes a contiguous run of entries, each below max, returns their number, decreases Size by it and keeps all other entries in order; on a sorted list it removes exactly the entries with min<=key<max.",
  "all reachable lists and bounds","All states.",
  ["collections/skiplist/skiplist.go:List.DeleteRangeByKey","collections/skiplist/skiplist.go:List.deleteNode"])
# ---------------------------------------------------------------- lockfree
p("C53","Lock-free skip list: Add, Del and Has are linearizable set operations",
  "On every interleaving of atomic steps of any number of goroutines, every completed Add/Del/Has has an instant within its call at which its result is the one of a sequential set: Add=true inserts an absent value, Add=false saw it present, Del=true removes a present value, Del=false saw it absent, Has reports membership.",
  "all schedules, all values, all random levels, any number of goroutines","Interleavings of CAS operations.",
  ["collections/lockfreeskiplist/lockfree_skiplist.go:LockFreeSkipList.Add","collections/lockfreeskiplist/lockfree_skiplist.go:LockFreeSkipList.Del","collections/lockfreeskiplist/lockfree_skiplist.go:LockFreeSkipList.Has","collections/lockfreeskiplist/lockfree_skiplist.go:LockFreeSkipList.find"])
p("C54","Lock-free skip list bottom level stays sorted and duplicate-free",
  "At every instant of every schedule, the unmarked nodes reachable from the head at level 0 are strictly increasing and are exactly the current set.",
  "all schedules","Interleavings.",
  ["collections/lockfreeskiplist/lockfree_skiplist.go:LockFreeSkipList.find","collections/lockfreeskiplist/lockfree_skiplist.go:LockFreeSkipList.Add"])
p("C55","Lock-free skip list Len is the number of elements at quiescence",
  "Whenever no Add or Del is in progress, Len() is the size of the set. (During calls it may lag and can even be negative.)",
  "all schedules","Interleavings.",
  ["collections/lockfreeskiplist/lockfree_skiplist.go:LockFreeSkipList.Len"])
p("C56","Lock-free skip list random level is between 1 and 20 and Get returns the ceiling element",
  "randomLevel returns 1..20 for every coin sequence; in a quiescent list Get(v) returns the least element >= v or the zero value; (it does not tell whether v is present, and Rank counts hops rather than elements).",
  "all coin sequences, sets and values","All inputs.",
  ["collections/lockfreeskiplist/lockfree_skiplist.go:randomLevel","collections/lockfreeskiplist/lockfree_skiplist.go:LockFreeSkipList.Get","collections/lockfreeskiplist/lockfree_skiplist.go:LockFreeSkipList.Rank"])
# ---------------------------------------------------------------- rbtree
p("C57","Red-black tree is a map: Get after Put finds the value",
  "After any history of Put/Delete, Get(k)/Has(k) return the last value put for k since its last deletion. (False: the comparison result is shadowed in put, every new node becomes the right child; it holds for histories whose new keys exceed all stored keys.)",
  "all histories of Put, Delete, Get, Has","All histories.",
  ["collections/rbtree/redblacktree.go:Tree.put","collections/rbtree/redblacktree.go:search","collections/rbtree/redblacktree.go:remove"])
p("C58","Red-black tree stays balanced",
  "After every history of Put, PutNode, Delete, DeleteKeys, DeleteByWholeMapping and Clear, whatever the comparator: the pointers form a binary tree with black root, no red node with a red child and equal black heights, so height <= 2*log2(n+1).",
  "all histories, all comparators","All histories.",
  ["collections/rbtree/redblacktree.go:putRebalanced","collections/rbtree/redblacktree.go:deleteRebalanced"])
p("C59","Rotations preserve the in-order sequence",
  "leftRotate/rightRotate applied to any node with the needed child of any well-formed pointer tree give a well-formed pointer tree with the same in-order sequence.",
  "all pointer trees and positions","All shapes.",
  ["collections/rbtree/redblacktree.go:leftRotate","collections/rbtree/redblacktree.go:rightRotate"])
p("C60","Red-black tree iteration enumerates the entries in key order",
  "Iter enumerates exactly the stored entries in key order and terminates. (False: on an empty new tree the first pull never returns; after deleting the least key the iterator still delivers it. It holds for non-empty trees after ascending histories that do not delete the least key while others remain.)",
  "all histories","All histories.",
  ["collections/rbtree/redblacktree.go:Tree.Iter","collections/rbtree/redblackbtree_node.go:Node.Next","collections/rbtree/redblacktree.go:remove"])
p("C61","Red-black tree Size counts entries",
  "Size equals the number of stored entries. (False for PutNode, which does not count; true for ascending Put/Delete histories.)",
  "all histories","All histories.",
  ["collections/rbtree/redblacktree.go:Tree.Put","collections/rbtree/redblacktree.go:Tree.PutNode","collections/rbtree/redblacktree.go:Tree.Delete"])
p("C62","Node buffer never hands out a node that is in use",
  "In every history of Alloc and Free (freeing only allocated nodes), Alloc returns a node that is not currently in use.",
  "all alloc/free histories","All histories.",
  ["collections/rbtree/node_buffer.go:nodeBuffer.Alloc","collections/rbtree/node_buffer.go:nodeBuffer.Free","collections/rbtree/node_buffer.go:nodeBuffer.Fill"])
# ---------------------------------------------------------------- bplustree
p("C63","B+ tree insertion keeps entries sorted and complete",
  "After any sequence of InsertEqual/InsertUnique calls that insert pairwise different keys, degree >= 2, the leaves contain exactly the inserted entries in key order, all leaves have the same depth, node sizes are within bounds and Size is the number of entries.",
  "all degrees >= 2, all insertion sequences","All sequences.",
  ["collections/bplustree/bplustree.go:Tree.insert","collections/bplustree/bplustree.go:Tree.insertNonFull","collections/bplustree/bplustree.go:Tree.splitChild"])
p("C64","B+ tree Get finds every stored key and nothing else",
  "ContainsKey/Get/GetVerify find a key iff it is stored. (Soundness holds; completeness is false for keys that occur as a separator in the middle of a wide inner node.)",
  "all trees built by insertions, all keys","All shapes.",
  ["collections/bplustree/bplustree.go:Tree.search","collections/bplustree/bplustree.go:Tree.Get"])
p("C65","B+ tree Delete removes exactly the given key",
  "Delete(k) removes k's entry, keeps every other entry and returns whether k was present. (False: borrowing from the left sibling overwrites the right sibling's first entry.)",
  "all trees and keys","All shapes.",
  ["collections/bplustree/bplustree.go:Tree.Delete","collections/bplustree/bplustree.go:Tree.shiftToRightChild","collections/bplustree/bplustree.go:Tree.mergeChild"])
p("C66","B+ tree Clear leaves an empty usable map",
  "After Clear, Size is 0, nothing is found, and later insertions are stored. (False: insertions after Clear report success and store nothing.)",
  "all trees","All states.",
  ["collections/bplustree/bplustree.go:Tree.Clear","collections/bplustree/bplustree.go:Tree.insert"])
p("C67","B+ tree DeleteByWholeMapping deletes iff key and value match",
  "DeleteByWholeMapping(k,v,cmp) deletes k iff its stored value equals v under cmp. (False: it tests stored value < v.)",
  "all trees, keys, values","All states.",
  ["collections/bplustree/bplustree.go:Tree.DeleteByWholeMapping"])
# ---------------------------------------------------------------- hasher
p("C68","Hash has no collisions on fixed-width integer keys",
  "Hash is injective on 8-, 16-, 32- and 64-bit keys: two keys of the same predeclared integer, float, pointer or complex64 type with the same hash have the same bits.",
  "all pairs of keys","2^128 pairs.",
  ["util/hasher/hash.go:byteHasher","util/hasher/hash.go:dwordHasher","util/hasher/hash.go:qwordHasher"])
p("C69","Fixed-width hashers agree with the string hasher on the key's little-endian bytes",
  "byte/word/dword/qword/complex128 hashers of a key equal the string hasher applied to its little-endian byte string.",
  "all keys","2^64 keys and more.",
  ["util/hasher/hash.go:stringHasher","util/hasher/hash.go:wordHasher","util/hasher/hash.go:complex128Hasher"])
p("C70","Hash is defined for every type admitted by its constraint",
  "GetHashFunc returns a function for every type satisfying Hashable. (False for defined types such as `type ID int`: it returns nil and Hash panics; true for every predeclared type.)",
  "all admitted types","All types.",
  ["util/hasher/hash.go:GetHashFunc","util/hasher/hash.go:Hash"])
# ---------------------------------------------------------------- sortedset
p("C71","SortedSet built by New is usable",
  "New returns a set on which Set and Get work. (False: New returns nil and every call panics.)",
  "all calls","All calls.",
  ["collections/sortedset/sorted_set.go:New"])
p("C72","Skip list range queries",
  "IsInAllRange/IsInPartOfRange compare the range with the first and last entry; FirstInRange/LastInRange never reach their explicit panic, and on a sorted list return the first/last entry with min<=key<=max, or nil if there is none. (FirstInRange holds when IsInAllRange holds and is nil otherwise; LastInRange returns the first entry with key>=max: false.)",
  "all reachable lists, bounds and comparators","All lists, level choices and bounds.",
  ["collections/skiplist/skiplist.go:FirstInRange","collections/skiplist/skiplist.go:LastInRange","collections/skiplist/skiplist.go:IsInAllRange","collections/skiplist/skiplist.go:IsInPartOfRange"])
p("C73","Skip list SplitableIter partitions the entries",
  "For parallelism p<=0 there is one segment with all entries; for 1<=p<=Size the segments are finitely many, non-empty and concatenate to the entries in order. (For p>Size>0 it hands out empty segments forever.)",
  "all reachable lists and all parallelism values","All lists and all p.",
  ["collections/skiplist/skiplist.go:SplitableIter","collections/skiplist/skiplist.go:iterStep"])

p("C74","Equal keys hash equally",
  "Two keys of the same type that compare equal with == have the same hash. (True for integer, pointer and string types; false for floats: 0.0 == -0.0 but Hash reads the bit pattern and separates them.)",
  "all pairs of keys of every type","All pairs of keys.",
  ["util/hasher/hash.go:float64Hasher","util/hasher/hash.go:Hash"])
p("C75","A one-byte change behind the last 32-byte stripe always changes the hash",
  "Two strings of the same length that differ in exactly one byte, which lies behind the last complete 32-byte stripe (anywhere, if there are fewer than 32 bytes), have different hashes.",
  "all strings, all positions behind the last complete 32-byte stripe, all byte values","2^248 strings.",
  ["util/hasher/hash.go:stringHasher"])
p("C76","Red-black tree calls return",
  "No Put, PutNode, Delete, DeleteKeys, DeleteByWholeMapping, Clear, Get or Has panics or runs forever. (False: Put -1, Put -2, Put 1, Delete 1, Delete -2, Delete -1 panics; with PutNode, Put b, Delete b, Put a, PutNode of b's node, Delete a, Delete b panics whenever a < b are below the zero value of the key type. No history runs forever; no history panics if no key is below the zero value.)",
  "all histories, all comparators","All histories.",
  ["collections/rbtree/redblacktree.go:remove","collections/rbtree/redblacktree.go:putRebalanced","collections/rbtree/redblacktree.go:deleteRebalanced"])
p("C77","Red-black tree Delete returns the node of the deleted entry",
  "Delete(k) returns the node that holds the entry of k. (False: for a node with two children it returns a node that holds the next greater entry, which is still stored.)",
  "all histories","All shapes of the tree.",
  ["collections/rbtree/redblacktree.go:Tree.Delete","collections/rbtree/redblacktree.go:remove"])
p("C78","B+ tree stays well formed in every history",
  "On a map of degree >= 2, whatever calls are made and whatever comparator is used, no call loops; as long as calls return (the only possible panic is an index out of range in a deletion) all leaves stay at one depth, every node but the root keeps degree-1 to 2*degree-1 values, the leaves stay a doubly linked ring from LeftMost to RightMost, and Size is the number of entries in the leaves.",
  "all degrees >= 2, all comparators, all histories of all operations","Unbounded histories, including those that corrupt the key order.",
  ["collections/bplustree/bplustree.go:Tree.splitChild","collections/bplustree/bplustree.go:Tree.mergeChild","collections/bplustree/bplustree.go:Tree.deleteNonOne","collections/bplustree/bplustree.go:Tree.delete"])
p("C79","B+ tree depth is logarithmic in the number of entries",
  "After every history, a tree of degree M and depth d >= 1 holds at least 2*M^(d-1)*(M-1) entries, and at most (2M)^d*(2M-1).",
  "all degrees >= 2, all comparators, all histories","A bound for all sizes.",
  ["collections/bplustree/bplustree.go:Tree.insert","collections/bplustree/bplustree.go:Tree.delete"])
p("C80","Lock-free skip list never panics and never blocks",
  "On every interleaving of any number of goroutines calling Add, Del, Has, Get, Rank and Len, no call dereferences nil or a tagged pointer or indexes out of range, and a goroutine inside a call always has a next step of its own.",
  "all schedules, all values, all random levels, any number of goroutines","Interleavings of CAS operations.",
  ["collections/lockfreeskiplist/lockfree_skiplist.go:LockFreeSkipList.find","collections/lockfreeskiplist/lockfree_skiplist.go:loadNext","collections/lockfreeskiplist/lockfree_skiplist.go:casNext"])
p("C81","Lock-free skip list is lock-free",
  "In every infinite run of finitely many goroutines, calls return again and again: no schedule makes all goroutines retry for ever. In particular a goroutine running alone finishes its call.",
  "all infinite schedules of finitely many goroutines","Liveness over infinite executions.",
  ["collections/lockfreeskiplist/lockfree_skiplist.go:LockFreeSkipList.find","collections/lockfreeskiplist/lockfree_skiplist.go:LockFreeSkipList.Add","collections/lockfreeskiplist/lockfree_skiplist.go:LockFreeSkipList.Del"])
p("C82","Lock-free skip list levels are finite sorted lists",
  "At every instant of every schedule, each of the 20 levels leads from the head to the tail through finitely many distinct nodes with non-decreasing values.",
  "all schedules, all levels","Interleavings.",
  ["collections/lockfreeskiplist/lockfree_skiplist.go:LockFreeSkipList.find","collections/lockfreeskiplist/lockfree_skiplist.go:LockFreeSkipList.Add"])
p("C83","Parallel(p) does not change the result of a terminal operation",
  "For a stream of a slice through Filter and Map, FoldWith (commutative monoid), Sum, Max, Min, AllMatch and AnyMatch return with Parallel(p) what they return sequentially, on every schedule. (False in general: p must divide len(s) > 0, and Reduce/Max/Min/AllMatch behind a Filter look only at the first segment for their start value, so Max of a parallel filtered stream can be 0; proved for FoldWith and Sum through Filter and Map and for Max, Min, AllMatch and AnyMatch through Map when p divides len(s) > 0.)",
  "all slices, filters, mappings, p, schedules","Schedules and all inputs.",
  ["stream/stream.go:Parallel","stream/fold.go:FoldWith","stream/sum.go:Sum","stream/max_min.go:Max","stream/all_any_match.go:AllMatch","stream/first.go:First"])
p("C84","Terminal operations on parallel streams return",
  "Every terminal operation on s.Stream(p) returns. (False: with len(s) < p the segmenter yields empty segments for ever, so FoldWith, TryFold and Collect never return and start goroutines without bound; with len(s) = 0 FoldWith deadlocks. True when p divides len(s) > 0, and for Collect when 1 <= p <= len(s).)",
  "all slices, p and schedules","Non-termination cannot be tested.",
  ["collections/slice/slice.go:Slice.SplitableIter","stream/fold.go:FoldWith","stream/tryfold.go:TryFold","stream/collect.go:Collect","stream/stream.go:doParallel"])
p("C85","Hash is XXH64",
  "For every predeclared type and every key of it, Hash returns the XXH64 digest (seed 0) of the bytes of the key in memory (little-endian layout), strings of any length included; so hashes agree with other implementations of XXH64.",
  "all keys of all predeclared types, strings of any length, both int sizes","Infinitely many strings; a wrong lane or constant shows only on long ones.",
  ["util/hasher/hash.go:Hash","util/hasher/hash.go:GetHashFunc","util/hasher/hash.go:stringHasher"])
p("C86","rbtree SplitableIter partitions the map",
  "rbtree.Map.SplitableIter(p) hands out finitely many segment iterators, each delivering at least one entry, whose concatenation is the map in key order; with p<=0 there is one segment with everything; the parent iterator then keeps reporting the end.",
  "all histories of the map, all p","Depends on every tree shape and every relation between p and Size.",
  ["collections/rbtree/redblacktree.go:SplitableIter"])
p("C87","rbtree LeftMost and RightMost are the ends of the map",
  "On a non-empty rbtree.Map LeftMost returns the node of the entry with the least key and RightMost the node of the entry with the greatest key.",
  "all histories of the map","The end pointers are cached and must be right after every Put and Delete.",
  ["collections/rbtree/redblacktree.go:LeftMost","collections/rbtree/redblacktree.go:RightMost","collections/rbtree/redblacktree.go:remove"])
p("C88","rbtree lookups return only what was put",
  "Whatever calls were made before (Puts in any key order, all deletions, PutNode of removed nodes, Clear), if Get(k) returns a value v then some Put(k',v) with k' equal to k was made, and if Has(k) is true then some key equal to k was put.",
  "all histories, all keys, all three-way comparators","Removal moves entries between nodes and nodes are recycled; a stale or crossed entry shows only in particular histories.",
  ["collections/rbtree/redblacktree.go:Get","collections/rbtree/redblacktree.go:Has","collections/rbtree/redblacktree.go:remove","collections/rbtree/node_buffer.go:Alloc"])
p("C89","FromChan delivers what is sent, in order",
  "Calls of the iterator made by FromChan, by any number of goroutines, return the values accepted by the channel in send order, each exactly once; a call reports the end only after the channel is closed and every accepted value was returned, and then every later call does; a call blocks only while the channel is open and holds no value.",
  "all channel capacities, all schedules of senders, closer and callers","Depends on the interleaving of sends, receives and close.",
  ["iterator/iterator.go:FromChan"])
p("C90","Streams over trees, skip lists and linked lists deliver their elements",
  "rbtree's Stream(p), and stream.New over the SplitableIter of a skip list or linked list, behave as a stream over the list of elements in container order: behind any Filter and Map, Collect calls the consumer exactly on the elements that pass (in order for p=0, once each on every schedule otherwise) and returns, and FoldWith of a commutative monoid gives the sequential fold; Zip pairs them like list elements. (False: with p above the number of elements Collect never returns; FoldWith needs p dividing it; Zip with a shorter linked list delivers a zero pair and then the list again from the front.)",
  "all histories of the container, all filters, mappings, consumers, p and schedules","Depends on every container shape, p and schedule.",
  ["collections/rbtree/redblacktree.go:Stream","collections/skiplist/skiplist.go:SplitableIter","collections/linkedlist/linkedlist.go:SplitableIter","stream/stream.go:New"])
p("C91","Parallel pipelines deliver the elements of the sequential pipeline",
  "A pipeline of Map, Filter, SkipWhile, FlatMap and Zip over streams of parallelism p delivers to Collect, on every schedule, exactly the elements (with multiplicity) of the same pipeline run sequentially, and Collect returns; FoldWith of a commutative monoid gives the sequential fold. (False for Zip of streams of different lengths, which are paired segment by segment; FoldWith needs every source to split into exactly p segments.)",
  "all pipelines, sources, callbacks, p and schedules","Schedules, inputs and pipeline shapes are unbounded.",
  ["stream/zip.go:Zip","stream/flat_map.go:FlatMap","stream/map.go:Map","stream/filter.go:Filter","stream/collect.go:Collect","stream/fold.go:FoldWith"])
p("C92","A linked list may be edited while it is iterated",
  "While one goroutine pulls l.Iter() and calls any list operations in between: as long as the element delivered last stays in the list, each pull delivers the element that follows it in the list as it then is, and the end when there is none; with edits other than moves within the list, an iteration up to the end delivers every element that is in the list all the time, in list order, and none twice. (False when the element just delivered is removed: the next pull panics.)",
  "all lists, all interleavings of pulls and operations","All interleavings of edits and pulls.",
  ["collections/linkedlist/linkedlist.go:Iter","collections/linkedlist/linkedlist.go:Remove","collections/linkedlist/linkedlist.go:InsertAfter"])
p("C93","Chain concatenates its streams whatever their parallelism",
  "Collect over Chain(s1,...,sn) of streams of any parallelism delivers all elements of s1 in order, then all of s2, and so on, each element exactly once; FoldWith folds them; Parallel(Chain(...),q) delivers each element exactly once on every schedule. (False of the order: the streams are interleaved segment by segment when a stream has two or more segments; and FoldWith over Parallel(Chain(...),q) never returns when no stream has q segments.)",
  "all numbers of streams, all pipelines and parallelisms behind them, all schedules","Depends on how every stream splits and on the schedule.",
  ["stream/chain.go:Chain","stream/collect.go:Collect","stream/stream.go:Parallel"])
p("C94","rbtree nodes can be walked in both directions",
  "Whatever calls were made before, the nodes reachable from the root with GetLeft and GetRight form one sequence without repetitions in which Next and Prev go to the neighbours and return nil at the ends (so Prev undoes Next and Next undoes Prev); a child's GetParent is the node itself and only the root has none; the left descendants of a node lie directly before it and the right ones directly behind it, and MinChildNode and MaxChildNode return the ends of that block.",
  "all histories (Puts in any order, deletions, PutNode, Clear), all comparators, all nodes","The links are rebuilt by every rotation and removal; one stale parent link breaks Next or Prev only for particular shapes.",
  ["collections/rbtree/redblackbtree_node.go:Next","collections/rbtree/redblackbtree_node.go:Prev","collections/rbtree/redblackbtree_node.go:MinChildNode","collections/rbtree/redblackbtree_node.go:MaxChildNode","collections/rbtree/redblackbtree_node.go:GetParent"])
p("C95","rbtree String prints the map",
  "String returns, for every map, the entries in key order as key:value, separated by single blanks and enclosed in brackets. (False: on a new or cleared map it never returns, and a deleted first node is still printed.)",
  "all histories, all key and value types and their formats","Depends on the cached first node, which every history changes.",
  ["collections/rbtree/redblacktree.go:String"])
p("C96","rbtree SetValue changes exactly one entry",
  "SetValue on a node of the map (or assigning the value through the pointer an iterator delivered) leaves the sequence of nodes as it is and changes exactly the value of that entry: lookups that reach the node answer the new value, all others what they answered before, and the map is the one Put with that key would leave; writing key or value of a node returned by Delete changes no lookup and no entry of the map.",
  "all histories, comparators, nodes and values","Nodes and entries are moved by deletions and recycled; all histories are needed to see an entry shared by two owners.",
  ["collections/rbtree/redblackbtree_node.go:SetValue","collections/rbtree/redblackbtree_node.go:SetKey","collections/rbtree/redblacktree.go:Iter","collections/rbtree/redblacktree.go:Put"])
p("C97","rbtree may be changed while it is iterated",
  "Deleting the entry an iterator delivered last, or any entry it has not reached yet, does not disturb it: it goes on with the remaining entries, each once, without the deleted one; a Put of a key behind the iterator's position is seen by it. (False: when the deleted entry's node has two children and its right child is a leaf, the next entry is delivered twice.)",
  "all histories, all positions of the iterator, all deleted and added keys","Depends on the shape of the tree at the moment of the change.",
  ["collections/rbtree/redblacktree.go:Iter","collections/rbtree/redblacktree.go:Delete","collections/rbtree/redblacktree.go:remove","collections/rbtree/redblackbtree_node.go:Next"])
p("C98","skiplist String prints the list",
  "String returns for every list, also an empty or cleared one, and prints the entries in the order of Iter as key:value, separated by single blanks and enclosed in brackets.",
  "all histories, random draws, comparators and formats","The text depends on the links every operation rewrites.",
  ["collections/skiplist/skiplist.go:String","collections/skiplist/skiplist_node.go:Next","collections/skiplist/skiplist_node.go:IsValid"])
p("C99","skiplist may be inserted into while it is iterated",
  "If entries are inserted (and Delete, DeleteKeys and DeleteByWholeMapping are called) between the calls of an iterator, in any order, nothing panics, every entry the list had when the iterator was made is delivered, in order, the delivered entries form part of the final list in its order so that none is delivered twice, and an iterator that has reported its end reports it forever.",
  "all histories, all interleavings of insertions and iterator calls, all random draws, all comparators with symmetric equality","Needs all interleavings and all node heights.",
  ["collections/skiplist/skiplist.go:iter","collections/skiplist/skiplist.go:insert"])
p("C100","skiplist range deletion during an iteration",
  "After DeleteRangeByKey an iterator made before goes on with the entries that remain and delivers none of the removed ones. (False: an iterator standing in front of a removed entry delivers it and the rest of the removed block.)",
  "all histories, all positions of the iterator, all ranges, all comparators","The removed nodes keep their links, which only later calls of an old iterator read.",
  ["collections/skiplist/skiplist.go:iter","collections/skiplist/skiplist.go:DeleteRangeByKey","collections/skiplist/skiplist.go:deleteNode"])
p("C101","rbtree Put of a new key keeps all other entries",
  "Put of a key that lookup does not find adds exactly one entry to the map, keeps every other entry in its order, and answers true; Put of a key that is found changes exactly that entry's value and answers false. (False: the new node replaces the right child of the node where the search ended, so one entry can be lost; of one key followed by any number of smaller ones only the first is ever found again.)",
  "all histories, all comparators, all keys","Which entry is lost depends on the shape of the tree, that is on the whole history.",
  ["collections/rbtree/redblacktree.go:put","collections/rbtree/redblacktree.go:Put","collections/rbtree/redblacktree.go:search"])
p("C102","B+ tree: bound on what one call can lose",
  "Whatever the history and the comparator, an insertion that answers true adds exactly its entry and neither loses nor reorders another; a call that answers false changes no entry; a deletion that answers true overwrites at most one entry with a copy of its left neighbour and then removes at most one entry, whose key is equal to or smaller than the given key. So n successful deletions lose at most 2n entries, and nothing is ever held that was not inserted.",
  "all histories without Clear, all comparators, all degrees >= 2","Which entry is overwritten depends on the shape of the whole tree.",
  ["collections/bplustree/bplustree.go:Tree.Delete","collections/bplustree/bplustree.go:Tree.deleteNonOne","collections/bplustree/bplustree.go:Tree.shiftToRightChild","collections/bplustree/bplustree.go:Tree.insert"])
p("C103","B+ tree: keys ascend along the leaves after every history",
  "After any history of insertions and deletions the leaves, from left to right, hold the keys in ascending order. (False: borrowing between inner nodes writes a wrong separator, and a later insertion goes to the wrong leaf. No deletion by itself breaks the order, and maps that get fewer than 2M(M-1) insertions keep it.)",
  "all histories without Clear, all lawful comparators, all degrees >= 2","All histories.",
  ["collections/bplustree/bplustree.go:Tree.shiftToRightChild","collections/bplustree/bplustree.go:Tree.insertNonFull"])
p("C104","rbtree: exact effect of every call on the entries and on Size",
  "Whatever the history and the comparator: a deletion of a key that Get finds removes exactly the entry whose value Get returns, keeps all others in their order and lowers Size by one (or panics, C76); a deletion of a key that Get does not find changes nothing; DeleteByWholeMapping deletes only if the value fits too; DeleteKeys is the sequence of its deletions and returns how many deleted; Put overwrites one value or adds one entry, never in first place, at the cost of at most one other; PutNode acts like Put of the node's entry but does not count. So without PutNode, Size is at least the number of entries and at most that plus the number of Puts, and the first entry stays first under any number of Puts.",
  "all histories of all operations, all comparators, all keys and values","Depends on the shape the whole history gave the tree.",
  ["collections/rbtree/redblacktree.go:Delete", "collections/rbtree/redblacktree.go:DeleteKeys", "collections/rbtree/redblacktree.go:DeleteByWholeMapping", "collections/rbtree/redblacktree.go:removeNode", "collections/rbtree/redblacktree.go:remove", "collections/rbtree/redblacktree.go:PutNode"])
p("C105","B+ tree: exactly which keys are found after insertions",
  "After any history of InsertEqual and InsertUnique on a new map of degree M >= 2 that left pairwise different keys, ContainsKey/GetEntry/GetVerify/Get find a key if and only if it is stored and it is not the i-th separator of an inner node at which binary search arrives with a lower bound other than i; hence every stored key is found if and only if no inner node has more than two separators. A history of InsertUnique calls alone answers exactly like a sorted set as long as the map has at most 4(M-1) entries, and below that size every stored key is found.",
  "all histories of insertions, all degrees M >= 2, all lawful comparators, all keys","which keys are lost to Get depends on the shape the tree got through its whole history",
  ["collections/bplustree/bplustree.go:Tree.search", "collections/bplustree/bplustree.go:Tree.insert", "collections/bplustree/bplustree.go:Tree.insertNonFull", "collections/bplustree/bplustree.go:Tree.splitChild", "collections/bplustree/bplustree.go:Tree.InsertUnique", "collections/bplustree/bplustree.go:Tree.ContainsKey"])
p("C106","Red-black map: LeftMost, RightMost and what Iter, String and SplitableIter show, for keys put in any order",
  "Put a first key k0 into a new map, then put any keys in any order and delete (Delete, DeleteKeys, DeleteByWholeMapping) any keys other than k0 that are not below the zero value of the key type or are above k0: no call panics, k0 stays the first key, LeftMost is its node, and Iter, String and SplitableIter (p<=0; 1<=p<=Size if Size counts the entries) show exactly the nodes of the tree in the order of Next. In general LeftMost stays the first node after a deletion if and only if: the deleted entry was first and was the only one or its key is below the zero value; or it was not first and its key is not below the zero value or is above the first key. After every call of every history the position of LeftMost and RightMost is determined: an overwriting Put moves neither; the first entry becomes both; a new node behind the rightmost becomes RightMost, LeftMost never moves by Put; a deletion of a key not below the zero value sets RightMost to the node before it; otherwise it leaves RightMost and sets LeftMost to the node behind it if LeftMost's key is not below it; both are nil when Size becomes 0.",
  "all histories, all comparators (three-way for the k0 statement), all key and value types and zero values","which entries an iteration shows depends on a cached pointer that every Put and Delete of the whole history may move",
  ["collections/rbtree/redblacktree.go:Tree.LeftMost", "collections/rbtree/redblacktree.go:Tree.RightMost", "collections/rbtree/redblacktree.go:Tree.Iter", "collections/rbtree/redblacktree.go:Tree.String", "collections/rbtree/redblacktree.go:Tree.SplitableIter", "collections/rbtree/redblacktree.go:remove"])
p("C107","Lock-free skip list: what Rank returns",
  "If no other goroutine moves between the call and the return of Rank(v), and no Add or Del is in progress at the call, then: with 0 or 1 elements the result is the number of elements, whatever v is; with at least 2 elements the result lies between 1 and 1 plus the number of elements below v, it is 1 exactly if no element is below v, and it is 1 plus that number if every element's node has height 1. (With calls in progress but paused the same holds with the counter read by Len in place of the number of elements.) Left alone is needed: beside a concurrent Has, Rank(4) on {1,2} can return 5, because a retry keeps the count.",
  "all runs of any number of goroutines, all lists, heights and arguments, all lawful comparators","the count depends on the random heights and on removed nodes still linked, which every earlier call of every goroutine may have left",
  ["collections/lockfreeskiplist/lockfree_skiplist.go:Rank", "collections/lockfreeskiplist/lockfree_skiplist.go:getRank"])
p("C108","Parallel AllMatch and AnyMatch for every parallelism",
  "For every parallelism 1 ≤ p ≤ len(s), dividing len(s) or not, AllMatch and AnyMatch over s.Stream(p) return on every schedule. AllMatch's false and AnyMatch's true are always right, and if they are the right answer some schedule gives them. AllMatch's true says only that at least p of the segments satisfy the predicate throughout; every such case can answer true if the first element satisfies it: if the first p·⌊len(s)/p⌋ elements satisfy the predicate and a later one does not, both answers occur (and dually for AnyMatch). All goroutines of the call return, on every schedule, unless some element fails the predicate while more than p segments satisfy it throughout; in that case some schedule leaves a goroutine blocked for ever.",
  "all slices, predicates, parallelisms 1 ≤ p ≤ len(s), all schedules of the caller and its goroutines","which results are received before the caller stops waiting, and which goroutines find the channel full, depend on the schedule",
  ["stream/tryfold.go:TryFold", "stream/all_any_match.go:AllMatch", "stream/all_any_match.go:AnyMatch", "stream/stream.go:doParallel"])
p("C109","Delay queue with several consumers",
  "With any number of goroutines calling Pop (and none calling PopWithCtx), a Push never waits for ever: whenever it has to hand over a wake-up some consumer can receive it, and a Push that finds its element at the head and the sleeping flag set wakes a waiting consumer. But a waiting consumer need not be woken, even without any race: after two consumers have gone to sleep in Pop and one of them has received an element, the other one is woken by no number of later Pushes and by no timer, until another goroutine calls Pop or PopWithCtx; and when two consumers wait for the same element to become due, one gets it and the other one ends in the same state.",
  "all schedules of any number of goroutines calling Push, Pop and Poll, all clocks, all elements","which consumer consumes the flag and in which order timers fire depend on the schedule; that nothing ever wakes the other consumer is a statement about all continuations",
  ["collections/delayqueue/delay_queue.go:Push", "collections/delayqueue/delay_queue.go:Pop"])
p("C110","What every sequential pipeline does, ask by ask",
  "For every pipeline built from any sources by Map, Filter, Inspect, Zip, Chain, FlatMap, Take, Skip, SkipWhile and Enumerate without parallelism - any nesting, any lengths, whatever asks whatever again after its end - FoldWith, Fold, Sum, ReduceWith, Collect, First, Reduce, MaxBy and MinBy return exactly, with exactly the effects of the Inspect callbacks in exactly the order, what the composition of the operators' rounds gives: elements, then an end, and what is delivered when an ended stream is asked again (a slice, tree or skip list: the end again; a linked list: its elements again; a Chain: its last part again, whose next end panics; a Zip: its right side goes on). A terminal operation never runs for ever: it returns or panics with an index out of range. Over sources that deliver nothing after their end it either delivers exactly the elements given by the list functions (Zip filling up with zero pairs) or panics, and hands out a beginning of them before it panics. Chain() of nothing has no segment, and TryFold, AllMatch and AnyMatch over it answer false.",
  "all pipelines (any nesting of the ten operators, all callbacks, all n), all sources described by what they answer, all environments","the pipelines are infinitely many; the corner cases arise only from particular combinations of operators and lengths",
  ["stream/zip.go:Zip", "stream/chain.go:Chain", "stream/flat_map.go:FlatMap", "stream/take.go:Take", "stream/skip.go:Skip", "stream/filter.go:Filter", "stream/inspect.go:Inspect", "stream/enumerate.go:Enumerate", "stream/fold.go:FoldWith", "stream/collect.go:Collect", "stream/first.go:First", "stream/reduce.go:Reduce"])
p("C111","Skip list: which stored keys a lookup finds",
  "After any sequence of Put calls (any comparator, any keys, any random levels) the list is a definite row of nodes, and Has, Get and Rank answer exactly what the level-by-level ride over that row finds. For distinct keys under a three-way comparator: a stored key (not comparing equal to the zero key) is found whatever random levels were drawn if and only if every key put before it is greater and every key put after it is smaller; all keys are always found if and only if they were put in strictly decreasing order; and for every stored key there are random levels for which it is found, with its value and its position. The zero key, when no stored key is below it, is always reported as present, and Get returns its stored value only if its node is the first of the highest ones, otherwise the zero value with Rank 0. The level drawn for a node is 32 - floor(log2(r mod (2^32-1) + 1)) for the random number r, and every level from 1 to 32 can occur.",
  "all comparators, all sequences of Put calls of any length, all sequences of random numbers","The answer depends on the random levels; a test sees one sequence of draws, the claim is about all of them.",
  ["collections/skiplist/skiplist.go:List.search", "collections/skiplist/skiplist.go:List.Has", "collections/skiplist/skiplist.go:List.Get", "collections/skiplist/skiplist.go:List.Rank", "collections/skiplist/skiplist.go:List.insert", "collections/skiplist/skiplist.go:List.randomLevel"])
p("C112","Skip list: every history and every result, exactly",
  "For every history of Put, InsertUnique, InsertEquals, Delete, DeleteKeys, DeleteByWholeMapping, DeleteRangeByKey, Clear and node SetValue calls on a new list, with any comparator and any random numbers, no call panics or loops forever, and every returned value and the final contents (and through C111 every later Has, Get and Rank) are those of a short functional program on a row of (key, value, height) towers: insertions go behind the towers reached by riding over equal keys level by level, Delete removes the tower after that place only if the comparator calls it equal from the other side, DeleteRangeByKey removes the run of towers below max after the place reached by riding over keys below min, the number of levels in use is always that of the highest tower.",
  "all comparators, all finite histories of the listed operations, all random numbers","Histories, comparators and random draws are unbounded; the result of a call depends on the heights drawn by all earlier ones.",
  ["collections/skiplist/skiplist.go:List.insert", "collections/skiplist/skiplist.go:List.Delete", "collections/skiplist/skiplist.go:List.DeleteRangeByKey", "collections/skiplist/skiplist.go:List.deleteNode", "collections/skiplist/skiplist.go:List.DeleteByWholeMapping"])
p("C113","Red-black tree: what one Put can break in a correct map",
  "After any history that leaves the tree with strictly ascending keys, a Put of an absent key returns true, and either (the search for the key leaves the tree to the right, e.g. always for a new greatest key) the key takes its place and every later Get answers as the map with the new entry; or (it leaves to the left, at the successor a) the new entry is enumerated directly behind a, at most the one entry that was behind a is lost, and every later Get answers as the map of all other entries and exactly one of a and the new entry, the other one is never found although it is enumerated. In particular every entry other than the two directly above the new key is still found with its value.",
  "all three-way comparators, all histories (all operations) that end with ascending keys, all keys and values, all looked-up keys","Trees and histories are unbounded, and which of the two entries is hidden depends on the rotations.",
  ["collections/rbtree/redblacktree.go:Tree.Put", "collections/rbtree/redblacktree.go:Tree.put", "collections/rbtree/redblacktree.go:Tree.putRebalanced", "collections/rbtree/redblacktree.go:Tree.search"])
p("C114","Red-black tree: every answer of every history, exactly",
  "To its user the tree is exactly a small pure value, a coloured binary tree of entries: for every comparator and every history of Put, Get, Has, Size, IsEmpty, Delete, DeleteKeys, DeleteByWholeMapping, Clear and PutNode of records that Delete returned, every answer is the one that value gives - a put entry always becomes the right child of the last record the search passed and replaces whatever hung there, the textbook red-black repairs follow, deleting a record with two children hands over the record of the next key, PutNode does not count - unless some call dereferences nil, which does not happen when no key compares below the key type's zero value. Afterwards the records reachable from the root are, in order, those of the value, and the records held by the user carry the entries it says.",
  "all comparators (lawful or not), all zero entries, all finite histories of calls with all keys and values","The answers depend on the shape and colours of the whole tree after an unbounded history; a test compares finitely many histories.",
  ["collections/rbtree/redblacktree.go:Tree.Put", "collections/rbtree/redblacktree.go:Tree.PutNode", "collections/rbtree/redblacktree.go:Tree.Get", "collections/rbtree/redblacktree.go:Tree.Has", "collections/rbtree/redblacktree.go:Tree.Size", "collections/rbtree/redblacktree.go:Tree.IsEmpty", "collections/rbtree/redblacktree.go:Tree.Delete", "collections/rbtree/redblacktree.go:Tree.DeleteKeys", "collections/rbtree/redblacktree.go:Tree.DeleteByWholeMapping", "collections/rbtree/redblacktree.go:Tree.Clear", "collections/rbtree/redblacktree.go:Tree.put", "collections/rbtree/redblacktree.go:Tree.putRebalanced", "collections/rbtree/redblacktree.go:Tree.remove", "collections/rbtree/redblacktree.go:Tree.deleteRebalanced", "collections/rbtree/redblacktree.go:Tree.search", "collections/rbtree/node_buffer.go:nodeBuffer.Alloc", "collections/rbtree/node_buffer.go:nodeBuffer.Free"])
p("C115","B+ tree: every answer of every history, exactly",
  "A B+ tree of degree M >= 2 is, to its user, exactly the small pure program described in BPlus/FSpec.lean (trees without addresses, links or counters): for every comparator and every history of InsertEqual, InsertUnique, Delete, DeleteEntryByKey, DeleteByWholeMapping, DeleteAll and Clear, the history panics exactly if that program looks outside a leaf's array, and otherwise every answer, the size, IsEmpty, what Get, GetVerify, GetEntry and ContainsKey find for every key, and the entries in the leaves from left to right are the ones it computes. In particular no history hangs.",
  "all comparators (lawful or not), all degrees M >= 2, all finite histories of calls, all keys and values","Which entry a borrow destroys, which stale slot a deletion looks at and when it looks outside its array depend on the shape of the whole tree after an unbounded history; a test compares finitely many histories.",
  ["collections/bplustree/bplustree.go: NewMap, InsertEqual, InsertUnique, Delete, DeleteEntryByKey, DeleteByWholeMapping, DeleteAll, Clear, Get, GetVerify, GetEntry, ContainsKey, insert, insertNonFull, splitChild, search, delete, deleteNonOne, mergeChild, shiftToLeftChild, shiftToRightChild"])
p("C116","B+ tree: no call panics",
  "On a B+ tree of degree M >= 2 with a lawful comparator no history of calls panics. (False: after 28 ordinary insertions and deletions of integers in a tree of degree 3, Delete of a key that ContainsKey finds looks behind the array of a full leaf and panics. It holds for every history with fewer than 2M(M-1) insertions, and for a deletion of any key after any insertions and any deletions of missing or least keys.)",
  "all lawful comparators, all degrees M >= 2, all finite histories of calls, all keys and values","The panic needs a borrow at an inner level, a later split and a separator equal to the deleted key: no small test meets it, and its absence is a statement about all histories.",
  ["collections/bplustree/bplustree.go: Delete, search, delete, deleteNonOne, shiftToRightChild"])
p("C117","Red-black tree: when a call panics",
  "After any history and with any comparator, Delete panics if and only if it finds an entry whose key is below the zero value of the key type while LeftMost is nil; DeleteByWholeMapping likewise if in addition the value is equal; Put, Clear and PutNode of a deleted node never panic. A history without PutNode that asks at most once for the deletion of a key below the zero value panics nowhere, whatever else it does. Two such requests are enough: Put -1, Put -2, Put 1, Delete 1, Delete -2, Delete -1 panics at the last call, although -1 is then the one entry of the tree.",
  "all comparators (three-way for the second part), all zero entries, all finite histories of calls with all keys and values","Whether LeftMost is nil depends on the whole history; a test sees finitely many.",
  ["collections/rbtree/redblacktree.go: Delete, DeleteKeys, DeleteByWholeMapping, remove, removeNode, LeftMost"])
p("C118","B+ tree: the pointer GetEntry returns",
  "The pointer that GetEntry(k) returns is the entry in the tree: writing a value through it right away is seen by every read of k, leaves what every key shows that does not compare equal to the entry, and leaves Size; every history of calls and such modifications (of the value, or even of the key) is the specified one, with any comparator. A pointer that is kept is still the pointer of k after other calls.",
  "all degrees at least 2, all comparators, all histories of calls and of modifications through GetEntry, all keys and functions applied to the entry","Whether a pointer into a leaf's array still points at its entry depends on how later calls shift and split that leaf; a test sees finitely many histories.",
  ["collections/bplustree/bplustree.go: GetEntry, search, insertNonFull, splitChild"])
p("C119","Red-black tree: nodes in the user's hands",
  "The user may rewrite keys and values of nodes in the course of a history, of nodes in the tree (SetKey, SetValue on what LeftMost, Next, GetLeft ... return, or the entries iterators deliver) and of nodes that Delete returned, and put the latter back with PutNode: every answer of every such history, the entries in order, all lookups and Size are those of a pure description, or a call dereferences nil. A node of the tree stays in the tree and keeps its entry while other keys are put and deleted.",
  "all comparators, all zero entries, all finite histories of calls and of rewritings of any nodes, all keys and values","Which node carries which entry depends on the shape the whole history gave the tree; a test sees finitely many histories and positions of the nodes.",
  ["collections/rbtree/redblackbtree_node.go: SetKey, SetValue, Next, MinChildNode", "collections/rbtree/redblacktree.go: Put, PutNode, Delete, removeNode, remove"])
p("C120","Init on a map in use",
  "Init makes a used B+ tree map, red-black tree or skip list a new one: whatever it was used for before, every history after Init, with any comparator (and, for the B+ tree, any degree at least 2), has exactly the results it has on a new map. A B+ tree or a skip list may be in any state whatsoever, so Init also revives a B+ tree after Clear; nodes that Delete of a red-black tree returned before stay the user's and can be put into the new tree.",
  "all states (B+ tree, skip list) or all earlier histories and numbers of earlier lives (red-black tree), all old and new comparators, all degrees at least 2, all later histories, all random numbers","Stale nodes, buffers and links of the earlier life could surface after arbitrarily many later calls; a test sees finitely many lives.",
  ["collections/bplustree/bplustree.go: Init, NewNode", "collections/rbtree/redblacktree.go: Init", "collections/rbtree/node_buffer.go: Init", "collections/skiplist/skiplist.go: Init"])
p("C121","CastToPull with many callers, and the life of its goroutine",
  "However many goroutines call the next function of CastToPull, and on every schedule: without stop the values received, in the order of the receives, are the first values push offers, none lost, none given twice; each caller sees a subsequence of them in order, and ends come only after push has returned, and then for ever. The program is at rest exactly when nobody is blocked in next and the goroutine has either ended or stands at a yield with stop not called: in the latter case it is never freed unless next or stop is called again. After stop, if push honours the answer false (it may be endless), at most two steps per blocked call and two more are done, and then the goroutine has ended and no call is blocked.",
  "all push functions, finite or not, all numbers of callers, all schedules of next, stop, the goroutine and the channel","Which blocked caller receives, when the cancellation is seen and when close happens is up to the scheduler, over unbounded runs; a leaked goroutine is invisible to a test's results.",
  ["iterator/iterator.go: CastToPull"])
p("C122","next after stop",
  "After stop of CastToPull has returned, every call of next begun later reports the end (as Go's iter.Pull guarantees).",
  "all push functions, all numbers of callers, all schedules","The outcome is decided by select's random choice between the cancelled context and a waiting receiver; a test may never see the other choice.",
  ["iterator/iterator.go: CastToPull"])
p("C123","Priority queue with any comparator, and how often it calls it",
  "With any comparator whatsoever - one without laws, with state of its own, answering at random - every history of Push, Pop, Peek and Len on a priority queue made by New with a size neither panics nor hangs, and the queue is a bag: Pop and Peek return an element that is in it, report none exactly when it is empty, Pop takes out exactly that one, Len counts. On a queue of n elements Push calls the comparator at most floor(log2(n+1)) times (attained for every n), Pop at most 2 floor(log2(n-1)) times, Peek and Len never.",
  "all comparators, including stateful and inconsistent ones, all sizes given to New, all histories","The comparator is the user's code: there are infinitely many, and the bounds and the conservation of elements must hold for each of them at every size.",
  ["collections/priorityqueue/priorityqueue.go: Push, Pop, Peek, Len, percolateUp, percolateDown"])
p("C124","Red-black tree with any comparator, and how often it calls it",
  "With any comparator whatsoever - one without laws, with state of its own, answering at random - every history of Put, Get and Delete on a red-black tree ends: it returns, or Delete panics with a nil dereference; it never loops. What it does is bounded: Put overwrites the value of one entry or adds its entry at one place, losing at most one other entry; Get answers with nothing or with the value of a stored entry; Delete takes out nothing or exactly one entry and returns that entry or its successor. On a tree of n entries a call makes at most 2 log2(n+1) comparator calls, Delete two more.",
  "all comparators, including stateful and inconsistent ones, all histories of Put, Get and Delete on a new tree","The comparator is the user's code: there are infinitely many, and termination, the effects and the bound must hold for each of them at every size.",
  ["collections/rbtree/redblacktree.go: Put, Get, Delete, put, search, remove"])
p("C125","fn.Comp on floats, and what a NaN key does",
  "On float64 values that are not NaN, fn.Comp is the three-way order of their values (-0 and +0 equal, infinities at the ends), and it answers 0 exactly when the floats are ==. A NaN compares equal to everything: Comp is a consistent order on a set of floats exactly if the set has no NaN or all its members compare equal. So in a container ordered by Comp a NaN key is taken for another one: on a non-empty red-black tree Get(NaN) answers with the value of a stored entry and Put(NaN, v) overwrites that value and adds nothing; a skip list always answers Has(NaN) with true, even when it is empty; a non-empty B+ tree contains NaN, answers Get with the value of a stored entry and refuses InsertUnique; and a priority queue holding a NaN can Pop a value although it holds a smaller one.",
  "all pairs of the 2^64 bit patterns, all sets of floats, all histories of the containers","The domain has 2^128 pairs, and what happens to a NaN key must be known after every history.",
  ["fn/comp.go: Comp", "collections/rbtree/redblacktree.go: Get, Put", "collections/skiplist/skiplist.go: Has", "collections/bplustree/bplustree.go: ContainsKey, Get, InsertUnique", "collections/priorityqueue/priorityqueue.go: Push, Pop"])
p("C126","How often each level is drawn",
  "The level of a new skip-list entry is l for exactly 2^(32-l)*(2^32+1) of the 2^64 numbers the random generator can return (one more for l = 32), so each level is drawn half as often as the one below, level 1 for half of the numbers (plus 2^31), and at least l+1 levels for (2^(32-l)-1)*(2^32+1)+1 of them. In the lock-free skip list the level is l for exactly 2^(19-l) of the 2^19 outcomes of its coin tosses (one for l = 20).",
  "all 2^64 random numbers, all outcomes of the coin tosses, all levels","A test samples the generator; the exact distribution is a statement about all 2^64 numbers.",
  ["collections/skiplist/skiplist.go: randomLevel", "collections/lockfreeskiplist/lockfree_skiplist.go: randomLevel"])
p("C127","Comparator calls of a skip-list lookup",
  "With any comparator, even one that answers differently every time, Get on a skip list ends, answers with the zero value, the value of the list's header or the value of an entry, and calls the comparator at most once for each entry and twice for each level in use. With a comparator that is a function, the number of calls is exactly: on each level one call for every entry ridden onto or stopped at, and one for the entry the ride ends at. After Put of up to 2^L entries with different keys (L <= 31), in any order, a lookup of any key needs at most 4L+5 calls on average over all the numbers the random generator can return for the entries.",
  "all histories, all comparators with and without state, all keys","Every state of every comparator, and every shape of the list.",
  ["collections/skiplist/skiplist.go: Get, search"])
p("C128","The B+ tree under any comparator, and the number of its calls",
  "With any comparator, even one that is inconsistent or answers differently every time, a history of ContainsKey, GetVerify, InsertEqual, InsertUnique and Delete on a new B+ tree returns, or stops in a Delete at an index out of range. When it returns the tree is well shaped (all leaves at one depth, occupancy bounds, leaves linked in a ring, size = number of entries), an insertion that answers true put exactly its entry somewhere among the others, a lookup answered with the value of some stored entry, and a Delete overwrote at most one entry with its left neighbour and removed at most one. On a tree of degree M with n entries a lookup calls the comparator at most (log_M n + 1)*(log2(2M-1) + 1) times, InsertEqual at most (log_M n + 2)*2M times, InsertUnique and Delete at most that of a lookup and (log_M n + 2)*2M, (log_M n + 1)*2M more.",
  "all degrees from 2, all histories, all comparators with and without state","Every history and every sequence of comparator answers.",
  ["collections/bplustree/bplustree.go: ContainsKey, GetVerify, search, InsertEqual, InsertUnique, insert, insertNonFull, Delete, delete, deleteNonOne"])
p("C129","Sequential pipelines call their callbacks element by element",
  "On a sequential stream (parallelism 0), for callbacks of Map, Filter, SkipWhile, Inspect, Collect, FoldWith, Reduce, TryFold, AllMatch and AnyMatch that may read and change shared state: every element of the source goes through all the callbacks of the pipeline, in pipeline order, and into the terminal operation before the next element is touched; a callback behind a Filter, Skip or SkipWhile is not called for elements these drop; once a Take has had its n elements no callback is called any more; First calls callbacks only up to the first element that arrives, and TryFold, AllMatch and AnyMatch only up to the element that decides. Reduce, MaxBy, MinBy, AllMatch and AnyMatch run First and then start again at the first element, so the callbacks of the elements First has looked at are called twice, with the counters of Take, Skip and Enumerate where First has left them.",
  "all sources, all pipelines of any length built of Map, Filter, SkipWhile, Inspect, Take, Skip and Enumerate, all callbacks on any kind of state, all counters reached by earlier uses of the stream","the order of calls depends on the pipeline, the data and the state the callbacks share; a test sees one pipeline and one input",
  ["stream/map.go:Map", "stream/filter.go:Filter", "stream/skip.go:Skip, SkipWhile", "stream/take.go:Take", "stream/inspect.go:Inspect", "stream/enumerate.go:Enumerate", "stream/fold.go:FoldWith", "stream/collect.go:Collect", "stream/first.go:First", "stream/reduce.go:Reduce", "stream/tryfold.go:TryFold", "stream/all_any_match.go:AllMatch, AnyMatch"])
p("C130","Slice functions: which calls they make to their callbacks",
  "EqualFunc makes no call when the lengths differ and otherwise calls eq on the pairs (s1[i], s2[i]) in index order up to and including the first it answers false to; CompareFunc calls cmp on the pairs in index order up to and including the first non-zero answer, which it returns; the Index and Contains methods call f on the elements in index order up to and including the first accepted one; CompactFunc calls eq exactly once for every element behind the first, in index order, with that element and the element kept last, and keeps it iff the answer is false - whatever the callbacks answer, also when they carry state and answer differently every time; nothing but the elements behind the first is overwritten.",
  "all slices, all callbacks, also those with state","the number and order of calls is visible through the callback's effects and depends on all the elements; a test sees particular slices and callbacks",
  ["collections/slice/slice.go:EqualFunc, CompareFunc, Slice.Index, Slice.Contains, CompactFunc"])
p("C131","Skip list: calls return whatever the comparator answers",
  "For every comparator, even one that carries state and answers every call differently, every history of Put, InsertUnique, InsertEquals, Delete, DeleteByWholeMapping, DeleteKeys, DeleteRangeByKey, Clear and SetValue on a new list returns without panic or endless loop. Size moves by exactly what the answers say (plus one for an insertion that reports true, minus one for a deletion that reports true or whole-mapping deletion that removed an entry, minus the count reported by DeleteKeys and DeleteRangeByKey); the sequence First and Next show gains at most the inserted pair at one place, loses at most as many entries as reported and keeps the order of the rest; everything shown, forwards or backwards, or returned by a lookup was stored by a call since the last Clear (or is the zero value); all lookups return (FirstInRange and LastInRange may panic on purpose); after n insertions since Clear an insertion or Delete makes at most 32n+1 calls of the comparator, a lookup at most 32(n+1), and Last and Prev show at most n entries.",
  "all comparators with state, all histories, all level draws, all key and value types","the comparator may answer anything, so the levels may disagree; termination and absence of nil dereferences have to hold in every state this can lead to, which no finite set of comparators reaches",
  ["collections/skiplist/skiplist.go:List.insert", "collections/skiplist/skiplist.go:List.deleteNode", "collections/skiplist/skiplist.go:List.Delete", "collections/skiplist/skiplist.go:List.DeleteRangeByKey", "collections/skiplist/skiplist.go:List.search", "collections/skiplist/skiplist.go:List.FirstInRange", "collections/skiplist/skiplist.go:List.LastInRange", "collections/skiplist/skiplist.go:List.GetByRank", "collections/skiplist/skiplist_node.go:Node.Next"])
p("C132","Parallel pipelines: every callback is called exactly once for each element that reaches it",
  "Parallel FoldWith (k segments, parallelism k) and parallel Collect over Map, Filter, SkipWhile and Inspect, on every schedule, when a callback is an atomic step and its answer does not depend on the environment it acts on: the operation returns after a bounded number of steps without panic; when it returns, the calls made are an interleaving of the calls the segments cause one by one - every callback is called exactly once for every element that reaches it, those of one segment in the order of the segment and of the pipeline, element by element - and the value combines what the segments end up with in some order. Every such interleaving happens on some schedule. If the effects commute, the environment is left as by the sequential pipeline.",
  "all sources that split into segments, all pipelines of Map, Filter, SkipWhile and Inspect, all callbacks with effects whose answers do not depend on the environment, all schedules","the order in which the callbacks of different goroutines run is up to the scheduler; a test sees a few orders",
  ["stream/fold.go:FoldWith", "stream/collect.go:Collect", "stream/stream.go:doParallel", "stream/map.go:Map", "stream/filter.go:Filter", "stream/skip.go:SkipWhile", "stream/inspect.go:Inspect"])
p("C133","Parallel AllMatch, AnyMatch and TryFold: which calls they make, and that they end",
  "Parallel TryFold (k segments, parallelism k) over Map, Filter, SkipWhile and Inspect, on every schedule, when a callback is an atomic step and its answer does not depend on the environment it acts on: the number of steps is bounded and at the end TryFold has returned and all its goroutines have ended; at any moment each segment has made a beginning of the calls it would make alone (up to the first refusal), and the calling goroutine those of a TryFold over the results of some segments; if it has returned true, all segments have made all their calls; if false, some callback has refused. AllMatch returns false if nothing arrives from the first segment; otherwise true exactly if the predicate holds of everything that arrives, and then every callback has been called once for each element that reaches it - after the calls of First - and the predicate once more per segment, with the first element. AnyMatch likewise. After AllMatch has returned false, predicates may still be called.",
  "all sources that split into k segments, all pipelines of Map, Filter, SkipWhile and Inspect, all callbacks with effects whose answers do not depend on the environment, all schedules","which calls are made before the cancellation arrives, and in which order, is up to the scheduler",
  ["stream/tryfold.go:TryFold", "stream/all_any_match.go:AllMatch", "stream/all_any_match.go:AnyMatch", "stream/first.go:First", "stream/stream.go:doParallel"])
p("C134","The segments of a linked list may be pulled while the list is edited",
  "SplitableIter()(p) of a linked list, p > 0, whose segmenter and segments are called in any order with operations on any lists in between: the segmenter hands out segments of Len/p elements (Len when it was made), each starting where the last one ended, until it has handed out as many elements as the list has now, the last one without limit; a pull of a segment delivers the element chosen by the pull before, with its value as it is now, and chooses the element that follows it now. As long as the list is only appended to, nothing is delivered twice, and once all have reported their ends, everything that was in the list at the beginning has been delivered. As long as nothing is taken out of the list or moved in it, nothing is delivered twice, wherever elements are inserted. No operation makes the segmenter or a segment panic; a removed element that a segment is about to deliver is still delivered, and the segment ends there.",
  "all histories over any number of lists, followed by all sequences of operations, calls of the segmenter and pulls of any segments; all element types, all p > 0","the effect depends on where each segment stands when the list is edited and on the order of all calls",
  ["collections/linkedlist/linkedlist.go:SplitableIter", "collections/linkedlist/linkedlist.go:iter", "collections/linkedlist/linkedlist.go:iterStep", "collections/linkedlist/linkedlist.go:Next"])
p("C135","The segments of a skip list may be pulled in any order while entries are inserted",
  "SplitableIter()(p) of a skip list, p > 0, whose segmenter and segments are called in any order with insertions (Put, InsertUnique, InsertEquals; also Delete, DeleteKeys, DeleteByWholeMapping, which leave the entries as they are, see C50) in between: the segmenter hands out segments of Len/p entries (Len when it was made), each starting where the last one ended, until it has handed out as many entries as the list has now, the last one without limit; a pull delivers the entry the pull before chose and chooses the entry that follows it now. Nothing is delivered twice: what is delivered is a part of what is in the list in the end. If nothing is inserted, then once all have reported their ends, exactly the entries of the list have been delivered, each one once. Nothing panics.",
  "all histories of operations that show a list L, followed by all sequences of insertions, calls of the segmenter and pulls of any segments; all comparators with comp a b = 0 -> comp b a = 0, all levels, all p > 0","the effect depends on where each segment stands when an entry is inserted and on the order of all calls",
  ["collections/skiplist/skiplist.go:SplitableIter", "collections/skiplist/skiplist.go:iter", "collections/skiplist/skiplist.go:iterStep", "collections/skiplist/skiplist.go:insert"])
p("C136","The segments of a red-black tree may be pulled in any order while keys are put in ascending order",
  "After a history that puts keys in ascending order, keeps its first key and leaves the map non-empty, SplitableIter()(p), p > 0, is called, and its segmenter, the segments it hands out and further Puts (of stored keys, or of keys above all stored ones) are called in any order: nothing panics or hangs, the map changes as it would without the segments, no key is delivered twice, everything delivered is an entry of the map in the end (with that key; its value is the one at the time of the pull), and once the segmenter and all its segments have reported their ends, every key that was in the map at the beginning has been delivered. With Delete, or with a Put of a smaller key, this is false.",
  "all ascending histories that keep the first key, followed by all sequences of ascending Puts, calls of the segmenter and pulls of any segments; all lawful comparators, all p > 0","the effect depends on where each segment stands when a key is put and on the order of all calls",
  ["collections/rbtree/redblacktree.go:SplitableIter", "collections/rbtree/redblacktree.go:iter", "collections/rbtree/redblacktree.go:iterStep", "collections/rbtree/redblacktree.go:Put"])
p("C137","A comparator that panics leaves a red-black tree as it was",
  "If the comparator panics during Put, Get or Delete and the caller recovers, the tree is what it was before the call — every entry, pointer, colour and the size — and can be used further: whatever the comparator is and whenever it panics, a history that goes on after recovered panics ends (by returning, or by the nil dereference of C124), and the tree stays navigable and changes only by the calls that returned. If the comparator gives the answers of some comparator cmp whenever it does not panic, the answers and the final tree are those of the calls that returned alone, made with cmp.",
  "all comparators with state that panic at any of their calls, all histories of Put, Get and Delete whose caller recovers","the comparator may panic at any of its calls in any tree; a test exercises a few of them",
  ["collections/rbtree/redblacktree.go:Put", "collections/rbtree/redblacktree.go:put", "collections/rbtree/redblacktree.go:Get", "collections/rbtree/redblacktree.go:Delete", "collections/rbtree/redblacktree.go:search", "collections/rbtree/redblacktree.go:remove"])
p("C138","A comparator that panics leaves a B+ tree as it was",
  "If the comparator panics during GetVerify or InsertUnique and the caller recovers, the tree has the entries it had before. This is false: InsertUnique moves the entries of a leaf between two comparisons, so that the last one is lost and another is there twice, and it replaces the root only when it returns, so that after a panic behind a split of the root the right half of the tree is lost; Size goes on counting what is lost. What holds: a panic in a lookup, or while InsertUnique looks for the key, changes nothing; and on a new tree with fewer than 2·degree insertions, whatever the comparator is and whenever it panics, no call panics by itself, and an InsertUnique in which the comparator panicked changed nothing, or lost exactly the last entry and doubled one.",
  "all comparators with state that panic at any of their calls; all histories of InsertUnique (fewer than 2·degree), GetVerify and Size whose caller recovers; for lookups, all trees","the comparator may panic at any of its calls in any tree; a test exercises a few of them",
  ["collections/bplustree/bplustree.go:InsertUnique", "collections/bplustree/bplustree.go:insertNonFull", "collections/bplustree/bplustree.go:insert", "collections/bplustree/bplustree.go:search", "collections/bplustree/bplustree.go:GetVerify", "collections/bplustree/bplustree.go:Size"])
p("C139","A comparator that panics leaves a priority queue as it was",
  "If the comparator panics during Push or Pop and the caller recovers, the queue is as it was before the call, and later calls answer as if it had not been made. This is false: a Push in which the comparator panicked has put its element in all the same, not in its place, and after a Pop in which it panicked the elements come in a wrong order, although the comparator answers correctly ever after. What holds: whatever the comparator is and whenever it panics, no call panics by itself or hangs, and no element is lost, invented or doubled: the bag grows by the element of a Push whether it panicked or not, a Pop that panicked takes nothing, and all other answers are right for the bag.",
  "all comparators with state that panic at any of their calls, all histories of Push, Pop, Peek and Len whose caller recovers","the comparator may panic at any of its calls in any queue; a test exercises a few of them",
  ["collections/priorityqueue/priorityqueue.go:Push", "collections/priorityqueue/priorityqueue.go:Pop", "collections/priorityqueue/priorityqueue.go:percolateUp", "collections/priorityqueue/priorityqueue.go:percolateDown", "collections/priorityqueue/priorityqueue.go:Peek", "collections/priorityqueue/priorityqueue.go:Len"])
p("C140","A comparator that panics leaves a skip list as it was",
  "If the comparator panics during Put, InsertUnique, InsertEquals, Delete or DeleteByWholeMapping and the caller recovers, the list is what it was before the call — every entry, link, span, the level and the size. DeleteKeys leaves the list that the same call with some of the first keys leaves; DeleteRangeByKey has deleted at most as many entries as there were. Whatever the comparator is and whenever it panics, a history that goes on after recovered panics returns, and its answers and the final list are among those C131 allows for the calls that returned. If the comparator gives the answers of some comparator cmp whenever it does not panic, a history without DeleteKeys and DeleteRangeByKey has the answers and leaves the list of the calls that returned alone, made with cmp.",
  "all comparators with state that panic at any of their calls, all histories of the mutating calls, SetValue and Clear whose caller recovers","the comparator may panic at any of its calls in any list; a test exercises a few of them",
  ["collections/skiplist/skiplist.go:List.Put", "collections/skiplist/skiplist.go:List.insert", "collections/skiplist/skiplist.go:List.Delete", "collections/skiplist/skiplist.go:List.DeleteByWholeMapping", "collections/skiplist/skiplist.go:List.DeleteKeys", "collections/skiplist/skiplist.go:List.DeleteRangeByKey", "collections/skiplist/skiplist.go:List.search"])
p("C141","A panic in Expiration or in the comparator leaves a delay queue usable",
  "When a call of Push panics in the element's Expiration method or in the comparator and its caller recovers, the other calls of the queue go on as if that call had not been made, or as if it had returned: Push, Pop, PopWithCtx and Poll by any goroutine still get through, nothing is lost or delivered early, and a consumer that sleeps is woken for the element that was stored.",
  "all schedules of any number of goroutines calling Push, Pop, PopWithCtx and Poll, with panics in any of the calls of Expiration and of the comparator, whatever recovers them","the panic may come on any schedule and in any state of the queue; a test that hangs cannot tell for ever from late",
  ["collections/delayqueue/delay_queue.go:DelayQueue.Push", "collections/delayqueue/delay_queue.go:DelayQueue.Pop", "collections/delayqueue/delay_queue.go:DelayQueue.PopWithCtx", "collections/delayqueue/delay_queue.go:DelayQueue.Poll"])
p("C142","When the comparator of a lock-free skip list panics",
  "On every schedule on which calls of the comparator panic and the callers recover and go on: the calls are linearizable — a call left by a panic has taken effect at one instant of that call or not at all, a call that returned took effect with its result, and no call is placed before one that ended, returned or panicked, before it was made; a panic changes nothing; no other call panics or waits; the elements are a sorted set without duplicates and every level is sorted at every instant. Len is at most behind by the number of Adds in progress or left by a panic and at most ahead by the number of such Dels; it can stay behind for ever: an Add whose comparator panics after its element is in the set does not count it.",
  "all interleavings of any number of goroutines calling Add, Del, Has, Get, Rank and Len, all node heights, panics at any of the calls of a comparator that otherwise gives the answers of one lawful comparator","the panic may come at any comparison of any schedule, also after the element has been linked; tests run a few schedules",
  ["collections/lockfreeskiplist/lockfree_skiplist.go:LockFreeSkipList.Add", "collections/lockfreeskiplist/lockfree_skiplist.go:LockFreeSkipList.Del", "collections/lockfreeskiplist/lockfree_skiplist.go:LockFreeSkipList.find", "collections/lockfreeskiplist/lockfree_skiplist.go:LockFreeSkipList.less", "collections/lockfreeskiplist/lockfree_skiplist.go:LockFreeSkipList.equals", "collections/lockfreeskiplist/lockfree_skiplist.go:LockFreeSkipList.Len"])
p("C143","When the callback of CompactFunc panics",
  "If the callback of CompactFunc panics at any of its calls and the caller recovers, the slice holds its first element, then the elements kept before the panic in order, then what stood behind them before; nothing outside the slice and not its first element has changed, no element has been lost except ones answered to be the same as one still there, and none has appeared. The slice is not left as it was: a caller that recovers finds elements overwritten and others twice.",
  "all slices in all memories, all callbacks, also stateful and unlawful ones, a panic at any call","every length, content, sequence of answers and place of the panic; tests use callbacks that return",
  ["collections/slice/slice.go:CompactFunc"])
p("C144","Red-black tree: SetCompareFunc and trees made with a nil comparator",
  "GetCompareFunc answers the comparator given to New or, if that was nil, the first non-nil one given to SetCompareFunc; later ones have no effect, and setting one changes no entry. While none is set, the map accepts one Put, answers Get and Delete while it is empty, and once it has an entry every Put, Get and Delete panics and changes nothing. Once a comparator is in force no call panics for want of one, and all calls of the history that returned, also earlier ones, gave the answers and left the tree they do on a map made with that comparator.",
  "all histories of Put, Get, Delete, SetCompareFunc and GetCompareFunc of a client that recovers, on trees made with any comparator or nil, all comparators, keys and values","the call that sets the comparator can stand anywhere in a history, after calls that panicked or did not need it; tests set none",
  ["collections/rbtree/redblacktree.go:Tree.SetCompareFunc", "collections/rbtree/redblacktree.go:Tree.GetCompareFunc", "collections/rbtree/redblacktree.go:New", "collections/rbtree/redblacktree.go:Tree.Put", "collections/rbtree/redblacktree.go:Tree.Get", "collections/rbtree/redblacktree.go:Tree.Delete"])
here=os.path.dirname(os.path.abspath(__file__))
with open(os.path.join(here,'..','properties.jsonl'),'w') as f:
    for x in P: f.write(json.dumps(x)+"\n")
print(len(P))
