{
 "claims": [
  {
   "property": "C01",
   "status": "proved",
   "theorems": [
    "Gds.Fn.comp_cases",
    "Gds.Fn.comp_range",
    "Gds.Fn.comp_swap",
    "Gds.Fn.comp_trans",
    "Gds.Fn.comp_strict"
   ],
   "note": "Comp over any linear order; NaN excluded because a linear order has none."
  },
  {
   "property": "C02",
   "status": "partial",
   "theorems": [
    "Gds.Fn.compose_apply",
    "Gds.Fn.andThen_apply",
    "Gds.Fn.compose_assoc",
    "Gds.Fn.predicate_and_iff",
    "Gds.Fn.predicate_or_iff",
    "Gds.Fn.predicate_negate_iff",
    "Gds.Fn.not_iff",
    "Gds.Fn.predicate_deMorgan_and",
    "Gds.Fn.predicate_deMorgan_or",
    "Gds.Fn.predicate_negate_negate",
    "Gds.Fn.consumer_andThen",
    "Gds.Fn.binConsumer_andThen",
    "Gds.Fn.binPredicate_and_iff",
    "Gds.Fn.binPredicate_negate_iff",
    "Gds.Fn.binPredicate_or_refuted",
    "Gds.Fn.binPredicate_or_partial"
   ],
   "note": "Everything holds except BinPredicate.Or, which computes And (binPredicate_or_refuted)."
  },
  {
   "property": "C03",
   "status": "proved",
   "theorems": [
    "Gds.Iter.fromSlice_pulls",
    "Gds.Slice.iter_eq_fromSlice",
    "Gds.Slice.iter_pulls"
   ],
   "note": "FromSlice and Slice.Iter."
  },
  {
   "property": "C04",
   "status": "partial",
   "theorems": [
    "Gds.Iter.castToPush_stops",
    "Gds.Iter.castToPush_any",
    "Gds.Iter.castToPush_any_refused",
    "Gds.Iter.visit_log",
    "Gds.Slice.all_visit",
    "Gds.Iter.iterAll_visits_everything",
    "Gds.Iter.iterAll_stops_refuted"
   ],
   "note": "CastToPush proved for every iterator; Iter.All ignores the callback (refuted)."
  },
  {
   "property": "C05",
   "status": "proved",
   "theorems": [
    "Gds.Iter.castToPull_in_order",
    "Gds.Iter.castToPull_values_then_end",
    "Gds.Iter.castToPull_progress",
    "Gds.Iter.castToPull_terminates",
    "Gds.Iter.castToPull_prefix",
    "Gds.Iter.castToPull_complete",
    "Gds.Iter.castToPull_stop_releases",
    "Gds.Iter.castToPull_deaf_sublist"
   ],
   "note": "Transition system over all schedules of producer, consumer and stop."
  },
  {
   "property": "C06",
   "status": "partial",
   "theorems": [
    "Gds.Iter.lines_partial",
    "Gds.Iter.splitsInto_exists",
    "Gds.Iter.SplitsInto.unique",
    "Gds.Iter.lines_cannotOpen",
    "Gds.Iter.lines_complete_refuted"
   ],
   "note": "Exactly the newline-terminated lines are shown; an unterminated last line is dropped (refuted)."
  },
  {
   "property": "C07",
   "status": "proved",
   "theorems": [
    "Gds.Slice.split_sequential",
    "Gds.Slice.split_parallel",
    "Gds.Slice.split_empty"
   ],
   "note": "All segments of SplitableIter for every p and length."
  },
  {
   "property": "C08",
   "status": "partial",
   "theorems": [
    "Gds.Slice.segCount_eq_iff",
    "Gds.Slice.split_count_partial",
    "Gds.Slice.split_count_refuted",
    "Gds.Slice.split_endless"
   ],
   "note": "Segment count is p iff p divides the length; the unconditional claim is refuted; p > len never finishes."
  },
  {
   "property": "C09",
   "status": "proved",
   "theorems": [
    "Gds.Slice.insert_splice",
    "Gds.Slice.insert_panics",
    "Gds.Slice.replace_splice",
    "Gds.Slice.replace_panics",
    "Gds.Slice.delete_splice",
    "Gds.Slice.delete_panics",
    "Gds.Slice.insert_aliased_refuted"
   ],
   "note": "Splice results with exact panics on a heap model with capacity; the no-aliasing hypothesis is shown necessary."
  },
  {
   "property": "C10",
   "status": "proved",
   "theorems": [
    "Gds.Slice.insert_splice",
    "Gds.Slice.replace_splice",
    "Gds.Slice.delete_splice",
    "Gds.Slice.compactFunc_runHeads",
    "Gds.Slice.compact_runHeads"
   ],
   "note": "Frame conditions are conjuncts of the splice theorems."
  },
  {
   "property": "C11",
   "status": "proved",
   "theorems": [
    "Gds.Slice.compactFunc_runHeads",
    "Gds.Slice.compact_runHeads",
    "Gds.Slice.runHeads_sublist",
    "Gds.Slice.runHeads_no_repeats",
    "Gds.Slice.runHeads_idempotent",
    "Gds.Slice.runHeads_runs"
   ],
   "note": "Against an independent run-heads specification."
  },
  {
   "property": "C12",
   "status": "proved",
   "theorems": [
    "Gds.Slice.equal_iff",
    "Gds.Slice.equalFunc_iff",
    "Gds.Slice.compare_lex",
    "Gds.Slice.compareFunc_spec"
   ],
   "note": "Elementwise equality and lexicographic order."
  },
  {
   "property": "C13",
   "status": "proved",
   "theorems": [
    "Gds.Slice.indexFunc_spec",
    "Gds.Slice.index_spec",
    "Gds.Slice.contains_iff",
    "Gds.Slice.containsFunc_iff"
   ],
   "note": "First occurrence."
  },
  {
   "property": "C14",
   "status": "proved",
   "theorems": [
    "Gds.Slice.clone_spec",
    "Gds.Slice.grow_spec",
    "Gds.Slice.grow_panics",
    "Gds.Slice.clip_spec"
   ],
   "note": "Contents, capacity, freshness."
  },
  {
   "property": "C15",
   "status": "partial",
   "theorems": [
    "Gds.Slice.pushBack_invisible",
    "Gds.Slice.pushBack_refuted",
    "Gds.Slice.insertMethod_visible"
   ],
   "note": "The claim is false; what the value receiver does is proved exactly."
  },
  {
   "property": "C16",
   "status": "proved",
   "theorems": [
    "Gds.PQ.history_refines_multiset",
    "Gds.PQ.specStep_pop_length"
   ],
   "note": "Refinement to a multiset with extract-min over all histories."
  },
  {
   "property": "C17",
   "status": "proved",
   "theorems": [
    "Gds.PQ.drain_sorts"
   ],
   "note": "Heap sort."
  },
  {
   "property": "C18",
   "status": "partial",
   "theorems": [
    "Gds.PQ.new_sized_partial",
    "Gds.PQ.new_default_refuted",
    "Gds.PQ.ofWith_refuted"
   ],
   "note": "New with size works; without it panics."
  },
  {
   "property": "C19",
   "status": "proved",
   "theorems": [
    "Gds.Queue.history_refines_fifo"
   ],
   "note": "Refinement to a list over all histories."
  },
  {
   "property": "C21",
   "status": "partial",
   "theorems": [
    "Gds.Queue.pushNode_appends_partial",
    "Gds.Queue.rotate_singleton_partial",
    "Gds.Queue.rotate_refuted"
   ],
   "note": "Rotation is false beyond singletons."
  },
  {
   "property": "C20",
   "status": "proved",
   "theorems": [
    "Gds.Queue.mutual_exclusion",
    "Gds.Queue.results_are_fifo",
    "Gds.Queue.contents_are_fifo",
    "Gds.Queue.holder_progress"
   ],
   "note": "Transition system with one step per load, store, lock operation; every schedule of any number of goroutines."
  },
  {
   "property": "C27",
   "status": "proved",
   "theorems": [
    "Gds.LinkedList.history_refines_sequences",
    "Gds.LinkedList.run_refines",
    "Gds.LinkedList.walks",
    "Gds.LinkedList.init_empties",
    "Gds.LinkedList.setValue_values"
   ],
   "note": "Refinement of the pointer heap (any number of lists) to sequences for every legal history, including the copying operations and Clear."
  },
  {
   "property": "C28",
   "status": "proved",
   "theorems": [
    "Gds.LinkedList.foreign_element"
   ],
   "note": "The whole state is unchanged."
  },
  {
   "property": "C29",
   "status": "proved",
   "theorems": [
    "Gds.LinkedList.pushBackList_values",
    "Gds.LinkedList.pushFrontList_values"
   ],
   "note": "Also when both arguments are the same list."
  },
  {
   "property": "C30",
   "status": "partial",
   "theorems": [
    "Gds.LinkedList.clear_partial",
    "Gds.LinkedList.run_refines",
    "Gds.LinkedList.clear_toSlice_refuted",
    "Gds.LinkedList.toSlice_uninitialised_refuted",
    "Gds.LinkedList.clear_remove_refuted"
   ],
   "note": "Len/Front/Back/later pushes are right; ToSlice/Iter on a cleared or zero list and Remove of an old element are refuted."
  },
  {
   "property": "C31",
   "status": "proved",
   "theorems": [
    "Gds.LinkedList.toSlice_values",
    "Gds.LinkedList.iter_values",
    "Gds.LinkedList.split_sequential",
    "Gds.LinkedList.split_parallel"
   ],
   "note": "On initialised lists (see C30)."
  },
  {
   "property": "C32",
   "status": "partial",
   "theorems": [
    "Gds.Stream.pipeline_elements",
    "Gds.Stream.pipeline_elements_partial",
    "Gds.Stream.collect_pipeline",
    "Gds.Stream.collect_pipeline_effects",
    "Gds.Stream.inspect_before_delivery",
    "Gds.Stream.zip_exact",
    "Gds.Stream.zip_refuted",
    "Gds.Stream.zip_chain_panics"
   ],
   "note": "Every pipeline built from slices by the sequential operators (any nesting), element for element, with the trace of callbacks: the list functions when no Zip has a longer left side; Zip with a longer left side delivers zero pairs (refuted as stated) or panics when its right side is a Chain. The pipelines excluded by Fits (a Zip asking an ended Chain or uneven Zip again) are covered exactly by C110."
  },
  {
   "property": "C33",
   "status": "partial",
   "theorems": [
    "Gds.Stream.take_first_activation_partial",
    "Gds.Stream.take_second_activation",
    "Gds.Stream.take_refuted"
   ],
   "note": "First activation proved; a second activation delivers nothing more (refuted as stated)."
  },
  {
   "property": "C34",
   "status": "partial",
   "theorems": [
    "Gds.Stream.skip_exact",
    "Gds.Stream.skip_partial",
    "Gds.Stream.skip_refuted",
    "Gds.Stream.skip_second_activation"
   ],
   "note": "Exact behaviour (n-1 dropped) proved for every n; the documented claim is refuted."
  },
  {
   "property": "C35",
   "status": "partial",
   "theorems": [
    "Gds.Stream.skipWhile_exact",
    "Gds.Stream.skipWhile_partial",
    "Gds.Stream.skipWhile_refuted"
   ],
   "note": "Exact behaviour (filter) proved; equals dropWhile when no later element satisfies p; refuted in general."
  },
  {
   "property": "C36",
   "status": "proved",
   "theorems": [
    "Gds.Stream.enumerate_sequential",
    "Gds.Stream.parEnumerate",
    "Gds.Stream.parEnumerate_slice",
    "Gds.Stream.parCount_progress",
    "Gds.Stream.parCount_terminates"
   ],
   "note": "Sequential, and every schedule of the goroutines of a parallel Collect over any number of segments."
  },
  {
   "property": "C37",
   "status": "proved",
   "theorems": [
    "Gds.Stream.foldWith_pipeline",
    "Gds.Stream.fold_pipeline",
    "Gds.Stream.sum_pipeline",
    "Gds.Stream.sum_pipeline_monoid",
    "Gds.Stream.reduceWith_pipeline",
    "Gds.Stream.collect_pipeline",
    "Gds.Stream.first_pipeline"
   ],
   "note": "Every sequential pipeline in which no Zip asks an ended Chain or an ended uneven Zip again (an ended Chain panics, see C32)."
  },
  {
   "property": "C38",
   "status": "partial",
   "theorems": [
    "Gds.Stream.reduce_exact",
    "Gds.Stream.reduce_partial",
    "Gds.Stream.reduce_refuted"
   ],
   "note": "Exact behaviour (first element twice) proved; equals the reduction when f x0 x0 = x0; refuted in general."
  },
  {
   "property": "C39",
   "status": "partial",
   "theorems": [
    "Gds.Stream.max_sequential",
    "Gds.Stream.min_sequential",
    "Gds.Stream.maxmin_empty",
    "Gds.Stream.max_parallel",
    "Gds.Stream.min_parallel",
    "Gds.Stream.parMax",
    "Gds.Stream.parMin",
    "Gds.Stream.max_take_refuted"
   ],
   "note": "Proved for all pipelines without shared counters (Take/Skip/Enumerate) and for parallel slices on every schedule; refuted for Take."
  },
  {
   "property": "C40",
   "status": "partial",
   "theorems": [
    "Gds.Stream.allMatch_sequential",
    "Gds.Stream.anyMatch_sequential",
    "Gds.Stream.allMatch_empty_refuted"
   ],
   "note": "Non-empty streams; AllMatch on the empty stream is refuted."
  },
  {
   "property": "C41",
   "status": "partial",
   "theorems": [
    "Gds.Stream.parFold_result",
    "Gds.Stream.parFold_monoid",
    "Gds.Stream.parFold_progress",
    "Gds.Stream.parFold_terminates",
    "Gds.Stream.parFold_slice_partial",
    "Gds.Stream.parFold_map_filter_partial",
    "Gds.Stream.parFold_late_result",
    "Gds.Stream.parFold_refuted",
    "Gds.Stream.parFold_outcome",
    "Gds.Stream.parFold_outcome_reached",
    "Gds.Stream.parFold_too_few",
    "Gds.Stream.parFold_monoid_loses"
   ],
   "note": "Every schedule when p divides len(s); refuted (lost result and panic) otherwise: the exact set of outcomes for any number of segments is parFold_outcome with parFold_outcome_reached."
  },
  {
   "property": "C42",
   "status": "proved",
   "theorems": [
    "Gds.Stream.parCollect_slice",
    "Gds.Stream.parCollect_bare",
    "Gds.Stream.parCollect_result",
    "Gds.Stream.parCollect_progress",
    "Gds.Stream.parCollect_terminates"
   ],
   "note": "Every schedule, any 1<=p<=len(s)."
  },
  {
   "property": "C43",
   "status": "proved",
   "theorems": [
    "Gds.Stream.allMatch_parallel",
    "Gds.Stream.anyMatch_parallel",
    "Gds.Stream.parTry_result",
    "Gds.Stream.parTry_progress",
    "Gds.Stream.parTry_terminates"
   ],
   "note": "Every schedule when p divides len(s)>0."
  },
  {
   "property": "C44",
   "status": "proved",
   "theorems": [
    "Gds.Stream.parSkip",
    "Gds.Stream.parSkip_slice",
    "Gds.Stream.parTake",
    "Gds.Stream.parTake_slice",
    "Gds.Stream.parTake_two",
    "Gds.Stream.parTake_refuted",
    "Gds.Stream.parCount_progress",
    "Gds.Stream.parCount_terminates"
   ],
   "note": "Every schedule; the bound n+p-1 and a run showing that n is not a bound."
  },
  {
   "property": "C45",
   "status": "proved",
   "theorems": [
    "Gds.SkipList.randomLevel_range"
   ],
   "note": "All 2^64 draws."
  },
  {
   "property": "C46",
   "status": "proved",
   "theorems": [
    "Gds.SkipList.history_refines_sequence",
    "Gds.SkipList.step_refines",
    "Gds.SkipList.shows_unique"
   ],
   "note": "Pointer-level model (forward links, spans, back links, tail, level) refined to a sequence for every history, draw and comparator."
  },
  {
   "property": "C47",
   "status": "proved",
   "theorems": [
    "Gds.SkipList.keeps_everything"
   ],
   "note": "Comparators symmetric about equality."
  },
  {
   "property": "C48",
   "status": "partial",
   "theorems": [
    "Gds.SkipList.sorted_map_partial",
    "Gds.SkipList.lookup_sorted",
    "Gds.SkipList.insert_new_key_in_front",
    "Gds.SkipList.sorted_map_refuted"
   ],
   "note": "Holds for keys put in strictly decreasing order; refuted for Put 1, Put 2. C111 shows that decreasing order is necessary as well."
  },
  {
   "property": "C49",
   "status": "partial",
   "theorems": [
    "Gds.SkipList.lookup_sound_partial",
    "Gds.SkipList.has_zero_refuted"
   ],
   "note": "All keys that do not compare equal to the zero key; refuted for the zero key. Exact answer for every key: C111."
  },
  {
   "property": "C50",
   "status": "partial",
   "theorems": [
    "Gds.SkipList.delete_never_removes",
    "Gds.SkipList.deleteKeys_never_removes",
    "Gds.SkipList.deleteByWholeMapping_never_removes",
    "Gds.SkipList.delete_refuted"
   ],
   "note": "The property is false; proved instead: nothing is ever removed, on every reachable list."
  },
  {
   "property": "C51",
   "status": "partial",
   "theorems": [
    "Gds.SkipList.insertUnique_always_inserts",
    "Gds.SkipList.insertUnique_refuted"
   ],
   "note": "The property is false; proved instead: it always inserts and returns true."
  },
  {
   "property": "C52",
   "status": "proved",
   "theorems": [
    "Gds.SkipList.deleteRange_block",
    "Gds.SkipList.deleteRange_sorted"
   ],
   "note": "Every reachable list."
  },
  {
   "property": "C72",
   "status": "partial",
   "theorems": [
    "Gds.SkipList.isIn_range",
    "Gds.SkipList.inRange_no_panic",
    "Gds.SkipList.firstInRange_partial",
    "Gds.SkipList.lastInRange_is_ceiling",
    "Gds.SkipList.lastInRange_refuted",
    "Gds.SkipList.firstInRange_refuted"
   ],
   "note": "FirstInRange needs IsInAllRange; LastInRange is refuted and characterised."
  },
  {
   "property": "C73",
   "status": "partial",
   "theorems": [
    "Gds.SkipList.split_sequential",
    "Gds.SkipList.split_parallel",
    "Gds.SkipList.split_too_many_refuted"
   ],
   "note": "Refuted for parallelism above Size."
  },
  {
   "property": "C22",
   "status": "proved",
   "theorems": [
    "Gds.DelayQueue.never_early",
    "Gds.DelayQueue.delivered_due",
    "Gds.DelayQueue.poll_never_early"
   ],
   "note": "poll_never_early: for clocks after 1970 and int64 expirations. Every schedule of any number of goroutines calling Push, Pop, PopWithCtx and Poll, arbitrary cancellations and any clock: also one that is set back and forth and timers that fire early (delivered_due needs a clock that does not go back); every removal is logged with the clock it read and the contents it saw."
  },
  {
   "property": "C23",
   "status": "partial",
   "theorems": [
    "Gds.DelayQueue.conservation_partial",
    "Gds.DelayQueue.removed_partial",
    "Gds.DelayQueue.conservation_noctx",
    "Gds.DelayQueue.len_counts",
    "Gds.DelayQueue.no_loss_refuted",
    "Gds.DelayQueue.delivered_run"
   ],
   "note": "Full conservation (nothing lost, nothing duplicated) for all Push/Pop/Poll histories; with PopWithCtx pushed = stored + removed exactly, but a removed element can be dropped (no_loss_refuted: run that loses an element)."
  },
  {
   "property": "C24",
   "status": "partial",
   "theorems": [
    "Gds.DelayQueue.wakeup_refuted",
    "Gds.DelayQueue.asleep_stays",
    "Gds.DelayQueue.wakeup_partial",
    "Gds.DelayQueue.timer_partial",
    "Gds.DelayQueue.wakeup_many",
    "Gds.DelayQueue.recv_partial"
   ],
   "note": "The claim is false of the code (lost wake-up run; the consumer stays asleep with a due element stored). Proved for one Pop consumer: a published sleeper is woken by a Push that reaches its flag, a timed wait gets back to the queue, a consumer waiting for a claimed wake-up has a sender."
  },
  {
   "property": "C25",
   "status": "partial",
   "theorems": [
    "Gds.DelayQueue.push_returns_refuted",
    "Gds.DelayQueue.abandoned_stays",
    "Gds.DelayQueue.push_progress_partial",
    "Gds.DelayQueue.push_returns_partial",
    "Gds.DelayQueue.push_returns_many",
    "Gds.DelayQueue.lock_released",
    "Gds.DelayQueue.mutual_exclusion"
   ],
   "note": "False of the code (abandoned Push run). Proved: Push can block only in the wake-up hand-over, the mutex is always released, and with one Pop consumer the hand-over always finds its receiver."
  },
  {
   "property": "C26",
   "status": "partial",
   "theorems": [
    "Gds.DelayQueue.poll_partial",
    "Gds.DelayQueue.poll_exact_partial",
    "Gds.DelayQueue.poll_refuted",
    "Gds.DelayQueue.poll_wraps_refuted",
    "Gds.DelayQueue.poll_readonly_partial"
   ],
   "note": "False for undue heads ((zero,true)), and for a head that expired more than 2^63 ms ago (the int64 subtraction wraps around: Poll answers (zero,true), Pop returns the element); everything else of Poll's contract proved on every schedule."
  },
  {
   "property": "C68",
   "status": "proved",
   "theorems": [
    "Gds.Hasher.byteHasher_injective",
    "Gds.Hasher.dwordHasher_injective",
    "Gds.Hasher.qwordHasher_injective",
    "Gds.Hasher.wordHasher_injective",
    "Gds.Hasher.hash_injective",
    "Gds.Hasher.hash_injective_all"
   ],
   "note": "Odd multiplication, rotation and xor-shift are injective; for 16-bit keys the kernel sorts all 65536 values with a checker proved sound."
  },
  {
   "property": "C69",
   "status": "proved",
   "theorems": [
    "Gds.Hasher.byteHasher_eq_string",
    "Gds.Hasher.wordHasher_eq_string",
    "Gds.Hasher.dwordHasher_eq_string",
    "Gds.Hasher.qwordHasher_eq_string",
    "Gds.Hasher.complex128Hasher_eq_string"
   ],
   "note": "All keys."
  },
  {
   "property": "C70",
   "status": "partial",
   "theorems": [
    "Gds.Hasher.hash_defined_partial",
    "Gds.Hasher.hash_defined_refuted",
    "Gds.Hasher.hash_panics_on_defined"
   ],
   "note": "False for defined types; proved for all predeclared types on 32- and 64-bit platforms."
  },
  {
   "property": "C71",
   "status": "partial",
   "theorems": [
    "Gds.SortedSet.new_refuted",
    "Gds.SortedSet.new_partial"
   ],
   "note": "The property is false: every call on the result of New panics."
  },
  {
   "property": "C74",
   "status": "partial",
   "theorems": [
    "Gds.Hasher.float_equal_partial",
    "Gds.Hasher.float_equal_refuted"
   ],
   "note": "False for the two float zeros, true otherwise (for the other types == is equality of bits)."
  },
  {
   "property": "C75",
   "status": "proved",
   "theorems": [
    "Gds.Hasher.one_byte_change",
    "Gds.Hasher.one_byte_change_tail"
   ],
   "note": "All strings shorter than 32 bytes, and the part behind the last stripe of longer ones."
  },
  {
   "property": "C57",
   "status": "partial",
   "theorems": [
    "Gds.RBTree.map_refuted",
    "Gds.RBTree.map_partial",
    "Gds.RBTree.results_partial"
   ],
   "note": "False of the code: the comparison result is shadowed in put, every new node becomes a right child and may drop a subtree. Proved for every history whose new keys exceed all stored keys, with arbitrary deletions."
  },
  {
   "property": "C58",
   "status": "proved",
   "theorems": [
    "Gds.RBTree.balanced"
   ],
   "note": "Every history of every operation, any comparator (misplaced keys included)."
  },
  {
   "property": "C59",
   "status": "proved",
   "theorems": [
    "Gds.RBTree.leftRotate_inorder",
    "Gds.RBTree.rightRotate_inorder"
   ],
   "note": "Every pointer tree and position."
  },
  {
   "property": "C60",
   "status": "partial",
   "theorems": [
    "Gds.RBTree.iter_empty_refuted",
    "Gds.RBTree.iter_stale_refuted",
    "Gds.RBTree.iter_partial",
    "Gds.RBTree.next_enumerates",
    "Gds.RBTree.neighbours_partial"
   ],
   "note": "False of the code (hang on an empty tree, stale first node). Proved for non-empty trees after ascending histories that keep the least key (in any key order: C106); stepping with Next enumerates correctly in every history."
  },
  {
   "property": "C61",
   "status": "partial",
   "theorems": [
    "Gds.RBTree.size_refuted",
    "Gds.RBTree.size_partial",
    "Gds.RBTree.isEmpty_partial",
    "Gds.RBTree.size_bound_partial"
   ],
   "note": "False of the code (PutNode does not count); proved for ascending histories; for every history without PutNode the enumerable entries are at most Size many."
  },
  {
   "property": "C62",
   "status": "proved",
   "theorems": [
    "Gds.RBTree.alloc_fresh",
    "Gds.RBTree.put_takes_fresh",
    "Gds.RBTree.Buf.alloc_size",
    "Gds.RBTree.Buf.free_size",
    "Gds.RBTree.Buf.clear_fillN",
    "Gds.RBTree.Buf.fillN_keeps"
   ],
   "note": "Every history of Alloc and Free with arbitrary writes to nodes in use; and in the tree's own histories."
  },
  {
   "property": "C76",
   "status": "partial",
   "theorems": [
    "Gds.RBTree.calls_terminate",
    "Gds.RBTree.lookups_return",
    "Gds.RBTree.calls_return_partial",
    "Gds.RBTree.calls_return_refuted",
    "Gds.RBTree.plain_panic",
    "Gds.RBTree.one_low_delete_returns"
   ],
   "note": "False in general (plain_panic: six Puts and Deletes of -1, -2, 1); no history runs forever, none panics if no key is below the zero value, and none without PutNode that deletes a key below it at most once. Exactly when: C117."
  },
  {
   "property": "C77",
   "status": "partial",
   "theorems": [
    "Gds.RBTree.delete_returns_refuted",
    "Gds.RBTree.delete_returns_partial"
   ],
   "note": "False of the code; in ascending histories the returned node holds the deleted entry or its successor."
  },
  {
   "property": "C63",
   "status": "proved",
   "theorems": [
    "Gds.BPlus.insert_histories",
    "Gds.BPlus.insert_distinct"
   ],
   "note": "All insertion histories, duplicates included; degree >= 2 and any lawful comparator."
  },
  {
   "property": "C64",
   "status": "partial",
   "theorems": [
    "Gds.BPlus.read_sound",
    "Gds.BPlus.read_complete_partial",
    "Gds.BPlus.order_partial",
    "Gds.BPlus.read_exact",
    "Gds.BPlus.read_complete_iff",
    "Gds.BPlus.small_map_partial",
    "Gds.BPlus.read_complete_refuted"
   ],
   "note": "Soundness for all histories. Completeness is false of the code; proved for keys that equal no separator (trees made by insertions and deletions of least keys, and all histories with fewer than 2M(M-1) insertions) and for maps with at most 2M-1 insertions. For insertion-only histories with distinct keys the set of found keys is characterised exactly (C105)."
  },
  {
   "property": "C65",
   "status": "partial",
   "theorems": [
    "Gds.BPlus.delete_exact_refuted",
    "Gds.BPlus.delete_least_partial",
    "Gds.BPlus.small_map_partial",
    "Gds.BPlus.worst_case_step"
   ],
   "note": "False of the code (borrowing from the left sibling destroys an entry). The worst case is bounded on every tree (C102). Exactness is proved for deletions of a least key and for maps with at most 2M-1 insertions."
  },
  {
   "property": "C66",
   "status": "partial",
   "theorems": [
    "Gds.BPlus.cleared_forever",
    "Gds.BPlus.clear_usable_refuted"
   ],
   "note": "Size 0 and nothing found is proved; insertions after Clear are reported as successful and lost."
  },
  {
   "property": "C67",
   "status": "partial",
   "theorems": [
    "Gds.BPlus.deleteByWholeMapping_partial",
    "Gds.BPlus.deleteByWholeMapping_refuted"
   ],
   "note": "False of the code: it deletes iff the stored value is less than the given one."
  },
  {
   "property": "C78",
   "status": "proved",
   "theorems": [
    "Gds.BPlus.structure_all_histories",
    "Gds.BPlus.description_unique"
   ],
   "note": "Every history, every comparator, degree >= 2."
  },
  {
   "property": "C79",
   "status": "proved",
   "theorems": [
    "Gds.BPlus.depth_bounds"
   ],
   "note": "Every history, every comparator, degree >= 2."
  },
  {
   "property": "C53",
   "status": "proved",
   "theorems": [
    "Gds.LockFree.linearizable",
    "Gds.LockFree.add_result",
    "Gds.LockFree.del_result",
    "Gds.LockFree.has_result"
   ],
   "note": "All interleavings of atomic accesses of any number of goroutines; full Herlihy-Wing linearizability plus the instants of each result."
  },
  {
   "property": "C54",
   "status": "proved",
   "theorems": [
    "Gds.LockFree.bottom_sorted",
    "Gds.LockFree.elements",
    "Gds.LockFree.set_changes",
    "Gds.LockFree.starts_empty"
   ],
   "note": "Every instant of every run."
  },
  {
   "property": "C55",
   "status": "proved",
   "theorems": [
    "Gds.LockFree.len_quiescent",
    "Gds.LockFree.size_bounds",
    "Gds.LockFree.len_result",
    "Gds.LockFree.len_can_be_negative"
   ],
   "note": "The counter is an int32: fewer than 2^31 elements are assumed."
  },
  {
   "property": "C56",
   "status": "proved",
   "theorems": [
    "Gds.LockFree.randomLevel_range",
    "Gds.LockFree.randomLevel_onto",
    "Gds.LockFree.get_result",
    "Gds.LockFree.get_of_absent",
    "Gds.LockFree.rank_is_position_refuted"
   ],
   "note": "Get is the ceiling at an instant of the call even under concurrency; the refutation shows that Rank is not the position of the element."
  },
  {
   "property": "C80",
   "status": "proved",
   "theorems": [
    "Gds.LockFree.never_panics",
    "Gds.LockFree.never_blocks"
   ],
   "note": "Every instant of every run."
  },
  {
   "property": "C81",
   "status": "proved",
   "theorems": [
    "Gds.LockFree.lock_free"
   ],
   "note": "Every infinite run of finitely many goroutines."
  },
  {
   "property": "C82",
   "status": "proved",
   "theorems": [
    "Gds.LockFree.levels_sorted"
   ],
   "note": "Every instant of every run."
  },
  {
   "property": "C83",
   "status": "partial",
   "theorems": [
    "Gds.Stream.parallel_foldWith_partial",
    "Gds.Stream.parallel_sum_partial",
    "Gds.Stream.parallel_max_partial",
    "Gds.Stream.parallel_min_partial",
    "Gds.Stream.parallel_allMatch_partial",
    "Gds.Stream.parallel_anyMatch_partial",
    "Gds.Stream.parallel_max_refuted"
   ],
   "note": "False of the code in general; proved for p dividing len(s)>0 (Max, Min, AllMatch, AnyMatch without Filter); refuted for Max behind a Filter."
  },
  {
   "property": "C84",
   "status": "partial",
   "theorems": [
    "Gds.Stream.foldWith_short_never_returns",
    "Gds.Stream.collect_short_never_returns",
    "Gds.Stream.tryFold_short_never_returns",
    "Gds.Stream.foldWith_empty_deadlocks",
    "Gds.Stream.parallel_foldWith_partial",
    "Gds.Stream.parCollect_slice",
    "Gds.Stream.parFold_too_few",
    "Gds.Stream.parFold_stops"
   ],
   "note": "The negative results hold on every schedule; returning is part of parallel_*_partial and of parCollect_slice."
  },
  {
   "property": "C85",
   "status": "proved",
   "theorems": [
    "Gds.Hasher.hash_xxh64",
    "Gds.Hasher.stringHasher_xxh64"
   ],
   "note": "Independent specification Hasher/XXH64.lean, written from the published algorithm and checked against four published test vectors."
  },
  {
   "property": "C86",
   "status": "partial",
   "theorems": [
    "Gds.RBTree.split_sequential_partial",
    "Gds.RBTree.split_parallel_partial",
    "Gds.RBTree.split_empty",
    "Gds.RBTree.split_too_many_refuted",
    "Gds.RBTree.split_empty_hang_refuted"
   ],
   "note": "Proved for ascending histories that keep the first node and 1<=p<=Size or p<=0 (empty tree: p>=1); refuted for p>Size (endless empty segments) and for p<=0 on an empty tree (hang)."
  },
  {
   "property": "C87",
   "status": "partial",
   "theorems": [
    "Gds.RBTree.leftMost_partial",
    "Gds.RBTree.rightMost_partial",
    "Gds.RBTree.rightMost_refuted",
    "Gds.RBTree.iter_stale_refuted"
   ],
   "note": "False of the code: RightMost after deleting a key that is not the greatest is the node of the key before it (or nil), whenever the deleted key is not below the zero key; LeftMost can be a deleted node. Proved: LeftMost for ascending histories that keep the first node, RightMost for ascending Puts."
  },
  {
   "property": "C88",
   "status": "proved",
   "theorems": [
    "Gds.RBTree.lookup_sound"
   ],
   "note": "Every history that returns, including PutNode and misplaced keys."
  },
  {
   "property": "C89",
   "status": "proved",
   "theorems": [
    "Gds.Iter.fromChan_fifo",
    "Gds.Iter.fromChan_end",
    "Gds.Iter.fromChan_progress"
   ],
   "note": "Transition system of a Go channel with any number of senders and callers."
  },
  {
   "property": "C90",
   "status": "partial",
   "theorems": [
    "Gds.Stream.tree_stream_partial",
    "Gds.Stream.tree_stream_any",
    "Gds.Stream.skipList_stream",
    "Gds.Stream.list_stream",
    "Gds.Stream.ofTree_source_partial",
    "Gds.Stream.ofSkipList_source",
    "Gds.Stream.ofList_source",
    "Gds.Stream.zip_list_cycles",
    "Gds.Stream.tree_stream_refuted",
    "Gds.Stream.skipList_stream_refuted",
    "Gds.Stream.list_stream_refuted"
   ],
   "note": "Proved for every p up to the number of elements (FoldWith: p=0 or p divides it); trees: ascending histories keeping the first key. The *_source theorems make the containers sources of all sequential pipelines of C32-C40. Refuted for p above the number of elements (never returns) and for Zip with a shorter linked list (exact behaviour proved)."
  },
  {
   "property": "C91",
   "status": "partial",
   "theorems": [
    "Gds.Stream.collect_parallel_pipeline_partial",
    "Gds.Stream.foldWith_parallel_pipeline_partial",
    "Gds.Stream.parZip_partial",
    "Gds.Stream.parZip_refuted"
   ],
   "note": "Every pipeline shape, source that splits, and schedule; Zip needs sides with equally long segments (slices of the same length); refuted for different lengths."
  },
  {
   "property": "C92",
   "status": "partial",
   "theorems": [
    "Gds.LinkedList.live_iter_refines",
    "Gds.LinkedList.live_iter_once",
    "Gds.LinkedList.live_iter_removed_refuted"
   ],
   "note": "Every interleaving of pulls and legal operations on any number of lists; removing the element delivered last makes the next pull panic (refuted on every list)."
  },
  {
   "property": "C93",
   "status": "partial",
   "theorems": [
    "Gds.Stream.chain_collect_rounds",
    "Gds.Stream.chain_collect_partial",
    "Gds.Stream.chain_fold_partial",
    "Gds.Stream.chain_parallel_collect",
    "Gds.Stream.chain_parallel_fold_hangs",
    "Gds.Stream.chain_order_refuted"
   ],
   "note": "False of the code: segments of parallel streams are interleaved round by round (the exact order is chain_collect_rounds); exactly once and, with at most one segment per stream, in order."
  },
  {
   "property": "C94",
   "status": "proved",
   "theorems": [
    "Gds.RBTree.nodes_navigable",
    "Gds.RBTree.prev_next"
   ],
   "note": "Every history of every operation, any comparator (misplaced keys included)."
  },
  {
   "property": "C95",
   "status": "partial",
   "theorems": [
    "Gds.RBTree.string_partial",
    "Gds.RBTree.string_emptied",
    "Gds.RBTree.string_refuted"
   ],
   "note": "False of the code: never returns on a new or cleared map. Proved for non-empty maps after ascending histories that keep the first node, and for maps emptied by Delete."
  },
  {
   "property": "C96",
   "status": "proved",
   "theorems": [
    "Gds.RBTree.setValue_exact",
    "Gds.RBTree.setValue_deleted",
    "Gds.RBTree.setValue_put_partial"
   ],
   "note": "Every history that returns and any comparator; that every node of the tree is reached by a lookup of its key needs ascending histories (setValue_put_partial)."
  },
  {
   "property": "C97",
   "status": "partial",
   "theorems": [
    "Gds.RBTree.iter_delete_partial",
    "Gds.RBTree.iter_delete_other",
    "Gds.RBTree.iter_put_partial",
    "Gds.RBTree.iter_delete_refuted"
   ],
   "note": "False of the code: exact outcome for every history when the last delivered entry is deleted (the next one is repeated iff the node had two children and its right child none); other pending entries may be deleted freely; Puts as in ascending histories."
  },
  {
   "property": "C98",
   "status": "proved",
   "theorems": [
    "Gds.SkipList.string_exact"
   ],
   "note": "Every history, any comparator."
  },
  {
   "property": "C99",
   "status": "proved",
   "theorems": [
    "Gds.SkipList.iter_insert"
   ],
   "note": "Every interleaving of insertions (and Deletes, which never remove anything: C51) with calls of one iterator."
  },
  {
   "property": "C100",
   "status": "partial",
   "theorems": [
    "Gds.SkipList.iter_deleteRange_partial",
    "Gds.SkipList.iter_deleteRange_refuted"
   ],
   "note": "False of the code; the exact outcome is proved for every list, position, range and comparator."
  },
  {
   "property": "C101",
   "status": "partial",
   "theorems": [
    "Gds.RBTree.put_exact",
    "Gds.RBTree.put_no_loss",
    "Gds.RBTree.smaller_keys_lost",
    "Gds.RBTree.put_keeps_refuted"
   ],
   "note": "False of the code; the exact effect of Put on the enumeration is proved for every history and comparator: at most one entry is lost, the right child of the node where the search left the tree."
  },
  {
   "property": "C102",
   "status": "proved",
   "theorems": [
    "Gds.BPlus.worst_case",
    "Gds.BPlus.worst_case_step",
    "Gds.BPlus.loss_bound"
   ],
   "note": "Every history that returns, every comparator, every degree >= 2."
  },
  {
   "property": "C103",
   "status": "partial",
   "theorems": [
    "Gds.BPlus.order_partial",
    "Gds.BPlus.delete_keeps_order",
    "Gds.BPlus.order_refuted"
   ],
   "note": "False of the code for trees of three levels; proved for all histories with fewer than 2M(M-1) insertions, and for every single deletion on every tree."
  },
  {
   "property": "C104",
   "status": "proved",
   "theorems": [
    "Gds.RBTree.calls_effect",
    "Gds.RBTree.delete_present",
    "Gds.RBTree.delete_absent",
    "Gds.RBTree.size_gap",
    "Gds.RBTree.first_stays"
   ],
   "note": "Every history that returns, any comparator (misplaced keys included). When a deletion panics is C76."
  },
  {
   "property": "C105",
   "status": "proved",
   "theorems": [
    "Gds.BPlus.read_exact",
    "Gds.BPlus.read_complete_iff",
    "Gds.BPlus.unique_small"
   ],
   "note": "All insertion histories that leave distinct keys (duplicates are possible with InsertEqual, and with InsertUnique of a missed key); any number of levels."
  },
  {
   "property": "C106",
   "status": "proved",
   "theorems": [
    "Gds.RBTree.shows_first_kept",
    "Gds.RBTree.shows_any_order",
    "Gds.RBTree.delete_first_iff",
    "Gds.RBTree.put_ends",
    "Gds.RBTree.delete_ends"
   ],
   "note": "Histories without PutNode (which breaks Size, C61). The nodes are those reached by Next/Prev (C94), including misplaced ones (C101)."
  },
  {
   "property": "C107",
   "status": "proved",
   "theorems": [
    "Gds.LockFree.rank_alone",
    "Gds.LockFree.rank_quiet",
    "Gds.LockFree.rank_disturbed",
    "Gds.LockFree.rank_is_position_refuted"
   ],
   "note": "Rank is not the position (C56); this is what it is. Fewer than 2^31 elements for the version in terms of the number of elements."
  },
  {
   "property": "C108",
   "status": "proved",
   "theorems": [
    "Gds.Stream.allMatch_outcomes",
    "Gds.Stream.anyMatch_outcomes",
    "Gds.Stream.allMatch_uneven_wrong",
    "Gds.Stream.anyMatch_uneven_wrong",
    "Gds.Stream.allMatch_goroutines",
    "Gds.Stream.allMatch_even_all_exit",
    "Gds.Stream.parTry_outcome",
    "Gds.Stream.parTry_returns",
    "Gds.Stream.parTry_true_reached",
    "Gds.Stream.parTry_false_reached",
    "Gds.Stream.parTry_all_exit",
    "Gds.Stream.parTry_leak_reached"
   ],
   "note": "Stated for plain slice streams; the parTry_ theorems hold for every stream that splits into segments (maps, filters, chains of them)."
  },
  {
   "property": "C109",
   "status": "proved",
   "theorems": [
    "Gds.DelayQueue.push_returns_many",
    "Gds.DelayQueue.wakeup_many",
    "Gds.DelayQueue.deaf_step",
    "Gds.DelayQueue.deaf_for_ever",
    "Gds.DelayQueue.two_consumers_refuted",
    "Gds.DelayQueue.two_consumers_stranded",
    "Gds.DelayQueue.two_timers_refuted"
   ],
   "note": "push_returns_many says that the hand-over can always happen (it is enabled after at most two steps of the consumers), not that a scheduler is fair."
  },
  {
   "property": "C110",
   "status": "proved",
   "theorems": [
    "Gds.Stream.foldWith_flow",
    "Gds.Stream.collect_flow",
    "Gds.Stream.first_flow",
    "Gds.Stream.reduce_flow",
    "Gds.Stream.flow_finishes",
    "Gds.Stream.flow_panics_iff",
    "Gds.Stream.flow_elements",
    "Gds.Stream.flow_prefix",
    "Gds.Stream.Flow.plays",
    "Gds.Stream.ofList_again",
    "Gds.Stream.Source.behaving",
    "Gds.Stream.chain_empty"
   ],
   "note": "Without the side condition Fits of C32-C40. reduce_flow is for pipelines without Take, Skip and Enumerate (their counters survive the first activation, C36). Simplifications of Stream/Model.lean apply (callbacks of Map, Filter, ... are pure; each use of a stream value has its own counters)."
  },
  {
   "property": "C111",
   "status": "proved",
   "theorems": [
    "Gds.SkipList.puts_row",
    "Gds.SkipList.lookup_exact",
    "Gds.SkipList.puts_distinct",
    "Gds.SkipList.found_always_iff",
    "Gds.SkipList.found_sometimes",
    "Gds.SkipList.all_found_iff_decreasing",
    "Gds.SkipList.zero_key_exact",
    "Gds.SkipList.randomLevel_exact",
    "Gds.SkipList.heightOf_onto"
   ],
   "note": "Makes C48 and C49 exact: sorted_map_partial covers precisely the histories in which every lookup is reliable."
  },
  {
   "property": "C112",
   "status": "proved",
   "theorems": [
    "Gds.SkipList.history_row",
    "Gds.SkipList.step_row",
    "Gds.SkipList.lookup_exact",
    "Gds.SkipList.runAns_run",
    "Gds.SkipList.level_top"
   ],
   "note": "The specification (ride, glide, seek, cut, rowStep) is about 60 lines; integers are unbounded, the comparator is pure."
  },
  {
   "property": "C113",
   "status": "proved",
   "theorems": [
    "Gds.RBTree.put_break",
    "Gds.RBTree.put_others_kept",
    "Gds.RBTree.case_right",
    "Gds.RBTree.case_new_hidden",
    "Gds.RBTree.case_old_hidden"
   ],
   "note": "The damage a correct program would not do (C57, C101) is the subject; the three case_ theorems are kernel-checked runs of the model showing that every case occurs."
  },
  {
   "property": "C114",
   "status": "proved",
   "theorems": [
    "Gds.RBTree.history_exact",
    "Gds.RBTree.history_exact_returns",
    "Gds.RBTree.history_exact_same"
   ],
   "note": "history_exact: the model's answers, with any comparator, are those of the pure description FT.run or a call dereferences nil; history_exact_returns: no nil dereference when 0 <= cmp k z for all k; history_exact_same: histories the description cannot tell apart are followed by the same answers."
  },
  {
   "property": "C115",
   "status": "proved",
   "theorems": [
    "Gds.BPlus.history_exact",
    "Gds.BPlus.panics_iff",
    "Gds.BPlus.next_call_exact"
   ],
   "note": "history_exact: answers, size, reads, entries and panics are those of FMap.run; panics_iff: a history panics iff the pure program says so; next_call_exact: one further call after any history."
  },
  {
   "property": "C116",
   "status": "partial",
   "theorems": [
    "Gds.BPlus.delete_panics",
    "Gds.BPlus.small_returns_partial",
    "Gds.BPlus.delete_returns_partial",
    "Gds.BPlus.first_delete_returns",
    "Gds.BPlus.panics_iff"
   ],
   "note": "False of the code (delete_panics, found by searching with the pure program of C115). Proved: every history with fewer than 2M(M-1) insertions returns; on every tree built by insertions and deletions of missing or least keys, a deletion of any key returns; in general a history panics iff the pure program of C115 says so."
  },
  {
   "property": "C117",
   "status": "proved",
   "theorems": [
    "Gds.RBTree.delete_panics_iff",
    "Gds.RBTree.deleteMapping_panics_iff",
    "Gds.RBTree.others_return",
    "Gds.RBTree.one_low_delete_returns",
    "Gds.RBTree.plain_panic",
    "Gds.RBTree.plain_before"
   ],
   "note": "DeleteKeys panics iff one of the Deletes it performs does (by its definition). The plain panic was found by random search with the model."
  },
  {
   "property": "C118",
   "status": "partial",
   "theorems": [
    "Gds.BPlus.modify_history_exact",
    "Gds.BPlus.modify_value",
    "Gds.BPlus.held_wrong_entry",
    "Gds.BPlus.held_lost",
    "Gds.BPlus.pointerStays_refuted",
    "Gds.BPlus.pointerStays_partial"
   ],
   "note": "The first sentence is proved in full (modify_history_exact, modify_value). The second is false: after Insert 5, p := GetEntry(5), Insert 3, p shows key 3 and p.Val = 99 changes Get(3) (held_wrong_entry); when the leaf is split, p.Val = 99 is lost (held_lost). Proved part: writes of values through any pointer leave every pointer the pointer of its entry (pointerStays_partial)."
  },
  {
   "property": "C119",
   "status": "partial",
   "theorems": [
    "Gds.RBTree.handles_exact",
    "Gds.RBTree.delete_nodes",
    "Gds.RBTree.put_nodes",
    "Gds.RBTree.held_node_lost",
    "Gds.RBTree.nodeStays_refuted",
    "Gds.RBTree.nodeStays_partial"
   ],
   "note": "The first sentence is proved in full (handles_exact). The second is false: Delete of a key whose node has two children moves the next entry into that node and takes the next node out (Put 1, 2, 3; Delete 2: writing to the old node of 3 is lost, held_node_lost); Put may drop a node (C101). What each call does to the nodes, exactly: delete_nodes, put_nodes; nodeStays_partial: deleting a key whose node lacks a child leaves every other node and its entry."
  },
  {
   "property": "C120",
   "status": "proved",
   "theorems": [
    "Gds.BPlus.init_new",
    "Gds.RBTree.lives_exact",
    "Gds.RBTree.init_new",
    "Gds.SkipList.init_new"
   ],
   "note": "Red-black tree: a call may dereference nil exactly as on a new tree (C117). The comparator is an argument of the modelled calls; Init's assignment of it is the change of that argument."
  },
  {
   "property": "C121",
   "status": "proved",
   "theorems": [
    "Gds.Iter.many_in_order",
    "Gds.Iter.many_then_end",
    "Gds.Iter.many_each",
    "Gds.Iter.many_quiet_iff",
    "Gds.Iter.many_leak",
    "Gds.Iter.many_stop_ends",
    "Gds.Iter.ofList_honours"
   ],
   "note": "Transition system with numbered callers; a caller has at most one call under way."
  },
  {
   "property": "C122",
   "status": "partial",
   "theorems": [
    "Gds.Iter.stopEnds_refuted",
    "Gds.Iter.many_after_stop",
    "Gds.Iter.stopEnds_partial"
   ],
   "note": "False: after stop the select may go on choosing the send, so later calls may receive any number of values, even all of them. What holds: once the goroutine has ended (C121: it does, when push honours false) every call reports the end, for ever."
  },
  {
   "property": "C123",
   "status": "proved",
   "theorems": [
    "Gds.PQ.any_comparator",
    "Gds.PQ.calls_of_one",
    "Gds.PQ.push_calls_tight",
    "Gds.PQ.runE_pure"
   ],
   "note": "The code with a comparator that carries state is modelled a second time, call by call; runE_pure proves that for comparators without influence on the answers it is the model of C16."
  },
  {
   "property": "C124",
   "status": "proved",
   "theorems": [
    "Gds.RBTree.any_comparator",
    "Gds.RBTree.calls_of_one",
    "Gds.RBTree.callsE_pure"
   ],
   "note": "The code with a comparator that carries state is modelled a second time, call by call; callsE_pure proves that for comparators whose state does not influence their answers it is the model of C57. The entries lost by Put are the defect of C57/C101, here bounded for every comparator."
  },
  {
   "property": "C125",
   "status": "proved",
   "theorems": [
    "Gds.Fn.comp64_value",
    "Gds.Fn.comp64_nan",
    "Gds.Fn.comp64_zero",
    "Gds.Fn.comp64_threeWay",
    "Gds.Fn.comp64_lawful_iff",
    "Gds.NaN.rbtree_nan",
    "Gds.NaN.skiplist_nan",
    "Gds.NaN.bplus_nan",
    "Gds.NaN.pq_nan_refuted"
   ],
   "note": "float64 is its bit pattern, with the value defined from sign, exponent and fraction as in IEEE 754; that equality of values is Go's == (C74) is proved (fval_eq). The container theorems are for any key that compares equal to every key. float32 and the string and integer instances are C01 (a linear order)."
  },
  {
   "property": "C126",
   "status": "proved",
   "theorems": [
    "Gds.SkipList.level_count",
    "Gds.SkipList.level_tail",
    "Gds.LockFree.level_count"
   ],
   "note": "Counts over the values of Uint64 and of the coin tosses; that the generator returns them with equal frequency is not claimed."
  },
  {
   "property": "C127",
   "status": "proved",
   "theorems": [
    "Gds.SkipList.get_any",
    "Gds.SkipList.get_calls",
    "Gds.SkipList.average_calls"
   ],
   "note": "The list is any one built by a history (Built, from run_row). The comparator is a function with state. average_calls is a statement about counts of draws: it is the average number of calls if the draws are uniform and independent."
  },
  {
   "property": "C128",
   "status": "proved",
   "theorems": [
    "Gds.BPlus.any_comparator",
    "Gds.BPlus.calls_of_one",
    "Gds.BPlus.callsE_pure"
   ],
   "note": "callsE_pure: with a comparator whose answers depend on its arguments alone these calls are those of the model of C63-C67. Specification: AnyStep, AnyRun, callBound in BPlus/Calls.lean, Holds in BPlus/Spec.lean. That Delete can overwrite an entry is the defect of C65; that it can panic is shown by an example."
  },
  {
   "property": "C129",
   "status": "proved",
   "theorems": [
    "Gds.Stream.foldWith_elementwise",
    "Gds.Stream.collect_elementwise",
    "Gds.Stream.first_elementwise",
    "Gds.Stream.reduce_elementwise",
    "Gds.Stream.tryFold_elementwise",
    "Gds.Stream.allMatch_elementwise",
    "Gds.Stream.anyMatch_elementwise",
    "Gds.Stream.inspect_inspect_collect",
    "Gds.Stream.inspect_take_collect",
    "Gds.Stream.filter_inspect_collect",
    "Gds.Stream.mapE_pure",
    "Gds.Stream.filterE_pure",
    "Gds.Stream.skipWhileE_pure",
    "Gds.Stream.foldWithE_pure",
    "Gds.Stream.Stages.pulled",
    "Gds.Stream.Stages.counts_init"
   ],
   "note": "Stages is the syntax of pipelines, Stages.one sends one element through the callbacks, pass / next / passTry do so element by element; Chain, FlatMap and Zip are not part of these pipelines (C32, C93 and C110 treat them, with pure callbacks)"
  },
  {
   "property": "C130",
   "status": "proved",
   "theorems": [
    "Gds.Slice.equalFuncE_spec",
    "Gds.Slice.compareFuncE_spec",
    "Gds.Slice.indexFuncE_spec",
    "Gds.Slice.equalFunc_calls",
    "Gds.Slice.compareFunc_calls",
    "Gds.Slice.indexFunc_calls",
    "Gds.Slice.containsFunc_calls",
    "Gds.Slice.compactFuncE_spec",
    "Gds.Slice.keepE_pure",
    "Gds.Slice.keepE_counts"
   ],
   "note": "the _spec theorems are for callbacks with state, the _calls theorems give the list of calls when the answers depend on the arguments alone and show that the results are those of C12 and C13; callbacks that write into the slices themselves are not modelled"
  },
  {
   "property": "C131",
   "status": "proved",
   "theorems": [
    "Gds.SkipList.any_comparator",
    "Gds.SkipList.stateless_comparator",
    "Gds.SkipList.stateless_lookups"
   ],
   "note": "AnyStep lists what each call may answer and do, Seen what the lookups may return; the examples show how far a comparator that disagrees with itself can bring it (Size 2, one entry forwards, three backwards; a deleted key found again), so that the specification cannot promise more there; stateless_comparator links the model to that of C112. The comparator of DeleteByWholeMapping for values has no state, and a comparator that calls the list itself is not modelled."
  },
  {
   "property": "C132",
   "status": "proved",
   "theorems": [
    "Gds.Stream.parFold_interleaves",
    "Gds.Stream.parCollect_interleaves",
    "Gds.Stream.parFold_every_interleaving",
    "Gds.Stream.parCollect_every_interleaving",
    "Gds.Stream.parFold_effects",
    "Gds.Stream.parCollect_effects",
    "Gds.Stream.Ops.alone_next"
   ],
   "note": "Interleaves is the specification; Ops.whole lists the calls of a segment, and pass_whole, used for the commuting case, says it is the pass of C129. alone_next: the coroutine run alone answers what the pull function of C129 answers, whatever the callbacks do. Take, Skip and Enumerate (shared counters: C44) and TryFold are not in these pipelines; a callback whose answer depends on what other goroutines have done, and one that is not atomic (a data race), are not modelled; the combiner has no effects."
  },
  {
   "property": "C133",
   "status": "proved",
   "theorems": [
    "Gds.Stream.parTry_calls",
    "Gds.Stream.parTry_ends",
    "Gds.Stream.parAllMatch_calls",
    "Gds.Stream.parAnyMatch_calls",
    "Gds.Stream.parFirst_calls",
    "Gds.Stream.parAllMatch_whole",
    "Gds.Stream.parAnyMatch_whole",
    "Gds.Stream.parAllMatch_once_refuted",
    "Gds.Stream.parTry_calls_after_return"
   ],
   "note": "Ops.upto is the specification (the calls of a TryFold over a list, up to the refusal); upto_all links it to the calls of C132, toFirst_arrivals First to what arrives. parAllMatch_once_refuted: 'the predicate is called once per element' is false (six calls for four elements); parTry_calls_after_return: a run in which the predicate is called after AllMatch has returned. The numbers of segments for which TryFold does not return are C43, C84 and C108."
  },
  {
   "property": "C134",
   "status": "proved",
   "theorems": [
    "Gds.LinkedList.live_split_refines",
    "Gds.LinkedList.live_split_once",
    "Gds.LinkedList.live_split_at_most_once",
    "Gds.LinkedList.live_split_no_panic",
    "Gds.LinkedList.live_split_removed",
    "Gds.LinkedList.live_split_insert_refuted",
    "Gds.LinkedList.live_split_remove_refuted",
    "Gds.LinkedList.live_split_lost_refuted"
   ],
   "note": "Everything claimed is proved; what one would also expect - every element that stays in the list is delivered once whatever is inserted or removed (as for Iter, C92) - is false: an insertion into a segment makes an element behind it disappear (live_split_insert_refuted), a removal makes one appear twice (live_split_remove_refuted) or loses all that the segmenter has not handed out (live_split_lost_refuted). Insertions alone never make anything appear twice (live_split_at_most_once)."
  },
  {
   "property": "C135",
   "status": "proved",
   "theorems": [
    "Gds.SkipList.live_split_refines",
    "Gds.SkipList.live_split_at_most_once",
    "Gds.SkipList.live_split_all",
    "Gds.SkipList.live_split_insert_refuted"
   ],
   "note": "Everything claimed is proved; what one would also expect - an entry that stays in the list is delivered (as for Iter) - is false: an insertion into a segment makes an entry between two segments disappear (live_split_insert_refuted)."
  },
  {
   "property": "C136",
   "status": "partial",
   "theorems": [
    "Gds.RBTree.live_split_refines",
    "Gds.RBTree.live_split_once",
    "Gds.RBTree.live_split_delete_refuted",
    "Gds.RBTree.live_split_lost_refuted",
    "Gds.RBTree.live_split_put_refuted"
   ],
   "note": "Proved for ascending Puts; false with Delete (an entry delivered twice: live_split_delete_refuted; all that has not been handed out never delivered: live_split_lost_refuted) and with a Put of a smaller key (live_split_put_refuted)."
  },
  {
   "property": "C137",
   "status": "proved",
   "theorems": [
    "Gds.RBTree.raised_unchanged",
    "Gds.RBTree.raised_history",
    "Gds.RBTree.raised_as_if_absent"
   ],
   "note": "The model passes the comparator's panic and the tree at that moment up to the caller; the theorems hold for every comparator."
  },
  {
   "property": "C138",
   "status": "partial",
   "theorems": [
    "Gds.BPlus.raised_insert_refuted",
    "Gds.BPlus.raised_split_refuted",
    "Gds.BPlus.raised_search_partial",
    "Gds.BPlus.raised_small_partial",
    "Gds.BPlus.raised_returned_partial"
   ],
   "note": "False for InsertUnique (raised_insert_refuted: an entry of the leaf is lost; raised_split_refuted: half of the tree is lost). Proved for lookups, and exactly which damage is possible while the tree is one leaf; Delete and deeper trees are not covered by raised_small_partial; in every tree a call that returns is the call of C128 (raised_returned_partial)."
  },
  {
   "property": "C139",
   "status": "partial",
   "theorems": [
    "Gds.PQ.raised_bag_partial",
    "Gds.PQ.raised_returned_partial",
    "Gds.PQ.raised_pop_refuted",
    "Gds.PQ.raised_push_refuted"
   ],
   "note": "The bag is kept by every history (raised_bag_partial), and up to the first panic the history is that of C123 (raised_returned_partial); the order and the atomicity of Push are not (raised_pop_refuted, raised_push_refuted)."
  },
  {
   "property": "C140",
   "status": "proved",
   "theorems": [
    "Gds.SkipList.raised_unchanged",
    "Gds.SkipList.raised_deleteKeys",
    "Gds.SkipList.raised_history",
    "Gds.SkipList.raised_as_if_absent"
   ],
   "note": "The model passes the comparator's panic and the list at that moment up to the caller; the theorems hold for every comparator. The comparator for values of DeleteByWholeMapping does not panic here."
  },
  {
   "property": "C141",
   "status": "partial",
   "theorems": [
    "Gds.DelayQueue.expiration_jams_refuted",
    "Gds.DelayQueue.jam_refuted",
    "Gds.DelayQueue.jammed_for_ever",
    "Gds.DelayQueue.calls_hang_refuted",
    "Gds.DelayQueue.compare_refuted",
    "Gds.DelayQueue.asleep_stays_raised",
    "Gds.DelayQueue.raised_conservation_partial",
    "Gds.DelayQueue.raised_removed_partial",
    "Gds.DelayQueue.raised_never_early_partial",
    "Gds.DelayQueue.raised_exclusion_partial",
    "Gds.DelayQueue.raised_released_partial"
   ],
   "note": "The claim is false of the code: Push calls Expiration while it holds the mutex and has no deferred unlock, so after such a panic, in whatever state, the mutex stays locked for ever: nothing is stored, removed or polled any more and every call that begins hangs at its first line. A panic of the comparator comes after the element was stored and before the wake-up: a consumer that sleeps with its flag set sleeps on although a due element is stored, where the same Push without the panic wakes it. Proved instead, on every schedule with panics: conservation, no early delivery, mutual exclusion; and, if Expiration never panics, that the mutex is released."
  },
  {
   "property": "C142",
   "status": "proved",
   "theorems": [
    "Gds.LockFree.raised_linearizable",
    "Gds.LockFree.raised_set_changes",
    "Gds.LockFree.raised_elements",
    "Gds.LockFree.raised_levels_sorted",
    "Gds.LockFree.raised_never_panics",
    "Gds.LockFree.raised_never_blocks",
    "Gds.LockFree.raised_size_bounds",
    "Gds.LockFree.raised_len_refuted"
   ],
   "note": "raised_len_refuted is the run in which Len stays behind: set {3, 5}, counter 1, nobody in a call. Len's bounds assume fewer than 2^31 elements and calls, as in C55."
  },
  {
   "property": "C143",
   "status": "proved",
   "theorems": [
    "Gds.Slice.raised_compactFunc",
    "Gds.Slice.raised_nothing_lost",
    "Gds.Slice.raised_nothing_new",
    "Gds.Slice.raised_unchanged_refuted",
    "Gds.Slice.keepP_sublist",
    "Gds.Slice.keepP_prefix",
    "Gds.Slice.keepP_total",
    "Gds.Slice.keepP_covers"
   ],
   "note": "keepP is the specification: what is kept of a list until the panic; keepP_total ties it to C130, keepP_prefix says the panic only cuts the work short. raised_unchanged_refuted shows the slice is neither unchanged nor compacted."
  },
  {
   "property": "C144",
   "status": "proved",
   "theorems": [
    "Gds.RBTree.setCompare_first",
    "Gds.RBTree.setCompare_usable",
    "Gds.RBTree.setCompare_unset",
    "Gds.RBTree.setCompare_history"
   ],
   "note": "a call of a nil function value is a comparator that panics (C137). setCompare_usable and setCompare_history speak of histories that return; the nil dereferences of the tree itself are those of C117."
  }
 ]
}