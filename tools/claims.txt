C01 proved | Gds.Fn | comp_cases comp_range comp_swap comp_trans comp_strict | Comp over any linear order; NaN excluded because a linear order has none.
C02 partial | Gds.Fn | compose_apply andThen_apply compose_assoc predicate_and_iff predicate_or_iff predicate_negate_iff not_iff predicate_deMorgan_and predicate_deMorgan_or predicate_negate_negate consumer_andThen binConsumer_andThen binPredicate_and_iff binPredicate_negate_iff binPredicate_or_refuted binPredicate_or_partial | Everything holds except BinPredicate.Or, which computes And (binPredicate_or_refuted).
C03 proved | Gds.Iter | fromSlice_pulls Gds.Slice.iter_eq_fromSlice Gds.Slice.iter_pulls | FromSlice and Slice.Iter.
C04 partial | Gds.Iter | castToPush_stops castToPush_any castToPush_any_refused visit_log Gds.Slice.all_visit iterAll_visits_everything iterAll_stops_refuted | CastToPush proved for every iterator; Iter.All ignores the callback (refuted).
C05 proved | Gds.Iter | castToPull_in_order castToPull_values_then_end castToPull_progress castToPull_terminates castToPull_prefix castToPull_complete castToPull_stop_releases castToPull_deaf_sublist | Transition system over all schedules of producer, consumer and stop.
C06 partial | Gds.Iter | lines_partial splitsInto_exists SplitsInto.unique lines_cannotOpen lines_complete_refuted | Exactly the newline-terminated lines are shown; an unterminated last line is dropped (refuted).
C07 proved | Gds.Slice | split_sequential split_parallel split_empty | All segments of SplitableIter for every p and length.
C08 partial | Gds.Slice | segCount_eq_iff split_count_partial split_count_refuted split_endless | Segment count is p iff p divides the length; the unconditional claim is refuted; p > len never finishes.
C09 proved | Gds.Slice | insert_splice insert_panics replace_splice replace_panics delete_splice delete_panics insert_aliased_refuted | Splice results with exact panics on a heap model with capacity; the no-aliasing hypothesis is shown necessary.
C10 proved | Gds.Slice | insert_splice replace_splice delete_splice compactFunc_runHeads compact_runHeads | Frame conditions are conjuncts of the splice theorems.
C11 proved | Gds.Slice | compactFunc_runHeads compact_runHeads runHeads_sublist runHeads_no_repeats runHeads_idempotent runHeads_runs | Against an independent run-heads specification.
C12 proved | Gds.Slice | equal_iff equalFunc_iff compare_lex compareFunc_spec | Elementwise equality and lexicographic order.
C13 proved | Gds.Slice | indexFunc_spec index_spec contains_iff containsFunc_iff | First occurrence.
C14 proved | Gds.Slice | clone_spec grow_spec grow_panics clip_spec | Contents, capacity, freshness.
C15 partial | Gds.Slice | pushBack_invisible pushBack_refuted insertMethod_visible | The claim is false; what the value receiver does is proved exactly.
C16 proved | Gds.PQ | history_refines_multiset specStep_pop_length | Refinement to a multiset with extract-min over all histories.
C17 proved | Gds.PQ | drain_sorts | Heap sort.
C18 partial | Gds.PQ | new_sized_partial new_default_refuted ofWith_refuted | New with size works; without it panics.
C19 proved | Gds.Queue | history_refines_fifo | Refinement to a list over all histories.
C21 partial | Gds.Queue | pushNode_appends_partial rotate_singleton_partial rotate_refuted | Rotation is false beyond singletons.
C20 proved | Gds.Queue | mutual_exclusion results_are_fifo contents_are_fifo holder_progress | Transition system with one step per load, store, lock operation; every schedule of any number of goroutines.
C27 proved | Gds.LinkedList | history_refines_sequences run_refines walks init_empties setValue_values | Refinement of the pointer heap (any number of lists) to sequences for every legal history, including the copying operations and Clear.
C28 proved | Gds.LinkedList | foreign_element | The whole state is unchanged.
C29 proved | Gds.LinkedList | pushBackList_values pushFrontList_values | Also when both arguments are the same list.
C30 partial | Gds.LinkedList | clear_partial run_refines clear_toSlice_refuted toSlice_uninitialised_refuted clear_remove_refuted | Len/Front/Back/later pushes are right; ToSlice/Iter on a cleared or zero list and Remove of an old element are refuted.
C31 proved | Gds.LinkedList | toSlice_values iter_values split_sequential split_parallel | On initialised lists (see C30).
C32 partial | Gds.Stream | pipeline_elements pipeline_elements_partial collect_pipeline collect_pipeline_effects inspect_before_delivery zip_exact zip_refuted zip_chain_panics | Every pipeline built from slices by the sequential operators (any nesting), element for element, with the trace of callbacks: the list functions when no Zip has a longer left side; Zip with a longer left side delivers zero pairs (refuted as stated) or panics when its right side is a Chain. The pipelines excluded by Fits (a Zip asking an ended Chain or uneven Zip again) are covered exactly by C110.
C33 partial | Gds.Stream | take_first_activation_partial take_second_activation take_refuted | First activation proved; a second activation delivers nothing more (refuted as stated).
C34 partial | Gds.Stream | skip_exact skip_partial skip_refuted skip_second_activation | Exact behaviour (n-1 dropped) proved for every n; the documented claim is refuted.
C35 partial | Gds.Stream | skipWhile_exact skipWhile_partial skipWhile_refuted | Exact behaviour (filter) proved; equals dropWhile when no later element satisfies p; refuted in general.
C36 proved | Gds.Stream | enumerate_sequential parEnumerate parEnumerate_slice parCount_progress parCount_terminates | Sequential, and every schedule of the goroutines of a parallel Collect over any number of segments.
C37 proved | Gds.Stream | foldWith_pipeline fold_pipeline sum_pipeline sum_pipeline_monoid reduceWith_pipeline collect_pipeline first_pipeline | Every sequential pipeline in which no Zip asks an ended Chain or an ended uneven Zip again (an ended Chain panics, see C32).
C38 partial | Gds.Stream | reduce_exact reduce_partial reduce_refuted | Exact behaviour (first element twice) proved; equals the reduction when f x0 x0 = x0; refuted in general.
C39 partial | Gds.Stream | max_sequential min_sequential maxmin_empty max_parallel min_parallel parMax parMin max_take_refuted | Proved for all pipelines without shared counters (Take/Skip/Enumerate) and for parallel slices on every schedule; refuted for Take.
C40 partial | Gds.Stream | allMatch_sequential anyMatch_sequential allMatch_empty_refuted | Non-empty streams; AllMatch on the empty stream is refuted.
C41 partial | Gds.Stream | parFold_result parFold_monoid parFold_progress parFold_terminates parFold_slice_partial parFold_map_filter_partial parFold_late_result parFold_refuted parFold_outcome parFold_outcome_reached parFold_too_few parFold_monoid_loses | Every schedule when p divides len(s); refuted (lost result and panic) otherwise: the exact set of outcomes for any number of segments is parFold_outcome with parFold_outcome_reached.
C42 proved | Gds.Stream | parCollect_slice parCollect_bare parCollect_result parCollect_progress parCollect_terminates | Every schedule, any 1<=p<=len(s).
C43 proved | Gds.Stream | allMatch_parallel anyMatch_parallel parTry_result parTry_progress parTry_terminates | Every schedule when p divides len(s)>0.
C44 proved | Gds.Stream | parSkip parSkip_slice parTake parTake_slice parTake_two parTake_refuted parCount_progress parCount_terminates | Every schedule; the bound n+p-1 and a run showing that n is not a bound.
C45 proved | Gds.SkipList | randomLevel_range | All 2^64 draws.
C46 proved | Gds.SkipList | history_refines_sequence step_refines shows_unique | Pointer-level model (forward links, spans, back links, tail, level) refined to a sequence for every history, draw and comparator.
C47 proved | Gds.SkipList | keeps_everything | Comparators symmetric about equality.
C48 partial | Gds.SkipList | sorted_map_partial lookup_sorted insert_new_key_in_front sorted_map_refuted | Holds for keys put in strictly decreasing order; refuted for Put 1, Put 2. C111 shows that decreasing order is necessary as well.
C49 partial | Gds.SkipList | lookup_sound_partial has_zero_refuted | All keys that do not compare equal to the zero key; refuted for the zero key. Exact answer for every key: C111.
C50 partial | Gds.SkipList | delete_never_removes deleteKeys_never_removes deleteByWholeMapping_never_removes delete_refuted | The property is false; proved instead: nothing is ever removed, on every reachable list.
C51 partial | Gds.SkipList | insertUnique_always_inserts insertUnique_refuted | The property is false; proved instead: it always inserts and returns true.
C52 proved | Gds.SkipList | deleteRange_block deleteRange_sorted | Every reachable list.
C72 partial | Gds.SkipList | isIn_range inRange_no_panic firstInRange_partial lastInRange_is_ceiling lastInRange_refuted firstInRange_refuted | FirstInRange needs IsInAllRange; LastInRange is refuted and characterised.
C73 partial | Gds.SkipList | split_sequential split_parallel split_too_many_refuted | Refuted for parallelism above Size.
C22 proved | Gds.DelayQueue | never_early delivered_due poll_never_early | poll_never_early: for clocks after 1970 and int64 expirations. Every schedule of any number of goroutines calling Push, Pop, PopWithCtx and Poll, arbitrary cancellations and any clock: also one that is set back and forth and timers that fire early (delivered_due needs a clock that does not go back); every removal is logged with the clock it read and the contents it saw.
C23 partial | Gds.DelayQueue | conservation_partial removed_partial conservation_noctx len_counts no_loss_refuted delivered_run | Full conservation (nothing lost, nothing duplicated) for all Push/Pop/Poll histories; with PopWithCtx pushed = stored + removed exactly, but a removed element can be dropped (no_loss_refuted: run that loses an element).
C24 partial | Gds.DelayQueue | wakeup_refuted asleep_stays wakeup_partial timer_partial wakeup_many recv_partial | The claim is false of the code (lost wake-up run; the consumer stays asleep with a due element stored). Proved for one Pop consumer: a published sleeper is woken by a Push that reaches its flag, a timed wait gets back to the queue, a consumer waiting for a claimed wake-up has a sender.
C25 partial | Gds.DelayQueue | push_returns_refuted abandoned_stays push_progress_partial push_returns_partial push_returns_many lock_released mutual_exclusion | False of the code (abandoned Push run). Proved: Push can block only in the wake-up hand-over, the mutex is always released, and with one Pop consumer the hand-over always finds its receiver.
C26 partial | Gds.DelayQueue | poll_partial poll_exact_partial poll_refuted poll_wraps_refuted poll_readonly_partial | False for undue heads ((zero,true)), and for a head that expired more than 2^63 ms ago (the int64 subtraction wraps around: Poll answers (zero,true), Pop returns the element); everything else of Poll's contract proved on every schedule.
C68 proved | Gds.Hasher | byteHasher_injective dwordHasher_injective qwordHasher_injective wordHasher_injective hash_injective hash_injective_all | Odd multiplication, rotation and xor-shift are injective; for 16-bit keys the kernel sorts all 65536 values with a checker proved sound.
C69 proved | Gds.Hasher | byteHasher_eq_string wordHasher_eq_string dwordHasher_eq_string qwordHasher_eq_string complex128Hasher_eq_string | All keys.
C70 partial | Gds.Hasher | hash_defined_partial hash_defined_refuted hash_panics_on_defined | False for defined types; proved for all predeclared types on 32- and 64-bit platforms.
C71 partial | Gds.SortedSet | new_refuted new_partial | The property is false: every call on the result of New panics.
C74 partial | Gds.Hasher | float_equal_partial float_equal_refuted | False for the two float zeros, true otherwise (for the other types == is equality of bits).
C75 proved | Gds.Hasher | one_byte_change one_byte_change_tail | All strings shorter than 32 bytes, and the part behind the last stripe of longer ones.
C57 partial | Gds.RBTree | map_refuted map_partial results_partial | False of the code: the comparison result is shadowed in put, every new node becomes a right child and may drop a subtree. Proved for every history whose new keys exceed all stored keys, with arbitrary deletions.
C58 proved | Gds.RBTree | balanced | Every history of every operation, any comparator (misplaced keys included).
C59 proved | Gds.RBTree | leftRotate_inorder rightRotate_inorder | Every pointer tree and position.
C60 partial | Gds.RBTree | iter_empty_refuted iter_stale_refuted iter_partial next_enumerates neighbours_partial | False of the code (hang on an empty tree, stale first node). Proved for non-empty trees after ascending histories that keep the least key (in any key order: C106); stepping with Next enumerates correctly in every history.
C61 partial | Gds.RBTree | size_refuted size_partial isEmpty_partial size_bound_partial | False of the code (PutNode does not count); proved for ascending histories; for every history without PutNode the enumerable entries are at most Size many.
C62 proved | Gds.RBTree | alloc_fresh put_takes_fresh Buf.alloc_size Buf.free_size Buf.clear_fillN Buf.fillN_keeps | Every history of Alloc and Free with arbitrary writes to nodes in use; and in the tree's own histories.
C76 partial | Gds.RBTree | calls_terminate lookups_return calls_return_partial calls_return_refuted plain_panic one_low_delete_returns | False in general (plain_panic: six Puts and Deletes of -1, -2, 1); no history runs forever, none panics if no key is below the zero value, and none without PutNode that deletes a key below it at most once. Exactly when: C117.
C77 partial | Gds.RBTree | delete_returns_refuted delete_returns_partial | False of the code; in ascending histories the returned node holds the deleted entry or its successor.
C63 proved | Gds.BPlus | insert_histories insert_distinct | All insertion histories, duplicates included; degree >= 2 and any lawful comparator.
C64 partial | Gds.BPlus | read_sound read_complete_partial order_partial read_exact read_complete_iff small_map_partial read_complete_refuted | Soundness for all histories. Completeness is false of the code; proved for keys that equal no separator (trees made by insertions and deletions of least keys, and all histories with fewer than 2M(M-1) insertions) and for maps with at most 2M-1 insertions. For insertion-only histories with distinct keys the set of found keys is characterised exactly (C105).
C65 partial | Gds.BPlus | delete_exact_refuted delete_least_partial small_map_partial worst_case_step | False of the code (borrowing from the left sibling destroys an entry). The worst case is bounded on every tree (C102). Exactness is proved for deletions of a least key and for maps with at most 2M-1 insertions.
C66 partial | Gds.BPlus | cleared_forever clear_usable_refuted | Size 0 and nothing found is proved; insertions after Clear are reported as successful and lost.
C67 partial | Gds.BPlus | deleteByWholeMapping_partial deleteByWholeMapping_refuted | False of the code: it deletes iff the stored value is less than the given one.
C78 proved | Gds.BPlus | structure_all_histories description_unique | Every history, every comparator, degree >= 2.
C79 proved | Gds.BPlus | depth_bounds | Every history, every comparator, degree >= 2.
C53 proved | Gds.LockFree | linearizable add_result del_result has_result | All interleavings of atomic accesses of any number of goroutines; full Herlihy-Wing linearizability plus the instants of each result.
C54 proved | Gds.LockFree | bottom_sorted elements set_changes starts_empty | Every instant of every run.
C55 proved | Gds.LockFree | len_quiescent size_bounds len_result len_can_be_negative | The counter is an int32: fewer than 2^31 elements are assumed.
C56 proved | Gds.LockFree | randomLevel_range randomLevel_onto get_result get_of_absent rank_is_position_refuted | Get is the ceiling at an instant of the call even under concurrency; the refutation shows that Rank is not the position of the element.
C80 proved | Gds.LockFree | never_panics never_blocks | Every instant of every run.
C81 proved | Gds.LockFree | lock_free | Every infinite run of finitely many goroutines.
C82 proved | Gds.LockFree | levels_sorted | Every instant of every run.
C83 partial | Gds.Stream | parallel_foldWith_partial parallel_sum_partial parallel_max_partial parallel_min_partial parallel_allMatch_partial parallel_anyMatch_partial parallel_max_refuted | False of the code in general; proved for p dividing len(s)>0 (Max, Min, AllMatch, AnyMatch without Filter); refuted for Max behind a Filter.
C84 partial | Gds.Stream | foldWith_short_never_returns collect_short_never_returns tryFold_short_never_returns foldWith_empty_deadlocks parallel_foldWith_partial parCollect_slice parFold_too_few parFold_stops | The negative results hold on every schedule; returning is part of parallel_*_partial and of parCollect_slice.
C85 proved | Gds.Hasher | hash_xxh64 stringHasher_xxh64 | Independent specification Hasher/XXH64.lean, written from the published algorithm and checked against four published test vectors.
C86 partial | Gds.RBTree | split_sequential_partial split_parallel_partial split_empty split_too_many_refuted split_empty_hang_refuted | Proved for ascending histories that keep the first node and 1<=p<=Size or p<=0 (empty tree: p>=1); refuted for p>Size (endless empty segments) and for p<=0 on an empty tree (hang).
C87 partial | Gds.RBTree | leftMost_partial rightMost_partial rightMost_refuted iter_stale_refuted | False of the code: RightMost after deleting a key that is not the greatest is the node of the key before it (or nil), whenever the deleted key is not below the zero key; LeftMost can be a deleted node. Proved: LeftMost for ascending histories that keep the first node, RightMost for ascending Puts.
C88 proved | Gds.RBTree | lookup_sound | Every history that returns, including PutNode and misplaced keys.
C89 proved | Gds.Iter | fromChan_fifo fromChan_end fromChan_progress | Transition system of a Go channel with any number of senders and callers.
C90 partial | Gds.Stream | tree_stream_partial tree_stream_any skipList_stream list_stream ofTree_source_partial ofSkipList_source ofList_source zip_list_cycles tree_stream_refuted skipList_stream_refuted list_stream_refuted | Proved for every p up to the number of elements (FoldWith: p=0 or p divides it); trees: ascending histories keeping the first key. The *_source theorems make the containers sources of all sequential pipelines of C32-C40. Refuted for p above the number of elements (never returns) and for Zip with a shorter linked list (exact behaviour proved).
C91 partial | Gds.Stream | collect_parallel_pipeline_partial foldWith_parallel_pipeline_partial parZip_partial parZip_refuted | Every pipeline shape, source that splits, and schedule; Zip needs sides with equally long segments (slices of the same length); refuted for different lengths.
C92 partial | Gds.LinkedList | live_iter_refines live_iter_once live_iter_removed_refuted | Every interleaving of pulls and legal operations on any number of lists; removing the element delivered last makes the next pull panic (refuted on every list).
C93 partial | Gds.Stream | chain_collect_rounds chain_collect_partial chain_fold_partial chain_parallel_collect chain_parallel_fold_hangs chain_order_refuted | False of the code: segments of parallel streams are interleaved round by round (the exact order is chain_collect_rounds); exactly once and, with at most one segment per stream, in order.
C94 proved | Gds.RBTree | nodes_navigable prev_next | Every history of every operation, any comparator (misplaced keys included).
C95 partial | Gds.RBTree | string_partial string_emptied string_refuted | False of the code: never returns on a new or cleared map. Proved for non-empty maps after ascending histories that keep the first node, and for maps emptied by Delete.
C96 proved | Gds.RBTree | setValue_exact setValue_deleted setValue_put_partial | Every history that returns and any comparator; that every node of the tree is reached by a lookup of its key needs ascending histories (setValue_put_partial).
C97 partial | Gds.RBTree | iter_delete_partial iter_delete_other iter_put_partial iter_delete_refuted | False of the code: exact outcome for every history when the last delivered entry is deleted (the next one is repeated iff the node had two children and its right child none); other pending entries may be deleted freely; Puts as in ascending histories.
C98 proved | Gds.SkipList | string_exact | Every history, any comparator.
C99 proved | Gds.SkipList | iter_insert | Every interleaving of insertions (and Deletes, which never remove anything: C51) with calls of one iterator.
C100 partial | Gds.SkipList | iter_deleteRange_partial iter_deleteRange_refuted | False of the code; the exact outcome is proved for every list, position, range and comparator.
C101 partial | Gds.RBTree | put_exact put_no_loss smaller_keys_lost put_keeps_refuted | False of the code; the exact effect of Put on the enumeration is proved for every history and comparator: at most one entry is lost, the right child of the node where the search left the tree.
C102 proved | Gds.BPlus | worst_case worst_case_step loss_bound | Every history that returns, every comparator, every degree >= 2.
C103 partial | Gds.BPlus | order_partial delete_keeps_order order_refuted | False of the code for trees of three levels; proved for all histories with fewer than 2M(M-1) insertions, and for every single deletion on every tree.
C104 proved | Gds.RBTree | calls_effect delete_present delete_absent size_gap first_stays | Every history that returns, any comparator (misplaced keys included). When a deletion panics is C76.
C105 proved | Gds.BPlus | read_exact read_complete_iff unique_small | All insertion histories that leave distinct keys (duplicates are possible with InsertEqual, and with InsertUnique of a missed key); any number of levels.
C106 proved | Gds.RBTree | shows_first_kept shows_any_order delete_first_iff put_ends delete_ends | Histories without PutNode (which breaks Size, C61). The nodes are those reached by Next/Prev (C94), including misplaced ones (C101).
C107 proved | Gds.LockFree | rank_alone rank_quiet rank_disturbed rank_is_position_refuted | Rank is not the position (C56); this is what it is. Fewer than 2^31 elements for the version in terms of the number of elements.
C108 proved | Gds.Stream | allMatch_outcomes anyMatch_outcomes allMatch_uneven_wrong anyMatch_uneven_wrong allMatch_goroutines allMatch_even_all_exit parTry_outcome parTry_returns parTry_true_reached parTry_false_reached parTry_all_exit parTry_leak_reached | Stated for plain slice streams; the parTry_ theorems hold for every stream that splits into segments (maps, filters, chains of them).
C109 proved | Gds.DelayQueue | push_returns_many wakeup_many deaf_step deaf_for_ever two_consumers_refuted two_consumers_stranded two_timers_refuted | push_returns_many says that the hand-over can always happen (it is enabled after at most two steps of the consumers), not that a scheduler is fair.
C110 proved | Gds.Stream | foldWith_flow collect_flow first_flow reduce_flow flow_finishes flow_panics_iff flow_elements flow_prefix Flow.plays ofList_again Source.behaving chain_empty | Without the side condition Fits of C32-C40. reduce_flow is for pipelines without Take, Skip and Enumerate (their counters survive the first activation, C36). Simplifications of Stream/Model.lean apply (callbacks of Map, Filter, ... are pure; each use of a stream value has its own counters).
C111 proved | Gds.SkipList | puts_row lookup_exact puts_distinct found_always_iff found_sometimes all_found_iff_decreasing zero_key_exact randomLevel_exact heightOf_onto | Makes C48 and C49 exact: sorted_map_partial covers precisely the histories in which every lookup is reliable.
C112 proved | Gds.SkipList | history_row step_row lookup_exact runAns_run level_top | The specification (ride, glide, seek, cut, rowStep) is about 60 lines; integers are unbounded, the comparator is pure.
C113 proved | Gds.RBTree | put_break put_others_kept case_right case_new_hidden case_old_hidden | The damage a correct program would not do (C57, C101) is the subject; the three case_ theorems are kernel-checked runs of the model showing that every case occurs.
C114 proved | Gds.RBTree | history_exact history_exact_returns history_exact_same | history_exact: the model's answers, with any comparator, are those of the pure description FT.run or a call dereferences nil; history_exact_returns: no nil dereference when 0 <= cmp k z for all k; history_exact_same: histories the description cannot tell apart are followed by the same answers.
C115 proved | Gds.BPlus | history_exact panics_iff next_call_exact | history_exact: answers, size, reads, entries and panics are those of FMap.run; panics_iff: a history panics iff the pure program says so; next_call_exact: one further call after any history.
C116 partial | Gds.BPlus | delete_panics small_returns_partial delete_returns_partial first_delete_returns panics_iff | False of the code (delete_panics, found by searching with the pure program of C115). Proved: every history with fewer than 2M(M-1) insertions returns; on every tree built by insertions and deletions of missing or least keys, a deletion of any key returns; in general a history panics iff the pure program of C115 says so.
C117 proved | Gds.RBTree | delete_panics_iff deleteMapping_panics_iff others_return one_low_delete_returns plain_panic plain_before | DeleteKeys panics iff one of the Deletes it performs does (by its definition). The plain panic was found by random search with the model.
C118 partial | Gds.BPlus | modify_history_exact modify_value held_wrong_entry held_lost pointerStays_refuted pointerStays_partial | The first sentence is proved in full (modify_history_exact, modify_value). The second is false: after Insert 5, p := GetEntry(5), Insert 3, p shows key 3 and p.Val = 99 changes Get(3) (held_wrong_entry); when the leaf is split, p.Val = 99 is lost (held_lost). Proved part: writes of values through any pointer leave every pointer the pointer of its entry (pointerStays_partial).
C119 partial | Gds.RBTree | handles_exact delete_nodes put_nodes held_node_lost nodeStays_refuted nodeStays_partial | The first sentence is proved in full (handles_exact). The second is false: Delete of a key whose node has two children moves the next entry into that node and takes the next node out (Put 1, 2, 3; Delete 2: writing to the old node of 3 is lost, held_node_lost); Put may drop a node (C101). What each call does to the nodes, exactly: delete_nodes, put_nodes; nodeStays_partial: deleting a key whose node lacks a child leaves every other node and its entry.
C120 proved | Gds.BPlus | init_new Gds.RBTree.lives_exact Gds.RBTree.init_new Gds.SkipList.init_new | Red-black tree: a call may dereference nil exactly as on a new tree (C117). The comparator is an argument of the modelled calls; Init's assignment of it is the change of that argument.
C121 proved | Gds.Iter | many_in_order many_then_end many_each many_quiet_iff many_leak many_stop_ends ofList_honours | Transition system with numbered callers; a caller has at most one call under way.
C122 partial | Gds.Iter | stopEnds_refuted many_after_stop stopEnds_partial | False: after stop the select may go on choosing the send, so later calls may receive any number of values, even all of them. What holds: once the goroutine has ended (C121: it does, when push honours false) every call reports the end, for ever.
C123 proved | Gds.PQ | any_comparator calls_of_one push_calls_tight runE_pure | The code with a comparator that carries state is modelled a second time, call by call; runE_pure proves that for comparators without influence on the answers it is the model of C16.
C124 proved | Gds.RBTree | any_comparator calls_of_one callsE_pure | The code with a comparator that carries state is modelled a second time, call by call; callsE_pure proves that for comparators whose state does not influence their answers it is the model of C57. The entries lost by Put are the defect of C57/C101, here bounded for every comparator.
C125 proved | Gds.NaN | Gds.Fn.comp64_value Gds.Fn.comp64_nan Gds.Fn.comp64_zero Gds.Fn.comp64_threeWay Gds.Fn.comp64_lawful_iff rbtree_nan skiplist_nan bplus_nan pq_nan_refuted | float64 is its bit pattern, with the value defined from sign, exponent and fraction as in IEEE 754; that equality of values is Go's == (C74) is proved (fval_eq). The container theorems are for any key that compares equal to every key. float32 and the string and integer instances are C01 (a linear order).
C126 proved | Gds.SkipList | level_count level_tail Gds.LockFree.level_count | Counts over the values of Uint64 and of the coin tosses; that the generator returns them with equal frequency is not claimed.
C127 proved | Gds.SkipList | get_any get_calls average_calls | The list is any one built by a history (Built, from run_row). The comparator is a function with state. average_calls is a statement about counts of draws: it is the average number of calls if the draws are uniform and independent.
C128 proved | Gds.BPlus | any_comparator calls_of_one callsE_pure | callsE_pure: with a comparator whose answers depend on its arguments alone these calls are those of the model of C63-C67. Specification: AnyStep, AnyRun, callBound in BPlus/Calls.lean, Holds in BPlus/Spec.lean. That Delete can overwrite an entry is the defect of C65; that it can panic is shown by an example.
C129 proved | Gds.Stream | foldWith_elementwise collect_elementwise first_elementwise reduce_elementwise tryFold_elementwise allMatch_elementwise anyMatch_elementwise inspect_inspect_collect inspect_take_collect filter_inspect_collect mapE_pure filterE_pure skipWhileE_pure foldWithE_pure Stages.pulled Stages.counts_init | Stages is the syntax of pipelines, Stages.one sends one element through the callbacks, pass / next / passTry do so element by element; Chain, FlatMap and Zip are not part of these pipelines (C32, C93 and C110 treat them, with pure callbacks)
C130 proved | Gds.Slice | equalFuncE_spec compareFuncE_spec indexFuncE_spec equalFunc_calls compareFunc_calls indexFunc_calls containsFunc_calls compactFuncE_spec keepE_pure keepE_counts | the _spec theorems are for callbacks with state, the _calls theorems give the list of calls when the answers depend on the arguments alone and show that the results are those of C12 and C13; callbacks that write into the slices themselves are not modelled
C131 proved | Gds.SkipList | any_comparator stateless_comparator stateless_lookups | AnyStep lists what each call may answer and do, Seen what the lookups may return; the examples show how far a comparator that disagrees with itself can bring it (Size 2, one entry forwards, three backwards; a deleted key found again), so that the specification cannot promise more there; stateless_comparator links the model to that of C112. The comparator of DeleteByWholeMapping for values has no state, and a comparator that calls the list itself is not modelled.
C132 proved | Gds.Stream | parFold_interleaves parCollect_interleaves parFold_every_interleaving parCollect_every_interleaving parFold_effects parCollect_effects Ops.alone_next | Interleaves is the specification; Ops.whole lists the calls of a segment, and pass_whole, used for the commuting case, says it is the pass of C129. alone_next: the coroutine run alone answers what the pull function of C129 answers, whatever the callbacks do. Take, Skip and Enumerate (shared counters: C44) and TryFold are not in these pipelines; a callback whose answer depends on what other goroutines have done, and one that is not atomic (a data race), are not modelled; the combiner has no effects.
C133 proved | Gds.Stream | parTry_calls parTry_ends parAllMatch_calls parAnyMatch_calls parFirst_calls parAllMatch_whole parAnyMatch_whole parAllMatch_once_refuted parTry_calls_after_return | Ops.upto is the specification (the calls of a TryFold over a list, up to the refusal); upto_all links it to the calls of C132, toFirst_arrivals First to what arrives. parAllMatch_once_refuted: 'the predicate is called once per element' is false (six calls for four elements); parTry_calls_after_return: a run in which the predicate is called after AllMatch has returned. The numbers of segments for which TryFold does not return are C43, C84 and C108.
C134 proved | Gds.LinkedList | live_split_refines live_split_once live_split_at_most_once live_split_no_panic live_split_removed live_split_insert_refuted live_split_remove_refuted live_split_lost_refuted | Everything claimed is proved; what one would also expect - every element that stays in the list is delivered once whatever is inserted or removed (as for Iter, C92) - is false: an insertion into a segment makes an element behind it disappear (live_split_insert_refuted), a removal makes one appear twice (live_split_remove_refuted) or loses all that the segmenter has not handed out (live_split_lost_refuted). Insertions alone never make anything appear twice (live_split_at_most_once).
C135 proved | Gds.SkipList | live_split_refines live_split_at_most_once live_split_all live_split_insert_refuted | Everything claimed is proved; what one would also expect - an entry that stays in the list is delivered (as for Iter) - is false: an insertion into a segment makes an entry between two segments disappear (live_split_insert_refuted).
C136 partial | Gds.RBTree | live_split_refines live_split_once live_split_delete_refuted live_split_lost_refuted live_split_put_refuted | Proved for ascending Puts; false with Delete (an entry delivered twice: live_split_delete_refuted; all that has not been handed out never delivered: live_split_lost_refuted) and with a Put of a smaller key (live_split_put_refuted).
C137 proved | Gds.RBTree | raised_unchanged raised_history raised_as_if_absent | The model passes the comparator's panic and the tree at that moment up to the caller; the theorems hold for every comparator.
C138 partial | Gds.BPlus | raised_insert_refuted raised_split_refuted raised_search_partial raised_small_partial raised_returned_partial | False for InsertUnique (raised_insert_refuted: an entry of the leaf is lost; raised_split_refuted: half of the tree is lost). Proved for lookups, and exactly which damage is possible while the tree is one leaf; Delete and deeper trees are not covered by raised_small_partial; in every tree a call that returns is the call of C128 (raised_returned_partial).
C139 partial | Gds.PQ | raised_bag_partial raised_returned_partial raised_pop_refuted raised_push_refuted | The bag is kept by every history (raised_bag_partial), and up to the first panic the history is that of C123 (raised_returned_partial); the order and the atomicity of Push are not (raised_pop_refuted, raised_push_refuted).
C140 proved | Gds.SkipList | raised_unchanged raised_deleteKeys raised_history raised_as_if_absent | The model passes the comparator's panic and the list at that moment up to the caller; the theorems hold for every comparator. The comparator for values of DeleteByWholeMapping does not panic here.
C141 partial | Gds.DelayQueue | expiration_jams_refuted jam_refuted jammed_for_ever calls_hang_refuted compare_refuted asleep_stays_raised raised_conservation_partial raised_removed_partial raised_never_early_partial raised_exclusion_partial raised_released_partial | The claim is false of the code: Push calls Expiration while it holds the mutex and has no deferred unlock, so after such a panic, in whatever state, the mutex stays locked for ever: nothing is stored, removed or polled any more and every call that begins hangs at its first line. A panic of the comparator comes after the element was stored and before the wake-up: a consumer that sleeps with its flag set sleeps on although a due element is stored, where the same Push without the panic wakes it. Proved instead, on every schedule with panics: conservation, no early delivery, mutual exclusion; and, if Expiration never panics, that the mutex is released.
C142 proved | Gds.LockFree | raised_linearizable raised_set_changes raised_elements raised_levels_sorted raised_never_panics raised_never_blocks raised_size_bounds raised_len_refuted | raised_len_refuted is the run in which Len stays behind: set {3, 5}, counter 1, nobody in a call. Len's bounds assume fewer than 2^31 elements and calls, as in C55.
C143 proved | Gds.Slice | raised_compactFunc raised_nothing_lost raised_nothing_new raised_unchanged_refuted keepP_sublist keepP_prefix keepP_total keepP_covers | keepP is the specification: what is kept of a list until the panic; keepP_total ties it to C130, keepP_prefix says the panic only cuts the work short. raised_unchanged_refuted shows the slice is neither unchanged nor compacted.
C144 proved | Gds.RBTree | setCompare_first setCompare_usable setCompare_unset setCompare_history | a call of a nil function value is a comparator that panics (C137). setCompare_usable and setCompare_history speak of histories that return; the nil dereferences of the tree itself are those of C117.
