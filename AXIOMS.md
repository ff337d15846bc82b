# Axioms of every theorem in MANIFEST.json

Generated by tools/axioms.py from `#print axioms`.

## (none) (11 theorems)

Gds.Fn.compose_apply
Gds.Fn.andThen_apply
Gds.Fn.compose_assoc
Gds.Fn.consumer_andThen
Gds.Fn.binConsumer_andThen
Gds.Iter.castToPull_stop_releases
Gds.Queue.rotate_refuted
Gds.Stream.parFold_late_result
Gds.SortedSet.new_refuted
Gds.Stream.Source.behaving
Gds.Slice.keepP_sublist

## Quot.sound (1 theorems)

Gds.Stream.mapE_pure

## propext (47 theorems)

Gds.Fn.comp_cases
Gds.Fn.comp_range
Gds.Fn.comp_swap
Gds.Fn.comp_trans
Gds.Fn.predicate_and_iff
Gds.Fn.predicate_or_iff
Gds.Fn.predicate_negate_iff
Gds.Fn.not_iff
Gds.Fn.binPredicate_and_iff
Gds.Fn.binPredicate_negate_iff
Gds.Fn.binPredicate_or_refuted
Gds.Fn.binPredicate_or_partial
Gds.Iter.visit_log
Gds.Iter.castToPull_in_order
Gds.Iter.castToPull_values_then_end
Gds.Iter.castToPull_progress
Gds.Iter.castToPull_prefix
Gds.Iter.castToPull_deaf_sublist
Gds.Slice.split_sequential
Gds.Slice.runHeads_sublist
Gds.Slice.runHeads_no_repeats
Gds.Slice.runHeads_idempotent
Gds.Slice.grow_panics
Gds.PQ.specStep_pop_length
Gds.PQ.new_sized_partial
Gds.PQ.new_default_refuted
Gds.Stream.parFold_refuted
Gds.SkipList.insert_new_key_in_front
Gds.SortedSet.new_partial
Gds.RBTree.Buf.clear_fillN
Gds.Iter.many_in_order
Gds.Iter.many_then_end
Gds.Iter.many_each
Gds.Iter.many_quiet_iff
Gds.Iter.many_leak
Gds.Iter.ofList_honours
Gds.Iter.stopEnds_refuted
Gds.Iter.stopEnds_partial
Gds.Slice.equalFuncE_spec
Gds.Slice.compareFuncE_spec
Gds.Slice.indexFuncE_spec
Gds.Slice.indexFunc_calls
Gds.Slice.containsFunc_calls
Gds.Slice.keepE_pure
Gds.Stream.parTry_calls_after_return
Gds.Slice.keepP_prefix
Gds.Slice.keepP_total

## propext Classical.choice Quot.sound (527 theorems)

Gds.Fn.comp_strict
Gds.Iter.castToPush_stops
Gds.Iter.castToPush_any
Gds.Iter.castToPush_any_refused
Gds.Iter.iterAll_visits_everything
Gds.Iter.iterAll_stops_refuted
Gds.Iter.castToPull_terminates
Gds.Slice.split_parallel
Gds.Slice.split_count_partial
Gds.Slice.split_count_refuted
Gds.Slice.split_endless
Gds.Slice.insert_splice
Gds.Slice.insert_panics
Gds.Slice.replace_splice
Gds.Slice.replace_panics
Gds.Slice.delete_splice
Gds.Slice.delete_panics
Gds.Slice.compactFunc_runHeads
Gds.Slice.compact_runHeads
Gds.Slice.equal_iff
Gds.Slice.equalFunc_iff
Gds.Slice.compare_lex
Gds.Slice.clone_spec
Gds.Slice.grow_spec
Gds.Slice.pushBack_invisible
Gds.Slice.pushBack_refuted
Gds.Slice.insertMethod_visible
Gds.PQ.history_refines_multiset
Gds.PQ.drain_sorts
Gds.PQ.ofWith_refuted
Gds.Queue.history_refines_fifo
Gds.Queue.pushNode_appends_partial
Gds.Queue.rotate_singleton_partial
Gds.Queue.mutual_exclusion
Gds.Queue.results_are_fifo
Gds.Queue.contents_are_fifo
Gds.Queue.holder_progress
Gds.LinkedList.history_refines_sequences
Gds.LinkedList.run_refines
Gds.LinkedList.walks
Gds.LinkedList.init_empties
Gds.LinkedList.setValue_values
Gds.LinkedList.foreign_element
Gds.LinkedList.pushBackList_values
Gds.LinkedList.pushFrontList_values
Gds.LinkedList.clear_partial
Gds.LinkedList.clear_toSlice_refuted
Gds.LinkedList.toSlice_uninitialised_refuted
Gds.LinkedList.clear_remove_refuted
Gds.LinkedList.toSlice_values
Gds.LinkedList.iter_values
Gds.LinkedList.split_sequential
Gds.LinkedList.split_parallel
Gds.Stream.pipeline_elements
Gds.Stream.pipeline_elements_partial
Gds.Stream.collect_pipeline
Gds.Stream.collect_pipeline_effects
Gds.Stream.inspect_before_delivery
Gds.Stream.zip_exact
Gds.Stream.zip_refuted
Gds.Stream.zip_chain_panics
Gds.Stream.take_first_activation_partial
Gds.Stream.take_second_activation
Gds.Stream.take_refuted
Gds.Stream.skip_exact
Gds.Stream.skip_partial
Gds.Stream.skip_refuted
Gds.Stream.skip_second_activation
Gds.Stream.skipWhile_exact
Gds.Stream.skipWhile_partial
Gds.Stream.skipWhile_refuted
Gds.Stream.enumerate_sequential
Gds.Stream.parEnumerate
Gds.Stream.parEnumerate_slice
Gds.Stream.parCount_progress
Gds.Stream.parCount_terminates
Gds.Stream.foldWith_pipeline
Gds.Stream.fold_pipeline
Gds.Stream.sum_pipeline
Gds.Stream.sum_pipeline_monoid
Gds.Stream.reduceWith_pipeline
Gds.Stream.first_pipeline
Gds.Stream.reduce_exact
Gds.Stream.reduce_partial
Gds.Stream.reduce_refuted
Gds.Stream.max_sequential
Gds.Stream.min_sequential
Gds.Stream.maxmin_empty
Gds.Stream.max_parallel
Gds.Stream.min_parallel
Gds.Stream.parMax
Gds.Stream.parMin
Gds.Stream.max_take_refuted
Gds.Stream.allMatch_sequential
Gds.Stream.anyMatch_sequential
Gds.Stream.allMatch_empty_refuted
Gds.Stream.parFold_result
Gds.Stream.parFold_monoid
Gds.Stream.parFold_progress
Gds.Stream.parFold_terminates
Gds.Stream.parFold_slice_partial
Gds.Stream.parFold_map_filter_partial
Gds.Stream.parFold_outcome
Gds.Stream.parFold_outcome_reached
Gds.Stream.parFold_too_few
Gds.Stream.parFold_monoid_loses
Gds.Stream.parCollect_slice
Gds.Stream.parCollect_bare
Gds.Stream.parCollect_result
Gds.Stream.parCollect_progress
Gds.Stream.parCollect_terminates
Gds.Stream.allMatch_parallel
Gds.Stream.anyMatch_parallel
Gds.Stream.parTry_result
Gds.Stream.parTry_progress
Gds.Stream.parTry_terminates
Gds.Stream.parSkip
Gds.Stream.parSkip_slice
Gds.Stream.parTake
Gds.Stream.parTake_slice
Gds.SkipList.randomLevel_range
Gds.SkipList.history_refines_sequence
Gds.SkipList.step_refines
Gds.SkipList.shows_unique
Gds.SkipList.keeps_everything
Gds.SkipList.sorted_map_partial
Gds.SkipList.lookup_sorted
Gds.SkipList.sorted_map_refuted
Gds.SkipList.lookup_sound_partial
Gds.SkipList.has_zero_refuted
Gds.SkipList.delete_never_removes
Gds.SkipList.deleteKeys_never_removes
Gds.SkipList.deleteByWholeMapping_never_removes
Gds.SkipList.delete_refuted
Gds.SkipList.insertUnique_always_inserts
Gds.SkipList.insertUnique_refuted
Gds.SkipList.deleteRange_block
Gds.SkipList.deleteRange_sorted
Gds.SkipList.isIn_range
Gds.SkipList.inRange_no_panic
Gds.SkipList.firstInRange_partial
Gds.SkipList.lastInRange_is_ceiling
Gds.SkipList.lastInRange_refuted
Gds.SkipList.firstInRange_refuted
Gds.SkipList.split_sequential
Gds.SkipList.split_parallel
Gds.SkipList.split_too_many_refuted
Gds.DelayQueue.never_early
Gds.DelayQueue.delivered_due
Gds.DelayQueue.poll_never_early
Gds.DelayQueue.conservation_partial
Gds.DelayQueue.removed_partial
Gds.DelayQueue.conservation_noctx
Gds.DelayQueue.len_counts
Gds.DelayQueue.no_loss_refuted
Gds.DelayQueue.delivered_run
Gds.DelayQueue.wakeup_refuted
Gds.DelayQueue.asleep_stays
Gds.DelayQueue.wakeup_partial
Gds.DelayQueue.timer_partial
Gds.DelayQueue.wakeup_many
Gds.DelayQueue.recv_partial
Gds.DelayQueue.push_returns_refuted
Gds.DelayQueue.abandoned_stays
Gds.DelayQueue.push_progress_partial
Gds.DelayQueue.push_returns_partial
Gds.DelayQueue.push_returns_many
Gds.DelayQueue.lock_released
Gds.DelayQueue.mutual_exclusion
Gds.DelayQueue.poll_partial
Gds.DelayQueue.poll_exact_partial
Gds.DelayQueue.poll_refuted
Gds.DelayQueue.poll_wraps_refuted
Gds.DelayQueue.poll_readonly_partial
Gds.Hasher.byteHasher_injective
Gds.Hasher.dwordHasher_injective
Gds.Hasher.qwordHasher_injective
Gds.Hasher.wordHasher_injective
Gds.Hasher.hash_injective
Gds.Hasher.hash_injective_all
Gds.Hasher.wordHasher_eq_string
Gds.Hasher.dwordHasher_eq_string
Gds.Hasher.qwordHasher_eq_string
Gds.Hasher.complex128Hasher_eq_string
Gds.Hasher.float_equal_refuted
Gds.Hasher.one_byte_change
Gds.Hasher.one_byte_change_tail
Gds.RBTree.map_refuted
Gds.RBTree.map_partial
Gds.RBTree.results_partial
Gds.RBTree.balanced
Gds.RBTree.leftRotate_inorder
Gds.RBTree.rightRotate_inorder
Gds.RBTree.iter_empty_refuted
Gds.RBTree.iter_stale_refuted
Gds.RBTree.iter_partial
Gds.RBTree.next_enumerates
Gds.RBTree.neighbours_partial
Gds.RBTree.size_refuted
Gds.RBTree.size_partial
Gds.RBTree.isEmpty_partial
Gds.RBTree.size_bound_partial
Gds.RBTree.alloc_fresh
Gds.RBTree.put_takes_fresh
Gds.RBTree.Buf.alloc_size
Gds.RBTree.calls_terminate
Gds.RBTree.lookups_return
Gds.RBTree.calls_return_partial
Gds.RBTree.calls_return_refuted
Gds.RBTree.plain_panic
Gds.RBTree.one_low_delete_returns
Gds.RBTree.delete_returns_refuted
Gds.RBTree.delete_returns_partial
Gds.BPlus.insert_histories
Gds.BPlus.insert_distinct
Gds.BPlus.read_sound
Gds.BPlus.read_complete_partial
Gds.BPlus.order_partial
Gds.BPlus.read_exact
Gds.BPlus.read_complete_iff
Gds.BPlus.small_map_partial
Gds.BPlus.read_complete_refuted
Gds.BPlus.delete_exact_refuted
Gds.BPlus.delete_least_partial
Gds.BPlus.worst_case_step
Gds.BPlus.cleared_forever
Gds.BPlus.clear_usable_refuted
Gds.BPlus.deleteByWholeMapping_partial
Gds.BPlus.deleteByWholeMapping_refuted
Gds.BPlus.structure_all_histories
Gds.BPlus.description_unique
Gds.BPlus.depth_bounds
Gds.LockFree.linearizable
Gds.LockFree.add_result
Gds.LockFree.del_result
Gds.LockFree.has_result
Gds.LockFree.bottom_sorted
Gds.LockFree.elements
Gds.LockFree.set_changes
Gds.LockFree.len_quiescent
Gds.LockFree.size_bounds
Gds.LockFree.len_result
Gds.LockFree.randomLevel_range
Gds.LockFree.get_result
Gds.LockFree.get_of_absent
Gds.LockFree.rank_is_position_refuted
Gds.LockFree.never_panics
Gds.LockFree.never_blocks
Gds.LockFree.lock_free
Gds.LockFree.levels_sorted
Gds.Stream.parallel_foldWith_partial
Gds.Stream.parallel_sum_partial
Gds.Stream.parallel_max_partial
Gds.Stream.parallel_min_partial
Gds.Stream.parallel_allMatch_partial
Gds.Stream.parallel_anyMatch_partial
Gds.Stream.parallel_max_refuted
Gds.Stream.foldWith_short_never_returns
Gds.Stream.collect_short_never_returns
Gds.Stream.tryFold_short_never_returns
Gds.Stream.foldWith_empty_deadlocks
Gds.Stream.parFold_stops
Gds.Hasher.hash_xxh64
Gds.RBTree.split_sequential_partial
Gds.RBTree.split_parallel_partial
Gds.RBTree.split_empty
Gds.RBTree.split_too_many_refuted
Gds.RBTree.split_empty_hang_refuted
Gds.RBTree.leftMost_partial
Gds.RBTree.rightMost_partial
Gds.RBTree.rightMost_refuted
Gds.RBTree.lookup_sound
Gds.Iter.fromChan_progress
Gds.Stream.tree_stream_partial
Gds.Stream.tree_stream_any
Gds.Stream.skipList_stream
Gds.Stream.list_stream
Gds.Stream.ofTree_source_partial
Gds.Stream.ofSkipList_source
Gds.Stream.ofList_source
Gds.Stream.zip_list_cycles
Gds.Stream.tree_stream_refuted
Gds.Stream.skipList_stream_refuted
Gds.Stream.list_stream_refuted
Gds.Stream.collect_parallel_pipeline_partial
Gds.Stream.foldWith_parallel_pipeline_partial
Gds.Stream.parZip_partial
Gds.Stream.parZip_refuted
Gds.LinkedList.live_iter_refines
Gds.LinkedList.live_iter_once
Gds.LinkedList.live_iter_removed_refuted
Gds.Stream.chain_collect_rounds
Gds.Stream.chain_collect_partial
Gds.Stream.chain_fold_partial
Gds.Stream.chain_parallel_collect
Gds.Stream.chain_parallel_fold_hangs
Gds.Stream.chain_order_refuted
Gds.RBTree.nodes_navigable
Gds.RBTree.prev_next
Gds.RBTree.string_partial
Gds.RBTree.string_emptied
Gds.RBTree.string_refuted
Gds.RBTree.setValue_exact
Gds.RBTree.setValue_deleted
Gds.RBTree.setValue_put_partial
Gds.RBTree.iter_delete_partial
Gds.RBTree.iter_delete_other
Gds.RBTree.iter_put_partial
Gds.RBTree.iter_delete_refuted
Gds.SkipList.string_exact
Gds.SkipList.iter_insert
Gds.SkipList.iter_deleteRange_partial
Gds.SkipList.iter_deleteRange_refuted
Gds.RBTree.put_exact
Gds.RBTree.put_no_loss
Gds.RBTree.smaller_keys_lost
Gds.RBTree.put_keeps_refuted
Gds.BPlus.worst_case
Gds.BPlus.loss_bound
Gds.BPlus.delete_keeps_order
Gds.BPlus.order_refuted
Gds.RBTree.calls_effect
Gds.RBTree.delete_present
Gds.RBTree.delete_absent
Gds.RBTree.size_gap
Gds.RBTree.first_stays
Gds.BPlus.unique_small
Gds.RBTree.shows_first_kept
Gds.RBTree.shows_any_order
Gds.RBTree.delete_first_iff
Gds.RBTree.put_ends
Gds.RBTree.delete_ends
Gds.LockFree.rank_alone
Gds.LockFree.rank_quiet
Gds.LockFree.rank_disturbed
Gds.Stream.allMatch_outcomes
Gds.Stream.anyMatch_outcomes
Gds.Stream.allMatch_uneven_wrong
Gds.Stream.anyMatch_uneven_wrong
Gds.Stream.allMatch_goroutines
Gds.Stream.allMatch_even_all_exit
Gds.Stream.parTry_outcome
Gds.Stream.parTry_returns
Gds.Stream.parTry_all_exit
Gds.Stream.parTry_leak_reached
Gds.DelayQueue.deaf_step
Gds.DelayQueue.deaf_for_ever
Gds.DelayQueue.two_consumers_refuted
Gds.DelayQueue.two_consumers_stranded
Gds.DelayQueue.two_timers_refuted
Gds.Stream.foldWith_flow
Gds.Stream.collect_flow
Gds.Stream.first_flow
Gds.Stream.reduce_flow
Gds.Stream.flow_finishes
Gds.Stream.flow_panics_iff
Gds.Stream.flow_elements
Gds.Stream.Flow.plays
Gds.Stream.ofList_again
Gds.Stream.chain_empty
Gds.SkipList.puts_row
Gds.SkipList.lookup_exact
Gds.SkipList.puts_distinct
Gds.SkipList.found_always_iff
Gds.SkipList.found_sometimes
Gds.SkipList.all_found_iff_decreasing
Gds.SkipList.zero_key_exact
Gds.SkipList.randomLevel_exact
Gds.SkipList.heightOf_onto
Gds.SkipList.history_row
Gds.SkipList.step_row
Gds.SkipList.runAns_run
Gds.SkipList.level_top
Gds.RBTree.put_break
Gds.RBTree.put_others_kept
Gds.RBTree.case_right
Gds.RBTree.case_new_hidden
Gds.RBTree.case_old_hidden
Gds.RBTree.history_exact
Gds.RBTree.history_exact_returns
Gds.RBTree.history_exact_same
Gds.BPlus.history_exact
Gds.BPlus.panics_iff
Gds.BPlus.next_call_exact
Gds.BPlus.delete_panics
Gds.BPlus.small_returns_partial
Gds.BPlus.delete_returns_partial
Gds.BPlus.first_delete_returns
Gds.RBTree.delete_panics_iff
Gds.RBTree.deleteMapping_panics_iff
Gds.RBTree.others_return
Gds.RBTree.plain_before
Gds.BPlus.modify_history_exact
Gds.BPlus.modify_value
Gds.BPlus.held_wrong_entry
Gds.BPlus.held_lost
Gds.BPlus.pointerStays_refuted
Gds.BPlus.pointerStays_partial
Gds.RBTree.handles_exact
Gds.RBTree.delete_nodes
Gds.RBTree.put_nodes
Gds.RBTree.held_node_lost
Gds.RBTree.nodeStays_refuted
Gds.RBTree.nodeStays_partial
Gds.BPlus.init_new
Gds.RBTree.lives_exact
Gds.RBTree.init_new
Gds.SkipList.init_new
Gds.Iter.many_stop_ends
Gds.PQ.any_comparator
Gds.PQ.calls_of_one
Gds.PQ.push_calls_tight
Gds.PQ.runE_pure
Gds.RBTree.any_comparator
Gds.RBTree.calls_of_one
Gds.RBTree.callsE_pure
Gds.Fn.comp64_zero
Gds.Fn.comp64_threeWay
Gds.Fn.comp64_lawful_iff
Gds.NaN.rbtree_nan
Gds.NaN.skiplist_nan
Gds.NaN.bplus_nan
Gds.NaN.pq_nan_refuted
Gds.SkipList.level_count
Gds.SkipList.level_tail
Gds.LockFree.level_count
Gds.SkipList.get_any
Gds.SkipList.get_calls
Gds.SkipList.average_calls
Gds.BPlus.any_comparator
Gds.BPlus.calls_of_one
Gds.BPlus.callsE_pure
Gds.Stream.foldWith_elementwise
Gds.Stream.collect_elementwise
Gds.Stream.first_elementwise
Gds.Stream.reduce_elementwise
Gds.Stream.tryFold_elementwise
Gds.Stream.allMatch_elementwise
Gds.Stream.anyMatch_elementwise
Gds.Stream.inspect_inspect_collect
Gds.Stream.inspect_take_collect
Gds.Stream.filter_inspect_collect
Gds.Stream.filterE_pure
Gds.Stream.skipWhileE_pure
Gds.Stream.foldWithE_pure
Gds.Stream.Stages.pulled
Gds.Stream.Stages.counts_init
Gds.Slice.compactFuncE_spec
Gds.SkipList.any_comparator
Gds.SkipList.stateless_comparator
Gds.SkipList.stateless_lookups
Gds.Stream.parFold_interleaves
Gds.Stream.parCollect_interleaves
Gds.Stream.parFold_every_interleaving
Gds.Stream.parCollect_every_interleaving
Gds.Stream.parFold_effects
Gds.Stream.parCollect_effects
Gds.Stream.Ops.alone_next
Gds.Stream.parTry_calls
Gds.Stream.parTry_ends
Gds.Stream.parAllMatch_calls
Gds.Stream.parAnyMatch_calls
Gds.Stream.parFirst_calls
Gds.Stream.parAllMatch_whole
Gds.Stream.parAnyMatch_whole
Gds.Stream.parAllMatch_once_refuted
Gds.LinkedList.live_split_refines
Gds.LinkedList.live_split_once
Gds.LinkedList.live_split_at_most_once
Gds.LinkedList.live_split_no_panic
Gds.LinkedList.live_split_removed
Gds.LinkedList.live_split_insert_refuted
Gds.LinkedList.live_split_remove_refuted
Gds.LinkedList.live_split_lost_refuted
Gds.SkipList.live_split_refines
Gds.SkipList.live_split_at_most_once
Gds.SkipList.live_split_all
Gds.SkipList.live_split_insert_refuted
Gds.RBTree.live_split_refines
Gds.RBTree.live_split_once
Gds.RBTree.live_split_delete_refuted
Gds.RBTree.live_split_lost_refuted
Gds.RBTree.live_split_put_refuted
Gds.RBTree.raised_unchanged
Gds.RBTree.raised_history
Gds.RBTree.raised_as_if_absent
Gds.BPlus.raised_insert_refuted
Gds.BPlus.raised_split_refuted
Gds.BPlus.raised_search_partial
Gds.BPlus.raised_small_partial
Gds.BPlus.raised_returned_partial
Gds.PQ.raised_bag_partial
Gds.PQ.raised_returned_partial
Gds.PQ.raised_pop_refuted
Gds.PQ.raised_push_refuted
Gds.SkipList.raised_unchanged
Gds.SkipList.raised_deleteKeys
Gds.SkipList.raised_history
Gds.SkipList.raised_as_if_absent
Gds.DelayQueue.expiration_jams_refuted
Gds.DelayQueue.jam_refuted
Gds.DelayQueue.jammed_for_ever
Gds.DelayQueue.calls_hang_refuted
Gds.DelayQueue.compare_refuted
Gds.DelayQueue.asleep_stays_raised
Gds.DelayQueue.raised_conservation_partial
Gds.DelayQueue.raised_removed_partial
Gds.DelayQueue.raised_never_early_partial
Gds.DelayQueue.raised_exclusion_partial
Gds.DelayQueue.raised_released_partial
Gds.LockFree.raised_linearizable
Gds.LockFree.raised_set_changes
Gds.LockFree.raised_elements
Gds.LockFree.raised_levels_sorted
Gds.LockFree.raised_never_panics
Gds.LockFree.raised_never_blocks
Gds.LockFree.raised_size_bounds
Gds.LockFree.raised_len_refuted
Gds.Slice.raised_compactFunc
Gds.Slice.raised_nothing_lost
Gds.Slice.raised_nothing_new
Gds.Slice.raised_unchanged_refuted
Gds.Slice.keepP_covers
Gds.RBTree.setCompare_first
Gds.RBTree.setCompare_usable
Gds.RBTree.setCompare_unset
Gds.RBTree.setCompare_history

## propext Quot.sound (47 theorems)

Gds.Fn.predicate_deMorgan_and
Gds.Fn.predicate_deMorgan_or
Gds.Fn.predicate_negate_negate
Gds.Iter.fromSlice_pulls
Gds.Slice.iter_eq_fromSlice
Gds.Slice.iter_pulls
Gds.Slice.all_visit
Gds.Iter.castToPull_complete
Gds.Iter.lines_partial
Gds.Iter.splitsInto_exists
Gds.Iter.SplitsInto.unique
Gds.Iter.lines_cannotOpen
Gds.Iter.lines_complete_refuted
Gds.Slice.split_empty
Gds.Slice.segCount_eq_iff
Gds.Slice.insert_aliased_refuted
Gds.Slice.runHeads_runs
Gds.Slice.compareFunc_spec
Gds.Slice.indexFunc_spec
Gds.Slice.index_spec
Gds.Slice.contains_iff
Gds.Slice.containsFunc_iff
Gds.Slice.clip_spec
Gds.Stream.parTake_two
Gds.Stream.parTake_refuted
Gds.Hasher.byteHasher_eq_string
Gds.Hasher.hash_defined_partial
Gds.Hasher.hash_defined_refuted
Gds.Hasher.hash_panics_on_defined
Gds.Hasher.float_equal_partial
Gds.RBTree.Buf.free_size
Gds.RBTree.Buf.fillN_keeps
Gds.LockFree.starts_empty
Gds.LockFree.len_can_be_negative
Gds.LockFree.randomLevel_onto
Gds.Hasher.stringHasher_xxh64
Gds.Iter.fromChan_fifo
Gds.Iter.fromChan_end
Gds.Stream.parTry_true_reached
Gds.Stream.parTry_false_reached
Gds.Stream.flow_prefix
Gds.Iter.many_after_stop
Gds.Fn.comp64_value
Gds.Fn.comp64_nan
Gds.Slice.equalFunc_calls
Gds.Slice.compareFunc_calls
Gds.Slice.keepE_counts
