{
 "claims": [
  {
   "property": "C01",
   "status": "proved",
   "theorems": [
    "CGraph.C01_first_error_wins",
    "CGraph.C01_ok_iff_no_error",
    "CGraph.C01_grouping"
   ],
   "note": ""
  },
  {
   "property": "C02",
   "status": "partial",
   "theorems": [
    "CGraph.C02_assign_violated",
    "CGraph.C02_copy_violated",
    "CGraph.C02_assign_partial",
    "CGraph.C02_copy_partial"
   ],
   "note": "Violated by the code: the message is not transferred when the codes agree. Partial theorems give what is transferred."
  },
  {
   "property": "C03",
   "status": "proved",
   "theorems": [
    "CGraph.C03_lru",
    "CGraph.C03_capacity_zero_undefined"
   ],
   "note": "Capacity 0 is undefined behaviour in the source (front() of an empty list), shown separately."
  },
  {
   "property": "C04",
   "status": "proved",
   "theorems": [
    "CGraph.C04_small_vector",
    "CGraph.C04_small_vector_answers",
    "CGraph.C04_small_vector_nodup",
    "CGraph.C04_unique_array",
    "CGraph.C04_unique_array_stable"
   ],
   "note": "Growth step 0 excluded (the step is a positive literal in the source)."
  },
  {
   "property": "C05",
   "status": "proved",
   "theorems": [
    "CGraph.C05_channel_refines_fifo",
    "CGraph.C05_channel_order",
    "CGraph.C05_channel_lossless",
    "CGraph.C05_push_after_clear_undefined"
   ],
   "note": "Each operation is atomic under the queue's mutex; a blocked WAIT send is modelled as a retry."
  },
  {
   "property": "C06",
   "status": "partial",
   "theorems": [
    "CGraph.C06_capacity_violated",
    "CGraph.C06_size_one_violated",
    "CGraph.C06_capacity_partial"
   ],
   "note": "Violated by the code: a ring of n slots keeps n-1 messages; size 1 never delivers anything."
  },
  {
   "property": "C07",
   "status": "proved",
   "theorems": [
    "CGraph.C07_lockfree_fifo",
    "CGraph.C07_lockfree_tests_exact"
   ],
   "note": "Sequentially consistent interleaving of the atomic accesses; acquire/release pairs are assumed to give that for one producer and one consumer."
  },
  {
   "property": "C08",
   "status": "proved",
   "theorems": [
    "CGraph.C08_conservation",
    "CGraph.C08_ends",
    "CGraph.C08_failure_no_effect",
    "CGraph.C08_negative_batch"
   ],
   "note": "Batch bound for non-negative sizes; a negative configured size empties the queue (shown)."
  },
  {
   "property": "C09",
   "status": "proved",
   "theorems": [
    "CGraph.C09_fifo",
    "CGraph.C09_pop_succeeds",
    "CGraph.C09_setup_discards"
   ],
   "note": ""
  },
  {
   "property": "C10",
   "status": "partial",
   "theorems": [
    "CGraph.C10_priority_violated",
    "CGraph.C10_priority_ignored",
    "CGraph.C10_pop_conserves_partial",
    "CGraph.C10_task_lt_reflexive"
   ],
   "note": "Violated by the code: the priority queue orders unique_ptr addresses."
  },
  {
   "property": "C11",
   "status": "partial",
   "theorems": [
    "CGraph.C11_wait_without_signal_violated",
    "CGraph.C11_wait_after_signal_violated",
    "CGraph.C11_exact_partial",
    "CGraph.C11_signals_never_wake"
   ],
   "note": "Violated by the code: the wait predicate is inverted."
  },
  {
   "property": "C12",
   "status": "proved",
   "theorems": [
    "CGraph.C12_mutual_exclusion",
    "CGraph.C12_free_lock_is_acquired"
   ],
   "note": "Unlock only by the holder, as in the library's own uses."
  },
  {
   "property": "C13",
   "status": "partial",
   "theorems": [
    "CGraph.C13_route_partial",
    "CGraph.C13_wrapped_counter_violated",
    "CGraph.C13_empty_pool_undefined_violated",
    "CGraph.C13_round_robin",
    "CGraph.C13_tid"
   ],
   "note": "Violated when the slot counter wraps with more than 101 slots and for a pool without slots; proved otherwise."
  },
  {
   "property": "C14",
   "status": "proved",
   "theorems": [
    "CGraph.C14_steal_targets"
   ],
   "note": ""
  },
  {
   "property": "C15",
   "status": "proved",
   "theorems": [
    "CGraph.C15_at_most_once",
    "CGraph.C15_can_finish",
    "CGraph.C15_quiescent"
   ],
   "note": "Progress is stated as: from every reachable live state the workers can finish everything (possibility, not fair scheduling)."
  },
  {
   "property": "C16",
   "status": "partial",
   "theorems": [
    "CGraph.C16_served_partial",
    "CGraph.C16_no_secondary_violated",
    "CGraph.C16_after_release_violated",
    "CGraph.C16_long_time_violated"
   ],
   "note": "Violated without room for secondary threads, after release, and for the long-time strategy; proved for commitWithPriority with room."
  },
  {
   "property": "C17",
   "status": "partial",
   "theorems": [
    "CGraph.C17_max_threads_partial",
    "CGraph.C17_concurrent_create_violated",
    "CGraph.C17_release"
   ],
   "note": "Violated by two concurrent creations; proved when the calls do not overlap."
  },
  {
   "property": "C18",
   "status": "proved",
   "theorems": [
    "CGraph.C18_retire_exact",
    "CGraph.C18_idle_retires",
    "CGraph.C18_busy_stays"
   ],
   "note": ""
  },
  {
   "property": "C19",
   "status": "proved",
   "theorems": [
    "CGraph.C19_submit",
    "CGraph.C19_not_init"
   ],
   "note": ""
  },
  {
   "property": "C20",
   "status": "partial",
   "theorems": [
    "CGraph.C20_queued_partial",
    "CGraph.C20_dropped_violated",
    "CGraph.C20_idle_destroy"
   ],
   "note": "Violated: queued tasks are discarded; proved: tasks taken by a worker are finished, and an idle pool drops nothing."
  },
  {
   "property": "C21",
   "status": "partial",
   "theorems": [
    "CGraph.C21_relation_symmetric",
    "CGraph.C21_counter_partial",
    "CGraph.C21_counter_after_failure_violated",
    "CGraph.C21_mutable_setup",
    "CGraph.C21_mutable_setup_violated",
    "CGraph.C21_engine_graph"
   ],
   "note": "Symmetry, irreflexivity and uniqueness proved for all histories; the counter clause fails after a refused addition (engines recompute the counter at setup)."
  },
  {
   "property": "C22",
   "status": "partial",
   "theorems": [
    "CGraph.C22_failed_registration_violated",
    "CGraph.C22_refused_prefix_partial"
   ],
   "note": "Violated by the code: entries before the offending one stay recorded."
  },
  {
   "property": "C23",
   "status": "proved",
   "theorems": [
    "CGraph.C23_cycle_detection_exact",
    "CGraph.C23_all_engines_agree"
   ],
   "note": "For graphs closed under dependencies and successors (C21_engine_graph links histories to this); see C64 for the rest."
  },
  {
   "property": "C24",
   "status": "proved",
   "theorems": [
    "CGraph.C24_order",
    "CGraph.C24_run",
    "CGraph.C24_acyclic_run"
   ],
   "note": "A crash status is rethrown by the status check instead of being returned; stated in C24_run."
  },
  {
   "property": "C25",
   "status": "proved",
   "theorems": [
    "CGraph.C25_layers",
    "CGraph.C25_run_order",
    "CGraph.C25_error_stops",
    "CGraph.C25_return",
    "CGraph.C25_progress"
   ],
   "note": "All interleavings of caller and pool threads; the pool is a bag of committed tasks (C13-C15 treat the pool itself)."
  },
  {
   "property": "C26",
   "status": "proved",
   "theorems": [
    "CGraph.C26_order",
    "CGraph.C26_exactly_once",
    "CGraph.C26_ok_means_all"
   ],
   "note": "Common DAG path of the dynamic engine; all interleavings, any number of consecutive successful runs. Runs after a failed run are C65."
  },
  {
   "property": "C27",
   "status": "proved",
   "theorems": [
    "CGraph.C27_progress",
    "CGraph.C27_bounded"
   ],
   "note": "No reachable stuck state when no element fails and a strictly decreasing measure bounds the work of a run."
  },
  {
   "property": "C28",
   "status": "proved",
   "theorems": [
    "CGraph.C28_dependents_not_started",
    "CGraph.C28_result"
   ],
   "note": ""
  },
  {
   "property": "C29",
   "status": "partial",
   "theorems": [
    "CGraph.C29_failing_run_returns_violated",
    "CGraph.C29_stuck_only_by_lost_wakeup_partial",
    "CGraph.C29_returns_partial"
   ],
   "note": "Violated by the code: the notification on error is sent without the mutex and can be lost. Proved: this is the only way to get stuck."
  },
  {
   "property": "C30",
   "status": "partial",
   "theorems": [
    "CGraph.C30_executing_after_return_violated",
    "CGraph.C30_starting_after_return_violated",
    "CGraph.C30_ok_return_quiet_partial"
   ],
   "note": "Violated by the code for failing runs. Proved for runs that return OK."
  },
  {
   "property": "C31",
   "status": "proved",
   "theorems": [
    "CGraph.C31_serial_is_chain",
    "CGraph.C31_serial_empty",
    "CGraph.C31_parallel_only_isolated",
    "CGraph.C31_chunks",
    "CGraph.C31_parallel_at_most_once",
    "CGraph.C31_parallel_result",
    "CGraph.C31_parallel_returns"
   ],
   "note": "Classification, chunking, serial loop and the transition system of the parallel path (with failures)."
  },
  {
   "property": "C32",
   "status": "proved",
   "theorems": [
    "CGraph.C32_trim_keeps_order"
   ],
   "note": "One level of a pipeline; the recursion into regions is not modelled."
  },
  {
   "property": "C33",
   "status": "proved",
   "theorems": [
    "CGraph.C33_trim_complete"
   ],
   "note": "As C32."
  },
  {
   "property": "C34",
   "status": "proved",
   "theorems": [
    "CGraph.C34_max_parallel_exact"
   ],
   "note": "Pipelines without groups (with groups the call is refused by the code)."
  },
  {
   "property": "C35",
   "status": "proved",
   "theorems": [
    "CGraph.C35_separate_exact",
    "CGraph.C35_never_concurrent"
   ],
   "note": "Two elements of the same level; the never-concurrent part is for the dynamic engine."
  },
  {
   "property": "C36",
   "status": "partial",
   "theorems": [
    "CGraph.C36_serialisable_is_chain_partial",
    "CGraph.C36_exact_partial",
    "CGraph.C36_cycle_accepted_violated"
   ],
   "note": "Violated for a chain plus a separate cycle; proved for acyclic graphs."
  },
  {
   "property": "C37",
   "status": "proved",
   "theorems": [
    "CGraph.C37_paths_exact"
   ],
   "note": ""
  },
  {
   "property": "C38",
   "status": "proved",
   "theorems": [
    "CGraph.C38_longest_path"
   ],
   "note": "Costs are natural numbers (the code sums doubles)."
  },
  {
   "property": "C39",
   "status": "partial",
   "theorems": [
    "CGraph.C39_success_partial",
    "CGraph.C39_ends",
    "CGraph.C39_stop",
    "CGraph.C39_status",
    "CGraph.C39_violated",
    "CGraph.C39_group_stop"
   ],
   "note": "User code, aspects and body are arbitrary functions of the whole trace. Violated when prepareRun returns a positive code: nothing runs and no error is reported."
  },
  {
   "property": "C40",
   "status": "partial",
   "theorems": [
    "CGraph.C40_run_partial",
    "CGraph.C40_life_partial",
    "CGraph.C40_default",
    "CGraph.C40_violated",
    "CGraph.C40_group_partial",
    "CGraph.C40_group_life_partial"
   ],
   "note": "Violated for exceptions that are no CException and for throwing crash handlers or crash aspects."
  },
  {
   "property": "C41",
   "status": "proved",
   "theorems": [
    "CGraph.C41_hold",
    "CGraph.C39_success_partial",
    "CGraph.C39_stop"
   ],
   "note": "C41_hold for loop count 1; larger loop counts by the two C39 theorems."
  },
  {
   "property": "C42",
   "status": "proved",
   "theorems": [
    "CGraph.C42_no_conflict",
    "CGraph.C42_accept"
   ],
   "note": ""
  },
  {
   "property": "C43",
   "status": "proved",
   "theorems": [
    "CGraph.C43_begin",
    "CGraph.C43_finish",
    "CGraph.C43_history",
    "CGraph.C43_pop_status",
    "CGraph.C43_add_pop"
   ],
   "note": ""
  },
  {
   "property": "C44",
   "status": "partial",
   "theorems": [
    "CGraph.CtlSt.C44_cancel_partial",
    "CGraph.CtlSt.C44_passed_test_violated",
    "CGraph.CtlSt.C44_hold_violated",
    "CGraph.CtlSt.C44_between_runs_violated"
   ],
   "note": "False for elements between their test and their body, for elements repeating because of isHold, and for a cancel between the loop test of process and the setup of the next run; holds otherwise."
  },
  {
   "property": "C45",
   "status": "partial",
   "theorems": [
    "CGraph.CtlSt.C45_in_body_partial",
    "CGraph.CtlSt.C45_without_suspension",
    "CGraph.CtlSt.C45_skipped_violated",
    "CGraph.CtlSt.C45_lost_wakeup_violated"
   ],
   "note": "Elements suspended in their body execute all their rounds once resumed; elements called while suspended are skipped, and the notification of resume can be lost."
  },
  {
   "property": "C46",
   "status": "proved",
   "theorems": [
    "CGraph.C46_cluster"
   ],
   "note": ""
  },
  {
   "property": "C47",
   "status": "proved",
   "theorems": [
    "CGraph.C47_choice",
    "CGraph.C47_throw"
   ],
   "note": ""
  },
  {
   "property": "C48",
   "status": "proved",
   "theorems": [
    "CGraph.C48_serial",
    "CGraph.C48_parallel"
   ],
   "note": ""
  },
  {
   "property": "C49",
   "status": "partial",
   "theorems": [
    "CGraph.SomeSt.C49_not_early_partial",
    "CGraph.SomeSt.C49_returns_without_rest",
    "CGraph.SomeSt.C49_stale_task_violated",
    "CGraph.SomeSt.C49_finished_children_timed_out_violated",
    "CGraph.SomeSt.C49_second_round_empty_violated"
   ],
   "note": "Holds for runs that begin with no task of an earlier run left and all children normal; false otherwise (a left-over task counts in the next run), and the children that finished are marked as timed out like the others."
  },
  {
   "property": "C50",
   "status": "proved",
   "theorems": [
    "CGraph.C50_life"
   ],
   "note": "An exception of a child ends it early; stated in the theorem."
  },
  {
   "property": "C51",
   "status": "proved",
   "theorems": [
    "CGraph.PStore.C51_get",
    "CGraph.PStore.C51_identity",
    "CGraph.PStore.C51_element_get",
    "CGraph.PStore.C51_create",
    "CGraph.PStore.C51_remove",
    "CGraph.PStore.C51_keys"
   ],
   "note": ""
  },
  {
   "property": "C52",
   "status": "partial",
   "theorems": [
    "CGraph.Pipe.C52_order",
    "CGraph.Pipe.C52_complete",
    "CGraph.Pipe.C52_setup",
    "CGraph.Pipe.C52_no_reset_violated"
   ],
   "note": "Exact when every setup succeeds; when a setup fails no parameter is reset although all were set up."
  },
  {
   "property": "C53",
   "status": "proved",
   "theorems": [
    "CGraph.MsgMgr.C53_topics",
    "CGraph.MsgMgr.C53_channel"
   ],
   "note": "Sizes of at least two (C06). Definedness of such histories follows from C54_board_partial."
  },
  {
   "property": "C54",
   "status": "partial",
   "theorems": [
    "CGraph.MsgMgr.C54_board_partial",
    "CGraph.MsgMgr.C54_ids",
    "CGraph.MsgMgr.C54_delivery",
    "CGraph.MsgMgr.C54_ids_violated"
   ],
   "note": "Exact without detach and without use of dropped connections; clear makes the ids start again."
  },
  {
   "property": "C55",
   "status": "partial",
   "theorems": [
    "CGraph.MsgMgr.C54_board_partial",
    "CGraph.MsgMgr.C55_drop_violated",
    "CGraph.MsgMgr.C55_detach_violated"
   ],
   "note": "Nothing is freed twice or used after it was freed as long as nothing is detached and no dropped connection is used; otherwise it is."
  },
  {
   "property": "C56",
   "status": "proved",
   "theorems": [
    "CGraph.StageSt.C56_launch",
    "CGraph.StageSt.C56_leave",
    "CGraph.StageSt.C56_count",
    "CGraph.StageSt.C56_release"
   ],
   "note": "Any number of threads and groups for the safety part; release without new arrivals in between (C57 shows why)."
  },
  {
   "property": "C57",
   "status": "partial",
   "theorems": [
    "CGraph.StageSt.C57_separated_partial",
    "CGraph.StageSt.C57_violated"
   ],
   "note": "Holds when groups are separated; fails for every threshold of two or more otherwise."
  },
  {
   "property": "C58",
   "status": "proved",
   "theorems": [
    "CGraph.Pipe.C58_refused",
    "CGraph.Pipe.C58_phase",
    "CGraph.Pipe.C58_process",
    "CGraph.Pipe.C58_init_again"
   ],
   "note": "Creating a parameter is not guarded by design; everything else is."
  },
  {
   "property": "C59",
   "status": "partial",
   "theorems": [
    "CGraph.Pipe.C59_process_partial",
    "CGraph.Pipe.C59_init_fails",
    "CGraph.Pipe.C59_exception_violated"
   ],
   "note": "Holds when runs and destroy return; an exception out of a run skips destroy and leaves the pipeline initialised."
  },
  {
   "property": "C60",
   "status": "partial",
   "theorems": [
    "CGraph.EvSt.C60_sync",
    "CGraph.EvSt.C60_once",
    "CGraph.EvSt.C60_run",
    "CGraph.EvSt.C60_destroy_partial",
    "CGraph.EvSt.C60_destroy_shared",
    "CGraph.EvSt.C60_ends",
    "CGraph.EvSt.C60_destroy_violated",
    "CGraph.EvSt.C60_run_destroy_violated"
   ],
   "note": "Synchronous and wait-on-run notifications during runs: proved. Wait-on-destroy: proved for a shared pool; with its own pool, queued handlers are dropped. Wait-on-run with no run after it: destroy does not wait."
  },
  {
   "property": "C61",
   "status": "partial",
   "theorems": [
    "CGraph.PmSt.C61_exclusive_partial",
    "CGraph.PmSt.C61_partition_partial",
    "CGraph.PmSt.C61_refused_partial",
    "CGraph.PmSt.C61_held",
    "CGraph.PmSt.C61_throw_violated",
    "CGraph.PmSt.C61_duplicate_violated",
    "CGraph.PmSt.C61_remove_violated"
   ],
   "note": "All schedules of run/fetch/release/add/remove/clear/init/destroy with distinct pipelines and no removal of a busy pipeline; removing a busy one, or adding one twice, gives it to two callers; an exception loses the pipeline."
  },
  {
   "property": "C62",
   "status": "partial",
   "theorems": [
    "CGraph.C62_roundtrip_partial",
    "CGraph.C62_injective",
    "CGraph.C62_in_place",
    "CGraph.C62_empty_class_violated"
   ],
   "note": "Proved for all types and values where every class has a field and the size fits into 64 bits; a vector of a class without fields comes back empty."
  },
  {
   "property": "C63",
   "status": "partial",
   "theorems": [
    "CGraph.C63_save",
    "CGraph.C63_partial",
    "CGraph.C63_param_violated",
    "CGraph.C63_config_violated",
    "CGraph.C63_orphan_violated",
    "CGraph.C63_resave_violated",
    "CGraph.C63_loop_violated"
   ],
   "note": "Pipelines without parameters: proved end to end through the bytes, but for two configuration members. Any pipeline with a parameter fails to load."
  },
  {
   "property": "C64",
   "status": "partial",
   "theorems": [
    "CGraph.C64_foreign_successors_violated",
    "CGraph.C64_foreign_dependency_rejected",
    "CGraph.C64_foreign_dependency_refused_partial"
   ],
   "note": "Violated by the code: foreign successors are counted by the DAG test, so that a cyclic graph can be accepted."
  },
  {
   "property": "C65",
   "status": "partial",
   "theorems": [
    "CGraph.C65_run_after_failure_violated",
    "CGraph.C65_run_after_quiet_failure_partial",
    "CGraph.C65_ok_without_element_violated",
    "CGraph.C65_damage_lasts_violated",
    "CGraph.C65_parallel_early_violated",
    "CGraph.C65_parallel_old_error_violated",
    "CGraph.C65_parallel_returns_partial"
   ],
   "note": "Violated by the code: work left over from the failed run joins the next run. That run may execute an element twice, return OK without having executed one, or return an error of the run before; the dependency counters may stay wrong for all later runs, which are all OK. Proved when the left over work has ended; runs of independent elements return whatever is left over."
  },
  {
   "property": "C66",
   "status": "partial",
   "theorems": [
    "CGraph.C66_serial_run_partial",
    "CGraph.C66_bound_elements_hang_violated"
   ],
   "note": "Violated when binding indices differ; proved when they are equal."
  },
  {
   "property": "C67",
   "status": "partial",
   "theorems": [
    "CGraph.C67_analysis_ends_partial",
    "CGraph.C67_analysis_diverges_violated",
    "CGraph.C67_cycle_unnoticed_violated"
   ],
   "note": "Violated for cyclic graphs; proved for acyclic ones."
  },
  {
   "property": "C68",
   "status": "proved",
   "theorems": [
    "CGraph.C68_batch",
    "CGraph.C68_shape",
    "CGraph.C68_batch_of_one"
   ],
   "note": ""
  },
  {
   "property": "C69",
   "status": "proved",
   "theorems": [
    "CGraph.C69_times"
   ],
   "note": ""
  },
  {
   "property": "C70",
   "status": "partial",
   "theorems": [
    "CGraph.SomeSt.C70_returns_partial",
    "CGraph.SomeSt.C70_small_pool_violated"
   ],
   "note": "Holds with more workers than children; false for every smaller pool: all workers can wait for bodies queued behind them."
  },
  {
   "property": "C71",
   "status": "partial",
   "theorems": [
    "CGraph.PStore.C71_backtrace",
    "CGraph.PStore.C71_off",
    "CGraph.PStore.C71_second_create_violated"
   ],
   "note": "The record is exact; but a repeated create that asks for recording reports success and leaves recording off."
  },
  {
   "property": "C72",
   "status": "partial",
   "theorems": [
    "CGraph.PStore.C72_keys_partial",
    "CGraph.PStore.C72_freed_read",
    "CGraph.PStore.C72_removed_violated"
   ],
   "note": "Exact while no used parameter has been removed; after a removal the call reads freed memory for ever."
  },
  {
   "property": "C73",
   "status": "partial",
   "theorems": [
    "CGraph.Pipe.C73_init",
    "CGraph.Pipe.C73_destroy",
    "CGraph.Pipe.C73_failed_init_violated",
    "CGraph.Pipe.C73_late_param_violated",
    "CGraph.Pipe.C73_repeated_destroy_violated"
   ],
   "note": "Successful calls pair up; after a failed init the initialised parts (running daemons among them) can never be destroyed, late parameters are destroyed without init, a repeated destroy destroys twice."
  },
  {
   "property": "C74",
   "status": "partial",
   "theorems": [
    "CGraph.Pipe.C74_safe_partial",
    "CGraph.Pipe.C74_after_failed_destroy_violated"
   ],
   "note": "Safe as long as no part fails to be destroyed; after a failed destroy the pipeline accepts run with its pool deleted."
  },
  {
   "property": "C75",
   "status": "partial",
   "theorems": [
    "CGraph.StageMgr.C75_first_partial",
    "CGraph.StageMgr.C75_duplicate_violated"
   ],
   "note": "The first registration counts; later ones report success, are ignored and their stage is leaked."
  },
  {
   "property": "C76",
   "status": "partial",
   "theorems": [
    "CGraph.C76_violated",
    "CGraph.C76_trailing_partial"
   ],
   "note": "Every cut file makes load read outside of its buffer; bytes after the value are ignored."
  },
  {
   "property": "C77",
   "status": "partial",
   "theorems": [
    "CGraph.TmSt.C77_alone",
    "CGraph.TmSt.C77_first",
    "CGraph.TmSt.C77_gap",
    "CGraph.TmSt.C77_stop_partial",
    "CGraph.TmSt.C77_stop_ends",
    "CGraph.TmSt.C77_freed_partial",
    "CGraph.TmSt.C77_stop_violated",
    "CGraph.TmSt.C77_delay_violated",
    "CGraph.TmSt.C77_freed_violated"
   ],
   "note": "No overlap, the distances, and quiet after a stop with no other stop in progress: proved. A concurrent second stop returns while the task runs; a stop may take a whole interval (lost notification); deleting an initialised pipeline may run the task on a half destroyed object."
  },
  {
   "property": "C78",
   "status": "partial",
   "theorems": [
    "CGraph.ASt.C78_held_partial",
    "CGraph.ASt.C78_ok_partial",
    "CGraph.ASt.C78_fence_partial",
    "CGraph.ASt.C78_alone_partial",
    "CGraph.ASt.C78_elem_partial",
    "CGraph.ASt.C78_no_race",
    "CGraph.ASt.C78_alone_violated",
    "CGraph.ASt.C78_throw_violated",
    "CGraph.ASt.C78_repeat_violated",
    "CGraph.ASt.C78_fence_violated",
    "CGraph.ASt.C78_fence_throw_violated",
    "CGraph.ASt.C78_race_violated"
   ],
   "note": "Proved for all interleavings as long as no future was used by two threads at once, no exception has left run and no body was repeated after its timeout; the first is excluded when fences depend on their elements and share none. False: AS_ERROR bodies outlive the run and overlap with the next one; an exception of a late held body leaves run, and the next run silently skips the element; isHold after a timeout loses the future; fences without dependency, after an exception, or sharing an element."
  },
  {
   "property": "C79",
   "status": "partial",
   "theorems": [
    "CGraph.LvSt.C79_order_partial",
    "CGraph.LvSt.C79_find_partial",
    "CGraph.LvSt.C79_order_violated",
    "CGraph.LvSt.C79_find_violated"
   ],
   "note": "Proved for all call sequences in which no level is set after the registration of its element. setLevel is accepted after registration and changes a key inside the set: the order is stale, an element is no longer found, and the optimizer's row is outside of the matrix."
  },
  {
   "property": "C80",
   "status": "partial",
   "theorems": [
    "CGraph.NestSt.C80_finite",
    "CGraph.NestSt.C80_stuck",
    "CGraph.NestSt.C80_partial",
    "CGraph.NestSt.C80_violated",
    "CGraph.NestSt.C80_range_violated"
   ],
   "note": "Finiteness and the shape of a stuck state are proved for all pipelines; progress when the pool has more threads than there are groups whose thread may wait and workers may take from all queues. For every pool size W >= 2 there is a pipeline of W regions whose run never returns, and with steal range r >= 1 and W > r+1 threads r+1 regions suffice: workers waiting inside regions do not execute queued tasks."
  },
  {
   "property": "C81",
   "status": "partial",
   "theorems": [
    "CGraph.PfSt.C81_same_partial",
    "CGraph.PfSt.C81_restore_partial",
    "CGraph.PfSt.C81_history_partial",
    "CGraph.PfSt.C81_failed_violated",
    "CGraph.PfSt.C81_leak_violated",
    "CGraph.PfSt.C81_added_violated",
    "CGraph.PfSt.C81_code_violated"
   ],
   "note": "Transparency proved by a simulation for all user code whose begin aspects never answer with a positive code (with one, a status text differs); restoration proved for analyses that succeed and during which no aspect is added. A failing analysis leaves its aspects and records, which a later one leaks; an aspect added during the analysis is deleted in place of the analysis' own, which keeps a pointer to a deleted record."
  },
  {
   "property": "C82",
   "status": "partial",
   "theorems": [
    "CGraph.SgSt.C82_lives_partial",
    "CGraph.SgSt.C82_alternate_partial",
    "CGraph.SgSt.C82_shared_violated",
    "CGraph.SgSt.C82_race_violated",
    "CGraph.SgSt.C82_managers_violated",
    "CGraph.SgSt.C82_code_violated"
   ],
   "note": "Proved when at most one pipeline that uses the object is in use at a time; initialisation and destruction alternate whenever init and destroy calls do not overlap. False otherwise: the first pipeline to be destroyed destroys the object for all, concurrent init calls initialise it twice, the object has the managers of the pipeline that registered it last, and a positive code of init lets it be initialised again."
  },
  {
   "property": "C83",
   "status": "partial",
   "theorems": [
    "CGraph.MuSt.C83_structure",
    "CGraph.MuSt.C83_outcome",
    "CGraph.MuSt.C83_anew",
    "CGraph.MuSt.C83_history",
    "CGraph.MuSt.C83_ready",
    "CGraph.MuSt.C83_life",
    "CGraph.MuSt.C83_cyclic_partial",
    "CGraph.MuSt.C83_cyclic_violated",
    "CGraph.MuSt.C83_stale_violated"
   ],
   "note": "Structure, independence of earlier runs, outcome and life cycle proved in full. For a cycle only: nothing is executed before the first ready run since init. After a ready run the engine runs with the arrays of that run although setup failed: it may loop for ever or wait for ends that never come."
  },
  {
   "property": "C84",
   "status": "partial",
   "theorems": [
    "CGraph.FzSt.C84_flags_partial",
    "CGraph.FzSt.C84_frozen",
    "CGraph.FzSt.C84_life_partial",
    "CGraph.FzSt.C84_thaw_partial",
    "CGraph.FzSt.C84_plain_violated",
    "CGraph.FzSt.C84_failed_violated"
   ],
   "note": "Proved for every element except nodes directly in groups other than regions, and while no init or destroy fails. Nodes in such groups never count as initialised (setters accepted, spawn refused); a failed init leaves the elements before the failing one frozen."
  },
  {
   "property": "C85",
   "status": "partial",
   "theorems": [
    "CGraph.MemSt.C85_once_partial",
    "CGraph.MemSt.C85_apart_partial",
    "CGraph.MemSt.C85_remove_partial",
    "CGraph.MemSt.C85_all_partial",
    "CGraph.MemSt.C85_kept_partial",
    "CGraph.MemSt.C85_leak_violated",
    "CGraph.MemSt.C85_shared_violated",
    "CGraph.MemSt.C85_removed_violated"
   ],
   "note": "Proved for all histories of calls on live pipelines with elements that pipeline made: no double delete, no early delete, disjoint ownership; all deleted by clear when every registration succeeds and no stage key repeats. A failed registration leaks the new node for ever; an element registered in a second pipeline is deleted twice; a repeated remove deletes everything twice."
  },
  {
   "property": "C86",
   "status": "partial",
   "theorems": [
    "CGraph.DumpEnv.C86_text_partial",
    "CGraph.DumpEnv.C86_distinct",
    "CGraph.DumpEnv.C86_quote_violated",
    "CGraph.DumpEnv.C86_backslash_violated",
    "CGraph.DumpEnv.C86_mutable_violated"
   ],
   "note": "Proved against an independent reader of the DOT language, for names without quotes and backslashes and pipelines whose mutable groups have no children. Names are not escaped (a name can forge nodes, or make the text unreadable), and the children of mutable groups are missing."
  },
  {
   "property": "C87",
   "status": "proved",
   "theorems": [
    "CGraph.NestSt.C87_order",
    "CGraph.NestSt.C87_enclose",
    "CGraph.NestSt.C87_once",
    "CGraph.NestSt.C87_bodies"
   ],
   "note": "For runs in which no element fails, one round per group; the log of a run is made from the states alone by an observer in the specification."
  },
  {
   "property": "C88",
   "status": "partial",
   "theorems": [
    "CGraph.SepCfg.C88_answers",
    "CGraph.SepCfg.C88_same",
    "CGraph.SepCfg.C88_sound_partial",
    "CGraph.SepCfg.C88_complete",
    "CGraph.SepCfg.C88_exact_partial",
    "CGraph.SepCfg.C88_ancestor_violated",
    "CGraph.SepCfg.C88_within",
    "CGraph.SepCfg.C88_some_violated"
   ],
   "note": "Violated in the code in two ways: for a group and an element inside of it the check answers true although they always overlap (C88_ancestor_violated, C88_within); a member of a GSome may go on after the group has returned, so it may overlap with an element that depends on the group although the check answers true (C88_some_violated). Exact for all other pairs in pipelines without GSome; completeness holds for all."
  },
  {
   "property": "C89",
   "status": "partial",
   "theorems": [
    "CGraph.SerCfg.C89_accepts",
    "CGraph.SerCfg.C89_order_partial",
    "CGraph.SerCfg.C89_once_partial",
    "CGraph.SerCfg.C89_exact",
    "CGraph.SerCfg.C89_binding_violated",
    "CGraph.SerCfg.C89_timeout_violated",
    "CGraph.SerCfg.C89_parallel_violated"
   ],
   "note": "Violated in the code: accepted pipelines whose run needs a thread of the empty pool are those in which two elements of one level have different bindings (a region next to a node has, by default), an element inside of a group other than a region has a timeout, or a parallel multi-condition has one member; C89_exact says that these are all, for the others C89_order_partial and C89_once_partial give the order."
  },
  {
   "property": "C90",
   "status": "partial",
   "theorems": [
    "CGraph.FailSt.C90_order",
    "CGraph.FailSt.C90_blocked",
    "CGraph.FailSt.C90_reported",
    "CGraph.FailSt.C90_ok",
    "CGraph.FailSt.C90_error",
    "CGraph.FailSt.C90_once",
    "CGraph.FailSt.C90_stop",
    "CGraph.FailSt.C90_finite",
    "CGraph.FailSt.C90_stuck",
    "CGraph.FailSt.C90_progress_partial",
    "CGraph.FailSt.C90_after_return_violated"
   ],
   "note": "Violated in the code: members that are in a queue when another member fails are executed nevertheless (unless the members are independent), and elements inside of a failed group begin after run() has returned; a pool with too few threads may wait for ever (C80), which is why progress asks for more threads than waiting groups. All other parts are proved."
  },
  {
   "property": "C91",
   "status": "partial",
   "theorems": [
    "CGraph.C91_order",
    "CGraph.C91_complete_partial",
    "CGraph.C91_exact_partial",
    "CGraph.C91_count",
    "CGraph.C91_again",
    "CGraph.C91_unreached",
    "CGraph.C91_cluster_violated"
   ],
   "note": "Violated in the code: only regions that are reached through regions are trimmed; a region inside of a cluster, condition or other group keeps its redundant dependencies (GTrimOptimizer.h:51 asks for element type REGION only). Order, number and idempotence are proved for every pipeline, completeness for the levels reached through regions."
  },
  {
   "property": "C92",
   "status": "partial",
   "theorems": [
    "CGraph.Passed.C92_values_partial",
    "CGraph.Passed.C92_no_leak_partial",
    "CGraph.Passed.C92_private_partial",
    "CGraph.Passed.C92_frozen",
    "CGraph.Passed.C92_self_violated",
    "CGraph.Passed.C92_self_program_violated",
    "CGraph.Passed.C92_throw_element_violated",
    "CGraph.Passed.C92_throw_other_violated"
   ],
   "note": "Violated in the code: handing back the object obtained from a holder under the same key copies from an object that has just been deleted; when clone() throws, an element loses its parameter, leaks the new object and getEParam throws from then on, and the other holders are left with a default object. Proved for all programs without a throwing clone() that do not hand an object back to where it came from."
  },
  {
   "property": "C93",
   "status": "partial",
   "theorems": [
    "CGraph.Distance.C93_euclid_partial",
    "CGraph.Distance.C93_metric_partial",
    "CGraph.Distance.C93_cosine_partial",
    "CGraph.Distance.C93_cosine_range_partial",
    "CGraph.Distance.C93_normalize_partial",
    "CGraph.Distance.C93_refused",
    "CGraph.Distance.C93_normalize_refused",
    "CGraph.Distance.C93_batch",
    "CGraph.Distance.C93_short_violated",
    "CGraph.Distance.C93_short_checked_violated",
    "CGraph.Distance.C93_long_violated",
    "CGraph.Distance.C93_zero_violated",
    "CGraph.Distance.C93_normalize_zero_violated",
    "CGraph.Distance.C93_wrap_violated",
    "CGraph.Distance.C93_integral_violated"
   ],
   "note": "Violated in the code: by default, and for cosine even with needCheck, a shorter second vector is read behind its end, and coordinates a longer one has more are ignored; the zero vector gives not-a-number with status OK for cosine and normalize; the check refuses vectors with 2^32 coordinates (the product wraps); normalize of an integral vector longer than 1 gives zero. Proved for vectors of equal size whose square is not a multiple of 2^64 and, for cosine and normalize, other than zero. Floating point numbers are modelled by real numbers: rounding and overflow are missing."
  },
  {
   "property": "C94",
   "status": "partial",
   "theorems": [
    "CGraph.Overlap.C94_forest_order_partial",
    "CGraph.Overlap.C94_forest_complete_partial",
    "CGraph.Overlap.C94_order_violated",
    "CGraph.Overlap.C94_early_return_violated",
    "CGraph.Overlap.C94_hang_violated",
    "CGraph.Overlap.C94_status_lost_violated",
    "CGraph.Overlap.C94_status_spreads_violated"
   ],
   "note": "Violated in the code: overlapping calls are not refused and share the counters of dependencies, the count of ended last elements, the status and the condition variable. With a join an element starts though a dependency has not run; a run returns OK before its own elements have been started; a caller whose elements are all done sleeps for ever; a run with a failed element returns OK after another one has begun; a run returns the error of another one. Proved for graphs in which no element has more than one dependency: order and at most once in each run for every schedule and every failure, and nothing is lost when nothing fails; nothing is proved about when and with which status such runs return. The dynamic engine is modelled, with the dag type common."
  },
  {
   "property": "C95",
   "status": "partial",
   "theorems": [
    "CGraph.Visible.C95_record",
    "CGraph.Visible.C95_visible",
    "CGraph.Visible.C95_returned",
    "CGraph.Visible.C95_runs",
    "CGraph.Visible.C95_tasks",
    "CGraph.Visible.C95_racefree_partial",
    "CGraph.Visible.C95_race_violated"
   ],
   "note": "Visibility is proved in full for the dynamic engine with the dag type common, for dependencies (also in runs with failures), for a caller whose run returned no error, and for later runs. Violated in the code: `cur_status_` is written under `status_lock_` but read without it, so that in every run in which an element executed by the pool fails there is a data race with every later reading by a thread that records no failure, among them the reading of the value that run returns; the caller of a failed run need not see what the elements wrote. Without failures there are no data races. A new run is begun only when nothing of a failed run is still going on. Assumed: handing a task to the pool and taking it synchronise (C09), atomics are read in one order."
  },
  {
   "property": "C96",
   "status": "partial",
   "theorems": [
    "CGraph.Lifetime.C96_own",
    "CGraph.Lifetime.C96_once",
    "CGraph.Lifetime.C96_shared_quiet_partial",
    "CGraph.Lifetime.C96_shared_elements_partial",
    "CGraph.Lifetime.C96_shared_engine_violated",
    "CGraph.Lifetime.C96_shared_elements_violated"
   ],
   "note": "Proved in full for a pipeline with its own pool (the default), whatever fails. Violated with a shared pool (`setSharedThreadPool`): `destroy` does not wait for its threads. The thread that counts the last tail lets the caller of `run` go and then locks a mutex of the engine; if the caller destroys the pipeline in between, the engine is used after it was deleted, even after a run that returned OK. After a run that failed, tasks that are left in the shared pool execute elements that have been destroyed. With a shared pool and no failures the elements are safe, and everything is if nothing is left in the pool at the call. One cycle of init and destroy, dynamic engine, dag type common."
  },
  {
   "property": "C97",
   "status": "partial",
   "theorems": [
    "CGraph.Coord.C97_bounded",
    "CGraph.Coord.C97_returns_partial",
    "CGraph.Coord.C97_create_partial",
    "CGraph.Coord.C97_create_effect",
    "CGraph.Coord.C97_release_effect",
    "CGraph.Coord.C97_deadlock_violated",
    "CGraph.Coord.C97_self_violated"
   ],
   "note": "Proved when tasks that secondary threads execute leave the number of threads alone (callers, primary threads and the monitor do what they like), and when threads are only created; the number of steps is bounded in every case; effect of one undisturbed call. Violated otherwise: `releaseSecondaryThread` destroys and so joins, with `st_mutex_` held, every thread that was told to end. Called by such a thread it joins itself, which throws in a destructor and terminates the program (a task that releases a thread twice, on a secondary thread); and if the thread that is joined, also by the monitor, is executing a task that creates or releases threads, the two wait for each other for ever."
  },
  {
   "property": "C98",
   "status": "proved",
   "theorems": [
    "CGraph.Adapter.C98_ann_calls",
    "CGraph.Adapter.C98_ann_status",
    "CGraph.Adapter.C98_function_last",
    "CGraph.Adapter.C98_function_refused"
   ],
   "note": "User functions are arbitrary outcomes (a status or an exception); the flag of the element is set by whoever initialises it (C84)."
  },
  {
   "property": "C99",
   "status": "partial",
   "theorems": [
    "CGraph.PoolLive.C99_own",
    "CGraph.PoolLive.C99_shared_partial",
    "CGraph.PoolLive.C99_drained",
    "CGraph.PoolLive.C99_starve_violated",
    "CGraph.PoolLive.C99_priority_starve_violated"
   ],
   "note": "Proved for tasks in the queue of a primary thread under any continuing load; for tasks in the shared queue under any continuing load if there is a secondary thread that is not told to stop; and for all tasks, in whichever queue, once submissions cease. Violated otherwise: a primary thread looks into the shared queue only when its own queue and those it may steal from are empty, and a secondary thread looks into the priority queue only when the shared queue is empty; in every pool there is a fair schedule in which a task of the shared queue (no secondary thread), or a task with a priority, is never started while tasks submitted later keep being executed."
  },
  {
   "property": "C100",
   "status": "proved",
   "theorems": [
    "CGraph.C100_ring",
    "CGraph.C100_ring_handover",
    "CGraph.C100_ring_empty",
    "CGraph.C100_ring_stale",
    "CGraph.C100_spin_order",
    "CGraph.C100_spin_exclusive"
   ],
   "note": "Proved for all executions that are coherent in the sense of Spec/WeakMem.lean (release/acquire synchronisation with release sequences, read and write coherence, atomicity of read-modify-write). C100_ring_stale shows the limit: a tryPop may return false although a push has returned, if nothing makes the push happen before it. Not modelled: loads that read from a store not yet performed, fences, the total order of sequentially consistent operations (leaving it out allows more executions)."
  },
  {
   "property": "C101",
   "status": "proved",
   "theorems": [
    "CGraph.C101_racefree",
    "CGraph.C101_visible",
    "CGraph.C101_quiet"
   ],
   "note": "Proved for all executions that are coherent in the sense of Spec/WeakMem.lean. Runs with failures are not in this model: there cur_status_ is read while it is written (C95) and work of the failed run may go on in the next (C65). Handing a task over is a release store and an acquire load (C08, C09)."
  },
  {
   "property": "C102",
   "status": "proved",
   "theorems": [
    "CGraph.WeakDyn.C102_order",
    "CGraph.WeakDyn.C102_visible",
    "CGraph.WeakDyn.C102_accs",
    "CGraph.WeakDyn.C102_racefree",
    "CGraph.WeakDyn.C102_returns"
   ],
   "note": "Proved for all executions that are coherent in the sense of Spec/WeakMem.lean (the order of the log is the modification order of every atomic). Runs with failures are not in this model: there cur_status_ is read while it is written (C95) and work of the failed run may go on in the next (C65). Handing a task over is a release store and an acquire load (C08, C09). The bound of C102_returns does not count wake-ups without notification; that the bound is reached needs threads that go on, see C99."
  },
  {
   "property": "C103",
   "status": "partial",
   "theorems": [
    "CGraph.WeakStatic.C103_order",
    "CGraph.WeakStatic.C103_returned",
    "CGraph.WeakStatic.C103_visible",
    "CGraph.WeakStatic.C103_accs",
    "CGraph.WeakStatic.C103_racefree_partial",
    "CGraph.WeakStatic.C103_coherent",
    "CGraph.WeakStatic.C103_returns",
    "CGraph.WeakStatic.C103_exception_violated"
   ],
   "note": "Proved for all schedules, with errors and exceptions, except that an exception that an element throws (one that fatProcessor does not turn into a status, see C40) leaves run() through future.get() while other elements of the row are queued or executing: the next run can execute the same element a second time at once and race with it (C103_exception_violated). Race freedom is proved for executions in which no exception left a run. Order and once-per-run hold in all. Handing a task over and making a future ready are a release store and an acquire load of a fresh location."
  },
  {
   "property": "C104",
   "status": "partial",
   "theorems": [
    "CGraph.EngPool.C104_order",
    "CGraph.EngPool.C104_returns",
    "CGraph.EngPool.C104_failing_partial",
    "CGraph.EngPool.C104_failing_returns_violated"
   ],
   "note": "Order (also with failing elements) and return of runs without failures are proved for all fair schedules and configurations; the priority queue may be used only if there is a secondary thread (C99), and pools of more than 101 threads need one too. With failing elements run() returns or the wake-up of the caller was lost (C29): C104_failing_returns_violated is a fair schedule on two threads in which run() never returns. Runs after a failed one are assumed to begin when its leftovers have been executed (C65)."
  },
  {
   "property": "C105",
   "status": "proved",
   "theorems": [
    "CGraph.Chan.C105_history",
    "CGraph.Chan.C105_quiet",
    "CGraph.Chan.C105_receive",
    "CGraph.Chan.C105_send",
    "CGraph.Chan.C105_wait",
    "CGraph.Chan.C105_wait_one"
   ],
   "note": "Proved for all fair schedules. What is between locking and unlocking the mutex is one step. With several waiting senders one of them may be overtaken for ever by the others (condition variables are not fair); the statement is about some send, or the single one. clear and setCapacity are not called while the channel is in use."
  },
  {
   "property": "C106",
   "status": "proved",
   "theorems": [
    "CGraph.StatPool.C106_order",
    "CGraph.StatPool.C106_returns",
    "CGraph.StatPool.C106_result"
   ],
   "note": "Proved for all fair schedules and configurations. Ok collects the conditions on the pool: a primary thread, non-empty batches, and a secondary thread if a task can get into the priority queue (C16, C99). The pool is the pipeline's own and used for nothing else."
  },
  {
   "property": "C107",
   "status": "partial",
   "theorems": [
    "CGraph.WsConc.C107_atomic",
    "CGraph.WsConc.C107_once",
    "CGraph.WsConc.C107_conserved",
    "CGraph.WsConc.C107_pool",
    "CGraph.WsConc.C107_release",
    "CGraph.WsConc.C107_race_violated",
    "CGraph.WsConc.C107_race_partial"
   ],
   "note": "The code violates the last clause: tryPop, trySteal and isEmpty read deque_.empty() without the mutex, a data race with a concurrent push (C107_race_violated); no other access can meet a modification (C107_race_partial). Everything else is proved for sequentially consistent single accesses."
  },
  {
   "property": "C108",
   "status": "partial",
   "theorems": [
    "CGraph.AqConc.C108_atomic",
    "CGraph.AqConc.C108_once",
    "CGraph.AqConc.C108_awake",
    "CGraph.AqConc.C108_closed",
    "CGraph.AqConc.C108_release",
    "CGraph.AqConc.C108_leaves",
    "CGraph.AqConc.C108_timeout",
    "CGraph.AqConc.C108_drained_violated",
    "CGraph.AqConc.C108_race_violated",
    "CGraph.AqConc.C108_race_partial"
   ],
   "note": "The code violates two clauses: tryPop reads queue_.empty() without the mutex (C108_race_violated; no other access can meet a modification, C108_race_partial), and after reset popWithTimeout gives nothing although values are left (C108_drained_violated, cf. C20). setup() is not called while the queue is in use."
  },
  {
   "property": "C109",
   "status": "partial",
   "theorems": [
    "CGraph.Prim.C109_pushed",
    "CGraph.Prim.C109_idle",
    "CGraph.Prim.C109_told",
    "CGraph.Prim.C109_conserved",
    "CGraph.Prim.C109_taken",
    "CGraph.Prim.C109_destroyed",
    "CGraph.Prim.C109_shared_violated",
    "CGraph.Prim.C109_trigger_violated",
    "CGraph.Prim.C109_overlap_violated",
    "CGraph.Prim.C109_trigger_partial",
    "CGraph.Prim.C109_rounds_violated",
    "CGraph.Prim.C109_rounds_partial",
    "CGraph.Prim.C109_race_violated",
    "CGraph.Prim.C109_race_partial"
   ],
   "note": "Proved: no own task and no destruction is slept through, and both complete on every fair schedule even if the clock never wakes the thread. The code violates the other clauses: a task in the shared queue wakes no primary thread (C109_shared_violated), and waking all threads loses the notification between test and sleep (C109_trigger_violated) or when two such calls overlap (C109_overlap_violated) - then only the time-out helps; finding a task does not set the count of empty rounds back (C109_rounds_violated); done_ is read without the mutex in loopProcess (C109_race_violated). The calls of the shared queue are single steps (C108)."
  },
  {
   "property": "C110",
   "status": "partial",
   "theorems": [
    "CGraph.ParPool.C110_returns",
    "CGraph.ParPool.C110_once",
    "CGraph.ParPool.C110_result",
    "CGraph.ParPool.C110_handover",
    "CGraph.ParPool.C110_bound_violated",
    "CGraph.ParPool.C110_bound_partial"
   ],
   "note": "Proved: return on every fair schedule (any element results, any left-overs), once, result (runs begun after all left-overs of a failed run are done), the lock discipline of batches. The code violates the last clause: with more elements than threads, rows are handed over by executeWithTid with the row number, so the binding index is ignored (C110_bound_violated); with at most as many elements as threads it is honoured (C110_bound_partial)."
  },
  {
   "property": "C111",
   "status": "partial",
   "theorems": [
    "CGraph.ParamConc.C111_atomic",
    "CGraph.ParamConc.C111_found",
    "CGraph.ParamConc.C111_freed_violated",
    "CGraph.ParamConc.C111_only_get",
    "CGraph.ParamConc.C111_freed_once",
    "CGraph.ParamConc.C111_noleak",
    "CGraph.ParamConc.C111_safe_partial",
    "CGraph.ParamConc.C111_noremoval_partial",
    "CGraph.ParamConc.C111_race_violated",
    "CGraph.ParamConc.C111_race_partial",
    "CGraph.ParamConc.C111_backtrace",
    "CGraph.ParamConc.C111_release"
   ],
   "note": "Proved: linearizability, found, one object, backtrace, no double free, no leak, release. The code violates the safety of getGParam: get takes no lock, so a concurrent removal frees the object under it (C111_freed_violated) and even creating an unrelated key races with it (C111_race_violated). Proved of that clause: freed objects are only ever accessed by getGParam, never if no getGParam overlaps a removal; every race is between a getGParam and the one thread that modifies under the mutex."
  },
  {
   "property": "C112",
   "status": "partial",
   "theorems": [
    "CGraph.PubSub.C112_each",
    "CGraph.PubSub.C112_order",
    "CGraph.PubSub.C112_common_violated",
    "CGraph.PubSub.C112_common_partial",
    "CGraph.PubSub.C112_returns_nowait",
    "CGraph.PubSub.C112_returns_partial",
    "CGraph.PubSub.C112_slow_violated"
   ],
   "note": "Proved: each connection's history, per-publisher order, returning of DROP and REPLACE. The code violates two clauses: overlapping publications reach two subscribers in different orders (C112_common_violated), and a publisher asleep at the full queue of one subscriber keeps the message from the subscribers after it (C112_slow_violated). Proved of these: one order if publications do not overlap; a WAIT publication returns if every subscriber keeps receiving and no other thread publishes meanwhile (with several waiting publishers one may be overtaken for ever, see C105)."
  },
  {
   "property": "C113",
   "status": "partial",
   "theorems": [
    "CGraph.Lazy.C113_once",
    "CGraph.Lazy.C113_use_violated",
    "CGraph.Lazy.C113_use_partial",
    "CGraph.Lazy.C113_handle_violated"
   ],
   "note": "Proved: one object, returned to all, never null, on every execution of the memory model. The code violates the rest: handle_ is a plain pointer read outside of the mutex (C113_handle_violated), and a thread that finds it set is not ordered after the constructor (C113_use_violated). Proved of that clause: no race for a use that some passage through the mutex happens before."
  },
  {
   "property": "C114",
   "status": "partial",
   "theorems": [
    "CGraph.TopicConc.C114_atomic",
    "CGraph.TopicConc.C114_same",
    "CGraph.TopicConc.C114_channel",
    "CGraph.TopicConc.C114_delivered",
    "CGraph.TopicConc.C114_freed_violated",
    "CGraph.TopicConc.C114_only_use",
    "CGraph.TopicConc.C114_freed_once",
    "CGraph.TopicConc.C114_safe_partial",
    "CGraph.TopicConc.C114_noremoval_partial",
    "CGraph.TopicConc.C114_noleak",
    "CGraph.TopicConc.C114_race_violated",
    "CGraph.TopicConc.C114_race_partial"
   ],
   "note": "Proved: every call is atomic on the directory (the map is taken to be read and written in one step; see the races), one queue per topic, every queue is the channel of C05 and is asked exactly what the calls say, deleted once, none leaked. The code violates the rest: removeTopic/clear delete a queue in which a thread sleeps (C114_freed_violated), and sendTopicValue/recvTopicValue read the map without the mutex (C114_race_violated). Proved of those clauses: no freed queue is accessed if nobody sends or receives on a topic while its queue is deleted (C114_safe_partial, C114_noremoval_partial); these are the only races (C114_race_partial), and only users access freed queues (C114_only_use)."
  },
  {
   "property": "C115",
   "status": "partial",
   "theorems": [
    "CGraph.Threads.C115_primary",
    "CGraph.Threads.C115_starter",
    "CGraph.Threads.C115_index_violated",
    "CGraph.Threads.C115_index_partial",
    "CGraph.Threads.C115_cpu",
    "CGraph.Threads.C115_sched_violated",
    "CGraph.Threads.C115_sched_partial"
   ],
   "note": "Proved for an injective std::hash of thread ids (libstdc++): indices of primary threads exact, the starter's index, CPU binding balanced. The code violates the rest: a secondary thread that gets the id of the ended starter is told -1, and strangers are told -2 (C115_index_violated); RR or FIFO with the default priority 0, and OTHER with another priority, are refused by the system (C115_sched_violated). Proved of those clauses: secondary threads are told -2 while the starter lives; exactly which policy/priority pairs are refused, all others are set."
  },
  {
   "property": "C116",
   "status": "partial",
   "theorems": [
    "CGraph.BindConc.C116_ids",
    "CGraph.BindConc.C116_reach",
    "CGraph.BindConc.C116_each",
    "CGraph.BindConc.C116_later",
    "CGraph.BindConc.C116_sub",
    "CGraph.BindConc.C116_race_violated",
    "CGraph.BindConc.C116_race_partial"
   ],
   "note": "Only bindTopic locks the mutex, so the last clause fails: a publication goes through the set of its topic while a binding inserts into it (C116_race_violated). Proved of it: every race is between a publication or subscription and a binding that holds the mutex. C116_ids needs no further assumption, since bindings exclude each other. C116_reach, C116_each, C116_later and C116_sub hold if every access to a map or set takes effect at once; where such a race happens C++ promises nothing, so for real executions they speak of those without a race. detachConnId, dropTopic and clear are not called."
  },
  {
   "property": "C117",
   "status": "proved",
   "theorems": [
    "CGraph.PqConc.C117_atonce",
    "CGraph.PqConc.C117_conserved",
    "CGraph.PqConc.C117_batch",
    "CGraph.PqConc.C117_nothing",
    "CGraph.PqConc.C117_exclusive",
    "CGraph.PqConc.C117_waitfree",
    "CGraph.PqConc.C117_busy"
   ],
   "note": "The order in which tasks are handed out is not part of this property: the heap compares addresses, not priorities, which C10 shows. The last clause is for a try_lock that fails only if the mutex is taken, as that of the usual implementations (the C++ standard lets it fail at any time). tryPop of a single task is modelled as a batch of one."
  },
  {
   "property": "C118",
   "status": "partial",
   "theorems": [
    "CGraph.TimeCnt.C118_span",
    "CGraph.TimeCnt.C118_show",
    "CGraph.TimeCnt.C118_sum_violated",
    "CGraph.TimeCnt.C118_sum_partial"
   ],
   "note": "reset reads the clock once for the value it returns and again for the new start, so the time between is in no span, however long it is (C118_sum_violated). Proved of that clause: the resets never return more than the time that passed, and what is missing is these times and less than a millisecond for each reset. The cut of a double to an integer is modelled as the exact quotient."
  }
 ]
}