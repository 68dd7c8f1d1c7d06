import Lean.Elab.Command
import Lean.Util.CollectAxioms
import Verif.Props.Status
import Verif.Props.Containers
import Verif.Props.Queues
import Verif.Props.Graph
import Verif.Props.Dynamic
import Verif.Props.DagType
import Verif.Props.Optimizer
import Verif.Props.Pool
import Verif.Props.PoolRun
import Verif.Props.Element
import Verif.Props.Group
import Verif.Props.Some
import Verif.Props.Control
import Verif.Props.Param
import Verif.Props.PipelinePair
import Verif.Props.Message
import Verif.Props.Stage
import Verif.Props.Event
import Verif.Props.PipeMgr
import Verif.Props.Codec
import Verif.Props.Storage
import Verif.Props.Timer
import Verif.Props.Async
import Verif.Props.Level
import Verif.Props.Nest
import Verif.Props.Perf
import Verif.Props.Singleton
import Verif.Props.Mutable
import Verif.Props.Frozen
import Verif.Props.Memory
import Verif.Props.Dump
import Verif.Props.NestOrder
import Verif.Props.Separate
import Verif.Props.Serial
import Verif.Props.NestFail
import Verif.Props.NestTrim
import Verif.Props.Passed
import Verif.Props.Distance
import Verif.Props.Overlap
import Verif.Props.Visible
import Verif.Props.Lifetime
import Verif.Props.Coord
import Verif.Props.Adapter
import Verif.Props.PoolLive
import Verif.Props.WeakMem
import Verif.Props.WeakPar
import Verif.Props.ParLeft
import Verif.Props.WeakDyn
import Verif.Props.WeakStatic
import Verif.Props.EngPool
import Verif.Props.Channel
import Verif.Props.StatPool
import Verif.Props.WsConc
import Verif.Props.AqConc
import Verif.Props.Primary
import Verif.Props.ParPool
import Verif.Props.ParamConc
import Verif.Props.PubSub
import Verif.Props.Lazy
import Verif.Props.TopicConc
import Verif.Props.Threads
import Verif.Props.BindConc
import Verif.Props.PqConc
import Verif.Props.TimeCnt

/-! # Which axioms the property theorems depend on

The command below fails, and with it the build, if one of the theorems named in `MANIFEST.json` depends on anything but
the three standard axioms of Lean. -/
namespace CGraph.Audit
open Lean Elab Command

/-- What a theorem may depend on. -/
def standard : List Name := [``propext, ``Classical.choice, ``Quot.sound]

/-- `#audit a b c` checks the theorems `a`, `b`, `c`. -/
elab "#audit" ids:ident* : command => do
  for id in ids do
    let n ← liftCoreM (realizeGlobalConstNoOverload id)
    let used ← liftCoreM (collectAxioms n)
    for a in used do
      unless standard.contains a do
        throwErrorAt id m!"{n} depends on {a}"

end CGraph.Audit

#audit
  CGraph.C01_first_error_wins
  CGraph.C01_ok_iff_no_error
  CGraph.C01_grouping
  CGraph.C02_assign_violated
  CGraph.C02_copy_violated
  CGraph.C02_assign_partial
  CGraph.C02_copy_partial
  CGraph.C03_lru
  CGraph.C03_capacity_zero_undefined
  CGraph.C04_small_vector
  CGraph.C04_small_vector_answers
  CGraph.C04_small_vector_nodup
  CGraph.C04_unique_array
  CGraph.C04_unique_array_stable
  CGraph.C05_channel_refines_fifo
  CGraph.C05_channel_order
  CGraph.C05_channel_lossless
  CGraph.C05_push_after_clear_undefined
  CGraph.C06_capacity_violated
  CGraph.C06_size_one_violated
  CGraph.C06_capacity_partial
  CGraph.C07_lockfree_fifo
  CGraph.C07_lockfree_tests_exact
  CGraph.C08_conservation
  CGraph.C08_ends
  CGraph.C08_failure_no_effect
  CGraph.C08_negative_batch
  CGraph.C09_fifo
  CGraph.C09_pop_succeeds
  CGraph.C09_setup_discards
  CGraph.C10_priority_violated
  CGraph.C10_priority_ignored
  CGraph.C10_pop_conserves_partial
  CGraph.C10_task_lt_reflexive
  CGraph.C11_wait_without_signal_violated
  CGraph.C11_wait_after_signal_violated
  CGraph.C11_exact_partial
  CGraph.C11_signals_never_wake
  CGraph.C12_mutual_exclusion
  CGraph.C12_free_lock_is_acquired
  CGraph.C13_route_partial
  CGraph.C13_wrapped_counter_violated
  CGraph.C13_empty_pool_undefined_violated
  CGraph.C13_round_robin
  CGraph.C13_tid
  CGraph.C14_steal_targets
  CGraph.C15_at_most_once
  CGraph.C15_can_finish
  CGraph.C15_quiescent
  CGraph.C16_served_partial
  CGraph.C16_no_secondary_violated
  CGraph.C16_after_release_violated
  CGraph.C16_long_time_violated
  CGraph.C17_max_threads_partial
  CGraph.C17_concurrent_create_violated
  CGraph.C17_release
  CGraph.C18_retire_exact
  CGraph.C18_idle_retires
  CGraph.C18_busy_stays
  CGraph.C19_submit
  CGraph.C19_not_init
  CGraph.C20_queued_partial
  CGraph.C20_dropped_violated
  CGraph.C20_idle_destroy
  CGraph.C21_relation_symmetric
  CGraph.C21_counter_partial
  CGraph.C21_counter_after_failure_violated
  CGraph.C21_mutable_setup
  CGraph.C21_mutable_setup_violated
  CGraph.C21_engine_graph
  CGraph.C22_failed_registration_violated
  CGraph.C22_refused_prefix_partial
  CGraph.C23_cycle_detection_exact
  CGraph.C23_all_engines_agree
  CGraph.C24_order
  CGraph.C24_run
  CGraph.C24_acyclic_run
  CGraph.C25_layers
  CGraph.C25_run_order
  CGraph.C25_error_stops
  CGraph.C25_return
  CGraph.C25_progress
  CGraph.C26_order
  CGraph.C26_exactly_once
  CGraph.C26_ok_means_all
  CGraph.C27_progress
  CGraph.C27_bounded
  CGraph.C28_dependents_not_started
  CGraph.C28_result
  CGraph.C29_failing_run_returns_violated
  CGraph.C29_stuck_only_by_lost_wakeup_partial
  CGraph.C29_returns_partial
  CGraph.C30_executing_after_return_violated
  CGraph.C30_starting_after_return_violated
  CGraph.C30_ok_return_quiet_partial
  CGraph.C31_serial_is_chain
  CGraph.C31_serial_empty
  CGraph.C31_parallel_only_isolated
  CGraph.C31_chunks
  CGraph.C31_parallel_at_most_once
  CGraph.C31_parallel_result
  CGraph.C31_parallel_returns
  CGraph.C32_trim_keeps_order
  CGraph.C33_trim_complete
  CGraph.C34_max_parallel_exact
  CGraph.C35_separate_exact
  CGraph.C35_never_concurrent
  CGraph.C36_serialisable_is_chain_partial
  CGraph.C36_exact_partial
  CGraph.C36_cycle_accepted_violated
  CGraph.C37_paths_exact
  CGraph.C38_longest_path
  CGraph.C39_success_partial
  CGraph.C39_ends
  CGraph.C39_stop
  CGraph.C39_status
  CGraph.C39_violated
  CGraph.C39_group_stop
  CGraph.C40_run_partial
  CGraph.C40_life_partial
  CGraph.C40_default
  CGraph.C40_violated
  CGraph.C40_group_partial
  CGraph.C40_group_life_partial
  CGraph.C41_hold
  CGraph.C39_success_partial
  CGraph.C39_stop
  CGraph.C42_no_conflict
  CGraph.C42_accept
  CGraph.C43_begin
  CGraph.C43_finish
  CGraph.C43_history
  CGraph.C43_pop_status
  CGraph.C43_add_pop
  CGraph.CtlSt.C44_cancel_partial
  CGraph.CtlSt.C44_passed_test_violated
  CGraph.CtlSt.C44_hold_violated
  CGraph.CtlSt.C44_between_runs_violated
  CGraph.CtlSt.C45_in_body_partial
  CGraph.CtlSt.C45_without_suspension
  CGraph.CtlSt.C45_skipped_violated
  CGraph.CtlSt.C45_lost_wakeup_violated
  CGraph.C46_cluster
  CGraph.C47_choice
  CGraph.C47_throw
  CGraph.C48_serial
  CGraph.C48_parallel
  CGraph.SomeSt.C49_not_early_partial
  CGraph.SomeSt.C49_returns_without_rest
  CGraph.SomeSt.C49_stale_task_violated
  CGraph.SomeSt.C49_finished_children_timed_out_violated
  CGraph.SomeSt.C49_second_round_empty_violated
  CGraph.C50_life
  CGraph.PStore.C51_get
  CGraph.PStore.C51_identity
  CGraph.PStore.C51_element_get
  CGraph.PStore.C51_create
  CGraph.PStore.C51_remove
  CGraph.PStore.C51_keys
  CGraph.Pipe.C52_order
  CGraph.Pipe.C52_complete
  CGraph.Pipe.C52_setup
  CGraph.Pipe.C52_no_reset_violated
  CGraph.MsgMgr.C53_topics
  CGraph.MsgMgr.C53_channel
  CGraph.MsgMgr.C54_board_partial
  CGraph.MsgMgr.C54_ids
  CGraph.MsgMgr.C54_delivery
  CGraph.MsgMgr.C54_ids_violated
  CGraph.MsgMgr.C54_board_partial
  CGraph.MsgMgr.C55_drop_violated
  CGraph.MsgMgr.C55_detach_violated
  CGraph.StageSt.C56_launch
  CGraph.StageSt.C56_leave
  CGraph.StageSt.C56_count
  CGraph.StageSt.C56_release
  CGraph.StageSt.C57_separated_partial
  CGraph.StageSt.C57_violated
  CGraph.Pipe.C58_refused
  CGraph.Pipe.C58_phase
  CGraph.Pipe.C58_process
  CGraph.Pipe.C58_init_again
  CGraph.Pipe.C59_process_partial
  CGraph.Pipe.C59_init_fails
  CGraph.Pipe.C59_exception_violated
  CGraph.EvSt.C60_sync
  CGraph.EvSt.C60_once
  CGraph.EvSt.C60_run
  CGraph.EvSt.C60_destroy_partial
  CGraph.EvSt.C60_destroy_shared
  CGraph.EvSt.C60_ends
  CGraph.EvSt.C60_destroy_violated
  CGraph.EvSt.C60_run_destroy_violated
  CGraph.PmSt.C61_exclusive_partial
  CGraph.PmSt.C61_partition_partial
  CGraph.PmSt.C61_refused_partial
  CGraph.PmSt.C61_held
  CGraph.PmSt.C61_throw_violated
  CGraph.PmSt.C61_duplicate_violated
  CGraph.PmSt.C61_remove_violated
  CGraph.C62_roundtrip_partial
  CGraph.C62_injective
  CGraph.C62_in_place
  CGraph.C62_empty_class_violated
  CGraph.C63_save
  CGraph.C63_partial
  CGraph.C63_param_violated
  CGraph.C63_config_violated
  CGraph.C63_orphan_violated
  CGraph.C63_resave_violated
  CGraph.C63_loop_violated
  CGraph.C64_foreign_successors_violated
  CGraph.C64_foreign_dependency_rejected
  CGraph.C64_foreign_dependency_refused_partial
  CGraph.C65_run_after_failure_violated
  CGraph.C65_run_after_quiet_failure_partial
  CGraph.C65_ok_without_element_violated
  CGraph.C65_damage_lasts_violated
  CGraph.C65_parallel_early_violated
  CGraph.C65_parallel_old_error_violated
  CGraph.C65_parallel_returns_partial
  CGraph.C66_serial_run_partial
  CGraph.C66_bound_elements_hang_violated
  CGraph.C67_analysis_ends_partial
  CGraph.C67_analysis_diverges_violated
  CGraph.C67_cycle_unnoticed_violated
  CGraph.C68_batch
  CGraph.C68_shape
  CGraph.C68_batch_of_one
  CGraph.C69_times
  CGraph.SomeSt.C70_returns_partial
  CGraph.SomeSt.C70_small_pool_violated
  CGraph.PStore.C71_backtrace
  CGraph.PStore.C71_off
  CGraph.PStore.C71_second_create_violated
  CGraph.PStore.C72_keys_partial
  CGraph.PStore.C72_freed_read
  CGraph.PStore.C72_removed_violated
  CGraph.Pipe.C73_init
  CGraph.Pipe.C73_destroy
  CGraph.Pipe.C73_failed_init_violated
  CGraph.Pipe.C73_late_param_violated
  CGraph.Pipe.C73_repeated_destroy_violated
  CGraph.Pipe.C74_safe_partial
  CGraph.Pipe.C74_after_failed_destroy_violated
  CGraph.StageMgr.C75_first_partial
  CGraph.StageMgr.C75_duplicate_violated
  CGraph.C76_violated
  CGraph.C76_trailing_partial
  CGraph.TmSt.C77_alone
  CGraph.TmSt.C77_first
  CGraph.TmSt.C77_gap
  CGraph.TmSt.C77_stop_partial
  CGraph.TmSt.C77_stop_ends
  CGraph.TmSt.C77_freed_partial
  CGraph.TmSt.C77_stop_violated
  CGraph.TmSt.C77_delay_violated
  CGraph.TmSt.C77_freed_violated
  CGraph.ASt.C78_held_partial
  CGraph.ASt.C78_ok_partial
  CGraph.ASt.C78_fence_partial
  CGraph.ASt.C78_alone_partial
  CGraph.ASt.C78_elem_partial
  CGraph.ASt.C78_no_race
  CGraph.ASt.C78_alone_violated
  CGraph.ASt.C78_throw_violated
  CGraph.ASt.C78_repeat_violated
  CGraph.ASt.C78_fence_violated
  CGraph.ASt.C78_fence_throw_violated
  CGraph.ASt.C78_race_violated
  CGraph.LvSt.C79_order_partial
  CGraph.LvSt.C79_find_partial
  CGraph.LvSt.C79_order_violated
  CGraph.LvSt.C79_find_violated
  CGraph.NestSt.C80_finite
  CGraph.NestSt.C80_stuck
  CGraph.NestSt.C80_partial
  CGraph.NestSt.C80_violated
  CGraph.NestSt.C80_range_violated
  CGraph.PfSt.C81_same_partial
  CGraph.PfSt.C81_restore_partial
  CGraph.PfSt.C81_history_partial
  CGraph.PfSt.C81_failed_violated
  CGraph.PfSt.C81_leak_violated
  CGraph.PfSt.C81_added_violated
  CGraph.PfSt.C81_code_violated
  CGraph.SgSt.C82_lives_partial
  CGraph.SgSt.C82_alternate_partial
  CGraph.SgSt.C82_shared_violated
  CGraph.SgSt.C82_race_violated
  CGraph.SgSt.C82_managers_violated
  CGraph.SgSt.C82_code_violated
  CGraph.MuSt.C83_structure
  CGraph.MuSt.C83_outcome
  CGraph.MuSt.C83_anew
  CGraph.MuSt.C83_history
  CGraph.MuSt.C83_ready
  CGraph.MuSt.C83_life
  CGraph.MuSt.C83_cyclic_partial
  CGraph.MuSt.C83_cyclic_violated
  CGraph.MuSt.C83_stale_violated
  CGraph.FzSt.C84_flags_partial
  CGraph.FzSt.C84_frozen
  CGraph.FzSt.C84_life_partial
  CGraph.FzSt.C84_thaw_partial
  CGraph.FzSt.C84_plain_violated
  CGraph.FzSt.C84_failed_violated
  CGraph.MemSt.C85_once_partial
  CGraph.MemSt.C85_apart_partial
  CGraph.MemSt.C85_remove_partial
  CGraph.MemSt.C85_all_partial
  CGraph.MemSt.C85_kept_partial
  CGraph.MemSt.C85_leak_violated
  CGraph.MemSt.C85_shared_violated
  CGraph.MemSt.C85_removed_violated
  CGraph.DumpEnv.C86_text_partial
  CGraph.DumpEnv.C86_distinct
  CGraph.DumpEnv.C86_quote_violated
  CGraph.DumpEnv.C86_backslash_violated
  CGraph.DumpEnv.C86_mutable_violated
  CGraph.NestSt.C87_order
  CGraph.NestSt.C87_enclose
  CGraph.NestSt.C87_once
  CGraph.NestSt.C87_bodies
  CGraph.SepCfg.C88_answers
  CGraph.SepCfg.C88_same
  CGraph.SepCfg.C88_sound_partial
  CGraph.SepCfg.C88_complete
  CGraph.SepCfg.C88_exact_partial
  CGraph.SepCfg.C88_ancestor_violated
  CGraph.SepCfg.C88_within
  CGraph.SepCfg.C88_some_violated
  CGraph.SerCfg.C89_accepts
  CGraph.SerCfg.C89_order_partial
  CGraph.SerCfg.C89_once_partial
  CGraph.SerCfg.C89_exact
  CGraph.SerCfg.C89_binding_violated
  CGraph.SerCfg.C89_timeout_violated
  CGraph.SerCfg.C89_parallel_violated
  CGraph.FailSt.C90_order
  CGraph.FailSt.C90_blocked
  CGraph.FailSt.C90_reported
  CGraph.FailSt.C90_ok
  CGraph.FailSt.C90_error
  CGraph.FailSt.C90_once
  CGraph.FailSt.C90_stop
  CGraph.FailSt.C90_finite
  CGraph.FailSt.C90_stuck
  CGraph.FailSt.C90_progress_partial
  CGraph.FailSt.C90_after_return_violated
  CGraph.C91_order
  CGraph.C91_complete_partial
  CGraph.C91_exact_partial
  CGraph.C91_count
  CGraph.C91_again
  CGraph.C91_unreached
  CGraph.C91_cluster_violated
  CGraph.Passed.C92_values_partial
  CGraph.Passed.C92_no_leak_partial
  CGraph.Passed.C92_private_partial
  CGraph.Passed.C92_frozen
  CGraph.Passed.C92_self_violated
  CGraph.Passed.C92_self_program_violated
  CGraph.Passed.C92_throw_element_violated
  CGraph.Passed.C92_throw_other_violated
  CGraph.Distance.C93_euclid_partial
  CGraph.Distance.C93_metric_partial
  CGraph.Distance.C93_cosine_partial
  CGraph.Distance.C93_cosine_range_partial
  CGraph.Distance.C93_normalize_partial
  CGraph.Distance.C93_refused
  CGraph.Distance.C93_normalize_refused
  CGraph.Distance.C93_batch
  CGraph.Distance.C93_short_violated
  CGraph.Distance.C93_short_checked_violated
  CGraph.Distance.C93_long_violated
  CGraph.Distance.C93_zero_violated
  CGraph.Distance.C93_normalize_zero_violated
  CGraph.Distance.C93_wrap_violated
  CGraph.Distance.C93_integral_violated
  CGraph.Overlap.C94_forest_order_partial
  CGraph.Overlap.C94_forest_complete_partial
  CGraph.Overlap.C94_order_violated
  CGraph.Overlap.C94_early_return_violated
  CGraph.Overlap.C94_hang_violated
  CGraph.Overlap.C94_status_lost_violated
  CGraph.Overlap.C94_status_spreads_violated
  CGraph.Visible.C95_record
  CGraph.Visible.C95_visible
  CGraph.Visible.C95_returned
  CGraph.Visible.C95_runs
  CGraph.Visible.C95_tasks
  CGraph.Visible.C95_racefree_partial
  CGraph.Visible.C95_race_violated
  CGraph.Lifetime.C96_own
  CGraph.Lifetime.C96_once
  CGraph.Lifetime.C96_shared_quiet_partial
  CGraph.Lifetime.C96_shared_elements_partial
  CGraph.Lifetime.C96_shared_engine_violated
  CGraph.Lifetime.C96_shared_elements_violated
  CGraph.Coord.C97_bounded
  CGraph.Coord.C97_returns_partial
  CGraph.Coord.C97_create_partial
  CGraph.Coord.C97_create_effect
  CGraph.Coord.C97_release_effect
  CGraph.Coord.C97_deadlock_violated
  CGraph.Coord.C97_self_violated
  CGraph.Adapter.C98_ann_calls
  CGraph.Adapter.C98_ann_status
  CGraph.Adapter.C98_function_last
  CGraph.Adapter.C98_function_refused
  CGraph.PoolLive.C99_own
  CGraph.PoolLive.C99_shared_partial
  CGraph.PoolLive.C99_drained
  CGraph.PoolLive.C99_starve_violated
  CGraph.PoolLive.C99_priority_starve_violated
  CGraph.C100_ring
  CGraph.C100_ring_handover
  CGraph.C100_ring_empty
  CGraph.C100_ring_stale
  CGraph.C100_spin_order
  CGraph.C100_spin_exclusive
  CGraph.C101_racefree
  CGraph.C101_visible
  CGraph.C101_quiet
  CGraph.WeakDyn.C102_order
  CGraph.WeakDyn.C102_visible
  CGraph.WeakDyn.C102_accs
  CGraph.WeakDyn.C102_racefree
  CGraph.WeakDyn.C102_returns
  CGraph.WeakStatic.C103_order
  CGraph.WeakStatic.C103_returned
  CGraph.WeakStatic.C103_visible
  CGraph.WeakStatic.C103_accs
  CGraph.WeakStatic.C103_racefree_partial
  CGraph.WeakStatic.C103_coherent
  CGraph.WeakStatic.C103_returns
  CGraph.WeakStatic.C103_exception_violated
  CGraph.EngPool.C104_order
  CGraph.EngPool.C104_returns
  CGraph.EngPool.C104_failing_partial
  CGraph.EngPool.C104_failing_returns_violated
  CGraph.Chan.C105_history
  CGraph.Chan.C105_quiet
  CGraph.Chan.C105_receive
  CGraph.Chan.C105_send
  CGraph.Chan.C105_wait
  CGraph.Chan.C105_wait_one
  CGraph.StatPool.C106_order
  CGraph.StatPool.C106_returns
  CGraph.StatPool.C106_result
  CGraph.WsConc.C107_atomic
  CGraph.WsConc.C107_once
  CGraph.WsConc.C107_conserved
  CGraph.WsConc.C107_pool
  CGraph.WsConc.C107_release
  CGraph.WsConc.C107_race_violated
  CGraph.WsConc.C107_race_partial
  CGraph.AqConc.C108_atomic
  CGraph.AqConc.C108_once
  CGraph.AqConc.C108_awake
  CGraph.AqConc.C108_closed
  CGraph.AqConc.C108_release
  CGraph.AqConc.C108_leaves
  CGraph.AqConc.C108_timeout
  CGraph.AqConc.C108_drained_violated
  CGraph.AqConc.C108_race_violated
  CGraph.AqConc.C108_race_partial
  CGraph.Prim.C109_pushed
  CGraph.Prim.C109_idle
  CGraph.Prim.C109_told
  CGraph.Prim.C109_conserved
  CGraph.Prim.C109_taken
  CGraph.Prim.C109_destroyed
  CGraph.Prim.C109_shared_violated
  CGraph.Prim.C109_trigger_violated
  CGraph.Prim.C109_overlap_violated
  CGraph.Prim.C109_trigger_partial
  CGraph.Prim.C109_rounds_violated
  CGraph.Prim.C109_rounds_partial
  CGraph.Prim.C109_race_violated
  CGraph.Prim.C109_race_partial
  CGraph.ParPool.C110_returns
  CGraph.ParPool.C110_once
  CGraph.ParPool.C110_result
  CGraph.ParPool.C110_handover
  CGraph.ParPool.C110_bound_violated
  CGraph.ParPool.C110_bound_partial
  CGraph.ParamConc.C111_atomic
  CGraph.ParamConc.C111_found
  CGraph.ParamConc.C111_freed_violated
  CGraph.ParamConc.C111_only_get
  CGraph.ParamConc.C111_freed_once
  CGraph.ParamConc.C111_noleak
  CGraph.ParamConc.C111_safe_partial
  CGraph.ParamConc.C111_noremoval_partial
  CGraph.ParamConc.C111_race_violated
  CGraph.ParamConc.C111_race_partial
  CGraph.ParamConc.C111_backtrace
  CGraph.ParamConc.C111_release
  CGraph.PubSub.C112_each
  CGraph.PubSub.C112_order
  CGraph.PubSub.C112_common_violated
  CGraph.PubSub.C112_common_partial
  CGraph.PubSub.C112_returns_nowait
  CGraph.PubSub.C112_returns_partial
  CGraph.PubSub.C112_slow_violated
  CGraph.Lazy.C113_once
  CGraph.Lazy.C113_use_violated
  CGraph.Lazy.C113_use_partial
  CGraph.Lazy.C113_handle_violated
  CGraph.TopicConc.C114_atomic
  CGraph.TopicConc.C114_same
  CGraph.TopicConc.C114_channel
  CGraph.TopicConc.C114_delivered
  CGraph.TopicConc.C114_freed_violated
  CGraph.TopicConc.C114_only_use
  CGraph.TopicConc.C114_freed_once
  CGraph.TopicConc.C114_safe_partial
  CGraph.TopicConc.C114_noremoval_partial
  CGraph.TopicConc.C114_noleak
  CGraph.TopicConc.C114_race_violated
  CGraph.TopicConc.C114_race_partial
  CGraph.Threads.C115_primary
  CGraph.Threads.C115_starter
  CGraph.Threads.C115_index_violated
  CGraph.Threads.C115_index_partial
  CGraph.Threads.C115_cpu
  CGraph.Threads.C115_sched_violated
  CGraph.Threads.C115_sched_partial
  CGraph.BindConc.C116_ids
  CGraph.BindConc.C116_reach
  CGraph.BindConc.C116_each
  CGraph.BindConc.C116_later
  CGraph.BindConc.C116_sub
  CGraph.BindConc.C116_race_violated
  CGraph.BindConc.C116_race_partial
  CGraph.PqConc.C117_atonce
  CGraph.PqConc.C117_conserved
  CGraph.PqConc.C117_batch
  CGraph.PqConc.C117_nothing
  CGraph.PqConc.C117_exclusive
  CGraph.PqConc.C117_waitfree
  CGraph.PqConc.C117_busy
  CGraph.TimeCnt.C118_span
  CGraph.TimeCnt.C118_show
  CGraph.TimeCnt.C118_sum_violated
  CGraph.TimeCnt.C118_sum_partial
