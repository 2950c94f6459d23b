{
 "claims": [
  {
   "property": "C01",
   "status": "proved",
   "theorems": [
    "Mdp.Node.phase_range",
    "Mdp.Node.nontrainable_phase",
    "Mdp.Node.phase_monotone",
    "Mdp.Node.phase_steps"
   ],
   "note": ""
  },
  {
   "property": "C02",
   "status": "proved",
   "theorems": [
    "Mdp.Node.hook_order",
    "Mdp.Node.stop_hook_once",
    "Mdp.Node.hook_phases_sorted",
    "Mdp.Node.accepted_call_runs_own_hook",
    "Mdp.Node.failing_call_runs_at_most_own_hook"
   ],
   "note": "A stop hook that raises may run again; it completes at most once."
  },
  {
   "property": "C03",
   "status": "proved",
   "theorems": [
    "Mdp.Node.execute_ok_trained",
    "Mdp.Node.execute_trained_unchanged",
    "Mdp.Node.execute_repeat",
    "Mdp.Node.execute_untrained_trains_all",
    "Mdp.Node.execute_started_never_trains"
   ],
   "note": "For execute hooks that do not themselves change the node."
  },
  {
   "property": "C04",
   "status": "proved",
   "theorems": [
    "Mdp.Node.dims_write_once",
    "Mdp.Node.set_other_value_raises",
    "Mdp.Node.set_unset_value"
   ],
   "note": "Hooks change dimensions and dtype only through the public setters."
  },
  {
   "property": "C05",
   "status": "proved",
   "theorems": [
    "Mdp.Node.train_hook_data",
    "Mdp.Node.exec_hook_data"
   ],
   "note": ""
  },
  {
   "property": "C06",
   "status": "partial",
   "theorems": [
    "Mdp.Node.rejected_train_unchanged_partial",
    "Mdp.Node.rejected_execute_unchanged_partial",
    "Mdp.Node.rejected_train_changes_node",
    "Mdp.Node.rejected_execute_closes_phase"
   ],
   "note": "False in the code: an array without rows sets the dimensions before it is rejected, and execute closes a training phase before checking the shape (both violations proved). Proved for all other rejections."
  },
  {
   "property": "C07",
   "status": "proved",
   "theorems": [
    "Mdp.Node.preserve_dim",
    "Mdp.Node.preserve_dim_set"
   ],
   "note": ""
  },
  {
   "property": "C08",
   "status": "proved",
   "theorems": [
    "Mdp.Node.cumulator_collects",
    "Mdp.Node.cumulator_missing_argument"
   ],
   "note": ""
  },
  {
   "property": "C09",
   "status": "proved",
   "theorems": [
    "Mdp.Node.inverse_hook_guard",
    "Mdp.Node.inverse_ok",
    "Mdp.Node.inverse_refused"
   ],
   "note": ""
  },
  {
   "property": "C10",
   "status": "partial",
   "theorems": [
    "Mdp.Flow.construct_consistent",
    "Mdp.Flow.construct_accepts",
    "Mdp.Flow.ops_consistent_partial",
    "Mdp.Flow.iadd_ok_consistent",
    "Mdp.Flow.iadd_breaks_consistency",
    "Mdp.Flow.zero_dim_check_crashes"
   ],
   "note": "False in the code for +=, which changes the list before checking it (violation proved). Proved for every history of all other container operations, failing or not."
  },
  {
   "property": "C11",
   "status": "partial",
   "theorems": [
    "Mdp.Flow.failing_op_unchanged_partial",
    "Mdp.Flow.failing_iadd_changes_flow"
   ],
   "note": "False in the code for += (violation proved); proved for every other operation."
  },
  {
   "property": "C12",
   "status": "partial",
   "theorems": [
    "Mdp.Flow.append_list",
    "Mdp.Flow.extend_list",
    "Mdp.Flow.insert_list",
    "Mdp.Flow.getItem_list",
    "Mdp.Flow.pop_list",
    "Mdp.Flow.setItem_list",
    "Mdp.Flow.slice_list",
    "Mdp.Flow.add_list",
    "Mdp.Flow.iadd_list",
    "Mdp.Flow.slice_ops_list_partial",
    "Mdp.Flow.setSlice_from_iterator_deletes",
    "Mdp.Flow.non_node_refused",
    "Mdp.Flow.ops_accepted"
   ],
   "note": "False in the code for slice assignment from an iterator, which the type check exhausts (violation proved)."
  },
  {
   "property": "C13",
   "status": "partial",
   "theorems": [
    "Mdp.Flow.execute_composition",
    "Mdp.Flow.execute_empty",
    "Mdp.Flow.execute_nodenr_slice_partial",
    "Mdp.Flow.execute_nodenr_low",
    "Mdp.Flow.execute_nodenr_high",
    "Mdp.Flow.inverse_composition"
   ],
   "note": "The law execute(x, nodenr=k) = flow[:k+1].execute(x) is false for k <= -2 and for k >= len(flow) (violations proved); proved for -1 <= k < len(flow). Composition is proved without restriction."
  },
  {
   "property": "C14",
   "status": "proved",
   "theorems": [
    "Mdp.Flow.execute_chunks",
    "Mdp.Flow.inverse_chunks",
    "Mdp.Flow.empty_iterable"
   ],
   "note": ""
  },
  {
   "property": "C15",
   "status": "proved",
   "theorems": [
    "Mdp.Flow.inverse_execute"
   ],
   "note": ""
  },
  {
   "property": "C16",
   "status": "partial",
   "theorems": [
    "Mdp.Flow.train_spec_partial",
    "Mdp.Flow.train_all_finished_partial",
    "Mdp.Flow.train_array",
    "Mdp.Flow.train_failure",
    "Mdp.Flow.train_trained_flow",
    "Mdp.Flow.train_leaves_node_open"
   ],
   "note": "False in one respect: a trainable node followed only by non-trainable ones (and not last) is left in its last phase (violation proved). Everything else is proved, and all nodes are finished if the last node is trainable."
  },
  {
   "property": "C17",
   "status": "proved",
   "theorems": [
    "Mdp.Flow.checkpoints_once_in_order",
    "Mdp.Flow.checkpoint_after_own_data",
    "Mdp.Flow.checkpoint_train_eq",
    "Mdp.Flow.checkpoint_single"
   ],
   "note": ""
  },
  {
   "property": "C18",
   "status": "proved",
   "theorems": [
    "Mdp.Flow.bad_train_argument",
    "Mdp.Flow.bad_checkpoints",
    "Mdp.Flow.good_train_argument"
   ],
   "note": ""
  },
  {
   "property": "C19",
   "status": "proved",
   "theorems": [
    "Mdp.FlowNode.flownode_phase_count",
    "Mdp.FlowNode.flownode_train",
    "Mdp.FlowNode.flownode_same_as_flow",
    "Mdp.FlowNode.flownode_same_as_flow_dtype"
   ],
   "note": "Same state up to two differences of the code, stated in the theorem: Flow.train may leave the last phase of the last trainable node open (C16), and dtypes must agree (they do when set from the start)."
  },
  {
   "property": "C20",
   "status": "proved",
   "theorems": [
    "Mdp.Layer.layer_execute_concat",
    "Mdp.Layer.layer_execute_returns",
    "Mdp.Layer.layer_input_dim"
   ],
   "note": "For inner classes whose execute hook changes nothing and returns the declared shape."
  },
  {
   "property": "C21",
   "status": "proved",
   "theorems": [
    "Mdp.Layer.layer_inverse_undoes"
   ],
   "note": ""
  },
  {
   "property": "C22",
   "status": "proved",
   "theorems": [
    "Mdp.Layer.clone_execute",
    "Mdp.Layer.clone_inverse",
    "Mdp.Layer.clone_zero_width"
   ],
   "note": "clone_zero_width: with a node without columns the CloneLayer raises, the Layer does not."
  },
  {
   "property": "C23",
   "status": "proved",
   "theorems": [
    "Mdp.Layer.layer_phases",
    "Mdp.Layer.layer_phases_desync"
   ],
   "note": "layer_phases_desync: if training calls raise and the user carries on, inner nodes can get ahead of the layer."
  },
  {
   "property": "C24",
   "status": "partial",
   "theorems": [
    "Mdp.Switchboard.construction",
    "Mdp.Switchboard.construction_partial",
    "Mdp.Switchboard.negative_index_accepted",
    "Mdp.Switchboard.routing",
    "Mdp.Switchboard.routing_nonneg"
   ],
   "note": "Negative indices are never rejected, not even those below -input_dim (violation proved). Everything else is proved; routing is proved for negative indices too."
  },
  {
   "property": "C25",
   "status": "partial",
   "theorems": [
    "Mdp.Switchboard.inverse_partial",
    "Mdp.Switchboard.invertible_iff_permutation",
    "Mdp.Switchboard.permutation_invertible",
    "Mdp.Switchboard.not_invertible",
    "Mdp.Switchboard.inverse_wrong"
   ],
   "note": "False for connection lists with a negative index (violation proved), proved for all others."
  },
  {
   "property": "C26",
   "status": "proved",
   "theorems": [
    "Mdp.Switchboard.mean_inverse",
    "Mdp.Switchboard.mean_inverse_execute",
    "Mdp.Switchboard.mean_inverse_negative"
   ],
   "note": "Floats idealised as a field. A negative connection makes the inverse raise."
  },
  {
   "property": "C27",
   "status": "partial",
   "theorems": [
    "Mdp.Switchboard.rect_accepted",
    "Mdp.Switchboard.rect_valid",
    "Mdp.Switchboard.rect_blocks",
    "Mdp.Switchboard.rect_cover_partial",
    "Mdp.Switchboard.rect_cover_iff",
    "Mdp.Switchboard.rect_cover_gap"
   ],
   "note": "Coverage is false when the spacing is larger than the field (violation proved); the exact condition is proved. Sizes are natural numbers."
  },
  {
   "property": "C28",
   "status": "proved",
   "theorems": [
    "Mdp.Switchboard.pixel_to_index",
    "Mdp.Switchboard.index_to_pixel",
    "Mdp.Switchboard.image_array"
   ],
   "note": ""
  },
  {
   "property": "C29",
   "status": "proved",
   "theorems": [
    "Mdp.Graph.topological_sort_terminates",
    "Mdp.Graph.topological_sort_sound"
   ],
   "note": ""
  },
  {
   "property": "C30",
   "status": "proved",
   "theorems": [
    "Mdp.Graph.topological_sort_raises_iff_cyclic",
    "Mdp.Graph.topological_sort_outcomes",
    "Mdp.Graph.topological_sort_exception_list"
   ],
   "note": ""
  },
  {
   "property": "C31",
   "status": "proved",
   "theorems": [
    "Mdp.Graph.dfs_spec",
    "Mdp.Graph.undirected_dfs_spec",
    "Mdp.Graph.bfs_spec",
    "Mdp.Graph.undirected_bfs_spec"
   ],
   "note": ""
  },
  {
   "property": "C32",
   "status": "proved",
   "theorems": [
    "Mdp.Graph.connected_components_partition",
    "Mdp.Graph.is_weakly_connected_iff",
    "Mdp.Graph.is_weakly_connected_empty"
   ],
   "note": "is_weakly_connected raises IndexError on the empty graph"
  },
  {
   "property": "C33",
   "status": "partial",
   "theorems": [
    "Mdp.Graph.graph_consistent",
    "Mdp.Graph.add_node_spec",
    "Mdp.Graph.add_nodes_spec",
    "Mdp.Graph.add_edge_spec",
    "Mdp.Graph.remove_edge_spec",
    "Mdp.Graph.remove_node_spec_partial",
    "Mdp.Graph.remove_node_self_loop",
    "Mdp.Graph.remove_node_foreign",
    "Mdp.Graph.add_full_connectivity_spec"
   ],
   "note": "The consistency invariant holds for every history. remove_node removing exactly the node and its edges is false for nodes with a self-loop (remove_node_self_loop proves the violation); proved for all other nodes."
  },
  {
   "property": "C34",
   "status": "proved",
   "theorems": [
    "Mdp.Graph.add_tree_spec",
    "Mdp.Graph.add_tree_empty"
   ],
   "note": ""
  },
  {
   "property": "C35",
   "status": "partial",
   "theorems": [
    "Mdp.Ext.roundtrip_partial",
    "Mdp.Ext.history_overlay_partial",
    "Mdp.Ext.roundtrip_loses_own_method",
    "Mdp.Ext.roundtrip_injects_inherited",
    "Mdp.Ext.roundtrip_loses_none",
    "Mdp.Ext.roundtrip_unwraps_staticmethod"
   ],
   "note": "False in general: four kinds of violation are proved. Proved under explicit conditions on the extension and the classes (Fits), also for arbitrary non-nested histories of several extensions."
  },
  {
   "property": "C36",
   "status": "partial",
   "theorems": [
    "Mdp.Ext.activate_active",
    "Mdp.Ext.deactivate_inactive",
    "Mdp.Ext.unknown_extension",
    "Mdp.Ext.active_set_exact",
    "Mdp.Ext.in_force_partial",
    "Mdp.Ext.teardown_failure_stays_active",
    "Mdp.Ext.collision_breaks_other"
   ],
   "note": "Idempotence and the set of active extensions are proved for all histories (teardown functions must not raise; a violation is proved otherwise). That active extensions are in force is proved for histories without exceptions and is false after a collision."
  },
  {
   "property": "C37",
   "status": "partial",
   "theorems": [
    "Mdp.Ext.failed_activation_local_partial",
    "Mdp.Ext.collision_breaks_other",
    "Mdp.Ext.collision_example",
    "Mdp.Ext.failed_activation_no_trace_partial",
    "Mdp.Ext.setup_failure_deletes_method"
   ],
   "note": "The set of active extensions and all attributes not declared by the failing extension are as before; every collision damages another active extension (proved for all collisions)."
  },
  {
   "property": "C38",
   "status": "partial",
   "theorems": [
    "Mdp.Ext.with_extension_balanced",
    "Mdp.Ext.with_statement_partial",
    "Mdp.Ext.with_statement_failure_deactivates_all"
   ],
   "note": "Proved for the decorator in all cases, and for the with statement unless its activation fails, in which case all extensions are deactivated (violation proved)."
  },
  {
   "property": "C39",
   "status": "proved",
   "theorems": [
    "Mdp.Sched.results_in_order",
    "Mdp.Sched.get_results_correct",
    "Mdp.Sched.open_tasks_exact"
   ],
   "note": ""
  },
  {
   "property": "C40",
   "status": "proved",
   "theorems": [
    "Mdp.Sched.open_tasks_exact",
    "Mdp.Sched.get_results_waits"
   ],
   "note": ""
  },
  {
   "property": "C41",
   "status": "partial",
   "theorems": [
    "Mdp.Sched.result_right_partial",
    "Mdp.Sched.result_right_uncached",
    "Mdp.Sched.get_results_correct",
    "Mdp.Sched.wrong_callable",
    "Mdp.Sched.wrong_callable_not_right"
   ],
   "note": "False for the caching process scheduler (a race, violation proved). Proved for the base and thread schedulers and without caching, and with caching when the callable is set or changed only while no task is open."
  },
  {
   "property": "C42",
   "status": "partial",
   "theorems": [
    "Mdp.Sched.thread_limit_unenforced",
    "Mdp.Sched.thread_limit_exceeded"
   ],
   "note": "False: for every n_threads any number of tasks can run at once (proved for all numbers). Nothing of the claim holds for ThreadScheduler; see C75 for ProcessScheduler."
  },
  {
   "property": "C43",
   "status": "partial",
   "theorems": [
    "Mdp.Sched.raise_blocks_forever",
    "Mdp.Sched.failed_task_blocks",
    "Mdp.Sched.lock_progress_partial",
    "Mdp.Sched.add_without_callable",
    "Mdp.Sched.get_without_results",
    "Mdp.Sched.callable_raises",
    "Mdp.Sched.callable_raises_thread"
   ],
   "note": "False: after a raising call no call ever proceeds (proved for every such execution); proved that the lock holder can always go on while no call has raised."
  },
  {
   "property": "C44",
   "status": "proved",
   "theorems": [
    "Mdp.Join.pca_fork_join",
    "Mdp.Join.pca_untrained_fork",
    "Mdp.Join.sfa_fork_join",
    "Mdp.Join.sfa_rejects",
    "Mdp.Join.hist_fork_join",
    "Mdp.Join.means_fork_join",
    "Mdp.Join.gauss_fork_join",
    "Mdp.Join.knn_fork_join",
    "Mdp.Join.class_sums",
    "Mdp.Join.fda_fork_join"
   ],
   "note": "Every fork must have been trained on at least one chunk (pca_untrained_fork: joining an untrained one raises). The sample lists of the KNN classifier are equal for joins in task order."
  },
  {
   "property": "C45",
   "status": "proved",
   "theorems": [
    "Mdp.Cov.covariance_correct",
    "Mdp.Cov.second_moments",
    "Mdp.Cov.covariance_symmetric",
    "Mdp.Cov.covariance_resets"
   ],
   "note": "Floats idealised as a field of characteristic 0."
  },
  {
   "property": "C46",
   "status": "proved",
   "theorems": [
    "Mdp.Cov.delay_rejects_short",
    "Mdp.Cov.delay_covariance_correct",
    "Mdp.Cov.delay_fix_transform",
    "Mdp.Cov.delay_zero",
    "Mdp.Cov.delayed_get",
    "Mdp.Cov.symmetrize_symmetric"
   ],
   "note": "Floats idealised as a field."
  },
  {
   "property": "C47",
   "status": "partial",
   "theorems": [
    "Mdp.Cov.vartime_correct_partial",
    "Mdp.Cov.vartime_separate_partial",
    "Mdp.Cov.vartime_rejects",
    "Mdp.Cov.single_row_wrong",
    "Mdp.Cov.fix_keeps_last",
    "Mdp.Cov.gap_counted_anyway"
   ],
   "note": "False for chunks of one row, for re-use after fix, and for separate chunks with a full list of time steps (violations proved); proved for all others. Floats idealised as an ordered field with square roots."
  },
  {
   "property": "C48",
   "status": "partial",
   "theorems": [
    "Mdp.Caching.cache_transparent_partial",
    "Mdp.Caching.node_cache_transparent_partial",
    "Mdp.Caching.cache_not_transparent"
   ],
   "note": "False in general: a cache hit skips what the first execute of a node does to the node (violation proved). Proved for nodes whose execute no longer changes them (all histories of activations, caches on disk, instances), and instantiated with the Node model. Hashes are assumed free of collisions."
  },
  {
   "property": "C49",
   "status": "partial",
   "theorems": [
    "Mdp.Caching.cached_iff_partial",
    "Mdp.Caching.on_off_restores",
    "Mdp.Caching.subclass_not_cached",
    "Mdp.Caching.on_on_off_cached",
    "Mdp.Caching.reactivation_keeps_instances",
    "Mdp.Caching.deactivated_plain",
    "Mdp.Caching.not_cached_not_stored",
    "Mdp.Caching.cached_stored"
   ],
   "note": "False in three respects (subclasses of a cached class, switching an instance on twice, re-activation), each proved; the exact set of cached nodes is proved for all histories."
  },
  {
   "property": "C50",
   "status": "proved",
   "theorems": [
    "Mdp.Expansion.comb_choose",
    "Mdp.Expansion.nmonomials_correct",
    "Mdp.Expansion.expandedDim_correct"
   ],
   "note": ""
  },
  {
   "property": "C51",
   "status": "proved",
   "theorems": [
    "Mdp.Expansion.poly_expansion",
    "Mdp.Expansion.degree_zero"
   ],
   "note": "Floats idealised as a commutative ring."
  },
  {
   "property": "C52",
   "status": "proved",
   "theorems": [
    "Mdp.TimeFrames.frames_execute",
    "Mdp.TimeFrames.frames_rows_exist",
    "Mdp.TimeFrames.pinv_execute",
    "Mdp.TimeFrames.execute_pinv"
   ],
   "note": ""
  },
  {
   "property": "C53",
   "status": "partial",
   "theorems": [
    "Mdp.TimeFrames.sliding_window",
    "Mdp.TimeFrames.delay_execute",
    "Mdp.TimeFrames.sliding_eq_delay_partial",
    "Mdp.TimeFrames.delay_raises_sliding_does_not",
    "Mdp.TimeFrames.gap_zero_differs"
   ],
   "note": "False for signals shorter than the delay by less than half: TimeDelayNode raises (exact condition proved). Otherwise proved."
  },
  {
   "property": "C54",
   "status": "proved",
   "theorems": [
    "Mdp.HitParade.hit_parade",
    "Mdp.HitParade.chunks_irrelevant",
    "Mdp.HitParade.infinite_not_recorded"
   ],
   "note": "For values within the finite range of the dtype (infinity is not recorded: infinite_not_recorded) and at least one hit."
  },
  {
   "property": "C55",
   "status": "proved",
   "theorems": [
    "Mdp.Cutoff.cutoff_bounds",
    "Mdp.Cutoff.hist_all",
    "Mdp.Cutoff.hist_sub",
    "Mdp.Cutoff.adaptive_fraction",
    "Mdp.Cutoff.adaptive_stops",
    "Mdp.Cutoff.adaptive_exact"
   ],
   "note": "Fractions idealised as rationals. A lower fraction of 1 raises (adaptive_stops)."
  },
  {
   "property": "C56",
   "status": "proved",
   "theorems": [
    "Mdp.Markov.markov_probabilities",
    "Mdp.Markov.markov_unseen",
    "Mdp.Markov.markov_refused"
   ],
   "note": "Floats idealised as rationals."
  },
  {
   "property": "C57",
   "status": "proved",
   "theorems": [
    "Mdp.Nearest.nearest_mean",
    "Mdp.Nearest.nearest_mean_empty",
    "Mdp.Nearest.knn_majority",
    "Mdp.Nearest.knn_one",
    "Mdp.Nearest.knn_zero",
    "Mdp.Join.class_sums"
   ],
   "note": "Every label must have at least one row (otherwise its mean is nan). For KNN any k >= 1 and any order of equal distances."
  },
  {
   "property": "C58",
   "status": "proved",
   "theorems": [
    "Mdp.Hopfield.retrieval_terminates",
    "Mdp.Hopfield.retrieval_energy",
    "Mdp.Hopfield.weights_correct",
    "Mdp.Hopfield.stop_without_patterns"
   ],
   "note": "Floats idealised as an ordered field."
  },
  {
   "property": "C59",
   "status": "proved",
   "theorems": [
    "Bi.execute_without_jumps",
    "Bi.execute_no_chunks"
   ],
   "note": ""
  },
  {
   "property": "C60",
   "status": "partial",
   "theorems": [
    "Bi.execute_seq_path_partial",
    "Bi.Path.visited",
    "Bi.Move.det",
    "Bi.execute_seq_bad_start",
    "Bi.start_target",
    "Bi.leaving_targets",
    "Bi.jump_wraps_around",
    "Bi.plain_target_never_returns"
   ],
   "note": "False for a relative index that points before the position -1: control goes to a node counted from the end (violation proved). Proved if no node asks for that."
  },
  {
   "property": "C61",
   "status": "proved",
   "theorems": [
    "Bi.execute_routes",
    "Bi.execute_bad_key",
    "Bi.execute_nothing",
    "Bi.execute_empty"
   ],
   "note": ""
  },
  {
   "property": "C62",
   "status": "partial",
   "theorems": [
    "Bi.some_but_not_all_partial",
    "Bi.all_none_raises",
    "Bi.single_none_is_false"
   ],
   "note": "False: two chunks without data raise the error too, one gives False (violations proved). Proved that it is raised if some but not all have data."
  },
  {
   "property": "C63",
   "status": "partial",
   "theorems": [
    "Mdp.Online.online_train",
    "Mdp.Online.online_train_raises",
    "Mdp.Online.only_stop_closes",
    "Mdp.Online.online_stop",
    "Mdp.Online.closed_forever",
    "Mdp.Online.oreachable_phase",
    "Mdp.Online.stop_only_once",
    "Mdp.Online.execute_trace",
    "Mdp.Online.execute_hook",
    "Mdp.Online.inverse_trace",
    "Mdp.Online.stop_hook_repeated"
   ],
   "note": "Everything is proved except that phases are closed exactly once if a stop hook raises: after a retry earlier stop hooks run again (violation proved)."
  },
  {
   "property": "C64",
   "status": "proved",
   "theorems": [
    "Mdp.Online.online_flow_train",
    "Mdp.Online.online_flow_chunks",
    "Mdp.Online.online_node_learns_chunk",
    "Mdp.Online.online_node_learns_every_chunk"
   ],
   "note": ""
  },
  {
   "property": "C65",
   "status": "partial",
   "theorems": [
    "Mdp.Online.set_input_node_rotates",
    "Mdp.Online.set_output_node_sets",
    "Mdp.Online.set_node_rejects_partial",
    "Mdp.Online.set_node_past_end",
    "Mdp.Online.ring_history"
   ],
   "note": "False for an index equal to the number of nodes, which is accepted (violation proved); otherwise proved, also for all histories."
  },
  {
   "property": "C66",
   "status": "proved",
   "theorems": [
    "Mdp.Switchboard.out_channel_node",
    "Mdp.Switchboard.input_channels_of"
   ],
   "note": ""
  },
  {
   "property": "C67",
   "status": "proved",
   "theorems": [
    "Mdp.Switchboard.double_accepted",
    "Mdp.Switchboard.double_cover",
    "Mdp.Switchboard.double_blocks"
   ],
   "note": ""
  },
  {
   "property": "C68",
   "status": "proved",
   "theorems": [
    "Mdp.Switchboard.rhomb_accepted",
    "Mdp.Switchboard.rhomb_fields",
    "Mdp.Switchboard.rhomb_valid",
    "Mdp.Switchboard.rhomb_double_cover"
   ],
   "note": ""
  },
  {
   "property": "C69",
   "status": "proved",
   "theorems": [
    "Mdp.Node.private_data_replay"
   ],
   "note": ""
  },
  {
   "property": "C70",
   "status": "proved",
   "theorems": [
    "Mdp.Layer.clone_training"
   ],
   "note": ""
  },
  {
   "property": "C71",
   "status": "proved",
   "theorems": [
    "Mdp.Layer.same_execute_concat"
   ],
   "note": "For inner classes whose execute hook changes nothing and returns the declared shape."
  },
  {
   "property": "C72",
   "status": "proved",
   "theorems": [
    "Mdp.Layer.same_training"
   ],
   "note": "For a layer whose dtype is given."
  },
  {
   "property": "C73",
   "status": "proved",
   "theorems": [
    "Mdp.FlowNode.flownode_dims"
   ],
   "note": ""
  },
  {
   "property": "C74",
   "status": "proved",
   "theorems": [
    "Mdp.Sched.results_complete",
    "Mdp.Sched.open_tasks_exact"
   ],
   "note": ""
  },
  {
   "property": "C75",
   "status": "proved",
   "theorems": [
    "Mdp.Sched.process_limit"
   ],
   "note": ""
  },
  {
   "property": "C76",
   "status": "partial",
   "theorems": [
    "Mdp.Sched.shutdown_after_results"
   ],
   "note": "False: a race between storing the result and giving back the process (violation proved)."
  },
  {
   "property": "C77",
   "status": "proved",
   "theorems": [
    "Mdp.Cov.cross_covariance_correct",
    "Mdp.Cov.cross_rejects_mismatch"
   ],
   "note": ""
  },
  {
   "property": "C78",
   "status": "proved",
   "theorems": [
    "Mdp.Cov.rotate_eq",
    "Mdp.Cov.permute_eq",
    "Mdp.Cov.transform_eq",
    "Mdp.Cov.congr2_symmetric",
    "Mdp.Cov.rotate_inverse",
    "Mdp.Cov.rotate_trace"
   ],
   "note": ""
  },
  {
   "property": "C79",
   "status": "proved",
   "theorems": [
    "Mdp.Join.sfa_overlapping_chunks"
   ],
   "note": ""
  },
  {
   "property": "C80",
   "status": "proved",
   "theorems": [
    "Mdp.Join.fda_within_class",
    "Mdp.Join.fda_unknown_label",
    "Mdp.Join.class_sums"
   ],
   "note": ""
  },
  {
   "property": "C81",
   "status": "partial",
   "theorems": [
    "Mdp.Markov.single_label_partial",
    "Mdp.Markov.string_label_split"
   ],
   "note": "False for a string: it is taken apart into its characters (violation proved)."
  },
  {
   "property": "C82",
   "status": "proved",
   "theorems": [
    "Mdp.Markov.rank_correct"
   ],
   "note": ""
  },
  {
   "property": "C83",
   "status": "proved",
   "theorems": [
    "Mdp.Markov.weighted_choice_correct"
   ],
   "note": "Floats idealised as rationals."
  },
  {
   "property": "C84",
   "status": "proved",
   "theorems": [
    "Mdp.Perceptron.mistakes_bounded",
    "Mdp.Perceptron.perceptron_converges",
    "Mdp.Perceptron.correct_unchanged",
    "Mdp.Perceptron.train_is_run",
    "Mdp.Perceptron.train_refuses"
   ],
   "note": "Floats idealised as an archimedean ordered field."
  },
  {
   "property": "C85",
   "status": "partial",
   "theorems": [
    "Mdp.KMeans.kmeans_converges_partial",
    "Mdp.KMeans.nearest_le",
    "Mdp.KMeans.too_many_clusters",
    "Mdp.KMeans.max_iter_no_centroids"
   ],
   "note": "Proved if max_iter allows k^n+1 rounds. False if max_iter is reached first: there are no centroids then (violation proved)."
  },
  {
   "property": "C86",
   "status": "proved",
   "theorems": [
    "Mdp.Gaussian.gaussian_fit",
    "Mdp.Gaussian.gaussian_posterior",
    "Mdp.Gaussian.gaussian_singular"
   ],
   "note": "Over the reals, determinant and inverse are parameters; each label given to at least two rows."
  },
  {
   "property": "C87",
   "status": "partial",
   "theorems": [
    "Mdp.Online.train_keeps_online_open_partial",
    "Mdp.Online.multi_phase_terminal_closed"
   ],
   "note": "False for an online node with several phases at the end of the flow (violation proved); proved otherwise."
  },
  {
   "property": "C88",
   "status": "partial",
   "theorems": [
    "Mdp.Online.plain_terminal_first_chunk_only"
   ],
   "note": "False: the node is closed after the first chunk, for all flows and data (proved)."
  },
  {
   "property": "C89",
   "status": "partial",
   "theorems": [
    "Mdp.Online.online_container_step",
    "Mdp.Online.online_container_effect",
    "Mdp.Online.online_container_accepts",
    "Mdp.Online.online_flow_in_sync_partial",
    "Mdp.Online.online_flow_consistent_partial",
    "Mdp.Online.online_construct",
    "Mdp.Online.online_construct_rejects",
    "Mdp.Online.online_iadd_violation"
   ],
   "note": "False for += (violation proved); proved for all histories of the other calls. Dimensions are proved consistent for histories without training."
  },
  {
   "property": "C90",
   "status": "proved",
   "theorems": [
    "Mdp.Online.circular_train",
    "Mdp.Online.circular_train_default",
    "Mdp.Online.ignored_input"
   ],
   "note": "For at least one flow iteration and a ring with nodes."
  },
  {
   "property": "C91",
   "status": "partial",
   "theorems": [
    "Mdp.Online.circular_append_partial",
    "Mdp.Online.circular_insert_partial",
    "Mdp.Online.circular_insert_violation",
    "Mdp.Online.circular_delete_never_returns",
    "Mdp.Online.circular_setitem_never_returns",
    "Mdp.Online.circular_violation"
   ],
   "note": "False for item assignment, deletion and insertion before the output node (violations proved); proved for append, extend and insertion at or behind the output node."
  },
  {
   "property": "C92",
   "status": "partial",
   "theorems": [
    "Mdp.Online.set_stored_input_partial",
    "Mdp.Online.set_stored_input_dropped",
    "Mdp.Online.circular_execute",
    "Mdp.Online.circular_inverse_never_returns"
   ],
   "note": "False if the input dimension is not known, and for inverse (violations proved); proved for execute and for a known input dimension."
  },
  {
   "property": "C93",
   "status": "partial",
   "theorems": [
    "Bi.execute_consumes_message",
    "Bi.execute_keeps_message_partial"
   ],
   "note": "False: entries addressed to the node are removed from the dictionary of the caller (violation proved). Proved for messages without such entries and methods without an own message."
  },
  {
   "property": "C94",
   "status": "proved",
   "theorems": [
    "Bi.phases_counted",
    "Bi.training_finished",
    "Bi.train_starts",
    "Bi.train_result",
    "Bi.stop_closes"
   ],
   "note": ""
  },
  {
   "property": "C95",
   "status": "proved",
   "theorems": [
    "Bi.chunks_independent",
    "Bi.single_chunk"
   ],
   "note": ""
  },
  {
   "property": "C96",
   "status": "proved",
   "theorems": [
    "Bi.joined_iff",
    "Bi.joined_message",
    "Bi.get_message_twice"
   ],
   "note": "The message can be asked for only once (get_message_twice); BiFlow.execute does so."
  },
  {
   "property": "C97",
   "status": "proved",
   "theorems": [
    "Bi.train_in_order"
   ],
   "note": "Messages are values here: that nodes change the message objects (C93) is not part of this model."
  },
  {
   "property": "C98",
   "status": "proved",
   "theorems": [
    "Bi.train_without_jumps",
    "Bi.train_no_data"
   ],
   "note": ""
  },
  {
   "property": "C99",
   "status": "partial",
   "theorems": [
    "Bi.checkpoint_none_fails",
    "Bi.checkpoint_neutral_partial",
    "Bi.checkpoint_dicts_partial",
    "Bi.checkpoint_after_training_partial"
   ],
   "note": "False for a checkpoint function that returns nothing: TypeError (violation proved). Proved for those that return a dictionary."
  },
  {
   "property": "C100",
   "status": "proved",
   "theorems": [
    "PFlow.parallel_train_sequential",
    "PFlow.pca_respects",
    "PFlow.pca_forkJoin",
    "PFlow.pca_keepsPhase"
   ],
   "note": "For nodes whose forks and joins work (hypothesis ForkJoin; shown for PCA nodes, for the others see C44) and checkpoint functions that leave the node alone."
  },
  {
   "property": "C101",
   "status": "proved",
   "theorems": [
    "PFlow.parallel_tasks"
   ],
   "note": ""
  },
  {
   "property": "C102",
   "status": "partial",
   "theorems": [
    "PFlow.failed_training_blocks",
    "PFlow.Exec.execute_underway"
   ],
   "note": "False: after any failing training on a scheduler every call of train and execute raises (violation proved for all failures)."
  },
  {
   "property": "C103",
   "status": "partial",
   "theorems": [
    "PFlow.Exec.parallel_execute_partial",
    "PFlow.Exec.nodenr_ignored",
    "PFlow.Exec.stale_forks"
   ],
   "note": "False in two respects: nodenr is ignored, and on a scheduler that is used again the forks of earlier executions are joined once more (violations proved). Order, completeness and errors are proved for executions of the whole flow."
  },
  {
   "property": "C104",
   "status": "partial",
   "theorems": [
    "PFlow.parallel_checkpoints",
    "PFlow.checkpoint_gaps",
    "PFlow.wrong_length_refused"
   ],
   "note": "False for nodes that are trained already and for a call without a scheduler (violations proved); proved for the nodes trained in the call."
  },
  {
   "property": "C105",
   "status": "partial",
   "theorems": [
    "PFlow.parallel_schedulers",
    "PFlow.schedulers_typeError"
   ],
   "note": "False if no phase can be done on a scheduler: TypeError after the work has been done (violation proved). Proved otherwise."
  },
  {
   "property": "C106",
   "status": "proved",
   "theorems": [
    "Mdp.Regression.regression_least_squares",
    "Mdp.Regression.regression_exact",
    "Mdp.Regression.regression_stops",
    "Mdp.Regression.regression_rejects"
   ],
   "note": "Floats idealised as an ordered field; the inversion routine is a parameter that returns a generalised inverse of the matrix it is given."
  },
  {
   "property": "C107",
   "status": "partial",
   "theorems": [
    "Mdp.OnlineStats.centering_average",
    "Mdp.OnlineStats.expAvg_const",
    "Mdp.OnlineStats.centering_execute_partial",
    "Mdp.OnlineStats.centering_first_sample",
    "Mdp.OnlineStats.centering_inverse",
    "Mdp.OnlineStats.centering_stop"
   ],
   "note": "False after a single sample: execute returns its input (violation proved). Proved for two or more samples."
  },
  {
   "property": "C108",
   "status": "partial",
   "theorems": [
    "Mdp.OnlineStats.timediff_partial",
    "Mdp.OnlineStats.timediff_batch_rows",
    "Mdp.OnlineStats.timediff_batch_pred"
   ],
   "note": "False for batch training (violations proved). Proved for incremental training."
  },
  {
   "property": "C109",
   "status": "proved",
   "theorems": [
    "Mdp.Pca.pca_outputs",
    "Mdp.Pca.pca_optimal"
   ],
   "note": "Floats idealised as an ordered field; the eigenvalue solver is a parameter, required only to be right for the covariance matrix of the data."
  },
  {
   "property": "C110",
   "status": "partial",
   "theorems": [
    "Mdp.Pca.pca_number",
    "Mdp.Pca.pca_fraction_partial",
    "Mdp.Pca.pca_reduce",
    "Mdp.Pca.pca_fraction_reduce",
    "Mdp.Pca.pca_rounding",
    "Mdp.Pca.pca_fraction_constant_violation"
   ],
   "note": "Floats idealised as an ordered field; the eigenvalue solver is a parameter, required only to be right for the covariance matrix of the data. With inexact eigenvalues the output dimension can be one too large (pca_rounding). False for data without variance and a fraction: the output dimension is one, but there is no eigenvalue."
  },
  {
   "property": "C111",
   "status": "proved",
   "theorems": [
    "Mdp.Pca.pca_execute_inverse",
    "Mdp.Pca.pca_reconstruction"
   ],
   "note": "Floats idealised as an ordered field; the eigenvalue solver is a parameter, required only to be right for the covariance matrix of the data."
  },
  {
   "property": "C112",
   "status": "partial",
   "theorems": [
    "Mdp.Pca.whitening_outputs_partial",
    "Mdp.Pca.whitening_inverse",
    "Mdp.Pca.whitening_singular"
   ],
   "note": "Floats idealised as an ordered field; the eigenvalue solver is a parameter, required only to be right for the covariance matrix of the data. False for data in a hyperplane if all components are kept: a variance is zero and the node divides by its root without raising (violation proved). Proved for positive variances."
  },
  {
   "property": "C113",
   "status": "proved",
   "theorems": [
    "Mdp.Sfa.sfa_outputs",
    "Mdp.Sfa.sfa_too_many"
   ],
   "note": "Floats idealised as an ordered field; the solver of the generalised eigenvalue problem is a parameter, required only to be right for the two matrices of the data."
  },
  {
   "property": "C114",
   "status": "proved",
   "theorems": [
    "Mdp.Sfa.sfa_slowest"
   ],
   "note": "Floats idealised as an ordered field; the solver of the generalised eigenvalue problem is a parameter, required only to be right for the two matrices of the data."
  },
  {
   "property": "C115",
   "status": "proved",
   "theorems": [
    "Mdp.Sfa.sfa_retry",
    "Mdp.Sfa.sfa_no_train_after_failure"
   ],
   "note": "Solvers that overwrite the matrices they are given (the code allows them to) are covered by C347."
  },
  {
   "property": "C116",
   "status": "proved",
   "theorems": [
    "Mdp.Sfa.sfa_inverse"
   ],
   "note": "Floats idealised as an ordered field; the solver of the generalised eigenvalue problem is a parameter, required only to be right for the two matrices of the data. Of the pseudo-inverse G of W only W G W = W is used."
  },
  {
   "property": "C117",
   "status": "proved",
   "theorems": [
    "Mdp.Sfa.sfa2_form",
    "Mdp.Sfa.sfa2_form_range",
    "Mdp.Sfa.quadform_new"
   ],
   "note": "The test for symmetry in QuadraticForm is taken to be exact."
  },
  {
   "property": "C118",
   "status": "proved",
   "theorems": [
    "Mdp.Sfa.sfa2_outputs",
    "Mdp.Sfa.sfa2_slowest"
   ],
   "note": "Floats idealised as an ordered field; the solver of the generalised eigenvalue problem is a parameter, required only to be right for the two matrices of the data."
  },
  {
   "property": "C119",
   "status": "partial",
   "theorems": [
    "Mdp.Sfa.sfa2_output_dim_false",
    "Mdp.Sfa.sfa2_outputs"
   ],
   "note": "False for an output_dim above the number of monomials: the node gives fewer outputs (violation proved for all such cases); otherwise part of sfa2_outputs."
  },
  {
   "property": "C120",
   "status": "proved",
   "theorems": [
    "Mdp.Quad.extrema_optimal",
    "Mdp.Quad.extrema_small",
    "Mdp.Quad.extrema_terminates",
    "Mdp.Quad.maximize_terminates",
    "Mdp.Quad.maximize_terminates_neg"
   ],
   "note": "extrema_optimal is the optimality if the linear part is zero or has an entry of at least the machine precision, extrema_small the other case. The routines for eigenvectors, linear systems and norms are parameters; the eigenvectors must be orthonormal and the solver must refuse singular matrices. Numbers of an ordered (for the end of the search Archimedean) field."
  },
  {
   "property": "C121",
   "status": "partial",
   "theorems": [
    "Mdp.Quad.extrema_optimal",
    "Mdp.Quad.extrema_length_false",
    "Mdp.Quad.extrema_singular",
    "Mdp.Quad.extrema_short"
   ],
   "note": "False: the vector is shorter and not optimal if the linear part is orthogonal to the leading eigenvector; singular matrices raise; lengths whose square does not exceed the tolerance raise UnboundLocalError (violations proved). What holds of the length is part of extrema_optimal."
  },
  {
   "property": "C122",
   "status": "proved",
   "theorems": [
    "Mdp.Symeig.sfa_pca",
    "Mdp.Symeig.sfa_svd",
    "Mdp.Symeig.pca_correct",
    "Mdp.Symeig.svd_correct",
    "Mdp.Symeig.pca_error"
   ],
   "note": "Floats idealised as an ordered field; eigh, svd and the square root are parameters that are exact where they return. A single varying input together with constant ones is not of the kind the property covers (see C124): the solver raises IndexError there (pca_constant_variable_false)."
  },
  {
   "property": "C123",
   "status": "partial",
   "theorems": [
    "Mdp.Sfa.sfa_rank_output_dim_false",
    "Mdp.Sfa.sfa_rank_outputs"
   ],
   "note": "False if the rank is below the output dimension (violation proved for all such cases): there are as many outputs as the rank. Otherwise part of sfa_rank_outputs."
  },
  {
   "property": "C124",
   "status": "partial",
   "theorems": [
    "Mdp.Symeig.blank_drops_first",
    "Mdp.Symeig.sfa_ignores_first",
    "Mdp.Symeig.sfa_pca_not_slowest_false",
    "Mdp.Symeig.blank_finds_constant",
    "Mdp.Symeig.blank_correlated",
    "Mdp.Symeig.blank_constant_first"
   ],
   "note": "False: if the first input varies but is uncorrelated with some other input, constant or not, the first input is left out, and the outputs do not depend on it (violation proved for all such data). Constant inputs are always left out; the test is right if the first input is constant or correlated with all others."
  },
  {
   "property": "C125",
   "status": "proved",
   "theorems": [
    "Mdp.Symeig.fake_correct",
    "Mdp.Symeig.plain_solves",
    "Mdp.Symeig.clampRange_spec"
   ],
   "note": "Floats idealised as an ordered field; eigh, svd and the square root are parameters that are exact where they return."
  },
  {
   "property": "C126",
   "status": "partial",
   "theorems": [
    "Mdp.Symeig.pca_correct",
    "Mdp.Symeig.svd_correct",
    "Mdp.Symeig.svd_deficit_stale"
   ],
   "note": "False for svd after an earlier attempt: without a deficit the old value remains (violation proved). Proved for pca, and for svd when the attribute was zero."
  },
  {
   "property": "C127",
   "status": "partial",
   "theorems": [
    "Mdp.RecExp.expansion",
    "Mdp.RecExp.degree_one_partial",
    "Mdp.RecExp.rational_degree_one_false",
    "Mdp.RecExp.degree_zero_false"
   ],
   "note": "Floats idealised as a field; functions supplied by the user are not modelled. Proved for degrees of at least two, and for degree one except for the rational functions. False for legendre_rational with degree one, which returns the variables themselves, and for degree zero, which returns as many ones as variables, or None (violations proved for all rows in the domain)."
  },
  {
   "property": "C128",
   "status": "partial",
   "theorems": [
    "Mdp.RecExp.output_dim_partial",
    "Mdp.RecExp.degree_zero_false"
   ],
   "note": "Floats idealised as a field; functions supplied by the user are not modelled. Proved for degrees of at least one; false for degree zero (violation proved)."
  },
  {
   "property": "C129",
   "status": "proved",
   "theorems": [
    "Mdp.RecExp.check_spec"
   ],
   "note": "Floats idealised as an ordered field; no nan."
  },
  {
   "property": "C130",
   "status": "proved",
   "theorems": [
    "Mdp.RecExp.train_range",
    "Mdp.RecExp.train_defined"
   ],
   "note": "Floats idealised as an ordered field; no nan."
  },
  {
   "property": "C131",
   "status": "proved",
   "theorems": [
    "Mdp.RecExp.transform_inside",
    "Mdp.RecExp.transform_strictMono",
    "Mdp.RecExp.training_data_pass",
    "Mdp.RecExp.transform_id",
    "Mdp.RecExp.shift_minimal"
   ],
   "note": "Floats idealised as an ordered field; no nan. A domain of positive length."
  },
  {
   "property": "C132",
   "status": "partial",
   "theorems": [
    "Mdp.RecExp.argument_kept_partial",
    "Mdp.RecExp.argument_changed_false"
   ],
   "note": "False: the normalisation works in place on the array of the caller if it has the dtype of the node (violation proved for all data reaching below a domain bounded below). Proved for other dtypes, unbounded domains and training data strictly inside a bounded domain."
  },
  {
   "property": "C133",
   "status": "proved",
   "theorems": [
    "Mdp.NeuralGas.gng_graph"
   ],
   "note": "Floats idealised as an ordered field; argsort and the square root are parameters, argsort with the guarantee of numpy."
  },
  {
   "property": "C134",
   "status": "proved",
   "theorems": [
    "Mdp.NeuralGas.gng_positions"
   ],
   "note": "Floats idealised as an ordered field; argsort and the square root are parameters, argsort with the guarantee of numpy."
  },
  {
   "property": "C135",
   "status": "proved",
   "theorems": [
    "Mdp.NeuralGas.gng_step",
    "Mdp.NeuralGas.gng_insert",
    "Mdp.NeuralGas.gng_tlen"
   ],
   "note": "Floats idealised as an ordered field; argsort and the square root are parameters, argsort with the guarantee of numpy. gng_step describes the points at which no node is inserted."
  },
  {
   "property": "C136",
   "status": "proved",
   "theorems": [
    "Mdp.NeuralGas.nearest_neighbor"
   ],
   "note": "Floats idealised as an ordered field; argsort and the square root are parameters, argsort with the guarantee of numpy."
  },
  {
   "property": "C137",
   "status": "partial",
   "theorems": [
    "Mdp.NeuralGas.start_kept_partial",
    "Mdp.NeuralGas.start_changed_false"
   ],
   "note": "Floats idealised as an ordered field; argsort and the square root are parameters, argsort with the guarantee of numpy. False: arrays of the dtype of the node become the positions of the nodes and are moved in place (violation proved for all starts and points). Arrays of another dtype are copied."
  },
  {
   "property": "C138",
   "status": "proved",
   "theorems": [
    "Mdp.NeuralGas.ng_graph",
    "Mdp.NeuralGas.ng_one_node",
    "Mdp.NeuralGas.ng_step",
    "Mdp.NeuralGas.ng_positions",
    "Mdp.NeuralGas.ng_scheduled",
    "Mdp.NeuralGas.schedule_width",
    "Mdp.NeuralGas.schedule_ends"
   ],
   "note": "Floats idealised as an ordered field; argsort and the square root are parameters, argsort with the guarantee of numpy. The schedule is over the real numbers."
  },
  {
   "property": "C139",
   "status": "partial",
   "theorems": [
    "Mdp.NeuralGas.ng_ages_partial",
    "Mdp.NeuralGas.schedule_ages",
    "Mdp.NeuralGas.ng_scheduled",
    "Mdp.NeuralGas.ng_ages_false"
   ],
   "note": "Floats idealised as an ordered field; argsort and the square root are parameters, argsort with the guarantee of numpy. Proved when the maximal age does not decrease (as with the defaults). False otherwise: the loop removes from the list it runs over and skips an edge (violation proved)."
  },
  {
   "property": "C140",
   "status": "partial",
   "theorems": [
    "Bi.Layer.layer_run_partial",
    "Bi.Layer.layer_stop_copies",
    "Bi.Layer.layer_stop_shared",
    "Bi.Layer.trailing_columns_false"
   ],
   "note": "Entries of messages other than None, numbers, strings and arrays are opaque; arrays are lists of columns. Proved for data whose number of columns is a positive multiple of the number of nodes; otherwise the columns beyond the last full block are dropped without an error (violation proved for all such arrays)."
  },
  {
   "property": "C141",
   "status": "proved",
   "theorems": [
    "Bi.Layer.messages_pass",
    "Bi.Layer.outgoing_message"
   ],
   "note": "Entries of messages other than None, numbers, strings and arrays are opaque; arrays are lists of columns. outgoing_message is about runs in which at least two nodes give messages."
  },
  {
   "property": "C142",
   "status": "partial",
   "theorems": [
    "Bi.Layer.copies_same",
    "Bi.Layer.switch_to_copies",
    "Bi.Layer.switch_back_false"
   ],
   "note": "Entries of messages other than None, numbers, strings and arrays are opaque; arrays are lists of columns. False for the way from copies to a shared node, which always raises: the attribute is_bi_training does not exist (violation proved for all layers)."
  },
  {
   "property": "C143",
   "status": "partial",
   "theorems": [
    "Bi.Layer.incoming_flag",
    "Bi.Layer.outgoing_flag",
    "Bi.Layer.id_flag_ignored_false",
    "Bi.Layer.layer_execute"
   ],
   "note": "Entries of messages other than None, numbers, strings and arrays are opaque; arrays are lists of columns. False for an incoming entry addressed to the layer, which is dropped (violation proved for all messages)."
  },
  {
   "property": "C144",
   "status": "partial",
   "theorems": [
    "Bi.Layer.switch_execute",
    "Bi.Layer.switch_low_index_refused",
    "Bi.Layer.switch_inverse_partial",
    "Bi.Layer.switch_not_invertible",
    "Bi.Layer.switch_inverse_violation"
   ],
   "note": "Entries of messages other than None, numbers, strings and arrays are opaque; arrays are lists of columns. Execution is proved for all connections that numpy accepts. The inverse is proved for connections that are not negative and false for negative ones, which is_invertible accepts."
  },
  {
   "property": "C145",
   "status": "partial",
   "theorems": [
    "Bi.FlowNode.flownode_execute_partial",
    "Bi.FlowNode.flownode_refused",
    "Bi.FlowNode.flownode_request",
    "Bi.FlowNode.flownode_reset",
    "Bi.FlowNode.flownode_flat",
    "Bi.FlowNode.addressed_inverse_false",
    "Bi.FlowNode.one_node_request_kept_false"
   ],
   "note": "Proved for messages without entries addressed to the flow node and inner targets not below -1. False for method inverse addressed to the flow node, and for a flow node with one inner node, where a request remains (violations proved for all inner flows)."
  },
  {
   "property": "C146",
   "status": "partial",
   "theorems": [
    "Bi.FlowNode.train_seq_partial",
    "Bi.FlowNode.train_seq_false",
    "Bi.FlowNode.train_refines",
    "Bi.FlowNode.train_flownode",
    "Bi.FlowNode.stop_refines",
    "Bi.FlowNode.train_last_no_target_false"
   ],
   "note": "Training is compared for runs of the flow without exceptions. False for a fully trained flow node with a trainable last node (IndexError), and for a training result of the last inner node without a target (BiFlowException); violations proved for all inner flows."
  },
  {
   "property": "C147",
   "status": "partial",
   "theorems": [
    "Bi.Coroutine.coroutine_continues_partial",
    "Bi.Coroutine.reset_clears",
    "Bi.Coroutine.after_exception_false",
    "Bi.Coroutine.returned_value_false"
   ],
   "note": "Bodies that call their own method and the effects of bodies on the node are not modelled. Proved for bodies that raise no exceptions. False after an exception: the next call gives None without running the body. A returned value comes back as a one-tuple (violations proved for all bodies)."
  },
  {
   "property": "C148",
   "status": "partial",
   "theorems": [
    "PHinet.net_fork_join_train",
    "PHinet.fork_join_train",
    "PHinet.layer_lawful",
    "PHinet.flow_lawful",
    "PHinet.clone_lawful",
    "PHinet.built_lawful",
    "PHinet.pca_lawful",
    "PHinet.net_train_lost_violation"
   ],
   "note": "A node is given by its methods on a state; training phases as a flag. False for flows in which a layer with a node with use_execute_fork precedes the node in training: what that node gathers is lost (violation). So layers must not have nodes with use_execute_fork; behind the node in training a flow has no node that is in training and has use_execute_fork. The law is proved for PCANode."
  },
  {
   "property": "C149",
   "status": "partial",
   "theorems": [
    "PHinet.net_fork_join_exec",
    "PHinet.fork_join_exec",
    "PHinet.collector_lawful",
    "PHinet.layer_execution_lost_false",
    "PHinet.layer_collector_false"
   ],
   "note": "Proved for flow nodes and clone layers. False for layers: they ask to be forked but join only nodes in training, so what the nodes gathered is dropped (violation proved for all layers)."
  },
  {
   "property": "C150",
   "status": "partial",
   "theorems": [
    "PHinet.switch_back_merges",
    "PHinet.copies_fork_join",
    "PHinet.join_other_mode",
    "PHinet.switch_counts_prior_false",
    "PHinet.switch_back_after_training_false"
   ],
   "note": "Proved for copies made before training and for fork and join. False for a node trained before the switch to n copies: what it gathered is counted n times (proved for all PCANode states); and switching back when not in training raises AttributeError."
  },
  {
   "property": "C151",
   "status": "proved",
   "theorems": [
    "Bi.Gradient.flow_gradient",
    "Bi.Gradient.nodes_good",
    "Bi.Gradient.layer_good",
    "Bi.Gradient.identity_good",
    "Bi.Gradient.sfa_good",
    "Bi.Gradient.quad_good",
    "Bi.Gradient.sfa2_good",
    "Bi.Gradient.gradient_refused",
    "Bi.Gradient.clone_refused"
   ],
   "note": "Entries are real numbers; one sample at a time. The flow does not start with a CloneBiLayer of two or more nodes (C152)."
  },
  {
   "property": "C152",
   "status": "partial",
   "theorems": [
    "Bi.Gradient.layer_good",
    "Bi.Gradient.layer_refuses",
    "Bi.Gradient.clone_first_false",
    "Bi.Gradient.same_input_error",
    "Bi.Gradient.same_input_false"
   ],
   "note": "True for Layer. False for a CloneBiLayer of two or more nodes at the start of a flow: grad silently has the columns of one node (proved for all such layers); false for a SameInputLayer of nodes with one input: the rows of all nodes but the first are silently zero. With more inputs a SameInputLayer of two nodes always raises."
  },
  {
   "property": "C153",
   "status": "proved",
   "theorems": [
    "Mdp.Online.incremental_chunks",
    "Mdp.Online.incremental_cuts",
    "Mdp.Online.batch_chunks_false"
   ],
   "note": "The class must not override _check_train_args and must initialise its parameters once, from the number of columns and dtype (Settles). In batch training the claim does not hold (witness), as every chunk is one update."
  },
  {
   "property": "C154",
   "status": "proved",
   "theorems": [
    "Mdp.Online.online_layer_train",
    "Mdp.Online.same_input_online_layer_train",
    "Mdp.Online.online_layer_train_node",
    "Mdp.Online.online_layer_stop",
    "Mdp.Online.online_layer_stop_dim",
    "Mdp.Online.online_layer_init",
    "Mdp.Online.online_layer_init_dims",
    "Mdp.Online.same_input_init_dims",
    "Mdp.Online.online_layer_type_fixed"
   ],
   "note": "Random number generators are not modelled. A node switched to batch training after the layer was built is trained sample by sample (example)."
  },
  {
   "property": "C155",
   "status": "partial",
   "theorems": [
    "Mdp.Online.online_layer_execute_partial",
    "Mdp.Online.execute_trains_twice_false"
   ],
   "note": "Proved for layers that have been trained and whose output dimension and dtype are known. False for a layer whose output dimension is not known: executing it before training trains every inner node twice with the data."
  },
  {
   "property": "C156",
   "status": "proved",
   "theorems": [
    "Mdp.Online.clone_online_layer_train",
    "Mdp.Online.clone_online_layer_stop_dim",
    "Mdp.Online.clone_online_layer_execute"
   ],
   "note": ""
  },
  {
   "property": "C157",
   "status": "proved",
   "theorems": [
    "Mdp.Gsfa.regular_graph",
    "Mdp.Gsfa.unlabeled_graph",
    "Mdp.Gsfa.dict_graph",
    "Mdp.Gsfa.mirror_graph",
    "Mdp.Gsfa.slow_mirror_graph",
    "Mdp.Gsfa.truncating_graph",
    "Mdp.Gsfa.clustered_graph",
    "Mdp.Gsfa.clustered_graph_no_loops",
    "Mdp.Gsfa.serial_graph",
    "Mdp.Gsfa.clustered_list_graph",
    "Mdp.Gsfa.classification_graph",
    "Mdp.Gsfa.mixed_graph"
   ],
   "note": "Serial and mixed need two or more blocks (C161 for one). The graphs of window and fwindow are in C160. smart_unlabeled2/3, compact_classes and update_graph_old are not modelled."
  },
  {
   "property": "C158",
   "status": "partial",
   "theorems": [
    "Mdp.Gsfa.array_graph_partial",
    "Mdp.Gsfa.array_graph_false"
   ],
   "note": "Proved for symmetric arrays whose rows sum up to the node weights. False otherwise: the sum of squared differences is even negative for a symmetric, consistent graph (witness)."
  },
  {
   "property": "C159",
   "status": "partial",
   "theorems": [
    "Mdp.Gsfa.mirror_fast_slow",
    "Mdp.Gsfa.fast_window_partial",
    "Mdp.Gsfa.fast_window_false"
   ],
   "note": "Proved for mirrored windows without restriction; for fwindow if there are at least four times as many samples as the width. False for fewer (witness: constant data have differences)."
  },
  {
   "property": "C160",
   "status": "partial",
   "theorems": [
    "Mdp.Gsfa.window_graph_partial",
    "Mdp.Gsfa.fast_window_graph_partial",
    "Mdp.Gsfa.window_average_false",
    "Mdp.Gsfa.window_refused"
   ],
   "note": "The sums are those of the graph, but the number of samples is one too large: the average of constant data is never their value (proved for all constant data)."
  },
  {
   "property": "C161",
   "status": "partial",
   "theorems": [
    "Mdp.Gsfa.modes_graphs_partial",
    "Mdp.Gsfa.modes_block_size_false",
    "Mdp.Gsfa.clustered_list_error",
    "Mdp.Gsfa.classification_short_false",
    "Mdp.Gsfa.classification_long",
    "Mdp.Gsfa.serial_single_false",
    "Mdp.Gsfa.dual_serial_graph",
    "Mdp.Gsfa.mixed_refused_false"
   ],
   "note": "Proved for lists of modes without serial_regression. False: serial_regression replaces the block size for later modes; labels that are too few are accepted; serial with one block changes sums but not counts; the second graph of DualSerial has weight zero; mixed adds data before it refuses them."
  },
  {
   "property": "C162",
   "status": "proved",
   "theorems": [
    "Mdp.Gsfa.gsfa_outputs",
    "Mdp.Gsfa.fix_weighted"
   ],
   "note": "The eigenvalue solver is a parameter with the contract Solves; one mode for each call of train."
  },
  {
   "property": "C163",
   "status": "proved",
   "theorems": [
    "Mdp.Gsfa.gsfa_slowest"
   ],
   "note": ""
  },
  {
   "property": "C164",
   "status": "proved",
   "theorems": [
    "Mdp.Gsfa.gsfa_retry"
   ],
   "note": ""
  },
  {
   "property": "C165",
   "status": "proved",
   "theorems": [
    "Mdp.Gsfa.classification_order"
   ],
   "note": "argsort is any sorting permutation."
  },
  {
   "property": "C166",
   "status": "proved",
   "theorems": [
    "Mdp.Gsfa.join_graphs"
   ],
   "note": "The other object must have been trained with samples and edges; otherwise TypeError."
  },
  {
   "property": "C167",
   "status": "proved",
   "theorems": [
    "Mdp.Ccipca.amnesic_sum",
    "Mdp.Ccipca.amnesic_default",
    "Mdp.Ccipca.amnesic_average",
    "Mdp.Ccipca.components_unit",
    "Mdp.Ccipca.whitening_unit"
   ],
   "note": "Entries are real numbers. A division by zero (nan) ends the model."
  },
  {
   "property": "C168",
   "status": "proved",
   "theorems": [
    "Mdp.Ccipca.train_total"
   ],
   "note": "Real numbers: underflow is not modelled. The random vectors are a parameter."
  },
  {
   "property": "C169",
   "status": "proved",
   "theorems": [
    "Mdp.Ccipca.first_component_average"
   ],
   "note": "For CCIPCANode; the whitening node has the same vectors."
  },
  {
   "property": "C170",
   "status": "partial",
   "theorems": [
    "Mdp.Ccipca.reduced_partial",
    "Mdp.Ccipca.reduced_false"
   ],
   "note": "The result is the index of the first component that exceeds var_rel times the total variance of the previous sample, which is what is proved. False for the current total: with var_rel=1 (the default) the node reports too few dimensions whenever the variance grows (witness)."
  },
  {
   "property": "C171",
   "status": "partial",
   "theorems": [
    "Mdp.Ccipca.execute_take",
    "Mdp.Ccipca.inverse_execute",
    "Mdp.Ccipca.inverse_n_false",
    "Mdp.Ccipca.inverse_false"
   ],
   "note": "The sum of projections is proved for all nodes and inputs. It is not x even with as many outputs as inputs, as training does not keep components orthogonal (inverse_false: witness). inverse with n below output_dim always raises (proved for all states)."
  },
  {
   "property": "C172",
   "status": "partial",
   "theorems": [
    "Mdp.Ccipca.property_vectors",
    "Mdp.Ccipca.property_kept",
    "Mdp.Ccipca.constructor_vectors_false",
    "Mdp.Ccipca.minor_constructor_false",
    "Mdp.Ccipca.batch_refused"
   ],
   "note": "True for vectors assigned to the property. False for vectors given to the constructor: training raises TypeError (proved for all vectors and samples). Batch training of CCIPCANode with two or more samples raises ValueError (proved for all chunks)."
  },
  {
   "property": "C173",
   "status": "partial",
   "theorems": [
    "Mdp.Ccipca.minor_unit",
    "Mdp.Ccipca.first_step",
    "Mdp.Ccipca.component_step",
    "Mdp.Ccipca.component_projection",
    "Mdp.Ccipca.components_fixed",
    "Mdp.Ccipca.minor_fixed",
    "Mdp.Ccipca.minor_fixed_converse",
    "Mdp.Ccipca.minor_total",
    "Mdp.Ccipca.minor_eigenvalue_false"
   ],
   "note": "d is the length of the updated vector before normalisation, not an eigenvalue (witness)."
  },
  {
   "property": "C174",
   "status": "proved",
   "theorems": [
    "Mdp.Ccipca.minor_converges"
   ],
   "note": "For the first component and the same chunk at each update."
  },
  {
   "property": "C175",
   "status": "partial",
   "theorems": [
    "Mdp.IncSfa.first_chunk",
    "Mdp.IncSfa.later_chunk",
    "Mdp.IncSfa.zero_train",
    "Mdp.IncSfa.chunks_false"
   ],
   "note": "True for chunks but the first within an episode. False for the first chunk: average and whitening are trained twice with it, minor components not at all; the result depends on the division (proved for all chunks and divisions; zero_train shows that both trainings succeed)."
  },
  {
   "property": "C176",
   "status": "proved",
   "theorems": [
    "Mdp.IncSfa.derivative",
    "Mdp.IncSfa.new_episode",
    "Mdp.IncSfa.rows_within",
    "Mdp.IncSfa.rows_episode",
    "Mdp.IncSfa.batch_chunk"
   ],
   "note": ""
  },
  {
   "property": "C177",
   "status": "partial",
   "theorems": [
    "Mdp.IncSfa.execute_spec",
    "Mdp.IncSfa.centered_spec",
    "Mdp.IncSfa.keep_mean_false"
   ],
   "note": "inverse (pseudo-inverse) is not modelled. False for remove_mean=False: training always raises AttributeError (proved for all parameters and data)."
  },
  {
   "property": "C178",
   "status": "proved",
   "theorems": [
    "Mdp.Ica.cubica_orthogonal",
    "Mdp.Ica.cubica_data"
   ],
   "note": "Entries are real numbers."
  },
  {
   "property": "C179",
   "status": "proved",
   "theorems": [
    "Mdp.Ica.cubica_sweeps",
    "Mdp.Ica.cubica_reported"
   ],
   "note": ""
  },
  {
   "property": "C180",
   "status": "partial",
   "theorems": [
    "Mdp.Ica.cubica_angle_partial",
    "Mdp.Ica.cubica_angle_false"
   ],
   "note": "The angle maximises the part of frequency four of the contrast. It does not maximise the contrast (white witness with angle 0 and contrast 0, while another angle gives a positive contrast)."
  },
  {
   "property": "C181",
   "status": "proved",
   "theorems": [
    "Mdp.Ica.cubica_separated"
   ],
   "note": ""
  },
  {
   "property": "C182",
   "status": "proved",
   "theorems": [
    "Mdp.Ica.jade_orthogonal"
   ],
   "note": "The order of the components (argsort of equal numbers) is a parameter."
  },
  {
   "property": "C183",
   "status": "partial",
   "theorems": [
    "Mdp.Ica.jade_ends",
    "Mdp.Ica.jade_stationary_partial",
    "Mdp.Ica.jade_stationary_violation"
   ],
   "note": "False for pairs in the degenerate case of C184: two binary signals mixed by 45 degrees are returned although the best rotation is by 45 degrees (violation proved). Proved for all other pairs."
  },
  {
   "property": "C184",
   "status": "partial",
   "theorems": [
    "Mdp.Ica.jade_angle_partial",
    "Mdp.Ica.jade_angle_false"
   ],
   "note": "True unless toff is zero and ton negative (arctan2(0, 0) is 0). In that case the angle is the worst one: two binary signals mixed by 45 degrees are returned unseparated (witness, for all limits, numbers of iterations and orders)."
  },
  {
   "property": "C185",
   "status": "partial",
   "theorems": [
    "Mdp.Ica.jade_matrices_partial",
    "Mdp.Ica.jade_matrices_diff",
    "Mdp.Ica.jade_matrices_false",
    "Mdp.Ica.jade_criterion_false"
   ],
   "note": "True for equal indices. False for two different indices for all data: sqrt(2) multiplies only the first term; for separated signals with small kurtosis the criterion prefers the mixed signals (proved for all such data; weak is a case)."
  },
  {
   "property": "C186",
   "status": "proved",
   "theorems": [
    "Mdp.Ica.jade_separated"
   ],
   "note": ""
  },
  {
   "property": "C187",
   "status": "partial",
   "theorems": [
    "Mdp.Ica.fast_defl_partial",
    "Mdp.Ica.fast_defl_orthogonal",
    "Mdp.Ica.fast_zero_false"
   ],
   "note": "Columns are orthogonal with length one or zero. A component that does not converge leaves a column of zeros without an exception (witness for all limits, iterations and numbers of failures)."
  },
  {
   "property": "C188",
   "status": "partial",
   "theorems": [
    "Mdp.Ica.fast_fine",
    "Mdp.Ica.fast_guess",
    "Mdp.Ica.fast_guess_false"
   ],
   "note": "Fine-tuning: proved. The array guess of the user is overwritten with normalised columns (for all runs). With whitened=False or another dtype the code works on a copy."
  },
  {
   "property": "C189",
   "status": "proved",
   "theorems": [
    "Mdp.Ica.fast_separated",
    "Mdp.Ica.nonlinearity_derivative",
    "Mdp.Ica.nonlinearity_constant"
   ],
   "note": "For approach=defl, mu=1, sample_size=1, fine_g=None (fine-tuning is on by default)."
  },
  {
   "property": "C190",
   "status": "proved",
   "theorems": [
    "Mdp.Ica.fast_stabilised",
    "Mdp.Ica.fast_stabilised_symm"
   ],
   "note": "For symmetric mode if the matrix is orthogonal, as it is when the step is made."
  },
  {
   "property": "C191",
   "status": "proved",
   "theorems": [
    "Mdp.Ica.fast_symm"
   ],
   "note": "The matrix square root of the inverse is a parameter with a contract (symmetric, its square is the inverse); nan ends the model."
  },
  {
   "property": "C192",
   "status": "proved",
   "theorems": [
    "Mdp.Ica.ica_white",
    "Mdp.Ica.ica_node",
    "Mdp.Ica.cubica_node",
    "Mdp.Ica.cubica_chunks",
    "Mdp.Ica.cubica_orth",
    "Mdp.Ica.jade_orth"
   ],
   "note": "Exact arithmetic; the eigenvalue solver is a parameter with a contract."
  },
  {
   "property": "C193",
   "status": "partial",
   "theorems": [
    "Mdp.Ica.ica_inverse",
    "Mdp.Ica.ica_whitened",
    "Mdp.Ica.ica_projmatrix",
    "Mdp.Ica.ica_recmatrix",
    "Mdp.Ica.ica_recmatrix_white",
    "Mdp.Ica.ica_reduce_false"
   ],
   "note": "Fails for white_parm with reduce=True when a component is dropped: output_dim stays the input dimension, inverse raises for every output (ica_reduce_false)."
  },
  {
   "property": "C194",
   "status": "partial",
   "theorems": [
    "Mdp.Ica.telescope_spec",
    "Mdp.Ica.telescope_partial",
    "Mdp.Ica.powers_spec",
    "Mdp.Ica.telescope_false"
   ],
   "note": "Samples after the largest power of two are ignored; with too few samples training ends with UnboundLocalError (telescope_false)."
  },
  {
   "property": "C195",
   "status": "partial",
   "theorems": [
    "Mdp.Ica.retry_false"
   ],
   "note": "False: the list of chunks has been replaced by an array; every further call raises."
  },
  {
   "property": "C196",
   "status": "proved",
   "theorems": [
    "Mdp.Rbm.rbm_energy",
    "Mdp.Rbm.rbm_hidden",
    "Mdp.Rbm.rbm_visible",
    "Mdp.Rbm.rbm_execute"
   ],
   "note": "Real numbers; random numbers are uniform on [0,1)."
  },
  {
   "property": "C197",
   "status": "proved",
   "theorems": [
    "Mdp.Rbm.rbm_labels",
    "Mdp.Rbm.rbm_labels_sum",
    "Mdp.Rbm.rbm_labels_sample",
    "Mdp.Rbm.rbm_labels_execute"
   ],
   "note": "At least one label; the outcome of multinomial is drawn with the probabilities given to it."
  },
  {
   "property": "C198",
   "status": "proved",
   "theorems": [
    "Mdp.Rbm.rbm_stationary"
   ],
   "note": ""
  },
  {
   "property": "C199",
   "status": "partial",
   "theorems": [
    "Mdp.Rbm.rbm_train",
    "Mdp.Rbm.rbm_train_labels",
    "Mdp.Rbm.rbm_free",
    "Mdp.Rbm.rbm_gradient",
    "Mdp.Rbm.rbm_updates_false",
    "Mdp.Rbm.rbm_empty_false"
   ],
   "note": "Proved for n_updates > 0 and chunks with rows. n_updates=0 is an UnboundLocalError; after an empty chunk all weights are nan for ever."
  },
  {
   "property": "C200",
   "status": "proved",
   "theorems": [
    "Mdp.Rbm.rbm_steps",
    "Mdp.Rbm.rbm_decay"
   ],
   "note": "Chunks have rows, n_updates > 0."
  },
  {
   "property": "C201",
   "status": "partial",
   "theorems": [
    "Bi.Par.parallel_biflow_execute_partial",
    "Bi.Par.parallel_biflow_execute_back",
    "Bi.Par.parallel_biflow_execute_false"
   ],
   "note": "Proved for executions that return data, as an equivalence (so exceptions agree too); concatenate of one array must be that array. For a chunk without output data BiFlow.execute returns the message and ParallelBiFlow.execute raises."
  },
  {
   "property": "C202",
   "status": "partial",
   "theorems": [
    "Bi.Par.parallel_biflow_train_partial",
    "Bi.Par.parallel_biflow_stop_message_false",
    "Bi.Par.parallel_biflow_exit_false",
    "Bi.Par.parallel_biflow_no_data"
   ],
   "note": "Proved for nodes whose stop_training returns None or the target \"exit\". A node that sends a message through the flow when its training ends makes ParallelBiFlow.train raise an IndexError; a training target \"exit\" is accepted in parallel only."
  },
  {
   "property": "C203",
   "status": "partial",
   "theorems": [
    "Bi.Par.one_scheduler_partial",
    "Bi.Par.scheduler_of_node",
    "Bi.Par.schedulers_per_node_false",
    "Bi.Par.schedulers_per_node_trained"
   ],
   "note": "Proved for one scheduler. With an iterable of schedulers train never returns normally: `None > last_trained_node` raises a TypeError (for every flow, data and list of schedulers)."
  },
  {
   "property": "C204",
   "status": "partial",
   "theorems": [
    "Bi.Par.checkpoint_stop_messages_false",
    "Bi.Par.checkpoint_no_scheduler_false"
   ],
   "note": "Violated: stop_messages are dropped with a scheduler, and without one the call raises a TypeError."
  },
  {
   "property": "C205",
   "status": "proved",
   "theorems": [
    "Mdp.Ica.fast_step",
    "Mdp.Ica.fast_step_size",
    "Mdp.Ica.fast_long",
    "Mdp.Ica.fast_symm_switch"
   ],
   "note": "For the symmetric approach the statement is about the state at the end of the run. In fine-tuning the step size may be that of the coarse part if it started while the step size was reduced."
  },
  {
   "property": "C206",
   "status": "proved",
   "theorems": [
    "Mdp.Ica.fast_newton"
   ],
   "note": ""
  },
  {
   "property": "C207",
   "status": "proved",
   "theorems": [
    "Mdp.Ica.fast_failures"
   ],
   "note": ""
  },
  {
   "property": "C208",
   "status": "partial",
   "theorems": [
    "Mdp.Online.oflownode_train",
    "Mdp.Online.oflownode_train_refused",
    "Mdp.Online.oflownode_train_as_flow",
    "Mdp.Online.oflownode_trained_node",
    "Mdp.Online.flownode_history"
   ],
   "note": "Proved for flows whose nodes with training phases are in training. False for a trained ordinary node in the flow, which the class documents as allowed: is_trainable() is still true, so train calls its train method, and never returns. The last trainable node is not executed in training and is compared with the flow only through the data it gets."
  },
  {
   "property": "C209",
   "status": "partial",
   "theorems": [
    "Mdp.Online.oflownode_stop",
    "Mdp.Online.oflownode_stop_refused"
   ],
   "note": "Proved if the first node is trainable. Otherwise stop_training always raises a TypeError: the function that does nothing has a positional parameter and is called without."
  },
  {
   "property": "C210",
   "status": "partial",
   "theorems": [
    "Mdp.Online.oflownode_execute_partial",
    "Mdp.Online.ringnode_execute_partial",
    "Mdp.Online.flownode_execute_refused",
    "Mdp.Online.unknown_execute_single",
    "Mdp.Online.unknown_execute_same",
    "Mdp.Online.unknown_execute_told",
    "Mdp.Online.unknown_execute_violation",
    "Mdp.Online.unknown_execute_refused"
   ],
   "note": "Proved if the output dimension of the flow node is known, or that of the last node is the input dimension. False until stop_training if the last node has learnt an output dimension other than the input dimension: every execute raises, because output_dim is first set to input_dim. If the last node has no output dimension either, its input dimension is filled in; a node that keeps dimensions (an IdentityNode after a reduction) then makes the first execute raise, while the same call again works (unknown_execute_violation); other nodes get the input dimension of the flow as output dimension and are executed. These five theorems are about OnlineFlowNode."
  },
  {
   "property": "C211",
   "status": "proved",
   "theorems": [
    "Mdp.Online.flownode_init",
    "Mdp.Online.flownode_type",
    "Mdp.Online.flownode_history"
   ],
   "note": ""
  },
  {
   "property": "C212",
   "status": "partial",
   "theorems": [
    "Mdp.Online.ringnode_train",
    "Mdp.Online.ringnode_train_as_flow",
    "Mdp.Online.ringnode_stop_partial",
    "Mdp.Online.ringnode_stop_refused"
   ],
   "note": "Training is proved in full; with flow_iterations <= 0 the node still makes one round. stop_training is proved for one iteration and a first node that is trainable; with more iterations, or a first node that is not trainable, it always raises a TypeError."
  },
  {
   "property": "C213",
   "status": "proved",
   "theorems": [
    "Mdp.Factor.fa_likelihood",
    "Mdp.Factor.em_increases"
   ],
   "note": "Over the reals."
  },
  {
   "property": "C214",
   "status": "partial",
   "theorems": [
    "Mdp.Factor.fa_refuses_partial",
    "Mdp.Factor.fa_refuses_large",
    "Mdp.Factor.fa_refuses_violation",
    "Mdp.Factor.fa_refused_unusable"
   ],
   "note": "Proved for at most 300 dimensions. False beyond: there only constant components are refused, because the product of the variances is used instead of the determinant. False for all dimensions after the exception: the accumulated covariance has been deleted, and train and stop_training raise an AttributeError."
  },
  {
   "property": "C215",
   "status": "proved",
   "theorems": [
    "Mdp.Factor.fa_stops"
   ],
   "note": "Over the reals."
  },
  {
   "property": "C216",
   "status": "proved",
   "theorems": [
    "Mdp.Factor.fa_execute"
   ],
   "note": "Over the reals."
  },
  {
   "property": "C217",
   "status": "proved",
   "theorems": [
    "Mdp.Factor.fa_em"
   ],
   "note": "Over the reals. A likelihood that does not change at all in cycle 1 is not settled by the criterion."
  },
  {
   "property": "C218",
   "status": "proved",
   "theorems": [
    "Mdp.Factor.fa_generate_plain",
    "Mdp.Factor.fa_generate"
   ],
   "note": "The random numbers are arguments of the model."
  },
  {
   "property": "C219",
   "status": "proved",
   "theorems": [
    "Mdp.Fda.fda_outputs"
   ],
   "note": "The eigenvalue solver is a parameter with the contract Solves."
  },
  {
   "property": "C220",
   "status": "proved",
   "theorems": [
    "Mdp.Fda.fda_best",
    "Mdp.Fda.fda_best_set"
   ],
   "note": "The eigenvalue solver is a parameter with the contract Solves."
  },
  {
   "property": "C221",
   "status": "partial",
   "theorems": [
    "Mdp.Fda.fda_no_retry"
   ],
   "note": "False: the accumulated statistics are deleted before the solver is called, and train and stop_training raise an AttributeError after every failure of the solver."
  },
  {
   "property": "C222",
   "status": "proved",
   "theorems": [
    "Mdp.Fda.fda_inverse"
   ],
   "note": "Solver and pseudo-inverse are parameters with the contracts Solves and GenInverse."
  },
  {
   "property": "C223",
   "status": "partial",
   "theorems": [
    "Mdp.Flow.recovery_same_train",
    "Mdp.Flow.train_dump",
    "Mdp.Flow.execute_dump",
    "Mdp.Flow.inverse_dump",
    "Mdp.Flow.execute_blames",
    "Mdp.Flow.first_node_recovery",
    "Mdp.Flow.nested_recovery_false",
    "Mdp.Flow.upstream_recovery_false"
   ],
   "note": "Proved for execute and inverse. False for train: if a node before the one in training fails, the flow is dumped but a plain FlowException without the exception of the node is raised; if the training of a node raises a FlowExceptionCR itself (a flow within a flow), nothing is dumped."
  },
  {
   "property": "C224",
   "status": "partial",
   "theorems": [
    "Mdp.Flow.resume_partial",
    "Mdp.Flow.resume_counts_twice_false",
    "Mdp.Flow.resume_previous_node_false"
   ],
   "note": "False as far as chunks accepted in the open phase before the failure are concerned: they count twice. A node that had seen all of its data when the next node failed is trained on them again."
  },
  {
   "property": "C225",
   "status": "partial",
   "theorems": [
    "Mdp.Flow.saved_node",
    "Mdp.Flow.save_untrainable_false"
   ],
   "note": "False for nodes that are not in training with stop_training=1: training is given up with an unwrapped TrainingFinishedException and the file is empty."
  },
  {
   "property": "C226",
   "status": "proved",
   "theorems": [
    "Mdp.Eta.eta_value",
    "Mdp.Eta.eta_none",
    "Mdp.Eta.eta_order",
    "Mdp.Eta.eta_affine"
   ],
   "note": "Over the reals."
  },
  {
   "property": "C227",
   "status": "partial",
   "theorems": [
    "Mdp.Eta.eta_overlap",
    "Mdp.Eta.eta_single",
    "Mdp.Eta.eta_cut_false"
   ],
   "note": "False: the change from one chunk to the next is lost. Proved for chunks that overlap in one sample."
  },
  {
   "property": "C228",
   "status": "partial",
   "theorems": [
    "Mdp.Eta.eta_wave",
    "Mdp.Eta.eta_wave_bounds",
    "Mdp.Eta.eta_sine_false"
   ],
   "note": "False as an exact statement. The exact value for the T+1 samples of T steps is T/pi sin(pi N/T) sqrt((T-1)/T), which is below N and close to it if T is large compared with N."
  },
  {
   "property": "C229",
   "status": "partial",
   "theorems": [
    "Mdp.Eta.eta_sfa",
    "Mdp.Eta.eta_sfa_false"
   ],
   "note": "False: the values differ by the factor sqrt((n-1)/n), because SFANode divides the sum of the squared changes by n-1. Proved with this factor."
  },
  {
   "property": "C230",
   "status": "proved",
   "theorems": [
    "Mdp.Copy.flow_copy",
    "Mdp.Copy.node_copy",
    "Mdp.Copy.apart_independent",
    "Mdp.Copy.flow_copy_error"
   ],
   "note": "deepcopy is modelled as a copy of all objects with shifted references."
  },
  {
   "property": "C231",
   "status": "partial",
   "theorems": [
    "Mdp.Copy.flownode_copy",
    "Mdp.Copy.flownode_copy_succeeds",
    "Mdp.Copy.flownode_copy_changes_false",
    "Mdp.Copy.flownode_copy_often_false",
    "Mdp.Copy.flownode_copy_crash_false",
    "Mdp.Copy.flownode_copy_sharing_false"
   ],
   "note": "The copy is equal in appearance and independent. False otherwise: the original keeps a Flow instead of a list in the attribute flow of its flow, nested one level deeper with every copy, so that flow + flownode.flow and flownode.flow += flow raise a TypeError and a limited number of copies ends in a RecursionError; a failure leaves it without nodes; a node that occurs twice is copied twice."
  },
  {
   "property": "C232",
   "status": "partial",
   "theorems": [
    "Mdp.Copy.flow_add",
    "Mdp.Copy.flow_add_node",
    "Mdp.Copy.node_add_node",
    "Mdp.Copy.node_add_flow_copies",
    "Mdp.Copy.node_add_flow_false",
    "Mdp.Copy.binode_add_flow_copies"
   ],
   "note": "False for node + flow, where both the node and the nodes of the flow are copied; proved for the other cases."
  },
  {
   "property": "C233",
   "status": "partial",
   "theorems": [
    "Mdp.Copy.edit_flow",
    "Mdp.Copy.iadd_flow",
    "Mdp.Copy.iadd_shared_false",
    "Mdp.Copy.iadd_node_shared_false"
   ],
   "note": "False for +=, which extends the list given to the constructor in place; proved for the other operations."
  },
  {
   "property": "C234",
   "status": "proved",
   "theorems": [
    "Mdp.Rand.random_rot_rotation",
    "Mdp.Rand.random_rot_zero_violation",
    "Mdp.Rand.random_rot_empty"
   ],
   "note": "Over the reals, for random numbers as they are with probability one; a first number that is zero gives determinant zero. That the distribution is uniform is not proved."
  },
  {
   "property": "C235",
   "status": "partial",
   "theorems": [
    "Mdp.Rand.symrand_spec",
    "Mdp.Rand.mult_diag_spec",
    "Mdp.Rand.symrand_complex_partial",
    "Mdp.Rand.symrand_complex_false"
   ],
   "note": "Proved for real dtypes. With complex dtypes the result is Hermitian, but does not have the eigenvalues given, because the imaginary part is added afterwards; only their sum is right."
  },
  {
   "property": "C236",
   "status": "proved",
   "theorems": [
    "Mdp.Routines.rotate_spec",
    "Mdp.Routines.rotate_add",
    "Mdp.Routines.rotate_degrees",
    "Mdp.Routines.permute_spec",
    "Mdp.Routines.permute_twice"
   ],
   "note": "Over the reals; indices are not negative."
  },
  {
   "property": "C237",
   "status": "partial",
   "theorems": [
    "Mdp.Routines.cov2_value",
    "Mdp.Routines.cov2_partial",
    "Mdp.Routines.cov2_false"
   ],
   "note": "False unless one of the means is zero: the product of the means is not scaled by n/(n-1), so that the result is too large by the product of the means divided by n-1."
  },
  {
   "property": "C238",
   "status": "proved",
   "theorems": [
    "Mdp.Routines.cov_maxima_spec",
    "Mdp.Routines.cov_maxima_sorted",
    "Mdp.Routines.cov_maxima_permutation"
   ],
   "note": ""
  },
  {
   "property": "C239",
   "status": "proved",
   "theorems": [
    "Mdp.Routines.sqrtm_spec",
    "Mdp.Routines.sqrtm_none"
   ],
   "note": "The eigenvalues and eigenvectors are a parameter with the contract Eigen."
  },
  {
   "property": "C240",
   "status": "partial",
   "theorems": [
    "Mdp.Routines.gabor_value",
    "Mdp.Routines.gabor_centre",
    "Mdp.Routines.gabor_default_partial",
    "Mdp.Routines.gabor_default_false"
   ],
   "note": "Proved with a given centre. The default centre is wrong for arrays that are not square: its coordinates are in the order (row, column), but are read as (column, row)."
  },
  {
   "property": "C241",
   "status": "proved",
   "theorems": [
    "Mdp.Routines.izip_spec",
    "Mdp.Routines.izip_nothing",
    "Mdp.Routines.izip_length",
    "Mdp.Routines.izip_endless"
   ],
   "note": ""
  },
  {
   "property": "C242",
   "status": "proved",
   "theorems": [
    "Mdp.Routines.orthogonal_permutations_mem",
    "Mdp.Routines.orthogonal_permutations_once",
    "Mdp.Routines.sign_round_trip"
   ],
   "note": ""
  },
  {
   "property": "C243",
   "status": "proved",
   "theorems": [
    "Mdp.Nipals.nipals_orthonormal",
    "Mdp.Nipals.nipals_variance",
    "Mdp.Nipals.nipals_nan_last"
   ],
   "note": "Over the reals; nan is modelled as none."
  },
  {
   "property": "C244",
   "status": "proved",
   "theorems": [
    "Mdp.Nipals.nipals_uncorrelated",
    "Mdp.Nipals.nipals_uncorrelated_exact",
    "Mdp.Nipals.nipals_eigenvectors"
   ],
   "note": "Over the reals."
  },
  {
   "property": "C245",
   "status": "proved",
   "theorems": [
    "Mdp.Nipals.nipals_total"
   ],
   "note": "Over the reals."
  },
  {
   "property": "C246",
   "status": "partial",
   "theorems": [
    "Mdp.Nipals.nipals_explained_partial",
    "Mdp.Nipals.nipals_explained_false",
    "Mdp.Nipals.nipals_desired_partial",
    "Mdp.Nipals.nipals_desired_false"
   ],
   "note": "False by the factor n/(n-1): the total variance is divided by n, the variances of the outputs by n-1. So too few components may be kept; with a number of components (or none) given the value is always n/(n-1) > 1, because all components are added up."
  },
  {
   "property": "C247",
   "status": "partial",
   "theorems": [
    "Mdp.Nipals.nipals_nan_partial",
    "Mdp.Nipals.nipals_constant_violation",
    "Mdp.Nipals.nipals_uncorrelated_violation",
    "Mdp.Nipals.nipals_order_false"
   ],
   "note": "False: the iteration starts from the first input. If it is constant all components are nan; if it is uncorrelated with the others it is the first component whatever its variance, and all others are nan. Proved: nan occurs only if the first input is a linear combination of the outputs found before."
  },
  {
   "property": "C248",
   "status": "proved",
   "theorems": [
    "Mdp.Xsfa.xsfa_schedule",
    "Mdp.Xsfa.xsfa_schedule_end",
    "Mdp.Xsfa.xsfa_phases"
   ],
   "note": ""
  },
  {
   "property": "C249",
   "status": "proved",
   "theorems": [
    "Mdp.Xsfa.normalize_outputs",
    "Mdp.Xsfa.normalize_variance",
    "Mdp.Xsfa.normalize_inverse",
    "Mdp.Xsfa.normalize_constant_violation"
   ],
   "note": "Over the reals. An input that is constant on the training data gives nan for all data."
  },
  {
   "property": "C250",
   "status": "proved",
   "theorems": [
    "Mdp.Xsfa.projection_train",
    "Mdp.Xsfa.projection_row",
    "Mdp.Xsfa.projection_orthogonal",
    "Mdp.Xsfa.projection_zero_refused"
   ],
   "note": "Over the reals. Without signals left (L = 0) the node raises."
  },
  {
   "property": "C251",
   "status": "proved",
   "theorems": [
    "Mdp.Xsfa.xsfa_sources_kept",
    "Mdp.Xsfa.xsfa_source"
   ],
   "note": "For every extractor whose parts give rows of the right lengths."
  },
  {
   "property": "C252",
   "status": "partial",
   "theorems": [
    "Mdp.Rbf.rbf_isotropic",
    "Mdp.Rbf.rbf_anisotropic",
    "Mdp.Rbf.rbf_isotropic_anisotropic",
    "Mdp.Rbf.rbf_single",
    "Mdp.Rbf.rbf_refused",
    "Mdp.Rbf.rbf_integer_false"
   ],
   "note": "Proved over the reals for sizes of a float type. False for a covariance matrix given with integers: the inverse is converted to integers; for twice the identity all outputs are one."
  },
  {
   "property": "C253",
   "status": "partial",
   "theorems": [
    "Mdp.Rbf.gas_expansion",
    "Mdp.Rbf.gas_coincident_violation"
   ],
   "note": "Proved for every node with a neighbour at another place. If the start positions and all data are one point the widths are zero and the outputs nan."
  },
  {
   "property": "C254",
   "status": "partial",
   "theorems": [
    "Mdp.Rbf.general_values",
    "Mdp.Rbf.general_repeated_violation"
   ],
   "note": "The concatenation is proved. A function that returns a single column (or row) where more are expected is not refused; the column is repeated."
  },
  {
   "property": "C255",
   "status": "proved",
   "theorems": [
    "Mdp.Conv.conv_values",
    "Mdp.Conv.conv_values_flat",
    "Mdp.Conv.conv_boundary",
    "Mdp.Conv.conv_valid",
    "Mdp.Conv.conv_textbook"
   ],
   "note": "Over the reals; scipy by its documentation."
  },
  {
   "property": "C256",
   "status": "proved",
   "theorems": [
    "Mdp.Conv.conv_refused",
    "Mdp.Conv.conv_other_shape",
    "Mdp.Conv.conv_valid_refused"
   ],
   "note": ""
  },
  {
   "property": "C257",
   "status": "partial",
   "theorems": [
    "Mdp.Conv.conv_filters_partial",
    "Mdp.Conv.conv_filters_violation",
    "Mdp.Conv.conv_filters_repeated_violation"
   ],
   "note": "Proved for filters of the same number and shape. False otherwise: output_dim stays, and ndarray.resize cuts the results off so that the rows of the output are mixed up; in the mode valid a result of one element is repeated."
  },
  {
   "property": "C258",
   "status": "proved",
   "theorems": [
    "Mdp.Lle.lle_weights",
    "Mdp.Lle.lle_weights_auto"
   ],
   "note": "Over an ordered field; argsort with any order of equal distances; solve as Cramer rule."
  },
  {
   "property": "C259",
   "status": "partial",
   "theorems": [
    "Mdp.Lle.lle_refused",
    "Mdp.Lle.lle_training_succeeds",
    "Mdp.Lle.lle_all_points_violation"
   ],
   "note": "Proved for r > 0 and fewer neighbours than points. False for k equal to the number of points: accepted by the check, then IndexError or ValueError."
  },
  {
   "property": "C260",
   "status": "partial",
   "theorems": [
    "Mdp.Lle.lle_execute",
    "Mdp.Lle.lle_execute_succeeds",
    "Mdp.Lle.lle_execute_rows_partial",
    "Mdp.Lle.lle_execute_rows_violation"
   ],
   "note": "Independence of the other rows is proved for r given or k <= output_dim. False for r None: the value computed for the first row is kept for the others."
  },
  {
   "property": "C261",
   "status": "partial",
   "theorems": [
    "Mdp.Lle.lle_training_points_violation",
    "Mdp.Lle.lle_execute_trace_violation"
   ],
   "note": "False: the regularisation moves training points, and execution adds r itself, not r times the trace. What the output is instead is lle_execute of C260."
  },
  {
   "property": "C262",
   "status": "partial",
   "theorems": [
    "Mdp.Lle.lle_embedding_partial",
    "Mdp.Lle.lle_few_points_violation",
    "Mdp.Lle.lle_centred_violation"
   ],
   "note": "Orthonormality and least error are proved; the columns are centred if only constants have error zero. False in general: output_dim >= number of points is accepted and gives fewer columns; for disconnected neighbourhoods the columns need not be centred. eigh and svd by their specification."
  },
  {
   "property": "C263",
   "status": "proved",
   "theorems": [
    "Mdp.Lle.lle_invariant"
   ],
   "note": "For data without equal distances, r and output_dim given."
  },
  {
   "property": "C264",
   "status": "proved",
   "theorems": [
    "Mdp.Lle.lle_variance"
   ],
   "note": ""
  },
  {
   "property": "C265",
   "status": "partial",
   "theorems": [
    "Mdp.Lle.mgs_ortho",
    "Mdp.Lle.mgs_divides_by_zero",
    "Mdp.Lle.hlle_few_neighbours_violation"
   ],
   "note": "False: in exact arithmetic the modified Gram-Schmidt procedure always divides by zero, because there are more forms than neighbours (floats: rounding errors are normalised). It is proved to give orthonormal vectors when no norm is zero."
  },
  {
   "property": "C266",
   "status": "proved",
   "theorems": [
    "Mdp.Lle.hlle_embedding"
   ],
   "note": "Over the reals; eigh, svd and qr by their specification. The columns have the length N; they are centred if only constants have no error."
  },
  {
   "property": "C267",
   "status": "partial",
   "theorems": [
    "Mdp.Lle.hlle_refused",
    "Mdp.Lle.hlle_training_succeeds",
    "Mdp.Lle.hlle_all_points_violation"
   ],
   "note": "Proved for k < number of points. False for k equal to it: accepted by the check, then ValueError."
  },
  {
   "property": "C268",
   "status": "proved",
   "theorems": [
    "Mdp.Lle.hlle_flat"
   ],
   "note": "Over the reals, for enough neighbours."
  },
  {
   "property": "C269",
   "status": "proved",
   "theorems": [
    "Mdp.Isfa.isfa_contrast_of_angle"
   ],
   "note": "Over the reals."
  },
  {
   "property": "C270",
   "status": "proved",
   "theorems": [
    "Mdp.Isfa.isfa_best_angle"
   ],
   "note": "Over the reals."
  },
  {
   "property": "C271",
   "status": "proved",
   "theorems": [
    "Mdp.Isfa.isfa_rotation"
   ],
   "note": "Over the reals; random choices are any permutation of the axes and any orthogonal matrix."
  },
  {
   "property": "C272",
   "status": "partial",
   "theorems": [
    "Mdp.Isfa.isfa_improves_partial",
    "Mdp.Isfa.isfa_sweep_partial",
    "Mdp.Isfa.isfa_improves_false"
   ],
   "note": "False in the code with outer space, with a concrete run: the search for an angle ends with a secant step that may raise the contrast; the sweep refuses the angle but returns its contrast, with which the next sweep compares, so that it accepts the angle. Proved without outer space, and with outer space for each sweep that starts with the contrast of its matrices."
  },
  {
   "property": "C273",
   "status": "proved",
   "theorems": [
    "Mdp.Isfa.isfa_outputs",
    "Mdp.Isfa.isfa_white"
   ],
   "note": "Over the reals; argsort by its specification."
  },
  {
   "property": "C274",
   "status": "proved",
   "theorems": [
    "Mdp.Isfa.isfa_round_trip"
   ],
   "note": "After the whitening (see the claims for WhiteningNode)."
  },
  {
   "property": "C275",
   "status": "partial",
   "theorems": [
    "Mdp.Isfa.isfa_two_partial",
    "Mdp.Isfa.isfa_two_converges",
    "Mdp.Isfa.isfa_two_limit_two",
    "Mdp.Isfa.isfa_one_iteration_violation",
    "Mdp.Isfa.tdsep_one_lag_violation"
   ],
   "note": "Success is proved for all limits but 1, with which training never succeeds, and 2, with which it succeeds exactly if the start is the optimum up to the threshold or the optimum is zero. The result is the optimum unless the optimum is exactly zero: then the rotation is not made."
  },
  {
   "property": "C276",
   "status": "partial",
   "theorems": [
    "Mdp.Isfa.tdsep_objective",
    "Mdp.Isfa.tdsep_two_partial",
    "Mdp.Isfa.tdsep_separable_violation",
    "Mdp.Isfa.tdsep_one_lag_violation"
   ],
   "note": "False in exact arithmetic for signals that can be separated exactly: the loop stops when the contrast of the angle is zero, before the rotation. With one time-lag two signals are never rotated. In floating point this needs a contrast of exactly zero, for example a lagged covariance [[0, 1], [1, 0]]."
  },
  {
   "property": "C277",
   "status": "partial",
   "theorems": [
    "Mdp.Isfa.isfa_terminates",
    "Mdp.Isfa.isfa_limit_violation",
    "Mdp.Isfa.isfa_one_iteration_violation"
   ],
   "note": "Training ends. False: it raises also if it converges in sweep max_iter; it succeeds exactly if it converges within max_iter - 1 sweeps."
  },
  {
   "property": "C278",
   "status": "partial",
   "theorems": [
    "Mdp.Isfa.isfa_one_signal_violation"
   ],
   "note": "False: UnboundLocalError for all one-dimensional data."
  },
  {
   "property": "C279",
   "status": "partial",
   "theorems": [
    "Mdp.Isfa.isfa_weights",
    "Mdp.Isfa.isfa_weights_refused",
    "Mdp.Isfa.isfa_number_weight_violation",
    "Mdp.Isfa.isfa_lags"
   ],
   "note": "False for one number, which is refused with a TypeError, and for the kind of exception for a wrong length (TypeError)."
  },
  {
   "property": "C280",
   "status": "partial",
   "theorems": [
    "Mdp.Isfa.isfa_whitened_dims",
    "Mdp.Isfa.isfa_outer_space_violation",
    "Mdp.Isfa.isfa_given_list_violation"
   ],
   "note": "False: white_comp is ignored if output_dim is given, so a node that whitens has no outer space; a list of covariance matrices raises AttributeError. Proved for white data."
  },
  {
   "property": "C281",
   "status": "proved",
   "theorems": [
    "Mdp.QuadInv.invariances_spec",
    "Mdp.QuadInv.invariances_span"
   ],
   "note": "Over an ordered field / the reals; qr, symeig and argsort by their documentation."
  },
  {
   "property": "C282",
   "status": "proved",
   "theorems": [
    "Mdp.QuadInv.invariances_extremum",
    "Mdp.QuadInv.curvature_average"
   ],
   "note": "Over the reals."
  },
  {
   "property": "C283",
   "status": "proved",
   "theorems": [
    "Mdp.Symeig.reg_correct",
    "Mdp.Symeig.reg_succeeds"
   ],
   "note": "Over an ordered field, with an exact square root. rank_deficit for d*t*2 <= mu."
  },
  {
   "property": "C284",
   "status": "partial",
   "theorems": [
    "Mdp.Symeig.reg_deficit_violation",
    "Mdp.Symeig.reg_deficit_case",
    "Mdp.Symeig.reg_constant_violation"
   ],
   "note": "False: the method reg leaves rank_deficit as it was, whatever is left out; constant data end in an IndexError."
  },
  {
   "property": "C285",
   "status": "proved",
   "theorems": [
    "Mdp.Switchboard.factory_fits",
    "Mdp.Switchboard.factory_fits_iff"
   ],
   "note": "Sizes are natural numbers."
  },
  {
   "property": "C286",
   "status": "proved",
   "theorems": [
    "Mdp.Switchboard.factory_route",
    "Mdp.Switchboard.factory_receptive_field"
   ],
   "note": "The rectangle over two layers for fields of the first layer without gaps."
  },
  {
   "property": "C287",
   "status": "proved",
   "theorems": [
    "Mdp.Switchboard.factory_image"
   ],
   "note": ""
  },
  {
   "property": "C288",
   "status": "partial",
   "theorems": [
    "Mdp.Switchboard.factory_incompatible",
    "Mdp.Switchboard.factory_rhomb_violation",
    "Mdp.Switchboard.factory_params_violation",
    "Mdp.Switchboard.factory_mismatch_violation"
   ],
   "note": "Incompatible classes are refused. False: a DoubleRhomb2dSwitchboard cannot be made at all (TypeError: the argument has the wrong name); free_params gets the key ignore_cover; a number of outputs that is not a multiple of the number of channels is accepted and the switchboard does not fit."
  },
  {
   "property": "C289",
   "status": "partial",
   "theorems": [
    "Mdp.Classifier.labels_collected",
    "Mdp.Classifier.labels_refused",
    "Mdp.Classifier.labels_list_violation",
    "Mdp.Classifier.labels_retry_violation"
   ],
   "note": "Proved for label arrays. False: lists, tuples and single labels end in an AttributeError when they are collected; the data of the failed call are kept, and whatever is trained afterwards, stop_training ends in a ValueError."
  },
  {
   "property": "C290",
   "status": "partial",
   "theorems": [
    "Mdp.Classifier.execute_methods",
    "Mdp.Classifier.execute_unknown_violation",
    "Mdp.Classifier.bi_execute"
   ],
   "note": "False: an unknown execute_method makes execute return None instead of an exception."
  },
  {
   "property": "C291",
   "status": "proved",
   "theorems": [
    "Mdp.Classifier.normalizer_round_trip",
    "Mdp.Classifier.normalizer_refused"
   ],
   "note": ""
  },
  {
   "property": "C292",
   "status": "partial",
   "theorems": [
    "Mdp.Progress.transparent_partial",
    "Mdp.Progress.transparent_iterator_partial",
    "Mdp.Progress.transparent_last_partial",
    "Mdp.Progress.empty_violation",
    "Mdp.Progress.items_violation",
    "Mdp.Progress.items_first_violation"
   ],
   "note": "Proved for sequences that are not empty. False: an empty sequence ends in an UnboundLocalError; a timer with the speed of the last step, iterating on items, ends in a ZeroDivisionError when two items are equal, and in an AttributeError in a fresh interpreter when the first item is not zero."
  },
  {
   "property": "C293",
   "status": "partial",
   "theorems": [
    "Mdp.Progress.bar_length",
    "Mdp.Progress.bar_monotone",
    "Mdp.Progress.bar_left",
    "Mdp.Progress.bar_overflow_violation",
    "Mdp.Progress.bar_narrow_violation"
   ],
   "note": "Proved for fractions from 0 to 1 and a terminal with at least eight columns more than the indentation. False: an iterator that is longer than announced draws bars beyond the terminal; in a very narrow terminal the text does not fit."
  },
  {
   "property": "C294",
   "status": "partial",
   "theorems": [
    "Mdp.Introspect.dig_sound",
    "Mdp.Introspect.dig_ends",
    "Mdp.Introspect.dig_complete_partial",
    "Mdp.Introspect.dig_names",
    "Mdp.Introspect.dig_sizes",
    "Mdp.Introspect.dig_none_violation",
    "Mdp.Introspect.dig_hidden_violation"
   ],
   "note": "Complete if no object that holds arrays is met under a private name. False: an object met under a private name first is not looked into later; a node without arrays ends in a ValueError. The recursion limit of Python is not modelled."
  },
  {
   "property": "C295",
   "status": "partial",
   "theorems": [
    "Mdp.Introspect.size_text"
   ],
   "note": "False above the seventh power of the base: IndexError (part of the theorem)."
  },
  {
   "property": "C296",
   "status": "partial",
   "theorems": [
    "Mdp.TempDir.tempdir_removed_partial",
    "Mdp.TempDir.tempdir_gone_iff",
    "Mdp.TempDir.tempdir_link_violation",
    "Mdp.TempDir.purge_removes",
    "Mdp.TempDir.tempdir_once"
   ],
   "note": "False with a symbolic link to a directory: the directory it leads to is emptied, the temporary directory remains and counts as removed. Links inside the directories elsewhere, and links back into the temporary directory, are not modelled."
  },
  {
   "property": "C297",
   "status": "partial",
   "theorems": [
    "Mdp.Noise.noise_types",
    "Mdp.Noise.noise_execute_partial",
    "Mdp.Noise.normal_execute_partial",
    "Mdp.Noise.noise_integer_violation",
    "Mdp.Noise.noise_type_violation"
   ],
   "note": "Proved for floating point types. False for integers: noise between -1 and 1 vanishes, and multiplicative noise gives floating point numbers."
  },
  {
   "property": "C298",
   "status": "partial",
   "theorems": [
    "Bi.sender_sends",
    "Bi.sender_delivered",
    "Bi.sender_passed_on",
    "Bi.sender_separator_violation"
   ],
   "note": "False for a recipient whose name contains the separator: ValueError in every node that gets the message."
  },
  {
   "property": "C299",
   "status": "proved",
   "theorems": [
    "Mdp.Config.config_info",
    "Mdp.Config.config_aligned",
    "Mdp.Config.config_bool",
    "Mdp.Config.config_empty_violation"
   ],
   "note": "Before the first registration info raises ValueError; mdp always registers some."
  },
  {
   "property": "C300",
   "status": "proved",
   "theorems": [
    "Mdp.PP.pp_results",
    "Mdp.PP.pp_results_contiguous",
    "Mdp.PP.pp_open_tasks"
   ],
   "note": "The pp server is modelled by what the adaptor relies on: queue, workers, one callback per task."
  },
  {
   "property": "C301",
   "status": "proved",
   "theorems": [
    "Mdp.PP.pp_queue_bound",
    "Mdp.PP.pp_progress"
   ],
   "note": "That a step is possible; fairness of threads and workers is not modelled."
  },
  {
   "property": "C302",
   "status": "partial",
   "theorems": [
    "Mdp.PP.pp_list_gives",
    "Mdp.PP.pp_failed_task_blocks",
    "Mdp.PP.pp_ordered_gives_false"
   ],
   "note": "True for the default container of PPScheduler. False for an OrderedResultContainer with two or more tasks: sorting compares None, get_results raises with the lock held and every later call blocks."
  },
  {
   "property": "C303",
   "status": "partial",
   "theorems": [
    "Mdp.PPSlaves.kill_slaves_exact",
    "Mdp.PPSlaves.started_slaves",
    "Mdp.PPSlaves.kill_slaves_colon_refused"
   ],
   "note": "On Python 2. False for addresses with a colon (IPv6): ValueError before any command is sent for this slave and the later ones. On Python 3 a str cannot be written to the pipe."
  },
  {
   "property": "C304",
   "status": "partial",
   "theorems": [
    "Mdp.PPSlaves.starts_all_partial",
    "Mdp.PPSlaves.starts_all_false",
    "Mdp.PPSlaves.kill_filename_refused",
    "Mdp.PPSlaves.autodetect_refused",
    "Mdp.PPSlaves.python3_refused",
    "Mdp.PPSlaves.failed_script_taken_for_running"
   ],
   "note": "False: a given kill file name is an UnboundLocalError, None processes and Python 3 make the first slave fail with a TypeError and leave its ssh process running; a slave whose script failed (pid -1) is taken for running."
  },
  {
   "property": "C305",
   "status": "proved",
   "theorems": [
    "Mdp.Scikits.action_exactly_once"
   ],
   "note": ""
  },
  {
   "property": "C306",
   "status": "partial",
   "theorems": [
    "Mdp.Scikits.wrap_kind",
    "Mdp.Scikits.every_algorithm_has_node_partial",
    "Mdp.Scikits.every_algorithm_has_node_false"
   ],
   "note": "False for two classes of the same name in different modules: the later one replaces the earlier one."
  },
  {
   "property": "C307",
   "status": "partial",
   "theorems": [
    "Bi.Autogen.generated_signature",
    "Bi.Autogen.generated_refuses",
    "Bi.Autogen.no_defaults_refused",
    "Bi.Autogen.varargs_refused"
   ],
   "note": "For nodes with at least one default value and calls without surplus positional arguments. Without a default value the generator raises; surplus positional arguments of a node with *args are refused. Keyword-only arguments are not modelled."
  },
  {
   "property": "C308",
   "status": "partial",
   "theorems": [
    "Bi.Autogen.biName_spec",
    "Bi.Autogen.biName_injective_partial",
    "Bi.Autogen.biName_injective_false"
   ],
   "note": "For names with the ending. False for others, such as the wrapped classifiers of sklearn."
  },
  {
   "property": "C309",
   "status": "proved",
   "theorems": [
    "Mdp.Templet.compile_render",
    "Mdp.Templet.escape_round_trip",
    "Mdp.Templet.plain_text",
    "Mdp.Templet.code_blank_line",
    "Mdp.Templet.directive_name",
    "Mdp.Templet.unescaped_refused",
    "Mdp.Templet.call_refused"
   ],
   "note": "Evaluating the pieces is a parameter; white space and letters are the ASCII ones."
  },
  {
   "property": "C310",
   "status": "proved",
   "theorems": [
    "Mdp.Templet.realign_spec"
   ],
   "note": "On the list of lines."
  },
  {
   "property": "C311",
   "status": "proved",
   "theorems": [
    "Mdp.LibSvm.kernel_spec",
    "Mdp.LibSvm.classifier_spec",
    "Mdp.LibSvm.init_spec",
    "Mdp.LibSvm.init_bad_kernel",
    "Mdp.LibSvm.init_bad_param"
   ],
   "note": "libsvm itself is not modelled."
  },
  {
   "property": "C312",
   "status": "partial",
   "theorems": [
    "Mdp.Shogun.options_history",
    "Mdp.Shogun.setOptions_set",
    "Mdp.Shogun.setOptions_get",
    "Mdp.Shogun.own_options_partial",
    "Mdp.Shogun.options_leak_violation"
   ],
   "note": "For the first node and for histories in which options are not changed. False in general: the table of defaults belongs to the class and set_options changes it, so options of one node reach all nodes."
  },
  {
   "property": "C313",
   "status": "partial",
   "theorems": [
    "Mdp.Shogun.kernel_named_options",
    "Mdp.Shogun.kernel_unknown_option",
    "Mdp.Shogun.kernel_list_refused",
    "Mdp.Shogun.kernel_unknown_refused",
    "Mdp.Shogun.kernel_bare_refused"
   ],
   "note": "For options by name. Options given as a list are always an UnboundLocalError; kernels without known options cannot be used by name only."
  },
  {
   "property": "C314",
   "status": "partial",
   "theorems": [
    "Mdp.Shogun.text_choice",
    "Mdp.Shogun.first_working_violation",
    "Mdp.Shogun.set_ok",
    "Mdp.Shogun.set_fails_forgets",
    "Mdp.Shogun.foreign_class_violation"
   ],
   "note": "False: the last class that can be made is used, not the first; if none can be made the exception is an AttributeError or the old classifier is lost."
  },
  {
   "property": "C315",
   "status": "proved",
   "theorems": [
    "Mdp.Shogun.training_set_bucket",
    "Mdp.Shogun.training_set_perm"
   ],
   "note": ""
  },
  {
   "property": "C316",
   "status": "proved",
   "theorems": [
    "Bi.Peek.peek_iterator_queue",
    "Bi.Peek.first_elem_spec",
    "Bi.Peek.first_elem_empty",
    "Bi.Peek.samples_spec"
   ],
   "note": ""
  },
  {
   "property": "C317",
   "status": "partial",
   "theorems": [
    "Bi.Tracer.traced_call",
    "Bi.Tracer.undecorate_decorate",
    "Bi.Tracer.traced_copy",
    "Bi.Tracer.undecorate_clean",
    "Bi.Tracer.trace_restores",
    "Bi.Tracer.during_trace",
    "Bi.Tracer.twice_decorated_recursion",
    "Bi.Tracer.trace_exception_violation",
    "Bi.Tracer.shared_node_violation",
    "Bi.Tracer.override_lost_violation"
   ],
   "note": "For flows of distinct plain nodes without methods in the instance, and executions that return. False after an exception: the flow stays decorated and a second trace recurses without end; also for a node that occurs twice, and methods overridden in the instance are lost."
  },
  {
   "property": "C318",
   "status": "proved",
   "theorems": [
    "Bi.Tracer.clone_round_trip"
   ],
   "note": ""
  },
  {
   "property": "C319",
   "status": "partial",
   "theorems": [
    "Bi.Snapshots.remove_prepare",
    "Bi.Snapshots.remove_interrupted_violation",
    "Bi.Snapshots.snapshots_written",
    "Bi.Snapshots.prepare_twice_violation"
   ],
   "note": "For a flow prepared once. Preparing it twice makes the hook call itself."
  },
  {
   "property": "C320",
   "status": "partial",
   "theorems": [
    "Bi.Snapshots.read_in_order_iff",
    "Bi.Snapshots.slide_table",
    "Bi.Snapshots.eleven_phases_violation"
   ],
   "note": "In order exactly for at most ten snapshots: the files are sorted as texts."
  },
  {
   "property": "C321",
   "status": "partial",
   "theorems": [
    "Bi.Snapshots.no_debug",
    "Bi.Snapshots.debug_mode_violation"
   ],
   "note": "False: the object returned for the slide file is no context manager, so with debug=True an AttributeError replaces the error. Proved: without an error the mode changes nothing."
  },
  {
   "property": "C322",
   "status": "proved",
   "theorems": [
    "Mdp.ODict.ordered_dict",
    "Mdp.ODict.popitem_spec"
   ],
   "note": ""
  },
  {
   "property": "C323",
   "status": "proved",
   "theorems": [
    "Mdp.Backend.named_backend",
    "Mdp.Backend.default_backend",
    "Mdp.Backend.other_values",
    "Mdp.Backend.backend_recorded"
   ],
   "note": "The changes made to new versions of scipy are not modelled."
  },
  {
   "property": "C324",
   "status": "partial",
   "theorems": [
    "Mdp.Backend.too_old_iff",
    "Mdp.Backend.numeric_version",
    "Mdp.Backend.version_order_partial",
    "Mdp.Backend.short_version_violation"
   ],
   "note": "For versions with at least as many parts as the known good one. False for shorter ones: a proper beginning of the known good version is not too old."
  },
  {
   "property": "C325",
   "status": "partial",
   "theorems": [
    "Mdp.Meta.wrappers_transparent",
    "Mdp.Meta.build_fails_iff",
    "Mdp.Meta.mixin_skipped_violation"
   ],
   "note": "For hierarchies in which the order of search of an ancestor is the rest of the order of search (single inheritance). False with multiple inheritance: the public method of a mixin after a wrapped class is skipped. A class with a private method such as _label without the public one cannot be created."
  },
  {
   "property": "C326",
   "status": "partial",
   "theorems": [
    "Mdp.Meta.extension_effective_partial",
    "Mdp.Meta.extension_bypassed_violation"
   ],
   "note": "For classes with the private method defined once below the extended class. False otherwise: TimeDelayNode (and each class that redefines _execute of a class that redefines it) calls the original Node.execute, so its executions are never cached."
  },
  {
   "property": "C327",
   "status": "partial",
   "theorems": [
    "Mdp.VartimeSfa.vartime_sfa_partial",
    "Mdp.VartimeSfa.vartime_sfa_separate_partial",
    "Mdp.VartimeSfa.one_row_refused",
    "Mdp.VartimeSfa.uninitialised_violation",
    "Mdp.VartimeSfa.two_rows_violation"
   ],
   "note": "For increments as documented. Without time dependence and with as many increments as rows, memory that is not initialised is used; a single chunk of two rows gives a division by zero (or a zero matrix)."
  },
  {
   "property": "C328",
   "status": "partial",
   "theorems": [
    "Mdp.VartimeSfa.parallel_separate",
    "Mdp.VartimeSfa.parallel_violation"
   ],
   "note": "Proved: the parallel result is that of training without time dependence. False with the default time_dep=True: the time between chunks is lost in parallel."
  },
  {
   "property": "C329",
   "status": "proved",
   "theorems": [
    "Mdp.IGsfa.inverse_execute",
    "Mdp.IGsfa.inverse_exact",
    "Mdp.IGsfa.slow_ignored"
   ],
   "note": "For the inner nodes as functions or matrices; scaling factors that are not zero. The nonlinear inverse is not modelled. In the default mode the inverse ignores the slow part."
  },
  {
   "property": "C330",
   "status": "proved",
   "theorems": [
    "Mdp.IGsfa.slow_part_variance",
    "Mdp.IGsfa.explained_variance",
    "Mdp.IGsfa.slow_translation"
   ],
   "note": "For a least squares regression and white slow features."
  },
  {
   "property": "C331",
   "status": "partial",
   "theorems": [
    "Mdp.IGsfa.sizes_sum",
    "Mdp.IGsfa.slow_by_threshold",
    "Mdp.IGsfa.slow_by_number",
    "Mdp.IGsfa.execute_width_partial",
    "Mdp.IGsfa.inner_dim",
    "Mdp.IGsfa.scaling_refused",
    "Mdp.IGsfa.qr_width_violation"
   ],
   "note": "Columns: false for QR_decomposition with more slow features than inputs, then the output is too narrow and its inverse is refused."
  },
  {
   "property": "C332",
   "status": "proved",
   "theorems": [
    "Mdp.IGsfa.reduce_execute",
    "Mdp.IGsfa.reduce_explained"
   ],
   "note": ""
  },
  {
   "property": "C333",
   "status": "proved",
   "theorems": [
    "Mdp.IGsfa.several_batches",
    "Mdp.IGsfa.single_batch"
   ],
   "note": ""
  },
  {
   "property": "C334",
   "status": "proved",
   "theorems": [
    "Mdp.Gsfa.graph_delta_spec",
    "Mdp.Gsfa.comp_delta_spec",
    "Mdp.Gsfa.hamming_bits",
    "Mdp.Gsfa.hamming_list"
   ],
   "note": ""
  },
  {
   "property": "C335",
   "status": "partial",
   "theorems": [
    "Mdp.DefaultFork.fork_partial",
    "Mdp.DefaultFork.fork_same_arguments_partial",
    "Mdp.DefaultFork.no_defaults_violation",
    "Mdp.DefaultFork.name_clash_violation"
   ],
   "note": "For constructors with at least one default. Otherwise a missing argument is a TypeError; an attribute of the class with the name of an argument is passed on."
  },
  {
   "property": "C336",
   "status": "proved",
   "theorems": [
    "Bi.Items.getItem_first",
    "Bi.Items.contains_iff",
    "Bi.Items.set_del_refused"
   ],
   "note": "For containers that are not empty."
  },
  {
   "property": "C337",
   "status": "partial",
   "theorems": [
    "Mdp.Gsfa.old_array_graph",
    "Mdp.Gsfa.graph_agrees_partial",
    "Mdp.Gsfa.graph_agrees_violation"
   ],
   "note": "Agreement: always for dictionaries and refused arguments; for arrays only if they are symmetric with rows that sum up to the node weights. Otherwise the optimised method differs from the reference."
  },
  {
   "property": "C338",
   "status": "partial",
   "theorems": [
    "Mdp.Gsfa.compact_graph",
    "Mdp.Gsfa.compact_default",
    "Mdp.Gsfa.compact_full",
    "Mdp.Gsfa.compact_full_violation",
    "Mdp.Gsfa.compact_list",
    "Mdp.Gsfa.compact_refused",
    "Mdp.Gsfa.single_class_violation"
   ],
   "note": "Proved for at least two classes and J <= L < 2^J labels. L = 2^J is accepted although there are only 2^J - 1 different labels: the last one repeats the first (proved). A single class is silently ignored."
  },
  {
   "property": "C339",
   "status": "partial",
   "theorems": [
    "Mdp.Gsfa.smart2_graph",
    "Mdp.Gsfa.smart2_consistent",
    "Mdp.Gsfa.smart2_negative_violation",
    "Mdp.Gsfa.smart2_moment_violation",
    "Mdp.Gsfa.smart_refused"
   ],
   "note": "The sums and the consistency are proved. Weights are negative, and so can be the mean squared differences, as soon as there are more than eight unlabelled samples for each labelled one."
  },
  {
   "property": "C340",
   "status": "partial",
   "theorems": [
    "Mdp.Gsfa.smart3_sums_partial",
    "Mdp.Gsfa.smart3_average_violation",
    "Mdp.Gsfa.smart3_scaled_violation",
    "Mdp.Gsfa.smart_refused"
   ],
   "note": "Weights and second moments are right. The sum of the labelled samples is a view that has been scaled in place, so the average is wrong, even for equal samples. Without edges the call fails after the sums have been scaled."
  },
  {
   "property": "C341",
   "status": "proved",
   "theorems": [
    "Mdp.Html.show_flow_page",
    "Mdp.Html.show_flow_valid",
    "Mdp.Html.show_flow_refused"
   ],
   "note": "Texts are not escaped by the code; names are taken as they are. The XHTML variant is not modelled."
  },
  {
   "property": "C342",
   "status": "partial",
   "theorems": [
    "Mdp.Html.double_rect_violation",
    "Mdp.Html.rect_line_violation",
    "Mdp.Html.rect_line_partial",
    "Mdp.Html.use_copies_violation"
   ],
   "note": "DoubleRect2dSwitchboard cannot be shown (an attribute that does not exist is read); the line on unused channels of Rectangular2dSwitchboard is wrong unless they are unused in exactly one direction; use_copies is never shown."
  },
  {
   "property": "C343",
   "status": "partial",
   "theorems": [
    "Mdp.ScikitsNode.sk_trained",
    "Mdp.ScikitsNode.sk_output_dim_violation"
   ],
   "note": "Training and execution are proved; output_dim is set to the input dimension whatever transform returns."
  },
  {
   "property": "C344",
   "status": "partial",
   "theorems": [
    "Mdp.ScikitsNode.sk_fit_failed",
    "Mdp.ScikitsNode.sk_retry_violation"
   ],
   "note": "After a failed fit no history of calls gives fit the training data again."
  },
  {
   "property": "C345",
   "status": "partial",
   "theorems": [
    "Mdp.ScikitsNode.sk_supervised_violation",
    "Mdp.ScikitsNode.cls_trained",
    "Mdp.ScikitsNode.cls_prob_violation"
   ],
   "note": "Transformers and predictors whose fit needs targets can never be trained; probabilities and ranks of wrapped classifiers always raise NotImplementedError."
  },
  {
   "property": "C346",
   "status": "partial",
   "theorems": [
    "Mdp.Symeig.ldl_correct",
    "Mdp.Symeig.sfa_ldl",
    "Mdp.Symeig.ldl_threshold_violation"
   ],
   "note": "sytrf and trtri of LAPACK are parameters with their documented contract (single pivots, as always for semidefinite matrices); the work on pivots and permutations, the scaling and the eigenproblem are proved, if pivots are zero or above the threshold and no variable is wrongly taken for blank. The threshold is compared with pivots, not with eigenvalues as documented."
  },
  {
   "property": "C347",
   "status": "partial",
   "theorems": [
    "Mdp.Sfa.sfa_tries",
    "Mdp.Sfa.plain_full",
    "Mdp.Sfa.pca_full",
    "Mdp.Sfa.svd_full",
    "Mdp.Sfa.reg_full",
    "Mdp.Sfa.reg_retry_restored",
    "Mdp.Sfa.reg_retry_drift",
    "Mdp.Sfa.reg_retry_violation",
    "Mdp.Sfa.ldl_retry_keeps",
    "Mdp.Sfa.ldl_retry_violation"
   ],
   "note": "Proved for methods that leave the matrices as they are. False after a failed call with reg, which leaves the threshold on the diagonal of the covariance matrix, and after a failed call with ldl, which leaves the difference matrix permuted."
  },
  {
   "property": "C348",
   "status": "partial",
   "theorems": [
    "Mdp.SvmTrain.lib_trained",
    "Mdp.SvmTrain.labels_refused",
    "Mdp.SvmTrain.labels2_refused",
    "Mdp.SvmTrain.lib_prob",
    "Mdp.SvmTrain.sg_trained",
    "Mdp.SvmTrain.sg_kernel_retry",
    "Mdp.SvmTrain.sg_refused",
    "Mdp.SvmTrain.sg_more_data_violation"
   ],
   "note": "The libraries are parameters. False part: after a stop_training that failed for want of a kernel no more samples can be given (AttributeError), and after such an attempt stop_training always fails (ValueError), because the count of rows has grown."
  },
  {
   "property": "C349",
   "status": "partial",
   "theorems": [
    "Mdp.Preimage.residuals_objective",
    "Mdp.Preimage.pseudo_inverse_improves",
    "Mdp.Preimage.invert_get",
    "Mdp.Preimage.nonlinear_improves",
    "Mdp.Preimage.integer_hint_violation"
   ],
   "note": "The search (leastsq) is a parameter that must not return larger residuals than those of its start. False for hints of integer type: the result is cut off to integers and can be worse than the hint."
  },
  {
   "property": "C350",
   "status": "partial",
   "theorems": [
    "Mdp.Repr.node_repr",
    "Mdp.Repr.bi_repr",
    "Mdp.Repr.flow_repr",
    "Mdp.Repr.flow_str",
    "Mdp.Repr.flow_repr_violation",
    "Mdp.Repr.incsfa_repr_violation"
   ],
   "note": "Flows are proved for plain nodes. False part: settings are not shown, so the expression does not give the value back; and the representation of IncSFANode names init_pca_vectors twice and init_mca_vectors never."
  },
  {
   "property": "C351",
   "status": "partial",
   "theorems": [
    "Mdp.IncSfa.exec_inverse",
    "Mdp.IncSfa.inverse_nearest",
    "Mdp.IncSfa.inverse_violation"
   ],
   "note": "Proved after two or more samples (the first part for independent slow features); pinv is a parameter with the Penrose equations. False after a single sample: execution does not subtract the average yet, the inverse adds it. Floats idealised as real numbers."
  },
  {
   "property": "C352",
   "status": "partial",
   "theorems": [
    "Mdp.Saving.save_string",
    "Mdp.Saving.save_load",
    "Mdp.Saving.save_not_opened",
    "Mdp.Saving.save_ascii_violation",
    "Mdp.Saving.save_failed_violation",
    "Mdp.Saving.checkpoint_modes",
    "Mdp.Saving.robust_pickle",
    "Mdp.Saving.robust_write",
    "Mdp.Saving.robust_refused"
   ],
   "note": "The pickle module is a parameter. False for protocol 0 (the file is opened in text mode: TypeError and an empty file, on Python 3) and for failures of pickling (the old contents are lost). Crashes of the process are not modelled."
  },
  {
   "property": "C353",
   "status": "partial",
   "theorems": [
    "Mdp.IcaOptions.ica_options",
    "Mdp.IcaOptions.ica_default",
    "Mdp.IcaOptions.ica_late_options_violation",
    "Mdp.IcaOptions.isfa_options",
    "Mdp.IcaOptions.tdsep_options_violation",
    "Mdp.IcaOptions.xsfa_kwargs_violation"
   ],
   "note": "False for TDSEPNode, which ignores white_parm; for ICANode if the caller changes the dictionary before training is stopped; and XSFANode changes the dictionaries it is given."
  },
  {
   "property": "C354",
   "status": "partial",
   "theorems": [
    "Mdp.ODict.items_spec",
    "Mdp.ODict.copy_spec",
    "Mdp.ODict.pickle_spec",
    "Mdp.ODict.fromkeys_spec",
    "Mdp.ODict.setdefault_spec",
    "Mdp.ODict.pop_spec",
    "Mdp.ODict.eq_ordered_spec",
    "Mdp.ODict.eq_dict_spec",
    "Mdp.ODict.eq_transitive_violation"
   ],
   "note": "False only for transitivity of equality. The methods inherited from DictMixin (Python 2 UserDict) are modelled from its documentation."
  },
  {
   "property": "C355",
   "status": "proved",
   "theorems": [
    "Mdp.Fixup.fixup_ends",
    "Mdp.Fixup.fixup_spec",
    "Mdp.Fixup.fixup_all",
    "Mdp.Fixup.fixup_missing"
   ],
   "note": "Each object has its own __module__ and getattr returns the same object each time; functions of bound methods are assumed not to be attributes themselves. Exceptions other than AttributeError are not modelled."
  },
  {
   "property": "C356",
   "status": "partial",
   "theorems": [
    "Mdp.Bi.Slides.getBody_page",
    "Mdp.Bi.Slides.execution_slides",
    "Mdp.Bi.Slides.execution_sections_refused",
    "Mdp.Bi.Slides.training_slides",
    "Mdp.Bi.Slides.no_css_violation"
   ],
   "note": "For calls that do not raise and a style file name without \"<\". False with an empty css_filename: the slide has no body tag and the page shows nothing. If only some slides have a section id, trace_execution raises. toLowerCase of JavaScript is modelled for ASCII."
  },
  {
   "property": "C357",
   "status": "proved",
   "theorems": [
    "Mdp.Rng.rng_everywhere",
    "Mdp.Rng.rng_refused",
    "Mdp.Rng.rng_reproducible",
    "Mdp.Rng.rng_shared",
    "Mdp.Rng.rng_order",
    "Mdp.Rng.train_again"
   ],
   "note": "Data and exceptions of training are left out; numbers drawn per node are a parameter."
  },
  {
   "property": "C358",
   "status": "partial",
   "theorems": [
    "Mdp.Rng.own_generator_partial",
    "Mdp.Rng.new_generators",
    "Mdp.Rng.generators_kept",
    "Mdp.Rng.inner_generators_violation",
    "Mdp.Rng.no_generator_violation"
   ],
   "note": "False in the code: a layer (or flow node) without a generator of its own replaces the generators of all its nodes by one with a random seed at the first training, so seeds given to inner nodes have no effect. Proved for nodes alone and for networks in which every online node has a generator. Also: an unspecified generator stays None until data arrive, contrary to the documentation."
  },
  {
   "property": "C359",
   "status": "partial",
   "theorems": [
    "Mdp.Setup.dependencies_partial",
    "Mdp.Setup.disabled_import_violation",
    "Mdp.Setup.libsvm_disabled",
    "Mdp.Setup.pp_python3",
    "Mdp.Setup.pp_secret"
   ],
   "note": "Proved if imports raise nothing but ImportErrors and modules have the attributes read. False otherwise: joblib (like pp, shogun and sklearn) is imported even if its variable disables it, and any other exception then, or a missing __version__, ends the import of mdp; only libsvm is not imported when disabled. Without the module user (Python 3) parallel python is never available. Outcomes of imports and the integers of versions are parameters."
  },
  {
   "property": "C360",
   "status": "partial",
   "theorems": [
    "Mdp.Setup.dtypes_partial",
    "Mdp.Setup.dtypes_violation"
   ],
   "note": "False in the code with scipy: config.has_symeig is an object without __eq__ and is compared with a text, so the large types are never supported. Proved for the other backends and for _safe=False."
  },
  {
   "property": "C361",
   "status": "proved",
   "theorems": [
    "Mdp.TraceHtml.trace_tables",
    "Mdp.TraceHtml.trace_ids",
    "Mdp.TraceHtml.trace_current",
    "Mdp.TraceHtml.trace_same_ids"
   ],
   "note": "If a node occurs several times in a flow, the id recorded is that of its last table. Only the opening tags are modelled; the rest of the picture is that of C341."
  },
  {
   "property": "C362",
   "status": "partial",
   "theorems": [
    "Mdp.TraceData.slide_page",
    "Mdp.TraceData.stop_page",
    "Mdp.TraceData.slide_nested_partial",
    "Mdp.TraceData.slide_raises",
    "Mdp.TraceData.slide_nested_violation",
    "Mdp.TraceData.stop_message_violation"
   ],
   "note": "False in the code: the line for None closes its row before its cell, so every slide with the result None (train of nodes that are no BiNodes) is not proper HTML; the message given to stop_training is taken for the data and never shown. Proved for all other slides. Texts that contain HTML are not escaped and are outside of the model."
  },
  {
   "property": "C363",
   "status": "partial",
   "theorems": [
    "Mdp.Slideshow.image_slideshow_accepts",
    "Mdp.Slideshow.section_links",
    "Mdp.Slideshow.load_shows",
    "Mdp.Slideshow.next_shows",
    "Mdp.Slideshow.previous_shows",
    "Mdp.Slideshow.goto_shows",
    "Mdp.Slideshow.nextSection_shows",
    "Mdp.Slideshow.previousSection_shows",
    "Mdp.Slideshow.slideshow_buttons",
    "Mdp.Slideshow.slideshow_consistent",
    "Mdp.Slideshow.autoplay_loop",
    "Mdp.Slideshow.autoplay_end",
    "Mdp.Slideshow.delay_nonneg",
    "Mdp.Slideshow.autoplay_timers_partial",
    "Mdp.Slideshow.autoplay_timers_violation",
    "Mdp.Slideshow.delay_none_violation",
    "Mdp.Slideshow.section_loop_violation"
   ],
   "note": "False in the code in three places: a show that is stopped and started again before the delay is over shows two slides per delay; with the delay None the script of the page fails (proved for delays that are numbers); with different names of sections that have the same text (1 and \"1\") the button \"next section\" never ends (proved for names with different texts). A text that is no number typed into the field of the delay makes it NaN, which is outside of the claim. The size of the images is not modelled."
  },
  {
   "property": "C364",
   "status": "partial",
   "theorems": [
    "Mdp.BiArgs.single_array",
    "Mdp.BiArgs.single_message",
    "Mdp.BiArgs.nothing_refused",
    "Mdp.BiArgs.chunks_in_order",
    "Mdp.BiArgs.short_messages_violation",
    "Mdp.BiArgs.messages_only_violation",
    "Mdp.BiArgs.messages_only_partial",
    "Mdp.BiArgs.dictionary_keys",
    "Mdp.BiArgs.parallel_tasks"
   ],
   "note": "False in the code in two places: a list of messages without data is refused with a TypeError unless there are targets, too; if there are messages for fewer chunks than there are data, the remaining data are silently not processed. A dictionary that comes with an iterable of data is taken for an iterable of messages (dictionary_keys; the documentation excludes this call). Iterables that end are modelled, not endless ones."
  },
  {
   "property": "C365",
   "status": "partial",
   "theorems": [
    "Mdp.BiArgs.train_array",
    "Mdp.BiArgs.train_lists",
    "Mdp.BiArgs.train_count_refused",
    "Mdp.BiArgs.train_message_count_refused",
    "Mdp.BiArgs.train_messages_count_violation"
   ],
   "note": "False in the code for messages without data: their number is not checked, so that an IndexError ends the training after some nodes are trained. train_lists is for iterables of data (with or without messages); nodes with several phases see the same chunks again (not modelled here)."
  },
  {
   "property": "C366",
   "status": "partial",
   "theorems": [
    "Mdp.BiPhases.phases_repeat",
    "Mdp.BiPhases.iterator_refused",
    "Mdp.BiPhases.iterator_rest_violation",
    "Mdp.BiPhases.short_stops_violation"
   ],
   "note": "False in the code in two places: an iterator of messages that has elements left after the first phase is used on, so that the second phase gets the data with other messages and nothing is raised; the number of stop messages is not checked, so that an IndexError ends the training after some or all nodes are trained. Executions that a node starts from train or stop_training are left out here (C202)."
  },
  {
   "property": "C367",
   "status": "partial",
   "theorems": [
    "Mdp.BiPhases.parallel_training",
    "Mdp.BiPhases.parallel_stop_missing",
    "Mdp.BiPhases.parallel_stops_violation"
   ],
   "note": "False in the code for too few stop messages: if the nodes without one are not trainable then the parallel training succeeds while the sequential one raises an IndexError. The effect of the tasks on the nodes is C202."
  },
  {
   "property": "C368",
   "status": "partial",
   "theorems": [
    "Bi.Autogen.module_complete",
    "Bi.Autogen.module_no_default_refused",
    "Bi.Autogen.module_alias_refused"
   ],
   "note": "Proved for modules in which each class has its own name, the usual ending and an argument with a default value. A single node without default values, or under another name than its own, makes the whole import fail."
  },
  {
   "property": "C369",
   "status": "proved",
   "theorems": [
    "Mdp.DigText.dig_text",
    "Mdp.DigText.dig_text_empty_violation"
   ],
   "note": "A node without arrays gets no text but the ValueError of max (dig_text_empty_violation)."
  },
  {
   "property": "C370",
   "status": "partial",
   "theorems": [
    "Bi.Page.training_page",
    "Bi.Page.images_page",
    "Bi.Page.execution_page",
    "Bi.Page.execution_browser_empty_violation",
    "Bi.Page.execution_browser_blocks_violation",
    "Bi.Page.training_none_violation",
    "Bi.Page.images_temporary_violation",
    "Bi.Page.images_refused_violation"
   ],
   "note": "Proved for show_training and for show_image_slideshow with a file name. False for show_execution: the file is opened twice and the object written to is not closed before the browser is opened, so that the browser finds only what has left the buffer (an empty file for pages smaller than the buffer); after the return the page is complete. False for show_image_slideshow without a file name (on Python 3 always a TypeError); a refused slideshow destroys the previous page. Rests on the destruction of file objects by reference counting."
  },
  {
   "property": "C371",
   "status": "partial",
   "theorems": [
    "Mdp.Xhtml.xhtml_none_left",
    "Mdp.Xhtml.xhtml_replaces",
    "Mdp.Xhtml.xhtml_calls",
    "Mdp.Xhtml.xhtml_exception_violation"
   ],
   "note": "Proved for all texts and calls without exceptions. False after an exception: the visitor keeps its buffer in the place of the file, and all later pictures are lost without an error."
  }
 ]
}