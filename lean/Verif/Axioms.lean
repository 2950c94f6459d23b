import Verif.Graph.Props
import Verif.Node.Props
import Verif.Flow.ContainerProps
import Verif.Flow.ExecProps
import Verif.Flow.TrainProps
import Verif.Hinet.SwitchboardProps
import Verif.Hinet.GeometryProps
import Verif.Hinet.RhombProps
import Verif.Hinet.LayerProps
import Verif.Hinet.LayerInverse
import Verif.Hinet.CloneProps
import Verif.Hinet.LayerTrainProps
import Verif.Hinet.LayerExamples
import Verif.Node.Replay
import Verif.Flow.NodeRel
import Verif.Hinet.FlowNodeProps
import Verif.Extension.Failures
import Verif.Hinet.FlowNodeDims
import Verif.Parallel.SchedExamples
import Verif.Num.CovProps
import Verif.Num.VartimeProps
import Verif.Parallel.NodeJoinProps
import Verif.Parallel.FdaProps
import Verif.Parallel.FlowTrainProps
import Verif.Parallel.FlowExecProps
import Verif.Caching.NodeInst
import Verif.Nodes.ExpansionProps
import Verif.Nodes.TimeFramesProps
import Verif.Nodes.HitParadeProps
import Verif.Nodes.CutoffProps
import Verif.Nodes.NearestProps
import Verif.Nodes.MarkovProps
import Verif.Nodes.HopfieldProps
import Verif.Nodes.PerceptronProps
import Verif.Nodes.KMeansProps
import Verif.Nodes.GaussianProps
import Verif.Online.NodeProps
import Verif.Online.FlowProps
import Verif.Online.ContainerProps
import Verif.Online.CircularProps
import Verif.Py.Dict
import Verif.Bi.Msg
import Verif.Bi.MsgLemmas
import Verif.Bi.Node
import Verif.Bi.NodeLemmas
import Verif.Bi.NodeProps
import Verif.Bi.Flow
import Verif.Bi.FlowProps
import Verif.Bi.ChunkProps
import Verif.Bi.Train
import Verif.Bi.TrainProps
import Verif.Nodes.RegressionProps
import Verif.Online.StatsProps
import Verif.Nodes.PcaOut
import Verif.Nodes.SfaOut
import Verif.Nodes.Sfa2Props
import Verif.Nodes.QuadMaxProps
import Verif.Nodes.SfaRank
import Verif.Utils.Symeig
import Verif.Utils.SymeigAlg
import Verif.Utils.SymeigProps
import Verif.Utils.SymeigSfa
import Verif.Nodes.RecExpansion
import Verif.Nodes.RecExpansionComb
import Verif.Nodes.RecExpansionFam
import Verif.Nodes.RecExpansionProps
import Verif.Nodes.RecExpansionOut
import Verif.Nodes.NeuralGas
import Verif.Nodes.NeuralGasSpec
import Verif.Nodes.NeuralGasLemmas
import Verif.Nodes.NeuralGasStep
import Verif.Nodes.NeuralGasProps
import Verif.Nodes.NeuralGasOut
import Verif.Nodes.NeuralGasSched
import Verif.Nodes.NeuralGasNg
import Verif.Bi.Layer
import Verif.Bi.LayerSpec
import Verif.Bi.LayerLemmas
import Verif.Bi.LayerProps
import Verif.Bi.LayerStop
import Verif.Bi.LayerMsg
import Verif.Bi.SwitchProps
import Verif.Bi.FlowNode
import Verif.Bi.FlowNodeProps
import Verif.Bi.Coroutine
import Verif.Bi.CoroutineProps
import Verif.Parallel.Hinet
import Verif.Parallel.HinetProps
import Verif.Parallel.HinetLaw
import Verif.Parallel.HinetFlow
import Verif.Parallel.HinetNest
import Verif.Parallel.BiClone
import Verif.Bi.Gradient
import Verif.Bi.GradientLemmas
import Verif.Bi.GradientNodes
import Verif.Bi.GradientProps
import Verif.Online.Chunks
import Verif.Online.Layer
import Verif.Online.LayerProps
import Verif.Online.LayerTheorems
import Verif.Gsfa.Model
import Verif.Gsfa.Sums
import Verif.Gsfa.Spec
import Verif.Gsfa.Props
import Verif.Gsfa.Windows
import Verif.Gsfa.WindowsOut
import Verif.Gsfa.Blocks
import Verif.Gsfa.BlocksOut
import Verif.Gsfa.Out
import Verif.Gsfa.Findings
import Verif.Nodes.Ccipca
import Verif.Nodes.CcipcaProps
import Verif.Nodes.McaProps
import Verif.Nodes.IncSfa
import Verif.Nodes.IncSfaProps
import Verif.Ica.Model
import Verif.Ica.Cubica
import Verif.Ica.Jade
import Verif.Ica.FastModel
import Verif.Ica.Fast
import Verif.Ica.NodeModel
import Verif.Ica.Node
import Verif.Rbm.Model
import Verif.Rbm.Gibbs
import Verif.Rbm.Train
import Verif.Bi.MsgJoin
import Verif.Parallel.BiFlow
import Verif.Parallel.BiFlowExec
import Verif.Parallel.BiFlowTrain
import Verif.Parallel.BiFlowSched
import Verif.Ica.Tight
import Verif.Online.FlowNode
import Verif.Online.FlowNodeLemmas
import Verif.Online.FlowNodeTrain
import Verif.Online.FlowNodeRing
import Verif.Online.FlowNodeAgree
import Verif.Online.FlowNodeStop
import Verif.Online.FlowNodeProps
import Verif.Factor.Model
import Verif.Factor.Alg
import Verif.Factor.Spec
import Verif.Factor.Stat
import Verif.Factor.Train
import Verif.Factor.Props
import Verif.Nodes.Fda
import Verif.Nodes.FdaOut
import Verif.Flow.Crash
import Verif.Flow.CrashLemmas
import Verif.Flow.CrashProps
import Verif.Nodes.Eta
import Verif.Nodes.EtaProps
import Verif.Copy.Model
import Verif.Copy.Spec
import Verif.Copy.Lemmas
import Verif.Copy.NodeCopy
import Verif.Copy.Props
import Verif.Utils.Random
import Verif.Utils.RandomProps
import Verif.Utils.Routines
import Verif.Utils.RoutinesProps
import Verif.Nodes.Nipals
import Verif.Nodes.NipalsProps
import Verif.Xsfa.Model
import Verif.Xsfa.Props
import Verif.Xsfa.Out
import Verif.Nodes.Rbf
import Verif.Nodes.RbfProps
import Verif.Nodes.Conv
import Verif.Nodes.ConvProps
import Verif.Nodes.Lle
import Verif.Nodes.LleProps
import Verif.Nodes.LleOut
import Verif.Nodes.LleEmbed
import Verif.Nodes.LleReal
import Verif.Nodes.LleMore
import Verif.Nodes.LleHess
import Verif.Nodes.LleNull
import Verif.Nodes.LleHessProps
import Verif.Nodes.LleFlat
import Verif.Isfa.Model
import Verif.Isfa.Angle
import Verif.Isfa.Loop
import Verif.Isfa.Props
import Verif.Isfa.Node
import Verif.Isfa.White
import Verif.Isfa.Two
import Verif.Isfa.Tdsep
import Verif.Isfa.Limit
import Verif.Isfa.Converge
import Verif.Nodes.QuadInv
import Verif.Utils.Reg
import Verif.Utils.RegReal
import Verif.Hinet.Factory
import Verif.Nodes.ClassifierBase
import Verif.Utils.Progress
import Verif.Utils.Introspect
import Verif.Utils.TempDir
import Verif.Utils.Config
import Verif.Nodes.Noise
import Verif.Bi.Sender
import Verif.Parallel.PP
import Verif.Parallel.PPSlaves
import Verif.Nodes.Scikits
import Verif.Bi.Autogen
import Verif.Utils.Templet
import Verif.Nodes.LibSvm
import Verif.Nodes.Shogun
import Verif.Bi.PeekIter
import Verif.Bi.Tracer
import Verif.Bi.Snapshots
import Verif.Utils.OrderedDict
import Verif.Utils.Backend
import Verif.Node.Meta
import Verif.Num.VartimeSfa
import Verif.Gsfa.IGsfa
import Verif.Gsfa.Helpers
import Verif.Parallel.DefaultFork
import Verif.Bi.FlowItems
import Verif.Gsfa.Compact
import Verif.Gsfa.Smart
import Verif.Hinet.Html
import Verif.Nodes.ScikitsNode
import Verif.Utils.Ldl
import Verif.Nodes.SfaRetry
import Verif.Nodes.SvmTrain
import Verif.Nodes.Preimage
import Verif.Node.Repr
import Verif.Nodes.IncSfaInv
import Verif.Node.Saving
import Verif.Ica.Options
import Verif.Utils.OrderedDict2
import Verif.Utils.Fixup
import Verif.Bi.Slides
import Verif.Gsfa.CompactFull
import Verif.Online.LayerDims
import Verif.Online.NodeHooks
import Verif.Online.Rng
import Verif.Online.CloneExec
import Verif.Nodes.QuadMaxEnds
import Verif.Nodes.PcaFraction
import Verif.Ica.JadeWorst
import Verif.Isfa.LimitTwo
import Verif.Utils.Setup
import Verif.Bi.LayerExec
import Verif.Online.FlowNodeUnknown
import Verif.Isfa.Outer
import Verif.Bi.TraceHtml
import Verif.Bi.TraceData
import Verif.Utils.SlideshowProps
import Verif.Isfa.Examples
import Verif.Bi.ArgsProps
import Verif.Bi.PhasesProps
import Verif.Bi.AutogenModule
import Verif.Utils.DigText
import Verif.Bi.Page
import Verif.Hinet.Xhtml
import Verif.Ica.FastDeriv

/-! Axioms of every property theorem (generated). -/

#print axioms Mdp.Node.phase_range
#print axioms Mdp.Node.nontrainable_phase
#print axioms Mdp.Node.phase_monotone
#print axioms Mdp.Node.phase_steps
#print axioms Mdp.Node.hook_order
#print axioms Mdp.Node.stop_hook_once
#print axioms Mdp.Node.hook_phases_sorted
#print axioms Mdp.Node.accepted_call_runs_own_hook
#print axioms Mdp.Node.failing_call_runs_at_most_own_hook
#print axioms Mdp.Node.execute_ok_trained
#print axioms Mdp.Node.execute_trained_unchanged
#print axioms Mdp.Node.execute_repeat
#print axioms Mdp.Node.execute_untrained_trains_all
#print axioms Mdp.Node.execute_started_never_trains
#print axioms Mdp.Node.dims_write_once
#print axioms Mdp.Node.set_other_value_raises
#print axioms Mdp.Node.set_unset_value
#print axioms Mdp.Node.train_hook_data
#print axioms Mdp.Node.exec_hook_data
#print axioms Mdp.Node.rejected_train_unchanged_partial
#print axioms Mdp.Node.rejected_execute_unchanged_partial
#print axioms Mdp.Node.rejected_train_changes_node
#print axioms Mdp.Node.rejected_execute_closes_phase
#print axioms Mdp.Node.preserve_dim
#print axioms Mdp.Node.preserve_dim_set
#print axioms Mdp.Node.cumulator_collects
#print axioms Mdp.Node.cumulator_missing_argument
#print axioms Mdp.Node.inverse_hook_guard
#print axioms Mdp.Node.inverse_ok
#print axioms Mdp.Node.inverse_refused
#print axioms Mdp.Flow.construct_consistent
#print axioms Mdp.Flow.construct_accepts
#print axioms Mdp.Flow.ops_consistent_partial
#print axioms Mdp.Flow.iadd_ok_consistent
#print axioms Mdp.Flow.iadd_breaks_consistency
#print axioms Mdp.Flow.zero_dim_check_crashes
#print axioms Mdp.Flow.failing_op_unchanged_partial
#print axioms Mdp.Flow.failing_iadd_changes_flow
#print axioms Mdp.Flow.append_list
#print axioms Mdp.Flow.extend_list
#print axioms Mdp.Flow.insert_list
#print axioms Mdp.Flow.getItem_list
#print axioms Mdp.Flow.pop_list
#print axioms Mdp.Flow.setItem_list
#print axioms Mdp.Flow.slice_list
#print axioms Mdp.Flow.add_list
#print axioms Mdp.Flow.iadd_list
#print axioms Mdp.Flow.slice_ops_list_partial
#print axioms Mdp.Flow.setSlice_from_iterator_deletes
#print axioms Mdp.Flow.non_node_refused
#print axioms Mdp.Flow.ops_accepted
#print axioms Mdp.Flow.execute_composition
#print axioms Mdp.Flow.execute_empty
#print axioms Mdp.Flow.execute_nodenr_slice_partial
#print axioms Mdp.Flow.execute_nodenr_low
#print axioms Mdp.Flow.execute_nodenr_high
#print axioms Mdp.Flow.inverse_composition
#print axioms Mdp.Flow.execute_chunks
#print axioms Mdp.Flow.inverse_chunks
#print axioms Mdp.Flow.empty_iterable
#print axioms Mdp.Flow.inverse_execute
#print axioms Mdp.Flow.train_spec_partial
#print axioms Mdp.Flow.train_all_finished_partial
#print axioms Mdp.Flow.train_array
#print axioms Mdp.Flow.train_failure
#print axioms Mdp.Flow.train_trained_flow
#print axioms Mdp.Flow.train_leaves_node_open
#print axioms Mdp.Flow.checkpoints_once_in_order
#print axioms Mdp.Flow.checkpoint_after_own_data
#print axioms Mdp.Flow.checkpoint_train_eq
#print axioms Mdp.Flow.checkpoint_single
#print axioms Mdp.Flow.bad_train_argument
#print axioms Mdp.Flow.bad_checkpoints
#print axioms Mdp.Flow.good_train_argument
#print axioms Mdp.FlowNode.flownode_phase_count
#print axioms Mdp.FlowNode.flownode_train
#print axioms Mdp.FlowNode.flownode_same_as_flow
#print axioms Mdp.FlowNode.flownode_same_as_flow_dtype
#print axioms Mdp.Layer.layer_execute_concat
#print axioms Mdp.Layer.layer_execute_returns
#print axioms Mdp.Layer.layer_input_dim
#print axioms Mdp.Layer.layer_inverse_undoes
#print axioms Mdp.Layer.clone_execute
#print axioms Mdp.Layer.clone_inverse
#print axioms Mdp.Layer.clone_zero_width
#print axioms Mdp.Layer.layer_phases
#print axioms Mdp.Layer.layer_phases_desync
#print axioms Mdp.Switchboard.construction
#print axioms Mdp.Switchboard.construction_partial
#print axioms Mdp.Switchboard.negative_index_accepted
#print axioms Mdp.Switchboard.routing
#print axioms Mdp.Switchboard.routing_nonneg
#print axioms Mdp.Switchboard.inverse_partial
#print axioms Mdp.Switchboard.invertible_iff_permutation
#print axioms Mdp.Switchboard.permutation_invertible
#print axioms Mdp.Switchboard.not_invertible
#print axioms Mdp.Switchboard.inverse_wrong
#print axioms Mdp.Switchboard.mean_inverse
#print axioms Mdp.Switchboard.mean_inverse_execute
#print axioms Mdp.Switchboard.mean_inverse_negative
#print axioms Mdp.Switchboard.rect_accepted
#print axioms Mdp.Switchboard.rect_valid
#print axioms Mdp.Switchboard.rect_blocks
#print axioms Mdp.Switchboard.rect_cover_partial
#print axioms Mdp.Switchboard.rect_cover_iff
#print axioms Mdp.Switchboard.rect_cover_gap
#print axioms Mdp.Switchboard.pixel_to_index
#print axioms Mdp.Switchboard.index_to_pixel
#print axioms Mdp.Switchboard.image_array
#print axioms Mdp.Graph.topological_sort_terminates
#print axioms Mdp.Graph.topological_sort_sound
#print axioms Mdp.Graph.topological_sort_raises_iff_cyclic
#print axioms Mdp.Graph.topological_sort_outcomes
#print axioms Mdp.Graph.topological_sort_exception_list
#print axioms Mdp.Graph.dfs_spec
#print axioms Mdp.Graph.undirected_dfs_spec
#print axioms Mdp.Graph.bfs_spec
#print axioms Mdp.Graph.undirected_bfs_spec
#print axioms Mdp.Graph.connected_components_partition
#print axioms Mdp.Graph.is_weakly_connected_iff
#print axioms Mdp.Graph.is_weakly_connected_empty
#print axioms Mdp.Graph.graph_consistent
#print axioms Mdp.Graph.add_node_spec
#print axioms Mdp.Graph.add_nodes_spec
#print axioms Mdp.Graph.add_edge_spec
#print axioms Mdp.Graph.remove_edge_spec
#print axioms Mdp.Graph.remove_node_spec_partial
#print axioms Mdp.Graph.remove_node_self_loop
#print axioms Mdp.Graph.remove_node_foreign
#print axioms Mdp.Graph.add_full_connectivity_spec
#print axioms Mdp.Graph.add_tree_spec
#print axioms Mdp.Graph.add_tree_empty
#print axioms Mdp.Ext.roundtrip_partial
#print axioms Mdp.Ext.history_overlay_partial
#print axioms Mdp.Ext.roundtrip_loses_own_method
#print axioms Mdp.Ext.roundtrip_injects_inherited
#print axioms Mdp.Ext.roundtrip_loses_none
#print axioms Mdp.Ext.roundtrip_unwraps_staticmethod
#print axioms Mdp.Ext.activate_active
#print axioms Mdp.Ext.deactivate_inactive
#print axioms Mdp.Ext.unknown_extension
#print axioms Mdp.Ext.active_set_exact
#print axioms Mdp.Ext.in_force_partial
#print axioms Mdp.Ext.teardown_failure_stays_active
#print axioms Mdp.Ext.collision_breaks_other
#print axioms Mdp.Ext.failed_activation_local_partial
#print axioms Mdp.Ext.collision_example
#print axioms Mdp.Ext.failed_activation_no_trace_partial
#print axioms Mdp.Ext.setup_failure_deletes_method
#print axioms Mdp.Ext.with_extension_balanced
#print axioms Mdp.Ext.with_statement_partial
#print axioms Mdp.Ext.with_statement_failure_deactivates_all
#print axioms Mdp.Sched.results_in_order
#print axioms Mdp.Sched.get_results_correct
#print axioms Mdp.Sched.open_tasks_exact
#print axioms Mdp.Sched.get_results_waits
#print axioms Mdp.Sched.result_right_partial
#print axioms Mdp.Sched.result_right_uncached
#print axioms Mdp.Sched.wrong_callable
#print axioms Mdp.Sched.wrong_callable_not_right
#print axioms Mdp.Sched.thread_limit_unenforced
#print axioms Mdp.Sched.thread_limit_exceeded
#print axioms Mdp.Sched.raise_blocks_forever
#print axioms Mdp.Sched.failed_task_blocks
#print axioms Mdp.Sched.lock_progress_partial
#print axioms Mdp.Sched.add_without_callable
#print axioms Mdp.Sched.get_without_results
#print axioms Mdp.Sched.callable_raises
#print axioms Mdp.Sched.callable_raises_thread
#print axioms Mdp.Join.pca_fork_join
#print axioms Mdp.Join.pca_untrained_fork
#print axioms Mdp.Join.sfa_fork_join
#print axioms Mdp.Join.sfa_rejects
#print axioms Mdp.Join.hist_fork_join
#print axioms Mdp.Join.means_fork_join
#print axioms Mdp.Join.gauss_fork_join
#print axioms Mdp.Join.knn_fork_join
#print axioms Mdp.Join.class_sums
#print axioms Mdp.Join.fda_fork_join
#print axioms Mdp.Cov.covariance_correct
#print axioms Mdp.Cov.second_moments
#print axioms Mdp.Cov.covariance_symmetric
#print axioms Mdp.Cov.covariance_resets
#print axioms Mdp.Cov.delay_rejects_short
#print axioms Mdp.Cov.delay_covariance_correct
#print axioms Mdp.Cov.delay_fix_transform
#print axioms Mdp.Cov.delay_zero
#print axioms Mdp.Cov.delayed_get
#print axioms Mdp.Cov.symmetrize_symmetric
#print axioms Mdp.Cov.vartime_correct_partial
#print axioms Mdp.Cov.vartime_separate_partial
#print axioms Mdp.Cov.vartime_rejects
#print axioms Mdp.Cov.single_row_wrong
#print axioms Mdp.Cov.fix_keeps_last
#print axioms Mdp.Cov.gap_counted_anyway
#print axioms Mdp.Caching.cache_transparent_partial
#print axioms Mdp.Caching.node_cache_transparent_partial
#print axioms Mdp.Caching.cache_not_transparent
#print axioms Mdp.Caching.cached_iff_partial
#print axioms Mdp.Caching.on_off_restores
#print axioms Mdp.Caching.subclass_not_cached
#print axioms Mdp.Caching.on_on_off_cached
#print axioms Mdp.Caching.reactivation_keeps_instances
#print axioms Mdp.Caching.deactivated_plain
#print axioms Mdp.Caching.not_cached_not_stored
#print axioms Mdp.Caching.cached_stored
#print axioms Mdp.Expansion.comb_choose
#print axioms Mdp.Expansion.nmonomials_correct
#print axioms Mdp.Expansion.expandedDim_correct
#print axioms Mdp.Expansion.poly_expansion
#print axioms Mdp.Expansion.degree_zero
#print axioms Mdp.TimeFrames.frames_execute
#print axioms Mdp.TimeFrames.frames_rows_exist
#print axioms Mdp.TimeFrames.pinv_execute
#print axioms Mdp.TimeFrames.execute_pinv
#print axioms Mdp.TimeFrames.sliding_window
#print axioms Mdp.TimeFrames.delay_execute
#print axioms Mdp.TimeFrames.sliding_eq_delay_partial
#print axioms Mdp.TimeFrames.delay_raises_sliding_does_not
#print axioms Mdp.TimeFrames.gap_zero_differs
#print axioms Mdp.HitParade.hit_parade
#print axioms Mdp.HitParade.chunks_irrelevant
#print axioms Mdp.HitParade.infinite_not_recorded
#print axioms Mdp.Cutoff.cutoff_bounds
#print axioms Mdp.Cutoff.hist_all
#print axioms Mdp.Cutoff.hist_sub
#print axioms Mdp.Cutoff.adaptive_fraction
#print axioms Mdp.Cutoff.adaptive_stops
#print axioms Mdp.Cutoff.adaptive_exact
#print axioms Mdp.Markov.markov_probabilities
#print axioms Mdp.Markov.markov_unseen
#print axioms Mdp.Markov.markov_refused
#print axioms Mdp.Nearest.nearest_mean
#print axioms Mdp.Nearest.nearest_mean_empty
#print axioms Mdp.Nearest.knn_majority
#print axioms Mdp.Nearest.knn_one
#print axioms Mdp.Nearest.knn_zero
#print axioms Mdp.Hopfield.retrieval_terminates
#print axioms Mdp.Hopfield.retrieval_energy
#print axioms Mdp.Hopfield.weights_correct
#print axioms Mdp.Hopfield.stop_without_patterns
#print axioms Bi.execute_without_jumps
#print axioms Bi.execute_no_chunks
#print axioms Bi.execute_seq_path_partial
#print axioms Bi.Path.visited
#print axioms Bi.Move.det
#print axioms Bi.execute_seq_bad_start
#print axioms Bi.start_target
#print axioms Bi.leaving_targets
#print axioms Bi.jump_wraps_around
#print axioms Bi.plain_target_never_returns
#print axioms Bi.execute_routes
#print axioms Bi.execute_bad_key
#print axioms Bi.execute_nothing
#print axioms Bi.execute_empty
#print axioms Bi.some_but_not_all_partial
#print axioms Bi.all_none_raises
#print axioms Bi.single_none_is_false
#print axioms Mdp.Online.online_train
#print axioms Mdp.Online.online_train_raises
#print axioms Mdp.Online.only_stop_closes
#print axioms Mdp.Online.online_stop
#print axioms Mdp.Online.closed_forever
#print axioms Mdp.Online.oreachable_phase
#print axioms Mdp.Online.stop_only_once
#print axioms Mdp.Online.execute_trace
#print axioms Mdp.Online.execute_hook
#print axioms Mdp.Online.inverse_trace
#print axioms Mdp.Online.stop_hook_repeated
#print axioms Mdp.Online.online_flow_train
#print axioms Mdp.Online.online_flow_chunks
#print axioms Mdp.Online.online_node_learns_chunk
#print axioms Mdp.Online.online_node_learns_every_chunk
#print axioms Mdp.Online.set_input_node_rotates
#print axioms Mdp.Online.set_output_node_sets
#print axioms Mdp.Online.set_node_rejects_partial
#print axioms Mdp.Online.set_node_past_end
#print axioms Mdp.Online.ring_history
#print axioms Mdp.Switchboard.out_channel_node
#print axioms Mdp.Switchboard.input_channels_of
#print axioms Mdp.Switchboard.double_accepted
#print axioms Mdp.Switchboard.double_cover
#print axioms Mdp.Switchboard.double_blocks
#print axioms Mdp.Switchboard.rhomb_accepted
#print axioms Mdp.Switchboard.rhomb_fields
#print axioms Mdp.Switchboard.rhomb_valid
#print axioms Mdp.Switchboard.rhomb_double_cover
#print axioms Mdp.Node.private_data_replay
#print axioms Mdp.Layer.clone_training
#print axioms Mdp.Layer.same_execute_concat
#print axioms Mdp.Layer.same_training
#print axioms Mdp.FlowNode.flownode_dims
#print axioms Mdp.Sched.results_complete
#print axioms Mdp.Sched.process_limit
#print axioms Mdp.Sched.shutdown_after_results
#print axioms Mdp.Cov.cross_covariance_correct
#print axioms Mdp.Cov.cross_rejects_mismatch
#print axioms Mdp.Cov.rotate_eq
#print axioms Mdp.Cov.permute_eq
#print axioms Mdp.Cov.transform_eq
#print axioms Mdp.Cov.congr2_symmetric
#print axioms Mdp.Cov.rotate_inverse
#print axioms Mdp.Cov.rotate_trace
#print axioms Mdp.Join.sfa_overlapping_chunks
#print axioms Mdp.Join.fda_within_class
#print axioms Mdp.Join.fda_unknown_label
#print axioms Mdp.Markov.single_label_partial
#print axioms Mdp.Markov.string_label_split
#print axioms Mdp.Markov.rank_correct
#print axioms Mdp.Markov.weighted_choice_correct
#print axioms Mdp.Perceptron.mistakes_bounded
#print axioms Mdp.Perceptron.perceptron_converges
#print axioms Mdp.Perceptron.correct_unchanged
#print axioms Mdp.Perceptron.train_is_run
#print axioms Mdp.Perceptron.train_refuses
#print axioms Mdp.KMeans.kmeans_converges_partial
#print axioms Mdp.KMeans.nearest_le
#print axioms Mdp.KMeans.too_many_clusters
#print axioms Mdp.KMeans.max_iter_no_centroids
#print axioms Mdp.Gaussian.gaussian_fit
#print axioms Mdp.Gaussian.gaussian_posterior
#print axioms Mdp.Gaussian.gaussian_singular
#print axioms Mdp.Online.train_keeps_online_open_partial
#print axioms Mdp.Online.multi_phase_terminal_closed
#print axioms Mdp.Online.plain_terminal_first_chunk_only
#print axioms Mdp.Online.online_container_step
#print axioms Mdp.Online.online_container_effect
#print axioms Mdp.Online.online_container_accepts
#print axioms Mdp.Online.online_flow_in_sync_partial
#print axioms Mdp.Online.online_flow_consistent_partial
#print axioms Mdp.Online.online_construct
#print axioms Mdp.Online.online_construct_rejects
#print axioms Mdp.Online.online_iadd_violation
#print axioms Mdp.Online.circular_train
#print axioms Mdp.Online.circular_train_default
#print axioms Mdp.Online.ignored_input
#print axioms Mdp.Online.circular_append_partial
#print axioms Mdp.Online.circular_insert_partial
#print axioms Mdp.Online.circular_insert_violation
#print axioms Mdp.Online.circular_delete_never_returns
#print axioms Mdp.Online.circular_setitem_never_returns
#print axioms Mdp.Online.circular_violation
#print axioms Mdp.Online.set_stored_input_partial
#print axioms Mdp.Online.set_stored_input_dropped
#print axioms Mdp.Online.circular_execute
#print axioms Mdp.Online.circular_inverse_never_returns
#print axioms Bi.execute_consumes_message
#print axioms Bi.execute_keeps_message_partial
#print axioms Bi.phases_counted
#print axioms Bi.training_finished
#print axioms Bi.train_starts
#print axioms Bi.train_result
#print axioms Bi.stop_closes
#print axioms Bi.chunks_independent
#print axioms Bi.single_chunk
#print axioms Bi.joined_iff
#print axioms Bi.joined_message
#print axioms Bi.get_message_twice
#print axioms Bi.train_in_order
#print axioms Bi.train_without_jumps
#print axioms Bi.train_no_data
#print axioms Bi.checkpoint_none_fails
#print axioms Bi.checkpoint_neutral_partial
#print axioms Bi.checkpoint_dicts_partial
#print axioms Bi.checkpoint_after_training_partial
#print axioms PFlow.parallel_train_sequential
#print axioms PFlow.pca_respects
#print axioms PFlow.pca_forkJoin
#print axioms PFlow.pca_keepsPhase
#print axioms PFlow.parallel_tasks
#print axioms PFlow.failed_training_blocks
#print axioms PFlow.Exec.execute_underway
#print axioms PFlow.Exec.parallel_execute_partial
#print axioms PFlow.Exec.nodenr_ignored
#print axioms PFlow.Exec.stale_forks
#print axioms PFlow.parallel_checkpoints
#print axioms PFlow.checkpoint_gaps
#print axioms PFlow.wrong_length_refused
#print axioms PFlow.parallel_schedulers
#print axioms PFlow.schedulers_typeError
#print axioms Mdp.Regression.regression_least_squares
#print axioms Mdp.Regression.regression_exact
#print axioms Mdp.Regression.regression_stops
#print axioms Mdp.Regression.regression_rejects
#print axioms Mdp.OnlineStats.centering_average
#print axioms Mdp.OnlineStats.expAvg_const
#print axioms Mdp.OnlineStats.centering_execute_partial
#print axioms Mdp.OnlineStats.centering_first_sample
#print axioms Mdp.OnlineStats.centering_inverse
#print axioms Mdp.OnlineStats.centering_stop
#print axioms Mdp.OnlineStats.timediff_partial
#print axioms Mdp.OnlineStats.timediff_batch_rows
#print axioms Mdp.OnlineStats.timediff_batch_pred
#print axioms Mdp.Pca.pca_outputs
#print axioms Mdp.Pca.pca_optimal
#print axioms Mdp.Pca.pca_number
#print axioms Mdp.Pca.pca_fraction_partial
#print axioms Mdp.Pca.pca_reduce
#print axioms Mdp.Pca.pca_fraction_reduce
#print axioms Mdp.Pca.pca_rounding
#print axioms Mdp.Pca.pca_fraction_constant_violation
#print axioms Mdp.Pca.pca_execute_inverse
#print axioms Mdp.Pca.pca_reconstruction
#print axioms Mdp.Pca.whitening_outputs_partial
#print axioms Mdp.Pca.whitening_inverse
#print axioms Mdp.Pca.whitening_singular
#print axioms Mdp.Sfa.sfa_outputs
#print axioms Mdp.Sfa.sfa_too_many
#print axioms Mdp.Sfa.sfa_slowest
#print axioms Mdp.Sfa.sfa_retry
#print axioms Mdp.Sfa.sfa_no_train_after_failure
#print axioms Mdp.Sfa.sfa_inverse
#print axioms Mdp.Sfa.sfa2_form
#print axioms Mdp.Sfa.sfa2_form_range
#print axioms Mdp.Sfa.quadform_new
#print axioms Mdp.Sfa.sfa2_outputs
#print axioms Mdp.Sfa.sfa2_slowest
#print axioms Mdp.Sfa.sfa2_output_dim_false
#print axioms Mdp.Quad.extrema_optimal
#print axioms Mdp.Quad.extrema_small
#print axioms Mdp.Quad.extrema_terminates
#print axioms Mdp.Quad.maximize_terminates
#print axioms Mdp.Quad.maximize_terminates_neg
#print axioms Mdp.Quad.extrema_length_false
#print axioms Mdp.Quad.extrema_singular
#print axioms Mdp.Quad.extrema_short
#print axioms Mdp.Symeig.sfa_pca
#print axioms Mdp.Symeig.sfa_svd
#print axioms Mdp.Symeig.pca_correct
#print axioms Mdp.Symeig.svd_correct
#print axioms Mdp.Symeig.pca_error
#print axioms Mdp.Sfa.sfa_rank_output_dim_false
#print axioms Mdp.Sfa.sfa_rank_outputs
#print axioms Mdp.Symeig.blank_drops_first
#print axioms Mdp.Symeig.sfa_ignores_first
#print axioms Mdp.Symeig.sfa_pca_not_slowest_false
#print axioms Mdp.Symeig.blank_finds_constant
#print axioms Mdp.Symeig.blank_correlated
#print axioms Mdp.Symeig.blank_constant_first
#print axioms Mdp.Symeig.fake_correct
#print axioms Mdp.Symeig.plain_solves
#print axioms Mdp.Symeig.clampRange_spec
#print axioms Mdp.Symeig.svd_deficit_stale
#print axioms Mdp.RecExp.expansion
#print axioms Mdp.RecExp.degree_one_partial
#print axioms Mdp.RecExp.rational_degree_one_false
#print axioms Mdp.RecExp.degree_zero_false
#print axioms Mdp.RecExp.output_dim_partial
#print axioms Mdp.RecExp.check_spec
#print axioms Mdp.RecExp.train_range
#print axioms Mdp.RecExp.train_defined
#print axioms Mdp.RecExp.transform_inside
#print axioms Mdp.RecExp.transform_strictMono
#print axioms Mdp.RecExp.training_data_pass
#print axioms Mdp.RecExp.transform_id
#print axioms Mdp.RecExp.shift_minimal
#print axioms Mdp.RecExp.argument_kept_partial
#print axioms Mdp.RecExp.argument_changed_false
#print axioms Mdp.NeuralGas.gng_graph
#print axioms Mdp.NeuralGas.gng_positions
#print axioms Mdp.NeuralGas.gng_step
#print axioms Mdp.NeuralGas.gng_insert
#print axioms Mdp.NeuralGas.gng_tlen
#print axioms Mdp.NeuralGas.nearest_neighbor
#print axioms Mdp.NeuralGas.start_kept_partial
#print axioms Mdp.NeuralGas.start_changed_false
#print axioms Mdp.NeuralGas.ng_graph
#print axioms Mdp.NeuralGas.ng_one_node
#print axioms Mdp.NeuralGas.ng_step
#print axioms Mdp.NeuralGas.ng_positions
#print axioms Mdp.NeuralGas.ng_scheduled
#print axioms Mdp.NeuralGas.schedule_width
#print axioms Mdp.NeuralGas.schedule_ends
#print axioms Mdp.NeuralGas.ng_ages_partial
#print axioms Mdp.NeuralGas.schedule_ages
#print axioms Mdp.NeuralGas.ng_ages_false
#print axioms Bi.Layer.layer_run_partial
#print axioms Bi.Layer.layer_stop_copies
#print axioms Bi.Layer.layer_stop_shared
#print axioms Bi.Layer.trailing_columns_false
#print axioms Bi.Layer.messages_pass
#print axioms Bi.Layer.outgoing_message
#print axioms Bi.Layer.copies_same
#print axioms Bi.Layer.switch_to_copies
#print axioms Bi.Layer.switch_back_false
#print axioms Bi.Layer.incoming_flag
#print axioms Bi.Layer.outgoing_flag
#print axioms Bi.Layer.id_flag_ignored_false
#print axioms Bi.Layer.layer_execute
#print axioms Bi.Layer.switch_execute
#print axioms Bi.Layer.switch_low_index_refused
#print axioms Bi.Layer.switch_inverse_partial
#print axioms Bi.Layer.switch_not_invertible
#print axioms Bi.Layer.switch_inverse_violation
#print axioms Bi.FlowNode.flownode_execute_partial
#print axioms Bi.FlowNode.flownode_refused
#print axioms Bi.FlowNode.flownode_request
#print axioms Bi.FlowNode.flownode_reset
#print axioms Bi.FlowNode.flownode_flat
#print axioms Bi.FlowNode.addressed_inverse_false
#print axioms Bi.FlowNode.one_node_request_kept_false
#print axioms Bi.FlowNode.train_seq_partial
#print axioms Bi.FlowNode.train_seq_false
#print axioms Bi.FlowNode.train_refines
#print axioms Bi.FlowNode.train_flownode
#print axioms Bi.FlowNode.stop_refines
#print axioms Bi.FlowNode.train_last_no_target_false
#print axioms Bi.Coroutine.coroutine_continues_partial
#print axioms Bi.Coroutine.reset_clears
#print axioms Bi.Coroutine.after_exception_false
#print axioms Bi.Coroutine.returned_value_false
#print axioms PHinet.net_fork_join_train
#print axioms PHinet.fork_join_train
#print axioms PHinet.layer_lawful
#print axioms PHinet.flow_lawful
#print axioms PHinet.clone_lawful
#print axioms PHinet.built_lawful
#print axioms PHinet.pca_lawful
#print axioms PHinet.net_train_lost_violation
#print axioms PHinet.net_fork_join_exec
#print axioms PHinet.fork_join_exec
#print axioms PHinet.collector_lawful
#print axioms PHinet.layer_execution_lost_false
#print axioms PHinet.layer_collector_false
#print axioms PHinet.switch_back_merges
#print axioms PHinet.copies_fork_join
#print axioms PHinet.join_other_mode
#print axioms PHinet.switch_counts_prior_false
#print axioms PHinet.switch_back_after_training_false
#print axioms Bi.Gradient.flow_gradient
#print axioms Bi.Gradient.nodes_good
#print axioms Bi.Gradient.layer_good
#print axioms Bi.Gradient.identity_good
#print axioms Bi.Gradient.sfa_good
#print axioms Bi.Gradient.quad_good
#print axioms Bi.Gradient.sfa2_good
#print axioms Bi.Gradient.gradient_refused
#print axioms Bi.Gradient.clone_refused
#print axioms Bi.Gradient.layer_refuses
#print axioms Bi.Gradient.clone_first_false
#print axioms Bi.Gradient.same_input_error
#print axioms Bi.Gradient.same_input_false
#print axioms Mdp.Online.incremental_chunks
#print axioms Mdp.Online.incremental_cuts
#print axioms Mdp.Online.batch_chunks_false
#print axioms Mdp.Online.online_layer_train
#print axioms Mdp.Online.same_input_online_layer_train
#print axioms Mdp.Online.online_layer_train_node
#print axioms Mdp.Online.online_layer_stop
#print axioms Mdp.Online.online_layer_stop_dim
#print axioms Mdp.Online.online_layer_init
#print axioms Mdp.Online.online_layer_init_dims
#print axioms Mdp.Online.same_input_init_dims
#print axioms Mdp.Online.online_layer_type_fixed
#print axioms Mdp.Online.online_layer_execute_partial
#print axioms Mdp.Online.execute_trains_twice_false
#print axioms Mdp.Online.clone_online_layer_train
#print axioms Mdp.Online.clone_online_layer_stop_dim
#print axioms Mdp.Online.clone_online_layer_execute
#print axioms Mdp.Gsfa.regular_graph
#print axioms Mdp.Gsfa.unlabeled_graph
#print axioms Mdp.Gsfa.dict_graph
#print axioms Mdp.Gsfa.mirror_graph
#print axioms Mdp.Gsfa.slow_mirror_graph
#print axioms Mdp.Gsfa.truncating_graph
#print axioms Mdp.Gsfa.clustered_graph
#print axioms Mdp.Gsfa.clustered_graph_no_loops
#print axioms Mdp.Gsfa.serial_graph
#print axioms Mdp.Gsfa.clustered_list_graph
#print axioms Mdp.Gsfa.classification_graph
#print axioms Mdp.Gsfa.mixed_graph
#print axioms Mdp.Gsfa.array_graph_partial
#print axioms Mdp.Gsfa.array_graph_false
#print axioms Mdp.Gsfa.mirror_fast_slow
#print axioms Mdp.Gsfa.fast_window_partial
#print axioms Mdp.Gsfa.fast_window_false
#print axioms Mdp.Gsfa.window_graph_partial
#print axioms Mdp.Gsfa.fast_window_graph_partial
#print axioms Mdp.Gsfa.window_average_false
#print axioms Mdp.Gsfa.window_refused
#print axioms Mdp.Gsfa.modes_graphs_partial
#print axioms Mdp.Gsfa.modes_block_size_false
#print axioms Mdp.Gsfa.clustered_list_error
#print axioms Mdp.Gsfa.classification_short_false
#print axioms Mdp.Gsfa.classification_long
#print axioms Mdp.Gsfa.serial_single_false
#print axioms Mdp.Gsfa.dual_serial_graph
#print axioms Mdp.Gsfa.mixed_refused_false
#print axioms Mdp.Gsfa.gsfa_outputs
#print axioms Mdp.Gsfa.fix_weighted
#print axioms Mdp.Gsfa.gsfa_slowest
#print axioms Mdp.Gsfa.gsfa_retry
#print axioms Mdp.Gsfa.classification_order
#print axioms Mdp.Gsfa.join_graphs
#print axioms Mdp.Ccipca.amnesic_sum
#print axioms Mdp.Ccipca.amnesic_default
#print axioms Mdp.Ccipca.amnesic_average
#print axioms Mdp.Ccipca.components_unit
#print axioms Mdp.Ccipca.whitening_unit
#print axioms Mdp.Ccipca.train_total
#print axioms Mdp.Ccipca.first_component_average
#print axioms Mdp.Ccipca.reduced_partial
#print axioms Mdp.Ccipca.reduced_false
#print axioms Mdp.Ccipca.execute_take
#print axioms Mdp.Ccipca.inverse_execute
#print axioms Mdp.Ccipca.inverse_n_false
#print axioms Mdp.Ccipca.inverse_false
#print axioms Mdp.Ccipca.property_vectors
#print axioms Mdp.Ccipca.property_kept
#print axioms Mdp.Ccipca.constructor_vectors_false
#print axioms Mdp.Ccipca.minor_constructor_false
#print axioms Mdp.Ccipca.batch_refused
#print axioms Mdp.Ccipca.minor_unit
#print axioms Mdp.Ccipca.first_step
#print axioms Mdp.Ccipca.component_step
#print axioms Mdp.Ccipca.component_projection
#print axioms Mdp.Ccipca.components_fixed
#print axioms Mdp.Ccipca.minor_fixed
#print axioms Mdp.Ccipca.minor_fixed_converse
#print axioms Mdp.Ccipca.minor_total
#print axioms Mdp.Ccipca.minor_eigenvalue_false
#print axioms Mdp.Ccipca.minor_converges
#print axioms Mdp.IncSfa.first_chunk
#print axioms Mdp.IncSfa.later_chunk
#print axioms Mdp.IncSfa.zero_train
#print axioms Mdp.IncSfa.chunks_false
#print axioms Mdp.IncSfa.derivative
#print axioms Mdp.IncSfa.new_episode
#print axioms Mdp.IncSfa.rows_within
#print axioms Mdp.IncSfa.rows_episode
#print axioms Mdp.IncSfa.batch_chunk
#print axioms Mdp.IncSfa.execute_spec
#print axioms Mdp.IncSfa.centered_spec
#print axioms Mdp.IncSfa.keep_mean_false
#print axioms Mdp.Ica.cubica_orthogonal
#print axioms Mdp.Ica.cubica_data
#print axioms Mdp.Ica.cubica_sweeps
#print axioms Mdp.Ica.cubica_reported
#print axioms Mdp.Ica.cubica_angle_partial
#print axioms Mdp.Ica.cubica_angle_false
#print axioms Mdp.Ica.cubica_separated
#print axioms Mdp.Ica.jade_orthogonal
#print axioms Mdp.Ica.jade_ends
#print axioms Mdp.Ica.jade_stationary_partial
#print axioms Mdp.Ica.jade_stationary_violation
#print axioms Mdp.Ica.jade_angle_partial
#print axioms Mdp.Ica.jade_angle_false
#print axioms Mdp.Ica.jade_matrices_partial
#print axioms Mdp.Ica.jade_matrices_diff
#print axioms Mdp.Ica.jade_matrices_false
#print axioms Mdp.Ica.jade_criterion_false
#print axioms Mdp.Ica.jade_separated
#print axioms Mdp.Ica.fast_defl_partial
#print axioms Mdp.Ica.fast_defl_orthogonal
#print axioms Mdp.Ica.fast_zero_false
#print axioms Mdp.Ica.fast_fine
#print axioms Mdp.Ica.fast_guess
#print axioms Mdp.Ica.fast_guess_false
#print axioms Mdp.Ica.fast_separated
#print axioms Mdp.Ica.nonlinearity_derivative
#print axioms Mdp.Ica.nonlinearity_constant
#print axioms Mdp.Ica.fast_stabilised
#print axioms Mdp.Ica.fast_stabilised_symm
#print axioms Mdp.Ica.fast_symm
#print axioms Mdp.Ica.ica_white
#print axioms Mdp.Ica.ica_node
#print axioms Mdp.Ica.cubica_node
#print axioms Mdp.Ica.cubica_chunks
#print axioms Mdp.Ica.cubica_orth
#print axioms Mdp.Ica.jade_orth
#print axioms Mdp.Ica.ica_inverse
#print axioms Mdp.Ica.ica_whitened
#print axioms Mdp.Ica.ica_projmatrix
#print axioms Mdp.Ica.ica_recmatrix
#print axioms Mdp.Ica.ica_recmatrix_white
#print axioms Mdp.Ica.ica_reduce_false
#print axioms Mdp.Ica.telescope_spec
#print axioms Mdp.Ica.telescope_partial
#print axioms Mdp.Ica.powers_spec
#print axioms Mdp.Ica.telescope_false
#print axioms Mdp.Ica.retry_false
#print axioms Mdp.Rbm.rbm_energy
#print axioms Mdp.Rbm.rbm_hidden
#print axioms Mdp.Rbm.rbm_visible
#print axioms Mdp.Rbm.rbm_execute
#print axioms Mdp.Rbm.rbm_labels
#print axioms Mdp.Rbm.rbm_labels_sum
#print axioms Mdp.Rbm.rbm_labels_sample
#print axioms Mdp.Rbm.rbm_labels_execute
#print axioms Mdp.Rbm.rbm_stationary
#print axioms Mdp.Rbm.rbm_train
#print axioms Mdp.Rbm.rbm_train_labels
#print axioms Mdp.Rbm.rbm_free
#print axioms Mdp.Rbm.rbm_gradient
#print axioms Mdp.Rbm.rbm_updates_false
#print axioms Mdp.Rbm.rbm_empty_false
#print axioms Mdp.Rbm.rbm_steps
#print axioms Mdp.Rbm.rbm_decay
#print axioms Bi.Par.parallel_biflow_execute_partial
#print axioms Bi.Par.parallel_biflow_execute_back
#print axioms Bi.Par.parallel_biflow_execute_false
#print axioms Bi.Par.parallel_biflow_train_partial
#print axioms Bi.Par.parallel_biflow_stop_message_false
#print axioms Bi.Par.parallel_biflow_exit_false
#print axioms Bi.Par.parallel_biflow_no_data
#print axioms Bi.Par.one_scheduler_partial
#print axioms Bi.Par.scheduler_of_node
#print axioms Bi.Par.schedulers_per_node_false
#print axioms Bi.Par.schedulers_per_node_trained
#print axioms Bi.Par.checkpoint_stop_messages_false
#print axioms Bi.Par.checkpoint_no_scheduler_false
#print axioms Mdp.Ica.fast_step
#print axioms Mdp.Ica.fast_step_size
#print axioms Mdp.Ica.fast_long
#print axioms Mdp.Ica.fast_symm_switch
#print axioms Mdp.Ica.fast_newton
#print axioms Mdp.Ica.fast_failures
#print axioms Mdp.Online.oflownode_train
#print axioms Mdp.Online.oflownode_train_refused
#print axioms Mdp.Online.oflownode_train_as_flow
#print axioms Mdp.Online.oflownode_trained_node
#print axioms Mdp.Online.flownode_history
#print axioms Mdp.Online.oflownode_stop
#print axioms Mdp.Online.oflownode_stop_refused
#print axioms Mdp.Online.oflownode_execute_partial
#print axioms Mdp.Online.ringnode_execute_partial
#print axioms Mdp.Online.flownode_execute_refused
#print axioms Mdp.Online.unknown_execute_single
#print axioms Mdp.Online.unknown_execute_same
#print axioms Mdp.Online.unknown_execute_told
#print axioms Mdp.Online.unknown_execute_violation
#print axioms Mdp.Online.unknown_execute_refused
#print axioms Mdp.Online.flownode_init
#print axioms Mdp.Online.flownode_type
#print axioms Mdp.Online.ringnode_train
#print axioms Mdp.Online.ringnode_train_as_flow
#print axioms Mdp.Online.ringnode_stop_partial
#print axioms Mdp.Online.ringnode_stop_refused
#print axioms Mdp.Factor.fa_likelihood
#print axioms Mdp.Factor.em_increases
#print axioms Mdp.Factor.fa_refuses_partial
#print axioms Mdp.Factor.fa_refuses_large
#print axioms Mdp.Factor.fa_refuses_violation
#print axioms Mdp.Factor.fa_refused_unusable
#print axioms Mdp.Factor.fa_stops
#print axioms Mdp.Factor.fa_execute
#print axioms Mdp.Factor.fa_em
#print axioms Mdp.Factor.fa_generate_plain
#print axioms Mdp.Factor.fa_generate
#print axioms Mdp.Fda.fda_outputs
#print axioms Mdp.Fda.fda_best
#print axioms Mdp.Fda.fda_best_set
#print axioms Mdp.Fda.fda_no_retry
#print axioms Mdp.Fda.fda_inverse
#print axioms Mdp.Flow.recovery_same_train
#print axioms Mdp.Flow.train_dump
#print axioms Mdp.Flow.execute_dump
#print axioms Mdp.Flow.inverse_dump
#print axioms Mdp.Flow.execute_blames
#print axioms Mdp.Flow.first_node_recovery
#print axioms Mdp.Flow.nested_recovery_false
#print axioms Mdp.Flow.upstream_recovery_false
#print axioms Mdp.Flow.resume_partial
#print axioms Mdp.Flow.resume_counts_twice_false
#print axioms Mdp.Flow.resume_previous_node_false
#print axioms Mdp.Flow.saved_node
#print axioms Mdp.Flow.save_untrainable_false
#print axioms Mdp.Eta.eta_value
#print axioms Mdp.Eta.eta_none
#print axioms Mdp.Eta.eta_order
#print axioms Mdp.Eta.eta_affine
#print axioms Mdp.Eta.eta_overlap
#print axioms Mdp.Eta.eta_single
#print axioms Mdp.Eta.eta_cut_false
#print axioms Mdp.Eta.eta_wave
#print axioms Mdp.Eta.eta_wave_bounds
#print axioms Mdp.Eta.eta_sine_false
#print axioms Mdp.Eta.eta_sfa
#print axioms Mdp.Eta.eta_sfa_false
#print axioms Mdp.Copy.flow_copy
#print axioms Mdp.Copy.node_copy
#print axioms Mdp.Copy.apart_independent
#print axioms Mdp.Copy.flow_copy_error
#print axioms Mdp.Copy.flownode_copy
#print axioms Mdp.Copy.flownode_copy_succeeds
#print axioms Mdp.Copy.flownode_copy_changes_false
#print axioms Mdp.Copy.flownode_copy_often_false
#print axioms Mdp.Copy.flownode_copy_crash_false
#print axioms Mdp.Copy.flownode_copy_sharing_false
#print axioms Mdp.Copy.flow_add
#print axioms Mdp.Copy.flow_add_node
#print axioms Mdp.Copy.node_add_node
#print axioms Mdp.Copy.node_add_flow_copies
#print axioms Mdp.Copy.node_add_flow_false
#print axioms Mdp.Copy.binode_add_flow_copies
#print axioms Mdp.Copy.edit_flow
#print axioms Mdp.Copy.iadd_flow
#print axioms Mdp.Copy.iadd_shared_false
#print axioms Mdp.Copy.iadd_node_shared_false
#print axioms Mdp.Rand.random_rot_rotation
#print axioms Mdp.Rand.random_rot_zero_violation
#print axioms Mdp.Rand.random_rot_empty
#print axioms Mdp.Rand.symrand_spec
#print axioms Mdp.Rand.mult_diag_spec
#print axioms Mdp.Rand.symrand_complex_partial
#print axioms Mdp.Rand.symrand_complex_false
#print axioms Mdp.Routines.rotate_spec
#print axioms Mdp.Routines.rotate_add
#print axioms Mdp.Routines.rotate_degrees
#print axioms Mdp.Routines.permute_spec
#print axioms Mdp.Routines.permute_twice
#print axioms Mdp.Routines.cov2_value
#print axioms Mdp.Routines.cov2_partial
#print axioms Mdp.Routines.cov2_false
#print axioms Mdp.Routines.cov_maxima_spec
#print axioms Mdp.Routines.cov_maxima_sorted
#print axioms Mdp.Routines.cov_maxima_permutation
#print axioms Mdp.Routines.sqrtm_spec
#print axioms Mdp.Routines.sqrtm_none
#print axioms Mdp.Routines.gabor_value
#print axioms Mdp.Routines.gabor_centre
#print axioms Mdp.Routines.gabor_default_partial
#print axioms Mdp.Routines.gabor_default_false
#print axioms Mdp.Routines.izip_spec
#print axioms Mdp.Routines.izip_nothing
#print axioms Mdp.Routines.izip_length
#print axioms Mdp.Routines.izip_endless
#print axioms Mdp.Routines.orthogonal_permutations_mem
#print axioms Mdp.Routines.orthogonal_permutations_once
#print axioms Mdp.Routines.sign_round_trip
#print axioms Mdp.Nipals.nipals_orthonormal
#print axioms Mdp.Nipals.nipals_variance
#print axioms Mdp.Nipals.nipals_nan_last
#print axioms Mdp.Nipals.nipals_uncorrelated
#print axioms Mdp.Nipals.nipals_uncorrelated_exact
#print axioms Mdp.Nipals.nipals_eigenvectors
#print axioms Mdp.Nipals.nipals_total
#print axioms Mdp.Nipals.nipals_explained_partial
#print axioms Mdp.Nipals.nipals_explained_false
#print axioms Mdp.Nipals.nipals_desired_partial
#print axioms Mdp.Nipals.nipals_desired_false
#print axioms Mdp.Nipals.nipals_nan_partial
#print axioms Mdp.Nipals.nipals_constant_violation
#print axioms Mdp.Nipals.nipals_uncorrelated_violation
#print axioms Mdp.Nipals.nipals_order_false
#print axioms Mdp.Xsfa.xsfa_schedule
#print axioms Mdp.Xsfa.xsfa_schedule_end
#print axioms Mdp.Xsfa.xsfa_phases
#print axioms Mdp.Xsfa.normalize_outputs
#print axioms Mdp.Xsfa.normalize_variance
#print axioms Mdp.Xsfa.normalize_inverse
#print axioms Mdp.Xsfa.normalize_constant_violation
#print axioms Mdp.Xsfa.projection_train
#print axioms Mdp.Xsfa.projection_row
#print axioms Mdp.Xsfa.projection_orthogonal
#print axioms Mdp.Xsfa.projection_zero_refused
#print axioms Mdp.Xsfa.xsfa_sources_kept
#print axioms Mdp.Xsfa.xsfa_source
#print axioms Mdp.Rbf.rbf_isotropic
#print axioms Mdp.Rbf.rbf_anisotropic
#print axioms Mdp.Rbf.rbf_isotropic_anisotropic
#print axioms Mdp.Rbf.rbf_single
#print axioms Mdp.Rbf.rbf_refused
#print axioms Mdp.Rbf.rbf_integer_false
#print axioms Mdp.Rbf.gas_expansion
#print axioms Mdp.Rbf.gas_coincident_violation
#print axioms Mdp.Rbf.general_values
#print axioms Mdp.Rbf.general_repeated_violation
#print axioms Mdp.Conv.conv_values
#print axioms Mdp.Conv.conv_values_flat
#print axioms Mdp.Conv.conv_boundary
#print axioms Mdp.Conv.conv_valid
#print axioms Mdp.Conv.conv_textbook
#print axioms Mdp.Conv.conv_refused
#print axioms Mdp.Conv.conv_other_shape
#print axioms Mdp.Conv.conv_valid_refused
#print axioms Mdp.Conv.conv_filters_partial
#print axioms Mdp.Conv.conv_filters_violation
#print axioms Mdp.Conv.conv_filters_repeated_violation
#print axioms Mdp.Lle.lle_weights
#print axioms Mdp.Lle.lle_weights_auto
#print axioms Mdp.Lle.lle_refused
#print axioms Mdp.Lle.lle_training_succeeds
#print axioms Mdp.Lle.lle_all_points_violation
#print axioms Mdp.Lle.lle_execute
#print axioms Mdp.Lle.lle_execute_succeeds
#print axioms Mdp.Lle.lle_execute_rows_partial
#print axioms Mdp.Lle.lle_execute_rows_violation
#print axioms Mdp.Lle.lle_training_points_violation
#print axioms Mdp.Lle.lle_execute_trace_violation
#print axioms Mdp.Lle.lle_embedding_partial
#print axioms Mdp.Lle.lle_few_points_violation
#print axioms Mdp.Lle.lle_centred_violation
#print axioms Mdp.Lle.lle_invariant
#print axioms Mdp.Lle.lle_variance
#print axioms Mdp.Lle.mgs_ortho
#print axioms Mdp.Lle.mgs_divides_by_zero
#print axioms Mdp.Lle.hlle_few_neighbours_violation
#print axioms Mdp.Lle.hlle_embedding
#print axioms Mdp.Lle.hlle_refused
#print axioms Mdp.Lle.hlle_training_succeeds
#print axioms Mdp.Lle.hlle_all_points_violation
#print axioms Mdp.Lle.hlle_flat
#print axioms Mdp.Isfa.isfa_contrast_of_angle
#print axioms Mdp.Isfa.isfa_best_angle
#print axioms Mdp.Isfa.isfa_rotation
#print axioms Mdp.Isfa.isfa_improves_partial
#print axioms Mdp.Isfa.isfa_sweep_partial
#print axioms Mdp.Isfa.isfa_improves_false
#print axioms Mdp.Isfa.isfa_outputs
#print axioms Mdp.Isfa.isfa_white
#print axioms Mdp.Isfa.isfa_round_trip
#print axioms Mdp.Isfa.isfa_two_partial
#print axioms Mdp.Isfa.isfa_two_converges
#print axioms Mdp.Isfa.isfa_two_limit_two
#print axioms Mdp.Isfa.isfa_one_iteration_violation
#print axioms Mdp.Isfa.tdsep_one_lag_violation
#print axioms Mdp.Isfa.tdsep_objective
#print axioms Mdp.Isfa.tdsep_two_partial
#print axioms Mdp.Isfa.tdsep_separable_violation
#print axioms Mdp.Isfa.isfa_terminates
#print axioms Mdp.Isfa.isfa_limit_violation
#print axioms Mdp.Isfa.isfa_one_signal_violation
#print axioms Mdp.Isfa.isfa_weights
#print axioms Mdp.Isfa.isfa_weights_refused
#print axioms Mdp.Isfa.isfa_number_weight_violation
#print axioms Mdp.Isfa.isfa_lags
#print axioms Mdp.Isfa.isfa_whitened_dims
#print axioms Mdp.Isfa.isfa_outer_space_violation
#print axioms Mdp.Isfa.isfa_given_list_violation
#print axioms Mdp.QuadInv.invariances_spec
#print axioms Mdp.QuadInv.invariances_span
#print axioms Mdp.QuadInv.invariances_extremum
#print axioms Mdp.QuadInv.curvature_average
#print axioms Mdp.Symeig.reg_correct
#print axioms Mdp.Symeig.reg_succeeds
#print axioms Mdp.Symeig.reg_deficit_violation
#print axioms Mdp.Symeig.reg_deficit_case
#print axioms Mdp.Symeig.reg_constant_violation
#print axioms Mdp.Switchboard.factory_fits
#print axioms Mdp.Switchboard.factory_fits_iff
#print axioms Mdp.Switchboard.factory_route
#print axioms Mdp.Switchboard.factory_receptive_field
#print axioms Mdp.Switchboard.factory_image
#print axioms Mdp.Switchboard.factory_incompatible
#print axioms Mdp.Switchboard.factory_rhomb_violation
#print axioms Mdp.Switchboard.factory_params_violation
#print axioms Mdp.Switchboard.factory_mismatch_violation
#print axioms Mdp.Classifier.labels_collected
#print axioms Mdp.Classifier.labels_refused
#print axioms Mdp.Classifier.labels_list_violation
#print axioms Mdp.Classifier.labels_retry_violation
#print axioms Mdp.Classifier.execute_methods
#print axioms Mdp.Classifier.execute_unknown_violation
#print axioms Mdp.Classifier.bi_execute
#print axioms Mdp.Classifier.normalizer_round_trip
#print axioms Mdp.Classifier.normalizer_refused
#print axioms Mdp.Progress.transparent_partial
#print axioms Mdp.Progress.transparent_iterator_partial
#print axioms Mdp.Progress.transparent_last_partial
#print axioms Mdp.Progress.empty_violation
#print axioms Mdp.Progress.items_violation
#print axioms Mdp.Progress.items_first_violation
#print axioms Mdp.Progress.bar_length
#print axioms Mdp.Progress.bar_monotone
#print axioms Mdp.Progress.bar_left
#print axioms Mdp.Progress.bar_overflow_violation
#print axioms Mdp.Progress.bar_narrow_violation
#print axioms Mdp.Introspect.dig_sound
#print axioms Mdp.Introspect.dig_ends
#print axioms Mdp.Introspect.dig_complete_partial
#print axioms Mdp.Introspect.dig_names
#print axioms Mdp.Introspect.dig_sizes
#print axioms Mdp.Introspect.dig_none_violation
#print axioms Mdp.Introspect.dig_hidden_violation
#print axioms Mdp.Introspect.size_text
#print axioms Mdp.TempDir.tempdir_removed_partial
#print axioms Mdp.TempDir.tempdir_gone_iff
#print axioms Mdp.TempDir.tempdir_link_violation
#print axioms Mdp.TempDir.purge_removes
#print axioms Mdp.TempDir.tempdir_once
#print axioms Mdp.Noise.noise_types
#print axioms Mdp.Noise.noise_execute_partial
#print axioms Mdp.Noise.normal_execute_partial
#print axioms Mdp.Noise.noise_integer_violation
#print axioms Mdp.Noise.noise_type_violation
#print axioms Bi.sender_sends
#print axioms Bi.sender_delivered
#print axioms Bi.sender_passed_on
#print axioms Bi.sender_separator_violation
#print axioms Mdp.Config.config_info
#print axioms Mdp.Config.config_aligned
#print axioms Mdp.Config.config_bool
#print axioms Mdp.Config.config_empty_violation
#print axioms Mdp.PP.pp_results
#print axioms Mdp.PP.pp_results_contiguous
#print axioms Mdp.PP.pp_open_tasks
#print axioms Mdp.PP.pp_queue_bound
#print axioms Mdp.PP.pp_progress
#print axioms Mdp.PP.pp_list_gives
#print axioms Mdp.PP.pp_failed_task_blocks
#print axioms Mdp.PP.pp_ordered_gives_false
#print axioms Mdp.PPSlaves.kill_slaves_exact
#print axioms Mdp.PPSlaves.started_slaves
#print axioms Mdp.PPSlaves.kill_slaves_colon_refused
#print axioms Mdp.PPSlaves.starts_all_partial
#print axioms Mdp.PPSlaves.starts_all_false
#print axioms Mdp.PPSlaves.kill_filename_refused
#print axioms Mdp.PPSlaves.autodetect_refused
#print axioms Mdp.PPSlaves.python3_refused
#print axioms Mdp.PPSlaves.failed_script_taken_for_running
#print axioms Mdp.Scikits.action_exactly_once
#print axioms Mdp.Scikits.wrap_kind
#print axioms Mdp.Scikits.every_algorithm_has_node_partial
#print axioms Mdp.Scikits.every_algorithm_has_node_false
#print axioms Bi.Autogen.generated_signature
#print axioms Bi.Autogen.generated_refuses
#print axioms Bi.Autogen.no_defaults_refused
#print axioms Bi.Autogen.varargs_refused
#print axioms Bi.Autogen.biName_spec
#print axioms Bi.Autogen.biName_injective_partial
#print axioms Bi.Autogen.biName_injective_false
#print axioms Mdp.Templet.compile_render
#print axioms Mdp.Templet.escape_round_trip
#print axioms Mdp.Templet.plain_text
#print axioms Mdp.Templet.code_blank_line
#print axioms Mdp.Templet.directive_name
#print axioms Mdp.Templet.unescaped_refused
#print axioms Mdp.Templet.call_refused
#print axioms Mdp.Templet.realign_spec
#print axioms Mdp.LibSvm.kernel_spec
#print axioms Mdp.LibSvm.classifier_spec
#print axioms Mdp.LibSvm.init_spec
#print axioms Mdp.LibSvm.init_bad_kernel
#print axioms Mdp.LibSvm.init_bad_param
#print axioms Mdp.Shogun.options_history
#print axioms Mdp.Shogun.setOptions_set
#print axioms Mdp.Shogun.setOptions_get
#print axioms Mdp.Shogun.own_options_partial
#print axioms Mdp.Shogun.options_leak_violation
#print axioms Mdp.Shogun.kernel_named_options
#print axioms Mdp.Shogun.kernel_unknown_option
#print axioms Mdp.Shogun.kernel_list_refused
#print axioms Mdp.Shogun.kernel_unknown_refused
#print axioms Mdp.Shogun.kernel_bare_refused
#print axioms Mdp.Shogun.text_choice
#print axioms Mdp.Shogun.first_working_violation
#print axioms Mdp.Shogun.set_ok
#print axioms Mdp.Shogun.set_fails_forgets
#print axioms Mdp.Shogun.foreign_class_violation
#print axioms Mdp.Shogun.training_set_bucket
#print axioms Mdp.Shogun.training_set_perm
#print axioms Bi.Peek.peek_iterator_queue
#print axioms Bi.Peek.first_elem_spec
#print axioms Bi.Peek.first_elem_empty
#print axioms Bi.Peek.samples_spec
#print axioms Bi.Tracer.traced_call
#print axioms Bi.Tracer.undecorate_decorate
#print axioms Bi.Tracer.traced_copy
#print axioms Bi.Tracer.undecorate_clean
#print axioms Bi.Tracer.trace_restores
#print axioms Bi.Tracer.during_trace
#print axioms Bi.Tracer.twice_decorated_recursion
#print axioms Bi.Tracer.trace_exception_violation
#print axioms Bi.Tracer.shared_node_violation
#print axioms Bi.Tracer.override_lost_violation
#print axioms Bi.Tracer.clone_round_trip
#print axioms Bi.Snapshots.remove_prepare
#print axioms Bi.Snapshots.remove_interrupted_violation
#print axioms Bi.Snapshots.snapshots_written
#print axioms Bi.Snapshots.prepare_twice_violation
#print axioms Bi.Snapshots.read_in_order_iff
#print axioms Bi.Snapshots.slide_table
#print axioms Bi.Snapshots.eleven_phases_violation
#print axioms Bi.Snapshots.no_debug
#print axioms Bi.Snapshots.debug_mode_violation
#print axioms Mdp.ODict.ordered_dict
#print axioms Mdp.ODict.popitem_spec
#print axioms Mdp.Backend.named_backend
#print axioms Mdp.Backend.default_backend
#print axioms Mdp.Backend.other_values
#print axioms Mdp.Backend.backend_recorded
#print axioms Mdp.Backend.too_old_iff
#print axioms Mdp.Backend.numeric_version
#print axioms Mdp.Backend.version_order_partial
#print axioms Mdp.Backend.short_version_violation
#print axioms Mdp.Meta.wrappers_transparent
#print axioms Mdp.Meta.build_fails_iff
#print axioms Mdp.Meta.mixin_skipped_violation
#print axioms Mdp.Meta.extension_effective_partial
#print axioms Mdp.Meta.extension_bypassed_violation
#print axioms Mdp.VartimeSfa.vartime_sfa_partial
#print axioms Mdp.VartimeSfa.vartime_sfa_separate_partial
#print axioms Mdp.VartimeSfa.one_row_refused
#print axioms Mdp.VartimeSfa.uninitialised_violation
#print axioms Mdp.VartimeSfa.two_rows_violation
#print axioms Mdp.VartimeSfa.parallel_separate
#print axioms Mdp.VartimeSfa.parallel_violation
#print axioms Mdp.IGsfa.inverse_execute
#print axioms Mdp.IGsfa.inverse_exact
#print axioms Mdp.IGsfa.slow_ignored
#print axioms Mdp.IGsfa.slow_part_variance
#print axioms Mdp.IGsfa.explained_variance
#print axioms Mdp.IGsfa.slow_translation
#print axioms Mdp.IGsfa.sizes_sum
#print axioms Mdp.IGsfa.slow_by_threshold
#print axioms Mdp.IGsfa.slow_by_number
#print axioms Mdp.IGsfa.execute_width_partial
#print axioms Mdp.IGsfa.inner_dim
#print axioms Mdp.IGsfa.scaling_refused
#print axioms Mdp.IGsfa.qr_width_violation
#print axioms Mdp.IGsfa.reduce_execute
#print axioms Mdp.IGsfa.reduce_explained
#print axioms Mdp.IGsfa.several_batches
#print axioms Mdp.IGsfa.single_batch
#print axioms Mdp.Gsfa.graph_delta_spec
#print axioms Mdp.Gsfa.comp_delta_spec
#print axioms Mdp.Gsfa.hamming_bits
#print axioms Mdp.Gsfa.hamming_list
#print axioms Mdp.DefaultFork.fork_partial
#print axioms Mdp.DefaultFork.fork_same_arguments_partial
#print axioms Mdp.DefaultFork.no_defaults_violation
#print axioms Mdp.DefaultFork.name_clash_violation
#print axioms Bi.Items.getItem_first
#print axioms Bi.Items.contains_iff
#print axioms Bi.Items.set_del_refused
#print axioms Mdp.Gsfa.old_array_graph
#print axioms Mdp.Gsfa.graph_agrees_partial
#print axioms Mdp.Gsfa.graph_agrees_violation
#print axioms Mdp.Gsfa.compact_graph
#print axioms Mdp.Gsfa.compact_default
#print axioms Mdp.Gsfa.compact_full
#print axioms Mdp.Gsfa.compact_full_violation
#print axioms Mdp.Gsfa.compact_list
#print axioms Mdp.Gsfa.compact_refused
#print axioms Mdp.Gsfa.single_class_violation
#print axioms Mdp.Gsfa.smart2_graph
#print axioms Mdp.Gsfa.smart2_consistent
#print axioms Mdp.Gsfa.smart2_negative_violation
#print axioms Mdp.Gsfa.smart2_moment_violation
#print axioms Mdp.Gsfa.smart_refused
#print axioms Mdp.Gsfa.smart3_sums_partial
#print axioms Mdp.Gsfa.smart3_average_violation
#print axioms Mdp.Gsfa.smart3_scaled_violation
#print axioms Mdp.Html.show_flow_page
#print axioms Mdp.Html.show_flow_valid
#print axioms Mdp.Html.show_flow_refused
#print axioms Mdp.Html.double_rect_violation
#print axioms Mdp.Html.rect_line_violation
#print axioms Mdp.Html.rect_line_partial
#print axioms Mdp.Html.use_copies_violation
#print axioms Mdp.ScikitsNode.sk_trained
#print axioms Mdp.ScikitsNode.sk_output_dim_violation
#print axioms Mdp.ScikitsNode.sk_fit_failed
#print axioms Mdp.ScikitsNode.sk_retry_violation
#print axioms Mdp.ScikitsNode.sk_supervised_violation
#print axioms Mdp.ScikitsNode.cls_trained
#print axioms Mdp.ScikitsNode.cls_prob_violation
#print axioms Mdp.Symeig.ldl_correct
#print axioms Mdp.Symeig.sfa_ldl
#print axioms Mdp.Symeig.ldl_threshold_violation
#print axioms Mdp.Sfa.sfa_tries
#print axioms Mdp.Sfa.plain_full
#print axioms Mdp.Sfa.pca_full
#print axioms Mdp.Sfa.svd_full
#print axioms Mdp.Sfa.reg_full
#print axioms Mdp.Sfa.reg_retry_restored
#print axioms Mdp.Sfa.reg_retry_drift
#print axioms Mdp.Sfa.reg_retry_violation
#print axioms Mdp.Sfa.ldl_retry_keeps
#print axioms Mdp.Sfa.ldl_retry_violation
#print axioms Mdp.SvmTrain.lib_trained
#print axioms Mdp.SvmTrain.labels_refused
#print axioms Mdp.SvmTrain.labels2_refused
#print axioms Mdp.SvmTrain.lib_prob
#print axioms Mdp.SvmTrain.sg_trained
#print axioms Mdp.SvmTrain.sg_kernel_retry
#print axioms Mdp.SvmTrain.sg_refused
#print axioms Mdp.SvmTrain.sg_more_data_violation
#print axioms Mdp.Preimage.residuals_objective
#print axioms Mdp.Preimage.pseudo_inverse_improves
#print axioms Mdp.Preimage.invert_get
#print axioms Mdp.Preimage.nonlinear_improves
#print axioms Mdp.Preimage.integer_hint_violation
#print axioms Mdp.Repr.node_repr
#print axioms Mdp.Repr.bi_repr
#print axioms Mdp.Repr.flow_repr
#print axioms Mdp.Repr.flow_str
#print axioms Mdp.Repr.flow_repr_violation
#print axioms Mdp.Repr.incsfa_repr_violation
#print axioms Mdp.IncSfa.exec_inverse
#print axioms Mdp.IncSfa.inverse_nearest
#print axioms Mdp.IncSfa.inverse_violation
#print axioms Mdp.Saving.save_string
#print axioms Mdp.Saving.save_load
#print axioms Mdp.Saving.save_not_opened
#print axioms Mdp.Saving.save_ascii_violation
#print axioms Mdp.Saving.save_failed_violation
#print axioms Mdp.Saving.checkpoint_modes
#print axioms Mdp.Saving.robust_pickle
#print axioms Mdp.Saving.robust_write
#print axioms Mdp.Saving.robust_refused
#print axioms Mdp.IcaOptions.ica_options
#print axioms Mdp.IcaOptions.ica_default
#print axioms Mdp.IcaOptions.ica_late_options_violation
#print axioms Mdp.IcaOptions.isfa_options
#print axioms Mdp.IcaOptions.tdsep_options_violation
#print axioms Mdp.IcaOptions.xsfa_kwargs_violation
#print axioms Mdp.ODict.items_spec
#print axioms Mdp.ODict.copy_spec
#print axioms Mdp.ODict.pickle_spec
#print axioms Mdp.ODict.fromkeys_spec
#print axioms Mdp.ODict.setdefault_spec
#print axioms Mdp.ODict.pop_spec
#print axioms Mdp.ODict.eq_ordered_spec
#print axioms Mdp.ODict.eq_dict_spec
#print axioms Mdp.ODict.eq_transitive_violation
#print axioms Mdp.Fixup.fixup_ends
#print axioms Mdp.Fixup.fixup_spec
#print axioms Mdp.Fixup.fixup_all
#print axioms Mdp.Fixup.fixup_missing
#print axioms Mdp.Bi.Slides.getBody_page
#print axioms Mdp.Bi.Slides.execution_slides
#print axioms Mdp.Bi.Slides.execution_sections_refused
#print axioms Mdp.Bi.Slides.training_slides
#print axioms Mdp.Bi.Slides.no_css_violation
#print axioms Mdp.Rng.rng_everywhere
#print axioms Mdp.Rng.rng_refused
#print axioms Mdp.Rng.rng_reproducible
#print axioms Mdp.Rng.rng_shared
#print axioms Mdp.Rng.rng_order
#print axioms Mdp.Rng.train_again
#print axioms Mdp.Rng.own_generator_partial
#print axioms Mdp.Rng.new_generators
#print axioms Mdp.Rng.generators_kept
#print axioms Mdp.Rng.inner_generators_violation
#print axioms Mdp.Rng.no_generator_violation
#print axioms Mdp.Setup.dependencies_partial
#print axioms Mdp.Setup.disabled_import_violation
#print axioms Mdp.Setup.libsvm_disabled
#print axioms Mdp.Setup.pp_python3
#print axioms Mdp.Setup.pp_secret
#print axioms Mdp.Setup.dtypes_partial
#print axioms Mdp.Setup.dtypes_violation
#print axioms Mdp.TraceHtml.trace_tables
#print axioms Mdp.TraceHtml.trace_ids
#print axioms Mdp.TraceHtml.trace_current
#print axioms Mdp.TraceHtml.trace_same_ids
#print axioms Mdp.TraceData.slide_page
#print axioms Mdp.TraceData.stop_page
#print axioms Mdp.TraceData.slide_nested_partial
#print axioms Mdp.TraceData.slide_raises
#print axioms Mdp.TraceData.slide_nested_violation
#print axioms Mdp.TraceData.stop_message_violation
#print axioms Mdp.Slideshow.image_slideshow_accepts
#print axioms Mdp.Slideshow.section_links
#print axioms Mdp.Slideshow.load_shows
#print axioms Mdp.Slideshow.next_shows
#print axioms Mdp.Slideshow.previous_shows
#print axioms Mdp.Slideshow.goto_shows
#print axioms Mdp.Slideshow.nextSection_shows
#print axioms Mdp.Slideshow.previousSection_shows
#print axioms Mdp.Slideshow.slideshow_buttons
#print axioms Mdp.Slideshow.slideshow_consistent
#print axioms Mdp.Slideshow.autoplay_loop
#print axioms Mdp.Slideshow.autoplay_end
#print axioms Mdp.Slideshow.delay_nonneg
#print axioms Mdp.Slideshow.autoplay_timers_partial
#print axioms Mdp.Slideshow.autoplay_timers_violation
#print axioms Mdp.Slideshow.delay_none_violation
#print axioms Mdp.Slideshow.section_loop_violation
#print axioms Mdp.BiArgs.single_array
#print axioms Mdp.BiArgs.single_message
#print axioms Mdp.BiArgs.nothing_refused
#print axioms Mdp.BiArgs.chunks_in_order
#print axioms Mdp.BiArgs.short_messages_violation
#print axioms Mdp.BiArgs.messages_only_violation
#print axioms Mdp.BiArgs.messages_only_partial
#print axioms Mdp.BiArgs.dictionary_keys
#print axioms Mdp.BiArgs.parallel_tasks
#print axioms Mdp.BiArgs.train_array
#print axioms Mdp.BiArgs.train_lists
#print axioms Mdp.BiArgs.train_count_refused
#print axioms Mdp.BiArgs.train_message_count_refused
#print axioms Mdp.BiArgs.train_messages_count_violation
#print axioms Mdp.BiPhases.phases_repeat
#print axioms Mdp.BiPhases.iterator_refused
#print axioms Mdp.BiPhases.iterator_rest_violation
#print axioms Mdp.BiPhases.short_stops_violation
#print axioms Mdp.BiPhases.parallel_training
#print axioms Mdp.BiPhases.parallel_stop_missing
#print axioms Mdp.BiPhases.parallel_stops_violation
#print axioms Bi.Autogen.module_complete
#print axioms Bi.Autogen.module_no_default_refused
#print axioms Bi.Autogen.module_alias_refused
#print axioms Mdp.DigText.dig_text
#print axioms Mdp.DigText.dig_text_empty_violation
#print axioms Bi.Page.training_page
#print axioms Bi.Page.images_page
#print axioms Bi.Page.execution_page
#print axioms Bi.Page.execution_browser_empty_violation
#print axioms Bi.Page.execution_browser_blocks_violation
#print axioms Bi.Page.training_none_violation
#print axioms Bi.Page.images_temporary_violation
#print axioms Bi.Page.images_refused_violation
#print axioms Mdp.Xhtml.xhtml_none_left
#print axioms Mdp.Xhtml.xhtml_replaces
#print axioms Mdp.Xhtml.xhtml_calls
#print axioms Mdp.Xhtml.xhtml_exception_violation
