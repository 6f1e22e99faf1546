{
 "claims": [
  {
   "property": "C01",
   "status": "proved",
   "theorems": [
    "Verif.C01_edits_wellformed"
   ],
   "note": "All reachable states, including after failed edits."
  },
  {
   "property": "C02",
   "status": "partial",
   "theorems": [
    "Verif.C02_parents_exact_partial",
    "Verif.C02_parents_complete",
    "Verif.C02_ghost_parent"
   ],
   "note": "Exact without one-way hard removals; no live parent is ever missing; negation witnessed for one-way hard remove_edge."
  },
  {
   "property": "C03",
   "status": "proved",
   "theorems": [
    "Verif.C03_queries_agree"
   ],
   "note": "Holds for every graph value."
  },
  {
   "property": "C04",
   "status": "proved",
   "theorems": [
    "Verif.C04_edit_effect",
    "Verif.C04_history_effect"
   ],
   "note": "Refinement to a set of ordered pairs."
  },
  {
   "property": "C05",
   "status": "proved",
   "theorems": [
    "Verif.C05_purge_invisible",
    "Verif.C05_soft_purge_eq_hard"
   ],
   "note": ""
  },
  {
   "property": "C06",
   "status": "partial",
   "theorems": [
    "Verif.C06_soft_round_trip",
    "Verif.C06_hard_round_trip_partial",
    "Verif.C06_hard_round_trip_fails"
   ],
   "note": "Soft round trip is exact. After a hard removal type (and for restore_edge also metadata) is lost; witnessed."
  },
  {
   "property": "C07",
   "status": "partial",
   "theorems": [
    "Verif.C07_failing_edit_atomic_partial",
    "Verif.C07_restore_edge_failure",
    "Verif.C07_remove_edge_failure",
    "Verif.C07_not_atomic"
   ],
   "note": "Atomic for all edits except hard remove_edge and restore_edge, for which the claim is false; the exact damage is proved."
  },
  {
   "property": "C08",
   "status": "proved",
   "theorems": [
    "Verif.C08_update_edge",
    "Verif.C08_update_directed_edge"
   ],
   "note": ""
  },
  {
   "property": "C09",
   "status": "partial",
   "theorems": [
    "Verif.C09_edge_accessors_partial",
    "Verif.C09_edge_accessors_raise_iff",
    "Verif.C09_opposite_direction_fails"
   ],
   "note": "False for pairs joined only in the opposite direction; exact failure condition proved."
  },
  {
   "property": "C10",
   "status": "proved",
   "theorems": [
    "Verif.C10_add_node",
    "Verif.C10_nodes_unique_and_stable"
   ],
   "note": ""
  },
  {
   "property": "C100",
   "status": "partial",
   "theorems": [
    "Verif.Sample.C100_constant_variance_partial",
    "Verif.Sample.C100_two_lags_fail",
    "Verif.Sample.C100_common_source_fail"
   ],
   "note": "False of the code: the initial values of different variables are drawn independently, and one value serves for all times before the start. Proved where every lag is one and no two edges share a source."
  },
  {
   "property": "C101",
   "status": "proved",
   "theorems": [
    "Verif.Sample.C101_variance_converges"
   ],
   "note": "Same assumptions as C99."
  },
  {
   "property": "C102",
   "status": "proved",
   "theorems": [
    "Verif.C102_partial_correlation_zero",
    "Verif.C102_tests_report_independence"
   ],
   "note": "Exact real arithmetic."
  },
  {
   "property": "C103",
   "status": "proved",
   "theorems": [
    "Verif.C103_pc_recovers_cpdag",
    "Verif.C103_hidden_dependence_reverses_arrow"
   ],
   "note": "Exact real arithmetic; the normal distribution function is any strictly increasing function with value 1/2 at 0, which the true one is shown to be. The last step of the algorithms (direct effects) is C89 to C92. The second theorem shows that the visibility condition is needed."
  },
  {
   "property": "C104",
   "status": "proved",
   "theorems": [
    "Verif.C104_robust"
   ],
   "note": "Same assumptions as C103."
  },
  {
   "property": "C105",
   "status": "partial",
   "theorems": [
    "Verif.C105_regression_partial",
    "Verif.C105_nearly_perfect",
    "Verif.C105_separated",
    "Verif.C105_no_controls_raises",
    "Verif.C105_shift_changes_verdict"
   ],
   "note": "False of the code: the regression has no intercept, so the verdict depends on the averages of the columns. Proved for columns with average zero and partial correlations not within 0.00005 of 1 or -1. torch.linalg.lstsq is assumed to solve the normal equations (exists_solves)."
  },
  {
   "property": "C106",
   "status": "proved",
   "theorems": [
    "Verif.C106_never_reported",
    "Verif.C106_constant_stays_connected"
   ],
   "note": "A disagreement with what one expects: a constant is independent of everything."
  },
  {
   "property": "C107",
   "status": "proved",
   "theorems": [
    "Verif.C107_marks_exactly",
    "Verif.C107_correlation_lost",
    "Verif.C107_triangle_marked"
   ],
   "note": "The metadata are replaced as a whole: the correlation of a marked edge is lost (C107_correlation_lost). Nodes joined by a one-way edge count as not adjacent (C107_triangle_marked)."
  },
  {
   "property": "C108",
   "status": "proved",
   "theorems": [
    "Verif.C108_arrowheads_of_dag"
   ],
   "note": ""
  },
  {
   "property": "C109",
   "status": "partial",
   "theorems": [
    "Verif.C109_inducing_partial",
    "Verif.C109_never_true",
    "Verif.C109_raises_iff",
    "Verif.C109_direct_edge_denied"
   ],
   "note": "False of the code: the method calls a method that does not exist, never answers True and raises AttributeError for longer paths. True only for nodes without a direct edge, where False is right, if the call answers."
  },
  {
   "property": "C11",
   "status": "proved",
   "theorems": [
    "Verif.C11_history_append_only",
    "Verif.C11_recorded_action_stays",
    "Verif.C11_actions_append_only",
    "Verif.C11_actions_reachable"
   ],
   "note": "Edits and applied pipeline actions, including ones that raise. Two steps write into dictionaries that recorded entries share; that is C116."
  },
  {
   "property": "C110",
   "status": "proved",
   "theorems": [
    "Verif.C110_generate_and_recover"
   ],
   "note": "Exact arithmetic; uncorrelated noise is a condition on the draws, met by C111 only up to a margin."
  },
  {
   "property": "C111",
   "status": "proved",
   "theorems": [
    "Verif.C111_robust_in_the_draws"
   ],
   "note": ""
  },
  {
   "property": "C112",
   "status": "proved",
   "theorems": [
    "Verif.C112_choice",
    "Verif.C112_no_data",
    "Verif.C112_result"
   ],
   "note": "Reading the options and the printed text are reduced to the edges shown; the files are parameters."
  },
  {
   "property": "C113",
   "status": "partial",
   "theorems": [
    "Verif.C113_shown_is_saved_partial",
    "Verif.C113_loop_shows_deleted"
   ],
   "note": "Holds if the last step is not a logic step, and the saved edges are always among the printed ones. After a final Loop or ApplyActionsTogether, removed edges are still printed; the negation is proved with a witness."
  },
  {
   "property": "C114",
   "status": "proved",
   "theorems": [
    "Verif.C114_graph_and_coefficients",
    "Verif.C114_generated"
   ],
   "note": "Exact arithmetic. Arrows into variables with undirected edges are excluded from the claim about effects; C92 has the witness that it fails there. Without the average zero the effects are wrong in general, see C91."
  },
  {
   "property": "C115",
   "status": "proved",
   "theorems": [
    "Verif.C115_parallel_graph_and_coefficients"
   ],
   "note": "Beyond one batch of triples it fails already for the adjacencies, see C84."
  },
  {
   "property": "C116",
   "status": "partial",
   "theorems": [
    "Verif.C116_entries_stay_partial",
    "Verif.C116_exact_without_writes",
    "Verif.C116_entries_change"
   ],
   "note": "False of the code: CalculatePearsonCorrelations and the effect step write into the stored dictionary, which the entry of an earlier metadata update shares, so that such entries change afterwards; the negation is proved with a witness. Proved: order, nodes, actions and all other data stay, of metadata updates all but the overwritten keys; everything stays if no step writes in place."
  },
  {
   "property": "C117",
   "status": "proved",
   "theorems": [
    "Verif.C117_sharing_is_invisible",
    "Verif.C117_algorithms",
    "Verif.C117_covers"
   ],
   "note": "No worker pool (workers get copies), no restore actions. That pydantic copies a dictionary when a model is constructed and not on attribute assignment is taken from its source. Set iteration must not depend on edge metadata (OrdOk)."
  },
  {
   "property": "C118",
   "status": "proved",
   "theorems": [
    "Verif.C118_methods",
    "Verif.C118_never_lost",
    "Verif.C118_no_conflict",
    "Verif.C118_shipped"
   ],
   "note": "One process; worker processes are not modelled. Python's C3 linearisation is modelled; a class is its resolution order and the names it defines."
  },
  {
   "property": "C119",
   "status": "partial",
   "theorems": [
    "Verif.C119_implementation_partial",
    "Verif.C119_other_algorithm_decides",
    "Verif.C119_inheritance_may_fail",
    "Verif.C119_methods_leak"
   ],
   "note": "False of the code: the base classes of Graph accumulate over all factory calls, in the order of a set; three witnesses. Proved for methods that only one class in use defines."
  },
  {
   "property": "C12",
   "status": "proved",
   "theorems": [
    "Verif.C12_retrieve_edges_exact"
   ],
   "note": ""
  },
  {
   "property": "C120",
   "status": "proved",
   "theorems": [
    "Verif.Workspace.Crash.C120_undisturbed",
    "Verif.Workspace.Crash.C120_old_new_or_one_cut",
    "Verif.Workspace.Crash.C120_execute_keeps",
    "Verif.Workspace.Crash.C120_clear_order",
    "Verif.Workspace.Crash.C120_workspace_only"
   ],
   "note": "Killed process, not loss of power: what was handed to the operating system stays, in order. The python and notebook files that `init`, `pipeline add` and `data-loader add` generate are not modelled."
  },
  {
   "property": "C121",
   "status": "proved",
   "theorems": [
    "Verif.Workspace.Crash.C121_recovers"
   ],
   "note": "Assumed: the JSON parser reads back a complete result and refuses a proper beginning of one with a ValueError; the clock does not run backwards; pipelines are not python modules of the workspace directory."
  },
  {
   "property": "C122",
   "status": "partial",
   "theorems": [
    "Verif.Workspace.Crash.C122_old_new_or_unreadable_partial",
    "Verif.Workspace.Crash.C122_clear_may_leave",
    "Verif.Workspace.Crash.C122_lost_experiment",
    "Verif.Workspace.Crash.C122_not_all_or_nothing"
   ],
   "note": "False of the code: `workspace.yml` is written in place. Witness with an emitter and parser for the block YAML that the dump produces: `clear` on one experiment, killed while it rewrites the unchanged workspace, loses an experiment and changes the pipeline of another. Proved: old, new or a beginning of the new text; if that cannot be read, every command but `init` fails without changing anything."
  },
  {
   "property": "C123",
   "status": "partial",
   "theorems": [
    "Verif.Workspace.Concurrent.C123_undisturbed",
    "Verif.Workspace.Concurrent.C123_version",
    "Verif.Workspace.Concurrent.C123_newest_partial",
    "Verif.Workspace.Concurrent.C123_saved_meanwhile",
    "Verif.Workspace.Concurrent.C123_cleared_meanwhile",
    "Verif.Workspace.Concurrent.C123_cut_off",
    "Verif.Workspace.Concurrent.C123_not_its_version"
   ],
   "note": "False of the code for the newest result; the negation is proved with two witnesses. Proved for given versions, and for the newest result while only other experiments change. Listing the directory and reading a file are one step each; the objects built from the JSON value are left out."
  },
  {
   "property": "C124",
   "status": "partial",
   "theorems": [
    "Verif.Workspace.Concurrent.C124_some_sequence_partial",
    "Verif.Workspace.Concurrent.C124_intact",
    "Verif.Workspace.Concurrent.C124_with_executions",
    "Verif.Workspace.Concurrent.C124_clear_undoes",
    "Verif.Workspace.Concurrent.C124_not_one_after_the_other"
   ],
   "note": "False of the code: overlapping commands lose changes; every change can be undone by a `clear` that was started before. Proved: the outcome is one of some of the commands in sequence, references stay intact, executions do not matter. Reading the workspace and writing a file are one step each (half-written files: C120-C122); result files found by a command are arbitrary."
  },
  {
   "property": "C125",
   "status": "partial",
   "theorems": [
    "Verif.Serial.Eject.C125_file",
    "Verif.Serial.Eject.C125_same_partial",
    "Verif.Serial.Eject.C125_values_frozen",
    "Verif.Serial.Eject.C125_values_live",
    "Verif.Serial.Eject.C125_no_model",
    "Verif.Serial.Eject.C125_shipped_fail"
   ],
   "note": "False of the code for the shipped algorithms; `C125_no_model` and `C125_shipped_fail` prove the negation for all data and all values of the variables. Proved for algorithms without edge types whose steps survive dumping (C57). Extensions are left out; what a list of steps does with data is a parameter."
  },
  {
   "property": "C126",
   "status": "partial",
   "theorems": [
    "Verif.C126_never_wrong",
    "Verif.C126_pipeline",
    "Verif.C126_ends_or_waits_partial",
    "Verif.C126_waits_forever"
   ],
   "note": "False of the code that it ends: `C126_waits_forever` proves the negation for every step with a combination. Proved: outcomes are never wrong, no schedule is endless, and exactly when the step waits forever. Assumes python's pool: a dead worker is replaced, its batch is not given to another, idle deaths change nothing; workers killed while holding a lock of a queue are left out."
  },
  {
   "property": "C127",
   "status": "proved",
   "theorems": [
    "Verif.C127_file_to_file",
    "Verif.C127_generated"
   ],
   "note": "Exact real arithmetic. Composition of C52, C112, C114 and C115; the normal distribution function, least squares, orders of sets and schedules are parameters with their specifications (Machine.Valid, shown satisfiable in exMachine_valid). Hidden dependence, averages and the limit of 67 are necessary: see C84, C91, C103. Both algorithms end in every schedule without deaths of workers, see C126."
  },
  {
   "property": "C128",
   "status": "proved",
   "theorems": [
    "Verif.C128_rounding"
   ],
   "note": "delta exists, its size is not computed. Arith.Precise is shown satisfiable by fixed point arithmetic (gridArith_precise). The determinant and the inverse are assumed right for a matrix that differs by rounding (backward stable). That torch, numpy and scipy meet the bounds is an assumption. The batch limit for ParallelPC is necessary, see C84."
  },
  {
   "property": "C129",
   "status": "proved",
   "theorems": [
    "Verif.C129_rounding_effects"
   ],
   "note": "As C128. The solver is assumed backward stable; gridSolver_exists shows such a solver. exGrid applies the theorem to a three-variable example in fixed point arithmetic."
  },
  {
   "property": "C13",
   "status": "proved",
   "theorems": [
    "Verif.C13_complete_graph"
   ],
   "note": ""
  },
  {
   "property": "C130",
   "status": "proved",
   "theorems": [
    "Verif.C130_names_do_not_matter",
    "Verif.C130_same_outcomes",
    "Verif.C130_same_outcomes_parallel",
    "Verif.C130_reading",
    "Verif.C130_renamed_columns"
   ],
   "note": "One simulation theorem for the whole run (Verif/Rename/Sim, Steps, Tests). The comparison of outcomes is for bijective renamings, the comparison of runs with corresponding set orders for injective ones. ParallelPC is compared without its last step. The order of the nodes is kept."
  },
  {
   "property": "C131",
   "status": "proved",
   "theorems": [
    "Verif.C131_units_do_not_matter",
    "Verif.C131_units_do_not_matter_parallel",
    "Verif.C131_signs_do_not_matter",
    "Verif.C131_signs_do_not_matter_parallel",
    "Verif.C131_reading",
    "Verif.C131_exception_depends_on_sign"
   ],
   "note": "Exact real arithmetic; no assumption on the data. Without the estimation of effects, for which see C91. The converse of the two theorems on signs is the same theorem with the inverse change of units."
  },
  {
   "property": "C132",
   "status": "proved",
   "theorems": [
    "Verif.C132_generated_data",
    "Verif.C132_generate_and_recover"
   ],
   "note": "As C128 and C129, with the generator computed in the same arithmetic (Rounding.generate). The draws are numbers given from outside; the coefficients in the edges are taken as given, so rounding them when the edges are written down is not part of the claim. An example runs everything in fixed point arithmetic."
  },
  {
   "property": "C133",
   "status": "proved",
   "theorems": [
    "Verif.C133_stable_and_fci"
   ],
   "note": "As C128. The orientation of PCStable as shipped is wrong even with perfect tests (C88), so the claim on arrows is for PCStable with one more test before the orientation."
  },
  {
   "property": "C14",
   "status": "proved",
   "theorems": [
    "Verif.C14_descendants_exact"
   ],
   "note": ""
  },
  {
   "property": "C15",
   "status": "proved",
   "theorems": [
    "Verif.C15_all_paths_exact"
   ],
   "note": ""
  },
  {
   "property": "C16",
   "status": "partial",
   "theorems": [
    "Verif.C16_dsep_dag_sound_partial",
    "Verif.C16_dsep_single_collider",
    "Verif.C16_false_answer_wrong"
   ],
   "note": "Soundness of True for all DAGs; exact if no path has two colliders; the unrestricted converse is false (witness)."
  },
  {
   "property": "C17",
   "status": "proved",
   "theorems": [
    "Verif.C17_dsep_cpdag_sound"
   ],
   "note": ""
  },
  {
   "property": "C18",
   "status": "partial",
   "theorems": [
    "Verif.C18_ids_ignored_partial",
    "Verif.C18_rejection",
    "Verif.C18_ids_and_nodes_differ"
   ],
   "note": "The interchangeability claim is false (witness); the exact treatment of ids is proved."
  },
  {
   "property": "C19",
   "status": "partial",
   "theorems": [
    "Verif.C19_directed_path_exists_partial",
    "Verif.C19_answers",
    "Verif.C19_answers_right",
    "Verif.C19_terminates",
    "Verif.C19_false_no_cycle",
    "Verif.C19_isolated_raises",
    "Verif.C19_follows_soft_deleted",
    "Verif.C19_diverges"
   ],
   "note": "Holds on purged graphs without directed cycles. On all graphs: what an answer means, that it is right without soft-deleted edges, and that the query ends unless a cycle can be reached (an answer False excludes that); the failures outside are proved."
  },
  {
   "property": "C20",
   "status": "partial",
   "theorems": [
    "Verif.C20_directed_paths_sound",
    "Verif.C20_directed_paths_exact_partial",
    "Verif.C20_raises",
    "Verif.C20_incomplete"
   ],
   "note": "Soundness holds; completeness is false, the exact returned set is proved for acyclic graphs."
  },
  {
   "property": "C21",
   "status": "proved",
   "theorems": [
    "Verif.C21_dry_run_pure"
   ],
   "note": ""
  },
  {
   "property": "C22",
   "status": "proved",
   "theorems": [
    "Verif.C22_taken_subsequence",
    "Verif.C22_skipped_leaves_no_trace"
   ],
   "note": ""
  },
  {
   "property": "C23",
   "status": "proved",
   "theorems": [
    "Verif.C23_removals_never_raise",
    "Verif.C23_remove_undirected_effect",
    "Verif.C23_remove_directed_effect"
   ],
   "note": ""
  },
  {
   "property": "C24",
   "status": "proved",
   "theorems": [
    "Verif.C24_only_restores_create"
   ],
   "note": ""
  },
  {
   "property": "C25",
   "status": "proved",
   "theorems": [
    "Verif.C25_orientation_batch_effect",
    "Verif.C25_orientation_keeps_adjacency",
    "Verif.C25_opposite_orientations_delete"
   ],
   "note": "With the stated proviso; without it the claim is refuted by a witness."
  },
  {
   "property": "C26",
   "status": "proved",
   "theorems": [
    "Verif.C26_update_edge_type_raises"
   ],
   "note": "The titled claim is false of the code; the exact outcome (always AttributeError or skipped) is proved."
  },
  {
   "property": "C27",
   "status": "proved",
   "theorems": [
    "Verif.C27_keys_stable"
   ],
   "note": ""
  },
  {
   "property": "C28",
   "status": "proved",
   "theorems": [
    "Verif.C28_removal_order_irrelevant",
    "Verif.C28_recorded_sepset_order_dependent"
   ],
   "note": ""
  },
  {
   "property": "C29",
   "status": "proved",
   "theorems": [
    "Verif.C29_all_combinations_exact",
    "Verif.C29_all_combinations_raises"
   ],
   "note": ""
  },
  {
   "property": "C30",
   "status": "proved",
   "theorems": [
    "Verif.C30_pairs_with_edges_exact",
    "Verif.C30_chunked_yields_twice"
   ],
   "note": "Includes the stated doubling in chunked mode."
  },
  {
   "property": "C31",
   "status": "proved",
   "theorems": [
    "Verif.C31_neighbours_exact",
    "Verif.C31_neighbours_raises"
   ],
   "note": ""
  },
  {
   "property": "C32",
   "status": "proved",
   "theorems": [
    "Verif.C32_random_sample_sublist",
    "Verif.C32_every_zero_keeps_all"
   ],
   "note": ""
  },
  {
   "property": "C33",
   "status": "proved",
   "theorems": [
    "Verif.C33_steps_once_in_order",
    "Verif.C33_failure_records_prefix",
    "Verif.C33_purged_after_plain"
   ],
   "note": ""
  },
  {
   "property": "C34",
   "status": "proved",
   "theorems": [
    "Verif.C34_loop_terminates",
    "Verif.C34_rows_in_algorithms"
   ],
   "note": "With the stated KeyError case, which cannot occur in the algorithms."
  },
  {
   "property": "C35",
   "status": "proved",
   "theorems": [
    "Verif.C35_exit_means_no_proposal",
    "Verif.C35_exit_closed"
   ],
   "note": ""
  },
  {
   "property": "C36",
   "status": "proved",
   "theorems": [
    "Verif.C36_together_frozen",
    "Verif.C36_inner_failure_leaves_graph"
   ],
   "note": ""
  },
  {
   "property": "C37",
   "status": "partial",
   "theorems": [
    "Verif.C37_plain_step_partial",
    "Verif.C37_deferred_removals_visible"
   ],
   "note": "False of the code for logic steps (PCStable witness); holds after steps that are not logic steps."
  },
  {
   "property": "C38",
   "status": "proved",
   "theorems": [
    "Verif.C38_missing_adjacency_certified",
    "Verif.C38_single_certificate",
    "Verif.C38_phase_never_raises",
    "Verif.C38_marginal_test_not_repeatable"
   ],
   "note": "For the in-process execution modes; the numerical tests are a parameter."
  },
  {
   "property": "C39",
   "status": "proved",
   "theorems": [
    "Verif.C39_phase_only_removes"
   ],
   "note": ""
  },
  {
   "property": "C40",
   "status": "proved",
   "theorems": [
    "Verif.C40_partial_test_only_on_triangles",
    "Verif.C40_removals_condition_on_common_neighbour"
   ],
   "note": ""
  },
  {
   "property": "C41",
   "status": "proved",
   "theorems": [
    "Verif.C41_proposals_are_justified",
    "Verif.C41_process_exact"
   ],
   "note": ""
  },
  {
   "property": "C42",
   "status": "proved",
   "theorems": [
    "Verif.C42_collider_keeps_skeleton"
   ],
   "note": ""
  },
  {
   "property": "C43",
   "status": "proved",
   "theorems": [
    "Verif.C43_rule1",
    "Verif.C43_rule1_applies",
    "Verif.C43_rule2",
    "Verif.C43_rule3",
    "Verif.C43_rule4"
   ],
   "note": ""
  },
  {
   "property": "C44",
   "status": "partial",
   "theorems": [
    "Verif.C44_rule1_keeps_adjacency",
    "Verif.C44_rule2_keeps_adjacency",
    "Verif.C44_rules_keep_adjacency_partial",
    "Verif.C44_rules_can_delete_adjacency"
   ],
   "note": "Rule 1 always, rule 2 without directed cycles; rules 3 and 4 only if no edge has premises both ways. The unconditional claims for rules 2 to 4 are refuted."
  },
  {
   "property": "C45",
   "status": "proved",
   "theorems": [
    "Verif.C45_skeleton_recovered"
   ],
   "note": "PC and PCClassic; perfect oracles exist for every DAG (exactTests_oracle)."
  },
  {
   "property": "C46",
   "status": "proved",
   "theorems": [
    "Verif.C46_orientation_sound",
    "Verif.C46_loop_exits_closed"
   ],
   "note": "Proviso made explicit: no removal history before the run."
  },
  {
   "property": "C47",
   "status": "proved",
   "theorems": [
    "Verif.C47_types_match",
    "Verif.C47_types_match_actions",
    "Verif.C47_types_match_collider"
   ],
   "note": ""
  },
  {
   "property": "C48",
   "status": "proved",
   "theorems": [
    "Verif.Stats.C48_value",
    "Verif.Stats.C48_range",
    "Verif.Stats.C48_symmetric",
    "Verif.Stats.C48_affine",
    "Verif.Stats.C48_self",
    "Verif.Stats.C48_constant",
    "Verif.Stats.C48_clamping"
   ],
   "note": "Exact real arithmetic; rounding is not modelled."
  },
  {
   "property": "C49",
   "status": "proved",
   "theorems": [
    "Verif.Stats.C49_triple_eq_matrix",
    "Verif.Stats.C49_rescaling_cancels",
    "Verif.Stats.C49_residuals",
    "Verif.Stats.C49_pair_eq_matrix",
    "Verif.Stats.C49_singular",
    "Verif.Stats.C49_range"
   ],
   "note": "Exact real arithmetic; rounding is not modelled."
  },
  {
   "property": "C50",
   "status": "proved",
   "theorems": [
    "Verif.Sample.C50_topological_order",
    "Verif.Sample.C50_cycle_never_returns",
    "Verif.Sample.C50_edge_order_irrelevant"
   ],
   "note": ""
  },
  {
   "property": "C51",
   "status": "proved",
   "theorems": [
    "Verif.Sample.C51_structural_equations",
    "Verif.Sample.C51_linear_form",
    "Verif.Sample.C51_graph"
   ],
   "note": "Holds for any addition and multiplication, so also with rounding."
  },
  {
   "property": "C52",
   "status": "proved",
   "theorems": [
    "Verif.Data.C52_rows",
    "Verif.Data.C52_rows_errors",
    "Verif.Data.C52_dict",
    "Verif.Data.C52_loader",
    "Verif.Data.C52_loader_dict_wins",
    "Verif.Data.C52_json",
    "Verif.Data.C52_order"
   ],
   "note": "Values are abstract numbers; tensor conversion is not modelled."
  },
  {
   "property": "C53",
   "status": "proved",
   "theorems": [
    "Verif.Vars.C53_validation",
    "Verif.Vars.C53_strict_types"
   ],
   "note": "Floats are rationals (no NaN or infinities)."
  },
  {
   "property": "C54",
   "status": "proved",
   "theorems": [
    "Verif.Vars.C54_resolved",
    "Verif.Vars.C54_undeclared_ignored",
    "Verif.Vars.C54_allowed"
   ],
   "note": ""
  },
  {
   "property": "C55",
   "status": "proved",
   "theorems": [
    "Verif.Vars.C55_filled",
    "Verif.Vars.C55_no_reference_left",
    "Verif.Vars.C55_missing_variable"
   ],
   "note": "Objects are trees; lists other than pipeline_steps are not entered by the code and are unchanged."
  },
  {
   "property": "C56",
   "status": "partial",
   "theorems": [
    "Verif.Vars.C56_all_set_partial",
    "Verif.Vars.C56_some_unset_raises",
    "Verif.Vars.C56_none_set_keeps_references",
    "Verif.Vars.C56_factory_defaults",
    "Verif.Vars.C56_full_claim_false",
    "Verif.Vars.C56_reference_left"
   ],
   "note": "The full claim is false of the code; holds when the experiment sets every referenced variable."
  },
  {
   "property": "C57",
   "status": "partial",
   "theorems": [
    "Verif.Serial.C57_roundtrip_partial",
    "Verif.Serial.C57_fields",
    "Verif.Serial.C57_generator_fields",
    "Verif.Serial.C57_full_claim_false",
    "Verif.Serial.C57_collider_test_never_loads"
   ],
   "note": "The full claim is false of the code; the theorem says exactly which pipelines survive. Exit conditions are modelled without fields."
  },
  {
   "property": "C58",
   "status": "partial",
   "theorems": [
    "Verif.Serial.C58_opened_partial",
    "Verif.Serial.C58_inside_opened",
    "Verif.Serial.C58_full_claim_false"
   ],
   "note": "The intended containment is false: longer-named siblings are accepted, and nothing else."
  },
  {
   "property": "C59",
   "status": "proved",
   "theorems": [
    "Verif.Serial.C59_order_independent",
    "Verif.Serial.C59_injective"
   ],
   "note": "The digest is a parameter, assumed injective only in C59_injective. Numbers are their printed text; non-JSON values are not modelled."
  },
  {
   "property": "C60",
   "status": "proved",
   "theorems": [
    "Verif.Serial.C60_equal_iff",
    "Verif.Serial.C60_equivalence",
    "Verif.Serial.C60_custom_types_asymmetric",
    "Verif.Serial.C60_live_edges"
   ],
   "note": ""
  },
  {
   "property": "C61",
   "status": "proved",
   "theorems": [
    "Verif.Workspace.C61_intact",
    "Verif.Workspace.C61_remove_pipeline",
    "Verif.Workspace.C61_remove_loader"
   ],
   "note": "The YAML round trip of the workspace file is not modelled; pipelines are references (the commands write nothing else)."
  },
  {
   "property": "C62",
   "status": "proved",
   "theorems": [
    "Verif.Workspace.C62_versions",
    "Verif.Workspace.C62_no_mixing",
    "Verif.Workspace.C62_error"
   ],
   "note": "int() is modelled for ASCII text."
  },
  {
   "property": "C63",
   "status": "proved",
   "theorems": [
    "Verif.Workspace.C63_latest",
    "Verif.Workspace.C63_clear",
    "Verif.Workspace.C63_same_second"
   ],
   "note": ""
  },
  {
   "property": "C64",
   "status": "partial",
   "theorems": [
    "Verif.Workspace.C64_skipped_iff",
    "Verif.Workspace.C64_executed",
    "Verif.Workspace.C64_stored_outcome",
    "Verif.Workspace.C64_unchanged_skipped_partial",
    "Verif.Workspace.C64_no_variables_reexecuted"
   ],
   "note": "The first half is proved as an equivalence. The second half (skipped right after a successful execution) is false for an experiment that sets no variables although its pipeline uses some; proved for all others."
  },
  {
   "property": "C65",
   "status": "proved",
   "theorems": [
    "Verif.Workspace.C65_update",
    "Verif.Workspace.C65_flag",
    "Verif.Workspace.C65_integer"
   ],
   "note": "float(text) is a parameter."
  },
  {
   "property": "C66",
   "status": "proved",
   "theorems": [
    "Verif.UI.C66_port",
    "Verif.UI.C66_given_port",
    "Verif.UI.C66_nothing_to_show"
   ],
   "note": "The occupancy of the ports is fixed while the search runs (each port is probed once)."
  },
  {
   "property": "C67",
   "status": "proved",
   "theorems": [
    "Verif.Stats.C67_defined",
    "Verif.Stats.C67_critical_value",
    "Verif.Stats.C67_sign",
    "Verif.Stats.C67_monotone"
   ],
   "note": "Exact real arithmetic; the normal distribution function is a parameter."
  },
  {
   "property": "C68",
   "status": "proved",
   "theorems": [
    "Verif.Stats.C68_order",
    "Verif.Stats.C68_units",
    "Verif.Stats.C68_total"
   ],
   "note": "Exact real arithmetic."
  },
  {
   "property": "C69",
   "status": "proved",
   "theorems": [
    "Verif.Sample.C69_time_series",
    "Verif.Sample.C69_graph",
    "Verif.Sample.C69_contemporaneous_edge_depends_on_set_order"
   ],
   "note": "The computation of the initial values is not modelled; they are arbitrary."
  },
  {
   "property": "C70",
   "status": "proved",
   "theorems": [
    "Verif.Data.C70_file_hash",
    "Verif.Data.C70_missing_file",
    "Verif.Data.C70_dynamic_never_loads"
   ],
   "note": "Digests are parameters assumed injective; the dynamic part records a defect of the code."
  },
  {
   "property": "C71",
   "status": "proved",
   "theorems": [
    "Verif.Serial.C71_succeeds_iff",
    "Verif.Serial.C71_result",
    "Verif.Serial.C71_locked_never_loads"
   ],
   "note": "That a member of a str enumeration leads to the locked class str is a fact about CPython, shown as a concrete heap."
  },
  {
   "property": "C72",
   "status": "proved",
   "theorems": [
    "Verif.Serial.C72_contained",
    "Verif.Serial.C72_symlinks_checked"
   ],
   "note": "Opening and parsing the file is not modelled."
  },
  {
   "property": "C73",
   "status": "proved",
   "theorems": [
    "Verif.Serial.C73_loaded_algorithm"
   ],
   "note": "Records a defect of the code. Extensions and variables of the algorithm are left out."
  },
  {
   "property": "C74",
   "status": "partial",
   "theorems": [
    "Verif.Workspace.C74_all_as_alone_partial",
    "Verif.Workspace.C74_module_leak",
    "Verif.Workspace.C74_false_for_modules"
   ],
   "note": "False of the code for pipelines that are python modules: they share one object whose references are filled in place. Proved for all other workspaces."
  },
  {
   "property": "C75",
   "status": "proved",
   "theorems": [
    "Verif.Workspace.C75_rows",
    "Verif.Workspace.C75_warnings",
    "Verif.Workspace.C75_agree",
    "Verif.Workspace.C75_names"
   ],
   "note": "The layout of the printed table is not modelled."
  },
  {
   "property": "C76",
   "status": "proved",
   "theorems": [
    "Verif.Workspace.C76_latest",
    "Verif.Workspace.C76_version",
    "Verif.Workspace.C76_list"
   ],
   "note": "Routing, JSON encoding and dates are not modelled."
  },
  {
   "property": "C77",
   "status": "proved",
   "theorems": [
    "Verif.C77_no_endless_schedule",
    "Verif.C77_no_deadlock",
    "Verif.C77_some_outcome",
    "Verif.C77_zero_batch_size"
   ],
   "note": "Feeder, workers and main process are a transition system; generating a batch, pickling and applying a result are atomic. Crashing workers are not modelled."
  },
  {
   "property": "C78",
   "status": "proved",
   "theorems": [
    "Verif.C78_one_batch_is_sequential"
   ],
   "note": "For steps that use neither unapplied actions, chunks nor synchronous application (all steps the code runs in parallel)."
  },
  {
   "property": "C79",
   "status": "proved",
   "theorems": [
    "Verif.C79_parallel_keeps_consistency"
   ],
   "note": ""
  },
  {
   "property": "C80",
   "status": "proved",
   "theorems": [
    "Verif.C80_recorded_actions_replay"
   ],
   "note": ""
  },
  {
   "property": "C81",
   "status": "proved",
   "theorems": [
    "Verif.C81_every_combination_once"
   ],
   "note": ""
  },
  {
   "property": "C82",
   "status": "proved",
   "theorems": [
    "Verif.C82_every_schedule_certified"
   ],
   "note": ""
  },
  {
   "property": "C83",
   "status": "proved",
   "theorems": [
    "Verif.C83_no_schedule_loses_adjacency",
    "Verif.C83_no_schedule_raises"
   ],
   "note": ""
  },
  {
   "property": "C84",
   "status": "partial",
   "theorems": [
    "Verif.C84_parallel_skeleton_partial",
    "Verif.C84_full_statement_fails",
    "Verif.C84_code_sizes"
   ],
   "note": "False of the code for every batch size: a chain with enough nodes and a schedule leave a spurious adjacency. Proved if all triples fit into one batch, which with the shipped sizes means at most 67 variables."
  },
  {
   "property": "C85",
   "status": "partial",
   "theorems": [
    "Verif.C85_parallel_orientation_partial"
   ],
   "note": "Proved if all triples fit into one batch (at most 67 variables); beyond that the skeleton can be wrong, see C84."
  },
  {
   "property": "C86",
   "status": "proved",
   "theorems": [
    "Verif.C86_stable_skeleton",
    "Verif.C86_order_independent",
    "Verif.C86_pc_depends_on_order"
   ],
   "note": "The last theorem shows the claim is false of PC: with the same tests its skeleton depends on the order of the variables."
  },
  {
   "property": "C87",
   "status": "proved",
   "theorems": [
    "Verif.C87_stable_recovers"
   ],
   "note": ""
  },
  {
   "property": "C88",
   "status": "partial",
   "theorems": [
    "Verif.C88_purged_orientation_partial",
    "Verif.C88_purged_cpdag_partial",
    "Verif.C88_full_statement_fails"
   ],
   "note": "False of the code: after the collected removals nothing purges the removed edges, the collider test still sees them as neighbours and orients edges against the DAG. Proved for PCStable with any one more conditional test before the orientation."
  },
  {
   "property": "C89",
   "status": "proved",
   "theorems": [
    "Verif.Effects.C89_effects",
    "Verif.Effects.C89_last_step",
    "Verif.Effects.C89_determined",
    "Verif.Effects.C89_missing_values"
   ],
   "note": "Exact arithmetic; the solver is a parameter assumed to return the shortest least-squares solution. When a later pair raises, the code has already written earlier effects into the stored metadata; the model writes them only when the actions are applied."
  },
  {
   "property": "C90",
   "status": "proved",
   "theorems": [
    "Verif.Effects.C90_coefficient_plus_noise",
    "Verif.Effects.C90_exact",
    "Verif.Effects.C90_generated"
   ],
   "note": "Exact real arithmetic."
  },
  {
   "property": "C91",
   "status": "partial",
   "theorems": [
    "Verif.Effects.C91_units_partial",
    "Verif.Effects.C91_origin_matters"
   ],
   "note": "The half about origins is false of the code: the regression has no intercept. The half about units is proved."
  },
  {
   "property": "C92",
   "status": "partial",
   "theorems": [
    "Verif.Effects.C92_structural_coefficient_partial",
    "Verif.Effects.C92_undirected_confounds"
   ],
   "note": "False of the code for targets with an undirected edge, whose undirected neighbours enter the regression. Proved for all other targets."
  },
  {
   "property": "C93",
   "status": "proved",
   "theorems": [
    "Verif.C93_directed_iff_all_agree",
    "Verif.C93_compelled_edges",
    "Verif.C93_same_separations_iff"
   ],
   "note": "Completeness of Meek's rules and the characterisation of equivalent DAGs (Verma and Pearl, Chickering) are proved in Dag/Meek and Dag/Equiv. Same proviso as C46: no removal history before the run."
  },
  {
   "property": "C94",
   "status": "proved",
   "theorems": [
    "Verif.C94_order_irrelevant",
    "Verif.C94_parallel_same_edges"
   ],
   "note": "The parallel part assumes, as its statement says, that the triples fit into one batch; beyond that the skeleton can be wrong, see C84."
  },
  {
   "property": "C95",
   "status": "proved",
   "theorems": [
    "Verif.C95_watching_hooks_change_nothing",
    "Verif.C95_batch"
   ],
   "note": "Hooks are arbitrary code over the graph and an arbitrary outside world; they cannot reach the history of the running model."
  },
  {
   "property": "C96",
   "status": "proved",
   "theorems": [
    "Verif.C96_hooks_called",
    "Verif.C96_called_unique",
    "Verif.C96_dry_run_calls_none",
    "Verif.C96_post_type_change_never_called"
   ],
   "note": ""
  },
  {
   "property": "C97",
   "status": "partial",
   "theorems": [
    "Verif.C97_pre_hooks_rewrite_partial",
    "Verif.C97_filters_partial",
    "Verif.C97_full_statement_fails",
    "Verif.C97_unapplied_fails"
   ],
   "note": "False of the code: inside ApplyActionsTogether proposals are rewritten twice, and tests that read the results so far see them unrewritten. Proved for all other pipelines, and for hooks that only drop proposals also with ApplyActionsTogether."
  },
  {
   "property": "C98",
   "status": "partial",
   "theorems": [
    "Verif.C98_post_hooks_told_history_partial",
    "Verif.C98_full_statement_fails"
   ],
   "note": "False of the code: ApplyActionsTogether tells the hooks every action twice, first before it is applied. Proved for pipelines without it."
  },
  {
   "property": "C99",
   "status": "proved",
   "theorems": [
    "Verif.Sample.C99_stationary_scale",
    "Verif.Sample.C99_steady_exists",
    "Verif.Sample.C99_single",
    "Verif.Sample.C99_edges_alike_fail"
   ],
   "note": "Exact real arithmetic; torch.linalg.pinv is a parameter assumed to return the Moore-Penrose inverse (exists_pinv shows that one exists). C99_edges_alike_fail shows that the proviso of distinct edges is needed."
  }
 ]
}