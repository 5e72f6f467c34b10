{
 "claims": [
  {
   "property": "C01",
   "status": "proved",
   "theorems": [
    "Prolothar.BoyerMoore.C01_search_returns_first_occurrence",
    "Prolothar.BoyerMoore.C01_search_result_iff"
   ],
   "note": ""
  },
  {
   "property": "C02",
   "status": "proved",
   "theorems": [
    "Prolothar.BoyerMoore.C02_isSublist_iff",
    "Prolothar.BoyerMoore.C02_tables_reusable"
   ],
   "note": ""
  },
  {
   "property": "C03",
   "status": "proved",
   "theorems": [
    "Prolothar.BoyerMoore.C03_searchAll_sound_complete",
    "Prolothar.BoyerMoore.C03_searchAll_nil"
   ],
   "note": ""
  },
  {
   "property": "C04",
   "status": "proved",
   "theorems": [
    "Prolothar.ListUtils.C04_partitions",
    "Prolothar.ListUtils.C04_partitions_error"
   ],
   "note": ""
  },
  {
   "property": "C05",
   "status": "proved",
   "theorems": [
    "Prolothar.TupleUtils.C05_all_splits",
    "Prolothar.TupleUtils.C05_all_splits_count",
    "Prolothar.TupleUtils.C05_all_splits_error",
    "Prolothar.TupleUtils.C05_all_splits_too_large"
   ],
   "note": ""
  },
  {
   "property": "C06",
   "status": "proved",
   "theorems": [
    "Prolothar.ListUtils.C06_deep_flatten_items",
    "Prolothar.ListUtils.C06_deep_flatten_flat",
    "Prolothar.ListUtils.C06_deep_flatten_unnest"
   ],
   "note": ""
  },
  {
   "property": "C07",
   "status": "proved",
   "theorems": [
    "Prolothar.ListUtils.C07_self_product",
    "Prolothar.ListUtils.C07_self_product_skip"
   ],
   "note": ""
  },
  {
   "property": "C08",
   "status": "proved",
   "theorems": [
    "Prolothar.ListUtils.C08_longest_common_sublists"
   ],
   "note": ""
  },
  {
   "property": "C09",
   "status": "proved",
   "theorems": [
    "Prolothar.ListUtils.C09_shuffle_together",
    "Prolothar.ListUtils.C09_shuffle_together_perm",
    "Prolothar.ListUtils.C09_shuffle_together_empty_lists_lost"
   ],
   "note": "Disagreement: if the shortest list is empty the code returns no lists at all (C09_shuffle_together_empty_lists_lost)."
  },
  {
   "property": "C10",
   "status": "proved",
   "theorems": [
    "Prolothar.SetSimilarity.C10_dice",
    "Prolothar.SetSimilarity.C10_jaccard",
    "Prolothar.SetSimilarity.C10_overlap",
    "Prolothar.SetSimilarity.C10_values"
   ],
   "note": ""
  },
  {
   "property": "C11",
   "status": "proved",
   "theorems": [
    "Prolothar.TwoWayDict.C11_get_last_assignment",
    "Prolothar.TwoWayDict.C11_inverse_ever_assigned",
    "Prolothar.TwoWayDict.C11_inverse_consistent",
    "Prolothar.TwoWayDict.C11_stale_inverse_entry"
   ],
   "note": "Disagreement: re-assigning a key leaves it listed under its old value (C11_stale_inverse_entry); full inverse consistency is proved for histories without re-assignment only."
  },
  {
   "property": "C12",
   "status": "proved",
   "theorems": [
    "Prolothar.LCS.C12_length_optimal"
   ],
   "note": ""
  },
  {
   "property": "C13",
   "status": "proved",
   "theorems": [
    "Prolothar.LCS.C13_backtrace_valid",
    "Prolothar.LCS.C13_backtrace_length"
   ],
   "note": ""
  },
  {
   "property": "C14",
   "status": "proved",
   "theorems": [
    "Prolothar.Levenshtein.C14_distance_optimal"
   ],
   "note": ""
  },
  {
   "property": "C15",
   "status": "proved",
   "theorems": [
    "Prolothar.Levenshtein.C15_edits_optimal_script",
    "Prolothar.Levenshtein.C15_terminates",
    "Prolothar.Levenshtein.C15_order_is_scrambled",
    "Prolothar.Levenshtein.C15_backtrace_diverges",
    "Prolothar.Levenshtein.C15_backtrace_diverges_witness"
   ],
   "note": "Disagreements: the returned edits are not in execution order (the list is reversed inside the loop), and the backtrace does not terminate for distances above 100001."
  },
  {
   "property": "C16",
   "status": "proved",
   "theorems": [
    "Prolothar.Levenshtein.C16_weighted_distance",
    "Prolothar.Levenshtein.C16_exact",
    "Prolothar.Levenshtein.C16_border_costs_wrong",
    "Prolothar.Levenshtein.C16_edits_not_optimal_for_substitution_cost_3",
    "Prolothar.Levenshtein.C16_edits_turn_source_into_target",
    "Prolothar.Levenshtein.C16_backtrace_terminates",
    "Prolothar.Levenshtein.C16_zero_cost_edits_wrong",
    "Prolothar.Levenshtein.C16_large_costs_diverge"
   ],
   "note": "Disagreement: border costs are 1 per symbol whatever the insertion/deletion costs (C16_border_costs_wrong); C16_exact characterises the value for all integer costs. For positive costs the edits always are a script for the target (C16_edits_turn_source_into_target), but not always an optimal one; with a zero cost they can be wrong (C16_zero_cost_edits_wrong), with costs above MAX_COST the call may not return (C16_large_costs_diverge)."
  },
  {
   "property": "C17",
   "status": "proved",
   "theorems": [
    "Prolothar.Mdl.C17_value",
    "Prolothar.Mdl.C17_value_unique",
    "Prolothar.Mdl.C17_table_transparent",
    "Prolothar.Mdl.C17_error",
    "Prolothar.Mdl.C17_positive_monotone"
   ],
   "note": "The constant 2.8565064 is the one of the code; the literature value is 2.865064, with the code constant the code lengths sum to slightly more than 1 in the Kraft inequality (not proved)."
  },
  {
   "property": "C18",
   "status": "proved",
   "theorems": [
    "Prolothar.Mdl.C18_log2binom",
    "Prolothar.Mdl.C18_log2binom_nonneg_symm",
    "Prolothar.Mdl.C18_log2multinom"
   ],
   "note": ""
  },
  {
   "property": "C19",
   "status": "proved",
   "theorems": [
    "Prolothar.Lru.C19_cache_transparent",
    "Prolothar.Lru.C19_recent_hit",
    "Prolothar.Lru.C19_threads",
    "Prolothar.Lru.C19_threads_end"
   ],
   "note": ""
  },
  {
   "property": "C20",
   "status": "proved",
   "theorems": [
    "Prolothar.Mdl.C20_prequential",
    "Prolothar.Mdl.C20_order_irrelevant",
    "Prolothar.Mdl.C20_nonneg"
   ],
   "note": ""
  },
  {
   "property": "C21",
   "status": "proved",
   "theorems": [
    "Prolothar.PrimeFactors.C21_prime_factorisation",
    "Prolothar.PrimeFactors.C21_doubles",
    "Prolothar.PrimeFactors.C21_prime",
    "Prolothar.PrimeFactors.C21_equals_primeFactorsList",
    "Prolothar.PrimeFactors.C21_exact_arithmetic",
    "Prolothar.PrimeFactors.C21_zero_diverges",
    "Prolothar.PrimeFactors.C21_negative",
    "Prolothar.PrimeFactors.C21_large_input_wrong",
    "Prolothar.PrimeFactors.C21_ieee"
   ],
   "note": "Disagreements: diverges for 0, returns only the factors 2 for negative numbers, wrong products for some inputs above 2^54. Rounding of floats is a parameter of the model; C21_ieee instantiates it with the rounding of doubles."
  },
  {
   "property": "C22",
   "status": "proved",
   "theorems": [
    "Prolothar.Statistics.C22_push_equals_batch",
    "Prolothar.Statistics.C22_variance",
    "Prolothar.Statistics.C22_stddev",
    "Prolothar.Statistics.C22_order_irrelevant"
   ],
   "note": ""
  },
  {
   "property": "C23",
   "status": "proved",
   "theorems": [
    "Prolothar.Statistics.C23_merge_equals_push",
    "Prolothar.Statistics.C23_merge_trees"
   ],
   "note": ""
  },
  {
   "property": "C24",
   "status": "proved",
   "theorems": [
    "Prolothar.Parallel.C24_thread_map_ordered",
    "Prolothar.Parallel.C24_thread_map_total",
    "Prolothar.Parallel.C24_proc_map_total"
   ],
   "note": ""
  },
  {
   "property": "C25",
   "status": "proved",
   "theorems": [
    "Prolothar.Parallel.C25_thread_map_unordered",
    "Prolothar.Parallel.C25_thread_map_filter",
    "Prolothar.Parallel.C25_proc_map_unordered",
    "Prolothar.Parallel.C25_proc_map_filter"
   ],
   "note": ""
  },
  {
   "property": "C26",
   "status": "proved",
   "theorems": [
    "Prolothar.Parallel.C26_local_map_reduce",
    "Prolothar.Parallel.C26_thread_map_reduce",
    "Prolothar.Parallel.C26_proc_map_reduce",
    "Prolothar.Parallel.C26_commutativity_needed"
   ],
   "note": ""
  },
  {
   "property": "C27",
   "status": "proved",
   "theorems": [
    "Prolothar.Parallel.C27_thread_map",
    "Prolothar.Parallel.C27_thread_map_filter",
    "Prolothar.Parallel.C27_thread_map_reduce",
    "Prolothar.Parallel.C27_proc_map",
    "Prolothar.Parallel.C27_proc_map_any",
    "Prolothar.Parallel.C27_proc_map_filter",
    "Prolothar.Parallel.C27_proc_map_reduce",
    "Prolothar.Parallel.C27_proc_swallows_stop_iteration",
    "Prolothar.Parallel.C27_proc_result_exception_raised"
   ],
   "note": "Disagreement (process engine): a StopIteration raised by the function is swallowed and results that are exceptions are raised."
  },
  {
   "property": "C28",
   "status": "proved",
   "theorems": [
    "Prolothar.Parallel.C28_engines_agree",
    "Prolothar.Parallel.C28_map_filter_agrees",
    "Prolothar.Parallel.C28_map_reduce_agrees",
    "Prolothar.Parallel.C28_empty_list"
   ],
   "note": "Disagreement: the empty list raises ZeroDivisionError in the thread and process engines."
  },
  {
   "property": "C29",
   "status": "proved",
   "theorems": [
    "Prolothar.EventLog.C29_cut_traces",
    "Prolothar.EventLog.C29_cut_start",
    "Prolothar.EventLog.C29_cut_end",
    "Prolothar.EventLog.C29_cut_nothing",
    "Prolothar.EventLog.C29_window",
    "Prolothar.EventLog.C29_window_single",
    "Prolothar.EventLog.C29_dropped",
    "Prolothar.EventLog.C29_no_start_event"
   ],
   "note": "Disagreement: traces without start activity keep their last event (C29_no_start_event)."
  },
  {
   "property": "C30",
   "status": "proved",
   "theorems": [
    "Prolothar.EventLog.C30_filter_activities",
    "Prolothar.EventLog.C30_filter_keep_empty",
    "Prolothar.EventLog.C30_no_forbidden_event",
    "Prolothar.EventLog.C30_filter_twice",
    "Prolothar.EventLog.C30_idempotent"
   ],
   "note": ""
  },
  {
   "property": "C31",
   "status": "proved",
   "theorems": [
    "Prolothar.EventLog.C31_count_follows",
    "Prolothar.EventLog.C31_documented_count"
   ],
   "note": ""
  },
  {
   "property": "C32",
   "status": "proved",
   "theorems": [
    "Prolothar.EventLog.C32_keep_first",
    "Prolothar.EventLog.C32_idempotent"
   ],
   "note": ""
  },
  {
   "property": "C33",
   "status": "proved",
   "theorems": [
    "Prolothar.EventLog.C33_add_start",
    "Prolothar.EventLog.C33_add_end",
    "Prolothar.EventLog.C33_start_activities",
    "Prolothar.EventLog.C33_end_activities",
    "Prolothar.EventLog.C33_framed_start",
    "Prolothar.EventLog.C33_framed_end"
   ],
   "note": ""
  },
  {
   "property": "C34",
   "status": "proved",
   "theorems": [
    "Prolothar.EventLog.C34_join",
    "Prolothar.EventLog.C34_run_compressed",
    "Prolothar.EventLog.C34_succeeds",
    "Prolothar.EventLog.C34_empty_trace"
   ],
   "note": ""
  },
  {
   "property": "C35",
   "status": "proved",
   "theorems": [
    "Prolothar.EventLog.C35_train_test_split",
    "Prolothar.EventLog.C35_invalid_proportion",
    "Prolothar.EventLog.C35_k_folds",
    "Prolothar.EventLog.C35_invalid_folds"
   ],
   "note": ""
  },
  {
   "property": "C36",
   "status": "proved",
   "theorems": [
    "Prolothar.EventLog.C36_simple_round_trip",
    "Prolothar.EventLog.C36_simple_empty_trace",
    "Prolothar.EventLog.C36_dict_round_trip",
    "Prolothar.EventLog.C36_dict_empty_trace"
   ],
   "note": "Transition ids are lost in the dictionary form; logs with empty traces cannot be restored."
  },
  {
   "property": "C37",
   "status": "proved",
   "theorems": [
    "Prolothar.EventLog.C37_log_equality",
    "Prolothar.EventLog.C37_equivalence",
    "Prolothar.EventLog.C37_order_irrelevant",
    "Prolothar.EventLog.C37_ids_matter"
   ],
   "note": "Trace hashes are hashes of the ids: logs with equal traces but different ids differ (C37_ids_matter)."
  },
  {
   "property": "C38",
   "status": "proved",
   "theorems": [
    "Prolothar.LogNoise.C38_add_activity",
    "Prolothar.LogNoise.C38_only_inserts",
    "Prolothar.LogNoise.C38_where",
    "Prolothar.LogNoise.C38_zero",
    "Prolothar.LogNoise.C38_probability"
   ],
   "note": ""
  },
  {
   "property": "C39",
   "status": "proved",
   "theorems": [
    "Prolothar.LogNoise.C39_remove_events",
    "Prolothar.LogNoise.C39_only_deletes",
    "Prolothar.LogNoise.C39_where",
    "Prolothar.LogNoise.C39_zero",
    "Prolothar.LogNoise.C39_probability"
   ],
   "note": ""
  },
  {
   "property": "C40",
   "status": "proved",
   "theorems": [
    "Prolothar.LogNoise.C40_swap_events",
    "Prolothar.LogNoise.C40_where",
    "Prolothar.LogNoise.C40_zero",
    "Prolothar.LogNoise.C40_probability"
   ],
   "note": ""
  },
  {
   "property": "C41",
   "status": "proved",
   "theorems": [
    "Prolothar.IntGraph.C41_strongly_connected_components"
   ],
   "note": ""
  },
  {
   "property": "C42",
   "status": "proved",
   "theorems": [
    "Prolothar.IntGraph.C42_edge_history",
    "Prolothar.IntGraph.C42_removal_affects_no_other_pair",
    "Prolothar.IntGraph.C42_copy_evolves_independently"
   ],
   "note": ""
  },
  {
   "property": "C43",
   "status": "proved",
   "theorems": [
    "Prolothar.Dfg.C43_well_formed",
    "Prolothar.Dfg.C43_queries",
    "Prolothar.Dfg.C43_effects",
    "Prolothar.Dfg.C43_filter_absolute",
    "Prolothar.Dfg.C43_filter_local",
    "Prolothar.Dfg.C43_filter_local_keep",
    "Prolothar.Dfg.C43_copy_select_join",
    "Prolothar.Dfg.C43_join_overlap"
   ],
   "note": "Histories join graphs only without common edges and rename only to unused names; joining graphs that share an edge breaks well-formedness (C43_join_overlap)."
  },
  {
   "property": "C44",
   "status": "proved",
   "theorems": [
    "Prolothar.Dfg.C44_counts",
    "Prolothar.Dfg.C44_read_more"
   ],
   "note": ""
  },
  {
   "property": "C45",
   "status": "proved",
   "theorems": [
    "Prolothar.Dfg.C45_shortest_path",
    "Prolothar.Dfg.C45_trivial",
    "Prolothar.Dfg.C45_to_one_of",
    "Prolothar.Dfg.C45_to_one_of_unknown"
   ],
   "note": "The path from a node to itself is the empty list (C45_trivial)."
  },
  {
   "property": "C46",
   "status": "proved",
   "theorems": [
    "Prolothar.Dfg.C46_graph_unchanged",
    "Prolothar.Dfg.C46_unknown_forbidden_edge",
    "Prolothar.Dfg.C46_failed_call_loses_edge"
   ],
   "note": "With a forbidden edge that is not in the graph the call has no defined result (the compiled code reads the attributes of None without a check), and an edge may be missing at this time (C46_failed_call_loses_edge)."
  },
  {
   "property": "C47",
   "status": "proved",
   "theorems": [
    "Prolothar.Dfg.C47_reachable"
   ],
   "note": ""
  },
  {
   "property": "C48",
   "status": "proved",
   "theorems": [
    "Prolothar.Dfg.C48_components",
    "Prolothar.Dfg.C48_largest"
   ],
   "note": ""
  },
  {
   "property": "C49",
   "status": "proved",
   "theorems": [
    "Prolothar.Dfg.C49_remove_plain",
    "Prolothar.Dfg.C49_remove_connected",
    "Prolothar.Dfg.C49_unknown"
   ],
   "note": ""
  },
  {
   "property": "C50",
   "status": "proved",
   "theorems": [
    "Prolothar.Dfg.C50_sources_sinks"
   ],
   "note": ""
  },
  {
   "property": "C51",
   "status": "proved",
   "theorems": [
    "Prolothar.Dfg.C51_start",
    "Prolothar.Dfg.C51_end"
   ],
   "note": ""
  },
  {
   "property": "C52",
   "status": "proved",
   "theorems": [
    "Prolothar.PrefixTree.C52_counts",
    "Prolothar.PrefixTree.C52_total",
    "Prolothar.PrefixTree.C52_leaf"
   ],
   "note": ""
  },
  {
   "property": "C53",
   "status": "proved",
   "theorems": [
    "Prolothar.PrefixTree.C53_sorted",
    "Prolothar.PrefixTree.C53_search",
    "Prolothar.PrefixTree.C53_unique"
   ],
   "note": ""
  },
  {
   "property": "C54",
   "status": "proved",
   "theorems": [
    "Prolothar.Lts.C54_states",
    "Prolothar.Lts.C54_transitions",
    "Prolothar.Lts.C54_exact",
    "Prolothar.Lts.C54_replay",
    "Prolothar.Lts.C54_abstractions",
    "Prolothar.Lts.C54_negative_n"
   ],
   "note": "Replay holds for every abstraction whose value after an event depends only on the previous value and the event (C54_replay); the library's abstractions qualify, last_n only for n >= 0 (C54_abstractions). C54_negative_n shows that last_n_abstraction with a negative n breaks it."
  },
  {
   "property": "C55",
   "status": "proved",
   "theorems": [
    "Prolothar.Nested.C55_round_trip",
    "Prolothar.Nested.C55_equal",
    "Prolothar.Nested.C55_reserved_key",
    "Prolothar.Nested.C55_labels_ignored"
   ],
   "note": "Restores the graph for any write order of the edge set if no attribute uses a reserved key; C55_reserved_key shows this is needed; C55_labels_ignored: == does not compare labels, but C55_round_trip restores them."
  },
  {
   "property": "C56",
   "status": "proved",
   "theorems": [
    "Prolothar.Patterns.C56_primitive",
    "Prolothar.Patterns.C56_primitive_exact",
    "Prolothar.Patterns.C56_empty_diverges"
   ],
   "note": "C56_empty_diverges: the call with an empty word does not terminate."
  },
  {
   "property": "C57",
   "status": "proved",
   "theorems": [
    "Prolothar.Patterns.C57_is_tandem_array",
    "Prolothar.Patterns.C57_empty_type_diverges",
    "Prolothar.Patterns.C57_sound",
    "Prolothar.Patterns.C57_partition",
    "Prolothar.Patterns.C57_maximal",
    "Prolothar.Patterns.C57_types",
    "Prolothar.Patterns.C57_overlapping_type"
   ],
   "note": "Non-overlap and maximality are proved for repeat types that cannot overlap themselves (C57_maximal); C57_overlapping_type is a witness that both fail otherwise; C57_empty_type_diverges: is_tandem_array with an empty type does not terminate."
  },
  {
   "property": "C58",
   "status": "proved",
   "theorems": [
    "Prolothar.Data.C58_consistent",
    "Prolothar.Data.C58_add_instance",
    "Prolothar.Data.C58_contains",
    "Prolothar.Data.C58_remove_attribute",
    "Prolothar.Data.C58_add_categorical",
    "Prolothar.Data.C58_add_numerical",
    "Prolothar.Data.C58_add_attribute_length",
    "Prolothar.Data.C58_name_in_use",
    "Prolothar.Data.C58_direct_assignment"
   ],
   "note": "C58_name_in_use: adding an attribute whose name exists leaves the name twice in the list. C58_direct_assignment: instance[name] = value leaves the recorded values stale. The docstring of add_instance says a duplicate is replaced; it is rejected. Features are hashable; for others see C194_unhashable."
  },
  {
   "property": "C59",
   "status": "proved",
   "theorems": [
    "Prolothar.Data.C59_split",
    "Prolothar.Data.C59_split_invalid",
    "Prolothar.Data.C59_random_subset",
    "Prolothar.Data.C59_group_by",
    "Prolothar.Data.C59_shared_instances"
   ],
   "note": "C59_shared_instances: the parts share their instances with the dataset, so removing an attribute of a part breaks the dataset. Proportions are exact rationals."
  },
  {
   "property": "C60",
   "status": "proved",
   "theorems": [
    "Prolothar.Data.C60_one_hot",
    "Prolothar.Data.C60_exactly_one",
    "Prolothar.Data.C60_name_collision"
   ],
   "note": "C60_name_collision: without the condition on names, two attributes can generate the same name and one of them is lost."
  },
  {
   "property": "C61",
   "status": "proved",
   "theorems": [
    "Prolothar.Data.C61_label_encoding",
    "Prolothar.Data.C61_given_values",
    "Prolothar.Data.C61_injective",
    "Prolothar.Data.C61_unknown_value",
    "Prolothar.Data.C61_mixed"
   ],
   "note": "Booleans are numbers in the model. If the (given) value set is already 0..m-1 the attribute is left as it is, also when other values occur."
  },
  {
   "property": "C62",
   "status": "proved",
   "theorems": [
    "Prolothar.Data.C62_string",
    "Prolothar.Data.C62_min_max",
    "Prolothar.Data.C62_range",
    "Prolothar.Data.C62_constant",
    "Prolothar.Data.C62_empty"
   ],
   "note": "Numbers are exact rationals."
  },
  {
   "property": "C63",
   "status": "proved",
   "theorems": [
    "Prolothar.Queries.C63_execute",
    "Prolothar.Queries.C63_lazy",
    "Prolothar.Queries.C63_iterator_witness"
   ],
   "note": "Queries over re-iterable collections whose attribute comparisons do not raise (Reusable, Total in Spec/Queries). C63_iterator_witness: a query built from an iterator is exhausted after the first trace."
  },
  {
   "property": "C64",
   "status": "proved",
   "theorems": [
    "Prolothar.Petri.C64_fire",
    "Prolothar.Petri.C64_rejected",
    "Prolothar.Petri.C64_rejected_not_atomic",
    "Prolothar.Petri.C64_nonneg"
   ],
   "note": "C64_rejected_not_atomic: witness that a rejected firing loses tokens."
  },
  {
   "property": "C65",
   "status": "proved",
   "theorems": [
    "Prolothar.Petri.C65_safe",
    "Prolothar.Petri.C65_unsafe"
   ],
   "note": "Full on markings where input places carry at most one token; C65_unsafe gives both kinds of wrong answers on other markings."
  },
  {
   "property": "C66",
   "status": "proved",
   "theorems": [
    "Prolothar.Petri.C66_unknown_place",
    "Prolothar.Petri.C66_set_get",
    "Prolothar.Petri.C66_unknown",
    "Prolothar.Petri.C66_round_trip",
    "Prolothar.Petri.C66_matches"
   ],
   "note": ""
  },
  {
   "property": "C67",
   "status": "proved",
   "theorems": [
    "Prolothar.Petri.C67_unique"
   ],
   "note": ""
  },
  {
   "property": "C68",
   "status": "proved",
   "theorems": [
    "Prolothar.KMedoid.C68_cluster",
    "Prolothar.KMedoid.C68_clusters_nonempty",
    "Prolothar.KMedoid.C68_number",
    "Prolothar.KMedoid.C68_center_witness",
    "Prolothar.KMedoid.C68_similarity_witness"
   ],
   "note": "Dissimilarities from any linear order, and any function that sums them, so the theorems cover exact sums as well as doubles (without NaN) with sums rounded in any order. The center minimises the column sum over all objects outside as well as inside the cluster as the code does (C68_center_witness: not the within-cluster sum), and similarity mode also minimises (C68_similarity_witness)."
  },
  {
   "property": "C69",
   "status": "proved",
   "theorems": [
    "Prolothar.FuzzyKMedoid.C69_distribution",
    "Prolothar.FuzzyKMedoid.C69_recompute",
    "Prolothar.FuzzyKMedoid.C69_converged",
    "Prolothar.FuzzyKMedoid.C69_result",
    "Prolothar.FuzzyKMedoid.C69_underflow",
    "Prolothar.FuzzyKMedoid.C69_terminates"
   ],
   "note": "Exact real arithmetic, also for termination (C69_terminates, positive coefficients). C69_underflow: with a floating point exp that underflows, objects far from all centers raise ZeroDivisionError."
  },
  {
   "property": "C70",
   "status": "proved",
   "theorems": [
    "Prolothar.Clustering.C70_decode",
    "Prolothar.Clustering.C70_partition",
    "Prolothar.Clustering.C70_empty"
   ],
   "note": "C70_empty: an empty label vector raises ValueError."
  },
  {
   "property": "C71",
   "status": "proved",
   "theorems": [
    "Prolothar.ResultCollector.C71_collected",
    "Prolothar.ResultCollector.C71_scatter_values",
    "Prolothar.ResultCollector.C71_line_values",
    "Prolothar.ResultCollector.C71_labels",
    "Prolothar.ResultCollector.C71_no_mixing",
    "Prolothar.ResultCollector.C71_mixing_witness",
    "Prolothar.ResultCollector.C71_scatter_xy",
    "Prolothar.ResultCollector.C71_line_xy",
    "Prolothar.ResultCollector.C71_plot_data",
    "Prolothar.ResultCollector.C71_columns",
    "Prolothar.ResultCollector.C71_index",
    "Prolothar.ResultCollector.C71_wrong_color_witness",
    "Prolothar.ResultCollector.C71_wrong_x_witness"
   ],
   "note": "Witness theorems show where the collector mixes series: text and number x values that print alike, a wrong colour being removed, a wrong x index."
  },
  {
   "property": "C72",
   "status": "proved",
   "theorems": [
    "Prolothar.ResultCache.C72_stable",
    "Prolothar.ResultCache.C72_once",
    "Prolothar.ResultCache.C72_correct",
    "Prolothar.ResultCache.C72_first_call",
    "Prolothar.ResultCache.C72_truncated",
    "Prolothar.ResultCache.C72_collision_witness",
    "Prolothar.ResultCache.C72_no_key",
    "Prolothar.ResultCache.C72_slash"
   ],
   "note": "Files are a finite map with whole or truncated contents. C72_truncated: after a truncated write every later call with the key raises. Collisions: C72_collision_witness, C72_no_key, C72_slash."
  },
  {
   "property": "C73",
   "status": "proved",
   "theorems": [
    "Prolothar.Console.C73_restored",
    "Prolothar.Console.C73_silent",
    "Prolothar.Console.C73_silent_both",
    "Prolothar.Console.C73_transparent",
    "Prolothar.Console.C73_overlap_witness"
   ],
   "note": "Programs are interaction trees over print / swap of streams / raise / enter. C73_overlap_witness: blocks that overlap without nesting leave a closed stream as stdout."
  },
  {
   "property": "C74",
   "status": "proved",
   "theorems": [
    "Prolothar.Transactions.C74_itemset",
    "Prolothar.Transactions.C74_count",
    "Prolothar.Transactions.C74_sizes",
    "Prolothar.Transactions.C74_dat_round_trip",
    "Prolothar.Transactions.C74_dat_dict",
    "Prolothar.Transactions.C74_fic",
    "Prolothar.Transactions.C74_fic_order_witness",
    "Prolothar.Transactions.C74_fic_empty"
   ],
   "note": "C74_fic_order_witness: option 'ac' sorts in the reverse order. C74_fic_empty: an empty database raises."
  },
  {
   "property": "C75",
   "status": "proved",
   "theorems": [
    "Prolothar.ListUtils.C75_enumerate_reversed"
   ],
   "note": ""
  },
  {
   "property": "C76",
   "status": "proved",
   "theorems": [
    "Prolothar.Mdl.C76_LU",
    "Prolothar.Mdl.C76_LU_zero"
   ],
   "note": ""
  },
  {
   "property": "C77",
   "status": "proved",
   "theorems": [
    "Prolothar.Mdl.C77_LR",
    "Prolothar.Mdl.C77_value"
   ],
   "note": ""
  },
  {
   "property": "C78",
   "status": "proved",
   "theorems": [
    "Prolothar.Mdl.C78_sumLog"
   ],
   "note": ""
  },
  {
   "property": "C79",
   "status": "proved",
   "theorems": [
    "Prolothar.Parallel.C79_threads_end",
    "Prolothar.Parallel.C79_processes_end",
    "Prolothar.Parallel.C79_ordered_processes_end",
    "Prolothar.Parallel.C79_outcome_exists"
   ],
   "note": ""
  },
  {
   "property": "C80",
   "status": "proved",
   "theorems": [
    "Prolothar.LogNoise.C80_combined_noise",
    "Prolothar.LogNoise.C80_in_order",
    "Prolothar.LogNoise.C80_stream",
    "Prolothar.LogNoise.C80_empty_rejected"
   ],
   "note": ""
  },
  {
   "property": "C81",
   "status": "proved",
   "theorems": [
    "Prolothar.Dfg.C81_least_path",
    "Prolothar.Dfg.C81_order_irrelevant"
   ],
   "note": ""
  },
  {
   "property": "C82",
   "status": "proved",
   "theorems": [
    "Prolothar.Dfg.C82_eventually_follows"
   ],
   "note": ""
  },
  {
   "property": "C83",
   "status": "proved",
   "theorems": [
    "Prolothar.Dfg.C83_rename",
    "Prolothar.Dfg.C83_unknown"
   ],
   "note": ""
  },
  {
   "property": "C84",
   "status": "proved",
   "theorems": [
    "Prolothar.Dfg.C84_generated",
    "Prolothar.Dfg.C84_rejected",
    "Prolothar.Dfg.C84_errors",
    "Prolothar.Dfg.C84_default",
    "Prolothar.Dfg.C84_terminates",
    "Prolothar.Dfg.C84_every_log",
    "Prolothar.Dfg.C84_every_trace",
    "Prolothar.Dfg.C84_counts_ignored",
    "Prolothar.Dfg.C84_prefix"
   ],
   "note": "Partial correctness: generate_log need not terminate when no end activity is reachable."
  },
  {
   "property": "C85",
   "status": "proved",
   "theorems": [
    "Prolothar.PrefixTree.C85_ids_unique"
   ],
   "note": ""
  },
  {
   "property": "C86",
   "status": "proved",
   "theorems": [
    "Prolothar.PrefixTree.C86_level_order"
   ],
   "note": ""
  },
  {
   "property": "C87",
   "status": "proved",
   "theorems": [
    "Prolothar.Lts.C87_language"
   ],
   "note": ""
  },
  {
   "property": "C88",
   "status": "proved",
   "theorems": [
    "Prolothar.Lts.C88_iterator"
   ],
   "note": ""
  },
  {
   "property": "C89",
   "status": "proved",
   "theorems": [
    "Prolothar.Nested.C89_low_level_sinks",
    "Prolothar.Nested.C89_low_level_sources",
    "Prolothar.Nested.C89_replace",
    "Prolothar.Nested.C89_only_leaves",
    "Prolothar.Nested.C89_cycle_loses_edges"
   ],
   "note": "Acyclicity of the nesting is needed for termination; C89_cycle_loses_edges: edges of a compound node whose children form a cycle disappear."
  },
  {
   "property": "C90",
   "status": "proved",
   "theorems": [
    "Prolothar.Patterns.C90_tandem_repeats",
    "Prolothar.Patterns.C90_default_complete"
   ],
   "note": ""
  },
  {
   "property": "C91",
   "status": "proved",
   "theorems": [
    "Prolothar.Patterns.C91_super_maximal",
    "Prolothar.Patterns.C91_duplicates"
   ],
   "note": "C91_duplicates: with duplicate words in the argument the result differs (one copy is dropped)."
  },
  {
   "property": "C92",
   "status": "proved",
   "theorems": [
    "Prolothar.Patterns.C92_near_super_maximal",
    "Prolothar.SuffixTree.C92_of_sequence"
   ],
   "note": "C92_near_super_maximal is about the given list of maximal repeats, C92_of_sequence about the whole function."
  },
  {
   "property": "C93",
   "status": "proved",
   "theorems": [
    "Prolothar.Patterns.C93_accepted",
    "Prolothar.Patterns.C93_overclaim_accepted",
    "Prolothar.Patterns.C93_is_maximal"
   ],
   "note": "C93_overclaim_accepted: a witness for an accepted array which claims more repeats than there are."
  },
  {
   "property": "C94",
   "status": "proved",
   "theorems": [
    "Prolothar.SuffixTree.C94_maximal_repeats",
    "Prolothar.SuffixTree.C94_covers",
    "Prolothar.SuffixTree.C94_not_left_maximal",
    "Prolothar.SuffixTree.C94_sentinel_in_sequence",
    "Prolothar.SuffixTree.C94_empty",
    "Prolothar.SuffixTree.C94_is_maximal_pair_unusable"
   ],
   "note": "Activities are strings, so the test 'v not in word' (a list among the elements) is always true and the filter for non-maximal repeats has no effect: C94_not_left_maximal is a witness against the documentation. C94_sentinel_in_sequence, C94_empty: IndexError. C94_is_maximal_pair_unusable: is_maximal_pair raises a TypeError or returns False."
  },
  {
   "property": "C95",
   "status": "proved",
   "theorems": [
    "Prolothar.SuffixTree.C95_super_maximal_repeats",
    "Prolothar.SuffixTree.C95_covers"
   ],
   "note": ""
  },
  {
   "property": "C96",
   "status": "proved",
   "theorems": [
    "Prolothar.SuffixTree.C96_repeats_over_log",
    "Prolothar.SuffixTree.C96_empty_log"
   ],
   "note": "Separator of one character. C96_empty_log: empty logs raise."
  },
  {
   "property": "C97",
   "status": "proved",
   "theorems": [
    "Prolothar.Petri.C97_step",
    "Prolothar.Petri.C97_guard_error",
    "Prolothar.Petri.C97_has_guards"
   ],
   "note": ""
  },
  {
   "property": "C98",
   "status": "proved",
   "theorems": [
    "Prolothar.Petri.C98_copy",
    "Prolothar.Petri.C98_guards_not_copied",
    "Prolothar.Petri.C98_negative"
   ],
   "note": "C98_guards_not_copied: the guards of a copy do not notice assignments to the copy's variables. C98_negative: negative token counts cannot be copied."
  },
  {
   "property": "C99",
   "status": "proved",
   "theorems": [
    "Prolothar.Petri.C99_source_sink",
    "Prolothar.Petri.C99_is_workflow",
    "Prolothar.Petri.C99_transform",
    "Prolothar.Petri.C99_transform_succeeds",
    "Prolothar.Petri.C99_collision"
   ],
   "note": "C99_transform_succeeds characterises the failures; C99_collision is a witness."
  },
  {
   "property": "C100",
   "status": "proved",
   "theorems": [
    "Prolothar.Petri.C100_prune_ends",
    "Prolothar.Petri.C100_prune",
    "Prolothar.Petri.C100_unsafe_witness",
    "Prolothar.Petri.C100_token_lost_witness",
    "Prolothar.Petri.C100_single"
   ],
   "note": "Behaviour is preserved for safe nets whose marked places are sources or are not consumed from (Prunable). C100_unsafe_witness and C100_token_lost_witness show that both conditions are needed."
  },
  {
   "property": "C101",
   "status": "proved",
   "theorems": [
    "Prolothar.Petri.C101_add_variable",
    "Prolothar.Petri.C101_add_place",
    "Prolothar.Petri.C101_add_transition",
    "Prolothar.Petri.C101_connection_arcs_only",
    "Prolothar.Petri.C101_built_consistent",
    "Prolothar.Petri.C101_connection",
    "Prolothar.Petri.C101_rejected"
   ],
   "note": ""
  },
  {
   "property": "C102",
   "status": "proved",
   "theorems": [
    "Prolothar.Data.C102_copy"
   ],
   "note": ""
  },
  {
   "property": "C103",
   "status": "proved",
   "theorems": [
    "Prolothar.Data.C103_quantiles",
    "Prolothar.Data.C103_disjoint",
    "Prolothar.Data.C103_quantile_discretization",
    "Prolothar.Data.C103_bins",
    "Prolothar.Data.C103_one_bin",
    "Prolothar.Data.C103_no_bins"
   ],
   "note": "Numbers are exact rationals; statistics.quantiles is modelled from the standard library source. C103_one_bin and C103_no_bins are the error cases."
  },
  {
   "property": "C104",
   "status": "proved",
   "theorems": [
    "Prolothar.Data.C104_remove_constant",
    "Prolothar.Data.C104_select"
   ],
   "note": ""
  },
  {
   "property": "C105",
   "status": "proved",
   "theorems": [
    "Prolothar.Data.C105_add",
    "Prolothar.Data.C105_add_zero",
    "Prolothar.Data.C105_add_empty_alphabet",
    "Prolothar.Data.C105_remove",
    "Prolothar.Data.C105_remove_one",
    "Prolothar.Data.C105_remove_zero_witness",
    "Prolothar.Data.C105_swap",
    "Prolothar.Data.C105_swap_where",
    "Prolothar.Data.C105_swap_zero",
    "Prolothar.Data.C105_targets",
    "Prolothar.Data.C105_remove_binomial",
    "Prolothar.Data.C105_remove_share",
    "Prolothar.Data.C105_add_binomial"
   ],
   "note": "C105_remove_zero_witness: with probability 0 an event is removed if the generator draws exactly 0. The random stream is an arbitrary input; for the distribution (C105_remove_binomial, C105_add_binomial) it draws from a grid of N numbers."
  },
  {
   "property": "C106",
   "status": "proved",
   "theorems": [
    "Prolothar.Data.C106_local",
    "Prolothar.Data.C106_not_inplace",
    "Prolothar.Data.C106_local_bins",
    "Prolothar.Data.C106_local_noise"
   ],
   "note": "Local is proved for label, one-hot, min-max, quantile, remove-constant and select transformers. Label sets of multi-label instances are shared by copies (C125_copy_shares_label_sets)."
  },
  {
   "property": "C107",
   "status": "proved",
   "theorems": [
    "Prolothar.Clustering.C107_encode",
    "Prolothar.Clustering.C107_same_row"
   ],
   "note": "Activities of the log in the order of the set used by the code, an arbitrary duplicate-free list in the model."
  },
  {
   "property": "C108",
   "status": "proved",
   "theorems": [
    "Prolothar.ActivityPattern.C108_sequence",
    "Prolothar.ActivityPattern.C108_sequence_total",
    "Prolothar.ActivityPattern.C108_sequence_plain"
   ],
   "note": "Valid: consistent net, no negative tokens, one source, one sink, every transition consumes something, visible transitions have names (what the constructor yields, C114). Words: labels and high level activities of the visible transitions of a run from the standard initial to the standard final marking. Clean: proper completion."
  },
  {
   "property": "C109",
   "status": "proved",
   "theorems": [
    "Prolothar.ActivityPattern.C109_parallel",
    "Prolothar.ActivityPattern.C109_parallel_total",
    "Prolothar.ActivityPattern.C109_parallel_clash",
    "Prolothar.ActivityPattern.C109_parallel_plain"
   ],
   "note": "C109_parallel_clash: the source place id of the first pattern is used as id of a new transition without making it unique."
  },
  {
   "property": "C110",
   "status": "proved",
   "theorems": [
    "Prolothar.ActivityPattern.C110_repetition"
   ],
   "note": "Proper completion is needed: otherwise tokens of one round remain in the next."
  },
  {
   "property": "C111",
   "status": "proved",
   "theorems": [
    "Prolothar.ActivityPattern.C111_choice",
    "Prolothar.ActivityPattern.C111_choice_total",
    "Prolothar.ActivityPattern.C111_choice_plain"
   ],
   "note": ""
  },
  {
   "property": "C112",
   "status": "proved",
   "theorems": [
    "Prolothar.ActivityPattern.C112_interleaving_never"
   ],
   "note": "The property does not hold; C112_interleaving_never proves that no execution completes: a place of the composition keeps its token in every reachable marking in which the sink is marked."
  },
  {
   "property": "C113",
   "status": "proved",
   "theorems": [
    "Prolothar.ActivityPattern.C113_nested"
   ],
   "note": "Expressions whose evaluation succeeds; C108-C111 say when a single step fails. Interleaving is excluded (C112)."
  },
  {
   "property": "C114",
   "status": "proved",
   "theorems": [
    "Prolothar.ActivityPattern.C114_init_name",
    "Prolothar.ActivityPattern.C114_init_dict",
    "Prolothar.ActivityPattern.C114_init_total",
    "Prolothar.ActivityPattern.C114_markings",
    "Prolothar.ActivityPattern.C114_copy",
    "Prolothar.ActivityPattern.C114_prune",
    "Prolothar.ActivityPattern.C114_prune_executions",
    "Prolothar.ActivityPattern.C114_prune_unsafe_witness"
   ],
   "note": "Pruning changes the net object in place; the model treats ids as unchanged between construction and pruning (transition ids that are changed while the objects are keys of a dictionary are not modelled). C114_prune_unsafe_witness: if a place can carry two tokens, pruning can add executions."
  },
  {
   "property": "C115",
   "status": "proved",
   "theorems": [
    "Prolothar.ActivityPattern.C115_choice_list",
    "Prolothar.ActivityPattern.C115_choice_list_plain",
    "Prolothar.ActivityPattern.C115_choice_list_few",
    "Prolothar.ActivityPattern.C115_choice_list_lost"
   ],
   "note": "C115_choice_list: place ids without quotes. C115_choice_list_lost is the witness for the lost place, C115_choice_list_few the ValueError for fewer than two patterns."
  },
  {
   "property": "C116",
   "status": "proved",
   "theorems": [
    "Prolothar.Nested.C116_add_node",
    "Prolothar.Nested.C116_add_edge",
    "Prolothar.Nested.C116_remove_edge",
    "Prolothar.Nested.C116_nodes_by_label",
    "Prolothar.Nested.C116_edge_between",
    "Prolothar.Nested.C116_children",
    "Prolothar.Nested.C116_source_sink",
    "Prolothar.Nested.C116_equality"
   ],
   "note": "Equality ignores node labels, as in the code."
  },
  {
   "property": "C117",
   "status": "proved",
   "theorems": [
    "Prolothar.LogTable.C117_first_empty",
    "Prolothar.LogTable.C117_ragged",
    "Prolothar.LogTable.C117_table",
    "Prolothar.LogTable.C117_empty",
    "Prolothar.LogTable.C117_misplaced"
   ],
   "note": "Fails if events of a log have different attribute names: C117_misplaced shows a value under a foreign column, without an error. Column type conversions of pandas are not modelled."
  },
  {
   "property": "C118",
   "status": "proved",
   "theorems": [
    "Prolothar.LogTable.C118_unknown_column",
    "Prolothar.LogTable.C118_round_trip",
    "Prolothar.LogTable.C118_same_id"
   ],
   "note": "Fails if two traces have the same id: C118_same_id. Values are never None; column names are distinct."
  },
  {
   "property": "C119",
   "status": "proved",
   "theorems": [
    "Prolothar.LogTable.C119_lines",
    "Prolothar.LogTable.C119_csv_determines",
    "Prolothar.LogTable.C119_csv_iff",
    "Prolothar.LogTable.C119_line_break"
   ],
   "note": "Fails for activity names with line breaks: C119_line_break (there is no quoting)."
  },
  {
   "property": "C120",
   "status": "proved",
   "theorems": [
    "Prolothar.LogTable.C120_states",
    "Prolothar.LogTable.C120_again",
    "Prolothar.LogTable.C120_after_exception",
    "Prolothar.LogTable.C120_durations",
    "Prolothar.LogTable.C120_errors",
    "Prolothar.LogTable.C120_sorted"
   ],
   "note": "Dates are integers; event objects shared within a log are not modelled. An IndexError is raised for empty traces and a KeyError for missing end dates (C120_errors)."
  },
  {
   "property": "C121",
   "status": "proved",
   "theorems": [
    "Prolothar.LogStatistics.C121_count_events",
    "Prolothar.LogStatistics.C121_activity_supports",
    "Prolothar.LogStatistics.C121_trace_statistics",
    "Prolothar.LogStatistics.C121_no_traces",
    "Prolothar.LogStatistics.C121_variants",
    "Prolothar.LogStatistics.C121_variant_names",
    "Prolothar.LogStatistics.C121_variant_clash",
    "Prolothar.LogStatistics.C121_activities",
    "Prolothar.LogStatistics.C121_activities_by_attribute",
    "Prolothar.LogStatistics.C121_attribute_same",
    "Prolothar.LogStatistics.C121_unknown_attribute",
    "Prolothar.LogStatistics.C121_distributions",
    "Prolothar.LogStatistics.C121_no_activities",
    "Prolothar.LogStatistics.C121_missing_id_witness"
   ],
   "note": "Exact rationals. C121_variant_clash: names with ', ' can give two variants the same row name; C121_no_traces, C121_no_activities: exceptions for logs without traces. If two traces have the same id, 'number of traces' of an activity counts ids."
  },
  {
   "property": "C122",
   "status": "proved",
   "theorems": [
    "Prolothar.EventLogHeap.C122_value_semantics",
    "Prolothar.EventLogHeap.C122_untouched",
    "Prolothar.EventLogHeap.C122_copy_shares_events",
    "Prolothar.EventLogHeap.C122_join_without_copies",
    "Prolothar.EventLogHeap.C122_initially",
    "Prolothar.EventLogHeap.C122_join_through_copy",
    "Prolothar.EventLogHeap.C122_split_shares_traces"
   ],
   "note": "Disagreement with full independence: event objects are shared by copies (C122_copy_shares_events, C122_join_through_copy) and trace objects by splits (C122_split_shares_traces). The attribute dictionary of an event is part of the event object."
  },
  {
   "property": "C123",
   "status": "proved",
   "theorems": [
    "Prolothar.Dfg.C123_indegree",
    "Prolothar.Dfg.C123_sizes",
    "Prolothar.Dfg.C123_equality",
    "Prolothar.Dfg.C123_copy_equal",
    "Prolothar.Dfg.C123_zero_count_edge"
   ],
   "note": "The graphviz source is modelled by the data written into it (sorted node lines, sorted edge lines with counts); nodes have the default colors."
  },
  {
   "property": "C124",
   "status": "proved",
   "theorems": [
    "Prolothar.Data.C124_category_counts",
    "Prolothar.Data.C124_class_counts",
    "Prolothar.Data.C124_parts",
    "Prolothar.Data.C124_added_attribute_not_counted",
    "Prolothar.Data.C124_query_adds_class"
   ],
   "note": "Disagreements: C124_query_adds_class (reading a defaultdict inserts the label), C124_added_attribute_not_counted (add_categorical_attribute does not update the counters)."
  },
  {
   "property": "C125",
   "status": "proved",
   "theorems": [
    "Prolothar.Data.C125_labels",
    "Prolothar.Data.C125_symbols",
    "Prolothar.Data.C125_multiset_counts",
    "Prolothar.Data.C125_multiset_classes",
    "Prolothar.Data.C125_unique_sequences",
    "Prolothar.Data.C125_ordered_by_frequency",
    "Prolothar.Data.C125_symbols_stale",
    "Prolothar.Data.C125_copy_shares_label_sets"
   ],
   "note": "Disagreements: C125_symbols_stale (set_target_sequence), C125_copy_shares_label_sets. The private counters of MultisetDataset (total and maximal counts) have no accessor and are only modelled."
  },
  {
   "property": "C126",
   "status": "proved",
   "theorems": [
    "Prolothar.Data.C126_export",
    "Prolothar.Data.C126_mixed_values_fail",
    "Prolothar.Data.C126_roundtrip",
    "Prolothar.Data.C126_space_rejected",
    "Prolothar.Data.C126_no_attributes",
    "Prolothar.Data.C126_equal_content",
    "Prolothar.Data.C126_equal_self",
    "Prolothar.Data.C126_order_matters",
    "Prolothar.Data.C126_ids_ignored",
    "Prolothar.Data.C126_sparse",
    "Prolothar.Data.C126_sparse_integers_only",
    "Prolothar.Data.C126_text",
    "Prolothar.Data.C126_unsupported_type"
   ],
   "note": "`str` on values is an arbitrary function; texts are lists of characters. Disagreements: C126_space_rejected, C126_no_attributes, C126_mixed_values_fail, C126_order_matters, C126_ids_ignored, C126_sparse_integers_only. Numbers come back as strings (the import does not convert them)."
  },
  {
   "property": "C127",
   "status": "proved",
   "theorems": [
    "Prolothar.Data.C127_labels_text",
    "Prolothar.Data.C127_multisets_text",
    "Prolothar.Data.C127_sequences_text",
    "Prolothar.Data.C127_classes_text",
    "Prolothar.Data.C127_labels_roundtrip",
    "Prolothar.Data.C127_no_labels_rejected",
    "Prolothar.Data.C127_no_attributes_rejected",
    "Prolothar.Data.C127_multisets_roundtrip",
    "Prolothar.Data.C127_sequences_roundtrip",
    "Prolothar.Data.C127_default_separator",
    "Prolothar.Data.C127_empty_sequence",
    "Prolothar.Data.C127_class_column"
   ],
   "note": "Disagreements: C127_no_labels_rejected, C127_no_attributes_rejected, C127_default_separator, C127_empty_sequence. The order of sorted sequences in the header line is an arbitrary permutation (python sorts tuples of strings)."
  },
  {
   "property": "C128",
   "status": "proved",
   "theorems": [
    "Prolothar.Pm4py.C128_dangling_arc",
    "Prolothar.Pm4py.C128_to_pm4py",
    "Prolothar.Pm4py.C128_built",
    "Prolothar.Pm4py.C128_state_ignored",
    "Prolothar.Pm4py.C128_from_pm4py",
    "Prolothar.Pm4py.C128_rejected",
    "Prolothar.Pm4py.C128_roundtrip",
    "Prolothar.Pm4py.C128_id_collision",
    "Prolothar.Pm4py.C128_dangling_lost"
   ],
   "note": "pm4py's objects are modelled by their data. Disagreements: C128_id_collision, C128_dangling_lost; C128_state_ignored states that marking and guards do not matter."
  },
  {
   "property": "C129",
   "status": "proved",
   "theorems": [
    "Prolothar.Pm4py.C129_to_pm4py",
    "Prolothar.Pm4py.C129_from_pm4py",
    "Prolothar.Pm4py.C129_roundtrip",
    "Prolothar.Pm4py.C129_rejected"
   ],
   "note": "Values are python values of an arbitrary type with a test for strings; that the imported trace shares its attribute dictionary with pm4py's trace is not modelled. Disagreement (in C129_to_pm4py/C129_roundtrip): the attribute concept:name takes precedence over the id."
  },
  {
   "property": "C130",
   "status": "proved",
   "theorems": [
    "Prolothar.Hash.C130_event",
    "Prolothar.Hash.C130_unhashable",
    "Prolothar.Hash.C130_complex_children",
    "Prolothar.Hash.C130_complex",
    "Prolothar.Hash.C130_complex_mixed",
    "Prolothar.Hash.C130_complex_transition",
    "Prolothar.Hash.C130_complex_equal",
    "Prolothar.Hash.C130_graph_objects",
    "Prolothar.Hash.C130_nodes",
    "Prolothar.Hash.C130_edge_order",
    "Prolothar.Hash.C130_set",
    "Prolothar.Hash.C130_trace"
   ],
   "note": "Hash functions of strings, integers, tuples and attribute values are arbitrary functions that respect equality of values (Lawful). Disagreements: C130_trace (equal traces with different hashes), C130_complex_mixed, C130_complex_transition, C130_edge_order. C130_complex_equal says exactly when two events, complex or not, compare equal."
  },
  {
   "property": "C131",
   "status": "proved",
   "theorems": [
    "Prolothar.Dfg.C131_ranks_by_distance",
    "Prolothar.Dfg.C131_unreachable_missing",
    "Prolothar.Dfg.C131_ranks_by_walks",
    "Prolothar.Dfg.C131_other_cases",
    "Prolothar.Dfg.C131_edge_lines",
    "Prolothar.Dfg.C131_widths",
    "Prolothar.Dfg.C131_plot",
    "Prolothar.Dfg.C131_not_topological"
   ],
   "note": "The data written into the graphviz source is modelled, not its text. random.choice is an arbitrary pick; averages and widths are exact. Disagreements: C131_not_topological, C131_unreachable_missing, and the width 1 outside of the bounds in C131_widths."
  },
  {
   "property": "C132",
   "status": "proved",
   "theorems": [
    "Prolothar.Utils.C132_constructor",
    "Prolothar.Utils.C132_stream",
    "Prolothar.Utils.C132_options",
    "Prolothar.Utils.C132_generator_error"
   ],
   "note": "numpy's generator is an arbitrary function that returns a batch and its next state or raises; that a batch has the requested length and contains options only is a hypothesis on it."
  },
  {
   "property": "C133",
   "status": "proved",
   "theorems": [
    "Prolothar.Utils.C133_min",
    "Prolothar.Utils.C133_colors",
    "Prolothar.Utils.C133_progress_bar",
    "Prolothar.Utils.C133_stopwatch"
   ],
   "note": "Floats are exact. Two things a user may not expect are part of the theorems: Min is unhashable because the class defines __eq__ without __hash__, and a progress bar with iteration > total is longer than requested."
  },
  {
   "property": "C134",
   "status": "proved",
   "theorems": [
    "Prolothar.Timeout.C134_not_early_and_once",
    "Prolothar.Timeout.C134_fast_calls",
    "Prolothar.Timeout.C134_outcome",
    "Prolothar.Timeout.C134_slow_calls",
    "Prolothar.Timeout.C134_late_interrupts"
   ],
   "note": "Transition system with the steps of threading.Timer.run atomic each. The deviation (lost results, late interrupts, interrupt of the wrong thread) is C134_late_interrupts. Interrupts from other sources and several overlapping decorated calls are not modelled."
  },
  {
   "property": "C135",
   "status": "proved",
   "theorems": [
    "Prolothar.Data.C135_transform",
    "Prolothar.Data.C135_unknown_attribute",
    "Prolothar.Data.C135_train",
    "Prolothar.Data.C135_train_transform",
    "Prolothar.Data.C135_monotone",
    "Prolothar.Data.C135_too_small"
   ],
   "note": "pandas' qcut is a parameter; that it returns consecutive left-open intervals (and starts below the smallest value) is a hypothesis. C135_too_small is the deviation: values below the smallest bin end up in the last bin."
  },
  {
   "property": "C136",
   "status": "proved",
   "theorems": [
    "Prolothar.Plots.C136_no_cells",
    "Prolothar.Plots.C136_counts",
    "Prolothar.Plots.C136_counts_sum",
    "Prolothar.Plots.C136_counts_errors",
    "Prolothar.Plots.C136_histogram_bins",
    "Prolothar.Plots.C136_grid",
    "Prolothar.Plots.C136_heatmap",
    "Prolothar.Plots.C136_annotations",
    "Prolothar.Plots.C136_annotations_list"
   ],
   "note": "What is handed to matplotlib, not its rendering. Axes are opaque, numbers exact, the norm of an image an arbitrary function. plt.subplots is modelled with its squeezing of dimensions of size 1. C136_annotations_list is the deviation."
  },
  {
   "property": "C137",
   "status": "proved",
   "theorems": [
    "Prolothar.ActivityKMedoid.C137_init",
    "Prolothar.ActivityKMedoid.C137_dissimilarity",
    "Prolothar.ActivityKMedoid.C137_hard",
    "Prolothar.ActivityKMedoid.C137_own_cluster",
    "Prolothar.ActivityKMedoid.C137_empty_cluster",
    "Prolothar.ActivityKMedoid.C137_number",
    "Prolothar.ActivityKMedoid.C137_fuzzy"
   ],
   "note": "Exact arithmetic; the random generator is an arbitrary shuffle. C137_empty_cluster is the deviation."
  },
  {
   "property": "C138",
   "status": "proved",
   "theorems": [
    "Prolothar.Converter.C138_convert",
    "Prolothar.Converter.C138_empty_sequence",
    "Prolothar.Converter.C138_shared",
    "Prolothar.Converter.C138_breaks_dataset"
   ],
   "note": "Instances live on a heap; a converted trace refers to the instance's feature dictionary. C138_breaks_dataset is the deviation."
  },
  {
   "property": "C139",
   "status": "proved",
   "theorems": [
    "Prolothar.Ray.C139_map",
    "Prolothar.Ray.C139_map_reduce",
    "Prolothar.Ray.C139_map_filter",
    "Prolothar.Ray.C139_map_terminates",
    "Prolothar.Ray.C139_map_filter_terminates",
    "Prolothar.Ray.C139_result"
   ],
   "note": "Ray itself is modelled by its contract: a submitted task runs at any later time, arguments that are references are resolved first, ray.get waits for all results and raises the first exception in list order. Failures of the cluster, serialization, and the wrapping of exceptions in RayTaskError are not modelled."
  },
  {
   "property": "C140",
   "status": "proved",
   "theorems": [
    "Prolothar.Clustering.C140_partition",
    "Prolothar.Clustering.C140_errors",
    "Prolothar.Clustering.C140_distance",
    "Prolothar.Clustering.C140_dbscan",
    "Prolothar.Clustering.C140_sgt"
   ],
   "note": "scikit-learn is a parameter: for C140_dbscan it has to return labels that satisfy the textbook definition of DBSCAN (Spec/TraceClustering.lean). SGT is a parameter. OPTICS is covered by C140_partition only."
  },
  {
   "property": "C141",
   "status": "proved",
   "theorems": [
    "Prolothar.ResultCollector.C141_text",
    "Prolothar.ResultCollector.C141_pdf",
    "Prolothar.ResultCollector.C141_other_files",
    "Prolothar.ResultCollector.C141_dodge",
    "Prolothar.ResultCollector.C141_ticks",
    "Prolothar.ResultCollector.C141_axis",
    "Prolothar.ResultCollector.C141_bars",
    "Prolothar.ResultCollector.C141_history",
    "Prolothar.ResultCollector.C141_plotted",
    "Prolothar.ResultCollector.C141_block",
    "Prolothar.ResultCollector.C141_block_scatter",
    "Prolothar.ResultCollector.C141_stddev_misaligned",
    "Prolothar.ResultCollector.C141_name_collision"
   ],
   "note": "Files are a dictionary of names; a pdf is represented by the data, bars, ticks and axis range handed to seaborn/matplotlib. Formatting of numbers is a parameter. Result types are assumed to be plain file names. C141_name_collision and C141_stddev_misaligned are the deviations."
  },
  {
   "property": "C142",
   "status": "proved",
   "theorems": [
    "Prolothar.Data.C142_duplicate_column",
    "Prolothar.Data.C142_create",
    "Prolothar.Data.C142_to_frame",
    "Prolothar.Data.C142_roundtrip",
    "Prolothar.Data.C142_errors"
   ],
   "note": "pandas frames are index, columns and rows; conversions of column types by pandas are not modelled (an integer column next to a float column comes back as floats with iterrows)."
  },
  {
   "property": "C143",
   "status": "proved",
   "theorems": [
    "Prolothar.Petri.C143_accept",
    "Prolothar.Petri.C143_exclusive",
    "Prolothar.Petri.C143_locality",
    "Prolothar.Petri.C143_fireable"
   ],
   "note": "Spec/Guard.lean states as three inductive predicates when a guard holds, when it is violated and when it cannot be evaluated. C143_accept: accept returns true, returns false or raises e exactly in these cases. C143_exclusive: exactly one of them applies. C143_locality: only the variables a guard refers to matter. C143_fireable: the fireable transitions in terms of the conditions. Values are None or integers (booleans are 0 and 1), so NaN is excluded."
  },
  {
   "property": "C144",
   "status": "proved",
   "theorems": [
    "Prolothar.GraphPlots.C144_net",
    "Prolothar.GraphPlots.C144_net_exact",
    "Prolothar.GraphPlots.C144_tree",
    "Prolothar.GraphPlots.C144_lts",
    "Prolothar.GraphPlots.C144_lts_unsortable",
    "Prolothar.GraphPlots.C144_dfg",
    "Prolothar.GraphPlots.C144_dfg_exact",
    "Prolothar.GraphPlots.C144_net_colon",
    "Prolothar.GraphPlots.C144_dfg_colon"
   ],
   "note": "Disagreement: ids or activities with a colon are drawn wrongly: the arrow of a place 'a:1' starts at the node of the place 'a' (C144_net_colon), and an edge between 'login:failed' and 'login:ok' becomes a loop at an undeclared node 'login' (C144_dfg_colon). C144_net and C144_dfg state what is drawn for all ids, C144_net_exact and C144_dfg_exact the claim for ids without colons; prefix trees (C144_tree) and transition systems (C144_lts) use generated names and are drawn correctly. Assumption about the graphviz package: edge() splits end points at colons, node() does not; other special characters are not considered."
  },
  {
   "property": "C145",
   "status": "proved",
   "theorems": [
    "Prolothar.Petri.C145_runs",
    "Prolothar.Petri.C145_traces",
    "Prolothar.Petri.C145_unmarked",
    "Prolothar.Petri.C145_choice",
    "Prolothar.Petri.C145_synchronised"
   ],
   "note": "C145_runs describes the firing sequences of the transformed net exactly (markings and visible transitions), C145_traces and C145_unmarked and C145_choice draw the conclusions for the traces. C145_synchronised proves that starting the workflow net with one token on its source loses behaviour when a transition needs tokens on several of the old sources: the new source chooses one of them (XOR), it does not mark all (AND)."
  },
  {
   "property": "C146",
   "status": "proved",
   "theorems": [
    "Prolothar.CInt.C146_levenshtein",
    "Prolothar.CInt.C146_levenshtein_default",
    "Prolothar.CInt.C146_levenshtein_long",
    "Prolothar.CInt.C146_levenshtein_longest",
    "Prolothar.CInt.C146_levenshtein_overflow",
    "Prolothar.CInt.C146_levenshtein_wrong",
    "Prolothar.CInt.C146_lcs",
    "Prolothar.CInt.C146_sublists"
   ],
   "note": "Disagreement: costs that are accepted can overflow silently (C146_levenshtein_wrong with two's complement). C146_levenshtein holds for every behaviour of overflowing expressions and reduces the compiled program to the one of C14 - C16."
  },
  {
   "property": "C147",
   "status": "proved",
   "theorems": [
    "Prolothar.Dfg.C147_add_count",
    "Prolothar.Dfg.C147_read",
    "Prolothar.Dfg.C147_small_log"
   ],
   "note": "C147_add_count covers all counts, C147_read all logs. Trusted: cython's conversion of python integers to C ints raises OverflowError, both for arguments and for attributes declared `cdef public int`."
  },
  {
   "property": "C148",
   "status": "proved",
   "theorems": [
    "Prolothar.Dfg.C148_filter",
    "Prolothar.Dfg.C148_rounding",
    "Prolothar.Dfg.C148_clear",
    "Prolothar.Dfg.C148_float_threshold",
    "Prolothar.Dfg.C148_tenth"
   ],
   "note": "Disagreement: C148_tenth: the threshold 0.1 removes edges with a share of exactly one tenth. C148_filter says for all graphs and thresholds which edges are kept, C148_clear and C148_float_threshold when this agrees with exact arithmetic (C43_filter_local). C148_rounding shows against Spec/Float.lean that the rounding of the model is rounding to nearest. Exponents are unbounded in the model (no subnormal thresholds)."
  },
  {
   "property": "C149",
   "status": "proved",
   "theorems": [
    "Prolothar.PlotContext.C149_exceptions",
    "Prolothar.PlotContext.C149_figures",
    "Prolothar.PlotContext.C149_logs_closed",
    "Prolothar.PlotContext.C149_not_saved",
    "Prolothar.PlotContext.C149_wrong_figure",
    "Prolothar.PlotContext.C149_saved",
    "Prolothar.PlotContext.C149_log",
    "Prolothar.PlotContext.C149_other_files"
   ],
   "note": "Disagreements: C149_not_saved (nothing is closed if saving fails) and C149_wrong_figure (plt.close() closes the current figure, not the one of the context). Spec/PlotContext.lean reads off the text of a program which calls are made and which statements raise; the theorems relate the execution to it. Trusted: pyplot makes the last opened figure the current one."
  },
  {
   "property": "C150",
   "status": "proved",
   "theorems": [
    "Prolothar.StatisticsFloat.C150_mean_between",
    "Prolothar.StatisticsFloat.C150_variance_nonneg",
    "Prolothar.StatisticsFloat.C150_constant",
    "Prolothar.StatisticsFloat.C150_mean_error",
    "Prolothar.StatisticsFloat.C150_merge_error",
    "Prolothar.StatisticsFloat.C150_any_history",
    "Prolothar.StatisticsFloat.C150_history_error",
    "Prolothar.StatisticsFloat.C150_merge_wrong",
    "Prolothar.StatisticsFloat.C150_variance_error",
    "Prolothar.StatisticsFloat.C150_variance_defined"
   ],
   "note": "Doubles are rationals and every operation is followed by rounding to 53 bits (Model/Float.lean); overflow, underflow and fused operations are not modelled. The bound minimum <= mean <= maximum fails after merge (C150_merge_wrong)."
  },
  {
   "property": "C151",
   "status": "proved",
   "theorems": [
    "Prolothar.StatisticsCounter.C151_counter",
    "Prolothar.StatisticsCounter.C151_batch",
    "Prolothar.StatisticsCounter.C151_ddof_overflow",
    "Prolothar.StatisticsCounter.C151_negative_ddof",
    "Prolothar.StatisticsCounter.C151_moments",
    "Prolothar.StatisticsCounter.C151_merge_moments",
    "Prolothar.StatisticsCounter.C151_merge_third_moment_wrong"
   ],
   "note": "Doubles are exact here. A negative number of degrees of freedom yields NaN (C151_negative_ddof). The stored third moment, which no method returns, is wrong after merging a larger object into a smaller one (C151_merge_third_moment_wrong); C23, which claims the whole state, holds of the model with unbounded counters."
  },
  {
   "property": "C152",
   "status": "proved",
   "theorems": [
    "Prolothar.MdlMachine.C152_LN",
    "Prolothar.MdlMachine.C152_log2binom",
    "Prolothar.MdlMachine.C152_LU",
    "Prolothar.MdlMachine.C152_LU_zero",
    "Prolothar.MdlMachine.C152_log2binom_wrong",
    "Prolothar.MdlMachine.C152_prequential",
    "Prolothar.MdlMachine.C152_prequential_wrong",
    "Prolothar.MdlMachine.C152_prequential_error",
    "Prolothar.MdlMachine.C152_LR",
    "Prolothar.MdlMachine.C152_LR_precision_wrong",
    "Prolothar.MdlMachine.C152_LR_large_wrong",
    "Prolothar.MdlMachine.C152_LR_small_wrong"
   ],
   "note": "Doubles are exact. What C leaves undefined is an arbitrary function in the positive theorems; the disagreements (C152_log2binom_wrong, C152_prequential_wrong, C152_LR_precision_wrong, C152_LR_large_wrong, C152_LR_small_wrong) use two's complement or the x86 conversion. Infinities and NaN are modelled for log2binom and L_U, with scipy's betaln at its poles as in its source (cephes lbeta); k and n + 1 - k must fit into a C int."
  },
  {
   "property": "C153",
   "status": "proved",
   "theorems": [
    "Prolothar.StaleHash.C153_prune",
    "Prolothar.StaleHash.C153_copy",
    "Prolothar.StaleHash.C153_sequence",
    "Prolothar.StaleHash.C153_parallel",
    "Prolothar.StaleHash.C153_sequence_wrong",
    "Prolothar.StaleHash.C153_choice_list_wrong"
   ],
   "note": "The sets of transitions store hashes; the ids of a net in the model are its current ids, together with the id each transition had when it was stored. KeyError for patterns with common ids: C153_sequence_wrong, C153_choice_list_wrong. C100 and C114 describe nets without renamed transitions."
  },
  {
   "property": "C154",
   "status": "proved",
   "theorems": [
    "Prolothar.FloatOps.C154_scaling",
    "Prolothar.FloatOps.C154_scaling_range",
    "Prolothar.FloatOps.C154_scaling_errors",
    "Prolothar.FloatOps.C154_scaling_error_bound",
    "Prolothar.FloatOps.C154_scaling_overshoot",
    "Prolothar.FloatOps.C154_scaling_merges",
    "Prolothar.FloatOps.C154_edge_width",
    "Prolothar.FloatOps.C154_split",
    "Prolothar.FloatOps.C154_split_error",
    "Prolothar.FloatOps.C154_split_exact",
    "Prolothar.FloatOps.C154_split_tenths",
    "Prolothar.FloatOps.C154_dice",
    "Prolothar.FloatOps.C154_jaccard",
    "Prolothar.FloatOps.C154_overlap",
    "Prolothar.FloatOps.C154_discretization",
    "Prolothar.FloatOps.C154_cut_error",
    "Prolothar.FloatOps.C154_cuts_unsorted"
   ],
   "note": "Floats are rationals with 53 significant bits, every operation rounds to nearest, ties to even; exponents are unbounded (no overflow, subnormal numbers or nan). The rounded models agree with the exact ones of C35, C62, C103 and C131 if the rounding is the identity. Counterexamples are proved for: results above the target maximum, different values with the same result, an empty train log for the proportion 0.9 of ten traces, a test log with less than the share 0.1, cut points that are not in ascending order."
  },
  {
   "property": "C155",
   "status": "proved",
   "theorems": [
    "Prolothar.Parallel.C155_thread_map_ordered",
    "Prolothar.Parallel.C155_thread_map_unordered",
    "Prolothar.Parallel.C155_thread_map_filter",
    "Prolothar.Parallel.C155_thread_map_reduce",
    "Prolothar.Parallel.C155_thread_ends",
    "Prolothar.Parallel.C155_thread_silent",
    "Prolothar.Parallel.C155_thread_not_stopped",
    "Prolothar.Parallel.C155_no_worker_left",
    "Prolothar.Parallel.C155_proc_map_ordered",
    "Prolothar.Parallel.C155_proc_map_unordered",
    "Prolothar.Parallel.C155_proc_map_total",
    "Prolothar.Parallel.C155_proc_exit_hangs",
    "Prolothar.Parallel.C155_proc_map_filter",
    "Prolothar.Parallel.C155_proc_map_reduce",
    "Prolothar.Parallel.C155_proc_ordered_ends_or_waits",
    "Prolothar.Parallel.C155_proc_ends_or_waits",
    "Prolothar.Parallel.C155_proc_kill_waits",
    "Prolothar.Parallel.C155_proc_lost_silent",
    "Prolothar.Parallel.C155_proc_ordered_extends"
   ],
   "note": "The thread backed list loses elements silently after SystemExit (C155_thread_silent) and the process backed list waits for ever after a killed worker (C155_proc_kill_waits) or loses unpicklable results (C155_proc_lost_silent); these are proved with witnesses next to the positive theorems. map_reduce assumes that partial results can be pickled. C155_proc_ordered_extends shows that the crash model contains every crash-free run of the ordered map."
  },
  {
   "property": "C156",
   "status": "proved",
   "theorems": [
    "Prolothar.ActivityPattern.C156_nested_prune",
    "Prolothar.ActivityPattern.C156_sequence",
    "Prolothar.ActivityPattern.C156_choice",
    "Prolothar.ActivityPattern.C156_parallel",
    "Prolothar.ActivityPattern.C156_repetition",
    "Prolothar.ActivityPattern.C156_choice_list",
    "Prolothar.ActivityPattern.C156_interleaving_never",
    "Prolothar.ActivityPattern.C156_nested",
    "Prolothar.ActivityPattern.C156_prefixes",
    "Prolothar.ActivityPattern.C156_nested_prefixes"
   ],
   "note": "choice_list for ids of places without quotes (as C115). Interleaving violates the property for all arguments (C156_interleaving_never). C156_nested_prune is about pruning objects whose hash is not stale; see C153 for the others."
  },
  {
   "property": "C157",
   "status": "proved",
   "theorems": [
    "Prolothar.Lazy.C157_any_history",
    "Prolothar.Lazy.C157_asking_known",
    "Prolothar.Lazy.C157_asking_new",
    "Prolothar.Lazy.C157_successor_loop",
    "Prolothar.Lazy.C157_successor_loop_list",
    "Prolothar.Lazy.C157_traversal",
    "Prolothar.Lazy.C157_enumerate_reversed",
    "Prolothar.Lazy.C157_delete_one",
    "Prolothar.Lazy.C157_delete_two",
    "Prolothar.Lazy.C157_k_folds_growing",
    "Prolothar.Lazy.C157_k_folds_shrinking"
   ],
   "note": "Generators are state machines (Model/Lazy.lean) with an explicit step for each next; the dictionary iterator compares sizes like CPython. Findings: asking get_next_state or yield_outgoing_transitions for a state without outgoing transitions during transition_iterator inserts an empty entry into the defaultdict and makes the iteration raise RuntimeError; deleting from a list inside enumerate_reversed deletes wrong elements from the second deletion on."
  },
  {
   "property": "C158",
   "status": "proved",
   "theorems": [
    "Prolothar.CacheRace.C158_files_stay",
    "Prolothar.CacheRace.C158_evaluates_once",
    "Prolothar.CacheRace.C158_no_evaluation",
    "Prolothar.CacheRace.C158_small_results",
    "Prolothar.CacheRace.C158_settled",
    "Prolothar.CacheRace.C158_settled_forever",
    "Prolothar.CacheRace.C158_never_stuck",
    "Prolothar.CacheRace.C158_ends",
    "Prolothar.CacheRace.C158_evaluated_twice_witness",
    "Prolothar.CacheRace.C158_raises_witness",
    "Prolothar.CacheRace.C158_wrong_forever_witness",
    "Prolothar.CacheRace.C158_mixture_witness",
    "Prolothar.CacheRace.C158_directory",
    "Prolothar.CacheRace.C158_directory_raises_witness"
   ],
   "note": "Two laws of pickle are hypotheses: reading stops at the end of a pickled value, and needs all of its bytes; C158's `demo` format meets them. The witnesses show what the code does not guarantee (two evaluations, an exception while another process writes, a wrong value for ever after a kill, a mixture of two results, FileExistsError when decorating)."
  },
  {
   "property": "C159",
   "status": "proved",
   "theorems": [
    "Prolothar.Levenshtein.C159_metric",
    "Prolothar.Levenshtein.C159_bounds",
    "Prolothar.Levenshtein.C159_reverse",
    "Prolothar.Levenshtein.C159_context",
    "Prolothar.Levenshtein.C159_lcs",
    "Prolothar.Levenshtein.C159_lcs_bounds",
    "Prolothar.Levenshtein.C159_weighted_no_metric"
   ],
   "note": "C159_weighted_no_metric: with other insertion and deletion costs the triangle inequality can fail, since insertions and deletions at the border cost 1 (see C16)."
  },
  {
   "property": "C160",
   "status": "proved",
   "theorems": [
    "Prolothar.LogModels.C160_flow",
    "Prolothar.LogModels.C160_join",
    "Prolothar.LogModels.C160_framed",
    "Prolothar.LogModels.C160_first",
    "Prolothar.LogModels.C160_last_activity",
    "Prolothar.LogModels.C160_prefix_tree",
    "Prolothar.LogModels.C160_count_follows"
   ],
   "note": ""
  },
  {
   "property": "C161",
   "status": "proved",
   "theorems": [
    "Prolothar.LogModels.C161_graphs",
    "Prolothar.LogModels.C161_prefix_tree",
    "Prolothar.LogModels.C161_ids",
    "Prolothar.LogModels.C161_transition_system",
    "Prolothar.LogModels.C161_order_matters",
    "Prolothar.LogModels.C161_statistics"
   ],
   "note": "C161_ids: the node ids of the prefix tree depend on the order. C161_order_matters: so does the transition system of last_n_abstraction with a negative number."
  },
  {
   "property": "C162",
   "status": "proved",
   "theorems": [
    "Prolothar.LogNames.C162_search",
    "Prolothar.LogNames.C162_lcs",
    "Prolothar.LogNames.C162_levenshtein",
    "Prolothar.LogNames.C162_repeats",
    "Prolothar.LogNames.C162_graphs",
    "Prolothar.LogNames.C162_prefix_tree",
    "Prolothar.LogNames.C162_order_by_name",
    "Prolothar.LogNames.C162_transition_system",
    "Prolothar.LogNames.C162_statistics"
   ],
   "note": "The renaming must be injective; maximal repeats for sequences without the (renamed) sentinel. C162_order_by_name: the order of siblings in the prefix tree is by name."
  },
  {
   "property": "C163",
   "status": "proved",
   "theorems": [
    "Prolothar.Mdl.C163_lengths_exist",
    "Prolothar.Mdl.C163_kraft",
    "Prolothar.Mdl.C163_kraft_exceeded",
    "Prolothar.Mdl.C163_kraft_bound",
    "Prolothar.Mdl.C163_kraft_total",
    "Prolothar.Mdl.C163_prefix_code"
   ],
   "note": "C163_kraft_exceeded, C163_kraft_total: the comment 'ensures that the probabilites of all numbers sums up to 1' is false of the constant 2.8565064 (probably a misspelling of the 2.865064 of the paper); the sum over all integers exceeds 1 by less than half a percent. On the range of a C int the Kraft inequality holds (C163_kraft). Exact real arithmetic."
  },
  {
   "property": "C164",
   "status": "proved",
   "theorems": [
    "Prolothar.Mdl.C164_prequential_distribution",
    "Prolothar.Mdl.C164_log2multinom_counts",
    "Prolothar.Mdl.C164_prequential_ge_multinom"
   ],
   "note": "Exact real arithmetic. log2multinom is compared with the number of sequences, counted as functions from positions to symbols."
  },
  {
   "property": "C165",
   "status": "proved",
   "theorems": [
    "Prolothar.MdlRounded.C165_accuracy",
    "Prolothar.MdlRounded.C165_double",
    "Prolothar.MdlRounded.C165_table",
    "Prolothar.MdlRounded.C165_monotone",
    "Prolothar.MdlRounded.C165_error",
    "Prolothar.MdlRounded.C165_correctly_rounded"
   ],
   "note": "No bound on the exponent (no subnormal numbers); the values in question lie between 2^-53 and 2^7. The relative error of the library's log2 is a hypothesis (structure Accurate), satisfied by correct rounding (correctly_rounded)."
  },
  {
   "property": "C166",
   "status": "proved",
   "theorems": [
    "Prolothar.Petri.C166_state_equation",
    "Prolothar.Petri.C166_order",
    "Prolothar.Petri.C166_monotone",
    "Prolothar.Petri.C166_independent",
    "Prolothar.Petri.C166_simulate",
    "Prolothar.Petri.C166_place_invariant",
    "Prolothar.Petri.C166_place_invariant_simulate"
   ],
   "note": "Rests on the firing rule of C64 and the simulation step of C97. forceAll is a user program (a loop over force_transition), not code of the repository. A list that raises in the middle is covered by C64 only: the tokens taken before the exception are lost."
  },
  {
   "property": "C167",
   "status": "proved",
   "theorems": [
    "Prolothar.EventLog.C167_cut_idempotent",
    "Prolothar.EventLog.C167_cut_filter",
    "Prolothar.EventLog.C167_cut_filter_witness",
    "Prolothar.EventLog.C167_filter_keep_first",
    "Prolothar.EventLog.C167_add_commute",
    "Prolothar.EventLog.C167_filter_added",
    "Prolothar.EventLog.C167_join_idempotent",
    "Prolothar.EventLog.C167_join_filter_join",
    "Prolothar.EventLog.C167_join_filter_witness",
    "Prolothar.EventLog.C167_join_keep_first"
   ],
   "note": "C167_cut_filter_witness, C167_join_filter_witness: the combinations that cannot be swapped. Values only (as in C29-C34); sharing of trace objects between logs is the subject of C122."
  },
  {
   "property": "C168",
   "status": "proved",
   "theorems": [
    "Prolothar.LogModels.C168_graphs",
    "Prolothar.LogModels.C168_prefix_tree",
    "Prolothar.LogModels.C168_transition_system",
    "Prolothar.LogModels.C168_statistics",
    "Prolothar.LogModels.C168_preprocessing",
    "Prolothar.LogModels.C168_join",
    "Prolothar.LogModels.C168_read_more",
    "Prolothar.LogModels.C168_splits"
   ],
   "note": "Counts are unbounded integers here; C147 gives the bounds of the C ints. For abstractions that are not deterministic the transition systems need not add up (C161_order_matters)."
  },
  {
   "property": "C169",
   "status": "proved",
   "theorems": [
    "Prolothar.ActivityPattern.C169_laws",
    "Prolothar.ActivityPattern.C169_exchange"
   ],
   "note": "Executions are compared, not nets. Whether both compositions exist is a hypothesis (a composition may be refused with a ValueError, see C108, C109, C111)."
  },
  {
   "property": "C170",
   "status": "proved",
   "theorems": [
    "Prolothar.Data.C170_select_select",
    "Prolothar.Data.C170_remove_constant",
    "Prolothar.Data.C170_scale_scale",
    "Prolothar.Data.C170_scale_to_point",
    "Prolothar.Data.C170_scale_label",
    "Prolothar.Data.C170_select_swap",
    "Prolothar.Data.C170_remove_then_scale",
    "Prolothar.Data.C170_label_twice",
    "Prolothar.Data.C170_one_hot_twice",
    "Prolothar.Data.C170_one_hot_witness",
    "Prolothar.Data.C170_discretize_twice"
   ],
   "note": "Datasets are compared up to the order of their attributes, which does depend on the pipeline (a recoded attribute moves to the end). Values are exact numbers; see C154 for rounding."
  },
  {
   "property": "C171",
   "status": "proved",
   "theorems": [
    "Prolothar.Dfg.C171_absolute",
    "Prolothar.Dfg.C171_select",
    "Prolothar.Dfg.C171_log_absolute",
    "Prolothar.Dfg.C171_local_twice",
    "Prolothar.Dfg.C171_local_steps",
    "Prolothar.Dfg.C171_local_steps_witness",
    "Prolothar.Dfg.C171_local_keep_twice",
    "Prolothar.Dfg.C171_prune_twice",
    "Prolothar.Dfg.C171_prune_both",
    "Prolothar.Dfg.C171_largest_twice"
   ],
   "note": "Results are compared with == (C123). Frequencies are exact; see C148 for the comparison with floats."
  },
  {
   "property": "C172",
   "status": "proved",
   "theorems": [
    "Prolothar.SetSimilarity.C172_triangle",
    "Prolothar.SetSimilarity.C172_triangle_witness",
    "Prolothar.SetSimilarity.C172_dice_jaccard",
    "Prolothar.SetSimilarity.C172_same_ranking",
    "Prolothar.SetSimilarity.C172_order",
    "Prolothar.SetSimilarity.C172_rename",
    "Prolothar.SetSimilarity.C172_monotone"
   ],
   "note": "The triangle inequality is proved for the Jaccard index; for the other two coefficients it is refuted by a witness. Quotients are exact."
  },
  {
   "property": "C173",
   "status": "proved",
   "theorems": [
    "Prolothar.LogNoise.C173_add_law",
    "Prolothar.LogNoise.C173_remove_law",
    "Prolothar.LogNoise.C173_swap_law",
    "Prolothar.LogNoise.C173_add_binomial",
    "Prolothar.LogNoise.C173_remove_binomial",
    "Prolothar.LogNoise.C173_remove_everything",
    "Prolothar.LogNoise.C173_add_mean",
    "Prolothar.LogNoise.C173_remove_mean",
    "Prolothar.LogNoise.C173_share",
    "Prolothar.LogNoise.C173_swap_nothing"
   ],
   "note": "Independence and uniformity of the numbers of random.Random are the assumption (the sample space); everything else is counted exactly, for every resolution N."
  },
  {
   "property": "C174",
   "status": "proved",
   "theorems": [
    "Prolothar.Dfg.C174_law",
    "Prolothar.Dfg.C174_law_default"
   ],
   "note": "Uniformity and independence of random.choice are the assumption (the sample space). The docstring of generate_log does not say whether counts are used; they are not."
  },
  {
   "property": "C175",
   "status": "proved",
   "theorems": [
    "Prolothar.Lts.C175_language",
    "Prolothar.Lts.C175_monotone",
    "Prolothar.Lts.C175_coarser",
    "Prolothar.Lts.C175_last_n",
    "Prolothar.Lts.C175_last",
    "Prolothar.Lts.C175_set",
    "Prolothar.Lts.C175_incomparable"
   ],
   "note": "Events are never None (None is the state of the empty prefix of last_abstraction). Deterministic: the next state depends only on the state and the event; C54_abstractions shows this for the abstractions of the library with n >= 0."
  },
  {
   "property": "C176",
   "status": "proved",
   "theorems": [
    "Prolothar.Statistics.C176_affine",
    "Prolothar.Statistics.C176_affine_stddev",
    "Prolothar.Statistics.C176_bounds",
    "Prolothar.Statistics.C176_ddof",
    "Prolothar.Statistics.C176_least_squares",
    "Prolothar.Statistics.C176_deviation",
    "Prolothar.Statistics.C176_merge"
   ],
   "note": "Exact arithmetic in an ordered field; C150 bounds the effect of rounding."
  },
  {
   "property": "C177",
   "status": "proved",
   "theorems": [
    "Prolothar.FairParts.C177_train_sets",
    "Prolothar.FairParts.C177_train_trace",
    "Prolothar.FairParts.C177_dataset_sets",
    "Prolothar.FairParts.C177_random_subset",
    "Prolothar.FairParts.C177_initial_medoids"
   ],
   "note": "Fairness of the shuffle is the assumption (the sample space is the set of permutations). fuzzy_k_medoid.py selects with a copy of the code of k_medoid.py."
  },
  {
   "property": "C178",
   "status": "proved",
   "theorems": [
    "Prolothar.Petri.C178_complete",
    "Prolothar.Petri.C178_sequential",
    "Prolothar.Petri.C178_finals",
    "Prolothar.Petri.C178_almost_sure",
    "Prolothar.Petri.C178_intermediate",
    "Prolothar.ActivityPattern.C178_option_to_complete",
    "Prolothar.ActivityPattern.C178_pattern_terminates"
   ],
   "note": "forceAll and simulateAll are user programs (loops over force_transition and simulate_one_timestep). The random choices of a step are one number below M for every place, M a common multiple of the numbers of options, so that every option is equally likely. C178_intermediate is the witness that markings that are not final can be missed. Transitions without input places are never fired by the simulation."
  },
  {
   "property": "C179",
   "status": "proved",
   "theorems": [
    "Prolothar.Dfg.C179_returns",
    "Prolothar.Dfg.C179_may_not_return"
   ],
   "note": "The sample space is that of C174: words of L independent choices among N numbers, N a common multiple of the numbers of alternatives, the chosen alternative being the number modulo the number of alternatives. Not returning covers both an endless loop and a random.choice of an empty list (IndexError)."
  },
  {
   "property": "C180",
   "status": "proved",
   "theorems": [
    "Prolothar.Dfg.C180_rediscovered",
    "Prolothar.Dfg.C180_part",
    "Prolothar.Dfg.C180_whole"
   ],
   "note": "The sample space is that of C174 and C179. The log with the simulated activity sequences may carry any case ids and attributes."
  },
  {
   "property": "C181",
   "status": "proved",
   "theorems": [
    "Prolothar.LogNoise.C181_add",
    "Prolothar.LogNoise.C181_remove",
    "Prolothar.LogNoise.C181_swap",
    "Prolothar.Data.C181_sequence_add",
    "Prolothar.Data.C181_sequence_remove",
    "Prolothar.Data.C181_sequence_swap"
   ],
   "note": ""
  },
  {
   "property": "C182",
   "status": "proved",
   "theorems": [
    "Prolothar.SuffixTree.C182_count",
    "Prolothar.SuffixTree.C182_tight",
    "Prolothar.SuffixTree.C182_super",
    "Prolothar.SuffixTree.C182_tree",
    "Prolothar.SuffixTree.C182_linear"
   ],
   "note": ""
  },
  {
   "property": "C183",
   "status": "proved",
   "theorems": [
    "Prolothar.Petri.C183_law",
    "Prolothar.Petri.C183_single"
   ],
   "note": ""
  },
  {
   "property": "C184",
   "status": "proved",
   "theorems": [
    "Prolothar.MdlRounded.C184_log2multinom",
    "Prolothar.MdlRounded.C184_one_class",
    "Prolothar.MdlRounded.C184_log2binom",
    "Prolothar.MdlRounded.C184_LU",
    "Prolothar.MdlRounded.C184_prequential",
    "Prolothar.MdlRounded.C184_sumLog"
   ],
   "note": ""
  },
  {
   "property": "C185",
   "status": "proved",
   "theorems": [
    "Prolothar.Transactions.C185_ended",
    "Prolothar.Transactions.C185_prefix",
    "Prolothar.Transactions.C185_any_prefix",
    "Prolothar.Transactions.C185_can_end",
    "Prolothar.Transactions.C185_dat_killed",
    "Prolothar.Transactions.C185_dat_ended",
    "Prolothar.Transactions.C185_dat_undetectable",
    "Prolothar.Transactions.C185_dat_cut_number_witness",
    "Prolothar.Transactions.C185_fic_killed",
    "Prolothar.Transactions.C185_fic_ended",
    "Prolothar.Transactions.C185_fic_empty"
   ],
   "note": "The operating system is assumed to keep what was written in order (no power failure, no full disk); the text is ASCII, so characters are bytes. Exceptions of the caller's items (unhashable, not comparable) before the file is opened are not modelled."
  },
  {
   "property": "C186",
   "status": "proved",
   "theorems": [
    "Prolothar.Timeout.C186_in_time",
    "Prolothar.Timeout.C186_all_in_time",
    "Prolothar.Timeout.C186_accounting",
    "Prolothar.Timeout.C186_nested_witness",
    "Prolothar.Timeout.C186_merged_witness",
    "Prolothar.Timeout.C186_double_witness"
   ],
   "note": "Disagreements: C186_nested_witness, C186_merged_witness and C186_double_witness. The end of the function and the call of cancel are one step (C134 separates them); calls in other threads are never interrupted by KeyboardInterrupt, which is only raised in the main thread. Liveness of timers is the subject of C134."
  },
  {
   "property": "C187",
   "status": "proved",
   "theorems": [
    "Prolothar.NoiseHeap.C187_value_semantics",
    "Prolothar.NoiseHeap.C187_apply",
    "Prolothar.NoiseHeap.C187_copy",
    "Prolothar.NoiseHeap.C187_distinct",
    "Prolothar.NoiseHeap.C187_split_witness",
    "Prolothar.NoiseHeap.C187_duplicate_witness",
    "Prolothar.NoiseHeap.C187_shared_witness"
   ],
   "note": "Disagreements: C187_split_witness, C187_duplicate_witness and C187_shared_witness. The hypothesis Inv (no trace object in two logs or twice in a log) holds initially and is kept by all commands of C122 and by noise."
  },
  {
   "property": "C188",
   "status": "proved",
   "theorems": [
    "Prolothar.DurationsHeap.C188_derive",
    "Prolothar.DurationsHeap.C188_copy",
    "Prolothar.DurationsHeap.C188_twice_witness"
   ],
   "note": "Disagreement: C188_twice_witness. Dates and durations are integers, as in C120."
  },
  {
   "property": "C189",
   "status": "proved",
   "theorems": [
    "Prolothar.LogTable.C189_ended",
    "Prolothar.LogTable.C189_killed",
    "Prolothar.LogTable.C189_undetectable",
    "Prolothar.LogTable.C189_beginnings",
    "Prolothar.LogTable.C189_cut_name_witness"
   ],
   "note": "The file is opened by the user; it is modelled like the files of C185. Disagreements: C189_undetectable and C189_cut_name_witness."
  },
  {
   "property": "C190",
   "status": "proved",
   "theorems": [
    "Prolothar.ResultCollector.C190_nothing_lost",
    "Prolothar.ResultCollector.C190_whole_blocks",
    "Prolothar.ResultCollector.C190_collector",
    "Prolothar.ResultCollector.C190_no_waiting",
    "Prolothar.ResultCollector.C190_any_order",
    "Prolothar.ResultCollector.C190_mixed_witness"
   ],
   "note": "The file is modelled at the level of system calls: each appends a part of the buffer of a process at the end of the file in one piece, as POSIX prescribes for O_APPEND. When buffers are written is a parameter: any part at any time (anyPart), or the whole buffer on closing (onlyAtTheEnd, for blocks that fit into the buffer). C190_mixed_witness shows the deviation for long blocks."
  },
  {
   "property": "C191",
   "status": "proved",
   "theorems": [
    "Prolothar.LogShare.C191_references",
    "Prolothar.LogShare.C191_exceptions",
    "Prolothar.LogShare.C191_query_is_view",
    "Prolothar.LogShare.C191_part_is_view",
    "Prolothar.LogShare.C191_isolated",
    "Prolothar.LogShare.C191_copy_isolates",
    "Prolothar.LogShare.C191_own_effect",
    "Prolothar.LogShare.C191_query_then_copy",
    "Prolothar.LogShare.C191_change_through_query",
    "Prolothar.LogShare.C191_initially",
    "Prolothar.LogShare.C191_split_witness",
    "Prolothar.LogShare.C191_repeated_trace_witness"
   ],
   "note": "Logs are named by variables, no two variables name the same EventLog object. Changes of single events (setEventAttribute, joining) are not among the commands; C122 shows that these are seen through copies. The deviations are C191_split_witness and C191_repeated_trace_witness."
  },
  {
   "property": "C192",
   "status": "proved",
   "theorems": [
    "Prolothar.Data.C192_columns",
    "Prolothar.Data.C192_split",
    "Prolothar.Data.C192_isolated",
    "Prolothar.Data.C192_label_encoding",
    "Prolothar.Data.C192_label_before_or_after",
    "Prolothar.Data.C192_one_hot",
    "Prolothar.Data.C192_bins",
    "Prolothar.Data.C192_label_no_values_witness",
    "Prolothar.Data.C192_one_hot_no_values_witness",
    "Prolothar.Data.C192_other_transformers_witness"
   ],
   "note": "The deviations are C192_label_no_values_witness, C192_one_hot_no_values_witness and C192_other_transformers_witness."
  },
  {
   "property": "C193",
   "status": "proved",
   "theorems": [
    "Prolothar.Mdl.C193_written",
    "Prolothar.Mdl.C193_kraft",
    "Prolothar.Mdl.C193_prefix_code",
    "Prolothar.Mdl.C193_distinguished"
   ],
   "note": "Over exact real numbers and unbounded integers; C152 tells for which arguments the C integers of the code do not overflow."
  },
  {
   "property": "C194",
   "status": "proved",
   "theorems": [
    "Prolothar.Data.C194_recoding",
    "Prolothar.Data.C194_agree",
    "Prolothar.Data.C194_agree_methods",
    "Prolothar.Data.C194_add",
    "Prolothar.Data.C194_unhashable",
    "Prolothar.Data.C194_remove",
    "Prolothar.Data.C194_one_hot",
    "Prolothar.Data.C194_inside",
    "Prolothar.Data.C194_inside_noise",
    "Prolothar.Data.C194_not_inplace",
    "Prolothar.Data.C194_inplace",
    "Prolothar.Data.C194_copy_result",
    "Prolothar.Data.C194_noise",
    "Prolothar.Data.C194_retry_witness",
    "Prolothar.Data.C194_shared_witness"
   ],
   "note": "Feature values are numbers and strings, except in C194_unhashable, which shows that add_instance with a feature that is not hashable raises after it has added the instance. The dataset must not share instances with other changed datasets: C194_shared_witness. A failed label encoding cannot be repeated with more possible values: C194_retry_witness. C194_one_hot asks for unused and distinct names of the new attributes. Exceptions from outside (KeyboardInterrupt, MemoryError) are not modelled."
  },
  {
   "property": "C195",
   "status": "proved",
   "theorems": [
    "Prolothar.EventLog.C195_states",
    "Prolothar.EventLog.C195_after_exception",
    "Prolothar.EventLog.C195_again",
    "Prolothar.EventLog.C195_no_times",
    "Prolothar.EventLog.C195_sum_witness"
   ],
   "note": "C195_states: the model with exceptions gives the results of the model used for the other properties of this method (C160, C167). C195_sum_witness: with only a duration attribute, a call that raises and a second call without the check give the duration 8 instead of 6. Events are not shared between traces."
  },
  {
   "property": "C196",
   "status": "proved",
   "theorems": [
    "Prolothar.Parallel.C196_map",
    "Prolothar.Parallel.C196_exactly_once",
    "Prolothar.Parallel.C196_nothing_runs_after_return",
    "Prolothar.Parallel.C196_at_most_once",
    "Prolothar.Parallel.C196_raised",
    "Prolothar.Parallel.C196_other_blocks",
    "Prolothar.Parallel.C196_calls_after_exception",
    "Prolothar.Parallel.C196_values",
    "Prolothar.Parallel.C196_commuting_effects",
    "Prolothar.Parallel.C196_map_filter",
    "Prolothar.Parallel.C196_map_reduce",
    "Prolothar.Parallel.C196_ends",
    "Prolothar.Parallel.C196_can_end",
    "Prolothar.Parallel.C196_returns",
    "Prolothar.Parallel.C196_returns_all"
   ],
   "note": "A call takes effect at one moment (for example because it holds a lock or is a single atomic operation); between its beginning and this moment other threads can run. C196_calls_after_exception: the exception of the first element is raised before the function has been called for the second one, which happens afterwards. C196_returns and C196_returns_all show that the hypotheses of the other theorems can be met for every list."
  },
  {
   "property": "C197",
   "status": "proved",
   "theorems": [
    "Prolothar.Data.C197_cut",
    "Prolothar.Data.C197_rows",
    "Prolothar.Data.C197_silent_witness"
   ],
   "note": "Harmless names and values: Printable, as for C126. C197_silent_witness: without its last character an export is read with the number 3 instead of 34. HeaderCut allows all attributes without instances, which is what is read if the text ends before the first row."
  },
  {
   "property": "C198",
   "status": "proved",
   "theorems": [
    "Prolothar.Parallel.C198_exactly_once",
    "Prolothar.Parallel.C198_map",
    "Prolothar.Parallel.C198_nothing_runs_after_return",
    "Prolothar.Parallel.C198_at_most_once",
    "Prolothar.Parallel.C198_raised",
    "Prolothar.Parallel.C198_values",
    "Prolothar.Parallel.C198_commuting_effects",
    "Prolothar.Parallel.C198_map_filter",
    "Prolothar.Parallel.C198_map_reduce",
    "Prolothar.Parallel.C198_ends",
    "Prolothar.Parallel.C198_can_end",
    "Prolothar.Parallel.C198_returns",
    "Prolothar.Parallel.C198_open_after_exception"
   ],
   "note": "A call takes effect at one moment; a worker ended by a signal inside a call ends before this moment or after it. The memory of the processes themselves (global variables) is not modelled, nor are pickling errors and the feeder threads of the queues. C198_open_after_exception: the first of two elements of one block fails; the exception can be raised with the second element worked through and without. C198_returns shows that the hypotheses of the other theorems can be met for every list."
  },
  {
   "property": "C199",
   "status": "proved",
   "theorems": [
    "Prolothar.Petri.C199_unknown_transition",
    "Prolothar.Petri.C199_rejected",
    "Prolothar.Petri.C199_single_input",
    "Prolothar.Petri.C199_any_selection",
    "Prolothar.Petri.C199_never_helps",
    "Prolothar.Petri.C199_sequence",
    "Prolothar.Petri.C199_set_marking",
    "Prolothar.Petri.C199_simulate",
    "Prolothar.Petri.C199_undo",
    "Prolothar.Petri.C199_only_tokens",
    "Prolothar.Petri.C199_restore"
   ],
   "note": "Sharpens C64_rejected_not_atomic: exactly what is left behind. Iteration orders of start_places are modelled by the order of the list pre; C199_any_selection ranges over all orders. Guards are the modelled guard classes (LambdaGuard: a function of the value of its variable that may raise); guards that themselves change the net are not modelled."
  },
  {
   "property": "C200",
   "status": "proved",
   "theorems": [
    "Prolothar.Dfg.C200_same_name",
    "Prolothar.Dfg.C200_predecessor",
    "Prolothar.Dfg.C200_successor",
    "Prolothar.Dfg.C200_unconnected"
   ],
   "note": "Complements C83 (unused names). The statements are about the graph right after the call; further calls on such a graph are not modelled, as the model stores one node object per name. Open: a renamed activity with both an edge from the new name and an edge to itself (whether it raises depends on the order of the edges)."
  },
  {
   "property": "C201",
   "status": "proved",
   "theorems": [
    "Prolothar.Dfg.C201_join",
    "Prolothar.Dfg.C201_consistent_iff",
    "Prolothar.Dfg.C201_self",
    "Prolothar.Dfg.C201_add"
   ],
   "note": "Generalises C43's join (graphs without common edges) and its witness C43_join_overlap. C201_add is about a program of the user made of add_node and add_count calls, one per node and edge, in any order."
  },
  {
   "property": "C202",
   "status": "proved",
   "theorems": [
    "Prolothar.Queries.C202_execute",
    "Prolothar.Queries.C202_laws",
    "Prolothar.Queries.C202_and_twice",
    "Prolothar.Queries.C202_commutative",
    "Prolothar.Queries.C202_partition",
    "Prolothar.Queries.C202_again",
    "Prolothar.Queries.C202_iterator",
    "Prolothar.Queries.C202_raising_witness"
   ],
   "note": "Extends C63 to queries whose parts raise. User-defined parts are functions of the trace (they may raise, but have no state). For iterators, an iterator that occurs in two places of a composed query is not modelled (copies of the state); C202_iterator is about the atomic queries. C202_raising_witness shows which laws fail if a part raises."
  },
  {
   "property": "C203",
   "status": "proved",
   "theorems": [
    "Prolothar.Data.C203_edits",
    "Prolothar.Data.C203_label",
    "Prolothar.Data.C203_one_hot",
    "Prolothar.Data.C203_later",
    "Prolothar.Data.C203_rebuilt"
   ],
   "note": "Extends C124_added_attribute_not_counted to sequences of calls and to the transformers as they are executed on a ClassificationDataset, whose remove_attribute is overridden. The recoded instances and attributes are those of C61 and C60 (first conjunct of C203_label and C203_one_hot). C203_one_hot does not need new attribute names to be unused."
  },
  {
   "property": "C204",
   "status": "proved",
   "theorems": [
    "Prolothar.SeqInstance.C204_set",
    "Prolothar.SeqInstance.C204_agrees",
    "Prolothar.SeqInstance.C204_iterator",
    "Prolothar.SeqInstance.C204_raises",
    "Prolothar.SeqInstance.C204_copy"
   ],
   "note": "Elements are values of any type with a decidable equality and a predicate for hashability; a custom __hash__ that raises something else than TypeError is not modelled. get_symbols is a frozenset: its order is not part of the statement."
  },
  {
   "property": "C205",
   "status": "proved",
   "theorems": [
    "Prolothar.Utils.C205_samples",
    "Prolothar.Utils.C205_probability",
    "Prolothar.Utils.C205_next",
    "Prolothar.Utils.C205_buffer_size"
   ],
   "note": "Independence and probabilities of the elements of numpy's Generator.choice batches, and of its successive batches, are the hypothesis. Probabilities are real numbers, as Mathlib's PMF. For a fixed seed the samples can depend on the buffer size; the statement is about the distribution."
  },
  {
   "property": "C206",
   "status": "proved",
   "theorems": [
    "Prolothar.RayState.C206_map",
    "Prolothar.RayState.C206_map_filter",
    "Prolothar.RayState.C206_at_most_once",
    "Prolothar.RayState.C206_raised",
    "Prolothar.RayState.C206_values",
    "Prolothar.RayState.C206_commuting_effects",
    "Prolothar.RayState.C206_map_reduce",
    "Prolothar.RayState.C206_nothing_runs_after_return",
    "Prolothar.RayState.C206_ends",
    "Prolothar.RayState.C206_returns",
    "Prolothar.RayState.C206_calls_after_exception"
   ],
   "note": "ray.get may raise the exception of any failed task as soon as it has failed; this includes what ray does. Failures of the cluster, after which ray may repeat a task, are not modelled; with them at-most-once is not guaranteed by ray."
  },
  {
   "property": "C207",
   "status": "proved",
   "theorems": [
    "Prolothar.PrefixTree.C207_history",
    "Prolothar.PrefixTree.C207_append",
    "Prolothar.PrefixTree.C207_counts",
    "Prolothar.PrefixTree.C207_no_clash",
    "Prolothar.PrefixTree.C207_order"
   ],
   "note": "Symbols are divided into kinds; < raises TypeError between kinds, == is False between kinds, and < is a linear order within a kind. Symbols with a partial order or with == across kinds (1 and 1.0 are one kind) are covered only as far as they fit this."
  },
  {
   "property": "C208",
   "status": "proved",
   "theorems": [
    "Prolothar.Nested.C208_atomic",
    "Prolothar.Nested.C208_result",
    "Prolothar.Nested.C208_exceptions",
    "Prolothar.Nested.C208_missing_node",
    "Prolothar.Nested.C208_again",
    "Prolothar.Nested.C208_cyclic_nesting"
   ],
   "note": "The fuel stands for the recursion limit and .diverge for RecursionError. An id format that raises or an attribute that cannot be hashed is not covered. C208_missing_node and C208_again need a recursion limit above the depth of the nesting."
  },
  {
   "property": "C209",
   "status": "proved",
   "theorems": [
    "Prolothar.TwoWayDictHeap.C209_get",
    "Prolothar.TwoWayDictHeap.C209_raises",
    "Prolothar.TwoWayDictHeap.C209_inverse",
    "Prolothar.TwoWayDictHeap.C209_same_object",
    "Prolothar.TwoWayDictHeap.C209_consistent",
    "Prolothar.TwoWayDictHeap.C209_raising_assignment_is_stored",
    "Prolothar.TwoWayDictHeap.C209_caller_changes_index"
   ],
   "note": "Callers can add and discard single keys; other set methods are sequences of these. A key or value whose hash changes after it was stored is not covered. The constructor's attribute dict is public; direct changes to it are not covered. Two disagreements are proved: C209_raising_assignment_is_stored and C209_caller_changes_index."
  },
  {
   "property": "C210",
   "status": "proved",
   "theorems": [
    "Prolothar.IntGraphMem.C210_refines",
    "Prolothar.IntGraphMem.C210_no_leak",
    "Prolothar.IntGraphMem.C210_allowed"
   ],
   "note": "The nodes of a std::list are part of the block that has the list; the C++ library is trusted to manage them. Allocations never fail and the call stack is unbounded. Nodes outside the graph (undefined behaviour in C++) and a negative number of nodes are outside the statement; for the component search also edges to such nodes."
  },
  {
   "property": "C211",
   "status": "proved",
   "theorems": [
    "Prolothar.LogNoise.C211_add_binomial",
    "Prolothar.LogNoise.C211_add_mean",
    "Prolothar.LogNoise.C211_remove_binomial",
    "Prolothar.LogNoise.C211_remove_mean",
    "Prolothar.LogNoise.C211_swap_mean"
   ],
   "note": "The random numbers are an arbitrary outcome of N equally likely values per draw; that python's generator is uniform is not modelled. For SwapEvents an upper bound of the mean is proved, not its value, which depends on which activities are equal."
  },
  {
   "property": "C212",
   "status": "proved",
   "theorems": [
    "Prolothar.Dfg.C212_exactly",
    "Prolothar.Dfg.C212_fewer",
    "Prolothar.Dfg.C212_default_more",
    "Prolothar.Dfg.C212_more",
    "Prolothar.Dfg.C212_own_log"
   ],
   "note": "C212_exactly needs at least one trace; the other theorems also cover the empty log. The frequency filter is that with exact numbers (see C148 for rounding). C212_default_more proves that the claim about reductions fails for the default start and stop activities. remove_node with new connections is not a reduction in this sense."
  },
  {
   "property": "C213",
   "status": "proved",
   "theorems": [
    "Prolothar.LogNoise.C213_add_undone",
    "Prolothar.LogNoise.C213_add_statistics",
    "Prolothar.LogNoise.C213_remove_statistics",
    "Prolothar.LogNoise.C213_swap_statistics",
    "Prolothar.LogNoise.C213_combined_statistics"
   ],
   "note": "The traces of the log are distinct objects (C187 is about shared ones). C213_remove_statistics is stated for a positive probability; with probability 0 RemoveEvents changes nothing (C39)."
  },
  {
   "property": "C214",
   "status": "proved",
   "theorems": [
    "Prolothar.Dfg.C214_same_language",
    "Prolothar.Dfg.C214_own_log"
   ],
   "note": "At least one trace is asked for. Without new start and end activities the default start and stop activities of the graph are its sources and sinks, which need not be first and last activities; nothing is claimed then."
  }
 ]
}