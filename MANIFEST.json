{
 "claims": [
  {
   "property": "C01",
   "status": "proved",
   "theorems": [
    "Verif.Math.Props.C01_ranges_tile",
    "Verif.Math.Props.C01_ranges_fair",
    "Verif.Math.Props.C01_rank_is_owner",
    "Verif.Math.Props.C01_find_in_distribution",
    "Verif.Math.Props.C01_deterministic_for_visits_each_once"
   ],
   "note": ""
  },
  {
   "property": "C02",
   "status": "proved",
   "theorems": [
    "Verif.Math.Props.C02_buckets_partition_degrees",
    "Verif.Math.Props.C02_bucket_monotone",
    "Verif.Math.Props.C02_last_bucket_bound_undefined"
   ],
   "note": ""
  },
  {
   "property": "C03",
   "status": "partial",
   "theorems": [
    "Verif.Math.Props.C03_round_robin_not_injective",
    "Verif.Math.Props.C03_round_robin_permutation_partial"
   ],
   "note": "False of the code in general (C03_round_robin_not_injective); proved when n is a multiple of size^2."
  },
  {
   "property": "C04",
   "status": "proved",
   "theorems": [
    "Verif.Blocks.Props.C04_final_ranges_tile",
    "Verif.Blocks.Props.C04_final_k_balanced",
    "Verif.Blocks.Props.C04_children_split_range",
    "Verif.Blocks.Props.C04_root_shift_undefined",
    "Verif.Blocks.Props.C04_root_value_shift_independent",
    "Verif.Blocks.Props.C04_not_power_of_two_fails"
   ],
   "note": "For power-of-two current_k in [2, 2^30]; the root call is undefined behaviour in C++ (C04_root_shift_undefined) with a shift-independent value; other current_k fail (C04_not_power_of_two_fails)."
  },
  {
   "property": "C05",
   "status": "proved",
   "theorems": [
    "Verif.Varint.C05_varint_roundtrip",
    "Verif.Varint.C05_varint_fast_decoder",
    "Verif.Varint.C05_fast_decoder_overreads",
    "Verif.Varint.C05_signed_varint_roundtrip",
    "Verif.Varint.C05_marked_varint_roundtrip",
    "Verif.Varint.C05_varint_sequence",
    "Verif.Varint.C05_varint_prefix_free"
   ],
   "note": ""
  },
  {
   "property": "C06",
   "status": "proved",
   "theorems": [
    "Verif.Compression.C06_compression_lossless",
    "Verif.Compression.C06_streamvbyte_truncates_weights"
   ],
   "note": ""
  },
  {
   "property": "C07",
   "status": "proved",
   "theorems": [
    "Verif.StreamVByte.C07_streamvbyte_roundtrip",
    "Verif.StreamVByte.C07_streamvbyte_pairs_roundtrip",
    "Verif.StreamVByte.C07_streamvbyte_reported_size",
    "Verif.StreamVByte.C07_DM_needs_sorted"
   ],
   "note": ""
  },
  {
   "property": "C08",
   "status": "proved",
   "theorems": [
    "Verif.ParallelCompression.C08_spinlock_offsets",
    "Verif.ParallelCompression.C08_spinlock_progress",
    "Verif.ParallelCompression.C08_mutex_offsets",
    "Verif.ParallelCompression.C08_mutex_progress",
    "Verif.ParallelCompression.C08_chunks_partition_nodes",
    "Verif.ParallelCompression.C08_parallel_equals_sequential"
   ],
   "note": ""
  },
  {
   "property": "C09",
   "status": "partial",
   "theorems": [
    "Verif.Heap.C09_contains_and_size",
    "Verif.Heap.C09_peek_is_best",
    "Verif.Heap.C09_push",
    "Verif.Heap.C09_pop_removes_peeked",
    "Verif.Heap.C09_change_priority",
    "Verif.Heap.C09_remove_partial",
    "Verif.Heap.C09_remove_wrong_element",
    "Verif.Heap.C09_clear"
   ],
   "note": "All operations except remove are proved in full; remove is wrong when another entry has the extreme representable key (C09_remove_wrong_element), proved otherwise."
  },
  {
   "property": "C10",
   "status": "partial",
   "theorems": [
    "Verif.Maps.C10_sparse_map",
    "Verif.Maps.C10_fast_reset_array",
    "Verif.Maps.C10_fast_reset_array_entries_partial",
    "Verif.Maps.C10_fast_reset_array_repeats",
    "Verif.Maps.C10_fixed_size_map",
    "Verif.Maps.C10_fixed_size_map_full_diverges"
   ],
   "note": "The fast-reset array enumerates a position twice if it holds 0 when it is accessed again (C10_fast_reset_array_repeats); proved otherwise, and in full for the two sparse maps (the fixed-size map must not fill up: C10_fixed_size_map_full_diverges)."
  },
  {
   "property": "C11",
   "status": "proved",
   "theorems": [
    "Verif.CompactMap.C11_compact_map",
    "Verif.CompactMap.C11_full_map_overwrites"
   ],
   "note": "One slot must stay free (or allow_full_map); an insertion into a full map overwrites another key (C11_full_map_overwrites)."
  },
  {
   "property": "C12",
   "status": "proved",
   "theorems": [
    "Verif.DynMaps.C12_flat_map",
    "Verif.DynMaps.C12_remembering_map",
    "Verif.DynMaps.C12_timestamp_wraps"
   ],
   "note": "As long as the timestamp does not wrap (C12_timestamp_wraps)."
  },
  {
   "property": "C13",
   "status": "partial",
   "theorems": [
    "Verif.Marker.C13_marker",
    "Verif.Marker.C13_first_unmarked",
    "Verif.Marker.C13_wide_marker_partial",
    "Verif.Marker.C13_wide_marker_breaks"
   ],
   "note": "False of the code for values wider than 32 bits after 2^(32-K) resets (C13_wide_marker_breaks); proved in full for 32-bit and narrower values, and before that many resets for wide ones."
  },
  {
   "property": "C14",
   "status": "proved",
   "theorems": [
    "Verif.CompactArray.C14_compact_array",
    "Verif.CompactArray.C14_from_memory",
    "Verif.CompactArray.C14_restrict_twice"
   ],
   "note": "As long as the array is not restricted twice (C14_restrict_twice)."
  },
  {
   "property": "C15",
   "status": "proved",
   "theorems": [
    "Verif.Rank.C15_rank",
    "Verif.Rank.C15_rank_of_length_out_of_bounds"
   ],
   "note": "For positions below the length; rank(length) can read behind the end (C15_rank_of_length_out_of_bounds)."
  },
  {
   "property": "C16",
   "status": "partial",
   "theorems": [
    "Verif.PrefixSum.C16_sequential",
    "Verif.PrefixSum.C16_parallel_partial",
    "Verif.PrefixSum.C16_padding",
    "Verif.PrefixSum.C16_single_entry_not_counted",
    "Verif.PrefixSum.C16_other_alignments_fail"
   ],
   "note": "The parallel version returns a total of 0 for a single entry (C16_single_entry_not_counted) and needs alignments dividing 8 (C16_other_alignments_fail); everything else is proved. The parallel version wastes at most 14 bytes for each entry (C16_padding)."
  },
  {
   "property": "C17",
   "status": "partial",
   "theorems": [
    "Verif.Partitioned.C17_block_weights",
    "Verif.Partitioned.C17_in_flight",
    "Verif.Partitioned.C17_conserved",
    "Verif.Partitioned.C17_init_sequential",
    "Verif.Partitioned.C17_init_parallel",
    "Verif.Partitioned.C17_init_atomic_partial",
    "Verif.Partitioned.C17_init_atomic_unassigned"
   ],
   "note": "The constructor for k >= 65536 writes out of bounds if a node is unassigned (C17_init_atomic_unassigned); everything else is proved for all interleavings."
  },
  {
   "property": "C18",
   "status": "proved",
   "theorems": [
    "Verif.Partitioned.C18_never_overloaded",
    "Verif.Partitioned.C18_rejected_changes_nothing",
    "Verif.Partitioned.C18_accepts_iff_fits"
   ],
   "note": ""
  },
  {
   "property": "C19",
   "status": "proved",
   "theorems": [
    "Verif.Metrics.C19_edge_cut_sequential",
    "Verif.Metrics.C19_edge_cut_parallel",
    "Verif.Metrics.C19_single_block"
   ],
   "note": ""
  },
  {
   "property": "C20",
   "status": "partial",
   "theorems": [
    "Verif.Metrics.C20_is_balanced",
    "Verif.Metrics.C20_total_overload",
    "Verif.Metrics.C20_explicit_limits",
    "Verif.Metrics.C20_limits_leave_room_partial",
    "Verif.Metrics.C20_limits_zero_epsilon",
    "Verif.Metrics.C20_large_total_does_not_fit",
    "Verif.Metrics.C20_explicit_limits_keep_old_epsilon"
   ],
   "note": "The limits are too small for total weights above 2^53 because of double rounding (C20_large_total_does_not_fit); proved up to 2^51. Floating point is an arbitrary monotone rounding that is exact for 53-bit values. The variant of is_feasible with (input_k, eps), which no caller uses, is not modelled."
  },
  {
   "property": "C21",
   "status": "proved",
   "theorems": [
    "Verif.Delta.C21_overlay"
   ],
   "note": "As long as the hash map timestamp does not wrap (2^64 clears)."
  },
  {
   "property": "C22",
   "status": "partial",
   "theorems": [
    "Verif.Permute.C22_permutation_is_stable_sort",
    "Verif.Permute.C22_bijection_sorted_stable",
    "Verif.Permute.C22_thread_independent",
    "Verif.Permute.C22_degree_order_partial",
    "Verif.Permute.C22_isolated_not_last_for_huge_degrees",
    "Verif.Permute.C22_permuted_graph"
   ],
   "note": "Bijection, order, stability, thread independence and the permuted graph are proved in full; isolated nodes are last only if all degrees are below 2^31 (C22_isolated_not_last_for_huge_degrees)."
  },
  {
   "property": "C23",
   "status": "partial",
   "theorems": [
    "Verif.CsrGraph.C23_remove_integrate",
    "Verif.CsrGraph.C23_remaining_graph",
    "Verif.CsrGraph.C23_buckets_after_removal",
    "Verif.CsrGraph.C23_buckets_shifted_before_removal",
    "Verif.CsrGraph.C23_borrowed_arrays_lose_nodes"
   ],
   "note": "Proved for graphs that own their arrays; graphs over borrowed memory lose all nodes (C23_borrowed_arrays_lose_nodes), and before the removal the degree bucket boundaries are shifted by the isolated nodes (C23_buckets_shifted_before_removal)."
  },
  {
   "property": "C24",
   "status": "partial",
   "theorems": [
    "Verif.Isolated.C24_assignment",
    "Verif.Isolated.C24_balanced_partial",
    "Verif.Isolated.C24_balanced_unit_weights",
    "Verif.Isolated.C24_overload_possible"
   ],
   "note": "Exactly one block per node, weights and the limits of all blocks but the last are proved in full; that the last block keeps its limit needs unit weights or slack (C24_overload_possible)."
  },
  {
   "property": "C25",
   "status": "proved",
   "theorems": [
    "Verif.Facade.C25_reported_in_callers_ids"
   ],
   "note": "For uncompressed graphs and any sequence of calls; the partitioner is an arbitrary function. With degree bucket ordering the graph must be nonempty (C26_build_defined) and degrees below 2^31."
  },
  {
   "property": "C26",
   "status": "partial",
   "theorems": [
    "Verif.CsrGraph.C26_accessors_partial",
    "Verif.CsrGraph.C26_accessors_seq_partial",
    "Verif.CsrGraph.C26_seq_max_degree_uninitialised",
    "Verif.CsrGraph.C26_zero_weights_misread",
    "Verif.CsrGraph.C26_build_defined"
   ],
   "note": "Needs positive weights (C26_zero_weights_misread); the sequential constructor leaves the maximum degree uninitialised (C26_seq_max_degree_uninitialised); building an empty sorted graph is undefined (C26_build_defined)."
  },
  {
   "property": "C27",
   "status": "partial",
   "theorems": [
    "Verif.Validate.C27_accepts_only_well_formed",
    "Verif.Validate.C27_accepts_well_formed_partial",
    "Verif.Validate.C27_unweighted_iff",
    "Verif.Validate.C27_simple_iff",
    "Verif.Validate.C27_parallel_edges_rejected",
    "Verif.Validate.C27_short_edge_array_read"
   ],
   "note": "An accepted graph is well-formed, and the converse holds for unweighted graphs and graphs without parallel edges; parallel edges of different weights are rejected (C27_parallel_edges_rejected), and the length of the edge array is not checked (C27_short_edge_array_read)."
  },
  {
   "property": "C28",
   "status": "partial",
   "theorems": [
    "Verif.Contraction.C28_buffered_partial",
    "Verif.Contraction.C28_naive_partial",
    "Verif.Contraction.C28_unbuffered_growing",
    "Verif.Contraction.C28_unbuffered_partial",
    "Verif.Contraction.C28_projection",
    "Verif.Contraction.C28_zero_weight_counterexample"
   ],
   "note": "All four algorithms, all schedules; growing hash tables in full. The other collectors need positive edge weights (C28_zero_weight_counterexample), and fewer than 2^32 fine edges per cluster."
  },
  {
   "property": "C29",
   "status": "proved",
   "theorems": [
    "Verif.Contraction.C29_mapping",
    "Verif.Contraction.C29_buckets"
   ],
   "note": "For nonempty graphs; for n = 0 the code reads leader_mapping[-1]."
  },
  {
   "property": "C30",
   "status": "partial",
   "theorems": [
    "Verif.Subgraph.Props.C30_extract_subgraphs",
    "Verif.Subgraph.Props.C30_lazy_extraction",
    "Verif.Subgraph.Props.C30_lazy_memory_partial",
    "Verif.Subgraph.Props.C30_lazy_memory_not_safe",
    "Verif.Subgraph.Props.C30_extract_two_sides",
    "Verif.Subgraph.Props.C30_copy_back"
   ],
   "note": "All three extractions and the copying back are proved for every schedule. Memory safety of the lazy extraction is false in general (C30_lazy_memory_not_safe) and proved when the weight arrays were grown with the others. Positive weights; weights of zero are misread (see C26)."
  },
  {
   "property": "C31",
   "status": "partial",
   "theorems": [
    "Verif.Subgraph.Props.C31_recursive_bisection",
    "Verif.Subgraph.Props.C31_labels",
    "Verif.Subgraph.Props.C31_extend_partition",
    "Verif.Subgraph.Props.C31_extend_partition_lazy",
    "Verif.Subgraph.Props.C31_complete_level_partial",
    "Verif.Subgraph.Props.C31_complete_level_not_valid"
   ],
   "note": "Recursive bisection and both variants of extend_partition (eager and lazy extraction) are proved for arbitrary bisections, schedules and current k a power of two. Completing a partial level (v-cycles) is false in general (C31_complete_level_not_valid)."
  },
  {
   "property": "C32",
   "status": "partial",
   "theorems": [
    "Verif.Gains.C32_dense",
    "Verif.Gains.C32_border_not_zero_weight",
    "Verif.Gains.C32_on_the_fly",
    "Verif.Gains.C32_on_the_fly_not_same_block",
    "Verif.Gains.C32_on_the_fly_not_same_targets"
   ],
   "note": "Dense cache proved for all interleavings with positive edge weights; with edges of weight 0 a border node is not recognised (C32_border_not_zero_weight). The gains computed on the fly agree if the blocks passed are different (C32_on_the_fly_not_same_block, C32_on_the_fly_not_same_targets). Weights are unbounded integers. The sparse cache is C35, the compact hashing cache C72; the plain hashing cache is not modelled."
  },
  {
   "property": "C33",
   "status": "proved",
   "theorems": [
    "Verif.Gains.C33_one_move",
    "Verif.Gains.C33_sequence"
   ],
   "note": "For symmetric graphs without self-loops."
  },
  {
   "property": "C34",
   "status": "partial",
   "theorems": [
    "Verif.Gains.C34_generic",
    "Verif.Gains.C34_large_partial",
    "Verif.Gains.C34_large_not_connection"
   ],
   "note": "GenericDeltaGainCache is proved in full. The variant for large k reports gains in place of connections (C34_large_not_connection); everything else about it is proved (C34_large_partial)."
  },
  {
   "property": "C35",
   "status": "proved",
   "theorems": [
    "Verif.SparseGains.C35_sparse",
    "Verif.SparseGains.C35_heavy_edge_lost",
    "Verif.SparseGains.C35_lock"
   ],
   "note": "For graphs sorted by degree bucket (isolated nodes first or removed, degrees below 2^30) and weighted degrees that fit (C35_heavy_edge_lost otherwise). Every interleaving of the updates of different nodes; the mutual exclusion of table updates is proved separately (C35_lock) with sequentially consistent accesses."
  },
  {
   "property": "C36",
   "status": "proved",
   "theorems": [
    "Verif.FM.C36_refine",
    "Verif.FM.C36_batch",
    "Verif.FM.C36_ends",
    "Verif.FM.C36_refine_not_zero_seeds"
   ],
   "note": "For symmetric graphs without self-loops, non-negative node weights and the dense gain cache; heaps are modelled by their specification with an arbitrary tie-breaking and stopping rule. num_seed_nodes must be positive: with 0 the refiner never returns (C36_refine_not_zero_seeds)."
  },
  {
   "property": "C37",
   "status": "partial",
   "theorems": [
    "Verif.FM.C37_sequential_partial",
    "Verif.FM.C37_concurrent_not_balanced"
   ],
   "note": "False of the code: two overlapping batches overload a block (C37_concurrent_not_balanced). Proved for any number of workers whose batches do not overlap."
  },
  {
   "property": "C38",
   "status": "proved",
   "theorems": [
    "Verif.FM.Tracker.C38_owner",
    "Verif.FM.Tracker.C38_moved",
    "Verif.FM.Tracker.C38_seeds",
    "Verif.FM.Tracker.C38_released",
    "Verif.FM.Tracker.C38_seeds_not_wrapping"
   ],
   "note": "All interleavings of the accesses to the tracker and the counter of border nodes. Seeds are handed out once if border nodes + workers * num_seed_nodes < 2^bits of NodeID; otherwise the counter wraps (C38_seeds_not_wrapping)."
  },
  {
   "property": "C39",
   "status": "partial",
   "theorems": [
    "Verif.LP.C39_never_overloaded",
    "Verif.LP.C39_weights",
    "Verif.LP.C39_only_adjacent_partial",
    "Verif.LP.C39_only_moves",
    "Verif.LP.C39_sequential",
    "Verif.LP.C39_sequential_adjacent",
    "Verif.LP.C39_limited_not_monotone",
    "Verif.LP.C39_not_adjacent_when_moving"
   ],
   "note": "Balance, exact weights and valid blocks are proved for all schedules. A node only moves to a block in which it had a neighbour at an earlier moment, but with several threads the neighbour may have left when the node moves (C39_not_adjacent_when_moving); with one thread it is still there (C39_sequential_adjacent), and the cut never grows (C39_sequential)."
  },
  {
   "property": "C40",
   "status": "partial",
   "theorems": [
    "Verif.LP.C40_weights",
    "Verif.LP.C40_limit_partial",
    "Verif.LP.C40_limit_one_thread",
    "Verif.LP.C40_limit_passes",
    "Verif.LP.C40_count_partial",
    "Verif.LP.C40_count_one_thread",
    "Verif.LP.C40_limit_not_concurrent",
    "Verif.LP.C40_count_not_concurrent",
    "Verif.LP.C40_count_not_zero_weight",
    "Verif.LP.C40_count_not_updated_by_passes"
   ],
   "note": "Weights are exact for every schedule, including the passes for isolated nodes and thread-wise two-hop clustering. With T threads a cluster may exceed the limit by T-1 nodes (C40_limit_not_concurrent); with one thread, and in the two passes with any number of threads, it does not. The number of clusters is exact for one thread and positive weights, never too large for any schedule, but clusters may be counted as empty twice (C40_count_not_concurrent), clusters of zero-weight nodes count as empty (C40_count_not_zero_weight), and the passes do not update it (C40_count_not_updated_by_passes). Relabelling and the two-hop variants that are not thread-wise (both off by default) are not modelled."
  },
  {
   "property": "C41",
   "status": "proved",
   "theorems": [
    "Verif.Balancer.C41_overload_never_increases",
    "Verif.Balancer.C41_never_overloaded",
    "Verif.Balancer.C41_result",
    "Verif.Balancer.C41_queues",
    "Verif.Balancer.C41_returns_balanced",
    "Verif.Balancer.C41_not_terminating"
   ],
   "note": "For non-negative node weights and every interleaving of the tasks of the blocks; priorities and target blocks are arbitrary. If the limits are not negative, a run that returns has removed all overload (C41_returns_balanced). The statement is about runs that return: if an overloaded block consists of nodes that fit nowhere, the balancer never returns (C41_not_terminating)."
  },
  {
   "property": "C42",
   "status": "proved",
   "theorems": [
    "Verif.Jet.C42_cut",
    "Verif.Jet.C42_gain_cache",
    "Verif.Jet.C42_moves",
    "Verif.Jet.C42_balanced",
    "Verif.Jet.C42_iterations",
    "Verif.Jet.C42_progress",
    "Verif.Jet.C42_not_balanced"
   ],
   "note": "For symmetric graphs with positive edge weights and non-negative node weights whose weighted degrees fit the gain cache; the rule that accepts moves, the rule that counts fruitless iterations and all schedules are arbitrary. About runs in which the balancer returns (C42_progress, C41_not_terminating). An overloaded input may be returned although a balanced partition was found (C42_not_balanced)."
  },
  {
   "property": "C43",
   "status": "partial",
   "theorems": [
    "Verif.Queue.C43_queue_refuses",
    "Verif.Queue.C43_queue_partial",
    "Verif.Queue.C43_tail_not_newest"
   ],
   "note": "tail() returns the place behind the newest element (C43_tail_not_newest); all other operations are proved."
  },
  {
   "property": "C44",
   "status": "proved",
   "theorems": [
    "Verif.Blocks.Props.C44_k_for_n_range",
    "Verif.Blocks.Props.C44_k_for_n_monotone",
    "Verif.Blocks.Props.C44_next_k_grows",
    "Verif.Blocks.Props.C44_extension_reaches_k",
    "Verif.Blocks.Props.C44_k_one_undefined",
    "Verif.Blocks.Props.C44_num_copies_range"
   ],
   "note": ""
  },
  {
   "property": "C45",
   "status": "proved",
   "theorems": [
    "Verif.Grid.C45_grid",
    "Verif.Grid.C45_grid_dense",
    "Verif.Grid.C45_two_hops"
   ],
   "note": "For both variants of sparse_alltoall_grid; MPI_Comm_split and MPI_Alltoallv are modelled by their specification (mismatched counts and accesses out of bounds are errors). Limits of int are not modelled."
  },
  {
   "property": "C46",
   "status": "partial",
   "theorems": [
    "Verif.StreamVByte.C46_streamvbyte64_not_lossless",
    "Verif.StreamVByte.C46_streamvbyte64_roundtrip_partial"
   ],
   "note": "False of the code: values needing 3, 5, 6 or 7 bytes are announced wider than they are written (C46_streamvbyte64_not_lossless); proved for 1, 2, 4 and 8 byte values."
  },
  {
   "property": "C47",
   "status": "proved",
   "theorems": [
    "Verif.Reduce.C47_reduction",
    "Verif.Reduce.C47_accumulate",
    "Verif.Reduce.C47_max_element",
    "Verif.Reduce.C47_max_difference",
    "Verif.Reduce.C47_prefix_sum"
   ],
   "note": ""
  },
  {
   "property": "C48",
   "status": "proved",
   "theorems": [
    "Verif.Reorder.C48_neighbourhoods",
    "Verif.Reorder.C48_order",
    "Verif.Reorder.C48_facade"
   ],
   "note": "Order and weights agree with the compressed graph for nodes without parallel edges; with parallel edges the sequence of targets agrees. Needs the high degree encoding to be on (the default): the reordering always splits large neighbourhoods. std::sort and std::rotate are modelled by their specification."
  },
  {
   "property": "C49",
   "status": "proved",
   "theorems": [
    "Verif.Tree.C49_reduction",
    "Verif.Tree.C49_synchronous",
    "Verif.Tree.C49_sum",
    "Verif.Tree.C49_buckets"
   ],
   "note": "MPI_Probe, MPI_Recv and MPI_Send between a pair of ranks are modelled by their specification (messages between two ranks arrive in order), once with unbounded buffering and once as rendezvous. The combiner is an arbitrary function."
  },
  {
   "property": "C50",
   "status": "proved",
   "theorems": [
    "Verif.NodeBalancer.C50_winners",
    "Verif.NodeBalancer.C50_sequential",
    "Verif.NodeBalancer.C50_parallel",
    "Verif.NodeBalancer.C50_rounds",
    "Verif.NodeBalancer.C50_room",
    "Verif.NodeBalancer.C50_not_terminating",
    "Verif.NodeBalancer.C50_not_balanced"
   ],
   "note": "For positive node weights; candidates, gains, the order of equal gains and random numbers are arbitrary, the priority queues are not modelled. About rounds that return: the root's search for a block for nodes without a target may never end (C50_not_terminating), exactly if no other block can take the node (C50_room). With par_accept_imbalanced_moves (the default) a parallel round may overload blocks (C50_not_balanced)."
  },
  {
   "property": "C51",
   "status": "proved",
   "theorems": [
    "Verif.Net.C51_direct",
    "Verif.Net.C51_alltoallv",
    "Verif.Net.C51_calls",
    "Verif.Net.C51_get",
    "Verif.Net.C51_replacement"
   ],
   "note": "Point-to-point messages between two ranks arrive in order, MPI_Alltoall(v) and MPI_Allreduce are modelled by their specification; limits of int are not modelled, except in the choice of the implementation. In the chosen implementation the direct exchange is replaced by the result that C51_direct proves for all executions."
  },
  {
   "property": "C52",
   "status": "proved",
   "theorems": [
    "Verif.Net.C52_doubling",
    "Verif.Net.C52_not_any_size"
   ],
   "note": "Values from any commutative monoid, so integers that wrap around are covered. C52_not_any_size: the assertion about the number of ranks, which release builds do not check, is needed."
  },
  {
   "property": "C53",
   "status": "partial",
   "theorems": [
    "Verif.InitialFM.C53_round",
    "Verif.InitialFM.C53_refine",
    "Verif.InitialFM.C53_queues",
    "Verif.InitialFM.C53_selection",
    "Verif.InitialFM.C53_not_rebalanced",
    "Verif.InitialFM.C53_not_reported_for_one_iteration"
   ],
   "note": "Only the report of the improvement is weaker: with num_iterations == 1 the refiner returns false after an improvement (C53_not_reported_for_one_iteration); everything else is proved for all inputs. C53_not_rebalanced: the comment about accepting the first balanced cut is not what the code does. The binary heaps are abstracted to maps with an arbitrary smallest element (C08 proves the heap), stopping policies are an arbitrary oracle."
  },
  {
   "property": "C54",
   "status": "partial",
   "theorems": [
    "Verif.InitialCoarsening.C54_hierarchy",
    "Verif.InitialCoarsening.C54_call",
    "Verif.InitialCoarsening.C54_projection",
    "Verif.InitialCoarsening.C54_pop",
    "Verif.InitialCoarsening.C54_coarsest",
    "Verif.InitialCoarsening.C54_choice",
    "Verif.InitialCoarsening.C54_not_heavy",
    "Verif.InitialCoarsening.C54_not_zero_weights",
    "Verif.InitialCoarsening.C54_not_own_limit"
   ],
   "note": "Proved for all graphs with node weights below 2^29 in total and positive edge weights. False outside: C54_not_heavy (weights are cut off by the 30-bit field), C54_not_zero_weights (an edge of weight zero makes the best cluster be read from nothing), and C54_not_own_limit (a call of coarsen obeys the limit of the call before it). Shuffles, coins and the convergence test are arbitrary oracles."
  },
  {
   "property": "C55",
   "status": "partial",
   "theorems": [
    "Verif.FlatBip.C55_bipartition",
    "Verif.FlatBip.C55_bfs_balanced",
    "Verif.FlatBip.C55_random_balanced",
    "Verif.FlatBip.C55_ggg_weight_partial",
    "Verif.FlatBip.C55_ggg_not_greedy"
   ],
   "note": "C55_bipartition, C55_bfs_balanced, C55_random_balanced and C55_ggg_weight_partial are proved for all graphs, random choices and old memory contents. Not proved because false: greedy graph growing does not look at edges; C55_ggg_not_greedy shows that its result is the same for all sets of edges."
  },
  {
   "property": "C56",
   "status": "proved",
   "theorems": [
    "Verif.FlatBip.C56_furthest",
    "Verif.FlatBip.C56_far_away"
   ],
   "note": "Breadth first search of the code against the length of paths in the graph; the random start nodes and tie breaks are arbitrary."
  },
  {
   "property": "C57",
   "status": "partial",
   "theorems": [
    "Verif.InitialPool.C57_pool",
    "Verif.InitialPool.C57_not_without_runs",
    "Verif.InitialPool.C57_multilevel"
   ],
   "note": "C57_pool and C57_multilevel compose the models of C53, C54 and C55. They need at least one bipartitioner, at least one repetition, and a repetition that does not depend on the adaptive selection: C57_not_without_runs proves that the pool otherwise returns the old contents of its memory. Statistics are arbitrary oracles; cuts are less than the largest edge weight; coarsening stops if no node is merged."
  },
  {
   "property": "C58",
   "status": "partial",
   "theorems": [
    "Verif.Limits.C58_explicit_limits",
    "Verif.Limits.C58_explicit_limits_final",
    "Verif.Limits.C58_imbalance_limits",
    "Verif.Limits.C58_explicit_satisfiable",
    "Verif.Limits.C58_imbalance_satisfiable",
    "Verif.Limits.C58_imbalance_limits_final",
    "Verif.Limits.C58_imbalance_final_exact_partial",
    "Verif.Limits.C58_twoway",
    "Verif.Limits.C58_twoway_adaptive_partial",
    "Verif.Limits.C58_imbalance_sum_not",
    "Verif.Limits.C58_twoway_one_block_not",
    "Verif.Limits.C58_twoway_adaptive_not",
    "Verif.Limits.C58_twoway_empty_block_not"
   ],
   "note": "Proved for explicit limits and for limits from an imbalance. False in four situations, with witnesses: with an imbalance an intermediate limit may exceed the sum of the final limits (C58_imbalance_sum_not); k = 1 reads beyond the end of the limits (C58_twoway_one_block_not); a block of weight one with two final blocks gets adapted limits of zero and then divides zero by zero (C58_twoway_adaptive_not); an empty block multiplies infinity by zero (C58_twoway_empty_block_not). After removing isolated nodes the limits of the final blocks equal the caller's in exact arithmetic (C58_imbalance_final_exact_partial) and differ by at most one with doubles (C58_imbalance_limits_final)."
  },
  {
   "property": "C59",
   "status": "partial",
   "theorems": [
    "Verif.Multilevel.C59_deep_partition",
    "Verif.Multilevel.C59_deep_limits",
    "Verif.Multilevel.C59_deep_limits_imbalance",
    "Verif.Multilevel.C59_deep_memory_partial",
    "Verif.Multilevel.C59_deep_memory_not_safe",
    "Verif.Multilevel.C59_threads",
    "Verif.Multilevel.C59_threads_not_defined",
    "Verif.Multilevel.C59_select_best",
    "Verif.Multilevel.C59_async_selection_not_feasible",
    "Verif.Multilevel.C59_kway",
    "Verif.Multilevel.C59_rb",
    "Verif.Multilevel.C59_rb_exception",
    "Verif.Multilevel.C59_one_block_not_supported"
   ],
   "note": "Number of blocks, validity, termination and the last refinement are proved for all three schemes and all modes. False, with witnesses: with shared subgraph memory (not the default) the memory is freed before the extension at the top level (C59_deep_memory_not_safe; C59_deep_memory_partial has the exact case in which it is safe); asynchronous initial partitioning compares copies with the limits of the final blocks, so that an infeasible copy may win (C59_async_selection_not_feasible); k = 1 gives two blocks or is undefined (C59_one_block_not_supported); one thread and a load below one is undefined (C59_threads_not_defined). Thread-local memory needs the weight room of C30."
  },
  {
   "property": "C60",
   "status": "partial",
   "theorems": [
    "Verif.Files.C60_metis_read_partial",
    "Verif.Files.C60_page_multiple_not_readable",
    "Verif.Files.C60_metis_roundtrip_partial",
    "Verif.Files.C60_compress_read_partial",
    "Verif.Files.C60_compress_empty_undefined",
    "Verif.Files.C60_partition_roundtrip_partial",
    "Verif.Files.C60_empty_partition_not_readable",
    "Verif.Files.C60_block_sizes_roundtrip_partial",
    "Verif.Files.C60_unreadable_file_exists",
    "Verif.Files.C60_too_many_edges_undefined",
    "Verif.Files.C60_node_sizes_not_ignored",
    "Verif.Files.C60_zero_weight_dropped",
    "Verif.Files.C60_large_weight_dropped",
    "Verif.Files.C60_crlf_misread",
    "Verif.Files.C60_missing_edges_uninitialised",
    "Verif.Files.C60_large_block_size_undefined"
   ],
   "note": "Proved for all files that follow the format (specified independently of the parser), all type widths, debug and release: reading, round trip through the writer, compressing reader, partitions and block sizes. False, with witnesses: files whose length is a multiple of the page size are read past the mapping (C60_page_multiple_not_readable, C60_unreadable_file_exists); empty graphs in the compressing reader (C60_compress_empty_undefined); empty partitions (C60_empty_partition_not_readable); malformed files: too many or too few edges, node sizes, CRLF, zero weights, large totals with 32-bit IDs, block sizes of 2^31 nodes and more. The theorems assume positive weights and a file length that is no multiple of the page size. Not modelled: I/O errors of the operating system."
  },
  {
   "property": "C61",
   "status": "partial",
   "theorems": [
    "Verif.Binary.C61_roundtrip_partial",
    "Verif.Binary.C61_narrow_types_exit",
    "Verif.Binary.C61_offsets_overflow",
    "Verif.Binary.C61_short_file_undefined",
    "Verif.Binary.C61_truncated_file_accepted",
    "Verif.Binary.C61_degree_buckets"
   ],
   "note": "Round trip for all graphs and all pairs of builds, exit for narrower builds, and renumbering by degree buckets are proved. False for graphs whose file offsets exceed the edge ID type (C61_offsets_overflow, for every such graph) and for truncated files (C61_short_file_undefined, for every such file; C61_truncated_file_accepted). Not modelled: the compressing readers of this format, I/O errors."
  },
  {
   "property": "C62",
   "status": "proved",
   "theorems": [
    "Verif.Binary.C62_roundtrip",
    "Verif.Binary.C62_roundtrip_unweighted",
    "Verif.Binary.C62_other_options_exit",
    "Verif.Binary.C62_recognised",
    "Verif.Binary.C62_first_byte",
    "Verif.Binary.C62_parhip_not_recognised"
   ],
   "note": "All numbers are assumed to be values of their types (Storable). The permutation of a graph that was renumbered while it was read is not part of the file. Not modelled: I/O errors."
  },
  {
   "property": "C63",
   "status": "partial",
   "theorems": [
    "Verif.InputCheck.C63_accepted_undirected",
    "Verif.InputCheck.C63_simple_undirected_accepted",
    "Verif.InputCheck.C63_in_range_defined",
    "Verif.InputCheck.C63_sorted_input_exact",
    "Verif.InputCheck.C63_exact_partial",
    "Verif.InputCheck.C63_repeated_edge_accepted",
    "Verif.InputCheck.C63_accepted_asymmetric",
    "Verif.InputCheck.C63_self_loop_accepted",
    "Verif.InputCheck.C63_out_of_range_undefined"
   ],
   "note": "Proved: accepted graphs are undirected; undirected graphs without repeated edges are accepted; exact characterisation for sorted input and for input without repeated edges; no undefined behaviour if all edges are in range. False: repeated edges that are not adjacent in the input are accepted (C63_repeated_edge_accepted, C63_accepted_asymmetric), self-loops are accepted, edges to non-existing nodes are undefined behaviour (C63_out_of_range_undefined, for every such graph)."
  },
  {
   "property": "C64",
   "status": "partial",
   "theorems": [
    "Verif.Dist.C64_import_partial",
    "Verif.Dist.C64_many_weighted_nodes",
    "Verif.Dist.C64_large_weight_changed",
    "Verif.Dist.C64_edge_distribution"
   ],
   "note": "Proved for all inputs that fit into the 32-bit IDs and weights of the default build. False beyond that, although the interface is 64-bit: larger weights are silently replaced (C64_large_weight_changed, for every such weight), and from 2^31 weighted nodes per process on the array of node weights is too small because its size counts the nodes twice modulo 2^32 (C64_many_weighted_nodes, for every such input). new_ghost_node is one atomic step. Not modelled: compressed distributed graphs."
  },
  {
   "property": "C65",
   "status": "partial",
   "theorems": [
    "Verif.Dist.C65_messages_to_ghosts",
    "Verif.Dist.C65_messages_to_processes",
    "Verif.Dist.C65_range_synchronization",
    "Verif.Dist.C65_filtered_synchronization",
    "Verif.Dist.C65_ghost_synchronization",
    "Verif.Dist.C65_one_sided_edge",
    "Verif.Dist.C65_ghost_weights_partial",
    "Verif.Dist.C65_mixed_node_weights"
   ],
   "note": "The messages and the synchronization are proved for all undirected graphs and all executions. Undirected is necessary: an edge known to one side only makes the receiver use a search result that does not exist (C65_one_sided_edge, for every such edge). C65_ghost_weights_partial needs that all processes with nodes pass node weights, or none: otherwise a process without weights writes outside of its empty array (C65_mixed_node_weights, for every such input). The exchange itself is that of C51; the per-thread marker is replaced by its specification (C13)."
  },
  {
   "property": "C66",
   "status": "partial",
   "theorems": [
    "Verif.Dist.C66_edge_cut",
    "Verif.Dist.C66_returned_cut_partial",
    "Verif.Dist.C66_returned_cut_truncated",
    "Verif.Dist.C66_block_weights",
    "Verif.Dist.C66_feasible",
    "Verif.Dist.C66_overload",
    "Verif.Dist.C66_total_weight_partial",
    "Verif.Dist.C66_total_weight_overflow"
   ],
   "note": "edge_cut, block weights, feasibility and overload are proved for all inputs whose total weight is below 2^63. The value returned by compute_partition goes through a 32-bit variable: proved equal to the cut below 2^31, and proved smaller than the cut for every larger one (C66_returned_cut_truncated). The total node weight of a process is a 32-bit sum: proved right below 2^31, and proved to overflow for every input beyond it (C66_total_weight_overflow). imbalance() and the l2 norm (floating point) are not modelled."
  },
  {
   "property": "C67",
   "status": "partial",
   "theorems": [
    "Verif.Dist.C67_iteration",
    "Verif.Dist.C67_round_partial",
    "Verif.Dist.C67_round_truncated"
   ],
   "note": "The iteration is proved for all inputs whose weighted degrees are below 2^31 (C67_iteration). The round is proved for cuts below 2^31 (C67_round_partial); for every larger cut below 2^32 that satisfies the limits it is proved to replace a better partition (C67_round_truncated), because cuts are compared as 32-bit integers. The balancer between the iterations is any step after which the processes agree; the gain calculator and the test with the negative gain factor are arbitrary functions."
  },
  {
   "property": "C68",
   "status": "partial",
   "theorems": [
    "Verif.Dist.C68_result_has_k_blocks",
    "Verif.Dist.C68_few_blocks_end",
    "Verif.Dist.C68_powers_of_two_end_partial",
    "Verif.Dist.C68_other_numbers_never_end",
    "Verif.Dist.C68_two_hundred_blocks",
    "Verif.Dist.C68_multiple_does_not_end",
    "Verif.Dist.C68_small_graph_undefined"
   ],
   "note": "Proved: a run that ends returns k blocks (C68_result_has_k_blocks); every run ends if k is at most K (C68_few_blocks_end) or if k and K are powers of two (C68_powers_of_two_end_partial). Disproved for all other numbers that are no multiples of K: no run ever ends (C68_other_numbers_never_end; k = 200 with the default K = 128 in C68_two_hundred_blocks); multiples can fail as well (C68_multiple_does_not_end), and so do graphs smaller than the contraction limit with k > K (C68_small_graph_undefined). The assertion that would report the first case is not part of release builds."
  },
  {
   "property": "C69",
   "status": "partial",
   "theorems": [
    "Verif.Dist.C69_copy_partial",
    "Verif.Dist.C69_too_large",
    "Verif.Dist.C69_many_edges",
    "Verif.Dist.C69_mixed_node_weights",
    "Verif.Dist.C69_mixed_edge_weights"
   ],
   "note": "Proved for all graphs with fewer than 2^31 nodes and edges whose processes all pass weights or all pass none (C69_copy_partial). Disproved for graphs with 2^31 or more edges on the processes before the last one (C69_many_edges) and if only some processes pass weights (C69_mixed_node_weights, C69_mixed_edge_weights). The version for compressed graphs is not modelled."
  },
  {
   "property": "C70",
   "status": "proved",
   "theorems": [
    "Verif.Dist.C70_best_partition",
    "Verif.Dist.C70_distribute_partition",
    "Verif.Dist.C70_gather_partition",
    "Verif.Dist.C70_limits_ignored"
   ],
   "note": "C70_best_partition, C70_distribute_partition, C70_gather_partition. The choice does not look at the limits of the blocks (C70_limits_ignored): a partition that violates them wins against all others if its cut is smaller. The version of distribute_best_partition for groups of processes is not modelled."
  },
  {
   "property": "C71",
   "status": "partial",
   "theorems": [
    "Verif.LP.C71_no_node_twice",
    "Verif.LP.C71_every_node_unsorted",
    "Verif.LP.C71_every_node_sorted_partial",
    "Verif.LP.C71_large_nodes_never_handled",
    "Verif.LP.C71_two_phases"
   ],
   "note": "No node is handled twice in any execution (C71_no_node_twice); nothing is missed on graphs that are not sorted (C71_every_node_unsorted). On graphs that are sorted by degree buckets exactly the nodes with degrees below 2^(l-1) are handled, where 2^l is the largest power of two up to the threshold (C71_every_node_sorted_partial): the statement is false for nodes of larger degrees below the threshold (C71_large_nodes_never_handled). In two-phase rounds both phases together handle each node once (C71_two_phases). The active set is an arbitrary answer."
  },
  {
   "property": "C72",
   "status": "proved",
   "theorems": [
    "Verif.CompactGains.C72_compact",
    "Verif.CompactGains.C72_fit32",
    "Verif.CompactGains.C72_lock",
    "Verif.CompactGains.C72_wide_weight_lost"
   ],
   "note": "For weighted degrees that fit into an entry of 64 bits together with a block ID, which always holds with 32-bit weights (C72_fit32); otherwise connections are lost (C72_wide_weight_lost). Offsets must fit into EdgeID: 16 bytes for every directed edge and 14 for every node. Every interleaving of the updates of different edges; the mutual exclusion of table updates is proved separately (C72_lock) with sequentially consistent accesses."
  },
  {
   "property": "C73",
   "status": "proved",
   "theorems": [
    "Verif.Dist.C73_contraction",
    "Verif.Dist.C73_projected_partition"
   ],
   "note": "The redistribution of clusters is C74. The numbers of all nodes, with ghost nodes, and of all edges are below 2^31, because MPI counts are `int`. Sums of weights are exact integers. Every result of the sorting algorithms, every order of threads and entries is a parameter; the bucket sort with atomic counters is the one of C29, the concurrent hash tables are maps."
  },
  {
   "property": "C74",
   "status": "partial",
   "theorems": [
    "Verif.Dist.C74_plan_partial",
    "Verif.Dist.C74_redistribution_partial",
    "Verif.Dist.C74_contraction_partial",
    "Verif.Dist.C74_perfect_balance_fails",
    "Verif.Dist.C74_division_by_zero"
   ],
   "note": "Proved if there are at least as many coarse nodes as processes. With less the code can divide by zero and convert NaN to an integer (C74_division_by_zero: two coarse nodes on three processes). Perfect balance is not always reached since the average is rounded down (C74_perfect_balance_fails). The first limit, the sequence of limits (increasing) and the decision whether the imbalance is too large, all computed with floating point numbers, are parameters."
  },
  {
   "property": "C75",
   "status": "proved",
   "theorems": [
    "Verif.Dist.C75_node_coloring",
    "Verif.Dist.C75_loop_never_ends"
   ],
   "note": "With a loop at a node that has a neighbour on another process the algorithm never ends (C75_loop_never_ends). The marker is a set (C13: true for less than 2^31 visits of nodes)."
  },
  {
   "property": "C76",
   "status": "proved",
   "theorems": [
    "Verif.Dist.C76_independent_border_set"
   ],
   "note": "A ghost node that is not a border node can keep a border node out of the set, a node of the process that is not a border node cannot; so the set depends on the distribution of the nodes."
  },
  {
   "property": "C77",
   "status": "proved",
   "theorems": [
    "Verif.Dist.C77_refinement",
    "Verif.Dist.C77_colored_label_propagation",
    "Verif.Dist.C77_empty_process",
    "Verif.Dist.C77_untracked_best_moves",
    "Verif.Dist.C77_found_move_fits",
    "Verif.Dist.C77_found_moves_fit",
    "Verif.Dist.C77_one_process_overload",
    "Verif.Dist.C77_local_moves_overload",
    "Verif.Dist.C77_local_rounds_wrong_weights"
   ],
   "note": "Negations with witnesses show what the conditions exclude: an empty process has undefined behaviour, best moves on one process and local moves can overload a block, two rounds of local moves give wrong block weights, best moves without tracked weights write out of bounds."
  },
  {
   "property": "C78",
   "status": "proved",
   "theorems": [
    "Verif.Dist.C78_rearranged_graph",
    "Verif.Dist.C78_same_cut",
    "Verif.Dist.C78_same_block_weights",
    "Verif.Dist.C78_returned_partition",
    "Verif.Dist.C78_degree_buckets",
    "Verif.Dist.C78_colors",
    "Verif.Dist.C78_colors_empty_process"
   ],
   "note": "C78_colors_empty_process: the order by colours is undefined if some process has no nodes."
  },
  {
   "property": "C79",
   "status": "partial",
   "theorems": [
    "Verif.Dist.C79_refinement",
    "Verif.Dist.C79_one_thread",
    "Verif.Dist.C79_overload",
    "Verif.Dist.C79_two_threads_overload",
    "Verif.Dist.C79_worse_cut"
   ],
   "note": "Limits hold with probabilistic moves only (C79_refinement) or on one process with one thread (C79_one_thread); C79_overload, C79_two_threads_overload and C79_worse_cut show that the default settings guarantee neither limits nor the cut."
  },
  {
   "property": "C80",
   "status": "partial",
   "theorems": [
    "Verif.Dist.C80_clustering",
    "Verif.Dist.C80_can_be_contracted",
    "Verif.Dist.C80_one_thread",
    "Verif.Dist.C80_overload",
    "Verif.Dist.C80_two_threads_overload",
    "Verif.Dist.C80_owner_counts_twice",
    "Verif.Dist.C80_limit_truncated"
   ],
   "note": "The common clustering is proved for all schedules (C80_clustering, C80_can_be_contracted). The weight limit is proved for one process with one thread (C80_one_thread); C80_overload, C80_two_threads_overload, C80_owner_counts_twice and C80_limit_truncated show how it fails otherwise."
  },
  {
   "property": "C81",
   "status": "proved",
   "theorems": [
    "Verif.Dist.C81_kway_multilevel",
    "Verif.Dist.C81_label_propagation"
   ],
   "note": "Composes the models of C66, C69, C70, C73, C79 and C80. C81_kway_multilevel takes any clusterers and refiners with stated contracts; lpClusterer_valid, lpRefiner_sound, multiRefiner_sound and noopRefiner_sound show that the modelled ones satisfy them, and C81_label_propagation has no assumption about the parts but for the initial partitioner. The initial partitioner is any function that returns a partition into k blocks. Balancers and the Jet driver are not used as refiners here."
  },
  {
   "property": "C82",
   "status": "proved",
   "theorems": [
    "Verif.Dist.C82_sorted",
    "Verif.Dist.C82_heavy_edge_matching",
    "Verif.Dist.C82_empty_process",
    "Verif.Dist.C82_lighter_request_wins"
   ],
   "note": "C82_heavy_edge_matching composes the colouring (C75), the sorting by colours (C77) and the matching; C82_sorted is the matching for any proper colouring. C82_empty_process: a process without nodes is undefined behaviour (the maximum of an empty range), as in C77. C82_lighter_request_wins: the node need not accept the request with the heaviest edge. A visit of a node is one atomic step at its compare-and-swap; sums of two node weights are unbounded integers; that the matching is maximal is not claimed and not true. KnowsWeights asks for the weights of ghost nodes, which the import does not set for weighted graphs (C64)."
  },
  {
   "property": "C83",
   "status": "proved",
   "theorems": [
    "Verif.Dist.C83_size",
    "Verif.Dist.C83_hem_lp",
    "Verif.Dist.C83_level_accepted"
   ],
   "note": "C83_size: the number is the number of clusters, for every clustering whose clusters have the name of one of their nodes. C83_hem_lp: which clustering is returned, with the matching of C82 and the label propagation of C80. C83_level_accepted: the contracted graph has one node per cluster and is accepted if the matching was kept. The flag is a parameter, so every history of levels is covered. Quotients are compared exactly; for the numbers below 2^31 of C81 the comparison of doubles has the same result."
  },
  {
   "property": "C84",
   "status": "partial",
   "theorems": [
    "Verif.Vcycle.C84_limits_partial",
    "Verif.Vcycle.C84_defined_iff",
    "Verif.Vcycle.C84_reads_beyond",
    "Verif.Vcycle.C84_wide",
    "Verif.Vcycle.C84_truncated",
    "Verif.Vcycle.C84_chain_partial",
    "Verif.Vcycle.C84_result_partial"
   ],
   "note": "C84_limits_partial, C84_chain_partial and C84_result_partial: the property if each number of blocks is a power of two or the next v-cycle has at least as many blocks as the next power of two, and the total limit fits an int. C84_defined_iff: exactly when nothing beyond the end is read. C84_reads_beyond: for every power of two there are numbers of blocks for which it is read, for instance the v-cycles 6 and 6 for eight blocks or 10 for twelve blocks. C84_wide and C84_truncated: 64-bit limits are truncated to 32 bits. Missing: the other numbers of blocks and larger limits, for which the property is false. The deep multilevel partitioner is a parameter."
  },
  {
   "property": "C85",
   "status": "partial",
   "theorems": [
    "Verif.NodeBalancer.Sel.C85_thread_queue",
    "Verif.NodeBalancer.Sel.C85_queue",
    "Verif.NodeBalancer.Sel.C85_bucket_order",
    "Verif.NodeBalancer.Sel.C85_bucket_range_partial",
    "Verif.NodeBalancer.Sel.C85_bucket_beyond",
    "Verif.NodeBalancer.Sel.C85_gain_too_large",
    "Verif.NodeBalancer.Sel.C85_cutoffs",
    "Verif.NodeBalancer.Sel.C85_candidates",
    "Verif.NodeBalancer.Sel.C85_removes_overload"
   ],
   "note": "C85_queue, C85_cutoffs, C85_candidates and C85_removes_overload: the property for nodes whose gains have a bucket; C85_bucket_order: larger gains are in earlier buckets. C85_bucket_range_partial: which gains have a bucket. C85_bucket_beyond and C85_gain_too_large: the other gains are out of bounds, so the property is false for them. C85_thread_queue: the queues of threads are not limited, although the comment says so. The targets of the candidates and the moves are not part of this property (C50)."
  },
  {
   "property": "C86",
   "status": "partial",
   "theorems": [
    "Verif.ClusterBalancer.C86_moves",
    "Verif.ClusterBalancer.C86_gain",
    "Verif.ClusterBalancer.C86_ghost_adjacency",
    "Verif.ClusterBalancer.C86_superfluous",
    "Verif.ClusterBalancer.C86_singletons",
    "Verif.ClusterBalancer.C86_target_partial",
    "Verif.ClusterBalancer.C86_no_target"
   ],
   "note": "C86_moves, C86_gain, C86_ghost_adjacency, C86_target_partial and C86_singletons: the property for clusters with the invariants of Clustering. C86_superfluous: the first ghost node has superfluous entries with weight zero. C86_no_target: false if a cluster fits into no other block, then the gain overflows. Clusters of label propagation are not modelled; for the greedy builder see C87."
  },
  {
   "property": "C87",
   "status": "partial",
   "theorems": [
    "Verif.ClusterBalancer.C87_clusters",
    "Verif.ClusterBalancer.C87_cover_partial",
    "Verif.ClusterBalancer.C87_exact_partial",
    "Verif.ClusterBalancer.C87_left_out",
    "Verif.ClusterBalancer.C87_negative"
   ],
   "note": "C87_clusters: the property of the clusters. C87_cover_partial: every node of an overloaded block is in a cluster or is the one node that a cluster has lost. C87_exact_partial: if no node is lost, the clusters and connections satisfy the hypotheses of C86. C87_left_out and C87_negative: the full property is false, a node is lost, and the connections of the cluster that lost it become wrong, even negative, when an adjacent cluster moves."
  },
  {
   "property": "C88",
   "status": "partial",
   "theorems": [
    "Verif.ClusterBalancer.C88_max_overload",
    "Verif.ClusterBalancer.C88_avg_overload",
    "Verif.ClusterBalancer.C88_min_overload",
    "Verif.ClusterBalancer.C88_zero_limit",
    "Verif.ClusterBalancer.C88_assign",
    "Verif.ClusterBalancer.C88_assign_invalid",
    "Verif.ClusterBalancer.C88_proposals_partial",
    "Verif.ClusterBalancer.C88_fits_nowhere"
   ],
   "note": "C88_max_overload, C88_avg_overload: the limit is as stated. C88_assign: the search for another block ends and finds a block with room unless there is none. C88_proposals_partial: the proposals, if every picked cluster fits into some other block. C88_min_overload, C88_zero_limit, C88_assign_invalid and C88_fits_nowhere: the full property is false, for the smallest overload the limit is always zero and the greedy builder makes only empty clusters, and a picked cluster that fits nowhere makes the loop write outside of an array."
  },
  {
   "property": "C89",
   "status": "partial",
   "theorems": [
    "Verif.ClusterBalancer.C89_clusters",
    "Verif.ClusterBalancer.C89_exact_partial",
    "Verif.ClusterBalancer.C89_across_blocks"
   ],
   "note": "C89_clusters: exactly the groups of nodes with the same label, for all labels. C89_exact_partial: if nodes with the same label are in the same block, the clusters and connections satisfy the hypotheses of C86. C89_across_blocks: without this hypothesis, which nothing in the code ensures, a cluster can have nodes in several blocks and its connections can be too small."
  },
  {
   "property": "C90",
   "status": "proved",
   "theorems": [
    "Verif.ClusterBalancer.C90_parallel",
    "Verif.ClusterBalancer.C90_sequential_moves"
   ],
   "note": "C90_parallel: no undefined behaviour, agreement, whole clusters and limits, for all proposals of distinct disjoint clusters and all random numbers. C90_sequential_moves: agreement and whole clusters for all lists of distinct winners. How the proposals are found is C88, how winners are reduced is C50."
  },
  {
   "property": "C91",
   "status": "partial",
   "theorems": [
    "Verif.ClusterBalancer.C91_sequential_partial",
    "Verif.ClusterBalancer.C91_rounds_partial"
   ],
   "note": "C91_sequential_partial: the full property for candidates whose target is a block (possibly their own). C91_rounds_partial: agreement and limits after any sequence of sequential and parallel rounds, with clusters that can be built anew before each round. Missing: candidates with the invalid block as their target, which find_max_relative_gain returns for a cluster that fits nowhere; for them the code reads outside of the array of block weights."
  },
  {
   "property": "C92",
   "status": "proved",
   "theorems": [
    "Verif.ClusterBalancer.C92_block",
    "Verif.ClusterBalancer.C92_candidates"
   ],
   "note": "C92_block: one block; C92_candidates: all blocks. The gains are integers instead of floating point numbers; only their order matters, and no gain is NaN for clusters with positive weights."
  },
  {
   "property": "C93",
   "status": "partial",
   "theorems": [
    "Verif.ClusterBalancer.C93_cutoffs_partial",
    "Verif.ClusterBalancer.C93_zero",
    "Verif.ClusterBalancer.C93_fraction"
   ],
   "note": "C93_cutoffs_partial: the property for positive fractions in exact arithmetic. C93_zero: with fraction 0 there is never a candidate. C93_fraction: the fraction of later rounds. Missing: the rounding of floating point numbers, which could put the changed limit on the weight of the block if the weights are large or the fraction is tiny; then later blocks would use the buckets of other blocks."
  }
 ]
}