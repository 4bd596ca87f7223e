{
 "claims": [
  {
   "property": "C01",
   "status": "proved",
   "theorems": [
    "PMondriaan.C01_read_general",
    "PMondriaan.C01_repeated_entry",
    "PMondriaan.C01_declared_nonzeros"
   ],
   "note": "From the extracted numbers of each line. Entries may be in any order and repeated; without repetitions the hypergraph is consistent. Repeated entries are stored twice."
  },
  {
   "property": "C02",
   "status": "proved",
   "theorems": [
    "PMondriaan.C02_read_symmetric",
    "PMondriaan.C02_mirror",
    "PMondriaan.C02_mirror_nodup"
   ],
   "note": ""
  },
  {
   "property": "C03",
   "status": "partial",
   "theorems": [
    "PMondriaan.C03_partial",
    "PMondriaan.C03_false",
    "PMondriaan.C03_false_general",
    "PMondriaan.C03_false_symmetric",
    "PMondriaan.C03_false_rectangular",
    "PMondriaan.C03_par_column_zero_dropped",
    "PMondriaan.C03_par_row_out_of_bounds"
   ],
   "note": "False: every entry out of range leads to an access out of bounds. Other malformed input is rejected."
  },
  {
   "property": "C04",
   "status": "proved",
   "theorems": [
    "PMondriaan.C04_read_general",
    "PMondriaan.C04_read_symmetric"
   ],
   "note": "For every distribution of the columns and nets, every delivery order, and files that have exactly the declared number of lines without repeated entries."
  },
  {
   "property": "C05",
   "status": "proved",
   "theorems": [
    "PMondriaan.C05_maps_exact",
    "PMondriaan.C05_lookup",
    "PMondriaan.C05_objects",
    "PMondriaan.C05_step",
    "PMondriaan.C05_constructor",
    "PMondriaan.C05_duplicate_id_breaks"
   ],
   "note": "Every history of add_vertex (new id), add_net, add_to_nets, remove_net, remove_net_by_index, remove_free_vertex (present id), remove_duplicate_net, update maps. The read after pop_back is modelled as what compiled code does (see C06)."
  },
  {
   "property": "C06",
   "status": "partial",
   "theorems": [
    "PMondriaan.C06_false",
    "PMondriaan.C06_remove_net_ub_iff_last",
    "PMondriaan.C06_remove_vertex_ub_iff_last",
    "PMondriaan.C06_partial"
   ],
   "note": "The property is false of the code: the last index reads past the end. Proved: exactly then, for every consistent hypergraph; the remaining indices are safe."
  },
  {
   "property": "C07",
   "status": "proved",
   "theorems": [
    "PMondriaan.C07_remove_free_nets"
   ],
   "note": "Sequential version, every order of the hash set."
  },
  {
   "property": "C08",
   "status": "proved",
   "theorems": [
    "PMondriaan.C08_total_weight",
    "PMondriaan.C08_weight_part",
    "PMondriaan.C08_weight_all_parts",
    "PMondriaan.C08_unassigned_out_of_bounds",
    "PMondriaan.C08_global_weight",
    "PMondriaan.C08_global_weight_part",
    "PMondriaan.C08_global_weight_parts",
    "PMondriaan.C08_global_unassigned_out_of_bounds",
    "PMondriaan.C08_recompute_global_size"
   ],
   "note": ""
  },
  {
   "property": "C09",
   "status": "proved",
   "theorems": [
    "PMondriaan.C09_cutsize",
    "PMondriaan.C09_cutsize_counts"
   ],
   "note": ""
  },
  {
   "property": "C10",
   "status": "proved",
   "theorems": [
    "PMondriaan.C10_distributed_cutsize",
    "PMondriaan.C10_equals_sequential"
   ],
   "note": "Any message order, any order of the label sets, any index distribution that is a bijection (Bulk's block distribution is one)."
  },
  {
   "property": "C100",
   "status": "proved",
   "theorems": [
    "PMondriaan.C100_merged",
    "PMondriaan.C100_few"
   ],
   "note": "For every list of accepted matches of local vertices, without repetition, to samples that exist. That the parallel coarsening calls the function with such lists is part of the proof of C47."
  },
  {
   "property": "C101",
   "status": "proved",
   "theorems": [
    "PMondriaan.C101_settings",
    "PMondriaan.C101_missing",
    "PMondriaan.C101_overrules",
    "PMondriaan.C101_mode",
    "PMondriaan.C101_again",
    "PMondriaan.C101_defaults",
    "PMondriaan.C101_ranges_false"
   ],
   "note": "What the library CLI11 does is assumed as in its documentation (Model/Settings.lean); floating-point texts and the existence of files are parameters. The ranges that the README gives are not checked (C101_ranges_false). The defaults that the README lists for p and sample_size (4, 10000) are not those of tools/defaults.toml (C101_defaults: 32, 5000)."
  },
  {
   "property": "C102",
   "status": "proved",
   "theorems": [
    "PMondriaan.C102_refine",
    "PMondriaan.C102_pass",
    "PMondriaan.C102_overflow",
    "PMondriaan.C102_overflow_others",
    "PMondriaan.C102_mark"
   ],
   "note": "Every signed operation of the 64-bit model stops when the result does not fit. The numbers of pins and the positions in lists are not checked; the memory for the buckets (twice the largest cost of a vertex) is not limited."
  },
  {
   "property": "C103",
   "status": "proved",
   "theorems": [
    "PMondriaan.C103_check_gains",
    "PMondriaan.C103_silent_iff",
    "PMondriaan.C103_silent",
    "PMondriaan.C103_printed",
    "PMondriaan.C103_unique",
    "PMondriaan.C103_reach_printed"
   ],
   "note": "The messages of check_gains are lists of numbers, the print is a text. The elements of a bucket come in the order of the model; in the code this order is that of an unordered set."
  },
  {
   "property": "C104",
   "status": "proved",
   "theorems": [
    "PMondriaan.C104_random",
    "PMondriaan.C104_initial",
    "PMondriaan.C104_coarsen",
    "PMondriaan.C104_multilevel",
    "PMondriaan.C104_bisect",
    "PMondriaan.C104_overflow",
    "PMondriaan.C104_overflow_steps",
    "PMondriaan.C104_mark"
   ],
   "note": "Every signed sum, difference and product of weights, costs and cuts in the 64-bit model stops when the result does not fit. Doubles (scores, entropy) and numbers of vertices and pins are not limited. Vertices of weight zero are excluded as in C50."
  },
  {
   "property": "C105",
   "status": "proved",
   "theorems": [
    "PMondriaan.C105_zero_weights",
    "PMondriaan.C105_all",
    "PMondriaan.C105_two"
   ],
   "note": "Fewer than 2^31 nets, as in C50. C105_two is the recursion with two parts and the connectivity metric. Forgetting is exact: a forgotten vertex keeps its part, every other vertex gets a label."
  },
  {
   "property": "C106",
   "status": "proved",
   "theorems": [
    "PMondriaan.C106_lost",
    "PMondriaan.C106_reports"
   ],
   "note": "Two parts, connectivity metric, fewer than 2^31 rows. The two theorems cover all matrices with at least one entry; without entries the total weight is zero and the recursion converts a NaN (C38)."
  },
  {
   "property": "C107",
   "status": "proved",
   "theorems": [
    "PMondriaan.C107_recursion",
    "PMondriaan.C107_random",
    "PMondriaan.C107_overflow"
   ],
   "note": "epsilon is not negative; two parts or more. Labels, positions and numbers of parts are not limited. Vertices of weight zero are excluded as in C104."
  },
  {
   "property": "C108",
   "status": "proved",
   "theorems": [
    "PMondriaan.C108_cutsize",
    "PMondriaan.C108_load_balance",
    "PMondriaan.C108_main",
    "PMondriaan.C108_cut",
    "PMondriaan.C108_overflow",
    "PMondriaan.C108_main_overflow"
   ],
   "note": "C108_main (connectivity) and C108_cut (cut-net) are about one processor, with no column of weight zero. Numbers of parts, pins and labels are not limited."
  },
  {
   "property": "C109",
   "status": "proved",
   "theorems": [
    "PMondriaan.C109_refine_par64",
    "PMondriaan.C109_refine_par64_slack",
    "PMondriaan.C109_overflow"
   ],
   "note": "C109_refine_par64 is about runs that succeed with unlimited numbers (see C51 for those that do not); the slack theorem has no such assumption. Counts of pins are not limited."
  },
  {
   "property": "C11",
   "status": "proved",
   "theorems": [
    "PMondriaan.C11_init_counts",
    "PMondriaan.C11_init_counts_par"
   ],
   "note": "The parallel version needs exact global sizes in the nets, which global_net_sizes provides (C12)."
  },
  {
   "property": "C110",
   "status": "proved",
   "theorems": [
    "PMondriaan.C110_coarsen_par64",
    "PMondriaan.C110_multilevel_par64",
    "PMondriaan.C110_multilevel_par64_slack",
    "PMondriaan.C110_random_par64",
    "PMondriaan.C110_moderate",
    "PMondriaan.C110_cut_size",
    "PMondriaan.C110_overflow",
    "PMondriaan.C110_overflow_steps"
   ],
   "note": "C110_multilevel_par64 is about runs that succeed with unlimited numbers (see C60 for those that do not); the slack theorem has no such assumption. C110_moderate puts the limits in round numbers."
  },
  {
   "property": "C111",
   "status": "proved",
   "theorems": [
    "PMondriaan.C111_recursion_par64",
    "PMondriaan.C111_random_par64",
    "PMondriaan.C111_one_processor",
    "PMondriaan.C111_overflow",
    "PMondriaan.C111_overflow_steps"
   ],
   "note": "About runs that succeed with unlimited numbers; C61 says when they do not."
  },
  {
   "property": "C112",
   "status": "proved",
   "theorems": [
    "PMondriaan.C112_main",
    "PMondriaan.C112_random_two",
    "PMondriaan.C112_unread",
    "PMondriaan.C112_one_processor",
    "PMondriaan.C112_overflow"
   ],
   "note": "About runs that succeed with unlimited numbers; C70 says when they do not. Writing the output file, which is undefined in any case (C41), is left out."
  },
  {
   "property": "C113",
   "status": "proved",
   "theorems": [
    "PMondriaan.C113_recursion_cut64",
    "PMondriaan.C113_random_cut64",
    "PMondriaan.C113_main",
    "PMondriaan.C113_random_two",
    "PMondriaan.C113_unread",
    "PMondriaan.C113_one_processor",
    "PMondriaan.C113_main_one_processor",
    "PMondriaan.C113_one_part",
    "PMondriaan.C113_overflow"
   ],
   "note": "About runs that succeed with unlimited numbers; C77 and C79 say when they do not. Numbers of splits and positions are not limited. Writing the output file, which is undefined in any case (C41), is left out."
  },
  {
   "property": "C12",
   "status": "proved",
   "theorems": [
    "PMondriaan.C12_global_net_sizes",
    "PMondriaan.C12_sum_of_local_sizes"
   ],
   "note": ""
  },
  {
   "property": "C13",
   "status": "proved",
   "theorems": [
    "PMondriaan.C13_sort_vertices_on_part"
   ],
   "note": ""
  },
  {
   "property": "C14",
   "status": "proved",
   "theorems": [
    "PMondriaan.C14_move",
    "PMondriaan.C14_move_twice",
    "PMondriaan.C14_moves"
   ],
   "note": ""
  },
  {
   "property": "C15",
   "status": "proved",
   "theorems": [
    "PMondriaan.C15_buckets",
    "PMondriaan.C15_fresh_query_out_of_bounds"
   ],
   "note": ""
  },
  {
   "property": "C16",
   "status": "proved",
   "theorems": [
    "PMondriaan.C16_gains_exact",
    "PMondriaan.C16_progress"
   ],
   "note": "Sequential gain structure."
  },
  {
   "property": "C17",
   "status": "proved",
   "theorems": [
    "PMondriaan.C17_KLFM_pass",
    "PMondriaan.C17_KLFM",
    "PMondriaan.C17_KLFM_any_start"
   ],
   "note": ""
  },
  {
   "property": "C18",
   "status": "proved",
   "theorems": [
    "PMondriaan.C18_balance_pass",
    "PMondriaan.C18_balance_KLFM"
   ],
   "note": "For non-negative weights."
  },
  {
   "property": "C19",
   "status": "proved",
   "theorems": [
    "PMondriaan.C19_make_balanced"
   ],
   "note": "For non-negative weights."
  },
  {
   "property": "C20",
   "status": "proved",
   "theorems": [
    "PMondriaan.C20_pass_terminates",
    "PMondriaan.C20_KLFM_terminates"
   ],
   "note": ""
  },
  {
   "property": "C21",
   "status": "proved",
   "theorems": [
    "PMondriaan.C21_bisect",
    "PMondriaan.C21_room",
    "PMondriaan.C21_unit_weights",
    "PMondriaan.C21_room_needed"
   ],
   "note": "Shuffles are any permutations. The always-balanced statement holds for any weights with room for the heaviest vertex; unit weights are a special case, and bounds that only sum to the total are not enough in general."
  },
  {
   "property": "C22",
   "status": "proved",
   "theorems": [
    "PMondriaan.C22_label_propagation",
    "PMondriaan.C22_labels_kept",
    "PMondriaan.C22_no_labels"
   ],
   "note": ""
  },
  {
   "property": "C23",
   "status": "proved",
   "theorems": [
    "PMondriaan.C23_initial_partitioning"
   ],
   "note": "Cutsizes and weights are assumed to be below LONG_MAX."
  },
  {
   "property": "C24",
   "status": "proved",
   "theorems": [
    "PMondriaan.C24_sample_random",
    "PMondriaan.C24_exact_comparison",
    "PMondriaan.C24_empty"
   ],
   "note": "For any comparison that accepts when s_left equals size. An empty hypergraph fails an assert."
  },
  {
   "property": "C25",
   "status": "proved",
   "theorems": [
    "PMondriaan.C25_sample_lp",
    "PMondriaan.C25_zero"
   ],
   "note": "Also: exactly one sample per label in use unless the generator returns its maximum. With a sample size of 0, as when there are more processors than samples, a division by zero (C25_zero)."
  },
  {
   "property": "C26",
   "status": "proved",
   "theorems": [
    "PMondriaan.C26_coarsen",
    "PMondriaan.C26_linked"
   ],
   "note": "For any visiting order, any scores and any iteration order of the candidate map. Also: the coarse hypergraph is the contraction of H along the clusters, and every matched vertex shares a net with its sample."
  },
  {
   "property": "C27",
   "status": "proved",
   "theorems": [
    "PMondriaan.C27_uncoarsen",
    "PMondriaan.C27_uncoarsen_seq",
    "PMondriaan.C27_zero_weight_aborts"
   ],
   "note": "The projection itself is proved for every clustering and labelling. The surrounding step aborts when clusters of total weight 0 were set aside as free."
  },
  {
   "property": "C28",
   "status": "partial",
   "theorems": [
    "PMondriaan.C28_merge",
    "PMondriaan.C28_partial",
    "PMondriaan.C28_positive",
    "PMondriaan.C28_false"
   ],
   "note": "False when the free vertices weigh 0 in total: assign_free_vertices returns early and they are lost. Proved for every other hypergraph, in particular for positive weights."
  },
  {
   "property": "C29",
   "status": "proved",
   "theorems": [
    "PMondriaan.C29_greedy",
    "PMondriaan.C29_unit_weights"
   ],
   "note": "Any result of the unstable sort. With unit weights the bisection stays balanced."
  },
  {
   "property": "C30",
   "status": "partial",
   "theorems": [
    "PMondriaan.C30_merge",
    "PMondriaan.C30_partial",
    "PMondriaan.C30_zero_bounds"
   ],
   "note": "The weights are always the true ones. Restoring fails when the total free weight is 0; bounds that sum to 0 divide by zero."
  },
  {
   "property": "C31",
   "status": "partial",
   "theorems": [
    "PMondriaan.C31_partial",
    "PMondriaan.C31_false"
   ],
   "note": "The code accumulates the long costs in an int map; proved when the costs sum to less than 2^31, with a counterexample beyond."
  },
  {
   "property": "C32",
   "status": "partial",
   "theorems": [
    "PMondriaan.C32_partial",
    "PMondriaan.C32_false"
   ],
   "note": "Ids, costs, pins and the vertex side come back, also after refinement in between. The global sizes of the re-added nets are lost, and a second reset corrupts the hypergraph."
  },
  {
   "property": "C33",
   "status": "partial",
   "theorems": [
    "PMondriaan.C33_partial",
    "PMondriaan.C33_false"
   ],
   "note": "The property is false: the copy sets all net costs to 1 and drops the duplicates. Everything else is kept."
  },
  {
   "property": "C34",
   "status": "partial",
   "theorems": [
    "PMondriaan.C34_partial",
    "PMondriaan.C34_false"
   ],
   "note": "The property is false for costs, which become 1. Proved for the distributed function; one processor is a special case."
  },
  {
   "property": "C35",
   "status": "proved",
   "theorems": [
    "PMondriaan.C35_bisect_random",
    "PMondriaan.C35_balance",
    "PMondriaan.C35_unit_weights",
    "PMondriaan.C35_balance_needed"
   ],
   "note": "The balance statement is proved for any weights, with the slack the greedy rule needs; unit weights are a special case."
  },
  {
   "property": "C36",
   "status": "partial",
   "theorems": [
    "PMondriaan.C36_partial",
    "PMondriaan.C36_no_high",
    "PMondriaan.C36_false"
   ],
   "note": "False exactly when the range has no high label: the end is then one too small. Proved otherwise."
  },
  {
   "property": "C37",
   "status": "partial",
   "theorems": [
    "PMondriaan.C37_exact",
    "PMondriaan.C37_rounded",
    "PMondriaan.C37_partial",
    "PMondriaan.C37_false"
   ],
   "note": "On one processor, for every k >= 2 and recursion tree. In exact arithmetic the bound is (1+eps)W/k. In double arithmetic every part is within the computed maxweight, which can exceed (1+eps)W/k by a factor 1 + 2^-50 (C37_false gives a double eps for which it does)."
  },
  {
   "property": "C38",
   "status": "partial",
   "theorems": [
    "PMondriaan.C38_partial",
    "PMondriaan.C38_total",
    "PMondriaan.C38_two",
    "PMondriaan.C38_one",
    "PMondriaan.C38_false"
   ],
   "note": "On one processor, both metrics. Every run assigns parts in [0,k) and loses nothing, or converts a NaN to long. The latter never happens for k = 2 or when both sides of each split get enough vertices; it always happens for one vertex and k >= 4. For k = 1 no part is assigned."
  },
  {
   "property": "C39",
   "status": "partial",
   "theorems": [
    "PMondriaan.C39_partial",
    "PMondriaan.C39_group",
    "PMondriaan.C39_false",
    "PMondriaan.C39_group_false",
    "PMondriaan.C39_empty_net"
   ],
   "note": "False: the code compares vertex ids, so every net with two different pins on a processor is set aside. Proved: exactly which nets are set aside; every cut net is among them, nets with one pin never are."
  },
  {
   "property": "C40",
   "status": "partial",
   "theorems": [
    "PMondriaan.C40_partial",
    "PMondriaan.C40_lists_lost",
    "PMondriaan.C40_false"
   ],
   "note": "Every net comes back with pins and cost, every vertex keeps id, weight and part. False for the vertex-side lists: they lose exactly the nets that were set aside."
  },
  {
   "property": "C41",
   "status": "partial",
   "theorems": [
    "PMondriaan.C41_partial",
    "PMondriaan.C41_false",
    "PMondriaan.C41_unassigned"
   ],
   "note": "False for every k >= 1: the last round of the loop is outside the vector. The values before it are right."
  },
  {
   "property": "C42",
   "status": "partial",
   "theorems": [
    "PMondriaan.C42_partial",
    "PMondriaan.C42_once",
    "PMondriaan.C42_false"
   ],
   "note": "The body and its blocks are right for the true offsets; computing the offsets is undefined (C41)."
  },
  {
   "property": "C43",
   "status": "proved",
   "theorems": [
    "PMondriaan.C43_owner_min"
   ],
   "note": "Values modelled as integers; the loop only uses <=."
  },
  {
   "property": "C44",
   "status": "partial",
   "theorems": [
    "PMondriaan.C44_rejections_agree_partial",
    "PMondriaan.C44_arrival_false",
    "PMondriaan.C44_undo_false"
   ],
   "note": "Every processor computes the same result if all processors see the moves of equal key in the same order (for example when the keys are distinct). False in general: with equal gains the order of arrival decides (C44_arrival_false), and the moves undone are the last ones found, not the ones counted as rejected (C44_undo_false)."
  },
  {
   "property": "C45",
   "status": "proved",
   "theorems": [
    "PMondriaan.C45_init_previous_C",
    "PMondriaan.C45_update_C"
   ],
   "note": "For every distributed hypergraph, net owner map, fair delivery and set of local changes."
  },
  {
   "property": "C46",
   "status": "proved",
   "theorems": [
    "PMondriaan.C46_redistribute"
   ],
   "note": "For every distributed hypergraph with nonnegative weights, every number of processors on the low side and every message order."
  },
  {
   "property": "C47",
   "status": "proved",
   "theorems": [
    "PMondriaan.C47_coarsen_par",
    "PMondriaan.C47_coarsen_from",
    "PMondriaan.C47_empty_processor"
   ],
   "note": "For every run in which the sampling does not stop the program. With random sampling a processor without vertices does stop it (C47_empty_processor)."
  },
  {
   "property": "C48",
   "status": "proved",
   "theorems": [
    "PMondriaan.C48_written",
    "PMondriaan.C48_never",
    "PMondriaan.C48_bounds",
    "PMondriaan.C48_returns",
    "PMondriaan.C48_read_back"
   ],
   "note": "Also: it returns when the stream draws every cell again and again, and the file is read back correctly."
  },
  {
   "property": "C49",
   "status": "partial",
   "theorems": [
    "PMondriaan.C49_lambda",
    "PMondriaan.C49_two",
    "PMondriaan.C49_eight",
    "PMondriaan.C49_partial",
    "PMondriaan.C49_false"
   ],
   "note": "Holds for the lambda metric for every p and k. False for the cut-net metric: four processors and nine parts. Proved for the cut-net metric for at most eight parts (every p and split), for two processors with one on each side, and for p = 2^a halved at every split with k a multiple of p."
  },
  {
   "property": "C50",
   "status": "partial",
   "theorems": [
    "PMondriaan.C50_partial",
    "PMondriaan.C50_false"
   ],
   "note": "Proved for positive weights and fewer than 2^31 nets. A vertex without nets and of weight 0 gets no label; C105 says exactly which vertices get none."
  },
  {
   "property": "C51",
   "status": "partial",
   "theorems": [
    "PMondriaan.C51_refine_par_partial",
    "PMondriaan.C51_refine_par_slack",
    "PMondriaan.C51_ub_stale_gains",
    "PMondriaan.C51_ub_empty_net"
   ],
   "note": "Everything is proved for every run that does not access an array out of bounds, and no other failure is possible. When the bounds cannot be exceeded and all local nets have pins there is no such access, and the reported weights are the true ones. Two concrete inputs with an out of bounds access are proved."
  },
  {
   "property": "C52",
   "status": "partial",
   "theorems": [
    "PMondriaan.C52_gains_exact_partial",
    "PMondriaan.C52_round_counts",
    "PMondriaan.C51_ub_stale_gains"
   ],
   "note": "Counts and bounds hold in every reachable state. The gains are exact when either part may hold all the weight or one processor starts within its bounds; after rejections they are not."
  },
  {
   "property": "C53",
   "status": "proved",
   "theorems": [
    "PMondriaan.C53_ends"
   ],
   "note": "With explicit bounds on the loops; a disagreement between processors is a separate failure in the model."
  },
  {
   "property": "C54",
   "status": "partial",
   "theorems": [
    "PMondriaan.C46_separated",
    "PMondriaan.C46_separated_code",
    "PMondriaan.C54_load",
    "PMondriaan.C46_not_separated",
    "PMondriaan.C46_zero_weight"
   ],
   "note": "Proved for vertices of positive weight when the maximum local weights leave room, which the computed ones do as long as both sides have a processor. False when the number of processors of the high side is rounded to zero, and for vertices of weight zero."
  },
  {
   "property": "C55",
   "status": "partial",
   "theorems": [
    "PMondriaan.C55_range",
    "PMondriaan.C55_both_partial",
    "PMondriaan.C55_false"
   ],
   "note": "The range holds. A side gets a processor when its share of the weight is at least 1/(2p); two splits within the bounds are given for which a side gets none."
  },
  {
   "property": "C56",
   "status": "partial",
   "theorems": [
    "PMondriaan.C56_uncoarsen_par",
    "PMondriaan.C56_step_partial"
   ],
   "note": "The labels, cut and weights before the refinement are proved in full. For the whole step the alternative is an access out of bounds in KLFM_par, which C51_ub_stale_gains shows to be possible; it is excluded when either part may hold all the weight and every local net has a pin."
  },
  {
   "property": "C57",
   "status": "partial",
   "theorems": [
    "PMondriaan.C57_replicate_partial",
    "PMondriaan.C57_costs",
    "PMondriaan.C57_cost_false",
    "PMondriaan.C57_size_false"
   ],
   "note": "Vertices, weights, nets and pins are proved. False for the costs (reset to 1 for the nets the processor has itself) and the global sizes (0 for the others, so that their scaled cost is negative)."
  },
  {
   "property": "C58",
   "status": "proved",
   "theorems": [
    "PMondriaan.C58_choose_best"
   ],
   "note": "For nets of cost 1, the only ones that reach this point because copying a hypergraph resets the costs."
  },
  {
   "property": "C59",
   "status": "partial",
   "theorems": [
    "PMondriaan.C59_levels_partial",
    "PMondriaan.C59_false"
   ],
   "note": "Every run ends in one of three ways: as claimed; with an access out of bounds in KLFM_par, excluded when either part may hold all the weight; or, only with random sampling, stopped because a processor has no vertices, which does happen (C59_false)."
  },
  {
   "property": "C60",
   "status": "partial",
   "theorems": [
    "PMondriaan.C60_partial",
    "PMondriaan.C60_false"
   ],
   "note": "As C59: proved for every run that does not end in one of the two failures. Vertices of weight zero and 2^31 nets are excluded."
  },
  {
   "property": "C61",
   "status": "partial",
   "theorems": [
    "PMondriaan.C61_partial",
    "PMondriaan.C61_code_partial",
    "PMondriaan.C61_two",
    "PMondriaan.C61_one_processor",
    "PMondriaan.C61_false"
   ],
   "note": "Proved for every run that does not convert a not-a-number to long (a group or side without weight, C61_false) and in which the bisection does not fail as in C59; C61_two has no exception for k = 2. Excluded: total weight 2^53 or more, more than 2^50 processors, vertices of weight zero. The cut-net metric is C77."
  },
  {
   "property": "C62",
   "status": "proved",
   "theorems": [
    "PMondriaan.C62_balance",
    "PMondriaan.C62_multilevel_false"
   ],
   "note": "Relative to the bisections staying within their bounds, which multilevel bisection on several processors need not do (C62_multilevel_false). Assumes W <= k*maxweight (necessary for the conclusion), k*maxweight + W < 2^47, relative rounding error 2^-53 and exact integers below 2^53."
  },
  {
   "property": "C63",
   "status": "partial",
   "theorems": [
    "PMondriaan.C63_partial",
    "PMondriaan.C63_empty",
    "PMondriaan.C63_false"
   ],
   "note": "Holds for groups with three or four labels. False with five or more: redistribute_hypergraph counts earlier finished vertices as unfinished, they get labels of other parts, and no vertex ends up with a label of the low side (C63_empty, C63_false)."
  },
  {
   "property": "C64",
   "status": "proved",
   "theorems": [
    "PMondriaan.C64_load_balance",
    "PMondriaan.C64_bound",
    "PMondriaan.C64_distributed",
    "PMondriaan.C64_no_parts"
   ],
   "note": "Each operation rounds with relative error u <= 1/1000. With k = 0 the past-the-end element is read (C64_no_parts); with total weight 0 the value is not a number."
  },
  {
   "property": "C65",
   "status": "proved",
   "theorems": [
    "PMondriaan.C65_check_maps",
    "PMondriaan.C65_consistent",
    "PMondriaan.C65_entry_outside"
   ],
   "note": "An entry of the vertex map that points outside stops the program in the assertion of local_id instead of being reported (C65_entry_outside)."
  },
  {
   "property": "C66",
   "status": "proved",
   "theorems": [
    "PMondriaan.C66_check_C",
    "PMondriaan.C66_silent_iff_exact",
    "PMondriaan.C66_distributed",
    "PMondriaan.C66_too_long",
    "PMondriaan.C66_too_short"
   ],
   "note": "For vectors with one entry per net. A longer one is an access out of bounds (C66_too_long), missing entries of a shorter one are not noticed (C66_too_short)."
  },
  {
   "property": "C67",
   "status": "proved",
   "theorems": [
    "PMondriaan.C67_parse",
    "PMondriaan.C67_parse_distributed",
    "PMondriaan.C67_read_general",
    "PMondriaan.C67_read_symmetric",
    "PMondriaan.C67_read_distributed",
    "PMondriaan.C67_read_distributed_symmetric",
    "PMondriaan.C67_no_file"
   ],
   "note": "Sizes at most max_size() of the vectors; on several processors fewer than 2^32 entries (the loop counter has 32 bits). Failures of the device and of memory allocation are not modelled."
  },
  {
   "property": "C68",
   "status": "partial",
   "theorems": [
    "PMondriaan.C68_partial_header",
    "PMondriaan.C68_partial_missing",
    "PMondriaan.C68_bad_line",
    "PMondriaan.C68_no_sizes",
    "PMondriaan.C68_long_comment",
    "PMondriaan.C68_empty_line",
    "PMondriaan.C68_truncated",
    "PMondriaan.C68_truncated_false"
   ],
   "note": "Reported: a header with fewer than five words, a line on which one of the two numbers is missing (by several processors only when it is among the announced lines), and missing entries on several processors when the last line ends with a newline. False: sizes missing or behind a comment line of more than 2048 characters (used uninitialised), an empty last line (reported by the sequential reader only), missing entries when the last line has no newline (the last entry is read again)."
  },
  {
   "property": "C69",
   "status": "proved",
   "theorems": [
    "PMondriaan.C69_written",
    "PMondriaan.C69_read_back"
   ],
   "note": "nz below 2^32, as in C67."
  },
  {
   "property": "C70",
   "status": "partial",
   "theorems": [
    "PMondriaan.C70_partial",
    "PMondriaan.C70_code_partial",
    "PMondriaan.C70_two",
    "PMondriaan.C70_balance",
    "PMondriaan.C70_weights",
    "PMondriaan.C70_false"
   ],
   "note": "Everything up to the output is proved for every run in which the partitioning does not fail as in C61; with k = 2 and random bisection it never fails (C70_two). Writing the partitioning is always an access out of bounds (C41), so no run ends normally (C70_false). The settings are C101; timing is not modelled; the log is C96."
  },
  {
   "property": "C71",
   "status": "partial",
   "theorems": [
    "PMondriaan.C71_written",
    "PMondriaan.C71_same_syncs",
    "PMondriaan.C71_false"
   ],
   "note": "Proved for all interleavings when all files open, for any given offsets (C41). False when a file cannot be opened: on two or more processors the numbers of synchronizations are equal exactly when all files open (C71_same_syncs), so that otherwise processors wait for ever."
  },
  {
   "property": "C72",
   "status": "proved",
   "theorems": [
    "PMondriaan.C72_greedy",
    "PMondriaan.C72_exact",
    "PMondriaan.C72_copy_false"
   ],
   "note": "For any arithmetic whose comparison is a strict weak order and whose division shrinks; C72_exact is the case of exact numbers, with no condition left. The stored global sizes are not always the true ones: C72_copy_false shows that on the copies made for the initial partitioning (C57) two vertices that share a net are not matched because the stored size is 0."
  },
  {
   "property": "C73",
   "status": "proved",
   "theorems": [
    "PMondriaan.C73_best",
    "PMondriaan.sortNth_largest"
   ],
   "note": "For any arithmetic whose comparison is a strict weak order and any result of nth_element that satisfies its specification (sortNth_largest shows that there is one). Costs and global sizes are those stored on the processor of the vertex."
  },
  {
   "property": "C74",
   "status": "proved",
   "theorems": [
    "PMondriaan.C74_pass",
    "PMondriaan.C74_make_balanced",
    "PMondriaan.C74_KLFM"
   ],
   "note": "The rule by which the part is picked is part of the specification (PartRule) and is stated as the code has it; that it is not the intended one is C75."
  },
  {
   "property": "C75",
   "status": "partial",
   "theorems": [
    "PMondriaan.C75_partial",
    "PMondriaan.C75_full_part",
    "PMondriaan.C75_false",
    "PMondriaan.C75_pass_misses"
   ],
   "note": "Proved when both parts have more room than any vertex needs. False in general: part_next compares the weight of the vertex with the room in the part it is in, not in the part it would move to. While a part is full, the vertices of the other part are therefore proposed and locked one after the other (C75_full_part); C75_pass_misses is a pass that misses an improvement for this reason."
  },
  {
   "property": "C76",
   "status": "proved",
   "theorems": [
    "PMondriaan.C76_label_propagation",
    "PMondriaan.C76_bisect",
    "PMondriaan.C76_settled",
    "PMondriaan.C76_bisect_settled"
   ],
   "note": "For any shuffle that permutes. Which of several labels with the most links is taken depends on the random stream and is left open."
  },
  {
   "property": "C77",
   "status": "partial",
   "theorems": [
    "PMondriaan.C77_partial",
    "PMondriaan.C77_code_partial",
    "PMondriaan.C77_one_processor",
    "PMondriaan.C77_two",
    "PMondriaan.C77_added",
    "PMondriaan.C77_false",
    "PMondriaan.C77_lost_step"
   ],
   "note": "Proved for every run that ends normally; the parts are restored up to the lists of nets of the vertices, which stay incomplete for nets whose pins have not moved (C40). Other outcomes: undefined behaviour (as in C61, or a net without pins left behind whose first pin is read: C77_false), failures of the bisection as in C59, and with nine parts or more on several processors the processors lose step (C77_lost_step; never with at most eight parts). With two parts on several processors no net is set aside and the result is that of the lambda metric (C77_two). Excluded: total weight 2^53 or more, more than 2^50 processors, vertices of weight zero."
  },
  {
   "property": "C78",
   "status": "partial",
   "theorems": [
    "PMondriaan.C78_search",
    "PMondriaan.C78_pass_partial",
    "PMondriaan.C78_KLFM_par_partial",
    "PMondriaan.C78_false"
   ],
   "note": "The searches of the first round are proved for all weight bounds. The rounds, passes and the whole refinement are proved when no processor has a net without pins and either part may hold all the weight or one processor starts within its bounds, so that nothing is rejected. False after a rejection: the gains of the neighbours of a rejected vertex are not corrected (C78_false)."
  },
  {
   "property": "C79",
   "status": "partial",
   "theorems": [
    "PMondriaan.C79_partial",
    "PMondriaan.C79_code_partial",
    "PMondriaan.C79_two",
    "PMondriaan.C79_weights",
    "PMondriaan.C79_false"
   ],
   "note": "Everything up to the output is proved for every run in which the recursion does not fail as in C77; with two parts on several processors the only failures are those of the bisection (C79_two). Writing the partitioning is always an access out of bounds (C41), so no run ends normally (C79_false). The settings are C101; timing is not modelled; the log is C96."
  },
  {
   "property": "C80",
   "status": "partial",
   "theorems": [
    "PMondriaan.C80_partial",
    "PMondriaan.C80_false"
   ],
   "note": "Proved for positive vertex weights and fewer than 2^31 nets (with weight zero the free vertices are lost, C50_false). C80_false shows that the exception is needed: three pairs are contracted to three free vertices that do not fit, and the refinement then cuts a net."
  },
  {
   "property": "C81",
   "status": "partial",
   "theorems": [
    "PMondriaan.C81_weights",
    "PMondriaan.C81_global_weights",
    "PMondriaan.C81_load_balance",
    "PMondriaan.C81_cutsize",
    "PMondriaan.C81_partial",
    "PMondriaan.C81_distributed_partial",
    "PMondriaan.C81_three_billion",
    "PMondriaan.C81_overflow",
    "PMondriaan.C81_false"
   ],
   "note": "Sums and cuts are safe when the totals fit. False for assign_free_vertices, which multiplies weights by bounds (and for load_balance, which multiplies by k): proved when these products fit, for example when the total weight and the bounds are at most 3 * 10^9 (C81_three_billion); beyond that the placement overflows (C81_overflow, C81_false)."
  },
  {
   "property": "C82",
   "status": "proved",
   "theorems": [
    "PMondriaan.C82_exact",
    "PMondriaan.C82_double",
    "PMondriaan.C82_rounded",
    "PMondriaan.C82_room_needed"
   ],
   "note": "Exact arithmetic and double arithmetic (the latter for k M L^3 at most 2^46). C82_room_needed: without slack a random bisection exceeds the bound."
  },
  {
   "property": "C83",
   "status": "proved",
   "theorems": [
    "PMondriaan.C83_multilevel",
    "PMondriaan.C83_KLFM",
    "PMondriaan.C83_bisect",
    "PMondriaan.C83_exact",
    "PMondriaan.C83_double",
    "PMondriaan.C83_room_needed"
   ],
   "note": "On one processor. C83_room_needed: bounds that add up to the weight are not enough."
  },
  {
   "property": "C84",
   "status": "partial",
   "theorems": [
    "PMondriaan.C84_partial",
    "PMondriaan.C84_bounds_false"
   ],
   "note": "Proved whenever the bisection does not fail as in C59 and C60, that is, with bounds that can hold all the weight and label propagation sampling it holds always. C60_false is a failure. Excluded: vertices of weight zero and 2^31 or more nets. The final bisection need not respect the bounds even if the one chosen on the coarsest level does (C84_bounds_false)."
  },
  {
   "property": "C85",
   "status": "partial",
   "theorems": [
    "PMondriaan.C85_bisect",
    "PMondriaan.C85_two",
    "PMondriaan.C85_false"
   ],
   "note": "Proved when on every processor the local weight and one more vertex fit in its shares of the bounds. False when only the total leaves room: with all vertices on one processor a part exceeds maxweight (C85_false). For more than two parts see C92."
  },
  {
   "property": "C86",
   "status": "proved",
   "theorems": [
    "PMondriaan.C86_one",
    "PMondriaan.C86_printed",
    "PMondriaan.C86_cut",
    "PMondriaan.C86_cut_printed"
   ],
   "note": "Columns of positive weight (which excludes empty columns in degree mode), k B L^3 at most 2^46 with B = maxweight and L the logarithm of k. With the cut-net metric (C86_cut) the order in which a processor receives its own messages may depend on the messages, not on the time. Up to the reports: writing the file is C41, which fails."
  },
  {
   "property": "C87",
   "status": "proved",
   "theorems": [
    "PMondriaan.C87_sum",
    "PMondriaan.C87_nets",
    "PMondriaan.C87_cutsize"
   ],
   "note": "Vertices of positive weight; runs that end normally (a run can end in a conversion of a NaN to long, C38_false). The bisections and their costs are given by an inductive relation on the states of the recursion."
  },
  {
   "property": "C88",
   "status": "partial",
   "theorems": [
    "PMondriaan.C88_partial",
    "PMondriaan.C88_blind",
    "PMondriaan.C88_false"
   ],
   "note": "Holds for two parts (C88_partial). False for three or more: after the first bisection every net with two or more pins is set aside, cut or not (C39), so all later bisections cost 0 whatever they do (C88_blind), and the nets they do cut are not accounted for (C88_false: costs 0, 0, 0 and cut-net value 7)."
  },
  {
   "property": "C89",
   "status": "proved",
   "theorems": [
    "PMondriaan.C89_two",
    "PMondriaan.C89_printed",
    "PMondriaan.C89_unit",
    "PMondriaan.C89_cut"
   ],
   "note": "Columns of positive weight; 2 B + W below 2^47. C89_unit is for weights one and the block partitioning of bulk. The main program up to the reports, before the file with the result is written (C41)."
  },
  {
   "property": "C90",
   "status": "proved",
   "theorems": [
    "PMondriaan.C90_cutsize",
    "PMondriaan.C90_distributed",
    "PMondriaan.C90_merge",
    "PMondriaan.C90_rename",
    "PMondriaan.C90_merge_distributed"
   ],
   "note": "Costs nonnegative, except for C90_rename."
  },
  {
   "property": "C91",
   "status": "partial",
   "theorems": [
    "PMondriaan.C91_nets_partial",
    "PMondriaan.C91_partial",
    "PMondriaan.C91_small_partial",
    "PMondriaan.C91_false"
   ],
   "note": "Proved net by net when no group with five or more labels leaves its low side without processors and none with three or more leaves its high side without processors, so always for two and three parts. Without the second condition the sum is an upper bound, so always for four parts. False in general (C91_false): vertices that already have their final label are taken for unfinished and labelled again, separately in two groups, so a net is cut without any bisection cutting it. The vertices left out by C91_false are those of C63_false."
  },
  {
   "property": "C92",
   "status": "proved",
   "theorems": [
    "PMondriaan.C92_rounds",
    "PMondriaan.C92_random",
    "PMondriaan.C92_cost"
   ],
   "note": "Slack at least k (R + 1) max(1, 2 (ceil(log2 k) - 1)) / 2 with R at least 2 eta maxweight + 2 p + p^2 om, where om bounds the weight of a vertex, and slack times L (L + 1) at most 2 k (maxweight - 1); k maxweight L^3 at most 2^46. With the default eta = 0.1 these two can hold together only for k at most 4; the example is such a case. C92_rounds is for every bisection function that balances. C92_cost: the conditions of C91 hold."
  },
  {
   "property": "C93",
   "status": "proved",
   "theorems": [
    "PMondriaan.C93_main",
    "PMondriaan.C93_printed",
    "PMondriaan.C93_unit"
   ],
   "note": "Columns of positive weight; the conditions on the slack are those of C92. C93_unit is for weights one and the block partitioning of bulk. The main program up to the reports, before the file with the result is written (C41)."
  },
  {
   "property": "C94",
   "status": "partial",
   "theorems": [
    "PMondriaan.C94_base",
    "PMondriaan.C94_directory",
    "PMondriaan.C94_not_input",
    "PMondriaan.C94_partial",
    "PMondriaan.C94_false"
   ],
   "note": "Names of fewer than 2^64 - 1 characters (C94_partial has no such condition). False for input files of the same name in different directories (C94_false). The names are compared as texts: links and other ways to name one file are not modelled."
  },
  {
   "property": "C95",
   "status": "proved",
   "theorems": [
    "PMondriaan.C95_printed",
    "PMondriaan.C95_unique"
   ],
   "note": "Ids are not negative."
  },
  {
   "property": "C96",
   "status": "proved",
   "theorems": [
    "PMondriaan.C96_percent",
    "PMondriaan.C96_log",
    "PMondriaan.C96_false"
   ],
   "note": "%d with a 64-bit argument is modelled as on the usual 64-bit platforms, where it prints the low 32 bits; it is true exactly for numbers that fit in 32 bits (C96_percent), and the bound is needed (C96_false). The texts of the load balance and the time are parameters. The program gets to the log only after writing the file, which fails (C41)."
  },
  {
   "property": "C97",
   "status": "proved",
   "theorems": [
    "PMondriaan.C97_loop",
    "PMondriaan.C97_never",
    "PMondriaan.C97_int",
    "PMondriaan.C97_int_overflow",
    "PMondriaan.C97_update_map_nets"
   ],
   "note": "The loops are modelled with an arbitrary body; in the rest of the model they are loops over lists, which is what C97_loop gives for fewer than 2^32 elements. Only update_map_nets is connected to its model definition."
  },
  {
   "property": "C98",
   "status": "proved",
   "theorems": [
    "PMondriaan.C98_single"
   ],
   "note": "Weights not negative, nets on the processor not empty. The bounds need not add up to more than the total weight."
  },
  {
   "property": "C99",
   "status": "partial",
   "theorems": [
    "PMondriaan.C99_equal_partial",
    "PMondriaan.C99_arrival_false",
    "PMondriaan.C99_weights_false"
   ],
   "note": "Proved when all vertices weigh the same, the start is within the bounds and all processors bring the same proposals into the same order. False when the order of proposals of equal gain differs, even if all vertices weigh 1 (C99_arrival_false), and when weights differ, even if the order is the same (C99_weights_false). The run can leave a bucket array (C51_ub_stale_gains)."
  }
 ]
}
