claim("C05", "proved", ["C05_maps_exact", "C05_lookup", "C05_objects", "C05_step", "C05_constructor",
      "C05_duplicate_id_breaks"],
      "Every history of add_vertex (new id), add_net, add_to_nets, remove_net, remove_net_by_index, "
      "remove_free_vertex (present id), remove_duplicate_net, update maps. The read after pop_back is modelled as "
      "what compiled code does (see C06).")
claim("C06", "partial", ["C06_false", "C06_remove_net_ub_iff_last", "C06_remove_vertex_ub_iff_last",
      "C06_partial"],
      "The property is false of the code: the last index reads past the end. Proved: exactly then, for every "
      "consistent hypergraph; the remaining indices are safe.")
claim("C07", "proved", ["C07_remove_free_nets"], "Sequential version, every order of the hash set.")
claim("C08", "proved", ["C08_total_weight", "C08_weight_part", "C08_weight_all_parts",
      "C08_unassigned_out_of_bounds", "C08_global_weight", "C08_global_weight_part", "C08_global_weight_parts",
      "C08_global_unassigned_out_of_bounds", "C08_recompute_global_size"], "")
claim("C09", "proved", ["C09_cutsize", "C09_cutsize_counts"], "")
claim("C10", "proved", ["C10_distributed_cutsize", "C10_equals_sequential"],
      "Any message order, any order of the label sets, any index distribution that is a bijection "
      "(Bulk's block distribution is one).")
claim("C11", "proved", ["C11_init_counts", "C11_init_counts_par"],
      "The parallel version needs exact global sizes in the nets, which global_net_sizes provides (C12).")
claim("C12", "proved", ["C12_global_net_sizes", "C12_sum_of_local_sizes"], "")
claim("C13", "proved", ["C13_sort_vertices_on_part"], "")
claim("C14", "proved", ["C14_move", "C14_move_twice", "C14_moves"], "")
claim("C15", "proved", ["C15_buckets", "C15_fresh_query_out_of_bounds"], "")
claim("C16", "proved", ["C16_gains_exact", "C16_progress"], "Sequential gain structure.")
claim("C17", "proved", ["C17_KLFM_pass", "C17_KLFM", "C17_KLFM_any_start"], "")
claim("C18", "proved", ["C18_balance_pass", "C18_balance_KLFM"], "For non-negative weights.")
claim("C19", "proved", ["C19_make_balanced"], "For non-negative weights.")
claim("C20", "proved", ["C20_pass_terminates", "C20_KLFM_terminates"], "")
claim("C43", "proved", ["C43_owner_min"], "Values modelled as integers; the loop only uses <=.")
claim("C28", "partial", ["C28_merge", "C28_partial", "C28_positive", "C28_false"],
      "False when the free vertices weigh 0 in total: assign_free_vertices returns early and they are lost. "
      "Proved for every other hypergraph, in particular for positive weights.")
claim("C29", "proved", ["C29_greedy", "C29_unit_weights"],
      "Any result of the unstable sort. With unit weights the bisection stays balanced.")
claim("C30", "partial", ["C30_merge", "C30_partial", "C30_zero_bounds"],
      "The weights are always the true ones. Restoring fails when the total free weight is 0; bounds that sum to 0 "
      "divide by zero.")
claim("C31", "partial", ["C31_partial", "C31_false"],
      "The code accumulates the long costs in an int map; proved when the costs sum to less than 2^31, with a "
      "counterexample beyond.")
claim("C32", "partial", ["C32_partial", "C32_false"],
      "Ids, costs, pins and the vertex side come back, also after refinement in between. The global sizes of the "
      "re-added nets are lost, and a second reset corrupts the hypergraph.")
claim("C33", "partial", ["C33_partial", "C33_false"],
      "The property is false: the copy sets all net costs to 1 and drops the duplicates. Everything else is kept.")
claim("C34", "partial", ["C34_partial", "C34_false"],
      "The property is false for costs, which become 1. Proved for the distributed function; one processor is a "
      "special case.")
claim("C35", "proved", ["C35_bisect_random", "C35_balance", "C35_unit_weights", "C35_balance_needed"],
      "The balance statement is proved for any weights, with the slack the greedy rule needs; unit weights are a "
      "special case.")
claim("C36", "partial", ["C36_partial", "C36_no_high", "C36_false"],
      "False exactly when the range has no high label: the end is then one too small. Proved otherwise.")
claim("C21", "proved", ["C21_bisect", "C21_room", "C21_unit_weights", "C21_room_needed"],
      "Shuffles are any permutations. The always-balanced statement holds for any weights with room for the heaviest "
      "vertex; unit weights are a special case, and bounds that only sum to the total are not enough in general.")
claim("C22", "proved", ["C22_label_propagation", "C22_labels_kept", "C22_no_labels"], "")
claim("C23", "proved", ["C23_initial_partitioning"],
      "Cutsizes and weights are assumed to be below LONG_MAX.")
claim("C24", "proved", ["C24_sample_random", "C24_exact_comparison", "C24_empty"],
      "For any comparison that accepts when s_left equals size. An empty hypergraph fails an assert.")
claim("C25", "proved", ["C25_sample_lp", "C25_zero"],
      "Also: exactly one sample per label in use unless the generator returns its maximum. With a sample size of 0, as "
      "when there are more processors than samples, a division by zero (C25_zero).")
claim("C26", "proved", ["C26_coarsen", "C26_linked"],
      "For any visiting order, any scores and any iteration order of the candidate map. Also: the coarse hypergraph "
      "is the contraction of H along the clusters, and every matched vertex shares a net with its sample.")
claim("C27", "proved", ["C27_uncoarsen", "C27_uncoarsen_seq", "C27_zero_weight_aborts"],
      "The projection itself is proved for every clustering and labelling. The surrounding step aborts when clusters "
      "of total weight 0 were set aside as free.")
claim("C50", "partial", ["C50_partial", "C50_false"],
      "Proved for positive weights and fewer than 2^31 nets. A vertex without nets and of weight 0 gets no label; C105 says exactly which vertices get none.")
claim("C01", "proved", ["C01_read_general", "C01_repeated_entry", "C01_declared_nonzeros"],
      "From the extracted numbers of each line. Entries may be in any order and repeated; without repetitions the "
      "hypergraph is consistent. Repeated entries are stored twice.")
claim("C02", "proved", ["C02_read_symmetric", "C02_mirror", "C02_mirror_nodup"], "")
claim("C03", "partial", ["C03_partial", "C03_false", "C03_false_general", "C03_false_symmetric",
      "C03_false_rectangular", "C03_par_column_zero_dropped", "C03_par_row_out_of_bounds"],
      "False: every entry out of range leads to an access out of bounds. Other malformed input is rejected.")
claim("C04", "proved", ["C04_read_general", "C04_read_symmetric"],
      "For every distribution of the columns and nets, every delivery order, and files that have exactly the "
      "declared number of lines without repeated entries.")
claim("C41", "partial", ["C41_partial", "C41_false", "C41_unassigned"],
      "False for every k >= 1: the last round of the loop is outside the vector. The values before it are right.")
claim("C42", "partial", ["C42_partial", "C42_once", "C42_false"],
      "The body and its blocks are right for the true offsets; computing the offsets is undefined (C41).")
claim("C48", "proved", ["C48_written", "C48_never", "C48_bounds", "C48_returns", "C48_read_back"],
      "Also: it returns when the stream draws every cell again and again, and the file is read back correctly.")
claim("C39", "partial", ["C39_partial", "C39_group", "C39_false", "C39_group_false", "C39_empty_net"],
      "False: the code compares vertex ids, so every net with two different pins on a processor is set aside. "
      "Proved: exactly which nets are set aside; every cut net is among them, nets with one pin never are.")
claim("C40", "partial", ["C40_partial", "C40_lists_lost", "C40_false"],
      "Every net comes back with pins and cost, every vertex keeps id, weight and part. False for the vertex-side "
      "lists: they lose exactly the nets that were set aside.")
claim("C37", "partial", ["C37_exact", "C37_rounded", "C37_partial", "C37_false"],
      "On one processor, for every k >= 2 and recursion tree. In exact arithmetic the bound is (1+eps)W/k. In "
      "double arithmetic every part is within the computed maxweight, which can exceed (1+eps)W/k by a factor "
      "1 + 2^-50 (C37_false gives a double eps for which it does).")
claim("C38", "partial", ["C38_partial", "C38_total", "C38_two", "C38_one", "C38_false"],
      "On one processor, both metrics. Every run assigns parts in [0,k) and loses nothing, or converts a NaN to long. "
      "The latter never happens for k = 2 or when both sides of each split get enough vertices; it always happens for "
      "one vertex and k >= 4. For k = 1 no part is assigned.")
claim("C49", "partial", ["C49_lambda", "C49_two", "C49_eight", "C49_partial", "C49_false"],
      "Holds for the lambda metric for every p and k. False for the cut-net metric: four processors and nine parts. "
      "Proved for the cut-net metric for at most eight parts (every p and split), for two processors with one on each side, and for p = 2^a halved at every split "
      "with k a multiple of p.")
claim("C44", "partial", ["C44_rejections_agree_partial", "C44_arrival_false", "C44_undo_false"],
      "Every processor computes the same result if all processors see the moves of equal key in the same order "
      "(for example when the keys are distinct). False in general: with equal gains the order of arrival decides "
      "(C44_arrival_false), and the moves undone are the last ones found, not the ones counted as rejected "
      "(C44_undo_false).")
claim("C45", "proved", ["C45_init_previous_C", "C45_update_C"],
      "For every distributed hypergraph, net owner map, fair delivery and set of local changes.")
claim("C51", "partial", ["C51_refine_par_partial", "C51_refine_par_slack", "C51_ub_stale_gains", "C51_ub_empty_net"],
      "Everything is proved for every run that does not access an array out of bounds, and no other failure is "
      "possible. When the bounds cannot be exceeded and all local nets have pins there is no such access, and the "
      "reported weights are the true ones. Two concrete inputs with an out of bounds access are proved.")
claim("C52", "partial", ["C52_gains_exact_partial", "C52_round_counts", "C51_ub_stale_gains"],
      "Counts and bounds hold in every reachable state. The gains are exact when either part may hold all the weight or one processor starts within its bounds; "
      "after rejections they are not.")
claim("C53", "proved", ["C53_ends"],
      "With explicit bounds on the loops; a disagreement between processors is a separate failure in the model.")
claim("C46", "proved", ["C46_redistribute"],
      "For every distributed hypergraph with nonnegative weights, every number of processors on the low side and "
      "every message order.")
claim("C54", "partial", ["C46_separated", "C46_separated_code", "C54_load", "C46_not_separated", "C46_zero_weight"],
      "Proved for vertices of positive weight when the maximum local weights leave room, which the computed ones do as "
      "long as both sides have a processor. False when the number of processors of the high side is rounded to zero, "
      "and for vertices of weight zero.")
claim("C55", "partial", ["C55_range", "C55_both_partial", "C55_false"],
      "The range holds. A side gets a processor when its share of the weight is at least 1/(2p); two splits within the "
      "bounds are given for which a side gets none.")
claim("C47", "proved", ["C47_coarsen_par", "C47_coarsen_from", "C47_empty_processor"],
      "For every run in which the sampling does not stop the program. With random sampling a processor without "
      "vertices does stop it (C47_empty_processor).")
claim("C56", "partial", ["C56_uncoarsen_par", "C56_step_partial"],
      "The labels, cut and weights before the refinement are proved in full. For the whole step the alternative is an "
      "access out of bounds in KLFM_par, which C51_ub_stale_gains shows to be possible; it is excluded when either part "
      "may hold all the weight and every local net has a pin.")
claim("C57", "partial", ["C57_replicate_partial", "C57_costs", "C57_cost_false", "C57_size_false"],
      "Vertices, weights, nets and pins are proved. False for the costs (reset to 1 for the nets the processor has "
      "itself) and the global sizes (0 for the others, so that their scaled cost is negative).")
claim("C58", "proved", ["C58_choose_best"],
      "For nets of cost 1, the only ones that reach this point because copying a hypergraph resets the costs.")
claim("C59", "partial", ["C59_levels_partial", "C59_false"],
      "Every run ends in one of three ways: as claimed; with an access out of bounds in KLFM_par, excluded when either "
      "part may hold all the weight; or, only with random sampling, stopped because a processor has no vertices, which does happen (C59_false).")
claim("C60", "partial", ["C60_partial", "C60_false"],
      "As C59: proved for every run that does not end in one of the two failures. Vertices of weight zero and 2^31 nets are excluded.")
claim("C61", "partial", ["C61_partial", "C61_code_partial", "C61_two", "C61_one_processor", "C61_false"],
      "Proved for every run that does not convert a not-a-number to long (a group or side without weight, C61_false) and in which the bisection does not fail as in C59; C61_two has no exception for k = 2. Excluded: total weight 2^53 or more, more than 2^50 processors, vertices of weight zero. The cut-net metric is C77.")

claim('C62','proved',['C62_balance','C62_multilevel_false'],'Relative to the bisections staying within their bounds, which multilevel bisection on several processors need not do (C62_multilevel_false). Assumes W <= k*maxweight (necessary for the conclusion), k*maxweight + W < 2^47, relative rounding error 2^-53 and exact integers below 2^53.')
claim('C63','partial',['C63_partial','C63_empty','C63_false'],'Holds for groups with three or four labels. False with five or more: redistribute_hypergraph counts earlier finished vertices as unfinished, they get labels of other parts, and no vertex ends up with a label of the low side (C63_empty, C63_false).')

claim('C64','proved',['C64_load_balance','C64_bound','C64_distributed','C64_no_parts'],'Each operation rounds with relative error u <= 1/1000. With k = 0 the past-the-end element is read (C64_no_parts); with total weight 0 the value is not a number.')
claim('C65','proved',['C65_check_maps','C65_consistent','C65_entry_outside'],'An entry of the vertex map that points outside stops the program in the assertion of local_id instead of being reported (C65_entry_outside).')
claim('C66','proved',['C66_check_C','C66_silent_iff_exact','C66_distributed','C66_too_long','C66_too_short'],'For vectors with one entry per net. A longer one is an access out of bounds (C66_too_long), missing entries of a shorter one are not noticed (C66_too_short).')

claim('C67','proved',['C67_parse','C67_parse_distributed','C67_read_general','C67_read_symmetric','C67_read_distributed','C67_read_distributed_symmetric','C67_no_file'],'Sizes at most max_size() of the vectors; on several processors fewer than 2^32 entries (the loop counter has 32 bits). Failures of the device and of memory allocation are not modelled.')
claim('C68','partial',['C68_partial_header','C68_partial_missing','C68_bad_line','C68_no_sizes','C68_long_comment','C68_empty_line','C68_truncated','C68_truncated_false'],'Reported: a header with fewer than five words, a line on which one of the two numbers is missing (by several processors only when it is among the announced lines), and missing entries on several processors when the last line ends with a newline. False: sizes missing or behind a comment line of more than 2048 characters (used uninitialised), an empty last line (reported by the sequential reader only), missing entries when the last line has no newline (the last entry is read again).')
claim('C69','proved',['C69_written','C69_read_back'],'nz below 2^32, as in C67.')

claim('C70','partial',['C70_partial','C70_code_partial','C70_two','C70_balance','C70_weights','C70_false'],'Everything up to the output is proved for every run in which the partitioning does not fail as in C61; with k = 2 and random bisection it never fails (C70_two). Writing the partitioning is always an access out of bounds (C41), so no run ends normally (C70_false). The settings are C101; timing is not modelled; the log is C96.')

claim('C71','partial',['C71_written','C71_same_syncs','C71_false'],'Proved for all interleavings when all files open, for any given offsets (C41). False when a file cannot be opened: on two or more processors the numbers of synchronizations are equal exactly when all files open (C71_same_syncs), so that otherwise processors wait for ever.')
claim('C72','proved',['C72_greedy','C72_exact','C72_copy_false'],'For any arithmetic whose comparison is a strict weak order and whose division shrinks; C72_exact is the case of exact numbers, with no condition left. The stored global sizes are not always the true ones: C72_copy_false shows that on the copies made for the initial partitioning (C57) two vertices that share a net are not matched because the stored size is 0.')
claim('C73','proved',['C73_best','sortNth_largest'],'For any arithmetic whose comparison is a strict weak order and any result of nth_element that satisfies its specification (sortNth_largest shows that there is one). Costs and global sizes are those stored on the processor of the vertex.')
claim('C74','proved',['C74_pass','C74_make_balanced','C74_KLFM'],'The rule by which the part is picked is part of the specification (PartRule) and is stated as the code has it; that it is not the intended one is C75.')
claim('C75','partial',['C75_partial','C75_full_part','C75_false','C75_pass_misses'],'Proved when both parts have more room than any vertex needs. False in general: part_next compares the weight of the vertex with the room in the part it is in, not in the part it would move to. While a part is full, the vertices of the other part are therefore proposed and locked one after the other (C75_full_part); C75_pass_misses is a pass that misses an improvement for this reason.')
claim('C76','proved',['C76_label_propagation','C76_bisect','C76_settled','C76_bisect_settled'],'For any shuffle that permutes. Which of several labels with the most links is taken depends on the random stream and is left open.')

claim('C77','partial',['C77_partial','C77_code_partial','C77_one_processor','C77_two','C77_added','C77_false','C77_lost_step'],'Proved for every run that ends normally; the parts are restored up to the lists of nets of the vertices, which stay incomplete for nets whose pins have not moved (C40). Other outcomes: undefined behaviour (as in C61, or a net without pins left behind whose first pin is read: C77_false), failures of the bisection as in C59, and with nine parts or more on several processors the processors lose step (C77_lost_step; never with at most eight parts). With two parts on several processors no net is set aside and the result is that of the lambda metric (C77_two). Excluded: total weight 2^53 or more, more than 2^50 processors, vertices of weight zero.')

claim('C78','partial',['C78_search','C78_pass_partial','C78_KLFM_par_partial','C78_false'],'The searches of the first round are proved for all weight bounds. The rounds, passes and the whole refinement are proved when no processor has a net without pins and either part may hold all the weight or one processor starts within its bounds, so that nothing is rejected. False after a rejection: the gains of the neighbours of a rejected vertex are not corrected (C78_false).')

claim('C79','partial',['C79_partial','C79_code_partial','C79_two','C79_weights','C79_false'],'Everything up to the output is proved for every run in which the recursion does not fail as in C77; with two parts on several processors the only failures are those of the bisection (C79_two). Writing the partitioning is always an access out of bounds (C41), so no run ends normally (C79_false). The settings are C101; timing is not modelled; the log is C96.')
claim('C80','partial',['C80_partial','C80_false'],'Proved for positive vertex weights and fewer than 2^31 nets (with weight zero the free vertices are lost, C50_false). C80_false shows that the exception is needed: three pairs are contracted to three free vertices that do not fit, and the refinement then cuts a net.')
claim('C81','partial',['C81_weights','C81_global_weights','C81_load_balance','C81_cutsize','C81_partial','C81_distributed_partial','C81_three_billion','C81_overflow','C81_false'],'Sums and cuts are safe when the totals fit. False for assign_free_vertices, which multiplies weights by bounds (and for load_balance, which multiplies by k): proved when these products fit, for example when the total weight and the bounds are at most 3 * 10^9 (C81_three_billion); beyond that the placement overflows (C81_overflow, C81_false).')
claim('C82','proved',['C82_exact','C82_double','C82_rounded','C82_room_needed'],'Exact arithmetic and double arithmetic (the latter for k M L^3 at most 2^46). C82_room_needed: without slack a random bisection exceeds the bound.')
claim('C83','proved',['C83_multilevel','C83_KLFM','C83_bisect','C83_exact','C83_double','C83_room_needed'],'On one processor. C83_room_needed: bounds that add up to the weight are not enough.')
claim('C84','partial',['C84_partial','C84_bounds_false'],'Proved whenever the bisection does not fail as in C59 and C60, that is, with bounds that can hold all the weight and label propagation sampling it holds always. C60_false is a failure. Excluded: vertices of weight zero and 2^31 or more nets. The final bisection need not respect the bounds even if the one chosen on the coarsest level does (C84_bounds_false).')
claim('C85','partial',['C85_bisect','C85_two','C85_false'],'Proved when on every processor the local weight and one more vertex fit in its shares of the bounds. False when only the total leaves room: with all vertices on one processor a part exceeds maxweight (C85_false). For more than two parts see C92.')
claim('C86','proved',['C86_one','C86_printed','C86_cut','C86_cut_printed'],'Columns of positive weight (which excludes empty columns in degree mode), k B L^3 at most 2^46 with B = maxweight and L the logarithm of k. With the cut-net metric (C86_cut) the order in which a processor receives its own messages may depend on the messages, not on the time. Up to the reports: writing the file is C41, which fails.')
claim('C87','proved',['C87_sum','C87_nets','C87_cutsize'],'Vertices of positive weight; runs that end normally (a run can end in a conversion of a NaN to long, C38_false). The bisections and their costs are given by an inductive relation on the states of the recursion.')
claim('C88','partial',['C88_partial','C88_blind','C88_false'],'Holds for two parts (C88_partial). False for three or more: after the first bisection every net with two or more pins is set aside, cut or not (C39), so all later bisections cost 0 whatever they do (C88_blind), and the nets they do cut are not accounted for (C88_false: costs 0, 0, 0 and cut-net value 7).')
claim('C89','proved',['C89_two','C89_printed','C89_unit','C89_cut'],'Columns of positive weight; 2 B + W below 2^47. C89_unit is for weights one and the block partitioning of bulk. The main program up to the reports, before the file with the result is written (C41).')
claim('C90','proved',['C90_cutsize','C90_distributed','C90_merge','C90_rename','C90_merge_distributed'],'Costs nonnegative, except for C90_rename.')
claim('C91','partial',['C91_nets_partial','C91_partial','C91_small_partial','C91_false'],'Proved net by net when no group with five or more labels leaves its low side without processors and none with three or more leaves its high side without processors, so always for two and three parts. Without the second condition the sum is an upper bound, so always for four parts. False in general (C91_false): vertices that already have their final label are taken for unfinished and labelled again, separately in two groups, so a net is cut without any bisection cutting it. The vertices left out by C91_false are those of C63_false.')
claim('C92','proved',['C92_rounds','C92_random','C92_cost'],'Slack at least k (R + 1) max(1, 2 (ceil(log2 k) - 1)) / 2 with R at least 2 eta maxweight + 2 p + p^2 om, where om bounds the weight of a vertex, and slack times L (L + 1) at most 2 k (maxweight - 1); k maxweight L^3 at most 2^46. With the default eta = 0.1 these two can hold together only for k at most 4; the example is such a case. C92_rounds is for every bisection function that balances. C92_cost: the conditions of C91 hold.')
claim('C93','proved',['C93_main','C93_printed','C93_unit'],'Columns of positive weight; the conditions on the slack are those of C92. C93_unit is for weights one and the block partitioning of bulk. The main program up to the reports, before the file with the result is written (C41).')
claim('C94','partial',['C94_base','C94_directory','C94_not_input','C94_partial','C94_false'],'Names of fewer than 2^64 - 1 characters (C94_partial has no such condition). False for input files of the same name in different directories (C94_false). The names are compared as texts: links and other ways to name one file are not modelled.')
claim('C95','proved',['C95_printed','C95_unique'],'Ids are not negative.')
claim('C96','proved',['C96_percent','C96_log','C96_false'],'%d with a 64-bit argument is modelled as on the usual 64-bit platforms, where it prints the low 32 bits; it is true exactly for numbers that fit in 32 bits (C96_percent), and the bound is needed (C96_false). The texts of the load balance and the time are parameters. The program gets to the log only after writing the file, which fails (C41).')
claim('C97','proved',['C97_loop','C97_never','C97_int','C97_int_overflow','C97_update_map_nets'],'The loops are modelled with an arbitrary body; in the rest of the model they are loops over lists, which is what C97_loop gives for fewer than 2^32 elements. Only update_map_nets is connected to its model definition.')

claim('C98','proved',['C98_single'],'Weights not negative, nets on the processor not empty. The bounds need not add up to more than the total weight.')
claim('C99','partial',['C99_equal_partial','C99_arrival_false','C99_weights_false'],'Proved when all vertices weigh the same, the start is within the bounds and all processors bring the same proposals into the same order. False when the order of proposals of equal gain differs, even if all vertices weigh 1 (C99_arrival_false), and when weights differ, even if the order is the same (C99_weights_false). The run can leave a bucket array (C51_ub_stale_gains).')
claim('C100','proved',['C100_merged','C100_few'],'For every list of accepted matches of local vertices, without repetition, to samples that exist. That the parallel coarsening calls the function with such lists is part of the proof of C47.')
claim('C101','proved',['C101_settings','C101_missing','C101_overrules','C101_mode','C101_again','C101_defaults','C101_ranges_false'],'What the library CLI11 does is assumed as in its documentation (Model/Settings.lean); floating-point texts and the existence of files are parameters. The ranges that the README gives are not checked (C101_ranges_false). The defaults that the README lists for p and sample_size (4, 10000) are not those of tools/defaults.toml (C101_defaults: 32, 5000).')
claim('C102','proved',['C102_refine','C102_pass','C102_overflow','C102_overflow_others','C102_mark'],'Every signed operation of the 64-bit model stops when the result does not fit. The numbers of pins and the positions in lists are not checked; the memory for the buckets (twice the largest cost of a vertex) is not limited.')
claim('C103','proved',['C103_check_gains','C103_silent_iff','C103_silent','C103_printed','C103_unique','C103_reach_printed'],'The messages of check_gains are lists of numbers, the print is a text. The elements of a bucket come in the order of the model; in the code this order is that of an unordered set.')
claim('C104','proved',['C104_random','C104_initial','C104_coarsen','C104_multilevel','C104_bisect','C104_overflow','C104_overflow_steps','C104_mark'],'Every signed sum, difference and product of weights, costs and cuts in the 64-bit model stops when the result does not fit. Doubles (scores, entropy) and numbers of vertices and pins are not limited. Vertices of weight zero are excluded as in C50.')
claim('C105','proved',['C105_zero_weights','C105_all','C105_two'],'Fewer than 2^31 nets, as in C50. C105_two is the recursion with two parts and the connectivity metric. Forgetting is exact: a forgotten vertex keeps its part, every other vertex gets a label.')
claim('C106','proved',['C106_lost','C106_reports'],'Two parts, connectivity metric, fewer than 2^31 rows. The two theorems cover all matrices with at least one entry; without entries the total weight is zero and the recursion converts a NaN (C38).')
claim('C107','proved',['C107_recursion','C107_random','C107_overflow'],'epsilon is not negative; two parts or more. Labels, positions and numbers of parts are not limited. Vertices of weight zero are excluded as in C104.')
claim('C108','proved',['C108_cutsize','C108_load_balance','C108_main','C108_cut','C108_overflow','C108_main_overflow'],'C108_main (connectivity) and C108_cut (cut-net) are about one processor, with no column of weight zero. Numbers of parts, pins and labels are not limited.')
claim('C109','proved',['C109_refine_par64','C109_refine_par64_slack','C109_overflow'],'C109_refine_par64 is about runs that succeed with unlimited numbers (see C51 for those that do not); the slack theorem has no such assumption. Counts of pins are not limited.')
claim('C110','proved',['C110_coarsen_par64','C110_multilevel_par64','C110_multilevel_par64_slack','C110_random_par64','C110_moderate','C110_cut_size','C110_overflow','C110_overflow_steps'],'C110_multilevel_par64 is about runs that succeed with unlimited numbers (see C60 for those that do not); the slack theorem has no such assumption. C110_moderate puts the limits in round numbers.')
claim('C111','proved',['C111_recursion_par64','C111_random_par64','C111_one_processor','C111_overflow','C111_overflow_steps'],'About runs that succeed with unlimited numbers; C61 says when they do not.')
claim('C112','proved',['C112_main','C112_random_two','C112_unread','C112_one_processor','C112_overflow'],'About runs that succeed with unlimited numbers; C70 says when they do not. Writing the output file, which is undefined in any case (C41), is left out.')
claim('C113','proved',['C113_recursion_cut64','C113_random_cut64','C113_main','C113_random_two','C113_unread','C113_one_processor','C113_main_one_processor','C113_one_part','C113_overflow'],'About runs that succeed with unlimited numbers; C77 and C79 say when they do not. Numbers of splits and positions are not limited. Writing the output file, which is undefined in any case (C41), is left out.')
