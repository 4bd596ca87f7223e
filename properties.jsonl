{"id": "C01", "title": "Reading a general matrix gives exactly its incidence structure", "statement": "Reading a Matrix Market \"general\" file whose entries are in range yields a hypergraph with one vertex per column and one net per non-empty row, where column v is in net e exactly when the file lists entry (e,v); with weights \"one\" every weight is 1, with \"degree\" it is the number of entries in the column; the net-side and vertex-side lists describe the same relation.", "quantifier": "every list of in-range entries, every matrix size, both weight modes", "why_tests_cant": "the set of matrices is unbounded; a test only checks the size of a handful of files", "anchors": ["src/hypergraph/readhypergraph.cpp: read_hypergraph_istream(std::istream&, std::string)"]}
{"id": "C02", "title": "Reading a symmetric matrix mirrors off-diagonal entries once", "statement": "For a \"symmetric\" file each off-diagonal entry contributes both (e,v) and (v,e), each diagonal entry contributes itself once, and the reported number of nonzeros equals the number of incidences stored.", "quantifier": "every list of in-range entries of a square symmetric file", "why_tests_cant": "needs every mix of diagonal and off-diagonal entries", "anchors": ["src/hypergraph/readhypergraph.cpp: read_hypergraph_istream (symmetric branch)", "include/hypergraph/hypergraph.hpp: nr_nz"]}
{"id": "C03", "title": "Malformed matrix entries are rejected, never written out of bounds", "statement": "A file with an entry whose row or column is 0 or larger than the declared size makes the reader report failure instead of performing an out-of-bounds access.", "quantifier": "every file with at least one out-of-range entry", "why_tests_cant": "a test shows one bad file; the out-of-bounds write may go unnoticed at run time", "anchors": ["src/hypergraph/readhypergraph.cpp: nets_list[v - 1].push_back, vertex_list[e - 1].push_back"]}
{"id": "C04", "title": "Distributed reading is a partition of sequential reading", "statement": "When p processors read the same well-formed file, every column is on exactly one processor, each processor holds exactly the entries of its own columns with the same weights as sequential reading, and the union over processors of the stored entries is the sequential hypergraph.", "quantifier": "every well-formed file, every p, every block distribution, both symmetries", "why_tests_cant": "p and the matrix are unbounded", "anchors": ["src/hypergraph/readhypergraph.cpp: read_hypergraph_istream(std::istream&, bulk::world&, std::string)"]}
{"id": "C05", "title": "Id-to-position maps stay exact under every history of container operations", "statement": "After any sequence of adding vertices, adding nets, removing nets and removing free vertices, looking up a present id returns the position that holds it, and an absent id is reported as not local.", "quantifier": "every starting hypergraph and every finite sequence of operations", "why_tests_cant": "histories are unbounded; swap-with-last removal errors appear only for particular interleavings", "anchors": ["src/hypergraph/hypergraph.cpp: add_vertex, add_net, remove_net_by_index, remove_free_vertex, update_map", "include/hypergraph/hypergraph.hpp: local_id, local_id_net, is_local"]}
{"id": "C06", "title": "Removing a net or a vertex never touches memory past the end of the list", "statement": "remove_net_by_index and remove_free_vertex only read elements that exist, for every valid index, including the last one.", "quantifier": "every hypergraph and every valid index", "why_tests_cant": "reading the just-destroyed last element gives the right bytes on common compilers so tests pass", "anchors": ["src/hypergraph/hypergraph.cpp: remove_net_by_index, remove_free_vertex"]}
{"id": "C07", "title": "remove_free_nets removes exactly the small nets and keeps incidence consistent", "statement": "remove_free_nets(H, s) removes exactly the nets with at most s vertices, leaves every other net with its vertices and cost, removes the deleted nets from all vertex lists and nothing else, whatever order the hash set iterates in, and sets the recorded global size of the survivors.", "quantifier": "every consistent hypergraph, every threshold, every iteration order", "why_tests_cant": "the hash-set iteration order is unspecified; tests see one order", "anchors": ["src/hypergraph/hypergraph.cpp: remove_free_nets(hypergraph&, size_t)"]}
{"id": "C08", "title": "Part weights are exact and add up", "statement": "weight_part(i), weight_all_parts(k) and total_weight() equal the sums of the weights of the vertices concerned; if every vertex has a part in [0,k) the part weights sum to the total; the distributed versions equal the sums over all processors; a vertex without a part makes weight_all_parts access out of bounds.", "quantifier": "every hypergraph, every k, every number of processors", "why_tests_cant": "sums over arbitrary vertex lists", "anchors": ["src/hypergraph/hypergraph.cpp: total_weight, weight_part, weight_all_parts, global_weight_parts, global_weight"]}
{"id": "C09", "title": "Sequential cutsize is the defined metric", "statement": "cutsize(H, cut_net) is the sum of costs of nets whose vertices lie in more than one part; cutsize(H, lambda_minus_one) is the sum of cost times (number of parts minus one); for bisections both equal cutsize(H, C) when C holds the counts of H.", "quantifier": "every consistent hypergraph and every labelling", "why_tests_cant": "unbounded inputs", "anchors": ["src/hypergraph/hypergraph.cpp: cutsize(hypergraph&, m), cutsize(hypergraph&, C), init_counts"]}
{"id": "C10", "title": "Distributed cutsize equals the cutsize of the whole hypergraph", "statement": "For a hypergraph distributed over p processors, cutsize(world, H, metric) on every processor equals the metric evaluated on the union of the local hypergraphs, whatever order messages arrive in.", "quantifier": "every p, every distribution of vertices, every message order, both metrics", "why_tests_cant": "message arrival order is a runtime schedule; tests see few", "anchors": ["src/hypergraph/hypergraph.cpp: cutsize(bulk::world&, hypergraph&, m)"]}
{"id": "C11", "title": "Net counts are exact, locally and globally", "statement": "init_counts(H) gives for each net the number of its pins in parts 0 and 1; init_counts(world, H) gives for every local net the counts over all processors, whatever the message order.", "quantifier": "every hypergraph bisected into parts 0/1, every p and distribution", "why_tests_cant": "unbounded inputs and schedules", "anchors": ["src/hypergraph/hypergraph.cpp: init_counts(hypergraph&), init_counts(bulk::world&, hypergraph&)"]}
{"id": "C12", "title": "Global net sizes are the sums of local sizes", "statement": "global_net_sizes(world, H) returns on every processor, for each local net, the sum over processors of its local size, whatever the message order, and stores it in the nets.", "quantifier": "every p, every distribution, every message order", "why_tests_cant": "schedules", "anchors": ["src/hypergraph/hypergraph.cpp: global_net_sizes"]}
{"id": "C13", "title": "sort_vertices_on_part sorts each net on part and only permutes it", "statement": "With exact counts, sort_vertices_on_part leaves in every net the same vertices, all those of part 0 before all those of part 1, without reading outside the list.", "quantifier": "every net, every 0/1 labelling", "why_tests_cant": "the in-place two-pointer loop has boundary cases for every arrangement", "anchors": ["src/hypergraph/hypergraph.cpp: sort_vertices_on_part"]}
{"id": "C14", "title": "Moving a vertex flips its part and keeps counts and order exact", "statement": "move(id, C) flips the part of exactly that vertex, keeps every net sorted on part, keeps C equal to the exact counts and never reads outside a list; moving the same vertex twice restores all parts and counts.", "quantifier": "every consistent, sorted bisected hypergraph and every vertex; every sequence of moves", "why_tests_cant": "unbounded histories", "anchors": ["src/hypergraph/hypergraph.cpp: move_sorted, move"]}
{"id": "C15", "title": "Gain buckets behave as an exact max-priority structure", "statement": "After set-up and any sequence of inserts and removes with in-range gains, next() returns an element with the largest gain present, gain_next() that gain, and next() returns -1 exactly when nothing is present; using a freshly constructed bucket object without set_max_present reads out of bounds.", "quantifier": "every operation history, every hash iteration order", "why_tests_cant": "the max/min cursors are lazily maintained, so errors depend on history", "anchors": ["src/multilevel_bisect/KLFM/gain_buckets.cpp: insert, remove, next, gain_next, find_next_index", "include/multilevel_bisect/KLFM/gain_buckets.hpp: gain_buckets constructor"]}
{"id": "C16", "title": "Stored gains equal the true change of the cut after any history", "statement": "During refinement, after any sequence of moves and removals, the stored gain of each vertex not yet moved or removed equals the decrease of the cutsize if it alone were moved, and the vertex proposed next has the largest gain of its part.", "quantifier": "every hypergraph with non-negative costs and distinct pins, every starting bisection, every sequence of moves and removals", "why_tests_cant": "incremental gain updates must be right for every combination of counts and orders", "anchors": ["src/multilevel_bisect/KLFM/gain_buckets.cpp: gain_structure::init_, move, remove, add_gain, next, gain_next"]}
{"id": "C17", "title": "A refinement pass reports the true cutsize and never worsens it", "statement": "KLFM_pass and KLFM, started from the exact cutsize, return exactly the cutsize of the partition they leave in H, which is at most the starting cutsize (for KLFM: when it starts balanced); the counts C are exact on return; all parts stay 0/1 and nothing but parts and pin order changes.", "quantifier": "every hypergraph, bisection, option setting, random stream and hash order", "why_tests_cant": "roll-back must match the best prefix for every history of moves", "anchors": ["src/multilevel_bisect/KLFM/KLFM.cpp: KLFM, KLFM_pass"]}
{"id": "C18", "title": "Refinement respects the balance bounds", "statement": "If both parts are within their maximum weight when KLFM or KLFM_pass starts, they are on return, and the tracked weights equal the real part weights.", "quantifier": "every hypergraph with any weights, every bound, random stream and hash order", "why_tests_cant": "unbounded", "anchors": ["src/multilevel_bisect/KLFM/KLFM.cpp: KLFM_pass, KLFM"]}
{"id": "C19", "title": "make_balanced never overfills the other part and keeps the cut exact", "statement": "make_balanced only moves weight out of the overweight part, never takes the other part over its bound if it was within it, returns the exact cutsize, and on return either the overweight part is within bounds or each of its remaining vertices was too heavy for the other part when tried.", "quantifier": "every hypergraph and weights", "why_tests_cant": "unbounded", "anchors": ["src/multilevel_bisect/KLFM/KLFM.cpp: make_balanced"]}
{"id": "C20", "title": "Refinement terminates", "statement": "Every KLFM pass ends after at most as many iterations as there are vertices, make_balanced likewise, and KLFM after at most KLFM_max_passes passes.", "quantifier": "every input, random stream and hash order", "why_tests_cant": "non-termination cannot be observed by a test", "anchors": ["src/multilevel_bisect/KLFM/KLFM.cpp: while loops of KLFM_pass, make_balanced, KLFM"]}
{"id": "C21", "title": "label_propagation_bisect returns a bisection with exact counts and respects room", "statement": "It returns a 0/1 label per vertex, leaves in C the exact counts of these labels, and, if after the random start both labels are within bounds, both are within bounds on return; with unit weights and bounds that sum to at least the total weight, both labels are always within bounds.", "quantifier": "every hypergraph, bounds, iteration limit, random stream and shuffle", "why_tests_cant": "random streams are unbounded", "anchors": ["src/multilevel_bisect/label_propagation.cpp: label_propagation_bisect"]}
{"id": "C22", "title": "label_propagation never empties a label and stays in range", "statement": "Every returned label is in [0,l), and each label used by the random start is still used on return when min_size is at least 1.", "quantifier": "every hypergraph, l >= 1, iteration limit, random stream and shuffle", "why_tests_cant": "random streams are unbounded", "anchors": ["src/multilevel_bisect/label_propagation.cpp: label_propagation"]}
{"id": "C23", "title": "initial_partitioning keeps the best balanced round", "statement": "The labelling left in H has cutsize equal to the returned value; if any of the ten rounds ended balanced then the result is balanced and has the smallest cutsize among balanced rounds.", "quantifier": "every hypergraph, bounds, options, random stream", "why_tests_cant": "the selection rule combines cut and imbalance over ten random rounds", "anchors": ["src/multilevel_bisect/initial_partitioning.cpp: initial_partitioning"]}
{"id": "C24", "title": "sample_random returns the requested number of distinct valid indices", "statement": "sample_random(H, ns) returns exactly min(ns, |V|) strictly increasing indices below |V|, for every random stream, and stops.", "quantifier": "every size, ns and random stream", "why_tests_cant": "a sequential-sampling loop that must be forced at the end for every stream", "anchors": ["src/multilevel_bisect/sample.cpp: sample_random"]}
{"id": "C25", "title": "sample_lp returns distinct valid indices, at most one per label", "statement": "sample_lp returns strictly increasing indices below |V|, at most one per label and at most sample_size of them.", "quantifier": "every hypergraph, random stream", "why_tests_cant": "random streams", "anchors": ["src/multilevel_bisect/sample.cpp: sample_lp"]}
{"id": "C26", "title": "Sequential coarsening is a star clustering that conserves weight", "statement": "Every vertex of H is either a vertex of the coarse hypergraph (possibly set aside as free) or matched to exactly one such vertex, no cluster has more than max_clustersize matched vertices, and total weight of the coarse hypergraph plus set-aside weight equals the weight of H.", "quantifier": "every hypergraph, random visiting order, any floating-point scores", "why_tests_cant": "visiting orders and score ties are unbounded", "anchors": ["src/multilevel_bisect/coarsen.cpp: coarsen_hypergraph_seq, contract_hypergraph (sequential), add_v_to_list"]}
{"id": "C27", "title": "Uncoarsening preserves cutsize and part weights", "statement": "Projecting any 0/1 labelling of the coarse hypergraph back to H gives every vertex the label of its cluster, the same cutsize and the same part weights.", "quantifier": "every clustering and every labelling", "why_tests_cant": "unbounded", "anchors": ["src/multilevel_bisect/uncoarsen.cpp: uncoarsen_hypergraph (sequential)", "src/multilevel_bisect/coarsen.cpp: contract_hypergraph"]}
{"id": "C28", "title": "Free vertices set aside are all restored", "statement": "After merge_free_vertices and assign_free_vertices every vertex that was set aside is back in the hypergraph with its weight and part 0 or 1.", "quantifier": "every hypergraph, bounds and random stream", "why_tests_cant": "the zero-weight early exit is reachable only for special weights", "anchors": ["src/hypergraph/contraction.cpp: merge_free_vertices, assign_free_vertices, remove_free_vertices_"]}
{"id": "C29", "title": "Greedy placement of free vertices reports true weights and only overflows when it must", "statement": "assign_free_vertices returns the true part weights of the resulting hypergraph, and takes a part over its bound only with a vertex that fitted in neither part.", "quantifier": "every hypergraph, bounds, weights and random stream", "why_tests_cant": "unbounded", "anchors": ["src/hypergraph/contraction.cpp: assign_free_vertices_, assign_free_vertices"]}
{"id": "C30", "title": "Parallel placement of free vertices reports the true global weights", "statement": "The parallel assign_free_vertices returns on every processor the same weights, equal to the true global part weights afterwards, and restores all free vertices of all processors.", "quantifier": "every p, distribution of free weight and bounds", "why_tests_cant": "the split processor depends on all local weights", "anchors": ["src/hypergraph/contraction.cpp: assign_free_vertices(bulk::world&,...)"]}
{"id": "C31", "title": "Simplifying duplicate nets preserves the cutsize of every partition", "statement": "For every labelling, the cutsize (either metric) after simplify_duplicate_nets equals the cutsize before.", "quantifier": "every hypergraph and labelling", "why_tests_cant": "unbounded", "anchors": ["src/hypergraph/hypergraph.cpp: simplify_duplicate_nets, remove_duplicate_net"]}
{"id": "C32", "title": "reset_duplicate_nets undoes simplification, and may be called again safely", "statement": "Simplify followed by reset restores the nets, costs and incidences (up to order); calling reset again changes nothing.", "quantifier": "every hypergraph with duplicate nets", "why_tests_cant": "unbounded; the repeated call is never tested", "anchors": ["src/hypergraph/hypergraph.cpp: reset_duplicate_nets, add_local_net"]}
{"id": "C33", "title": "Copying a hypergraph preserves it", "statement": "The copy constructor yields the same vertices, nets, incidences, net costs and cutsize.", "quantifier": "every hypergraph", "why_tests_cant": "tests only use unit costs", "anchors": ["include/hypergraph/hypergraph.hpp: hypergraph(const hypergraph&)"]}
{"id": "C34", "title": "create_new_hypergraph is the restriction to the range", "statement": "It contains exactly the vertices at positions start..end-1 and exactly the nets with at least two pins among them, restricted to them, with their costs.", "quantifier": "every hypergraph and range", "why_tests_cant": "unbounded", "anchors": ["src/hypergraph/hypergraph.cpp: create_new_hypergraph"]}
{"id": "C35", "title": "bisect_random labels the range and reports true weights", "statement": "Every vertex in the range gets label low or high, no other vertex changes, the returned weights are the true weights of the two labels in the range, and with unit weights and bounds summing to at least the number of vertices both are within bounds.", "quantifier": "every hypergraph, range, bounds and random stream", "why_tests_cant": "random streams", "anchors": ["src/bisect.cpp: bisect_random"]}
{"id": "C36", "title": "reorder_hypergraph partitions the range on label", "statement": "After reorder_hypergraph the range [start,end) holds exactly the vertices with the low label and [end, old end) exactly those with the high label, and lookups by id are exact.", "quantifier": "every hypergraph and 0..n high labels in the range", "why_tests_cant": "the off-by-one at the end depends on whether any high vertex exists", "anchors": ["src/recursive_bisection.cpp: reorder_hypergraph"]}
{"id": "C37", "title": "Weight bounds given to nested bisections imply the global bound", "statement": "If each bisection in the recursion respects the bounds handed to it, every final part weighs at most (1+eps)W/k.", "quantifier": "every k, weights and recursion tree", "why_tests_cant": "the bound is a product over the recursion tree", "anchors": ["src/recursive_bisection.cpp: compute_max_global_weight, recursive_bisect"]}
{"id": "C38", "title": "recursive_bisect gives every vertex a part in [0,k)", "statement": "After recursive_bisect each vertex has a part in [0,k) and no vertex, weight or id is lost.", "quantifier": "every hypergraph, k and random stream", "why_tests_cant": "unbounded recursion", "anchors": ["src/recursive_bisection.cpp: recursive_bisect"]}
{"id": "C39", "title": "remove_cut_nets removes only nets that are cut", "statement": "With the cut-net metric only nets whose pins lie in different parts are set aside.", "quantifier": "every hypergraph and labelling", "why_tests_cant": "tests do not look at which nets are set aside", "anchors": ["src/recursive_bisection.cpp: remove_cut_nets"]}
{"id": "C40", "title": "Setting cut nets aside and adding them back restores the hypergraph", "statement": "remove_cut_nets followed by add_cut_nets restores every net and every vertex-side net list.", "quantifier": "every hypergraph", "why_tests_cant": "tests only compare numbers of nets", "anchors": ["src/recursive_bisection.cpp: remove_cut_nets, add_cut_nets"]}
{"id": "C41", "title": "start_parts returns the part offsets", "statement": "start_parts(world,H,k) returns k+1 values, the i-th being the number of entries in parts below i, and stays within its vector.", "quantifier": "every k >= 1, distribution and labelling", "why_tests_cant": "the out-of-bounds write lands in spare capacity in tests", "anchors": ["src/util/write_partitioning.cpp: start_parts"]}
{"id": "C42", "title": "The written partitioning lists each entry once, in the block of its part", "statement": "The body of the file lists each (net, vertex) incidence exactly once and lines Kstart[i]..Kstart[i+1]-1 are exactly those whose vertex is in part i, for any number of processors.", "quantifier": "every labelling in [0,k), every p and distribution", "why_tests_cant": "unbounded", "anchors": ["src/util/write_partitioning.cpp: partitioning_to_file"]}
{"id": "C43", "title": "owner_min returns a processor holding the minimum", "statement": "owner_min returns on every processor the same processor index, and that processor holds the minimum value (the last one if several do).", "quantifier": "every p and every vector of values", "why_tests_cant": "unbounded", "anchors": ["include/algorithm.hpp: owner_min"]}
{"id": "C44", "title": "All processors agree on which moves are rejected, and the bounds hold afterwards", "statement": "reject_unbalanced_moves computes the same rejection counts and the same new weights on every processor, and the weights it reports are those obtained by undoing the moves the processors then actually undo.", "quantifier": "every set of proposed moves, every message order, every p", "why_tests_cant": "message order is a schedule", "anchors": ["src/multilevel_bisect/KLFM/KLFM_parallel.cpp: reject_unbalanced_moves, KLFM_pass_par (reversal loop)"]}
{"id": "C45", "title": "Owners of nets keep exact global counts and cutsizes", "statement": "update_C makes the owner count of each net equal to the true global count after all local moves, and the running cutsize of the owned nets equal to the recomputed one, in any message order.", "quantifier": "every set of local changes, message order, p", "why_tests_cant": "message order is a schedule", "anchors": ["src/multilevel_bisect/KLFM/KLFM_parallel.cpp: update_C, init_previous_C"]}
{"id": "C46", "title": "Redistribution neither loses nor duplicates vertices", "statement": "reduce_surplus and redistribute_hypergraph conserve the multiset of vertices over all processors, only send vertices with the given label, and never scan past the end of the list.", "quantifier": "every p, surplus vector, labelling and weights", "why_tests_cant": "unbounded", "anchors": ["src/recursive_bisection.cpp: reduce_surplus, redistribute_hypergraph"]}
{"id": "C47", "title": "Parallel matching assigns each vertex to at most one sample", "statement": "In a parallel coarsening round each non-sample vertex is matched to at most one sample, samples are never matched, a sample receives at most max_clustersize matches, and total weight is conserved.", "quantifier": "every p, distribution, samples, scores, message orders", "why_tests_cant": "message order and floating-point ties", "anchors": ["src/multilevel_bisect/coarsen.cpp: request_matches, send_information_matches, contract_hypergraph (parallel)"]}
{"id": "C48", "title": "create_random_hypergraph writes exactly nz distinct in-range entries", "statement": "When it returns, the file has exactly nz entries, all distinct and in range; if nz exceeds n*m it never returns.", "quantifier": "every n, m, nz and random stream", "why_tests_cant": "non-termination and random streams", "anchors": ["src/util/random_hypergraph.cpp: create_random_hypergraph"]}
{"id": "C49", "title": "All processors perform the same number of world synchronizations", "statement": "During recursive_bisect every processor executes the same number of synchronizations on the full world.", "quantifier": "every p, k and metric", "why_tests_cant": "a mismatch shows as a deadlock for specific p and k only", "anchors": ["src/recursive_bisection.cpp: recursive_bisect, remove_cut_nets, add_cut_nets"]}
{"id": "C50", "title": "A sequential multilevel bisection labels its whole range and reports true weights", "statement": "With one processor bisect_multilevel gives every vertex in the range the low or the high label, changes no other vertex, and returns the true weights of both labels.", "quantifier": "every hypergraph, range, bounds, options, random stream", "why_tests_cant": "composes all phases over unbounded inputs", "anchors": ["src/bisect.cpp: bisect_multilevel"]}
{"id": "C51", "title": "The parallel refinement returns the true cut, counts and weights, never a worse cut", "statement": "KLFM_par returns on every processor the same cut, equal to the true cut of the whole hypergraph and at most the cut it started with; the vertices, nets and weights are unchanged apart from parts, every part is 0 or 1, the counts are the true counts, and the reported weights add up to the total weight. It never accesses an array out of bounds.", "quantifier": "every distributed hypergraph, p, options, message order, random stream", "why_tests_cant": "schedule dependent and unbounded", "anchors": ["src/multilevel_bisect/KLFM/KLFM_parallel.cpp: KLFM_par, KLFM_pass_par"]}
{"id": "C52", "title": "During a parallel pass counts and gains stay exact", "statement": "After every round of a parallel pass each processor has the exact counts of its nets in the whole hypergraph, reported weights within the bounds, and stored gains equal to the drop of the cut of the whole hypergraph.", "quantifier": "every state reachable by any number of rounds, every message order", "why_tests_cant": "concerns intermediate states of a distributed computation", "anchors": ["src/multilevel_bisect/KLFM/KLFM_parallel.cpp: KLFM_pass_par, find_top_moves, update_C", "src/multilevel_bisect/KLFM/gain_buckets.cpp: GainStructure::add_gain, remove"]}
{"id": "C53", "title": "The parallel refinement ends and its processors agree on when", "statement": "find_top_moves ends, a pass has at most one round more than there are vertices, and all processors leave the loops over rounds and passes together.", "quantifier": "every distributed hypergraph, p, options, message order", "why_tests_cant": "non-termination and deadlock under particular schedules", "anchors": ["src/multilevel_bisect/KLFM/KLFM_parallel.cpp: KLFM_par, KLFM_pass_par, find_top_moves"]}
{"id": "C54", "title": "After a redistribution each side is on its own processors, with a bounded load", "statement": "After redistribute_hypergraph all vertices with the low label are on the first p_low processors and all with the high label on the others; each processor holds at most the maximum local weight plus one vertex too many per sender.", "quantifier": "every distributed hypergraph, p, p_low, labelling, weights, message order, rounding", "why_tests_cant": "unbounded; the excess depends on the order in which senders walk around the ring", "anchors": ["src/recursive_bisection.cpp: reduce_surplus, redistribute_hypergraph"]}
{"id": "C55", "title": "Both sides of a parallel split get a processor", "statement": "The number of processors for the low side lies between 0 and p, and a side that still has to be divided gets at least one processor.", "quantifier": "every pair of weights within the bounds of compute_max_global_weight, every p, floating-point rounding", "why_tests_cant": "floating-point rounding at particular ratios", "anchors": ["src/recursive_bisection.cpp: recursive_bisect"]}
{"id": "C56", "title": "Parallel uncoarsening carries the coarse bisection over without changing its cut or weights", "statement": "After assign_free_vertices and uncoarsen_hypergraph on several processors every vertex has the label of its cluster, wherever the sample of the cluster is stored; cutsize (both metrics) and part weights are those of the coarse bisection. After uncoarsen_hypergraph_par the returned cut is the true cut and at most the coarse one.", "quantifier": "every distributed hypergraph with positive weights, p, clustering made by the parallel coarsening, coarse bisection, message order, random stream", "why_tests_cant": "clusters that cross processors and the message orders are unbounded", "anchors": ["src/multilevel_bisect/uncoarsen.cpp: uncoarsen_hypergraph_par, uncoarsen_hypergraph", "src/hypergraph/contraction.cpp: assign_free_vertices"]}
{"id": "C57", "title": "Every processor gets a complete copy of the coarse hypergraph", "statement": "After the exchange of vertices and net costs each processor holds every vertex of the whole hypergraph once, with its weight and nets, and every net with all its pins, its cost and its global size.", "quantifier": "every distributed hypergraph, p, message order", "why_tests_cant": "all distributions and message orders", "anchors": ["src/bisect.cpp: bisect_multilevel", "src/hypergraph/hypergraph.cpp: add_net, add_vertex, add_to_nets"]}
{"id": "C58", "title": "The best bisection found by any processor is the one that all processors continue with", "statement": "After the initial bisections all processors hold the labels of one of them; the union of their hypergraphs has its cut and part weights; it is within the weight bounds if any of the bisections is, and then no other bisection within the bounds has a smaller cut.", "quantifier": "every distributed hypergraph with nets of cost 1, p, bisections, bounds, message order", "why_tests_cant": "agreement between processors for all inputs and message orders", "anchors": ["src/bisect.cpp: bisect_multilevel", "include/algorithm.hpp: owner_min"]}
{"id": "C59", "title": "The processors go through the levels together and end with the true cut", "statement": "In the parallel part of bisect_multilevel all processors take the same number of coarsening rounds; after the initial bisection and the uncoarsening of all levels they hold a bisection of the hypergraph they started with, and all have its true cutsize.", "quantifier": "every distributed hypergraph with positive weights and nets of cost 1, p, number of levels, options, random streams, message orders", "why_tests_cant": "depends on agreement of all processors over an unbounded number of levels", "anchors": ["src/bisect.cpp: bisect_multilevel", "src/multilevel_bisect/coarsen.cpp: coarsen_hypergraph_par", "src/multilevel_bisect/uncoarsen.cpp: uncoarsen_hypergraph_par"]}
{"id": "C60", "title": "Parallel multilevel bisection labels exactly the range", "statement": "On several processors bisect_multilevel gives every vertex in the given range of every processor the low or the high label, changes nothing else, and returns on each processor the true weights of both labels there.", "quantifier": "every distributed hypergraph with positive weights, p, ranges, labels, weight bounds, options, random streams, message orders", "why_tests_cant": "end-to-end statement over all distributed inputs", "anchors": ["src/bisect.cpp: bisect_multilevel", "src/hypergraph/hypergraph.cpp: create_new_hypergraph"]}
{"id": "C61", "title": "The parallel recursion gives every vertex a part in [0, k) and loses nothing", "statement": "After recursive_bisect on p processors with the lambda metric every vertex has a part in [0, k); no vertex, net or pin is lost or duplicated over the processors; vertex weights and net costs are kept; the processors of a group always take the same branch.", "quantifier": "every k >= 2, p, distributed hypergraph with positive weights, load imbalance eta >= 0, bisection function that labels its range, random streams, message orders", "why_tests_cant": "end-to-end statement over all distributed inputs and every sequence of processor splits", "anchors": ["src/recursive_bisection.cpp: recursive_bisect", "src/recursive_bisection.cpp: redistribute_hypergraph", "src/bisect.cpp: bisect"]}
{"id": "C62", "title": "Every part of the parallel recursion is within the maximum weight", "statement": "When every bisection of recursive_bisect on p processors with the lambda metric stays within the bounds given to it, the total weight of every part over all processors is at most maxweight, hence at most (1+epsilon)W/k up to rounding, also when one side of a bisection gets no processors.", "quantifier": "every k >= 2, p, distributed hypergraph with positive weights, epsilon, eta >= 0, bisection function, random streams, message orders, rounding with relative error 2^-53", "why_tests_cant": "floating-point rounding through nested bounds and every sequence of processor splits", "anchors": ["src/recursive_bisection.cpp:63-147", "src/recursive_bisection.cpp:150-189", "src/recursive_bisection.cpp:201-218", "src/recursive_bisection.cpp:226-285"]}
{"id": "C63", "title": "Vertices of a side without processors keep their label", "statement": "When a group of processors gives no processors to the low side of a bisection (p_low = 0), the vertices of that side are finished: the part with the lowest label keeps their weight to the end.", "quantifier": "every k >= 2, p, distributed hypergraph with positive weights, bisection function, random streams, message orders", "why_tests_cant": "needs a rare distribution of weights over the processors and a later redistribution", "anchors": ["src/recursive_bisection.cpp:85-90", "src/recursive_bisection.cpp:127-133", "src/recursive_bisection.cpp:251-285"]}
{"id": "C64", "title": "load_balance reports the true imbalance", "statement": "load_balance returns the weight of the heaviest part times k divided by the total weight, minus one, up to rounding; so (in exact arithmetic) it is at most eps exactly when every part weighs at most (1+eps)W/k. On several processors all return the value of the whole hypergraph and the consistency message is never printed.", "quantifier": "every hypergraph of positive total weight with labels below k, every k >= 1, every p and distribution", "why_tests_cant": "the value is only reported, a wrong formula changes nothing else", "anchors": ["src/hypergraph/hypergraph.cpp:377-406"]}
{"id": "C65", "title": "check_maps is silent exactly on correct id maps", "statement": "check_maps prints nothing exactly when the id maps lead every vertex, net, net of a vertex and pin of a net to the object with that id; in particular it prints nothing for every consistent hypergraph.", "quantifier": "every hypergraph, consistent or not", "why_tests_cant": "the checker itself is used as a test; it is only run on correct states", "anchors": ["src/hypergraph/hypergraph.cpp:248-277"]}
{"id": "C66", "title": "check_C names exactly the wrong counters", "statement": "With one entry per net, check_C prints a message for exactly the counters that differ from the number of pins of the net in that part, and it prints nothing exactly when all are right; on several processors with respect to the pins of the whole hypergraph.", "quantifier": "every consistent bipartitioned hypergraph, every candidate count vector, every p and message order", "why_tests_cant": "the checker itself is used as a test; it is only run on correct states", "anchors": ["src/multilevel_bisect/KLFM/KLFM.cpp:147-157", "src/multilevel_bisect/KLFM/KLFM_parallel.cpp:543-555"]}
{"id": "C67", "title": "The characters of a Matrix Market file are read correctly", "statement": "For every text that consists of a header line with five words, comment lines of fewer than 2048 characters, a line with the three sizes and one line per entry (with arbitrary blanks, leading zeros, values behind the entries, carriage returns, with or without a last newline) the sequential reader builds the hypergraph of the matrix, and when the announced number of entries is right the processors together read the same.", "quantifier": "every such text, every p, both symmetries, both weight modes", "why_tests_cant": "texts are unbounded; tests use a few well-behaved files", "anchors": ["src/hypergraph/readhypergraph.cpp:25-60", "src/hypergraph/readhypergraph.cpp:116-195", "src/hypergraph/readhypergraph.cpp:224-241"]}
{"id": "C68", "title": "A damaged file is reported, by one processor and by several alike", "statement": "A file whose header is incomplete, that ends before the sizes, that has too few entries or an empty line, is reported as a failure (nullopt) by both readers; no uninitialised value is used and no entry is invented.", "quantifier": "every text", "why_tests_cant": "damaged files are not in the test set, and uninitialised values may look harmless", "anchors": ["src/hypergraph/readhypergraph.cpp:30-52", "src/hypergraph/readhypergraph.cpp:125-175"]}
{"id": "C69", "title": "A generated file is read back character by character", "statement": "The characters written by create_random_hypergraph form a Matrix Market file with the nz different entries drawn, and reading them gives, on one processor and on several, the consistent hypergraph with exactly these incidences.", "quantifier": "every n, m, nz below the sizes of the types, every random stream, every p", "why_tests_cant": "unbounded", "anchors": ["src/util/random_hypergraph.cpp:12-35", "src/hypergraph/readhypergraph.cpp:25-222"]}
{"id": "C70", "title": "The main program reports the true cut and imbalance of a partitioning of the matrix in the file", "statement": "For every Matrix Market file of an E x V matrix the main program with the lambda metric gives every column a label in [0, k), holds exactly the matrix of the file afterwards, prints as cut the sum over the rows of (number of labels in the row - 1) and as load balance the imbalance of these labels up to rounding, and writes the partitioning.", "quantifier": "every such file, k >= 2, p, epsilon, eta >= 0, weight mode, options, random streams, message orders", "why_tests_cant": "end-to-end statement over all files and runs; the composition of reading, copying, partitioning, reporting and writing", "anchors": ["tools/PMondriaan.cpp:103-155", "src/hypergraph/readhypergraph.cpp:116-241", "src/recursive_bisection.cpp:24-147", "src/hypergraph/hypergraph.cpp:377-406", "src/hypergraph/contraction.cpp: cutsize"]}
{"id": "C71", "title": "The processors take turns in writing the partitioning", "statement": "In partitioning_to_file no two processors use the file between the same two synchronizations, all processors synchronize equally often, also when a file cannot be opened, and when all files open the characters of the file are the header and the entries in the order of the parts, whatever the interleaving of the processors.", "quantifier": "every k, p, distributed hypergraph, labelling, interleaving of the processors, and every set of files that fail to open", "why_tests_cant": "needs all interleavings of the processors and failures of the file system", "anchors": ["src/util/write_partitioning.cpp:18-55"]}
{"id": "C72", "title": "Sequential matching is greedy on the scaled inner product", "statement": "In coarsen_hypergraph_seq the vertices are visited in the shuffled order; a vertex that nobody has joined yet joins the cluster of a vertex with the largest positive scaled inner product (the sum of cost over stored global size minus one of the nets they share, divided by the smaller degree) among the vertices that share a net with it, have not joined another cluster and have room; it stays exactly when there is none or it has been joined; the recorded clusters are these choices.", "quantifier": "every consistent hypergraph, cluster size, visiting order, hash order and arithmetic whose comparison is a strict weak order and whose division shrinks", "why_tests_cant": "the accumulators are reused between vertices and positions can be listed twice, so errors depend on the history", "anchors": ["src/multilevel_bisect/coarsen.cpp:321-379"]}
{"id": "C73", "title": "The parallel matching pairs vertices with their best samples and samples with their best vertices", "statement": "In coarsen_hypergraph_par every vertex that is no sample asks for a sample with the largest positive scaled inner product among all samples of all processors, and every sample is matched with vertices that asked for it only: with all of them, or with coarsening_max_clustersize of them such that none left out has a larger inner product than one taken.", "quantifier": "every p, distributed hypergraph, choice of local samples, options, message order, iteration order of the sets, result of nth_element", "why_tests_cant": "the selection is made twice (by the asking processor and by the owner), with ties and rounding; a wrong selection still gives a valid coarsening", "anchors": ["src/multilevel_bisect/coarsen.cpp:82-183"]}
{"id": "C74", "title": "A refinement pass moves greedily and keeps the best bisection it saw", "statement": "Every step of KLFM_pass takes a vertex with the largest true gain among the unlocked vertices of the part picked, moves it exactly when it fits into the other part, and locks it. The pass ends when all vertices are locked or after KLFM_max_no_gain_moves moves in a row that are worse than the best, never earlier or later. What it leaves behind is the latest of the bisections with the smallest cut among all it went through. KLFM unloads a part that is too heavy (best vertices first) and then makes passes, at most KLFM_max_passes, until one does not lower the cut.", "quantifier": "every hypergraph, starting bisection, limits, options, random stream and hash order", "why_tests_cant": "a pass that forgets the best state, rolls back too far or stops early still returns a valid bisection with a consistent cut value", "anchors": ["src/multilevel_bisect/KLFM/KLFM.cpp:21-144", "src/multilevel_bisect/KLFM/gain_buckets.cpp:107-131"]}
{"id": "C75", "title": "part_next picks the part with the best vertex that can move", "statement": "If the best vertex of one part fits into the other part and the best vertex of the other part does not fit or has a smaller gain, part_next picks the part of the former.", "quantifier": "every reachable state of the gain structure, room in the two parts and random stream", "why_tests_cant": "a wrong choice only costs quality: the vertex is locked instead of moved, and nothing is reported", "anchors": ["src/multilevel_bisect/KLFM/gain_buckets.cpp:107-131", "src/multilevel_bisect/KLFM/KLFM.cpp:80-104"]}
{"id": "C76", "title": "Label propagation gives every vertex the label it has the most links to, until nothing changes", "statement": "Both label propagations start from the labels drawn (in the bisection the other label when the one drawn has no room) and make at most max_iter sweeps over all vertices. A visited vertex takes a label shared by the largest number of other pins of its nets; in label_propagation only if its own label has more than min_size vertices, in the bisection only if the label has room. The sweeps end after one that changed nothing; then every vertex has a label with the most links, apart from these two exceptions.", "quantifier": "every hypergraph, number of labels, bounds, iteration limit, random stream and shuffle", "why_tests_cant": "counts are updated incrementally over all sweeps; a wrong count still gives valid labels", "anchors": ["src/multilevel_bisect/label_propagation.cpp:13-167"]}
{"id": "C77", "title": "With the cut-net metric the parallel recursion loses no vertex, net or pin", "statement": "recursive_bisect with the cut-net metric ends with every vertex on exactly one processor with its weight and a part in [0, k), and with every net restored: the same pins, each on the processor of its vertex, and the same cost, although nets were set aside and vertices moved between processors in between. add_cut_nets sends every pin to the processor of its vertex and puts the net into the list of a vertex that has moved.", "quantifier": "every number of processors, k, distributed hypergraph with positive weights, random streams and delivery orders", "why_tests_cant": "depends on which nets are set aside in which round and on where their pins move; the removal in one group is seen by all others", "anchors": ["src/recursive_bisection.cpp:26-199", "src/recursive_bisection.cpp:378-481"]}
{"id": "C78", "title": "The parallel refinement moves greedily and keeps the best bisection after a round", "statement": "In a round of KLFM_pass_par every processor searches for at most KLFM_par_send_moves moves: each is a vertex with the largest true gain (the drop of the cut of the whole hypergraph, the other processors standing still) among its unlocked vertices of the part picked, it is moved exactly when its gain is not negative and it fits into the other part, and the search ends at the first negative gain, when all vertices are locked or when the room for moves is used up. Then all moves of all processors are made. A processor is done when it finds no move or has no unlocked vertex; the pass ends when all are done, and it leaves behind the latest of the bisections with the smallest cut among those after the rounds. KLFM_par makes at most KLFM_max_passes passes, until one does not lower the cut.", "quantifier": "every number of processors, distributed hypergraph, starting bisection, options, random streams and delivery orders", "why_tests_cant": "a pass that loses the best state, ends early or proposes poor moves still returns a valid bisection with a consistent cut value", "anchors": ["src/multilevel_bisect/KLFM/KLFM_parallel.cpp:80-250", "src/multilevel_bisect/KLFM/KLFM_parallel.cpp:354-398"]}
{"id": "C79", "title": "With the cut-net metric the main program reports the number of split rows", "statement": "For every Matrix Market file of an E x V matrix the main program with the cut-net metric gives every column a label in [0, k), holds every column once with its weight and the pins of every row of the file afterwards, prints as cut the number of rows with more than one label and as load balance the imbalance of these labels up to rounding, and writes the partitioning.", "quantifier": "every such file, k >= 2, p, epsilon, eta >= 0, weight mode, options, random streams, message orders", "why_tests_cant": "end-to-end statement; nets are set aside and restored on other processors during the run, and the report is computed from what was restored", "anchors": ["tools/PMondriaan.cpp:103-155", "src/hypergraph/readhypergraph.cpp:116-241", "src/recursive_bisection.cpp:26-199", "src/recursive_bisection.cpp:378-481", "src/hypergraph/hypergraph.cpp:377-406", "src/hypergraph/contraction.cpp: cutsize"]}
{"id": "C80", "title": "The bisection of the coarsest hypergraph gets no worse on the way up", "statement": "On one processor bisect_multilevel coarsens while more than coarsening_nrvertices vertices and rounds are left, and bisects the coarsest hypergraph. If that bisection is within both bounds, then the bisection returned is within both bounds and cuts at most as many nets, unless a connected component of the range weighs more than the bounds together leave over and was contracted to a single vertex (so it has one vertex, or at most (max_clustersize + 1)^j vertices after j rounds, and is not the whole range when max_clustersize < coarsening_nrvertices).", "quantifier": "every hypergraph, range, bounds, labels, options, random stream, scores and iteration orders; any number of levels", "why_tests_cant": "the levels interact through matching, simplification of nets, free vertices and refinement; the exception needs a component that is contracted completely", "anchors": ["src/bisect.cpp:84-341", "src/multilevel_bisect/coarsen.cpp: coarsen_hypergraph_seq", "src/multilevel_bisect/uncoarsen.cpp: uncoarsen_hypergraph_seq", "src/multilevel_bisect/contraction.cpp: assign_free_vertices"]}
{"id": "C81", "title": "Sums and products of weights and costs fit in 64 bits", "statement": "When no weight or cost is negative and the total weight fits in a long, total_weight, weight_all_parts, global_weight_parts, load_balance, cutsize and assign_free_vertices (on one and on several processors) compute the same as with unbounded numbers: no signed overflow, no wrap-around.", "quantifier": "every hypergraph, any number of processors and parts, any bounds, free vertices, orders and random streams", "why_tests_cant": "overflow needs billions of nonzeros, far beyond any test matrix; the products of two weights overflow long before the sums do", "anchors": ["src/hypergraph/hypergraph.cpp: total_weight, weight_all_parts, global_weight_parts, load_balance, cutsize", "src/hypergraph/contraction.cpp:33-118", "src/hypergraph/contraction.cpp:146-176"]}
{"id": "C82", "title": "With enough slack random recursive bisection always balances", "statement": "On one processor with random bisection, let M be maxweight, W the total weight, om the largest weight of a vertex and L the logarithm of k rounded up. If k M - W is at least k om max(1, 2(L-1))/2 and (k M - W) L (L+1) < 2 k M, then recursive_bisect ends without undefined behaviour for every random stream, gives every vertex a part and leaves no part heavier than M. In double arithmetic the same holds with slightly larger margins.", "quantifier": "every hypergraph, k, epsilon, both metrics and every random stream; any rounding within 2^-53", "why_tests_cant": "the slack shrinks at every level of the recursion and depends on the random weights of all the earlier splits", "anchors": ["src/recursive_bisection.cpp: recursive_bisect, compute_max_global_weight", "src/bisect.cpp: bisect_random"]}
{"id": "C83", "title": "Bisection on one processor restores the balance whenever one more vertex would fit", "statement": "If both bounds are nonnegative and together leave over at least the weight of the heaviest vertex in the range, less one, then multilevel bisection (and KLFM from any start) ends with both parts within their bounds, however the coarse hypergraphs were bisected. Hence C82 holds for both bisection modes.", "quantifier": "every hypergraph with positive weights and fewer than 2^31 nets, range, bounds, options, random stream, scores and iteration orders; any number of levels", "why_tests_cant": "clusters of the coarse levels do not fit, so the balance is lost and regained on the way up, on paths that depend on the random numbers", "anchors": ["src/multilevel_bisect/KLFM/KLFM.cpp: KLFM, make_balanced", "src/bisect.cpp:84-341", "src/multilevel_bisect/uncoarsen.cpp: uncoarsen_hypergraph_seq", "src/recursive_bisection.cpp: recursive_bisect"]}
{"id": "C84", "title": "On several processors the bisection chosen on the coarsest level gets no worse on the way up", "statement": "bisect_multilevel on several processors coarsens in parallel until the hypergraph is small enough, the rounds are used up or a round removes too few vertices; every processor bisects a copy of the coarsest hypergraph and the best of these bisections is chosen (within the bounds when one of them is, and then with the smallest cut among those). The labels given in the end to the vertices in the ranges cut at most as many nets as the chosen bisection.", "quantifier": "any number of processors, every distribution, ranges, bounds, labels, options, random streams, message orders; any number of levels", "why_tests_cant": "the nets of the ranges are spread over the processors and change at every level; no function computes the cut of the ranges", "anchors": ["src/bisect.cpp:84-341", "src/multilevel_bisect/coarsen.cpp: coarsen_hypergraph_par", "src/multilevel_bisect/uncoarsen.cpp: uncoarsen_hypergraph_par", "src/multilevel_bisect/KLFM/KLFM_parallel.cpp: KLFM_par"]}
{"id": "C85", "title": "Random bisection on several processors respects the bounds", "statement": "bisect on several processors with random bisection gives every processor an equal share of the two bounds. When there is room for one more vertex, the weights of both sides over all processors are within the bounds, and with two parts every part weighs at most maxweight.", "quantifier": "any number of processors, every distribution, ranges, bounds, random streams, rounding to the nearest double", "why_tests_cant": "depends on the distribution of the load and on every random stream", "anchors": ["src/bisect.cpp:27-82", "src/recursive_bisection.cpp: recursive_bisect"]}
{"id": "C86", "title": "With enough slack the main program on one processor computes a balanced partitioning", "statement": "On one processor, when epsilon leaves room for the heaviest column at every level of the recursion, the main program gets through reading, copying, recursive bisection and the reports: every part weighs at most maxweight, the cut size and load balance reported are the true ones, and the load balance printed is at most epsilon up to rounding.", "quantifier": "every file of a matrix, number of parts, both metrics, random and multilevel bisection, all options and random streams, rounding to the nearest double", "why_tests_cant": "involves the whole program on matrices of any size and every random stream", "anchors": ["tools/PMondriaan.cpp:103-155", "src/recursive_bisection.cpp: recursive_bisect", "src/bisect.cpp: bisect"]}
{"id": "C87", "title": "The cut size of the result is the sum of the cuts of the bisections", "statement": "With the lambda metric on one processor the recursion makes k - 1 bisections, and the lambda-1 value of the result is the sum over the bisections of the total cost of the nets that have, among the vertices of the range bisected, some on both sides.", "quantifier": "every hypergraph with positive weights, k at least 2, bisection function that labels its range, random stream, run that ends normally", "why_tests_cant": "no function of the code adds up the cuts of the bisections; involves runs of any length", "anchors": ["src/recursive_bisection.cpp: recursive_bisect"]}
{"id": "C88", "title": "The bisections made for the cut-net metric account for the cut-net value", "statement": "With the cut-net metric on one processor a net is set aside during the recursion only after a bisection has cut it, so the cut-net value of the result is the sum of the costs of the bisections.", "quantifier": "every hypergraph with positive weights and no empty nets, k at least 2, bisection function that labels its range, random stream, run that ends normally", "why_tests_cant": "no function of the code adds up the cuts of the bisections; involves runs of any length", "anchors": ["src/recursive_bisection.cpp: recursive_bisect", "src/recursive_bisection.cpp: remove_cut_nets"]}
{"id": "C89", "title": "Random bisection of a matrix into two parts on several processors is balanced when the blocks leave room", "statement": "With random bisection into two parts, for both metrics, the main program on any number of processors gets through reading, copying, partitioning and the reports. When the columns of every block that a processor reads, and one more column, fit in its shares of the bound, both parts weigh at most maxweight, the values reported are the true ones, and the load balance printed is at most epsilon up to rounding. With weights one it suffices that twice maxweight is at least the number of columns plus two for every processor plus one.", "quantifier": "every file of a matrix, number of processors from two, weight mode, epsilon, eta, all random streams and orders of messages, rounding to the nearest double", "why_tests_cant": "involves the whole program on matrices of any size, any number of processors and every random stream", "anchors": ["tools/PMondriaan.cpp:103-155", "src/recursive_bisection.cpp: recursive_bisect", "src/bisect.cpp:27-82"]}
{"id": "C90", "title": "The two metrics bound each other, and the names of the parts do not matter", "statement": "With nonnegative costs and parts in [0, k) the cut size that cutsize returns with the cut-net metric is nonnegative, at most the one it returns with the lambda metric, and this is at most k - 1 times the first and at most the cost of all nets when each touches as many parts as its pins and k allow. Putting parts together does not increase the cut size, giving them other names does not change it. The same holds for the values that all processors return.", "quantifier": "every consistent hypergraph, every distribution of one over any number of processors, all numbers of parts and all functions on the names of parts, all orders of messages", "why_tests_cant": "involves all hypergraphs, distributions and assignments of any size", "anchors": ["src/hypergraph/hypergraph.cpp: cutsize", "include/hypergraph/hypergraph.hpp"]}
{"id": "C91", "title": "On several processors the cut size of the result is the sum of the cuts of the bisections", "statement": "With the lambda metric on any number of processors the lambda-1 value of the result, as cutsize returns it, is the sum over the bisections, by a group of processors or by one alone, of the total cost of the nets that have, among the vertices in the ranges bisected, some on both sides.", "quantifier": "every distributed hypergraph with positive weights, number of processors, k at least 2, bisection function that labels its ranges, random streams, orders of messages, run that ends normally", "why_tests_cant": "no function of the code adds up the cuts of the bisections; involves runs of any length on any number of processors", "anchors": ["src/recursive_bisection.cpp: recursive_bisect, redistribute_hypergraph", "src/hypergraph/hypergraph.cpp: cutsize"]}
{"id": "C92", "title": "Random bisection on several processors is balanced for every number of parts when there is enough slack", "statement": "When the slack k * maxweight - W leaves room for the rounding and the imbalance that every round of redistribution can add, and no processor starts with much more than an equal share of the weight, the recursion with random bisection and the lambda metric ends for all random streams, loses nothing, and no part weighs more than maxweight over all processors.", "quantifier": "every distributed hypergraph with positive weights, number of processors at least two, k at least 2, epsilon, eta at most one, random streams, orders of messages, with slack and loads as stated", "why_tests_cant": "all random streams at once; the bounds, the number of processors of a side and the loads interact over rounds of any number; needs bounds on the rounding of doubles", "anchors": ["src/recursive_bisection.cpp: recursive_bisect, compute_max_global_weight, redistribute_hypergraph", "src/bisect.cpp: bisect_random"]}
{"id": "C93", "title": "The main program on several processors with random bisection computes a balanced partitioning when there is enough slack", "statement": "On at least two processors, with random bisection and the lambda metric, when the slack is as in C92 and no block of columns is much heavier than an equal share, the program reads the file, ends its computation for all random streams, reports the true cut size and load balance, no part weighs more than maxweight, and the printed load balance is at most epsilon up to rounding. With weights one no condition on the blocks is needed.", "quantifier": "every well-formed Matrix Market file, weight mode with positive weights, number of processors at least two, k at least 2, epsilon, eta at most one, random streams, orders of messages, with slack as stated", "why_tests_cant": "all files and all random streams at once, from the text of the file to the printed numbers", "anchors": ["tools/PMondriaan.cpp:103-155", "src/hypergraph/readhypergraph.cpp: read_hypergraph", "src/recursive_bisection.cpp: recursive_bisect", "src/hypergraph/hypergraph.cpp: load_balance"]}
{"id": "C94", "title": "Different runs of the main program write different result files", "statement": "The result is written in the directory ../tools/results, to a name that is made of the part of the name of the input file behind the last slash, the number of parts and the number of processors; it is never the input file itself, and runs with another number of parts or processors or another input file have another result file.", "quantifier": "all names of input files, numbers of parts and of processors", "why_tests_cant": "involves all pairs of names of any length; no test runs the main program", "anchors": ["tools/PMondriaan.cpp:129-134"]}
{"id": "C95", "title": "Printing a hypergraph shows its vertices and their nets and nothing is ambiguous", "statement": "print writes one line for every vertex in the stored order, with its id, a colon and the ids of its nets, and two hypergraphs print the same exactly when they have the same vertices with the same nets in the same order.", "quantifier": "every hypergraph and every pair of hypergraphs", "why_tests_cant": "involves all pairs of hypergraphs of any size", "anchors": ["src/hypergraph/hypergraph.cpp:238-246"]}
{"id": "C96", "title": "The log of the main program shows true numbers", "statement": "When the partitioning has been computed, processor 0 logs the true numbers of vertices, parts and processors, the true cut size and the true weights of the parts; the formats with 32 bits are used with numbers that fit, since the cut size is at most the number of entries.", "quantifier": "every matrix with fewer than 2^31 columns and entries, fewer than 2^31 parts, every weight mode, number of processors, result of the computation", "why_tests_cant": "involves matrices and partitionings of any size; the numbers that do not fit need more than 2^31 entries", "anchors": ["tools/PMondriaan.cpp:140-152"]}
{"id": "C97", "title": "Loops with 32-bit counters visit every element once and end", "statement": "A loop for (auto i = 0u; i < n; i++) with a bound n of 64 bits executes its body for 0, ..., n - 1 in this order and ends when n is below 2^32, and does not end otherwise unless its body stops it; a loop with an int as counter does the same below 2^31 and overflows otherwise. update_map_nets is the function of the model exactly for fewer than 2^32 nets.", "quantifier": "all bounds, all loop bodies, all states", "why_tests_cant": "needs containers with more than 2^32 elements, and all bodies", "anchors": ["src/hypergraph/hypergraph.cpp:225-230, 135, 143, 220, 306-330, 480-590", "src/multilevel_bisect/coarsen.cpp:43, 164, 251", "src/multilevel_bisect/KLFM/KLFM_parallel.cpp:111-545", "src/util/write_partitioning.cpp:34, 59, 68"]}
{"id": "C98", "title": "On one processor the parallel refinement keeps within the bounds", "statement": "KLFM_par on one processor, started on a bipartition within the bounds, ends normally, does not increase the cutsize, and reports the true weights of both parts, both within the bounds.", "quantifier": "all hypergraphs with nonnegative weights and nonempty nets, all bipartitions within the bounds, all bounds, orders of messages, outcomes of sorts and random streams", "why_tests_cant": "quantifies over all hypergraphs, bounds and schedules", "anchors": ["src/multilevel_bisect/KLFM/KLFM_parallel.cpp:20-545"]}
{"id": "C99", "title": "With equal weights the parallel refinement keeps within the bounds", "statement": "If all vertices weigh the same, KLFM_par starts within the bounds and all processors bring the same proposals into the same order, then a run that ends normally gives true weights that are within the bounds, on any number of processors.", "quantifier": "all distributed hypergraphs of equal weights, all bounds, all numbers of processors, all sorts and random streams", "why_tests_cant": "quantifies over all hypergraphs, processors and schedules", "anchors": ["src/multilevel_bisect/KLFM/KLFM_parallel.cpp:20-545"]}
{"id": "C100", "title": "One merged message per sample", "statement": "send_information_matches sends one message for every sample with which a local vertex has been matched and none for other samples, in ascending order; the message has the total weight of these vertices, each of their nets once and the costs of these nets. So a processor sends at most p times sample_size messages.", "quantifier": "all hypergraphs, all lists of accepted matches, all numbers of processors and samples", "why_tests_cant": "needs every list of matches; a missing or repeated message shows only in the weights of coarse vertices", "anchors": ["src/multilevel_bisect/coarsen.cpp:184-235"]}
{"id": "C101", "title": "Settings come from the command line, then from the file", "statement": "The program accepts its settings exactly when every option is given, on the command line or otherwise in the file with settings, with a text of the right form; every setting is what that text means and the command line overrules the file. The settings that a run writes lead to the same settings when they are read again.", "quantifier": "all command lines, all files with settings, all ways to read floating-point numbers, all sets of existing files", "why_tests_cant": "every combination of 17 options from two sources", "anchors": ["tools/PMondriaan.cpp:16-112", "include/options.hpp:5-24", "tools/defaults.toml:1-17"]}
{"id": "C102", "title": "The refinement on one processor does not overflow in 64 bits", "statement": "If weights and costs are not negative and the total weight, the total cost of the nets, the two weight bounds and the given cut are at most 2^60, then no signed sum or difference in KLFM overflows, the unsigned positions of the buckets do not wrap, no gain equals the mark of a locked vertex, and the result is that of the same computation on integers. A single net of cost 2^62 is enough for an overflow.", "quantifier": "all hypergraphs, bipartitionings, options, random streams and hash orders within these totals", "why_tests_cant": "overflow needs inputs that are too large to run, and it may go unnoticed when it happens", "anchors": ["src/multilevel_bisect/KLFM/KLFM.cpp:21-144", "src/multilevel_bisect/KLFM/gain_buckets.cpp:13-293", "include/multilevel_bisect/KLFM/gain_buckets.hpp:20-36"]}
{"id": "C103", "title": "Gain checks and printed buckets tell the truth", "statement": "When the counts are exact, check_gains names exactly the vertices that are not locked and whose stored gain is not the true change of the cut, with both numbers; it is silent after every history of moves and removals on one processor. The printed buckets determine the buckets; after every such history they show, under increasing gains, exactly the vertices of the part that are not locked, each once and under its true gain.", "quantifier": "all hypergraphs, bipartitionings, gain structures and histories", "why_tests_cant": "needs every history and every wrong gain", "anchors": ["src/multilevel_bisect/KLFM/gain_buckets.cpp:53-62", "src/multilevel_bisect/KLFM/gain_buckets.cpp:295-316"]}
{"id": "C104", "title": "The bisection on one processor does not overflow in 64 bits", "statement": "If the vertex weights are positive and the weights in the range and both weight bounds are at most 3*10^9, then no signed sum, difference or product in bisect overflows on one processor, neither with random bisection nor with the multilevel method (coarsening, label propagation, refinement, placement of free vertices), and the result is that of the same computation on integers. For the random bisection and the coarsening a total weight below 2^63 is enough, for the initial partitioning totals and bounds up to 2^60. Two weights of 2^62, or weights of 4*10^9 with bounds of 9*10^9 and one free vertex, overflow.", "quantifier": "all hypergraphs, ranges, options, random streams, shuffles and hash orders within these totals", "why_tests_cant": "overflow needs inputs that are too large to run, and it may go unnoticed when it happens", "anchors": ["src/bisect.cpp:27-79", "src/bisect.cpp:83-333", "src/multilevel_bisect/coarsen.cpp:321-434", "src/multilevel_bisect/initial_partitioning.cpp:21-75", "src/multilevel_bisect/label_propagation.cpp:87-168", "src/multilevel_bisect/uncoarsen.cpp:25-39", "src/hypergraph/contraction.cpp:33-66"]}
{"id": "C105", "title": "A multilevel bisection of columns of weight zero forgets only lone vertices", "statement": "Let the weights not be negative, and positive for vertices that have nets (degrees as weights). With one processor bisect_multilevel gives every vertex of the range the low or the high label and returns the true weights, except for the vertices that no net joins with another vertex of the range when all of these weigh zero: those keep the label they had. So with two parts, every vertex is labelled unless the vertices that are alone all weigh zero.", "quantifier": "all hypergraphs, ranges, bounds, options, random streams", "why_tests_cant": "empty columns get lost without any message, and only when no weighted vertex is alone", "anchors": ["src/bisect.cpp:84-108", "src/bisect.cpp:240-333", "src/hypergraph/contraction.cpp:15-48", "src/hypergraph/contraction.cpp:109-175"]}
{"id": "C106", "title": "With degrees as weights an empty column can make the main program access memory out of bounds", "statement": "Let the weights be degrees and let the program bisect a matrix with at least one entry on one processor with the multilevel method. If some column is empty and every column with entries shares a row with another column, the empty columns are never labelled and load_balance adds to weight_parts[-1]. In all other cases every column is labelled and the reported cut size and load balance are the true ones.", "quantifier": "all files, options, random streams, orders of sets and messages", "why_tests_cant": "nothing is reported, the write at index -1 usually goes unnoticed", "anchors": ["tools/PMondriaan.cpp:114-128", "src/bisect.cpp:84-108", "src/hypergraph/contraction.cpp:15-48", "src/hypergraph/hypergraph.cpp:377-406"]}
{"id": "C107", "title": "The recursion on one processor does not overflow in 64 bits", "statement": "If (1 + epsilon) times the total weight is below 3*10^9 (10^14 for random bisection), no sum, product or conversion of a double to long overflows anywhere in recursive_bisect on one processor, for any number of parts: the result is that of unlimited numbers. Larger values can overflow: maxweight times the number of parts although maxweight fits, or maxweight itself for a large epsilon.", "quantifier": "all consistent hypergraphs with positive weights, numbers of parts, imbalances, random streams and roundings within 2^-53", "why_tests_cant": "needs weights near 2^63 or a very large epsilon; the overflow usually goes unnoticed", "anchors": ["src/recursive_bisection.cpp:38-40", "src/recursive_bisection.cpp:150-189", "src/recursive_bisection.cpp:201-218"]}
{"id": "C108", "title": "The main program on one processor does not overflow in 64 bits", "statement": "When the cut size of the whole hypergraph fits in 64 bits, cutsize on any number of processors returns it on all of them; when the total weight times the number of parts fits, load_balance does not overflow. If (1 + epsilon) times the weight of the matrix is below 3*10^9 and k as well, the main program on one processor reads, partitions and reports the same in 64 bits as with unlimited numbers. Larger values can overflow: with the connectivity metric the cut size that is returned can be negative.", "quantifier": "all distributed hypergraphs, orders of delivery, files, options, numbers of parts, imbalances and random streams within the limits", "why_tests_cant": "needs weights or costs near 2^63, or a very large epsilon; the overflow usually goes unnoticed", "anchors": ["src/hypergraph/hypergraph.cpp:345-352", "src/hypergraph/hypergraph.cpp:388-406", "src/hypergraph/hypergraph.cpp:449-500", "tools/PMondriaan.cpp:114-128"]}
{"id": "C109", "title": "The refinement on several processors does not overflow in 64 bits", "statement": "For a properly distributed bipartitioned hypergraph with weights that are not negative, if the costs of the nets on all processors together, the bounds on the weights of the parts and (3 * number of passes + 1) times the total weight are at most 2^60, KLFM_par gives the same in 64 bits as with unlimited numbers whenever that run succeeds; it does succeed, with the right output, when either part may hold all the weight and no net is without pins. Without the limit on the weights it can overflow although all weights of parts and their bounds fit.", "quantifier": "all distributed hypergraphs, orders of delivery, outcomes of the sorts, options, numbers of processors and random streams within the limits", "why_tests_cant": "needs weights near 2^63 and several processors that move at once; the weights that are added up are of proposals that are rejected later", "anchors": ["src/multilevel_bisect/KLFM/KLFM_parallel.cpp:22-75", "src/multilevel_bisect/KLFM/KLFM_parallel.cpp:80-250", "src/multilevel_bisect/KLFM/KLFM_parallel.cpp:252-349", "src/multilevel_bisect/KLFM/KLFM_parallel.cpp:355-469", "src/multilevel_bisect/KLFM/KLFM_parallel.cpp:474-540"]}
{"id": "C110", "title": "The bisection on several processors does not overflow in 64 bits", "statement": "For a properly distributed hypergraph with positive weights and fewer than 2^31 nets, if the bounds on the weights of the parts are at most 2^60, (3 * number of passes + 1) times the total weight and the number of processors times the number of nets are at most 2^60, and the products of the bounds with each other and with the total weight are below 2^63, the multilevel bisection on several processors gives the same in 64 bits as with unlimited numbers whenever that run succeeds; the coarsening and the random bisection give the same in any case. Without the limits the coarsening, the multilevel bisection and the random bisection can overflow although all weights and bounds fit.", "quantifier": "all distributed hypergraphs, orders of delivery, outcomes of the sorts and floating-point comparisons, options, numbers of processors and random streams within the limits", "why_tests_cant": "needs weights near 2^63 on several processors; the sums that overflow are made of weights that other processors send", "anchors": ["src/multilevel_bisect/coarsen.cpp:41-68", "src/multilevel_bisect/coarsen.cpp:189-315", "src/hypergraph/contraction.cpp:15-20", "src/multilevel_bisect/uncoarsen.cpp:46-61", "src/bisect.cpp:27-51", "src/bisect.cpp:83-341"]}
{"id": "C111", "title": "Recursive bisection on several processors does not overflow in 64 bits", "statement": "For the lambda metric and a properly distributed hypergraph with positive weights and fewer than 2^31 nets: if (1 + epsilon) times the total weight is below 3 * 10^9, eta is at most 9, the refinement has at most 100 passes, and there are at most a million processors and at most 2^60 divided by the number of nets, then a run of recursive_bisect that has a result with unlimited numbers has the same result in 64 bits, whatever the number of parts, the draws and the order of the messages. With random bisection (1 + epsilon) times the total weight may be up to 10^14 on ten thousand processors with eta at most 1. Without the limits the total weight, maxweight times the number of parts and the maximum local weight of the redistribution can overflow although all weights fit.", "quantifier": "all distributed hypergraphs, orders of delivery, outcomes of the sorts and floating-point comparisons, options, numbers of processors and parts and random streams within the limits", "why_tests_cant": "needs weights near 2^63 on several processors; the overflow can happen deep in the recursion, in sums over processors that take part in the same redistribution", "anchors": ["src/recursive_bisection.cpp:26-199", "src/recursive_bisection.cpp:201-217", "src/recursive_bisection.cpp:226-354"]}
{"id": "C112", "title": "The main program on several processors does not overflow in 64 bits", "statement": "For the connectivity metric: if (1 + epsilon) times the weight of the matrix is below 3 * 10^9 and k as well, eta is at most 9, the refinement has at most 100 passes, and there are at most a million processors and at most 2^60 divided by the number of rows, then a run of the main program that reports a result with unlimited numbers reports the same labels, load balance, cut size and weights of the parts in 64 bits, and these are the true ones. With random bisection into two parts the program always reaches its report. Without the limits on epsilon and eta a matrix with four columns is enough for an overflow.", "quantifier": "all well-formed files, orders of delivery, outcomes of the sorts and floating-point comparisons, options, numbers of processors and parts and random streams within the limits", "why_tests_cant": "needs very large weights, epsilon or eta on several processors; signed overflow usually goes unnoticed", "anchors": ["tools/PMondriaan.cpp:114-140", "src/recursive_bisection.cpp:26-199", "src/hypergraph/hypergraph.cpp:388-406", "src/hypergraph/hypergraph.cpp:449-500"]}
{"id": "C113", "title": "With the cut-net metric the program on several processors does not overflow in 64 bits", "statement": "With the cut-net metric, where cut nets are set aside between the bisections and added again at the end: under the limits of C111 a run of recursive_bisect on several processors that has a result with unlimited numbers has the same result in 64 bits, and under the limits of C112 a run of the main program that reaches its report reports the same labels, load balance, cut size and weights of the parts in 64 bits, and these are the true ones. With random bisection into two parts on two processors or more the program always reaches its report. Without the limits the same numbers overflow as with the connectivity metric.", "quantifier": "all distributed hypergraphs and well-formed files, orders of delivery of vertices, costs, net ids and pins, outcomes of the sorts and floating-point comparisons, options, numbers of processors and parts and random streams within the limits", "why_tests_cant": "needs very large weights, epsilon or eta on several processors; signed overflow usually goes unnoticed", "anchors": ["src/recursive_bisection.cpp:26-199", "src/recursive_bisection.cpp:201-217", "src/recursive_bisection.cpp:226-354", "tools/PMondriaan.cpp:114-140"]}
