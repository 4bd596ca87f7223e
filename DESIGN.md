# Formal model of PMondriaan in Lean 4

The Lean project is in `lean/` (`lake build`). This file says what is modelled, how the properties of
`properties.jsonl` are stated and proved, and what is trusted. `MANIFEST.json` lists the theorems of each property and
what a partial claim leaves open. `seeded/LOG.jsonl` lists wrong programs that were tried and the theorems that noticed
them.

## Layout

| folder | content |
|---|---|
| `lean/Verif/Basic.lean` | outcome monad, vectors with checked access, loop rules |
| `lean/Verif/Model/*.lean` | the model: one Lean definition per C++ function or loop body, each citing file and lines |
| `lean/Verif/Spec/*.lean` | small independent specifications (cut metrics, part weights, counts, gains, distributions, file formats) |
| `lean/Verif/Proofs/*.lean` | helper lemmas |
| `lean/Verif/Props/*.lean` | the property theorems, with an example on which all assumptions hold beside each |
| `tools/` | scripts that write `properties.jsonl`, `MANIFEST.json`, the axioms below, and that run wrong programs |

A theorem is called `Cnn_…` after its property. `Cnn_partial` is the part of a property that holds of the code;
`Cnn_false` is a proof, by a concrete input, that the property as a whole does not.

## Conventions of the model

* A C++ function that mutates through a reference returns the new value.
* The outcome of a call is `Res α = Except Err α` with the error outcomes
  `ub` (out-of-bounds access and other undefined behaviour), `abort` (a failed
  `assert`; the default CMake build of the project does not define `NDEBUG`),
  `throw` (`unordered_map::at` on a missing key), and `fuel`
  (a loop that did not finish within the given number of iterations).
  A theorem of the form `∃ r, f x = .ok r ∧ P r` thus also says that the call is
  free of undefined behaviour, of failed assertions and terminates.
* `long`, `size_t`, `int` are unbounded `Int`/`Nat`, except where the width matters and is modelled: the `int` map
  of `simplify_duplicate_nets` (C31), `LONG_MAX` as initial cut (C17, C23, C58), the 64-bit numbers and the 32-bit loop
  counter of the readers (C67–C69), sums and products of weights and costs (C81, Model/Machine.lean), and the refinement, the bisection and the recursion on one processor (C102,
  Model/MachineKLFM.lean; C104, Model/MachineMl.lean; C107, Model/MachineRec.lean),
  the reported values and the main program on one processor (C108, Model/MachineMain.lean),
  and the refinement and the bisection on several processors (C109, Model/MachineKLFMPar.lean; C110,
  Model/MachineMlPar.lean), the recursion on several processors (C111, Model/MachineRecPar.lean),
  the main program on several processors (C112, Model/MachineMainPar.lean) and both with the cut-net metric (C113,
  Model/MachineCutPar.lean).
  64-bit overflow elsewhere (ids, positions and sizes) is not modelled.
* `std::vector` is `List`; `std::unordered_map<long,long>` is `Nat → Option Nat`
  (it is never iterated over in the code); ids are `Nat`; a part is an `Int`
  (`-1` = unassigned).
* The random generator `std::mt19937` is an arbitrary stream `Nat → Nat`: theorems
  quantify over all streams. `std::shuffle`, the iteration order of `std::unordered_set` and `std::unordered_map`,
  the order of equal elements in `std::sort`, the result of `std::nth_element` and the
  arrival order of `bulk::queue` messages are parameters constrained only by
  their contract (a permutation; a sorted permutation): theorems quantify over all of them.
* Floating point. The scores of the coarsening are uninterpreted operations on an arbitrary
  type (`ScoreOps`), so theorems hold for every rounding. The weight bounds of the
  recursion are rationals with a function `rnd` after every operation; theorems assume a relative error
  (`RoundsWithin u rnd`) and, where needed, that small integers are exact (`KeepsInts`); `nearest53` (rounding
  to 53 bits) is proved to have both. `log2` of a power of two is exact. Comparisons of random draws in `sample_random` are
  a parameter that is assumed to accept when `s_left = size` (`accRandom`).
  Conversion of a value that is not a number to `long` is `ub`.
* Loops are folds over lists or recursions with an explicit number of iterations; theorems show that the
  number given is never reached.

## Parallel code

* Programs on `p` processors are modelled superstep by superstep (Bulk is a BSP library): the state is the list of the
  local states, `world.sync()` delivers all messages sent before it, in an order given by a parameter `d : Delivery`
  that is only assumed to be a permutation (`Fair d`).
* A `coarray` put and `var.broadcast` take effect at the next `sync`, on all addressed processors including the own
  one; `bulk::sum`, `max`, `foldl_each`, `gather_all` return the same value everywhere.
* When processors must take the same branch, the model checks that they do (`agreed`) and stops with `abort` otherwise;
  the theorems show that this does not happen. Numbers of synchronizations are counted separately where
  processors can lose step (Model/SyncCount.lean, Model/WritePar.lean).
* `world.split` gives groups of processors that work independently. With the cut-net metric processors of different
  groups synchronize the full world; there a group is a program that stops at every such synchronization, the
  programs of the groups run side by side (Model/RecCutPar.lean), and the model stops with `abort` when they lose
  step (`C49_false`, `C77_lost_step`). The main program has one version for each
  metric.
* `block_partitioning` is any bijection between global indices and (processor, local index) (`NetPart.Valid`).

## What is modelled

| source | model |
|---|---|
| include/hypergraph/hypergraph.hpp, src/hypergraph/hypergraph.cpp | Hypergraph, Reduce, Bsp, Checks, Report (`print`) |
| include/hypergraph/contraction.hpp, src/hypergraph/contraction.cpp | Contraction |
| src/hypergraph/readhypergraph.cpp | Reader (from the numbers of each line), Text (from the characters) |
| include/algorithm.hpp (`owner_min`) | Bsp |
| include/util/interval.hpp, include/work_item.hpp | Recursive, RecBisect |
| src/multilevel_bisect/label_propagation.cpp, initial_partitioning.cpp, sample.cpp | LabelProp, InitPart |
| src/multilevel_bisect/coarsen.cpp | Coarsen (one processor), CoarsenPar |
| src/multilevel_bisect/uncoarsen.cpp | Coarsen (one processor), UncoarsenPar |
| src/multilevel_bisect/KLFM/gain_buckets.{hpp,cpp} | GainBuckets |
| src/multilevel_bisect/KLFM/KLFM.cpp, KLFM_parallel.cpp | KLFM, KLFMPar |
| src/bisect.cpp | Recursive (random), Multilevel (one processor), BisectPar |
| src/recursive_bisection.cpp | RecBisect (one processor, both metrics), Redistribute, RecBisectPar (lambda metric), RecCutPar (cut-net metric), SyncCount |
| src/util/write_partitioning.cpp | Writer (contents), WritePar (turns, characters, files that do not open) |
| src/util/random_hypergraph.cpp | Writer, Text (characters) |
| tools/PMondriaan.cpp:16-112, include/options.hpp, tools/defaults.toml | Settings (from names and texts; the library CLI11 is assumed to do what its documentation says) |
| tools/PMondriaan.cpp:103-155 | Main, Report (name of the result file, log) |
| weights, cut, load balance and free vertices in 64 bits | Machine |
| gain_buckets.cpp, `print` and `check_gains` | GainChecks |
| KLFM.cpp and gain_buckets.cpp in 64 bits | MachineKLFM |
| bisect.cpp, coarsen.cpp, initial_partitioning.cpp, label_propagation.cpp, uncoarsen.cpp on one processor in 64 bits | MachineMl |
| recursive_bisection.cpp:26-218 on one processor in 64 bits | MachineRec |
| hypergraph.cpp:345-352, 388-406, 449-500 and PMondriaan.cpp:114-128 on one processor in 64 bits | MachineMain |
| KLFM_parallel.cpp:22-540 in 64 bits | MachineKLFMPar |
| bisect.cpp:27-51, 83-341, coarsen.cpp:25-68, 189-315, contraction.cpp:15-20, uncoarsen.cpp:46-61 on several processors in 64 bits | MachineMlPar |
| recursive_bisection.cpp:26-354 on several processors in 64 bits, lambda metric | MachineRecPar |
| PMondriaan.cpp:114-140 on several processors in 64 bits, lambda metric, without the output file | MachineMainPar |
| recursive_bisection.cpp:26-199 and PMondriaan.cpp:114-140 (without the output file) on several processors in 64 bits, cut-net metric | MachineCutPar |
| loop counters of 32 bits | Counter |

Not modelled: CLI11 itself (the characters of the command line and of the file with settings), timers, error messages,
what `world.log` adds to a line; failures of memory allocation, of the device, and of writing to an open file; processors that fail.
`HC_list.push_back` is assumed to move the hypergraphs in it, as the implicit move constructor is `noexcept`. Streams use
the "C" locale.

## Comparison with the unit tests

`Props/UnitTests.lean` runs the unit tests of the repository that need no matrix file on the model; the model gives the
values that the tests expect. The test of `start_parts` expects values that are right before the access out of bounds of
C41. The matrix "dolphins" was also read and split by the model with five random streams, outside the build: 62 columns
and 318 entries, cut values between 27 and 31, both parts within 163, as the tests ask. These are tests of the model, no
theorem depends on them.

## Trusted base

* Lean 4.33.0's kernel, and the axioms `propext`, `Classical.choice`, `Quot.sound`.
  No axiom is added, no `sorry`, no `native_decide`, no `bv_decide`.
  Witnesses are evaluated with `decide` or `decide +kernel`, which both are checked by the kernel.
* The reading of the C++ source into the model (the code is never run), with the conventions above.
* The contracts of the C++ library and of Bulk (not in the repository) as stated above.

The axioms of the theorems of the manifest (written by `tools/mkaxioms.py`):

<!-- axioms -->
* Classical.choice, Quot.sound, propext: `C01_read_general`, `C02_mirror_nodup`, `C02_read_symmetric`, `C03_false`, `C03_false_general`, `C03_false_symmetric`, `C04_read_general`, `C04_read_symmetric`, `C07_remove_free_nets`, `C08_global_unassigned_out_of_bounds`, `C08_unassigned_out_of_bounds`, `C09_cutsize`, `C09_cutsize_counts`, `C100_few`, `C100_merged`, `C101_again`, `C101_defaults`, `C101_missing`, `C101_mode`, `C101_overrules`, `C101_ranges_false`, `C101_settings`, `C102_overflow`, `C102_pass`, `C102_refine`, `C103_check_gains`, `C103_printed`, `C103_reach_printed`, `C103_silent`, `C103_silent_iff`, `C103_unique`, `C104_bisect`, `C104_coarsen`, `C104_initial`, `C104_mark`, `C104_multilevel`, `C104_random`, `C105_all`, `C105_two`, `C105_zero_weights`, `C106_lost`, `C106_reports`, `C107_overflow`, `C107_random`, `C107_recursion`, `C108_cut`, `C108_cutsize`, `C108_load_balance`, `C108_main`, `C108_main_overflow`, `C108_overflow`, `C109_refine_par64`, `C109_refine_par64_slack`, `C10_distributed_cutsize`, `C10_equals_sequential`, `C110_coarsen_par64`, `C110_cut_size`, `C110_moderate`, `C110_multilevel_par64`, `C110_multilevel_par64_slack`, `C110_random_par64`, `C111_one_processor`, `C111_overflow`, `C111_overflow_steps`, `C111_random_par64`, `C111_recursion_par64`, `C112_main`, `C112_one_processor`, `C112_overflow`, `C112_random_two`, `C112_unread`, `C113_main`, `C113_main_one_processor`, `C113_one_part`, `C113_one_processor`, `C113_overflow`, `C113_random_cut64`, `C113_random_two`, `C113_recursion_cut64`, `C113_unread`, `C11_init_counts`, `C11_init_counts_par`, `C12_global_net_sizes`, `C13_sort_vertices_on_part`, `C14_move`, `C14_move_twice`, `C14_moves`, `C15_buckets`, `C15_fresh_query_out_of_bounds`, `C16_gains_exact`, `C16_progress`, `C17_KLFM`, `C17_KLFM_any_start`, `C17_KLFM_pass`, `C18_balance_KLFM`, `C18_balance_pass`, `C19_make_balanced`, `C20_KLFM_terminates`, `C20_pass_terminates`, `C21_bisect`, `C21_room`, `C21_unit_weights`, `C22_label_propagation`, `C22_labels_kept`, `C23_initial_partitioning`, `C24_sample_random`, `C25_sample_lp`, `C26_coarsen`, `C26_linked`, `C27_uncoarsen`, `C27_uncoarsen_seq`, `C28_partial`, `C28_positive`, `C29_greedy`, `C29_unit_weights`, `C30_partial`, `C31_partial`, `C32_partial`, `C33_partial`, `C34_partial`, `C35_balance`, `C35_bisect_random`, `C35_unit_weights`, `C36_partial`, `C37_exact`, `C37_false`, `C37_partial`, `C37_rounded`, `C38_false`, `C38_one`, `C38_partial`, `C38_total`, `C38_two`, `C39_group`, `C39_partial`, `C40_partial`, `C41_false`, `C41_partial`, `C41_unassigned`, `C42_false`, `C42_once`, `C42_partial`, `C43_owner_min`, `C44_rejections_agree_partial`, `C45_init_previous_C`, `C45_update_C`, `C46_not_separated`, `C46_redistribute`, `C46_separated`, `C46_separated_code`, `C47_coarsen_from`, `C47_coarsen_par`, `C48_bounds`, `C48_never`, `C48_read_back`, `C48_returns`, `C48_written`, `C49_eight`, `C49_false`, `C49_lambda`, `C49_partial`, `C49_two`, `C50_partial`, `C51_refine_par_partial`, `C51_refine_par_slack`, `C52_gains_exact_partial`, `C52_round_counts`, `C53_ends`, `C54_load`, `C55_both_partial`, `C55_false`, `C55_range`, `C56_step_partial`, `C56_uncoarsen_par`, `C57_costs`, `C57_replicate_partial`, `C58_choose_best`, `C59_false`, `C59_levels_partial`, `C60_partial`, `C61_code_partial`, `C61_false`, `C61_one_processor`, `C61_partial`, `C61_two`, `C62_balance`, `C62_multilevel_false`, `C63_empty`, `C63_false`, `C63_partial`, `C64_bound`, `C64_distributed`, `C64_load_balance`, `C64_no_parts`, `C66_check_C`, `C66_distributed`, `C66_silent_iff_exact`, `C66_too_long`, `C67_parse`, `C67_parse_distributed`, `C67_read_distributed`, `C67_read_distributed_symmetric`, `C67_read_general`, `C67_read_symmetric`, `C68_bad_line`, `C68_empty_line`, `C68_long_comment`, `C68_no_sizes`, `C68_partial_missing`, `C68_truncated`, `C68_truncated_false`, `C69_read_back`, `C69_written`, `C70_balance`, `C70_code_partial`, `C70_false`, `C70_partial`, `C70_two`, `C70_weights`, `C71_false`, `C71_same_syncs`, `C71_written`, `C72_copy_false`, `C72_exact`, `C72_greedy`, `C73_best`, `C74_KLFM`, `C74_make_balanced`, `C74_pass`, `C75_false`, `C75_full_part`, `C75_partial`, `C75_pass_misses`, `C76_bisect`, `C76_bisect_settled`, `C76_label_propagation`, `C76_settled`, `C77_added`, `C77_code_partial`, `C77_false`, `C77_lost_step`, `C77_one_processor`, `C77_partial`, `C77_two`, `C78_KLFM_par_partial`, `C78_pass_partial`, `C78_search`, `C79_code_partial`, `C79_false`, `C79_partial`, `C79_two`, `C79_weights`, `C80_partial`, `C81_cutsize`, `C81_distributed_partial`, `C81_false`, `C81_global_weights`, `C81_load_balance`, `C81_overflow`, `C81_partial`, `C81_three_billion`, `C81_weights`, `C82_double`, `C82_exact`, `C82_room_needed`, `C82_rounded`, `C83_KLFM`, `C83_bisect`, `C83_double`, `C83_exact`, `C83_multilevel`, `C84_bounds_false`, `C84_partial`, `C85_bisect`, `C85_false`, `C85_two`, `C86_cut`, `C86_cut_printed`, `C86_one`, `C86_printed`, `C87_cutsize`, `C87_nets`, `C87_sum`, `C88_blind`, `C88_false`, `C88_partial`, `C89_cut`, `C89_printed`, `C89_two`, `C89_unit`, `C90_cutsize`, `C90_distributed`, `C90_merge`, `C90_merge_distributed`, `C90_rename`, `C91_false`, `C91_nets_partial`, `C91_partial`, `C91_small_partial`, `C92_cost`, `C92_random`, `C92_rounds`, `C93_main`, `C93_printed`, `C93_unit`, `C94_base`, `C94_directory`, `C94_false`, `C94_not_input`, `C94_partial`, `C95_printed`, `C95_unique`, `C96_false`, `C96_log`, `C96_percent`, `C98_single`, `C99_equal_partial`
* Quot.sound, propext: `C01_declared_nonzeros`, `C01_repeated_entry`, `C02_mirror`, `C03_false_rectangular`, `C03_par_column_zero_dropped`, `C03_par_row_out_of_bounds`, `C03_partial`, `C05_constructor`, `C05_duplicate_id_breaks`, `C05_lookup`, `C05_maps_exact`, `C05_objects`, `C05_step`, `C06_false`, `C06_partial`, `C06_remove_net_ub_iff_last`, `C06_remove_vertex_ub_iff_last`, `C08_global_weight`, `C08_global_weight_part`, `C08_global_weight_parts`, `C08_recompute_global_size`, `C08_weight_all_parts`, `C08_weight_part`, `C102_overflow_others`, `C104_overflow`, `C104_overflow_steps`, `C109_overflow`, `C110_overflow`, `C110_overflow_steps`, `C12_sum_of_local_sizes`, `C21_room_needed`, `C22_no_labels`, `C25_zero`, `C27_zero_weight_aborts`, `C28_false`, `C28_merge`, `C30_merge`, `C30_zero_bounds`, `C31_false`, `C32_false`, `C33_false`, `C34_false`, `C35_balance_needed`, `C36_false`, `C36_no_high`, `C39_empty_net`, `C39_false`, `C39_group_false`, `C40_false`, `C44_arrival_false`, `C44_undo_false`, `C46_zero_weight`, `C47_empty_processor`, `C50_false`, `C51_ub_empty_net`, `C51_ub_stale_gains`, `C57_cost_false`, `C57_size_false`, `C60_false`, `C65_check_maps`, `C65_consistent`, `C67_no_file`, `C68_partial_header`, `C78_false`, `C80_false`, `C83_room_needed`, `C97_int`, `C97_int_overflow`, `C97_loop`, `C97_never`, `C97_update_map_nets`, `C99_arrival_false`, `C99_weights_false`, `sortNth_largest`
* propext: `C08_total_weight`, `C102_mark`, `C24_exact_comparison`, `C40_lists_lost`, `C65_entry_outside`, `C66_too_short`
* none: `C24_empty`
<!-- end of axioms -->

## Plan per property

| id | what is modelled | how it is proved |
|---|---|---|
| C01–C03 | the reader on the numbers of each line | induction on the entry list; C03 is false: negation by witness + the exact condition |
| C04 | the distributed reader for an abstract block partition | induction on entries, pointwise in the processor |
| C05–C07 | container operations | invariant by induction on operations; C06: strict version is UB exactly at the last index |
| C08–C09, C11 | weights, cutsize, counts | fold lemmas against `Spec` |
| C10–C12 | superstep models | per-net aggregation lemma, any message order |
| C13–C14 | in-place sort and move | loop invariant |
| C15 | gain buckets | invariant over operation histories, refinement to a finite map |
| C16 | gain structure | invariant with per-net contributions |
| C17–C20 | KLFM | invariant over the loop, ghost of the best prefix |
| C21–C22 | label propagation | loop invariants |
| C23 | initial partitioning | fold invariant over the rounds |
| C24–C25 | sampling | invariant with an abstract acceptance test |
| C26–C27 | coarsening/uncoarsening | clustering invariant; cut preserved net by net |
| C28–C30 | free vertices | C28 false for zero weights: negation by witness + theorem when some free weight is non-zero |
| C31–C32 | duplicate nets | grouping lemma; second reset is wrong: negation by witness |
| C33 | copy constructor | costs are reset to 1: negation by witness + theorem for unit costs |
| C34–C36 | restriction, random bisection, reordering | C36 false without a high vertex: negation + partial |
| C37 | weight bounds | rationals with rounding, induction on the recursion tree |
| C38 | recursion for one processor | invariant of the job stack, measure for termination |
| C39–C40 | cut-net handling | false (compares ids, not parts; vertex lists not restored): negation by witness |
| C41–C42 | writer | C41 false (write past the end for every k ≥ 1) |
| C43–C45 | pieces of the parallel refinement | superstep lemmas; C44 false: negation by witness |
| C46, C54 | redistribution | conservation of the multiset of vertices through all messages; surplus argument for the loads |
| C47 | parallel coarsening | star clustering over all processors, refinement of the contraction |
| C48 | generator | invariant, counting argument for divergence |
| C49 | synchronization counts | false: witness p=4, k=9; induction for the cases that hold |
| C50 | sequential multilevel bisection | composition |
| C51–C53 | parallel refinement | invariant over rounds of a pass: true counts by owner, agreement of the processors, bound on rounds |
| C55 | number of processors per side | rounding lemma |
| C56–C58 | parallel uncoarsening, copies of the coarse hypergraph, choice of the best | per-superstep lemmas on the union of the processors |
| C59–C60 | all levels | induction on levels with the union hypergraph as abstraction |
| C61–C63 | parallel recursion | induction on the tree of groups; conservation (`Kept`), bounds, finished vertices |
| C64–C66 | load_balance, check_maps, check_C | equivalence with the specification |
| C67–C69 | characters of the files | lemmas per stream operation, grammar of the file (`MtxText`) |
| C70 | main program | composition of C67, C61, C64, C10 and C41 |
| C71 | turns in writing | segments between synchronizations, any interleaving |
| C72 | greedy matching | invariants of the two loops (sums so far; best so far), one decision per step |
| C73 | requests in parallel | exact list of requests per sample; two selections composed by counting |
| C74 | course of the refinement | refinement of a step relation (moves, locks, best so far); the loop invariant carries the run |
| C75 | choice of the part | exact rule of `part_next` in reachable states; counterexample on six vertices |
| C76 | course of label propagation | refinement of a step relation (visits, sweeps); the gathered sums equal the links counted anew |
| C77 | parallel recursion with cut nets | induction on the tree of groups for programs that synchronize (`CutProg.Ends`); step counts for k ≤ 8 |
| C78 | course of the parallel refinement | runs of the specification (`Spec/TracePar.lean`) carried through the invariants of searches, rounds and passes |
| C79 | main program with the cut-net metric | C67, C77, C64, C10 and C41, through the hypergraphs with completed vertex lists (`relist`) |
| C80 | levels of the multilevel bisection | induction over the levels: C26, C27, C31, C32; connected components are carried from the coarse to the fine hypergraph (`component_up`, `component_free`), the placement of free vertices overflows only with a component heavier than the slack (`greedy_over`) |
| C81 | 64-bit numbers | second versions of the functions that stop at an overflow; equal to the first ones by induction over the loops with bounds on the partial sums |
| C82 | unconditional balance | invariant of the work list: for a job with K labels the slack M − w/K stays above `needed om η (log K)`; every pair of bounds then leaves room for one more vertex (`boundFor_near`, `C35_balance`), and C37 gives the bound |
| C83 | balance of the bisection | `make_balanced` stops over a bound only when no vertex fits on the other side (C19), which the room excludes; the last refinement is on the finest level; then C35, C29 and C82 |
| C84 | course of the parallel levels | induction on the rounds left: C56 and C51 compare the cut of two adjacent levels, C58 gives the choice on the coarsest; the cut of the ranges is that of the finest level (`rangesCut_eq`) |
| C85 | shares of the bounds | C35 on every processor with its share; the shares add up to at most the bounds; for two parts `boundFor_near` shows that the bound is at least `maxweight - 1`, and C62 applies |
| C86 | main program on one processor | reading (C67), copying, C83 in `double` arithmetic and the reports (C70, C79) put together; `C77_one_processor` reduces the cut-net recursion to the sequential one |
| C87 | recursion, lambda metric | invariant: the λ−1 value with the current range taken as one part is the sum so far; a split adds the cost of the nets with vertices on both sides (`lambda_relabels`) |
| C88 | recursion, cut-net metric | for k ≥ 3 the first split leaves only nets with at most one pin (`setAside_short`), an invariant of the rest of the run; negation by a witness |
| C89 | main program, several processors, random, two parts | the weight of what a processor reads is that of its block of columns (`partition_blockWeight`), then C85 and the reports of C70 |
| C90 | `cutsize`, `cutsizePar` | a net touches at most as many parts as there are and as it has pins (`connectivity_le`), the image of the parts has no more elements (`connectivity_image`), summed over the nets |
| C91 | recursion on several processors, lambda metric | the inductive relation `GroupBisections`; for every net the labels of its pins inside the interval of the group are counted (`recPar_count`): a split divides them over the two halves, and the bisection cuts the net exactly when both halves are met (`count_join`) |
| C92 | recursion on several processors, random bisection | the slack of a group (`Margin`) survives a split (`Margin.bounds`), both sides get a third of the weight and hence processors (`share_procs`), and the redistribution leaves loads that fit in the next shares (`newMaxLocal_le`, `load_next`); induction over the rounds (`recPar_fits`), then C62 |
| C93 | main program, several processors, random | C92 after reading and copying (`random_run`), the weight of a block as in C89, then the reports of C70 |
| C94 | name of the result file | no digit or sign is a `p`, `k` or `/`, so the name is cut at the last of these (`split_last`) |
| C95 | print | cut at the first newline, colon and blank (`split_first`); a notation has one value (`decimal_unique`) |
| C96 | log | `wrap32` is the identity exactly on 32-bit numbers; the rows together have as many entries as the matrix (`rows_le`) |
| C97 | loops with 32-bit counters | induction over the number of iterations left; beyond `2^32` over the fuel |
| C98, C99 | balance of the parallel refinement | the invariant of the rounds with two further clauses: on one processor nothing is rejected; with equal weights the rejected proposals of a processor are as many as the moves it takes back |
| C100 | merged messages about samples | invariant over the sorted matches: keys of the messages and of the pending sample ascend |
| C101 | settings | equivalence with a relation between texts and settings, option by option |
| C102 | refinement in 64 bits | every operation of the 64-bit version follows the operation on integers when that succeeds and the buckets are small; the invariants of C17 bound cuts, weights and gains |
| C103 | gain checks and printed buckets | the gain computed from exact counts is the change of the cut (C16); texts are split at colons and ends of lines |
| C104 | bisection in 64 bits | each 64-bit loop follows the loop on integers; sums of parts of the vertices are bounded by the total, level by level; clusters by C26, free vertices by C28, refinement by C102 |
| C105 | multilevel bisection with weight zero | the vertices merged as free are those that are alone; the bisection of the others is C50; a total of zero makes the placement return at once |
| C106 | empty columns with degrees as weights | C105 for the whole hypergraph; a vertex is alone exactly when its column is; a part of -1 is out of bounds in load_balance (C08) |
| C107 | recursion in 64 bits | every bound is between zero and the larger of the weight and maxweight times the labels (error analysis of the doubles); the invariant of C38 with weights of jobs below the limit; C104 for each bisection |
| C108 | main program in 64 bits | every owner adds terms that are not negative and whose total is the cut size (C10); the largest part weighs at most the total; the cut is at most rows times columns; C107 for the recursion |
| C109 | parallel refinement in 64 bits | the weight of the vertices that may still move in a pass pays for every change of the weights, also for rejected proposals and for the way back; the cut at an owner is at all times a sum of costs over a set of its nets |
| C110 | parallel bisection in 64 bits | the weight on all processors together does not grow from level to level, and what is sent to a sample is part of it; every other sum is a sum over disjoint sets of vertices |
| C111 | parallel recursion in 64 bits | the weight of a group is at most the total weight; while a processor looks for others that take its vertices, the sum of their surpluses grows by at most one maximum local weight per processor |
| C112 | parallel main program in 64 bits | the recursion keeps the matrix, so that its total weight bounds all weights that are reported and the area of the matrix bounds the cut |
| C113 | cut-net recursion and main program on several processors in 64 bits | simulation: the 64-bit program sends the same at every synchronization, whatever it received, as long as the unlimited one does not fail; nets that are set aside change no weight |
