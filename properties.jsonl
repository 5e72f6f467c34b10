{"id": "C01", "title": "Boyer-Moore search returns the first occurrence", "statement": "search_sublist_bm(l, s) returns the smallest index i such that s occurs contiguously in l at i, and -1 exactly when s occurs nowhere; for the empty s it returns 0. It always terminates and never reads outside l.", "quantifier": "all finite lists l and s over any element type with decidable equality", "why_tests_cant": "The skip tables jump over alignments; a wrong jump only loses a match for particular periodicities of needle and haystack, so any finite set of samples can miss it.", "anchors": ["prolothar_common/collections/list_utils.pyx: search_sublist_bm, make_boyer_moore_char_table, make_boyer_moore_offset_table, is_prefix, suffix_length"]}
{"id": "C02", "title": "is_sublist_bm decides the contiguous-sublist relation", "statement": "is_sublist_bm(l, s) is True iff l = a + s + b for some lists a, b, also when the two tables are precomputed once from s and reused for many l.", "quantifier": "all lists l and s; all histories of reuse of the tables", "why_tests_cant": "It is an iff over an infinite domain; both false positives and false negatives must be excluded.", "anchors": ["prolothar_common/collections/list_utils.pyx: is_sublist_bm, search_sublist_bm"]}
{"id": "C03", "title": "search_sublist_all_occurences is sound and complete", "statement": "search_sublist_all_occurences(l, s) returns, strictly increasing, exactly the start indices at which s occurs in l (overlapping ones included); for the empty s these are 0..len(l); the result is empty iff s is no sublist of l.", "quantifier": "all lists l and s", "why_tests_cant": "Completeness is a statement about all positions of all lists.", "anchors": ["prolothar_common/collections/list_utils.pyx: search_sublist_all_occurences"]}
{"id": "C04", "title": "view_of_n_partitions splits into balanced consecutive blocks", "statement": "For non-empty l and n >= 1 view_of_n_partitions(l, n) returns exactly min(n, len(l)) non-empty blocks whose concatenation is l, with sizes differing by at most one and the larger blocks first; for empty l or n <= 0 it raises ZeroDivisionError.", "quantifier": "all lists l and all integers n", "why_tests_cant": "Divmod boundary arithmetic can be off by one only for particular residues of len(l) modulo n.", "anchors": ["prolothar_common/collections/list_utils.pyx: view_of_n_partitions"]}
{"id": "C05", "title": "all_splits_of_size_k enumerates all k-subsets with their complements", "statement": "all_splits_of_size_k(t, k) raises ValueError for k < 1 and otherwise returns, for every choice of k positions of t exactly once, the pair (chosen elements in order, remaining elements in order), in lexicographic order of the position choice; hence len = binomial(len(t), k), and [] if k > len(t).", "quantifier": "all tuples t and all integers k", "why_tests_cant": "Exhaustiveness and absence of duplicates is a combinatorial claim over all sizes.", "anchors": ["prolothar_common/collections/tuple_utils.pyx: all_splits_of_size_k"]}
{"id": "C06", "title": "deep_flatten returns the leaves in order", "statement": "deep_flatten(xs) returns exactly the non-list leaves of xs in left-to-right order, for any nesting depth; flattening an already flat list changes nothing.", "quantifier": "all finite nested lists", "why_tests_cant": "Nesting depth is unbounded.", "anchors": ["prolothar_common/collections/list_utils.pyx: deep_flatten"]}
{"id": "C07", "title": "iterate_self_product enumerates the square", "statement": "iterate_self_product(l) yields (l[i], l[j]) for all i, j in row-major order, len(l)^2 pairs; with skip_diagonal exactly the pairs with i == j are missing, the order of the others being unchanged.", "quantifier": "all lists l, both values of skip_diagonal", "why_tests_cant": "All lengths must be covered; the diagonal is skipped by position and not by value.", "anchors": ["prolothar_common/collections/list_utils.pyx: iterate_self_product"]}
{"id": "C08", "title": "longest_common_sublists finds the longest common contiguous block and all its positions", "statement": "longest_common_sublists(a, b) returns (m, idx) where m is the maximal length of a list occurring contiguously in both a and b, and, if m > 0, idx is exactly the set of pairs (i, j) with a[i:i+m] == b[j:j+m]; if m = 0, idx is empty.", "quantifier": "all pairs of lists", "why_tests_cant": "Optimality compares the result with every other common block.", "anchors": ["prolothar_common/collections/list_utils.pyx: longest_common_sublists"]}
{"id": "C09", "title": "shuffle_together applies one permutation to all lists", "statement": "shuffle_together(l1..lk) returns lists that are all rearranged by one and the same permutation of the positions, so elements that shared an index still share an index, and each result list is a permutation of its input; when lengths differ all results are cut to the shortest length. (Deviation: if one of the lists is empty, no list at all is returned.)", "quantifier": "all families of lists and every outcome of the random source", "why_tests_cant": "The random source ranges over all permutations; a test samples one of n! outcomes.", "anchors": ["prolothar_common/collections/list_utils.pyx: shuffle_together"]}
{"id": "C10", "title": "Set similarities are normalised, symmetric and reflexive", "statement": "sorensen_dice_coefficient and jaccard_index return a value in [0,1], are symmetric, return 1 iff the sets are equal and 0 iff they are disjoint and not both empty; overlap_coefficient is symmetric, in [0,1], 1 iff one set contains the other, and raises ZeroDivisionError iff exactly one set is empty. The values are 2|A\u2229B|/(|A|+|B|), |A\u2229B|/|A\u222aB| and |A\u2229B|/min(|A|,|B|).", "quantifier": "all pairs of finite sets", "why_tests_cant": "Range and iff statements over all sets.", "anchors": ["prolothar_common/collections/set_similarity.py: sorensen_dice_coefficient, jaccard_index, overlap_coefficient"]}
{"id": "C11", "title": "TwoWayDict keeps the value-to-keys index consistent", "statement": "After any history of assignments in which no key is re-assigned to a different value, the inverse lookup of v is exactly the set of keys currently mapped to v. (For arbitrary histories it is the set of keys that were ever assigned v: the stale entries are documented as a defect.)", "quantifier": "all finite histories of __setitem__ calls and all lookups after them", "why_tests_cant": "It is an invariant over unbounded operation histories.", "anchors": ["prolothar_common/collections/two_way_dict.py: TwoWayDict"]}
{"id": "C12", "title": "LCS length is optimal", "statement": "The length computed by longest_common_subsequence is the maximum length of a list that is a (not necessarily contiguous) subsequence of both inputs.", "quantifier": "all pairs of sequences", "why_tests_cant": "Optimality quantifies over exponentially many common subsequences.", "anchors": ["prolothar_common/longest_common_subsequence.pyx: compute_lcs_matrix, length_of_common_subsequence"]}
{"id": "C13", "title": "LCS backtrace returns a valid alignment of optimal length", "statement": "The backtraced longest common subsequence consists of index pairs strictly increasing in both components, every pair points at equal elements, and the number of pairs equals the LCS length; the walk always terminates without index errors.", "quantifier": "all pairs of sequences", "why_tests_cant": "Every tie-breaking path through the matrix must be covered.", "anchors": ["prolothar_common/longest_common_subsequence.pyx: lcs_with_backtrace"]}
{"id": "C14", "title": "Unit-cost Levenshtein distance is optimal", "statement": "levenshtein_with_backtrace(s1, s2)[0] with default costs is the length of a shortest script of insertions, deletions and substitutions turning s1 into s2.", "quantifier": "all pairs of sequences", "why_tests_cant": "Minimality quantifies over all edit scripts.", "anchors": ["prolothar_common/levenshtein.pyx: compute_cost_matrix, levenshtein_with_backtrace"]}
{"id": "C15", "title": "Levenshtein edit operations form an optimal script", "statement": "With default costs, whenever the call returns, the returned edit operations are, up to order, a valid edit script of minimal length: there are exactly distance many, and executing them (sorted by position) transforms s1 into s2. The call returns if the distance is at most 100000 and never returns if it is above 100001. The order in which the operations are returned is not the script order (edits.reverse() sits inside the loop).", "quantifier": "all pairs of sequences with distance below the internal MAX_COST bound", "why_tests_cant": "Every backtrace path, tie and length must be covered.", "anchors": ["prolothar_common/levenshtein.pyx: backtrace"]}
{"id": "C16", "title": "Weighted Levenshtein distance", "statement": "With costs (insertion, deletion, substitution) the distance equals the minimal total cost of a script if insertion and deletion cost are 1. For all costs it equals the minimal cost of an alignment in which insertions before the first source symbol and deletions before the first target symbol count 1 (the first row/column of the matrix is initialised with i and j), so for every other insertion or deletion cost it is wrong for some input. For all positive costs the edit operations returned by the call with backtrace, taken from the end of the sequences to their start, turn the first sequence into the second, and the call returns if the number of symbols times the largest cost is at most 100000; with a cost of 0 the operations can be wrong, and with costs above 100000 the call may never return.", "quantifier": "all pairs of sequences and all non-negative integer costs", "why_tests_cant": "Minimality over all scripts and all weights.", "anchors": ["prolothar_common/levenshtein.pyx: compute_cost_matrix, backtrace, levenshtein_with_backtrace"]}
{"id": "C17", "title": "L_N is a well-defined, monotone code length", "statement": "L_N(n) raises ValueError for n < 1 and otherwise terminates with log2(2.8565064) plus the sum of the positive iterated binary logarithms of n; the value is positive, non-decreasing in n, and the same whether served from the precomputed table or computed.", "quantifier": "all integers n >= 1 (exact real arithmetic)", "why_tests_cant": "Termination of an iterated logarithm and table/loop agreement for all n.", "anchors": ["prolothar_common/mdl_utils.pyx: L_N"]}
{"id": "C18", "title": "log2binom and log2multinom are exact logarithms of the coefficients", "statement": "In exact arithmetic log2binom(n, k) = log2 of the binomial coefficient for 0 <= k <= n, and log2multinom of class counts = log2 of the multinomial coefficient, both non-negative; log2binom is symmetric under k -> n-k.", "quantifier": "all natural n, k and all finite lists of counts", "why_tests_cant": "Identities over unbounded integers.", "anchors": ["prolothar_common/mdl_utils.pyx: log2binom, log2multinom"]}
{"id": "C19", "title": "The lgamma cache is transparent", "statement": "For every history of calls, and for calls from any number of threads under every schedule, the memoised lgamma returns the same value the uncached function would, and the cache never holds more than its configured number of entries. No call waits for another one.", "quantifier": "all call histories, all numbers of threads and schedules, all cache capacities", "why_tests_cant": "Eviction order depends on the unbounded history of accesses.", "anchors": ["prolothar_common/mdl_utils.pyx: cached_lgamma"]}
{"id": "C20", "title": "Prequential code length depends only on the counts", "statement": "prequential_coding_length of a sequence of counts equals -log2 of the product of the sequential predictive probabilities of any ordering of the data with these counts, so it does not depend on the order of observation, and it is non-negative.", "quantifier": "all finite count vectors, all orderings of the data, all positive pseudo counts", "why_tests_cant": "Order-independence quantifies over all permutations.", "anchors": ["prolothar_common/mdl_utils.pyx: prequential_coding_length"]}
{"id": "C21", "title": "prime_factors returns the ordered prime factorisation", "statement": "For n >= 1 whose proper divisors are exact as floats (all n <= 2^54 with doubles, all primes) prime_factors(n) terminates with a non-decreasing list of primes whose product is n ([] for 1). For n = 0 the loop does not terminate, for negative n only the factors 2 are returned, and for large n the product can be wrong because n /= k rounds.", "quantifier": "all positive integers n up to 2^53 in the code, all n >= 1 in the model", "why_tests_cant": "Correct factorisation for every integer.", "anchors": ["prolothar_common/math_utils.py: prime_factors"]}
{"id": "C22", "title": "Streaming statistics equal batch statistics", "statement": "After pushing any values x1..xn into a Statistics object, count, minimum, maximum, mean and variance(ddof) equal those of the batch x1..xn (exact arithmetic), and the internal third and fourth moments equal the centred power sums.", "quantifier": "all finite sequences of values", "why_tests_cant": "The recurrence must be an invariant over unbounded histories.", "anchors": ["prolothar_common/experiments/statistics.pyx: Statistics.push, Statistics.mean, Statistics.variance, Statistics.minimum, Statistics.maximum"]}
{"id": "C23", "title": "Merging statistics equals pushing everything into one object", "statement": "a.merge(b) leaves a in the state reached by pushing all values of a and b into one object, for every way of splitting the data and every tree of merges, empty objects included.", "quantifier": "all finite value sequences, all splittings, all merge trees", "why_tests_cant": "Merge formulae hold or fail only as algebraic identities over all data.", "anchors": ["prolothar_common/experiments/statistics.pyx: Statistics.merge"]}
{"id": "C24", "title": "Ordered parallel map equals sequential map under every schedule", "statement": "map(f, keep_order) on a thread- or process-backed partitionable list returns [f(x) for x in list] in order, for every interleaving of the workers and queues, whenever no call raises.", "quantifier": "all non-empty lists, worker counts >= 1, total functions f, all schedules", "why_tests_cant": "Schedules are controlled by the OS; tests see a few of them.", "anchors": ["prolothar_common/parallel/threading/partitionable/threading_partitionable_list.py: map", "prolothar_common/parallel/multiprocess/partitionable/multiprocess_partitionable_list.py: map"]}
{"id": "C25", "title": "Unordered parallel map and map_filter return a permutation of the sequential result", "statement": "Unordered map returns a permutation of the sequential result, and map_filter(f, p) a permutation of the sequential filtered map, for every interleaving; nothing is lost or duplicated.", "quantifier": "all non-empty lists, worker counts, functions, schedules", "why_tests_cant": "Loss or duplication could occur only in rare interleavings.", "anchors": ["prolothar_common/parallel/threading/partitionable/threading_partitionable_list.py: map, map_filter", "prolothar_common/parallel/multiprocess/partitionable/multiprocess_partitionable_list.py: map, map_filter"]}
{"id": "C26", "title": "Parallel map_reduce agrees with sequential reduce for commutative monoids", "statement": "map_reduce(f, op) returns the same value as the sequential reduce for every schedule if op is associative and commutative; without commutativity two schedules can give different results.", "quantifier": "all non-empty lists, worker counts, associative commutative operations, schedules", "why_tests_cant": "Needs every interleaving and every operation.", "anchors": ["prolothar_common/parallel/threading/partitionable/threading_partitionable_list.py: map_reduce", "prolothar_common/parallel/multiprocess/partitionable/multiprocess_partitionable_list.py: map_reduce"]}
{"id": "C27", "title": "Worker exceptions are never swallowed", "statement": "Threads: the parallel map, map_filter and map_reduce raise iff a call raises, with an exception that was raised; they never return a partial result as if successful. Processes: the same for functions that raise no StopIteration and return no exception objects; for every function a raised exception was raised or returned by some call, and a returned list means that no call raised, unless a StopIteration was raised or returned. Both exceptions occur: a StopIteration is swallowed and an exception object as result is raised.", "quantifier": "all lists, worker counts, partial functions f, schedules", "why_tests_cant": "The failing element, worker and arrival order range over everything.", "anchors": ["prolothar_common/parallel/threading/partitionable/threading_partitionable_list.py", "prolothar_common/parallel/multiprocess/partitionable/multiprocess_partitionable_list.py"]}
{"id": "C28", "title": "Engines agree with the local engine except on the empty list", "statement": "For non-empty input and functions that do not raise, the thread and process engines compute the same results as the single-threaded one: the same list for map with keep_order, the same elements for map_filter, the same value for map_reduce with an associative and commutative operation; for the empty list the single-threaded engine returns [] (map_reduce raises TypeError) while the others raise ZeroDivisionError.", "quantifier": "all lists, worker counts and functions", "why_tests_cant": "An equivalence between implementations over all inputs.", "anchors": ["prolothar_common/parallel/single_thread/partitionable/local_partitionable_list.py", "prolothar_common/parallel/threading/partitionable/threading_partitionable_list.py", "prolothar_common/parallel/multiprocess/partitionable/multiprocess_partitionable_list.py"]}
{"id": "C29", "title": "cut_traces keeps exactly the window between start and end activity", "statement": "cut_traces keeps, of every trace that contains a start activity, the contiguous window that begins with the first matching start event and ends with the last matching end event thereafter; traces without such an end event are dropped; ids, attributes and order of the traces are kept. Traces without any start activity are not dropped: only their last event is kept (if it is an end event), a disagreement with the documentation.", "quantifier": "all logs and all sets of start/end activities", "why_tests_cant": "Window boundaries for all traces and activity sets.", "anchors": ["prolothar_common/models/eventlog/eventlog.py: EventLog.cut_traces", "prolothar_common/models/eventlog/trace.pyx: get_first_index_of_first_matching_activity, get_last_index_of_first_matching_activity"]}
{"id": "C30", "title": "filter_activities removes exactly the unwanted events", "statement": "After filter_activities(S) the log's events are, trace by trace and in order, exactly those whose activity satisfies the filter, no empty trace remains, and the operation is idempotent.", "quantifier": "all logs and activity sets", "why_tests_cant": "Order preservation and exactness for all logs.", "anchors": ["prolothar_common/models/eventlog/eventlog.py: EventLog.filter_activities"]}
{"id": "C31", "title": "count_follows counts what the documentation says", "statement": "The eventually-follows count of (A, B) equals the number of B-events in the log that have at least one earlier A-event in the same trace, consistently for every pair.", "quantifier": "all logs and all activity pairs", "why_tests_cant": "A counting claim over all traces.", "anchors": ["prolothar_common/models/eventlog/eventlog.py: EventLog.count_follows_directly_or_indirectly"]}
{"id": "C32", "title": "keep_first_occurence_of_activity_only leaves the duplicate-free first occurrences", "statement": "Afterwards every trace has each of its activities exactly once, in order of first occurrence, the set of activities of each trace is unchanged, and the operation is idempotent.", "quantifier": "all logs", "why_tests_cant": "Invariant for all traces.", "anchors": ["prolothar_common/models/eventlog/eventlog.py: EventLog.keep_first_occurence_of_activity_only"]}
{"id": "C33", "title": "Adding artificial start and end activities frames every trace", "statement": "After adding start (end) activities every trace starts (ends) with it, the original events are unchanged in between, and removing the added event restores the log.", "quantifier": "all logs and activity names", "why_tests_cant": "Universal claim over all logs.", "anchors": ["prolothar_common/models/eventlog/eventlog.py: EventLog.add_start_activity_to_every_trace, EventLog.add_end_activity_to_every_trace"]}
{"id": "C34", "title": "Joining successive events collapses maximal runs", "statement": "join_sucessive_events_with_same_activity replaces each maximal run of adjacent events with equal (non-blacklisted) activity by one event; the resulting trace has no two adjacent equal activities, its activity sequence is the run-compressed original, the joined event has the start date of the first and the end date of the last event of its run, its duration is their difference (or the sum of the durations), and with error checking on no two events that disagree on another attribute are joined.", "quantifier": "all logs", "why_tests_cant": "Run boundaries at both ends for all traces.", "anchors": ["prolothar_common/models/eventlog/eventlog.py: EventLog.join_sucessive_events_with_same_activity, _join_events"]}
{"id": "C35", "title": "Train/test split and k-folds partition the traces", "statement": "The split returns two logs whose traces together are exactly the traces of the log (as multiset) with the requested sizes; k-fold returns k (train, test) pairs in which every trace is in exactly one test log, and train is the complement of test.", "quantifier": "all logs, all split ratios / k, all outcomes of the shuffle", "why_tests_cant": "Every shuffle outcome and every size residue.", "anchors": ["prolothar_common/models/eventlog/eventlog.py: EventLog.train_test_split, EventLog.k_folds"]}
{"id": "C36", "title": "Event log serialisation round trips", "statement": "Creating a log from its simple activity-list form gives back the same activity lists; the dictionary form restores ids, activities and attributes of every non-empty trace (transition ids are lost; empty traces cannot be restored).", "quantifier": "all logs without empty traces", "why_tests_cant": "Round trips over all nested structures.", "anchors": ["prolothar_common/models/eventlog/eventlog.py: EventLog.to_simple_activity_log, create_from_simple_activity_log, to_dict, create_from_dict"]}
{"id": "C37", "title": "Event log equality is multiset equality of traces", "statement": "Two logs compare equal iff they contain the same traces with the same multiplicities, in any order; it is an equivalence relation.", "quantifier": "all pairs of logs (ids being part of the hash, see note)", "why_tests_cant": "Equivalence relation over all logs.", "anchors": ["prolothar_common/models/eventlog/eventlog.py: EventLog.__eq__", "prolothar_common/models/eventlog/trace.pyx: Trace.__eq__, Trace.__hash__"]}
{"id": "C38", "title": "AddActivity noise only inserts", "statement": "Whatever the random source returns, after the add noise every trace contains its original events in the original order as a subsequence and all additional events are events with the given activity, inserted exactly after the events whose drawn number is below the probability; with probability 0 nothing changes; probabilities outside [0,1) are rejected. The numbers are drawn one per event, from trace to trace without a reset.", "quantifier": "all logs, all random outcomes, all probabilities", "why_tests_cant": "All outcomes of the random generator.", "anchors": ["prolothar_common/lognoise/add_activity.py: AddActivity"]}
{"id": "C39", "title": "RemoveEvents noise only deletes", "statement": "Whatever the random source returns, each remaining trace is a non-empty subsequence of an original trace, in original trace order; exactly the events whose drawn number is below the probability are missing, and the numbers are drawn one per event, from trace to trace without a reset; with probability 0 nothing changes.", "quantifier": "all logs, all random outcomes, all probabilities", "why_tests_cant": "All outcomes of the random generator.", "anchors": ["prolothar_common/lognoise/remove_events.py: RemoveEvents"]}
{"id": "C40", "title": "SwapEvents noise permutes within traces", "statement": "Whatever the random source returns, each trace after the swap noise is a permutation of its original events and no event moves between traces; the exchanges happen exactly where the drawn number is below the probability, and the numbers are drawn from trace to trace without a reset; with probability 0 nothing changes.", "quantifier": "all logs, all random outcomes, all probabilities", "why_tests_cant": "All outcomes of the random generator.", "anchors": ["prolothar_common/lognoise/swap_events.py: SwapEvents"]}
{"id": "C41", "title": "Strongly connected components are exactly the mutual-reachability classes", "statement": "The component search of the directed integer graph returns a partition of the vertices; two vertices share a component iff each is reachable from the other.", "quantifier": "all finite directed multigraphs", "why_tests_cant": "Correctness of a two-pass DFS over all graphs.", "anchors": ["prolothar_common/models/diintgraph/graph.cpp: findStronglyConnectedComponents, fillOrder, DFSUtil, getTranspose", "prolothar_common/models/diintgraph/directed_int_graph.pyx: find_strongly_connected_components"]}
{"id": "C42", "title": "Integer graph edge operations behave like a multigraph", "statement": "After any history of addEdge/removeEdge, containsEdge(u,v) is true iff (u,v) was added after its last removal, and a removal affects no other pair; a copy evolves independently.", "quantifier": "all operation histories", "why_tests_cant": "Unbounded histories.", "anchors": ["prolothar_common/models/diintgraph/graph.cpp: addEdge, removeEdge, containsEdge"]}
{"id": "C43", "title": "The directly-follows graph stays well-formed", "statement": "After any history of add_node, add_count, remove_edge, remove_node, filtering: every edge connects existing nodes, the adjacency lists of the nodes list exactly the stored edges, once each, and keys match the edges' end points.", "quantifier": "all operation histories from the empty graph", "why_tests_cant": "Invariant over unbounded histories.", "anchors": ["prolothar_common/models/directly_follows_graph.pyx: add_node, add_count, remove_edge, remove_node, filter_edges_by_local_frequency, filter_edges_by_absolute_count"]}
{"id": "C44", "title": "Directly-follows counts equal the number of adjacent pairs in the log", "statement": "create_from_event_log(log).get_count(a,b) is the number of positions in the traces at which a is immediately followed by b; the nodes are exactly the activities of the log.", "quantifier": "all logs and all activity pairs", "why_tests_cant": "Counting claim over all logs.", "anchors": ["prolothar_common/models/directly_follows_graph.pyx: create_from_event_log, get_count, add_count"]}
{"id": "C45", "title": "compute_shortest_path is a shortest path", "statement": "If end is reachable from start without the forbidden edges the result is a path from start to end along edges of the graph avoiding the forbidden ones, and no such path has fewer edges; otherwise the result is the empty list. An unknown start activity raises ValueError.", "quantifier": "all graphs, start/end nodes and forbidden edge sets contained in the graph", "why_tests_cant": "Minimality over all paths.", "anchors": ["prolothar_common/models/directly_follows_graph.pyx: compute_shortest_path, compute_shortest_path_to_one_of"]}
{"id": "C46", "title": "compute_shortest_path leaves the graph unchanged", "statement": "After compute_shortest_path with forbidden edges (all of them in the graph) the set of edges with counts is the same as before, also when no path exists; with a forbidden edge that is not in the graph the call has no defined result (the compiled code reads the attributes of None without a check).", "quantifier": "all graphs and forbidden edge lists", "why_tests_cant": "State restoration for all inputs and exits.", "anchors": ["prolothar_common/models/directly_follows_graph.pyx: compute_shortest_path"]}
{"id": "C47", "title": "Reachability queries are exact", "statement": "get_reachable_activities(a) is exactly the set of nodes reachable from a by following edges, the reverse query exactly the nodes that reach it.", "quantifier": "all graphs and nodes", "why_tests_cant": "Transitive closure over all graphs, cycles included.", "anchors": ["prolothar_common/models/directly_follows_graph.pyx: get_reachable_activities, get_activities_that_reach"]}
{"id": "C48", "title": "Weakly connected components partition the nodes", "statement": "The returned components are disjoint, cover all nodes, and two nodes are in the same component iff they are connected when ignoring directions.", "quantifier": "all graphs", "why_tests_cant": "All graphs.", "anchors": ["prolothar_common/models/directly_follows_graph.pyx: get_weakly_connected_components, get_largest_weakly_connected_component"]}
{"id": "C49", "title": "remove_node with connections keeps reachability", "statement": "remove_node(a, create_connections=True) removes a, and two other nodes are connected by a path afterwards iff they were before; without connections only paths avoiding a survive.", "quantifier": "all graphs and nodes", "why_tests_cant": "All path structures.", "anchors": ["prolothar_common/models/directly_follows_graph.pyx: remove_node"]}
{"id": "C50", "title": "Source and sink activities", "statement": "The source (sink) activities are exactly the nodes without ingoing (outgoing) edges other than self-loops.", "quantifier": "all graphs reachable by API calls", "why_tests_cant": "All graphs.", "anchors": ["prolothar_common/models/directly_follows_graph.pyx: get_source_activities, get_sink_activities"]}
{"id": "C51", "title": "Removing disallowed start/end activities", "statement": "After removing not-allowed start (end) activities, no source (sink) outside the allowed set remains, and the procedure terminates removing only nodes that were forced to go.", "quantifier": "all graphs and allowed sets", "why_tests_cant": "Fixpoint argument over all graphs.", "anchors": ["prolothar_common/models/directly_follows_graph.pyx: remove_not_allowed_start_activities, remove_not_allowed_end_activities"]}
{"id": "C52", "title": "Prefix tree counts equal prefix multiplicities", "statement": "After adding any sequences, the count stored at the node addressed by path w equals the number of added sequences that start with w, and a node exists iff that number is positive.", "quantifier": "all histories of added sequences and all words", "why_tests_cant": "Histories and words are unbounded.", "anchors": ["prolothar_common/models/prefix_tree/prefix_tree.py: PrefixTree"]}
{"id": "C53", "title": "Prefix tree children stay sorted and unique", "statement": "At every node the children are strictly ordered by symbol, so that binary search finds a child iff it exists, after every history of insertions.", "quantifier": "all insertion histories, every totally ordered symbol type", "why_tests_cant": "Binary-search insertion invariant over histories.", "anchors": ["prolothar_common/models/prefix_tree/prefix_tree.py: PrefixTree"]}
{"id": "C54", "title": "A transition system built from a log replays the log", "statement": "Every sequence added to the transition system can be replayed from the initial state by the recorded transitions under the chosen deterministic state abstraction.", "quantifier": "all logs and state abstractions", "why_tests_cant": "All logs and abstractions.", "anchors": ["prolothar_common/models/labeled_transition_system/labeled_transition_system.py: LabeledTransitionSystem.add_sequence", "prolothar_common/models/labeled_transition_system/labeled_transition_system.py: LabeledTransitionSystem.add_trace"]}
{"id": "C55", "title": "Nested graph dictionary round trip", "statement": "Creating a nested graph from its dictionary form gives back nodes, parent relation, edges and attributes, provided no attribute is named like a reserved key.", "quantifier": "all nested graphs", "why_tests_cant": "All graphs and attribute dictionaries.", "anchors": ["prolothar_common/models/nested_graph.py: to_dict, from_dict"]}
{"id": "C56", "title": "is_primitive_tandem_repeat_type decides primitivity", "statement": "The predicate is true iff the word is not a power u^k, k >= 2, of a shorter word.", "quantifier": "all finite words", "why_tests_cant": "An iff over all words.", "anchors": ["prolothar_common/models/patterns.py: is_primitive_tandem_repeat_type"]}
{"id": "C57", "title": "Tandem arrays of a trace", "statement": "is_tandem_array(trace, i, r) with a non-empty repeat type r returns the largest k (capped by max_nr_of_repeats) such that r written k times starts at i, and True iff k >= 2. create_tandem_arrays_from_repeat_types returns triples (start, type, k) such that type written k times occurs at start, every occurrence of each type in the trace is covered by exactly one triple of that type, and the triples are sorted by (start, length of type). If a repeat type cannot overlap itself, its triples do not overlap and cannot be extended by one more repetition on either side; for types that can overlap themselves this fails.", "quantifier": "all traces, all repeat types and start indices", "why_tests_cant": "repetition structure of arbitrary sequences", "anchors": ["prolothar_common/models/patterns.py: is_tandem_array", "prolothar_common/models/patterns.py: create_tandem_arrays_from_repeat_types", "prolothar_common/models/patterns.py: create_tandem_arrays_from_repeat_type"]}
{"id": "C58", "title": "Dataset keeps unique ids and attribute domains", "statement": "After any history of adding instances, ids are unique, a duplicate id is rejected without changing the dataset, and the recorded unique values of every attribute are exactly the values occurring in the instances.", "quantifier": "all histories", "why_tests_cant": "Invariant over histories.", "anchors": ["prolothar_common/models/dataset/dataset.py: Dataset.add_instance, remove_attribute"]}
{"id": "C59", "title": "Dataset split and grouping partition the instances", "statement": "split returns two datasets with disjoint instances that together contain all of them and have the requested sizes; group_by returns one dataset per value, containing exactly the instances with that value.", "quantifier": "all datasets, ratios, random outcomes", "why_tests_cant": "All outcomes of the shuffle.", "anchors": ["prolothar_common/models/dataset/dataset.py: Dataset.split, Dataset.group_by, Dataset.random_subset"]}
{"id": "C60", "title": "One-hot encoding is faithful", "statement": "After one-hot encoding, every categorical attribute is replaced by one attribute per possible value; for every instance exactly the indicator of its former value is 1, so the former value can be recovered; all other attributes, the ids and the targets are unchanged and the dataset is consistent. The generated names must be distinct and unused.", "quantifier": "all consistent datasets, all given or occurring value sets, all join strings", "why_tests_cant": "All datasets and value sets.", "anchors": ["prolothar_common/models/dataset/transformer/one_hot_encoding.py: OneHotEncoding"]}
{"id": "C61", "title": "Label encoding is injective, ordered and dense", "statement": "Label encoding maps the m values of a categorical attribute to 0..m-1 in ascending order, so equal values get equal numbers and different values different numbers; nothing else changes. A value outside a given value set raises KeyError; an attribute with a number and a text among its values makes the whole encoding raise TypeError.", "quantifier": "all consistent datasets and all given value sets", "why_tests_cant": "All datasets.", "anchors": ["prolothar_common/models/dataset/transformer/label_encoding.py: LabelEncoding"]}
{"id": "C62", "title": "Min-max scaling maps onto the target interval and preserves order", "statement": "Every numerical attribute with two different values is mapped affinely: minimum to the lower bound, maximum to the upper bound, order preserved, nothing else changes. A constant attribute raises ZeroDivisionError, an empty dataset ValueError. A string among the values raises TypeError.", "quantifier": "all consistent datasets with numbers in numerical attributes, all target intervals", "why_tests_cant": "All datasets.", "anchors": ["prolothar_common/models/dataset/transformer/min_max_scaling.py: MinMaxScaling"]}
{"id": "C63", "title": "A composed log query returns exactly the matching traces", "statement": "For every query composed of atomic queries by and, or and not, whose activity collections can be iterated repeatedly, executing it on a log returns exactly the traces of the log, in order, which satisfy the boolean combination; the second operand of and/or is not evaluated if the first one decides. (A query built from an iterator changes its meaning after the first trace.)", "quantifier": "all queries of any depth and all logs", "why_tests_cant": "Unbounded query depth and log size.", "anchors": ["prolothar_common/models/log_queries/query.py", "prolothar_common/models/log_queries/queries.py"]}
{"id": "C64", "title": "Firing moves tokens exactly along the arcs", "statement": "force_transition on an enabled transition removes one token from each input place, adds one to each output place and changes nothing else; for an unknown or not enabled transition it raises a ValueError, and token counts never become negative. (A rejected firing is not undone: tokens already taken are lost, a documented disagreement.)", "quantifier": "all well-formed nets, markings and transitions", "why_tests_cant": "All nets and markings.", "anchors": ["prolothar_common/models/data_petri_net.py: DataPetriNet._fire_transition, force_transition"]}
{"id": "C65", "title": "Fireable transitions are the enabled ones", "statement": "A transition is reported fireable iff each of its input places carries a token. The code compares the token sum with the number of input places, which is equivalent on safe markings only: documented disagreement.", "quantifier": "all nets and markings", "why_tests_cant": "All markings.", "anchors": ["prolothar_common/models/data_petri_net.py: DataPetriNet.get_fireable_transitions"]}
{"id": "C66", "title": "Marking get/set round trip", "statement": "Setting a marking changes exactly the mentioned places, reading the marking gives the tokens of every place, setting a marking that was read before restores it, matches_marking compares exactly the mentioned places and unknown places raise a KeyError. matches_marking raises KeyError exactly if it meets an unknown place before a mismatch.", "quantifier": "all nets and markings", "why_tests_cant": "All markings.", "anchors": ["prolothar_common/models/data_petri_net.py: get_marking, set_marking, matches_marking"]}
{"id": "C67", "title": "make_id_unique is collision free", "statement": "The search terminates and returns the id with the least number of apostrophes appended such that it is different from all ids in use.", "quantifier": "all ids and finite sets of used ids", "why_tests_cant": "All sets of used ids.", "anchors": ["prolothar_common/models/data_petri_net.py: make_id_unique"]}
{"id": "C68", "title": "k-medoid clustering terminates with consistent clusters", "statement": "k-medoid clustering always terminates, within k*n+1 rounds; it returns k clusters that contain every object exactly once (none of them is empty if the dissimilarity of an object to itself is 0 and to others positive), each object is assigned to a nearest center, and each center minimises the column sum the algorithm optimises; requesting fewer than one or more than n clusters raises an error. (The minimised sum ranges over all objects rather than the cluster, and is minimised also for similarities.)", "quantifier": "all object lists, dissimilarity functions, ways to round the sums, numbers of clusters and shuffles", "why_tests_cant": "Termination and optimality for all inputs and all random choices.", "anchors": ["prolothar_common/clustering/k_medoid.py: KMedoid.cluster"]}
{"id": "C69", "title": "Fuzzy k-medoid memberships are distributions that belong to the returned centers", "statement": "The memberships of every object are positive and sum to one, nearer centers have larger memberships, recomputed centers minimise the dissimilarities weighted by the memberships, the algorithm always terminates for a positive coefficient, and it returns k centers among the objects together with exactly the memberships for these centers.", "quantifier": "all object lists, dissimilarity functions, coefficients, numbers of clusters and shuffles, real arithmetic", "why_tests_cant": "All real inputs and any number of rounds.", "anchors": ["prolothar_common/clustering/fuzzy_k_medoid.py: FuzzyKMedoid.cluster"]}
{"id": "C70", "title": "Decoding a label vector partitions the log", "statement": "Decoding a non-empty vector of labels gives, for every label, the log of exactly the traces with this label, in order; every trace is in exactly one cluster. An empty vector raises an error.", "quantifier": "all logs and all label vectors of the same length", "why_tests_cant": "All logs and vectors.", "anchors": ["prolothar_common/clustering/traces/clustering_algorithm/vector_based.py: decode_label_vector"]}
{"id": "C71", "title": "Result collector keeps results separate", "statement": "The collected y values for an experiment, label and x are exactly the values added for them, in order of insertion, and nothing else; the x axis labels are the distinct values of x in order of first appearance; the plotted data pairs each x with its values. (Mixing text and numbers for x, and the colour and index handling of the line plot, violate this.)", "quantifier": "all histories of add_result", "why_tests_cant": "All histories.", "anchors": ["prolothar_common/experiments/result_collector.py"]}
{"id": "C72", "title": "The result cache evaluates once per key", "statement": "Repeated calls of a cached function with the same key evaluate it once and return the stored result afterwards, also across restarts, if no write is interrupted and keys do not collide after concatenation with the function name. An interrupted write makes all later calls with this key raise.", "quantifier": "all histories of calls, all crash points during a write", "why_tests_cant": "Crash points and histories.", "anchors": ["prolothar_common/testing/non_productive_result_cache.py"]}
{"id": "C73", "title": "nullify_output restores the streams", "statement": "After leaving the context, normally or by an exception, stdout and stderr are the objects they were before, also when nested; inside nothing reaches the original streams, and the computed results are the same as without the context.", "quantifier": "all programs, all ways of leaving, all nestings", "why_tests_cant": "All programs and nestings.", "anchors": ["prolothar_common/console_utils.py: nullify_output"]}
{"id": "C74", "title": "Transactions serialisation and counts", "statement": "The item set and the numbers of transactions, unique transactions, items and the largest length are those of the database; the count of an item is the number of transactions containing it (if transactions are sets). The dat form numbers the sorted items from the offset on, and decoding it with the returned dictionary gives back the transactions, in order. The rows of the fic form, decoded with the returned dictionary, are the lengths and items of the transactions, in order; the dictionary numbers the items 0, 1, ... without repetition. (Disagreement: the counts in the fic header are listed in the opposite order of the item numbers.) An empty database cannot be written as fic.", "quantifier": "all transaction databases", "why_tests_cant": "All databases.", "anchors": ["prolothar_common/models/transactions.py"]}
{"id": "C75", "title": "enumerate_reversed lists positions and elements backwards", "statement": "enumerate_reversed(list) yields the pairs (i, list[i]) for i = len-1 down to 0: exactly the reverse of enumerate(list), each position once.", "quantifier": "every list", "why_tests_cant": "all lengths, including the empty list and index arithmetic at both ends", "anchors": ["prolothar_common/collections/list_utils.pyx: enumerate_reversed"]}
{"id": "C76", "title": "L_U is the logarithm of the number of compositions", "statement": "For 1 <= n <= m, L_U(m, n) is log2 of the number of ordered ways to write m as a sum of n positive integers; L_U(0,0) = 0.", "quantifier": "all integers 1 <= n <= m", "why_tests_cant": "the identity ranges over all pairs of integers", "anchors": ["prolothar_common/mdl_utils.pyx: L_U"]}
{"id": "C77", "title": "L_R is total, positive and ignores the sign", "statement": "L_R(x, precision) never raises: for every real x and integer precision it terminates with a positive code length, equal for x and -x. For 0 it is log2 3. Otherwise, with s the number of decimal digits such that 10^precision <= |x| 10^s < 10^(precision+1), it is 2 log2 3 plus the universal code lengths of s and of |x| 10^s rounded up (s > 0), of -s and of |x| rounded up, without dropping digits (s < 0), or of |x| rounded up (s = 0).", "quantifier": "every real number and integer precision", "why_tests_cant": "continuum of inputs; branch on the sign of a ceiling of a logarithm", "anchors": ["prolothar_common/mdl_utils.pyx: L_R"]}
{"id": "C78", "title": "sum_log_i_from_1_to_n is the sum of logarithms", "statement": "For n >= 1 the result is log2(1)+...+log2(n), whether served from the precomputed table or computed; for n < 1 a ValueError is raised.", "quantifier": "every integer n", "why_tests_cant": "unbounded n, table boundary at 100", "anchors": ["prolothar_common/mdl_utils.pyx: sum_log_i_from_1_to_n"]}
{"id": "C79", "title": "Parallel operations end under every schedule", "statement": "map, map_filter and map_reduce of the thread and process engines neither deadlock nor run forever: every schedule of caller and workers reaches a state where the caller has returned a result or raised, even when calls raise.", "quantifier": "all lists, worker counts, functions that return or raise, all schedules", "why_tests_cant": "A deadlock may need one rare interleaving; tests cannot show that no schedule has one.", "anchors": ["prolothar_common/parallel/threading/partitionable/threading_partitionable_list.py: map, map_filter, map_reduce", "prolothar_common/parallel/multiprocess/partitionable/multiprocess_partitionable_list.py: map, map_filter, map_reduce"]}
{"id": "C80", "title": "Combined noise only adds its activities", "statement": "Every (possibly nested) combination of add, remove and swap noise ends without error; each trace of the result has the id and attributes of an original trace, in the original order, and contains only events of that trace (each at most as often) besides added activities; the parts are applied in the given order; the empty combination is rejected. Noise on a log and then, with the same noise object, on a second log gives the noise on both logs in one.", "quantifier": "all noise combinations, all logs, all random outcomes", "why_tests_cant": "The noises can be nested and composed without bound and every random outcome must satisfy it.", "anchors": ["prolothar_common/lognoise/combined_noise.py: CombinedNoise"]}
{"id": "C81", "title": "Shortest paths are deterministic", "statement": "Among all shortest allowed paths compute_shortest_path returns the lexicographically least one, so the result depends only on the nodes and edges of the graph, not on the order in which they were added.", "quantifier": "all graphs, all start/end nodes and forbidden edge sets, and all pairs of graphs with the same nodes and edges", "why_tests_cant": "Independence from the construction history ranges over all histories.", "anchors": ["prolothar_common/models/directly_follows_graph.pyx: compute_shortest_path"]}
{"id": "C82", "title": "Eventually-follows graph counts traces", "statement": "In the eventually-follows graph of first occurrences get_count(a,b) is the number of traces in which the first b comes after the first a; an activity is a node iff some trace contains it together with another activity.", "quantifier": "all logs and activity pairs", "why_tests_cant": "Counting claim over all logs.", "anchors": ["prolothar_common/models/directly_follows_graph.pyx: build_eventually_follows_on_first_occurence_graph"]}
{"id": "C83", "title": "Renaming an activity is an isomorphism", "statement": "rename_activity to an unused name yields the same graph up to that renaming, with all edges and counts including self-loops; an unknown activity is rejected.", "quantifier": "all graphs, existing old names and unused new names", "why_tests_cant": "All graphs and self-loops.", "anchors": ["prolothar_common/models/directly_follows_graph.pyx: rename_activity"]}
{"id": "C84", "title": "Simulated logs conform to the graph", "statement": "generate_log returns the requested number of traces; every trace starts with a start activity, follows edges of the graph and ends at the first end activity it meets, for every outcome of the random choices; without start or end activities ValueError is raised. Conversely every list of paths from a start activity to the first end activity on it can be generated as a log. With the default activities the call raises no other exception; otherwise an unknown start activity raises KeyError and a path that gets stuck before an end activity raises IndexError. It returns for all random choices if the paths of the graph are bounded. The frequencies of the edges have no influence on what is simulated with a given seed, and with the same seed a longer log continues a shorter one.", "quantifier": "all graphs, random choices, trace numbers, start and end lists", "why_tests_cant": "All random outcomes.", "anchors": ["prolothar_common/models/directly_follows_graph.pyx: generate_log"]}
{"id": "C85", "title": "Prefix tree node ids are unique", "statement": "Two nodes of a prefix tree built by any sequence of insertions that lie at different words have different ids.", "quantifier": "all insertion histories", "why_tests_cant": "Ids are built from decimal child numbers; uniqueness must hold for every fan-out and depth.", "anchors": ["prolothar_common/models/prefix_tree/prefix_tree.py: get_node_id, append"]}
{"id": "C86", "title": "Level-order traversal of the prefix tree", "statement": "Traversing a prefix tree level by level terminates and yields every non-root node exactly once: the nodes are those of the non-empty prefixes of the inserted sequences, shorter words come first and words of equal length in descending order.", "quantifier": "all insertion histories", "why_tests_cant": "All tree shapes.", "anchors": ["prolothar_common/models/prefix_tree/prefix_tree.py: traverse_level_order"]}
{"id": "C87", "title": "With the list abstraction the transition system has exactly the language of the log", "statement": "If states are full prefixes, the sequences that can be replayed from a start state to an end state are exactly the added sequences.", "quantifier": "all sets of sequences", "why_tests_cant": "All logs.", "anchors": ["prolothar_common/models/labeled_transition_system/labeled_transition_system.py: LabeledTransitionSystem.add_sequence", "prolothar_common/models/labeled_transition_system/labeled_transition_system.py: LabeledTransitionSystem.get_next_state", "prolothar_common/models/labeled_transition_system/state_representation.py: list_abstraction"]}
{"id": "C88", "title": "Transition system queries", "statement": "Iterating yields each transition once; the number of transitions and states match; queries do not change the answers of later queries.", "quantifier": "all sets of sequences, all queries", "why_tests_cant": "Queries run on structures with default values, where a read could create entries.", "anchors": ["prolothar_common/models/labeled_transition_system/labeled_transition_system.py: LabeledTransitionSystem.get_next_state", "prolothar_common/models/labeled_transition_system/labeled_transition_system.py: LabeledTransitionSystem.get_nr_of_states", "prolothar_common/models/labeled_transition_system/labeled_transition_system.py: LabeledTransitionSystem.get_nr_of_transitions", "prolothar_common/models/labeled_transition_system/labeled_transition_system.py: LabeledTransitionSystem.transition_iterator", "prolothar_common/models/labeled_transition_system/labeled_transition_system.py: LabeledTransitionSystem.yield_outgoing_transitions"]}
{"id": "C89", "title": "Replacing high-level edges of a nested graph", "statement": "replace_high_level_edges_by_low_level_edges keeps the nodes; afterwards the edges are exactly the old edges between nodes without children plus, for each edge with a compound end, an edge from every low-level sink of its source to every low-level source of its target; hence all edges connect nodes without children. Low-level sinks (sources) of a node are the leaves reached by descending through children without outgoing edges (without ingoing edges from siblings). A compound node whose children form a cycle has none, so its edges disappear.", "quantifier": "all nested graphs with acyclic nesting and existing edge ends", "why_tests_cant": "All graph shapes and nesting depths.", "anchors": ["prolothar_common/models/nested_graph.py: NestedGraph.replace_high_level_edges_by_low_level_edges, get_low_level_sink_nodes, get_low_level_source_nodes"]}
{"id": "C90", "title": "Primitive tandem repeats are complete", "statement": "find_primitive_tandem_repeats(sequence) returns, each once, exactly the primitive non-empty words (words which are not a repetition of a shorter word) with an allowed length whose double occurs in the sequence; with the default maximal length no primitive tandem repeat is missed.", "quantifier": "all sequences and all minimal/maximal lengths", "why_tests_cant": "completeness ranges over all substrings of all sequences", "anchors": ["prolothar_common/models/patterns.py: find_primitive_tandem_repeats", "prolothar_common/models/patterns.py: extract_words"]}
{"id": "C91", "title": "Filter for super maximal repeats", "statement": "filter_super_maximal_repeats returns exactly those given words that do not occur inside another given word, ordered by length.", "quantifier": "all lists of different words", "why_tests_cant": "all inclusion structures among words", "anchors": ["prolothar_common/models/patterns.py: filter_super_maximal_repeats"]}
{"id": "C92", "title": "Near super maximal repeats", "statement": "find_near_super_maximal_repeats returns the super maximal repeats and, in addition, exactly those maximal repeats having at least one occurrence in the sequence that overlaps no occurrence of a super maximal repeat.", "quantifier": "all sequences", "why_tests_cant": "overlap structure of arbitrary sequences", "anchors": ["prolothar_common/models/patterns.py: find_near_super_maximal_repeats", "prolothar_common/models/patterns.py: _build_super_maximal_sequence_mask", "prolothar_common/models/patterns.py: _does_not_overlap_super_maximal_repeat_at_least_once"]}
{"id": "C93", "title": "TandemArray objects", "statement": "TandemArray(trace, start, type, n) is accepted iff the type occurs at least twice in a row at start and n >= 2 (a claimed number of repetitions larger than the real one is accepted); is_maximal is true iff the array, with a truthful n, can be extended neither to the left nor to the right.", "quantifier": "all traces, positions, types and repeat counts", "why_tests_cant": "boundary positions of arbitrary traces", "anchors": ["prolothar_common/models/patterns.py: TandemArray"]}
{"id": "C94", "title": "Maximal repeats", "statement": "find_maximal_repeats(sequence, min_length) on a non-empty sequence without the sentinel '$' returns, each once, exactly the non-empty words of at least min_length which occur at two places followed by different symbols (the end counts as a symbol); hence every repeated word is a prefix of a returned word. Not required to differ on the left, unlike the documentation says.", "quantifier": "all non-empty sequences and minimal lengths", "why_tests_cant": "completeness over all repeated substrings of all sequences; suffix tree construction is history dependent", "anchors": ["prolothar_common/models/patterns.py: find_maximal_repeats", "prolothar_common/models/patterns.py: is_maximal_pair", "prolothar_common/models/suffix_tree.py: SuffixTree"]}
{"id": "C95", "title": "Super maximal repeats", "statement": "find_super_maximal_repeats returns, each once and shortest first, exactly the words of at least min_length that occur at least twice and are not part of a longer word occurring at least twice; every repeated word of at least min_length is part of a returned word.", "quantifier": "all non-empty sequences without the sentinel, all minimal lengths", "why_tests_cant": "completeness over all repeated substrings", "anchors": ["prolothar_common/models/patterns.py: find_super_maximal_repeats", "prolothar_common/models/suffix_tree.py: SuffixTree"]}
{"id": "C96", "title": "Maximal repeats over a log", "statement": "get_maximal_repeats_over_log returns words of at least min_length which occur at least twice in the log (in one or several traces, never across trace borders), and every word of at least min_length that occurs at least twice in the log is part of a returned word.", "quantifier": "all logs (not empty, at least one event or two traces) whose traces contain neither sentinel nor separator; min_length >= 1", "why_tests_cant": "all logs", "anchors": ["prolothar_common/models/patterns.py: get_maximal_repeats_over_log"]}
{"id": "C97", "title": "A simulation step fires a conflict-free set of enabled transitions", "statement": "Whatever is chosen at random, one simulation step never raises unless a guard raises; there is a set of transitions which were all enabled with accepting guards and share no input place, such that the new marking is the old one after firing this set; an enabled transition which does not compete with others is in the set. If a guard raises, nothing changes.", "quantifier": "all well-formed nets, markings, guards and random choices", "why_tests_cant": "Random choices and all nets.", "anchors": ["prolothar_common/models/data_petri_net.py: DataPetriNet.simulate_one_timestep"]}
{"id": "C98", "title": "A copied net is equal and independent", "statement": "copy succeeds on nets without negative token counts, has the same places, transitions, arcs, guards, labels and tokens, new variable objects with the same values, and does not change existing objects. Disagreement: the guards of the copy still read the variables of the original.", "quantifier": "all well-formed nets and variable values", "why_tests_cant": "All nets and all later assignments.", "anchors": ["prolothar_common/models/data_petri_net.py: DataPetriNet.copy"]}
{"id": "C99", "title": "Workflow nets", "statement": "get_source_sink_places returns exactly the places with only outgoing and only incoming arcs; is_workflow_net holds iff there is exactly one of each; transform_to_workflow_net, when it succeeds on a net with a source and a sink, returns a workflow net in which everything that existed is unchanged and every addition is an empty place or an invisible unguarded transition. It fails exactly if the joined ids or a source place id are already in use.", "quantifier": "all well-formed nets", "why_tests_cant": "All nets.", "anchors": ["prolothar_common/models/data_petri_net.py: get_source_sink_places, is_workflow_net, transform_to_workflow_net, _introduce_new_source_place, _introduce_new_sink_place"]}
{"id": "C100", "title": "Pruning keeps the visible behaviour", "statement": "prune removes only invisible transitions and always succeeds; the source places and the sink places stay the same, and the remaining places are exactly those with an arc; for a safe net that is marked on source places only, the same sequences of visible transitions can be fired before and after, and the markings reachable after pruning are those the original net reaches after completing its invisible moves. If at most one transition is invisible, it is removed exactly if it has no guard, one input place and a different output place, is the only consumer of the input place, and the input place has a producer.", "quantifier": "all nets built with the API, all valuations of the variables, all firing sequences", "why_tests_cant": "Language equality over unbounded firing sequences and all nets.", "anchors": ["prolothar_common/models/data_petri_net.py: DataPetriNet.prune"]}
{"id": "C101", "title": "Nets built with the API are consistent", "statement": "After any sequence of add_place, add_transition, add_variable, add_connection, set_guard_function, set_marking and force_transition calls, ids are unique, arcs lead to places of the net, and each place knows exactly the transitions consuming from it; duplicate ids, negative tokens and unknown ids raise a ValueError.", "quantifier": "all call sequences", "why_tests_cant": "All call histories.", "anchors": ["prolothar_common/models/data_petri_net.py: add_place, add_transition, add_variable, add_connection"]}
{"id": "C102", "title": "Copies of datasets are independent", "statement": "copy returns a dataset with the same attributes and an own copy of each instance (same id, features and target); existing instances are unchanged, and later operations on one dataset do not affect the other.", "quantifier": "all datasets", "why_tests_cant": "All datasets and later histories.", "anchors": ["prolothar_common/models/dataset/dataset.py: Dataset.copy", "prolothar_common/models/dataset/instance.pyx: copy"]}
{"id": "C103", "title": "Quantile discretization puts every value into the interval that contains it", "statement": "With at least two bins, every numerical attribute becomes categorical. An attribute with more different values than bins gets at most that many disjoint intervals whose borders are the quantiles of its values in ascending order, and each value becomes the label of the interval that contains it; otherwise values become their text. One bin raises IndexError, no bins ValueError.", "quantifier": "all consistent datasets, all bin numbers", "why_tests_cant": "All datasets and bin numbers; interpolation and ties.", "anchors": ["prolothar_common/models/dataset/transformer/quantile_based_discretization.py: QuantileBasedDiscretization"]}
{"id": "C104", "title": "Attribute removal removes exactly the right attributes", "statement": "RemoveAttributesWithOneUniqueValue removes exactly the attributes with one value; SelectAttributes keeps exactly the selected attributes. Ids, targets and the remaining values are unchanged and the dataset stays consistent.", "quantifier": "all consistent datasets and name sets", "why_tests_cant": "All datasets.", "anchors": ["prolothar_common/models/dataset/transformer/remove_attrs_with_one_value.py", "prolothar_common/models/dataset/transformer/select_attributes.py"]}
{"id": "C105", "title": "Noise on target sequences does what it says", "statement": "Added noise inserts at most one event of the alphabet per gap and keeps the sequence as subsequence; removed noise leaves a subsequence of exactly the events whose draw exceeds the probability; swap noise is a rearrangement in which, without multiple swaps, no event moves by more than one position; the exchanges happen exactly where the next number is below the probability. Features and ids are unchanged. Probability 0 changes nothing, except that removal drops the events for which the generator draws exactly 0. If the generator draws each of the N numbers 0/N, ..., (N-1)/N with the same probability and independently, the number of removed events is binomially distributed with n trials, and the number of inserted events with n + 1 trials; the success probability differs from the requested one by at most 1/N, and for removals it is always above it.", "quantifier": "all sequences, probabilities and random streams", "why_tests_cant": "All random streams.", "anchors": ["prolothar_common/models/dataset/transformer/target_sequence_add_noise.py", "prolothar_common/models/dataset/transformer/target_sequence_remove_noise.py", "prolothar_common/models/dataset/transformer/target_sequence_swap_noise.py"]}
{"id": "C106", "title": "transform without inplace leaves the original untouched", "statement": "transform(dataset, inplace=False) leaves the given dataset and all its instances unchanged; the result has new instances, one per instance of the original.", "quantifier": "all transformers and datasets", "why_tests_cant": "All datasets; aliasing.", "anchors": ["prolothar_common/models/dataset/transformer/dataset_transformer.py: DatasetTransformer.transform"]}
{"id": "C107", "title": "One-hot activity encoding of traces", "statement": "The encoded log has one row for every trace and one column for every activity of the log; an entry is 1 if and only if the activity occurs in the trace, so two traces have the same row if and only if they have the same set of activities.", "quantifier": "all event logs", "why_tests_cant": "All logs.", "anchors": ["prolothar_common/clustering/traces/encoder/activity_one_hot_encoding.py: encode_log"]}
{"id": "C108", "title": "sequence: executions are concatenations", "statement": "sequence(p, q) of two patterns either raises ValueError or returns a pattern with one source and one sink. If p completes properly (no tokens left when the sink is marked), the observable executions of the result (labels and high level activities of the visible transitions) are exactly an execution of p followed by an execution of q, and the result completes properly if q does. It never raises if transition ids contain no commas. p and q may share ids.", "quantifier": "all well-formed patterns, all valuations of guard variables, executions of any length", "why_tests_cant": "Executions are unbounded and ids may collide in any way.", "anchors": ["prolothar_common/models/activity_pattern.py: sequence", "prolothar_common/models/activity_pattern.py: _prepare_composition"]}
{"id": "C109", "title": "parallel: executions are shuffles", "statement": "parallel(p, q) either raises ValueError or returns a pattern whose executions are exactly the interleavings of an execution of p with an execution of q; it completes properly if both do. It always raises ValueError if p has a transition with the id of its source place.", "quantifier": "all well-formed patterns, all valuations, executions of any length", "why_tests_cant": "All interleavings of unbounded executions.", "anchors": ["prolothar_common/models/activity_pattern.py: parallel"]}
{"id": "C110", "title": "repetition: one or more executions", "statement": "repetition(p) always succeeds. If p completes properly, the executions of the result are exactly one or more executions of p one after the other, and the result completes properly.", "quantifier": "all well-formed patterns, all valuations, any number of repetitions", "why_tests_cant": "Unbounded number of repetitions.", "anchors": ["prolothar_common/models/activity_pattern.py: repetition"]}
{"id": "C111", "title": "choice: executions of either pattern", "statement": "choice(p, q) either raises ValueError or returns a pattern whose executions are exactly those of p and those of q; it completes properly if both do. It never raises if the ids of places contain no commas.", "quantifier": "all well-formed patterns, all valuations, executions of any length", "why_tests_cant": "All patterns and executions.", "anchors": ["prolothar_common/models/activity_pattern.py: choice"]}
{"id": "C112", "title": "interleaving: executions of both patterns in either order", "statement": "interleaving(p, q) should execute p and q one after the other, in either order. (Violated: the result has no complete execution at all, for every p and q.)", "quantifier": "all well-formed patterns, all valuations, executions of any length", "why_tests_cant": "That no execution exists cannot be shown by running some.", "anchors": ["prolothar_common/models/activity_pattern.py: interleaving"]}
{"id": "C113", "title": "Nested compositions mean what they say", "statement": "A pattern that is built by nesting sequence, choice, parallel and repetition has exactly the executions the expression stands for and completes properly, if the patterns at the leaves do.", "quantifier": "all expressions of any depth over well-formed patterns that complete properly", "why_tests_cant": "Expressions of any depth; ids are renamed again and again.", "anchors": ["prolothar_common/models/activity_pattern.py: sequence", "prolothar_common/models/activity_pattern.py: choice", "prolothar_common/models/activity_pattern.py: parallel", "prolothar_common/models/activity_pattern.py: repetition"]}
{"id": "C114", "title": "Construction, markings, copies and pruning of activity patterns", "statement": "The constructor returns a pattern whose net has exactly one source and one sink, unchanged if the given net already has; a string names all transitions; with a dictionary ValueError is raised if and only if a visible transition is missing (for workflow nets). The standard initial (final) marking has one token on the source (sink), none elsewhere, and covers exactly the places. A copy has the same executions. Pruning keeps all visible transitions and the names of the transitions that remain, and removes the other names. The result is again a pattern with the same source and sink; if no place of the pattern ever carries two tokens, it has exactly the same executions, and it completes properly (is sound) if the pattern does (is). Otherwise executions can be added.", "quantifier": "all well-formed nets, maps and patterns", "why_tests_cant": "All nets and maps.", "anchors": ["prolothar_common/models/activity_pattern.py: ActivityPattern"]}
{"id": "C115", "title": "choice_list: executions of any of the patterns", "statement": "choice_list of two or more patterns returns a pattern whose executions are exactly those of the given patterns and which completes properly if all do; it succeeds if ids contain no commas and ids of places no quotes. With fewer than two patterns it raises ValueError. (If a renamed place gets the id of another place of the same pattern, that place is lost.)", "quantifier": "all lists of well-formed patterns, all valuations, executions of any length", "why_tests_cant": "Any number of patterns with colliding ids.", "anchors": ["prolothar_common/models/activity_pattern.py: choice_list"]}
{"id": "C116", "title": "Edits, queries and equality of nested graphs", "statement": "After add_node the node is found under its id and all others as before. After add_edge the graph has exactly the old edges and the new one, none twice; remove_edge of an edge that is not in the graph raises a KeyError and otherwise removes exactly that edge. get_nodes_by_label, get_children, has_children, get_outgoing_edges, get_ingoing_edges, get_source_nodes and get_sink_nodes return exactly the nodes or edges with the named property. get_edge_by_source_and_target returns an edge between the two nodes and raises a ValueError exactly if there is none. Two graphs compare equal iff they have the same node ids with equal parents and attributes and the same edges; labels of nodes do not matter.", "quantifier": "all nested graphs built by add_node and add_edge, all nodes, edges, ids and labels", "why_tests_cant": "a test looks at a few graphs; the claims are about every graph, every order of the set of edges and every pair of graphs", "anchors": ["prolothar_common/models/nested_graph.py: NestedGraph.add_node, add_edge, remove_edge, get_nodes_by_label, get_edge_by_source_and_target, has_children, get_children, get_outgoing_edges, get_ingoing_edges, get_source_nodes, get_sink_nodes, __eq__, Node.__eq__, Edge.__eq__"]}
{"id": "C117", "title": "The table of an event log has one row per event with every value under its own name", "statement": "to_pandas_df returns a table with the columns trace (if wanted), the sorted trace attribute names, Activity and the sorted event attribute names, and one row per event in the order of the log, where every cell holds the attribute the column is named after. If the first trace has no events IndexError is raised; if a row is longer than the first one ValueError is raised, and shorter rows are filled with empty cells.", "quantifier": "all non-empty event logs whose traces agree in their attribute names and whose events agree in theirs", "why_tests_cant": "the claim is about every log and every set of attribute names; alignment by sorting is only seen for several names and orders", "anchors": ["prolothar_common/models/eventlog/eventlog.py: EventLog.to_pandas_df"]}
{"id": "C118", "title": "Reading the table of an event log gives the log back", "statement": "create_from_pandas_df on the table made by to_pandas_df returns the same traces, sorted by id, with the same activities in the same order and the same attributes, plus the trace id as an additional trace attribute. An unknown column of trace ids raises KeyError, an unknown activity column AttributeError.", "quantifier": "all event logs with distinct trace ids and uniform attribute names", "why_tests_cant": "the round trip must hold for every log", "anchors": ["prolothar_common/models/eventlog/eventlog.py: EventLog.to_pandas_df, EventLog.create_from_pandas_df"]}
{"id": "C119", "title": "The csv export determines the activities of all traces", "statement": "write_to_csv writes a header line and one line per event, in order, with the position of the trace and the name of the activity; two logs without line breaks in activity names give the same file exactly if they have the same activities at every position, where a trace without events is the same as no trace; logs without empty traces that give the same file have the same activity sequences.", "quantifier": "all event logs, all separators that do not start with a digit or contain a line break", "why_tests_cant": "injectivity is a claim about all pairs of logs", "anchors": ["prolothar_common/models/eventlog/eventlog.py: EventLog.write_to_csv"]}
{"id": "C120", "title": "Durations derived from end dates", "statement": "derive_event_duration_by_end_date gives every event without a start date the end date of the event before it (the first event: its own end date) and every event the duration end minus start, changes nothing else, and raises a ValueError iff some duration would be negative (all end dates being present). Without start dates this means that the end dates are sorted. After an exception everything before the offending event has its duration, the offending event has changed at most in its start date and duration, and everything after it is unchanged. Calling the method again changes nothing more and raises the same exception, if any.", "quantifier": "all event logs, all attribute names, all dates", "why_tests_cant": "the claim is about every log and every history of dates, including where the exception is raised", "anchors": ["prolothar_common/models/eventlog/eventlog.py: EventLog.derive_event_duration_by_end_date"]}
{"id": "C121", "title": "Statistics of event logs", "statement": "The trace statistics of a non-empty log are the number of traces, the number of distinct activity sequences and the least, mean and greatest trace length; the variant table has exactly one row per distinct activity sequence with the number of its traces, and different variants have different row names if no activity name contains a comma followed by a blank; the activity table has exactly one row per activity, sorted, with the number of its events and of its traces, the aggregates of the chosen attributes over exactly its events, its relative frequencies, and the conditional probabilities of being (at) the start or end of a trace; if a trace attribute is named as the trace id, traces are counted by the distinct values of that attribute, which gives the same table when the attribute tells traces apart exactly as the ids do, and a KeyError if there is no such column; the frequencies and start/end probabilities sum to one. count_nr_of_events and compute_activity_supports count every event once. (Deviation: events without a value of the attribute that is named as the trace id are not counted.)", "quantifier": "all event logs (for the activity table: with uniform attribute names and non-empty traces), all aggregation functions and columns", "why_tests_cant": "the numbers must be right for every log, and the Bayes-style reformulation of P(start|a) must agree with counting for all of them", "anchors": ["prolothar_common/models/log_statistics.py", "prolothar_common/models/eventlog/eventlog.py: EventLog.count_nr_of_events, compute_activity_supports"]}
{"id": "C122", "title": "Copies of event logs are independent", "statement": "A program that creates event logs, copies them with EventLog.copy and changes logs and traces (adding traces, cutting, filtering, adding start and end activities, keeping first occurrences, setting ids and trace attributes, appending events) behaves as if every variable held its own value: a copy shows the value of the original at the time of copying, and no later change of one log is visible in another one. Event objects are shared between a log and its copies: changing an attribute of an event, or joining events, through a copy changes the original; joining in a log without shared events has the documented effect and changes no other log. The parts of train_test_split share the trace objects.", "quantifier": "all programs (sequences of operations on any number of logs), all reachable heaps", "why_tests_cant": "aliasing errors only show up for particular histories of operations on particular copies", "anchors": ["prolothar_common/models/eventlog/eventlog.py: EventLog.copy, cut_traces, filter_activities, add_start_activity_to_every_trace, add_end_activity_to_every_trace, keep_first_occurence_of_activity_only, join_sucessive_events_with_same_activity, train_test_split", "prolothar_common/models/eventlog/trace.pyx: Trace"]}
{"id": "C123", "title": "Sizes, in-degree and equality of directly-follows graphs", "statement": "get_nr_of_nodes and get_nr_of_edges report the number of nodes and edges; compute_indegree reports the number of predecessors of a node and raises KeyError for an unknown node. Two graphs are equal exactly if they have the same nodes and the same edges with the same counts, in whatever order they were built; a copy equals its original. An edge with count 0 distinguishes two graphs although all count queries agree.", "quantifier": "all graphs built by any history of operations, all activities", "why_tests_cant": "equality must be independent of the construction history, of which there are infinitely many", "anchors": ["prolothar_common/models/directly_follows_graph.pyx: get_nr_of_nodes, get_nr_of_edges, __eq__, plot, copy, compute_indegree"]}
{"id": "C124", "title": "Counts of classification datasets", "statement": "After any history of calls, get_class_count is the number of instances with the label and get_set_of_classes the set of labels of the instances; get_count_for_category and get_count_for_category_and_class are the numbers of instances with that value (and class) of a categorical attribute. Parts of a dataset (subsets, splits) have correct counts. Violations: asking for the count of an unknown label makes it a class of the dataset, and categorical attributes added to a non-empty dataset are not counted.", "quantifier": "all histories of calls on a classification dataset, all attribute names, values and labels", "why_tests_cant": "incrementally maintained counters must agree with a recount after every history", "anchors": ["prolothar_common/models/dataset/classification_dataset.py: ClassificationDataset.add_instance, remove_attribute, get_count_for_category, get_count_for_category_and_class, get_class_count, get_set_of_classes"]}
{"id": "C125", "title": "Targets of multi-label, multiset and sequence datasets", "statement": "After any history of calls, the labels (classes, symbols) reported by a multi-label (multiset, target sequence) dataset are exactly those of its instances; the counters of a multiset dataset hold the sums and the maxima of the multiplicities; the unique sequences are the set of target sequences; get_sequences_ordered_by_frequency lists every sequence once, ordered by frequency and then by the summed frequency of its events. Violations: set_target_sequence leaves the recorded symbols unchanged, and copies of multi-label instances share the label set.", "quantifier": "all histories of calls, all instances and sequences", "why_tests_cant": "incrementally maintained sets must agree with the instances after every history; ordering must hold for all multisets of sequences", "anchors": ["prolothar_common/models/dataset/multilabel_dataset.py: MultiLabelDataset.add_instance, get_set_of_labels", "prolothar_common/models/dataset/multiset_dataset.py: MultisetDataset.add_instance, get_set_of_classes", "prolothar_common/models/dataset/target_sequence_dataset.py: add_instance, get_set_of_sequence_symbols, compute_set_of_unique_sequences, get_sequences_ordered_by_frequency", "prolothar_common/models/dataset/instance.pyx: MultiLabelInstance.copy, TargetSequenceInstance.set_target_sequence"]}
{"id": "C126", "title": "Writing and reading datasets as ARFF", "statement": "export_to_arff writes one header line per attribute (sorted categories) and one row per instance, with exactly the documented text; Dataset.create_from_arff of an export gives the same attributes, the same number of instances in the same order with ids 0, 1, ..., and the printed feature values, if names and categorical values contain no quotes, spaces and line breaks and numbers print without commas and braces. Sparse rows are read with 0 for attributes that are not listed. == on datasets holds exactly if the exports are equal; it is true for datasets with the same printed content in the same order. Known deviations: a space in a name or in a category makes the own export unreadable (ValueError), datasets without attributes lose their instances, == depends on the order of the instances and ignores ids, mixed categories raise TypeError, sparse rows accept integers only. An attribute type other than {...} and numeric raises NotImplementedError.", "quantifier": "all datasets, heaps, printing functions, relation names and sparse files", "why_tests_cant": "Round trips fail only for particular characters and shapes of datasets; a test picks a few literals.", "anchors": ["prolothar_common/models/dataset/dataset.py:Dataset.export_to_arff", "prolothar_common/models/dataset/dataset.py:Dataset.create_from_arff", "prolothar_common/models/dataset/dataset.py:Dataset.__eq__"]}
{"id": "C127", "title": "Writing and reading datasets with targets as ARFF", "statement": "MultiLabelDataset, MultisetDataset and TargetSequenceDataset: create_from_arff of the own export gives the same attributes (for labels and multisets in any order) and printed feature values and, for every instance, the same label set, the same counts (with explicit zeros), and the same sequence if it was written with a comma as separator, is not empty and its symbols contain no commas. The export of a classification dataset reads as a plain dataset with the class as further categorical attribute. Known deviations: an export without labels or without attributes raises IndexError when read; with the default separator \";\" every sequence becomes a single symbol; an empty sequence becomes the sequence with the empty symbol. The text of the export is that of the plain dataset with one further column per label or element in ascending order (0/1 or the multiplicity), or one further column with the sequence in brackets or the class.", "quantifier": "all histories of datasets, prefixes, separators, relation names", "why_tests_cant": "The losses depend on the separator, on empty targets and on empty label sets, which sample files do not contain.", "anchors": ["prolothar_common/models/dataset/multilabel_dataset.py:MultiLabelDataset", "prolothar_common/models/dataset/multiset_dataset.py:MultisetDataset", "prolothar_common/models/dataset/target_sequence_dataset.py:TargetSequenceDataset", "prolothar_common/models/dataset/classification_dataset.py:ClassificationDataset._add_attributes_definition_to_arff, _add_instance_to_arff"]}
{"id": "C128", "title": "Petri nets to and from pm4py", "statement": "convert_data_petri_net_to_pm4py keeps the places and transitions (names with the prefixes p and t), gives exactly the visible transitions a label, writes every arc once and puts one token on each source (initial marking) and each sink (final marking). convert_pm4py_to_data_petri_net builds a consistent net with exactly the places, transitions, arcs and tokens; equal names and negative numbers of tokens raise ValueError. The round trip of a net built with the class' methods allows exactly the same firing sequences. Known deviations: a transition without input or without output place (possible after an import from pm4py) loses all arcs, a transition in a loop with a place of the same id loses its output arc, the current marking and guards are not converted. An arc whose place or transition does not belong to the net raises KeyError.", "quantifier": "all nets, markings and firing sequences", "why_tests_cant": "Arcs are deduplicated by pairs of ids in nested loops; the losses occur only for particular shapes and ids, and equality of behaviour ranges over all firing sequences.", "anchors": ["prolothar_common/pm4py_utils.py:convert_data_petri_net_to_pm4py", "prolothar_common/pm4py_utils.py:convert_pm4py_to_data_petri_net"]}
{"id": "C129", "title": "Event logs to and from pm4py", "statement": "convert_eventlog_to_pm4py followed by convert_pm4py_log keeps number and order of traces, ids, activities and trace attributes, adds the trace attribute concept:name, and replaces the attributes of events by the activity. convert_pm4py_log keeps all attributes of traces and events of a pm4py log; the first trace without id or activity raises KeyError, with a non-string activity TypeError, without events ValueError. Known deviation: a trace attribute concept:name overwrites the id.", "quantifier": "all logs, attribute names and values", "why_tests_cant": "Which attributes survive depends on arbitrary attribute names; a sample log does not use the reserved name.", "anchors": ["prolothar_common/pm4py_utils.py:convert_eventlog_to_pm4py", "prolothar_common/pm4py_utils.py:convert_trace_to_pm4py", "prolothar_common/pm4py_utils.py:convert_pm4py_log"]}
{"id": "C130", "title": "Equality and hashing of events, nodes and edges", "statement": "For events, complex events, nodes and edges of directly-follows graphs and nodes and edges of nested graphs, objects that compare equal have equal hashes (or both cannot be hashed), == on events is an equivalence, and therefore a set of such objects keeps one representative of every class of equal objects and `in` finds exactly the objects equal to a member. Traces break this contract: two equal traces with different ids hash differently, so a set of traces keeps both; complex events and events of the same activity cannot be compared (AttributeError); < on edges is not an order.", "quantifier": "all events, complex events, traces, nodes and edges; all lists of objects put into a set; all hash functions of strings, tuples and values that respect equality of the values", "why_tests_cant": "the hash contract is a statement about all pairs of objects and all hash functions; hash collisions and equal-but-different objects are exactly what samples miss", "anchors": ["prolothar_common/models/eventlog/event.pyx: Event.__eq__, __hash__", "prolothar_common/models/eventlog/complex_event.pyx", "prolothar_common/models/eventlog/trace.pyx: Trace.__eq__, __hash__", "prolothar_common/models/dfg/edge.pyx", "prolothar_common/models/dfg/node.pyx", "prolothar_common/models/nested_graph.py"]}
{"id": "C131", "title": "Ranks and edge widths in plots of directly-follows graphs", "statement": "With use_topological_order the k-th rank of the plot consists of the nodes whose shortest distance from a source node (a node that nothing but itself leads to) is k; nodes that cannot be reached from a source are in no rank, and the ranks are not a topological order. With random_walk_alignment=(start,stop,n) every node is in exactly one rank, namely the rounded average of its positions in n simple random walks from start, 0 if no walk visits it after its start. Every edge gets exactly one line; with counts_as_edge_weight its width is the linear interpolation of the count between the two bounds, but 1 if all counts are equal. A whole plot fails exactly if its ranks cannot be computed; without ranks it never fails and both ends of every edge line have a node line. The plotted graph is not changed.", "quantifier": "all graphs built by the API, all sequences of random choices, all weight bounds", "why_tests_cant": "ranks depend on all paths of the graph and on random choices", "anchors": ["prolothar_common/models/directly_follows_graph.pyx: DirectlyFollowsGraph.plot"]}
{"id": "C132", "title": "BufferingChoice is a stream of the drawn batches", "statement": "The samples returned by next_sample are, one after the other, the elements of the batches the random generator returns: none is lost or repeated where one buffer ends and the next one starts, and a batch is only drawn when it is needed. Every sample is one of the options. The constructor raises ValueError iff the numbers of options and probabilities differ or the buffer size is below 1. If the generator refuses to draw, the exception reaches the caller and the object is as before.", "quantifier": "all option lists, buffer sizes, random generators (any function that returns a batch and a new state, or raises) and numbers of calls", "why_tests_cant": "The behaviour at buffer boundaries depends on buffer size and number of calls; tests only see a few of them with one seed.", "anchors": ["prolothar_common/random_utils.py: BufferingChoice"]}
{"id": "C133", "title": "Small utilities: Min, colors, progress bar, stopwatch", "statement": "Min together with the values of any totally ordered type is a total order with Min as smallest element, with all six comparison operators consistent (Min itself is unhashable). A gray color is light iff its value exceeds 127.5, and brightening a light color keeps it light. For iterations from 0 to total the progress bar has exactly the requested length, is filled proportionally and is full only at the end; beyond the total it is too long, and total 0 raises ZeroDivisionError. A stopwatch reports the time since its last start and raises AttributeError if never started.", "quantifier": "all values of a totally ordered type, all real colors, all integers as iteration, total and length, all sequences of starts", "why_tests_cant": "Order laws and the length of the bar range over all values.", "anchors": ["prolothar_common/func_tools.py: Min", "prolothar_common/color_utils.py: is_light_or_dark_rgb", "prolothar_common/console_utils.py: print_progress_bar", "prolothar_common/experiments/stopwatch.py: Stopwatch"]}
{"id": "C134", "title": "Timeouts: fast calls are undisturbed, slow calls are interrupted, late interrupts exist", "statement": "A decorated function whose call is over before s seconds passes its value or exception through and causes no KeyboardInterrupt, under every schedule of the timer thread. No interrupt is sent before s seconds have passed and at most one is sent per call. If the function does not end and neither the timer thread nor the main thread is starved, KeyboardInterrupt is raised in the main thread. A call made in another thread is never interrupted itself. (Deviation: when the function ends about when the time is over, its result can be lost or the interrupt can strike the caller after the call has returned; and calls from other threads interrupt the main thread instead.)", "quantifier": "all timeouts, all functions (any outcome at any time), all interleavings of calling thread, timer thread and main thread, infinite executions for the liveness part", "why_tests_cant": "Races between the timer and the end of the function occur in few schedules, and a test cannot choose the schedule.", "anchors": ["prolothar_common/timeout.py: timeout", "prolothar_common/timeout.py: quit_function"]}
{"id": "C135", "title": "Discretization with learned bins", "statement": "TrainableQuantileBasedDiscretization: training learns the bins pandas computes for exactly the numerical attributes. Transforming a dataset makes its numerical attributes categorical and replaces every value by the text of the bin that contains it, and a value above all bins by the text of the last bin; larger values never get an earlier bin. An attribute without learned bins raises KeyError. Nothing else in the dataset changes. (Deviation from the comment in the code: a value below the smallest bin is put into the last bin as well.)", "quantifier": "all consistent datasets with numbers in their numerical attributes, all consecutive left-open bins, all functions that compute bins", "why_tests_cant": "The value-to-bin assignment must hold for every value including the boundaries and values never seen in training.", "anchors": ["prolothar_common/models/dataset/transformer/trainable_q_based_discretization.py: TrainableQuantileBasedDiscretization"]}
{"id": "C136", "title": "Data of bar plots, histograms, plot grids and heatmaps", "statement": "plot_counts draws one bar per different value whose height is its number of occurrences, ordered as requested (by value; by frequency with ties in order of first occurrence), and the heights sum up to the number of values; no values or an unknown order raise ValueError. plot_histogram without a number of bins uses the rounded down square root of the number of values. In a grid of plots of any shape get_axes(row, col) is the subplot in that row and column and the list of axes contains all of them row by row. plot_heatmap labels every row and column with its own label and rejects wrong shapes. annotate_heatmap writes one text per cell at its position, in the second color iff the normed value exceeds the normed threshold. (Deviation: annotation data given as a python list, which the code lets through, always raises AttributeError.) A heatmap without cells cannot be annotated without a threshold (ValueError).", "quantifier": "all lists of values of a linearly ordered type, all orders, all grid shapes, all matrices, labels, norms and thresholds", "why_tests_cant": "Ties, one-row and one-column grids and cell positions must be right for every input; tests look at a few pictures.", "anchors": ["prolothar_common/experiments/plots/histogram.py: plot_counts, plot_histogram", "prolothar_common/experiments/plots/plot_context.py: GridPlotContext", "prolothar_common/experiments/plots/heatmap.py: plot_heatmap, annotate_heatmap"]}
{"id": "C137", "title": "Clustering of activities", "statement": "ActivityKMedoid needs a log with at least one trace of two or more events (ValueError otherwise). The dissimilarity of two activities is a symmetric number in [0,1), given by how often they follow each other in any order relative to the most frequent pair. Hard clustering assigns every activity of the log (and nothing else) to the first cluster whose medoid is least dissimilar; fuzzy clustering terminates and gives every activity positive memberships that sum up to 1 and are proportional to exp(-10 * dissimilarity to the medoid). The requested number of medoids, all activities of the log, is returned; a number that is not positive or too large raises ValueError. Every medoid is in its own cluster unless two different activities follow each other in both directions as often as the most frequent pair. (Deviation: in that case clusters can be empty, e.g. for the traces ab and ba.)", "quantifier": "all logs, iteration orders of the activity set, numbers of clusters and shuffles, in exact arithmetic", "why_tests_cant": "All logs and all random choices; termination of an iterative optimisation.", "anchors": ["prolothar_common/clustering/activities/activity_k_medoid.py: ActivityKMedoid"]}
{"id": "C138", "title": "Conversion of sequence datasets to event logs", "statement": "Converting a dataset with target sequences yields one trace per instance in the same order: the instance's id, one attribute-free event per symbol, and the features as trace attributes; trace ids are different and the activities of the log are exactly the symbols of the dataset. An instance with an empty target sequence raises ValueError. The trace attributes are the instance's features themselves: later changes of features show in the log and vice versa. (Deviation: adding an attribute to a trace makes the dataset inconsistent, because its instance then has a feature that is no attribute of the dataset.)", "quantifier": "all histories of operations that build sequence datasets, and all later changes of the instances", "why_tests_cant": "All datasets; aliasing shows only after later changes.", "anchors": ["prolothar_common/models/converter/dataset_to_eventlog_converter.py: DatasetToEventLogConverter", "prolothar_common/models/eventlog/trace.pyx: Trace.__init__"]}
{"id": "C139", "title": "Ray engine", "statement": "For every order in which the cluster runs the submitted tasks, the ray engine's map returns the results in the order of the list, exactly like the single thread engine, and raises the exception of the first failing element of the list; map_reduce combines the results from left to right for any operation (no associativity or commutativity needed) and raises TypeError for an empty list; map_filter returns the kept results in the order of the list and raises the exception of the first element whose mapping or filtering fails. No call can block forever: every execution is finite and ends with a result or an exception. If no function raises, all three return what the single thread engine returns.", "quantifier": "all lists (also empty ones), pure functions, operations and schedules of the remote tasks", "why_tests_cant": "The number of schedules grows exponentially with the number of tasks, and a cluster's schedule cannot be controlled by a test.", "anchors": ["prolothar_common/parallel/ray/partitionable/ray_partitionable_list.py: RayPartitionableList", "prolothar_common/parallel/single_thread/partitionable/local_partitionable_list.py: LocalPartitionableList"]}
{"id": "C140", "title": "Clustering of traces by their activities", "statement": "Clustering a non-empty log puts every trace into exactly one cluster or the outliers, whatever encoder and algorithm is used, as long as the algorithm gives one label per trace; errors are passed on and an empty label vector raises ValueError. The distance of two one-hot encoded traces is determined by the number of activities that occur in exactly one of them, independent of the iteration order of the activity set. dbscan with an epsilon below 1 (default 0.5) returns as clusters exactly the groups of at least min_samples (default 5) traces with the same set of activities, and all other traces as outliers. The sgt encoder's dropping of zero columns keeps one row per trace and all distances.", "quantifier": "all logs, encoders, algorithms, orders of the activity set, and all labels that satisfy the definition of DBSCAN", "why_tests_cant": "All logs and iteration orders; the property of dbscan relates all pairs of traces.", "anchors": ["prolothar_common/clustering/traces/vector_based_clustering.py: VectorBasedClustering.cluster", "prolothar_common/clustering/traces/one_hot_activity_clustering.py: dbscan, optics", "prolothar_common/clustering/traces/encoder/activity_sgt.py: ActivitySgt.encode_log"]}
{"id": "C141", "title": "Files of the result collector", "statement": "save_plots appends to the text file of every result type one block per plotted miner (those with the most plotted values), in column order, exactly once per call, and keeps what was in the file; a block lists the positions and the plotted values and, for line plots, the standard deviations and errors of the positions with several values (if there are any) and the minimum, maximum and number of values of every position in ascending order; it writes for every result type a pdf with and without legend and, for line plots where some miner has several values at a position, further ones with standard deviation and standard error bars; no other file is touched. Bars are drawn exactly where a plotted miner has more than one value, with different shifts for different miners that are symmetric around the position. The y axis is fixed to [0,1] exactly if all plotted values are in it. (Deviations: result types like f and f_with_legend overwrite each other's plots; the listed standard deviations skip positions with a single value, so they cannot be assigned to positions.)", "quantifier": "all histories of results, both modes, all directories", "why_tests_cant": "All histories and directory states.", "anchors": ["prolothar_common/experiments/result_collector.py: ResultCollector.save_plots, PlotMode._plot_values_for_miners, _LinePlotMode, _ScatterPlotMode"]}
{"id": "C142", "title": "Datasets survive the trip through data frames", "statement": "to_dataframe gives one row per instance in order, indexed by instance id, with the categorical and then the numerical attributes as columns and the features as cells. create_from_pandas of a frame with distinct column names and a unique index gives a consistent dataset with one instance per row, the index as id and exactly the requested columns; other columns are ignored. Composing both gives a dataset with the same attributes, ids and features in the same order. A repeated index value raises ValueError, a missing column KeyError (if there is a row). A requested column name that occurs twice in a data frame with rows raises a TypeError.", "quantifier": "all reachable datasets; all frames of any size, all choices of columns", "why_tests_cant": "The values, column orders and numbers of rows are unbounded; consistency of the resulting dataset depends on every prefix of the rows.", "anchors": ["prolothar_common/models/dataset/dataset.py: Dataset.to_dataframe, Dataset.create_from_pandas"]}
{"id": "C143", "title": "Guards of a data Petri net decide exactly their condition", "statement": "accept() of a guard returns a true value exactly if the guard's condition holds for the current values of the variables, and a false value exactly if the condition is violated. A variable that is None or compares to None makes an order comparison raise a TypeError, and it counts as false for TrueGuard and FalseGuard. AllOfGuard evaluates its guards from left to right up to the first one that does not hold, accepts if there is none, and raises exactly if that first one raises. Assigning a variable no guard refers to never changes a result. If all guards can be evaluated, get_fireable_transitions of a safe marking returns exactly the enabled transitions whose condition holds.", "quantifier": "all guards, nested to any depth, with any user supplied accept functions, all values of the variables, all nets with safe markings", "why_tests_cant": "Guards form an infinite family of nested conditions over unbounded integers, and unset variables can appear anywhere in them.", "anchors": ["prolothar_common/models/data_petri_net.py: LambdaGuard, EqualGuard, SmallerGuard, SmallerOrEqualGuard, GreaterGuard, GreaterOrEqualGuard, TrueGuard, FalseGuard, AllOfGuard, AcceptAlwaysGuard", "prolothar_common/models/data_petri_net.py: DataPetriNet.get_fireable_transitions"]}
{"id": "C144", "title": "Plots show exactly the graph of the plotted object", "statement": "The graphviz source returned by plot of a Petri net, a prefix tree, a transition system or a directly-follows graph (without ranks) declares one node of its own for every place, transition, tree node but the root, state or activity, with the attributes of that object (tokens and labels; invisible transitions filled, and black unless their labels are shown; two border lines for end states; symbol and number of sequences), and its arrows are exactly the arcs, child relations (below the root), transitions or edges, each drawn between declared nodes. For Petri nets and directly-follows graphs this holds if no id or activity contains a colon, because graphviz takes the text behind a colon in the end point of an edge as a port.", "quantifier": "all nets, graphs, sets of sequences and state abstractions built with the API, all outcomes of sorting the states", "why_tests_cant": "Names of nodes must not collide for any ids, numbers of children or states, and all arcs of arbitrary graphs must be drawn.", "anchors": ["prolothar_common/models/data_petri_net.py: DataPetriNet.plot", "prolothar_common/models/prefix_tree/prefix_tree.py: PrefixTree.plot", "prolothar_common/models/labeled_transition_system/labeled_transition_system.py: LabeledTransitionSystem.plot", "prolothar_common/models/directly_follows_graph.pyx: plot"]}
{"id": "C145", "title": "transform_to_workflow_net keeps the behaviour of a Petri net", "statement": "Let n be a Petri net and n' the result of n.transform_to_workflow_net(). From every marking, the firing sequences of n' are the firing sequences of n, preceded by invisible moves of tokens from the new source to the old sources and followed by invisible moves of tokens from the old sinks to the new sink: the visible traces and the final markings correspond exactly. If the new source carries no token (the transformation leaves it empty), n and n' have the same visible traces. If the only token is on the new source, the visible traces of n' are the visible traces of n with a token on one of the old sources. A transition that needs tokens on two old sources can then never fire.", "quantifier": "all nets with consistent cross references for which the transformation succeeds, all variable values, all nonnegative markings, all firing sequences of any length and all final markings", "why_tests_cant": "the claim is about all firing sequences from all markings of all nets; the unit tests compare the structure of one transformed net", "anchors": ["prolothar_common/models/data_petri_net.py: DataPetriNet.transform_to_workflow_net, _introduce_new_source_place, _introduce_new_sink_place"]}
{"id": "C146", "title": "Compiled dynamic programs", "statement": "Levenshtein distance, longest common subsequence and longest common sublists are compiled with 32 bit integers. As long as one more than the total length times the largest absolute edit cost is below 2^31 the edit distance and its edit script are those computed with unbounded integers, whatever the machine does on overflow; the other two programs never overflow for lists of up to 2^31 - 1 elements. Costs outside the range of a C int and sequences of more than 2^31 - 1 elements raise OverflowError, and with two's complement arithmetic a sequence of exactly 2^31 - 1 elements raises ValueError. Larger costs in the range can overflow silently: with all costs 2^31 - 1 the distance of two different symbols is negative.", "quantifier": "all sequences, all costs, all possible results of overflowing C expressions", "why_tests_cant": "overflow depends on the sum along a path through a matrix that is far too large for a test", "anchors": ["prolothar_common/levenshtein.pyx:compute_cost_matrix", "prolothar_common/longest_common_subsequence.pyx", "prolothar_common/collections/list_utils.pyx:longest_common_sublists"]}
{"id": "C147", "title": "Bounded counts of directly-follows graphs", "statement": "The counts of a directly-follows graph are C ints. add_count either adds exactly or raises OverflowError and leaves the graph as it was; no count ever wraps around. read_counts_from_log gives the exact counts whenever these are below 2^31, in particular for every log with less than 2^31 events, and raises OverflowError otherwise, leaving a well-formed graph whose counts lie between the old and the exact ones.", "quantifier": "all graphs obtained by a history of calls, all logs, all counts", "why_tests_cant": "needs logs with more than two billion events", "anchors": ["prolothar_common/models/directly_follows_graph.pyx:add_count", "prolothar_common/models/directly_follows_graph.pyx:read_counts_from_log", "prolothar_common/models/dfg/edge.pxd:Edge"]}
{"id": "C148", "title": "Local frequency filter with floating point numbers", "statement": "filter_edges_by_local_frequency takes its threshold as a single precision float and compares it with a double precision share. The result is the one of exact arithmetic if no share is within a relative distance of 2^-22 of the threshold, and for every threshold k / 2^m with k < 2^24 (0.5, 0.25, 0.375, ...) if no node has an outgoing count above 2^29. For thresholds that are no single precision floats, shares equal to the threshold can be lost: with threshold 0.1 every edge with a share of exactly one tenth is removed.", "quantifier": "all graphs, all thresholds, all counts", "why_tests_cant": "rounding errors only show at isolated combinations of counts and thresholds", "anchors": ["prolothar_common/models/directly_follows_graph.pyx:filter_edges_by_local_frequency"]}
{"id": "C149", "title": "Plot contexts", "statement": "A program with nested PlotContext blocks never swallows an exception. Whether the body of a block raises an exception or not, the figure file holds what the successful calls on the axes of the context have drawn and the log file holds the logged calls (plot, legend, hist, bar, scatter) in the order in which they were made, including one that failed; no other file is touched. If nothing is shown and all figures can be saved then exactly the figures and log files that were open before are open afterwards. If a figure cannot be saved, its figure and log file stay open; if the body opens a further figure, that one is closed in place of the figure of the context.", "quantifier": "all programs of nested contexts, drawing calls and exceptions, all sets of files that cannot be opened or saved", "why_tests_cant": "the crash points inside of nested blocks are unbounded in number", "anchors": ["prolothar_common/experiments/plots/plot_context.py:PlotContext"]}
{"id": "C150", "title": "Running statistics of doubles are sound in spite of rounding", "statement": "For Statistics fed with finite doubles by any sequence of push and merge: len, minimum and maximum are exact; the variance is never negative (so stddev is defined); if only push is used, minimum <= mean <= maximum, and a constant sequence has that constant as mean and variance 0; the mean differs from the exact mean by at most n*2^-50 times the largest absolute value (n*2^-51 without merges); variance(ddof) differs from the exact variance by at most n^2/(n-ddof)*2^-44 times the square of the largest absolute value. After merge the mean can lie outside of [minimum, maximum]: merging Statistics([0.1]) with Statistics([0.1, 0.1]) yields a mean greater than 0.1.", "quantifier": "all finite sequences of doubles (no overflow to infinity), all trees of pushes and merges, up to 2^50 values for the error bound of the mean and 2^45 for that of the variance", "why_tests_cant": "Rounding errors accumulate over arbitrarily long inputs and depend on every bit of every value.", "anchors": ["prolothar_common/experiments/statistics.pyx: Statistics.push, merge, mean, minimum, maximum, variance"]}
{"id": "C151", "title": "The unsigned counter of the statistics does not show", "statement": "The compiled class counts with an unsigned C integer. For every tree of pushes and merges with fewer than 2^64 values, len, mean, minimum, maximum and variance/stddev return what they would return with unbounded integers, for every non-negative number of degrees of freedom that fits into a C int; a number that does not fit raises OverflowError, and a negative one yields NaN. (The third moment, which is stored but never returned, is wrong after merging a larger object into a smaller one.)", "quantifier": "all trees of pushes and merges with fewer than 2^64 values, all integers as degrees of freedom", "why_tests_cant": "Unsigned wrap-around hits only particular orders of counters and huge inputs.", "anchors": ["prolothar_common/experiments/statistics.pxd: Statistics", "prolothar_common/experiments/statistics.pyx: Statistics.push, merge, variance"]}
{"id": "C152", "title": "Code lengths within the range of C integers", "statement": "The code lengths computed with C integers equal those over unbounded integers: L_N for arguments that fit into a C int (OverflowError above); log2binom(n, k) for 0 <= n < 2^31 - 1 and every integer k (minus infinity unless 0 <= k <= n); L_U(m, n) for 1 <= m < 2^31 and every integer n (minus infinity unless 1 <= n <= m); prequential_coding_length if the counts sum up to less than 2^31 (OverflowError for a count that does not fit); L_R for numbers of magnitude up to 2^31 - 1 with a precision of at most eight digits (and, with cython before version 3, numbers of magnitude at least 10^(precision-18)). Beyond these ranges results are wrong: on x86 L_R(3e9) is less than L_R(2e9), the digits do not count from a precision of ten digits on, log2binom(2^31 - 1, k) is NaN, and a sequence of 2^32 symbols has prequential code length 0.", "quantifier": "all integers and real numbers in the ranges, every behaviour of overflowing C arithmetic", "why_tests_cant": "The failing inputs are rare and depend on the platform; the safe range has to be shown for all inputs.", "anchors": ["prolothar_common/mdl_utils.pyx: L_N, log2binom, L_U, prequential_coding_length, L_R", "prolothar_common/mdl_utils.pxd"]}
{"id": "C153", "title": "Pruning composed patterns", "statement": "prune() on a pattern built by sequence or parallel from two patterns without common transition ids succeeds and gives the same result as on a fresh copy, whatever the hash function is; on a net with renamed transitions it succeeds exactly if every transition to be removed still has the hash under which it was stored, and raises KeyError otherwise. For patterns with common ids pruning fails: with x a sequence of two activities, sequence(x, x).prune() and choice_list([x, x]).prune() raise KeyError although x.prune() and a prune after copy() succeed.", "quantifier": "all well-formed patterns, all hash functions", "why_tests_cant": "Whether a stale hash is met depends on the ids of all earlier compositions and on the hash seed.", "anchors": ["prolothar_common/models/data_petri_net.py: DataPetriNet.prune, _prune_transition, Transition.__hash__", "prolothar_common/models/activity_pattern.py: sequence, parallel, choice_list, _prepare_composition, ActivityPattern.prune"]}
{"id": "C154", "title": "Scaling, splitting, set similarities and discretization are sound in spite of rounding", "statement": "With python floats instead of exact numbers: (1) MinMaxScaling of an attribute with two different values (floats or integers) never raises, never reverses the order of two values, maps the least value to exactly the target minimum and no value below it, and differs from the exact result by at most (length + |minimum|) / 2^50; if the length of the target interval is a float, as for the default interval, all results are in the target interval and the greatest value is mapped to exactly the target maximum; otherwise the results can leave the interval by a rounding error, and different values can get the same result. (2) The widths of edges in plots lie between the two given widths, do not decrease with the count and are exact for the extreme counts. (3) train_test_split puts at most n (1 - p) + n / 2^51 and more than n (1 - p) - 1 - n / 2^51 traces into the train log and is exact for multiples of 1/8; with the proportion 0.9 ten traces give an empty train log. (4) The set similarities stay symmetric, in [0, 1], 1.0 exactly for equal (overlap: nested) sets and 0.0 exactly for disjoint sets. (5) QuantileBasedDiscretization gives every value the label of a bucket that contains it, for every rounding of the cut points; the cut points differ from the quantiles by at most max|v| / 2^51; they need not be in ascending order, so buckets can overlap.", "quantifier": "all lists of floats or integers, all target intervals, all logs, shuffles and proportions, all pairs of finite sets, all numbers of bins", "why_tests_cant": "Rounding errors depend on the bits of the numbers; a test observes a few of infinitely many combinations, and the bad ones are rare.", "anchors": ["prolothar_common/models/dataset/transformer/min_max_scaling.py: MinMaxScaling", "prolothar_common/models/dataset/transformer/quantile_based_discretization.py: QuantileBasedDiscretization", "prolothar_common/models/eventlog/eventlog.py: EventLog.train_test_split", "prolothar_common/collections/set_similarity.py", "prolothar_common/models/directly_follows_graph.pyx: DirectlyFollowsGraph.plot"]}
{"id": "C155", "title": "Worker crashes never corrupt a returned parallel result, except for documented silent losses", "statement": "Consider the parallel lists when a worker crashes: the mapped function leaves a worker by something that is no Exception (SystemExit, KeyboardInterrupt, end of the process), a worker process is killed at any moment, or a result or exception cannot be pickled. Processes: under every schedule and every set of crash points, a list returned by map holds the result of every element (in list order if keep_order, else in any order), except results that cannot be pickled, which are missing without an exception; a call that returns had no element that left its worker and no exception other than unpicklable ones; a raised exception is that of some element; map_filter and map_reduce (associative and commutative operation, picklable results) likewise return the sequential result or nothing. If some element leaves its worker and nothing raises, the call neither returns nor raises. No run is infinite; when nothing can move any more the call has returned or raised, or it waits for ever for results while some worker process is dead, and a kill really leads there. After the call has returned or raised no worker process is left running. Threads: a thread that is left this way ends silently: the ordered map gives exactly the sequential outcome on the elements before the first such element of each partition; map_filter filters exactly the results of those elements; map_reduce gives the reduction over the partitions without such an element, or the TypeError of an empty reduce if there is none; the call always ends, and after an exception the other threads go on running.", "quantifier": "all lists, worker counts, functions, exiting elements, unpicklable objects, schedules and crash points", "why_tests_cant": "a test cannot kill workers at every moment of every schedule, nor wait for ever", "anchors": ["prolothar_common/parallel/multiprocess/partitionable/multiprocess_partitionable_list.py: map, map_filter, map_reduce, MapWorker.run, MapFilterWorker.run, MapReduceWorker.run", "prolothar_common/parallel/threading/partitionable/threading_partitionable_list.py: map, map_filter, map_reduce, AbstractWorker.run"]}
{"id": "C156", "title": "Compositions of sound patterns are sound", "statement": "Call a pattern sound if from every marking that can be reached from its standard initial marking its standard final marking can still be reached, no tokens are left when the sink is marked, and every transition with a satisfied guard can fire in some reachable marking. sequence, choice, choice_list, parallel and unbounded_repetition of sound patterns return sound patterns, however deeply they are nested, and no place ever carries two tokens if this holds for the given patterns. What has been observed of such a pattern at any time is a beginning of a complete execution, and every beginning can be observed: no choice made during the execution leads into a dead end. Pruning the result of such a nested composition gives a sound pattern with exactly the same executions. (The result of interleaving is never sound.)", "quantifier": "all well-formed sound patterns, all valuations, all nestings of compositions, all reachable markings", "why_tests_cant": "soundness quantifies over every reachable marking of nets of any size; tests can only fire a few sequences", "anchors": ["prolothar_common/models/activity_pattern.py: sequence, choice, choice_list, parallel, interleaving, unbounded_repetition", "prolothar_common/models/activity_pattern.py: ActivityPattern.prune"]}
{"id": "C157", "title": "Generators between other calls", "statement": "A generator of the library is consumed call by call, and between two calls the object it iterates over may be asked or changed. Transition systems: in every such history the iterator over the transitions yields only transitions recorded at that moment, none twice, and ends either regularly after all transitions recorded at its start or with one RuntimeError; asking about states with outgoing transitions, or asked about before, never disturbs it, while the first question about a state without outgoing transitions always makes it fail, so that a loop over the transitions that looks at their successors fails for every log with the list abstraction. Prefix trees: in every history of appends the level-order traversal yields no node twice, shorter words first, and when it ends all nodes that existed at its start. enumerate_reversed: elements and indices belong together exactly while the length is unchanged; deleting l[i] in the loop is right for at most one deletion and wrong for two. k_folds: traces added between two folds do not change the folds, a removed trace raises IndexError.", "quantifier": "all systems, trees, lists and logs, all histories of questions, changes and calls of next", "why_tests_cant": "the number of interleavings of next with other calls is unbounded, and the failures appear only for particular states asked at particular times", "anchors": ["prolothar_common/models/labeled_transition_system/labeled_transition_system.py: LabeledTransitionSystem.transition_iterator, yield_outgoing_transitions, get_next_state", "prolothar_common/models/prefix_tree/prefix_tree.py: PrefixTree.traverse_level_order", "prolothar_common/collections/list_utils.pyx: enumerate_reversed", "prolothar_common/models/eventlog/eventlog.py: EventLog.k_folds"]}
{"id": "C158", "title": "Result cache shared by concurrent processes", "statement": "For any number of processes that call functions with a shared result cache at the same time, every interleaving of their file operations and every crash point: a cache file never disappears, and a call that starts when its file exists does not evaluate the function; every call evaluates the function at most once and then ends with the result or the exception of this evaluation; no call waits for another one, and each ends after a number of steps bounded by the size of the result. If the function is deterministic and its pickled results are written at once, every call that returns gives the result of the function. If they are written in pieces, then whenever no call is writing a file and none was killed while writing it, the file holds exactly the result, and from a state in which nobody is on the way to write it, it never changes and every later call ends with its value. The code does not guarantee more: the function can be evaluated by several calls, a call can raise because it reads while another one writes, one kill together with a concurrent writer can leave a wrong value for ever, results that differ can be mixed to a value no evaluation gave, and decorating in two processes at once can raise FileExistsError.", "quantifier": "all numbers of processes, all interleavings of their steps, all crash points, all sizes of the pieces that are written and read, all results and formats that are read as pickle is", "why_tests_cant": "The result depends on the interleaving of the file operations of several processes; a test sees a few schedules, and the harmful ones are rare.", "anchors": ["prolothar_common/testing/non_productive_result_cache.py: non_productive_result_cache, wrapper"]}
{"id": "C159", "title": "The edit distance is a metric and agrees with longest common subsequences", "statement": "With insertion and deletion cost 1 and every positive substitution cost, the Levenshtein distance is a metric: never negative, 0 exactly for equal lists, symmetric, and it satisfies the triangle inequality; it is the same if both lists are reversed. With the default costs it is at least the difference of the lengths and at most the length of the longer list, and common first and last parts of the two lists do not matter. If a substitution costs at least 2, the distance is the total length minus twice the length of a longest common subsequence; with the default costs it lies between the length of the longer list minus the length of a longest common subsequence and that value. For other insertion or deletion costs the triangle inequality can fail.", "quantifier": "all pairs and triples of lists of any length over any type of symbols, all positive substitution costs", "why_tests_cant": "statements about all triples of lists; symmetry and the triangle inequality cannot be settled by examples", "anchors": ["prolothar_common/levenshtein.pyx: levenshtein_with_backtrace", "prolothar_common/longest_common_subsequence.pyx: length_of_common_subsequence"]}
{"id": "C160", "title": "Different models of one event log agree with each other", "statement": "For every event log: (1) for every activity, the counts on its outgoing edges of the directly-follows graph plus the number of traces ending with it equal the number of its events, likewise the counts on its ingoing edges plus the number of traces starting with it; all counts together are the number of events minus the number of non-empty traces. (2) Joining successive equal activities (empty blacklist) deletes exactly the self-loops of the graph and changes no other count. (3) After adding artificial start and end activities every activity is reachable from the start activity and reaches the end activity, and if both names are new they are the only source and the only sink. (4) Keeping first occurrences only gives a graph without self-loops which is part of the eventually-follows graph, and does not change the latter. (5) The follow counts of the log bound the counts of both graphs, and a positive follow count means that the directly-follows graph leads from one activity to the other. (6) The transition system of last activities has the transitions of the directly-follows graph plus those from the start state to first activities. (7) The transition system of complete prefixes has the nodes of the prefix tree as states and one transition per non-root node.", "quantifier": "all event logs, activities, pairs of activities and artificial activity names", "why_tests_cant": "Each side of every equation is computed by a different component; tests compare each with hand-made numbers on single logs, agreement must hold on every log.", "anchors": ["prolothar_common/models/directly_follows_graph.pyx: DirectlyFollowsGraph.create_from_event_log, get_count, get_source_activities, get_sink_activities, build_eventually_follows_on_first_occurence_graph", "prolothar_common/models/eventlog/eventlog.py: EventLog.join_sucessive_events_with_same_activity, add_start_activity_to_every_trace, add_end_activity_to_every_trace, keep_first_occurence_of_activity_only, count_follows_directly_or_indirectly, count_nr_of_events", "prolothar_common/models/labeled_transition_system/labeled_transition_system.py: LabeledTransitionSystem", "prolothar_common/models/prefix_tree/prefix_tree.py: PrefixTree"]}
{"id": "C161", "title": "Models and statistics do not depend on the order of the traces", "statement": "For every permutation of the traces of a log: the directly-follows graphs are equal and so are the eventually-follows graphs; the prefix trees have the same nodes with the same counts, traversed in the same order (only the node ids differ); the transition systems of every deterministic abstraction have the same states, start states, end states, transitions and sizes (for other abstractions, such as last_n with a negative number, the order matters); the number of events, the activity supports, the follow counts and the trace statistics are the same, and the variant table has the same rows.", "quantifier": "all event logs and all permutations of their traces, all deterministic state abstractions", "why_tests_cant": "A test compares a few orders of a few logs; independence must hold for all n! orders of every log, and the components keep ordered lists and dictionaries inside, so it is not obvious.", "anchors": ["prolothar_common/models/directly_follows_graph.pyx: DirectlyFollowsGraph.create_from_event_log, build_eventually_follows_on_first_occurence_graph, __eq__", "prolothar_common/models/prefix_tree/prefix_tree.py: PrefixTree.append, traverse_level_order", "prolothar_common/models/labeled_transition_system/labeled_transition_system.py: LabeledTransitionSystem.add_trace", "prolothar_common/models/eventlog/eventlog.py: EventLog.count_nr_of_events, compute_activity_supports, count_follows_directly_or_indirectly", "prolothar_common/models/log_statistics.py"]}
{"id": "C162", "title": "The names of the activities do not matter", "statement": "For an injective renaming of the activities: searching a renamed list finds the same positions; the edit distance with its edit operations and the longest common subsequence with its alignment are the same; the tandem, maximal and super maximal repeats, the directly-follows and eventually-follows graphs, the words and counts of the prefix tree and the transition systems are the renamed ones; event counts, supports, follow counts and trace statistics are the same. Only the order of siblings in the prefix tree depends on the names.", "quantifier": "all sequences, logs, injective renamings, costs, length limits and deterministic state abstractions", "why_tests_cant": "a test fixes some names; an accidental dependence on a name (a sentinel, a string comparison, a hash) shows up only for other names", "anchors": ["prolothar_common/collections/list_utils.pyx: search_sublist_bm, search_sublist_all_occurences", "prolothar_common/levenshtein.pyx: levenshtein_with_backtrace", "prolothar_common/longest_common_subsequence.pyx: lcs_with_backtrace", "prolothar_common/models/patterns.py: find_primitive_tandem_repeats, find_maximal_repeats, find_super_maximal_repeats", "prolothar_common/models/directly_follows_graph.pyx: DirectlyFollowsGraph.create_from_event_log", "prolothar_common/models/prefix_tree/prefix_tree.py: PrefixTree", "prolothar_common/models/labeled_transition_system/labeled_transition_system.py: LabeledTransitionSystem", "prolothar_common/models/log_statistics.py: TraceStatistics"]}
{"id": "C163", "title": "The universal integer code is a code", "statement": "The probabilities 2^-L_N(n) of the integers that the function accepts (a C int, indeed all integers up to 2^65536) add up to less than 1, and there is a binary prefix code for them in which the word of n has L_N(n) bits, rounded up. Over all positive integers the sum exists but, contrary to the comment in the code, is not 1: it lies strictly between 1 and 1.005, because the constant is 2.8565064 instead of 2.865064.", "quantifier": "every initial segment of the positive integers, and all positive integers together", "why_tests_cant": "The Kraft sum ranges over two billion integers, over all integers it is an infinite series that converges far too slowly to be summed; it passes 1 only beyond a tower of powers of two", "anchors": ["prolothar_common/mdl_utils.pyx: L_N"]}
{"id": "C164", "title": "The code lengths of sequences form a probability distribution", "statement": "For every finite non-empty alphabet, every length n and every positive pseudo count, the probabilities 2^-prequential_coding_length(symbol counts) over all sequences of length n add up to exactly 1. log2multinom of the symbol counts of a sequence is log2 of the number of sequences with these counts, and it is never greater than the prequential code length.", "quantifier": "all finite alphabets, all lengths, all sequences, all positive pseudo counts", "why_tests_cant": "The number of sequences grows exponentially with their length and the identity must hold for every length, alphabet and pseudo count", "anchors": ["prolothar_common/mdl_utils.pyx: prequential_coding_length", "prolothar_common/mdl_utils.pyx: log2multinom"]}
{"id": "C165", "title": "L_N is accurate and monotone in floating point arithmetic", "statement": "If the log2 of the C library, the addition and the constant have a relative error of at most u <= 2^-20, then for every C int n >= 1 the loop of L_N ends after at most five rounds with a positive result that differs from the exact universal code length by at most 2048 u (2^-41 bits for results off by less than one unit in the last place); the table of precomputed values makes no difference; n < 1 raises ValueError. If rounding and log2 are monotone, the computed code lengths are non-decreasing; both hold for correctly rounded double precision.", "quantifier": "every C int n and every library and rounding with relative error at most u", "why_tests_cant": "rounding errors differ between libraries and arguments: an iterated logarithm that is rounded across 0 adds or drops a term, for two billion arguments", "anchors": ["prolothar_common/mdl_utils.pyx: L_N"]}
{"id": "C166", "title": "Runs of a Petri net obey the state equation", "statement": "If a program calls force_transition for each transition of a list and none of the calls raises, then every place has lost one token per firing that consumes from it and gained one per firing that produces on it, and everything but the tokens is as before. Hence two such lists with the same transitions in different order lead to the same net; a list that can be fired can also be fired when places hold additional tokens, which stay where they are; enabled transitions without common input places can be fired in every order; a simulation step has the effect of such a list, in every order; and a weighted number of tokens whose weights balance at each transition never changes, neither by firing nor by simulating.", "quantifier": "all well-formed nets, markings, lists of transitions, weights, guards that do not raise, and random choices", "why_tests_cant": "Tests fire a few fixed sequences in one net; order independence, monotonicity and invariants speak about all sequences and all markings.", "anchors": ["prolothar_common/models/data_petri_net.py: DataPetriNet.force_transition", "prolothar_common/models/data_petri_net.py: DataPetriNet.simulate"]}
{"id": "C167", "title": "Preprocessing steps of a log: repeating and reordering", "statement": "Cutting the traces twice with the same activities is cutting once; joining successive events twice is joining once and the second call never raises. Filtering activities and keeping first occurrences can be swapped; start and end activities can be added in either order; a filter that rejects an added activity undoes adding it, and one that accepts it commutes with adding it when empty traces are kept. Cutting and filtering can be swapped if the filter keeps all start and end activities and every trace has a start activity (otherwise not: documented disagreement). Joining and filtering cannot be swapped, but joining before filtering makes no difference to the activities if events are joined again afterwards, and joining before keeping first occurrences makes none at all.", "quantifier": "all logs, filters, start and end activities, join arguments (where stated without blacklist) for which the join succeeds", "why_tests_cant": "Preprocessing pipelines combine the steps in every order; a test runs one order on one log.", "anchors": ["prolothar_common/models/eventlog/eventlog.py: EventLog.cut_traces", "prolothar_common/models/eventlog/eventlog.py: EventLog.filter_activities", "prolothar_common/models/eventlog/eventlog.py: EventLog.keep_first_occurence_of_activity_only", "prolothar_common/models/eventlog/eventlog.py: EventLog.join_sucessive_events_with_same_activity", "prolothar_common/models/eventlog/eventlog.py: EventLog.add_start_activity_to_every_trace"]}
{"id": "C168", "title": "Models of concatenated logs are sums of the models", "statement": "For the concatenation of any two logs: the directly-follows graph and the eventually-follows graph have the nodes and edges of both graphs with added counts (and reading the second log into the graph of the first gives exactly the graph of the concatenation); the prefix tree has the nodes of both trees with added counts; the transition system of a deterministic abstraction has the states, start states, end states and transitions of both; numbers of events, activity supports and follow counts are added; cutting, filtering, first occurrences, added activities and joining work part by part. Hence the directly-follows counts of train and test log add up to those of the log, for every shuffle and every fold, and so do those of the test logs of all folds.", "quantifier": "all pairs of logs, activities, abstractions, shuffles, proportions and numbers of folds", "why_tests_cant": "A test adds up the counts of a few logs; additivity is a statement about all logs and all ways to split them.", "anchors": ["prolothar_common/models/directly_follows_graph.pyx: DirectlyFollowsGraph.create_from_event_log", "prolothar_common/models/directly_follows_graph.pyx: DirectlyFollowsGraph.read_counts_from_log", "prolothar_common/models/prefix_tree/prefix_tree.py: PrefixTree", "prolothar_common/models/labeled_transition_system/labeled_transition_system.py: LabeledTransitionSystem.add_trace", "prolothar_common/models/eventlog/eventlog.py: EventLog.train_test_split", "prolothar_common/models/eventlog/eventlog.py: EventLog.k_folds", "prolothar_common/models/eventlog/eventlog.py: EventLog.count_follows_directly_or_indirectly"]}
{"id": "C169", "title": "The algebra of pattern compositions", "statement": "Two nested compositions of patterns that can be transformed into each other by the usual laws have the same executions: sequence and parallel composition are associative, choice is associative, commutative and idempotent, parallel composition is commutative, sequence and parallel composition distribute over choice, a repetition is the pattern or the pattern followed by the repetition, a pattern commutes with its repetition, and repeating twice is repeating. All executions of a sequence are executions of the parallel composition, and of (p || q) followed by (r || s) all are executions of (p followed by r) || (q followed by s).", "quantifier": "all expressions of any depth over well-formed patterns that complete properly and that can be composed, all derivations by the laws, all valuations", "why_tests_cant": "The laws are about all patterns and all executions; the composed nets differ in places, silent transitions and ids, so that a test cannot compare them structurally.", "anchors": ["prolothar_common/models/activity_pattern.py: sequence", "prolothar_common/models/activity_pattern.py: choice", "prolothar_common/models/activity_pattern.py: parallel", "prolothar_common/models/activity_pattern.py: repetition"]}
{"id": "C170", "title": "Dataset transformations can be repeated, combined and swapped", "statement": "Selecting attributes twice selects the common names; removing constant attributes is idempotent and commutes with a selection. Scaling to a proper interval and then to another one is scaling to the second; scaling to an interval of length 0 makes every later scaling raise ZeroDivisionError. Scaling commutes with label encoding, and both commute with a selection. After the removal of constant attributes, scaling a nonempty dataset of numbers never fails. A second label encoding or discretization changes nothing, and neither does a second one-hot encoding if every categorical attribute has two values; otherwise the indicator of the only value is encoded again.", "quantifier": "all consistent datasets that meet the conditions of the single transformations, all intervals, names and numbers of bins (exact arithmetic)", "why_tests_cant": "The laws relate the results of different pipelines on all datasets, with any number of attributes and instances; tests compare single pipelines on single datasets.", "anchors": ["prolothar_common/models/dataset/transformer/min_max_scaling.py: MinMaxScaling", "prolothar_common/models/dataset/transformer/label_encoding.py: LabelEncoding", "prolothar_common/models/dataset/transformer/one_hot_encoding.py: OneHotEncoding", "prolothar_common/models/dataset/transformer/select_attributes.py: SelectAttributes", "prolothar_common/models/dataset/transformer/remove_attrs_with_one_value.py: RemoveAttributesWithOneUniqueValue", "prolothar_common/models/dataset/transformer/quantile_based_discretization.py: QuantileBasedDiscretization"]}
{"id": "C171", "title": "Reductions of directly-follows graphs can be repeated, combined and swapped", "statement": "Filtering by two absolute counts is filtering by the larger one, selecting nodes twice is selecting the common nodes, and both can be swapped; a graph read from a log is not changed by a minimum count of at most 1. The filter by local frequencies is idempotent on graphs with positive counts, with and without keeping at least one edge; raising the frequency in two steps keeps every edge that the second filter alone keeps, and possibly more. Removing disallowed start (end) activities is idempotent; removing starts and ends can be swapped, and afterwards all sources and all sinks are allowed. The largest component of the largest component is itself.", "quantifier": "all graphs built by any history of operations, all counts, frequencies, node sets and allowed sets", "why_tests_cant": "The laws compare the results of different sequences of reductions on all graphs, including cycles, self-loops and several components; tests look at single reductions of small graphs.", "anchors": ["prolothar_common/models/directly_follows_graph.pyx: filter_edges_by_absolute_count", "prolothar_common/models/directly_follows_graph.pyx: filter_edges_by_local_frequency", "prolothar_common/models/directly_follows_graph.pyx: select_nodes", "prolothar_common/models/directly_follows_graph.pyx: remove_not_allowed_start_activities", "prolothar_common/models/directly_follows_graph.pyx: remove_not_allowed_end_activities", "prolothar_common/models/directly_follows_graph.pyx: get_largest_weakly_connected_component"]}
{"id": "C172", "title": "The set similarities of different pairs of sets are consistent", "statement": "1 - jaccard_index is a metric on finite sets (triangle inequality), 1 - sorensen_dice_coefficient and 1 - overlap_coefficient are not. Dice and Jaccard are functions of each other (d = 2j/(1+j), j = d/(2-d)), so they rank all pairs of sets in the same way, and Jaccard <= Dice <= overlap whenever the overlap coefficient is defined. Renaming elements one to one changes none of the values. A new common element raises the Jaccard index (unless the sets are equal), a new element of only one set lowers it (unless it is 0).", "quantifier": "all triples and pairs of finite sets, all one to one renamings, all new elements", "why_tests_cant": "The laws relate the values of several calls on arbitrary sets; clustering and nearest neighbour methods rely on them for all inputs, a test computes single values.", "anchors": ["prolothar_common/collections/set_similarity.py: sorensen_dice_coefficient", "prolothar_common/collections/set_similarity.py: jaccard_index", "prolothar_common/collections/set_similarity.py: overlap_coefficient"]}
{"id": "C173", "title": "The noise strikes with the stated probability", "statement": "If the random numbers are independent and uniform on 0/N, ..., (N-1)/N (python: N = 2^53), every event (every pair of neighbours for SwapEvents) is struck independently with probability c/N, where c/N is the given probability p rounded up to a multiple of 1/N: for every claim about the resulting log, the number of outcomes of the random numbers with that claim is the sum of the product weights of the sets of struck events. So the numbers of inserted and of removed events of a log with m events are binomially distributed with m and c/N, their mean is m*c/N, nothing is left of a log with probability (c/N)^m, and SwapEvents leaves a log of traces with distinct events unchanged with probability (1-c/N)^(number of pairs).", "quantifier": "all logs, all probabilities, all resolutions N of the random numbers, all claims about the resulting log", "why_tests_cant": "A statement about probabilities quantifies over all outcomes of the random numbers; a test sees one seed, or estimates a frequency.", "anchors": ["prolothar_common/lognoise/add_activity.py: AddActivity", "prolothar_common/lognoise/remove_events.py: RemoveEvents", "prolothar_common/lognoise/swap_events.py: SwapEvents"]}
{"id": "C174", "title": "The probability of a simulated log", "statement": "If random.choice picks every option with the same probability, independent of the picks before, then generate_log returns a given log of admissible traces with exactly the probability that is the product, over its traces, of 1/(number of start activities) and of 1/(number of successors) for every activity of the trace but the last. So the traces are independent of each other, every step depends only on the current activity, and the frequencies of the edges do not matter.", "quantifier": "all graphs built by any history of operations, all start and end lists without repeated start activities, all logs of admissible traces, all numbers of draws", "why_tests_cant": "A statement about probabilities quantifies over all outcomes of the random choices; a test sees one seed.", "anchors": ["prolothar_common/models/directly_follows_graph.pyx: generate_log", "prolothar_common/models/directly_follows_graph.pyx: get_following_activities"]}
{"id": "C175", "title": "What a transition system accepts beyond its log", "statement": "Call a sequence accepted if it can be replayed from a start state to an end state. For every deterministic state abstraction a sequence is accepted exactly if every event of it follows, in some added sequence, a prefix with the same state, and some added sequence ends in its state. All added sequences are accepted, and adding more never makes the system accept less. A coarser abstraction accepts at least as much and has at most as many states and transitions, namely the images of those of the finer one. With last_abstraction a nonempty sequence is accepted exactly if its first event, its last event and all its pairs of successive events occur as such in the added sequences. last_n_abstraction accepts less the larger n is; n = 1 is last_abstraction; n = 0 and every n not below the length of the longest added sequence accept exactly the added sequences. set_abstraction and last_abstraction are incomparable.", "quantifier": "all deterministic abstractions, all lists of added sequences, all replayed sequences, all n", "why_tests_cant": "Which of infinitely many sequences are accepted, for every log and abstraction, cannot be enumerated by tests.", "anchors": ["prolothar_common/models/labeled_transition_system/labeled_transition_system.py: LabeledTransitionSystem.add_sequence", "prolothar_common/models/labeled_transition_system/labeled_transition_system.py: LabeledTransitionSystem.get_next_state", "prolothar_common/models/labeled_transition_system/state_representation.py: set_abstraction, list_abstraction, last_abstraction, last_n_abstraction"]}
{"id": "C176", "title": "Running statistics obey the laws of descriptive statistics", "statement": "Multiplying all pushed values by a and adding b maps the mean in the same way, multiplies every variance by a^2 and the standard deviation by |a|, and maps minimum and maximum (swapped for negative a). The mean lies between minimum and maximum; a variance is never negative, and 0 exactly if all values are equal; the population variance is at most (max - mean)(mean - min) and at most (max - min)^2/4; the variance grows with the degrees of freedom. The mean minimises the sum of squared distances. No value is further from the mean than sqrt(n-1) population standard deviations, and at most n/k^2 values are at least k of them away. The variance of merged objects is the weighted mean of their variances plus a term for the distance of their means.", "quantifier": "all nonempty lists of values of an ordered field, all a, b, degrees of freedom, k", "why_tests_cant": "The laws quantify over all samples; a test computes a few.", "anchors": ["prolothar_common/experiments/statistics.pyx: Statistics.push", "prolothar_common/experiments/statistics.pyx: Statistics.merge", "prolothar_common/experiments/statistics.pyx: Statistics.mean", "prolothar_common/experiments/statistics.pyx: Statistics.variance", "prolothar_common/experiments/statistics.pyx: Statistics.stddev", "prolothar_common/experiments/statistics.pyx: Statistics.minimum", "prolothar_common/experiments/statistics.pyx: Statistics.maximum"]}
{"id": "C177", "title": "Random parts are fair samples", "statement": "If the shuffle produces each of the n! orders with the same probability, then train_test_split of a log, split and random_subset of a dataset and the choice of the initial medoids return each set of k elements with the same probability, one in n choose k, and every trace or instance is in the train part (the subset) with probability k/n.", "quantifier": "all logs without repeated traces, all datasets, all proportions and sizes, all sets of the right size", "why_tests_cant": "A statement about probabilities quantifies over all outcomes of the shuffle; a test sees one seed.", "anchors": ["prolothar_common/models/eventlog/eventlog.py: EventLog.train_test_split", "prolothar_common/models/dataset/dataset.py: Dataset.split", "prolothar_common/models/dataset/dataset.py: Dataset.random_subset", "prolothar_common/clustering/k_medoid.py: KMedoid.cluster", "prolothar_common/clustering/fuzzy_k_medoid.py: FuzzyKMedoid.cluster"]}
{"id": "C178", "title": "A simulation can end wherever firing can end, and ends almost surely", "statement": "A sequence of calls of simulate_one_timestep leads, whatever is chosen at random, to a net that can also be reached by firing transitions with accepting guards one after the other; conversely, every net without enabled transitions that can be reached by firing transitions with input places is reached by the simulation for some random choices, in at most as many steps as transitions are fired. Markings in between can be missed. If the number of tokens is bounded and an end can be reached from everywhere, then the probability that the simulation has not ended after m steps tends to 0; in particular, a sound and 1-safe activity pattern reaches its standard final marking with probability 1, and from every marking that its simulation has reached.", "quantifier": "all well-formed nets whose guards can be evaluated, all markings, all random choices, all firing sequences, all sound patterns, all probabilities epsilon", "why_tests_cant": "It speaks about the existence of random choices, about all firing sequences, and about a limit of probabilities.", "anchors": ["prolothar_common/models/data_petri_net.py: DataPetriNet.simulate_one_timestep", "prolothar_common/models/data_petri_net.py: DataPetriNet.force_transition", "prolothar_common/models/activity_pattern.py: ActivityPattern.get_standard_initial_marking", "prolothar_common/models/activity_pattern.py: ActivityPattern.get_standard_final_marking"]}
{"id": "C179", "title": "generate_log returns with probability 1 exactly if an end can always be reached", "statement": "If from every activity that a simulated trace can come to an end activity can be reached, then generate_log returns with probability 1, whatever the cycles of the graph: the probability that it has not returned after L random choices tends to 0. If a trace can come to an activity from which no end activity can be reached, then generate_log does not return with a positive probability, however long one waits.", "quantifier": "all graphs, all start and end activities (default or given), all numbers of traces, all probabilities epsilon, all outcomes of the random choices", "why_tests_cant": "It is a statement about a limit of probabilities over unboundedly many random choices; a test that hangs and one that is slow look the same.", "anchors": ["prolothar_common/models/directly_follows_graph.pyx: DirectlyFollowsGraph.generate_log"]}
{"id": "C180", "title": "A directly-follows graph is found again in the logs simulated from it", "statement": "The directly-follows graph of a log returned by generate_log is always a part of the graph, without the edges that leave an end activity (in particular without self-loops of end activities). If an end activity can be reached from every activity that a simulated trace can come to, then the probability that create_from_event_log applied to a simulated log of n traces gives exactly the activities and edges that a trace can come to and follow tends to 1 with n. With the default start and end activities this is the whole graph if every activity lies on a path from a source to a sink and no sink has a self-loop.", "quantifier": "all graphs, all start and end activities, all probabilities epsilon, all sufficiently large numbers of traces, all outcomes of the random choices", "why_tests_cant": "It is a statement about the limit of probabilities for larger and larger logs.", "anchors": ["prolothar_common/models/directly_follows_graph.pyx: DirectlyFollowsGraph.generate_log", "prolothar_common/models/directly_follows_graph.pyx: DirectlyFollowsGraph.create_from_event_log"]}
{"id": "C181", "title": "The noise moves a trace by as many edits as it strikes events", "statement": "Measured by levenshtein_with_backtrace on the activity sequences, a trace after AddActivity has exactly the distance to its original that is the number of inserted events, and a trace left by RemoveEvents exactly the number of removed events; the longest common subsequence is the original, or what is left of it. SwapEvents moves a trace by at most 2 edits per drawn number below the probability, and loses at most one event of the longest common subsequence per such number. The same holds for TargetSequenceAddNoise, TargetSequenceRemoveNoise and TargetSequenceSwapNoise on target sequences, with and without multiple swaps.", "quantifier": "all logs and target sequences, all random outcomes, all probabilities", "why_tests_cant": "Two independently written modules have to agree on every trace and every outcome of the noise.", "anchors": ["prolothar_common/lognoise/add_activity.py: AddActivity", "prolothar_common/lognoise/remove_events.py: RemoveEvents", "prolothar_common/lognoise/swap_events.py: SwapEvents", "prolothar_common/levenshtein.pyx: levenshtein_with_backtrace", "prolothar_common/longest_common_subsequence.pyx: length_of_common_subsequence", "prolothar_common/models/dataset/transformer/target_sequence_add_noise.py: TargetSequenceAddNoise", "prolothar_common/models/dataset/transformer/target_sequence_remove_noise.py: TargetSequenceRemoveNoise", "prolothar_common/models/dataset/transformer/target_sequence_swap_noise.py: TargetSequenceSwapNoise"]}
{"id": "C182", "title": "There are fewer maximal repeats than elements, and the suffix tree is of linear size", "statement": "For a non-empty sequence of n strings without '$' and every minimal length, find_maximal_repeats and find_super_maximal_repeats return fewer than n words. For n equal elements find_maximal_repeats returns n-1 words, so the bound cannot be improved. The suffix tree has exactly one node for the root, one for each of the n+1 suffixes and one for each maximal repeat, so between n+2 and 2n+1 nodes.", "quantifier": "all sequences, all minimal lengths", "why_tests_cant": "The number of repeated words grows quadratically; that only linearly many are reported is an extremal statement over all sequences.", "anchors": ["prolothar_common/models/suffix_tree.py: SuffixTree", "prolothar_common/models/patterns.py: find_maximal_repeats", "prolothar_common/models/patterns.py: find_super_maximal_repeats"]}
{"id": "C183", "title": "The probability that transitions fire in a simulated time step", "statement": "In one call of simulate_one_timestep the fired transitions are enabled, have accepting guards and share no input place. For every set of transitions that are enabled, have accepting guards and share no input place, the probability that all of them are fired is the product, over all places from which they consume, of one over the number of transitions with an accepting guard that consume from this place. In particular one transition is fired with probability one over the product of these numbers at its input places, and transitions without a common input place are fired independently of each other.", "quantifier": "all nets whose guards can be evaluated, all markings, all sets of transitions", "why_tests_cant": "A test sees a few outcomes of a random simulation; the exact probability is a statement over all outcomes and all nets.", "anchors": ["prolothar_common/models/data_petri_net.py: DataPetriNet.simulate_one_timestep"]}
{"id": "C184", "title": "Description lengths stay accurate with rounded arithmetic", "statement": "If every arithmetic operation and the library functions log2, log, gammaln and betaln have a relative error of at most u (2^-52 for double precision), then the code lengths differ from the exact ones at most by a small multiple of u: log2multinom(n, ks) with m classes by 4(m+4)u log2(n!) bits, log2binom(n, k) by 10u(log2 binom(n,k) + 2 log2(n+1)) bits, L_U likewise, sum_log_i_from_1_to_n by a relative error of 8u, and prequential_coding_length over m symbols by 2(m+5)u times the sum of the absolute values of the logarithms it adds up. log2binom(n, 0) and log2multinom of a single non-empty class are exactly 0, and the table of precomputed sums returns the same value as the computation.", "quantifier": "all numbers n, k and lists ks, all alphabets and sequences, all roundings and libraries with the given relative error", "why_tests_cant": "A test compares a few values within a guessed tolerance; that errors cannot accumulate for any input is a statement about all inputs and all roundings.", "anchors": ["prolothar_common/mdl_utils.pyx: log2binom", "prolothar_common/mdl_utils.pyx: log2multinom", "prolothar_common/mdl_utils.pyx: L_U", "prolothar_common/mdl_utils.pyx: prequential_coding_length", "prolothar_common/mdl_utils.pyx: sum_log_i_from_1_to_n"]}
{"id": "C185", "title": "Interrupted and failed saves of transaction databases", "statement": "Wherever save_to_dat_file or save_to_fic_file is killed, the path holds what it held before the call, or a beginning of the complete text, whose complete lines are the first transactions of the database; a save that ends leaves exactly the complete text, whatever an earlier interrupted save left there, and a save that is not killed can always go on to its end. An interrupted fic file can be recognised: the file is complete exactly if it has five lines more than the number of transactions announced in its second line. (Deviations: the old content is lost as soon as the file is opened; an interrupted dat file cannot be recognised, for a killed save can leave a well-formed file with any number of the first transactions, or one whose last line names a wrong item; saving an empty database as fic raises ValueError but replaces the file at the path by a stump.)", "quantifier": "all transaction databases, offsets, previous contents of the path and crash points, all ways in which the buffered text reaches the disk", "why_tests_cant": "Tests cannot kill the process at every point of a write or try all partitions of the text into flushed pieces.", "anchors": ["prolothar_common/models/transactions.py: TransactionDatabase.save_to_dat_file", "prolothar_common/models/transactions.py: TransactionDatabase.save_to_fic_file"]}
{"id": "C186", "title": "Overlapping calls with timeouts", "statement": "However calls of functions decorated with timeout are nested, repeated or spread over threads: the timer of a call that ends before its time is over never interrupts the main thread, so KeyboardInterrupt is never raised if all calls end in time; every timer interrupts the main thread at most once and not before the time of its call is over, and there are not more KeyboardInterrupts than such timers. (Deviations: a KeyboardInterrupt cannot be attributed to a call, an inner call can be interrupted by the timer of an outer one long before its own time is over; two timers that fire together raise one KeyboardInterrupt only, after which the outer call can run forever; if the interrupt of an outer call hits the finally block of an inner one, the timer of the inner call is not cancelled and raises a second KeyboardInterrupt later, even if no call is running any more.)", "quantifier": "all histories of calls, all nestings and threads, all timeouts, all interleavings with the timer threads", "why_tests_cant": "The interleavings of the timer threads with the calls are decided by the scheduler; tests cannot force an interrupt into a chosen instruction.", "anchors": ["prolothar_common/timeout.py: timeout", "prolothar_common/timeout.py: quit_function"]}
{"id": "C187", "title": "Noise and shared objects", "statement": "A program may build logs, copy them, change them and apply noise objects to them in any order: it behaves as if every variable held its own log, so noise is visible in the log it is applied to and in no other one. In particular noise that is applied to a copy of a log leaves the original log as it was and gives the copy the noise of the original. Applying noise never raises an exception, uses the generators of its own parts only, and if the parts of a combination are distinct objects, its effect is that of applying them independently. (Deviations: the parts of a train-test split share their traces with the original log, so noise on one of them is in the original too; a trace object that is in a log twice gets the noise twice, a second swap may undo the first; a noise object that occurs twice in a combination continues with the same generator, which is not the same as two noise objects with the same seed.)", "quantifier": "all programs of log operations, copies and noise applications, all logs, noise objects and probabilities, all random generators and their states", "why_tests_cant": "Whether two logs share a list, trace or event object is invisible in the result of one call; it shows only in later changes, for particular orders of operations.", "anchors": ["prolothar_common/lognoise/add_activity.py: AddActivity.apply", "prolothar_common/lognoise/remove_events.py: RemoveEvents.apply", "prolothar_common/lognoise/swap_events.py: SwapEvents.apply", "prolothar_common/lognoise/combined_noise.py: CombinedNoise.apply", "prolothar_common/models/eventlog/eventlog.py: EventLog.copy"]}
{"id": "C188", "title": "Durations and shared events", "statement": "If no event object occurs twice in a log, derive_event_duration_by_end_date gives it the durations of C120, with the same exception, and a log that shares no event object with it stays as it is. A copy of a log, however, shares its events: deriving the durations in the copy derives them in the original log as well, also up to the same point if there is an exception, and deriving them in the original log afterwards changes neither of the logs and raises the same exception, if any. (Deviation: an event object that occurs twice in a trace keeps its first start date, so the durations are not those of a trace with two equal events, and an exception can be missing.)", "quantifier": "all logs and all ways in which logs share event objects, all dates and attribute names, all points at which an exception is raised", "why_tests_cant": "Sharing is invisible in the result of one call; tests compare values of a single log.", "anchors": ["prolothar_common/models/eventlog/eventlog.py: EventLog.derive_event_duration_by_end_date", "prolothar_common/models/eventlog/eventlog.py: EventLog.copy"]}
{"id": "C189", "title": "Interrupted csv exports", "statement": "An export of an event log with write_to_csv into a file that is opened for writing leaves exactly the csv file of the log when it ends, whatever was at the path before. Whenever it is killed, the file is as before, or it holds a beginning of the header, or it is the csv file of the first k events of the log, possibly followed by a beginning of the line of the next event; all traces in it are complete except for the last one, which is a beginning of the trace of the log at the same position. (Deviations: every k is possible, so a file in which events are missing cannot be distinguished from a complete one; the beginning of a line can be read as an event with a shortened name.)", "quantifier": "all event logs, activity names, separators and headers, all crash points, all ways in which the buffer is written to the disk", "why_tests_cant": "The crash point and the moments at which the buffer is flushed are not under the control of a test.", "anchors": ["prolothar_common/models/eventlog/eventlog.py: EventLog.write_to_csv"]}
{"id": "C190", "title": "Concurrent appends to result files", "statement": "If several processes save plots into the same directory at the same time, the text file of a result type never loses anything: its old content stays at the beginning, and what follows is an interleaving of the texts of the processes in which each process contributes a beginning of its own text, and all blocks for which it has closed the file. If the blocks fit into the output buffer, the file always consists of complete blocks, each once and those of each process in order, also if processes are killed; every such order is possible, and no process has to wait for another one. (Deviation: blocks that do not fit into the buffer can be mixed, so that values stand below the x values of another process.)", "quantifier": "all numbers of processes, all blocks, old contents, schedules, crash points and ways in which the buffers are written to the file", "why_tests_cant": "The schedule of the processes and the moments at which buffers are written are not under the control of a test.", "anchors": ["prolothar_common/experiments/result_collector.py: ResultCollector.__save_values_to_text_file"]}
{"id": "C191", "title": "Logs that share traces", "statement": "Queries, splits, folds, add_trace and add_traces put the same trace objects into several logs. A program that uses them together with copies and changes of logs behaves as if there were numbered traces with values and every log were a list of numbers: a command on a log changes the values of its traces in whatever logs they are, and only copy and the construction of a trace create new ones; exceptions are raised for the same commands. So the result of a query always shows the matching traces of the original log as they now are, whatever is changed through either log; the same holds for the parts of a split. If the result is copied first, as the documentation advises, no program on the copy changes any other log, and it has on the copy the effect it has on values. More generally, a program that works with logs that have no trace in common with another log leaves that log as it is, and a program on one log without repeated traces has its usual effect on it, shared or not. (Deviations: filtering a part of a split leaves empty traces in the original, which then cannot be copied; a trace that is twice in a log gets a start activity twice. Attributes of single events stay shared by copies, see C122.)", "quantifier": "all logs, queries, positions and programs, and all ways in which the logs share traces", "why_tests_cant": "Whether a change is visible elsewhere depends on the whole history of queries, splits, additions and copies; a test shows single histories.", "anchors": ["prolothar_common/models/log_queries/query.py: Query.execute", "prolothar_common/models/eventlog/eventlog.py: EventLog.add_trace, EventLog.add_traces, EventLog.train_test_split, EventLog.k_folds, EventLog.copy"]}
{"id": "C192", "title": "Training and test parts are encoded alike", "statement": "The two parts of a split have no instance in common, so an in-place transformation of one part leaves the instances of the other as they are; they have the same columns in the same order: first the categorical, then the numerical attributes. With given possible values, label encoding of one part and then of the other uses one and the same numbering, and every instance gets the values it would have got if the dataset had been encoded before the split. One-hot encoding with given possible values gives both parts the same columns in the same order, and each indicator tells in both parts which instances had its value. Bins learned on one part turn equal numbers of both parts into equal texts. Datasets with the same columns keep having the same columns under label and one-hot encoding with given values, discretization, scaling and selection. (Deviations: without given values, the same text can get different numbers in the two parts, the columns can differ, and label encoding can change their order; scaling maps equal numbers of the parts to different ones, and constant attributes can be removed from one part only.)", "quantifier": "all consistent datasets, shuffles, split ratios, possible values and bins; all pairs of datasets without common instances", "why_tests_cant": "A model that is trained on one part and used on the other relies on equal codes and columns for all values and all splits; a test sees single splits.", "anchors": ["prolothar_common/models/dataset/dataset.py: Dataset.split", "prolothar_common/models/dataset/transformer/label_encoding.py: LabelEncoding", "prolothar_common/models/dataset/transformer/one_hot_encoding.py: OneHotEncoding", "prolothar_common/models/dataset/transformer/trainable_q_based_discretization.py: TrainableQuantileBasedDiscretization"]}
{"id": "C193", "title": "L_R is the length of a code for real numbers up to the precision", "statement": "Every real number is written in exactly one way with a given precision: with its sign and rounded away from zero, off by less than one part in 10^precision, so numbers that are written alike have the same sign and differ by less than that. For every finite set of numbers that are written differently (zero and magnitudes of doubles, precisions of up to 1000 digits) the probabilities 2^-L_R(x) add up to at most 1, and there is a binary prefix code in which the word of x has L_R(x) bits, rounded up.", "quantifier": "all finite sets of real numbers in the range of doubles, all precisions from -1000 to 1000", "why_tests_cant": "A code length that is too small for some number shows only in sums over arbitrary sets of numbers.", "anchors": ["prolothar_common/mdl_utils.pyx: L_R, L_N"]}
{"id": "C194", "title": "Dataset methods and transformers that raise leave a consistent dataset behind", "statement": "If add_instance, add_categorical_attribute, add_numerical_attribute or remove_attribute raises on a consistent dataset with hashable features, nothing has changed. If a feature of the added instance is not hashable, add_instance raises a TypeError but has added the instance, and the dataset is not consistent any more. If an in place transformer raises on a consistent dataset, the dataset is still consistent with the same instances, ids and targets: the attributes visited before the first one that cannot be transformed are transformed, each as if it were the only one, and all others are as before (for the one-hot encoding: if the names of the new attributes are unused and distinct). Attribute selection and the removal of constant attributes never raise on a consistent dataset. If a noise raises in place, the instances visited before have their new target sequence and all others are as before. Without inplace, the given dataset and every existing instance are unchanged whether or not the transformer raises.", "quantifier": "all datasets, instances, attributes, parameters of the transformers and points at which a call raises", "why_tests_cant": "The exception can come at any attribute or instance, so every prefix of the work is a possible state afterwards.", "anchors": ["prolothar_common/models/dataset/dataset.py: Dataset.add_instance, Dataset.remove_attribute, Dataset.add_categorical_attribute, Dataset.add_numerical_attribute, Dataset.copy", "prolothar_common/models/dataset/attributes.py: Attribute.add_value", "prolothar_common/models/dataset/transformer/dataset_transformer.py: DatasetTransformer.transform", "prolothar_common/models/dataset/transformer/label_encoding.py: LabelEncoding", "prolothar_common/models/dataset/transformer/one_hot_encoding.py: OneHotEncoding", "prolothar_common/models/dataset/transformer/min_max_scaling.py: MinMaxScaling", "prolothar_common/models/dataset/transformer/quantile_based_discretization.py: QuantileBasedDiscretization", "prolothar_common/models/dataset/transformer/trainable_q_based_discretization.py: TrainableQuantileBasedDiscretization", "prolothar_common/models/dataset/transformer/target_sequence_add_noise.py: TargetSequenceAddNoise"]}
{"id": "C195", "title": "What is left behind if joining successive events raises", "statement": "If join_sucessive_events_with_same_activity raises, the traces before the failing one are joined, the traces after it are as before, and the failing trace has still all its events, in order; only the end date and duration attributes of the first events of its runs may have changed. Without these attributes the failing trace is unchanged. If the durations are left alone or computed from start and end dates, with different attribute names, then calling the method again, with the same arguments or without the attribute check, gives the same log or exception as if the first call had not been made; this also holds if the first call did not raise. If the durations are summed up this is false: the durations joined by the first call are counted twice.", "quantifier": "all logs, arguments of the method and points at which it raises", "why_tests_cant": "The exception can come at any pair of events of any trace, and the result of the second call depends on everything the first one did before.", "anchors": ["prolothar_common/models/eventlog/eventlog.py: EventLog.join_sucessive_events_with_same_activity, _join_events"]}
{"id": "C196", "title": "Threads and functions with side effects", "statement": "If the functions given to the thread engine read and write shared memory, each call taking effect at one moment, then under every schedule: when map returns, the map function has been called exactly once for every element, within each block in the order of the list; the calls took effect one after the other in some order, the memory is what this order gives, and the result consists of the values that these calls have returned, in the order of the list if the order is kept; no call is running any more. The same holds for map_filter and map_reduce with their calls of the filter and reduce function. If the values do not depend on the memory the result is that of the single-threaded map; if the effects commute the memory is that of the single-threaded loop. If a call raises, then at every moment each element has been passed to the map function at most once, and the exception raised is that of the first block (of the list) in which a call has raised. An exception does not stop the other workers: they go on calling the functions after map has raised, until each has worked through its block or has failed itself. Every schedule ends.", "quantifier": "all lists, worker counts, functions with side effects that return or raise, all schedules", "why_tests_cant": "What a function returns and writes depends on how the calls of the threads are interleaved, and there are exponentially many interleavings.", "anchors": ["prolothar_common/parallel/threading/partitionable/threading_partitionable_list.py: ThreadingPartitionableList.map, ThreadingPartitionableList.map_filter, ThreadingPartitionableList.map_reduce, AbstractWorker.run, MapWorker, MapFilterWorker, MapReduceWorker"]}
{"id": "C197", "title": "Reading an ARFF text of which only a part was written", "statement": "If only a prefix of the ARFF export of a dataset was written, create_from_arff either raises a ValueError or a NotImplementedError, or returns some of the first attributes and no instances, or returns all attributes and the first instances in the same order, numbered from 0. Every value is the printed value, only the value of the last attribute of the last instance may be wrong: it is a prefix of the printed value. A text that ends after a row is read as exactly the instances written so far. A text that ends within a row before its last cell raises a ValueError. A text that ends within the last cell of a row is accepted, so a truncated number is not noticed.", "quantifier": "all datasets with harmless names and values and at least one attribute, and all prefixes of their exports", "why_tests_cant": "There is one crash point per character of the export, and the claim is about all datasets.", "anchors": ["prolothar_common/models/dataset/dataset.py: Dataset.create_from_arff, Dataset.export_to_arff, Dataset.add_instance"]}
{"id": "C198", "title": "Processes and functions with side effects", "statement": "If the functions given to the process engine read and write a state outside of the processes (files, a data base), each call taking effect at one moment, then under every schedule: when map returns, the map function has been called exactly once for every element, within each block in the order of the list; the calls took effect one after the other in some order, the outside state is what this order gives, and every worker process has ended, so that no call is running any more. If in addition no function raised StopIteration or returned an exception object, then no call has raised, and the result consists of the values that the calls have returned, in the order of the list if the order is kept; the same holds for map_filter and map_reduce with their calls of the filter and reduce function. If the values do not depend on the outside state the result is that of the single-process map; if the effects commute the outside state is that of the single-process loop. An exception that map raises is one that some call has raised. At every moment, also after an exception and after workers have been ended by a signal, each element has been passed to the map function at most once. What has been done when map raises is open: later elements of the same block can have been worked through or not. Every schedule ends.", "quantifier": "all lists, worker counts, functions with side effects that return or raise, all schedules and all moments at which workers are ended", "why_tests_cant": "What a function returns and writes depends on how the calls of the processes are interleaved and when a terminated process stops, and there are exponentially many interleavings.", "anchors": ["prolothar_common/parallel/multiprocess/partitionable/multiprocess_partitionable_list.py: MultiprocessPartitionableList.map, MultiprocessPartitionableList.map_filter, MultiprocessPartitionableList.map_reduce, MapWorker.run, MapFilterWorker.run, MapReduceWorker.run"]}
{"id": "C199", "title": "What Petri net calls that raise leave behind, and undo", "statement": "force_transition for a transition that is not enabled raises a ValueError at the first input place, in the order of the set, that has no token: the input places before it have each lost a token, all other tokens, the arcs, labels, guards and variables are as before. As the order of a set is not defined, every selection of the marked input places can be what is lost; with a single input place, or an unknown id, nothing changes. Such a call never makes a sequence of firings possible that was not possible before. In a sequence of calls that raises, the calls before the failing one have had their whole effect. set_marking with an unknown place raises a KeyError after exactly the entries before it have been set. simulate_one_timestep is done as a whole or not at all, whatever the guards do. After any number of such calls, whether they return or raise, set_marking with the marking that get_marking has returned before gives the net as it was in all respects; so a program that does this when force_transition raises fires a transition as a whole or not at all. Token counts stay nonnegative unless set_marking is given a negative number.", "quantifier": "all nets that can be built, all markings, orders of the sets of input places, sequences of calls, random choices and guards that raise", "why_tests_cant": "What is lost depends on the order of a set of objects, which differs between runs, and on the moment of the exception; a test sees one order.", "anchors": ["prolothar_common/models/data_petri_net.py: DataPetriNet.force_transition, DataPetriNet.simulate_one_timestep, DataPetriNet.set_marking, DataPetriNet.get_marking, Place.decrement_nr_of_tokens"]}
{"id": "C200", "title": "Renaming an activity to a name that is in use", "statement": "rename_activity has no check for names that are in use. Renaming an activity to its own name does not raise and removes its node, while all edges stay stored with their counts, so that edges lead to a node that the graph does not have and queries for it raise KeyError. If the activity with the new name directly precedes the renamed one, which has no edge to itself, the call raises KeyError. If it directly follows, then the edge between them stays stored under the old name although there is no such node any more. If there is no edge between the two, the call returns; where both have an edge from or to the same node, the count of the renamed activity replaces the other count (they are not added), edges of the other node stay stored, but only the successors of the renamed activity are listed. Hence the isomorphism of C83 needs an unused name.", "quantifier": "all graphs that can be built, all pairs of an activity and a new name that is in use", "why_tests_cant": "Which of the four cases occurs depends on the edges of the two nodes; tests rename to fresh names.", "anchors": ["prolothar_common/models/directly_follows_graph.pyx: DirectlyFollowsGraph.rename_activity, DirectlyFollowsGraph.get_following_activities, DirectlyFollowsGraph.get_count"]}
{"id": "C201", "title": "Joining graphs that have edges in common", "statement": "After g.join(other) the graph has the nodes of both graphs and the edges of both. Where both have the same edge, the count of the other graph replaces the count of g: counts are not added. The successors (and predecessors) of a node are those listed by g and those listed by other, so every common one is listed twice, and a graph joined with itself lists each of its successors twice. No successor is listed twice exactly if the graphs have no edge in common. To add two graphs, call add_node for each node and add_count for each edge of the other graph: this gives a consistent graph with the nodes and edges of both and the sums of the counts.", "quantifier": "all pairs of graphs that can be built", "why_tests_cant": "It must hold for every pair of graphs, in particular with common edges; the test joins graphs and compares a few counts.", "anchors": ["prolothar_common/models/directly_follows_graph.pyx: DirectlyFollowsGraph.join, DirectlyFollowsGraph.get_following_activities, DirectlyFollowsGraph.get_preceeding_activities, DirectlyFollowsGraph.add_count, DirectlyFollowsGraph.add_node"]}
{"id": "C202", "title": "Laws of log queries that may raise, and queries from iterators", "statement": "Executing a query whose user-defined parts may raise returns the traces for which it returned True, in order, if it returns for every trace; otherwise it raises the exception of the first trace for which it raises. For queries without iterators, the following pairs of queries give the same result or the same exception on every log: double negation, both laws of De Morgan, idempotence, associativity, absorption, distributivity from the left. a & b returns a result exactly if executing a and then b on its result does, and it is the same result. Swapping the operands can only change whether (or what) the call raises. A query and its negation raise the same exception or divide the log into two parts. A TraceContainsNoneOfTheseActivities or TraceContainsAllOfTheseActivities query built from an iterator drops a prefix of the log, of at most as many traces as the iterator has elements, and returns all other traces whatever they contain.", "quantifier": "all queries of any depth, also with parts that raise, all logs, all iterators", "why_tests_cant": "Equivalence of queries ranges over all queries, logs and points where a part raises; the tests execute single queries that do not raise.", "anchors": ["prolothar_common/models/log_queries/query.py: Query.execute, Query.__and__, Query.__or__, Query.__invert__, And, Or, Invert", "prolothar_common/models/log_queries/queries.py: TraceContainsNoneOfTheseActivities, TraceContainsAllOfTheseActivities"]}
{"id": "C203", "title": "Counts of a classification dataset after recoding its attributes", "statement": "Calls that remove and add attributes of a classification dataset leave the class counts as they are; the counts of every attribute that was removed are 0 from then on, also if it was added again with new values, and all other counts stay as they were. Hence after LabelEncoding all category counts (and counts by category and class) of the recoded attributes are 0, and after OneHotEncoding those of the recoded and of the new attributes, while attributes that were not recoded keep correct counts. Instances that are added later are counted on top, so that the counts cover only them. A dataset filled again with the recoded instances (get_subdataset) has correct counts.", "quantifier": "all classification datasets with correct counts, all sequences of attribute removals and additions, all encodings and later instances", "why_tests_cant": "It must hold for all datasets and sequences of calls; the tests of the transformers use plain datasets and do not ask for counts.", "anchors": ["prolothar_common/models/dataset/classification_dataset.py: ClassificationDataset.remove_attribute, ClassificationDataset.get_count_for_category, ClassificationDataset.get_count_for_category_and_class, ClassificationDataset.add_instance", "prolothar_common/models/dataset/transformer/label_encoding.py: LabelEncoding.inplace_transform", "prolothar_common/models/dataset/transformer/one_hot_encoding.py: OneHotEncoding.inplace_transform", "prolothar_common/models/dataset/dataset.py: Dataset.add_categorical_attribute, Dataset.get_subdataset"]}
{"id": "C204", "title": "Sequence and symbols of a target sequence instance", "statement": "After any history of set_target_sequence calls with tuples or lists of hashable elements, contains_symbol and get_symbols of a TargetSequenceInstance agree with its target sequence. An iterator is accepted by the constructor and by set_target_sequence and gives the right sequence, but from then on the instance reports no symbols. An iterator that raises leaves the instance unchanged; an element that cannot be hashed raises TypeError and leaves the new sequence with the old symbols. A copy reports the right symbols even if the original does not.", "quantifier": "all instances, histories of calls, sequences and iterators, including calls that raise", "why_tests_cant": "It must hold after every history of calls and for every kind of argument; no test calls contains_symbol or get_symbols.", "anchors": ["prolothar_common/models/dataset/instance.pyx: TargetSequenceInstance.set_target_sequence, TargetSequenceInstance.contains_symbol, TargetSequenceInstance.get_symbols, TargetSequenceInstance.get_target_sequence, TargetSequenceInstance.copy"]}
{"id": "C205", "title": "Distribution of the samples of BufferingChoice", "statement": "If numpy's generator draws independent elements with the given probabilities, the results of successive next_sample calls are independent draws with these probabilities, whatever the buffer size is: the probability of any sequence of samples is the product of the probabilities of its elements, and equal options add up their probabilities.", "quantifier": "all options, probabilities, buffer sizes of at least one and numbers of samples", "why_tests_cant": "A test sees a few samples of one seed; the distribution over all seeds and the independence across buffer boundaries cannot be observed.", "anchors": ["prolothar_common/random_utils.py: BufferingChoice, BufferingChoice.next_sample"]}
{"id": "C206", "title": "Ray engine and functions with side effects", "statement": "If the functions given to the ray engine read and write a state outside of the tasks (files, a data base), each call taking effect at one moment, then under every schedule of the remote tasks: when map returns, the map function has been called exactly once for every element and no call has raised; the calls took effect one after the other in some order, the outside state is what this order gives, the result consists of the values these calls have returned in the order of the list, and no call is running any more. The same holds for map_filter, whose filter calls are made once for every value in the order of the list, and for map_reduce, which combines the values from left to right in the caller. If the values do not depend on the outside state the result is that of the single thread engine; if the effects commute the outside state is that of the single thread engine. An exception that is raised is one that some call has raised. At every moment each element has been passed to the map function at most once. An exception does not stop the other tasks: they go on after map has raised until the map function has been called for every element. Every schedule ends.", "quantifier": "all lists, functions with side effects that return or raise, all schedules of the remote tasks", "why_tests_cant": "The schedule of the cluster cannot be controlled in a test, and the effects after an exception depend on it.", "anchors": ["prolothar_common/parallel/ray/partitionable/ray_partitionable_list.py: RayPartitionableList.map, RayPartitionableList.map_filter, RayPartitionableList.map_reduce"]}
{"id": "C207", "title": "Prefix trees of symbols that cannot be compared", "statement": "A PrefixTree.append call raises TypeError exactly if an accepted sequence has a beginning in common with the new one and goes on with a symbol that cannot be compared with that of the new one (a string and a number); it raises nothing else. A call that raises leaves the tree unchanged. So after any history of calls, raising ones included, the tree is the tree of the accepted sequences, and the count of a node is the number of accepted sequences with its prefix. If no two sequences clash no call raises. Which sequences are accepted can depend on the order of the calls.", "quantifier": "all histories of append calls, all sequences, all divisions of the symbols into kinds that can be compared with each other", "why_tests_cant": "It must hold after every history of calls and at every depth at which a comparison can fail.", "anchors": ["prolothar_common/models/prefix_tree/prefix_tree.py: PrefixTree.append, PrefixTree.get_children, PrefixTree.get_nr_of_sequences"]}
{"id": "C208", "title": "Replacing high-level edges: exceptions and repetition", "statement": "replace_high_level_edges_by_low_level_edges changes the graph completely or not at all: if the call raises, whatever the nodes, edges and nesting are, the graph is unchanged. It raises nothing but KeyError and RecursionError. If no node is nested in itself it raises exactly if an edge begins or ends at an id without a node, and then KeyError. A second call changes nothing. With a cyclic nesting the call can raise RecursionError whatever the recursion limit is.", "quantifier": "all nested graphs with any edges (also to ids without a node) and any nesting, all recursion limits, all id formats", "why_tests_cant": "It must hold at every point of the loops at which a lookup or the recursion can fail, for nestings of any depth.", "anchors": ["prolothar_common/models/nested_graph.py: NestedGraph.replace_high_level_edges_by_low_level_edges, NestedGraph.get_low_level_sink_nodes, NestedGraph.get_low_level_source_nodes, NestedGraph.remove_edge"]}
{"id": "C209", "title": "Two-way dictionaries: unhashable keys and values, and sets in the hands of callers", "statement": "An assignment to a TwoWayDict raises exactly if the key or the value cannot be hashed, with TypeError. An unhashable key changes nothing. An unhashable value is stored for the key all the same and no inverse lookup changes, so the two directions disagree afterwards. After any history of assignments, raising ones included, and of changes that callers make to the sets they got, a lookup gives the value of the last assignment to the key; the set of a value has exactly the keys put there by a successful assignment or by a caller and not discarded since. The inverse lookup raises TypeError for an unhashable value and KeyError for a value without a successful assignment. A set that an inverse lookup has returned stays the set of its value for ever, and different values have different sets. Without changes by callers, without unhashable keys and values and without re-assignment both directions agree.", "quantifier": "all finite histories of assignments and of additions and removals by callers, all keys and values, hashable or not", "why_tests_cant": "It is an invariant over unbounded histories with aliasing and exceptions in between.", "anchors": ["prolothar_common/collections/two_way_dict.py: TwoWayDict"]}
{"id": "C210", "title": "Memory of the directed integer graph", "statement": "A program makes any number of DirectedIntGraph objects, copies them, adds and removes edges, asks for edges, ancestors and strongly connected components, and lets objects end, in any order. If every call uses nodes that its graph has, no memory is read, written or deleted that is not allocated at that time, and nothing is deleted twice. The results are those of a program in which graphs are values, so no call changes another object, also not a copy. After every call exactly the two blocks of each live object are allocated: copying and the search for components free all they have allocated, and when the last object has ended the memory is empty.", "quantifier": "all programs: all sequences of calls on any number of objects of any size, with any interleaving of creation, copying and end", "why_tests_cant": "A leak or a double deletion depends on the order in which objects are made, copied and end, and a test does not see it.", "anchors": ["prolothar_common/models/diintgraph/graph.cpp: Graph, getTranspose, findStronglyConnectedComponents", "prolothar_common/models/diintgraph/graph.h: ~Graph", "prolothar_common/models/diintgraph/directed_int_graph.pyx: DirectedIntGraph"]}
{"id": "C211", "title": "Mean edit distance of the noise", "statement": "If the random numbers are independent and uniform on 0/N, ..., (N-1)/N, and c/N is the given probability rounded up to a multiple of 1/N, then the edit distance (levenshtein_with_backtrace) between the activities of a log with m events and what AddActivity made of it, summed over the traces, is binomially distributed with m and c/N and has mean m*c/N. The same holds for RemoveEvents and a trace with m events, where a trace that is dropped from the log counts as empty. SwapEvents moves a trace with m events by at most 2*(m-1)*c/N edits on average.", "quantifier": "all logs and traces, all positive probabilities, all resolutions N of the random numbers", "why_tests_cant": "A mean ranges over all outcomes of the random numbers; a test sees one seed, or estimates it.", "anchors": ["prolothar_common/lognoise/add_activity.py: AddActivity", "prolothar_common/lognoise/remove_events.py: RemoveEvents", "prolothar_common/lognoise/swap_events.py: SwapEvents", "prolothar_common/levenshtein.pyx: levenshtein_with_backtrace"]}
{"id": "C212", "title": "What can be simulated from a reduced or an extended directly-follows graph", "statement": "The logs that generate_log can return for some random choices are exactly those whose traces are paths of the graph from a start activity to the first stop activity they meet. With given start and stop activities, a log that can be simulated after any sequence of reductions (filters by absolute count or local frequency, selection of nodes, largest component, removal of disallowed start or end activities, removal of an edge) can also be simulated from the original graph, and a log that can be simulated still can after reading further logs or adding counts. A log can be simulated from its own graph if its traces begin with start activities and have a stop activity at the end and only there. With the default start and stop activities a reduction can make further logs possible.", "quantifier": "all graphs built by the API, all sequences of reductions, all logs, all start and stop activities, all random choices", "why_tests_cant": "It speaks about all logs that some random choices lead to, before and after arbitrary sequences of calls.", "anchors": ["prolothar_common/models/directly_follows_graph.pyx: DirectlyFollowsGraph.generate_log, filter_edges_by_absolute_count, filter_edges_by_local_frequency, select_nodes, get_largest_weakly_connected_component, remove_not_allowed_start_activities, remove_not_allowed_end_activities, remove_edge, read_counts_from_log, add_count"]}
{"id": "C213", "title": "Noise, filters and statistics of a log", "statement": "Whatever the random numbers are: a filter of activities that rejects the activity inserted by AddActivity gives the same log as without the noise, and the original log if no event had this activity and no trace was empty. AddActivity changes neither the set of start activities (nor whether computing it raises) nor the number of events of any other activity, and at most doubles the number of events. RemoveEvents raises neither the number of events of any activity nor that of traces. SwapEvents changes neither the number of events of any activity nor that of traces. No noise object, also no nested CombinedNoise, raises the number of events of an activity that it does not add, or the number of traces.", "quantifier": "all logs, all random outcomes, all probabilities, all filters", "why_tests_cant": "It must hold for every outcome of the random numbers and every log; tests run with fixed seeds.", "anchors": ["prolothar_common/lognoise/add_activity.py: AddActivity", "prolothar_common/lognoise/remove_events.py: RemoveEvents", "prolothar_common/lognoise/swap_events.py: SwapEvents", "prolothar_common/models/eventlog/eventlog.py: EventLog.filter_activities, compute_set_of_start_activities, compute_activity_supports, count_nr_of_events", "prolothar_common/lognoise/combined_noise.py: CombinedNoise"]}
{"id": "C214", "title": "The directly-follows graph and the transition system of last activities describe the same behaviour", "statement": "If a start and an end activity that do not occur in a non-empty log are added to every trace, then a log can be returned by generate_log of its directly-follows graph (default start and stop activities, some random choices) exactly if each of its traces can be replayed from a start state to an end state in the transition system that last_abstraction gives for the same log. In particular the log itself can be simulated from its graph.", "quantifier": "all non-empty event logs, all new start and end activities, all logs that may be simulated, all random choices", "why_tests_cant": "Two models that are built and used by different modules have to agree on infinitely many traces.", "anchors": ["prolothar_common/models/directly_follows_graph.pyx: DirectlyFollowsGraph.create_from_event_log, generate_log", "prolothar_common/models/labeled_transition_system/state_representation.py: last_abstraction", "prolothar_common/models/labeled_transition_system/labeled_transition_system.py: LabeledTransitionSystem", "prolothar_common/models/eventlog/eventlog.py: EventLog.add_start_activity_to_every_trace, add_end_activity_to_every_trace"]}
