# Formal model of prolothar-common in Lean 4

Source: /repo (python, cython and a little C++), read as text only; nothing of it is executed.

## Approach

Every function is modelled by a Lean function that mirrors the code branch by branch:

* exceptions are values (`Py α = Except PyErr α`, Model/Py), with one constructor for each python exception class that matters;
* mutable objects are states threaded through the operations; where aliasing matters (datasets, Petri net copies) there is an
  explicit heap of object identities;
* python dictionaries are association lists in insertion order (Model/Dict); sets are duplicate-free lists or finsets, and
  where the code iterates over a set the order is an arbitrary input of the model;
* random sources are arbitrary input streams or permutations: the theorems quantify over every stream;
* threads and processes are small-step transition systems: the theorems quantify over every schedule;
* loops without an obvious bound take fuel and return `.error .diverge` when it runs out; theorems state the fuel that
  suffices, or that no fuel does (divergence);
* `float` is modelled by exact rationals, or reals where logarithms and exponentials occur.

Layout: `Verif/Model` is the model (every definition cites the lines in /repo), `Verif/Spec` the independent specification
notions, `Verif/Lemmas` auxiliary proofs, `Verif/Props` the theorems, named `Cnn_...` after the property. Beside the theorems
`example`s show concrete cases that meet the hypotheses. `_witness` theorems (and those named in the notes below) are proofs
that the code violates what a user would expect; the restricted true statement is stated beside them. `_partial` marks
theorems that cover only a part of the property.

## Trusted base

* Lean 4.33.0's kernel. All theorems depend on at most the three standard axioms `propext`, `Classical.choice` and
  `Quot.sound` (checked with `#print axioms` through vcheck). No axioms are added, there is no `sorry`/`admit`, no
  `native_decide` and no `bv_decide`.
* Mathlib definitions that occur in statements (List.Perm, List.Sublist, Finset, Real.logb, Real.exp, Real.Gamma, Nat.choose,
  Nat.Prime, Relation.ReflTransGen, ...).
* The faithfulness of the hand-written model. Every definition cites the file and lines it models; simplifications are
  stated in its comment.
* Python semantics as understood by the model: integers are unbounded (`long`/`int` overflow in cython code is modelled in C146 and C147 only),
  `sorted` is a stable insertion sort, `dict` keeps insertion order, `==` on modelled values is equality.

## Per property

Each entry: the modules with the theorems, what is modelled and how it is proved, and where the code disagrees with the
property or the theorem is restricted. `N/A` would mark properties that cannot be expressed; there are none.

* **C01** Boyer-Moore search returns the first occurrence (proved; Props/BoyerMoore). Tables as functions, search loop by recursion on the alignment; invariant: no occurrence before the current alignment; equality with 'first i such that the pattern is a prefix of l.drop i'.
* **C02** is_sublist_bm decides the contiguous-sublist relation (proved; Props/BoyerMoore). Corollary of C01's model with precomputed tables as separate arguments.
* **C03** search_sublist_all_occurences is sound and complete (proved; Props/BoyerMoore). Loop over all starts; a position is listed iff the pattern occurs there, positions strictly increase.
* **C04** view_of_n_partitions splits into balanced consecutive blocks (proved; Props/ListUtils). Integer divmod as in python, ZeroDivisionError as value; induction on the number of blocks.
* **C05** all_splits_of_size_k enumerates all k-subsets with their complements (proved; Props/TupleUtils). The three parallel work lists; refinement to the recursive enumeration of k-sublists with complements.
* **C06** deep_flatten returns the leaves in order (proved; Props/ListUtils). Rose trees; structural induction.
* **C07** iterate_self_product enumerates the square (proved; Props/ListUtils). Nested loops; equality with the enumeration by positions.
* **C08** longest_common_sublists finds the longest common contiguous block and all its positions (proved; Props/ListUtils). Table recurrence = length of the longest common suffix (independent spec), then invariant of the best/positions loop.
* **C09** shuffle_together applies one permutation to all lists (proved; Props/ListUtils). Random source = arbitrary permutation of the zipped rows. *Limits:* Disagreement: if the shortest list is empty the code returns no lists at all (C09_shuffle_together_empty_lists_lost).
* **C10** Set similarities are normalised, symmetric and reflexive (proved; Props/SetSimilarity). Finset cardinalities over rationals, ZeroDivisionError as value.
* **C11** TwoWayDict keeps the value-to-keys index consistent (proved; Props/TwoWayDict). Two maps; invariant over operation histories. *Limits:* Disagreement: re-assigning a key leaves it listed under its old value (C11_stale_inverse_entry); full inverse consistency is proved for histories without re-assignment only.
* **C12** LCS length is optimal (proved; Props/LCS). Matrix recurrence; specification: maximum over common sublists (List.Sublist).
* **C13** LCS backtrace returns a valid alignment of optimal length (proved; Props/LCS). Backtrace loop; the returned pairs are a chain of equal elements of maximal length.
* **C14** Unit-cost Levenshtein distance is optimal (proved; Props/Levenshtein). Matrix recurrence; specification: inductive edit scripts with a cost (Spec/Edit).
* **C15** Levenshtein edit operations form an optimal script (proved; Props/Levenshtein). Backtrace loop including the reverse inside it; edits as a multiset, execution of the sorted edits gives the target. *Limits:* Disagreements: the returned edits are not in execution order (the list is reversed inside the loop), and the backtrace does not terminate for distances above 100001.
* **C16** Weighted Levenshtein distance (proved; Props/Levenshtein, Props/LevenshteinWeights). Same recurrence with weights; optimality against weighted scripts for insertion = deletion = 1; for positive costs invariant of the backtrace (the operations so far turn the source into a prefix of it followed by a suffix of the target). *Limits:* Disagreement: border costs are 1 per symbol whatever the insertion/deletion costs (C16_border_costs_wrong); C16_exact characterises the value for all integer costs. For positive costs the edits always are a script for the target (C16_edits_turn_source_into_target), but not always an optimal one; with a zero cost they can be wrong (C16_zero_cost_edits_wrong), with costs above MAX_COST the call may not return (C16_large_costs_diverge).
* **C17** L_N is a well-defined, monotone code length (proved; Props/Mdl). Iterated logarithm over Real.logb with a well-founded loop; monotone and positive. *Limits:* The constant 2.8565064 is the one of the code; the literature value is 2.865064, with the code constant the code lengths sum to slightly more than 1 in the Kraft inequality (not proved).
* **C18** log2binom and log2multinom are exact logarithms of the coefficients (proved; Props/Mdl). lgamma as log of Real.Gamma; identities with Nat.choose and multinomials.
* **C19** The lgamma cache is transparent (proved; Props/Lru). LRU list model; invariant over call histories: results equal the uncached function, size bounded.
* **C20** Prequential code length depends only on the counts (proved; Props/Mdl). Telescoping sums; invariance under permutation of the sequence.
* **C21** prime_factors returns the ordered prime factorisation (proved; Props/PrimeFactors). Trial division loop with fuel; product, primality and order of the factors. *Limits:* Disagreements: diverges for 0, returns only the factors 2 for negative numbers, wrong products for some inputs above 2^54. Rounding of floats is a parameter of the model; C21_ieee instantiates it with the rounding of doubles.
* **C22** Streaming statistics equal batch statistics (proved; Props/Statistics). Field model of push; invariant by induction: moments equal the batch definitions (Spec/Moments).
* **C23** Merging statistics equals pushing everything into one object (proved; Props/Statistics). Merge formulas; preservation of the same invariant for every merge tree.
* **C24** Ordered parallel map equals sequential map under every schedule (proved; Props/Parallel). Small-step worker/queue system; every complete schedule yields the sequential result.
* **C25** Unordered parallel map and map_filter return a permutation of the sequential result (proved; Props/Parallel). Same system; permutation invariant.
* **C26** Parallel map_reduce agrees with sequential reduce for commutative monoids (proved; Props/Parallel). Partial results arrive in any order; fold over permuted partial results.
* **C27** Worker exceptions are never swallowed (proved; Props/Parallel). Workers with exceptions; a complete schedule raises an exception raised by f, and only then. *Limits:* Disagreement (process engine): a StopIteration raised by the function is swallowed and results that are exceptions are raised.
* **C28** Engines agree with the local engine except on the empty list (proved; Props/Parallel). Comparison with the single-threaded model; the empty list is characterised. *Limits:* Disagreement: the empty list raises ZeroDivisionError in the thread and process engines.
* **C29** cut_traces keeps exactly the window between start and end activity (proved; Props/EventLog). Trace loop; equality with an independent description of the window (first start, last end). *Limits:* Disagreement: traces without start activity keep their last event (C29_no_start_event).
* **C30** filter_activities removes exactly the unwanted events (proved; Props/EventLog). Loop over a copied list with removal; equality with filter.
* **C31** count_follows counts what the documentation says (proved; Props/EventLog). Counting loops; equality with the number of positions described in the documentation.
* **C32** keep_first_occurence_of_activity_only leaves the duplicate-free first occurrences (proved; Props/EventLog). Seen-set loop; duplicate-free, first occurrences, order kept.
* **C33** Adding artificial start and end activities frames every trace (proved; Props/EventLog). Insertion at both ends; the inner trace unchanged.
* **C34** Joining successive events collapses maximal runs (proved; Props/EventLog). Run collapsing loop; equality with maximal runs (Spec/EventLogJoin).
* **C35** Train/test split and k-folds partition the traces (proved; Props/EventLog). Slices; concatenation / permutation equalities, sizes.
* **C36** Event log serialisation round trips (proved; Props/EventLog). Dictionary form as a datatype; decode (encode log) equals the log up to the listed losses. *Limits:* Transition ids are lost in the dictionary form; logs with empty traces cannot be restored.
* **C37** Event log equality is multiset equality of traces (proved; Props/EventLog). Dictionary of counts by hash; equality iff same multiset (of ids and traces). *Limits:* Trace hashes are hashes of the ids: logs with equal traces but different ids differ (C37_ids_matter).
* **C38** AddActivity noise only inserts (proved; Props/Noise). Random stream as input; sublist relation between original and noisy trace, inserted events are the given ones.
* **C39** RemoveEvents noise only deletes (proved; Props/Noise). Random stream as input; the result is a sublist, number of deletions.
* **C40** SwapEvents noise permutes within traces (proved; Props/Noise). Random stream as input; permutation within each trace, untouched attributes.
* **C41** Strongly connected components are exactly the mutual-reachability classes (proved; Props/IntGraph). Kosaraju's algorithm of the C++ code with its two recursive searches; invariants over the recursion; components = classes of mutual reachability (Spec/IntGraph), for all graphs built by any history of operations.
* **C42** Integer graph edge operations behave like a multigraph (proved; Props/IntGraph). Edge counts as a map; operations against a multigraph specification (Spec/Graph).
* **C43** The directly-follows graph stays well-formed (proved; Props/Dfg). Heap-free graph model with the mirrored in/out edge dictionaries; invariant over all operation histories. *Limits:* Histories join graphs only without common edges and rename only to unused names; joining graphs that share an edge breaks well-formedness (C43_join_overlap).
* **C44** Directly-follows counts equal the number of adjacent pairs in the log (proved; Props/Dfg). Counting loop over the log; equals the number of adjacent positions.
* **C45** compute_shortest_path is a shortest path (proved; Props/Dfg, Props/Errors). Breadth-first search loop; path valid, shortest among all paths (Spec/Dfg). *Limits:* The path from a node to itself is the empty list (C45_trivial).
* **C46** compute_shortest_path leaves the graph unchanged (proved; Props/Dfg). Removal and restoration of forbidden edges; state equality afterwards. *Limits:* With a forbidden edge that is not in the graph the call has no defined result (the compiled code reads the attributes of None without a check), and an edge may be missing at this time (C46_failed_call_loses_edge).
* **C47** Reachability queries are exact (proved; Props/Dfg). Search loop; iff with the reflexive-transitive closure.
* **C48** Weakly connected components partition the nodes (proved; Props/Dfg). Union loop; classes of the undirected closure, partition.
* **C49** remove_node with connections keeps reachability (proved; Props/Dfg). Reachability between the remaining nodes is preserved by remove_node with connections.
* **C50** Source and sink activities (proved; Props/Dfg). Filters over nodes; iff with absence of in/out edges.
* **C51** Removing disallowed start/end activities (proved; Props/Dfg). Removal loop; exactly the nodes that must go (inductive characterisation) are removed and the remaining sources/sinks are allowed.
* **C52** Prefix tree counts equal prefix multiplicities (proved; Props/PrefixTree). Insertion into the tree; count of a node = number of inserted sequences with the prefix.
* **C53** Prefix tree children stay sorted and unique (proved; Props/PrefixTree). Sorted insertion; strictly sorted children as an invariant.
* **C54** A transition system built from a log replays the log (proved; Props/Lts). Construction loop with an abstract state representation; every trace is a path from the initial to a final state. *Limits:* Replay holds for every abstraction whose value after an event depends only on the previous value and the event (C54_replay); the library's abstractions qualify, last_n only for n >= 0 (C54_abstractions). C54_negative_n shows that last_n_abstraction with a negative n breaks it.
* **C55** Nested graph dictionary round trip (proved; Props/NestedGraph). Dictionary form; decode (encode g) has the same nodes, edges, labels and attributes. *Limits:* Restores the graph for any write order of the edge set if no attribute uses a reserved key; C55_reserved_key shows this is needed; C55_labels_ignored: == does not compare labels, but C55_round_trip restores them.
* **C56** is_primitive_tandem_repeat_type decides primitivity (proved; Props/Patterns). Divisor loop; iff the word is not a power of a shorter word. *Limits:* C56_empty_diverges: the call with an empty word does not terminate.
* **C57** Tandem arrays of a trace (proved; Props/Patterns). Search loop; soundness, non-overlap, maximality. *Limits:* Non-overlap and maximality are proved for repeat types that cannot overlap themselves (C57_maximal); C57_overlapping_type is a witness that both fail otherwise; C57_empty_type_diverges: is_tandem_array with an empty type does not terminate.
* **C58** Dataset keeps unique ids and attribute domains (proved; Props/Dataset). Dataset with a heap of instances; invariant over histories of API calls. *Limits:* C58_name_in_use: adding an attribute whose name exists leaves the name twice in the list. C58_direct_assignment: instance[name] = value leaves the recorded values stale. The docstring of add_instance says a duplicate is replaced; it is rejected. Features are hashable; for others see C194_unhashable.
* **C59** Dataset split and grouping partition the instances (proved; Props/Dataset). Shuffle = arbitrary permutation; partitions as permutation of the instance lists. *Limits:* C59_shared_instances: the parts share their instances with the dataset, so removing an attribute of a part breaks the dataset. Proportions are exact rationals.
* **C60** One-hot encoding is faithful (proved; Props/Transformer). Transformer over the heap model; exactly one 1 per row, decoding gives back the value. *Limits:* C60_name_collision: without the condition on names, two attributes can generate the same name and one of them is lost.
* **C61** Label encoding is injective, ordered and dense (proved; Props/Transformer). Sorted value list; codes are ranks: injective, order preserving, dense. *Limits:* Booleans are numbers in the model. If the (given) value set is already 0..m-1 the attribute is left as it is, also when other values occur.
* **C62** Min-max scaling maps onto the target interval and preserves order (proved; Props/Errors, Props/Transformer). Rationals; bounds, attained extremes, strict monotonicity. *Limits:* Numbers are exact rationals.
* **C63** A composed log query returns exactly the matching traces (proved; Props/Queries). Query syntax trees including the iterator state of their arguments; structural induction against the satisfaction relation Sat. *Limits:* Queries over re-iterable collections whose attribute comparisons do not raise (Reusable, Total in Spec/Queries). C63_iterator_witness: a query built from an iterator is exhausted after the first trace.
* **C64** Firing moves tokens exactly along the arcs (proved; Props/Petri). Marking as map; each place changes by (arcs in - arcs out). *Limits:* C64_rejected_not_atomic: witness that a rejected firing loses tokens.
* **C65** Fireable transitions are the enabled ones (proved; Props/Petri). List of fireable transitions iff all input places marked. *Limits:* Full on markings where input places carry at most one token; C65_unsafe gives both kinds of wrong answers on other markings.
* **C66** Marking get/set round trip (proved; Props/Errors, Props/Petri). get/set against a map of tokens; reading and setting back restores every place whatever happened in between.
* **C67** make_id_unique is collision free (proved; Props/Petri). Counter loop; result not among the used ids, terminates.
* **C68** k-medoid clustering terminates with consistent clusters (proved; Props/KMedoid). Loop with fuel; potential argument: the objective strictly decreases or the loop stops. *Limits:* Dissimilarities from any linear order, and any function that sums them, so the theorems cover exact sums as well as doubles (without NaN) with sums rounded in any order. The center minimises the column sum over all objects outside as well as inside the cluster as the code does (C68_center_witness: not the within-cluster sum), and similarity mode also minimises (C68_similarity_witness).
* **C69** Fuzzy k-medoid memberships are distributions that belong to the returned centers (proved; Props/FuzzyKMedoid, Props/FuzzyTermination). Real.exp weights; softmax facts; loop invariant 'memberships belong to the current centers', argmin of the weighted sums. Termination: weighted dissimilarities plus coefficient times negative entropy strictly decrease (Gibbs' inequality) until two rounds have equal costs; there are finitely many lists of centers. *Limits:* Exact real arithmetic, also for termination (C69_terminates, positive coefficients). C69_underflow: with a floating point exp that underflows, objects far from all centers raise ZeroDivisionError.
* **C70** Decoding a label vector partitions the log (proved; Props/Clustering). Loop over (trace, label) pairs; filter equality and partition. *Limits:* C70_empty: an empty label vector raises ValueError.
* **C71** Result collector keeps results separate (proved; Props/ResultCollector). History of add_result as a fold; lookup equals the filtered history (Spec/ResultCollector); preparation of plot data. *Limits:* Witness theorems show where the collector mixes series: text and number x values that print alike, a wrong colour being removed, a wrong x index.
* **C72** The result cache evaluates once per key (proved; Props/ResultCache). File system as a map, restarts as history events, a crash leaves a truncated file; invariant over histories. *Limits:* Files are a finite map with whole or truncated contents. C72_truncated: after a truncated write every later call with the key raises. Collisions: C72_collision_witness, C72_no_key, C72_slash.
* **C73** nullify_output restores the streams (proved; Props/Console). Programs as interaction trees (Spec/Console), streams as a state; induction over programs. *Limits:* Programs are interaction trees over print / swap of streams / raise / enter. C73_overlap_witness: blocks that overlap without nesting leave a closed stream as stdout.
* **C74** Transactions serialisation and counts (proved; Props/Transactions). Counting and dictionary loops; decimal text is injective (Nat.repr), split/join round trip. *Limits:* C74_fic_order_witness: option 'ac' sorts in the reverse order. C74_fic_empty: an empty database raises.
* **C75** enumerate_reversed lists positions and elements backwards (proved; Props/ListUtils). Index loop; equality with the reverse of enumerate.
* **C76** L_U is the logarithm of the number of compositions (proved; Props/Mdl). Composition counts with Nat.choose.
* **C77** L_R is total, positive and ignores the sign (proved; Props/Mdl). Loop over decimal shifts with a measure; total, positive, invariant under negation.
* **C78** sum_log_i_from_1_to_n is the sum of logarithms (proved; Props/Mdl). Loop invariant; sum of Real.logb.
* **C79** Parallel operations end under every schedule (proved; Props/Parallel). Measure on worker/queue states: every schedule is finite and no reachable unfinished state is stuck.
* **C80** Combined noise only adds its activities (proved; Props/Noise). Composition of the noise models; sublist after erasing the added activities.
* **C81** Shortest paths are deterministic (proved; Props/Dfg). The breadth-first result is the lexicographically least shortest path, hence a function of the node and edge sets.
* **C82** Eventually-follows graph counts traces (proved; Props/Dfg). Per-trace sets of pairs; counts = number of traces with a before b.
* **C83** Renaming an activity is an isomorphism (proved; Props/Dfg). Renaming as a map on nodes and edges; isomorphism of the graph.
* **C84** Simulated logs conform to the graph (proved; Props/Dfg, Props/DfgSimulation). Random walks with arbitrary streams; every generated trace is a path from a start to an end activity. *Limits:* Partial correctness: generate_log need not terminate when no end activity is reachable.
* **C85** Prefix tree node ids are unique (proved; Props/PrefixTree). Invariant over insertions: ids are unique.
* **C86** Level-order traversal of the prefix tree (proved; Props/PrefixTree). Queue loop = level order by depth.
* **C87** With the list abstraction the transition system has exactly the language of the log (proved; Props/Lts). State = list of activities; language equality.
* **C88** Transition system queries (proved; Props/Lts). Enumeration of the recorded transitions: each once, counts agree.
* **C89** Replacing high-level edges of a nested graph (proved; Props/NestedGraph). Recursive replacement; edges between leaves equal the specification. *Limits:* Acyclicity of the nesting is needed for termination; C89_cycle_loses_edges: edges of a compound node whose children form a cycle disappear.
* **C90** Primitive tandem repeats are complete (proved; Props/Patterns). All primitive tandem repeats of the trace occur in the result and conversely.
* **C91** Filter for super maximal repeats (proved; Props/Patterns). Filter loop; exactly the words that are not contained in another one. *Limits:* C91_duplicates: with duplicate words in the argument the result differs (one copy is dropped).
* **C92** Near super maximal repeats (proved; Props/Patterns, Props/SuffixTree). Occurrence filter; iff with the definition of near super maximal. *Limits:* C92_near_super_maximal is about the given list of maximal repeats, C92_of_sequence about the whole function.
* **C93** TandemArray objects (proved; Props/Patterns). Constructor checks; accepted objects describe occurrences. *Limits:* C93_overclaim_accepted: a witness for an accepted array which claims more repeats than there are.
* **C94** Maximal repeats (proved; Props/SuffixTree). Construction of the suffix tree step by step (node numbers, parents, edges as states); leaves = suffixes, inner nodes = right-branching words, hence exactly the right-maximal repeats. *Limits:* Activities are strings, so the test 'v not in word' (a list among the elements) is always true and the filter for non-maximal repeats has no effect: C94_not_left_maximal is a witness against the documentation. C94_sentinel_in_sequence, C94_empty: IndexError. C94_is_maximal_pair_unusable: is_maximal_pair raises a TypeError or returns False.
* **C95** Super maximal repeats (proved; Props/SuffixTree). Corollary of the tree and the filter.
* **C96** Maximal repeats over a log (proved; Props/SuffixTree). Joined sequence with separators; repeats do not cross traces. *Limits:* Separator of one character. C96_empty_log: empty logs raise.
* **C97** A simulation step fires a conflict-free set of enabled transitions (proved; Props/Petri). Simulation step with arbitrary choice stream; the fired set is enabled and conflict free.
* **C98** A copied net is equal and independent (proved; Props/Petri). Copy over a heap; equality of structure and separation of state. *Limits:* C98_guards_not_copied: the guards of a copy do not notice assignments to the copy's variables. C98_negative: negative token counts cannot be copied.
* **C99** Workflow nets (proved; Props/PetriWf). Recursive workflow transformation; source/sink, paths. *Limits:* C99_transform_succeeds characterises the failures; C99_collision is a witness.
* **C100** Pruning keeps the visible behaviour (proved; Props/PatternPrune, Props/PetriPrune, Props/PruneSingle). One pruning step is a merge of two places; forward and backward simulation for safe nets; induction over the loop; composition of the reductions. *Limits:* Behaviour is preserved for safe nets whose marked places are sources or are not consumed from (Prunable). C100_unsafe_witness and C100_token_lost_witness show that both conditions are needed.
* **C101** Nets built with the API are consistent (proved; Props/ErrorKinds, Props/Petri). Invariant over all histories of API calls: arcs mirrored, ids unique.
* **C102** Copies of datasets are independent (proved; Props/Dataset). Heap model: deep copy allocates fresh instances; frame property for all later operations on either side.
* **C103** Quantile discretization puts every value into the interval that contains it (proved; Props/Quantile). statistics.quantiles from the standard library, intervals; each value lies in the interval it is mapped to. *Limits:* Numbers are exact rationals; statistics.quantiles is modelled from the standard library source. C103_one_bin and C103_no_bins are the error cases.
* **C104** Attribute removal removes exactly the right attributes (proved; Props/Transformer). Filters; removed iff constant / not selected.
* **C105** Noise on target sequences does what it says (proved; Props/SequenceNoise, Props/SequenceNoiseLaw). Random stream as input; sublist / permutation / length facts, edge probabilities 0 and 1. *Limits:* C105_remove_zero_witness: with probability 0 an event is removed if the generator draws exactly 0. The random stream is an arbitrary input; for the distribution (C105_remove_binomial, C105_add_binomial) it draws from a grid of N numbers.
* **C106** transform without inplace leaves the original untouched (proved; Props/Transformer, Props/TransformerLocal). Heap frame property for transform(inplace=False). *Limits:* Local is proved for label, one-hot, min-max, quantile, remove-constant and select transformers. Label sets of multi-label instances are shared by copies (C125_copy_shares_label_sets).
* **C107** One-hot activity encoding of traces (proved; Props/Clustering). Rows as membership vectors; equality of rows iff equal activity sets. *Limits:* Activities of the log in the order of the set used by the code, an arbitrary duplicate-free list in the model.
* **C108** sequence: executions are concatenations (proved; Props/ActivityPattern). Nets as language acceptors (Spec/Workflow); general lemma on the sequential composition of two acceptors, with an invariant on the reachable markings; the renamed nets are shown to be parts of the composed net. *Limits:* Valid: consistent net, no negative tokens, one source, one sink, every transition consumes something, visible transitions have names (what the constructor yields, C114). Words: labels and high level activities of the visible transitions of a run from the standard initial to the standard final marking. Clean: proper completion.
* **C109** parallel: executions are shuffles (proved; Props/ActivityPattern). As C108, with the shuffle of runs; induction on the run in both directions. *Limits:* C109_parallel_clash: the source place id of the first pattern is used as id of a new transition without making it unique.
* **C110** repetition: one or more executions (proved; Props/ActivityPattern). As C108; a run of the composed net is cut at the firing of the loop transition. *Limits:* Proper completion is needed: otherwise tokens of one round remain in the next.
* **C111** choice: executions of either pattern (proved; Props/ActivityPattern). As C108; invariant: the run stays in one of the two parts.
* **C112** interleaving: executions of both patterns in either order (proved; Props/ActivityPattern). Invariant on tokens, by induction on runs: the place px holds at least as many tokens as would be left. *Limits:* The property does not hold; C112_interleaving_never proves that no execution completes: a place of the composition keeps its token in every reachable marking in which the sink is marked.
* **C113** Nested compositions mean what they say (proved; Props/ActivityPattern). Induction on the expression. *Limits:* Expressions whose evaluation succeeds; C108-C111 say when a single step fails. Interleaving is excluded (C112).
* **C114** Construction, markings, copies and pruning of activity patterns (proved; Props/PatternBasics, Props/PatternPrune). Case analysis on the constructor with C99 (transformation to a workflow net) and C100 (pruning). Executions under pruning: a merge of two places keeps the source, the sink, safety, the accepted words, the option to complete and the liveness of the remaining transitions; induction over the loop. *Limits:* Pruning changes the net object in place; the model treats ids as unchanged between construction and pruning (transition ids that are changed while the objects are keys of a dictionary are not modelled). C114_prune_unsafe_witness: if a place can carry two tokens, pruning can add executions.
* **C115** choice_list: executions of any of the patterns (proved; Props/ChoiceList, Props/PatternExamples). Induction over the list of patterns for the renamed nets, then the n-ary choice lemma of Lemmas/Workflow. *Limits:* C115_choice_list: place ids without quotes. C115_choice_list_lost is the witness for the lost place, C115_choice_list_few the ValueError for fewer than two patterns.
* **C116** Edits, queries and equality of nested graphs (proved; Props/NestedQueries). Characterisation of every query as a filter; equality by a counting argument on pairwise different edges. *Limits:* Equality ignores node labels, as in the code.
* **C117** The table of an event log has one row per event with every value under its own name (proved; Props/Errors, Props/LogTable). Sorted lists with the same elements are equal; hence the sorted items of every dictionary follow the sorted column names. *Limits:* Fails if events of a log have different attribute names: C117_misplaced shows a value under a foreign column, without an error. Column type conversions of pandas are not modelled.
* **C118** Reading the table of an event log gives the log back (proved; Props/Errors, Props/LogTable). C117, then grouping the rows by trace id; the groups are the traces. *Limits:* Fails if two traces have the same id: C118_same_id. Values are never None; column names are distinct.
* **C119** The csv export determines the activities of all traces (proved; Props/LogExport). Induction over lines, then over traces, using that numbers are digits only. *Limits:* Fails for activity names with line breaks: C119_line_break (there is no quoting).
* **C120** Durations derived from end dates (proved; Props/LogDurations, Props/LogExport). Induction over the events of a trace and over the traces; the specification is an inductive relation on event lists. *Limits:* Dates are integers; event objects shared within a log are not modelled. An IndexError is raised for empty traces and a KeyError for missing end dates (C120_errors).
* **C121** Statistics of event logs (proved; Props/LogStatistics). Counters as multiset counts by induction over the log; C117 for the table, then grouping; field arithmetic for the conditional probabilities. *Limits:* Exact rationals. C121_variant_clash: names with ', ' can give two variants the same row name; C121_no_traces, C121_no_activities: exceptions for logs without traces. If two traces have the same id, 'number of traces' of an activity counts ids.
* **C122** Copies of event logs are independent (proved; Props/EventLogHeap). Heap model with addresses; ownership invariant (no list, dictionary or trace shared), frame lemmas for each primitive, and a refinement proof by induction over the program against the value semantics in Spec/LogStore. *Limits:* Disagreement with full independence: event objects are shared by copies (C122_copy_shares_events, C122_join_through_copy) and trace objects by splits (C122_split_shares_traces). The attribute dictionary of an event is part of the event object.
* **C123** Sizes, in-degree and equality of directly-follows graphs (proved; Props/DfgQueries). Well-formedness of built graphs (C43) gives duplicate-free lists of nodes and edge objects; sorted lists with the same elements and antisymmetric keys are equal. *Limits:* The graphviz source is modelled by the data written into it (sorted node lines, sorted edge lines with counts); nodes have the default colors.
* **C124** Counts of classification datasets (proved; Props/TargetDatasets). Invariant relating the counters to recounts over the instances, by induction over the history. *Limits:* Disagreements: C124_query_adds_class (reading a defaultdict inserts the label), C124_added_attribute_not_counted (add_categorical_attribute does not update the counters).
* **C125** Targets of multi-label, multiset and sequence datasets (proved; Props/TargetDatasets). One generic invariant lemma for all dataset classes with a summary of the targets; counting lemmas and properties of stable sorting for the order by frequency. *Limits:* Disagreements: C125_symbols_stale (set_target_sequence), C125_copy_shares_label_sets. The private counters of MultisetDataset (total and maximal counts) have no accessor and are only modelled.
* **C126** Writing and reading datasets as ARFF (proved; Props/Arff, Props/ArffTargets, Props/ArffText, Props/Errors). The export is shown to be a table of cells; a reader lemma for such tables (line splitting, csv automaton, attribute lines) by induction over lines, characters and cells gives the import. *Limits:* `str` on values is an arbitrary function; texts are lists of characters. Disagreements: C126_space_rejected, C126_no_attributes, C126_mixed_values_fail, C126_order_matters, C126_ids_ignored, C126_sparse_integers_only. Numbers come back as strings (the import does not convert them).
* **C127** Writing and reading datasets with targets as ARFF (proved; Props/ArffTargetText, Props/ArffTargets). Same reader lemma with additional columns for the targets; induction over the loop that converts raw instances, digits of integers via the core library's Nat.toDigits lemmas, split-join lemmas for sequences. *Limits:* Disagreements: C127_no_labels_rejected, C127_no_attributes_rejected, C127_default_separator, C127_empty_sequence. The order of sorted sequences in the header line is an arbitrary permutation (python sorts tuples of strings).
* **C128** Petri nets to and from pm4py (proved; Props/Errors, Props/Pm4py). Invariant of the nested arc loops (arcs distinct, `added_arcs` agrees with the arcs), inductions over the construction loops of the import, induction over runs for the round trip. *Limits:* pm4py's objects are modelled by their data. Disagreements: C128_id_collision, C128_dangling_lost; C128_state_ignored states that marking and guards do not matter.
* **C129** Event logs to and from pm4py (proved; Props/Pm4py). Induction over traces and events; lookup lemma for dictionary updates. *Limits:* Values are python values of an arbitrary type with a test for strings; that the imported trace shares its attribute dictionary with pm4py's trace is not modelled. Disagreement (in C129_to_pm4py/C129_roundtrip): the attribute concept:name takes precedence over the id.
* **C130** Equality and hashing of events, nodes and edges (proved; Props/Hash). Characterisation of dictionary equality by permutations; case analysis; induction over the list of insertions for sets. *Limits:* Hash functions of strings, integers, tuples and attribute values are arbitrary functions that respect equality of values (Lawful). Disagreements: C130_trace (equal traces with different hashes), C130_complex_mixed, C130_complex_transition, C130_edge_order. C130_complex_equal says exactly when two events, complex or not, compare equal.
* **C131** Ranks and edge widths in plots of directly-follows graphs (proved; Props/DfgPlot). Invariant of the peeling loop (remaining nodes have distance at least i, remaining edges end at distance more than i); invariant of the random walks (statistics hold the positions of the walks so far); linear arithmetic for widths. *Limits:* The data written into the graphviz source is modelled, not its text. random.choice is an arbitrary pick; averages and widths are exact. Disagreements: C131_not_topological, C131_unreachable_missing, and the width 1 outside of the bounds in C131_widths.
* **C132** BufferingChoice is a stream of the drawn batches (proved; Props/Utils). The object is a record with the rest of its buffer; induction on the number of calls with the buffer and the remaining batches generalised. *Limits:* numpy's generator is an arbitrary function that returns a batch and its next state or raises; that a batch has the requested length and contains options only is a hypothesis on it.
* **C133** Small utilities: Min, colors, progress bar, stopwatch (proved; Props/Utils). Min: the comparisons that functools.total_ordering generates, case analysis. Colors: monotonicity of the square root. Progress bar: floor division. Stopwatch: induction on the starts. *Limits:* Floats are exact. Two things a user may not expect are part of the theorems: Min is unhashable because the class defines __eq__ without __hash__, and a progress bar with iteration > total is longer than requested.
* **C134** Timeouts: fast calls are undisturbed, slow calls are interrupted, late interrupts exist (proved; Props/Timeout). Transition system of calling thread and timer thread; inductive invariants for the safety parts, a rank of the timer thread for liveness under weak fairness, explicit executions for the late interrupts. *Limits:* Transition system with the steps of threading.Timer.run atomic each. The deviation (lost results, late interrupts, interrupt of the wrong thread) is C134_late_interrupts. Interrupts from other sources and several overlapping decorated calls are not modelled.
* **C135** Discretization with learned bins (proved; Props/QBins). The transformation is a fold over the numerical attributes, as in C103 (fold_recoded); consecutive intervals are disjoint and gap-free by induction. *Limits:* pandas' qcut is a parameter; that it returns consecutive left-open intervals (and starts below the smallest value) is a hypothesis. C135_too_small is the deviation: values below the smallest bin end up in the last bin.
* **C136** Data of bar plots, histograms, plot grids and heatmaps (proved; Props/ErrorKinds, Props/Plots). Counter: induction over the values from the right; stability of the merge sort (List.pair_sublist_mergeSort) gives the order of ties. Grid: case distinction on the shapes plt.subplots returns. Texts: membership in a nested comprehension. *Limits:* What is handed to matplotlib, not its rendering. Axes are opaque, numbers exact, the norm of an image an arbitrary function. plt.subplots is modelled with its squeezing of dimensions of size 1. C136_annotations_list is the deviation.
* **C137** Clustering of activities (proved; Props/ActivityKMedoid). Composition: edge counts of the log's directly-follows graph (C44), k-medoid (C68) and fuzzy k-medoid (C69, with termination) for this dissimilarity; the membership dictionary is the zip of activities and memberships. *Limits:* Exact arithmetic; the random generator is an arbitrary shuffle. C137_empty_cluster is the deviation.
* **C138** Conversion of sequence datasets to event logs (proved; Props/Converter). The conversion is a fold; symbols and uniqueness of ids come from the history invariant of sequence datasets (C92-style history_inv). *Limits:* Instances live on a heap; a converted trace refers to the instance's feature dictionary. C138_breaks_dataset is the deviation.
* **C139** Ray engine (proved; Props/Ray). Small-step transition system of the calling thread and the tasks; invariant: results of finished tasks are the function values, and the kept indexes are those of the sequential evaluation; a rank that decreases in every step plus progress gives termination without deadlock. *Limits:* Ray itself is modelled by its contract: a submitted task runs at any later time, arguments that are references are resolved first, ray.get waits for all results and raises the first exception in list order. Failures of the cluster, serialization, and the wrapping of exceptions in RayTaskError are not modelled.
* **C140** Clustering of traces by their activities (proved; Props/TraceClustering). Composition of C107 and C70; below distance 1 being near means equal rows, i.e. equal activity sets, so core points and chains of core points reduce to an equivalence relation. Zero columns contribute nothing to the sum of squares. *Limits:* scikit-learn is a parameter: for C140_dbscan it has to return labels that satisfy the textbook definition of DBSCAN (Spec/TraceClustering.lean). SGT is a parameter. OPTICS is covered by C140_partition only.
* **C141** Files of the result collector (proved; Props/SavePlots). save_plots is shown to be a fold over a list of file operations; text files collect the appended lines, pdf files the last write; file names are compared via their suffixes. *Limits:* Files are a dictionary of names; a pdf is represented by the data, bars, ticks and axis range handed to seaborn/matplotlib. Formatting of numbers is a parameter. Result types are assumed to be plain file names. C141_name_collision and C141_stddev_misaligned are the deviations.
* **C142** Datasets survive the trip through data frames (proved; Props/ErrorKinds, Props/Frame). Invariant of the loop over the rows (everything built so far is consistent and agrees with the processed rows), induction over the rows; the first repeated index is located for the error case. *Limits:* pandas frames are index, columns and rows; conversions of column types by pandas are not modelled (an integer column next to a float column comes back as floats with iterrows).
* **C143** Guards of a data Petri net decide exactly their condition (proved; Props/Guard). Mutual induction over guards and lists of guards for the two directions, on the model of the guards that C65 uses. *Limits:* Spec/Guard.lean states as three inductive predicates when a guard holds, when it is violated and when it cannot be evaluated. C143_accept: accept returns true, returns false or raises e exactly in these cases. C143_exclusive: exactly one of them applies. C143_locality: only the variables a guard refers to matter. C143_fireable: the fireable transitions in terms of the conditions. Values are None or integers (booleans are 0 and 1), so NaN is excluded.
* **C144** Plots show exactly the graph of the plotted object (proved; Props/GraphPlots). The statements added to the graph are modelled as a list; Spec/GraphPlots.lean says which nodes and arrows a list of statements draws. Prefix trees: induction over the size of the stack of remaining nodes, whose words are pairwise not prefixes of each other; names contain only dots and digits. *Limits:* Disagreement: ids or activities with a colon are drawn wrongly: the arrow of a place 'a:1' starts at the node of the place 'a' (C144_net_colon), and an edge between 'login:failed' and 'login:ok' becomes a loop at an undeclared node 'login' (C144_dfg_colon). C144_net and C144_dfg state what is drawn for all ids, C144_net_exact and C144_dfg_exact the claim for ids without colons; prefix trees (C144_tree) and transition systems (C144_lts) use generated names and are drawn correctly. Assumption about the graphviz package: edge() splits end points at colons, node() does not; other special characters are not considered.
* **C145** transform_to_workflow_net keeps the behaviour of a Petri net (proved; Props/PetriWfRuns). Lemmas/PetriRuns.lean shows for any net and any extension of it by token-moving transitions that the moves from the source can be fired first and the moves to the sink last (induction over the firing sequence); Props/PetriWfRuns.lean applies this to the two steps of the transformation. *Limits:* C145_runs describes the firing sequences of the transformed net exactly (markings and visible transitions), C145_traces and C145_unmarked and C145_choice draw the conclusions for the traces. C145_synchronised proves that starting the workflow net with one token on its source loses behaviour when a transition needs tokens on several of the old sources: the new source chooses one of them (XOR), it does not mark all (AND).
* **C146** Compiled dynamic programs (proved; Props/CInt). Model/CInt.lean: the same programs with C arithmetic, overflowing expressions have an arbitrary value. Induction over the matrix bounds all intermediate values, so that the two matrices agree. *Limits:* Disagreement: costs that are accepted can overflow silently (C146_levenshtein_wrong with two's complement). C146_levenshtein holds for every behaviour of overflowing expressions and reduces the compiled program to the one of C14 - C16.
* **C147** Bounded counts of directly-follows graphs (proved; Props/DfgMachine). Model/DfgMachine.lean: `add_count` with the conversions to C ints, returning the graph also if an exception is raised. Induction over the pairs of consecutive activities and the traces, using that counts only grow. *Limits:* C147_add_count covers all counts, C147_read all logs. Trusted: cython's conversion of python integers to C ints raises OverflowError, both for arguments and for attributes declared `cdef public int`.
* **C148** Local frequency filter with floating point numbers (proved; Props/DfgMachine). Model/Float.lean: rounding to nearest, ties to even, with p bits; Spec/Float.lean: floats and nearest floats; Lemmas/Float.lean: error bound and optimality. The filter is proved for an arbitrary frequency test and instantiated with the compiled one; agreement follows from the error bounds. *Limits:* Disagreement: C148_tenth: the threshold 0.1 removes edges with a share of exactly one tenth. C148_filter says for all graphs and thresholds which edges are kept, C148_clear and C148_float_threshold when this agrees with exact arithmetic (C43_filter_local). C148_rounding shows against Spec/Float.lean that the rounding of the model is rounding to nearest. Exponents are unbounded in the model (no subnormal thresholds).
* **C149** Plot contexts (proved; Props/PlotContext). The execution of nested `with` blocks is modelled on a state of open figures, files and open log files; mutual induction over statements and lists of statements. *Limits:* Disagreements: C149_not_saved (nothing is closed if saving fails) and C149_wrong_figure (plt.close() closes the current figure, not the one of the context). Spec/PlotContext.lean reads off the text of a program which calls are made and which statements raise; the theorems relate the execution to it. Trusted: pyplot makes the last opened figure the current one.
* **C150** Running statistics of doubles are sound in spite of rounding (proved; Props/StatisticsFloat, Props/StatisticsFloatVar). push and merge with rounding after every operation; monotonicity of rounding and the relative error bound give the order claims and, by induction over the history, the error bounds; the wrong mean after a merge is computed by the kernel *Limits:* Doubles are rationals and every operation is followed by rounding to 53 bits (Model/Float.lean); overflow, underflow and fused operations are not modelled. The bound minimum <= mean <= maximum fails after merge (C150_merge_wrong).
* **C151** The unsigned counter of the statistics does not show (proved; Props/StatisticsCounter). push, merge and variance with counter arithmetic modulo 2^64; induction over trees of pushes and merges shows that the observable fields agree with the model of C22 and C23 *Limits:* Doubles are exact here. A negative number of degrees of freedom yields NaN (C151_negative_ddof). The stored third moment, which no method returns, is wrong after merging a larger object into a smaller one (C151_merge_third_moment_wrong); C23, which claims the whole state, holds of the model with unbounded counters.
* **C152** Code lengths within the range of C integers (proved; Props/MdlMachine). The functions of mdl_utils.pyx with C integers: conversions raise OverflowError, overflowing operations have an arbitrary value. In the safe ranges no operation overflows; for L_R this follows from 10^p <= x*10^shift < 10^(p+1). *Limits:* Doubles are exact. What C leaves undefined is an arbitrary function in the positive theorems; the disagreements (C152_log2binom_wrong, C152_prequential_wrong, C152_LR_precision_wrong, C152_LR_large_wrong, C152_LR_small_wrong) use two's complement or the x86 conversion. Infinities and NaN are modelled for log2binom and L_U, with scipy's betaln at its poles as in its source (cephes lbeta); k and n + 1 - k must fit into a C int.
* **C153** Pruning composed patterns (proved; Props/StaleHash). prune with a set removal that compares stored hashes; induction over the loop shows that it does the same as C100 until it meets a removable transition with a stale hash; the failing compositions are computed by the kernel *Limits:* The sets of transitions store hashes; the ids of a net in the model are its current ids, together with the id each transition had when it was stored. KeyError for patterns with common ids: C153_sequence_wrong, C153_choice_list_wrong. C100 and C114 describe nets without renamed transitions.
* **C154** Scaling, splitting, set similarities and discretization are sound in spite of rounding (proved; Props/FloatOps). Model/FloatOps.lean has the arithmetic with a rounding after every operation. Monotonicity and the error bound of the rounding (Lemmas/Float.lean) give the claims; the buckets contain their values for every list of cut points; the counterexamples are evaluated by the kernel. *Limits:* Floats are rationals with 53 significant bits, every operation rounds to nearest, ties to even; exponents are unbounded (no overflow, subnormal numbers or nan). The rounded models agree with the exact ones of C35, C62, C103 and C131 if the rounding is the identity. Counterexamples are proved for: results above the target maximum, different values with the same result, an empty train log for the proportion 0.9 of ten traces, a test log with less than the share 0.1, cut points that are not in ascending order.
* **C155** Worker crashes never corrupt a returned parallel result, except for documented silent losses (proved; Props/ParallelCrash). Model/ParallelCrash.lean adds exits, kills and lost messages to the step relations of Model/Parallel.lean. The crash system is simulated by the crash-free system on the work that arrives (threads: on the partitions cut at the first exiting element); joining a dead process is excluded by counting end markers; a decreasing measure gives termination; stuck states are analysed by progress of the simulated system. *Limits:* The thread backed list loses elements silently after SystemExit (C155_thread_silent) and the process backed list waits for ever after a killed worker (C155_proc_kill_waits) or loses unpicklable results (C155_proc_lost_silent); these are proved with witnesses next to the positive theorems. map_reduce assumes that partial results can be pickled. C155_proc_ordered_extends shows that the crash model contains every crash-free run of the ordered map.
* **C156** Compositions of sound patterns are sound (proved; Props/PatternPrune, Props/PatternSound). The reachable markings of a composed net are described by reachable markings of its parts (induction on runs, as for C108-C115); from such a marking the parts are completed one after the other. Induction on expressions for nested compositions. *Limits:* choice_list for ids of places without quotes (as C115). Interleaving violates the property for all arguments (C156_interleaving_never). C156_nested_prune is about pruning objects whose hash is not stale; see C153 for the others.
* **C157** Generators between other calls (proved; Props/Lazy). the generators are modelled as suspended loops with the position and size of their dictionary iterators; the iterated object is an argument of every step. Invariants over arbitrary histories of steps and other calls (keys only grow at the end, what has been yielded, what is still in the queue) give the theorems; exact outcomes where the object is unchanged or an entry is inserted. *Limits:* Generators are state machines (Model/Lazy.lean) with an explicit step for each next; the dictionary iterator compares sizes like CPython. Findings: asking get_next_state or yield_outgoing_transitions for a state without outgoing transitions during transition_iterator inserts an empty entry into the defaultdict and makes the iteration raise RuntimeError; deleting from a list inside enumerate_reversed deletes wrong elements from the second deletion on.
* **C158** Result cache shared by concurrent processes (proved; Props/CacheRace). Transition system whose steps are the file operations of the wrapper in any number of processes, with kills; files are lists of bytes, every process has its own position; pickle is a parameter with two laws. Invariants over all interleavings; the failures by explicit executions. *Limits:* Two laws of pickle are hypotheses: reading stops at the end of a pickled value, and needs all of its bytes; C158's `demo` format meets them. The witnesses show what the code does not guarantee (two evaluations, an exception while another process writes, a wrong value for ever after a kill, a mixture of two results, FileExistsError when decorating).
* **C159** The edit distance is a metric and agrees with longest common subsequences (proved; Props/EditMetric). Scripts of single edits compose, can be reversed and mirrored (C14, C16 connect the program with scripts); what a script leaves unchanged is a common subsequence, and a common subsequence gives a script. *Limits:* C159_weighted_no_metric: with other insertion and deletion costs the triangle inequality can fail, since insertions and deletions at the border cost 1 (see C16).
* **C160** Different models of one event log agree with each other (proved; Props/LogModels). Composition of the exact theorems about each component (C31, C32, C34, C44, C50, C52, C54, C82, C86, C88) through a few lemmas about adjacent positions of lists.
* **C161** Models and statistics do not depend on the order of the traces (proved; Props/LogOrder). The exact descriptions of the components (C31, C44, C52, C54, C82, C86, C88, C121, C123) mention only membership, sums and counts over the traces, which permutations keep; the level order of the prefix tree is strictly sorted, hence determined by its set of words. *Limits:* C161_ids: the node ids of the prefix tree depend on the order. C161_order_matters: so does the transition system of last_n_abstraction with a negative number.
* **C162** The names of the activities do not matter (proved; Props/LogNames). Directly for the dynamic programs (they only compare elements), and through the exact descriptions of the other components (C01, C03, C31, C44, C52, C54, C82, C90, C94, C95, C121), whose notions are invariant under injective maps. *Limits:* The renaming must be injective; maximal repeats for sequences without the (renamed) sentinel. C162_order_by_name: the order of siblings in the prefix tree is by name.
* **C163** The universal integer code is a code (proved; Props/Kraft). The weight 1/(t log2 t log2 log2 t ...) is non-increasing and has an explicit antiderivative with the recursion A(t) = 1 + ln 2 * A(log2 t); sums are compared with differences of A by induction, A at the towers of two is a geometric sum; the first 15 summands are bounded by comparing powers. The prefix code is built greedily by counting the words that extend earlier words. *Limits:* C163_kraft_exceeded, C163_kraft_total: the comment 'ensures that the probabilites of all numbers sums up to 1' is false of the constant 2.8565064 (probably a misspelling of the 2.865064 of the paper); the sum over all integers exceeds 1 by less than half a percent. On the range of a C int the Kraft inequality holds (C163_kraft). Exact real arithmetic.
* **C164** The code lengths of sequences form a probability distribution (proved; Props/Prequential). Induction over the length for the sequential predictor (C20); the number of sequences with given counts by induction over the first symbol. *Limits:* Exact real arithmetic. log2multinom is compared with the number of sequences, counted as functions from positions to symbols.
* **C165** L_N is accurate and monotone in floating point arithmetic (proved; Props/MdlRounded). The sum of the positive iterated logarithms is Lipschitz (constant 13 up to 65536), so a rounded summand changes the remaining sum little even if a term appears or disappears; five rounds with explicit bounds for the summand and the partial sum. Monotonicity by comparing two runs of the loop step by step. *Limits:* No bound on the exponent (no subnormal numbers); the values in question lie between 2^-53 and 2^7. The relative error of the library's log2 is a hypothesis (structure Accurate), satisfied by correct rounding (correctly_rounded).
* **C166** Runs of a Petri net obey the state equation (proved; Props/PetriRun). Induction over the list of calls; the firing rule C64 gives each step. Simulation steps are reduced to such lists with C97_step. *Limits:* Rests on the firing rule of C64 and the simulation step of C97. forceAll is a user program (a loop over force_transition), not code of the repository. A list that raises in the middle is covered by C64 only: the tokens taken before the exception are lost.
* **C167** Preprocessing steps of a log: repeating and reordering (proved; Props/LogAlgebra). Each step is a function of the event list of a trace; the laws are proved for lists by induction and lifted to logs, where traces that become empty are dropped. Joined traces are characterised by dropping each activity that equals its predecessor. *Limits:* C167_cut_filter_witness, C167_join_filter_witness: the combinations that cannot be swapped. Values only (as in C29-C34); sharing of trace objects between logs is the subject of C122.
* **C168** Models of concatenated logs are sums of the models (proved; Props/LogSum). The characterisations of the single models by counts over the traces (C31, C35, C44, C52, C54, C82, C121) split over concatenation. *Limits:* Counts are unbounded integers here; C147 gives the bounds of the C ints. For abstractions that are not deterministic the transition systems need not add up (C161_order_matters).
* **C169** The algebra of pattern compositions (proved; Props/PatternAlgebra). Expr.Equiv is the congruence generated by the laws; induction over the derivation shows that it keeps the meaning of an expression, and C113 relates the meaning to the composed patterns. *Limits:* Executions are compared, not nets. Whether both compositions exist is a hypothesis (a composition may be refused with a ValueError, see C108, C109, C111).
* **C170** Dataset transformations can be repeated, combined and swapped (proved; Props/TransformerAlgebra). The results of the single transformations (C60, C61, C62, C103, C104) are brought into one form (kept attributes, values mapped by a function), which composes; two pipelines agree if the composed maps agree on the values that occur. The label numbers and the affine map are determined by the occurring values. *Limits:* Datasets are compared up to the order of their attributes, which does depend on the pipeline (a recoded attribute moves to the end). Values are exact numbers; see C154 for rounding.
* **C171** Reductions of directly-follows graphs can be repeated, combined and swapped (proved; Props/DfgAlgebra). From the characterizations of the single reductions (C43, C48, C50, C51) and of equality (C123): parts on node sets compose; removing edges can only raise the frequency of the remaining ones; a node that stays does not lead into a node that must go, so the two removals do not influence each other. *Limits:* Results are compared with == (C123). Frequencies are exact; see C148 for the comparison with floats.
* **C172** The set similarities of different pairs of sets are consistent (proved; Props/SetMetric). Counting: |A∪B∪C| + |A∩B| + |B∩C| <= |A∪B| + |B∪C| + |A∩C|, from inclusion-exclusion on A∪B and B∪C; the rest is arithmetic on the values of C10. The failing triangle inequalities by a witness. *Limits:* The triangle inequality is proved for the Jaccard index; for the other two coefficients it is refuted by a witness. Quotients are exact.
* **C173** The noise strikes with the stated probability (proved; Props/NoiseLaw). Sample space of the m drawn numbers with equally likely outcomes (Spec/NoiseLaw.lean); the noise on a log as a function of the marks of the drawn numbers (C38, C39, C40 lifted to logs), counting of outcomes with given marks by a product, binomial sums over sets of marks. *Limits:* Independence and uniformity of the numbers of random.Random are the assumption (the sample space); everything else is counted exactly, for every resolution N.
* **C174** The probability of a simulated log (proved; Props/WalkLaw). Sample space of L numbers below N (a multiple of the numbers of options), equally likely; one choice fixes the remainder of one number, so the number of outcomes is divided by the number of options; induction on the trace and on the list of traces. *Limits:* Uniformity and independence of random.choice are the assumption (the sample space). The docstring of generate_log does not say whether counts are used; they are not.
* **C175** What a transition system accepts beyond its log (proved; Props/LtsAbstraction). The replay of a word is characterised by induction on the word from the right; coarser abstractions by the image of the states. *Limits:* Events are never None (None is the state of the empty prefix of last_abstraction). Deterministic: the next state depends only on the state and the event; C54_abstractions shows this for the abstractions of the library with n >= 0.
* **C176** Running statistics obey the laws of descriptive statistics (proved; Props/StatisticsLaws). From C22/C23: the objects hold the batch moments; then algebra of sums of squares (Bhatia-Davis, Samuelson, Chebyshev) by induction on the list. *Limits:* Exact arithmetic in an ordered field; C150 bounds the effect of rounding.
* **C177** Random parts are fair samples (proved; Props/FairParts). Permutations that map one set of positions onto another are pairs of bijections; counting them gives k!(n-k)!. *Limits:* Fairness of the shuffle is the assumption (the sample space is the set of permutations). fuzzy_k_medoid.py selects with a copy of the code of k_medoid.py.
* **C178** A simulation can end wherever firing can end, and ends almost surely (proved; Props/PetriSimRun). The exact set of transitions fired in a step; transitions that nothing before them competes with are moved to the front of a firing sequence, by induction on its length. For the probability: finitely many reachable nets give one bound k on the distance to an end, so that at most (|choices|^k-1)^j of the choice sequences of length jk miss it. *Limits:* forceAll and simulateAll are user programs (loops over force_transition and simulate_one_timestep). The random choices of a step are one number below M for every place, M a common multiple of the numbers of options, so that every option is equally likely. C178_intermediate is the witness that markings that are not final can be missed. Transitions without input places are never fired by the simulation.
* **C179** generate_log returns with probability 1 exactly if an end can always be reached (proved; Props/WalkEnds). The random walk as a Markov chain on (traces missing, activities to choose from), its finite set of reachable states and the general lemma on absorbing goals (Lemmas/AlmostSure); the converse by counting the continuations of one finite prefix of choices that leads into the trap. *Limits:* The sample space is that of C174: words of L independent choices among N numbers, N a common multiple of the numbers of alternatives, the chosen alternative being the number modulo the number of alternatives. Not returning covers both an endless loop and a random.choice of an empty list (IndexError).
* **C180** A directly-follows graph is found again in the logs simulated from it (proved; Props/Rediscovery). A Markov chain that remembers the last activity and whether a given activity or edge was seen; everything is seen soon with high probability (Lemmas/AlmostSure), a union bound over the finitely many activities and edges, and the fact that n traces use at least n choices. *Limits:* The sample space is that of C174 and C179. The log with the simulated activity sequences may carry any case ids and attributes.
* **C181** The noise moves a trace by as many edits as it strikes events (proved; Props/NoiseDistance, Props/SequenceNoiseDistance). A part of a sequence in order has as distance the difference of the lengths (C159 with C12); for the swaps, an edit script of two edits per exchange and a common subsequence that loses one element per exchange, by induction over the carried element.
* **C182** There are fewer maximal repeats than elements, and the suffix tree is of linear size (proved; Props/RepeatBounds). Putting one element in front of a sequence makes at most one more word right maximal, which bounds the words of C94; the nodes of the tree are in bijection with the suffixes and the right maximal words by the invariant of C94.
* **C183** The probability that transitions fire in a simulated time step (proved; Props/PetriSimLaw). The sample space is one number below M for every place, M a multiple of the numbers of options. A transition is fired exactly if it is chosen at all of its input places (simulate_exact of C178), so the outcomes that fire a set of transitions are a product over the places; at each place the share of numbers that select a given option is one over the number of options. Counted exactly, by Nat.card of a product.
* **C184** Description lengths stay accurate with rounded arithmetic (proved; Props/MdlRoundedMore). A second model of the functions in which every operation is followed by an arbitrary rounding with relative error u and the library functions are arbitrary with relative error u. An invariant (after k roundings the error is at most ((1+u)^k - 1) times the sum of the absolute terms) is preserved by subtraction, rounding and division; the exact values are those of C18, C20, C76 and C78. Shown to be met by correctly rounded operations with 53 bits.
* **C185** Interrupted and failed saves of transaction databases (proved; Props/TransactionFiles). A transition system of one save: opening empties the file, each write fills the buffer, any part of the buffer reaches the disk at any time, closing needs an empty buffer; a kill is any reachable state. The invariant is disk ++ buffer ++ rest = complete text. The lines of a beginning of a text are then split and decoded with the decoders of C74. *Limits:* The operating system is assumed to keep what was written in order (no power failure, no full disk); the text is ASCII, so characters are bytes. Exceptions of the caller's items (unhashable, not comparable) before the file is opened are not modelled.
* **C186** Overlapping calls with timeouts (proved; Props/TimeoutCalls). A transition system with any number of calls, each with its own timer thread and event, and one pending interrupt of the main thread. A history is a list of actions; time and the numbers of calls and interrupts are counted on the list. An invariant ties deadlines, timers and events of all calls to the history and is proved by induction on it. The deviations are explicit histories. *Limits:* Disagreements: C186_nested_witness, C186_merged_witness and C186_double_witness. The end of the function and the call of cancel are one step (C134 separates them); calls in other threads are never interrupted by KeyboardInterrupt, which is only raised in the main thread. Liveness of timers is the subject of C134.
* **C187** Noise and shared objects (proved; Props/NoiseHeap). The noise objects are modelled on the heap of C122: AddActivity and RemoveEvents assign a new list object to the trace, SwapEvents changes the list object, event objects are kept. The ownership invariant of C122 is shown to be preserved by every operation on a trace object, and the effect on the view is shown to be that of Model/Noise.lean; programs by induction. The specification (Spec/NoiseStore.lean) has no object identities except those of the generators. *Limits:* Disagreements: C187_split_witness, C187_duplicate_witness and C187_shared_witness. The hypothesis Inv (no trace object in two logs or twice in a log) holds initially and is kept by all commands of C122 and by noise.
* **C188** Durations and shared events (proved; Props/DurationsHeap). derive_event_duration_by_end_date on the heap of C122: it changes event objects only. For a log without repeated event objects a simulation proof by induction over traces and events relates the heap version to the version on values with states (C120); the copy has the same event objects in the same order (copy_spec), so every change of event objects shows in both logs. *Limits:* Disagreement: C188_twice_witness. Dates and durations are integers, as in C120.
* **C189** Interrupted csv exports (proved; Props/CsvSave). The calls of write are a list of texts for the transition system of C185 (open, write, flush of any part of the buffer, close). The beginnings of a text that consists of lines are characterised by induction, and the first k lines are shown to be those of the log of the first k events. *Limits:* The file is opened by the user; it is modelled like the files of C185. Disagreements: C189_undetectable and C189_cut_name_witness.
* **C190** Concurrent appends to result files (proved; Props/AppendFiles). A transition system of processes that open, write to a buffer, flush and close; an invariant that splits the file into the characters (or blocks) of the processes, by induction over the execution; the possible orders by constructing executions. *Limits:* The file is modelled at the level of system calls: each appends a part of the buffer of a process at the end of the file in one piece, as POSIX prescribes for O_APPEND. When buffers are written is a parameter: any part at any time (anyPart), or the whole buffer on closing (onlyAtTheEnd, for blocks that fit into the buffer). C190_mixed_witness shows the deviation for long blocks.
* **C191** Logs that share traces (proved; Props/LogShare). Objects with addresses as in C122, but without the condition that logs have no common traces; a simulation of every command by a store of numbered traces (Spec/RefStore.lean), by induction over programs; the statements on queries, parts, copies and unrelated logs are then proved on the store. *Limits:* Logs are named by variables, no two variables name the same EventLog object. Changes of single events (setEventAttribute, joining) are not among the commands; C122 shows that these are seen through copies. The deviations are C191_split_witness and C191_repeated_trace_witness.
* **C192** Training and test parts are encoded alike (proved; Props/TrainTest). The existing models of split and of the transformers; a second run on a disjoint part starts from a heap that agrees with the first one on that part; a numbering of comparable values is unique; the effect on the list of columns is computed for every transformer by induction over the visited attributes. *Limits:* The deviations are C192_label_no_values_witness, C192_one_hot_no_values_witness and C192_other_transformers_witness.
* **C193** L_R is the length of a code for real numbers up to the precision (proved; Props/RealCode). From the exact value of L_R (C77) and Kraft's inequality for L_N (C163): the code of a number consists of its sign, the sign and number of moved places, and its digits; the sum over a set of numbers is bounded by the product of the sums. The converse of Kraft's inequality for finite sets gives the prefix code. *Limits:* Over exact real numbers and unbounded integers; C152 tells for which arguments the C integers of the code do not overflow.
* **C194** Dataset methods and transformers that raise leave a consistent dataset behind (proved; Props/HalfDone). A second model of the methods and transformers, statement by statement, in which a call that raises still leaves a heap and a dataset behind (Model/DatasetExc.lean); it is proved to agree with the first model. The loop invariant says which attributes are transformed and which are untouched; induction over the visited attributes, values or instances. *Limits:* Feature values are numbers and strings, except in C194_unhashable, which shows that add_instance with a feature that is not hashable raises after it has added the instance. The dataset must not share instances with other changed datasets: C194_shared_witness. A failed label encoding cannot be repeated with more possible values: C194_retry_witness. C194_one_hot asks for unused and distinct names of the new attributes. Exceptions from outside (KeyboardInterrupt, MemoryError) are not modelled.
* **C195** What is left behind if joining successive events raises (proved; Props/JoinExc). Model/JoinExc.lean: the state of the events when the exception leaves the method. Induction over the events of a trace, with the invariant that the head of a run differs only in its time attributes and joining it again overwrites them. *Limits:* C195_states: the model with exceptions gives the results of the model used for the other properties of this method (C160, C167). C195_sum_witness: with only a duration attribute, a call that raises and a second call without the check give the duration 8 instead of 6. Events are not shared between traces.
* **C196** Threads and functions with side effects (proved; Props/ParallelState). Model/ParallelState.lean: worker threads are programs (trees of calls and answers) over a shared memory; the scheduler picks any step. Invariant: what a worker has done is a path through its program, the recorded calls replayed one after the other give the memory, and the result lists are made up of what the workers have appended. A bound on the remaining steps gives the end. *Limits:* A call takes effect at one moment (for example because it holds a lock or is a single atomic operation); between its beginning and this moment other threads can run. C196_calls_after_exception: the exception of the first element is raised before the function has been called for the second one, which happens afterwards. C196_returns and C196_returns_all show that the hypotheses of the other theorems can be met for every list.
* **C197** Reading an ARFF text of which only a part was written (proved; Props/ArffCut). A prefix of a text is a number of complete lines and a prefix of the next line (cut_lines); the header lines, the data line and the rows are treated in turn. The csv reader on a prefix of a row gives the values of the complete cells and a prefix of the value of the next one; add_instance rejects rows with too few cells. *Limits:* Harmless names and values: Printable, as for C126. C197_silent_witness: without its last character an export is read with the number 3 instead of 34. HeaderCut allows all attributes without instances, which is what is read if the text ends before the first row.
* **C198** Processes and functions with side effects (proved; Props/ProcState). Model/ProcState.lean: worker processes are programs (trees of calls and answers) that put results, exceptions and a stop marker into queues; both collectors; after an exception workers can be ended at any moment. Invariant: what a worker has done is a path through its program, the recorded calls replayed one after the other give the outside state, and what has been got together with what is in the queues is what has been put. A bound on the remaining steps gives the end. *Limits:* A call takes effect at one moment; a worker ended by a signal inside a call ends before this moment or after it. The memory of the processes themselves (global variables) is not modelled, nor are pickling errors and the feeder threads of the queues. C198_open_after_exception: the first of two elements of one block fails; the exception can be raised with the second element worked through and without. C198_returns shows that the hypotheses of the other theorems can be met for every list.
* **C199** What Petri net calls that raise leave behind, and undo (proved; Props/PetriFail). Petri model with the net as it is when an exception leaves the call (Net × Py Unit). Induction over the loop on input places gives the partial effect; simulation steps with raising guards are reduced to C178's exact step by replacing the guards that were not evaluated; undo follows from the frame property of all token-changing calls and C66. *Limits:* Sharpens C64_rejected_not_atomic: exactly what is left behind. Iteration orders of start_places are modelled by the order of the list pre; C199_any_selection ranges over all orders. Guards are the modelled guard classes (LambdaGuard: a function of the value of its variable that may raise); guards that themselves change the net are not modelled.
* **C200** Renaming an activity to a name that is in use (proved; Props/DfgRename). The model of rename_activity of C83: names in edge objects change first, then the two loops give the edges new keys. Invariants of these loops: lookups stay as they are (same name), the key of the self-loop stays absent (predecessor), the key (old, new) is never touched (successor), edges are re-keyed with overwriting (unconnected). *Limits:* Complements C83 (unused names). The statements are about the graph right after the call; further calls on such a graph are not modelled, as the model stores one node object per name. Open: a renamed activity with both an edge from the new name and an edge to itself (whether it raises depends on the order of the edges).
* **C201** Joining graphs that have edges in common (proved; Props/DfgJoin). Model of join as in C43: new edge objects replace stored ones, then all edges of the other graph are appended to the lists of the nodes. Lookup after the three loops gives the counts; the lists are the old lists followed by the ends of the other graph's edges, both without duplicates. Adding: induction over the calls with C43_effects. *Limits:* Generalises C43's join (graphs without common edges) and its witness C43_join_overlap. C201_add is about a program of the user made of add_node and add_count calls, one per node and edge, in any order.
* **C202** Laws of log queries that may raise, and queries from iterators (proved; Props/QueryLaws). The model of C63. The verdict on one trace is a value of Py Bool; the operators are the lazy three-valued operators, so the exact laws follow by cases. A query without iterators is unchanged by its evaluation (induction over the query), which lifts the laws to logs by induction. Iterators: every trace that does not match consumes at least one element, a match consumes all. *Limits:* Extends C63 to queries whose parts raise. User-defined parts are functions of the trace (they may raise, but have no state). For iterators, an iterator that occurs in two places of a composed query is not modelled (copies of the state); C202_iterator is about the atomic queries. C202_raising_witness shows which laws fail if a part raises.
* **C203** Counts of a classification dataset after recoding its attributes (proved; Props/ClassTransform). Model/ClassTransform.lean: the two encodings with the methods of ClassificationDataset. Every encoding is a sequence of removals and additions (inductive relation Edits with the list of removed names); its effect on the counters is proved by induction and the removed names are exactly the recoded attributes. Later instances: induction with the effect of add_instance on the counters (C124). *Limits:* Extends C124_added_attribute_not_counted to sequences of calls and to the transformers as they are executed on a ClassificationDataset, whose remove_attribute is overridden. The recoded instances and attributes are those of C61 and C60 (first conjunct of C203_label and C203_one_hot). C203_one_hot does not need new attribute names to be unused.
* **C204** Sequence and symbols of a target sequence instance (proved; Props/SeqInstance). Model/SeqInstance.lean: the two attributes; set_target_sequence iterates its argument twice, an iterator has nothing left the second time; the instance is returned also if the call raises. Induction over the history for the agreement. *Limits:* Elements are values of any type with a decidable equality and a predicate for hashability; a custom __hash__ that raises something else than TypeError is not modelled. get_symbols is a frozenset: its order is not part of the statement.
* **C205** Distribution of the samples of BufferingChoice (proved; Props/ChoiceLaw). Props/ChoiceLaw.lean: the future batches of the generator are a random list of lists with the product distribution (Mathlib PMF); the samples are a prefix of their concatenation, which has the product distribution again. *Limits:* Independence and probabilities of the elements of numpy's Generator.choice batches, and of its successive batches, are the hypothesis. Probabilities are real numbers, as Mathlib's PMF. For a fixed seed the samples can depend on the buffer size; the statement is about the distribution.
* **C206** Ray engine and functions with side effects (proved; Props/RayState). Model/RayState.lean: transition system of the caller, map tasks and filter tasks over an outside state with a record of the calls; invariants by induction over the execution, a rank for the end of every schedule. *Limits:* ray.get may raise the exception of any failed task as soon as it has failed; this includes what ray does. Failures of the cluster, after which ray may repeat a task, are not modelled; with them at-most-once is not guaranteed by ray.
* **C207** Prefix trees of symbols that cannot be compared (proved; Props/PrefixTreeExc). Model/PrefixTreeExc.lean: append returns its result and the tree after the call, also if it raises. Induction over the sequence with the invariant that the children of a node are of one kind; comparison with the tree of the accepted sequences. *Limits:* Symbols are divided into kinds; < raises TypeError between kinds, == is False between kinds, and < is a linear order within a kind. Symbols with a partial order or with == across kinds (1 and 1.0 are one kind) are covered only as far as they fit this.
* **C208** Replacing high-level edges: exceptions and repetition (proved; Props/NestedGraphExc). Model/NestedGraphExc.lean: the call returns its result and the graph after the call, also if it raises. Partial correctness of the first loop shows the removal cannot raise; the first edge with a missing end gives the KeyError. *Limits:* The fuel stands for the recursion limit and .diverge for RecursionError. An id format that raises or an attribute that cannot be hashed is not covered. C208_missing_node and C208_again need a recursion limit above the depth of the nesting.
* **C209** Two-way dictionaries: unhashable keys and values, and sets in the hands of callers (proved; Props/TwoWayDictHeap). Model/TwoWayDictHeap.lean: the sets are heap objects, each call returns its result and the object afterwards. One invariant (State) by induction over the history gives lookups, inverse lookups and the identity of the sets. *Limits:* Callers can add and discard single keys; other set methods are sequences of these. A key or value whose hash changes after it was stored is not covered. The constructor's attribute dict is public; direct changes to it are not covered. Two disagreements are proved: C209_raising_assignment_is_stored and C209_caller_changes_index.
* **C210** Memory of the directed integer graph (proved; Props/IntGraphMem). Model/IntGraphMem.lean: blocks with addresses, every new and delete of the C++ and Cython code. Spec/IntGraphMem.lean: graphs as values. Separation-style lemmas (the memory consists of exactly these blocks) for each function, then a refinement by induction over the program. *Limits:* The nodes of a std::list are part of the block that has the list; the C++ library is trusted to manage them. Allocations never fail and the call stack is unbounded. Nodes outside the graph (undefined behaviour in C++) and a negative number of nodes are outside the statement; for the component search also edges to such nodes.
* **C211** Mean edit distance of the noise (proved; Props/NoiseMean). Props/NoiseMean.lean: C181 turns the edit distance into a difference of numbers of events, C173 gives the distribution of that number over all outcomes. *Limits:* The random numbers are an arbitrary outcome of N equally likely values per draw; that python's generator is uniform is not modelled. For SwapEvents an upper bound of the mean is proved, not its value, which depends on which activities are equal.
* **C212** What can be simulated from a reduced or an extended directly-follows graph (proved; Props/DfgLanguage). Props/DfgLanguage.lean: C84 in both directions characterises the logs; every reduction gives a part of the graph (C43, C48, C51), by induction over the sequence of calls. *Limits:* C212_exactly needs at least one trace; the other theorems also cover the empty log. The frequency filter is that with exact numbers (see C148 for rounding). C212_default_more proves that the claim about reductions fails for the default start and stop activities. remove_node with new connections is not a reduction in this sense.
* **C213** Noise, filters and statistics of a log (proved; Props/NoiseStatistics). Props/NoiseStatistics.lean: from the shape of the noisy traces (C38, C39, C40) and the meaning of the statistics (C121), trace by trace. *Limits:* The traces of the log are distinct objects (C187 is about shared ones). C213_remove_statistics is stated for a positive probability; with probability 0 RemoveEvents changes nothing (C39).
* **C214** The directly-follows graph and the transition system of last activities describe the same behaviour (proved; Props/DfgFramed). Props/DfgFramed.lean: the languages of both models are known (C212 for the graph, C175 for the transition system); the added activities are the only source and sink (C160) and occur nowhere else. *Limits:* At least one trace is asked for. Without new start and end activities the default start and stop activities of the graph are its sources and sinks, which need not be first and last activities; nothing is claimed then.

## What is modelled

* collections: list_utils, tuple_utils, set_similarity, two_way_dict; levenshtein, longest_common_subsequence, math_utils,
  mdl_utils, console_utils, random_utils, func_tools, color_utils, stopwatch, timeout (threads as a transition system)
* parallel: the single-thread, threading, multiprocess and ray partitionable lists (workers, queues, partitions)
* experiments: statistics, result_collector (collection, preparation of the plotted data, files)
* lognoise: all classes
* models: eventlog (event, trace, log), dfg (nodes, edges, graph and its algorithms), diintgraph, prefix_tree,
  labeled_transition_system, nested_graph, patterns, suffix_tree, data_petri_net, activity_pattern, dataset (datasets, instances, attributes,
  transformers, classification, label, multiset and sequence datasets, ARFF export and import, data frames), log_queries, transactions, log_statistics, converter, the table (pandas), csv and duration functions of event logs
* pm4py_utils: conversion of nets and logs, on the data of pm4py objects
* clustering: k-medoid, fuzzy k-medoid, clustering of activities, decoding of label vectors, one-hot activity encoding, vector based clustering of traces (dbscan by its definition)
* equality and hashing of events, traces, nodes and edges; python sets of such objects
* testing: non_productive_result_cache
* plots of directly-follows graphs (the ranks and the edge lines), Petri nets, prefix trees and transition systems: the statements handed to graphviz; the data of bar plots, histograms, grids and heatmaps handed to matplotlib
* plot contexts: open figures, saved files, log files and exceptions of nested blocks
* the compiled (C integer and float) versions of the dynamic programs, of the counts of directly-follows graphs and of the local frequency filter

## What is not modelled

* plotting (matplotlib), graphviz rendering (gviz_utils), type conversions of pandas columns, ray itself, the sgt
  encoder and scikit-learn clusterers: thin wrappers around libraries that are not part of this repository
* operating system effects: process creation and the byte transport of the multiprocess engine; the queues, killed
  workers, exits and unpicklable objects are modelled (C155), with messages that arrive completely or not at all
* objects whose id changes while they are in a set or a dictionary: renaming the places and transitions of a net is a renaming of
  the whole net in the model; the effect of stale hashes is covered for prune (C153), the only operation that searches such a set
* float rounding outside C21 (prime factors), C148 (local frequency filter), C150 (running statistics), C154 (scaling, splitting, similarities, discretization) C165 (L_N) and C184 (the other code lengths), `nan` except where
  it is a distinguished value of the model, integer overflow in cython code outside C146 (dynamic programs), C147 (counts of graphs),
  C151 (counter of statistics) and C152 (code lengths); outside C130 hashing
  (equal hashes are modelled as equal keys)
* `__repr__`/`__str__`, type hints, `.pyi` stubs
