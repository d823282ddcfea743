# A Lean 4 model of pelote, and what is proved about it

The properties are in `properties.jsonl`, the theorems claimed for each in `MANIFEST.json`, the attempts to break the
theorems with wrong programs in `seeded/LOG.jsonl`.

## 1. Layout of `lean/Verif`

| directory | content |
|-----------|---------|
| `Py`      | the fragment of Python relied upon: exceptions, keys, dicts, values, `sorted`, rounding |
| `Nx`      | networkx 2.5: the graph classes, connected components, the undirected view |
| `Model`   | one definition per function of `/repo/pelote`, each citing the file and lines it models |
| `Spec`    | the vocabulary in which properties are stated, independent of the model's helpers |
| `Lemmas`  | proofs about the definitions |
| `Props`   | the theorems claimed in the manifest, with witnesses and samples |

## 2. Trusted base

* Lean 4.33.0's kernel, and the three standard axioms `propext`, `Classical.choice`, `Quot.sound`; every claimed theorem
  depends on a subset of these three. No axiom of our own, no `sorry`, no `native_decide`, no `bv_decide`. Finite
  witnesses are closed by `decide` or `decide +kernel`, which the kernel evaluates.
* The reading of the Python sources: nothing is executed here. Every definition of `Model` cites the lines it models, and
  its comment states what it leaves out.
* The behaviour of the libraries pelote calls, modelled from their documentation: networkx 2.5 (`Nx`), dicts, `sorted`,
  `heapq.nlargest`, `array`, `collections.Counter`, `math.sqrt/log`, `dllist`, `ebbe.omit`, and the way pandas turns a list of dicts
  into columns. Where versions differ: `None` is refused as a node (`Data.asNode`), which recent versions of networkx do and older ones
  may not; subgraph views list their nodes in graph order, where networkx may follow the order of a small set.

### How Python is represented

* A computation that may raise is an `Except PyErr`; every error branch is explicit. A generator run to completion is
  the list of what it yields and the exception that ends it, if any. A function mutating its argument returns the graph
  after the call together with the outcome, so that the state after an exception is visible.
* A `while` loop takes fuel; running out of it is the outcome `diverges`, so that a theorem stating a result includes
  termination, and non-termination is "`diverges` whatever the fuel".
* Dicts are association lists in insertion order; sets are lists without duplicates, or lists standing for any
  iteration order.
* A networkx graph (all four classes) is one structure: kind flags, graph attributes, ordered node dict, and one ordered
  entry (`Link`) per adjacent pair holding the key -> attributes dict (content only; with the identity of dicts in `Nx/Heap`, C80). Adjacency, edge listing (with networkx's orientation
  and order), degree and size are derived from it. `Graph.WF` is the shape every such graph has; the theorems assume it.
* Weights and scores are elements of an arbitrary linearly ordered field (`ℚ` in samples, `ℝ` for `sqrt` and `log`), i.e.
  exact numbers, except in the properties about floats (C65, C66, C77, C79, C86, C92, C93, C97, C104, C105, C107, C112, C114, C116). In the first two, square roots, quotients and the product of two norms
  (C65) and the sum `threshold += learning_rate` (C66) are rounded by `round64` (`Py/Binary64`): IEEE 754 binary64, to nearest, ties to even, gradual underflow, exponent
  unbounded above (`round64_isFloat`, `round64_nearest`: the result is a float, the nearest one, even in case of a tie). Sums and products of weights remain exact.
  In C77 every operation of the edge disparity is rounded (`Arith`), sums at each step.  In C92 and C93 its distance to the exact one is bounded, in C93 with the compensated `sum` of Python 3.12.
  In C86 every operation of the cosine and dot product metrics is rounded.  In C97 the quotients of counts are.
* Keyword arguments are checked as Python does: `add_edge(u, v, **attributes)` raises on names that are not strings or are
  parameter names, and binds `key` on multigraphs. The theorems say when this matters (`NodeKwSafe`, `EdgeKwSafe`).
* User supplied functions (predicates, filters, callbacks, row functions) are functions that may raise and do not modify the graph; they have no memory, except in C84 (`Model/Memory`).

### What is not modelled

* NaN, infinities, overflow of floats, rounding, except where a property says so (C89, C90 and C107 for NaN and infinities, C105 and C107 for overflow).
* Object identity and aliasing (except that of attribute dicts, C80), memory, time (except the cost properties).
* The dynamic checks `check_graph` and `callable`, except `on_epoch`.
* numpy dtypes: a DataFrame is its columns of values, without conversion to a common type.
* `open` and the decoding of bytes: a path leads to a text, or raises (`readTarget`). `json.loads` and `json.dumps` are modelled
  (`Model/Json`) after the standard library, except for the limit on recursion, lone surrogates and tuples; a float is its text.
* Python's identification of `True` with `1` as dict keys (except in C113, where it is that of cells); subclasses of `int` and `str` other than `bool`.
* A graph mutated while one of the generators is suspended, except in C85 (`Model/Coroutine`); predicates or callbacks mutating the graph.
* `docs/`, `test/`, `__repr__` methods.

## 3. Findings

Properties that are false of the code are kept in full in `properties.jsonl`; the negation is proved on a concrete witness,
and what remains true is proved beside it. False statements found by this work:

| property | what is wrong | witness |
|----------|---------------|---------|
| C04, C25, C36 | class sizes overflow at capacities 2^8, 2^16, 2^32, 2^64, so spanning trees and `keep_connected` may raise | `unionFind_overflow_at_256`, `unionOfMaximumSpanningTrees_raises_at_256`, `keepConnected_raises_at_256` |
| C09 | `counting_sort([])` raises; ties are reversed | `countingSort_empty`, `countingSort_unstable` |
| C12 | on directed graphs only out-edges are followed | `connectedComponentOrders_directed_wrong` |
| C15 | the early exit of `largest_connected_component` may miss the largest one | `largestConnectedComponent_wrong` |
| C17 | the copied largest component subgraph keeps every node | `largestComponentSubgraph_copy_wrong` |
| C18, C35 | `remove_edges` may remove another parallel edge; `Sparsifier.remove` raises on multigraphs | `removeEdges_multi_wrong`, `sparsifier_remove_multi` |
| C19 | an edge attribute named `key` is lost on multigraphs | `filterEdges_key_lost` |
| C21 | `filter_nodes` drops undirected self loops, and compares node keys | `filterNodes_drops_self_loop`, `filterNodes_incomparable` |
| C26 | parallel edges are not compared, and a multigraph may differ from itself | `areSameGraphs_multi_wrong`, `areSameGraphs_multi_irreflexive` |
| C29 | the naive strength lists zeros, and counts self loops | `naiveTriangularStrength_lists_zeros`, `naiveTriangularStrength_self_loop` |
| C38 | a part given as a frozenset or a tuple always raises | `projection_frozenset_raises` |
| C41 | with a part given by value, edges inside it are accepted | `projection_rejects_wrong` |
| C42 | cosine raises on a node whose edges weigh 0, depending on the order of the labels | `projection_cosine_zero_wrong`, `projection_cosine_cases` |
| C44 | the depth asked for is overwritten by the traversal | `selfSimilarity_depth_not_honoured` |
| C45 | multigraph keys are lost | `graphology_multigraph_keys_lost` |
| C46 | names of graph attributes are not checked | `graphology_graph_attributes_unchecked` |
| C54 | a graph without edges does not come back from its tables | `tabular_roundtrip_no_edges` |
| C56 | the threshold learner loops forever on stars and uniform weights | `floatsam_star_diverges`, `floatsam_diverges_iff` |
| C57 | nested `missing_pandas` blocks are not honoured | `shim_nested_not_hidden` |
| C59 | `keep_connected` is ignored by `filter` or `remove` when generators are given | `keepConnected_ignored_by_relevant`, `keepConnected_ignored_by_redundant` |
| C61 | a negative learning rate does not reverse the learner | `floatsam_not_reversed` |
| C62 | `UnionFind.find` does not compress paths and `union` compares the wrong ranks, so that chains of any length are built | `unionFind_reads_quadratic` |
| C63 | `keep_connected` ignores `edge_weight_attr`; without a `weight` attribute it keeps every edge but self loops | `keepConnected_ignores_attr`, `keepConnected_unweighted` |
| C65 | the binary cosine of equal neighborhoods is not always 1 in floating point, and may exceed 1 | `projection64_binaryCosine_wrong` |
| C66 | in floating point the threshold stops increasing at 2^53 or 2^54 times the learning rate (2^47 with the default one), so that the learner loops forever on larger weights | `ceiling64_sample`, `floatsam64_diverges_sample`, `floatsam64_stagnates_sample`, `floatsam64_negative_start` |
| C69 | the multiscale backbone of a backbone may be smaller; so may `keep_connected` with near ties | `multiscaleBackbone_not_idempotent`, `globalThreshold_keepConnected_near_ties` |
| C70 | the bipartition check finds edges inside a part given by collection, not by value | `projection_same_part_sample` |
| C73 | `union_of_maximum_spanning_trees` merges weights by an absolute `1e-8`: the same weights in billionths give another result | `unionOfMaximumSpanningTrees_unit`, `globalThreshold_unit` |
| C74 | the largest component and the self similarity projection of depth 2 depend on the order in which nodes were added | `largestComponent_order_matters`, `selfSimilarity_order_matters` |
| C75 | `are_same_graphs` of an undirected and a directed graph depends on which comes first | `areSameGraphs_kinds` |
| C77 | in floating point the edge disparities, hence the backbone, depend on the order in which the edges were added | `edgeDisparity64_order` |
| C82 | an unrelated part of the graph changes the self similarity projection of depth 2, and, with near ties, the maximum spanning trees | `selfSimilarity_not_local`, `unionOfMaximumSpanningTrees_not_local` |
| C83 | the writer accepts attribute values (a set) which `json.dump` refuses; names of nested dicts become strings in a file and may clash | `graphology_file_set_refused`, `graphology_file_names_cast` |
| C84 | `filter_nodes` calls its predicate again for the far ends of edges: with a sampler, a node may be kept without its attributes | `filterNodes_memory` |
| C85 | `connected_component_orders` follows edges added meanwhile; `union_of_maximum_spanning_trees` reads weights after its first yields | `componentOrders_not_snapshot`, `spanningTrees_weights_read_late` |
| C86 | with float weights, the dot product depends on the order in which edges were added, may be computed as 0 instead of 1 when signs differ, and `cosine` raises `KeyError` on weights below 1e-162 | `dotProduct_order_matters`, `dotProduct_cancels`, `cosine_underflow_raises` |
| C87 | the weights of the edges of a multigraph are silently ignored by `cosine` and `dot_product`; an edge key named like the weight attribute makes them raise | `projection_multigraph_loses_weights`, `projection_multigraph_key_wrong` |
| C88 | in a document declared mixed, a directed edge may leave `undirected` out but not set it to `null` | `read_null_flag_refused` |
| C89 | one NaN weight can make `union_of_maximum_spanning_trees` give light edges that have nothing to do with it; an edge of weight NaN is dropped by the global threshold and by its reverse | `umst_nan_spoils`, `reachesX_nan` |
| C90 | an edge of infinite weight, the strongest there can be, gets disparity score 1 or NaN and is dropped by `multiscale_backbone`; a NaN weight makes the scores of other edges depend on which end has the smaller label | `multiscaleBackbone_drops`, `edgeDisparity_nan_labels` |
| C96 | `flag_relevant_edges` and `flag_redundant_edges` are not all or nothing: when the predicate raises (an edge without a weight), the edges listed before are flagged; and without `full` the flags of an earlier call remain | `flag_not_atomic`, `flag_stale` |
| C105 | when the weights at a node add up to more than the largest float, all its edges, the heaviest included, get disparity 1 and leave the backbone, silently | `giantStar_overflow` |
| C106 | sharing one more neighbor may lower the cosine similarity of two nodes (from 12/13 to 56/65) | `projection_addEdge_cosine_wrong` |
| C107 | cosine of parallel vectors of weights 2^700 and 1 is 0, of two of weight 2^700 NaN, a link that passes every threshold; a NaN weight, or one whose square underflows, makes the projection raise `KeyError` or not according to the order of the labels | `pairSample_findings` |
| C108 | the sizes of components of a directed graph and of the graph with its edges the other way differ (`[2]`, `[1, 1]`); turning one of two edges between two nodes changes what `keep_connected` keeps | `connectedComponentOrders_reversed_wrong`, `keepConnected_turned_wrong` |
| C109 | `alpha` is the level of the test at one end of an edge, not of the test of an edge: an edge significant at either end is kept, which under the null model has probability `1 - (1 - alpha)²`, 0.0975 for the default 0.05 | `backbone_level`, `backbone_level_both` |
| C110 | on a graph whose edges have equal weights the backbone is empty for every `alpha` up to `1 / e`, whatever the graph | `multiscaleBackbone_uniform` |
| C111 | one node of degree `d` out of the part makes the projection meet `d ** 2` nodes, and return up to `d (d - 1) / 2` edges | `projection_reads_lower`, `projection_calls_bipartite` |
| C112 | integer weights whose squares sum to `2 ** 1024 - 2 ** 970` or more make `cosine` raise `OverflowError`; the same weights as floats give NaN or 0; weights `2 ** 53`, 1, 1 give another backbone as integers than as floats | `cosine_int_overflow`, `intPair_findings`, `intLink_findings`, `int_or_float` |
| C113 | NaN cells of a table are one node for each object, so that the number of nodes depends on how missing values were made | `missing_depends` |
| C114 | with overlap, or with a threshold, the weights are no longer those of a kernel | `projection_not_kernel` |
| C115 | up to twice `alpha` of the edges of a graph of noise are kept (C109 and C115), as an edge is tested at both ends | `backbone_level_both` |
| C116 | a threshold is useless with `pmi`: values not above 0 raise, values above 0 remove every edge, as no weight is above 0; two nodes sharing their only neighbor get weight 0, which makes `edge_disparity` raise | `projection_pmi_threshold`, `projection_pmi_disparity` |
| C117 | when no two nodes share more than one neighbor, the backbone of the projection without metric is empty for every `alpha` up to `1 / e` (the default is 0.05) | `projection_backbone_once` |
| C118 | with a threshold, nodes of one component of the bipartite graph may be in several components of the projection | `projection_components_sample` |
| C120 | the number of epochs of the learner is proportional to the weights: 100001 passes over the graph for an edge of weight 1000 with a learning rate of 0.01; on a graph which is not connected, nothing is learned with a limit of at most 1 | `floatsam_bottleneck_sample`, `floatsamR_unconnected_sample` |
| C127 | reversing every link changes the self similarity projection of depth 2: the weight of two nodes is 1/2 in a graph and 1/3 in the reversed one, because the search outwards overwrites the depth that limits the search inwards | `selfSimilarity_reverse_wrong` |
| C129 | in the self similarity projection of the links 2 → 1, 3 → 1, 3 → 2, node 2 has the similarity 1 with 1 and with 3, which are not linked: 1 minus the weight is no distance | `selfSimilarity_distance_wrong` |

## 4. Property by property

| id | model | specification and proof |
|----|-------|-------------------------|
| C01-C05 | `UnionFind`: cells bounded by their integer type, both loops of `find`, `DisjointSet` over the register | histories of operations run against the partition generated by the unions; invariant: parents form a forest, each root knows the size of its class; exact condition of the overflow |
| C06 | `Register` | histories run against the list of distinct keys |
| C07-C11 | `Utils`, `Sort`: counting sort with its bounds, counts, prefix sums and placement | placement equals rank; the result is characterised as the unique stable sort |
| C12-C14 | `Components`: the DFS of `connected_component_orders` on `DFSStack` | classes of reachability; traversal invariant on the seen set; multiset of class sizes |
| C15-C17 | `Components` with networkx's level by level search (`Nx/Components`) | invariant of the early exit |
| C18-C22, C26 | `Graph` | sameness of graphs up to order (`Graph.Same`), rebuilding lemma for the edge listing; counting argument for comparison |
| C23-C25 | `SpanningTrees`, `Spec/NearTies` | maximum spanning forests of edges identified by position; bucket invariant, exchange argument; buckets are the classes of the merged weights |
| C27-C29 | `Triangles`: procedure K3 with its deletions | invariant "triangles whose first node was processed are out" |
| C30-C31 | `Disparity`, `DisparityErrors` | algebra in ordered fields; the exceptions by cases over the two loops |
| C32-C37, C59 | `Sparsification` | predicate, filter, removal and flagging against the edge listing; forests from C24 for connectivity |
| C38-C42 | `Projection`: online metrics as state machines, both loops | accumulated intersections are sums over common neighbors; inequalities between metrics in `ℝ` |
| C43-C44 | `SelfSimilarity` | distance as least number of steps; queue level invariant; inverted index against common neighborhoods; exact radius of every neighborhood at any depth (`radii`), equal to the depth when no neighborhood ends before it |
| C45-C47 | `Graphology` | description of a document independent of the writer; injectivity of `str` on integers |
| C48-C52, C60 | `Tabular` | counting of rows; fold invariants over rows |
| C53-C54 | `ToTabular` | cells of the frame against nodes and edges; reading back through C52 |
| C55-C56, C61 | `Learn` | first step satisfying the stopping condition; non-termination by invariant of the loop |
| C57 | `Shim` | programs using the shim, run against a state machine |
| C58 | `Traversal` | histories of operations |
| C62 | `UnionFind` | reads of the parents array counted beside the loop; potential argument (class sizes double along ranks) and a chain-building history |
| C63 | `Sparsification`, `SpanningTrees` | edges kept are those passing the threshold or lying in some maximum spanning forest |
| C64 | `Projection`, `Sparsification` | two runs in lockstep: the thresholded state is the restriction of the other one to links reaching the threshold |
| C65 | `Projection` with `PyMath` rounding to binary64 | rounding is monotone, fixes integers below 2^53 and has relative error 2^-53; quotients of different integers below 2^53 stay different from 1 |
| C66 | `Learn` with a rounding as parameter | the loop against the sequence of rounded thresholds; the least float fixed by adding the rate is a power of 2, below which thresholds increase by a multiple of the smallest float; from any start, they increase to the least fixed float above it, and the fixed ones are found by comparing the two nearest floats and, for ties, the parity of the significand |
| C67 | `Components` | the component kept is a component (C15), its induced subgraph is connected, and the loop returns the only component |
| C68 | `Triangles` | each triple counted adds 3 to the sum of the counter; triples are in bijection with triangles (C18) |
| C69 | `Sparsification`, `SpanningTrees` | an edge in some maximum spanning forest is in one of any subfamily of edges containing it |
| C70 | `Projection` | the loop only reads the part through `keeps`, and the check (C41) is silent |
| C71 | `Tabular`, `Projection` | the exact results of C48-C50 and C38-C40 composed, attributes being converted by `Graph.mapAttrs` |
| C72 | `Triangles`, `Spec/TrianglesCost` | an instrumented copy of the loops (same yields), induction on the sorted nodes, then double counting |
| C73 | `Disparity`, `Sparsification`, `SpanningTrees` | the exact results rewritten in the other unit |
| C74 | all of these | `SameEdges` relates two listings of the same edges; each exact result is written from sets, sums over edges or spanning forests, which are carried along it |
| C75 | `GraphEdit` | from the exact answer of the comparison; with equally many edges, one inclusion implies the other |
| C76 | `GraphEdit` | the exact results as filters of lists, composed |
| C77 | `Disparity`, `Sparsification` with an arithmetic as parameter | a sum rounded at each step by a monotone rounding is no less than its terms |
| C78 | all of the graph model | simulation: every operation commutes with an injective renaming; functions that order pairs through their exact results |
| C79 | `SpanningTreesFloat` | floats of magnitude `2^e` are multiples of `2^(e-52)`; no such multiple lies between `1e-8` and its float |
| C80 | `Nx/Heap`, `Heap`: graphs whose attribute dicts are locations of a heap | refinement of the model without identity, by induction on the loops; invariant: the dicts of the copy are new and distinct, the old ones unchanged |
| C81 | `Learn`, `Sparsification` | the exact results of both; the first step at which the components drift, monotone in the limit |
| C82 | `Components`, `Triangles`, `Disparity`, `SpanningTrees`, `Sparsification`, `Projection`, `SelfSimilarity` | adjacency, linkage and heavier paths of a part without outgoing edges are those of the whole; exact results of each function |
| C83 | `Json` | the scanner reads exactly the texts of a grammar (`Spec/Json`), by induction on renderings and on fuel; the encoder writes one of them; the document of a graph whose names are cast is the cast document |
| C84 | `Memory` | the state of the predicate is threaded through the loops; answers to distinct items are those of a predicate without memory, so that the earlier theorems apply; the traversal by an invariant (visited and held nodes are the nodes seen) |
| C85 | `Coroutine` | generators as trees of reads, yields and stops, run against a sequence of worlds; by induction, no read after the first yield matters: the edges yielded are before the edge whose weight is read in a list without repetition |
| C86 | `ProjectionRounded`: `Projection` with a rounding as parameter | the loops compute sums rounded at each step, in the order of the neighbors; numbers equal up to `k` roundings (`Near k`) are closed under sums, products, quotients and square roots, away from underflow |
| C87 | `Projection` on multigraphs | the loops run alike on the graph and on the simple graph of its pairs of adjacent nodes, by induction; then C39 |
| C88 | `Graphology`: the reader on any value | each step succeeds exactly under a condition that does not depend on the graph built so far; then by induction on the lists |
| C89 | `NonFinite`: spanning trees, `keep_connected` and threshold on floats with infinities and NaN; the sort is any function that permutes, and sorts when no key is NaN | the loop keeps the classes of all the edges seen, whatever the buckets; without NaN the run is that of the weights with infinities replaced by large numbers |
| C90 | `Disparity` takes its operations on numbers as a record (`NumOps`), instantiated with exact, rounded and non-finite arithmetic | strengths by induction over the sum, then cases at each end |
| C91 | `remove_leaves` called k times; the core is a union of sets of nodes with two edge ends inside the set | induction on the number of nodes; a leaf shares the fate of the node it hangs from |
| C92 | the rounded arithmetic of C77 | relative error of the strengths; a relative change of a proportion moves `(1 - p) ** n` by no more, since `n p (1 - p) ** (n - 1)` is a probability |
| C93 | `sum` over floats as in CPython 3.12 and later; the rest as C77 | the error of each addition is a float computed exactly (Fast2Sum), so that only the sum of the errors is rounded; then as C92 |
| C94 | as C24, C36 and C55 | edges left out of the union of maximum spanning trees are linked by strictly heavier ones: induction on decreasing weight |
| C95 | as C32, C33 and C69 | the edges kept are a filter of the edges (C32, C33); dropping edges outside of the spanning trees does not change these, by the argument of C94 |
| C96 | as C18-C22, C32-C37 | loops split at the first item on which the predicate raises; the edges before it are a prefix of the listing |
| C97 | `SelfSimilarity` takes the rounding of its scores; `Projection` as C65 | a neighborhood has at most two tags per node, so that the counts are small; two quotients of counts below 2^26 differ by more than the rounding errors |
| C98 | as C23, C28, C32, C30 | `add_edge` appends one link; linked pairs after one more pair (`linked_cons`), common neighbours, incident edges and heavier paths compared between the two graphs |
| C99 | as C23, C30, C32, C33 | `g[u][v][attr] = x` changes one weight of the listing (`edgesData_setEdgeAttr`); shares in strengths compared (`nodeStrength_share`), heavier paths compared, then the sparsifications as filters of the listing |
| C100 | as C39, C40 | the seven regions of three sets (`venn`) and a polynomial with nonnegative coefficients; exchange of two finite sums; the equality case of Cauchy-Schwarz |
| C101 | as C01-C05; `Model/UnionFindIndex` has the same methods on any integers | the invariant of C01 kept by every call that raises (`Inv.step_oob_state`, `DisjointSet.InvAll`); the integer walks are the natural ones after their first index (`Inv.findI`, `Inv.calls`) |
| C102 | as C48-C52 | the content of an edge (of a node) as a function of the list of its rows (`tables_edge_rows`, `tables_node_rows`, `bipartite_edge_rows`, `bipartite_node_rows`), compared for both lists of rows; a renaming built from the tags (column, value) (`renaming_of_tags`) |
| C103 | `Model/EdgeLoop`: the generators as coroutines (see C85) iterating over the dicts of the graph, each `next()` comparing the dict with what it was; anything else a dict iteration may do is a parameter | induction on the nodes and neighbors left (`run_edgesCo`); a test of each edge in turn (`testedInTurn`) compared with a listing made first; a loop as the run in the worlds it makes (`Co.loop_run`) |
| C104 | the rounded arithmetics of C77 and C93 | rounding commutes with powers of two on multiples of 2^-1074 (sums of floats are), quotients do not change at all; both graphs are then followed step by step through the code |
| C105 | floats with infinities, `Model/Overflow.lean`: the rounded arithmetics of C77 and C93, each operation giving an infinity from 2^1024 on | partial sums of positive floats increase, so the sum is infinite exactly when the unbounded one is at least 2^1024; w / inf = 0 then gives 1. The intermediate values of the compensated sum are bounded with the invariant of C93 |
| C106 | `Added` of C98 between a node of the part and a node out of it (`Tie`); the projection with the hypotheses of C39 and C40 | the neighborhoods of the other nodes are the same, that of `a` gains `t`; closed forms of the weights, then inequalities between quotients of cardinals |
| C107 | `Model/ProjectionX.lean`: the cosine and dot product projections with given operations on numbers, then with those of floats (`metric64`); specification `Spec/ProjectionX.lean` | the loops compute sums in the order of the neighbors whatever the operations are (`projectionN_cases`); then sums of squares of floats: NaN, 0 or infinite exactly when the weights say so, and no product of two norms is 0 |
| C108 | the functions of the other properties; specification `Spec/Turn.lean`: two graphs of any kinds with the same nodes and the same edges but for direction and order | from the exact theorems of each function, which speak of adjacency, linked nodes, degrees or maximum spanning forests, none of which depends on direction; the edges of the two graphs are matched by a bijection (`SameEdges.reindex`) |
| C109 | `Model/Disparity.lean` and `Model/Sparsification.lean` over the reals; specification `Spec/NullModel.lean`: a way of cutting 1 into `n + 1` shares drawn uniformly (the Lebesgue measure conditioned by the simplex) | the cuts whose share is at least `p` are the image of all cuts by a homothety of ratio `1 - p`, hence the probability `(1 - p) ^ n`; then the exact theorems of `edge_disparity` and `multiscale_backbone` |
| C110 | the same functions over the reals; specification `Spec/BackboneSize.lean` (`Graph.Dominates`) | a share whose score is at most `alpha` is at least `L / (L + k - 1)` with `L = log (1 / alpha)`, so few edges of a node have one; every edge kept is charged to an end. Equal weights: scores are `(1 - 1 / k) ^ (k - 1)`, a decreasing sequence of limit `1 / e` (Bernoulli's inequality) |
| C111 | `Model/Projection.lean`; specification `Spec/ProjectionCost.lean`: the loops with two counters, same results by `monopartiteProjectionTraced_result` | induction on the loops, then double counting of the pairs of a node of the part and a neighbor; each link of the result comes from an entry of the intersections, each entry from a call |
| C112 | `Model/IntWeights.lean`: operations for integer weights (exact sums and products, one rounding at divisions and square roots, `OverflowError`) in `edgeDisparityN` and `monopartiteProjectionN`; specification `Spec/IntWeights.lean` | `projectionN_cases` and `edgeDisparityN_exact` instantiated; error bound by the `Near` calculus, the quotient cannot overflow by Cauchy-Schwarz; scaling by `edgeDisparityN_rescaled` |
| C113 | `Model/Cells.lean`: cells compared as dict keys are, the register and the loop on them; specification `Spec/Cells.lean` | simulation: the loop does what `bipartiteLoop` does on the classes of the cells with the texts collected as labels, then C48 to C50 |
| C114 | specification `Graph.kernelForm`, `ownSimilarity` in `Props/Kernels.lean` | Gram matrices for the counts, dot products and cosines; dice and Jaccard as integrals over `t` in `[0, 1]` of `t ^ (a + b - 1)` and `t ^ (n - 1)`, the latter expanded over the sets disjoint from both neighborhoods; the triangle inequality from three nodes |
| C115 | C109; specification `backboneSize`, `Graph.SignificantAt`, `RandomStar` in `Props/NullModelSize.lean` | the size is a sum of indicators by C109, its integral is the sum of the probabilities; union bound; on a star the p-value at a leaf is 1 and that at the center is uniform |
| C116 | specification `mutualInformation` in `Props/Pmi.lean`, the star in `projection_pmi_disparity` spelled out on the input graph | C39 and C40 for the weights; all weights being at most 0, a strength is 0 exactly when each of them is, then C30 |
| C117 | specification `Graph.coNeighbors`, `coDisparity` in `Props/ProjectionBackbone.lean`, on the bipartite graph | C39 gives the weights, which are above 0, then C33; strengths and degrees of a simple graph without self loops as sums over neighbors, counted by the neighbors shared |
| C118 | C12; specification `Linked`, `componentOrders` (`Spec/Linked.lean`, `Spec/Components.lean`) on the edges of the bipartite graph | induction over the links, each node of the other part standing for its neighbors, which are linked with each other in the projection; representatives of the components injected both ways; C36 for the backbone |
| C119 | C28, C39; specification `Graph.IsTriangle`, `Graph.coNeighbors` on the bipartite graph | links of the projection from C39, strengths as numbers of common neighbors, the sets of three neighbors of a node as triangles |
| C120 | `Learn`; specification `ConnectedAt`, `IsBottleneck` on the edges at least as heavy as a threshold | the weights above a threshold have a least one, which keeps the same edges; the first step above the bottleneck, by the floor of a quotient |
| C121 | C23, C32, C63, C120 | an edge of a maximum spanning forest is one whose ends no heavier edges link; the edges of the forests reaching a threshold link what all the edges reaching it link |
| C122 | C22, C23, C28, C91 | nodes of a triangle are in the core (C91); leaves share the fate of the node they hang from, for the edges heavier than a given one; the edge of a leaf is the only one touching it |
| C123 | C12, C23, C63; specification `IsMaxSpanningForest`, `componentOrders` | each edge of a set without cycle merges two components; without equal weights, an edge out of a maximum spanning forest and not linked by heavier ones could be exchanged for a lighter one |
| C124 | C23, C120, C121 | an edge of the trees lighter than the bottleneck would have its ends linked by heavier ones; were all of them heavier, their least weight would leave the graph connected |
| C125 | C16, C28, C32, C33; specification `Graph.IsTriangle`, `JoinedBy` on the listed edges | adjacencies of a graph with some of the edges; strengths as numbers of common neighbors; no edge leaves the component kept |
| C126 | C39, C44; specification `LinksGraph`, by the edges of the bipartite graph | neighborhoods in the bipartite graph as images of the tagged neighborhoods; each link between two nodes is two tags of the union and none of the intersection |
| C127 | C44; specification `Graph.Reversed` on the listed edges | successors and predecessors exchanged, in a similarity symmetric in both; false at depth 2, by a witness |
| C128 | C44 (`radii`) | the radii really explored grow with the depth; distances are less than the number of nodes, by the nodes at each distance of a shortest walk |
| C129 | C44, C100 | without links between the nodes the weight is the Jaccard index of two sets, by C100 a distance; false otherwise, by a witness |
| C130 | C39, C100; specification `fourCycles` by `hasEdge` | each pair of neighbors shared by two nodes is a walk around a cycle of four nodes; turning the walks by one step exchanges the parts; by dot product, the squares of the products of rows and of columns of the matrix of weights have the same sum |
| C131 | C01-C05, C12 | the history of the calls, against the partition generated by the edges; its classes are in bijection with the first nodes of the components |
| C132 | C18, C28, C12; specification `Between`, `Linked` | a triangle around an edge is a way around it, so that the edges left link the same nodes; the ways around an edge by its triangles share no edge, so that as many edges must go to close them all |
| C133 | C23, C24 | an edge is in some maximum spanning forest exactly when heavier edges do not link its ends; none of them touches a node whose strongest edge it is, and two of them link the ends of the lightest edge of a triangle |
| C134 | C48, C51, C102; specification `edgeCount` | the nodes are the values tagged with their columns; each row with the value is counted in the edge to its other value |
