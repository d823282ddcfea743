{
 "claims": [
  {
   "property": "C01",
   "status": "proved",
   "theorems": [
    "Pelote.unionFind_history",
    "Pelote.unionFind_find_canonical",
    "Pelote.disjointSet_history"
   ],
   "note": "every history that does not raise answers according to the generated partition; see C04/C05 for when it raises"
  },
  {
   "property": "C02",
   "status": "proved",
   "theorems": [
    "Pelote.unionFind_history",
    "Pelote.disjointSet_history"
   ],
   "note": "len / union / clear clauses of the history specification"
  },
  {
   "property": "C03",
   "status": "proved",
   "theorems": [
    "Pelote.unionFind_history",
    "Pelote.disjointSet_history"
   ],
   "note": "cardinality clause of the history specification"
  },
  {
   "property": "C04",
   "status": "partial",
   "theorems": [
    "Pelote.unionFind_never_raises_partial",
    "Pelote.unionFind_overflow_iff",
    "Pelote.unionFind_overflow_at_256"
   ],
   "note": "the full claim is false: refuted at capacity 256; proved for all other capacities, and the overflow condition is characterised exactly"
  },
  {
   "property": "C05",
   "status": "proved",
   "theorems": [
    "Pelote.disjointSet_never_raises",
    "Pelote.disjointSet_full"
   ],
   "note": "the capacities of C04 are excepted in the never-raises half"
  },
  {
   "property": "C06",
   "status": "proved",
   "theorems": [
    "Pelote.idRegister_history",
    "Pelote.idRegister_injective"
   ],
   "note": ""
  },
  {
   "property": "C07",
   "status": "proved",
   "theorems": [
    "Pelote.uintRepresentation_smallest",
    "Pelote.uintRepresentation_capacity"
   ],
   "note": ""
  },
  {
   "property": "C08",
   "status": "proved",
   "theorems": [
    "Pelote.countingSort_ascending",
    "Pelote.countingSort_descending",
    "Pelote.sorted_unique"
   ],
   "note": "list lengths below 2^64 (any representable Python list)"
  },
  {
   "property": "C09",
   "status": "partial",
   "theorems": [
    "Pelote.countingSort_sorted_partial",
    "Pelote.countingSort_descending",
    "Pelote.countingSort_empty",
    "Pelote.countingSort_unstable"
   ],
   "note": "the full claim is false: refuted on the empty list and on ties; proved for tie-free non-empty lists and for reverse=True"
  },
  {
   "property": "C10",
   "status": "proved",
   "theorems": [
    "Pelote.fastIntersectionSize_eq",
    "Pelote.fastIntersectionSize_comm"
   ],
   "note": ""
  },
  {
   "property": "C100",
   "status": "proved",
   "theorems": [
    "Pelote.projection_jaccard_distance",
    "Pelote.projection_strength",
    "Pelote.projection_strength_dot",
    "Pelote.projection_cosine_scale",
    "Pelote.projection_cosine_one",
    "Pelote.projection_dice_not_distance"
   ],
   "note": "Exact arithmetic: any ordered field for jaccard and the sums, the real numbers for cosine. The last theorem shows that dice and overlap are not distances; an example beside it applies the theorems to a graph."
  },
  {
   "property": "C101",
   "status": "proved",
   "theorems": [
    "Pelote.unionFind_failures",
    "Pelote.unionFind_overflow_state",
    "Pelote.unionFind_negative",
    "Pelote.disjointSet_failures",
    "Pelote.disjointSet_capacity"
   ],
   "note": "Capacities other than those of C04 (2^8, 2^16, 2^32 with 32-bit longs, 2^64), except unionFind_overflow_state, which is about them."
  },
  {
   "property": "C102",
   "status": "proved",
   "theorems": [
    "Pelote.tables_perm",
    "Pelote.edges_table_perm",
    "Pelote.tables_swap_undirected",
    "Pelote.tables_swap_directed",
    "Pelote.tables_append_weight",
    "Pelote.tables_append_last",
    "Pelote.bipartite_perm",
    "Pelote.bipartite_swap",
    "Pelote.bipartite_append",
    "Pelote.bipartite_perm_sample",
    "Pelote.bipartite_order_matters",
    "Pelote.edges_table_order_matters"
   ],
   "note": "Names of columns that can be passed as keyword arguments, and functions collecting data that return dicts without duplicate keys. The last three theorems are cases: one meeting the hypotheses, and two where rows contradict one another and the order matters."
  },
  {
   "property": "C103",
   "status": "proved",
   "theorems": [
    "Pelote.sparsifier_loop_snapshot",
    "Pelote.sparsifier_loop_interrupted",
    "Pelote.sparsifier_loop_removing",
    "Pelote.removeEdge_deref",
    "Pelote.backbone_blind",
    "Pelote.decorated_blind",
    "Pelote.sparsifier_generators",
    "Pelote.sparsifier_loop_late"
   ],
   "note": "Simple graphs, sparsifiers given a predicate factory (all those of the library). What Python does when entries of a dict are replaced by as many others is a parameter the theorems are quantified over. The last theorem is the case in parentheses."
  },
  {
   "property": "C104",
   "status": "proved",
   "theorems": [
    "Pelote.edgeDisparity_power_of_two",
    "Pelote.multiscaleBackbone_power_of_two",
    "Pelote.RescaledResult.edges",
    "Pelote.edgeDisparity_any_unit",
    "Pelote.edgeDisparity_times_three"
   ],
   "note": "Weights are floats (IsFloat64) present on every edge; the exponent of floats has no upper bound in the model, hence no overflow. ** may round in any way. The last theorem is the case in parentheses."
  },
  {
   "property": "C105",
   "status": "proved",
   "theorems": [
    "Pelote.edgeDisparity_overflow",
    "Pelote.roundedStrength_lt_top",
    "Pelote.edgeDisparity_no_overflow",
    "Pelote.edgeDisparity312_no_overflow",
    "Pelote.edgeDisparity312_overflow",
    "Pelote.multiscaleBackbone_overflow",
    "Pelote.giantStar_overflow",
    "Pelote.giantStar_meets"
   ],
   "note": "** is any function with values between 0 and 1 on numbers between 0 and 1, and 1 at 1. The sign of zero is not modelled. giantStar_overflow is the case in parentheses."
  },
  {
   "property": "C106",
   "status": "proved",
   "theorems": [
    "Pelote.projection_addEdge",
    "Pelote.projection_tie",
    "Pelote.projection_addEdge_count",
    "Pelote.projection_addEdge_dot",
    "Pelote.projection_addEdge_monotone",
    "Pelote.projection_addEdge_strict",
    "Pelote.projection_addEdge_cosine_wrong",
    "Pelote.accounts_tie"
   ],
   "note": "Simple undirected graphs, bipartite with respect to the part, which the added edge respects. The first theorem and projection_tie suppose that no denominator is rounded to 0 (SafeIn), which the others derive. projection_addEdge_cosine_wrong is the case in parentheses."
  },
  {
   "property": "C107",
   "status": "proved",
   "theorems": [
    "Pelote.projectionN_cases",
    "Pelote.projection64_cases",
    "Pelote.hasNorm64",
    "Pelote.projection64_nan",
    "Pelote.overflows_of_infinite",
    "Pelote.similarity64_overflow",
    "Pelote.projection64_overflow",
    "Pelote.projection64_dot",
    "Pelote.projection64_nan_threshold",
    "Pelote.similarity64_moderate",
    "Pelote.sqrtRange_real",
    "Pelote.pairSample_findings",
    "Pelote.pairSample_projectable"
   ],
   "note": "Simple undirected graphs, bipartite with respect to the nodes given. The square root is any function with the range SqrtRange, which that of CPython has (sqrtRange_real). Weights are floats: integers that do not fit in a float are not modelled. The sign of zero is not modelled. pairSample_findings is the cases in parentheses."
  },
  {
   "property": "C108",
   "status": "proved",
   "theorems": [
    "Pelote.triangles_turned",
    "Pelote.triangularStrength_turned",
    "Pelote.largestConnectedComponent_turned",
    "Pelote.cropToLargest_turned",
    "Pelote.removeNodes_turned",
    "Pelote.removeLeaves_turned",
    "Pelote.filterEdges_turned",
    "Pelote.removeEdges_turned",
    "Pelote.unionOfMaximumSpanningTrees_turned",
    "Pelote.unionOfMaximumSpanningTrees_reversed",
    "Pelote.globalThreshold_turned",
    "Pelote.globalThreshold_reversed",
    "Pelote.turnSample_reversed",
    "Pelote.turnSample_turned",
    "Pelote.connectedComponentOrders_reversed_wrong",
    "Pelote.keepConnected_turned_wrong"
   ],
   "note": "Predicates that answer on every node or edge, attribute names that can be passed as keyword arguments, numbers as weights where weights are used. turnSample meets the hypotheses; the last two theorems are the cases in parentheses."
  },
  {
   "property": "C109",
   "status": "proved",
   "theorems": [
    "Pelote.disparity_integral",
    "Pelote.pValue_eq",
    "Pelote.edgeDisparity_pValue",
    "Pelote.multiscaleBackbone_pValue",
    "Pelote.backbone_level",
    "Pelote.backbone_level_both",
    "Pelote.edgeDisparity_random_leaf",
    "Pelote.cutPath_meets"
   ],
   "note": "Simple undirected graphs with positive real weights and orderable nodes; no rounding. edgeDisparity_random_leaf states the level of the test on the program itself, for the edge between a node of random weights and a leaf; cutPath_meets shows a family of graphs meeting its hypotheses."
  },
  {
   "property": "C11",
   "status": "proved",
   "theorems": [
    "Pelote.hasMixedTypes_iff"
   ],
   "note": ""
  },
  {
   "property": "C110",
   "status": "proved",
   "theorems": [
    "Pelote.disparity_dominates",
    "Pelote.multiscaleBackbone_dominates",
    "Pelote.multiscaleBackbone_size",
    "Pelote.multiscaleBackbone_size_bound",
    "Pelote.equalScore_antitone",
    "Pelote.disparity_uniform",
    "Pelote.multiscaleBackbone_uniform",
    "Pelote.kite_meets"
   ],
   "note": "Simple undirected graphs with positive real weights, orderable nodes and attribute names that can be keyword arguments; no rounding."
  },
  {
   "property": "C111",
   "status": "proved",
   "theorems": [
    "Pelote.monopartiteProjectionTraced_result",
    "Pelote.projection_reads",
    "Pelote.projection_calls",
    "Pelote.projection_size_le_calls",
    "Pelote.projection_reads_bipartite",
    "Pelote.projection_calls_bipartite",
    "Pelote.projection_size_bipartite",
    "Pelote.projection_reads_degree",
    "Pelote.projection_reads_lower",
    "Pelote.fanSample_meets"
   ],
   "note": "Parts other than frozensets and tuples (C38). Numbers of accumulations: keys that can be compared with each other. The counters are those of traced copies of the loops, which return the same results (first theorem); the first loop, which goes once through the neighbors of the nodes of the part, is not counted. The last theorem shows a graph meeting the hypotheses, and one where the cosine meets less."
  },
  {
   "property": "C112",
   "status": "proved",
   "theorems": [
    "Pelote.edgeDisparity_int",
    "Pelote.edgeDisparity_int_scale",
    "Pelote.multiscaleBackbone_int_scale",
    "Pelote.int_or_float",
    "Pelote.hugePath_meets",
    "Pelote.dotProduct_int",
    "Pelote.cosine_int_overflow",
    "Pelote.cosine_int_overflow_iff",
    "Pelote.cosine_int_zero",
    "Pelote.cosine_int",
    "Pelote.intPair_projectable",
    "Pelote.intPair_findings",
    "Pelote.intLink_findings"
   ],
   "note": "Thresholds above 0; the projection is stated on bipartite graphs with orderable keys (ProjectableN); the square root is the float nearest to the real one; powers of floats between 0 and 1 stay between 0 and 1. multiscale_backbone without keep_connected."
  },
  {
   "property": "C113",
   "status": "proved",
   "theorems": [
    "Pelote.cellTable_graph",
    "Pelote.cellTable_congr",
    "Pelote.cellTable_unhashable",
    "Pelote.rowsWith_nan",
    "Pelote.cellSample_graph",
    "Pelote.missing_depends"
   ],
   "note": "disjoint_keys=False and no data to collect; attribute names that can be keyword arguments. The loop on cells is proved equal to tableToBipartiteGraph (C48-C50) on the classes of the cells (cellTable_encoded). The last two theorems are the cases."
  },
  {
   "property": "C114",
   "status": "proved",
   "theorems": [
    "Pelote.projection_kernel",
    "Pelote.projection_sqrt_distance",
    "Pelote.projection64_kernel",
    "Pelote.projection_not_kernel"
   ],
   "note": "Over the real numbers, without rounding, except the third theorem (binary64, jaccard and dice); bipartite simple undirected graphs with orderable keys (Projectable). The last theorem has the cases where it fails."
  },
  {
   "property": "C115",
   "status": "proved",
   "theorems": [
    "Pelote.backboneSize_expected",
    "Pelote.backboneSize_noise",
    "Pelote.backboneSize_star",
    "Pelote.RandomStar.noise",
    "Pelote.backboneSize_cutPath"
   ],
   "note": "Real weights without rounding, orderable nodes, attribute names that can be keyword arguments, no keep_connected. The last two theorems are the case: a star meets the hypotheses, with its value on two leaves."
  },
  {
   "property": "C116",
   "status": "proved",
   "theorems": [
    "Pelote.projection_pmi",
    "Pelote.projection_pmi_threshold",
    "Pelote.projection_pmi_disparity",
    "Pelote.projection64_pmi",
    "Pelote.pmi_samples"
   ],
   "note": "Over the real numbers, without rounding, except projection64_pmi (binary64, fewer than 2^52 nodes); bipartite simple undirected graphs with orderable keys (Projectable). The last theorem has the cases, one of each kind."
  },
  {
   "property": "C117",
   "status": "proved",
   "theorems": [
    "Pelote.projection_backbone",
    "Pelote.coDisparity_counts",
    "Pelote.projection_backbone_once",
    "Pelote.projection_backbone_sample"
   ],
   "note": "Over the real numbers, without rounding nor keep_connected; bipartite simple undirected graphs with orderable keys (Projectable). The last theorem is a case where one link is kept and the other is not."
  },
  {
   "property": "C118",
   "status": "proved",
   "theorems": [
    "Pelote.projection_components",
    "Pelote.projection_components_both",
    "Pelote.projection_backbone_connected",
    "Pelote.projection_components_sample"
   ],
   "note": "Bipartite simple undirected graphs with orderable keys (Projectable); exact square roots and logarithms (hsqrt, hrnd hold of the real numbers), the backbone over the real numbers, for orders at which the disjoint set does not overflow (see C04, C36) and any metric but pmi. The last theorem is a case, and refutes the claim with a threshold."
  },
  {
   "property": "C119",
   "status": "proved",
   "theorems": [
    "Pelote.projection_triangular",
    "Pelote.projection_triangular_sample"
   ],
   "note": "Bipartite simple undirected graphs with orderable keys (Projectable); exact square roots and logarithms (hsqrt, hrnd hold of the real numbers). The last theorem is a case."
  },
  {
   "property": "C12",
   "status": "proved",
   "theorems": [
    "Pelote.connectedComponentOrders_exact",
    "Pelote.connectedComponentOrders_sum",
    "Pelote.firstNodes_partition",
    "Pelote.connectedComponentOrders_directed_wrong"
   ],
   "note": "undirected graphs (simple and multi) fully proved; the sum to the order is proved for every graph; the extension to directed graphs is refuted"
  },
  {
   "property": "C120",
   "status": "proved",
   "theorems": [
    "Pelote.bottleneck_exists",
    "Pelote.connectedAt_iff",
    "Pelote.floatsamR_bottleneck",
    "Pelote.floatsam_bottleneck",
    "Pelote.floatsamR_unconnected",
    "Pelote.floatsam_bottleneck_sample",
    "Pelote.floatsamR_unconnected_sample"
   ],
   "note": "Exact arithmetic in floatsam_bottleneck, any rounding of the sum in the R theorems; numbers as weights (Weighted). The last two theorems are the cases."
  },
  {
   "property": "C121",
   "status": "proved",
   "theorems": [
    "Pelote.keepConnected_needed",
    "Pelote.keepConnected_bottleneck",
    "Pelote.keepConnected_learned",
    "Pelote.keepConnected_needed_sample"
   ],
   "note": "Numbers as weights (Weighted), equal or more than 1e-8 apart (see C23), orders of C25 excluded, attribute names that can be keyword arguments. The learner in exact arithmetic. The last theorem is a case."
  },
  {
   "property": "C122",
   "status": "proved",
   "theorems": [
    "Pelote.removeLeavesTimes_triangles",
    "Pelote.removeLeavesTimes_strength",
    "Pelote.removeLeaves_umst",
    "Pelote.removeLeaves_measures_sample"
   ],
   "note": "Graphs of any kind. Orderable nodes for triangular_strength; weights equal or more than 1e-8 apart for the spanning trees (see C23), the orders of C25 being excluded before and after. The last theorem is a case."
  },
  {
   "property": "C123",
   "status": "proved",
   "theorems": [
    "Pelote.spanningForest_card",
    "Pelote.unionOfMaximumSpanningTrees_size",
    "Pelote.unionOfMaximumSpanningTrees_orders",
    "Pelote.keepConnected_forest",
    "Pelote.unionOfMaximumSpanningTrees_size_sample"
   ],
   "note": "Graphs of any kind for the second theorem, undirected ones for the third (connected_component_orders), simple ones with numbers as weights and attribute names that can be keyword arguments for the fourth; orders of C25 excluded. The last theorem is a case."
  },
  {
   "property": "C124",
   "status": "proved",
   "theorems": [
    "Pelote.bottleneck_umst",
    "Pelote.floatsam_umst",
    "Pelote.floatsam_umst_sample"
   ],
   "note": "Numbers as weights (Weighted), equal or more than 1e-8 apart (see C23), orders of C25 excluded, at least two nodes. The learner in exact arithmetic, with enough fuel. The last theorem is a case."
  },
  {
   "property": "C125",
   "status": "proved",
   "theorems": [
    "Pelote.triangles_kept",
    "Pelote.triangularStrength_kept",
    "Pelote.globalThreshold_triangles",
    "Pelote.multiscaleBackbone_triangles",
    "Pelote.crop_triangles",
    "Pelote.crop_strength",
    "Pelote.globalThreshold_triangles_sample",
    "Pelote.multiscaleBackbone_triangles_sample",
    "Pelote.crop_strength_sample"
   ],
   "note": "Orderable nodes for triangular_strength and the backbone; numbers as weights and attribute names that can be keyword arguments for the sparsifications, positive weights, undirected simple graphs and exact arithmetic for the backbone. The last three theorems are the cases."
  },
  {
   "property": "C126",
   "status": "proved",
   "theorems": [
    "Pelote.selfSimilarity_bipartite",
    "Pelote.selfSimilarity_bipartite_sample"
   ],
   "note": "Directed graphs of any kind, depth 1 (see C44), over the real numbers without rounding, for any way of naming the nodes of the bipartite graph (LinksGraph) whose part can be compared (Projectable). The second theorem is a case with both kinds of pairs."
  },
  {
   "property": "C127",
   "status": "partial",
   "theorems": [
    "Pelote.selfSimilarity_reverse_partial",
    "Pelote.selfSimilarity_reverse_full_partial",
    "Pelote.cycleTwin_reversed",
    "Pelote.selfSimilarity_cliques",
    "Pelote.longIn_reversed",
    "Pelote.selfSimilarity_reverse_sample",
    "Pelote.selfSimilarity_reverse_wrong"
   ],
   "note": "Proved at depth 1, for directed graphs of any kind (weights without rounding), and at any depth when every node has, in each direction, a node at that distance or none at all. False at depth 2 (selfSimilarity_reverse_wrong, on a graph of 5 nodes): the searches overwrite the depth, so that the search inwards is limited by the distance at which the search outwards ended. The cliques are proved at depth 1, as stated."
  },
  {
   "property": "C128",
   "status": "proved",
   "theorems": [
    "Pelote.selfSimilarity_deeper",
    "Pelote.selfSimilarity_beyond",
    "Pelote.selfSimilarity_no_depth",
    "Pelote.selfSimilarity_depth_sample"
   ],
   "note": "Directed graphs of any kind, all integer depths, for any rounding of the weights; true although the depth is overwritten by the searches (C44), since what overwrites it grows with it."
  },
  {
   "property": "C129",
   "status": "partial",
   "theorems": [
    "Pelote.selfSimilarity_distance_partial",
    "Pelote.selfSimilarity_distance_sample",
    "Pelote.selfSimilarity_distance_wrong"
   ],
   "note": "Proved at any depth (with the neighborhoods really explored, C44) between nodes without links between them. False otherwise (selfSimilarity_distance_wrong): with the links 2 -> 1, 3 -> 1 and 3 -> 2, the similarity of 1 and 2 and that of 2 and 3 are 1, but 1 and 3 are not linked, because the links between two nodes are left aside for these two nodes only."
  },
  {
   "property": "C13",
   "status": "proved",
   "theorems": [
    "Pelote.connectedComponentOrders_filter",
    "Pelote.connectedComponentOrders_asymmetric_filter",
    "Pelote.connectedComponentOrders_cases"
   ],
   "note": "the direction-independence hypothesis is shown to be needed"
  },
  {
   "property": "C130",
   "status": "proved",
   "theorems": [
    "Pelote.projection_both_parts",
    "Pelote.projection_both_parts_one",
    "Pelote.projection_weight_one",
    "Pelote.projection_both_parts_dot",
    "Pelote.twoPages_projectable",
    "Pelote.twoPages_projectable_dot",
    "Pelote.projection_both_parts_sample",
    "Pelote.projection_both_parts_dot_sample"
   ],
   "note": "Simple undirected bipartite graphs whose parts can be compared (Projectable), the second part being the nodes out of the first. Pairs of nodes are counted in both orders and cycles as walks (fourCycles, 8 for a cycle), so that the sums of the theorem are four times those of the statement. Without metric the weights are counts, so rounding plays no part. For dot_product arithmetic is exact (a field)."
  },
  {
   "property": "C131",
   "status": "proved",
   "theorems": [
    "Pelote.disjointSet_components",
    "Pelote.disjointSet_components_runs",
    "Pelote.disjointSet_components_sample"
   ],
   "note": "Undirected graphs of any kind. The first theorem is about the runs that raise nothing, which is all of them by the second one but with 2^8, 2^16, 2^64 nodes (2^32 on some platforms), where the structure may overflow (C04)."
  },
  {
   "property": "C132",
   "status": "proved",
   "theorems": [
    "Pelote.strong_edge_removed",
    "Pelote.strong_edge_orders",
    "Pelote.strong_edge_robust",
    "Pelote.bridge_strength",
    "Pelote.bridge_sample"
   ],
   "note": "Simple graphs, directed or not (what joins the two nodes is removed in both directions; the orders are for undirected graphs, C12), with nodes in a total order."
  },
  {
   "property": "C133",
   "status": "proved",
   "theorems": [
    "Pelote.spanningTrees_strongest",
    "Pelote.keepConnected_strongest",
    "Pelote.spanningTrees_bridge",
    "Pelote.spanningTrees_weakest",
    "Pelote.spanningTrees_local_sample"
   ],
   "note": "Any kind of graph, numeric weights (a missing one counts as 1) in an ordered field, orders at which the disjoint set does not overflow (SafeOrder). Self loops are left out when comparing the edges of a node."
  },
  {
   "property": "C134",
   "status": "proved",
   "theorems": [
    "Pelote.bipartite_first_strength",
    "Pelote.bipartite_second_strength",
    "Pelote.bipartite_strength_sample",
    "Pelote.edges_table_strength",
    "Pelote.edges_table_strength_directed",
    "Pelote.edges_table_strength_sample"
   ],
   "note": "Every table that is accepted, the values of its rows being those of RowCells, unless disjoint_keys is wrongly set (Separate). For tables of edges the ends of the rows are those of RowEnds; in an undirected graph a self loop counts once."
  },
  {
   "property": "C14",
   "status": "proved",
   "theorems": [
    "Pelote.largestComponentOrder_exact",
    "Pelote.secondLargestComponentOrder_exact",
    "Pelote.secondLargestComponentOrder_filter"
   ],
   "note": "heapq.nlargest and max by their documented behaviour"
  },
  {
   "property": "C15",
   "status": "partial",
   "theorems": [
    "Pelote.largestConnectedComponent_component",
    "Pelote.largestConnectedComponent_max_partial",
    "Pelote.largestConnectedComponent_two_partial",
    "Pelote.largestConnectedComponent_wrong",
    "Pelote.Graph.largestConnectedComponent_max_iff",
    "Pelote.Graph.runningMax_sample"
   ],
   "note": "the full claim is false (refuted on sizes 3, 1, 4); the result is always a component, and is a largest one when sizes are nondecreasing up to a largest one; an exact criterion on the sequence of sizes is proved (max_iff)"
  },
  {
   "property": "C16",
   "status": "proved",
   "theorems": [
    "Pelote.cropToLargest_exact"
   ],
   "note": ""
  },
  {
   "property": "C17",
   "status": "partial",
   "theorems": [
    "Pelote.largestComponentSubgraph_view",
    "Pelote.largestComponentSubgraph_copy_partial",
    "Pelote.largestComponentSubgraph_copy_wrong"
   ],
   "note": "view mode fully proved; in copy mode the edges are right but all nodes are kept (refuted)"
  },
  {
   "property": "C18",
   "status": "partial",
   "theorems": [
    "Pelote.removeEdges_simple",
    "Pelote.removeEdges_partial",
    "Pelote.removeEdges_multiplicity",
    "Pelote.removeEdges_raises",
    "Pelote.removeEdges_multi_wrong"
   ],
   "note": "the full claim is false on multigraphs (refuted); proved for all simple graphs and for multigraphs whose parallel edges get the same verdict; number of remaining parallel edges proved always"
  },
  {
   "property": "C19",
   "status": "proved",
   "theorems": [
    "Pelote.filterEdges_exact",
    "Pelote.filterEdges_agrees_removeEdges",
    "Pelote.filterEdges_raises",
    "Pelote.filterEdges_key_lost"
   ],
   "note": "with the stated keyword restriction, whose necessity is witnessed"
  },
  {
   "property": "C20",
   "status": "proved",
   "theorems": [
    "Pelote.removeNodes_exact",
    "Pelote.removeNodes_raises"
   ],
   "note": ""
  },
  {
   "property": "C21",
   "status": "partial",
   "theorems": [
    "Pelote.filterNodes_exact",
    "Pelote.filterNodes_raises_iff",
    "Pelote.filterNodes_partial",
    "Pelote.filterNodes_drops_self_loop",
    "Pelote.filterNodes_incomparable"
   ],
   "note": "the full claim is false (refuted on undirected self loops and on incomparable keys); exact characterisation: the result is what remove_nodes leaves minus undirected self loops, and it raises exactly when a kept node cannot be compared to a neighbor"
  },
  {
   "property": "C22",
   "status": "proved",
   "theorems": [
    "Pelote.removeLeaves_exact",
    "Pelote.filterLeaves_exact",
    "Pelote.filterLeaves_partial"
   ],
   "note": "node keys comparable, attribute names usable as keyword arguments"
  },
  {
   "property": "C23",
   "status": "proved",
   "theorems": [
    "Pelote.unionOfMaximumSpanningTrees_exact",
    "Pelote.unionOfMaximumSpanningTrees_near_tie",
    "Pelote.unionOfMaximumSpanningTrees_merged",
    "Pelote.unionOfMaximumSpanningTrees_any_order",
    "Pelote.mergesNearTies_existsUnique",
    "Pelote.mergesNearTies_sample"
   ],
   "note": "Proved for every graph kind and every numeric weights in an ordered field, edges identified by position so parallel edges count separately, on every order except those of C25 at which the call may raise. The second theorem shows the hypothesis on near ties is needed; the third one gives the exact result with near ties, which are merged in a way shown to be unique; the fourth one covers the orders of C25."
  },
  {
   "property": "C24",
   "status": "proved",
   "theorems": [
    "Pelote.unionOfMaximumSpanningTrees_connectivity",
    "Pelote.unionOfMaximumSpanningTrees_connectivity_ok"
   ],
   "note": "Arbitrary numeric weights, near ties included; on every order except those of C25, and on those whenever nothing is raised."
  },
  {
   "property": "C25",
   "status": "partial",
   "theorems": [
    "Pelote.unionOfMaximumSpanningTrees_never_raises_partial",
    "Pelote.unionOfMaximumSpanningTrees_overflow_iff",
    "Pelote.unionOfMaximumSpanningTrees_overflow_merged",
    "Pelote.unionOfMaximumSpanningTrees_raises_at_256",
    "Pelote.unionOfMaximumSpanningTrees_not_a_number"
   ],
   "note": "The statement is false: a witness on 256 nodes is proved to raise. Proved: nothing is raised at any other order; at the overflowing orders, the exact condition."
  },
  {
   "property": "C26",
   "status": "proved",
   "theorems": [
    "Pelote.areSameGraphs_iff",
    "Pelote.areSameGraphs_multi_wrong",
    "Pelote.areSameGraphs_multi_irreflexive"
   ],
   "note": "simple graphs, as stated; the multigraph extension is refuted"
  },
  {
   "property": "C27",
   "status": "proved",
   "theorems": [
    "Pelote.triangles_exact",
    "Pelote.triangles_any_order"
   ],
   "note": "Every graph kind; the second theorem makes the result independent of the neighbor order and degree convention of the networkx undirected view."
  },
  {
   "property": "C28",
   "status": "proved",
   "theorems": [
    "Pelote.triangularStrength_exact",
    "Pelote.strength_pos_adjacent"
   ],
   "note": "Nodes totally ordered by Python's >; self loops are keys with strength 0 when full is set."
  },
  {
   "property": "C29",
   "status": "partial",
   "theorems": [
    "Pelote.naiveTriangularStrength_partial",
    "Pelote.naiveTriangularStrength_nonzero_partial",
    "Pelote.naiveTriangularStrength_exact",
    "Pelote.naiveTriangularStrength_lists_zeros",
    "Pelote.naiveTriangularStrength_self_loop"
   ],
   "note": "The statement is false (two witnesses). Proved: what the naive function returns on every graph, equality with full=True when no node with a self loop has two other neighbors, equality of the non-zero strengths with full=False."
  },
  {
   "property": "C30",
   "status": "proved",
   "theorems": [
    "Pelote.edgeDisparity_positive",
    "Pelote.edgeDisparity_exact",
    "Pelote.disparity_range",
    "Pelote.edgeDisparity_kind",
    "Pelote.edgeDisparity_raises",
    "Pelote.edgeDisparity_raises_zero"
   ],
   "note": "exact arithmetic in an ordered field; nodes totally ordered by Python's >; self loops included (two ends at their node)"
  },
  {
   "property": "C31",
   "status": "proved",
   "theorems": [
    "Pelote.edgeDisparity_reverse",
    "Pelote.edgeDisparity_exact"
   ],
   "note": "holds whenever no node of positive degree has strength 0 (otherwise both calls raise ZeroDivisionError)"
  },
  {
   "property": "C32",
   "status": "proved",
   "theorems": [
    "Pelote.globalThreshold_exact",
    "Pelote.globalThreshold_monotone",
    "Pelote.globalThreshold_idempotent",
    "Pelote.globalThreshold_keyError"
   ],
   "note": "Every graph kind, reverse and keep_connected included in the exact theorem; edge attribute names must be legal keywords of add_edge (C19)."
  },
  {
   "property": "C33",
   "status": "proved",
   "theorems": [
    "Pelote.multiscaleBackbone_exact",
    "Pelote.multiscaleBackbone_monotone",
    "Pelote.multiscaleBackbone_extremes",
    "Pelote.multiscaleBackbone_kind"
   ],
   "note": "Exact arithmetic; node keys totally ordered by Python's >."
  },
  {
   "property": "C34",
   "status": "proved",
   "theorems": [
    "Pelote.sparsifier_partition",
    "Pelote.sparsifier_given_generators",
    "Pelote.sparsifier_same_error",
    "Pelote.sparsifier_filter",
    "Pelote.sparsifier_needs_argument"
   ],
   "note": "Every graph kind, with keep_connected or not; the spanning trees must be computable when keep_connected is set."
  },
  {
   "property": "C35",
   "status": "partial",
   "theorems": [
    "Pelote.sparsifier_remove_partial",
    "Pelote.sparsifier_remove_multi",
    "Pelote.sparsifier_remove_raises"
   ],
   "note": "Proved for simple graphs. False on multigraphs: remove is proved to raise TypeError on every multigraph with a redundant edge."
  },
  {
   "property": "C36",
   "status": "partial",
   "theorems": [
    "Pelote.keepConnected_partial",
    "Pelote.keepConnected_ok",
    "Pelote.keepConnected_iff",
    "Pelote.keepConnected_raises_at_256"
   ],
   "note": "Proved for every kind of graph, predicate and numeric weights whenever the spanning trees can be computed; it raises exactly when they cannot (orders of C25, where the exact condition is proved), and a witness is proved to raise."
  },
  {
   "property": "C37",
   "status": "proved",
   "theorems": [
    "Pelote.flagRelevant_exact",
    "Pelote.flagRedundant_exact",
    "Pelote.flag_frame",
    "Pelote.flag_full_needs_factory"
   ],
   "note": "Every graph kind; flag_frame covers custom generators and raising calls."
  },
  {
   "property": "C38",
   "status": "partial",
   "theorems": [
    "Pelote.projection_nodes_partial",
    "Pelote.projection_null",
    "Pelote.projection_empty_part",
    "Pelote.projection_frozenset_raises"
   ],
   "note": "the claim is false of a part given as a frozenset or tuple (refuted: always TypeError); proved for values and other collections, every graph kind"
  },
  {
   "property": "C39",
   "status": "proved",
   "theorems": [
    "Pelote.projection_exact",
    "Pelote.projection_exact_real",
    "Pelote.projection_rounded",
    "Pelote.instantiateMetric_exact"
   ],
   "note": "simple undirected bipartite graphs whose kept nodes are comparable; all eight metrics; exact arithmetic, over any ordered field with a positive square root and over the reals"
  },
  {
   "property": "C40",
   "status": "proved",
   "theorems": [
    "Pelote.projection_range",
    "Pelote.projection_order",
    "Pelote.jaccard_range",
    "Pelote.dice_range",
    "Pelote.overlap_range",
    "Pelote.binaryCosine_range",
    "Pelote.cosine_range",
    "Pelote.cosine_le_one",
    "Pelote.similarity_order",
    "Pelote.pmi_range"
   ],
   "note": "exact real arithmetic"
  },
  {
   "property": "C41",
   "status": "partial",
   "theorems": [
    "Pelote.projection_check",
    "Pelote.projection_check_sample",
    "Pelote.projection_rejects_partial",
    "Pelote.projection_rejects_wrong",
    "Pelote.projection_other_part_edge",
    "Pelote.projection_none_part"
   ],
   "note": "false of a part given as an attribute value (refuted); proved for collections, every graph kind; exact effect of the check in simple graphs (projection_check)"
  },
  {
   "property": "C42",
   "status": "partial",
   "theorems": [
    "Pelote.projection_exact",
    "Pelote.projection_exact_real",
    "Pelote.projection_rounded",
    "Pelote.projection_cases",
    "Pelote.projection_cosine_cases",
    "Pelote.projection_cosine_zero_wrong",
    "Pelote.projection_cosine_zero_sample",
    "Pelote.projection_directed_no_link"
   ],
   "note": "false of cosine when a kept node has only edges of weight 0 (refuted); proved otherwise; for cosine, exactly when KeyError is raised (projection_cosine_cases)"
  },
  {
   "property": "C43",
   "status": "proved",
   "theorems": [
    "Pelote.bfsFromNode_exact",
    "Pelote.bfsFromNode_absent"
   ],
   "note": "every directed graph, simple or not"
  },
  {
   "property": "C44",
   "status": "partial",
   "theorems": [
    "Pelote.selfSimilarity_depth_one",
    "Pelote.selfSimilarity_radii",
    "Pelote.selfSimilarity_exact",
    "Pelote.radii_bounds",
    "Pelote.selfSimilarity_full",
    "Pelote.selfSimilarity_range",
    "Pelote.selfSimilarity_undirected",
    "Pelote.selfSimilarity_depth_not_honoured"
   ],
   "note": "depth=1 proved in full; at any depth the projection is characterised exactly, with the radius of each neighborhood given by the order of the nodes; that the requested depth is used is false (witness), it is proved when no neighborhood ends before depth. Node attribute names must be usable as keyword arguments."
  },
  {
   "property": "C45",
   "status": "proved",
   "theorems": [
    "Pelote.graphology_roundtrip_str",
    "Pelote.graphology_roundtrip_simple",
    "Pelote.graphology_roundtrip",
    "Pelote.graphology_write_idempotent",
    "Pelote.graphology_multigraph_keys_lost",
    "Pelote.intGraph_ok"
   ],
   "note": "every graph whose attribute names can be keyword arguments of networkx; node and edge orders included; multigraphs up to the keys of parallel edges, whose loss is proved on a witness"
  },
  {
   "property": "C46",
   "status": "partial",
   "theorems": [
    "Pelote.keyString_values",
    "Pelote.write_ok_iff",
    "Pelote.write_typeError",
    "Pelote.write_describes",
    "Pelote.write_distinct",
    "Pelote.write_invalid_key",
    "Pelote.graphology_graph_attributes_unchecked",
    "Pelote.graphology_mixed_keys_conflate"
   ],
   "note": "proved for node keys and for the names of node and edge attributes; false of the attributes of the graph itself, which are not checked (witness)"
  },
  {
   "property": "C47",
   "status": "proved",
   "theorems": [
    "Pelote.read_exact",
    "Pelote.read_true_mixed",
    "Pelote.read_no_options",
    "Pelote.read_not_dict",
    "Pelote.mixedDoc_describes"
   ],
   "note": "also the exact content read from any document; paths and files not modelled; attribute names must be usable as keyword arguments"
  },
  {
   "property": "C48",
   "status": "partial",
   "theorems": [
    "Pelote.bipartite_class",
    "Pelote.bipartite_cells",
    "Pelote.bipartite_nodes",
    "Pelote.bipartite_weights",
    "Pelote.bipartite_total_weight",
    "Pelote.bipartite_same_column",
    "Pelote.bipartite_missing",
    "Pelote.bipartite_total",
    "Pelote.bipartite_total_plain",
    "Pelote.sampleRows_cells",
    "Pelote.sample_bipartite",
    "Pelote.bipartite_missing_sample",
    "Pelote.bipartite_list_rows",
    "Pelote.bipartite_wrongly_disjoint"
   ],
   "note": "Nodes, edges and weights proved for every accepted table, unless disjoint_keys is wrongly set (values occurring in both columns), where the claim is false: such values are merged (bipartite_wrongly_disjoint); the total weight is proved in all cases. The same column twice raises TypeError. Rows which are lists with a mapping or sequence of node data raise AttributeError (witness)."
  },
  {
   "property": "C49",
   "status": "proved",
   "theorems": [
    "Pelote.bipartite_bipartite",
    "Pelote.partNode_inj",
    "Pelote.bipartite_wrongly_disjoint"
   ],
   "note": "also the witness of disjoint_keys wrongly set"
  },
  {
   "property": "C50",
   "status": "proved",
   "theorems": [
    "Pelote.bipartite_first_data",
    "Pelote.bipartite_second_data",
    "Pelote.sample_bipartite"
   ],
   "note": ""
  },
  {
   "property": "C51",
   "status": "proved",
   "theorems": [
    "Pelote.edges_table_reads",
    "Pelote.edges_table_total",
    "Pelote.edges_table_class",
    "Pelote.edges_table_nodes",
    "Pelote.edges_table_edges",
    "Pelote.edges_table_last",
    "Pelote.edges_table_count",
    "Pelote.edges_table_total_weight",
    "Pelote.edges_table_frame",
    "Pelote.sampleEdge_ends",
    "Pelote.sample_edges_table"
   ],
   "note": "column names must be usable as keyword arguments of networkx"
  },
  {
   "property": "C52",
   "status": "proved",
   "theorems": [
    "Pelote.tables_reads",
    "Pelote.tables_total_add",
    "Pelote.tables_key_error",
    "Pelote.tables_key_error_values",
    "Pelote.tables_class",
    "Pelote.tables_nodes",
    "Pelote.tables_node_last",
    "Pelote.tables_missing_node",
    "Pelote.tables_edges",
    "Pelote.tables_edge_last",
    "Pelote.tables_edge_count",
    "Pelote.tables_frame",
    "Pelote.sampleNode_nodes",
    "Pelote.sample_tables",
    "Pelote.sample_tables_values",
    "Pelote.list_row_item",
    "Pelote.list_row_item_bool",
    "Pelote.list_row_item_neg",
    "Pelote.list_rows_sample"
   ],
   "note": "column names must be usable as keyword arguments of networkx"
  },
  {
   "property": "C53",
   "status": "proved",
   "theorems": [
    "Pelote.nodes_dataframe",
    "Pelote.nodes_dataframe_key",
    "Pelote.nodes_dataframe_index",
    "Pelote.edges_dataframe",
    "Pelote.edges_dataframe_typeError",
    "Pelote.both_dataframes",
    "Pelote.dataframes_missing_pandas",
    "Pelote.nodes_dataframe_hidden_key"
   ],
   "note": "pandas is modelled as columns of values, without the conversion of columns to a common numpy type"
  },
  {
   "property": "C54",
   "status": "partial",
   "theorems": [
    "Pelote.tabular_roundtrip",
    "Pelote.sample_tabular",
    "Pelote.tabular_roundtrip_no_edges"
   ],
   "note": "Proved for every simple graph with at least one edge; false of graphs without edges, for which KeyError is raised (tabular_roundtrip_no_edges)."
  },
  {
   "property": "C55",
   "status": "proved",
   "theorems": [
    "Pelote.floatsam_returns",
    "Pelote.floatsam_total",
    "Pelote.floatsam_limit",
    "Pelote.floatsam_no_edges",
    "Pelote.floatsam_not_callable",
    "Pelote.floatsam_callback_raises",
    "Pelote.floatsam_unweighted",
    "Pelote.floatsam_sample"
   ],
   "note": "undirected graphs, simple or not, exact arithmetic; on directed graphs the components are wrong (C12)"
  },
  {
   "property": "C56",
   "status": "partial",
   "theorems": [
    "Pelote.floatsam_terminates",
    "Pelote.floatsam_default_terminates",
    "Pelote.floatsam_diverges_iff",
    "Pelote.floatsam_diverges_finite",
    "Pelote.floatsam_star",
    "Pelote.floatsam_uniform",
    "Pelote.floatsam_default_star",
    "Pelote.floatsam_star_diverges"
   ],
   "note": "False in general: exact condition for non-termination (floatsam_diverges_iff), which holds of every star or uniformly weighted connected graph of 8 nodes or more with the default limit. Termination proved for a limit of at most 1, which is the default up to 7 nodes."
  },
  {
   "property": "C57",
   "status": "partial",
   "theorems": [
    "Pelote.shim_block_restores",
    "Pelote.shim_block_hides",
    "Pelote.shim_missing",
    "Pelote.shim_invariant",
    "Pelote.shim_plain_restores",
    "Pelote.shim_nested_not_hidden",
    "Pelote.shim_sample",
    "Pelote.dataframes_missing_pandas"
   ],
   "note": "Proved for blocks which are not nested; nested ones are not honoured (witness)."
  },
  {
   "property": "C58",
   "status": "proved",
   "theorems": [
    "Pelote.Traversal.traversal_history",
    "Pelote.Traversal.queue_fifo"
   ],
   "note": "appended nodes are nodes of the graph"
  },
  {
   "property": "C59",
   "status": "partial",
   "theorems": [
    "Pelote.sparsifier_from_relevant",
    "Pelote.sparsifier_from_redundant",
    "Pelote.keepConnected_ignored_by_relevant",
    "Pelote.keepConnected_ignored_by_redundant",
    "Pelote.sparsifier_generator_raises"
   ],
   "note": "Proved without keep_connected (up to the pair of nodes, so parallel edges are taken together); false with it, two witnesses."
  },
  {
   "property": "C60",
   "status": "proved",
   "theorems": [
    "Pelote.dataframe_rows",
    "Pelote.dataframe_rows_all",
    "Pelote.dataframe_missing_column",
    "Pelote.table_rows",
    "Pelote.sample_dataframe",
    "Pelote.tables_frame",
    "Pelote.edges_table_frame"
   ],
   "note": ""
  },
  {
   "property": "C61",
   "status": "partial",
   "theorems": [
    "Pelote.floatsam_not_reversed",
    "Pelote.floatsam_negative",
    "Pelote.floatsamR_negative",
    "Pelote.floatsam64_negative_rate"
   ],
   "note": "False: witness, and the general reason: with a limit of at most 1, with or without rounding, either the starting threshold is returned at once or it loops forever (floatsamR_negative), with the exact condition; with larger limits, floatsam_negative."
  },
  {
   "property": "C62",
   "status": "partial",
   "theorems": [
    "Pelote.unionFind_reads_log_partial",
    "Pelote.unionFind_reads_quadratic",
    "Pelote.unionFind_reads_linear"
   ],
   "note": "False (witness at every capacity: n - 1 unions reading the parents n ** 2 times and leaving a chain); logarithmic when unions are made between representatives; linear always."
  },
  {
   "property": "C63",
   "status": "partial",
   "theorems": [
    "Pelote.keepConnected_weight_partial",
    "Pelote.keepConnected_weight_merged",
    "Pelote.keepConnected_unweighted",
    "Pelote.keepConnected_ignores_attr",
    "Pelote.pathGraph_keepConnected"
   ],
   "note": "Proved when the weights are read from \"weight\" (near ties being merged as in C23, orders of C25 excluded). False otherwise: on every graph without a \"weight\" attribute, every edge but self loops is kept; witness."
  },
  {
   "property": "C64",
   "status": "proved",
   "theorems": [
    "Pelote.projection_threshold",
    "Pelote.projection_threshold_sample"
   ],
   "note": "All graphs; nodes comparable by a linear order, as in C38."
  },
  {
   "property": "C65",
   "status": "partial",
   "theorems": [
    "Pelote.projection64_exact",
    "Pelote.projection64_range_partial",
    "Pelote.projection64_order_partial",
    "Pelote.projection64_binaryCosine_wrong",
    "Pelote.twins_projectable",
    "Pelote.similarity64_range",
    "Pelote.binaryCosine64_range",
    "Pelote.binaryCosine64_two",
    "Pelote.binaryCosine64_three",
    "Pelote.round64_isFloat",
    "Pelote.round64_nearest",
    "Pelote.round64_neg",
    "Pelote.round64_tie"
   ],
   "note": "binary64 rounding to nearest even, with gradual underflow; simple undirected bipartite graphs as in C39; true of jaccard, overlap and dice, false of binary cosine, for which the upper bound 1 + 2 ** -51 and the two wrong cases are proved"
  },
  {
   "property": "C66",
   "status": "partial",
   "theorems": [
    "Pelote.floatsamR_returns",
    "Pelote.floatsamR_diverges_iff",
    "Pelote.steps64_error",
    "Pelote.floatsam64_terminates_partial",
    "Pelote.floatsam64_diverges",
    "Pelote.floatsam64_stagnates",
    "Pelote.floatsam64_diverges_sample",
    "Pelote.floatsam64_stagnates_sample",
    "Pelote.floatsam64_terminates_sample",
    "Pelote.ceiling64_fixed",
    "Pelote.steps64_ceiling",
    "Pelote.floatsam64_diverges_iff",
    "Pelote.floatsam64_returns_iff",
    "Pelote.ceiling64_sample",
    "Pelote.fixed64_iff",
    "Pelote.steps64_limit",
    "Pelote.fixed64_ceiling",
    "Pelote.fixed64_start",
    "Pelote.floatsam64_diverges_all",
    "Pelote.floatsam64_returns_all",
    "Pelote.floatsam64_negative_start"
   ],
   "note": "binary64 without overflow. The last part of the claim is false (witnesses). Proved from every starting threshold: where the thresholds stop (the first float fixed by adding the rate, with the exact condition for being fixed), and the exact condition for looping forever."
  },
  {
   "property": "C67",
   "status": "proved",
   "theorems": [
    "Pelote.Graph.cropToLargest_connected",
    "Pelote.Graph.cropToLargest_sample"
   ],
   "note": "All well-formed graphs; idempotent in the strongest sense (the graph returned unchanged)."
  },
  {
   "property": "C68",
   "status": "proved",
   "theorems": [
    "Pelote.triangularStrength_sum",
    "Pelote.triangularStrength_sum_sample"
   ],
   "note": "All well-formed graphs on which the function returns (C19 says when)."
  },
  {
   "property": "C69",
   "status": "partial",
   "theorems": [
    "Pelote.globalThreshold_idempotent",
    "Pelote.globalThreshold_keepConnected_idempotent_partial",
    "Pelote.globalThreshold_keepConnected_near_ties",
    "Pelote.maxSpanningForest_subfamily",
    "Pelote.multiscaleBackbone_not_idempotent"
   ],
   "note": "Proved of the global threshold with keep_connected without near ties; refuted with near ties and for the multiscale backbone (witnesses)."
  },
  {
   "property": "C70",
   "status": "partial",
   "theorems": [
    "Pelote.projection_same_part",
    "Pelote.projection_same_part_checked",
    "Pelote.projection_same_part_sample"
   ],
   "note": "Proved without the check on all graphs, and with it when neither designation finds an edge inside the part; refuted otherwise (sample)."
  },
  {
   "property": "C71",
   "status": "proved",
   "theorems": [
    "Pelote.table_projection",
    "Pelote.table_projection_sample"
   ],
   "note": "Rows having both cells, comparable values, no data columns, distinct attribute names; the multisets are those of the partners of each value, counted over rows."
  },
  {
   "property": "C72",
   "status": "proved",
   "theorems": [
    "Pelote.trianglesTraced_yields",
    "Pelote.triangles_reads",
    "Pelote.triangles_reads_arboricity",
    "Pelote.triangles_reads_size",
    "Pelote.triangles_reads_sample"
   ],
   "note": "Steps are the nodes met by the innermost loop, counted by an instrumented copy of the model proved to yield the same; building the adjacencies and sorting are not counted. All well-formed graphs."
  },
  {
   "property": "C73",
   "status": "partial",
   "theorems": [
    "Pelote.edgeDisparity_scale",
    "Pelote.multiscaleBackbone_scale",
    "Pelote.globalThreshold_scale",
    "Pelote.unionOfMaximumSpanningTrees_scale",
    "Pelote.multiscaleBackbone_scale_connected",
    "Pelote.globalThreshold_scale_connected",
    "Pelote.unionOfMaximumSpanningTrees_unit",
    "Pelote.globalThreshold_unit",
    "Pelote.edgeDisparity_scale_sample",
    "Pelote.sameWeights_sample"
   ],
   "note": "Proved in exact arithmetic; spanning trees and keep_connected proved without near ties in either unit and refuted otherwise (witnesses)."
  },
  {
   "property": "C74",
   "status": "partial",
   "theorems": [
    "Pelote.connectedComponentOrders_reorder",
    "Pelote.largestComponentOrder_reorder",
    "Pelote.secondLargestComponentOrder_reorder",
    "Pelote.floatsam_reorder",
    "Pelote.triangularStrength_reorder",
    "Pelote.edgeDisparity_reorder",
    "Pelote.unionOfMaximumSpanningTrees_reorder",
    "Pelote.globalThreshold_reorder",
    "Pelote.multiscaleBackbone_reorder",
    "Pelote.projection_reorder",
    "Pelote.selfSimilarity_reorder",
    "Pelote.selfSimilarity_full_reorder",
    "Pelote.reorder_sample",
    "Pelote.selfSimilarity_order_matters",
    "Pelote.largestComponent_order_matters"
   ],
   "note": "Proved in exact arithmetic (the learner with any rounding) of all the functions named; self similarity at depth 1, and at any depth when every node has neighbors at that depth or none at all. Refuted for largest_connected_component and for self similarity at depth 2 (witnesses)."
  },
  {
   "property": "C75",
   "status": "partial",
   "theorems": [
    "Pelote.areSameGraphs_of_same",
    "Pelote.areSameGraphs_refl",
    "Pelote.areSameGraphs_comm",
    "Pelote.areSameGraphs_trans",
    "Pelote.areSameGraphs_unchecked",
    "Pelote.areSameGraphs_roundtrip",
    "Pelote.areSameGraphs_kinds"
   ],
   "note": "Proved for simple graphs of the same kind; false across kinds (witness). Multigraphs: see C26."
  },
  {
   "property": "C76",
   "status": "proved",
   "theorems": [
    "Pelote.filterEdges_comp",
    "Pelote.filterEdges_comm",
    "Pelote.filterEdges_all",
    "Pelote.removeNodes_comp",
    "Pelote.removeNodes_filterEdges"
   ],
   "note": "All graphs, attributes that networkx accepts as keyword arguments."
  },
  {
   "property": "C77",
   "status": "proved",
   "theorems": [
    "Pelote.edgeDisparityA_exact",
    "Pelote.edgeDisparityA_positive",
    "Pelote.edgeDisparityA_reverse",
    "Pelote.multiscaleBackboneA_exact",
    "Pelote.multiscaleBackboneA_monotone",
    "Pelote.round64_rounding",
    "Pelote.pow64_unit",
    "Pelote.edgeDisparity64_order"
   ],
   "note": "Proved for any rounding that is monotone and leaves 0, 1 and its results unchanged, and any power that stays between 0 and 1, of which binary64 with correctly rounded powers is an instance (round64_rounding, pow64_unit). Sums are rounded at each step, as `sum` did before Python 3.12; weights are floats; no overflow."
  },
  {
   "property": "C78",
   "status": "proved",
   "theorems": [
    "Pelote.removeEdges_rename",
    "Pelote.removeNodes_rename",
    "Pelote.removeLeaves_rename",
    "Pelote.filterEdges_rename",
    "Pelote.areSameGraphs_rename",
    "Pelote.largestConnectedComponent_rename",
    "Pelote.cropToLargest_rename",
    "Pelote.largestComponentSubgraph_rename",
    "Pelote.connectedComponentOrders_rename",
    "Pelote.largestComponentOrder_rename",
    "Pelote.secondLargestComponentOrder_rename",
    "Pelote.floatsam_rename",
    "Pelote.unionOfMaximumSpanningTrees_rename",
    "Pelote.sparsifierMake_rename",
    "Pelote.sparsifierFilter_rename",
    "Pelote.sparsifierRemove_rename",
    "Pelote.sparsifierFlag_rename",
    "Pelote.globalThresholdSparsification_rename",
    "Pelote.triangles_rename",
    "Pelote.triangularStrength_rename",
    "Pelote.edgeDisparityA_rename",
    "Pelote.multiscaleBackboneA_rename",
    "Pelote.filterNodes_rename",
    "Pelote.filterLeaves_rename",
    "Pelote.selfSimilarityProjection_rename",
    "Pelote.projection_rename",
    "Pelote.rename_sample"
   ],
   "note": "Equality of outcomes, errors included, for every graph; filter_nodes and filter_leaves when the new names compare like the old ones; triangular strength, edge disparity, the backbone and the monopartite projection for names that can be compared."
  },
  {
   "property": "C79",
   "status": "proved",
   "theorems": [
    "Pelote.unionOfMaximumSpanningTrees64_exact",
    "Pelote.noNearTies64",
    "Pelote.unionOfMaximumSpanningTrees64_large",
    "Pelote.unionOfMaximumSpanningTrees64_tiny"
   ],
   "note": "binary64 rounding to nearest even, no overflow; weights are floats (integers below 2 ** 53 included). The second part excludes the orders of C25. The bound 2 ** -25 is shown to be the best power of 2."
  },
  {
   "property": "C80",
   "status": "proved",
   "theorems": [
    "Pelote.filterEdgesH_copy",
    "Pelote.filterNodesH_copy",
    "Pelote.filterLeavesH_copy",
    "Pelote.largestComponentSubgraphH_copy",
    "Pelote.sparsifierFilterH_copy",
    "Pelote.sparsifierFilterH_predicate",
    "Pelote.buildH_copy",
    "Pelote.largestComponentSubgraphH_view",
    "Pelote.flagLazyH_exact",
    "Pelote.flagFullH_exact"
   ],
   "note": "On a model in which attribute dicts have an identity (Nx/Heap, Model/Heap), proved to refine the model used everywhere else: same content, same errors. Attribute values are not modified in place. When a call raises, the model does not say what the heap is. Flags: for graphs whose dicts are distinct."
  },
  {
   "property": "C81",
   "status": "proved",
   "theorems": [
    "Pelote.floatsamR_limit",
    "Pelote.floatsam_limit_mono",
    "Pelote.floatsam64_limit_mono",
    "Pelote.floatsam_sparsified",
    "Pelote.learnUse_sample"
   ],
   "note": "Any rounding of the thresholds for floatsam_sparsified and floatsamR_limit; binary64 for floatsam64_limit_mono. Edge attribute names usable as keyword arguments (filtering copies edges)."
  },
  {
   "property": "C82",
   "status": "partial",
   "theorems": [
    "Pelote.connectedComponentOrders_local",
    "Pelote.triangles_local",
    "Pelote.triangularStrength_local",
    "Pelote.edgeDisparity_local",
    "Pelote.unionOfMaximumSpanningTrees_local",
    "Pelote.globalThreshold_local",
    "Pelote.multiscaleBackbone_local",
    "Pelote.projection_local",
    "Pelote.selfSimilarity_local",
    "Pelote.selfSimilarity_not_local",
    "Pelote.unionOfMaximumSpanningTrees_not_local",
    "Pelote.triangleApart_sample"
   ],
   "note": "Self similarity proved at depth 1 and refuted at depth 2; spanning trees and keep_connected proved without near ties and refuted otherwise (witnesses). Disparity and backbone whatever the rounding."
  },
  {
   "property": "C83",
   "status": "proved",
   "theorems": [
    "Pelote.json_loads_exact",
    "Pelote.json_loads_error",
    "Pelote.isText_unique",
    "Pelote.json_dumps_iff",
    "Pelote.json_dumps_error",
    "Pelote.json_dumps_text",
    "Pelote.image_plain",
    "Pelote.read_file_text",
    "Pelote.read_file_error",
    "Pelote.read_path_error",
    "Pelote.graphology_file_roundtrip",
    "Pelote.graphology_file_same",
    "Pelote.graphology_file_iff",
    "Pelote.fileGraph_ok",
    "Pelote.graphology_file_names_cast",
    "Pelote.graphology_file_graph_names",
    "Pelote.graphology_file_set_refused"
   ],
   "note": "The JSON scanner and encoder of the standard library are modelled on decoded text (Model/Json); a float is identified with its text; lone surrogates, the recursion limit and tuples are not modelled."
  },
  {
   "property": "C84",
   "status": "partial",
   "theorems": [
    "Pelote.removeEdgesM_pure",
    "Pelote.filterEdgesM_pure",
    "Pelote.removeNodesM_pure",
    "Pelote.filterNodesM_pure",
    "Pelote.connectedComponentOrdersM_pure",
    "Pelote.consulted_or_raises",
    "Pelote.removeEdges_asks_once",
    "Pelote.removeEdges_asks_raises",
    "Pelote.filterEdges_asks_once",
    "Pelote.filterEdges_asks_raises",
    "Pelote.removeNodes_asks_once",
    "Pelote.removeNodes_asks_raises",
    "Pelote.componentOrders_asks",
    "Pelote.filterNodes_asks",
    "Pelote.filterNodes_memory"
   ],
   "note": "On a model in which the state of the predicate is threaded through the calls (Model/Memory), equal to the other model for predicates without memory. Refuted for filter_nodes, with a witness; the exact list of its calls is given for predicates without memory. Predicates that modify the graph are out of scope. filter_edges: edge attribute names usable as keyword arguments."
  },
  {
   "property": "C85",
   "status": "proved",
   "theorems": [
    "Pelote.triangles_snapshot",
    "Pelote.spanningTrees_snapshot",
    "Pelote.spanningTrees_weights_read_late",
    "Pelote.componentOrdersCo_const",
    "Pelote.componentOrdersCo_partition",
    "Pelote.componentOrders_not_snapshot"
   ],
   "note": "On a model in which generators are suspended at each yield and every access to the graph sees what it is by then (Model/Coroutine). Spanning trees: with the identity of attribute dicts, which must be distinct at the first next(). connected_component_orders: without a filter, the nodes staying the same (Python raises RuntimeError when their number changes). Threads are out of scope."
  },
  {
   "property": "C86",
   "status": "proved",
   "theorems": [
    "Pelote.projection_counts_exactly",
    "Pelote.projection_unrounded",
    "Pelote.projection_weights_rounded",
    "Pelote.cosine_float_error",
    "Pelote.dotProduct_float_error",
    "Pelote.dotProduct_integers_exact",
    "Pelote.weightedPair_moderate",
    "Pelote.dotProduct_order_matters",
    "Pelote.dotProduct_cancels",
    "Pelote.cosine_underflow_raises"
   ],
   "note": "On a model that rounds every sum and product of weights in the order of the loops (Model/ProjectionRounded), equal to the other model without rounding. Rounding is binary64 to nearest with gradual underflow; math.sqrt is assumed correctly rounded; nothing overflows in the range of the theorem. projection_weights_rounded gives the exact result for any rounding."
  },
  {
   "property": "C87",
   "status": "proved",
   "theorems": [
    "Pelote.projection_multigraph",
    "Pelote.projection_multigraph_exact",
    "Pelote.similarity_ones",
    "Pelote.citingTwice_projectable",
    "Pelote.projection_multigraph_loses_weights",
    "Pelote.projection_multigraph_key_wrong"
   ],
   "note": "The edge dict of a multigraph holds its edges by key: the weight attribute is looked up among the keys. projection_multigraph_exact is for undirected multigraphs; when the bipartition is checked the part is not designated by None."
  },
  {
   "property": "C88",
   "status": "proved",
   "theorems": [
    "Pelote.read_accepts",
    "Pelote.read_raises",
    "Pelote.read_bad_node",
    "Pelote.read_numeric_flags",
    "Pelote.read_null_flag_refused",
    "Pelote.readDocument_sample"
   ],
   "note": "Names are usable when networkx takes them as keyword arguments; an attribute named incoming_graph_data is taken to be refused (networkx tries to convert it). Keys 1 and True are distinct in the model."
  },
  {
   "property": "C89",
   "status": "proved",
   "theorems": [
    "Pelote.umst_nonfinite_spans",
    "Pelote.keepConnected_nonfinite",
    "Pelote.globalThreshold_nonfinite",
    "Pelote.reachesX_nan",
    "Pelote.reachesX_nan_threshold",
    "Pelote.reachesX_total",
    "Pelote.umst_infinite",
    "Pelote.umst_nan_spoils",
    "Pelote.umst_inf_sample",
    "Pelote.pendantTriangle_wf",
    "Pelote.pendantTriangle_weights",
    "Pelote.pendantTriangle_safe",
    "Pelote.pendantTriangle_infinite",
    "Pelote.lazySort_sorts"
   ],
   "note": "Orders at which the disjoint set can overflow (C25) are excluded. Nothing is assumed of the order of a list sorted with a NaN key but that it is a permutation. umst_infinite subtracts exactly."
  },
  {
   "property": "C90",
   "status": "proved",
   "theorems": [
    "Pelote.edgeDisparity_nonfinite",
    "Pelote.disparityX_finite",
    "Pelote.disparityX_special",
    "Pelote.multiscaleBackbone_nonfinite",
    "Pelote.multiscaleBackbone_drops",
    "Pelote.multiscaleBackbone_nonfinite_connected",
    "Pelote.edgeDisparity_nan_labels",
    "Pelote.edgeDisparity_inf_sample",
    "Pelote.nanChain_meets"
   ],
   "note": "Finite numbers are added, divided and raised exactly; nothing overflows. Negative weights, zero and minus infinity are out of scope. min and max are those of Python, which keep their first argument when a comparison is false. Connected components: orders at which the disjoint set can overflow (C25) are excluded."
  },
  {
   "property": "C91",
   "status": "proved",
   "theorems": [
    "Pelote.removeLeaves_core",
    "Pelote.removeLeavesTimes_keeps",
    "Pelote.removeLeavesTimes_keeps_triangles",
    "Pelote.inCore_largest",
    "Pelote.inCore_triangle",
    "Pelote.tailedTriangle_sample"
   ],
   "note": "The degree of a node is its number of edge ends, in plus out when the graph is directed, as in networkx; a self loop counts twice."
  },
  {
   "property": "C92",
   "status": "proved",
   "theorems": [
    "Pelote.edgeDisparity_float_error",
    "Pelote.multiscaleBackbone_float_exact",
    "Pelote.edgeDisparity_float_reorder",
    "Pelote.pow64_unit",
    "Pelote.pow64_error",
    "Pelote.heavyFirst_error"
   ],
   "note": "binary64 rounding to nearest even with gradual underflow; no overflow. Sums are rounded at each step, as `sum` did before Python 3.12. With keep_connected, the spanning trees are the exact ones (C79)."
  },
  {
   "property": "C93",
   "status": "proved",
   "theorems": [
    "Pelote.compensatedSum_error",
    "Pelote.edgeDisparity312_error",
    "Pelote.multiscaleBackbone312_exact",
    "Pelote.heavy312",
    "Pelote.edgeDisparity312_order"
   ],
   "note": "The weights are objects of type float (sum does not compensate integers). binary64 rounding to nearest even with gradual underflow; no overflow. The last two theorems are cases: one meeting the hypotheses, one where the order matters."
  },
  {
   "property": "C94",
   "status": "proved",
   "theorems": [
    "Pelote.unionOfMaximumSpanningTrees_heavy",
    "Pelote.keepConnected_heavy",
    "Pelote.floatsam_keepConnected",
    "Pelote.connectedComponentOrders_heavy",
    "Pelote.floatsam_keepConnected_sample",
    "Pelote.keepConnected_heavy_other"
   ],
   "note": "Whenever the spanning trees can be computed (C25). The last theorem is the witness for another attribute."
  },
  {
   "property": "C95",
   "status": "proved",
   "theorems": [
    "Pelote.globalThreshold_nested",
    "Pelote.multiscaleBackbone_nested",
    "Pelote.multiscaleBackboneN_nested",
    "Pelote.globalThreshold_steps",
    "Pelote.globalThreshold_steps_keepConnected",
    "Pelote.globalThreshold_steps_sample",
    "Pelote.globalThreshold_keepConnected_near_ties"
   ],
   "note": "Near ties are excluded from the steps with keep_connected, and must be: last theorem (C69). multiscaleBackboneN_nested takes the scores given by edge_disparity in any arithmetic."
  },
  {
   "property": "C96",
   "status": "proved",
   "theorems": [
    "Pelote.removeEdges_first_error",
    "Pelote.removeNodes_first_error",
    "Pelote.removeLeaves_no_error",
    "Pelote.sparsifier_remove_atomic",
    "Pelote.backbone_flag_atomic",
    "Pelote.flag_raises",
    "Pelote.flag_factory_raises",
    "Pelote.flag_full_again",
    "Pelote.globalThreshold_flag_again",
    "Pelote.flag_not_atomic",
    "Pelote.flag_stale",
    "Pelote.flag_raises_sample"
   ],
   "note": "The last three theorems are cases: partial flags left by a global threshold, and flags that remain without full. Predicates do not modify the graph."
  },
  {
   "property": "C97",
   "status": "proved",
   "theorems": [
    "Pelote.selfSimilarity_float",
    "Pelote.selfSimilarityR_radii",
    "Pelote.similarity64_ranking",
    "Pelote.neighborhood_card",
    "Pelote.chainsReal_ok"
   ],
   "note": "binary64 rounding to nearest even of each quotient of counts. The last theorem shows a graph meeting the hypotheses."
  },
  {
   "property": "C98",
   "status": "proved",
   "theorems": [
    "Pelote.connectedComponentOrders_addEdge",
    "Pelote.largestComponentOrder_addEdge",
    "Pelote.triangularStrength_addEdge",
    "Pelote.unionOfMaximumSpanningTrees_addEdge",
    "Pelote.unionOfMaximumSpanningTrees_addEdge'",
    "Pelote.edgeDisparity_addEdge",
    "Pelote.pathSample_added"
   ],
   "note": "Components: undirected graphs. Triangular strength with full=True. Spanning trees: weights equal or more than 1e-8 apart and orders outside of C04. Disparity: simple undirected graphs, strengths not zero. The last theorem shows a graph meeting the hypotheses."
  },
  {
   "property": "C99",
   "status": "proved",
   "theorems": [
    "Pelote.disparity_raise",
    "Pelote.edgeDisparity_raise",
    "Pelote.unionOfMaximumSpanningTrees_raise",
    "Pelote.globalThreshold_raise",
    "Pelote.multiscaleBackbone_raise",
    "Pelote.raise_sample"
   ],
   "note": "Exact arithmetic. Spanning trees (also under keep_connected): weights equal or more than 1e-8 apart before and after, and orders outside of C04. Disparity and backbone: positive weights. The last theorem shows a graph meeting the hypotheses."
  }
 ]
}