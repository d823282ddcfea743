{"id": "C01", "title": "Union-find answers connectivity exactly", "statement": "After any sequence of union / find / are_in_same_set / cardinality / clear calls with in-range items on a UnionFind (or any hashable items on a DisjointSet with enough capacity), are_in_same_set(x, y) is True exactly when x and y are linked by the unions performed since the last clear. The lookup always terminates.", "quantifier": "every capacity, every history of operations, every pair of items", "why_tests_cant": "The number of histories is unbounded; a wrong root update only shows for particular tree shapes.", "anchors": ["pelote/classes/union_find.py: UnionFind.find, union, are_in_same_set, clear", "pelote/classes/union_find.py: DisjointSet"]}
{"id": "C02", "title": "Union-find counts components", "statement": "len(uf) is at all times the number of classes of the partition generated by the unions performed so far, union(x, y) returns True exactly when x and y were in different classes before the call, and clear restores one class per item.", "quantifier": "every capacity and every history of operations", "why_tests_cant": "Depends on the whole history of unions.", "anchors": ["pelote/classes/union_find.py: UnionFind.__len__, union, clear", "pelote/classes/union_find.py: DisjointSet.__len__, union"]}
{"id": "C03", "title": "Union-find reports class sizes", "statement": "cardinality(x) is the number of items in the class of x.", "quantifier": "every capacity, history and item", "why_tests_cant": "Depends on the whole history of unions.", "anchors": ["pelote/classes/union_find.py: UnionFind.cardinality, union"]}
{"id": "C04", "title": "Union-find never overflows its typed arrays", "statement": "For every capacity up to 2**64 and every history of in-range operations, no operation raises. (False: with a capacity of exactly 2**8, 2**16, 2**32 or 2**64 the class-size array is one short and the union that merges everything raises OverflowError.)", "quantifier": "every capacity and every history", "why_tests_cant": "Only fails at four capacities, after capacity-1 successful unions.", "anchors": ["pelote/classes/union_find.py: UnionFind.allocate, union", "pelote/utils.py: uint_representation_for_capacity"]}
{"id": "C05", "title": "Disjoint set with more distinct items than capacity", "statement": "A DisjointSet never raises as long as the number of distinct items it has been shown does not exceed its capacity, and raises IndexError on the first access to an item beyond it.", "quantifier": "every capacity and every history of hashable items", "why_tests_cant": "Depends on the number of distinct items in the history.", "anchors": ["pelote/classes/union_find.py: DisjointSet", "pelote/classes/incremental_id_register.py: IncrementalIdRegister"]}
{"id": "C06", "title": "Incremental ids are dense, stable and injective", "statement": "Over any history of lookups since the last clear, an IncrementalIdRegister gives two lookups the same id exactly when the keys are equal, and the ids handed out are 0..d-1 in order of first appearance of the d distinct keys.", "quantifier": "every history of lookups and clears", "why_tests_cant": "Unbounded histories.", "anchors": ["pelote/classes/incremental_id_register.py: IncrementalIdRegister.__getitem__, clear"]}
{"id": "C07", "title": "Unsigned representation selection", "statement": "uint_representation_for_max(m) returns the smallest of the 8/16/32/64 bit representations able to hold m, and raises TypeError exactly when m >= 2**64.", "quantifier": "every integer upper bound", "why_tests_cant": "Boundary values across an infinite domain.", "anchors": ["pelote/utils.py: uint_representation_for_max, uint_representation_for_capacity"]}
{"id": "C08", "title": "Counting sort sorts", "statement": "For every non-empty list and integer key function counting_sort returns a permutation of the items, ordered by non-decreasing key (non-increasing with reverse=True), without raising. With reverse=True the result is identical to Python's stable sorted(items, key=key, reverse=True); without it items with equal keys come out in reversed input order, so that it equals the stable sort of the reversed input.", "quantifier": "every non-empty list, key function and reverse flag", "why_tests_cant": "Permutation and order must hold for all lists and keys, including negative keys and ties.", "anchors": ["pelote/utils.py: counting_sort"]}
{"id": "C09", "title": "Counting sort accepts every list", "statement": "counting_sort agrees with sorted(items, key=key, reverse=reverse) on every list. (False: the empty list raises TypeError; ties come out reversed when reverse=False.)", "quantifier": "every list, key function and reverse flag", "why_tests_cant": "Agreement with a reference implementation on all inputs.", "anchors": ["pelote/utils.py: counting_sort"]}
{"id": "C10", "title": "Fast intersection size", "statement": "fast_intersection_size(A, B) is the number of common elements of two sets, whatever their relative sizes and even when both arguments are the same object; it is symmetric.", "quantifier": "every pair of finite sets", "why_tests_cant": "All pairs of sets.", "anchors": ["pelote/utils.py: fast_intersection_size"]}
{"id": "C11", "title": "Mixed type detection", "statement": "has_mixed_types(xs) is True exactly when two items of the iterable have different types.", "quantifier": "every finite iterable", "why_tests_cant": "All iterables.", "anchors": ["pelote/utils.py: has_mixed_types"]}
{"id": "C12", "title": "Connected component orders", "statement": "On an undirected graph, connected_component_orders yields exactly the sizes of the connected components, one per component, in order of each component's first node; the sizes sum to the order of the graph. (False on directed graphs, where only out-edges are followed.)", "quantifier": "every graph, including self loops, parallel edges, isolated nodes", "why_tests_cant": "Correctness of a traversal with a seen set must hold for every graph.", "anchors": ["pelote/graph.py: connected_component_orders", "pelote/classes/traversal.py: DFSStack"]}
{"id": "C13", "title": "Connected component orders under an edge filter", "statement": "With an edge_filter that does not depend on the direction in which an edge is traversed, connected_component_orders(graph, edge_filter) yields exactly the component sizes of the undirected graph restricted to the edges accepted by the filter.", "quantifier": "every undirected graph and every direction-independent filter", "why_tests_cant": "All graphs and all filters.", "anchors": ["pelote/graph.py: connected_component_orders"]}
{"id": "C14", "title": "Largest and second largest component orders", "statement": "largest_connected_component_order is None exactly for the null graph and otherwise the maximum component size; second_largest_connected_component_order is None exactly when there are fewer than two components and otherwise the second entry of the component sizes sorted in decreasing order (with multiplicity).", "quantifier": "every undirected graph and filter", "why_tests_cant": "All graphs.", "anchors": ["pelote/graph.py: largest_connected_component_order, second_largest_connected_component_order"]}
{"id": "C15", "title": "Largest connected component", "statement": "largest_connected_component returns a (weakly) connected component of maximum size, or None for the null graph. (False: the early exit subtracts the size of the largest component seen instead of the current one, so it can stop before meeting the largest component.)", "quantifier": "every graph of every kind", "why_tests_cant": "The early exit only misfires for particular sequences of component sizes.", "anchors": ["pelote/graph.py: largest_connected_component"]}
{"id": "C16", "title": "Cropping to the largest component", "statement": "crop_to_largest_connected_component keeps exactly the nodes returned by largest_connected_component, with all their attributes and all the edges of the component, whatever the graph kind; the null graph is left untouched.", "quantifier": "every graph of every kind", "why_tests_cant": "All graphs.", "anchors": ["pelote/graph.py: crop_to_largest_connected_component"]}
{"id": "C17", "title": "Largest component subgraph", "statement": "largest_connected_component_subgraph returns the subgraph induced by the largest component, identically with as_view=True and as_view=False. (False: with as_view=False all the nodes of the graph are kept.) In both modes the edges are exactly those of the component.", "quantifier": "every graph of every kind, both modes", "why_tests_cant": "All graphs.", "anchors": ["pelote/graph.py: largest_connected_component_subgraph"]}
{"id": "C18", "title": "Edge removal by predicate", "statement": "remove_edges(graph, predicate) leaves every node untouched and keeps exactly the edges for which predicate(u, v, attributes) holds. (False on multigraphs, where the key is lost and another parallel edge may be removed.)", "quantifier": "every graph, every predicate", "why_tests_cant": "All graphs and predicates.", "anchors": ["pelote/graph.py: remove_edges"]}
{"id": "C19", "title": "Edge filtering by predicate", "statement": "filter_edges(graph, predicate) returns a graph of the same kind with the same graph attributes, the same nodes with the same attributes, whose edge listing (graph.edges.data()) is exactly the sublist of the original listing accepted by the predicate, same order and orientation, for simple and multi graphs, directed or not, as long as attribute names are strings that are not parameter names of add_edge (an attribute named key on a multigraph is lost).", "quantifier": "every graph of every kind and every predicate", "why_tests_cant": "All graphs and predicates.", "anchors": ["pelote/graph.py: filter_edges"]}
{"id": "C20", "title": "Node removal by predicate", "statement": "remove_nodes(graph, predicate) leaves exactly the subgraph induced by the nodes for which the predicate holds: kept nodes keep their attributes and all edges (with keys and attributes) between kept nodes are kept.", "quantifier": "every graph of every kind and every predicate", "why_tests_cant": "All graphs and predicates.", "anchors": ["pelote/graph.py: remove_nodes"]}
{"id": "C21", "title": "Node filtering by predicate", "statement": "filter_nodes(graph, predicate) returns the subgraph induced by the nodes for which the predicate holds, i.e. the graph remove_nodes would leave. (False for undirected graphs with self loops, which are silently dropped, and for node keys that cannot be compared, which raise.)", "quantifier": "every graph of every kind and every predicate", "why_tests_cant": "All graphs and predicates.", "anchors": ["pelote/graph.py: filter_nodes"]}
{"id": "C22", "title": "Leaf removal removes one layer", "statement": "remove_leaves removes exactly the nodes whose degree in the original graph is 1 (and nothing else, even if new leaves appear), and filter_leaves returns the graph remove_leaves leaves, less its self loops if it is undirected.", "quantifier": "every graph of every kind whose adjacent node keys can be compared", "why_tests_cant": "All graphs.", "anchors": ["pelote/graph.py: remove_leaves, filter_leaves"]}
{"id": "C23", "title": "Union of maximum spanning trees is exactly that", "statement": "When edge weights are equal or more than 1e-8 apart, union_of_maximum_spanning_trees yields exactly the edges that belong to at least one maximum-weight spanning forest of the graph seen as undirected (an edge without weight counts 1), each once.", "quantifier": "every graph of every kind, every assignment of numeric weights", "why_tests_cant": "A global optimality statement over all spanning forests of all weighted graphs.", "anchors": ["pelote/graph.py: union_of_maximum_spanning_trees"]}
{"id": "C24", "title": "Union of maximum spanning trees preserves connectivity", "statement": "Whatever the weights, two nodes are connected by the yielded edges exactly when they are connected in the graph seen as undirected; and every edge of every maximum-weight spanning forest is yielded.", "quantifier": "every graph of every kind and every weights", "why_tests_cant": "All weighted graphs, including near ties.", "anchors": ["pelote/graph.py: union_of_maximum_spanning_trees"]}
{"id": "C25", "title": "Union of maximum spanning trees never fails", "statement": "union_of_maximum_spanning_trees completes without raising on every graph with numeric weights. (False: a graph with exactly 256 or 65536 nodes can make the disjoint set overflow.)", "quantifier": "every graph of every kind", "why_tests_cant": "Fails only at particular sizes.", "anchors": ["pelote/graph.py: union_of_maximum_spanning_trees", "pelote/classes/union_find.py: UnionFind.union"]}
{"id": "C26", "title": "Graph comparison", "statement": "are_same_graphs(A, B, check_attributes) on two simple graphs of the same kind is True exactly when they have the same node set and the same edge set (and, with check_attributes, the same attributes on each). (False for multigraphs, where multiplicities are not compared.)", "quantifier": "every pair of graphs", "why_tests_cant": "All pairs of graphs.", "anchors": ["pelote/graph.py: have_same_nodes, have_same_edges, are_same_graphs"]}
{"id": "C27", "title": "Triangle enumeration", "statement": "triangles(graph) yields every set of three distinct mutually adjacent nodes exactly once and nothing else, ignoring direction, self loops and parallel edges, and never raises.", "quantifier": "every graph of every kind", "why_tests_cant": "Exactly-once enumeration over all graphs depends on the node ordering and on in-place deletions.", "anchors": ["pelote/metrics/chiba_nishizeki.py: triangles"]}
{"id": "C28", "title": "Triangular strength", "statement": "triangular_strength(graph)[u, v] (u < v) is the number of triangles containing the edge; with full=True every edge is a key, otherwise exactly the edges in at least one triangle.", "quantifier": "every graph with comparable nodes", "why_tests_cant": "All graphs.", "anchors": ["pelote/metrics/chiba_nishizeki.py: triangular_strength"]}
{"id": "C29", "title": "Naive triangular strength agrees", "statement": "naive_triangular_strength(graph, full) equals triangular_strength(graph, full). (False with full=False, where the naive version may list edges of strength 0, and for self loops.)", "quantifier": "every graph, both values of full", "why_tests_cant": "All graphs.", "anchors": ["pelote/metrics/chiba_nishizeki.py: naive_triangular_strength, triangular_strength"]}
{"id": "C30", "title": "Edge disparity formula and range", "statement": "On a simple undirected graph with positive weights, edge_disparity has exactly one entry per edge, keyed by the ordered pair of its ends, equal to min over both ends of (1 - weight / strength(end)) ^ (degree(end) - 1), a number in [0, 1]; it raises TypeError on directed and multi graphs. On the other graphs it raises TypeError if a weight is not a number, an exception if a weight is missing, ZeroDivisionError exactly when all weights are numbers and an end of an edge has strength 0, and nothing otherwise.", "quantifier": "every graph and weights", "why_tests_cant": "All weighted graphs.", "anchors": ["pelote/metrics/edge_disparity.py: edge_disparity"]}
{"id": "C31", "title": "Reversed edge disparity", "statement": "edge_disparity(graph, reverse=True)[e] = 1 - edge_disparity(graph)[e] for every edge.", "quantifier": "every simple undirected graph", "why_tests_cant": "All weighted graphs.", "anchors": ["pelote/metrics/edge_disparity.py: edge_disparity"]}
{"id": "C32", "title": "Global threshold sparsification", "statement": "global_threshold_sparsification(graph, t) keeps all the nodes and exactly the edges with weight >= t (<= t with reverse), it is idempotent, and a higher threshold keeps a subset of the edges; it raises KeyError exactly when some edge has no weight.", "quantifier": "every graph, threshold, flag", "why_tests_cant": "All graphs and thresholds.", "anchors": ["pelote/sparsification/global_threshold.py: global_threshold_sparsification", "pelote/sparsification/utils.py: Sparsifier.filter"]}
{"id": "C33", "title": "Multiscale backbone", "statement": "multiscale_backbone(graph, alpha) keeps all the nodes and exactly the edges whose disparity is <= alpha; raising alpha keeps a superset.", "quantifier": "every simple undirected graph with positive weights, every alpha", "why_tests_cant": "All weighted graphs.", "anchors": ["pelote/sparsification/multiscale_backbone.py: multiscale_backbone"]}
{"id": "C34", "title": "Relevant and redundant edges partition the edges", "statement": "For the sparsifiers of the library (and any built from a predicate factory), every edge of the graph is either relevant or redundant and not both, in the order of graph.edges; filter keeps exactly the relevant edges.", "quantifier": "every sparsifier built from a predicate factory, every graph, keep_connected or not", "why_tests_cant": "All graphs and predicates.", "anchors": ["pelote/sparsification/utils.py: Sparsifier.relevant_edges, redundant_edges, filter"]}
{"id": "C35", "title": "In-place sparsification agrees with filtering", "statement": "Sparsifier.remove(graph) leaves the graph in the state Sparsifier.filter(graph) returns. (False on multigraphs, where remove raises TypeError as soon as an edge is redundant.)", "quantifier": "every sparsifier, every graph", "why_tests_cant": "All graphs and predicates.", "anchors": ["pelote/sparsification/utils.py: Sparsifier.remove, filter"]}
{"id": "C36", "title": "keep_connected keeps the graph connected", "statement": "With keep_connected=True the sparse graph has the same (weakly) connected components as the original graph, whatever the predicate and the weights.", "quantifier": "every graph of every kind, every predicate", "why_tests_cant": "All graphs.", "anchors": ["pelote/sparsification/utils.py: decorate_predicate_factory_with_umst"]}
{"id": "C37", "title": "Flagging edges", "statement": "flag_relevant_edges / flag_redundant_edges set the given attribute to True exactly on the relevant (redundant) edges, to False on the others with full=True, and change nothing else.", "quantifier": "every simple graph, sparsifier, attribute name", "why_tests_cant": "All graphs.", "anchors": ["pelote/sparsification/utils.py: Sparsifier.flag_relevant_edges, flag_redundant_edges"]}
{"id": "C38", "title": "Projection keeps the part", "statement": "monopartite_projection returns an undirected simple graph whose nodes are exactly the nodes of the part to keep (given by attribute value or by collection), with their attributes minus the part attribute, isolated nodes included; it raises TypeError when the part is empty and the null graph gives the null graph.", "quantifier": "every graph, part, metric and threshold", "why_tests_cant": "All graphs.", "anchors": ["pelote/projection.py: monopartite_projection"]}
{"id": "C39", "title": "Projection links nodes sharing neighbors", "statement": "On an undirected simple bipartite graph two distinct kept nodes are linked in the projection exactly when they share a neighbor and their similarity reaches the threshold if given, and the weight is the value of the metric on their neighborhoods (intersection size, Jaccard, overlap, dice, cosine, binary cosine, dot product, pmi).", "quantifier": "every bipartite graph, metric, threshold", "why_tests_cant": "All graphs; the online accumulation must equal the mathematical definition of each metric.", "anchors": ["pelote/projection.py: monopartite_projection", "pelote/classes/online_metrics.py: OnlineMetric"]}
{"id": "C40", "title": "Similarity metrics are in range", "statement": "Jaccard, overlap, dice and binary cosine weights are in (0, 1], are 1 exactly when (jaccard, dice, binary cosine) the two neighborhoods are equal, cosine with positive weights is in (0, 1], and jaccard <= dice <= binary cosine <= overlap.", "quantifier": "every bipartite graph and pair of nodes", "why_tests_cant": "All graphs.", "anchors": ["pelote/classes/online_metrics.py: JaccardMetric, OverlapMetric, DiceMetric, BinaryCosineMetric, CosineMetric"]}
{"id": "C41", "title": "Projection rejects non bipartite graphs", "statement": "With bipartition_check, monopartite_projection raises TypeError when an edge links two nodes of the kept part. (False when the part is given as an attribute value: the edge attributes are inspected instead of the neighbor's attributes.)", "quantifier": "every graph and part specification", "why_tests_cant": "All graphs.", "anchors": ["pelote/projection.py: monopartite_projection"]}
{"id": "C42", "title": "Projection with a metric never fails on a bipartite graph", "statement": "On an undirected bipartite graph with numeric weights no metric raises. (False for cosine when all the edges of a kept node weigh 0.)", "quantifier": "every bipartite graph and metric", "why_tests_cant": "All graphs.", "anchors": ["pelote/projection.py: monopartite_projection", "pelote/classes/online_metrics.py: OnlineMetric.add_norm, neighbors"]}
{"id": "C43", "title": "Bounded breadth first search", "statement": "bfs_from_node(graph, source, reverse, limit) yields every node other than the source at directed distance d with 1 <= d <= limit exactly once, with its distance, by non-decreasing distance.", "quantifier": "every directed graph, source, limit", "why_tests_cant": "All graphs.", "anchors": ["pelote/projection.py: bfs_from_node", "pelote/classes/traversal.py: BFSQueue"]}
{"id": "C44", "title": "Self similarity projection", "statement": "With depth=1, self_similarity_projection keeps all nodes and links two nodes exactly when they share an in- or out-neighbor, the weight being the Jaccard index of their neighborhoods (direction-tagged, ignoring links between the two), a number in (0, 1]; it never divides by zero. (With depth >= 2 the depth variable is overwritten by the traversal, so the requested depth is not honoured.)", "quantifier": "every directed simple graph", "why_tests_cant": "All graphs.", "anchors": ["pelote/projection.py: self_similarity_projection"]}
{"id": "C45", "title": "Graphology round trip", "statement": "For every simple graph whose node keys are strings and attribute names are strings, read_graphology_json(write_graphology_json(g)) is the same graph (kind, graph attributes, nodes in order, edge listing); for integer keys it is the same graph with keys cast to strings; write(read(write(g))) = write(g). (Multigraph keys are lost.)", "quantifier": "every graph", "why_tests_cant": "All graphs.", "anchors": ["pelote/read.py: parse_graphology_json", "pelote/write.py: write_graphology_json"]}
{"id": "C46", "title": "Graphology writing never conflates nodes", "statement": "When allow_mixed_keys is False, a successful write gives distinct nodes distinct keys; it raises TypeError exactly when some node key is neither int nor str, or two keys have different types, or an attribute name is not a string and invalid names are not allowed.", "quantifier": "every graph", "why_tests_cant": "All graphs.", "anchors": ["pelote/write.py: write_graphology_json, coerce_attributes"]}
{"id": "C47", "title": "Graphology reading of mixed graphs", "statement": "Parsing a graph declared mixed gives an undirected graph when all its edges are undirected, a directed graph when none is, and raises TypeError otherwise; a missing options field raises TypeError; the multi option selects a multigraph.", "quantifier": "every JSON document", "why_tests_cant": "All documents.", "anchors": ["pelote/read.py: parse_graphology_json"]}
{"id": "C48", "title": "Bipartite graph from a table counts rows", "statement": "table_to_bipartite_graph has one node per distinct value of each of both columns and one edge per distinct pair of values, the edge weight being the number of rows with that pair; the weights sum to the number of rows. A row lacking one of both columns raises TypeError.", "quantifier": "every table, with disjoint_keys or not", "why_tests_cant": "All tables.", "anchors": ["pelote/tabular_to_graph.py: table_to_bipartite_graph"]}
{"id": "C49", "title": "Bipartite graph from a table is bipartite", "statement": "Unless disjoint_keys is wrongly set, every edge of the graph links a node of the first part to a node of the second part, even when the same value occurs in both columns.", "quantifier": "every table", "why_tests_cant": "All tables.", "anchors": ["pelote/tabular_to_graph.py: table_to_bipartite_graph"]}
{"id": "C50", "title": "First row takes precedence for node data", "statement": "The attributes of a node of table_to_bipartite_graph are the part name, the label and the collected data of the first row mentioning it; None values are omitted.", "quantifier": "every table and data specification (sequence, mapping or callable)", "why_tests_cant": "All tables.", "anchors": ["pelote/tabular_to_graph.py: table_to_bipartite_graph, collect_row_data"]}
{"id": "C51", "title": "Graph from an edge table", "statement": "edges_table_to_graph has an edge between two values exactly when some row has them as source and target (in either order if undirected); with count_rows_as_weight the weight is the number of such rows and the other attributes come from the first one; otherwise the attributes are those of the last one.", "quantifier": "every table", "why_tests_cant": "All tables.", "anchors": ["pelote/tabular_to_graph.py: edges_table_to_graph, _edges_table_to_graph"]}
{"id": "C52", "title": "Graph from node and edge tables", "statement": "tables_to_graph without add_missing_nodes raises KeyError exactly when an edge mentions a node absent from the nodes table, otherwise its nodes are exactly the values of the node column; with add_missing_nodes it never raises for that reason and adds the missing nodes. A node repeated in the table takes the attributes of its last row.", "quantifier": "every pair of tables", "why_tests_cant": "All tables.", "anchors": ["pelote/tabular_to_graph.py: tables_to_graph, _edges_table_to_graph", "pelote/graph.py: check_node_exists"]}
{"id": "C53", "title": "Tables from graphs", "statement": "graph_to_nodes_dataframe has one row per node in order with its key and attributes, graph_to_edges_dataframe one row per edge with source, target, attributes and the requested source and target node data. (An attribute named like the key column silently overrides the key.)", "quantifier": "every graph", "why_tests_cant": "All graphs.", "anchors": ["pelote/graph_to_tabular.py: graph_to_nodes_dataframe, graph_to_edges_dataframe, graph_to_dataframes"]}
{"id": "C54", "title": "Tabular round trip", "statement": "For a simple graph whose nodes (edges) all carry the same attribute names, none of them the name of a key column, tables_to_graph applied to the rows of graph_to_dataframes gives back the same graph.", "quantifier": "every simple graph with homogeneous attributes", "why_tests_cant": "All graphs.", "anchors": ["pelote/graph_to_tabular.py", "pelote/tabular_to_graph.py: tables_to_graph"]}
{"id": "C55", "title": "Floatsam threshold", "statement": "When floatsam_threshold_learner returns t, then t = starting_threshold + k * learning_rate where k + 1 is the first step at which the second largest component of the graph restricted to edges of weight >= starting_threshold + (k+1) * learning_rate has order >= max_drifter_order; on_epoch has been called once for each step with its number and threshold. A graph without edges returns the starting threshold.", "quantifier": "every graph, starting threshold, learning rate, max drifter order", "why_tests_cant": "All graphs and iteration counts.", "anchors": ["pelote/learn.py: floatsam_threshold_learner"]}
{"id": "C56", "title": "Floatsam terminates", "statement": "floatsam_threshold_learner terminates on every graph with numeric weights and positive learning rate. (False: when no drifting component ever reaches max_drifter_order the loop is infinite.) It terminates whenever max_drifter_order <= 1 and the graph has at least two nodes.", "quantifier": "every graph", "why_tests_cant": "Non-termination cannot be observed by a test.", "anchors": ["pelote/learn.py: floatsam_threshold_learner"]}
{"id": "C57", "title": "Pandas shim", "statement": "Inside missing_pandas (not nested) is_pandas_available is False and functions requiring pandas raise MissingPandasException; whatever happens in the block, availability is restored afterwards to whether pandas was importable. (Nested blocks are not honoured: leaving the inner one resurrects pandas inside the outer one.)", "quantifier": "every sequence of shim operations, normal or exceptional exit", "why_tests_cant": "All histories.", "anchors": ["pelote/shim.py: missing_pandas, obliterate_pandas, resurrect_pandas, check_pandas"]}
{"id": "C58", "title": "DFS stack and BFS queue visit each node once", "statement": "Over any history of append / pop operations on a DFSStack or BFSQueue, each node is accepted (append returns True) at most once, exactly the first time it is appended; popped items come out LIFO (FIFO); nodes_yet_unseen enumerates the nodes of the graph not appended so far.", "quantifier": "every history of operations", "why_tests_cant": "Unbounded histories.", "anchors": ["pelote/classes/traversal.py: DFSStack, BFSQueue"]}
{"id": "C59", "title": "Sparsifiers built from an edge generator", "statement": "A Sparsifier given only a generator of relevant (redundant) edges yields as redundant (relevant) exactly the other edges of the graph, whatever the orientation in which an undirected edge is generated, and honours keep_connected. (False: filter ignores keep_connected when the relevant edges are generated, remove ignores it when the redundant edges are.)", "quantifier": "every generator, every graph with comparable node keys", "why_tests_cant": "Quantifies over user supplied generators and all graphs.", "anchors": ["pelote/sparsification/utils.py: Sparsifier"]}
{"id": "C60", "title": "DataFrames are read as their rows", "statement": "Every function taking a table reads a DataFrame exactly as the list of its rows: as many rows as its length, each mapping the used columns to their values; a DataFrame lacking a used column raises KeyError.", "quantifier": "every DataFrame, every selection of columns", "why_tests_cant": "All tables.", "anchors": ["pelote/utils.py: iterator_from_dataframe", "pelote/tabular_to_graph.py"]}
{"id": "C61", "title": "Floatsam with a negative learning rate", "statement": "As its documentation says, floatsam_threshold_learner with a negative learning_rate reverses the logic of the algorithm, so that it suits metrics where lower is better: the found threshold is the opposite of the one found on the graph with opposite weights, starting threshold and learning rate. (False: edges of weight greater than or equal to the threshold are kept in both cases.)", "quantifier": "every graph, starting threshold, learning rate", "why_tests_cant": "A universal statement relating two runs.", "anchors": ["pelote/learn.py: floatsam_threshold_learner"]}
{"id": "C62", "title": "Union-find lookups are fast", "statement": "As path compression and union by rank promise, looking up an item of a UnionFind takes a number of steps logarithmic in the size of its class (or less), after any history of unions. (False: the loop labelled path compression writes nothing, and union compares the ranks of its arguments instead of those of their representatives, so that n - 1 unions can build a chain of n items, taking n ** 2 reads of the parents array overall.) It is true of histories in which every union is made between representatives.", "quantifier": "every capacity, every history of operations", "why_tests_cant": "A complexity bound, over unbounded histories.", "anchors": ["pelote/classes/union_find.py: UnionFind.find, UnionFind.union"]}
{"id": "C63", "title": "keep_connected follows the weights given to the sparsification", "statement": "With keep_connected, a sparsification reading its weights from edge_weight_attr keeps the edges meeting its criterion and, besides, exactly the edges belonging to some maximum spanning forest for those weights. (True when the attribute is 'weight'. False for any other one: the spanning trees always read 'weight'; on a graph without such an attribute every edge but self loops is kept, so that nothing is sparsified.)", "quantifier": "every simple graph, threshold and attribute name", "why_tests_cant": "Quantifies over all weighted graphs and all maximum spanning forests; nothing raises.", "anchors": ["pelote/sparsification/utils.py: decorate_predicate_factory_with_umst", "pelote/sparsification/global_threshold.py", "pelote/sparsification/multiscale_backbone.py"]}
{"id": "C64", "title": "A projection threshold is a sparsification of the projection", "statement": "Giving a positive threshold to monopartite_projection raises exactly the errors raised without one and otherwise returns the graph which global_threshold_sparsification makes, with that threshold, of the projection computed without one: same nodes, same attributes, same edges with the same weights in the same order.", "quantifier": "every graph, directed or not, multigraph or not, every part given by value or by collection, every metric and weight attribute, every positive threshold", "why_tests_cant": "Relates two runs of the projection and a third function, over all graphs; the accumulators of the online metrics could differ between the runs.", "anchors": ["pelote/projection.py: monopartite_projection", "pelote/sparsification/global_threshold.py: global_threshold_sparsification"]}
{"id": "C65", "title": "Similarity metrics stay in range in floating point", "statement": "Computed with double precision floats, as Python does, the jaccard, overlap, dice and binary cosine similarities of a monopartite projection are in (0, 1], equal 1 exactly when they do in exact arithmetic (same neighbors, or included ones for overlap), and are ordered: jaccard <= dice <= overlap. (False of binary_cosine: nodes sharing all their neighbors get 1.0000000000000002 when there are three and 0.9999999999999998 when there are two, so that a threshold of 1 drops their edge.)", "quantifier": "every bipartite graph of less than 2 ** 52 nodes, every part, metric and threshold", "why_tests_cant": "Rounding errors depend on every pair of cardinalities; tests compare approximately, or on few cardinalities.", "anchors": ["pelote/classes/online_metrics.py", "pelote/projection.py: monopartite_projection"]}
{"id": "C66", "title": "Floatsam terminates in floating point", "statement": "With double precision floats, as Python computes, floatsam_threshold_learner returns the last of the thresholds start, fl(start + rate), fl(fl(start + rate) + rate), ... before the first one at which a large enough component drifts, these thresholds differ from start + k * rate by one rounding error per step at most, and it returns whenever it would in exact arithmetic. (The last part is false: the thresholds increase up to 2 ** 53 times the learning rate if it is a power of 2, and else to 2 ** 54 times the power of 2 below it, and stay there, so that with a limit of at most 1 it loops forever exactly on the graphs connected by edges whose weights reach this ceiling; nor do they leave a starting threshold, positive or negative, so large that adding the rate does not change it: one at or above the ceiling or below minus the ceiling and, if the rate is a power of 2, a multiple of 4 times the rate.)", "quantifier": "every undirected graph, starting threshold, positive learning rate, limit and callback", "why_tests_cant": "Non termination cannot be observed by a test, and accumulated rounding depends on every input.", "anchors": ["pelote/learn.py: floatsam_threshold_learner"]}
{"id": "C67", "title": "Cropping leaves a connected graph, once and for all", "statement": "After crop_to_largest_connected_component, any two nodes of the graph are linked by a path of remaining edges, the graph is empty only if it was, and cropping it again changes nothing, even when (C15) the component kept is not the largest one.", "quantifier": "every graph, directed or not, multigraph or not", "why_tests_cant": "Quantifies over every graph; the early exit makes the component kept depend on every size.", "anchors": ["pelote/graph.py: crop_to_largest_connected_component, largest_connected_component"]}
{"id": "C68", "title": "Triangular strengths count every triangle three times", "statement": "The strengths returned by triangular_strength sum up to three times the number of triangles of the graph, with full or without, and triangles yields exactly this number of triples.", "quantifier": "every graph on which triangular_strength returns", "why_tests_cant": "A double counting identity over all graphs.", "anchors": ["pelote/metrics/chiba_nishizeki.py: triangular_strength, triangles"]}
{"id": "C69", "title": "Sparsifying twice is sparsifying once", "statement": "Applying a sparsification (global threshold or multiscale backbone, with or without keep_connected) to its own result with the same arguments changes nothing. (True of global_threshold_sparsification, with keep_connected when weights are equal or more than 1e-8 apart. False of it otherwise, near ties being merged from different starting points, and false of the multiscale backbone, whose disparities depend on the degrees and strengths left by the first pass.)", "quantifier": "every simple weighted graph, threshold and option", "why_tests_cant": "Relates two runs over all graphs; union of maximum spanning trees is recomputed on a smaller graph.", "anchors": ["pelote/sparsification/global_threshold.py", "pelote/sparsification/multiscale_backbone.py", "pelote/sparsification/utils.py"]}
{"id": "C70", "title": "A part may be given by its value or by its nodes", "statement": "monopartite_projection gives the same result, or the same error, whether the part to keep is given by the value of the attribute of its nodes or by a collection containing, among the nodes of the graph, exactly these nodes. (True without the bipartition check, on any graph, and with it when the graph is bipartite. False with it on graphs having edges inside the part: they are reported only for collections, since the check by value reads attributes of the edge instead of those of the node.)", "quantifier": "every graph, metric, threshold and part", "why_tests_cant": "Relates two runs over all graphs; the two code paths are separate conditions.", "anchors": ["pelote/projection.py: monopartite_projection"]}
{"id": "C71", "title": "Co-occurrence networks from a table", "statement": "Turning a table of two columns into a bipartite graph then projecting it on its first column yields the co-occurrence network of the table: one node per distinct value of the first column, labelled by it, and an edge between two different values exactly when some value of the second column is found beside both (and their similarity reaches the threshold, if any), weighted by the similarity of the multisets of values found beside them.", "quantifier": "every table, every metric, every positive threshold, with plain options (no data column, no clashing attribute name)", "why_tests_cant": "A composition of two functions over arbitrary tables; tests of either run on a handful of rows.", "anchors": ["pelote/tabular_to_graph.py: table_to_bipartite_graph", "pelote/projection.py: monopartite_projection"]}
{"id": "C72", "title": "Cost of the triangle enumeration", "statement": "Enumerating the triangles of a graph of m edges takes a number of elementary steps bounded by the sum, over its edges, of the smaller of the degrees of their ends; hence at most 2km steps if edges may be oriented so that each node has at most k outgoing ones (Chiba & Nishizeki's bound, k = 3 for planar graphs), and at most 2m sqrt(2m) steps on any graph.", "quantifier": "every graph, directed or not, multigraph or not", "why_tests_cant": "An asymptotic bound over all graphs; nodes must be taken by decreasing degree, which changes no result.", "anchors": ["pelote/metrics/chiba_nishizeki.py: triangles"]}
{"id": "C73", "title": "The unit of weights does not matter", "statement": "Multiplying every weight by the same positive number changes neither edge disparities nor the multiscale backbone, changes the edges kept by a global threshold in no other way than multiplying the threshold, and keeps the same union of maximum spanning trees. (The last part is true only when no two different weights are within 1e-8 in either unit: with weights 1, 2 and 3 in billionths, every edge of a triangle is yielded.)", "quantifier": "every simple undirected weighted graph, every positive factor", "why_tests_cant": "Relates runs on infinitely many rescaled graphs; the tolerance only shows with small weights.", "anchors": ["pelote/metrics/edge_disparity.py", "pelote/sparsification/multiscale_backbone.py", "pelote/sparsification/global_threshold.py", "pelote/graph.py: union_of_maximum_spanning_trees"]}
{"id": "C74", "title": "The order in which a graph was built does not matter", "statement": "Two graphs having the same nodes, edges and attributes, whatever the order in which nodes and edges were added and the direction in which undirected edges were given, have the same component sizes, the same threshold found by the learner, the same triangular strengths and edge disparities, the same union of maximum spanning trees (or the same error), the same sparsifications, with or without keep_connected, and the same projections. (False of the largest connected component, which may be another, smaller one, and of the self similarity projection of depth 2 or more when some node has no neighbor at that depth.)", "quantifier": "every pair of graphs equal up to the order of insertion", "why_tests_cant": "Relates runs over every reordering of every graph; tests use one order.", "anchors": ["pelote/graph.py", "pelote/learn.py", "pelote/metrics", "pelote/sparsification", "pelote/projection.py"]}
{"id": "C75", "title": "Comparing graphs is an equivalence", "statement": "Comparing two simple graphs of the same kind answers the same in both directions; a graph is the same as itself, as its copy however it was built, and as what comes back from its tables; graphs that are the same as a third one are the same as each other; and graphs that are the same with attributes are the same without. (False across kinds: an undirected graph may be found to be the same as a directed one in one direction only.)", "quantifier": "every pair or triple of simple graphs", "why_tests_cant": "Algebraic laws over all graphs; tests compare a few pairs.", "anchors": ["pelote/graph.py: are_same_graphs"]}
{"id": "C76", "title": "Filters compose", "statement": "Filtering edges by two predicates one after the other, in any order, is filtering by their conjunction, and so it is of remove_nodes, which keeps the nodes passing a predicate; filtering edges by an always true predicate gives back the same graph; and removing nodes before or after filtering edges comes to the same.", "quantifier": "every graph, all predicates that answer on every node or edge", "why_tests_cant": "Laws over all predicates and graphs.", "anchors": ["pelote/graph.py: filter_edges, remove_nodes"]}
{"id": "C77", "title": "Edge disparity in floating point", "statement": "With positive weights, edge disparities computed in floating point never raise, are between 0 and 1, reversed or not, and the reversed scores are 1 minus the scores, rounded; the multiscale backbone keeps exactly the edges whose computed score is at most alpha, more of them as alpha grows, all of them from 1 on, and none below 0. The scores may however depend on the order in which the edges were added, so that the backbone of a level keeps an edge or not depending on it.", "quantifier": "every simple undirected graph with positive weights whose sums do not overflow", "why_tests_cant": "Quantifies over all floats and all sums of them; a range violation may only show on rare roundings.", "anchors": ["pelote/metrics/edge_disparity.py", "pelote/sparsification/multiscale_backbone.py"]}
{"id": "C78", "title": "The names of nodes do not matter", "statement": "Renaming the nodes of a graph, different nodes keeping different names, renames the results of every function and changes nothing else, errors included: what remove_edges, remove_nodes, remove_leaves, filter_edges and cropping to the largest component leave, the comparison of graphs, the sizes of components and the largest component, the threshold found by the learner, the union of maximum spanning trees, the triangles in the same order, what the sparsifiers keep, remove and flag, the self similarity projection and the monopartite projection. Where pairs of nodes are keyed in order, the renamed pair is ordered by the new names.", "quantifier": "every graph and every injective renaming", "why_tests_cant": "Relates runs over every renaming of every graph; a dependency on names (ordering, hashing) only shows with other names.", "anchors": ["pelote/graph.py", "pelote/learn.py", "pelote/metrics", "pelote/sparsification"]}
{"id": "C79", "title": "Maximum spanning trees in floating point", "statement": "With weights that are floats, each zero or at least 2 ** -25 (about 3e-8) in magnitude, rounding the differences of weights and the tolerance changes nothing to the edges of the union of maximum spanning trees, to their order or to what is raised. With weights that are zero or at least 2 ** 26 in magnitude, two floats that differ do so by more than the tolerance, so that the result is exactly the union of the maximum spanning trees. (Below 2 ** -25 it may differ from the exact one.)", "quantifier": "every graph, all float weights as said", "why_tests_cant": "Quantifies over all floats; a wrong comparison only shows on differences within one rounding of 1e-8.", "anchors": ["pelote/graph.py: union_of_maximum_spanning_trees, WEIGHT_EPSILON"]}
{"id": "C80", "title": "The graphs returned share no attribute dict", "statement": "filter_edges, filter_nodes, filter_leaves, largest_connected_component_subgraph and the filter method of sparsifiers return graphs whose attribute dicts (of the graph, of its nodes, of its edges) are new and all distinct: the graph given is not modified, no later change of attributes in one of the two graphs is seen in the other, and no change to a node or an edge of the result is seen in another of its nodes or edges. With as_view=True it is the contrary: the view has the dicts of the graph, and at any time is the subgraph of the graph as it is by then. The flag methods write in the dicts of the graph itself. (Copies are shallow: the values of attributes are shared.)", "quantifier": "every graph, whatever its dicts, every predicate, every later sequence of changes of attributes", "why_tests_cant": "Quantifies over all graphs and all later modifications; a shared dict only shows when someone writes in it.", "anchors": ["pelote/graph.py: filter_edges, filter_nodes, filter_leaves, largest_connected_component_subgraph, create_null_copy", "pelote/sparsification/utils.py: Sparsifier.filter, flag_relevant_edges, flag_redundant_edges"]}
{"id": "C81", "title": "The learned threshold is meant for the sparsification", "statement": "On an undirected graph with numeric weights, sparsifying with global_threshold_sparsification at the threshold returned by floatsam_threshold_learner leaves no second component of max_drifter_order nodes or more, unless the threshold is the starting one, while sparsifying one learning rate higher leaves one. With a smaller max_drifter_order the learner ends whenever it ends with a larger one, no later, and, the learning rate not being negative, returns a threshold that is no greater. All of this holds in floating point too.", "quantifier": "every undirected graph with numeric weights, all parameters, callbacks that do not raise, exact or float thresholds", "why_tests_cant": "Relates two functions, and two runs of an iterative one, on all graphs.", "anchors": ["pelote/learn.py", "pelote/sparsification/global_threshold.py"]}
{"id": "C82", "title": "Separate parts of a graph are treated independently", "statement": "When no edge joins two parts of a graph, what is computed on one part alone is what is computed on the whole graph, restricted to that part: connected_component_orders and triangles of the whole are those of both parts together; triangular_strength, edge_disparity, global_threshold_sparsification, multiscale_backbone (with or without keep_connected), union_of_maximum_spanning_trees, monopartite_projection and self_similarity_projection of a part give the values they give on the whole. (False of self_similarity_projection beyond depth 1: an unrelated chain of two nodes changes the projection. False of maximum spanning trees with weights within 1e-8 of each other: an unrelated edge decides which weights are deemed equal.)", "quantifier": "every graph, every set of its nodes that no edge leaves", "why_tests_cant": "Relates runs on a graph and on its parts, for all graphs and all parts.", "anchors": ["pelote/graph.py: connected_component_orders, union_of_maximum_spanning_trees", "pelote/metrics/chiba_nishizeki.py", "pelote/metrics/edge_disparity.py", "pelote/sparsification/*.py", "pelote/projection.py"]}
{"id": "C83", "title": "A graph goes through a file", "statement": "The document returned by write_graphology_json can be put in a file by json.dump when the attribute values of the graph are made of None, booleans, numbers, strings, lists and dicts, and the names of its own attributes are strings, numbers, booleans or None; otherwise json.dump raises a TypeError. read_graphology_json, given the path of the file or the open file, in whatever layout the document was written (indentation, escapes), returns the graph: same kind, same nodes, edges and attributes in the same order, node keys cast to strings, the names inside attribute values and the names of the graph's attributes cast to strings as well. When these names are strings already, reading the file is the same as reading the document. A file that is not JSON raises a ValueError; a file that holds anything but an object raises a TypeError. (The writer does not check attribute values: a set is accepted, and refused by json.dump. Two names of a nested dict may become one.)", "quantifier": "every graph, every JSON text", "why_tests_cant": "All JSON texts of all documents, and the exact set of texts that are accepted.", "anchors": ["pelote/read.py", "pelote/write.py"]}
{"id": "C84", "title": "Predicates with memory are asked once about each item", "statement": "A predicate that remembers its calls (a sampler, a counter, a cache) can be given to remove_edges, filter_edges and remove_nodes: it is called exactly once for each edge, or node, in the order networkx lists them, and what is kept is exactly what it answered True to; if it raises, it is not called again, the exception comes through and the graph given is unchanged. connected_component_orders calls its edge filter once for each node and each edge of that node, each node being visited once whatever the filter answers, and the orders always add up to the order of the graph. A predicate without memory gives the results described by the other properties. (False of filter_nodes, which also calls its predicate for the far end of the edges of each node kept: a sampler may keep a node without its attributes.)", "quantifier": "every graph (remove_edges: not multigraphs), every predicate with any memory", "why_tests_cant": "Quantifies over all predicates and all their internal states; the number and order of calls is not visible in a result.", "anchors": ["pelote/graph.py: remove_edges, filter_edges, remove_nodes, filter_nodes, connected_component_orders"]}
{"id": "C85", "title": "The graph may be modified while a generator is consumed", "statement": "triangles reads the graph at the first next() and never again: whatever the loop consuming it does to the graph (removing the edges or nodes of the triangles found, adding others), it yields the triangles of the graph as it was at the first next(), in the same order. The same holds of union_of_maximum_spanning_trees, if the weights of the edges not yielded yet stay the same; the dicts of the edges already yielded may be modified, and edges removed. The generator of connected_component_orders follows the edges of the graph as they are: when edges are added and removed by the loop, the orders are positive, add up to the number of nodes and nothing is raised. (They are not those of the graph as it was: an edge added meanwhile may be followed. A weight modified before its edge is yielded may change the edges of the spanning trees.)", "quantifier": "every graph, every sequence of modifications between the yields", "why_tests_cant": "Quantifies over everything the consuming code may do to the graph between two values; tests exhaust the generators first.", "anchors": ["pelote/metrics/chiba_nishizeki.py: triangles", "pelote/graph.py: union_of_maximum_spanning_trees, connected_component_orders"]}
{"id": "C86", "title": "The projection of float weights is accurate", "statement": "monopartite_projection computes with floats. With the metrics that count neighbors (all but cosine and dot_product) float weights make no difference. With cosine and positive weights between 2**-200 and 2**200, the weight of a link is the cosine of the two nodes with a relative error of at most (2N+7)/2**52 when the nodes have at most N neighbors (N up to 2**50); with dot_product, (N+1)/2**52. The nodes linked are then exactly those sharing a neighbor, but for a threshold closer than that. Dot products of weights that are integers, below 2**53, are exact. (Outside of these conditions: the order in which edges were added may change the weights; with weights of both signs a dot product of 1 may be computed as 0; with weights below 1e-162 cosine may raise KeyError.)", "quantifier": "every simple undirected bipartite graph with positive weights in the range, all thresholds", "why_tests_cant": "An error bound over all graphs, sizes, weights and orders of summation.", "anchors": ["pelote/projection.py", "pelote/classes/online_metrics.py"]}
{"id": "C87", "title": "Parallel edges count once in a projection", "statement": "monopartite_projection accepts multigraphs. Each pair of adjacent nodes counts once however many edges join them: the projection, errors included, is that of the simple graph having one edge for each pair of adjacent nodes, for every metric and threshold, directed or not. On an undirected bipartite multigraph no metric raises and two nodes of the part are linked exactly when they share a neighbor and their similarity reaches the threshold. (The weights of the edges of a multigraph are silently ignored: cosine is then the binary cosine and dot_product the number of shared neighbors. An edge whose key is the name of the weight attribute is taken for a weight, and raises.)", "quantifier": "every multigraph whose edge keys are not the names of the weight and part attributes, all metrics, thresholds and parts", "why_tests_cant": "An equality between two runs, for all multigraphs.", "anchors": ["pelote/projection.py: monopartite_projection"]}
{"id": "C88", "title": "Documents that do not describe a graph are refused", "statement": "read_graphology_json returns a graph exactly for the dicts whose options record a type and a multi flag, whose attributes, if any, are a dict with usable names, whose nodes and edges, if any, are lists of dicts, each node with a hashable key, each edge with hashable ends (none of them None), with attributes, if any, in a dict with usable names, and, when the type is mixed, with the same undirected flag on all edges. The flags may be given as booleans or as 0 and 1. Anything else raises TypeError, KeyError, AttributeError, ValueError or networkx.NetworkXError, and no graph is returned: the first node that is not a dict raises AttributeError, a node without key KeyError, a key that is None ValueError, a key that is a list or a dict TypeError. (An undirected flag that is None is refused in a mixed document.)", "quantifier": "every value made of None, booleans, numbers, strings, lists and dicts", "why_tests_cant": "An equivalence over all documents, malformed ones included.", "anchors": ["pelote/read.py: parse_graphology_json, read_graphology_json"]}
{"id": "C89", "title": "Infinite and NaN weights", "statement": "Whatever the weights, infinities and NaN included, the edges given by union_of_maximum_spanning_trees are edges of the graph, each at most once, and link exactly the nodes the graph links; so keep_connected never disconnects anything, whatever the predicate. Infinite weights count as numbers beyond all the others. The global threshold keeps exactly the edges whose weight compares with the threshold: an edge of weight NaN is kept neither by the threshold nor by its reverse, any other edge by one of them at least. But a NaN weight may change which other edges the spanning trees contain.", "quantifier": "all graphs with weights that may be infinite or NaN, all thresholds, all ways of sorting keys some of which are NaN, all roundings of a difference", "why_tests_cant": "a test uses one NaN at one place; what the sort does with it depends on the position and on the algorithm", "anchors": ["pelote/graph.py: union_of_maximum_spanning_trees", "pelote/sparsification/utils.py: decorate_predicate_factory_with_umst", "pelote/sparsification/global_threshold.py"]}
{"id": "C90", "title": "Edge disparity and the backbone with infinite and NaN weights", "statement": "On a simple undirected graph whose weights are positive, infinite or NaN, edge_disparity does not raise and gives one score per edge. Seen from one end of the edge the score is 1 if that end has degree 1; otherwise NaN if some edge at that end has weight NaN or if the edge itself has infinite weight, 1 if another edge there has infinite weight, and the documented formula if all the weights there are finite. The score of the edge is NaN if it is NaN seen from the end with the smaller label, the score seen from that end if it is NaN only seen from the other one, and the smaller of the two otherwise. So an edge of infinite or NaN weight has score 1 or NaN, and multiscale_backbone drops it for every alpha below 1; relabelling the nodes may change the scores of the other edges. With keep_connected the backbone still has the connected components of the graph.", "quantifier": "all simple undirected graphs with comparable labels, weights positive, infinite or NaN, every alpha, NaN and infinities included", "why_tests_cant": "the outcome depends on which end of an edge has the smaller label and on every weight around it", "anchors": ["pelote/metrics/edge_disparity.py", "pelote/sparsification/multiscale_backbone.py"]}
{"id": "C91", "title": "Removing leaves again and again", "statement": "Calling remove_leaves repeatedly reaches a fixed point after at most as many calls as there are nodes, and none of the calls raises. The graph left has exactly the edges of the original between nodes of its core, the largest set of nodes each having at least two edge ends inside the set; it has all the nodes of the core, other nodes that are left are isolated, and no node has degree 1. No call takes an edge of the core away, so no triangle is ever lost. Two nodes that are left are connected exactly when they were in the original.", "quantifier": "all graphs, directed or not, with self loops and parallel edges; all numbers of calls", "why_tests_cant": "tests remove one layer of one path; the order in which layers disappear depends on the whole graph", "anchors": ["pelote/graph.py: remove_leaves"]}
{"id": "C92", "title": "Edge disparity in floating point is accurate", "statement": "With weights that are positive floats and degrees up to 2**52, the score that edge_disparity computes for an edge, reversed or not, is within 3d/2**53 of the documented formula computed exactly, d being the larger of the degrees of the two ends; so the order in which the graph was built changes no score by more than twice that, and unless the exact score of some edge is that close to alpha, multiscale_backbone keeps exactly the edges that the exact formula keeps. (The relative error is not bounded: a score may be computed as 0.)", "quantifier": "all simple undirected graphs with comparable labels, all positive float weights, all alphas, every implementation of ** with an error of at most 2**-52", "why_tests_cant": "a test compares a few scores with a tolerance; the error depends on every weight and on the degrees, which may be large", "anchors": ["pelote/metrics/edge_disparity.py", "pelote/sparsification/multiscale_backbone.py"]}
{"id": "C93", "title": "Edge disparity with the compensated sums of Python 3.12", "statement": "From Python 3.12 on the strengths are sums of floats whose rounding errors are compensated. Such a sum of at most 2**24 nonnegative floats is at a relative distance of at most 2**-53 + 2**-55 of the exact one, whatever their number, and no less than any of the terms. So with positive float weights and degrees up to 2**24 edge_disparity never raises, every score, reversed or not, is between 0 and 1 and within (d + 5)/2**53 of the documented formula computed exactly, d being the larger degree of the two ends, and unless the exact score of some edge is that close to alpha multiscale_backbone keeps exactly the edges that the exact formula keeps. The order in which the graph was built may still change a score, and the backbone.", "quantifier": "all simple undirected graphs with comparable labels and positive float weights, all alphas, every implementation of ** with an error of at most 2**-52", "why_tests_cant": "the suite runs under one version of Python and compares a few scores with a tolerance", "anchors": ["pelote/metrics/edge_disparity.py", "pelote/sparsification/multiscale_backbone.py"]}
{"id": "C94", "title": "keep_connected keeps the strongest connections", "statement": "Sparsifying with keep_connected keeps, for every threshold t, what the edges of weight at least t link: two nodes linked by a path of edges of weight t or more are still linked by such a path. Hence connected_component_orders with an edge filter on the weight gives the same orders in the same order, and floatsam_threshold_learner finds the same threshold, with the same epochs, on the sparse graph as on the graph. (About the attribute weight, which keep_connected reads whatever edge_weight_attr is: false of others.)", "quantifier": "all graphs with numeric weights having an edge that is not a self loop, all sparsifiers, thresholds, learner options and near ties; the learner on undirected graphs", "why_tests_cant": "holds at every threshold and for every predicate at once, a few graphs at one threshold say nothing", "anchors": ["pelote/sparsification/utils.py: decorate_with_umst", "pelote/graph.py: union_of_maximum_spanning_trees", "pelote/learn.py"]}
{"id": "C95", "title": "Sparsifications are nested", "statement": "A stricter sparsification (higher threshold, or lower with reverse; smaller alpha; no keep_connected) keeps some of the edges kept by a looser one, in the same order. Sparsifying by a global threshold then by a stricter one is sparsifying by the stricter one at once, with keep_connected as well when weights are equal or more than 1e-8 apart.", "quantifier": "all graphs with numeric weights (simple and undirected with positive weights for the backbone), all pairs of thresholds or alphas, any arithmetic for the scores", "why_tests_cant": "relates two or three runs over all graphs; the spanning trees are recomputed on the smaller graph", "anchors": ["pelote/sparsification/global_threshold.py", "pelote/sparsification/multiscale_backbone.py", "pelote/sparsification/utils.py"]}
{"id": "C96", "title": "What a failed call leaves behind", "statement": "When remove_edges, remove_nodes or the remove method of a sparsifier raises, the error is the first one the predicate raises in the order of the graph, and the graph is unchanged; remove_leaves never raises. Flagging the multiscale backbone is all or nothing as well. With any other predicate (a global threshold on a graph lacking a weight), flagging that raises leaves exactly the flags of the edges listed before the one at fault. Flagging again with full=True gives the same result as on a graph that was never flagged; without it, older flags remain.", "quantifier": "for all graphs of the four kinds, predicates, options and errors", "why_tests_cant": "tests of errors check that something is raised, seldom what the graph looks like afterwards", "anchors": ["pelote/graph.py", "pelote/sparsification/utils.py", "pelote/sparsification/global_threshold.py", "pelote/sparsification/multiscale_backbone.py"]}
{"id": "C97", "title": "Similarities in floating point keep their order", "statement": "self_similarity_projection with doubles raises nothing and links the same nodes as with exact numbers; each weight is the double nearest to the exact Jaccard index of the two neighborhoods. On graphs of fewer than 2^51 nodes it is in (0, 1], with a relative error of at most 2^-53, and it is 1 exactly when the neighborhoods are the same. On graphs of fewer than 2^24 nodes one weight is less than another exactly when the exact indices are so: rounding creates no tie and inverts nothing. The same holds of the jaccard, dice and overlap metrics of monopartite_projection when nodes have fewer than 2^25 neighbors.", "quantifier": "for all directed graphs and depths; for all pairs of neighborhoods", "why_tests_cant": "the number of comparisons is quadratic in the number of pairs; ties and inversions by rounding happen in the last digit", "anchors": ["pelote/projection.py"]}
{"id": "C98", "title": "What adding one edge changes", "statement": "Adding an edge between two nodes of a graph that were not joined. Component orders: nothing changes inside a component, and joining two replaces their orders by the sum; the largest order is the larger of the former and that of the component of the edge. Triangular strength: the new edge has the number of neighbors common to its ends, the edges from its ends to these get one more, all the others keep theirs. Union of maximum spanning trees: the new edge is kept exactly when no path of heavier edges joins its ends; an edge kept before is dropped exactly when the new edge completes a path of heavier ones between its ends; no other edge appears; nothing is dropped if the edge joins two components, and nothing changes if it is not kept. Edge disparity: one entry more, and the edges that share no node with the new one keep theirs, whatever the rounding.", "quantifier": "for all graphs, of the four kinds where the function takes them, and all edges added", "why_tests_cant": "a relation between the answers on two graphs; a test compares answers to fixed values on one", "anchors": ["pelote/graph.py", "pelote/metrics/chiba_nishizeki.py", "pelote/sparsification/utils.py", "pelote/sparsification/multiscale_backbone.py"]}
{"id": "C99", "title": "What giving more weight to one edge changes", "statement": "Giving an edge of a simple undirected graph a weight no smaller than the one it had. Edge disparity: the score of the edge does not go up, and those of the other edges do not go down. Union of maximum spanning trees, global threshold and multiscale backbone, with or without keep_connected: the edge is kept if it was before, and no other edge that was dropped is kept.", "quantifier": "for all simple undirected graphs, edges and weights", "why_tests_cant": "a relation between the answers on two graphs; a test compares answers to fixed values on one", "anchors": ["pelote/metrics/edge_disparity.py", "pelote/graph.py", "pelote/sparsification/utils.py", "pelote/sparsification/multiscale_backbone.py", "pelote/sparsification/global_threshold.py"]}
{"id": "C100", "title": "What the weights of a projection mean together", "statement": "In the projection of a simple undirected bipartite graph, 1 minus the jaccard weight (1 when there is no link) is a distance: it satisfies the triangle inequality. (False of dice and overlap.) Without a metric the weights of the links of a node add up to the sum of d - 1 over the degrees d of its neighbors, and by dot product to the sum, over its neighbors, of the weight of its edge there times those of the other edges. Cosine weights do not change when the weights of all the edges of each kept node are multiplied by a positive number of its own, and are 1 exactly when both nodes have the same neighbors with proportional weights.", "quantifier": "for all simple undirected bipartite graphs and weights, in exact arithmetic", "why_tests_cant": "inequalities over all triples of nodes and identities over all graphs", "anchors": ["pelote/projection.py", "pelote/classes/online_metrics.py"]}
{"id": "C101", "title": "What union-find is like after a failed call", "statement": "Going on after the exceptions. A call on a UnionFind with an item out of range raises IndexError and changes nothing. A DisjointSet shown more items than its capacity raises IndexError on each one that does not fit and goes on answering about the others; a union that raises unites nothing, though it may take the last place for its first item; its capacity stays the number given. At the capacities of C04, the union that raises OverflowError unites nothing, but len is then one less than the number of classes. A negative item counts from the end as Python indices do, in every method; those below minus the capacity raise IndexError.", "quantifier": "for all capacities, histories of calls and integers", "why_tests_cant": "the histories are unbounded, and a program that catches an exception is rarely tested after it", "anchors": ["pelote/classes/union_find.py"]}
{"id": "C102", "title": "The order of the rows and columns of a table", "statement": "edges_table_to_graph and tables_to_graph: rows in another order give the same graph, as long as the rows of a node and those of an edge do not contradict one another (always so when no data is asked for); exchanging the source and target columns gives the same undirected graph, and the reverse of a directed one; two tables of edges one after the other give, when rows are counted, the sums of the weights, and otherwise the edges of the second in place of those of the first. table_to_bipartite_graph: rows in another order, or both parts exchanged, only change the numbers of the nodes; disjoint_keys, rightly given, only puts the values in place of the numbers; rows added at the end leave the nodes as they are, numbers included, and add up the weights.", "quantifier": "for all tables, options and permutations of the rows", "why_tests_cant": "the number of permutations; a relation between the answers on two tables", "anchors": ["pelote/tabular_to_graph.py"]}
{"id": "C103", "title": "Modifying a graph in a loop over its relevant or redundant edges", "statement": "relevant_edges and redundant_edges of a sparsifier do not list the edges first. A loop over them may modify the attributes of the edges it was given, and any attribute when the sparsifier is the multiscale backbone (with or without keep_connected): the edges that come out are those of a listing made first. A loop that adds or removes edges, so that the first end of the edge it was just given has another number of neighbors, gets RuntimeError at the next step. So a loop removing each redundant edge in turn removes the first one only, then raises. (With a global threshold, a weight modified before its turn counts.)", "quantifier": "for all simple graphs, predicates and loops", "why_tests_cant": "the loop is any program; what Python does when a dict is modified during its iteration depends on the state of the iteration", "anchors": ["pelote/sparsification/utils.py", "pelote/sparsification/global_threshold.py", "pelote/sparsification/multiscale_backbone.py"]}
{"id": "C104", "title": "Units that are powers of two of each other", "statement": "In floating point, expressing the weights in a unit 2, 4, 8, ... times smaller changes nothing, as long as no sum overflows: edge_disparity returns the very same floats in the same order, or raises the same exception, and multiscale_backbone without keep_connected keeps the same edges; whether sum adds floats up one after the other or compensates its errors (Python 3.12). (False of other factors: with all weights multiplied by 3, the heaviest edge may leave the backbone.) In exact arithmetic the same stands of any unit, nodes whose weights cancel out included.", "quantifier": "for all graphs, weights and powers of two", "why_tests_cant": "a relation between the answers on two graphs, for all floats", "anchors": ["pelote/metrics/edge_disparity.py", "pelote/sparsification/multiscale_backbone.py"]}
{"id": "C105", "title": "Overflow in edge disparity", "statement": "With weights that are positive floats, edge_disparity never raises OverflowError and never gives inf or NaN. If no node has a strength above 2**1023 (and no degree is above 2**52, or 2**24 from Python 3.12 on) nothing overflows, the scores being those of floats without a largest exponent. Otherwise, seen from a node the strength of which overflows every edge gets the score 1, that of the least significant edges, whatever its weight, and the scores seen from other nodes are the usual ones; up to Python 3.11 a strength overflows when the weights of the node, added up one after the other, reach 2**1024, and from 3.12 on (degrees at most 2**24) never unless it is above 2**1023. (So a backbone may lose its heaviest edges: two edges of weight 2**1023 and one of weight 1 at a node.)", "quantifier": "for all graphs and all positive float weights", "why_tests_cant": "overflow is met at weights nobody writes tests for, and depends on sums of any length", "anchors": ["pelote/metrics/edge_disparity.py", "pelote/sparsification/multiscale_backbone.py"]}
{"id": "C106", "title": "What one more edge changes in a projection", "statement": "Adding to a bipartite graph an edge between a node a of the part to keep and a node t out of it changes, in monopartite_projection, the links of a only: the nodes, and the links between other nodes with their weights, stay, whatever the metric and the threshold. Without a threshold: a gets linked to the other neighbors of t and loses no link. Without a metric the links of a to the other neighbors of t gain 1 and its other links stay; by dot_product they gain the product of the two weights. By jaccard, dice and overlap, floats included, a link of a to another neighbor of t does not lose weight and its other links do not gain any; without rounding the same stands of binary_cosine and pmi, and the change is strict except by overlap, and for gains by pmi. (False of cosine: two nodes may become less similar by sharing one more neighbor.)", "quantifier": "for all bipartite graphs, added edges, metrics and thresholds", "why_tests_cant": "a relation between the answers on two graphs", "anchors": ["pelote/projection.py", "pelote/classes/online_metrics.py"]}
{"id": "C107", "title": "Infinite, NaN and huge weights in a projection", "statement": "monopartite_projection on a list of nodes, by cosine or dot_product, with weights that are any floats. By dot_product nothing is raised, and links weigh the sum of the products, be it an infinity or NaN. By cosine nothing is raised but KeyError, exactly when a node that has a NaN weight, or all of whose weights have squares that underflow to 0, shares a neighbor with a node of lesser label that is not such a node; when it does not raise, a node with a NaN weight has no link. A node that has an infinite weight, or the squares of the weights of which add up to 2**1024 or more, has the similarity 0 with every node, or NaN if their dot product is not a number. NaN links pass every weight_threshold, 0 ones none; a NaN weight_threshold is accepted and drops nothing. With weights up to 2**499 and up to 2**23 neighbors nothing overflows. (So two parallel vectors of weights 2**700 and 1 get the similarity 0, and two of weight 2**700 a NaN that is kept with any threshold.)", "quantifier": "for all bipartite graphs and all float weights", "why_tests_cant": "weights nobody writes tests for; whether it raises depends on the order of the labels", "anchors": ["pelote/projection.py", "pelote/classes/online_metrics.py"]}
{"id": "C108", "title": "The direction of the edges", "statement": "Turning some edges of a graph round, or all, or forgetting their direction (an undirected graph or multigraph with the same nodes in the same order and the same edges) does not change: the triangles; triangular_strength; the set returned by largest_connected_component; the edges of union_of_maximum_spanning_trees but for their direction, and whether it raises. crop_to_largest_connected_component, remove_nodes, remove_leaves (any number of times), filter_edges, remove_edges (on graphs without parallel edges) by a predicate that does not look at the direction, and global_threshold_sparsification without keep_connected leave graphs that differ in the same way only. With keep_connected this holds when every edge of a directed graph is turned round. (False of keep_connected when some only are: two edges between two nodes are both kept when they go the same way, the heavier one only when they do not. False of connected_component_orders and largest_connected_component_order, which follow the edges in their direction.)", "quantifier": "for all pairs of graphs of any kinds that differ by the direction and the order of their edges", "why_tests_cant": "a relation between the answers on two graphs", "anchors": ["pelote/graph.py", "pelote/metrics/chiba_nishizeki.py", "pelote/sparsification/global_threshold.py", "pelote/sparsification/utils.py"]}
{"id": "C109", "title": "The statistical test of the multiscale backbone", "statement": "The simplified formula in the documentation of edge_disparity equals the integral of the article. The score of an edge is the least, over its two ends, of the probability that a share of the strength of the end, cut uniformly at random into as many shares as the end has edges, is at least the weight of the edge (with reverse, the greatest of 1 minus these probabilities). multiscale_backbone without keep_connected keeps exactly the edges for which one of these two p-values is at most alpha. If the strength of a node is drawn from this null model, a given edge of the node has at this node a p-value of at most alpha with probability exactly alpha, whatever the degree (from 2) and the strength, and never if it is the only edge of the node; but the edge as a whole, tested at two independent ends of degree 2 or more, is kept with probability 1 - (1 - alpha)^2.", "quantifier": "for all graphs with positive real weights, all alpha in [0, 1), all degrees and strengths", "why_tests_cant": "a probability over a continuum of weights, for every degree", "anchors": ["pelote/metrics/edge_disparity.py", "pelote/sparsification/multiscale_backbone.py"]}
{"id": "C110", "title": "How many edges the multiscale backbone keeps", "statement": "For 0 <= alpha < 1 and positive weights, multiscale_backbone without keep_connected keeps exactly the edges that have at least the part 1 - alpha ** (1 / (k - 1)) of the strength of one of their ends, of degree k >= 2. For 0 < alpha, each node of degree k >= 2 accounts for at most 1 + (k - 1) / log(1 / alpha) of them, hence on a graph of n nodes and m edges the backbone has at most n + (2m - n) / log(1 / alpha) edges if alpha <= 1/e: about two thirds of n + m for the default alpha. If all weights are equal, the score of an edge is (1 - 1/k) ** (k - 1), where k is the greater degree of its ends, always more than 1/e, so that the backbone has no edge for alpha <= 1/e.", "quantifier": "for all simple undirected graphs with positive weights and all levels", "why_tests_cant": "a bound on the size of the result for every graph", "anchors": ["pelote/metrics/edge_disparity.py", "pelote/sparsification/multiscale_backbone.py"]}
{"id": "C111", "title": "The cost of a monopartite projection", "statement": "The number of neighbors of neighbors met by monopartite_projection on an undirected graph is at most the sum, over all nodes, of their number of neighbors times the number of those that are in the part, whatever the metric and whether it raises or not; on a bipartite graph, the sum of the squares of the degrees of the nodes out of the part, hence at most the number of edges times the largest of these degrees. When it returns, and except by cosine, these numbers are met exactly: a single node of degree d out of the part costs d ** 2, and m edges to q nodes out of the part cost at least m ** 2 / q. Similarities are accumulated once for each pair of neighbors of each node out of the part, d (d - 1) / 2 for a node of degree d, and the projection has no more edges than that.", "quantifier": "for all undirected graphs, parts, metrics and thresholds, all executions", "why_tests_cant": "a bound on the work done and on the size of the result for every graph", "anchors": ["pelote/projection.py", "pelote/classes/online_metrics.py"]}
{"id": "C112", "title": "Integer weights of any size", "statement": "When all weights are Python integers, of any size (even too large for a float): edge_disparity never raises on positive weights, its scores are between 0 and 1, and the strengths it uses are exact (only quotients, differences and powers are rounded); multiplying all weights by an integer other than 0 changes no score, no exception and no edge of multiscale_backbone, exactly; monopartite_projection by dot product never raises and its weights are exact. By cosine, it raises OverflowError exactly when the sum of the squares of the weights of a node of the part is at least 2 ** 1024 - 2 ** 970; otherwise KeyError if a node all weights of which are 0 shares a neighbor with a node of lesser label that has another weight; otherwise, if no node of the part has only weights 0, the similarity is the cosine up to a relative error of 7 / 2 ** 52 and an absolute error of 2 ** -1075, has the right sign, and is never infinite nor NaN. (The same numbers given as floats can give another backbone, infinite or NaN similarities instead of exact ones or of OverflowError.)", "quantifier": "for all simple undirected graphs with integer weights", "why_tests_cant": "integers of unbounded size, where the rounding of floats and overflows depend on exact boundaries", "anchors": ["pelote/metrics/edge_disparity.py", "pelote/projection.py", "pelote/classes/online_metrics.py"]}
{"id": "C113", "title": "Equal cells and missing values in a table", "statement": "table_to_bipartite_graph (keys not declared disjoint, no data collected) makes one node for each column and each class of cells of the column that Python takes for equal: 1, 1.0 and True are one node, whose label is the text of the first one met; None cells are one node of label 'None'; NaN cells are one node for each object, all of label 'nan'. Two nodes of different columns are linked if some rows have cells of both classes, and the weight counts these rows. Cells replaced by equal cells with the same texts give the very same graph. A cell that cannot be a dict key makes it raise TypeError. (Hence the number of nodes of a table with missing values depends on how they were made: three float('nan') are three nodes, the same numpy.nan three times is one.)", "quantifier": "for all tables of two columns of numbers, strings, None, NaN, infinities and other objects", "why_tests_cant": "classes of equal objects of any number and order of appearance", "anchors": ["pelote/tabular_to_graph.py", "pelote/classes/incremental_id_register.py"]}
{"id": "C114", "title": "Similarities are kernels", "statement": "Without threshold and up to rounding, the weights given by monopartite_projection with metric jaccard, dice, binary_cosine, cosine, dot_product or none are those of a kernel: for any coefficients x on the nodes of the result, the sum over all ordered pairs of x(u) x(v) weight(u, v) is not negative, where weight is 0 between nodes that are not linked and, from a node to itself, 1 for jaccard, dice and the cosines, the number of neighbors without metric, the sum of the squares of the weights for dot_product. Hence for jaccard, dice and the cosines the square root of 1 - weight satisfies the triangle inequality, so that the result can be given to a kernel method or embedded. With floats, the sum above by jaccard or dice is at least -2 ** -53 times the square of the sum of the absolute values of the coefficients. This is false with overlap, and false as soon as a threshold is given.", "quantifier": "for all bipartite graphs, weights of any sign and coefficients", "why_tests_cant": "a property of all the weights at once, on graphs of any size", "anchors": ["pelote/projection.py", "pelote/classes/online_metrics.py"]}
{"id": "C115", "title": "How much noise the multiscale backbone keeps", "statement": "On a graph of given edges and random positive weights, the expected number of edges of the multiscale backbone is the sum of the probabilities that the edges are significant at one of their ends. If each edge is significant at each of its ends with probability at most alpha, as under the null model of the article, the backbone keeps at most 2 * alpha of the edges on average (and not alpha). On a star whose strength is cut at random into the weights of its edges, it keeps alpha times the number of edges on average, exactly, whatever the strength and the number of edges (two or more).", "quantifier": "for all simple undirected graphs, laws of the weights and alpha in [0, 1)", "why_tests_cant": "an expectation over a continuum of graphs", "anchors": ["pelote/sparsification/multiscale_backbone.py", "pelote/metrics/edge_disparity.py"]}
{"id": "C116", "title": "Pointwise mutual information and thresholds", "statement": "The weights of a projection by pmi are the textbook values all lowered by the same amount, the logarithm of the number of nodes they are drawn from, hence ranked as they should; none is above 0, nor above minus the logarithm of the larger number of neighbors of the two nodes, which is reached exactly when one node has all the neighbors of the other. As a threshold has to be above 0, none works with pmi: it raises TypeError or leaves the nodes of the part without any edge, also with doubles. edge_disparity of the projection by pmi raises ZeroDivisionError exactly when some node of the other part has several neighbors, none of which has another neighbor; otherwise it returns.", "quantifier": "for all simple undirected bipartite graphs, parts and thresholds", "why_tests_cant": "tests use a few graphs without threshold", "anchors": ["pelote/projection.py", "pelote/classes/online_metrics.py", "pelote/metrics/edge_disparity.py"]}
{"id": "C117", "title": "The backbone of a projection", "statement": "The multiscale backbone of a projection (any metric but pmi; with cosine and dot_product for weights above 0) never raises, has the nodes of the part, and links two of them exactly when they share a neighbor and (1 - s / S) ** (k - 1) is at most alpha for one of them, where s is their similarity, k the number of nodes with which that node shares a neighbor and S the sum of the similarities with these. Without a metric, S is the sum over the neighbors of the node of their degrees minus 1. In particular, if no two nodes share more than one neighbor, the backbone of the projection without metric has no edge at all for every alpha up to 1 / e.", "quantifier": "for all simple undirected bipartite graphs, parts, metrics and alpha", "why_tests_cant": "composition of two functions over all graphs", "anchors": ["pelote/projection.py", "pelote/classes/online_metrics.py", "pelote/sparsification/multiscale_backbone.py", "pelote/metrics/edge_disparity.py"]}
{"id": "C118", "title": "Components of a projection", "statement": "Whatever the metric, two nodes of the part are in the same connected component of the projection without threshold exactly when they are in the same component of the bipartite graph, so connected_component_orders of the projection gives the number of nodes of the part in each component of the bipartite graph that has one. If no node is isolated, the projections onto both parts have as many components. The multiscale backbone of the projection with keep_connected has these components as well, for every alpha. With a threshold none of this holds.", "quantifier": "for all simple undirected bipartite graphs, parts, metrics and alpha", "why_tests_cant": "composition of functions over all graphs", "anchors": ["pelote/projection.py", "pelote/graph.py", "pelote/sparsification/multiscale_backbone.py", "pelote/sparsification/utils.py"]}
{"id": "C119", "title": "Triangles of a projection", "statement": "In a projection without threshold, whatever the metric, triangular_strength with full=True gives each link the number of other nodes sharing a neighbor with both of its ends, which is at least the number of other neighbors of any neighbor the two ends share. Its triangles are the sets of three nodes of the part any two of which share a neighbor, so a node of the other part with k neighbors alone gives k(k-1)(k-2)/6 triangles.", "quantifier": "for all simple undirected bipartite graphs, parts and metrics", "why_tests_cant": "composition of functions over all graphs", "anchors": ["pelote/projection.py", "pelote/metrics/chiba_nishizeki.py"]}
{"id": "C120", "title": "What the threshold learner learns", "statement": "On a connected weighted graph with at least two nodes and with a drifter limit of at most 1, floatsam_threshold_learner learns the bottleneck B of the graph (the largest weight such that the edges at least as heavy connect it) up to the learning rate: the threshold t returned satisfies t <= B < t + learning_rate, the edges of weight at least t connect the graph and those of weight at least t + learning_rate do not. It runs floor((B - start) / learning_rate) + 1 epochs, each of which walks through the whole graph: 100001 for an edge of weight 1000 with the default rate. With rounding, it returns the threshold before the first one above B. On a graph which is not connected it returns the starting threshold after one epoch.", "quantifier": "for all simple or multi undirected weighted graphs, starting thresholds at most B, positive learning rates and callbacks that do not raise", "why_tests_cant": "number of epochs and result of a loop over all graphs and parameters", "anchors": ["pelote/learn.py"]}
{"id": "C121", "title": "When keep_connected matters", "statement": "With weights read from \"weight\", keep_connected makes no difference to global_threshold_sparsification exactly when the edges reaching the threshold link all the nodes that the edges of the graph link. On a connected graph this is when the threshold is at most the bottleneck of the graph (the largest weight such that the edges at least as heavy connect it): with a threshold given by floatsam_threshold_learner with a limit of at most 1 it makes no difference, and one learning rate above it does.", "quantifier": "for all simple graphs whose weights are equal or more than 1e-8 apart, all thresholds, starting thresholds and positive learning rates", "why_tests_cant": "composition of functions over all graphs and thresholds", "anchors": ["pelote/sparsification/global_threshold.py", "pelote/sparsification/utils.py", "pelote/graph.py", "pelote/learn.py"]}
{"id": "C122", "title": "Leaves count for nothing in triangles and spanning trees", "statement": "However many times remove_leaves is called, the triangles of the graph stay the same, triangular_strength gives the same dict, and with full=True only entries of removed edges go, which are all 0. The edges given by union_of_maximum_spanning_trees are those it gives on the graph without its leaves, and every edge of a leaf.", "quantifier": "for all graphs; for the spanning trees, all graphs whose weights are equal or more than 1e-8 apart", "why_tests_cant": "composition of functions over all graphs and numbers of calls", "anchors": ["pelote/graph.py", "pelote/metrics/chiba_nishizeki.py"]}
{"id": "C123", "title": "How many edges the spanning trees have", "statement": "union_of_maximum_spanning_trees gives at least n - c edges, where n is the number of nodes and c the number of connected components, and exactly n - c when the graph has a single maximum spanning forest, which is the case when no two edges other than self loops have the same weight. Then global_threshold_sparsification with keep_connected and a threshold above all the weights leaves exactly a maximum spanning forest.", "quantifier": "for all graphs whose weights are equal or more than 1e-8 apart", "why_tests_cant": "counting over all graphs", "anchors": ["pelote/graph.py", "pelote/sparsification/utils.py", "pelote/sparsification/global_threshold.py"]}
{"id": "C124", "title": "The learned threshold, from the spanning trees", "statement": "On a connected graph, the greatest threshold leaving the graph connected is the least weight of the edges given by union_of_maximum_spanning_trees. So floatsam with a max_drifter_order of at most 1 (the default one up to seven nodes) gives the last of the thresholds tried not above that least weight.", "quantifier": "for all connected undirected graphs of at least two nodes whose weights are equal or more than 1e-8 apart, all starting thresholds not above the least weight and all positive learning rates", "why_tests_cant": "relates two algorithms over all graphs", "anchors": ["pelote/learn.py", "pelote/graph.py"]}
{"id": "C125", "title": "Triangles of a sparsified or cropped graph", "statement": "The triangles of the graph given by global_threshold_sparsification or multiscale_backbone are the sets of three nodes joined two by two by edges that are kept, and triangular_strength has no new pair and no greater strength on it. crop_to_largest_connected_component leaves exactly the triangles with a node in the component kept, and triangular_strength gives the same strengths to the pairs of nodes left.", "quantifier": "for all graphs, thresholds and levels, with and without keep_connected", "why_tests_cant": "composition of functions over all graphs", "anchors": ["pelote/graph.py", "pelote/metrics/chiba_nishizeki.py", "pelote/sparsification/global_threshold.py", "pelote/sparsification/multiscale_backbone.py"]}
{"id": "C126", "title": "Self similarity and bipartite projections", "statement": "self_similarity_projection of depth 1 links the same nodes as monopartite_projection with the jaccard metric does on the bipartite graph that links each node to its links with other nodes, told apart by direction. Two nodes without link between them have the same weight in both; two nodes with k links between them and i neighbors in common out of n have the weight i / (n - 2k), greater than the i / n of the bipartite projection.", "quantifier": "for all directed graphs, and all namings of the nodes of the bipartite graph", "why_tests_cant": "relates two algorithms over all graphs (a TODO of the code asks for it)", "anchors": ["pelote/projection.py"]}
{"id": "C127", "title": "Self similarity and the direction of the links", "statement": "Reversing every link of a directed graph leaves self_similarity_projection as it is, at any depth: nodes with similar successors and nodes with similar predecessors play the same part. In the projection of depth 1, the nodes with a link to a third one are linked two by two, and so are the nodes with a link from it.", "quantifier": "for all directed graphs and all depths", "why_tests_cant": "relates two runs over all graphs; tests only have a graph and a depth or two", "anchors": ["pelote/projection.py"]}
{"id": "C128", "title": "The depth of the self similarity", "statement": "A greater depth keeps every link of self_similarity_projection, and may add some. With a depth of 0 or less there is no link. From the number of nodes minus 1 on, the depth changes nothing, neither the links nor the weights.", "quantifier": "for all directed graphs and all depths", "why_tests_cant": "relates runs with different depths over all graphs", "anchors": ["pelote/projection.py"]}
{"id": "C129", "title": "Self similarity as a distance", "statement": "In a self_similarity_projection, 1 minus the weight (1 between nodes that are not linked) is a distance, as with the jaccard metric of monopartite_projection: it satisfies the triangle inequality.", "quantifier": "for all directed graphs, depths and triples of nodes", "why_tests_cant": "quantifies over all graphs; needs the geometry of the jaccard index", "anchors": ["pelote/projection.py"]}
{"id": "C130", "title": "The projections on both parts", "statement": "In the two projections of a bipartite graph on its parts, without metric, the sum of x(x - 1)/2 over the weights x of the links is the same, the number of cycles of four nodes of the bipartite graph. In particular all weights are 1 in one exactly when they are in the other. By dot_product, the sum over the links of twice the square of their weight, plus the sum over the nodes of the square of the sum of the squares of the weights of their edges, is the same in the two.", "quantifier": "for all simple undirected bipartite graphs and all ways to give the parts", "why_tests_cant": "relates two runs over all graphs, by double counting", "anchors": ["pelote/projection.py"]}
{"id": "C131", "title": "Components by union-find and by traversal", "statement": "When the structure does not overflow (C04), uniting the ends of the edges of an undirected graph, in any order, in a DisjointSet of as many items as there are nodes finds the components that connected_component_orders finds: the cardinality of each node is then the order of its component, and the length of the set is the number of orders yielded.", "quantifier": "for all undirected graphs (multigraphs too) and all orders of their edges", "why_tests_cant": "relates two algorithms over all graphs", "anchors": ["pelote/classes/union_find.py", "pelote/graph.py"]}
{"id": "C132", "title": "Triangles and bridges", "statement": "An edge that triangular_strength lists with a positive number can be removed with remove_edges without breaking any component: the same nodes remain linked and connected_component_orders yields the same orders. An edge whose removal separates nodes is therefore listed with 0 when full is set, and not listed otherwise. More generally the ends of an edge listed with n remain linked when n edges or fewer are removed, whichever they are.", "quantifier": "for all simple graphs, directed or not, with comparable nodes, all edges and all sets of edges removed", "why_tests_cant": "relates three functions over all graphs", "anchors": ["pelote/graph.py", "pelote/metrics/chiba_nishizeki.py"]}
{"id": "C133", "title": "The spanning trees around a node and in a triangle", "statement": "union_of_maximum_spanning_trees keeps the strongest edges of every node: an edge between two nodes is yielded when no edge from one of the two to another node outweighs it, whatever the weights, and so it stays in the graph whenever a sparsification with keep_connected filters it. It keeps every bridge (an edge without which its ends are not linked). Conversely, when weights are equal or more than 1e-8 apart, an edge lighter than each of the two other edges of a triangle is never yielded.", "quantifier": "for all graphs, directed or not and with parallel edges or not, with numeric weights and of an order at which the structure does not overflow (C25)", "why_tests_cant": "a universal statement on the outcome of a greedy algorithm, over all graphs and weights", "anchors": ["pelote/graph.py"]}
{"id": "C134", "title": "The strengths of the nodes of a table", "statement": "In the graph made by table_to_bipartite_graph, the weights of the edges of a node add up to the number of rows that have its value in its column. In the graph made by edges_table_to_graph or tables_to_graph with count_rows_as_weight they add up to the number of rows where the node is found at either end, or, for a directed graph, as source (edges from the node) and as target (edges to it).", "quantifier": "every table accepted, unless disjoint_keys is wrongly set", "why_tests_cant": "an identity over all tables", "anchors": ["pelote/tabular_to_graph.py: table_to_bipartite_graph, edges_table_to_graph, tables_to_graph"]}
