{"id": "C01", "title": "Edge operations refine a set of unordered pairs", "statement": "Starting from a graph without edges, after any sequence of add_edge / remove_edge calls on pairs of distinct existing vertices, the results returned so far (Ok / EdgeExists / EdgeDoesNotExist), is_adjacent on every pair, edge_count and every degree are exactly those of a mathematical set of unordered pairs on which the same insert/delete calls were made.", "quantifier": "every vertex count, every finite history of add_edge/remove_edge calls, for every container type (Node, Sw, Ws, Spacial)", "why_tests_cant": "The order of every adjacency list depends on the whole history (push and swap_remove), so infinitely many histories lead to different internal states; tests try a few.", "anchors": ["src/generic_graph/generic_graph.rs: add_edge, remove_edge, edge_count, degree", "src/graph.rs: NodeContainer::push/remove/swap_remove_element/is_adjacent", "src/sw_graph.rs: SwContainer::push/remove", "src/watts_strogatz/ws_container.rs: push/remove", "src/spacial/spacial_graph.rs: push/remove"]}
{"id": "C02", "title": "Every public topology operation preserves the simple-graph representation", "statement": "add_edge, remove_edge, clear_edges, init_ring, sort_adj, shuffle_adj, the conversions and every ensemble operation keep the graph a simple undirected graph: neighbour lists mention only existing vertices, are duplicate free, never contain the vertex itself, are symmetric, vertex i carries id i, and the degrees sum to twice edge_count.", "quantifier": "every representable graph satisfying it and every public operation with any arguments on which the operation does not panic", "why_tests_cant": "It is an invariant over unbounded histories; a test inspects the invariant only at the end of a few histories.", "anchors": ["src/generic_graph/generic_graph.rs: GenericGraph and all &mut methods", "src/graph.rs: NodeContainer", "src/sw_graph.rs: SwContainer", "src/watts_strogatz/ws_container.rs: WSContainer", "src/spacial/spacial_graph.rs: SpacialNodeContainer"]}
{"id": "C03", "title": "Failed edge operations change nothing", "statement": "When add_edge returns EdgeExists or remove_edge returns EdgeDoesNotExist the graph is identical to the graph before (same lists, same order, same edge_count, same data); add_edge fails exactly when the edge is present and remove_edge exactly when it is absent; out-of-range or equal indices never return normally (debug build).", "quantifier": "every valid graph, every pair of indices", "why_tests_cant": "Needs all graphs and all index pairs, including the partially executed two-sided update.", "anchors": ["src/generic_graph/generic_graph.rs: add_edge, remove_edge, get_2_mut", "src/graph.rs: NodeContainer::push, remove"]}
{"id": "C04", "title": "remove_edge after add_edge restores the graph; order of additions is irrelevant", "statement": "If add_edge(i,j) succeeds then remove_edge(i,j) (or (j,i)) succeeds and gives back the previous edge set and edge_count, and vice versa; two successful edit sequences with the same net edge set give graphs with equal adjacency relations, degrees and edge_count.", "quantifier": "every valid graph, every pair i != j, both argument orders", "why_tests_cant": "Swap-removal permutes lists, equality is only up to order; tests compare single examples.", "anchors": ["src/generic_graph/generic_graph.rs: add_edge, remove_edge", "src/graph.rs: swap_remove_element"]}
{"id": "C05", "title": "Topology edits never touch stored data and vice versa", "statement": "The data stored at the vertices (at, contained) is unchanged by add_edge, remove_edge, clear_edges, init_ring, sort_adj, shuffle_adj and by Markov steps; writing data through at_mut leaves neighbours, degrees and edge_count unchanged.", "quantifier": "every valid graph, every operation, every payload", "why_tests_cant": "Frame property over all states and operations.", "anchors": ["src/generic_graph/generic_graph.rs: at, at_mut, add_edge, remove_edge, clear_edges, sort_adj, shuffle_adj", "src/graph.rs: NodeContainer"]}
{"id": "C06", "title": "clear_edges yields the edgeless graph", "statement": "After clear_edges every degree is 0, edge_count is 0 and the vertex count and data are unchanged, for every graph reachable through the API - although the implementation skips all work when edge_count is 0.", "quantifier": "every valid graph", "why_tests_cant": "The shortcut is only right because of the edge_count invariant, which depends on every previous call.", "anchors": ["src/generic_graph/generic_graph.rs: clear_edges"]}
{"id": "C07", "title": "init_ring builds exactly the d-neighbour ring", "statement": "For n >= 2d+1 vertices init_ring(d) succeeds, i and j are adjacent iff i != j and their circular distance is at most d, edge_count is n*d and every degree is 2d, whatever edges existed before; for 1 <= n <= 2d, d>=1 it does not succeed.", "quantifier": "every n, every d, every previous edge set", "why_tests_cant": "Unbounded in n and d with a wrap-around index.", "anchors": ["src/generic_graph/generic_graph.rs: init_ring", "src/sw_graph.rs: init_ring_2", "src/watts_strogatz/ensemble.rs: WattsStrogatz new"]}
{"id": "C08", "title": "complete_graph is complete", "statement": "For n >= 1 complete_graph(n) has n vertices, every two distinct vertices are adjacent, edge_count = n(n-1)/2 and it satisfies the representation invariant (so it can be edited afterwards like any other graph). complete_graph(0) panics in a debug build.", "quantifier": "every n", "why_tests_cant": "All n.", "anchors": ["src/graph.rs: complete_graph"]}
{"id": "C09", "title": "sort_adj and shuffle_adj keep the topology", "statement": "sort_adj leaves the same adjacency relation, edge_count and data and makes each neighbour list ascending; shuffle_adj, for every random permutation, leaves adjacency relation, edge_count and data unchanged. For SwGraph the root information, and for the Watts-Strogatz container the origin information, stays attached to the same edge.", "quantifier": "every valid graph, every permutation the rng could pick, all containers", "why_tests_cant": "All permutations and all graphs.", "anchors": ["src/generic_graph/generic_graph.rs: sort_adj, shuffle_adj", "src/graph.rs: sort_adj", "src/sw_graph.rs: sort_adj", "src/watts_strogatz/ws_container.rs: sort_adj, shuffle_adj"]}
{"id": "C10", "title": "Depth first search visits exactly the component", "statement": "dfs / dfs_index / dfs_mut from a vertex terminate, yield every vertex reachable from it exactly once and nothing else, the start first; each later vertex is adjacent to an earlier yielded one; a start index out of range yields nothing; the three variants agree on the order.", "quantifier": "every valid graph, every start index", "why_tests_cant": "All graphs and all adjacency orders.", "anchors": ["src/generic_graph/iterators.rs: Dfs, DfsMut, DfsWithIndex", "src/generic_graph/generic_graph.rs: dfs, dfs_index, dfs_mut"]}
{"id": "C11", "title": "Breadth first search yields exact shortest-path distances in order", "statement": "bfs_index_depth (and the _mut version) from v terminates, yields each vertex reachable from v exactly once, paired with its exact shortest path distance from v, in non-decreasing distance; an out of range start yields nothing.", "quantifier": "every valid graph, every start index", "why_tests_cant": "All graphs; distance minimality is a statement over all paths.", "anchors": ["src/generic_graph/iterators.rs: Bfs, BfsMut", "src/generic_graph/generic_graph.rs: bfs_index_depth, bfs_index_depth_mut"]}
{"id": "C12", "title": "Reusing a BFS iterator equals a fresh one", "statement": "After consuming any number of items of a Bfs iterator, reuse(j) makes it yield exactly what a new bfs_index_depth(j) would yield; same for the dual graph BFS.", "quantifier": "every graph, every start, every number of items consumed, every new start", "why_tests_cant": "All interruption points.", "anchors": ["src/generic_graph/iterators.rs: Bfs::reuse", "src/dual_graph/dual_graph_iterators.rs: BfsDualIndex::reuse"]}
{"id": "C13", "title": "Filtered BFS explores exactly the filtered component", "statement": "bfs_filtered(v, f) is None iff v is out of range or f rejects v; otherwise it yields each vertex reachable from v through accepted vertices exactly once with its distance in the subgraph induced by the accepted vertices. After any number of next calls is_handled(j) is, for an accepted j, true iff j is the start, was yielded or is adjacent to a yielded vertex; it is true for every rejected j and panics iff j is out of range.", "quantifier": "every valid graph, every predicate, every start", "why_tests_cant": "All graphs and predicates.", "anchors": ["src/generic_graph/iterators.rs: BfsFiltered", "src/generic_graph/generic_graph.rs: bfs_filtered", "src/generic_graph/iterators.rs: BfsFiltered::is_handled"]}
{"id": "C14", "title": "Reusing a filtered BFS equals a fresh one", "statement": "BfsFiltered::reuse(j, f) behaves as bfs_filtered(j, f): Err exactly when j is out of range or rejected, otherwise the same sequence as a fresh filtered BFS. (The code violates this: the filter is discarded on reuse and j == vertex_count panics.)", "quantifier": "every graph, start, predicate and interruption point", "why_tests_cant": "All graphs, predicates and interruption points.", "anchors": ["src/generic_graph/iterators.rs: BfsFiltered::reuse"]}
{"id": "C15", "title": "is_connected decides connectivity", "statement": "is_connected is None exactly for the graph without vertices, Some(true) exactly if every two vertices are joined by a path, else Some(false).", "quantifier": "every valid graph", "why_tests_cant": "All graphs.", "anchors": ["src/generic_graph/generic_graph.rs: is_connected"]}
{"id": "C16", "title": "Component labels characterise reachability", "statement": "connected_components_ids returns k and a label for every vertex; labels are exactly 0..k-1 and two vertices get the same label iff a path joins them; k is the number of components. Components are numbered in the order of their smallest vertices.", "quantifier": "every valid graph", "why_tests_cant": "All graphs.", "anchors": ["src/generic_graph/generic_graph.rs: connected_components_ids"]}
{"id": "C17", "title": "Component sizes", "statement": "connected_components returns, in descending order, exactly the sizes of all connected components; they are positive and sum to vertex_count.", "quantifier": "every valid graph", "why_tests_cant": "All graphs.", "anchors": ["src/generic_graph/generic_graph.rs: connected_components"]}
{"id": "C18", "title": "diameter is the longest shortest path", "statement": "diameter is None for an empty or disconnected graph, otherwise the maximum over all pairs of vertices of their shortest path distance (although vertex 0 is never used as a start).", "quantifier": "every valid graph", "why_tests_cant": "All graphs; the skipped start vertex is only sound because of symmetry.", "anchors": ["src/generic_graph/generic_graph.rs: diameter"]}
{"id": "C19", "title": "longest_shortest_path_from_index is the eccentricity in the component", "statement": "longest_shortest_path_from_index(v) is None iff v is out of range, else the maximum shortest path distance from v to any vertex reachable from v.", "quantifier": "every valid graph, every index", "why_tests_cant": "All graphs.", "anchors": ["src/generic_graph/generic_graph.rs: longest_shortest_path_from_index"]}
{"id": "C20", "title": "q_core computes the largest connected piece of the q-core", "statement": "q_core(q) is None iff q < 2 or there is no vertex. Otherwise it is the size of the largest connected component of the (unique, maximal) set of vertices in which each vertex has at least q neighbours inside the set, 0 if that set is empty. The documentation's 'biggest possible set' is contradicted for a q-core with several components.", "quantifier": "every valid graph, every q", "why_tests_cant": "Maximality is a statement about all vertex subsets.", "anchors": ["src/generic_graph/generic_graph.rs: q_core"]}
{"id": "C21", "title": "Biconnected component sizes", "statement": "vertex_biconnected_components(false) returns in descending order the vertex counts of the blocks (maximal vertex sets that stay connected after removing any one vertex, at least one edge); with true the entries 2 are removed. (The code violates this for some graphs: depth numbers make it mix edges of neighbouring blocks.) True for all graphs and adjacency orders: it terminates without panic, the result is descending, it has exactly one entry per block, every entry is at least 2, every edge is assigned to exactly one entry, `true` equals `false` with all entries <= 2 dropped; the sizes are right if there is only one block and if all blocks are single edges (forests). For all graphs the entries sum to at least the sum of the block sizes, the latter is vertex_count + number of entries - number of connected components, and the result is right exactly if its sum equals this number, so a caller can detect a wrong result: r.iter().sum() + connected_components().len() == vertex_count() + r.len(). The first entry, which the crate documentation uses as the size of the largest block, can be too small and too large.", "quantifier": "every valid graph, every adjacency order", "why_tests_cant": "All graphs and adjacency orders.", "anchors": ["src/generic_graph/generic_graph.rs: vertex_biconnected_components"]}
{"id": "C22", "title": "vertex_load distributes shortest path flow and conserves it", "statement": "In exact arithmetic vertex_load(true)[v] is the sum over all sources s != v that reach v of the flow through v, where each vertex receives 1 plus from each successor on a shortest path the successor's flow divided by its number of shortest-path predecessors; vertex_load(false)[v] is that minus the number of other vertices reachable from v; on the complete graph every vertex has load N-1 resp. 0; the total load is the sum over ordered connected pairs of their distance (resp. distance minus one).", "quantifier": "every valid graph", "why_tests_cant": "All graphs.", "anchors": ["src/generic_graph/generic_graph.rs: vertex_load"]}
{"id": "C23", "title": "closeness centrality is (n-1) / sum of distances", "statement": "closeness_centrality()[v] is (n-1) divided by the sum over all vertices reachable from v of their distance to v. On the empty graph a debug build panics.", "quantifier": "every valid graph", "why_tests_cant": "All graphs.", "anchors": ["src/generic_graph/generic_graph.rs: closeness_centrality"]}
{"id": "C24", "title": "transitivity counts closed paths over paths of length two", "statement": "transitivity is the number of ordered triples (a,b,c), a-b and b-c edges, a != c, with a-c an edge, divided by the number of all such triples; it lies in [0,1] when defined.", "quantifier": "every valid graph", "why_tests_cant": "All graphs.", "anchors": ["src/generic_graph/generic_graph.rs: transitivity"]}
{"id": "C25", "title": "cloned_subgraph is the induced subgraph", "statement": "cloned_subgraph(list) is None iff the list is empty or contains an index >= vertex_count; otherwise the k-th vertex of the result corresponds to the k-th smallest distinct index of the list, carries its data, and two result vertices are adjacent iff the originals are; the result satisfies the representation invariant including edge_count.", "quantifier": "every valid graph, every list with repetitions in any order", "why_tests_cant": "All graphs and all lists.", "anchors": ["src/generic_graph/generic_graph.rs: cloned_subgraph"]}
{"id": "C26", "title": "Degree statistics agree with the topology", "statement": "The degree sum is twice edge_count; degree(v) is None iff v is out of range, else the number of vertices adjacent to v; degree_vec lists them in order; leaf_count counts the vertices with exactly one neighbour; degree_histogram counts for each d the vertices of degree d.", "quantifier": "every valid graph", "why_tests_cant": "All graphs.", "anchors": ["src/generic_graph/generic_graph.rs: degree, degree_vec, degree_iter, leaf_count, degree_histogram, average_degree"]}
{"id": "C27", "title": "Topology conversions preserve the graph", "statement": "clone_topology, From<&GenericGraph> and reset_from_graph produce graphs with the same vertex count, adjacency (same order), ids and edge_count as the source; From keeps the data as well.", "quantifier": "every valid graph of any container type", "why_tests_cant": "All graphs.", "anchors": ["src/generic_graph/generic_graph.rs: clone_topology", "src/graph.rs: From, reset_from_graph"]}
{"id": "C28", "title": "Connecting suggestions connect", "statement": "suggest_connections returns one representative of each component; ErEnsembleC::make_connected adds exactly (number of components - 1) edges, removes none, and afterwards the graph is connected (n >= 1). The vertices returned are the smallest vertex of each component, in increasing order.", "quantifier": "every valid graph with at least one vertex", "why_tests_cant": "All graphs.", "anchors": ["src/generic_graph/generic_graph.rs: suggest_connections", "src/er_c.rs: make_connected"]}
{"id": "C29", "title": "Index drawing is exact and uniform", "statement": "draw_two_from_range(h) maps the uniform draws one-to-one onto all ordered pairs of distinct indices below h; SwEnsemble's draw of a rewiring target maps its draws one-to-one onto all vertices except the own one; draw_edge maps its draws one-to-one onto all rooted edges.", "quantifier": "every h, every index, every valid ensemble state", "why_tests_cant": "Uniformity is a counting statement over all draws.", "anchors": ["src/er_c.rs: draw_two_from_range", "src/sw.rs: draw_remaining, draw_edge"]}
{"id": "C30", "title": "ErEnsembleM keeps exactly m edges and its bookkeeping in sync", "statement": "After construction and any history of randomize, m_step, undo_step(_quiet) the graph is simple with exactly m edges, the list of present edges is exactly the edge set of the graph, and present plus absent edges are exactly all pairs.", "quantifier": "every n, m, every rng behaviour and every history", "why_tests_cant": "Unbounded histories and every rng outcome.", "anchors": ["src/er_m.rs: new, randomize, m_step, step, undo_step, undo_step_quiet"]}
{"id": "C31", "title": "ErEnsembleM undo is exact", "statement": "undo_step(m_step()) restores the edge set and both index lists exactly; undoing any sequence of steps in reverse order restores the initial edge set.", "quantifier": "every valid state, every step, every sequence", "why_tests_cant": "All states and all sequences.", "anchors": ["src/er_m.rs: m_step, undo_step, undo_step_quiet"]}
{"id": "C32", "title": "ErEnsembleC steps and undo", "statement": "m_step changes at most the one pair it drew, reports AddedEdge / RemovedEdge / Nothing truthfully, keeps the graph simple; undo_step and undo_step_quiet restore the edge set; undoing any sequence in reverse order restores the initial edge set; randomize yields a simple graph whose edges are exactly the pairs whose draw succeeded, independent of the previous state.", "quantifier": "every valid state, draw, probability and sequence", "why_tests_cant": "All states, all draws, all sequences.", "anchors": ["src/er_c.rs: randomize, m_step, undo_step, undo_step_quiet"]}
{"id": "C33", "title": "ErEnsembleC proposal satisfies detailed balance", "statement": "For graphs G and G+e differing by one edge, the number of draws (ordered pair) of m_step that move G to G+e when the coin says 'edge' equals the number that move G+e to G when the coin says 'no edge', so the chain is reversible with respect to the G(n,p) weight; every graph on the vertex set can be reached from every other by some sequence of draws.", "quantifier": "every pair of graphs, every vertex count", "why_tests_cant": "Counting over all draws and all graph pairs.", "anchors": ["src/er_c.rs: m_step, draw_two_from_range"]}
{"id": "C34", "title": "ErEnsembleM proposal is symmetric and irreducible", "statement": "For every two states the number of draws moving the edge set S to S' equals the number moving S' to S, and any m-edge graph can be reached from any other.", "quantifier": "every valid state with 0 < m < n(n-1)/2", "why_tests_cant": "Counting over all draws and states.", "anchors": ["src/er_m.rs: m_step, step"]}
{"id": "C35", "title": "Small-world ensemble structural invariant", "statement": "After construction (n >= 5) and any history of randomize, m_step, undo_step and make_connected, the graph is simple with exactly 2n edges, every vertex owns exactly two root edges that originally went to its next and next-but-one ring neighbour, each edge is rooted at exactly one end, hence every degree is >= 2 and there are no leaves.", "quantifier": "every n >= 5, every probability, rng behaviour and history", "why_tests_cant": "Unbounded histories.", "anchors": ["src/sw.rs: SwEnsemble", "src/sw_graph.rs: rewire_edge, reset_edge, SwContainer"]}
{"id": "C36", "title": "Small-world steps never fail", "statement": "From any valid small-world state m_step, randomize and make_connected never panic and m_step never yields InvalidAdjecency or GError; Nothing and BlockedByExistingEdge leave the graph unchanged; Rewire(a,b,c) replaces edge a-b by a-c and Reset(a,b,c) replaces a-b by the original edge a-c.", "quantifier": "every valid state, every draw", "why_tests_cant": "All states and draws.", "anchors": ["src/sw_graph.rs: rewire_edge, reset_edge, rewire, reset", "src/sw.rs: m_step, randomize_edge, draw_edge"]}
{"id": "C37", "title": "Small-world undo restores", "statement": "Undoing the result of m_step restores the adjacency relation and the root information of each edge (list order may change); undoing any sequence in reverse order restores the initial state; a blocked or empty step is undone as a no-op.", "quantifier": "every valid state, every draw, every sequence", "why_tests_cant": "All states and sequences.", "anchors": ["src/sw.rs: undo_step, undo_step_quiet"]}
{"id": "C38", "title": "SwEnsemble::make_connected terminates and connects", "statement": "make_connected terminates for every valid small-world state and ends with a connected graph that still satisfies the small-world invariant.", "quantifier": "every valid small-world state", "why_tests_cant": "Termination for all states: every pass works with stale component labels.", "anchors": ["src/sw.rs: make_connected"]}
{"id": "C39", "title": "Long-range counters and resetting of the small-world ensemble", "statement": "count_long_ranging_edges is the number of root edges that are not at their original target and frac_long_ranging_edges its share of all edges; count_nodes_with_long_ranging_edges is the number of vertices at either end of such an edge and frac_nodes_wlre its share of all vertices, 0 exactly if there is no such edge; with no such edge the graph is exactly the ring with next and next-but-one neighbours; a Reset step removes exactly one, a Rewire step changes the number by what it did; if no draw asks for a rewiring, randomize never increases the number and leaves a ring as it is.", "quantifier": "every valid state, every step, every rng", "why_tests_cant": "All states.", "anchors": ["src/sw_graph.rs: count_long_ranging_edges, count_nodes_with_long_ranging_edges, frac_nodes_wlre"]}
{"id": "C40", "title": "Configuration model has the prescribed degrees", "statement": "Whenever randomize (or a constructor) returns, the graph is simple and every vertex has exactly the degree given in the degree vector, whatever the previous graph was.", "quantifier": "every degree vector, every shuffle, every number of retries", "why_tests_cant": "All degree vectors and random orders.", "anchors": ["src/configuration_model.rs: randomize, add_multiple_random_edges, init_edge_halfs, from_vec, from_const"]}
{"id": "C41", "title": "Degree vector validation", "statement": "degree_vec_is_valid accepts exactly the vectors with at least two entries, even sum and entries <= len-2; assert_degree_vec_valid panics on exactly the others; from_vec answers None on exactly the others and never panics. A construction from an unchecked vector can return iff some simple graph has these degrees; acceptance does not imply that: [2,2,0,0] is accepted but from_vec never returns, whatever the rng does.", "quantifier": "every vector, every rng", "why_tests_cant": "Non-termination for every rng cannot be tested.", "anchors": ["src/configuration_model.rs: degree_vec_is_valid, assert_degree_vec_valid, from_vec, randomize"]}
{"id": "C42", "title": "Configuration model steps preserve the degrees", "statement": "m_step either reports Error and leaves the topology unchanged or replaces two disjoint edges by two other edges; the graph stays simple and no degree changes.", "quantifier": "every valid state, every draw", "why_tests_cant": "All states and draws.", "anchors": ["src/configuration_model.rs: m_step"]}
{"id": "C43", "title": "Configuration model undo restores, failed undo changes nothing", "statement": "undo_step after m_step restores the edge set; for any step value whatsoever (distinct in-range indices) undo_step either performs the exchange or returns an error and leaves the edge set unchanged; undo_step_quiet likewise or panics.", "quantifier": "every valid state, every step value", "why_tests_cant": "All states and all step values.", "anchors": ["src/configuration_model.rs: undo_step, undo_step_quiet"]}
{"id": "C44", "title": "Barabasi-Albert growth", "statement": "Whenever randomize returns, the graph arose from the source by attaching the other vertices one after the other in some order, each to exactly m different vertices of positive degree: edge_count = source edges + m * (n - source vertices), the source graph is the subgraph induced by its vertices, every later vertex has degree >= m, the graph is simple; if the source is connected and m >= 1 the graph is connected. A draw chooses a vertex with probability proportional to its degree. randomize can return iff m is at most the number of vertices of the source that have a neighbour; otherwise it never returns.", "quantifier": "every source graph without isolated vertices, every n, m and rng behaviour", "why_tests_cant": "Unbounded n and every rng outcome.", "anchors": ["src/barabasi_albert.rs: new_from_graph, randomize"]}
{"id": "C45", "title": "Watts-Strogatz randomize keeps n*d edges", "statement": "Whenever randomize returns, the graph is simple with exactly n*d edges (edge_count matches the topology), and each stored origin belongs to the initial ring.", "quantifier": "every n >= 2d+1, d, probability, rng behaviour", "why_tests_cant": "Unbounded n and every rng outcome.", "anchors": ["src/watts_strogatz/ensemble.rs: new, randomize, add_random_edge", "src/watts_strogatz/ws_container.rs: WSContainer"]}
{"id": "C46", "title": "Watts-Strogatz construction terminates", "statement": "WattsStrogatz::new(n, d, ..) with n >= 2d+1 (the documented bound) eventually returns. (Violated: for n = 3, d = 1 and rewiring probability 1 no rng whatsoever lets it terminate.)", "quantifier": "every n >= 2d+1 and every rng", "why_tests_cant": "Non-termination for every rng cannot be tested.", "anchors": ["src/watts_strogatz/ensemble.rs: new, add_random_edge, randomize"]}
{"id": "C47", "title": "Spatial ensembles", "statement": "SpacialEnsemble steps change at most the drawn pair and undo restores the edge set; randomize of SpacialEnsemble and DogEnsemble leaves a simple graph satisfying the representation invariant whatever the positions and distances.", "quantifier": "every valid state, draw, coordinates and sequence", "why_tests_cant": "All states and draws.", "anchors": ["src/spacial/spacial_ensemble.rs: randomize, m_step, undo_step, undo_step_quiet", "src/spacial/dog_networks.rs: randomize"]}
{"id": "C48", "title": "Latin hypercube sampling uses each row and column once", "statement": "The points produced by LatinHypercubeSampling2D use every x slot and every y slot exactly once and there are exactly as many points as slots. All pairs of orders of the slots are equally likely. In a new DogEnsemble each vertex lies in the cell of its point, with an offset in each coordinate that comes from a draw used for nothing else.", "quantifier": "every size, every rng behaviour", "why_tests_cant": "All sizes and draws.", "anchors": ["src/spacial/dog_networks.rs: LatinHypercubeSampling2D"]}
{"id": "C49", "title": "Dual graph cross edges refine a set of pairs", "statement": "For MultiDualGraph any sequence of add_edge(index_graph_1, index_graph_2) calls, interleaved with edits of the inner graphs through graph_1_mut/graph_2_mut, behaves like insertion into a relation between the two vertex sets together with the two inner graphs; Err(EdgeExists) exactly when the pair is present; adj_1 and adj_2 stay inverse to each other.", "quantifier": "every pair of graphs, every history", "why_tests_cant": "Unbounded histories.", "anchors": ["src/dual_graph/dual_graph.rs: add_edge, degree_1, degree_2, Adj"]}
{"id": "C50", "title": "Single-connection dual graph reports conflicts", "statement": "For SingleDualGraph add_edge returns EdgeExists and changes nothing whenever one of the endpoints already has a cross connection. (Violated: if only the second endpoint is taken the call panics after having changed the first side.)", "quantifier": "every pair of graphs, every history", "why_tests_cant": "All histories.", "anchors": ["src/dual_graph/dual_graph.rs: AdjSingle, add_edge"]}
{"id": "C51", "title": "Dual graph traversal and connectivity", "statement": "dfs/bfs over a dual graph visit exactly the vertices of both graphs reachable in the union of inner and cross edges, once each (bfs with exact distance); is_connected and diameter are those of the union graph.", "quantifier": "every pair of valid graphs with symmetric cross adjacency, every start", "why_tests_cant": "All graphs.", "anchors": ["src/dual_graph/dual_graph.rs: is_connected, diameter", "src/dual_graph/dual_graph_iterators.rs: DfsDualIndex, BfsDualIndex"]}
{"id": "C52", "title": "Neighbour iterators behave like the list they iterate over", "statement": "For every container, neighbors(), contained_iter(), container_iter_neighbors(), contained_iter_neighbors()[_with_index]: any interleaving of next, nth(k), next_back, nth_back(k), len, any, all followed by fold, reduce, into_vec behaves as on the plain list of neighbours (or their data), in particular for the hand-written SwEdgeIterNeighbors and IterWrapper. The mutable iterators (contained_iter_mut, contained_iter_neighbors_mut[_with_index]) return the same under any writes through the returned references, never return two references to one vertex, and change exactly the written data.", "quantifier": "every list, every graph, every interleaving of calls and writes", "why_tests_cant": "Unbounded call sequences.", "anchors": ["src/sw_graph.rs: SwEdgeIterNeighbors", "src/iter.rs: IterWrapper, NContainedIter, NContainerIter, ContainedIter"]}
{"id": "C53", "title": "dot output lists every vertex and every edge exactly once", "statement": "The dot output contains one line per edge i -- j with i < j, each edge of the graph exactly once and nothing else, and one label entry per vertex in order.", "quantifier": "every valid graph, every label function", "why_tests_cant": "All graphs.", "anchors": ["src/generic_graph/generic_graph.rs: to_dot, DotExtra, Dot writers"]}
{"id": "C54", "title": "Undoing a whole Markov chain", "statement": "For all ensembles with reversible steps: applying any number of steps and then undoing the recorded steps from last to first restores the edge set the chain started from.", "quantifier": "every ensemble state, every number of steps, every rng behaviour", "why_tests_cant": "Unbounded histories.", "anchors": ["src/er_m.rs: MarkovChain impl", "src/er_c.rs: MarkovChain impl", "src/sw.rs: MarkovChain impl", "src/configuration_model.rs: MarkovChain impl", "src/spacial/spacial_ensemble.rs: MarkovChain impl"]}
{"id": "C57", "title": "Spatial ensemble: stationary distribution", "statement": "For a symmetric edge law, one m_step of SpacialEnsemble changes an absent edge {x,y} into a present one in exactly 2*heads(p_xy) of the equally likely outcomes (two vertex draws, one coin), and back in 2*(2^53-heads(p_xy)); the chain is therefore in detailed balance with the distribution in which every pair is present independently with its probability (the distribution randomize samples). From every state every graph of positive weight is reached.", "quantifier": "every valid graph, all positions, every symmetric law, every pair of edge sets", "why_tests_cant": "A distributional statement over all random outcomes and all state pairs.", "anchors": ["src/spacial/spacial_ensemble.rs: m_step, randomize, prob_unchecked"]}
{"id": "C58", "title": "DogEnsemble: when randomize panics or hangs", "statement": "DogEnsemble::new/randomize panic exactly if n = 0, lambda = 0 or tau*n <= -1/2; the search for a long-range partner of a vertex can return exactly if some other vertex that is not yet adjacent has an edge, and otherwise never returns whatever the generator does; hence randomize never returns if no short edge came up and no Poisson number is zero, or if every Poisson number is >= n.", "quantifier": "every n, tau, lambda, edge law, Poisson sampler and generator", "why_tests_cant": "Non-termination and all parameter values.", "anchors": ["src/spacial/dog_networks.rs: new, randomize"]}
{"id": "C59", "title": "Dual graph neighbour iterators reach exactly the neighbours in both graphs", "statement": "contained_iter_neighbors_1/2 and graph_1/2_contained_iter yield the data of every neighbour of the vertex in the union of inner and cross edges exactly once, first those of the own graph; the mutable variants yield the same vertices (with their indices) and writing through the yielded references changes the data of exactly these vertices and never the topology.", "quantifier": "every valid dual graph, every vertex, every sequence of writes", "why_tests_cant": "All graphs, vertices and write patterns; the code uses raw pointers.", "anchors": ["src/dual_graph/dual_graph.rs: contained_iter_neighbors_1, graph_1_contained_iter_mut_which_graph_with_index, graph_1_contained_iter", "src/iter.rs: NContainedIterMut"]}
{"id": "C60", "title": "randomize of the Erdős–Rényi and spatial ensembles draws from the documented distribution", "statement": "A call of randomize on ErEnsembleM turns the ensemble into each graph with m edges on the n vertices with the same probability; on ErEnsembleC each graph with k edges is produced with probability p^k (1-p)^(N-k) where N = n(n-1)/2; on SpacialEnsemble each graph is produced with the product over all pairs of the edge probability of the pair (or its complement). The result does not depend on the graph before the call.", "quantifier": "every valid ensemble state, every target graph on the same vertices", "why_tests_cant": "A law over all graphs: sampling tests only estimate a few frequencies.", "anchors": ["src/er_m.rs: randomize", "src/er_c.rs: randomize", "src/spacial/spacial_ensemble.rs: randomize"]}
{"id": "C61", "title": "randomize of the configuration model draws uniformly among the graphs with the prescribed degrees", "statement": "Every simple graph with the prescribed degrees is the result of randomize with the same probability. (The code violates this: it skips edge halves of the same vertex instead of rejecting, which biases the draw.)", "quantifier": "every degree vector, every two graphs realising it", "why_tests_cant": "The bias is of the order of one percent and depends on the degree vector; only the exact law shows it.", "anchors": ["src/configuration_model.rs: randomize, add_multiple_random_edges"]}
{"id": "C56", "title": "The Markov chain of the configuration model samples the graphs with the prescribed degrees uniformly", "statement": "The steps of m_step connect all simple graphs with the prescribed degrees: from each of them every other one is reached by finitely many steps. For any two such graphs the probability to move from one to the other in one step equals the probability of the reverse move, so the uniform distribution is stationary.", "quantifier": "every valid ensemble state, every two graphs realising its degree vector", "why_tests_cant": "Irreducibility and stationarity concern all graphs with a degree sequence and exact transition probabilities; a sampled chain shows neither.", "anchors": ["src/configuration_model.rs: m_step"]}
{"id": "C55", "title": "The Markov chain of the small-world ensemble is reversible with respect to independent rewiring and irreducible", "statement": "Consider the law that rewires each of the 2n rooted edges independently (with probability r_prob to a uniformly drawn other vertex, else to the original target), conditioned on having no double edges. For any two valid networks the weight of the first times the probability of moving to the second in one m_step equals the weight of the second times the probability of moving back. The weight depends on the number of long ranging edges only. With at least six vertices and r_prob not negative, every valid network is reached from every other one.", "quantifier": "every valid ensemble state, every two valid networks on the same vertices, every rewiring probability", "why_tests_cant": "Stationarity and irreducibility concern all networks and exact transition probabilities; a sampled chain shows neither.", "anchors": ["src/sw.rs: m_step, randomize_edge, draw_edge, draw_remaining", "src/sw_graph.rs: rewire_edge, reset_edge"]}
{"id": "C62", "title": "Size hints of the search iterators are sound and the iterators stay at their end", "statement": "For Dfs, DfsWithIndex, Bfs, BfsMut and BfsFiltered, after any number of next calls (also after the end) the number of items still to come lies between the lower and the upper bound of size_hint; the items still to come are those of the whole run without the ones already taken; after the first None every further call gives None.", "quantifier": "every well-formed graph, every start index (also out of range), every filter, every number of next calls, every user write for BfsMut", "why_tests_cant": "Quantifies over all interruption points of all searches on all graphs.", "anchors": ["src/generic_graph/iterators.rs: size_hint of Dfs, DfsWithIndex, Bfs, BfsMut, BfsFiltered"]}
{"id": "C63", "title": "Randomizing a small-world network proposes every edge exactly once", "statement": "SwEnsemble::randomize (and new, which starts from the ring with all edges at their original targets) goes once through the vertices and makes, from whatever network it starts, exactly one proposal for each of the 2n root edges: one uniform number decides between a uniformly drawn other vertex and the original target; the edge is moved iff its root is not yet adjacent to the proposed vertex. Nothing else is taken from the generator. After new, an edge whose uniform number exceeded the probability is at its original target, and there are at most as many long-ranging edges as uniform numbers not above the probability.", "quantifier": "every valid network with n >= 5, every probability, every sequence of draws", "why_tests_cant": "All networks and draws; an implementation that leaves out a vertex or proposes an edge twice gives equally valid networks, only the distribution is wrong.", "anchors": ["src/sw.rs: randomize", "src/sw.rs: randomize_edge", "src/sw.rs: SwEnsemble::new"]}
{"id": "C64", "title": "Barabási-Albert attachment is preferential with the degrees before the vertex's turn", "statement": "BAensemble::randomize goes once through the vertices beyond the source in shuffled order. Each of them draws numbers below twice the number of edges present before its turn; a number stands for the vertex owning that end of an edge, so every draw chooses a vertex with probability proportional to its degree at that moment. It stops with the m-th different vertex met and is joined exactly to the different vertices met. Nothing else is taken from the generator.", "quantifier": "every source graph with an edge, every m, every number of vertices, every generator, every run that returns", "why_tests_cant": "Weights that are not updated, or updated while a vertex is attached, give equally valid graphs with another distribution.", "anchors": ["src/barabasi_albert.rs: randomize"]}
{"id": "C65", "title": "Watts-Strogatz randomize is determined by the draws as documented, starting from the ring", "statement": "WSEnsemble::randomize first restores the ring, whatever the network was before. Then for each vertex in turn one coin with probability rewire_prob is thrown for every edge of the vertex that is still in its place on the ring, and for no other edge. The edges with heads are removed together. Then each of them is put back at a pair of vertices drawn uniformly; the pair is drawn again exactly while it is a loop, an existing edge or the former place of the edge. Every edge of the result stores the ring edge it stems from. Nothing else is taken from the generator. The network that new returns is obtained in the same way.", "quantifier": "every number of vertices below 2^32, every neighbour distance, every probability, every generator, every run that returns", "why_tests_cant": "Skipping an edge, throwing a coin for an edge already rewired, or a biased choice of the new place give equally valid networks with another distribution.", "anchors": ["src/watts_strogatz/ensemble.rs: randomize, new, add_random_edge"]}
{"id": "C66", "title": "The Markov chains converge to the documented distributions", "statement": "Repeating m_step with fresh random numbers, the probability of finding a given graph after t steps converges, as t grows and uniformly in the starting state, to: independent edges with the probability of the ensemble for ErEnsembleC; the uniform distribution on all graphs with m edges for ErEnsembleM (unless the graph is empty or complete); independent edges with the probability of each pair for SpacialEnsemble; independently rewired edges conditioned on the absence of double edges for SwEnsemble with at least six vertices; the uniform distribution on all graphs with the given degrees for ConfigurationModel.", "quantifier": "every number of vertices (at least two; six for SwEnsemble), every parameter (rewiring probability not negative, law of SpacialEnsemble symmetric), every valid starting state, every error bound, all sufficiently large numbers of steps", "why_tests_cant": "A limit over all numbers of steps of an exact probability over all draws; periodicity or a state that is never left shows only in the limit, and sampling cannot tell a slightly biased limit from the documented one.", "anchors": ["src/er_c.rs: m_step", "src/er_m.rs: m_step", "src/spacial/spacial_ensemble.rs: m_step", "src/sw.rs: m_step", "src/configuration_model.rs: m_step"]}
{"id": "C67", "title": "Sorting adjacency lists and writing node data never influences Erdős–Rényi sampling", "statement": "Take two ErEnsembleC (or two ErEnsembleM) with the same edges, parameters and generator; node data and the order of adjacency lists may differ. Run any list of calls (m_step, undo_step and undo_step_quiet with any step value, randomize, make_connected, set_target_connectivity, swap_rng, sort_adj, writes through at_mut) on the first and the same list without sort_adj and the writes on the second. Every sampling call returns the same value in both, and in the end edges, parameters and generator agree; or both panic. For ConfigurationModel, BAensemble and SmallWorldWS the calls sort_adj, at_mut (and swap_rng) keep the state valid, the edges and, for SmallWorldWS, the original edge stored with every edge.", "quantifier": "every pair of states, every finite history of calls, every step value, every generator", "why_tests_cant": "A relation between two unbounded histories; any hidden dependence on list order (for example drawing by position) would show only for particular orders and draws.", "anchors": ["src/er_c.rs", "src/er_m.rs", "src/configuration_model.rs: sort_adj, at_mut, swap_rng", "src/barabasi_albert.rs: sort_adj, at_mut", "src/watts_strogatz/ensemble.rs: sort_adj, at_mut"]}
{"id": "C68", "title": "Graph measures depend only on the number of vertices and the set of edges", "statement": "Two graphs with equally many vertices and the same set of edges give equal results for edge_count, degree, degree_vec, average_degree, leaf_count, the degree histogram, is_connected, connected_components, connected_components_ids, suggest_connections, diameter, longest_shortest_path_from_index, q_core, transitivity, closeness_centrality and vertex_load, whatever the stored data, the order of the adjacency lists and the kind of graph (Graph, SwGraph, WSGraph). So sort_adj, shuffling adjacency lists, writing vertex data and converting to Graph change none of them. vertex_biconnected_components is not in this list: its result depends on the order of the adjacency lists.", "quantifier": "every pair of valid graphs of any kinds, every start vertex, every q", "why_tests_cant": "Unit tests use a few construction orders; dependence on the order of adjacency lists shows only for particular graphs and orders.", "anchors": ["src/generic_graph.rs", "src/sw_graph.rs", "src/graph.rs"]}
{"id": "C69", "title": "randomize forgets the present network, except in SwEnsemble", "statement": "The result of randomize, in all details, is the same for any two states with the same node data, parameters and generator, however their networks differ: for ErEnsembleC, SmallWorldWS, BAensemble (also if the stored weights differ), SpacialEnsemble and DogEnsemble (with the same positions), ErEnsembleM (with the list of all pairs in the same order) and ConfigurationModel (with the edge halves in the same order). So samples drawn by repeated randomize with fresh random numbers are independent. SwEnsemble::randomize, documented as usable for sampling the ensemble, does not have this property: there are valid networks, one reached from the other by two Markov steps, that lead to different networks with the same random numbers, even when no edge is to be rewired.", "quantifier": "every pair of valid states, every generator, every parameter", "why_tests_cant": "Independence is a statement about all pairs of previous states and all draws; correlations between samples can be arbitrarily weak.", "anchors": ["src/er_c.rs: randomize", "src/er_m.rs: randomize", "src/configuration_model.rs: randomize", "src/watts_strogatz/ensemble.rs: randomize", "src/barabasi_albert.rs: randomize", "src/spacial/spacial_ensemble.rs: randomize", "src/spacial/dog_networks.rs: randomize", "src/sw.rs: randomize"]}
{"id": "C70", "title": "The functions that draw until something fits return with probability one, under an exact condition", "statement": "With a generator whose draws are independent and uniform: WS::new(n, d, p) with d ≥ 1 and p ≥ 0 returns a network with probability one exactly if n ≥ 2d + 2; for n = 2d + 1, which it accepts, it runs forever with positive probability. BAensemble::randomize returns with probability one exactly if m is at most the number of source vertices that have a neighbour. ConfigurationModel::from_vec_unchecked returns with probability one exactly if some simple graph has the requested degrees; its randomize always, and its m_step whenever there is an edge. The search of DogEnsemble::randomize for a partner of a vertex returns with probability one exactly if some other, not yet adjacent vertex has an edge.", "quantifier": "almost every infinite sequence of draws, every parameter, every valid state", "why_tests_cant": "A probability-one statement is about all infinite sequences of draws; a test sees finitely many runs and cannot tell a rare hang from none.", "anchors": ["src/watts_strogatz/ensemble.rs: randomize, new", "src/barabasi_albert.rs: randomize", "src/configuration_model.rs: randomize, m_step", "src/spacial/dog_networks.rs: randomize"]}
{"id": "C71", "title": "Edge probabilities of the spatial ensembles", "statement": "The distance between vertices is the Euclidean distance. The formula of SpacialEnsemble, f (1 + √(nπ) d / α)^(-α), is for positive f and α equal to f at distance zero, positive, at most f, strictly decreasing in the distance, tends to zero, and becomes f exp(-√(nπ) d) for large α. The formula of DogEnsemble is 1 - (1 - exp(-κ d))², for κ > 0 equal to one at distance zero, positive, at most one, strictly decreasing and tending to zero. With independent uniform draws the edges after randomize of SpacialEnsemble, ErEnsembleC, and DogEnsemble without long-range edges are independent events, and if the value computed in floating point differs from the formula by at most ε, the probability of the edge between i and j differs from the formula by at most ε + 2^-53 (SpacialEnsemble) or ε + 2^-52 (DogEnsemble), the spacings of the drawn numbers.", "quantifier": "every pair of vertices, all positions, parameters and rounding errors of the computed value", "why_tests_cant": "Probabilities and independence are statements about the distribution of all runs; a test sees single networks.", "anchors": ["src/spacial/spacial_ensemble.rs: prob_unchecked, edge_probability, randomize", "src/spacial/spacial_graph.rs: distance", "src/spacial/dog_networks.rs: randomize", "src/er_c.rs: randomize"]}
{"id": "C72", "title": "vertex_load with rounded arithmetic", "statement": "If every addition, subtraction and division of vertex_load rounds with relative error at most u, vertex_load still never panics and never divides by zero; for a graph with n vertices and 6nu ≤ 1 every entry of vertex_load(true) has relative error at most 6nu; for 8n³u ≤ 1 every entry of vertex_load(false) has absolute error at most 8n³u; if shortest paths are unique (in particular in every forest) and n² ≤ 2^53, both results are exact. Rounding to 53 significant bits satisfies these conditions with u = 2^-53.", "quantifier": "every valid graph, every rounding function with the stated error bound", "why_tests_cant": "Rounding errors depend on the graph and on the order of the sums; a test compares single graphs with a guessed tolerance.", "anchors": ["src/generic_graph/generic_graph.rs: vertex_load"]}
{"id": "C73", "title": "Release builds: no undefined behaviour in normal use, and where it starts", "statement": "A call that does not panic in a debug build does the same in a release build (debug assertions and overflow checks removed): editing a graph, steps, undoing and randomizing of every ensemble, searches and neighbour iterators that hand out mutable references, and every piece of safe code that changes a graph only through add_edge, remove_edge and clear_edges. The unchecked accesses are in bounds and never create two mutable references to one vertex for: valid ensembles, dfs_mut and bfs_index_depth_mut on any graph, the mutable neighbour iterators of a valid graph under any history of next, nth and next_back, add_edge, is_connected and diameter of dual graphs. The exact inputs of the remaining public safe functions that are undefined behaviour in a release build are: add_edge/remove_edge/reset_edge/rewire_edge with an index out of range or coinciding indices, undo_step with a forged step of that kind, three neighbour iterators of SingleDualGraph with an index out of range, and the iterator into the other graph after that graph was exchanged for a smaller one.", "quantifier": "all graphs, indices, ensembles, random number generators, histories of iterator calls and written values", "why_tests_cant": "Tests run in debug builds; undefined behaviour need not show up in any run, and its absence is a statement about all inputs.", "anchors": ["src/generic_graph/generic_graph.rs: get_2_mut, get_3_mut, add_edge, remove_edge, contained_iter_neighbors_mut", "src/generic_graph/iterators.rs: DfsMut, BfsMut", "src/iter.rs: NContainedIterMut, INContainedIterMut", "src/sw_graph.rs", "src/dual_graph/dual_graph.rs", "src/spacial/spacial_ensemble.rs", "src/configuration_model.rs: init_edge_halfs"]}
{"id": "C74", "title": "Undoing steps out of order", "statement": "Step values can be copied, so a program may hand an old step to undo_step after other steps or after randomize, or hand it in twice. ErEnsembleC and the spacial ensemble accept every step they ever returned: no call panics, the graph stays valid and vertices, node data, positions and parameters are unchanged. ConfigurationModel never panics and keeps the prescribed degrees. ErEnsembleM: undo_step panics exactly if the edge to be removed is gone or the edge to be restored is already there; otherwise it succeeds and keeps the number of edges, but the two lists it samples from keep matching the graph exactly if the two edges are still at the places recorded in the step; otherwise a later step panics for some draws and randomize repairs the ensemble. For every network with two edges and a free pair there is such a history: four steps, then undoing the first. SwEnsemble: undoing an old rewiring returns an error value and changes nothing if the edge is gone or the pair is taken, works if the edge is a root edge of its first vertex, and panics exactly if the edge between the same vertices now belongs to the other vertex; in a release build that last case succeeds, leaves a vertex with one root edge, and later steps and randomize panic.", "quantifier": "all ensembles, random number generators and histories of m_step, randomize and undo_step with any step returned before", "why_tests_cant": "The tests undo steps in reverse order only; the failing histories need particular draws.", "anchors": ["src/er_c.rs: undo_step", "src/er_m.rs: step, undo_step", "src/sw.rs: undo_step", "src/sw_graph.rs: rewire_edge", "src/spacial/spacial_ensemble.rs: undo_step", "src/configuration_model.rs: undo_step"]}
{"id": "C75", "title": "No public call breaks an ensemble", "statement": "Start from any constructor that returned, then make any public calls that change the ensemble, in any order, with any arguments, as long as they return: steps, undo_step and undo_step_quiet with any step value (also one built by hand or already undone), randomize, make_connected, set_target_connectivity, set_r_prob, new degree sequences (also unchecked ones), sort_adj, swap_rng, writes through at_mut, get_contained_mut or the mutable iterators. The graph stays a simple graph with the vertices of the constructor, and its node data are exactly those of the constructor with the writes of the history applied in order. ErEnsembleC: the edge probability is the one of the last connectivity set. ErEnsembleM: exactly M edges, and the next randomize returns and restores the internal lists. SwEnsemble: the root edge structure with 2N edges. ConfigurationModel: the degrees are those degree_vec reports, and unchanged if no new degrees were given. SmallWorldWS: N times distance edges with the bookkeeping of original edges. BAensemble: grown from the unchanged source, connected. SpacialEnsemble and DogEnsemble: unchanged positions and parameters. In every such state randomize does not panic, nor do sorting, writing to an existing vertex and (with enough vertices and edges) the next step; only for ErEnsembleM a step may panic after made-up steps.", "quantifier": "all sizes, parameters, random number generators, histories of calls, step values and written data", "why_tests_cant": "Tests exercise single calls; the claim is about arbitrary interleavings, including calls with made-up arguments.", "anchors": ["src/er_c.rs", "src/er_m.rs", "src/sw.rs", "src/configuration_model.rs", "src/watts_strogatz/ensemble.rs", "src/barabasi_albert.rs", "src/spacial/spacial_ensemble.rs", "src/iter.rs: ContainedIterMut, NContainedIterMut"]}
{"id": "C76", "title": "Measures agree with each other", "statement": "On every simple graph the measures are consistent. connected_components has as many entries as connected_components_ids reports labels and as suggest_connections returns vertices, and its entries are the numbers of vertices per label. For a graph with vertices, is_connected returns true exactly if connected_components has one entry, exactly if that entry is vertex_count, and exactly if diameter is not None. longest_shortest_path_from_index(v) is less than the number of vertices with the label of v. If diameter is d, then d is less than vertex_count, every longest shortest path e satisfies e <= d <= 2e, and some vertex attains d. vertex_count <= edge_count + number of components, with equality exactly for forests; the graph is a forest exactly if q_core(2) is 0 and exactly if vertex_biconnected_components(true) is empty. q_core(q) is at most the largest component, is 0 or more than q, and does not increase with q.", "quantifier": "all simple graphs, vertices and q >= 2", "why_tests_cant": "The relations connect separately written algorithms on every graph; tests compare single numbers on a few graphs.", "anchors": ["src/generic_graph/generic_graph.rs: is_connected", "src/generic_graph/generic_graph.rs: q_core", "src/generic_graph/generic_graph.rs: connected_components_ids", "src/generic_graph/generic_graph.rs: connected_components", "src/generic_graph/generic_graph.rs: diameter", "src/generic_graph/generic_graph.rs: longest_shortest_path_from_index", "src/generic_graph/generic_graph.rs: vertex_biconnected_components"]}
{"id": "C77", "title": "How one edge changes the measures", "statement": "After a successful add_edge(i, j): if i and j had the same label in connected_components_ids, connected_components returns the same list, otherwise it has exactly one entry less; its first entry and q_core(q) do not decrease; if diameter was Some(d) it is Some(d') with d' <= d. After a successful remove_edge(i, j): if i and j still have the same label, connected_components returns the same list, otherwise it has exactly one entry more; its first entry and q_core(q) do not increase; if diameter is Some(d') afterwards, it was Some(d) with d <= d'. A single edge changes the diameter at most by a factor of two: if it is Some before and after adding or removing an edge, the larger value is at most twice the smaller one (met by opening a triangle). For closeness_centrality: adding an edge between vertices with the same label lowers no entry and raises those of both ends; adding an edge that joins two components lowers the entries of all vertices of these two components and changes no other (the sum runs over the own component only, while the numerator stays n-1); removing an edge does the opposite.", "quantifier": "all simple graphs, edges and q >= 2", "why_tests_cant": "A statement about every graph and every edge, relating results before and after a change.", "anchors": ["src/generic_graph/generic_graph.rs: add_edge", "src/generic_graph/generic_graph.rs: remove_edge", "src/generic_graph/generic_graph.rs: connected_components", "src/generic_graph/generic_graph.rs: connected_components_ids", "src/generic_graph/generic_graph.rs: diameter", "src/generic_graph/generic_graph.rs: q_core", "src/generic_graph/generic_graph.rs: closeness_centrality"]}
{"id": "C78", "title": "Known values on the ring and the complete graph", "statement": "For the ring in which every vertex is joined to the d next ones on both sides, d >= 1, n >= 2d+1 (the state init_ring(d) builds, and the SmallWorldWS that new(n, d, p, rng) returns when no coin shows heads, as for p < 0): is_connected is true, connected_components is [n], diameter is ceil(floor(n/2)/d), q_core(q) is n for 2 <= q <= 2d and 0 above, vertex_biconnected_components is [n] with either argument, leaf_count is 0, average_degree is 2d, and closeness_centrality is the same number for all vertices, (n-1) over the sum of ceil(min(a, n-a)/d) for a < n. For n >= 3d+1 the transitivity is 3(d-1)/(2(2d-1)). For complete_graph(n) with n >= 2: one component [n], diameter 1, q_core(q) is n for 2 <= q < n and 0 above, vertex_biconnected_components(false) is [n], leaf_count is 0 (2 for n = 2), average_degree is n-1, every closeness is 1, and all paths of length two are closed (transitivity 1 for n >= 3).", "quantifier": "all n, d and q", "why_tests_cant": "Closed formulas for every size; a test can only compare some sizes.", "anchors": ["src/generic_graph/generic_graph.rs: init_ring", "src/generic_graph/generic_graph.rs: diameter", "src/generic_graph/generic_graph.rs: q_core", "src/generic_graph/generic_graph.rs: vertex_biconnected_components", "src/generic_graph/generic_graph.rs: closeness_centrality", "src/generic_graph/generic_graph.rs: transitivity", "src/generic_graph/generic_graph.rs: leaf_count", "src/graph.rs: complete_graph", "src/watts_strogatz/ensemble.rs: new, randomize"]}
{"id": "C79", "title": "The floating point numbers the measures return", "statement": "With every conversion and division rounded to a nearest f64 (f32) number: transitivity() is NaN exactly if the graph has no path of length two, never infinite, otherwise in [0, 1] for any size, 0 exactly without triangles, and 1 exactly if all paths are closed (up to 2^53 paths); two graphs with up to 2^53 paths are never compared in the wrong order, and with up to 2^26 paths different transitivities give different numbers. average_degree() is NaN exactly for the graph without vertices, has relative error at most 4/2^24, is correctly rounded if the vertices and twice the edges do not exceed 2^24, never decreases when an edge is added and never increases when one is removed, and is exactly 2d on SmallWorldWS states and exactly 4 on SwEnsemble states up to that size. closeness_centrality() is NaN for a single vertex, infinite exactly for isolated vertices of larger graphs, positive otherwise, at most 1 in a connected graph and 1 exactly for vertices adjacent to all others. frac_nodes_wlre() and frac_long_ranging_edges() lie in [0, 1] and are 0 exactly without long-ranging edges.", "quantifier": "all simple graphs, all roundings to nearest (any rule for ties)", "why_tests_cant": "Rounding errors depend on all counts; tests compare a few values.", "anchors": ["src/generic_graph/generic_graph.rs: average_degree", "src/generic_graph/generic_graph.rs: closeness_centrality", "src/generic_graph/generic_graph.rs: transitivity", "src/sw_graph.rs: frac_nodes_wlre", "src/sw_graph.rs: frac_long_ranging_edges"]}
{"id": "C80", "title": "The target connectivity is the mean connectivity", "statement": "If rng yields independent uniform numbers, then after ErEnsembleC::new(n, c, rng) or randomize with 0 <= c <= n-1 the average degree has mean c up to 2n/2^53 (rounding of the probability c/(n-1) and the 53 bits of gen::<f64>() included), every vertex has degree of mean (n-1)p and variance (n-1)p(1-p), the number of edges has mean n(n-1)p/2 and variance n(n-1)p(1-p)/2, and a sample whose average degree is off by more than delta (plus that error) has probability at most 2(c + n/2^53)/(n delta^2), so large samples have the requested connectivity. For SpacialEnsemble the mean number of edges is the sum of the edge probabilities of all pairs.", "quantifier": "all n, c, delta and positions", "why_tests_cant": "A statement about the distribution over all random sequences; a test sees a few seeds and cannot tell a small bias from noise.", "anchors": ["src/er_c.rs: new, randomize, set_target_connectivity, target_connectivity", "src/generic_graph/generic_graph.rs: average_degree, degree", "src/spacial/spacial_ensemble.rs: randomize"]}
{"id": "C81", "title": "Which edges the Watts-Strogatz ensemble moves", "statement": "If rng yields independent uniform numbers and n >= 2*d+2, then SmallWorldWS::new(n, d, p, rng) and randomize return with probability one, and the edges that end up at another place than on the initial ring are chosen independently of each other, each with probability 1-(1-q)^2 = q(2-q), where q is the probability that gen::<f64>() <= p, which differs from p by at most 2^-53. The number of moved edges is binomial with mean n*d*q(2-q) and variance n*d*q(2-q)(1-q)^2. (The documentation says that each edge is rewired with probability p; the code throws a coin at both ends of every edge that is still at its place, so for 0 < p < 1 more edges are moved: three quarters instead of one half for p = 1/2.)", "quantifier": "all n, d, p and networks", "why_tests_cant": "A law over all random sequences and all vertices; a test sees a few seeds, and the expected fraction has to be known to notice that it is not p.", "anchors": ["src/watts_strogatz/ensemble.rs: new, randomize, add_random_edge, rewire_prob", "src/generic_graph/generic_graph.rs: init_ring"]}
{"id": "C82", "title": "Parameters are those set last, step values tell what happened", "statement": "After any list of public calls with any arguments, SwEnsemble::r_prob() is the value of the last set_r_prob (or the one at the start), ErEnsembleC::target_connectivity() is the value of the last set_target_connectivity (or that of the constructor) and the probability in use times n-1 equals it, ErEnsembleM::get_m() is the m of the constructor. Setting r_prob changes neither graph nor generator. SwChangeState returned by m_step is valid, and is_nothing_or_blocked() holds exactly if graph and edges are unchanged; otherwise the named old edge is gone and the named new edge is there. ErStepC returned by m_step is valid (valid_or_panic does not panic), is Nothing exactly if the edges are unchanged, and names the edge that appeared or disappeared; undoing it returns the opposite valid value, undoing a value that does not fit leaves the state unchanged and returns a value that is_valid() rejects. The value ErEnsembleM::undo_step returns redoes the step when passed to undo_step.", "quantifier": "all states, histories, arguments and generators", "why_tests_cant": "A parameter that some call resets, or a report that disagrees with the change, shows only in particular orders of calls.", "anchors": ["src/sw.rs: SwChangeState, r_prob, set_r_prob, m_step", "src/er_c.rs: ErStepC, target_connectivity, set_target_connectivity, m_step, undo_step", "src/er_m.rs: ErStepM, get_m, undo_step"]}
{"id": "C83", "title": "Exact law of the configuration model", "statement": "With uniform independent random numbers, ConfigurationModel::randomize() leaves a graph with exactly the edges E with probability (number of orders of the half edges that, joined in consecutive pairs, give E without loop or double edge) / (number of orders that can be joined without loop or double edge), whatever the state before. The probability is positive exactly if some simple graph has these degrees and these edges. Renaming the vertices in a way that keeps the degrees does not change the probability. It is not uniform over all graphs with the given degrees: for degrees 2,2,2,1,1 a triangle with a separate edge has probability 11/78 and each path 67/468.", "quantifier": "all degree vectors with even sum, all present states, all edge sets", "why_tests_cant": "A law over all graphs with given degrees is a statement about infinitely many executions with unboundedly many restarts; samples show neither exact values nor small bias.", "anchors": ["src/configuration_model.rs: randomize"]}
{"id": "C84", "title": "Exact law of the Barabasi-Albert ensemble", "statement": "With uniform independent random numbers, BAensemble::randomize() leaves a graph with exactly the edges E with the probability that growing the source graph by the new vertices, in a uniformly random order, gives E: each new vertex is joined to m different vertices chosen one after the other, each with probability proportional to its degree before the new vertex came, among those not chosen yet. The state before does not matter. In particular a single new vertex with m = 1 is joined to v with probability degree(v) / (2 * number of edges).", "quantifier": "all source graphs with an edge, all n and m, all present states, all edge sets", "why_tests_cant": "The law concerns infinitely many executions with unboundedly many rejected draws; a weight updated too early or too late changes probabilities only slightly.", "anchors": ["src/barabasi_albert.rs: randomize"]}
{"id": "C85", "title": "What every ensemble shows after any history", "statement": "After any sequence of public calls (randomize, steps, undo, sorting, exchanging the random number generator, setting parameters, writing node data) every ensemble answers every question about its graph rightly, through the ensemble itself: vertex and edge count, degree, average degree, number of leaves, connectivity, component sizes, diameter, longest shortest path from a vertex, size of the largest q-core component, transitivity, biconnected components, vertex load, at(i), contained_iter, depth-first and breadth-first search all agree with the simple graph the ensemble holds and with the node data written last; none of these calls panics where the answer exists.", "quantifier": "all seven ensembles, all parameters accepted by the constructors, all histories, all random numbers, all vertices and all q", "why_tests_cant": "The measures are delegated twice (ensemble to graph, trait to inherent method); tests compare a few measures on a few fresh graphs, not all measures after arbitrary histories of rewired, undone and sorted states.", "anchors": ["src/traits/graph_traits.rs: impl MeasurableGraphQuantities", "src/traits/ensemble_traits.rs: impl GraphIterators"]}
{"id": "C86", "title": "The dot text can be read back", "statement": "A reader for the dot language that knows nothing of the writers finds in the text of every dot function (dot_string, dot_string_with_indices, dot_string_from_indices, dot_string_from_container(_index), dot_string_from_contained(_index), to_dot, to_dot_with_labels_from_contained/container) exactly the vertices 0..n-1, exactly the edges of the graph, each once, and for every vertex exactly the label made for it, provided the options are options and the labels contain no quote and do not end in a backslash. All constants of dot_constants are options and options joined by dot_options! are options. Hence graphs with the same text have the same number of vertices and the same edges.", "quantifier": "all well-formed graphs, all containers, all label functions, all option texts", "why_tests_cant": "Tests compare a few texts with stored texts; they do not show that for every number of vertices (any number of digits), every option text and every label the text means the right graph.", "anchors": ["src/generic_graph/generic_graph.rs: to_dot, to_dot_with_labels_from_contained, impl Dot, impl DotExtra", "src/traits/dot_traits.rs", "src/dot_constants.rs"]}
{"id": "C87", "title": "Dot texts of the spatial ensembles place the vertices", "statement": "A dot reader finds in the text written by dot_string, dot_string_with_indices and dot_string_from_indices of a SpacialEnsemble or a DogEnsemble, after any history of calls, the graph, the label of every vertex and an attribute pos that pins vertex i to a hundred times its position (x_i, y_i), rounded to two digits after the point (error at most 1/200).", "quantifier": "all numbers of vertices, all positions, all label functions without quotes, all option texts, all histories", "why_tests_cant": "The position is smuggled into the quoted label by closing and reopening the quotes; tests print one file and look at the picture.", "anchors": ["src/spacial/spacial_ensemble.rs: impl Dot", "src/spacial/dog_networks.rs: impl Dot"]}
{"id": "C88", "title": "Where the Watts-Strogatz ensemble puts the edges it moves", "statement": "If rng yields independent uniform numbers, a removed edge is put back by add_random_edge on each free pair of vertices other than its own place on the ring with the same probability. For n >= 2*d+2 the probability that SmallWorldWS::new(n, d, p, rng) or randomize leaves each edge of the ring at a given place (moved edges at different places off the ring) depends only on which edges are moved, so all such placements are equally likely; that exactly one edge o is moved, to x, has probability m(1-m)^(nd-1)/(n(n-1)/2-nd) with m the probability of C81. If the coin is not constant, every simple graph with n*d edges on n vertices, and no other, arises with positive probability.", "quantifier": "all n, d, p, networks, placements and graphs", "why_tests_cant": "A law over all random sequences; tests cannot tell a slightly wrong distribution or a graph that is never produced.", "anchors": ["src/watts_strogatz/ensemble.rs: new, randomize, add_random_edge"]}
{"id": "C89", "title": "Many Markov steps, run on random numbers, sample the distribution of the ensemble", "statement": "Run with a generator that supplies independent uniform numbers, t calls of m_step of ErEnsembleC, ErEnsembleM, SpacialEnsemble, SwEnsemble and ConfigurationModel lead to a graph with the given edges with a probability that tends, as t grows and uniformly in the starting state, to the probability of that graph in the ensemble: independent edges (ErEnsembleC, with the probability of one coin), the uniform distribution on the graphs with m edges (ErEnsembleM), independent edges with the probabilities of the distances (SpacialEnsemble), independently rewired edges given that none coincide (SwEnsemble) and the uniform distribution on the simple graphs with the degree sequence (ConfigurationModel). For every t the probability is exactly the one obtained by summing over the draws of the single steps.", "quantifier": "all sizes (at least two vertices, six for SwEnsemble; 0 < m < n(n-1)/2; degrees not all zero), all parameters (rewiring probability not negative, law of SpacialEnsemble symmetric), all starting states and accuracies, all numbers of steps beyond one that depends only on size, parameters and accuracy; the probability is over all tapes of independent uniform numbers", "why_tests_cant": "the probability is a measure on infinite sequences of random numbers, and the number of draws of one step is not bounded for the configuration model; a test sees a few runs", "anchors": ["src/er_c.rs:154-179", "src/er_m.rs:202-217", "src/spacial/spacial_ensemble.rs:183", "src/sw.rs:501-504", "src/configuration_model.rs:428-464"]}
{"id": "C90", "title": "The average of a measured quantity along one long Markov chain is its mean over the ensemble", "statement": "A program that calls m_step of ErEnsembleC, ErEnsembleM, SpacialEnsemble, SwEnsemble or ConfigurationModel N times, measures any function f of the edges after every step and divides the sum by N obtains, run with independent uniform random numbers, a value within delta of the mean of f over the distribution of the ensemble (see C89) with a probability above 1 - eta, for every N beyond a number that depends only on the size, the parameters, f, delta and eta, whatever the first state. With probability one, none of the N calls fails or runs forever, for any N, and the averages over the first N steps of one and the same run converge to that mean. In particular, no burn-in phase is needed for the limit and the states need not be independent.", "quantifier": "all sizes and parameters as in C89, all functions f of the edges (with their roots for SwEnsemble), starting states, delta, eta > 0, all sufficiently large N; the probability is over all tapes of independent uniform numbers", "why_tests_cant": "a statement about the limit of correlated samples on infinite sequences of random numbers; a test compares one finite average with a tolerance chosen by hand", "anchors": ["src/er_c.rs:210-236", "src/er_m.rs:220-246", "src/spacial/spacial_ensemble.rs:183-199", "src/sw.rs:501-504", "src/configuration_model.rs:428-464"]}
{"id": "C91", "title": "The distribution of DogEnsemble::randomize, with preferential long-range edges", "statement": "Run with independent uniform random numbers, randomize of a DogEnsemble returns a graph with the edges E with exactly the probability of the following experiment, whatever the state before the call: every pair i > j gets a short edge independently with the probability of a throw below the computed value; the first round(n (1 - tau)) vertices of a uniformly random order are special; one after the other, each special vertex gets a number of long-range edges distributed as the Poisson sampler, each to a partner that is not itself and not yet a neighbour, chosen with a weight equal to the number of values of Uniform<f64> below (degree of the partner) / (sum of all degrees), the degrees being those at this moment. A partner is therefore chosen with a probability that differs from its share of the degrees, among the vertices that are not neighbours, by at most (sum of degrees) 2^-52. The probability of all E together is the probability that the call returns.", "quantifier": "all sizes, positions, functions for the short edges, tau with round(n (1 - tau)) <= n, every sampler of the numbers of long-range edges that reads finitely many random numbers, all edge sets E; the probability is over all tapes of independent uniform numbers", "why_tests_cant": "a statement about a distribution over infinite sequences of random numbers and about a loop without a bound on its rounds; tests sample a few runs", "anchors": ["src/spacial/dog_networks.rs:90-146"]}
{"id": "C92", "title": "A saved ensemble, graph or step comes back unchanged, and a simulation can be resumed", "statement": "With the default feature serde_support, every ErEnsembleC, ErEnsembleM, SwEnsemble, ConfigurationModel, BAensemble, SmallWorldWS and SpacialEnsemble, every GenericGraph and DualGraph, and every value returned by a step or by its undoing is the same after serialising and deserialising it with a format that keeps numbers: adjacency lists in their order, node data, parameters, working lists and the state of the generator. k steps, saving as JSON, loading, and l steps give the same steps and the same ensemble as k + l steps. In JSON a graph with positions comes back exactly if no coordinate is NaN, otherwise loading fails; a SpacialEnsemble always comes back, a new SpacialGraph with at least one vertex never. Files may list the fields of a struct in any order and contain further fields. Loading does not check the invariants of the graph: a file for a SpacialEnsemble with a wrong vertex count is accepted and the next step reads out of bounds.", "quantifier": "all values of the types, all node and generator types which themselves come back, all numbers of steps, all orders of the fields, all histories of calls", "why_tests_cant": "the tests compare the debug output of one saved object and read eight recorded files; a field forgotten or exchanged in a type they do not save, or a value that a format cannot represent, goes unnoticed", "anchors": ["src/er_c.rs:71-80", "src/er_m.rs:99-109", "src/sw.rs:196-203", "src/configuration_model.rs:24-38", "src/barabasi_albert.rs:26-36", "src/watts_strogatz/ensemble.rs:41-48", "src/watts_strogatz/ws_container.rs:17-63", "src/spacial/spacial_ensemble.rs:23-32", "src/spacial/spacial_graph.rs:18-26", "src/generic_graph/generic_graph.rs:31-39", "src/graph.rs:32-37", "src/sw_graph.rs:15-19", "src/sw_graph.rs:157-162", "src/dual_graph/dual_graph.rs:18-26", "src/lib.rs:152-179"]}
{"id": "C93", "title": "How many Markov steps are enough", "statement": "Let N = n (n - 1) / 2. After t calls of m_step of an ErEnsembleC or SpacialEnsemble with n vertices the probability of every set of networks differs from that in the ensemble by at most N (1 - 1/N)^t, whatever the first network; N log(N / eps) steps give an error of at most eps. The probability that two given vertices are connected after t steps is h + (s - h)(1 - 1/N)^t exactly, where h is the probability of the coin and s tells whether they were connected at first; the mean number of edges of ErEnsembleC relaxes in the same way. For ErEnsembleM with m edges the bound is min(m, N - m) (1 - (N - 2) / (m (N - m)))^t, and m (N - m) / (N - 2) log(min(m, N - m) / eps) steps are enough. The average of a quantity over the first k steps, of which the pair x changes the value by at most L(x), is off by delta or more with a probability of at most (sum of L)^2 (1 + 2 N) / (k delta^2), and analogously for ErEnsembleM.", "quantifier": "all numbers of vertices and edges, all parameters, all first networks, all numbers of steps, all sets of networks and all quantities with bounded influence of one edge", "why_tests_cant": "probabilities over all random tapes for every number of steps; a test sees a few runs and cannot tell an equilibrated chain from a slow one", "anchors": ["src/er_c.rs:210-236", "src/er_m.rs:220-246", "src/spacial/spacial_ensemble.rs:183-199", "src/sw.rs:501-504", "src/configuration_model.rs:428-464"]}
{"id": "C94", "title": "Samples drawn by calling randomize again and again are independent; averages over them have the usual error", "statement": "Let an ErEnsembleC, ErEnsembleM, SpacialEnsemble, ConfigurationModel, BAensemble, SmallWorldWS (n >= 2d + 2) or DogEnsemble call randomize again and again on random numbers, looking at the edges after each call (simple sampling). With probability one every call returns; the edge sets seen are independent random variables, all with the law of a single call (independent edges for ErEnsembleC and SpacialEnsemble, uniform among the sets of m edges for ErEnsembleM, the laws of C83, C84 and C91 for ConfigurationModel, BAensemble and DogEnsemble), whatever the network at the start. Where a call may hang, the probability that the first k calls return with given edge sets is still the product. For every quantity the average over n samples converges to the expectation with probability one, its variance is that of one sample divided by n, it is off by delta or more with probability at most variance / (n delta^2), and sqrt(n) times the error is in the limit normally distributed. (SwEnsemble is excluded, see C69.)", "quantifier": "all numbers of vertices, parameters, node data, first networks, numbers of samples, quantities; all random tapes up to probability zero", "why_tests_cant": "independence is a statement about the joint probability of all samples; a test sees one sequence", "anchors": ["src/er_c.rs:128-143", "src/er_m.rs:157-176", "src/spacial/spacial_ensemble.rs:132-159", "src/configuration_model.rs:334-350", "src/barabasi_albert.rs:199-229", "src/watts_strogatz/ensemble.rs:224-267", "src/spacial/dog_networks.rs:90-146", "src/lib.rs:106-143"]}
{"id": "C95", "title": "How many edges, neighbours and triangles randomize gives", "statement": "After randomize on random numbers: for ErEnsembleC the number of edges among any given pairs of vertices is binomially distributed with the edge probability; in particular edge_count is Binomial(n(n-1)/2, p) and degree(v) is Binomial(n-1, p) for every vertex, and exactly the pairs B among the pairs A are joined with probability p^|B| (1-p)^(|A|-|B|). For ErEnsembleM the number of edges among given pairs is hypergeometrically distributed, degree(v) with n-1 of the n(n-1)/2 pairs marked, and given pairs are all joined with probability C(N-a, m-a)/C(N, m). For SpacialEnsemble exactly the pairs B of A are joined with the product of the probabilities of the pairs, so a vertex has no neighbours with the product of the probabilities of not being joined. The average number of triangles (a sixth of the numerator of transitivity) over repeated calls converges with probability one to C(n,3) p^3 for ErEnsembleC and to C(n,3) C(N-3, m-3)/C(N, m) for ErEnsembleM. (p is the probability that gen::<f64>() is at most the probability given, C65.)", "quantifier": "all numbers of vertices, parameters, node data, networks before the call, sets of pairs, vertices, positions on the tape", "why_tests_cant": "the distribution of a random result is not visible in finitely many runs", "anchors": ["src/er_c.rs:128-143", "src/er_m.rs:157-176", "src/spacial/spacial_ensemble.rs:132-159", "src/generic_graph/generic_graph.rs:517-524"]}
{"id": "C96", "title": "How many rounds the loops that draw until it fits take", "statement": "The loops of ConfigurationModel::randomize and m_step, of SmallWorldWS::randomize (the search for a new place of an edge) and of DogEnsemble::randomize (the search for a partner) have no bound in the code. On random numbers: n rounds are enough with probability 1 - (1 - q)^n and on average 1/q rounds are needed (infinitely many for q = 0), where q is: for ConfigurationModel::randomize the share of the orders of the edge halves that can be joined one after the other to a simple graph; for ConfigurationModel::m_step 1 - sum d(d-1) / (S(S-1)) with the degrees d and their sum S; for a search of SmallWorldWS 2 f / n^2 with the number f of pairs that are neither edges nor the old place, so that n/(n-1-2d) rounds on average are enough; for a search of DogEnsemble the mean over the vertices of the share of the coin values below degree / degree sum, restricted to other vertices that are not yet adjacent. A whole SmallWorldWS::randomize with at most F rounds for each search returns with probability (1 - ((2d+1)/n)^F)^(nd) or more, for every rewiring probability and every network before. BAensemble::randomize: N draws for a new vertex are not enough with the probability that N vertices drawn with probability degree / sum of degrees are less than m different ones; with e > (m-1)(m-2)/2 edges before, m 2e / (e - (m-1)(m-2)/2) draws on average are enough however uneven the degrees are; with at most F draws for each new vertex the whole call returns with probability (1 - m 2e / ((e - (m-1)(m-2)/2)(F+1)))^(number of new vertices) or more, e the number of edges of the source graph.", "quantifier": "all degree vectors with even sum > 0, all networks of the ensembles, n < 2^32, d with 2d + 1 <= n (2d + 1 < n for the mean), all numbers of rounds, all random tapes (as probabilities); all source graphs and m with (m-1)(m-2)/2 less than the number of edges", "why_tests_cant": "the run time of an unbounded loop on random numbers is a distribution; a test that returns shows one value", "anchors": ["src/configuration_model.rs:334-350", "src/configuration_model.rs:428-437", "src/watts_strogatz/ensemble.rs:136-158", "src/watts_strogatz/ensemble.rs:224-267", "src/spacial/dog_networks.rs:125-144", "src/barabasi_albert.rs:214-228"]}
{"id": "C97", "title": "Simulations with rejection sample the ensemble times the weights of the simulation", "statement": "Metropolis and entropic sampling use the ensembles only by m_steps and undo_steps_quiet: a trial makes k steps, and if it is not accepted (probability min(1, w(new)/w(old))) the steps are taken back. For ErEnsembleC, ErEnsembleM, SpacialEnsemble, SwEnsemble and ConfigurationModel, for every k > 0 and all positive weights w: from every valid state the probability of a network after t trials converges to (its probability in the ensemble) * w / normalisation, and the law of t trials is in detailed balance with it for every t. With weights inverse to the number of networks with the same value of a quantity, every value that occurs gets the same probability (flat histogram; ErEnsembleM, ConfigurationModel). If weights may be zero (undefined quantity, such as the diameter of a network that is not connected, or a restricted interval): for ErEnsembleC and SpacialEnsemble every k > 0 works if adding edges never leads to weight zero; for ErEnsembleC, ErEnsembleM, SwEnsemble and ConfigurationModel there is a k0 such that every k >= k0 works for all such weights.", "quantifier": "all valid ensemble states, all weights (positive, or non-negative where stated), all step sizes k and numbers of trials t, all accuracies", "why_tests_cant": "that rejected trials restore the chain exactly and the limit law is the weighted ensemble is a statement about distributions; the integration test only compares two runs with the same seeds", "anchors": ["src/sampling.rs:1-8", "tests/integration_test_er_c.rs:45-90", "src/er_c.rs:154-239", "src/er_m.rs:186-230", "src/spacial/spacial_ensemble.rs:183-260", "src/sw.rs:501-560", "src/configuration_model.rs:428-540"]}
{"id": "C98", "title": "Simulations restricted to connected networks stay connected and sample exactly the connected part of the ensemble", "statement": "A simulation that rejects every network for which is_connected does not return Some(true) (needed for quantities like the diameter, which is None otherwise) is a simulation with the weights set to zero on these networks. For ErEnsembleC (positive edge probability), SpacialEnsemble (all pairs with positive probability), ErEnsembleM, SwEnsemble (at least six vertices, rewiring probability not negative) and ConfigurationModel (degrees not all zero), for every step size k >= 1, all positive weights w and every connected start network: after any number of trials the probability of a network that is not connected is 0, and every connected network gets in the limit (its probability in the ensemble) * w, normalised over the connected networks only; in particular no connected network is out of reach. For SwEnsemble networks are compared together with the roots of their edges, and the probability in the ensemble is that of independently rewired edges without double edges. For ConfigurationModel all networks with the prescribed degrees have the same probability in the ensemble, so the connected ones get w, normalised.", "quantifier": "all valid connected start states, all positive weights, all step sizes k >= 1 and numbers of trials, all networks of the ensemble, all accuracies", "why_tests_cant": "that single exchanges of edges can reach every connected network through connected networks only is a statement about the whole state space and about limits of distributions", "anchors": ["src/sampling.rs:1-8", "src/generic_graph/generic_graph.rs:735-742", "src/er_c.rs:154-239", "src/er_m.rs:186-230", "src/spacial/spacial_ensemble.rs:183-260", "src/sw.rs:501-545", "src/configuration_model.rs:428-529"]}
{"id": "C99", "title": "Averages and histograms over the networks visited by a simulation with rejection converge to the weighted ensemble means", "statement": "What a Metropolis or entropic sampling simulation reports is an average (or a histogram, which is an average of indicators) over the networks after its single trials, a rejected trial counting the old network again. For ErEnsembleC, ErEnsembleM, SpacialEnsemble, SwEnsemble and ConfigurationModel, for every step size k >= 1, all positive weights w and every quantity f of the network: for all tolerances there is a number N0 such that for all N >= N0 and every valid start state the average of f over the networks after N trials deviates from (sum of P*w*f)/(sum of P*w) by less than the tolerance, except with a probability as small as wanted (P the probability in the ensemble, sums over all its networks); and no trial panics or hangs, so these probabilities add up to one. If networks that are not connected are rejected (positive edge probabilities for ErEnsembleC and SpacialEnsemble) and the start network is connected, the same holds with the sums over the connected networks only. With weights inverse to the number of networks with the same value of a quantity, the share of the trials with any one value that occurs tends to one over the number of values: the histogram becomes flat (ErEnsembleM, ConfigurationModel).", "quantifier": "all valid start states (connected ones for the restricted simulation), all positive weights, all quantities, all step sizes k >= 1, all tolerances and error probabilities, all N from some N0 on", "why_tests_cant": "a law of large numbers for dependent samples speaks about the probability of all sequences of trials of unbounded length; a finite run can only show that one average is near one number", "anchors": ["src/sampling.rs:1-8", "src/generic_graph/generic_graph.rs:735-742", "src/er_c.rs:154-239", "src/er_m.rs:186-230", "src/spacial/spacial_ensemble.rs:183-260", "src/sw.rs:501-545", "src/configuration_model.rs:428-529"]}
{"id": "C100", "title": "Ages and degrees in the Barabasi-Albert ensemble", "statement": "For BAensemble::randomize() with uniform independent random numbers, any source graph with an edge, any n and m: (1) the new vertices are exchangeable, that is permuting them does not change the probability of a network, so the index of a new vertex says nothing about when it was attached. (2) A new vertex is joined to a vertex at least as often as to one of lower degree, also for m > 1, where targets are drawn without replacement. (3) A lead is kept: of two vertices of the source, the one whose degree there is not lower has, after all vertices were attached, at least x neighbours at least as often as the other, for every x. (4) For m = 1 the mean degree of a vertex of the source afterwards is its degree there times the product over t = 0 .. n-n0-1 of 1 + 1/(2(E0+t)) (n0 vertices and E0 edges in the source); all new vertices have the same mean degree, and these means add up to the rest of the total 2 E0 + 2 (n-n0).", "quantifier": "all source graphs with an edge, all n and m (m = 1 for the means), all present states, all permutations of the new vertices, all pairs of source vertices, all x", "why_tests_cant": "the claims compare probabilities and means over all executions, with unboundedly many rejected draws; a bias of the order or of the weights is invisible in a single network", "anchors": ["src/barabasi_albert.rs:196-230"]}
{"id": "C101", "title": "Two looks at one chain: after randomize nothing has to be thrown away, and how fast it forgets", "statement": "A program calls randomize(), looks at the network, makes t Markov steps (m_steps) and looks again. With uniform independent random numbers and any state before the call, for ErEnsembleC (n >= 2), SpacialEnsemble (n >= 2, symmetric law) and ErEnsembleM (0 < m < N = n(n-1)/2): (1) the second network has exactly the distribution of the ensemble, for every t; (2) the pair of looks is reversible: first a network with A and then one with B is as likely as first B, then A; (3) for every quantity g of the first network and every sum over the edges of the second (edge_count, the degree of a vertex, the number of edges inside a set, ...) the covariance is the covariance within one network times r^t, with r = 1 - 1/N for ErEnsembleC and SpacialEnsemble, r = 1 - N/(m(N-m)) for ErEnsembleM; (4) for the same sum with weights a at both looks the value is r^t times sum of a(x)^2 p(x)(1-p(x)), for ErEnsembleM r^t times m(N-m)/(N(N-1)) (sum a^2 - (sum a)^2/N); (5) for ErEnsembleM the probability that a pair is connected t steps after any network is m/N + (s - m/N) r^t with s = 1 if it was connected at the start and 0 otherwise.", "quantifier": "all numbers of vertices, probabilities, laws and edge numbers in the stated ranges, all states before the call, all events A and B, all quantities g, all weights a, all t", "why_tests_cant": "the claims are equalities of probabilities and covariances over all random streams; a step that proposes with slightly wrong probabilities, or a randomize with a slightly different law than the chain, leaves every single run valid", "anchors": ["src/er_c.rs:128-144", "src/er_c.rs:154-175", "src/er_m.rs:157-178", "src/er_m.rs:179-246", "src/spacial/spacial_ensemble.rs:132-150", "src/spacial/spacial_ensemble.rs:177-250"]}
{"id": "C102", "title": "Trees", "statement": "A simple graph for which is_connected returns Some(true) and edge_count + 1 = vertex_count is a connected graph without cycles, and conversely. For such a graph: (1) with at least two vertices leaf_count is 2 plus the sum over all vertices of max(degree - 2, 0), transitivity counts no closed path, q_core(q) is 0 for every q >= 2, vertex_biconnected_components(false) is n-1 times 2, with argument true empty. (2) Double sweep: for every vertex u, if w is the vertex that bfs_index_depth(u) yields last, longest_shortest_path_from_index(w) is the diameter. (3) If x and y are the ends of a longest path, longest_shortest_path_from_index(v) is the larger of the distances from v to x and to y, for every v. (4) The smallest longest_shortest_path_from_index is diameter/2 rounded up. (5) After remove_edge(u, v) connected_components has exactly the two entries b and n-b, where b is the number of vertices nearer to u than to v. (6) vertex_load(false) of v is (n-1)^2 minus the sum over the neighbours u of b(u)^2, b(u) as in (5); vertex_load(true) is n-1 more. (7) BAensemble with m = 1 grown from a source that is a tree with at least two vertices is a tree whenever randomize returns.", "quantifier": "all trees, all vertices, all orders of the adjacency lists, all random numbers", "why_tests_cant": "Statements about every tree that connect separately written algorithms; tests see a few graphs.", "anchors": ["src/generic_graph/generic_graph.rs: is_connected", "src/generic_graph/generic_graph.rs: leaf_count", "src/generic_graph/generic_graph.rs: transitivity", "src/generic_graph/generic_graph.rs: q_core", "src/generic_graph/generic_graph.rs: bfs_index_depth", "src/generic_graph/generic_graph.rs: longest_shortest_path_from_index", "src/generic_graph/generic_graph.rs: diameter", "src/generic_graph/generic_graph.rs: connected_components", "src/generic_graph/generic_graph.rs: vertex_biconnected_components", "src/generic_graph/generic_graph.rs: vertex_load", "src/barabasi_albert.rs: randomize"]}
{"id": "C103", "title": "The measures do not depend on the names of the vertices", "statement": "If one graph arises from another by renaming the vertices (a permutation of the indices 0..n-1 that maps the edges onto each other; container types, order of the adjacency lists and stored node values may differ), then edge_count, average_degree, leaf_count, degree_histogram, is_connected, connected_components, diameter, q_core(q) for every q, and transitivity return the same values; degree, longest_shortest_path_from_index, closeness_centrality and vertex_load return for the renamed vertex what they returned for the vertex. vertex_biconnected_components(false) returns the same number of entries, but (defect, see C21) not always the same entries.", "quantifier": "all well-formed graphs of all node and container types, all permutations of the vertex indices, all vertices, all q", "why_tests_cant": "Invariance relates all n! namings of all graphs; the algorithms start at index 0 or iterate in index order (stacks, queues, first undiscovered vertex), so a dependence on names shows only for particular combinations, as the biconnected components prove.", "anchors": ["src/generic_graph/generic_graph.rs: connected_components, diameter, q_core, transitivity, closeness_centrality, vertex_load, degree_histogram, leaf_count, longest_shortest_path_from_index, vertex_biconnected_components"]}
{"id": "C104", "title": "Common random numbers: nested networks, meeting chains, monotone probabilities", "statement": "ErEnsembleC and SpacialEnsemble use their generator in the same way whatever the present network and the probabilities are. Two ensembles with equal generators therefore stay in step: (1) after new (ErEnsembleC) or randomize the network with the smaller edge probabilities is contained in the other one and the generators are equal again; (2) under m_step nested networks stay nested for any number of steps; (3) with equal probabilities, two chains started from any two networks agree in all pairs drawn so far and have changed no other pair, so they become and remain equal as soon as all differing pairs have been drawn; (4) if the chains from a smaller and a larger network have met, so have those from all networks in between (empty and complete graph decide for all starts). Nested networks have ordered edge counts, degrees, component counts and sizes, diameters and q-cores. Consequence: the probability of any increasing property (connected, diameter at most d, largest component or q-core at least k) does not decrease with the edge probability, after randomize and after any number of steps.", "quantifier": "all node types, generators, graphs, edge probabilities p <= p' (for the spatial ensemble laws ordered pointwise), all numbers of steps, all increasing properties", "why_tests_cant": "A statement about pairs of executions on the same random numbers, for all generators and all numbers of steps; monotonicity of probabilities is a statement about the whole distribution.", "anchors": ["src/er_c.rs:128-174 randomize, m_step", "src/er_c.rs:239-250 new", "src/spacial/spacial_ensemble.rs:183-211 m_step, randomize"]}
{"id": "C105", "title": "Probabilities that are not probabilities: NaN, infinities, values outside [0, 1], and zero", "statement": "No constructor or setter checks a probability. (1) Every f64 value given as probability to ErEnsembleC, SwEnsemble, SmallWorldWS or SpacialEnsemble decides every throw like a rational number: NaN and -inf like a negative number, +inf like 1. (2) Negative or NaN: randomize of ErEnsembleC and SpacialEnsemble returns the edgeless graph, m_step of ErEnsembleC can only remove the drawn pair, SmallWorldWS::randomize returns the ring, SwEnsemble::randomize never increases the number of long-range edges. (3) At least 1 - 2^-53: randomize of ErEnsembleC and SpacialEnsemble returns the complete graph, m_step can only add the drawn pair, SmallWorldWS::randomize leaves no edge at its place. (4) ErEnsembleC::new with c_target >= n - 1 gives the complete graph, with a negative one no edges. (5) The probability 0 is not never: the throw 0 succeeds.", "quantifier": "all f64 values, all generators, all graphs and node types", "why_tests_cant": "All f64 values including NaN, all generators; that 0 is not 'never' shows in one of 2^53 throws.", "anchors": ["src/er_c.rs:133,158,239-250", "src/sw.rs:302", "src/watts_strogatz/ensemble.rs:240", "src/spacial/spacial_ensemble.rs:138,186,205"]}
{"id": "C106", "title": "Constructors at the edges: too small rings, no vertices, 64-bit overflow, in both builds", "statement": "(1) SwEnsemble::new: one or two vertices are undefined behaviour in a release build (a debug build panics), three or four panic in both, all other numbers give the same ensemble in both. (2) SwEnsemble::new_with_distance(n, d) in a release build: undefined behaviour for 1 <= n <= d, Err(EdgeExists) in both builds for d < n <= 2d, panic for d = 1 < n/2, and for d >= 2, n > 2d an ensemble with n d edges; its m_step panics exactly for the draws >= 2n of the n d possible. A debug build panics exactly for 1 <= n <= d and for n > 2d with d other than 2. (3) WS::new agrees in both builds with the documented behaviour for neighbor_distance < 2^63; from 2^63 on a debug build panics, and a release build is undefined behaviour if 1 + 2 (d - 2^63) <= n and returns ImpossibleRingRequest otherwise. (4) With 1 <= n <= 2^32 vertices complete_graph and ErEnsembleM::new do the same in both builds and no product overflows; with more, a debug build panics. ErEnsembleC::new (n >= 1) and from_const (size >= 1) do the same in a release build for all sizes. (5) With no vertices a debug build panics and a release build returns an empty network (or panics for ErEnsembleM with m > 0). (6) The connecting of components panics in a debug build exactly if there are at least 2^31 components.", "quantifier": "all numbers of vertices, distances, degrees, probabilities, generators and node types", "why_tests_cant": "Distances of 2^63, 2^32 vertices and 2^31 components cannot be tried; tests run in debug builds, where the undefined behaviour is a panic, and absence of undefined behaviour is not observable by running.", "anchors": ["src/sw.rs:214-245", "src/watts_strogatz/ensemble.rs:101-129", "src/generic_graph/generic_graph.rs:151-169,371-402,912-932", "src/er_m.rs:245-278", "src/er_c.rs:239-250", "src/graph.rs:332-356", "src/configuration_model.rs:62-74"]}
{"id": "C107", "title": "Dual graphs whose member graph was exchanged for one of another size", "statement": "graph_1_mut and graph_2_mut allow to exchange a member graph while the cross edges stay. (1) A vertex of the other graph stays sound exactly if all its partners still exist, a vertex of the new graph is sound exactly if the old graph had its index; add_edge refuses the additional vertices with IndexOutOfBounds and still accepts partners that are gone. (2) On valid member graphs with arbitrary cross lists dfs_index and bfs_index panic exactly if a vertex that is not sound is reachable along the stored lists; otherwise they yield exactly the reachable vertices, each once, bfs_index with the least number of steps and in that order. (3) is_connected panics exactly if something not sound is reachable from vertex 0 of the first graph, otherwise it says whether everything is reachable from there; with one empty member it ignores the cross edges. (4) diameter panics exactly when is_connected does, if both members have vertices, and otherwise is the largest number of steps from any vertex other than vertex 0 of the second graph. With one empty member diameter can panic although is_connected is true.", "quantifier": "all dual graphs with valid members and arbitrary lists of cross partners of both kinds, all start vertices", "why_tests_cant": "Whether a search meets a dangling partner depends on the whole graph; that it panics in every such case and is right in every other one is a statement about all graphs.", "anchors": ["src/dual_graph/dual_graph.rs:61-69,87-116,156-267", "src/dual_graph/dual_graph_iterators.rs:24-107,283-398"]}
{"id": "C108", "title": "How large the error of an average along one run is", "statement": "A program calls randomize(), makes N > 0 Markov steps (m_step) and averages a sum of weights a(x) over the edges (edge_count, the degree of a vertex, the number of edges inside a set, ...) over the networks after the N steps. With uniform independent random numbers and any state before the call, for ErEnsembleC (n >= 2), SpacialEnsemble (n >= 2, symmetric law) and ErEnsembleM (0 < m < M = n(n-1)/2): (1) the program returns with probability one, the mean of the average is the mean of the ensemble, for every N; (2) the variance of the average is exactly s2 (N(2t-1) - 2t(t-1)(1-(1-1/t)^N)) / N^2, where s2 is the variance of the sum within one network (sum of a(x)^2 p(x)(1-p(x)), for ErEnsembleM m(M-m)/(M(M-1)) (sum a^2 - (sum a)^2/M)), and t = M for ErEnsembleC and SpacialEnsemble, t = m(M-m)/M for ErEnsembleM; (3) so the average is closer than d to the mean with probability at least 1 - s2 max(1, 2t-1) / (N d^2): about 2t-1 steps are worth one independent network; (4) without randomize, from any network on, the mean of the average is the mean of the ensemble plus (t-1)(1-(1-1/t)^N)/N times the deviation of the first network from it.", "quantifier": "all numbers of vertices, probabilities, laws and edge numbers in the stated ranges, all states before the call, all weights a, all N > 0, all d > 0", "why_tests_cant": "the variance of an average is a property of the joint distribution of N correlated networks over all random streams; a step that moves too little or proposes with wrong probabilities leaves every single network valid and changes only how fast averages settle", "anchors": ["src/er_c.rs:128-144", "src/er_c.rs:154-175", "src/er_m.rs:157-178", "src/er_m.rs:179-246", "src/spacial/spacial_ensemble.rs:132-150", "src/spacial/spacial_ensemble.rs:177-250"]}
{"id": "C109", "title": "How likely a network of the Erdős–Rényi ensembles is connected", "statement": "If rng yields independent uniform numbers: after ErEnsembleC::randomize with n+1 vertices, is_connected is Some(true) with the probability g(n) given by Gilbert's recursion g(n) = 1 - sum over k < n of (n choose k) g(k) (1-p)^((k+1)(n-k)), where p is the exact probability of a coin (53 bits); for every vertex v exactly s+1 vertices have its label in connected_components_ids with probability (n choose s) g(s) (1-p)^((s+1)(n-s)). After ErEnsembleM::randomize with m edges the probabilities are C(n,m) / (N choose m) and (n choose s) sum over j <= m of C(s,j) ((n-s)(n-s-1)/2 choose m-j) / (N choose m), where N = n(n+1)/2 and C is the number of connected graphs, given by the corresponding recursion. A program that calls randomize until is_connected is true needs more than i calls with probability (1-g)^i, and ends with each connected network with its probability in the ensemble divided by g (ErEnsembleC with p > 0), and with all connected networks with m edges equally likely (ErEnsembleM). The mean number of entries s+1 in connected_components (clusters with s+1 vertices) is (n+1 choose s+1) g(s) (1-p)^((s+1)(n-s)) for ErEnsembleC and the corresponding quotient of counts for ErEnsembleM, and the average over repeated randomize calls converges to it with probability one.", "quantifier": "all n, all vertices and sizes, all probabilities, all m", "why_tests_cant": "A statement about the distribution over all random sequences and all edge sets; a test estimates it from some seeds.", "anchors": ["src/er_c.rs: randomize", "src/er_m.rs: randomize", "src/generic_graph/generic_graph.rs: is_connected", "src/generic_graph/generic_graph.rs: connected_components_ids", "src/generic_graph/generic_graph.rs: connected_components"]}
{"id": "C110", "title": "All ways to the data at the vertices agree", "statement": "On a well-formed graph `at`, `at_checked`, `get_contained` and `get_contained_unchecked` give the same value for every vertex; for any other index they panic, give `None`, give `None` and are undefined behaviour. Assigning through `at_mut`, `get_contained_mut` or `get_contained_unchecked_mut` gives the same graph: the next read of that vertex gives the new value, all other data, the neighbours, the counts and the invariants are as before. Writing through `contained_iter_mut` reaches each vertex once in the order of the indices. `collect()` into a `Graph` gives one isolated vertex per item in order. Through the trait `Contained` on ER, configuration-model and small-world ensembles the same holds and nothing but the graph of the ensemble changes.", "quantifier": "for all well-formed graphs of every container type, all indices, all values, all update functions, all item lists, all states of the five ensembles", "why_tests_cant": "A test reads a few vertices of a few graphs; it cannot show that a write through one accessor is seen by all the others and by none of the other vertices, nor that an unchecked access is defined exactly on the vertices.", "anchors": ["src/generic_graph/generic_graph.rs:208-218", "src/generic_graph/generic_graph.rs:250-255", "src/generic_graph/generic_graph.rs:321-348", "src/generic_graph/generic_graph.rs:439-476", "src/graph.rs:311-326", "src/traits/graph_traits.rs:136-158", "src/er_c.rs:476-493", "src/er_m.rs:401-418", "src/configuration_model.rs:533-550", "src/sw.rs:647-664", "src/watts_strogatz/ensemble.rs:437-454"]}
{"id": "C111", "title": "What the calls ask of the generator, and jumping ahead", "statement": "`randomize` of `ErEnsembleC` and of the spatial ensembles takes exactly one number in [0, 1) from the generator for each pair of vertices, whatever the network, the probabilities and the numbers are; `m_step` takes two indices and one number; `ErEnsembleM::randomize` shuffles the list of all pairs once and `m_step` takes two indices; `SwEnsemble::m_step` takes the index of an edge, one number and, only when the edge is to be rewired, one more index; its `randomize` makes exactly two such proposals per vertex; undoing in `ErEnsembleC` takes nothing. So the (k+1)-st network of a run of `randomize` is obtained by letting the generator skip k n(n-1)/2 numbers and calling `randomize` once. The calls that draw until it fits: `ConfigurationModel::randomize` only shuffles the list of the edge halves, once or more; its `m_step` asks for two places in this list until they belong to different vertices, then for one neighbour of each; `BAensemble::randomize` shuffles the new vertices once, then each of them asks for m numbers or more below twice the number of edges at that time; `SmallWorldWS::randomize` asks at each vertex for numbers in [0, 1) and then for pairs of numbers below n, one pair or more for each edge to be moved.", "quantifier": "for all networks, parameters, generators, histories and k", "why_tests_cant": "A test with a seeded generator sees one sequence of answers; that the number of requests does not depend on the answers, and that far networks of a run can be reproduced on their own, are statements about all of them.", "anchors": ["src/er_c.rs:128-174", "src/er_c.rs:182-225", "src/er_c.rs:349-358", "src/er_m.rs:157-176", "src/er_m.rs:202-216", "src/spacial/spacial_ensemble.rs:132-199", "src/sw.rs:288-343", "src/sw.rs:463-504", "src/configuration_model.rs:334-350", "src/configuration_model.rs:428-464", "src/barabasi_albert.rs:199-229", "src/watts_strogatz/ensemble.rs:136-158", "src/watts_strogatz/ensemble.rs:224-267"]}
{"id": "C112", "title": "Cores, components and isolated vertices of Barabási-Albert networks", "statement": "After `BAensemble::randomize`, for every q > m the result of `q_core(q)` is that of the source graph: no attached vertex belongs to such a core. For 2 <= q <= m it is the number of all vertices, provided the source is connected and each of its vertices has at least q neighbours. In particular a network made by `new(n, rng, m, s)` with m < s has the q-core n for q <= m, s for m < q < s and 0 beyond. A vertex of the source without a neighbour never gets one, and no vertex of the source loses neighbours. The number of connected components never increases for m >= 1, and for m = 1 it is exactly that of the source.", "quantifier": "for all sources with an edge, m, n, q, generators and every run that returns", "why_tests_cant": "The statements are about every order in which the vertices can be attached and every choice of the vertices they are attached to; a test runs one of them.", "anchors": ["src/barabasi_albert.rs:89-107", "src/barabasi_albert.rs:199-229", "src/generic_graph/generic_graph.rs:779-849", "src/generic_graph/generic_graph.rs:886-907"]}
{"id": "C113", "title": "Small-world networks fall into pieces of at least five vertices; cores without small degrees", "statement": "In every network an `SwEnsemble` can hold after any history of public calls, every entry of `connected_components` is at least 5; so there are at most n/5 components, and with fewer than ten vertices the network is always connected. There are no leaves (`leaf_count` is 0) and `q_core(2)` is the first entry of `connected_components`. The last holds for every graph: if each vertex has at least q neighbours, `q_core(q)` is the size of the largest component.", "quantifier": "for all n >= 5, probabilities, generators and histories; for all graphs and q >= 2", "why_tests_cant": "Whether a small network can fall apart depends on rare sequences of rewirings; no finite number of runs excludes them.", "anchors": ["src/sw.rs:255-343", "src/sw_graph.rs:453-500", "src/generic_graph/generic_graph.rs:779-849", "src/generic_graph/generic_graph.rs:886-907"]}
{"id": "C114", "title": "Many edges or large degrees force a network to be connected", "statement": "With n vertices and c entries in `connected_components`, `edge_count` is at most (n - c)(n - c + 1)/2; so a graph with more than (n-1)(n-2)/2 edges is connected. Hence every network of an `ErEnsembleM` with that many edges is connected, after any history of calls. If every vertex has at least (n-1)/2 neighbours, the graph is connected and `diameter` is at most 2; hence so is every network of a `ConfigurationModel` with such a degree vector, after any history of calls that keeps the vector. Examples with 4 and 6 vertices show that these bounds cannot be lowered there.", "quantifier": "for all graphs, all n and m, all degree vectors, all generators and histories", "why_tests_cant": "The claim excludes disconnected networks among all those a random process can reach.", "anchors": ["src/generic_graph/generic_graph.rs:886-907", "src/er_m.rs:157-216", "src/configuration_model.rs:334-464"]}
{"id": "C115", "title": "A q-core costs edges, and small-world networks have no core above four", "statement": "If q_core(q) is not 0 then it is at least q + 1, at most the number of vertices, and the network has at least q * q_core(q) / 2 edges; so q_core(q) is 0 whenever 2 * edge_count < q (q + 1) or there are at most q vertices. In a small-world network any set of k vertices holds at most 2k edges, the degrees within each component add up to exactly four times its number of vertices, and q_core(q) is 0 for every q >= 5, after any history of public calls. q_core(q) is at most the number of vertices with q neighbours or more and 0 if there are at most q of them; so it is 0 for every ErEnsembleM with fewer than q (q + 1) / 2 edges, and for a ConfigurationModel it is 0 if at most q entries of the degree vector are at least q, and the size of the largest component if all are, after any history of calls that keeps the degree vector.", "quantifier": "all well-formed networks and all q; all small-world networks reachable by public calls, every subset of their vertices, every component", "why_tests_cant": "the claims quantify over all subsets of vertices and all histories of rewiring", "anchors": ["src/generic_graph/generic_graph.rs:779-849", "src/sw_graph.rs:476-483", "src/sw.rs", "src/er_m.rs:157-216", "src/configuration_model.rs:334-464"]}
{"id": "C116", "title": "What Barabási–Albert growth does to distances, the diameter and triangles", "statement": "Growing a network never lengthens a shortest path between two vertices of the source graph; with m = 1 it shortens none either, so those distances, and which of those vertices are connected, stay exactly what they were. From a connected source and with m >= 1, `diameter` of the grown network is at most that of the source plus the number of new vertices, and with m = 1 it is at least that of the source; with m = 1 no `longest_shortest_path_from_index` of a source vertex becomes smaller. The numerator and the denominator of `transitivity` never fall, and with m = 1 the numerator (the closed triples) stays that of the source.", "quantifier": "for all source graphs with an edge, all m, all generators, every run of randomize that returns", "why_tests_cant": "The claims compare all pairs of vertices in all networks the random growth can reach.", "anchors": ["src/barabasi_albert.rs:199-229", "src/generic_graph/generic_graph.rs:1116-1144", "src/generic_graph/generic_graph.rs:1414-1439"]}
{"id": "C117", "title": "Networks that no single failure cuts apart, and Barabási–Albert growth with m >= 2", "statement": "`vertex_biconnected_components(false)` returns the single entry `vertex_count` exactly if there are at least two vertices, all are connected, and for every vertex v any two others are joined by a path that avoids v; for such networks the result is right and does not depend on the order of the adjacency lists. If this holds for the source graph and m >= 2, it holds for every network `randomize` of a `BAensemble` returns; in particular for every `BAensemble::new` with m >= 2. A network with at least three vertices for which this holds is connected, every vertex has at least two neighbours, there are no leaves, at least as many edges as vertices, and q_core(2) is everything; more edges between the same vertices do not end it.", "quantifier": "for all graphs; for all sources, n, m >= 2, generators, every run that returns", "why_tests_cant": "The claim speaks about all vertices that may fail, all pairs of others and all networks the random growth can reach.", "anchors": ["src/generic_graph/generic_graph.rs:1153-1291", "src/barabasi_albert.rs:199-229"]}
{"id": "C118", "title": "Vertices without load and the largest possible load", "statement": "`vertex_load(false)` (exact arithmetic) gives a vertex 0 exactly if any two of its neighbours are joined by an edge; leaves and isolated vertices in particular. Otherwise the entry is positive. All entries are 0 exactly if any two vertices that can reach each other are joined by an edge. If v can reach c other vertices, its entry lies between 0 and c(c-1), the latter exactly if these c vertices are all neighbours of v and no two of them are joined, and `vertex_load(true)` gives exactly c more than `vertex_load(false)`. If k of these c vertices can only be left through v, the entry is at least 2k(c-k).", "quantifier": "for all graphs and all vertices", "why_tests_cant": "The characterisation is about all graphs: a test only compares fixed numbers on fixed graphs.", "anchors": ["src/generic_graph/generic_graph.rs: vertex_load"]}
