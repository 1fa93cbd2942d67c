{
  "C01": ["proved", "for every lawful container; the four containers of the crate are proved lawful"],
  "C02": ["proved", "generic mutators and whole histories; the ensembles have their own theorems (C30, C32, C35, C40, C42, C44, C45, C47)"],
  "C03": ["proved", ""],
  "C04": ["proved", ""],
  "C05": ["proved", ""],
  "C06": ["proved", ""],
  "C07": ["proved", ""],
  "C08": ["proved", ""],
  "C09": ["proved", ""],
  "C10": ["proved", ""],
  "C100": ["proved", "Consequences of the exact law of C84 for the returned networks."],
  "C101": ["proved", "ErEnsembleC, SpacialEnsemble and ErEnsembleM; randomize followed by t Markov steps on one uniform stream"],
  "C102": ["proved", "all parts; distances in the statement are those of the graph (bfs_index_depth by C11)"],
  "C103": ["proved", "The entries of vertex_biconnected_components depend on the names (C103_biconnected_violation), as stated; their number does not."],
  "C104": ["proved", ""],
  "C105": ["proved", ""],
  "C106": ["proved", "Both builds. The distance-d results for SwEnsemble hold for d >= 1 (NonZeroUsize), WS::new for n < 2^32 (u32). Overflow in measures (sums over vertices) is not covered."],
  "C107": ["proved", "All three cases (returns, panics, start out of range) of the searches, is_connected and diameter for arbitrary cross lists; the mutating iterators are covered by C73."],
  "C108": ["proved", "mean, exact variance and error of the average of a sum over the edges along one run after randomize, and the bias of the average from any network on; ErEnsembleC, SpacialEnsemble, ErEnsembleM"],
  "C109": ["proved", "Both ensembles, exact probabilities and mean numbers of clusters of every size; drawing until connected is stated about the samples of repeated randomize calls (C94)."],
  "C11": ["proved", ""],
  "C110": ["proved", "All readers and writers of the data at the vertices agree, on graphs of all containers and through the trait Contained of the five ensembles; one write changes one value and nothing else."],
  "C111": ["proved", "Requests to the generator of the Erd\u0151s\u2013R\u00e9nyi, spatial and small-world calls, exact; jumping ahead for ErEnsembleC and the spatial ensembles with any generator. Watts-Strogatz, Barab\u00e1si-Albert and configuration model draw until it fits: kind, order and least number of their requests (C111_config_*, C111_ba_*, C111_ws_*), for the distribution of the number of rounds see C96."],
  "C112": ["proved", "Every run of randomize that returns, every source with an edge; the case of new written out. For m >= 2 only an upper bound of the number of components: attached vertices can join components."],
  "C113": ["proved", "Every network an SwEnsemble can reach; sharp, ten vertices can fall into two pieces of five."],
  "C114": ["proved", "For all graphs; the ensembles by the histories of C75. Sharpness is shown on one example each."],
  "C115": ["proved", "C115_core_size, C115_no_core and C115_core_degrees for every container; C115_sw_sparse for every set of vertices, C115_sw_piece_degrees for every component, C115_sw_core and C115_sw_history, C115_er_m and C115_config for all histories."],
  "C116": ["proved", "C116_ba_distances, C116_ba_diameter, C116_ba_eccentricity and C116_ba_triangles for every run that returns; examples show that both ends of the bound on the diameter occur and that m = 2 can shorten distances."],
  "C117": ["proved", "C117_whole_iff, C117_measures and C117_more_edges for every container, C117_ba_biconnected for every biconnected source, C117_ba_new for the complete source."],
  "C118": ["proved", "Over exact rationals; the rounding of f64 is treated in C72."],
  "C12": ["proved", "single and dual graph"],
  "C13": ["proved", "the FnMut filter is a pure function"],
  "C14": ["partial", "the property as stated is false for the code: two violation theorems, plus what reuse does guarantee"],
  "C15": ["proved", ""],
  "C16": ["proved", ""],
  "C17": ["proved", ""],
  "C18": ["proved", ""],
  "C19": ["proved", ""],
  "C20": ["proved", "includes the witness that the documentation's wording does not hold"],
  "C21": ["partial", "The sizes are wrong for some graphs (violation theorems with a 5 vertex witness; the first entry can be too small and too large). Proved for all graphs: termination without panic, descending order, exactly one entry per biconnected component, entries >= 2, the components partition the edges, the alternative definition drops the entries <= 2; the sum of the entries is at least the sum of the block sizes and the result is right exactly if r.sum + number of connected components = vertex count + number of entries (C21_check); exact sizes for graphs with a single block and for graphs whose blocks are single edges (forests)."],
  "C22": ["proved", "Exact arithmetic (rationals). Flow equations exist uniquely; result is the sum of flows; totals and the documented complete-graph values; where shortest paths are unique (e.g. forests) the load counts the ordered pairs whose shortest path passes through the vertex."],
  "C23": ["proved", "quotient kept as exact pair"],
  "C24": ["proved", "quotient kept as exact pair"],
  "C25": ["proved", ""],
  "C26": ["proved", "floating point average replaced by exact rationals"],
  "C27": ["proved", ""],
  "C28": ["proved", ""],
  "C29": ["proved", ""],
  "C30": ["proved", ""],
  "C31": ["proved", ""],
  "C32": ["proved", "f64 draws and probabilities are rationals"],
  "C33": ["proved", "the coin is one of 2^53 equally likely values; f64 probabilities are rationals"],
  "C34": ["proved", ""],
  "C35": ["proved", ""],
  "C36": ["proved", ""],
  "C37": ["proved", ""],
  "C38": ["proved", ""],
  "C39": ["proved", ""],
  "C40": ["proved", "Never panics for an even degree sum; every returned graph is simple with exactly the prescribed degrees; every realisation of the vector is drawn for some shuffle; odd sum never returns."],
  "C41": ["proved", "Exact acceptance condition, assert and from_vec agree with it, a construction can return iff the vector is realisable, and the accepted vector [2,2,0,0] makes from_vec run forever for every generator (a defect of the code)."],
  "C42": ["proved", "Panics exactly without edges; on return Error with unchanged edges or an exchange of two edges on four distinct vertices; degrees, data, simplicity kept."],
  "C43": ["proved", "Undo after a step restores; for any step with four valid pairs the undo exchanges or leaves the edge set unchanged, with the exact success condition; quiet variant agrees on success."],
  "C44": ["proved", "Growth relation, its consequences, panic conditions of all constructors, exact termination condition, degree-proportional choice."],
  "C45": ["proved", "Whenever randomize/new return the network is valid (simple, n*d edges, origins in bijection with the ring edges, marks exact); never panics. Also proved: the coin is thrown twice per ring edge, contrary to the documentation."],
  "C46": ["proved", "The documented claim is false: proved that n = 2d+1 with an always succeeding coin never returns for any generator; corrected exact condition C46_ws_returns_iff."],
  "C47": ["proved", "The edge probability is an arbitrary function of the two positions. DogEnsemble::randomize need not return (C58); whenever it returns the graph is valid and its edges are accounted for one by one."],
  "C48": ["proved", "Also: every pair of permutations arises from exactly one sequence of draws, and the DogEnsemble puts one vertex in every row and column."],
  "C49": ["proved", "MultiDualGraph; history theorem with interleaved inner edits"],
  "C50": ["partial", "false in the code (C50_taken_second_endpoint_panics_violation); proved for all calls that do not hit the unreachable!()"],
  "C51": ["proved", "dfs, contained dfs, bfs, is_connected, diameter of the union"],
  "C52": ["proved", "All iterators of iter.rs behave like lists under any history of calls; mutable ones hand out disjoint references."],
  "C53": ["proved", "closures are pure; one write! is one text handed to the writer"],
  "C54": ["proved", ""],
  "C55": ["proved", "detailed balance, closed form of the stationary weight, total number of draws, irreducibility"],
  "C56": ["proved", "irreducibility, detailed balance with respect to the uniform distribution, and the weights of all outcomes add up to the number of rounds"],
  "C57": ["proved", "equally likely draws are counted exactly; every graph of positive weight is reached from every state"],
  "C58": ["proved", "the Poisson sampler is an arbitrary function of the generator state"],
  "C59": ["proved", "all neighbour data iterators of the dual graph"],
  "C60": ["proved", "Counted over all permutations (ErM: shuffle draws each permutation equally often) or all tuples of raw coin throws (ErC, Spacial: 2^53 equally likely values per throw)."],
  "C61": ["partial", "False in the code: C61_config_not_uniform_violation refutes the claim, C61_config_randomize_biased gives the exact ratio 67:66 for the degrees 2,2,2,1,1. Proved part: graphs that differ by exchanging vertices of equal degree are equally likely. Every realisation has positive probability (C40_config_every_realisation)."],
  "C62": ["proved", "all five search iterators with a size_hint of their own"],
  "C63": ["proved", "randomize and new as functions of the draws"],
  "C64": ["proved", "for every generator; the weighted choice of the rand crate is modelled by cumulative sums"],
  "C65": ["proved", "Any generator; the order in which a vertex's edges are tested is left open in the specification (the code tests from the last stored edge to the first)."],
  "C66": ["proved", "All five ensembles with a Markov chain. Limits are over rational probabilities with explicit error bounds; uniform draws are modelled as equally likely values of the generator. For the configuration model rounds that draw the same vertex twice are repeated by the code (C66_config_round_repeated), so the law of a step is the one conditioned on different vertices."],
  "C67": ["proved", "Full simulation for both Erdos-Renyi ensembles; invariants for the others, whose steps do draw by position in the lists."],
  "C68": ["proved", "All listed measures, for graphs of any kinds; the exclusion of vertex_biconnected_components is shown necessary by a concrete graph."],
  "C69": ["proved", "All ensembles; the exception is proved as a violation."],
  "C70": ["proved", "For the DogEnsemble the statement is about the partner search, not about the whole of randomize: the Poisson number is a parameter of the model."],
  "C71": ["proved", "The rounding of hypot, powf and exp_m1 is an assumption of the theorems (distance at most epsilon), not computed."],
  "C72": ["proved", "Rounded vertex_load: relative error bound with end points, absolute bound without, exactness for unique shortest paths; instance for 53 significant bits. Overflow and subnormal numbers are not modelled."],
  "C73": ["proved", "Release builds against debug builds; undefined behaviour characterised exactly for the editing functions and the dual-graph iterators; aliasing modelled per vertex, not Stacked Borrows."],
  "C74": ["proved", "Histories with stale steps: robust ensembles for all histories; exact conditions and constructed failing histories for ErEnsembleM and SwEnsemble"],
  "C75": ["proved", "All public mutating calls with arbitrary arguments, interleaved with writes of node data, per ensemble (SpacialEnsemble and DogEnsemble offer no writes)."],
  "C76": ["proved", "connected_components, its ids, suggest_connections, is_connected, diameter, longest shortest paths, q_core and the biconnected components related on all simple graphs."],
  "C77": ["proved", "Successful add_edge and remove_edge on all simple graphs; the factor two for the diameter and the closeness included."],
  "C78": ["proved", "Closed formulas for all sizes; the transitivity of the ring for n >= 3d+1, where no triangle goes around the ring."],
  "C79": ["proved", "usize counts below 2^64 assumed for leaving out exponent limits; holds for any rule for ties"],
  "C80": ["proved", "assumes independent uniform draws"],
  "C81": ["proved", "law of the set of moved edges for randomize and new; the probability is q(2-q), not the documented parameter (Finding 20)"],
  "C82": ["proved", "Parameters of SwEnsemble, ErEnsembleC and ErEnsembleM over all lists of calls; those of the other ensembles are in C75."],
  "C83": ["proved", "exact probabilities on the uniform tape; the known bias is quantified"],
  "C84": ["proved", "exact probabilities on the uniform tape"],
  "C85": ["proved", "All seven ensembles that implement AsRef, after any history of calls and writes (SpacialEnsemble offers no writes); every measure, access to node data and search offered through the ensemble. For BAensemble the constructor new. DogEnsemble only hands out its graph, see C75."],
  "C86": ["proved", "All dot functions of GenericGraph; the reader covers a fragment of the dot language (no comments, html strings, ports, subgraphs, chains) and refuses everything else."],
  "C87": ["proved", "Positions are rational numbers and the multiplication by 100.0 is exact in the model; formatting with two digits follows std."],
  "C88": ["proved", ""],
  "C89": ["proved", "all five chains; the tape stands for the generator (Stream), the crate's sampling methods are modelled by one draw each as stated in DESIGN"],
  "C90": ["proved", "weak and strong law of large numbers for the five Markov chains on random tapes, for every function of the edges and every starting state"],
  "C91": ["proved", "exact law of randomize on the uniform tape, the law of one partner, and its distance from the share of the degrees; the Poisson sampler enters through the distribution of its values"],
  "C92": ["proved", "what the derive macros generate is modelled; the formats (serde_json) are external code, JSON is represented by its treatment of NaN"],
  "C93": ["proved", "rates for ErEnsembleC, SpacialEnsemble and ErEnsembleM; the exact formulas for pairs show that the rate of the first two cannot be improved"],
  "C94": ["proved", "Simple sampling with randomize: the edge sets after the calls are independent with the law of a single call, for all ensembles but SwEnsemble (excluded in the statement); averages converge, Chebyshev bound and normal limit. For DogEnsemble under the hypothesis that a call returns with probability one, and without it the probability of any list of results. Trusted: the generator model of C70."],
  "C95": ["proved", "binomial and hypergeometric laws for any set of pairs, degrees, edge_count; triangles in the mean; SpacialEnsemble: the law of any set of pairs and of isolated vertices"],
  "C96": ["proved", "Number of rounds of the unbounded loops: distribution and mean, for every state of the ensembles (Barab\u00e1si\u2013Albert: exact distribution and an upper bound of the mean); for the whole SmallWorldWS::randomize and BAensemble::randomize a lower bound for the probability that F rounds per search are enough."],
  "C97": ["proved", "The sampling crate is external: its procedure (trial of k steps, Metropolis acceptance with the exact probability, undo_steps_quiet on rejection) is modelled, not its code"],
  "C98": ["proved", ""],
  "C99": ["proved", "Weak law of large numbers for the networks after the single trials; all five ensembles, with and without restriction to connected networks; flat histograms for ErEnsembleM and ConfigurationModel. The decision of the external sampling crate is modelled by its exact probability."]
}
