{
 "claims": [
  {
   "property": "C01",
   "status": "proved",
   "theorems": [
    "Verif.C01_edge_history_refines_set",
    "Verif.C01_history_from_any_graph"
   ],
   "note": "for every lawful container; the four containers of the crate are proved lawful"
  },
  {
   "property": "C02",
   "status": "proved",
   "theorems": [
    "Verif.C02_C05_step",
    "Verif.C02_history_wf"
   ],
   "note": "generic mutators and whole histories; the ensembles have their own theorems (C30, C32, C35, C40, C42, C44, C45, C47)"
  },
  {
   "property": "C03",
   "status": "proved",
   "theorems": [
    "Verif.C03_failed_calls_change_nothing"
   ],
   "note": ""
  },
  {
   "property": "C04",
   "status": "proved",
   "theorems": [
    "Verif.C04_remove_add_inverse",
    "Verif.C04_only_net_effect_matters"
   ],
   "note": ""
  },
  {
   "property": "C05",
   "status": "proved",
   "theorems": [
    "Verif.C02_C05_step",
    "Verif.C05_topology_edits_keep_data"
   ],
   "note": ""
  },
  {
   "property": "C06",
   "status": "proved",
   "theorems": [
    "Verif.C06_clear_edges"
   ],
   "note": ""
  },
  {
   "property": "C07",
   "status": "proved",
   "theorems": [
    "Verif.C07_init_ring",
    "Verif.C07_init_ring_too_small"
   ],
   "note": ""
  },
  {
   "property": "C08",
   "status": "proved",
   "theorems": [
    "Verif.C08_complete_graph"
   ],
   "note": ""
  },
  {
   "property": "C09",
   "status": "proved",
   "theorems": [
    "Verif.C09_sort_adj",
    "Verif.C09_shuffle",
    "Verif.C09_sw_container",
    "Verif.C09_ws_container"
   ],
   "note": ""
  },
  {
   "property": "C10",
   "status": "proved",
   "theorems": [
    "Verif.C10_dfs_with_index",
    "Verif.C10_dfs",
    "Verif.C10_dfs_mut",
    "Verif.C10_out_of_range"
   ],
   "note": ""
  },
  {
   "property": "C11",
   "status": "proved",
   "theorems": [
    "Verif.C11_bfs",
    "Verif.C11_bfs_mut",
    "Verif.C11_out_of_range"
   ],
   "note": ""
  },
  {
   "property": "C12",
   "status": "proved",
   "theorems": [
    "Verif.C12_dual_reuse",
    "Verif.C12_reuse"
   ],
   "note": "single and dual graph"
  },
  {
   "property": "C13",
   "status": "proved",
   "theorems": [
    "Verif.C13_bfs_filtered",
    "Verif.C13_accepted_iff",
    "Verif.C13_is_handled"
   ],
   "note": "the FnMut filter is a pure function"
  },
  {
   "property": "C14",
   "status": "partial",
   "theorems": [
    "Verif.C14_reuse_ignores_filter_violation",
    "Verif.C14_reuse_at_vertex_count_panics_violation",
    "Verif.C14_reuse_partial"
   ],
   "note": "the property as stated is false for the code: two violation theorems, plus what reuse does guarantee"
  },
  {
   "property": "C15",
   "status": "proved",
   "theorems": [
    "Verif.C15_is_connected"
   ],
   "note": ""
  },
  {
   "property": "C16",
   "status": "proved",
   "theorems": [
    "Verif.C16_component_ids"
   ],
   "note": ""
  },
  {
   "property": "C17",
   "status": "proved",
   "theorems": [
    "Verif.C17_component_sizes",
    "Verif.C17_component_sizes_sum"
   ],
   "note": ""
  },
  {
   "property": "C18",
   "status": "proved",
   "theorems": [
    "Verif.C18_diameter",
    "Verif.C18_diameter_none"
   ],
   "note": ""
  },
  {
   "property": "C19",
   "status": "proved",
   "theorems": [
    "Verif.C19_eccentricity"
   ],
   "note": ""
  },
  {
   "property": "C20",
   "status": "proved",
   "theorems": [
    "Verif.C20_q_core_none",
    "Verif.C20_q_core",
    "Verif.C20_doc_biggest_set_violation"
   ],
   "note": "includes the witness that the documentation's wording does not hold"
  },
  {
   "property": "C21",
   "status": "partial",
   "theorems": [
    "Verif.C21_count_partial",
    "Verif.C21_alternative",
    "Verif.C21_single_block",
    "Verif.C21_all_bridges",
    "Verif.C21_forest",
    "Verif.C21_sizes_violation",
    "Verif.C21_alternative_violation",
    "Verif.C21_sum",
    "Verif.C21_check",
    "Verif.C21_largest_violation"
   ],
   "note": "The sizes are wrong for some graphs (violation theorems with a 5 vertex witness; the first entry can be too small and too large). Proved for all graphs: termination without panic, descending order, exactly one entry per biconnected component, entries >= 2, the components partition the edges, the alternative definition drops the entries <= 2; the sum of the entries is at least the sum of the block sizes and the result is right exactly if r.sum + number of connected components = vertex count + number of entries (C21_check); exact sizes for graphs with a single block and for graphs whose blocks are single edges (forests)."
  },
  {
   "property": "C22",
   "status": "proved",
   "theorems": [
    "Verif.C22_flow_exists_unique",
    "Verif.C22_vertex_load",
    "Verif.C22_total_load",
    "Verif.C22_complete_graph",
    "Verif.C22_load_counts_shortest_paths"
   ],
   "note": "Exact arithmetic (rationals). Flow equations exist uniquely; result is the sum of flows; totals and the documented complete-graph values; where shortest paths are unique (e.g. forests) the load counts the ordered pairs whose shortest path passes through the vertex."
  },
  {
   "property": "C23",
   "status": "proved",
   "theorems": [
    "Verif.C23_closeness",
    "Verif.C23_closeness_empty_panics"
   ],
   "note": "quotient kept as exact pair"
  },
  {
   "property": "C24",
   "status": "proved",
   "theorems": [
    "Verif.C24_transitivity",
    "Verif.C24_transitivity_le_one"
   ],
   "note": "quotient kept as exact pair"
  },
  {
   "property": "C25",
   "status": "proved",
   "theorems": [
    "Verif.C25_cloned_subgraph_none",
    "Verif.C25_cloned_subgraph"
   ],
   "note": ""
  },
  {
   "property": "C26",
   "status": "proved",
   "theorems": [
    "Verif.C26_degrees",
    "Verif.C26_average_degree",
    "Verif.C26_leaf_count",
    "Verif.C26_degree_histogram"
   ],
   "note": "floating point average replaced by exact rationals"
  },
  {
   "property": "C27",
   "status": "proved",
   "theorems": [
    "Verif.C27_conversions",
    "Verif.C27_reset_from_graph"
   ],
   "note": ""
  },
  {
   "property": "C28",
   "status": "proved",
   "theorems": [
    "Verif.C28_suggest_connections",
    "Verif.C28_make_connected",
    "Verif.C28_make_connected_empty"
   ],
   "note": ""
  },
  {
   "property": "C29",
   "status": "proved",
   "theorems": [
    "Verif.C29_draw_two_bijective",
    "Verif.C29_draw_two_range",
    "Verif.C29_draw_remaining_bijective",
    "Verif.C29_draw_remaining_range",
    "Verif.C29_draw_edge_bijective"
   ],
   "note": ""
  },
  {
   "property": "C30",
   "status": "proved",
   "theorems": [
    "Verif.C30_er_m_invariant",
    "Verif.C30_er_m_new_panics",
    "Verif.C30_er_m_step_panics"
   ],
   "note": ""
  },
  {
   "property": "C31",
   "status": "proved",
   "theorems": [
    "Verif.C31_er_m_undo",
    "Verif.C31_C54_er_m_chain"
   ],
   "note": ""
  },
  {
   "property": "C32",
   "status": "proved",
   "theorems": [
    "Verif.C32_er_c_step",
    "Verif.C32_er_c_undo",
    "Verif.C32_er_c_randomize",
    "Verif.C32_er_c_randomize_forgets",
    "Verif.C32_er_c_new",
    "Verif.C32_set_target_connectivity",
    "Verif.C32_C54_er_c_chain"
   ],
   "note": "f64 draws and probabilities are rationals"
  },
  {
   "property": "C33",
   "status": "proved",
   "theorems": [
    "Verif.C33_er_c_detailed_balance",
    "Verif.C33_er_c_transition_counts",
    "Verif.C33_er_c_irreducible",
    "Verif.C33_heads"
   ],
   "note": "the coin is one of 2^53 equally likely values; f64 probabilities are rationals"
  },
  {
   "property": "C34",
   "status": "proved",
   "theorems": [
    "Verif.C34_er_m_transition_counts",
    "Verif.C34_er_m_symmetric",
    "Verif.C34_er_m_irreducible"
   ],
   "note": ""
  },
  {
   "property": "C35",
   "status": "proved",
   "theorems": [
    "Verif.C35_sw_invariant",
    "Verif.C35_sw_new_iff",
    "Verif.C35_sw_new_with_distance_iff"
   ],
   "note": ""
  },
  {
   "property": "C36",
   "status": "proved",
   "theorems": [
    "Verif.C36_sw_step",
    "Verif.C36_sw_randomize",
    "Verif.C36_count_root",
    "Verif.C36_five_frozen"
   ],
   "note": ""
  },
  {
   "property": "C37",
   "status": "proved",
   "theorems": [
    "Verif.C37_undo_quiet_panics",
    "Verif.C37_sw_undo",
    "Verif.C37_C54_sw_chain"
   ],
   "note": ""
  },
  {
   "property": "C38",
   "status": "proved",
   "theorems": [
    "Verif.C38_sw_make_connected"
   ],
   "note": ""
  },
  {
   "property": "C39",
   "status": "proved",
   "theorems": [
    "Verif.C39_long_ranging_edges",
    "Verif.C39_nodes_with_long_ranging_edges",
    "Verif.C39_frac_nodes_wlre",
    "Verif.C39_no_long_ranging_is_ring",
    "Verif.C39_step_bookkeeping",
    "Verif.C39_reset_only",
    "Verif.C39_root_edges"
   ],
   "note": ""
  },
  {
   "property": "C40",
   "status": "proved",
   "theorems": [
    "Verif.C40_config_randomize",
    "Verif.C40_config_odd_sum",
    "Verif.C40_config_new",
    "Verif.C40_config_clone",
    "Verif.C40_config_swap_degree_vec",
    "Verif.C40_config_from_graph",
    "Verif.C40_config_degrees_of_graph",
    "Verif.C40_config_swap_unchecked",
    "Verif.C40_config_every_realisation"
   ],
   "note": "Never panics for an even degree sum; every returned graph is simple with exactly the prescribed degrees; every realisation of the vector is drawn for some shuffle; odd sum never returns."
  },
  {
   "property": "C41",
   "status": "proved",
   "theorems": [
    "Verif.C41_valid_iff",
    "Verif.C41_assert_iff",
    "Verif.C41_from_vec",
    "Verif.C41_from_const",
    "Verif.C41_unrealisable_diverges",
    "Verif.C41_accepted_but_never_returns",
    "Verif.C41_returns_iff_realisable"
   ],
   "note": "Exact acceptance condition, assert and from_vec agree with it, a construction can return iff the vector is realisable, and the accepted vector [2,2,0,0] makes from_vec run forever for every generator (a defect of the code)."
  },
  {
   "property": "C42",
   "status": "proved",
   "theorems": [
    "Verif.C42_config_step",
    "Verif.C42_config_step_no_edges"
   ],
   "note": "Panics exactly without edges; on return Error with unchanged edges or an exchange of two edges on four distinct vertices; degrees, data, simplicity kept."
  },
  {
   "property": "C43",
   "status": "proved",
   "theorems": [
    "Verif.C43_config_undo_any",
    "Verif.C43_config_undo_ok_iff",
    "Verif.C43_config_undo",
    "Verif.C43_config_quiet"
   ],
   "note": "Undo after a step restores; for any step with four valid pairs the undo exchanges or leaves the edge set unchanged, with the exact success condition; quiet variant agrees on success."
  },
  {
   "property": "C44",
   "status": "proved",
   "theorems": [
    "Verif.C44_ba_randomize",
    "Verif.C44_ba_structure",
    "Verif.C44_ba_preferential",
    "Verif.C44_ba_no_edges",
    "Verif.C44_ba_m_le",
    "Verif.C44_ba_diverges",
    "Verif.C44_ba_returns_iff",
    "Verif.C44_ba_new",
    "Verif.C44_ba_new_from_graph",
    "Verif.C44_ba_new_from_generic"
   ],
   "note": "Growth relation, its consequences, panic conditions of all constructors, exact termination condition, degree-proportional choice."
  },
  {
   "property": "C45",
   "status": "proved",
   "theorems": [
    "Verif.C45_ws_randomize",
    "Verif.C45_ws_two_throws_per_edge",
    "Verif.C45_ws_new"
   ],
   "note": "Whenever randomize/new return the network is valid (simple, n*d edges, origins in bijection with the ring edges, marks exact); never panics. Also proved: the coin is thrown twice per ring edge, contrary to the documentation."
  },
  {
   "property": "C46",
   "status": "proved",
   "theorems": [
    "Verif.C46_ws_new_error_iff",
    "Verif.C46_ws_never_returns",
    "Verif.C46_ws_returns_iff"
   ],
   "note": "The documented claim is false: proved that n = 2d+1 with an always succeeding coin never returns for any generator; corrected exact condition C46_ws_returns_iff."
  },
  {
   "property": "C47",
   "status": "proved",
   "theorems": [
    "Verif.C47_dog_randomize",
    "Verif.C47_spacial_step",
    "Verif.C47_spacial_undo",
    "Verif.C47_spacial_randomize",
    "Verif.C47_spacial_new",
    "Verif.C47_spacial_steps_quiet",
    "Verif.C47_distance",
    "Verif.C47_edge_probability",
    "Verif.C47_edge_probability_negative",
    "Verif.C47_C54_spacial_chain"
   ],
   "note": "The edge probability is an arbitrary function of the two positions. DogEnsemble::randomize need not return (C58); whenever it returns the graph is valid and its edges are accounted for one by one."
  },
  {
   "property": "C48",
   "status": "proved",
   "theorems": [
    "Verif.C48_latin",
    "Verif.C48_latin_len",
    "Verif.C48_latin_uniform",
    "Verif.C48_dog_new",
    "Verif.C48_dog_positions"
   ],
   "note": "Also: every pair of permutations arises from exactly one sequence of draws, and the DogEnsemble puts one vertex in every row and column."
  },
  {
   "property": "C49",
   "status": "proved",
   "theorems": [
    "Verif.C49_new",
    "Verif.C49_inner_edit",
    "Verif.C49_add_edge",
    "Verif.C49_history",
    "Verif.C49_links_return",
    "Verif.C49_degree"
   ],
   "note": "MultiDualGraph; history theorem with interleaved inner edits"
  },
  {
   "property": "C50",
   "status": "partial",
   "theorems": [
    "Verif.C50_matching",
    "Verif.C50_add_edge",
    "Verif.C50_taken_second_endpoint_panics_violation",
    "Verif.C50_history_partial"
   ],
   "note": "false in the code (C50_taken_second_endpoint_panics_violation); proved for all calls that do not hit the unreachable!()"
  },
  {
   "property": "C51",
   "status": "proved",
   "theorems": [
    "Verif.C51_dfs",
    "Verif.C51_bfs",
    "Verif.C51_reachable_vertices",
    "Verif.C51_is_connected",
    "Verif.C51_diameter",
    "Verif.C51_dfs_contained"
   ],
   "note": "dfs, contained dfs, bfs, is_connected, diameter of the union"
  },
  {
   "property": "C52",
   "status": "proved",
   "theorems": [
    "Verif.C52_sw_edge_iter",
    "Verif.C52_iter_wrapper",
    "Verif.C52_neighbors",
    "Verif.C52_contained_iter",
    "Verif.C52_iter_neighbors",
    "Verif.C52_iter_neighbors_mut",
    "Verif.C52_contained_iter_mut"
   ],
   "note": "All iterators of iter.rs behave like lists under any history of calls; mutable ones hand out disjoint references."
  },
  {
   "property": "C53",
   "status": "proved",
   "theorems": [
    "Verif.C53_dot",
    "Verif.C53_dot_string"
   ],
   "note": "closures are pure; one write! is one text handed to the writer"
  },
  {
   "property": "C54",
   "status": "proved",
   "theorems": [
    "Verif.C54_config_chain",
    "Verif.C31_C54_er_m_chain",
    "Verif.C32_C54_er_c_chain",
    "Verif.C47_C54_spacial_chain",
    "Verif.C37_C54_sw_chain"
   ],
   "note": ""
  },
  {
   "property": "C57",
   "status": "proved",
   "theorems": [
    "Verif.C57_spacial_transition_counts",
    "Verif.C57_spacial_detailed_balance",
    "Verif.C57_spacial_irreducible"
   ],
   "note": "equally likely draws are counted exactly; every graph of positive weight is reached from every state"
  },
  {
   "property": "C58",
   "status": "proved",
   "theorems": [
    "Verif.C58_dog_panics_iff",
    "Verif.C58_dog_no_short_edges",
    "Verif.C58_dog_saturated",
    "Verif.C58_partner_iff",
    "Verif.C58_dog_new_panics_iff"
   ],
   "note": "the Poisson sampler is an arbitrary function of the generator state"
  },
  {
   "property": "C59",
   "status": "proved",
   "theorems": [
    "Verif.C59_contained_iter_neighbors",
    "Verif.C59_neighbours_mut_1",
    "Verif.C59_neighbours_mut_2",
    "Verif.C59_contained_iter",
    "Verif.C59_other_mut"
   ],
   "note": "all neighbour data iterators of the dual graph"
  },
  {
   "property": "C60",
   "status": "proved",
   "theorems": [
    "Verif.C60_spacial_randomize_law",
    "Verif.C60_er_c_randomize_law",
    "Verif.C60_er_m_randomize_uniform"
   ],
   "note": "Counted over all permutations (ErM: shuffle draws each permutation equally often) or all tuples of raw coin throws (ErC, Spacial: 2^53 equally likely values per throw)."
  },
  {
   "property": "C61",
   "status": "partial",
   "theorems": [
    "Verif.C61_config_randomize_biased",
    "Verif.C61_config_relabelling_partial",
    "Verif.C61_config_not_uniform_violation"
   ],
   "note": "False in the code: C61_config_not_uniform_violation refutes the claim, C61_config_randomize_biased gives the exact ratio 67:66 for the degrees 2,2,2,1,1. Proved part: graphs that differ by exchanging vertices of equal degree are equally likely. Every realisation has positive probability (C40_config_every_realisation)."
  },
  {
   "property": "C56",
   "status": "proved",
   "theorems": [
    "Verif.C56_config_irreducible",
    "Verif.C56_config_detailed_balance",
    "Verif.C56_config_total_weight"
   ],
   "note": "irreducibility, detailed balance with respect to the uniform distribution, and the weights of all outcomes add up to the number of rounds"
  },
  {
   "property": "C55",
   "status": "proved",
   "theorems": [
    "Verif.C55_sw_detailed_balance",
    "Verif.C55_sw_total_weight",
    "Verif.C55_sw_weight",
    "Verif.C55_sw_irreducible"
   ],
   "note": "detailed balance, closed form of the stationary weight, total number of draws, irreducibility"
  },
  {
   "property": "C62",
   "status": "proved",
   "theorems": [
    "Verif.C62_dfs",
    "Verif.C62_dfs_with_index",
    "Verif.C62_bfs",
    "Verif.C62_bfs_filtered",
    "Verif.C62_bfs_mut"
   ],
   "note": "all five search iterators with a size_hint of their own"
  },
  {
   "property": "C63",
   "status": "proved",
   "theorems": [
    "Verif.C63_sw_randomize_proposes_every_edge_once",
    "Verif.C63_sw_new_law"
   ],
   "note": "randomize and new as functions of the draws"
  },
  {
   "property": "C64",
   "status": "proved",
   "theorems": [
    "Verif.C64_ba_attachment_law",
    "Verif.C64_ba_owner_count"
   ],
   "note": "for every generator; the weighted choice of the rand crate is modelled by cumulative sums"
  },
  {
   "property": "C65",
   "status": "proved",
   "theorems": [
    "Verif.C65_ws_randomize_law",
    "Verif.C65_ws_new_law"
   ],
   "note": "Any generator; the order in which a vertex's edges are tested is left open in the specification (the code tests from the last stored edge to the first)."
  },
  {
   "property": "C66",
   "status": "proved",
   "theorems": [
    "Verif.C66_er_c_converges",
    "Verif.C66_spacial_converges",
    "Verif.C66_er_m_converges",
    "Verif.C66_config_converges",
    "Verif.C66_config_round_repeated",
    "Verif.C66_sw_converges"
   ],
   "note": "All five ensembles with a Markov chain. Limits are over rational probabilities with explicit error bounds; uniform draws are modelled as equally likely values of the generator. For the configuration model rounds that draw the same vertex twice are repeated by the code (C66_config_round_repeated), so the law of a step is the one conditioned on different vertices."
  },
  {
   "property": "C67",
   "status": "proved",
   "theorems": [
    "Verif.C67_er_c_ignores_order_and_data",
    "Verif.C67_er_m_ignores_order_and_data",
    "Verif.C67_config_cosmetic",
    "Verif.C67_ba_cosmetic",
    "Verif.C67_ws_cosmetic"
   ],
   "note": "Full simulation for both Erdos-Renyi ensembles; invariants for the others, whose steps do draw by position in the lists."
  },
  {
   "property": "C68",
   "status": "proved",
   "theorems": [
    "Verif.C68_measures_depend_on_topology",
    "Verif.C68_harmless_calls",
    "Verif.C68_biconnected_order_violation"
   ],
   "note": "All listed measures, for graphs of any kinds; the exclusion of vertex_biconnected_components is shown necessary by a concrete graph."
  },
  {
   "property": "C69",
   "status": "proved",
   "theorems": [
    "Verif.C69_er_c_forgets",
    "Verif.C69_er_m_forgets",
    "Verif.C69_config_forgets",
    "Verif.C69_ws_forgets",
    "Verif.C69_ba_forgets",
    "Verif.C69_spacial_forgets",
    "Verif.C69_dog_forgets",
    "Verif.C69_sw_randomize_remembers_violation"
   ],
   "note": "All ensembles; the exception is proved as a violation."
  },
  {
   "property": "C70",
   "status": "proved",
   "theorems": [
    "Verif.C70_draws_uniform",
    "Verif.C70_generator_reads",
    "Verif.C70_ws_randomize",
    "Verif.C70_ws_hangs",
    "Verif.C70_ws_new_iff",
    "Verif.C70_ba_iff",
    "Verif.C70_config_iff",
    "Verif.C70_config_randomize",
    "Verif.C70_config_step",
    "Verif.C70_dog_partner_iff"
   ],
   "note": "For the DogEnsemble the statement is about the partner search, not about the whole of randomize: the Poisson number is a parameter of the model."
  },
  {
   "property": "C71",
   "status": "proved",
   "theorems": [
    "Verif.C71_distance_euclidean",
    "Verif.C71_distance_metric",
    "Verif.C71_spacial_formula",
    "Verif.C71_spacial_formula_limit",
    "Verif.C71_dog_formula",
    "Verif.C71_spacial_edge_law",
    "Verif.C71_er_c_edge_law",
    "Verif.C71_throw_close",
    "Verif.C71_spacial_edge_probability",
    "Verif.C71_dog_edge_law",
    "Verif.C71_dog_edge_probability"
   ],
   "note": "The rounding of hypot, powf and exp_m1 is an assumption of the theorems (distance at most epsilon), not computed."
  },
  {
   "property": "C72",
   "status": "proved",
   "theorems": [
    "Verif.C72_load_relative",
    "Verif.C72_load_absolute",
    "Verif.C72_load_exact",
    "Verif.C72_load_double"
   ],
   "note": "Rounded vertex_load: relative error bound with end points, absolute bound without, exactness for unique shortest paths; instance for 53 significant bits. Overflow and subnormal numbers are not modelled."
  },
  {
   "property": "C73",
   "status": "proved",
   "theorems": [
    "Verif.C73_edit_same",
    "Verif.C73_edit_ub",
    "Verif.C73_edit_out_of_range",
    "Verif.C73_client",
    "Verif.C73_sw_edit_ub",
    "Verif.C73_sw",
    "Verif.C73_spacial",
    "Verif.C73_er_c",
    "Verif.C73_er_m",
    "Verif.C73_config",
    "Verif.C73_ba",
    "Verif.C73_ws",
    "Verif.C73_dog",
    "Verif.C73_forged_step",
    "Verif.C73_searches",
    "Verif.C73_neighbors_mut",
    "Verif.C73_dual_add_edge",
    "Verif.C73_dual_is_connected",
    "Verif.C73_dual_diameter",
    "Verif.C73_dual_iter",
    "Verif.C73_dual_other_mut"
   ],
   "note": "Release builds against debug builds; undefined behaviour characterised exactly for the editing functions and the dual-graph iterators; aliasing modelled per vertex, not Stacked Borrows."
  },
  {
   "property": "C74",
   "status": "proved",
   "theorems": [
    "Verif.C74_er_c_undo_any",
    "Verif.C74_er_c_history",
    "Verif.C74_spacial_undo_any",
    "Verif.C74_spacial_history",
    "Verif.C74_config_undo_any",
    "Verif.C74_config_history",
    "Verif.C74_er_m_step_proper",
    "Verif.C74_er_m_undo_any",
    "Verif.C74_er_m_damage",
    "Verif.C74_er_m_out_of_order",
    "Verif.C74_sw_undo_any",
    "Verif.C74_sw_undo_release",
    "Verif.C74_sw_out_of_order"
   ],
   "note": "Histories with stale steps: robust ensembles for all histories; exact conditions and constructed failing histories for ErEnsembleM and SwEnsemble"
  },
  {
   "property": "C75",
   "status": "proved",
   "theorems": [
    "Verif.C75_iterators_write",
    "Verif.C75_er_c",
    "Verif.C75_er_m",
    "Verif.C75_sw",
    "Verif.C75_config",
    "Verif.C75_config_degrees",
    "Verif.C75_ws",
    "Verif.C75_ba",
    "Verif.C75_ba_new",
    "Verif.C75_spacial",
    "Verif.C75_dog"
   ],
   "note": "All public mutating calls with arbitrary arguments, interleaved with writes of node data, per ensemble (SpacialEnsemble and DogEnsemble offer no writes)."
  },
  {
   "property": "C76",
   "status": "proved",
   "theorems": [
    "Verif.C76_components",
    "Verif.C76_connected",
    "Verif.C76_eccentricity",
    "Verif.C76_diameter",
    "Verif.C76_forest",
    "Verif.C76_q_core"
   ],
   "note": "connected_components, its ids, suggest_connections, is_connected, diameter, longest shortest paths, q_core and the biconnected components related on all simple graphs."
  },
  {
   "property": "C77",
   "status": "proved",
   "theorems": [
    "Verif.C77_add_edge",
    "Verif.C77_remove_edge",
    "Verif.C77_remove_edge_diameter",
    "Verif.C77_add_edge_diameter",
    "Verif.C77_add_edge_closeness",
    "Verif.C77_remove_edge_closeness"
   ],
   "note": "Successful add_edge and remove_edge on all simple graphs; the factor two for the diameter and the closeness included."
  },
  {
   "property": "C78",
   "status": "proved",
   "theorems": [
    "Verif.C78_ring",
    "Verif.C78_ws",
    "Verif.C78_complete"
   ],
   "note": "Closed formulas for all sizes; the transitivity of the ring for n >= 3d+1, where no triangle goes around the ring."
  },
  {
   "property": "C79",
   "status": "proved",
   "theorems": [
    "Verif.C79_transitivity",
    "Verif.C79_transitivity_order",
    "Verif.C79_average_degree",
    "Verif.C79_average_degree_edit",
    "Verif.C79_average_degree_small_world",
    "Verif.C79_closeness",
    "Verif.C79_fractions"
   ],
   "note": "usize counts below 2^64 assumed for leaving out exponent limits; holds for any rule for ties"
  },
  {
   "property": "C80",
   "status": "proved",
   "theorems": [
    "Verif.C80_er_c_moments",
    "Verif.C80_er_c_average_degree",
    "Verif.C80_er_c_target",
    "Verif.C80_er_c_target_rounded",
    "Verif.C80_er_c_new",
    "Verif.C80_spacial_moments"
   ],
   "note": "assumes independent uniform draws"
  },
  {
   "property": "C81",
   "status": "proved",
   "theorems": [
    "Verif.C81_ws_randomize_moved",
    "Verif.C81_ws_new_moved",
    "Verif.C81_moved_prob"
   ],
   "note": "law of the set of moved edges for randomize and new; the probability is q(2-q), not the documented parameter (Finding 20)"
  },
  {
   "property": "C82",
   "status": "proved",
   "theorems": [
    "Verif.C82_sw_r_prob",
    "Verif.C82_sw_step_report",
    "Verif.C82_er_c_target",
    "Verif.C82_er_c_step_report",
    "Verif.C82_er_c_valid_iff",
    "Verif.C82_er_m_get_m",
    "Verif.C82_er_m_invert"
   ],
   "note": "Parameters of SwEnsemble, ErEnsembleC and ErEnsembleM over all lists of calls; those of the other ensembles are in C75."
  },
  {
   "property": "C83",
   "status": "proved",
   "theorems": [
    "Verif.C83_config_law",
    "Verif.C83_config_support",
    "Verif.C83_config_relabelling",
    "Verif.C83_config_biased"
   ],
   "note": "exact probabilities on the uniform tape; the known bias is quantified"
  },
  {
   "property": "C84",
   "status": "proved",
   "theorems": [
    "Verif.C84_ba_law",
    "Verif.C84_ba_one"
   ],
   "note": "exact probabilities on the uniform tape"
  },
  {
   "property": "C85",
   "status": "proved",
   "theorems": [
    "Verif.C85_shows",
    "Verif.C85_er_c",
    "Verif.C85_er_m",
    "Verif.C85_sw",
    "Verif.C85_config",
    "Verif.C85_ws",
    "Verif.C85_ba",
    "Verif.C85_spacial"
   ],
   "note": "All seven ensembles that implement AsRef, after any history of calls and writes (SpacialEnsemble offers no writes); every measure, access to node data and search offered through the ensemble. For BAensemble the constructor new. DogEnsemble only hands out its graph, see C75."
  },
  {
   "property": "C86",
   "status": "proved",
   "theorems": [
    "Verif.C86_options",
    "Verif.C86_constants",
    "Verif.C86_determines",
    "Verif.C86_container_index",
    "Verif.C86_contained",
    "Verif.C86_container",
    "Verif.C86_indices",
    "Verif.C86_to_dot"
   ],
   "note": "All dot functions of GenericGraph; the reader covers a fragment of the dot language (no comments, html strings, ports, subgraphs, chains) and refuses everything else."
  },
  {
   "property": "C87",
   "status": "proved",
   "theorems": [
    "Verif.C87_dog_history",
    "Verif.C87_graph",
    "Verif.C87_spacial",
    "Verif.C87_dog"
   ],
   "note": "Positions are rational numbers and the multiplication by 100.0 is exact in the model; formatting with two digits follows std."
  },
  {
   "property": "C88",
   "status": "proved",
   "theorems": [
    "Verif.C88_put_back",
    "Verif.C88_ws_randomize_places",
    "Verif.C88_ws_new_places",
    "Verif.C88_equally_likely",
    "Verif.C88_one_edge"
   ],
   "note": ""
  },
  {
   "property": "C89",
   "status": "proved",
   "theorems": [
    "Verif.C89_er_c_law",
    "Verif.C89_spacial_law",
    "Verif.C89_er_m_law",
    "Verif.C89_sw_law",
    "Verif.C89_config_law",
    "Verif.C89_er_c_samples",
    "Verif.C89_spacial_samples",
    "Verif.C89_er_m_samples",
    "Verif.C89_sw_samples",
    "Verif.C89_config_samples"
   ],
   "note": "all five chains; the tape stands for the generator (Stream), the crate's sampling methods are modelled by one draw each as stated in DESIGN"
  },
  {
   "property": "C90",
   "status": "proved",
   "theorems": [
    "Verif.C90_er_c_average",
    "Verif.C90_spacial_average",
    "Verif.C90_er_m_average",
    "Verif.C90_sw_average",
    "Verif.C90_config_average",
    "Verif.C90_er_c_almost_surely",
    "Verif.C90_spacial_almost_surely",
    "Verif.C90_er_m_almost_surely",
    "Verif.C90_sw_almost_surely",
    "Verif.C90_config_almost_surely"
   ],
   "note": "weak and strong law of large numbers for the five Markov chains on random tapes, for every function of the edges and every starting state"
  },
  {
   "property": "C91",
   "status": "proved",
   "theorems": [
    "Verif.C91_dog_law",
    "Verif.C91_dog_returns",
    "Verif.C91_dog_partner",
    "Verif.C91_partner_proportional"
   ],
   "note": "exact law of randomize on the uniform tape, the law of one partner, and its distance from the share of the degrees; the Poisson sampler enters through the distribution of its values"
  },
  {
   "property": "C92",
   "status": "proved",
   "theorems": [
    "Verif.C92_ensembles",
    "Verif.C92_graphs_and_steps",
    "Verif.C92_json",
    "Verif.C92_spacial_graph_json",
    "Verif.C92_new_spacial_graph_json",
    "Verif.C92_spacial_ensemble_json",
    "Verif.C92_ws_json",
    "Verif.C92_resume",
    "Verif.C92_field_order",
    "Verif.C92_unknown_fields",
    "Verif.C92_missing_root",
    "Verif.C92_load_checks_nothing"
   ],
   "note": "what the derive macros generate is modelled; the formats (serde_json) are external code, JSON is represented by its treatment of NaN"
  },
  {
   "property": "C93",
   "status": "proved",
   "theorems": [
    "Verif.C93_er_c_mean",
    "Verif.C93_er_c_events",
    "Verif.C93_er_c_steps",
    "Verif.C93_er_c_pair",
    "Verif.C93_er_c_average_error",
    "Verif.C93_er_c_edge_count",
    "Verif.C93_spacial_events",
    "Verif.C93_spacial_mean",
    "Verif.C93_spacial_steps",
    "Verif.C93_spacial_pair",
    "Verif.C93_spacial_average_error",
    "Verif.C93_er_m_mean",
    "Verif.C93_er_m_events",
    "Verif.C93_er_m_steps",
    "Verif.C93_er_m_average_error"
   ],
   "note": "rates for ErEnsembleC, SpacialEnsemble and ErEnsembleM; the exact formulas for pairs show that the rate of the first two cannot be improved"
  },
  {
   "property": "C94",
   "status": "proved",
   "theorems": [
    "Verif.C94_er_c_independent",
    "Verif.C94_er_m_independent",
    "Verif.C94_spacial_independent",
    "Verif.C94_config_independent",
    "Verif.C94_ba_independent",
    "Verif.C94_ws_independent",
    "Verif.C94_dog_independent",
    "Verif.C94_dog_list",
    "Verif.C94_config_list",
    "Verif.C94_ba_list",
    "Verif.C94_ws_list",
    "Verif.C94_average",
    "Verif.C94_average_error",
    "Verif.C94_average_normal",
    "Verif.C94_variance_pos"
   ],
   "note": "Simple sampling with randomize: the edge sets after the calls are independent with the law of a single call, for all ensembles but SwEnsemble (excluded in the statement); averages converge, Chebyshev bound and normal limit. For DogEnsemble under the hypothesis that a call returns with probability one, and without it the probability of any list of results. Trusted: the generator model of C70."
  },
  {
   "property": "C95",
   "status": "proved",
   "theorems": [
    "Verif.C95_er_c_pairs",
    "Verif.C95_er_c_edge_count",
    "Verif.C95_er_c_degree",
    "Verif.C95_er_c_exactly",
    "Verif.C95_er_c_triangles",
    "Verif.C95_spacial_exactly",
    "Verif.C95_spacial_isolated",
    "Verif.C95_er_m_pairs",
    "Verif.C95_er_m_degree",
    "Verif.C95_er_m_contains",
    "Verif.C95_er_m_triangles",
    "Verif.C95_triangles_transitivity"
   ],
   "note": "binomial and hypergeometric laws for any set of pairs, degrees, edge_count; triangles in the mean; SpacialEnsemble: the law of any set of pairs and of isolated vertices"
  },
  {
   "property": "C96",
   "status": "proved",
   "theorems": [
    "Verif.C96_ba_within",
    "Verif.C96_ba_rounds",
    "Verif.C96_ba_randomize",
    "Verif.C96_config_within",
    "Verif.C96_config_rounds",
    "Verif.C96_config_step_within",
    "Verif.C96_config_step_rounds",
    "Verif.C96_ws_search",
    "Verif.C96_ws_search_le",
    "Verif.C96_ws_within",
    "Verif.C96_dog_search"
   ],
   "note": "Number of rounds of the unbounded loops: distribution and mean, for every state of the ensembles (Barab\u00e1si\u2013Albert: exact distribution and an upper bound of the mean); for the whole SmallWorldWS::randomize and BAensemble::randomize a lower bound for the probability that F rounds per search are enough."
  },
  {
   "property": "C97",
   "status": "proved",
   "theorems": [
    "Verif.C97_er_c_metropolis",
    "Verif.C97_spacial_metropolis",
    "Verif.C97_er_m_metropolis",
    "Verif.C97_sw_metropolis",
    "Verif.C97_config_metropolis",
    "Verif.C97_er_m_flat",
    "Verif.C97_config_flat",
    "Verif.C97_er_c_monotone",
    "Verif.C97_spacial_monotone",
    "Verif.C97_er_c_forbidden",
    "Verif.C97_er_m_forbidden",
    "Verif.C97_config_forbidden",
    "Verif.C97_sw_forbidden"
   ],
   "note": "The sampling crate is external: its procedure (trial of k steps, Metropolis acceptance with the exact probability, undo_steps_quiet on rejection) is modelled, not its code"
  },
  {
   "property": "C98",
   "status": "proved",
   "theorems": [
    "Verif.C98_config_connected",
    "Verif.C98_er_c_connected",
    "Verif.C98_spacial_connected",
    "Verif.C98_er_m_connected",
    "Verif.C98_sw_connected"
   ],
   "note": ""
  },
  {
   "property": "C99",
   "status": "proved",
   "theorems": [
    "Verif.C99_er_c_average",
    "Verif.C99_er_c_connected_average",
    "Verif.C99_spacial_average",
    "Verif.C99_spacial_connected_average",
    "Verif.C99_er_m_average",
    "Verif.C99_er_m_connected_average",
    "Verif.C99_sw_average",
    "Verif.C99_sw_connected_average",
    "Verif.C99_config_average",
    "Verif.C99_config_connected_average",
    "Verif.C99_er_m_histogram",
    "Verif.C99_config_histogram"
   ],
   "note": "Weak law of large numbers for the networks after the single trials; all five ensembles, with and without restriction to connected networks; flat histograms for ErEnsembleM and ConfigurationModel. The decision of the external sampling crate is modelled by its exact probability."
  },
  {
   "property": "C100",
   "status": "proved",
   "theorems": [
    "Verif.C100_ba_exchangeable",
    "Verif.C100_ba_rich",
    "Verif.C100_ba_lead",
    "Verif.C100_ba_mean_source",
    "Verif.C100_ba_mean_new"
   ],
   "note": "Consequences of the exact law of C84 for the returned networks."
  },
  {
   "property": "C101",
   "status": "proved",
   "theorems": [
    "Verif.C101_er_c_stationary",
    "Verif.C101_er_c_reversible",
    "Verif.C101_er_c_covariance",
    "Verif.C101_er_c_autocovariance",
    "Verif.C101_spacial_stationary",
    "Verif.C101_spacial_reversible",
    "Verif.C101_spacial_covariance",
    "Verif.C101_spacial_autocovariance",
    "Verif.C101_er_m_stationary",
    "Verif.C101_er_m_reversible",
    "Verif.C101_er_m_covariance",
    "Verif.C101_er_m_autocovariance",
    "Verif.C101_er_m_pair"
   ],
   "note": "ErEnsembleC, SpacialEnsemble and ErEnsembleM; randomize followed by t Markov steps on one uniform stream"
  },
  {
   "property": "C102",
   "status": "proved",
   "theorems": [
    "Verif.C102_tree",
    "Verif.C102_counts",
    "Verif.C102_double_sweep",
    "Verif.C102_eccentricity",
    "Verif.C102_radius",
    "Verif.C102_cut",
    "Verif.C102_load",
    "Verif.C102_ba"
   ],
   "note": "all parts; distances in the statement are those of the graph (bfs_index_depth by C11)"
  },
  {
   "property": "C103",
   "status": "proved",
   "theorems": [
    "Verif.C103_measures_rename",
    "Verif.C103_vertices_rename",
    "Verif.C103_biconnected_count",
    "Verif.C103_biconnected_violation"
   ],
   "note": "The entries of vertex_biconnected_components depend on the names (C103_biconnected_violation), as stated; their number does not."
  },
  {
   "property": "C104",
   "status": "proved",
   "theorems": [
    "Verif.C104_nested_measures",
    "Verif.C104_er_c_randomize",
    "Verif.C104_er_c_new",
    "Verif.C104_er_c_steps",
    "Verif.C104_er_c_meet",
    "Verif.C104_er_c_sandwich",
    "Verif.C104_spacial_randomize",
    "Verif.C104_spacial_scale",
    "Verif.C104_spacial_steps",
    "Verif.C104_spacial_meet",
    "Verif.C104_increasing",
    "Verif.C104_er_c_chance",
    "Verif.C104_er_c_chance_steps",
    "Verif.C104_spacial_chance"
   ],
   "note": ""
  },
  {
   "property": "C105",
   "status": "proved",
   "theorems": [
    "Verif.C105_special_values",
    "Verif.C105_er_c_never",
    "Verif.C105_er_c_always",
    "Verif.C105_er_c_new",
    "Verif.C105_zero_is_not_never",
    "Verif.C105_spacial_extreme",
    "Verif.C105_ws_extreme",
    "Verif.C105_sw_never"
   ],
   "note": ""
  },
  {
   "property": "C106",
   "status": "proved",
   "theorems": [
    "Verif.C106_init_ring",
    "Verif.C106_sw_new",
    "Verif.C106_sw_new_with_distance",
    "Verif.C106_sw_debug",
    "Verif.C106_sw_distance_step",
    "Verif.C106_ws_new",
    "Verif.C106_empty",
    "Verif.C106_pairs",
    "Verif.C106_from_const",
    "Verif.C106_suggest_connections"
   ],
   "note": "Both builds. The distance-d results for SwEnsemble hold for d >= 1 (NonZeroUsize), WS::new for n < 2^32 (u32). Overflow in measures (sums over vertices) is not covered."
  },
  {
   "property": "C107",
   "status": "proved",
   "theorems": [
    "Verif.C107_exchange",
    "Verif.C107_exchange_first",
    "Verif.C107_add_edge",
    "Verif.C107_dfs",
    "Verif.C107_bfs",
    "Verif.C107_is_connected",
    "Verif.C107_diameter",
    "Verif.C107_diameter_empty"
   ],
   "note": "All three cases (returns, panics, start out of range) of the searches, is_connected and diameter for arbitrary cross lists; the mutating iterators are covered by C73."
  },
  {
   "property": "C108",
   "status": "proved",
   "theorems": [
    "Verif.C108_er_c_average",
    "Verif.C108_er_c_error",
    "Verif.C108_er_c_bias",
    "Verif.C108_spacial_average",
    "Verif.C108_spacial_error",
    "Verif.C108_spacial_bias",
    "Verif.C108_er_m_average",
    "Verif.C108_er_m_error",
    "Verif.C108_er_m_bias"
   ],
   "note": "mean, exact variance and error of the average of a sum over the edges along one run after randomize, and the bias of the average from any network on; ErEnsembleC, SpacialEnsemble, ErEnsembleM"
  },
  {
   "property": "C109",
   "status": "proved",
   "theorems": [
    "Verif.C109_cluster_count",
    "Verif.C109_er_c_clusters",
    "Verif.C109_er_m_clusters",
    "Verif.C109_er_c_connected",
    "Verif.C109_er_c_component",
    "Verif.C109_er_m_connected",
    "Verif.C109_er_m_component",
    "Verif.C109_er_c_until_connected",
    "Verif.C109_er_m_until_connected"
   ],
   "note": "Both ensembles, exact probabilities and mean numbers of clusters of every size; drawing until connected is stated about the samples of repeated randomize calls (C94)."
  },
  {
   "property": "C110",
   "status": "proved",
   "theorems": [
    "Verif.C110_readers_agree",
    "Verif.C110_writers_agree",
    "Verif.C110_write_all",
    "Verif.C110_from_iter",
    "Verif.C110_ensembles"
   ],
   "note": "All readers and writers of the data at the vertices agree, on graphs of all containers and through the trait Contained of the five ensembles; one write changes one value and nothing else."
  },
  {
   "property": "C111",
   "status": "proved",
   "theorems": [
    "Verif.C111_er_c_randomize",
    "Verif.C111_er_c_step",
    "Verif.C111_er_c_undo",
    "Verif.C111_er_m",
    "Verif.C111_spacial_randomize",
    "Verif.C111_spacial_step",
    "Verif.C111_sw_step",
    "Verif.C111_sw_randomize",
    "Verif.C111_er_c_jump",
    "Verif.C111_spacial_jump",
    "Verif.C111_pcg_skip",
    "Verif.C111_config_randomize",
    "Verif.C111_config_step",
    "Verif.C111_ba_randomize",
    "Verif.C111_ws_randomize"
   ],
   "note": "Requests to the generator of the Erd\u0151s\u2013R\u00e9nyi, spatial and small-world calls, exact; jumping ahead for ErEnsembleC and the spatial ensembles with any generator. Watts-Strogatz, Barab\u00e1si-Albert and configuration model draw until it fits: kind, order and least number of their requests (C111_config_*, C111_ba_*, C111_ws_*), for the distribution of the number of rounds see C96."
  },
  {
   "property": "C112",
   "status": "proved",
   "theorems": [
    "Verif.C112_ba_core_above",
    "Verif.C112_ba_core_below",
    "Verif.C112_ba_new",
    "Verif.C112_ba_isolated",
    "Verif.C112_ba_components"
   ],
   "note": "Every run of randomize that returns, every source with an edge; the case of new written out. For m >= 2 only an upper bound of the number of components: attached vertices can join components."
  },
  {
   "property": "C113",
   "status": "proved",
   "theorems": [
    "Verif.C113_core_min_degree",
    "Verif.C113_sw_pieces",
    "Verif.C113_sw_history"
   ],
   "note": "Every network an SwEnsemble can reach; sharp, ten vertices can fall into two pieces of five."
  },
  {
   "property": "C114",
   "status": "proved",
   "theorems": [
    "Verif.C114_edges",
    "Verif.C114_many_edges",
    "Verif.C114_large_degrees",
    "Verif.C114_er_m",
    "Verif.C114_config"
   ],
   "note": "For all graphs; the ensembles by the histories of C75. Sharpness is shown on one example each."
  },
  {
   "property": "C115",
   "status": "proved",
   "theorems": [
    "Verif.C115_core_degrees",
    "Verif.C115_er_m",
    "Verif.C115_config",
    "Verif.C115_core_size",
    "Verif.C115_no_core",
    "Verif.C115_sw_sparse",
    "Verif.C115_sw_piece_degrees",
    "Verif.C115_sw_core",
    "Verif.C115_sw_history"
   ],
   "note": "C115_core_size, C115_no_core and C115_core_degrees for every container; C115_sw_sparse for every set of vertices, C115_sw_piece_degrees for every component, C115_sw_core and C115_sw_history, C115_er_m and C115_config for all histories."
  },
  {
   "property": "C116",
   "status": "proved",
   "theorems": [
    "Verif.C116_ba_distances",
    "Verif.C116_ba_diameter",
    "Verif.C116_ba_eccentricity",
    "Verif.C116_ba_triangles"
   ],
   "note": "C116_ba_distances, C116_ba_diameter, C116_ba_eccentricity and C116_ba_triangles for every run that returns; examples show that both ends of the bound on the diameter occur and that m = 2 can shorten distances."
  },
  {
   "property": "C117",
   "status": "proved",
   "theorems": [
    "Verif.C117_whole_iff",
    "Verif.C117_measures",
    "Verif.C117_more_edges",
    "Verif.C117_ba_biconnected",
    "Verif.C117_ba_new"
   ],
   "note": "C117_whole_iff, C117_measures and C117_more_edges for every container, C117_ba_biconnected for every biconnected source, C117_ba_new for the complete source."
  },
  {
   "property": "C118",
   "status": "proved",
   "theorems": [
    "Verif.C118_load_cut",
    "Verif.C118_zero_not_cut",
    "Verif.C118_load_bounds",
    "Verif.C118_load_zero_iff",
    "Verif.C118_leaf",
    "Verif.C118_all_zero_iff",
    "Verif.C118_load_star_iff"
   ],
   "note": "Over exact rationals; the rounding of f64 is treated in C72."
  }
 ]
}