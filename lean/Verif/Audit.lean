import Verif.Props.Access
import Verif.Props.Agree
import Verif.Props.AlmostSure
import Verif.Props.Api
import Verif.Props.Asked
import Verif.Props.AskedMore
import Verif.Props.Average
import Verif.Props.Ba
import Verif.Props.BaBicon
import Verif.Props.BaChance
import Verif.Props.BaCore
import Verif.Props.BaDist
import Verif.Props.BaGrowth
import Verif.Props.BaLaw
import Verif.Props.BaRounds
import Verif.Props.Bicon
import Verif.Props.BiconSum
import Verif.Props.Binomial
import Verif.Props.Build
import Verif.Props.ChainLaw
import Verif.Props.ChainVariance
import Verif.Props.ClosedForm
import Verif.Props.Clusters
import Verif.Props.Config
import Verif.Props.ConfigBalance
import Verif.Props.ConfigChance
import Verif.Props.ConfigLaw
import Verif.Props.Connect
import Verif.Props.ConnectedConfig
import Verif.Props.ConnectedSim
import Verif.Props.ConnectedSw
import Verif.Props.Converge
import Verif.Props.ConvergeConfig
import Verif.Props.ConvergeSw
import Verif.Props.CoreBounds
import Verif.Props.Coupling
import Verif.Props.Degree
import Verif.Props.Delegate
import Verif.Props.Dense
import Verif.Props.Dog
import Verif.Props.DogHist
import Verif.Props.DogLaw
import Verif.Props.DotRead
import Verif.Props.Dual
import Verif.Props.DualAny
import Verif.Props.Edit
import Verif.Props.Er
import Verif.Props.ErBalance
import Verif.Props.Extreme
import Verif.Props.Float
import Verif.Props.Forget
import Verif.Props.Formula
import Verif.Props.Gilbert
import Verif.Props.Independent
import Verif.Props.Iter
import Verif.Props.Load
import Verif.Props.LoadCut
import Verif.Props.LoadRound
import Verif.Props.LoadUnique
import Verif.Props.LoadZero
import Verif.Props.Mean
import Verif.Props.Metropolis
import Verif.Props.OneEdge
import Verif.Props.Params
import Verif.Props.Quiet
import Verif.Props.RandomLaw
import Verif.Props.Rate
import Verif.Props.Recorded
import Verif.Props.Relabel
import Verif.Props.Release
import Verif.Props.Rounds
import Verif.Props.Serde
import Verif.Props.SizeHint
import Verif.Props.Spacial
import Verif.Props.SpacialDot
import Verif.Props.Stale
import Verif.Props.Subgraph
import Verif.Props.Sw
import Verif.Props.SwBalance
import Verif.Props.SwCore
import Verif.Props.SwLaw
import Verif.Props.SwPieces
import Verif.Props.Topology
import Verif.Props.Traverse
import Verif.Props.Tree
import Verif.Props.TrialAverage
import Verif.Props.TwoLooks
import Verif.Props.View
import Verif.Props.Ws
import Verif.Props.WsLaw
import Verif.Props.WsMoved
import Verif.Props.WsPlace

/-!
# Axioms used by the property theorems (written by tools/manifest.py)
-/

#print axioms Verif.C01_edge_history_refines_set
#print axioms Verif.C01_history_from_any_graph
#print axioms Verif.C02_C05_step
#print axioms Verif.C02_history_wf
#print axioms Verif.C03_failed_calls_change_nothing
#print axioms Verif.C04_only_net_effect_matters
#print axioms Verif.C04_remove_add_inverse
#print axioms Verif.C05_topology_edits_keep_data
#print axioms Verif.C06_clear_edges
#print axioms Verif.C07_init_ring
#print axioms Verif.C07_init_ring_too_small
#print axioms Verif.C08_complete_graph
#print axioms Verif.C09_shuffle
#print axioms Verif.C09_sort_adj
#print axioms Verif.C09_sw_container
#print axioms Verif.C09_ws_container
#print axioms Verif.C100_ba_exchangeable
#print axioms Verif.C100_ba_lead
#print axioms Verif.C100_ba_mean_new
#print axioms Verif.C100_ba_mean_source
#print axioms Verif.C100_ba_rich
#print axioms Verif.C101_er_c_autocovariance
#print axioms Verif.C101_er_c_covariance
#print axioms Verif.C101_er_c_reversible
#print axioms Verif.C101_er_c_stationary
#print axioms Verif.C101_er_m_autocovariance
#print axioms Verif.C101_er_m_covariance
#print axioms Verif.C101_er_m_pair
#print axioms Verif.C101_er_m_reversible
#print axioms Verif.C101_er_m_stationary
#print axioms Verif.C101_spacial_autocovariance
#print axioms Verif.C101_spacial_covariance
#print axioms Verif.C101_spacial_reversible
#print axioms Verif.C101_spacial_stationary
#print axioms Verif.C102_ba
#print axioms Verif.C102_counts
#print axioms Verif.C102_cut
#print axioms Verif.C102_double_sweep
#print axioms Verif.C102_eccentricity
#print axioms Verif.C102_load
#print axioms Verif.C102_radius
#print axioms Verif.C102_tree
#print axioms Verif.C103_biconnected_count
#print axioms Verif.C103_biconnected_violation
#print axioms Verif.C103_measures_rename
#print axioms Verif.C103_vertices_rename
#print axioms Verif.C104_er_c_chance
#print axioms Verif.C104_er_c_chance_steps
#print axioms Verif.C104_er_c_meet
#print axioms Verif.C104_er_c_new
#print axioms Verif.C104_er_c_randomize
#print axioms Verif.C104_er_c_sandwich
#print axioms Verif.C104_er_c_steps
#print axioms Verif.C104_increasing
#print axioms Verif.C104_nested_measures
#print axioms Verif.C104_spacial_chance
#print axioms Verif.C104_spacial_meet
#print axioms Verif.C104_spacial_randomize
#print axioms Verif.C104_spacial_scale
#print axioms Verif.C104_spacial_steps
#print axioms Verif.C105_er_c_always
#print axioms Verif.C105_er_c_never
#print axioms Verif.C105_er_c_new
#print axioms Verif.C105_spacial_extreme
#print axioms Verif.C105_special_values
#print axioms Verif.C105_sw_never
#print axioms Verif.C105_ws_extreme
#print axioms Verif.C105_zero_is_not_never
#print axioms Verif.C106_empty
#print axioms Verif.C106_from_const
#print axioms Verif.C106_init_ring
#print axioms Verif.C106_pairs
#print axioms Verif.C106_suggest_connections
#print axioms Verif.C106_sw_debug
#print axioms Verif.C106_sw_distance_step
#print axioms Verif.C106_sw_new
#print axioms Verif.C106_sw_new_with_distance
#print axioms Verif.C106_ws_new
#print axioms Verif.C107_add_edge
#print axioms Verif.C107_bfs
#print axioms Verif.C107_dfs
#print axioms Verif.C107_diameter
#print axioms Verif.C107_diameter_empty
#print axioms Verif.C107_exchange
#print axioms Verif.C107_exchange_first
#print axioms Verif.C107_is_connected
#print axioms Verif.C108_er_c_average
#print axioms Verif.C108_er_c_bias
#print axioms Verif.C108_er_c_error
#print axioms Verif.C108_er_m_average
#print axioms Verif.C108_er_m_bias
#print axioms Verif.C108_er_m_error
#print axioms Verif.C108_spacial_average
#print axioms Verif.C108_spacial_bias
#print axioms Verif.C108_spacial_error
#print axioms Verif.C109_cluster_count
#print axioms Verif.C109_er_c_clusters
#print axioms Verif.C109_er_c_component
#print axioms Verif.C109_er_c_connected
#print axioms Verif.C109_er_c_until_connected
#print axioms Verif.C109_er_m_clusters
#print axioms Verif.C109_er_m_component
#print axioms Verif.C109_er_m_connected
#print axioms Verif.C109_er_m_until_connected
#print axioms Verif.C10_dfs
#print axioms Verif.C10_dfs_mut
#print axioms Verif.C10_dfs_with_index
#print axioms Verif.C10_out_of_range
#print axioms Verif.C110_ensembles
#print axioms Verif.C110_from_iter
#print axioms Verif.C110_readers_agree
#print axioms Verif.C110_write_all
#print axioms Verif.C110_writers_agree
#print axioms Verif.C111_ba_randomize
#print axioms Verif.C111_config_randomize
#print axioms Verif.C111_config_step
#print axioms Verif.C111_er_c_jump
#print axioms Verif.C111_er_c_randomize
#print axioms Verif.C111_er_c_step
#print axioms Verif.C111_er_c_undo
#print axioms Verif.C111_er_m
#print axioms Verif.C111_pcg_skip
#print axioms Verif.C111_spacial_jump
#print axioms Verif.C111_spacial_randomize
#print axioms Verif.C111_spacial_step
#print axioms Verif.C111_sw_randomize
#print axioms Verif.C111_sw_step
#print axioms Verif.C111_ws_randomize
#print axioms Verif.C112_ba_components
#print axioms Verif.C112_ba_core_above
#print axioms Verif.C112_ba_core_below
#print axioms Verif.C112_ba_isolated
#print axioms Verif.C112_ba_new
#print axioms Verif.C113_core_min_degree
#print axioms Verif.C113_sw_history
#print axioms Verif.C113_sw_pieces
#print axioms Verif.C114_config
#print axioms Verif.C114_edges
#print axioms Verif.C114_er_m
#print axioms Verif.C114_large_degrees
#print axioms Verif.C114_many_edges
#print axioms Verif.C115_config
#print axioms Verif.C115_core_degrees
#print axioms Verif.C115_core_size
#print axioms Verif.C115_er_m
#print axioms Verif.C115_no_core
#print axioms Verif.C115_sw_core
#print axioms Verif.C115_sw_history
#print axioms Verif.C115_sw_piece_degrees
#print axioms Verif.C115_sw_sparse
#print axioms Verif.C116_ba_diameter
#print axioms Verif.C116_ba_distances
#print axioms Verif.C116_ba_eccentricity
#print axioms Verif.C116_ba_triangles
#print axioms Verif.C117_ba_biconnected
#print axioms Verif.C117_ba_new
#print axioms Verif.C117_measures
#print axioms Verif.C117_more_edges
#print axioms Verif.C117_whole_iff
#print axioms Verif.C118_all_zero_iff
#print axioms Verif.C118_leaf
#print axioms Verif.C118_load_bounds
#print axioms Verif.C118_load_cut
#print axioms Verif.C118_load_star_iff
#print axioms Verif.C118_load_zero_iff
#print axioms Verif.C118_zero_not_cut
#print axioms Verif.C11_bfs
#print axioms Verif.C11_bfs_mut
#print axioms Verif.C11_out_of_range
#print axioms Verif.C12_dual_reuse
#print axioms Verif.C12_reuse
#print axioms Verif.C13_accepted_iff
#print axioms Verif.C13_bfs_filtered
#print axioms Verif.C13_is_handled
#print axioms Verif.C14_reuse_at_vertex_count_panics_violation
#print axioms Verif.C14_reuse_ignores_filter_violation
#print axioms Verif.C14_reuse_partial
#print axioms Verif.C15_is_connected
#print axioms Verif.C16_component_ids
#print axioms Verif.C17_component_sizes
#print axioms Verif.C17_component_sizes_sum
#print axioms Verif.C18_diameter
#print axioms Verif.C18_diameter_none
#print axioms Verif.C19_eccentricity
#print axioms Verif.C20_doc_biggest_set_violation
#print axioms Verif.C20_q_core
#print axioms Verif.C20_q_core_none
#print axioms Verif.C21_all_bridges
#print axioms Verif.C21_alternative
#print axioms Verif.C21_alternative_violation
#print axioms Verif.C21_check
#print axioms Verif.C21_count_partial
#print axioms Verif.C21_forest
#print axioms Verif.C21_largest_violation
#print axioms Verif.C21_single_block
#print axioms Verif.C21_sizes_violation
#print axioms Verif.C21_sum
#print axioms Verif.C22_complete_graph
#print axioms Verif.C22_flow_exists_unique
#print axioms Verif.C22_load_counts_shortest_paths
#print axioms Verif.C22_total_load
#print axioms Verif.C22_vertex_load
#print axioms Verif.C23_closeness
#print axioms Verif.C23_closeness_empty_panics
#print axioms Verif.C24_transitivity
#print axioms Verif.C24_transitivity_le_one
#print axioms Verif.C25_cloned_subgraph
#print axioms Verif.C25_cloned_subgraph_none
#print axioms Verif.C26_average_degree
#print axioms Verif.C26_degree_histogram
#print axioms Verif.C26_degrees
#print axioms Verif.C26_leaf_count
#print axioms Verif.C27_conversions
#print axioms Verif.C27_reset_from_graph
#print axioms Verif.C28_make_connected
#print axioms Verif.C28_make_connected_empty
#print axioms Verif.C28_suggest_connections
#print axioms Verif.C29_draw_edge_bijective
#print axioms Verif.C29_draw_remaining_bijective
#print axioms Verif.C29_draw_remaining_range
#print axioms Verif.C29_draw_two_bijective
#print axioms Verif.C29_draw_two_range
#print axioms Verif.C30_er_m_invariant
#print axioms Verif.C30_er_m_new_panics
#print axioms Verif.C30_er_m_step_panics
#print axioms Verif.C31_C54_er_m_chain
#print axioms Verif.C31_er_m_undo
#print axioms Verif.C32_C54_er_c_chain
#print axioms Verif.C32_er_c_new
#print axioms Verif.C32_er_c_randomize
#print axioms Verif.C32_er_c_randomize_forgets
#print axioms Verif.C32_er_c_step
#print axioms Verif.C32_er_c_undo
#print axioms Verif.C32_set_target_connectivity
#print axioms Verif.C33_er_c_detailed_balance
#print axioms Verif.C33_er_c_irreducible
#print axioms Verif.C33_er_c_transition_counts
#print axioms Verif.C33_heads
#print axioms Verif.C34_er_m_irreducible
#print axioms Verif.C34_er_m_symmetric
#print axioms Verif.C34_er_m_transition_counts
#print axioms Verif.C35_sw_invariant
#print axioms Verif.C35_sw_new_iff
#print axioms Verif.C35_sw_new_with_distance_iff
#print axioms Verif.C36_count_root
#print axioms Verif.C36_five_frozen
#print axioms Verif.C36_sw_randomize
#print axioms Verif.C36_sw_step
#print axioms Verif.C37_C54_sw_chain
#print axioms Verif.C37_sw_undo
#print axioms Verif.C37_undo_quiet_panics
#print axioms Verif.C38_sw_make_connected
#print axioms Verif.C39_frac_nodes_wlre
#print axioms Verif.C39_long_ranging_edges
#print axioms Verif.C39_no_long_ranging_is_ring
#print axioms Verif.C39_nodes_with_long_ranging_edges
#print axioms Verif.C39_reset_only
#print axioms Verif.C39_root_edges
#print axioms Verif.C39_step_bookkeeping
#print axioms Verif.C40_config_clone
#print axioms Verif.C40_config_degrees_of_graph
#print axioms Verif.C40_config_every_realisation
#print axioms Verif.C40_config_from_graph
#print axioms Verif.C40_config_new
#print axioms Verif.C40_config_odd_sum
#print axioms Verif.C40_config_randomize
#print axioms Verif.C40_config_swap_degree_vec
#print axioms Verif.C40_config_swap_unchecked
#print axioms Verif.C41_accepted_but_never_returns
#print axioms Verif.C41_assert_iff
#print axioms Verif.C41_from_const
#print axioms Verif.C41_from_vec
#print axioms Verif.C41_returns_iff_realisable
#print axioms Verif.C41_unrealisable_diverges
#print axioms Verif.C41_valid_iff
#print axioms Verif.C42_config_step
#print axioms Verif.C42_config_step_no_edges
#print axioms Verif.C43_config_quiet
#print axioms Verif.C43_config_undo
#print axioms Verif.C43_config_undo_any
#print axioms Verif.C43_config_undo_ok_iff
#print axioms Verif.C44_ba_diverges
#print axioms Verif.C44_ba_m_le
#print axioms Verif.C44_ba_new
#print axioms Verif.C44_ba_new_from_generic
#print axioms Verif.C44_ba_new_from_graph
#print axioms Verif.C44_ba_no_edges
#print axioms Verif.C44_ba_preferential
#print axioms Verif.C44_ba_randomize
#print axioms Verif.C44_ba_returns_iff
#print axioms Verif.C44_ba_structure
#print axioms Verif.C45_ws_new
#print axioms Verif.C45_ws_randomize
#print axioms Verif.C45_ws_two_throws_per_edge
#print axioms Verif.C46_ws_never_returns
#print axioms Verif.C46_ws_new_error_iff
#print axioms Verif.C46_ws_returns_iff
#print axioms Verif.C47_C54_spacial_chain
#print axioms Verif.C47_distance
#print axioms Verif.C47_dog_randomize
#print axioms Verif.C47_edge_probability
#print axioms Verif.C47_edge_probability_negative
#print axioms Verif.C47_spacial_new
#print axioms Verif.C47_spacial_randomize
#print axioms Verif.C47_spacial_step
#print axioms Verif.C47_spacial_steps_quiet
#print axioms Verif.C47_spacial_undo
#print axioms Verif.C48_dog_new
#print axioms Verif.C48_dog_positions
#print axioms Verif.C48_latin
#print axioms Verif.C48_latin_len
#print axioms Verif.C48_latin_uniform
#print axioms Verif.C49_add_edge
#print axioms Verif.C49_degree
#print axioms Verif.C49_history
#print axioms Verif.C49_inner_edit
#print axioms Verif.C49_links_return
#print axioms Verif.C49_new
#print axioms Verif.C50_add_edge
#print axioms Verif.C50_history_partial
#print axioms Verif.C50_matching
#print axioms Verif.C50_taken_second_endpoint_panics_violation
#print axioms Verif.C51_bfs
#print axioms Verif.C51_dfs
#print axioms Verif.C51_dfs_contained
#print axioms Verif.C51_diameter
#print axioms Verif.C51_is_connected
#print axioms Verif.C51_reachable_vertices
#print axioms Verif.C52_contained_iter
#print axioms Verif.C52_contained_iter_mut
#print axioms Verif.C52_iter_neighbors
#print axioms Verif.C52_iter_neighbors_mut
#print axioms Verif.C52_iter_wrapper
#print axioms Verif.C52_neighbors
#print axioms Verif.C52_sw_edge_iter
#print axioms Verif.C53_dot
#print axioms Verif.C53_dot_string
#print axioms Verif.C54_config_chain
#print axioms Verif.C55_sw_detailed_balance
#print axioms Verif.C55_sw_irreducible
#print axioms Verif.C55_sw_total_weight
#print axioms Verif.C55_sw_weight
#print axioms Verif.C56_config_detailed_balance
#print axioms Verif.C56_config_irreducible
#print axioms Verif.C56_config_total_weight
#print axioms Verif.C57_spacial_detailed_balance
#print axioms Verif.C57_spacial_irreducible
#print axioms Verif.C57_spacial_transition_counts
#print axioms Verif.C58_dog_new_panics_iff
#print axioms Verif.C58_dog_no_short_edges
#print axioms Verif.C58_dog_panics_iff
#print axioms Verif.C58_dog_saturated
#print axioms Verif.C58_partner_iff
#print axioms Verif.C59_contained_iter
#print axioms Verif.C59_contained_iter_neighbors
#print axioms Verif.C59_neighbours_mut_1
#print axioms Verif.C59_neighbours_mut_2
#print axioms Verif.C59_other_mut
#print axioms Verif.C60_er_c_randomize_law
#print axioms Verif.C60_er_m_randomize_uniform
#print axioms Verif.C60_spacial_randomize_law
#print axioms Verif.C61_config_not_uniform_violation
#print axioms Verif.C61_config_randomize_biased
#print axioms Verif.C61_config_relabelling_partial
#print axioms Verif.C62_bfs
#print axioms Verif.C62_bfs_filtered
#print axioms Verif.C62_bfs_mut
#print axioms Verif.C62_dfs
#print axioms Verif.C62_dfs_with_index
#print axioms Verif.C63_sw_new_law
#print axioms Verif.C63_sw_randomize_proposes_every_edge_once
#print axioms Verif.C64_ba_attachment_law
#print axioms Verif.C64_ba_owner_count
#print axioms Verif.C65_ws_new_law
#print axioms Verif.C65_ws_randomize_law
#print axioms Verif.C66_config_converges
#print axioms Verif.C66_config_round_repeated
#print axioms Verif.C66_er_c_converges
#print axioms Verif.C66_er_m_converges
#print axioms Verif.C66_spacial_converges
#print axioms Verif.C66_sw_converges
#print axioms Verif.C67_ba_cosmetic
#print axioms Verif.C67_config_cosmetic
#print axioms Verif.C67_er_c_ignores_order_and_data
#print axioms Verif.C67_er_m_ignores_order_and_data
#print axioms Verif.C67_ws_cosmetic
#print axioms Verif.C68_biconnected_order_violation
#print axioms Verif.C68_harmless_calls
#print axioms Verif.C68_measures_depend_on_topology
#print axioms Verif.C69_ba_forgets
#print axioms Verif.C69_config_forgets
#print axioms Verif.C69_dog_forgets
#print axioms Verif.C69_er_c_forgets
#print axioms Verif.C69_er_m_forgets
#print axioms Verif.C69_spacial_forgets
#print axioms Verif.C69_sw_randomize_remembers_violation
#print axioms Verif.C69_ws_forgets
#print axioms Verif.C70_ba_iff
#print axioms Verif.C70_config_iff
#print axioms Verif.C70_config_randomize
#print axioms Verif.C70_config_step
#print axioms Verif.C70_dog_partner_iff
#print axioms Verif.C70_draws_uniform
#print axioms Verif.C70_generator_reads
#print axioms Verif.C70_ws_hangs
#print axioms Verif.C70_ws_new_iff
#print axioms Verif.C70_ws_randomize
#print axioms Verif.C71_distance_euclidean
#print axioms Verif.C71_distance_metric
#print axioms Verif.C71_dog_edge_law
#print axioms Verif.C71_dog_edge_probability
#print axioms Verif.C71_dog_formula
#print axioms Verif.C71_er_c_edge_law
#print axioms Verif.C71_spacial_edge_law
#print axioms Verif.C71_spacial_edge_probability
#print axioms Verif.C71_spacial_formula
#print axioms Verif.C71_spacial_formula_limit
#print axioms Verif.C71_throw_close
#print axioms Verif.C72_load_absolute
#print axioms Verif.C72_load_double
#print axioms Verif.C72_load_exact
#print axioms Verif.C72_load_relative
#print axioms Verif.C73_ba
#print axioms Verif.C73_client
#print axioms Verif.C73_config
#print axioms Verif.C73_dog
#print axioms Verif.C73_dual_add_edge
#print axioms Verif.C73_dual_diameter
#print axioms Verif.C73_dual_is_connected
#print axioms Verif.C73_dual_iter
#print axioms Verif.C73_dual_other_mut
#print axioms Verif.C73_edit_out_of_range
#print axioms Verif.C73_edit_same
#print axioms Verif.C73_edit_ub
#print axioms Verif.C73_er_c
#print axioms Verif.C73_er_m
#print axioms Verif.C73_forged_step
#print axioms Verif.C73_neighbors_mut
#print axioms Verif.C73_searches
#print axioms Verif.C73_spacial
#print axioms Verif.C73_sw
#print axioms Verif.C73_sw_edit_ub
#print axioms Verif.C73_ws
#print axioms Verif.C74_config_history
#print axioms Verif.C74_config_undo_any
#print axioms Verif.C74_er_c_history
#print axioms Verif.C74_er_c_undo_any
#print axioms Verif.C74_er_m_damage
#print axioms Verif.C74_er_m_out_of_order
#print axioms Verif.C74_er_m_step_proper
#print axioms Verif.C74_er_m_undo_any
#print axioms Verif.C74_spacial_history
#print axioms Verif.C74_spacial_undo_any
#print axioms Verif.C74_sw_out_of_order
#print axioms Verif.C74_sw_undo_any
#print axioms Verif.C74_sw_undo_release
#print axioms Verif.C75_ba
#print axioms Verif.C75_ba_new
#print axioms Verif.C75_config
#print axioms Verif.C75_config_degrees
#print axioms Verif.C75_dog
#print axioms Verif.C75_er_c
#print axioms Verif.C75_er_m
#print axioms Verif.C75_iterators_write
#print axioms Verif.C75_spacial
#print axioms Verif.C75_sw
#print axioms Verif.C75_ws
#print axioms Verif.C76_components
#print axioms Verif.C76_connected
#print axioms Verif.C76_diameter
#print axioms Verif.C76_eccentricity
#print axioms Verif.C76_forest
#print axioms Verif.C76_q_core
#print axioms Verif.C77_add_edge
#print axioms Verif.C77_add_edge_closeness
#print axioms Verif.C77_add_edge_diameter
#print axioms Verif.C77_remove_edge
#print axioms Verif.C77_remove_edge_closeness
#print axioms Verif.C77_remove_edge_diameter
#print axioms Verif.C78_complete
#print axioms Verif.C78_ring
#print axioms Verif.C78_ws
#print axioms Verif.C79_average_degree
#print axioms Verif.C79_average_degree_edit
#print axioms Verif.C79_average_degree_small_world
#print axioms Verif.C79_closeness
#print axioms Verif.C79_fractions
#print axioms Verif.C79_transitivity
#print axioms Verif.C79_transitivity_order
#print axioms Verif.C80_er_c_average_degree
#print axioms Verif.C80_er_c_moments
#print axioms Verif.C80_er_c_new
#print axioms Verif.C80_er_c_target
#print axioms Verif.C80_er_c_target_rounded
#print axioms Verif.C80_spacial_moments
#print axioms Verif.C81_moved_prob
#print axioms Verif.C81_ws_new_moved
#print axioms Verif.C81_ws_randomize_moved
#print axioms Verif.C82_er_c_step_report
#print axioms Verif.C82_er_c_target
#print axioms Verif.C82_er_c_valid_iff
#print axioms Verif.C82_er_m_get_m
#print axioms Verif.C82_er_m_invert
#print axioms Verif.C82_sw_r_prob
#print axioms Verif.C82_sw_step_report
#print axioms Verif.C83_config_biased
#print axioms Verif.C83_config_law
#print axioms Verif.C83_config_relabelling
#print axioms Verif.C83_config_support
#print axioms Verif.C84_ba_law
#print axioms Verif.C84_ba_one
#print axioms Verif.C85_ba
#print axioms Verif.C85_config
#print axioms Verif.C85_er_c
#print axioms Verif.C85_er_m
#print axioms Verif.C85_shows
#print axioms Verif.C85_spacial
#print axioms Verif.C85_sw
#print axioms Verif.C85_ws
#print axioms Verif.C86_constants
#print axioms Verif.C86_contained
#print axioms Verif.C86_container
#print axioms Verif.C86_container_index
#print axioms Verif.C86_determines
#print axioms Verif.C86_indices
#print axioms Verif.C86_options
#print axioms Verif.C86_to_dot
#print axioms Verif.C87_dog
#print axioms Verif.C87_dog_history
#print axioms Verif.C87_graph
#print axioms Verif.C87_spacial
#print axioms Verif.C88_equally_likely
#print axioms Verif.C88_one_edge
#print axioms Verif.C88_put_back
#print axioms Verif.C88_ws_new_places
#print axioms Verif.C88_ws_randomize_places
#print axioms Verif.C89_config_law
#print axioms Verif.C89_config_samples
#print axioms Verif.C89_er_c_law
#print axioms Verif.C89_er_c_samples
#print axioms Verif.C89_er_m_law
#print axioms Verif.C89_er_m_samples
#print axioms Verif.C89_spacial_law
#print axioms Verif.C89_spacial_samples
#print axioms Verif.C89_sw_law
#print axioms Verif.C89_sw_samples
#print axioms Verif.C90_config_almost_surely
#print axioms Verif.C90_config_average
#print axioms Verif.C90_er_c_almost_surely
#print axioms Verif.C90_er_c_average
#print axioms Verif.C90_er_m_almost_surely
#print axioms Verif.C90_er_m_average
#print axioms Verif.C90_spacial_almost_surely
#print axioms Verif.C90_spacial_average
#print axioms Verif.C90_sw_almost_surely
#print axioms Verif.C90_sw_average
#print axioms Verif.C91_dog_law
#print axioms Verif.C91_dog_partner
#print axioms Verif.C91_dog_returns
#print axioms Verif.C91_partner_proportional
#print axioms Verif.C92_ensembles
#print axioms Verif.C92_field_order
#print axioms Verif.C92_graphs_and_steps
#print axioms Verif.C92_json
#print axioms Verif.C92_load_checks_nothing
#print axioms Verif.C92_missing_root
#print axioms Verif.C92_new_spacial_graph_json
#print axioms Verif.C92_resume
#print axioms Verif.C92_spacial_ensemble_json
#print axioms Verif.C92_spacial_graph_json
#print axioms Verif.C92_unknown_fields
#print axioms Verif.C92_ws_json
#print axioms Verif.C93_er_c_average_error
#print axioms Verif.C93_er_c_edge_count
#print axioms Verif.C93_er_c_events
#print axioms Verif.C93_er_c_mean
#print axioms Verif.C93_er_c_pair
#print axioms Verif.C93_er_c_steps
#print axioms Verif.C93_er_m_average_error
#print axioms Verif.C93_er_m_events
#print axioms Verif.C93_er_m_mean
#print axioms Verif.C93_er_m_steps
#print axioms Verif.C93_spacial_average_error
#print axioms Verif.C93_spacial_events
#print axioms Verif.C93_spacial_mean
#print axioms Verif.C93_spacial_pair
#print axioms Verif.C93_spacial_steps
#print axioms Verif.C94_average
#print axioms Verif.C94_average_error
#print axioms Verif.C94_average_normal
#print axioms Verif.C94_ba_independent
#print axioms Verif.C94_ba_list
#print axioms Verif.C94_config_independent
#print axioms Verif.C94_config_list
#print axioms Verif.C94_dog_independent
#print axioms Verif.C94_dog_list
#print axioms Verif.C94_er_c_independent
#print axioms Verif.C94_er_m_independent
#print axioms Verif.C94_spacial_independent
#print axioms Verif.C94_variance_pos
#print axioms Verif.C94_ws_independent
#print axioms Verif.C94_ws_list
#print axioms Verif.C95_er_c_degree
#print axioms Verif.C95_er_c_edge_count
#print axioms Verif.C95_er_c_exactly
#print axioms Verif.C95_er_c_pairs
#print axioms Verif.C95_er_c_triangles
#print axioms Verif.C95_er_m_contains
#print axioms Verif.C95_er_m_degree
#print axioms Verif.C95_er_m_pairs
#print axioms Verif.C95_er_m_triangles
#print axioms Verif.C95_spacial_exactly
#print axioms Verif.C95_spacial_isolated
#print axioms Verif.C95_triangles_transitivity
#print axioms Verif.C96_ba_randomize
#print axioms Verif.C96_ba_rounds
#print axioms Verif.C96_ba_within
#print axioms Verif.C96_config_rounds
#print axioms Verif.C96_config_step_rounds
#print axioms Verif.C96_config_step_within
#print axioms Verif.C96_config_within
#print axioms Verif.C96_dog_search
#print axioms Verif.C96_ws_search
#print axioms Verif.C96_ws_search_le
#print axioms Verif.C96_ws_within
#print axioms Verif.C97_config_flat
#print axioms Verif.C97_config_forbidden
#print axioms Verif.C97_config_metropolis
#print axioms Verif.C97_er_c_forbidden
#print axioms Verif.C97_er_c_metropolis
#print axioms Verif.C97_er_c_monotone
#print axioms Verif.C97_er_m_flat
#print axioms Verif.C97_er_m_forbidden
#print axioms Verif.C97_er_m_metropolis
#print axioms Verif.C97_spacial_metropolis
#print axioms Verif.C97_spacial_monotone
#print axioms Verif.C97_sw_forbidden
#print axioms Verif.C97_sw_metropolis
#print axioms Verif.C98_config_connected
#print axioms Verif.C98_er_c_connected
#print axioms Verif.C98_er_m_connected
#print axioms Verif.C98_spacial_connected
#print axioms Verif.C98_sw_connected
#print axioms Verif.C99_config_average
#print axioms Verif.C99_config_connected_average
#print axioms Verif.C99_config_histogram
#print axioms Verif.C99_er_c_average
#print axioms Verif.C99_er_c_connected_average
#print axioms Verif.C99_er_m_average
#print axioms Verif.C99_er_m_connected_average
#print axioms Verif.C99_er_m_histogram
#print axioms Verif.C99_spacial_average
#print axioms Verif.C99_spacial_connected_average
#print axioms Verif.C99_sw_average
#print axioms Verif.C99_sw_connected_average
