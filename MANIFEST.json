{"claims": [
 {"property": "C01", "status": "proved", "theorems": ["Verif.Agi.c01_vertex_handles", "Verif.Agi.c01_edge_handles", "Verif.Agi.c01_edge_handle_width"], "note": "with unbounded lid_t unconditional; c01_edge_handle_width gives the exact range for a w-bit lid_t"},
 {"property": "C02", "status": "proved", "theorems": ["Verif.Agi.c02_constructVerts", "Verif.Agi.c02_array_version"], "note": "both overloads of constructVerts"},
 {"property": "C03", "status": "proved", "theorems": ["Verif.Agi.c03_hyperedges"], "note": "all inputs, all types; through iterators and globalID"},
 {"property": "C04", "status": "proved", "theorems": ["Verif.Agi.c04_ghosts"], "note": ""},
 {"property": "C05", "status": "proved", "theorems": ["Verif.Agi.c05_handshake"], "note": ""},
 {"property": "C06", "status": "proved", "theorems": ["Verif.Agi.c06_traditional_edges"], "note": ""},
 {"property": "C07", "status": "partial", "theorems": ["Verif.Agi.c07_u_terminates_partial", "Verif.Agi.c07_u_endless", "Verif.Agi.c07_ghost_source_endless"], "note": "proved for edges with a local source; false for edges with a non-local source, which begin(t) yields and for which the search never ends (witness)"},
 {"property": "C08", "status": "partial", "theorems": ["Verif.Agi.c08_hyperedge_weights", "Verif.Agi.c08_traditional_weights_partial", "Verif.Agi.c08_traditional_weights_permuted"], "note": "hypergraphs: all inputs; traditional graphs: only for input grouped by source, false otherwise (witness)"},
 {"property": "C09", "status": "proved", "theorems": ["Verif.Agi.c09_vertex_iteration", "Verif.Agi.c09_edge_iteration"], "note": ""},
 {"property": "C10", "status": "proved", "theorems": ["Verif.Agi.c10_residence_hyper", "Verif.Agi.c10_residence_trad"], "note": "hypergraph and traditional; isCut for owners that are ranks (not -1)"},
 {"property": "C11", "status": "partial", "theorems": ["Verif.Agi.c11_valid_hyper", "Verif.Agi.c11_valid_hyper_array", "Verif.Agi.c11_validity_sound", "Verif.Agi.c11_valid_trad_partial", "Verif.Agi.c11_self_loop_rejected", "Verif.Agi.c84_trad_answers"], "note": "hypergraphs complete; soundness for arbitrary graphs; traditional graphs without self-loops and with local sources; witness: self-loops are rejected ; c84_trad_answers: with self-loops, the exact answer of every part"},
 {"property": "C12", "status": "proved", "theorems": ["Verif.Agi.c12_ghosts_hyper", "Verif.Agi.c12_ghosts_trad", "Verif.Agi.c12_ghosts_array"], "note": "map and array entry points; hyper and traditional"},
 {"property": "C13", "status": "partial", "theorems": ["Verif.Part.c13_vev_hyper_partial", "Verif.Part.c13_vev_trad_partial", "Verif.Part.c13_eve_hyper_partial", "Verif.Part.c13_vev_ignores_type", "Verif.Part.c13_vev_other_type_endless", "Verif.Part.c13_eve_other_type_endless", "Verif.Part.c13_wrong_neighbour_witness", "Verif.Part.c13_eve_trad_partial", "Verif.Part.c13_entering_missing"], "note": "Proved for edge type 0 (vertices of hypergraphs and traditional graphs, edges of hypergraphs, both compress settings, any iteration order of the unordered_set). For every other type the claim is false of the code: the lists are those of type 0 and the loop over them never ends (both proved for all graphs). Edges of type 0 of traditional graphs that start on the part: the edges leaving either end are listed (c13_eve_trad_partial); edges that only enter an end are not (c13_entering_missing)."},
 {"property": "C14", "status": "proved", "theorems": ["Verif.Agi.c14_vertex_tag", "Verif.Agi.c14_edge_tag", "Verif.Agi.c14_signed", "Verif.Agi.c14_ghost_write_out_of_bounds", "Verif.Agi.c14_ghost_reads_local_value", "Verif.Agi.c14_ghost_tag_not_writable", "Verif.Agi.c14_edge_value", "Verif.Agi.c14_vertex_value"], "note": "Byte-level tags for local vertices and edges; the ghost offset mismatch of the last sentence is shown by kernel-checked witnesses. The value-level tags used by the other models behave the same (c14_edge_value, c14_vertex_value)."},
 {"property": "C15", "status": "proved", "theorems": ["Verif.Agi.c15_ghost_tags"], "note": "any delivery order per part"},
 {"property": "C16", "status": "proved", "theorems": ["Verif.Agi.c16_plan_is_a_map", "Verif.Agi.c16_insert_reports_new", "Verif.Agi.c16_minus_one_duplicates"], "note": "Plan histories of insert/clear behave as a map; -1 destination defect has a witness."},
 {"property": "C17", "status": "partial", "theorems": ["Verif.Agi.c17_vertices_partial", "Verif.Agi.c17_any_partial", "Verif.Agi.c17_repartition_partial", "Verif.Agi.c17_no_edge_type_ub", "Verif.Agi.c17_one_way_swap_ub", "Verif.Agi.c17_trad_returns_partial", "Verif.Agi.c17_sym_first_partial", "Verif.Agi.c17_symmetric_second_ub", "Verif.Agi.c17_two_types_abort"], "note": "c17_vertices_partial: hypergraphs with one edge type, including that migrate returns, for every sequence of migrations, any number of parts, any delivery and set orders. c17_any_partial: every graph (hyper or traditional, any number of edge types, any edges), for every run that returns. What is missing is false of the code: a graph without edge types (c17_no_edge_type_ub) and a swap across a one-way edge (c17_one_way_swap_ub) are undefined behaviour. c17_trad_returns_partial: one-type traditional graphs, including that setup and every migration return, if in every migration each part that still needs a moving vertex is reached by an edge from it (ToldAll); c17_sym_first_partial: so the first migration of a graph with all opposite edges always returns; the second need not (c17_symmetric_second_ub). With two edge types a legal migration can abort (c17_two_types_abort)."},
 {"property": "C18", "status": "partial", "theorems": ["Verif.Agi.c18_vertex_data_partial", "Verif.Agi.c18_any_partial", "Verif.Agi.c18_coordinates_crossed", "Verif.Agi.c18_trad_returns_partial", "Verif.Agi.c18_no_ghost_coords"], "note": "c18_vertex_data_partial: hypergraphs with one edge type, including return; c18_any_partial: every graph, for every run that returns. With coordinates the coordinate phase must deliver in the order of the vertex phase, otherwise coordinates are exchanged (c18_coordinates_crossed). c18_trad_returns_partial: one-type traditional graphs including return, under ToldAll (see C17). Parts refuse to give coordinates of ghosts (c18_no_ghost_coords)."},
 {"property": "C19", "status": "partial", "theorems": ["Verif.Agi.c19_hyperedges_partial", "Verif.Agi.c19_second_type_lost", "Verif.Agi.c19_two_types_stale"], "note": "One edge type. With two types the property is false of the code: c19_second_type_lost. Also with two types: edges of type 0 arrive as edges of type 1, owners and ghost weights are wrong (c19_two_types_stale)."},
 {"property": "C20", "status": "partial", "theorems": ["Verif.Agi.c20_edges_partial", "Verif.Agi.c20_all_edges_partial", "Verif.Agi.c20_edge_to_moving_vertex_lost", "Verif.Agi.c20_trad_returns_partial", "Verif.Agi.c20_sym_returns_partial"], "note": "False of the code as stated: kernel-checked run that loses an edge whose destination moves while its source stays. c20_edges_partial characterises exactly, for every one-type traditional graph, any sequence of migrations that returns and any message order, which edges every part shows afterwards (the survivors whose source it owns, with multiplicity); c20_all_edges_partial: all of them when no edge is of the losing kind. Not covered: edge weights (C08 shows they are permuted), several edge types, and that migrate returns (c17_one_way_swap_ub). c20_trad_returns_partial: including return under ToldAll (see C17), and with the current owner at both ends of every edge; c20_sym_returns_partial: graphs with all opposite edges, as long as no edge is lost."},
 {"property": "C21", "status": "partial", "theorems": ["Verif.Agi.c21_partition_partial", "Verif.Agi.c21_any_partial", "Verif.Agi.c21_reset_partial", "Verif.Agi.c21_trad_returns_partial"], "note": "c21_partition_partial: one edge type, any sequence of migrations, any delivery order; also after resetOwnership (c21_reset_partial). c21_any_partial: every graph, for every sequence of migrations that returns. c21_trad_returns_partial: one-type traditional graphs including return, under ToldAll (see C17)."},
 {"property": "C22", "status": "partial", "theorems": ["Verif.Agi.c22_total_conserved", "Verif.Agi.c22_moves_partial", "Verif.Agi.c22_plan", "Verif.Agi.c22_arrives_at_wrong_vertex"], "note": "Total conserved and planned amounts leave: proved. Arrival at the planned vertex is false of the code (witness): everything arrives at the receiving part's last vertex, which is what c22_moves_partial proves."},
 {"property": "C23", "status": "partial", "theorems": ["Verif.Io.c23_roundtrip_partial", "Verif.Io.c23_after_migration_partial", "Verif.Io.c23_big_ids_lost", "Verif.Io.c23_big_ids_clash", "Verif.Io.c23_original_owners_lost", "Verif.Io.c23_self_loop_ub"], "note": "Proved for all constructed graphs (any number of parts and types, hyper and traditional, coordinates, either byte order, any map/message order) whose ids/counts fit 32 bits, and after any migrations of a one-type hypergraph. Traditional self-loops excluded: writing one is UB (witness). Ids >= 2^32 and original owners are lost (witnesses)."},
 {"property": "C24", "status": "proved", "theorems": ["Verif.Io.c24_unsigneds", "Verif.Io.c24_doubles", "Verif.Io.c24_short_file"], "note": "Byte-level model of write/read_unsigneds/doubles on both machine orders; a truncated file is refused."},
 {"property": "C25", "status": "proved", "theorems": ["Verif.Pcu.Buffer.c25_roundtrip", "Verif.Pcu.Buffer.c25_any_split", "Verif.Pcu.Buffer.c25_overrun", "Verif.Pcu.Buffer.c25_too_large"], "note": ""},
 {"property": "C26", "status": "proved", "theorems": ["Verif.Pcu.AA.c26_history", "Verif.Pcu.AA.c26_traversal", "Verif.Pcu.AA.c26_depth"], "note": ""},
 {"property": "C27", "status": "proved", "theorems": ["Verif.Pcu.Order.c27_ordered_delivery", "Verif.Pcu.Order.c27_deterministic"], "note": ""},
 {"property": "C28", "status": "proved", "theorems": ["Verif.Pcu.Phase.c28_quiescent", "Verif.Pcu.Phase.c28_exact", "Verif.Pcu.Phase.c28_own_phase_only", "Verif.Pcu.Phase.c28_progress", "Verif.Pcu.Phase.c28_bounded"], "note": "small-step model of pcu_msg.c, any number of ranks and any schedule; MPI barrier through its C32 contract"},
 {"property": "C29", "status": "partial", "theorems": ["Verif.Pcu.Api.c29_unordered_partial", "Verif.Pcu.Api.c29_ordered_refuses_partial", "Verif.Pcu.Api.c29_ordered_legal_phase_partial", "Verif.Pcu.Api.c29_ordered_stale_delivery", "Verif.Pcu.Api.c29_ordered_unpack_undefined"], "note": "proved with ordering off and for legal programs with ordering on; false with ordering on (default): Begin during delivery is accepted and delivers stale messages, Unpack outside receive is undefined (both witnessed)"},
 {"property": "C30", "status": "proved", "theorems": ["Verif.Pcu.Coll.c30_programs", "Verif.Pcu.Coll.c30_allreduce", "Verif.Pcu.Coll.c30_terminates", "Verif.Pcu.Coll.c30_add", "Verif.Pcu.Coll.c30_max", "Verif.Pcu.Coll.c30_min"], "note": ""},
 {"property": "C31", "status": "proved", "theorems": ["Verif.Pcu.Coll.c31_programs", "Verif.Pcu.Coll.c31_scan", "Verif.Pcu.Coll.c31_exscan", "Verif.Pcu.Coll.c31_terminates"], "note": ""},
 {"property": "C32", "status": "proved", "theorems": ["Verif.Pcu.Coll.c32_barrier", "Verif.Pcu.Coll.c32_terminates"], "note": ""},
 {"property": "C33", "status": "partial", "theorems": ["Verif.Part.c33_targets", "Verif.Part.c33_sum_bound_partial", "Verif.Part.c33_sum_exceeds_excess", "Verif.Part.c33_sends_to_heavier", "Verif.Part.c33_zero_total_ub", "Verif.Part.c33_targets_trad_partial", "Verif.Part.c33_sum_trad_partial"], "note": "Per-target statement proved for every distributed hypergraph with positive integer weights; the sum bound proved when no hyperedge reaches more than two parts and refuted otherwise; directed traditional graphs can send to a heavier part (witness). Traditional graphs with equal edge weights per part and mutual neighbours: targets exactly characterised, and the sum bound holds without restriction."},
 {"property": "C34", "status": "partial", "theorems": ["Verif.Part.c34_sides_hyper", "Verif.Part.c34_symmetric", "Verif.Part.c34_sides_trad_partial", "Verif.Part.c34_fractional_weights_lost", "Verif.Part.c34_traditional_weights_wrong"], "note": "Hypergraphs with integer edge weights: full statement proved for every distribution. Traditional graphs: proved for equal edge weights. Refuted by witnesses for fractional weights (sides are int) and for differing weights of traditional edges (C08 defect)."},
 {"property": "C35", "status": "partial", "theorems": ["Verif.Part.c35_within_limits_partial", "Verif.Part.c35_within_limits_trad_partial", "Verif.Part.c35_six_dimensions_ub", "Verif.Part.c35_trad_edges_over_limit"], "note": "Hypergraphs and traditional graphs with non-negative weights, one to five completed dimensions, any limits and plans. Six or more overrun a fixed buffer (c35_six_dimensions_ub). In traditional graphs the limit of an edge dimension can be exceeded by edges that end on the receiver (c35_trad_edges_over_limit, false of the code); the theorem bounds the overrun exactly by those edges."},
 {"property": "C36", "status": "partial", "theorems": ["Verif.Part.c36_select_partial", "Verif.Part.c36_select_trad_partial", "Verif.Part.c36_big_cavity_ub", "Verif.Part.c36_redirected_uncharged", "Verif.Part.c36_trad_redirected_uncharged", "Verif.Part.c36_tie_hides_target", "Verif.Part.c36_disconnected_empty_ub", "Verif.Part.c36_disconnected_not_target"], "note": "Hypergraphs and traditional graphs with non-negative weights, any targets, iteration order and parameters: no UB, only own vertices on boundary edges to wanting targets, each once, total within one cavity (vertex) of the sum of targets, progress. False parts have witnesses: per-part quota (redirected vertices, also in traditional graphs), ties hide targets, cavities of 100+ vertices are UB, selectDisconnected ignores targets and dereferences an empty vector; the distance queue is UB on traditional graphs (C56)."},
 {"property": "C37", "status": "partial", "theorems": ["Verif.Part.c37_limits_partial", "Verif.Part.c37_terminates", "Verif.Part.c37_serial", "Verif.Part.c37_no_priority_ub", "Verif.Part.c37_completed_weight", "Verif.Part.c37_overall_limit_exceeded"], "note": "all limits and reasons to stop; the overall limit maxIterations itself can be exceeded by one step per criterion (witness)"},
 {"property": "C38", "status": "proved", "theorems": ["Verif.Part.c38_exact", "Verif.Part.c38_sign"], "note": "exact rationals for doubles; unsigned wrap-around modelled"},
 {"property": "C39", "status": "proved", "theorems": ["Verif.Part.c39_part_weights", "Verif.Part.c39_imbalance", "Verif.Part.c39_zero_total"], "note": "graphs built by constructVerts/Edges/Ghosts; a total of 0 gives NaN (c39_zero_total)"},
 {"property": "C40", "status": "partial", "theorems": ["Verif.Part.c40_hyper", "Verif.Part.c40_trad_partial", "Verif.Part.c40_one_direction"], "note": "Proved in full for hypergraphs (edges with at least one pin), and for traditional graphs whose edges inside the part come in both directions; for one-directional traditional edges the claim is false (c40_one_direction)."},
 {"property": "C41", "status": "proved", "theorems": ["Verif.Part.c41_sort"], "note": "bfsSort rearranges the segment into non-decreasing order and leaves the rest alone, for every array and segment; no out-of-bounds access."},
 {"property": "C42", "status": "proved", "theorems": ["Verif.Part.c42_boundary_queue_hyper", "Verif.Part.c42_boundary_queue_trad", "Verif.Part.c42_sweeps", "Verif.Part.c42_break_loses"], "note": "The queue holds exactly the edges of type 0 crossing a part boundary, each once; repeated sweeps keep exactly the elements put back; leaving a sweep early loses the elements not reached (c42_break_loses)."},
 {"property": "C43", "status": "proved", "theorems": ["Verif.Io.c43_exchange", "Verif.Io.c43_bad_rank_ub"], "note": "every file, byte order, number of ranks, block distribution or part file; ids below 2^31 (the file stores int32). int32 overflow of counters not modelled. A part file naming a missing rank is UB (witness)."},
 {"property": "C44", "status": "partial", "theorems": ["Verif.Part.c44_numbering", "Verif.Part.c44_csr", "Verif.Part.c44_local", "Verif.Part.c44_plan", "Verif.Part.c44_arcs", "Verif.Part.c44_local_arcs", "Verif.Part.c44_one_way", "Verif.Part.c44_mixed_signs"], "note": "Proved for hypergraphs whose edge weights are integers or not negative, and for traditional graphs in which each edge comes with its reverse, with such weights and edges listed by source (or of equal weight). For an edge whose reverse is missing the claim is false (c44_one_way); edges not listed by source have their weights permuted (C08); with fractions of both signs the two directions of a connection can get different weights (c44_mixed_signs)."},
 {"property": "C45", "status": "partial", "theorems": ["Verif.Part.c45_plan_partial", "Verif.Part.c45_simplify", "Verif.Part.c45_zero_amount", "Verif.Part.c45_huge_weight_ub", "Verif.Part.c45_plan_trad_partial"], "note": "Proved for hypergraph parts with non-negative weights below 2^31, any targets, sweeps and hash orders: transfers are natural amounts from own vertices to ghosts sharing a type-0 edge whose owner is a wanting target; no vertex hands over more than it has, no part gets more than its target; simplifyPlan keeps exactly the positive amounts. 'Only positive amounts' in the plan before simplification is refuted by c45_zero_amount. The same for parts of traditional graphs whose edges start at local vertices."},
 {"property": "C46", "status": "partial", "theorems": ["Verif.Agi.c46_timers_partial", "Verif.Agi.c46_add_timer_undefined", "Verif.Agi.c46_add_timer_undefined_later", "Verif.Agi.c46_last_count_uninitialised", "Verif.Agi.c46_found_partial", "Verif.Agi.c46_report_partial", "Verif.Agi.c46_averages_partial", "Verif.Agi.c46_no_migration", "Verif.Agi.c46_last_per_call"], "note": "The property is false of the code: every addTimer writes one past the end of the vector (proved). Partial: with the reserved memory counted as accessible, what the times and counts read back.  Also, with unwritten reserved memory holding arbitrary numbers: all timers including the last, and what the balancer's report and the averages show on any number of processes."},
 {"property": "C47", "status": "proved", "theorems": ["Verif.Agi.c47_removed", "Verif.Agi.c47_others_intact", "Verif.Agi.c47_vertices_intact", "Verif.Agi.c47_middle_type_unusable"], "note": "Any graph state. Removing a type that is not the last leaves it counted, with NULL arrays (witness)."},
 {"property": "C48", "status": "proved", "theorems": ["Verif.Agi.c48_change_owners"], "note": "Any graph whose ghosts' owners are indices of the map."},
 {"property": "C49", "status": "partial", "theorems": ["Verif.Part.c49_averages_partial", "Verif.Part.c49_no_edge_type_ub", "Verif.Part.c49_many_types_ub"], "note": "true for one or two edge types, false otherwise (proved)"},
 {"property": "C50", "status": "partial", "theorems": ["Verif.Io.c50_counts", "Verif.Io.c50_neighbours_partial", "Verif.Io.c50_wrong_neighbour", "Verif.Io.c50_serial_wrong_neighbour", "Verif.Io.c50_isolated_vertex_ub"], "note": "False of the code in general (witnesses): create_dist_csr looks labels up as ids in the ghost loop and leaves ids of isolated vertices unset. Proved: counts, ids, degrees for every file; neighbours for ranks where every vertex occurs in an edge and no edge joins two vertices of the rank or the ids of the rank are 0..k-1."},
 {"property": "C51", "status": "partial", "theorems": ["Verif.Part.c51_objects", "Verif.Part.c51_hypergraph_exact", "Verif.Part.c51_hypergraph_partial", "Verif.Part.c51_neighbours_partial", "Verif.Part.c51_plan", "Verif.Part.c51_remote_pin", "Verif.Part.c51_no_vertices", "Verif.Part.c51_weights_permuted", "Verif.Part.c51_ids_clash", "Verif.Part.c51_split_owners", "Verif.Part.c51_split_wrong_owner"], "note": "Vertices, hyperedge weights and the plan: proved for all graphs. Hypergraph rows: exact characterisation; false (undefined behaviour) on parts with remote pins or without vertices. Traditional: proved when edges are listed by source; otherwise the weights are permuted (C08). Float rounding and Zoltan itself not modelled. Inside a split the owners told to Zoltan are in the wrong numbering (c51_split_owners)."},
 {"property": "C52", "status": "partial", "theorems": ["Verif.Part.c52_balance_partial", "Verif.Part.c52_step_partial", "Verif.Part.c52_isolated_ub", "Verif.Part.c52_trad_loses", "Verif.Part.c52_two_types_lost"], "note": "Both queues. What is missing is false of the code: several edge types (c52_two_types_lost), traditional graphs (c52_trad_loses), hyperedges with 100 or more vertices (c36_big_cavity_ub), more than six criteria (c35_six_dimensions_ub), minConnectivity above 1 (c36_disconnected_empty_ub), fractional edge weights (c34_fractional_weights_lost), the distance queue on a hypergraph where a part can be cut off with one or two hyperedges (false: c52_isolated_ub). The part weight balancer option is C67."},
 {"property": "C53", "status": "partial", "theorems": ["Verif.Part.c53_reports", "Verif.Part.c53_untouched_partial", "Verif.Part.c53_imbalance_worse", "Verif.Part.c52_trad_loses"], "note": "The imbalance can get worse (c53_imbalance_worse); proved: reports are true, and parts within tolerance are left alone. On a symmetric traditional path the balancer sends the vertex it moved back to the heavier part (c52_trad_loses)."},
 {"property": "C54", "status": "partial", "theorems": ["Verif.Part.c54_split_partial", "Verif.Part.c54_fresh_partial", "Verif.Part.c54_trad_partial", "Verif.Part.c54_zoltan_hyper_exact", "Verif.Part.c54_zoltan_trad_partial", "Verif.Part.c54_short_others", "Verif.Part.c54_local_needs", "Verif.Part.c54_trad_loses", "Verif.Part.c54_zoltan_undefined", "Verif.Part.c54_two_types_lost"], "note": "Proved for hypergraphs with one edge type and any edge weights, both ParMETIS methods, any history before and after; for symmetric traditional graphs directly after construction (c54_trad_partial, c54_zoltan_trad_partial), where the split returns but edges between two vertices of one part are lost when only the destination leaves, so the claim is false there (c54_trad_loses). Zoltan method on hypergraphs: exact (c54_zoltan_hyper_exact): undefined behaviour whenever a rank is added, a part has no vertex or a hyperedge is cut. With several edge types the claim is false (c54_two_types_lost)."},
 {"property": "C55", "status": "partial", "theorems": ["Verif.Part.c54_fresh_partial", "Verif.Part.c55_wrong_rank"], "note": "Holds when the original owners were not recorded before the split (c54_fresh_partial, last conclusion); refuted when they were (c55_wrong_rank): they keep the numbering of the small communicator."},
 {"property": "C56", "status": "partial", "theorems": ["Verif.Part.c56_distance_queue_partial", "Verif.Part.c56_small_part_ub", "Verif.Part.c56_traditional_ub", "Verif.Part.c56_no_edges"], "note": "Every part of every distributed hypergraph, both traversals: no invalid access, terminates, same edges as the iteration queue, order by distance from the core within each connected component. Missing: false for parts without ghosts and exactly one or two edges of type 0 (general refutation c56_small_part_ub) and for traditional graphs (c56_traditional_ub). c56_no_edges: no type or no edges, an empty queue."},
 {"property": "C57", "status": "partial", "theorems": ["Verif.Part.c57_components_partial"], "note": "hypergraphs; not the parts of c56_small_part_ub"},
 {"property": "C58", "status": "partial", "theorems": ["Verif.Part.c58_diffusion_partial", "Verif.Part.c58_record_partial", "Verif.Part.c58_serial", "Verif.Part.c58_wrong_vertex", "Verif.Part.c58_stale_ghost", "Verif.Part.c58_diffusion_trad_partial", "Verif.Part.c58_uphill"], "note": "the claims about the receiving vertex and about ghosts are false (witnesses); the side tolerance is a parameter; total weight below 2^31 The same (diffusion and record) for traditional graphs with equal edge weights per part and mutual neighbours; with edges in one direction only weight goes to the heavier part (c58_uphill)."},
 {"property": "C59", "status": "proved", "theorems": ["Verif.Mesh.c59_mesh_graph", "Verif.Mesh.c59_dims", "Verif.Mesh.c59_empty"], "note": "apf::Mesh is a parameter described by MeshOk; everything apfGraph.cpp does with it is modelled."},
 {"property": "C60", "status": "partial", "theorems": ["Verif.Mesh.c60_dof_graph_partial", "Verif.Mesh.c60_global_edges", "Verif.Mesh.c60_overlap", "Verif.Mesh.c60_serial", "Verif.Mesh.c60_tet"], "note": "False as stated: numGlobalEdges is n times too large on n parts (c60_global_edges), and ids collide when a dimension has more entities than n times the next (c60_overlap, c60_serial, c60_tet). Proved when ids do not collide."},
 {"property": "C61", "status": "partial", "theorems": ["Verif.Vtk.c61_hypergraph", "Verif.Vtk.c61_after_migration", "Verif.Vtk.c61_traditional_partial", "Verif.Vtk.c61_dangling", "Verif.Vtk.c61_empty_edge", "Verif.Vtk.c61_no_coords_ub", "Verif.Vtk.c61_other_type_tag"], "note": "Full for hypergraphs (any types as constructed; one type after migrations). Traditional graphs: the file is characterised and is a proper grid iff no edge of the part is cut; with cut edges the claim is false (c61_dangling)."},
 {"property": "C62", "status": "partial", "theorems": ["Verif.Color.c62_edges_partial", "Verif.Color.c62_vertices_partial", "Verif.Color.c62_eve_partial", "Verif.Color.c62_edges_cut_ub", "Verif.Color.c62_vertices_cut_ub", "Verif.Color.c62_vertices_other_type", "Verif.Color.c62_traditional"], "note": "Proved for hypergraph parts whose edges have all pins on the part (edges: any type; vertices: type 0), for all schedules. Elsewhere false: undefined behaviour on every part with a cut edge, type 0 used for every type, traditional graphs unsymmetric."},
 {"property": "C63", "status": "partial", "theorems": ["Verif.Part.c63_lists_partial", "Verif.Part.c63_one_vertex_partial", "Verif.Part.c63_run_ub", "Verif.Part.c63_documented_size_ub", "Verif.Part.c63_hypergraph_ub", "Verif.Part.c63_partition", "Verif.Part.c63_two_vertices", "Verif.Part.c63_hypergraph_wrong"], "note": "Objects, lists and the returned partition are right for traditional graphs whose edges start on the part, given one more buffer entry than Zoltan documents; false of the code otherwise: every run on a part with two or more vertices is undefined (c63_run_ub), and hypergraphs overrun or give wrong edges."},
 {"property": "C64", "status": "partial", "theorems": ["Verif.Io.c64_moved_partial", "Verif.Io.c64_ub", "Verif.Io.c64_sample_ub", "Verif.Io.c64_shared_partial", "Verif.Io.c64_put_partial"], "note": "The edges, their ends, the vertices and counts are right on every part after lines 57-94; the rest is false of the code: every call that assigns an edge with two different ends is undefined (c64_ub). c64_shared_partial: every part hears exactly of the other parts' copies of its vertices, each once. c64_put_partial: were the counts copied as numbers, ghosts, owners and edges of the split type would be exactly these copies."},
 {"property": "C65", "status": "partial", "theorems": ["Verif.Agi.c65_build", "Verif.Agi.c65_fill", "Verif.Agi.c65_partition_partial", "Verif.Agi.c65_any_partial", "Verif.Agi.c65_null_weights_ub", "Verif.Agi.c65_short_ub", "Verif.Agi.c65_trad_partial"], "note": "Construction and array filling are proved for every graph; that the migrations in between return is proved for hypergraphs with one edge type and assumed for others (c65_any_partial). Traditional graphs with one edge type: proved including return under ToldAll (c65_trad_partial); without it, and with several edge types, migrations can abort or be undefined (c17_one_way_swap_ub, c17_two_types_abort)."},
 {"property": "C66", "status": "proved", "theorems": ["Verif.Pcu.Recv.c66_ordered", "Verif.Pcu.Recv.c66_unordered", "Verif.Pcu.Recv.c66_write_read", "Verif.Pcu.Recv.listening_reached", "Verif.Pcu.Recv.listeningAny_reached", "Verif.Pcu.Recv.c66_empty_lost"], "note": "The loop's result equals the exchange step used by the models of the graph library, with ordering on and off; PCU_Comm_Write/Read is a codec that meets the hypotheses. The hypothesis that a record takes at least one byte is needed (c66_empty_lost)."},
 {"property": "C67", "status": "partial", "theorems": ["c67_plan_partial", "c67_targets", "c67_step_partial", "c67_balance_partial", "c67_refused", "c67_too_much", "c67_nothing_planned", "c67_rehash_ub", "c67_tolerance_never", "Verif.Part.c67_limits_partial", "Verif.Part.c67_overall_limit_exceeded"], "note": "Hypergraphs with one edge type, small hyperedges, weight times parts below 2^31, no rehash while iterating. That excluded parts get nothing and planned amounts are not exceeded is false of the code (witnesses). Iteration limits exactly as in C37 (c67_limits_partial), with the same overrun of the overall limit (c67_overall_limit_exceeded)."},
 {"property": "C68", "status": "partial", "theorems": ["Verif.Log.c68_log_partial", "Verif.Log.c68_indented_partial", "Verif.Log.c68_closed", "Verif.Log.c68_weights_abort", "Verif.Log.c68_part_weights_abort", "Verif.Log.c68_again_witness", "Verif.Log.c68_remove_witness", "Verif.Log.c68_long_name", "Verif.Log.c68_long_file"], "note": "Proved for every history without weight balancing over several processes and with names that fit the program's arrays: the history ends as without a log, in the same state, and the log is exactly the tree of calls, with everything after an unended call inside it; with no unended call it is the calls indented as stated. A process without a log writes nothing, for any history. The rest is false of the code, with proofs of the negation: any operation after balancing weights aborts, balancing with part weights aborts, three operations never end their entry, long names overrun the arrays."},
 {"property": "C69", "status": "partial", "theorems": ["Verif.Names.c69_own_file", "Verif.Names.c69_directories", "Verif.Names.c69_comps", "Verif.Names.c69_picture", "Verif.Names.c69_long_prefix", "Verif.Names.c69_picture_clash", "Verif.Names.c69_start", "Verif.Names.c69_long_picture"], "note": "Proved for every prefix that fits: own files for every prefix and part (saveToFile and loadFromFile use the same function), exactly the directories on the way are made, the parts of one picture write different files and the index lists them. False of the code: prefixes of 250 characters overrun an array, and pictures with different prefixes can share files (witness). The bounds on prefixes of pictures are exact (c69_long_picture)."},
 {"property": "C70", "status": "partial", "theorems": ["Verif.Names.c70_stats", "Verif.Names.c70_three_types_partial", "Verif.Names.c70_seven_types_ub", "Verif.Names.c70_labels"], "note": "The outcome of printStats and of the labels of evaluatePartition is given for every input; it is the report for at most three edge types with any counts, and names of at most five characters. Beyond that the code overruns its arrays (witness: seven types of 10000 edges; every longer name)."},
 {"property": "C71", "status": "partial", "theorems": ["Verif.Support.c71_exact", "Verif.Support.c71_lifetime_partial", "Verif.Support.c71_private", "Verif.Support.c71_split", "Verif.Support.c71_foreign_finalize"], "note": "Partial because false of the code: handlingPCU is never reset, so EnGPar_Finalize frees the application's library after EnGPar has owned one (c71_foreign_finalize). c71_exact gives the exact behaviour for every history, c71_lifetime_partial the meant one for histories without that pattern."},
 {"property": "C72", "status": "partial", "theorems": ["Verif.Support.Msg.c72_exact", "Verif.Support.Msg.c72_messages_partial", "Verif.Support.Msg.c72_close_keeps", "Verif.Support.Msg.c72_errors_lost", "Verif.Support.Msg.c72_failed_open", "Verif.Support.Msg.c72_long_format"], "note": "Partial because false of the code: EnGPar_Debug_Close restores nothing (c72_close_keeps), a second redirection loses stderr (c72_errors_lost), a failed open closes stdout (c72_failed_open). c72_exact gives the exact behaviour for every history."},
 {"property": "C73", "status": "partial", "theorems": ["Verif.Pcu.Coll.c73_or_partial", "Verif.Pcu.Coll.c73_and_partial", "Verif.Pcu.Coll.c73_agree", "Verif.Pcu.Coll.c73_negative"], "note": "Proved for values that are not negative; false of the code for negative ones (c73_negative)."},
 {"property": "C74", "status": "proved", "theorems": ["Verif.Pcu.Files.c74_groups", "Verif.Pcu.Files.c74_opens", "Verif.Pcu.Files.c74_debug", "Verif.Pcu.Files.c74_different", "Verif.Pcu.Files.c74_name_partial", "Verif.Pcu.Files.c74_strings"], "note": "Jobs of up to 10^9 ranks for the names of debug files (beyond, the last letter of the name is cut, c74_name_partial). Barriers by C32."},
 {"property": "C75", "status": "partial", "theorems": ["Verif.Agi.c75_valid_partial", "Verif.Agi.c75_residence_partial", "Verif.Agi.c75_weights_partial", "Verif.Agi.c75_components_partial", "Verif.Agi.c75_second_partial", "Verif.Agi.c75_colour_partial"], "note": "Hypergraphs with one edge type, any migrations; with several edge types false of the code (c19_second_type_lost, c19_two_types_stale). Traditional graphs: what they show after migrations is C20."},
 {"property": "C76", "status": "partial", "theorems": ["Verif.Part.c76_session_partial", "Verif.Part.c76_call_partial"], "note": "Any sequence of migrations, balancing runs of both kinds, splits, resets and reloads keeps the hypergraph and everything that reads it right, for one edge type. Missing: several edge types and traditional graphs, where single calls already lose data (C19, C22), Zoltan, and what the single calls need (Call.Legal)."},
 {"property": "C77", "status": "proved", "theorems": ["Verif.Pcu.Seq.c77_programs", "Verif.Pcu.Seq.c77_match", "Verif.Pcu.Seq.c77_results", "Verif.Pcu.Seq.c77_barrier", "Verif.Pcu.Seq.c77_terminates", "Verif.Pcu.Seq.c77_complete", "Verif.Pcu.Seq.c77_scan_is_no_barrier"], "note": "All interleavings of any number of ranks and calls; operations associative, for scans also commutative."},
 {"property": "C78", "status": "proved", "theorems": ["Verif.Pcu.Whole.c78_programs", "Verif.Pcu.Whole.c78_exact", "Verif.Pcu.Whole.c78_own_phase_only", "Verif.Pcu.Whole.c78_quiescent", "Verif.Pcu.Whole.c78_results", "Verif.Pcu.Whole.c78_barrier", "Verif.Pcu.Whole.c78_progress", "Verif.Pcu.Whole.c78_bounded", "Verif.Pcu.Whole.c78_complete", "Verif.Pcu.Whole.c78_finished"], "note": "Message level; discharges the barrier contract C28 uses. Legal programs (Script) call no collective inside a receive loop."},
 {"property": "C79", "status": "partial", "theorems": ["Verif.Agi.Word.c79_vertex_handles", "Verif.Agi.Word.c79_edge_handles_partial", "Verif.Agi.Word.c79_vertex_loop", "Verif.Agi.Word.c79_byte_order_not_told", "Verif.Agi.Word.c79_many_edges"], "note": "Machine-level handles refine the numbers of the graph model for both byte orders and sizes of local ids. Missing because false of the code: edge handles when number of types times number of edges exceeds a local id."},
 {"property": "C80", "status": "partial", "theorems": ["Verif.Inputs.c80_inputs", "Verif.Inputs.c80_wrong_kind", "Verif.Inputs.c80_used_up", "Verif.Inputs.c80_linking_partial", "Verif.Inputs.c80_local_split_missing", "Verif.Inputs.c80_long_edge_type"], "note": "Histories of calls are characterised completely. Missing because false of the code: cengpar_createLocalSplitInput does not link, and Fortran edge types with 64-bit local ids."},
 {"property": "C81", "status": "proved", "theorems": ["Verif.Pcu.Switch.c81_alone", "Verif.Pcu.Switch.c81_exact", "Verif.Pcu.Switch.c81_results", "Verif.Pcu.Switch.c81_before", "Verif.Pcu.Switch.c81_meet", "Verif.Pcu.Switch.c81_left", "Verif.Pcu.Switch.c81_handover", "Verif.Pcu.Switch.c81_progress", "Verif.Pcu.Switch.c81_bounded", "Verif.Pcu.Switch.c81_complete", "Verif.Pcu.Switch.c81_done", "Verif.Pcu.Switch.c81_order_needed"], "note": "Any synchronisation by MPI_Comm_dup and MPI_Comm_free. Assumed of MPI: every duplicate has its own message context. A common order of the stays is assumed for progress and shown to be needed."},
 {"property": "C82", "status": "partial", "theorems": ["Verif.Agi.Heap.c82_no_ub", "Verif.Agi.Heap.c82_memory", "Verif.Agi.Heap.c82_clean_partial", "Verif.Agi.Heap.c82_during", "Verif.Agi.Heap.c82_coords_leak", "Verif.Agi.Heap.c82_ghosts_leak", "Verif.Agi.Heap.c82_plan_twice", "Verif.Agi.Heap.c82_plan_twice_heap", "Verif.Agi.Heap.c82_vertex_cut"], "note": "For all histories: no double release, destroyGraph succeeds, and exactly the user's tags and plans and the blocks lost by repeated setCoords / constructGhosts stay allocated. Partial because those two calls do lose memory (c82_coords_leak, c82_ghosts_leak), and binGraph's vertex cut releases an array with scalar delete (c82_vertex_cut). The graph object itself and C++ containers are not counted."},
 {"property": "C83", "status": "partial", "theorems": ["Verif.Part.Heap.c83_no_ub", "Verif.Part.Heap.c83_memory", "Verif.Part.Heap.c83_during", "Verif.Part.Heap.c83_partition", "Verif.Part.Heap.c83_clean_partial", "Verif.Part.Heap.c83_isCut", "Verif.Part.Heap.c83_resident", "Verif.Part.Heap.c83_isCut_leak", "Verif.Part.Heap.c83_isCut_unbounded"], "note": "Exact count of the blocks left after any history. Missing: isCut loses its iterator when the edge is not cut (c83_isCut_leak), and what C82 loses."},
 {"property": "C84", "status": "partial", "theorems": ["Verif.Agi.c84_answers", "Verif.Agi.c84_accepted", "Verif.Agi.c84_mixed", "Verif.Agi.c84_hyper", "Verif.Agi.c84_trad_answers", "Verif.Agi.c84_trad_partial", "Verif.Agi.c84_waits", "Verif.Agi.c84_disagree"], "note": "Exact outcome for all built graphs; for arbitrary graphs the outcome in terms of the sums joined. Missing: false for traditional graphs with a self-loop before the last type on some processes (c84_waits)."},
 {"property": "C85", "status": "partial", "theorems": ["Verif.Pcu.Store.c85_safe_partial", "Verif.Pcu.Store.c85_quiet_partial", "Verif.Pcu.Store.c85_freed_partial", "Verif.Pcu.Store.c85_packing_partial", "Verif.Pcu.Store.c85_free_under_way", "Verif.Pcu.Store.c85_unpack_early", "Verif.Pcu.Store.c85_two_messages"], "note": "Proved for every history of calls that (1) does not call PCU_Comm_Free while its own messages are under way, (2) asks for data only while a message is delivered, (3) receives at most one message per rank and phase (C28). Missing: histories breaking (1)-(2); the property is false there, with witnesses."},
 {"property": "C86", "status": "partial", "theorems": ["Verif.Part.Text.c86_imbalances_partial", "Verif.Part.Text.c86_million_ub", "Verif.Part.Text.c86_negative_ub", "Verif.Part.Text.c86_log_partial", "Verif.Part.Text.c86_log_ub", "Verif.Part.Text.c86_done", "Verif.Part.Text.c86_zoltan_partial", "Verif.Part.Text.c86_zoltan_ub", "Verif.Part.Text.c86_construct", "Verif.Part.Text.c86_log_shows", "Verif.Part.Text.c86_done_shows"], "note": "Proved for at most eight criteria on fewer than a million parts with non-negative weights, for logs of moderate lists and for tolerances below 10^90; beyond these the texts overrun their arrays (c86_*_ub). Contents: the numbers shown are the parameters (c86_log_shows, c86_done_shows)."},
 {"property": "C87", "status": "partial", "theorems": ["Verif.Vtk.c87_grid", "Verif.Vtk.c87_picture_partial", "Verif.Vtk.c87_markup", "Verif.Vtk.c87_directory", "Verif.Vtk.c87_hypergraph_partial", "Verif.Vtk.c87_after_migration_partial", "Verif.Vtk.c87_traditional_partial", "Verif.Vtk.c87_some_tags"], "note": "Missing: prefixes with a quote, < or &, and relative prefixes with a directory; false there (c87_markup: the index is no XML; c87_directory: the names in the index lead nowhere). The files of the parts are unconditional (c87_grid). For constructed hypergraphs, migrated ones and traditional graphs the picture exists and its grids are those of C61 (c87_hypergraph_partial, c87_after_migration_partial, c87_traditional_partial). Missing too: a tag given on some parts only, false for every such graph (c87_some_tags)."}
]}
