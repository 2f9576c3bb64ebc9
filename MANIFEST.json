{
 "claims": [
  {
   "property": "C01",
   "status": "proved",
   "theorems": [
    "Rei.C01_containment_agrees",
    "Rei.C05_cycle_refuted",
    "Rei.C01_move_out_of_edge_refuted",
    "Rei.C01_remove_wrong_name_refuted",
    "Rei.C01_remove_on_relation_refuted"
   ],
   "note": "For every history of safe calls (Op.Safe). The *_refuted theorems show that each excluded class of calls breaks the property in the code."
  },
  {
   "property": "C02",
   "status": "proved",
   "theorems": [
    "Rei.C02_count_exact",
    "Rei.C02_no_clock_refuted"
   ],
   "note": "Histories of safe calls; C02_no_clock_refuted shows the clock guard is needed."
  },
  {
   "property": "C03",
   "status": "proved",
   "theorems": [
    "Rei.C03_lookup_exact",
    "Rei.C03_lookup_nodup",
    "Rei.C03_abandoned_removal_refuted"
   ],
   "note": "Histories of safe calls; C03_abandoned_removal_refuted shows that an abandoned removal by name breaks it."
  },
  {
   "property": "C04",
   "status": "proved",
   "theorems": [
    "Rei.C04_cid_unique",
    "Rei.C04_cid_never_reused",
    "Rei.C04_cid_below_next"
   ],
   "note": "The calls between the two adds are unrestricted (Later)."
  },
  {
   "property": "C05",
   "status": "proved",
   "theorems": [
    "Rei.C05_forest",
    "Rei.C05_no_self_containment",
    "Rei.C05_cycle_refuted"
   ],
   "note": "C05_cycle_refuted: the code accepts adding a container below itself (only self-addition is refused)."
  },
  {
   "property": "C06",
   "status": "proved",
   "theorems": [
    "Rei.C06_requalify"
   ],
   "note": ""
  },
  {
   "property": "C07",
   "status": "proved",
   "theorems": [
    "Rei.C07_named_by_path",
    "Rei.C07_detach_subtree_refuted"
   ],
   "note": "Histories in which only leaves are detached; C07_detach_subtree_refuted shows names below a detached element go stale."
  },
  {
   "property": "C08",
   "status": "proved",
   "theorems": [
    "Rei.C08_refuse_self",
    "Rei.C08_refuse_duplicate",
    "Rei.C08_add_total"
   ],
   "note": ""
  },
  {
   "property": "C09",
   "status": "proved",
   "theorems": [
    "Rei.C09_move",
    "Rei.C09_lookup",
    "Rei.C09_add_free"
   ],
   "note": ""
  },
  {
   "property": "C10",
   "status": "proved",
   "theorems": [
    "Rei.C10_remove_uuid",
    "Rei.C10_add_again"
   ],
   "note": "Containers other than edges and relations; see C23 for those."
  },
  {
   "property": "C11",
   "status": "proved",
   "theorems": [
    "Rei.C11_remove_name"
   ],
   "note": "Containers other than edges and relations."
  },
  {
   "property": "C12",
   "status": "proved",
   "theorems": [
    "Rei.C12_no_query",
    "Rei.C12_unknown_uuid",
    "Rei.C12_unknown_name",
    "Rei.C12_removed_name_silent_refuted"
   ],
   "note": "C12_removed_name_silent_refuted: a name removed before is silently accepted, so the stricter claim 'always KeyError' is false."
  },
  {
   "property": "C13",
   "status": "proved",
   "theorems": [
    "Rei.C13_lazy",
    "Rei.C13_abandoned"
   ],
   "note": ""
  },
  {
   "property": "C14",
   "status": "proved",
   "theorems": [
    "Rei.C14_deregister",
    "Rei.C14_deregister_root",
    "Rei.C14_register",
    "Rei.C14_inverse",
    "Rei.C14_deregister_from_edge_refuted"
   ],
   "note": "C14_deregister_from_edge_refuted: deregister of a relation raises KeyError after detaching."
  },
  {
   "property": "C15",
   "status": "partial",
   "theorems": [
    "Rei.C15_path_lookup",
    "Rei.C15_path_lookup_total",
    "Rei.C15_missing_intermediate_refuted",
    "Rei.C15_through_port_refuted"
   ],
   "note": "Exact whenever the lookup returns, and it returns exactly when no step meets an unknown name or a non-container. False in general: a missing intermediate name raises KeyError, a port or relation on the way AttributeError."
  },
  {
   "property": "C16",
   "status": "proved",
   "theorems": [
    "Rei.C16_depth",
    "Rei.C16_move_subtree_refuted"
   ],
   "note": "Hierarchies assembled top-down; C16_move_subtree_refuted shows depth below a moved element goes stale."
  },
  {
   "property": "C17",
   "status": "proved",
   "theorems": [
    "Rei.C17_stamp_is_reading",
    "Rei.C17_timestamp_monotone",
    "Rei.C17_no_clock",
    "Rei.C17_clock_replaced_refuted"
   ],
   "note": ""
  },
  {
   "property": "C18",
   "status": "proved",
   "theorems": [
    "Rei.C18_identity_immutable"
   ],
   "note": ""
  },
  {
   "property": "C19",
   "status": "proved",
   "theorems": [
    "Rei.C19_unary_connect",
    "Rei.C19_names"
   ],
   "note": ""
  },
  {
   "property": "C20",
   "status": "partial",
   "theorems": [
    "Rei.C20_failed_connect_partial",
    "Rei.C20_failed_connect_refuted"
   ],
   "note": "False in general: connecting two same-named nodes raises after the port was created. Proved: which failures leave the graph unchanged."
  },
  {
   "property": "C21",
   "status": "proved",
   "theorems": [
    "Rei.C21_classified",
    "Rei.C21_both_iff",
    "Rei.C21_directions",
    "Rei.C21_order"
   ],
   "note": ""
  },
  {
   "property": "C22",
   "status": "partial",
   "theorems": [
    "Rei.C22_disconnect_refuted",
    "Rei.C22_disconnect_partial"
   ],
   "note": "False of the code: the port remains as a sub-element. Proved: the port table entry is undone."
  },
  {
   "property": "C23",
   "status": "partial",
   "theorems": [
    "Rei.C23_remove_relation_refuted",
    "Rei.C23_remove_relation_partial"
   ],
   "note": "False of the code for every relation of every edge: the iterator raises TypeError. Proved: what the failing call does."
  },
  {
   "property": "C24",
   "status": "proved",
   "theorems": [
    "Rei.C24_incidence"
   ],
   "note": ""
  },
  {
   "property": "C25",
   "status": "proved",
   "theorems": [
    "Rei.C25_get",
    "Rei.C25_update",
    "Rei.C25_out_of_range",
    "Rei.C25_update_values",
    "Rei.C25_constructor_snapshot",
    "Rei.C25_get_values_snapshot"
   ],
   "note": "update_values keeps the caller's list object (aliasing), which C25_update_values states."
  },
  {
   "property": "C26",
   "status": "partial",
   "theorems": [
    "Rei.C26_iter_partial",
    "Rei.C26_iter_general",
    "Rei.C26_iter_refuted"
   ],
   "note": "False after update_values with a list of another length (dim is not updated). Proved for histories that keep lengths, and the exact behaviour in general."
  },
  {
   "property": "C27",
   "status": "proved",
   "theorems": [
    "Rei.C27_step",
    "Rei.C27_attribute_map",
    "Rei.C27_constructor_copies"
   ],
   "note": ""
  },
  {
   "property": "C28",
   "status": "proved",
   "theorems": [
    "Rei.C28_bfs_visits",
    "Rei.C28_exactly_once",
    "Rei.C28_complete",
    "Rei.C28_level_order"
   ],
   "note": "Budget hypothesis = interpreter recursion limit; C54 is the property without it."
  },
  {
   "property": "C29",
   "status": "proved",
   "theorems": [
    "Rei.C29_dfs_visits",
    "Rei.C29_exactly_once",
    "Rei.C29_parent_first"
   ],
   "note": "As C28, from any state of the shared queue."
  },
  {
   "property": "C30",
   "status": "proved",
   "theorems": [
    "Rei.C30_limited_bfs",
    "Rei.C30_limited_dfs",
    "Rei.C30_exact_limit"
   ],
   "note": "In any heap, cyclic ones included."
  },
  {
   "property": "C31",
   "status": "partial",
   "theorems": [
    "Rei.C31_idle_partial",
    "Rei.C31_dfs_independent_partial",
    "Rei.C31_aborted_refuted"
   ],
   "note": "False of the code after an aborted breadth-first traversal (queue shared through a default argument). Proved: true if earlier traversals returned normally, and always for depth-first."
  },
  {
   "property": "C32",
   "status": "proved",
   "theorems": [
    "Rei.C32_index_bijection",
    "Rei.C32_bijection",
    "Rei.C32_duplicate_uuid_refuted"
   ],
   "note": "C32_duplicate_uuid_refuted shows the distinctness guard is needed."
  },
  {
   "property": "C33",
   "status": "proved",
   "theorems": [
    "Rei.C33_execute",
    "Rei.C33_execute_unlimited",
    "Rei.C33_idempotent",
    "Rei.C33_insertion_order"
   ],
   "note": ""
  },
  {
   "property": "C34",
   "status": "proved",
   "theorems": [
    "Rei.C34_undirected",
    "Rei.C34_converts"
   ],
   "note": ""
  },
  {
   "property": "C35",
   "status": "partial",
   "theorems": [
    "Rei.C35_exact_partial",
    "Rei.C35_binary_partial",
    "Rei.C35_two_incoming_refuted"
   ],
   "note": "False of the code: two incoming endpoints of one edge get linked. Proved: the exact condition, and the property for edges with at most one incoming and one outgoing endpoint."
  },
  {
   "property": "C36",
   "status": "proved",
   "theorems": [
    "Rei.C36_incidence",
    "Rei.C36_undirected"
   ],
   "note": ""
  },
  {
   "property": "C37",
   "status": "proved",
   "theorems": [
    "Rei.C37_degree",
    "Rei.C37_oriented"
   ],
   "note": ""
  },
  {
   "property": "C38",
   "status": "partial",
   "theorems": [
    "Rei.C38_trace_partial",
    "Rei.C38_offdiagonal_partial",
    "Rei.C38_diagonal_partial",
    "Rei.C38_two_endpoints_refuted"
   ],
   "note": "Trace and off-diagonal agreement hold always; the diagonals agree exactly when the edges at a node have three endpoints on average."
  },
  {
   "property": "C39",
   "status": "proved",
   "theorems": [
    "Rei.C39_distinct",
    "Rei.C39_node_uuid",
    "Rei.C39_edge_uuid",
    "Rei.C39_value_uuid",
    "Rei.C39_slash_in_factory_name_refuted"
   ],
   "note": "SHA3-224 idealised as an injective function."
  },
  {
   "property": "C40",
   "status": "proved",
   "theorems": [
    "Rei.C40_connect_nodes",
    "Rei.C40_connect_nodes_returns",
    "Rei.C40_connect_tuple_nodes"
   ],
   "note": ""
  },
  {
   "property": "C41",
   "status": "partial",
   "theorems": [
    "Rei.C41_two_sided_partial",
    "Rei.C41_dir_edges_refuted"
   ],
   "note": "False of the code: both sides get the first direction. Proved: what is built instead, and the property when both directions are equal."
  },
  {
   "property": "C42",
   "status": "partial",
   "theorems": [
    "Rei.C42_rejected_values_partial",
    "Rei.C42_rejected_values_refuted"
   ],
   "note": "False of the code in every case: the exception leaves an empty edge in the container. Proved: nothing else changes."
  },
  {
   "property": "C43",
   "status": "proved",
   "theorems": [
    "Rei.C43_exact",
    "Rei.C43_exact_identity",
    "Rei.C43_once"
   ],
   "note": ""
  },
  {
   "property": "C44",
   "status": "partial",
   "theorems": [
    "Rei.C44_partial",
    "Rei.C44_pairs",
    "Rei.C44_bidirectional_refuted",
    "Rei.C44_keyerror_refuted"
   ],
   "note": "False of the code: BIDIRECTIONAL relations are never counted as outgoing, and an edge without selected OUTWARDS relation raises KeyError. Proved: what is paired, and the property for selections without such relations."
  },
  {
   "property": "C45",
   "status": "partial",
   "theorems": [
    "Rei.C45_terminates_partial",
    "Rei.C45_terminates_iff",
    "Rei.C45_flat",
    "Rei.C45_cycle_refuted"
   ],
   "note": "False of the code on cycles (RecursionError for every stack size). Proved: returns exactly when no cycle can be reached, and what it then lists; in particular for contexts whose edges lead to nodes without edges."
  },
  {
   "property": "C46",
   "status": "proved",
   "theorems": [
    "Rei.C46_first",
    "Rei.C46_found",
    "Rei.C46_stack"
   ],
   "note": ""
  },
  {
   "property": "C47",
   "status": "partial",
   "theorems": [
    "Rei.C47_after_misses_partial",
    "Rei.C47_leftovers_refuted",
    "Rei.C47_stale_cache_refuted"
   ],
   "note": "False of the code after a successful search: leftovers of the shared queue, and a stale element cache. Proved: unsuccessful searches and graph changes have no influence."
  },
  {
   "property": "C48",
   "status": "proved",
   "theorems": [
    "Rei.C48_terminates",
    "Rei.C48_complete",
    "Rei.C48_duplicate_uuid_refuted"
   ],
   "note": ""
  },
  {
   "property": "C49",
   "status": "partial",
   "theorems": [
    "Rei.C49_roundtrip_partial",
    "Rei.C49_directions_lost",
    "Rei.C49_directions_refuted"
   ],
   "note": "False of the code for directions and weights of relations (all become BIDIRECTIONAL without weight). Proved: everything else, in any state of the receiving program."
  },
  {
   "property": "C50",
   "status": "partial",
   "theorems": [
    "Rei.C50_repeatable_partial",
    "Rei.C50_second_message_refuted"
   ],
   "note": "False of the code: with at least one relation every message but the first raises ErrorDuplicateElement when decoded. Proved: contexts without relations."
  },
  {
   "property": "C51",
   "status": "proved",
   "theorems": [
    "Rei.C51_update_reaches",
    "Rei.C51_new_value_refuted"
   ],
   "note": ""
  },
  {
   "property": "C52",
   "status": "partial",
   "theorems": [
    "Rei.C52_every_schedule_partial",
    "Rei.C52_order_refuted",
    "Rei.C52_nothing_visited_refuted",
    "Rei.C52_two_names_refuted",
    "Rei.C52_aborted_refuted"
   ],
   "note": "Proved for every schedule, every set of distinct query objects and any number of earlier completed executions, as long as some query visits something. An element whose predicate raises is left out silently. Fails (refuted) when nothing is visited (ValueError), when one query object is registered under two names, and after an execution aborted by RecursionError."
  },
  {
   "property": "C53",
   "status": "partial",
   "theorems": [
    "Rei.C53_mismatch_partial",
    "Rei.C53_mismatch_refuted"
   ],
   "note": "KeyError always; but if the uuid is present the element is lost from the container."
  },
  {
   "property": "C54",
   "status": "partial",
   "theorems": [
    "Rei.C54_small_partial",
    "Rei.C54_recursion_limit_refuted"
   ],
   "note": "False of the code: RecursionError once the number of elements reaches the interpreter's limit, for every hierarchy. Proved: completes below it."
  },
  {
   "property": "C55",
   "status": "proved",
   "theorems": [
    "Rei.C55_reset_restores",
    "Rei.C55_reset_exact"
   ],
   "note": ""
  },
  {
   "property": "C56",
   "status": "proved",
   "theorems": [
    "Rei.C56_weights"
   ],
   "note": ""
  },
  {
   "property": "C57",
   "status": "partial",
   "theorems": [
    "Rei.C57_returns_idle_partial",
    "Rei.C57_after_failure_refuted"
   ],
   "note": "False after a conversion that raised. Proved: conversions that return leave no trace."
  },
  {
   "property": "C58",
   "status": "partial",
   "theorems": [
    "Rei.C58_limited_partial",
    "Rei.C58_unlimited_refuted"
   ],
   "note": "False for the default depth when an edge inside a node leads back to that node."
  },
  {
   "property": "C59",
   "status": "partial",
   "theorems": [
    "Rei.C59_fresh_partial",
    "Rei.C59_stale_refuted"
   ],
   "note": "False when the numbers of nodes and edges did not change."
  },
  {
   "property": "C60",
   "status": "partial",
   "theorems": [
    "Rei.C60_factory_uuids_partial",
    "Rei.C60_factory_uuids_refuted"
   ],
   "note": "False under DummyClock. Proved for wall clocks with strictly increasing readings."
  },
  {
   "property": "C61",
   "status": "proved",
   "theorems": [
    "Rei.C61_generate_list_nodes"
   ],
   "note": ""
  },
  {
   "property": "C62",
   "status": "proved",
   "theorems": [
    "Rei.C62_decoding_is_safe"
   ],
   "note": ""
  },
  {
   "property": "C63",
   "status": "proved",
   "theorems": [
    "Rei.C63_semantic_element",
    "Rei.C63_type_spelling",
    "Rei.C63_refused",
    "Rei.C63_mesh_refuted",
    "Rei.C63_blanks"
   ],
   "note": "C63_mesh_refuted records that the type mesh_geometry, which the CogniLang grammar has, is not known to the factory."
  },
  {
   "property": "C64",
   "status": "proved",
   "theorems": [
    "Rei.C64_geometry",
    "Rei.C64_box_refuted",
    "Rei.C64_empty_refuted",
    "Rei.C64_ellipsoid_refuted"
   ],
   "note": "C64_ellipsoid_refuted: an ellipsoid with neither one nor three values becomes an element no simulator can read. C64_box_refuted: a polyhedron with two values loses its size, with none or more than three it is dropped."
  },
  {
   "property": "C65",
   "status": "partial",
   "theorems": [
    "Rei.C65_sphere_partial",
    "Rei.C65_several_partial",
    "Rei.C65_cylinder_iff_partial",
    "Rei.C65_box_refuted",
    "Rei.C65_ellipsoid_refuted"
   ],
   "note": "False of the code: radius and length of cylinders are exchanged, boxes get unit moments, three-radii ellipsoids raise TypeError. Proved: spheres (also with several inertia elements, which share one inertial element), and exactly when the cylinder formula is right."
  },
  {
   "property": "C66",
   "status": "partial",
   "theorems": [
    "Rei.C66_parts",
    "Rei.C66_solids_partial",
    "Rei.C66_two_visuals_refuted"
   ],
   "note": "False of the code when two nodes of a link have a material (KeyError). Proved for at most one."
  },
  {
   "property": "C67",
   "status": "proved",
   "theorems": [
    "Rei.C67_nearest_graph"
   ],
   "note": ""
  },
  {
   "property": "C68",
   "status": "proved",
   "theorems": [
    "Rei.C68_joint"
   ],
   "note": ""
  },
  {
   "property": "C69",
   "status": "proved",
   "theorems": [
    "Rei.C69_grouping"
   ],
   "note": ""
  },
  {
   "property": "C70",
   "status": "proved",
   "theorems": [
    "Rei.C70_frame",
    "Rei.C70_pose",
    "Rei.C70_plain_connection_refuted",
    "Rei.C70_root_refuted"
   ],
   "note": "The guards are needed: a first connection without a joint, and a graph at the top whose link has an incoming joint, make the export of the link raise."
  },
  {
   "property": "C71",
   "status": "proved",
   "theorems": [
    "Rei.C71_base_links",
    "Rei.C71_connecting_link"
   ],
   "note": ""
  },
  {
   "property": "C72",
   "status": "proved",
   "theorems": [
    "Rei.C72_flat"
   ],
   "note": ""
  },
  {
   "property": "C73",
   "status": "proved",
   "theorems": [
    "Rei.C73_convert",
    "Rei.C73_selected",
    "Rei.C73_entities_refuted"
   ],
   "note": "C73_entities_refuted: with several entities in a file all links and joints end up in the model of the last one."
  },
  {
   "property": "C74",
   "status": "partial",
   "theorems": [
    "Rei.C74_nested_names_partial",
    "Rei.C74_nested_names_refuted"
   ],
   "note": "Proved at the first level of nesting; refuted for every deeper level, where the prefix of the instance is missing a separator."
  },
  {
   "property": "C75",
   "status": "partial",
   "theorems": [
    "Rei.C72_flat",
    "Rei.C86_nested",
    "Rei.C75_cycle_refuted"
   ],
   "note": "False of the code: a joint that leads to a graph that contains it makes the export recurse for ever. Flat exports end (C72_flat), and so do all nested exports without cycles (C86_nested)."
  },
  {
   "property": "C76",
   "status": "proved",
   "theorems": [
    "Rei.C76_file_shown",
    "Rei.C76_later_references_refuted"
   ],
   "note": "The parse tree is the input; what the reader ignores is listed in the statement."
  },
  {
   "property": "C77",
   "status": "proved",
   "theorems": [
    "Rei.C77_reading_is_safe"
   ],
   "note": ""
  },
  {
   "property": "C78",
   "status": "proved",
   "theorems": [
    "Rei.C78_parameters"
   ],
   "note": ""
  },
  {
   "property": "C79",
   "status": "proved",
   "theorems": [
    "Rei.C79_undeclared_refused"
   ],
   "note": ""
  },
  {
   "property": "C80",
   "status": "proved",
   "theorems": [
    "Rei.C80_unreadable_refused"
   ],
   "note": ""
  },
  {
   "property": "C81",
   "status": "proved",
   "theorems": [
    "Rei.C81_wellformed_accepted",
    "Rei.C81_examples_accepted"
   ],
   "note": "All six .cogni files of the repository are shown to be well-formed, so they are accepted."
  },
  {
   "property": "C82",
   "status": "proved",
   "theorems": [
    "Rei.C82_ignored"
   ],
   "note": ""
  },
  {
   "property": "C83",
   "status": "partial",
   "theorems": [
    "Rei.C83_entropy_partial",
    "Rei.C83_nonneg_partial",
    "Rei.C83_upper",
    "Rei.C83_single_edge_refuted",
    "Rei.C83_negative_refuted"
   ],
   "note": "Proved for undirected unweighted contexts without loops with at least two edges (non-negative when no edge has more than 2E-1 nodes). With exactly one edge the program divides by zero; with an edge of four nodes and an empty edge the entropy is negative. Its upper bound holds for all directions and weights with degrees above -1 (C83_upper). Logarithms over the reals, not floats."
  },
  {
   "property": "C84",
   "status": "proved",
   "theorems": [
    "Rei.C66_parts",
    "Rei.C84_link"
   ],
   "note": ""
  },
  {
   "property": "C85",
   "status": "proved",
   "theorems": [
    "Rei.C85_file_to_sdf",
    "Rei.C85_wellformed"
   ],
   "note": "Needs a hash without collisions. examples/pendulum.cogni and examples/two_link_pendulum.cogni are shown to meet the conditions. The conditions exclude references to the same node twice, which the reader drops (see C76)."
  },
  {
   "property": "C86",
   "status": "proved",
   "theorems": [
    "Rei.C73_selected",
    "Rei.C86_depth",
    "Rei.C86_nested",
    "Rei.C86_convert",
    "Rei.C86_convert_acyclic"
   ],
   "note": "The recursion depth allowed must exceed the depth of nesting (C86_depth, C86_convert), or the number of objects (C86_nested, C86_convert_acyclic). A table with a robot mounted on it is shown to meet the conditions."
  },
  {
   "property": "C87",
   "status": "proved",
   "theorems": [
    "Rei.C87_entries",
    "Rei.C87_form",
    "Rei.C87_ordinary",
    "Rei.C87_semidefinite_iff"
   ],
   "note": ""
  },
  {
   "property": "C88",
   "status": "partial",
   "theorems": [
    "Rei.C88_defined_partial",
    "Rei.C88_ordinary_refuted",
    "Rei.C88_isolated_refuted"
   ],
   "note": "False of the code without rounding: Lp of every ordinary graph with nodes (every edge with two endpoints) and of every context with an isolated node has the eigenvalue 0, and 0*log2(0) is NaN. Proved: it is a number exactly if Lp is regular, and then the stated sum."
  },
  {
   "property": "C89",
   "status": "proved",
   "theorems": [
    "Rei.C89_extent",
    "Rei.C89_unambiguous"
   ],
   "note": ""
  },
  {
   "property": "C90",
   "status": "proved",
   "theorems": [
    "Rei.C90_layout",
    "Rei.C90_same",
    "Rei.C90_reads"
   ],
   "note": ""
  },
  {
   "property": "C91",
   "status": "partial",
   "theorems": [
    "Rei.C91_numeral_refuted",
    "Rei.C91_example_refuted",
    "Rei.C91_negative_partial"
   ],
   "note": "False of the grammar: a numeral without a sign is a DECIMALS token (the rule before INT, same length), and no parser rule uses DECIMALS. So 'int n = 5' is in no text of the language, nor is the example file example_robotcar_ambient.cogni. Proved: negative integers are accepted, and decimals with a point as doubles."
  },
  {
   "property": "C92",
   "status": "proved",
   "theorems": [
    "Rei.C92_form",
    "Rei.C92_expressible",
    "Rei.C92_letters",
    "Rei.C92_reserved",
    "Rei.C92_digits",
    "Rei.C92_strings",
    "Rei.C92_spaces"
   ],
   "note": ""
  },
  {
   "property": "C93",
   "status": "proved",
   "theorems": [
    "Rei.C93_graph_built",
    "Rei.C93_fano"
   ],
   "note": ""
  },
  {
   "property": "C94",
   "status": "proved",
   "theorems": [
    "Rei.C94_assembly_to_sdf",
    "Rei.C94_wellformed"
   ],
   "note": "Needs a hash without collisions. examples/example_robotcar.cogni and examples/example_robotcar_w_parameters.cogni are shown to meet the conditions."
  },
  {
   "property": "C95",
   "status": "proved",
   "theorems": [
    "Rei.C95_references_resolve",
    "Rei.C95_text",
    "Rei.C95_two_parents_refuted",
    "Rei.C95_from_graph_refuted"
   ],
   "note": "Needs a hash without collisions. The refutations show that the conditions are needed: a joint with two parents gives two joints with one name, a joint from a nested graph gives a joint whose parent does not exist. The texts of examples/example_robotcar.cogni and examples/example_robotcar_w_parameters.cogni are shown to meet the conditions."
  },
  {
   "property": "C96",
   "status": "proved",
   "theorems": [
    "Rei.C96_system",
    "Rei.C96_main"
   ],
   "note": "Needs a hash without collisions."
  },
  {
   "property": "C97",
   "status": "proved",
   "theorems": [
    "Rei.C97_prints",
    "Rei.C97_paths",
    "Rei.C97_raises"
   ],
   "note": ""
  },
  {
   "property": "C98",
   "status": "partial",
   "theorems": [
    "Rei.C98_awaited_partial",
    "Rei.C98_duplicate_partial",
    "Rei.C98_not_awaited_refuted"
   ],
   "note": "False of the code as stated: add_elements returns the future of gather, so when 'await c.add_elements(xs)' returns nothing has been added, and run_until_complete(c.add_elements(xs)) adds only the first element. Proved: awaiting the returned future too gives the stated result."
  },
  {
   "property": "C99",
   "status": "partial",
   "theorems": [
    "Rei.C99_awaited_refuted",
    "Rei.C99_removed_partial",
    "Rei.C99_empty_partial",
    "Rei.C99_same_name_refuted"
   ],
   "note": "False of the code as stated: the tasks yield the removed elements, which asyncio refuses, so the future of a non-empty batch always ends with RuntimeError; and of two elements with one name only the first is removed. Proved: the elements are removed nevertheless."
  },
  {
   "property": "C100",
   "status": "proved",
   "theorems": [
    "Rei.C100_any_schedule",
    "Rei.C100_same_result"
   ],
   "note": ""
  },
  {
   "property": "C101",
   "status": "partial",
   "theorems": [
    "Rei.C101_together_partial",
    "Rei.C101_progress_partial",
    "Rei.C101_alone_partial",
    "Rei.C101_shared_refuted"
   ],
   "note": "False of the code for executions that share a query object: the one that continues first takes the results of both. Proved for every schedule: executions that share no query return what they would alone; with shared queries the results of all executions together are right, each execution returns only matching elements, none fails and none blocks the others."
  },
  {
   "property": "C102",
   "status": "proved",
   "theorems": [
    "Rei.C102_rounds",
    "Rei.C102_unlimited",
    "Rei.C102_endless"
   ],
   "note": "The filter function of the traversal is never called; the claim says nothing about it."
  },
  {
   "property": "C103",
   "status": "partial",
   "theorems": [
    "Rei.C103_same_partial",
    "Rei.C103_deeper_refuted",
    "Rei.C103_sample_refuted"
   ],
   "note": "False of the code as stated: the transformer numbers only the edges directly in the context, so that for every depth but 1 (and 0) the conversion raises KeyError as soon as an endpoint contains an edge with relations (and no uuid collides). Proved: without such endpoints the result is the same for every depth."
  },
  {
   "property": "C104",
   "status": "partial",
   "theorems": [
    "Rei.C104_sum_partial",
    "Rei.C104_prod_partial",
    "Rei.C104_prod_refuted",
    "Rei.C104_zero_refuted"
   ],
   "note": "False of the code for ProdNorm, which is the inner product of the list with itself: the sum of the squares. Proved: SumNorm is the sum; what ProdNorm gives, when that is the product, and which relations it leaves out."
  },
  {
   "property": "C105",
   "status": "partial",
   "theorems": [
    "Rei.C105_within_partial",
    "Rei.C105_too_deep_refuted",
    "Rei.C105_every_limit_refuted"
   ],
   "note": "False of the code: the qualified name is computed by a generator that calls itself once per container on the way up, so that below a certain depth add_element raises RecursionError, and does so after the element has been entered into the container (parent, sub-elements and counters are those of a successful addition), with the old qualified names left on all elements that lie too deep; shown for every recursion limit. Proved: where the element and everything below it come to lie within the limit, the call does exactly what it does without limit. The limit counts the nested calls of update_qualified_name; the frames of the callers are a constant to be subtracted from the limit of the interpreter."
  },
  {
   "property": "C106",
   "status": "partial",
   "theorems": [
    "Rei.C106_convertible_partial",
    "Rei.C106_pose_refuted",
    "Rei.C106_world_refuted",
    "Rei.C106_examples_refuted",
    "Rei.C106_case"
   ],
   "note": "False of the code: the reader gives a joint relation with a pose the pair of number lists of the pose as weight, which the transformer cannot evaluate, so that no graph with such a relation can be converted (at any depth, with any stack), among them the graph basic_structure of each of the six files of the repository; the same holds for relations to the world, which is outside the graph. Proved: graphs whose joints lead, without poses, to nodes of the graph with names of their own are converted as claimed."
  },
  {
   "property": "C107",
   "status": "proved",
   "theorems": [
    "Rei.C107_same_structure",
    "Rei.C107_unweighted",
    "Rei.C107_case",
    "Rei.C107_order_refuted"
   ],
   "note": "For contexts whose relations lead to their own nodes; idle queues and enough call stack. With weights the order in which an edge was connected does matter (the last relation wins), which is shown."
  },
  {
   "property": "C108",
   "status": "partial",
   "theorems": [
    "Rei.C108_nothing_partial",
    "Rei.C108_written",
    "Rei.C108_inside_partial",
    "Rei.C108_assembly_partial",
    "Rei.C108_outside_refuted",
    "Rei.C108_half_refuted"
   ],
   "note": "False of the code: names in CogniLang may contain slashes, and os.path.join drops the output directory before an absolute path, so that a file whose entity is called /tmp/x is converted to /tmp/x.sdf and /tmp/x.load.sh whatever the output directory is (shown for every name that begins with a slash); and the document stays if the script cannot be written (a directory has its name). Proved: what is written and where for every input (C108_written), for entities without slashes in the names that it is inside the output directory, that nothing is written otherwise, and for assemblies, from the text, that the run succeeds with the model of C94. The disk is a set of directories and a map of files; serialisation by lxml is not modelled."
  },
  {
   "property": "C109",
   "status": "partial",
   "theorems": [
    "Rei.C109_decoded",
    "Rei.C109_undirected_partial",
    "Rei.C109_exactly_when",
    "Rei.C109_directed_refuted",
    "Rei.Sample.C109_case"
   ],
   "note": "False of the code: messages carry neither directions nor weights, so the decoded context is undirected and unweighted. Proved: what the receiver computes for every context (C109_decoded); that it is the sender's representation for undirected contexts without weights; that the weight tensors agree exactly if the sender's has a 1 for every two endpoints of an edge; and that they differ for every edge that leads neither in at one end nor out at another."
  },
  {
   "property": "C110",
   "status": "partial",
   "theorems": [
    "Rei.C110_factors",
    "Rei.C110_pairs_partial",
    "Rei.C110_agree_partial",
    "Rei.C110_undirected_partial",
    "Rei.C110_binary_partial",
    "Rei.C110_one_sided_refuted",
    "Rei.C110_zero_refuted"
   ],
   "note": "False of the code: an edge that leads in at v or out at u, but not both, gives an entry for (v,u) but no pair, and relations of weight 0 give pairs but no entry; both shown for all such edges. Proved: where no weight is 0 pairs are entries, and both agree for edges that lead in at v exactly if they lead out at u, for undirected edges, and for edges with at most one end of each direction."
  },
  {
   "property": "C111",
   "status": "proved",
   "theorems": [
    "Rei.C111_list",
    "Rei.C111_list_only",
    "Rei.C111_raised",
    "Rei.C111_once",
    "Rei.C111_next",
    "Rei.C111_factor_graph"
   ],
   "note": "The list is not changed by the function while it is consumed (the model takes its elements as they were)."
  },
  {
   "property": "C112",
   "status": "partial",
   "theorems": [
    "Rei.C112_coordinates_partial",
    "Rei.C112_exactly_when",
    "Rei.C112_self_refuted",
    "Rei.C112_stale_refuted",
    "Rei.Sample.C112_case",
    "Rei.Sample.C112_self_case"
   ],
   "note": "False of the code for an encoder with a history: the lists are never emptied, so coordinates of removed relations stay (C112_stale_refuted). Proved: the lists describe the tensors for a new encoder and after repeated calls, and exactly if every coordinate collected before belongs to an entry that is not 0 now. C112_self_refuted: a context that can be sent may have a relation to itself; then update_coo raises RecursionError with any stack."
  },
  {
   "property": "C113",
   "status": "proved",
   "theorems": [
    "Rei.C113_plan_tensors",
    "Rei.C113_fano"
   ],
   "note": "Numbers are rationals and reals, without rounding. The digest is injective (hypothesis inj)."
  },
  {
   "property": "C114",
   "status": "proved",
   "theorems": [
    "Rei.C114_plan_pairs"
   ],
   "note": "The pairs are compared by their endpoints; the digest is injective (hypothesis inj)."
  },
  {
   "property": "C115",
   "status": "proved",
   "theorems": [
    "Rei.C115_directed",
    "Rei.C115_digraph"
   ],
   "note": "Numbers are rationals, without rounding. The digest is injective (hypothesis inj); edge names contain no slash, and the nodes of an edge are distinct."
  },
  {
   "property": "C116",
   "status": "proved",
   "theorems": [
    "Rei.C116_local",
    "Rei.C116_add_node",
    "Rei.C116_add_edge",
    "Rei.C116_remove_edge",
    "Rei.C116_remove_node",
    "Rei.C116_update_weight",
    "Rei.Sample.C116_case"
   ],
   "note": "Numbers are rationals, without rounding. Removal is by uuid. New edges are made without semantic value nodes."
  },
  {
   "property": "C117",
   "status": "proved",
   "theorems": [
    "Rei.C117_null",
    "Rei.C117_components",
    "Rei.C117_connected",
    "Rei.Sample.C117_case"
   ],
   "note": "Numbers are rationals and reals, without rounding."
  },
  {
   "property": "C118",
   "status": "proved",
   "theorems": [
    "Rei.C118_received",
    "Rei.C118_coordinates",
    "Rei.C118_name_refuted"
   ],
   "note": "Numbers are rationals, without rounding. The digest is injective (hypothesis inj); no edge has the name of the graph (needed: C118_name_refuted). Messages are passed as values; their bytes are C124. Stack is large enough (some N, then every larger one)."
  },
  {
   "property": "C119",
   "status": "proved",
   "theorems": [
    "Rei.C119_degrees",
    "Rei.C119_laplacian",
    "Rei.C119_entropy",
    "Rei.C119_projected",
    "Rei.C119_linAlgError"
   ],
   "note": "numpy as described in the comments of Model/Tensor, Model/Entropy and Model/TensorApi (numpy itself is trusted); no rounding."
  },
  {
   "property": "C120",
   "status": "proved",
   "theorems": [
    "Rei.C120_delivered",
    "Rei.C120_in_step",
    "Rei.C120_stale_refuted"
   ],
   "note": "Operations of the two processes obey the guards of Reach (Op.Safe). Messages are passed as values; their bytes are C124. C120_stale_refuted: messages out of order."
  },
  {
   "property": "C121",
   "status": "proved",
   "theorems": [
    "Rei.C121_relay",
    "Rei.C121_onward",
    "Rei.C121_tensors"
   ],
   "note": "Every hop uses a new transformer and a large enough stack, and the decoded graph is sent on before it is changed. Messages are passed as values; their bytes are C124. That directions and weights are lost at the first hop is C49_directions_refuted."
  },
  {
   "property": "C122",
   "status": "proved",
   "theorems": [
    "Rei.C122_mixed",
    "Rei.C122_same_result",
    "Rei.C122_case",
    "Rei.C122_same_name_refuted"
   ],
   "note": "That every removal task ends with RuntimeError is C99_awaited_refuted; it is part of Task.after here. C122_same_name_refuted: the guard on names is needed."
  },
  {
   "property": "C123",
   "status": "proved",
   "theorems": [
    "Rei.C123_early_coordinates",
    "Rei.C123_no_message",
    "Rei.C123_appended",
    "Rei.C123_kept",
    "Rei.Sample.C123_index_refuted",
    "Rei.Sample.C123_case"
   ],
   "note": "C123_index_refuted: what a reader might expect instead, that all coordinates of a message are indices, is false. Messages are modelled before they are put into CBOR."
  },
  {
   "property": "C124",
   "status": "proved",
   "theorems": [
    "Rei.C124_message_bytes",
    "Rei.C124_different",
    "Rei.C124_cut",
    "Rei.C124_update_bytes",
    "Rei.C124_graph_bytes",
    "Rei.C124_numbers",
    "Rei.Sample.C124_case"
   ],
   "note": "The layout of the messages is that of the code; CBOR itself (the library cbor2) is modelled from RFC 8949 for the items that messages use, and UTF-8 is that of Lean's library."
  },
  {
   "property": "C125",
   "status": "proved",
   "theorems": [
    "Rei.C125_beside",
    "Rei.C125_snapshot",
    "Rei.C125_alone",
    "Rei.C125_case",
    "Rei.C125_current_refuted"
   ],
   "note": "Predicates and statements are functions of the element and the graph at the moment of the call, without effects. C125_current_refuted: what a reader might expect instead, that the results are the matches in the graph at the moment of the return, is false. That the engine needs something to visit, distinct queries and no aborted execution before is as in C52."
  },
  {
   "property": "C126",
   "status": "proved",
   "theorems": [
    "Rei.C126_undisturbed",
    "Rei.C126_changed",
    "Rei.C126_remove",
    "Rei.C126_copy",
    "Rei.C126_case"
   ],
   "note": "The iterator of a dict compares sizes only: if the element has its old number of children again (one removed, one added in the same round), what it gives is left open (the parameter odd); the theorems hold for every choice. An error raised in the body is caught in the body."
  }
 ]
}