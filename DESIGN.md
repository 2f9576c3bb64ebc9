# Design: a Lean 4 model of kyberszittya/rei_hypergraph (framework_python)

## Approach

The Python core is a graph of mutable objects with identity. It is modelled as a heap
(`Heap`: object references are natural numbers, `get : Ref → Obj`, plus a store of Python
lists) and every method is a function in a state-and-exception monad

    PyM α = Heap → Except Err α × Heap

in which **the heap survives an exception**, exactly as in Python: the interesting failures of
this code base are the states left behind by an exception in the middle of a method.
Python `dict` is an insertion-ordered association list (`Dict`), `str` is `List Char`, `bytes`
is `List UInt8`. Virtual dispatch is a match on the object's class tag. Generators are modelled
by the number of results the consumer takes (`none` = exhausted). SHA3 and the wall clock are
parameters (`Env`). Loops whose termination is not structural take fuel that provably suffices
on well-formed heaps; loops that Python implements by unbounded recursion take the recursion
budget as an explicit parameter and run out of it with `RecursionError`.

Invariant properties are proved by induction over histories: `Op` lists the API calls,
`Op.run` executes one, `Reach E h` says that `h` is reached from the empty heap by calls that satisfy
`Op.Safe`. `Op.Safe` excludes exactly the calls for which the code itself breaks the property; for each
excluded class a theorem exhibits a history in which the property fails (`..._refuted`). The excluded calls
are: adding an element below itself; moving an element out of an edge or a relation; removing from a relation;
removing by a (name, uuid) pair that does not match; abandoning a removal by name halfway; setting the clock to `None`.

Layers: `Verif/Py` (dictionaries, strings), `Verif/Model` (the code, function by function, each definition
citing file and lines), `Verif/Spec` (the vocabulary of the properties, independent of the model's helpers),
`Verif/Lemmas` (frame and invariant lemmas), `Verif/Props` (the theorems `Cnn_...`, each with an example
that meets its hypotheses; sample states in `Props/Sample`, `Props/Script`, `Props/Robot`).

A property that the code violates keeps its intended statement in `properties.jsonl`; it is then *partial*, with
a `_refuted` theorem that proves the violation (as generally as possible, not just for one input) and a `_partial`
theorem for the part that holds. Where a natural guard makes the property true, the guard is part of the
statement in `properties.jsonl`, the property is *proved*, and a `_refuted` theorem shows that the guard is needed.

## Per property: what is modelled, how it is proved

Status *proved*: the statement in `properties.jsonl` is proved of the model for everything it ranges over. *partial*: the statement is false of the code (a `_refuted` theorem) or proved in part (`_partial`).

| id | property | status | modelled in | how | theorems |
|---|---|---|---|---|---|
| C01 | Containment and parent agree | proved | `Model/Hierarchy`, `Model/Elements`, `Model/System` | induction over `Reach`: every safe call preserves one inductive invariant (`Lemmas/Struct`, `Lemmas/Reach`) | `C01_containment_agrees` `C05_cycle_refuted` `C01_move_out_of_edge_refuted` `C01_remove_wrong_name_refuted` `C01_remove_on_relation_refuted` |
| C02 | Element count is exact | proved | `Model/Hierarchy`, `Model/Elements`, `Model/System` | induction over `Reach`: every safe call preserves one inductive invariant (`Lemmas/Struct`, `Lemmas/Reach`) | `C02_count_exact` `C02_no_clock_refuted` |
| C03 | Name lookup is exactly the children with that name | proved | `Model/Hierarchy`, `Model/Elements`, `Model/System` | induction over `Reach`: every safe call preserves one inductive invariant (`Lemmas/Struct`, `Lemmas/Reach`) | `C03_lookup_exact` `C03_lookup_nodup` `C03_abandoned_removal_refuted` |
| C04 | Context ids are unique and never reused | proved | `Model/Hierarchy`, `Model/Elements`, `Model/System` | induction over `Reach`: every safe call preserves one inductive invariant (`Lemmas/Struct`, `Lemmas/Reach`); never-reuse by a second induction over unrestricted later calls | `C04_cid_unique` `C04_cid_never_reused` `C04_cid_below_next` |
| C05 | The hierarchy is a forest | proved | `Model/Hierarchy`, `Model/Elements`, `Model/System` | induction over `Reach`: every safe call preserves one inductive invariant (`Lemmas/Struct`, `Lemmas/Reach`) | `C05_forest` `C05_no_self_containment` `C05_cycle_refuted` |
| C06 | Adding re-qualifies the whole moved subtree | proved | `Model/Hierarchy` (update queue, parent walk) | loop invariant of the queue; path induction | `C06_requalify` |
| C07 | qualified_name is always the path | proved | `Model/Hierarchy` (update queue, parent walk) | loop invariant of the queue; path induction | `C07_named_by_path` `C07_detach_subtree_refuted` |
| C08 | A refused add leaves no trace | proved | `Model/Hierarchy`, `Model/Elements`, `Model/System` | exact post-state of the call, from the frame lemmas (`Lemmas/Frame`, `Lemmas/MoveFields`, `Lemmas/Effects`) | `C08_refuse_self` `C08_refuse_duplicate` `C08_add_total` |
| C09 | Adding to a second container is a move | proved | `Model/Hierarchy`, `Model/Elements`, `Model/System` | exact post-state of the call, from the frame lemmas (`Lemmas/Frame`, `Lemmas/MoveFields`, `Lemmas/Effects`) | `C09_move` `C09_lookup` `C09_add_free` |
| C10 | Removal by uuid removes exactly one element | proved | `Model/Hierarchy`, `Model/Elements`, `Model/System` | exact post-state of the call, from the frame lemmas (`Lemmas/Frame`, `Lemmas/MoveFields`, `Lemmas/Effects`) | `C10_remove_uuid` `C10_add_again` |
| C11 | Removal by name removes exactly the elements of that name | proved | `Model/Hierarchy`, `Model/Elements`, `Model/System` | exact post-state of the call, from the frame lemmas (`Lemmas/Frame`, `Lemmas/MoveFields`, `Lemmas/Effects`) | `C11_remove_name` |
| C12 | A failed removal changes nothing | proved | `Model/Hierarchy`, `Model/Elements`, `Model/System` | exact post-state of the call, from the frame lemmas (`Lemmas/Frame`, `Lemmas/MoveFields`, `Lemmas/Effects`) | `C12_no_query` `C12_unknown_uuid` `C12_unknown_name` `C12_removed_name_silent_refuted` |
| C13 | remove_element is lazy | proved | `Model/Hierarchy`, `Model/Elements`, `Model/System` | exact post-state of the call, from the frame lemmas (`Lemmas/Frame`, `Lemmas/MoveFields`, `Lemmas/Effects`) | `C13_lazy` `C13_abandoned` |
| C14 | register and deregister are inverse | proved | `Model/Hierarchy`, `Model/Elements`, `Model/System` | exact post-state of the call, from the frame lemmas (`Lemmas/Frame`, `Lemmas/MoveFields`, `Lemmas/Effects`) | `C14_deregister` `C14_deregister_root` `C14_register` `C14_inverse` `C14_deregister_from_edge_refuted` |
| C15 | Path lookup is sound and complete | partial | `Model/Hierarchy` (path lookup) | induction on the path | `C15_path_lookup` `C15_path_lookup_total` `C15_missing_intermediate_refuted` `C15_through_port_refuted` |
| C16 | depth is the number of ancestors | proved | `Model/Hierarchy` | invariant of top-down construction | `C16_depth` `C16_move_subtree_refuted` |
| C17 | Timestamps come from the clock and never run backwards | proved | `Model/Hierarchy` with a clock oracle | monotonicity over histories | `C17_stamp_is_reading` `C17_timestamp_monotone` `C17_no_clock` `C17_clock_replaced_refuted` |
| C18 | Identity is immutable | proved | `Model/Hierarchy`, `Model/Elements`, `Model/System` | every call preserves the identity fields | `C18_identity_immutable` |
| C19 | unary_connect adds exactly one relation and one port | proved | `Model/Elements` | exact post-state of the call, from the frame lemmas (`Lemmas/Frame`, `Lemmas/MoveFields`, `Lemmas/Effects`) | `C19_unary_connect` `C19_names` |
| C20 | A failed unary_connect leaves the graph unchanged | partial | `Model/Elements` | exact post-state of the call, from the frame lemmas (`Lemmas/Frame`, `Lemmas/MoveFields`, `Lemmas/Effects`) | `C20_failed_connect_partial` `C20_failed_connect_refuted` |
| C21 | Incoming and outgoing relations classify all relations | proved | `Model/Elements` | exact post-state of the call, from the frame lemmas (`Lemmas/Frame`, `Lemmas/MoveFields`, `Lemmas/Effects`) | `C21_classified` `C21_both_iff` `C21_directions` `C21_order` |
| C22 | disconnect undoes connect | partial | `Model/Elements` | exact post-state of the call, from the frame lemmas (`Lemmas/Frame`, `Lemmas/MoveFields`, `Lemmas/Effects`) | `C22_disconnect_refuted` `C22_disconnect_partial` |
| C23 | Relations can be removed from an edge | partial | `Model/Elements` | exact post-state of the call, from the frame lemmas (`Lemmas/Frame`, `Lemmas/MoveFields`, `Lemmas/Effects`) | `C23_remove_relation_refuted` `C23_remove_relation_partial` |
| C24 | Incidence value is determined by direction | proved | `Model/Elements` | exact post-state of the call, from the frame lemmas (`Lemmas/Frame`, `Lemmas/MoveFields`, `Lemmas/Effects`) | `C24_incidence` |
| C25 | Value nodes behave as a list cell | proved | `Model/Elements` with a store of Python lists (aliasing) | exact post-state of the call, from the frame lemmas (`Lemmas/Frame`, `Lemmas/MoveFields`, `Lemmas/Effects`) | `C25_get` `C25_update` `C25_out_of_range` `C25_update_values` `C25_constructor_snapshot` `C25_get_values_snapshot` |
| C26 | Iterating a value node yields its values | partial | `Model/Elements` with a store of Python lists (aliasing) | exact post-state of the call, from the frame lemmas (`Lemmas/Frame`, `Lemmas/MoveFields`, `Lemmas/Effects`) | `C26_iter_partial` `C26_iter_general` `C26_iter_refuted` |
| C27 | Semantic attributes behave as a map | proved | `Model/Elements` with a store of Python lists (aliasing) | exact post-state of the call, from the frame lemmas (`Lemmas/Frame`, `Lemmas/MoveFields`, `Lemmas/Effects`) | `C27_step` `C27_attribute_map` `C27_constructor_copies` |
| C28 | Breadth-first traversal visits each matching element once, level by level | proved | `Model/Traversal`: generators, shared queue, recursion budget | loop invariants against a level / preorder specification (`Spec/Traversal`) | `C28_bfs_visits` `C28_exactly_once` `C28_complete` `C28_level_order` |
| C29 | Depth-first traversal visits each matching element once, parents before children | proved | `Model/Traversal`: generators, shared queue, recursion budget | loop invariants against a level / preorder specification (`Spec/Traversal`) | `C29_dfs_visits` `C29_exactly_once` `C29_parent_first` |
| C30 | Depth-limited traversals stop exactly at the limit | proved | `Model/Traversal`: generators, shared queue, recursion budget | loop invariants against a level / preorder specification (`Spec/Traversal`) | `C30_limited_bfs` `C30_limited_dfs` `C30_exact_limit` |
| C31 | A traversal depends only on its start element | partial | `Model/Traversal`: generators, shared queue, recursion budget | loop invariants against a level / preorder specification (`Spec/Traversal`) | `C31_idle_partial` `C31_dfs_independent_partial` `C31_aborted_refuted` |
| C32 | Index homomorphism is a bijection | proved | `Model/Homomorphism` | from the traversal theorems; dictionary lemmas | `C32_index_bijection` `C32_bijection` `C32_duplicate_uuid_refuted` |
| C33 | Index order is insertion order and re-execution is idempotent | proved | `Model/Homomorphism` | from the traversal theorems; dictionary lemmas | `C33_execute` `C33_execute_unlimited` `C33_idempotent` `C33_insertion_order` |
| C34 | Weight tensor of an undirected hypergraph | proved | `Model/Tensor` over ℚ (arrays as functions with sizes) | characterisation of every array entry by last-write-wins folds | `C34_undirected` `C34_converts` |
| C35 | Weight tensor of a directed hypergraph | partial | `Model/Tensor` over ℚ (arrays as functions with sizes) | characterisation of every array entry by last-write-wins folds | `C35_exact_partial` `C35_binary_partial` `C35_two_incoming_refuted` |
| C36 | Incidence matrices | proved | `Model/Tensor` over ℚ (arrays as functions with sizes) | characterisation of every array entry by last-write-wins folds | `C36_incidence` `C36_undirected` |
| C37 | Degrees count incident edges | proved | `Model/Tensor` over ℚ (arrays as functions with sizes) | characterisation of every array entry by last-write-wins folds | `C37_degree` `C37_oriented` |
| C38 | Laplacians agree | partial | `Model/Tensor` over ℚ (arrays as functions with sizes) | characterisation of every array entry by last-write-wins folds | `C38_trace_partial` `C38_offdiagonal_partial` `C38_diagonal_partial` `C38_two_endpoints_refuted` |
| C39 | Generated ids are reproducible and distinct | proved | `Model/Factory` | injectivity of the hashed strings; loop post-states | `C39_distinct` `C39_node_uuid` `C39_edge_uuid` `C39_value_uuid` `C39_slash_in_factory_name_refuted` |
| C40 | connect_nodes builds exactly the requested edge | proved | `Model/Factory` | injectivity of the hashed strings; loop post-states | `C40_connect_nodes` `C40_connect_nodes_returns` `C40_connect_tuple_nodes` |
| C41 | Two-sided edges get two directions | partial | `Model/Factory` | injectivity of the hashed strings; loop post-states | `C41_two_sided_partial` `C41_dir_edges_refuted` |
| C42 | A rejected value list creates no edge | partial | `Model/Factory` | injectivity of the hashed strings; loop post-states | `C42_rejected_values_partial` `C42_rejected_values_refuted` |
| C43 | Subset factorization is exact | proved | `Model/Factorization` | membership characterisations; cycle analysis for termination | `C43_exact` `C43_exact_identity` `C43_once` |
| C44 | Relation factorization is exact | partial | `Model/Factorization` | membership characterisations; cycle analysis for termination | `C44_partial` `C44_pairs` `C44_bidirectional_refuted` `C44_keyerror_refuted` |
| C45 | Two-factorization terminates | partial | `Model/Factorization` | membership characterisations; cycle analysis for termination | `C45_terminates_partial` `C45_terminates_iff` `C45_flat` `C45_cycle_refuted` |
| C46 | Descendant search finds the element | proved | `Model/Search` | queue invariants; lexicographic termination measure | `C46_first` `C46_found` `C46_stack` |
| C47 | Search results depend only on the current graph | partial | `Model/Search` | queue invariants; lexicographic termination measure | `C47_after_misses_partial` `C47_leftovers_refuted` `C47_stale_cache_refuted` |
| C48 | Whole-graph search terminates and is complete | proved | `Model/Search` | queue invariants; lexicographic termination measure | `C48_terminates` `C48_complete` `C48_duplicate_uuid_refuted` |
| C49 | Encoded graph round-trips | partial | `Model/Encoding` (cbor2 is an assumed codec) | simulation of the decoder item by item (`Lemmas/Placed`, `Lemmas/Decode`) | `C49_roundtrip_partial` `C49_directions_lost` `C49_directions_refuted` |
| C50 | Encoding is repeatable | partial | `Model/Encoding` (cbor2 is an assumed codec) | simulation of the decoder item by item (`Lemmas/Placed`, `Lemmas/Decode`) | `C50_repeatable_partial` `C50_second_message_refuted` |
| C51 | Value updates reach the decoded graph | proved | `Model/Encoding` (cbor2 is an assumed codec) | simulation of the decoder item by item (`Lemmas/Placed`, `Lemmas/Decode`) | `C51_update_reaches` `C51_new_value_refuted` |
| C52 | Query engine returns the matching elements under every schedule | partial | `Model/QueryEngine`: tasks in any order | for all schedules, by invariants of the collected lists | `C52_every_schedule_partial` `C52_order_refuted` `C52_nothing_visited_refuted` `C52_two_names_refuted` `C52_aborted_refuted` |
| C53 | A mismatching (name, uuid) removal is rejected without effect | partial | `Model/Hierarchy`, `Model/Elements`, `Model/System` | exact post-state of the call, from the frame lemmas (`Lemmas/Frame`, `Lemmas/MoveFields`, `Lemmas/Effects`) | `C53_mismatch_partial` `C53_mismatch_refuted` |
| C54 | Traversals complete on hierarchies of any size | partial | `Model/Traversal`: generators, shared queue, recursion budget | loop invariants against a level / preorder specification (`Spec/Traversal`) | `C54_small_partial` `C54_recursion_limit_refuted` |
| C55 | Resetting an index homomorphism from pairs is exact | proved | `Model/Homomorphism` | from the traversal theorems; dictionary lemmas | `C55_reset_restores` `C55_reset_exact` |
| C56 | Weights of parallel relations | proved | `Model/Tensor` over ℚ (arrays as functions with sizes) | characterisation of every array entry by last-write-wins folds | `C56_weights` |
| C57 | Conversions do not influence each other | partial | `Model/Tensor` over ℚ (arrays as functions with sizes) | characterisation of every array entry by last-write-wins folds | `C57_returns_idle_partial` `C57_after_failure_refuted` |
| C58 | Hypergraph traversals terminate | partial | `Model/Tensor` over ℚ (arrays as functions with sizes) | characterisation of every array entry by last-write-wins folds | `C58_limited_partial` `C58_unlimited_refuted` |
| C59 | Refreshed arrays describe the current graph | partial | `Model/Tensor` over ℚ (arrays as functions with sizes) | characterisation of every array entry by last-write-wins folds | `C59_fresh_partial` `C59_stale_refuted` |
| C60 | Elements made by one factory have distinct uuids | partial | `Model/Factory` | injectivity of the hashed strings; loop post-states | `C60_factory_uuids_partial` `C60_factory_uuids_refuted` |
| C61 | generate_list_nodes makes the nodes in order | proved | `Model/Factory` | injectivity of the hashed strings; loop post-states | `C61_generate_list_nodes` |
| C62 | Decoding a message never damages existing objects | proved | `Model/Encoding` (cbor2 is an assumed codec) | simulation of the decoder item by item (`Lemmas/Placed`, `Lemmas/Decode`) | `C62_decoding_is_safe` |
| C63 | A semantic element has the requested class, place and attributes | proved | `Model/Semantics` | post-state; spelling by list lemmas | `C63_semantic_element` `C63_type_spelling` `C63_refused` `C63_mesh_refuted` `C63_blanks` |
| C64 | Exported geometries are the modelled solids | proved | `Model/Sdf` (XML trees as values) | evaluation of the export against a reader (`Spec/Sdf`) | `C64_geometry` `C64_box_refuted` `C64_empty_refuted` `C64_ellipsoid_refuted` |
| C65 | Exported inertias are those of the solids | partial | `Model/Sdf` (XML trees as values) | evaluation of the export against a reader (`Spec/Sdf`) | `C65_sphere_partial` `C65_several_partial` `C65_cylinder_iff_partial` `C65_box_refuted` `C65_ellipsoid_refuted` |
| C66 | Visuals and collisions of a link are exported completely | partial | `Model/Sdf` (XML trees as values) | evaluation of the export against a reader (`Spec/Sdf`) | `C66_parts` `C66_solids_partial` `C66_two_visuals_refuted` |
| C67 | The kinematic graph of an element is the nearest one around it | proved | `Model/Sdf` | induction along the parent chain | `C67_nearest_graph` |
| C68 | Exported joints have the right type, axis and links | proved | `Model/Sdf` | evaluation; induction over the ports | `C68_joint` |
| C69 | Exported elements are grouped into the right models | proved | `Model/Sdf` | induction over the sequence of events | `C69_grouping` |
| C70 | Links are posed in the frame of the joint that drives them | proved | `Model/Sdf` | evaluation; induction over the ports | `C70_frame` `C70_pose` `C70_plain_connection_refuted` `C70_root_refuted` |
| C71 | Base links of a graph are found whatever the schedule | proved | `Model/Sdf` on top of `Model/QueryEngine` | for all schedules, from C52 | `C71_base_links` `C71_connecting_link` |
| C72 | A flat export contains exactly the links and joints | proved | `Model/Sdf` | loop post-states; for all schedules from C52 and C44 | `C72_flat` |
| C73 | Conversion of a file does not depend on the schedule | proved | `Model/Sdf` | loop post-states; for all schedules from C52 and C44 | `C73_convert` `C73_selected` `C73_entities_refuted` |
| C74 | Nested instances are connected by matching names | partial | `Model/Sdf` | names computed; induction over the stack for non-termination | `C74_nested_names_partial` `C74_nested_names_refuted` |
| C75 | An export always ends | partial | `Model/Sdf` | names computed; induction over the stack for non-termination | `C72_flat` `C86_nested` `C75_cycle_refuted` |
| C76 | An accepted CogniLang file is shown exactly | proved | `Model/CogniLang`: the visitor over parse trees as values | Hoare calculus over reachable states; induction over the file; `Spec/CogniLang` says what a file shows | `C76_file_shown` `C76_later_references_refuted` |
| C77 | Reading a file never damages existing objects | proved | `Model/CogniLang` | region invariant for every outcome, plus reachability from the Hoare calculus | `C77_reading_is_safe` |
| C78 | Parameters hold the declared numbers | proved | `Model/CogniLang`: the visitor over parse trees as values | Hoare calculus over reachable states; induction over the file; `Spec/CogniLang` says what a file shows | `C78_parameters` |
| C79 | Undeclared parameters are refused | proved | `Model/CogniLang`: the visitor over parse trees as values | Hoare calculus over reachable states; induction over the file; `Spec/CogniLang` says what a file shows | `C79_undeclared_refused` |
| C80 | Unreadable files are refused | proved | `Model/CogniLang` | from C76, by induction over the file | `C80_unreadable_refused` |
| C81 | Well-formed files are accepted | proved | `Model/CogniLang`; `Spec/CogniAccept` defines well-formed files | total-correctness calculus (`Goes`) over reachable states, with time stamps bounding the uuids; induction over the file | `C81_wellformed_accepted` `C81_examples_accepted` |
| C82 | Declarations that are ignored change nothing | proved | `Model/CogniLang` | program equality, step by step, under the invariants of the reader | `C82_ignored` |
| C83 | Entropy is defined and never negative | partial | `Model/Entropy`, over the real numbers | rewriting of the program's sums with the entries proved for the tensor (C34-C38), then signs of logarithms; two counterexamples | `C83_entropy_partial` `C83_nonneg_partial` `C83_upper` `C83_single_edge_refuted` `C83_negative_refuted` |
| C84 | Links are exported completely | proved | `Model/Sdf`; `Spec/Sdf` says what a link element contains (`LinkElement`) | composition of C65, C66 and C70 with the pose | `C66_parts` `C84_link` |
| C85 | From a CogniLang file to its SDF model | proved | `Model/CogniLang`, `Model/Sdf`; `Spec/CogniSdf` states the conditions and the expected elements on the file alone | composition: C76 and the closed world of the reading (`Lemmas/Flat`, `Scene*`: every object made by the reader is accounted for) give the hypotheses of C72, C73, C84; uuids of new nodes distinguish them | `C85_file_to_sdf` `C85_wellformed` |
| C86 | Nested exports without cycles end with the complete document | proved | `Model/Sdf`; `Spec/SdfNested` says inductively what a nested export contains (`Exported`) | induction along the acyclic nesting relation; the visited graphs are distinct objects, so the number of objects bounds the depth; each level as in C72, C73 and C84 | `C73_selected` `C86_depth` `C86_nested` `C86_convert` `C86_convert_acyclic` |
| C87 | The projected Laplacian of an ordinary graph is its graph Laplacian | proved | `Model/Tensor`; real vectors | entries from C34 and C37, then rearrangement of finite sums; the constant vector decides the converse | `C87_entries` `C87_form` `C87_ordinary` `C87_semidefinite_iff` |
| C88 | The projected entropy is a number | partial | `Model/Entropy`: eigenvalues are the roots of the characteristic polynomial over the complex numbers, without rounding | determinant as product of the eigenvalues; constant vectors and unit vectors in the kernel | `C88_defined_partial` `C88_ordinary_refuted` `C88_isolated_refuted` |
| C89 | A CogniLang text describes at most one entity | proved | `Py/Grammar`: rules, derivations and an LL(1) parser for any grammar; `Model/Grammar`: the lexer as a function, the parser rules with the tree each derivation means | the grammar is LL(1) with computed first and follow sets (`cogniTables_fits`, checked by the kernel), and every LL(1) grammar has at most one derivation and extent, by induction over rules and depth | `C89_extent` `C89_unambiguous` |
| C90 | Layout and comments do not change what a text describes | proved | `Spec/Grammar`: `LaidOut`, tokens with blanks and comments between | longest match per lexer rule, induction over the layout | `C90_layout` `C90_same` `C90_reads` |
| C91 | An integer parameter can be given every integer | partial | `Spec/Grammar`: `StillOpen` | every derivation balances its braces and uses no DECIMALS token, by induction over rules; concrete derivations | `C91_numeral_refuted` `C91_example_refuted` `C91_negative_partial` |
| C92 | Exactly the well-formed descriptions can be written as a text | proved | `Spec/GrammarForm`: the form, by recursion over the description | both directions by induction over rules and descriptions; names are not keywords because longest match prefers the keyword | `C92_form` `C92_expressible` `C92_letters` `C92_reserved` `C92_digits` `C92_strings` `C92_spaces` |
| C93 | The sample graph is the Fano plane | proved | `Model/SampleGraphs`; `Spec/SampleGraphs` says what a plan is and what a graph contains | loop invariants over the nodes and the edges made so far: uuids are digests of distinct names; the incidences of the seven lines are a finite check | `C93_graph_built` `C93_fano` |
| C94 | From a CogniLang file with nested graphs to its SDF model | proved | as C85; `Spec/CogniSdf`: `IsAssembly`, `SaysPair` | C85's closed world for several graphs (`Lemmas/Scene*`, `SceneSelect`); what lies inside a nested graph and which links are base links is read off the file; C86_convert at depth 2 | `C94_assembly_to_sdf` `C94_wellformed` |
| C95 | The names in a converted model are in order | proved | `Spec/SdfClosed`: `WellLinked` on the document, `AllTidy` on the file | from C94 alone, by cases over what the elements of the model stand for; names split at their first dot; C92_form for texts | `C95_references_resolve` `C95_text` `C95_two_parents_refuted` `C95_from_graph_refuted` |
| C96 | Fuzzy systems are built and printed as written | proved | `Model/Fuzzy`: the steps of `main`, for any plan; `Spec/Fuzzy` says what a plan is and what is built | loop invariants over values and inputs; uuids of values are digests under the factory's name, those of ports under the node's name | `C96_system` `C96_main` |
| C97 | A printed hierarchy shows every element once | proved | `Model/Printing`; lines are texts, what Python prints for a weight stays opaque; `Spec/Printing`: the line for an element | C28 for the order, C01, C02 and C07 for what the lines say | `C97_prints` `C97_paths` `C97_raises` |
| C98 | When a batch of additions is awaited, all its elements are there | partial | `Model/EventLoop`: tasks over generators, `gather`, iterations of the loop as in CPython 3.10; `Spec/EventLoop` | induction over the list of a batch; each iteration of the loop is computed symbolically | `C98_awaited_partial` `C98_duplicate_partial` `C98_not_awaited_refuted` |
| C99 | Batches of removals remove what is listed and complete | partial | `Model/EventLoop`: tasks over generators, `gather`, iterations of the loop as in CPython 3.10; `Spec/EventLoop` | induction over the list of a batch; each iteration of the loop is computed symbolically | `C99_awaited_refuted` `C99_removed_partial` `C99_empty_partial` `C99_same_name_refuted` |
| C100 | Batches of additions run side by side in every order | proved | `Model/EventLoop`: `runJobs` runs tasks in the order of any schedule; `Spec/EventLoop`: `Compatible`, `AddedSoFar` | induction over the schedule: compatibility of what remains is preserved by each step | `C100_any_schedule` `C100_same_result` |
| C101 | Concurrent executions of query engines | partial | `Model/QueryConcurrent`: executions suspended in `asyncio.wait`, the event loop's turns in any order; `Spec/QueryConcurrent` | invariant over the schedule: for each element, what was returned, what is queued and what waiting coroutines will add balance what the begun executions are due | `C101_together_partial` `C101_progress_partial` `C101_alone_partial` `C101_shared_refuted` |
| C102 | A hypergraph traversal of depth k reports the relations of k rounds | proved | `Model/HyperTraversal`: the traversal without homomorphism; `Spec/HyperTraversal`: rounds and calls | one round of the fringe in closed form, induction over the rounds; the recursion error by monotonicity in the stack depth | `C102_rounds` `C102_unlimited` `C102_endless` |
| C103 | Tensor representations of any depth | partial | `Model/Tensor`, `Spec/HyperTraversal` | first round as in C56, then the second round's first relation is looked up in the numbering | `C103_same_partial` `C103_deeper_refuted` `C103_sample_refuted` |
| C104 | Norms are what their names say | partial | `Model/HyperTraversal`: the two norms as the loops numpy runs, in rational numbers | induction over the list, then algebra | `C104_sum_partial` `C104_prod_partial` `C104_prod_refuted` `C104_zero_refuted` |
| C105 | Elements can be added at any depth | partial | `Model/Stack`: `add_element` with a limit on the nested calls of `update_qualified_name`; `Spec/Stack` | both versions agree up to the update of the names; then induction over the update loop, which stops at the first element with too long a path; chains of every length by induction | `C105_within_partial` `C105_too_deep_refuted` `C105_every_limit_refuted` |
| C106 | A kinematic graph read from a CogniLang file can be converted to a tensor | partial | `Model/CogniLang` (weights of joint relations), `Model/Tensor`; `Spec/CogniTensor`: which graphs a file has and what a joint leads to, on the file alone | C76 gives the nodes, edges and relations of the graph; names that are distinct give endpoints; then C56 for the weights; for the refutations the traversal is followed to the first relation that cannot be evaluated | `C106_convertible_partial` `C106_pose_refuted` `C106_world_refuted` `C106_examples_refuted` `C106_case` |
| C107 | A tensor representation depends on the structure of the context only | proved | `Model/Tensor`, `Model/Entropy`; `Spec/Isomorphism`: correspondences of contexts and what it is for representations to agree | C56 gives every entry by the last relation that leads from node to node, which corresponds; a renumbering of rows and layers then leaves all sums, and the characteristic polynomial, unchanged | `C107_same_structure` `C107_unweighted` `C107_case` `C107_order_refuted` |
| C108 | The converter writes the model and its load script into the output directory, or nothing | partial | `Model/App`: the program from the parsed file to the files on the disk; `Spec/App` | C94 (assemblies) and C73 (empty entities) give the document; then lemmas on `os.path.join` and on the two writes; C92 for the texts | `C108_nothing_partial` `C108_written` `C108_inside_partial` `C108_assembly_partial` `C108_outside_refuted` `C108_half_refuted` |
| C109 | A decoded graph has the tensor representation of the graph that was sent | partial | `Model/Encoding`, `Model/Tensor` | C49's copy and the loss of directions give the structure of the decoded context; then C34 for its entries and C107 for the rest | `C109_decoded` `C109_undirected_partial` `C109_exactly_when` `C109_directed_refuted` `Sample.C109_case` |
| C110 | Factorization and weight tensor show the same connections | partial | `Model/Factorization`, `Model/Tensor`; `Spec/Factorization`: pairs of a factorization between two nodes | C43 for the pairs, C56 for the entries, compared end by end | `C110_factors` `C110_pairs_partial` `C110_agree_partial` `C110_undirected_partial` `C110_binary_partial` `C110_one_sided_refuted` `C110_zero_refuted` |
| C111 | Mapping a factorization handles every pair once, in order, on demand | proved | `Model/Factorization`: Python's lazy `map` as the rest of a list; `Spec/Factorization`: calls in order | induction over the list; C45 for the factorization | `C111_list` `C111_list_only` `C111_raised` `C111_once` `C111_next` `C111_factor_graph` |
| C112 | The coordinate lists of a message describe the tensors of its context | partial | `Model/Encoding`, `Model/HyperTraversal`; `Spec/Encoding`: reading a coordinate list into an array | a traversal with other indices gives the same entries under these indices, which are different for different elements; the arrays and the lists are then read by the same last-entry lemma | `C112_coordinates_partial` `C112_exactly_when` `C112_self_refuted` `C112_stale_refuted` `Sample.C112_case` `Sample.C112_self_case` |
| C113 | A graph built from a plan has the tensors of the plan | proved | `Model/SampleGraphs`, `Model/Tensor`, `Model/Entropy`; the plan of C93 | C93 gives the structure of the built graph; C34, C36, C37, C83, C87 its numbers, transported from elements to positions in the plan; for the Fano plane the eigenvalues of a*I + b*J | `C113_plan_tensors` `C113_fano` |
| C114 | The factorization of a selection counts its pairs | proved | `Model/Factorization`, `Model/SampleGraphs` | the explicit list of C43, mapped to endpoints and then to positions in the plan; counting | `C114_plan_pairs` |
| C115 | A graph with directions and weights has the tensors of its plan | proved | `Model/Factory`, `Model/Tensor`; `Spec/DirectedPlan`: plans, the program that builds them, and the entries they ask for | as C93 with connect_tuple_nodes, then the entries of C56 transported to positions in the plan (the last writer is the last end of the plan); the world before is not touched, so weights keep their values | `C115_directed` `C115_digraph` |
| C116 | Growing and shrinking a context changes only what was added or removed | proved | `Model/Tensor`, `Model/Factory`, `Model/Hierarchy`, `Model/Elements`; `Spec/TensorLocal`: what stays and what comes or goes | the entry formula of C56 mentions one edge only, so equal relations give equal entries; each step is shown to keep the relations of the other edges (frame lemmas of C40, C09, C10), then degrees and Laplacian are compared as sums | `C116_local` `C116_add_node` `C116_add_edge` `C116_remove_edge` `C116_remove_node` `C116_update_weight` `Sample.C116_case` |
| C117 | The projected Laplacian of an ordinary graph counts its connected components | proved | `Model/Tensor`; `Spec/Components`: sharing an edge, components as classes of nodes | the quadratic form of Lp is the sum of squared differences along edges (C87), so null vectors are constant on edges; conversely the row sums are 0. Null vectors are then the functions on the quotient; the rank is counted with Mathlib's linear algebra | `C117_null` `C117_components` `C117_connected` `Sample.C117_case` |
| C118 | A planned graph can be sent, and arrives as planned | proved | `Model/Factory`, `Model/Encoding`, `Model/Tensor`; `ReceivedAs` in `Props/PlanSent`: name, nodes, edges and incidences of the plan | the stage invariants of C93 and C115 also say where identifiers come from, so no part shares the identifier of the graph and the context is Sendable; then C109 (decoded copy has the same representation) and C112 (coordinates) with the tensors of C113 and C115 | `C118_received` `C118_coordinates` `C118_name_refuted` |
| C119 | Which quantities of a conversion can be computed | proved | `Model/TensorApi`: the properties of a representation whose arrays may be None, over `Model/Tensor` and `Model/Entropy` | cases on the numbers of nodes and edges, which the conversion (C56) makes the sizes of the arrays | `C119_degrees` `C119_laplacian` `C119_entropy` `C119_projected` `C119_linAlgError` |
| C120 | A stream of value messages keeps a decoded graph in step | proved | `Model/Encoding`; `Spec/Streams`: two processes, sent messages, delivery in any order | both processes stay reachable (an update is a sequence of public calls); identities of the decoded nodes never change (C18), so an update finds them by uuid whenever they are in the decoded graph; then as C51 | `C120_delivered` `C120_in_step` `C120_stale_refuted` |
| C121 | A decoded graph can be sent on, any number of times | proved | `Model/Encoding`; `Spec/Relay`: hops, chains of hops, the plain message of a context | copies of copies are copies; below a decoded graph there is nothing but the parts of the message, so breadth-first numbering gives positions; decoded elements are named by path; induction on the chain | `C121_relay` `C121_onward` `C121_tensors` |
| C122 | Additions and removals run side by side on one event loop | proved | `Model/EventLoop`; `Spec/Mixed`: tasks, what they have done after so many steps | invariant over any schedule: the state is described by the number of steps of each task; each step is one addition (C08) or one removal (C10, C11) | `C122_mixed` `C122_same_result` `C122_case` `C122_same_name_refuted` |
| C123 | Coordinates collected before update_context name elements by uuid | proved | `Model/EarlyCoo` on `Model/Encoding` and `Model/HyperTraversal`; `Spec/EarlyCoo`: dense reading of a list by uuid | the traversal without homomorphism (C102) makes the calls of the one with positions, element by element with uuids; uuids in a container are different (C03); then as C112 | `C123_early_coordinates` `C123_no_message` `C123_appended` `C123_kept` `Sample.C123_index_refuted` `Sample.C123_case` |
| C124 | Messages survive as bytes | proved | `Model/Cbor`: items, cbor2.dumps and cbor2.loads from RFC 8949, the layout of the messages; `Spec/Cbor`: sizes, IEEE 754 values | reading undoes writing by induction on items (heads, big-endian numbers, UTF-8 by Lean's library); more bytes behind an item change nothing, hence prefixes are refused | `C124_message_bytes` `C124_different` `C124_cut` `C124_update_bytes` `C124_graph_bytes` `C124_numbers` `Sample.C124_case` |
| C125 | A query that runs beside edits answers for the graph in which it began | proved | `Model/QueryEdited`: queries whose predicates see the graph at the time, calls of the rest of the program between the tasks; `Spec/QueryEdited` | the tasks of one query are picked out of the schedule, each with its graph; their results are a permutation of the visited elements that pass (C28, C52); immutable identity (C18) for the snapshot | `C125_beside` `C125_snapshot` `C125_alone` `C125_case` `C125_current_refuted` |
| C126 | Looping over the children of an element while the program changes them | proved | `Model/LazyChildren`: a generator object with the dict iterator inside, one `next` at a time, a loop with a body of calls; `Spec/LazyChildren` | invariant: the generator stands before the rest of the wanted children, kept by bodies that leave the children alone (classes are immutable, C18); the size test of the iterator; removal by C10 and induction for the loop over a copy | `C126_undisturbed` `C126_changed` `C126_remove` `C126_copy` `C126_case` |

## What the code does that the intended property forbids

Each line is backed by the `_refuted` (or `_partial`) theorems of that property.

- **C01** For every history of safe calls (Op.Safe). The *_refuted theorems show that each excluded class of calls breaks the property in the code.
- **C02** Histories of safe calls; C02_no_clock_refuted shows the clock guard is needed.
- **C03** Histories of safe calls; C03_abandoned_removal_refuted shows that an abandoned removal by name breaks it.
- **C05** C05_cycle_refuted: the code accepts adding a container below itself (only self-addition is refused).
- **C07** Histories in which only leaves are detached; C07_detach_subtree_refuted shows names below a detached element go stale.
- **C12** C12_removed_name_silent_refuted: a name removed before is silently accepted, so the stricter claim 'always KeyError' is false.
- **C14** C14_deregister_from_edge_refuted: deregister of a relation raises KeyError after detaching.
- **C15** Exact whenever the lookup returns, and it returns exactly when no step meets an unknown name or a non-container. False in general: a missing intermediate name raises KeyError, a port or relation on the way AttributeError.
- **C16** Hierarchies assembled top-down; C16_move_subtree_refuted shows depth below a moved element goes stale.
- **C20** False in general: connecting two same-named nodes raises after the port was created. Proved: which failures leave the graph unchanged.
- **C22** False of the code: the port remains as a sub-element. Proved: the port table entry is undone.
- **C23** False of the code for every relation of every edge: the iterator raises TypeError. Proved: what the failing call does.
- **C26** False after update_values with a list of another length (dim is not updated). Proved for histories that keep lengths, and the exact behaviour in general.
- **C31** False of the code after an aborted breadth-first traversal (queue shared through a default argument). Proved: true if earlier traversals returned normally, and always for depth-first.
- **C32** C32_duplicate_uuid_refuted shows the distinctness guard is needed.
- **C35** False of the code: two incoming endpoints of one edge get linked. Proved: the exact condition, and the property for edges with at most one incoming and one outgoing endpoint.
- **C38** Trace and off-diagonal agreement hold always; the diagonals agree exactly when the edges at a node have three endpoints on average.
- **C39** SHA3-224 idealised as an injective function.
- **C41** False of the code: both sides get the first direction. Proved: what is built instead, and the property when both directions are equal.
- **C42** False of the code in every case: the exception leaves an empty edge in the container. Proved: nothing else changes.
- **C44** False of the code: BIDIRECTIONAL relations are never counted as outgoing, and an edge without selected OUTWARDS relation raises KeyError. Proved: what is paired, and the property for selections without such relations.
- **C45** False of the code on cycles (RecursionError for every stack size). Proved: returns exactly when no cycle can be reached, and what it then lists; in particular for contexts whose edges lead to nodes without edges.
- **C47** False of the code after a successful search: leftovers of the shared queue, and a stale element cache. Proved: unsuccessful searches and graph changes have no influence.
- **C49** False of the code for directions and weights of relations (all become BIDIRECTIONAL without weight). Proved: everything else, in any state of the receiving program.
- **C50** False of the code: with at least one relation every message but the first raises ErrorDuplicateElement when decoded. Proved: contexts without relations.
- **C52** Proved for every schedule, every set of distinct query objects and any number of earlier completed executions, as long as some query visits something. An element whose predicate raises is left out silently. Fails (refuted) when nothing is visited (ValueError), when one query object is registered under two names, and after an execution aborted by RecursionError.
- **C53** KeyError always; but if the uuid is present the element is lost from the container.
- **C54** False of the code: RecursionError once the number of elements reaches the interpreter's limit, for every hierarchy. Proved: completes below it.
- **C57** False after a conversion that raised. Proved: conversions that return leave no trace.
- **C58** False for the default depth when an edge inside a node leads back to that node.
- **C59** False when the numbers of nodes and edges did not change.
- **C60** False under DummyClock. Proved for wall clocks with strictly increasing readings.
- **C63** C63_mesh_refuted records that the type mesh_geometry, which the CogniLang grammar has, is not known to the factory.
- **C64** C64_ellipsoid_refuted: an ellipsoid with neither one nor three values becomes an element no simulator can read. C64_box_refuted: a polyhedron with two values loses its size, with none or more than three it is dropped.
- **C65** False of the code: radius and length of cylinders are exchanged, boxes get unit moments, three-radii ellipsoids raise TypeError. Proved: spheres (also with several inertia elements, which share one inertial element), and exactly when the cylinder formula is right.
- **C66** False of the code when two nodes of a link have a material (KeyError). Proved for at most one.
- **C70** The guards are needed: a first connection without a joint, and a graph at the top whose link has an incoming joint, make the export of the link raise.
- **C73** C73_entities_refuted: with several entities in a file all links and joints end up in the model of the last one.
- **C74** Proved at the first level of nesting; refuted for every deeper level, where the prefix of the instance is missing a separator.
- **C75** False of the code: a joint that leads to a graph that contains it makes the export recurse for ever. Flat exports end (C72_flat), and so do all nested exports without cycles (C86_nested).
- **C76** The parse tree is the input; what the reader ignores is listed in the statement.
- **C83** Proved for undirected unweighted contexts without loops with at least two edges (non-negative when no edge has more than 2E-1 nodes). With exactly one edge the program divides by zero; with an edge of four nodes and an empty edge the entropy is negative. Its upper bound holds for all directions and weights with degrees above -1 (C83_upper). Logarithms over the reals, not floats.
- **C88** False of the code without rounding: Lp of every ordinary graph with nodes (every edge with two endpoints) and of every context with an isolated node has the eigenvalue 0, and 0*log2(0) is NaN. Proved: it is a number exactly if Lp is regular, and then the stated sum.
- **C91** False of the grammar: a numeral without a sign is a DECIMALS token (the rule before INT, same length), and no parser rule uses DECIMALS. So 'int n = 5' is in no text of the language, nor is the example file example_robotcar_ambient.cogni. Proved: negative integers are accepted, and decimals with a point as doubles.
- **C95** Needs a hash without collisions. The refutations show that the conditions are needed: a joint with two parents gives two joints with one name, a joint from a nested graph gives a joint whose parent does not exist. The texts of examples/example_robotcar.cogni and examples/example_robotcar_w_parameters.cogni are shown to meet the conditions.
- **C98** False of the code as stated: add_elements returns the future of gather, so when 'await c.add_elements(xs)' returns nothing has been added, and run_until_complete(c.add_elements(xs)) adds only the first element. Proved: awaiting the returned future too gives the stated result.
- **C99** False of the code as stated: the tasks yield the removed elements, which asyncio refuses, so the future of a non-empty batch always ends with RuntimeError; and of two elements with one name only the first is removed. Proved: the elements are removed nevertheless.
- **C101** False of the code for executions that share a query object: the one that continues first takes the results of both. Proved for every schedule: executions that share no query return what they would alone; with shared queries the results of all executions together are right, each execution returns only matching elements, none fails and none blocks the others.
- **C103** False of the code as stated: the transformer numbers only the edges directly in the context, so that for every depth but 1 (and 0) the conversion raises KeyError as soon as an endpoint contains an edge with relations (and no uuid collides). Proved: without such endpoints the result is the same for every depth.
- **C104** False of the code for ProdNorm, which is the inner product of the list with itself: the sum of the squares. Proved: SumNorm is the sum; what ProdNorm gives, when that is the product, and which relations it leaves out.
- **C105** False of the code: the qualified name is computed by a generator that calls itself once per container on the way up, so that below a certain depth add_element raises RecursionError, and does so after the element has been entered into the container (parent, sub-elements and counters are those of a successful addition), with the old qualified names left on all elements that lie too deep; shown for every recursion limit. Proved: where the element and everything below it come to lie within the limit, the call does exactly what it does without limit. The limit counts the nested calls of update_qualified_name; the frames of the callers are a constant to be subtracted from the limit of the interpreter.
- **C106** False of the code: the reader gives a joint relation with a pose the pair of number lists of the pose as weight, which the transformer cannot evaluate, so that no graph with such a relation can be converted (at any depth, with any stack), among them the graph basic_structure of each of the six files of the repository; the same holds for relations to the world, which is outside the graph. Proved: graphs whose joints lead, without poses, to nodes of the graph with names of their own are converted as claimed.
- **C107** For contexts whose relations lead to their own nodes; idle queues and enough call stack. With weights the order in which an edge was connected does matter (the last relation wins), which is shown.
- **C108** False of the code: names in CogniLang may contain slashes, and os.path.join drops the output directory before an absolute path, so that a file whose entity is called /tmp/x is converted to /tmp/x.sdf and /tmp/x.load.sh whatever the output directory is (shown for every name that begins with a slash); and the document stays if the script cannot be written (a directory has its name). Proved: what is written and where for every input (C108_written), for entities without slashes in the names that it is inside the output directory, that nothing is written otherwise, and for assemblies, from the text, that the run succeeds with the model of C94. The disk is a set of directories and a map of files; serialisation by lxml is not modelled.
- **C109** False of the code: messages carry neither directions nor weights, so the decoded context is undirected and unweighted. Proved: what the receiver computes for every context (C109_decoded); that it is the sender's representation for undirected contexts without weights; that the weight tensors agree exactly if the sender's has a 1 for every two endpoints of an edge; and that they differ for every edge that leads neither in at one end nor out at another.
- **C110** False of the code: an edge that leads in at v or out at u, but not both, gives an entry for (v,u) but no pair, and relations of weight 0 give pairs but no entry; both shown for all such edges. Proved: where no weight is 0 pairs are entries, and both agree for edges that lead in at v exactly if they lead out at u, for undirected edges, and for edges with at most one end of each direction.
- **C112** False of the code for an encoder with a history: the lists are never emptied, so coordinates of removed relations stay (C112_stale_refuted). Proved: the lists describe the tensors for a new encoder and after repeated calls, and exactly if every coordinate collected before belongs to an entry that is not 0 now. C112_self_refuted: a context that can be sent may have a relation to itself; then update_coo raises RecursionError with any stack.
- **C118** Numbers are rationals, without rounding. The digest is injective (hypothesis inj); no edge has the name of the graph (needed: C118_name_refuted). Messages are passed as values; their bytes are C124. Stack is large enough (some N, then every larger one).
- **C120** Operations of the two processes obey the guards of Reach (Op.Safe). Messages are passed as values; their bytes are C124. C120_stale_refuted: messages out of order.
- **C122** That every removal task ends with RuntimeError is C99_awaited_refuted; it is part of Task.after here. C122_same_name_refuted: the guard on names is needed.
- **C123** C123_index_refuted: what a reader might expect instead, that all coordinates of a message are indices, is false. Messages are modelled before they are put into CBOR.
- **C125** Predicates and statements are functions of the element and the graph at the moment of the call, without effects. C125_current_refuted: what a reader might expect instead, that the results are the matches in the graph at the moment of the return, is false. That the engine needs something to visit, distinct queries and no aborted execution before is as in C52.

## Trusted base

- Lean 4.33.0's kernel, and Mathlib's definitions that occur in statements (`List`, `Rat`, `Finset` sums, ...).
- The axioms `propext`, `Classical.choice`, `Quot.sound` only (table below). No axiom is added, nothing is
  evaluated by compiled code: concrete examples use `decide +kernel`.
- That the definitions in `Verif/Model` say what the Python code does (each cites the lines it models), and that the
  definitions in `Verif/Spec` say what the property says.

## What is modelled

| Python | Lean |
|---|---|
| `foundations/conceptual_item.py`, `abstract_items.py`, `common_errors.py`, `clock.py`, `identification/identity_generator.py` | `Model/Heap`, `Model/Hierarchy`, `Model/Stack` |
| `hypergraph/base_elements.py`, `value_node.py`, `common_definitions.py` | `Model/Elements` |
| histories of API calls | `Model/System` |
| `add_elements`, `remove_elements` on the event loop | `Model/EventLoop` |
| the child views as generators (`get_subelements`, `sub_nodes`, ...) in loops with changes | `Model/LazyChildren` |
| `foundations/hierarchical_traversal_strategies.py`, `hypergraph_traversal_strategies.py`, `graph_monad.py` | `Model/Traversal`, `Model/Tensor`, `Model/HyperTraversal` |
| `hypergraph/homomorphism_functions.py` (index homomorphisms) | `Model/Homomorphism` |
| `hypergraph/representation/abstract_representations.py`, `tensor/tensor_representation.py` | `Model/Tensor` |
| `hypergraph/norm/norm_functions.py` | `Model/HyperTraversal` |
| `factories/*.py` | `Model/Factory` |
| `hypergraph/factorization_operations.py` | `Model/Factorization` |
| `foundations/query/search_elements.py` | `Model/Search` |
| `hypergraph/encoding/*.py` | `Model/Encoding`, `Model/EarlyCoo`, `Model/Cbor` (bytes) |
| `hypergraph/sample_graphs/fano_graph.py` | `Model/SampleGraphs` |
| `apps/fuzzy/accu_fuzzy.py` | `Model/Fuzzy` |
| the `.g4` grammar of CogniLang (in `/repo/framework`) | `Model/Grammar` |
| `print_graph_hierarchy` | `Model/Printing` |
| entropies | `Model/Entropy` |
| reading a representation | `Model/TensorApi` |
| `query/query_engine.py` | `Model/QueryEngine`, `Model/QueryConcurrent`, `Model/QueryEdited` |
| `format/semantics/*.py` | `Model/Semantics` |
| `format/mapping/cognilang_file_icon.py`, `cognilang_map_utility.py` (the visitor; parse trees are the input) | `Model/CogniLang` |
| `format/phys/*`, `format/mapping/cognilang_sdf_icon.py`, `apps/simulation/convert_cognilang_sdf.py` | `Model/Sdf`, `Model/App` (the program and the files it writes) |

## What is not modelled, and simplifications

- **Numbers.** Floats are rationals: no rounding, overflow or NaN. numpy arrays are functions with explicit sizes;
  the code uses `np.float`, so it needs numpy < 1.24, which is assumed. Degrees converted by `math.pi` stay symbolic.
- **Hashing.** SHA3-224 is a function; injectivity is assumed only where a theorem says so (`Function.Injective E.sha`).
- **Clock.** `time.time_ns()` is an arbitrary sequence of readings; monotone or strictly increasing only where stated.
- **Interpreter.** Python 3.10 semantics. Memory exhaustion, signals and threads are not modelled. The recursion limit is
  modelled for traversals, searches, factorization and nested exports (as a budget), and for the walk up the
  parents in `add_element` (C105), where all other properties assume it is not reached.
- **asyncio.** The query engine's tasks run in any order, one at a time (they never await anything that suspends);
  `add_elements`/`remove_elements` and `gather` as in CPython 3.10 (where generators count as coroutines; later versions
  refuse them). Concurrent executions of engines interleave
  at `asyncio.wait` (C101); so do the calls of the rest of the program (C125).
- **Representations.** `update_coo` before `update_context` is modelled in `Model/EarlyCoo` only. Arrays of empty contexts, which stay `None`, are modelled in `Model/TensorApi` (elsewhere arrays without entries stand for them). Entropies are over the real numbers.
- **Encoding.** `Model/Encoding` passes messages as values; `Model/Cbor` has their bytes, where cbor2 (not in the repository) is modelled from RFC 8949 for the items that messages use, and floats by their 64 bits. Lone surrogates in names are left out.
- **Strings.** `lower`, `strip`, `capitalize` on ASCII only.
- **SDF.** lxml trees are values; formatting is a list of tokens (`Tok`); the disk is a set of directories and a map from paths to contents (`Model/App`), where the content is the tree: its serialisation by lxml is not modelled, nor are permissions, links, devices and different spellings of one path.
  `values` attributes that are strings are treated as a `TypeError`. A `StopIteration` that leaves a coroutine keeps its name
  (Python turns it into `RuntimeError`).
- **CogniLang.** The lexer and grammar are modelled from the `.g4` files; the parser that ANTLR generates from them is not in the
  repository and is trusted to find the (only) derivation if there is one. Its error recovery is not modelled: the lexer of the model stops
  at a character no rule matches, and a text without derivation means nothing (so the sample `ambientCar` stands for
  what recovery makes of that file, see C91). The weight of a joint relation (in the code the pair of number lists of
  its pose) is represented by the transformation element that holds the same lists; in both cases it is no value node. The
  converted lists a pose also returns are left out; parameter values that are words instead of numbers are left out.
- **Private setters.** Direct assignment to `parent`, `cid` and underscore attributes from outside is not an API call.
- The Java framework (`/repo/framework`) other than its `.g4` files, notebooks and design documents are not modelled.

### Axioms of each theorem in MANIFEST.json

From `#print axioms` (none of the axioms is ours; `Classical.choice`, `propext` and `Quot.sound` are Lean's standard ones).

- **no axioms** (8): `C25_update_values`, `C27_constructor_copies`, `C33_idempotent`, `C39_slash_in_factory_name_refuted`, `C111_list_only`, `C111_raised`, `C111_once`, `C111_next`
- **propext** (20): `C08_refuse_self`, `C12_no_query`, `C12_removed_name_silent_refuted`, `C13_lazy`, `C14_deregister_root`, `C14_deregister_from_edge_refuted`, `C16_move_subtree_refuted`, `C17_no_clock`, `C21_classified`, `C21_both_iff`, `C21_directions`, `C21_order`, `C22_disconnect_refuted`, `C31_idle_partial`, `C32_duplicate_uuid_refuted`, `C39_value_uuid`, `C44_keyerror_refuted`, `C55_reset_restores`, `C66_parts`, `C111_list`
- **propext, Quot.sound** (42): `C05_cycle_refuted`, `C01_move_out_of_edge_refuted`, `C01_remove_wrong_name_refuted`, `C03_abandoned_removal_refuted`, `C07_detach_subtree_refuted`, `C15_missing_intermediate_refuted`, `C17_stamp_is_reading`, `C17_timestamp_monotone`, `C17_clock_replaced_refuted`, `C20_failed_connect_refuted`, `C25_get`, `C26_iter_general`, `C26_iter_refuted`, `C30_limited_bfs`, `C30_limited_dfs`, `C30_exact_limit`, `C31_dfs_independent_partial`, `C31_aborted_refuted`, `C33_execute`, `C43_exact`, `C43_exact_identity`, `C44_bidirectional_refuted`, `C45_cycle_refuted`, `C51_new_value_refuted`, `C52_order_refuted`, `C52_two_names_refuted`, `C52_aborted_refuted`, `C53_mismatch_refuted`, `C54_recursion_limit_refuted`, `C55_reset_exact`, `C59_fresh_partial`, `C59_stale_refuted`, `C69_grouping`, `C99_empty_partial`, `C99_same_name_refuted`, `C101_shared_refuted`, `C110_factors`, `C118_name_refuted`, `C122_same_name_refuted`, `C123_no_message`, `C125_alone`, `C125_case`
- **propext, Classical.choice, Quot.sound** (309): `C01_containment_agrees`, `C01_remove_on_relation_refuted`, `C02_count_exact`, `C02_no_clock_refuted`, `C03_lookup_exact`, `C03_lookup_nodup`, `C04_cid_unique`, `C04_cid_never_reused`, `C04_cid_below_next`, `C05_forest`, `C05_no_self_containment`, `C06_requalify`, `C07_named_by_path`, `C08_refuse_duplicate`, `C08_add_total`, `C09_move`, `C09_lookup`, `C09_add_free`, `C10_remove_uuid`, `C10_add_again`, `C11_remove_name`, `C12_unknown_uuid`, `C12_unknown_name`, `C13_abandoned`, `C14_deregister`, `C14_register`, `C14_inverse`, `C15_path_lookup`, `C15_path_lookup_total`, `C15_through_port_refuted`, `C16_depth`, `C18_identity_immutable`, `C19_unary_connect`, `C19_names`, `C20_failed_connect_partial`, `C22_disconnect_partial`, `C23_remove_relation_refuted`, `C23_remove_relation_partial`, `C24_incidence`, `C25_update`, `C25_out_of_range`, `C25_constructor_snapshot`, `C25_get_values_snapshot`, `C26_iter_partial`, `C27_step`, `C27_attribute_map`, `C28_bfs_visits`, `C28_exactly_once`, `C28_complete`, `C28_level_order`, `C29_dfs_visits`, `C29_exactly_once`, `C29_parent_first`, `C32_index_bijection`, `C32_bijection`, `C33_execute_unlimited`, `C33_insertion_order`, `C34_undirected`, `C34_converts`, `C35_exact_partial`, `C35_binary_partial`, `C35_two_incoming_refuted`, `C36_incidence`, `C36_undirected`, `C37_degree`, `C37_oriented`, `C38_trace_partial`, `C38_offdiagonal_partial`, `C38_diagonal_partial`, `C38_two_endpoints_refuted`, `C39_distinct`, `C39_node_uuid`, `C39_edge_uuid`, `C40_connect_nodes`, `C40_connect_nodes_returns`, `C40_connect_tuple_nodes`, `C41_two_sided_partial`, `C41_dir_edges_refuted`, `C42_rejected_values_partial`, `C42_rejected_values_refuted`, `C43_once`, `C44_partial`, `C44_pairs`, `C45_terminates_partial`, `C45_terminates_iff`, `C45_flat`, `C46_first`, `C46_found`, `C46_stack`, `C47_after_misses_partial`, `C47_leftovers_refuted`, `C47_stale_cache_refuted`, `C48_terminates`, `C48_complete`, `C48_duplicate_uuid_refuted`, `C49_roundtrip_partial`, `C49_directions_lost`, `C49_directions_refuted`, `C50_repeatable_partial`, `C50_second_message_refuted`, `C51_update_reaches`, `C52_every_schedule_partial`, `C52_nothing_visited_refuted`, `C53_mismatch_partial`, `C54_small_partial`, `C56_weights`, `C57_returns_idle_partial`, `C57_after_failure_refuted`, `C58_limited_partial`, `C58_unlimited_refuted`, `C60_factory_uuids_partial`, `C60_factory_uuids_refuted`, `C61_generate_list_nodes`, `C62_decoding_is_safe`, `C63_semantic_element`, `C63_type_spelling`, `C63_refused`, `C63_mesh_refuted`, `C63_blanks`, `C64_geometry`, `C64_box_refuted`, `C64_empty_refuted`, `C64_ellipsoid_refuted`, `C65_sphere_partial`, `C65_several_partial`, `C65_cylinder_iff_partial`, `C65_box_refuted`, `C65_ellipsoid_refuted`, `C66_solids_partial`, `C66_two_visuals_refuted`, `C67_nearest_graph`, `C68_joint`, `C70_frame`, `C70_pose`, `C70_plain_connection_refuted`, `C70_root_refuted`, `C71_base_links`, `C71_connecting_link`, `C72_flat`, `C73_convert`, `C73_selected`, `C73_entities_refuted`, `C74_nested_names_partial`, `C74_nested_names_refuted`, `C86_nested`, `C75_cycle_refuted`, `C76_file_shown`, `C76_later_references_refuted`, `C77_reading_is_safe`, `C78_parameters`, `C79_undeclared_refused`, `C80_unreadable_refused`, `C81_wellformed_accepted`, `C81_examples_accepted`, `C82_ignored`, `C83_entropy_partial`, `C83_nonneg_partial`, `C83_upper`, `C83_single_edge_refuted`, `C83_negative_refuted`, `C84_link`, `C85_file_to_sdf`, `C85_wellformed`, `C86_depth`, `C86_convert`, `C86_convert_acyclic`, `C87_entries`, `C87_form`, `C87_ordinary`, `C87_semidefinite_iff`, `C88_defined_partial`, `C88_ordinary_refuted`, `C88_isolated_refuted`, `C89_extent`, `C89_unambiguous`, `C90_layout`, `C90_same`, `C90_reads`, `C91_numeral_refuted`, `C91_example_refuted`, `C91_negative_partial`, `C92_form`, `C92_expressible`, `C92_letters`, `C92_reserved`, `C92_digits`, `C92_strings`, `C92_spaces`, `C93_graph_built`, `C93_fano`, `C94_assembly_to_sdf`, `C94_wellformed`, `C95_references_resolve`, `C95_text`, `C95_two_parents_refuted`, `C95_from_graph_refuted`, `C96_system`, `C96_main`, `C97_prints`, `C97_paths`, `C97_raises`, `C98_awaited_partial`, `C98_duplicate_partial`, `C98_not_awaited_refuted`, `C99_awaited_refuted`, `C99_removed_partial`, `C100_any_schedule`, `C100_same_result`, `C101_together_partial`, `C101_progress_partial`, `C101_alone_partial`, `C102_rounds`, `C102_unlimited`, `C102_endless`, `C103_same_partial`, `C103_deeper_refuted`, `C103_sample_refuted`, `C104_sum_partial`, `C104_prod_partial`, `C104_prod_refuted`, `C104_zero_refuted`, `C105_within_partial`, `C105_too_deep_refuted`, `C105_every_limit_refuted`, `C106_convertible_partial`, `C106_pose_refuted`, `C106_world_refuted`, `C106_examples_refuted`, `C106_case`, `C107_same_structure`, `C107_unweighted`, `C107_case`, `C107_order_refuted`, `C108_nothing_partial`, `C108_written`, `C108_inside_partial`, `C108_assembly_partial`, `C108_outside_refuted`, `C108_half_refuted`, `C109_decoded`, `C109_undirected_partial`, `C109_exactly_when`, `C109_directed_refuted`, `Sample.C109_case`, `C110_pairs_partial`, `C110_agree_partial`, `C110_undirected_partial`, `C110_binary_partial`, `C110_one_sided_refuted`, `C110_zero_refuted`, `C111_factor_graph`, `C112_coordinates_partial`, `C112_exactly_when`, `C112_self_refuted`, `C112_stale_refuted`, `Sample.C112_case`, `Sample.C112_self_case`, `C113_plan_tensors`, `C113_fano`, `C114_plan_pairs`, `C115_directed`, `C115_digraph`, `C116_local`, `C116_add_node`, `C116_add_edge`, `C116_remove_edge`, `C116_remove_node`, `C116_update_weight`, `Sample.C116_case`, `C117_null`, `C117_components`, `C117_connected`, `Sample.C117_case`, `C118_received`, `C118_coordinates`, `C119_degrees`, `C119_laplacian`, `C119_entropy`, `C119_projected`, `C119_linAlgError`, `C120_delivered`, `C120_in_step`, `C120_stale_refuted`, `C121_relay`, `C121_onward`, `C121_tensors`, `C122_mixed`, `C122_same_result`, `C122_case`, `C123_early_coordinates`, `C123_appended`, `C123_kept`, `Sample.C123_index_refuted`, `Sample.C123_case`, `C124_message_bytes`, `C124_different`, `C124_cut`, `C124_update_bytes`, `C124_graph_bytes`, `C124_numbers`, `Sample.C124_case`, `C125_beside`, `C125_snapshot`, `C125_current_refuted`, `C126_undisturbed`, `C126_changed`, `C126_remove`, `C126_copy`, `C126_case`
