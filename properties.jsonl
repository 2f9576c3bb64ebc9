{"id": "C01", "title": "Containment and parent agree", "statement": "After any history of API calls, an element x is yielded by c.get_subelements(lambda _: True) exactly when x.parent is c, x is yielded once, and so every element has at most one container. The history may contain any calls, failing ones included, except the ones the code does not guard against: adding an element below one of its own descendants, moving an element out of an edge or a relation, removing from a relation, removing with a (name, uuid) pair that names two different elements, abandoning a removal by name half-way or doing it on an edge, and setting a clock to None; each exclusion is shown to be necessary.", "quantifier": "every finite history of constructor, add_element, remove_element, register/deregister, connect and unary_connect calls on any number of objects, and every object", "why_tests_cant": "A test checks a handful of histories; the two sides of the link are written by different statements in different branches (add, move, remove, error exits), so agreement has to be an inductive invariant of all histories.", "anchors": ["framework_python/rei/foundations/conceptual_item.py: HierarchicalElement.add_element, remove_element, parent", "framework_python/rei/hypergraph/base_elements.py: HypergraphElement.register, deregister"]}
{"id": "C02", "title": "Element count is exact", "statement": "After any history of API calls c.cnt_subelements equals the number of elements yielded by c.get_subelements(lambda _: True). The history may contain any calls, failing ones included, except the ones the code does not guard against: adding an element below one of its own descendants, moving an element out of an edge or a relation, removing from a relation, removing with a (name, uuid) pair that names two different elements, abandoning a removal by name half-way or doing it on an edge, and setting a clock to None; each exclusion is shown to be necessary.", "quantifier": "every finite history of API calls and every container", "why_tests_cant": "The count is a separately maintained integer; drift appears only after particular interleavings of adds, moves, failed adds and removals.", "anchors": ["framework_python/rei/foundations/conceptual_item.py: ConceptualItem.cnt_subelements, HierarchicalElement.add_element, remove_element"]}
{"id": "C03", "title": "Name lookup is exactly the children with that name", "statement": "After any history of API calls, for every container and every name without '/', get_element_by_id_name(name) yields precisely the sub-elements whose id_name is that name, in insertion order, without duplicates. The history may contain any calls, failing ones included, except the ones the code does not guard against: adding an element below one of its own descendants, moving an element out of an edge or a relation, removing from a relation, removing with a (name, uuid) pair that names two different elements, abandoning a removal by name half-way or doing it on an edge, and setting a clock to None; each exclusion is shown to be necessary.", "quantifier": "every finite history, every container, every slash-free name", "why_tests_cant": "The name index is a second data structure kept beside the element table; unit tests only look a few names up after a few operations.", "anchors": ["framework_python/rei/foundations/conceptual_item.py: ConceptualItem.get_element_by_id_name, HierarchicalElement.add_element, remove_element"]}
{"id": "C04", "title": "Context ids are unique and never reused", "statement": "Within one container the cid of every present element is distinct from that of its siblings and strictly below that of the next element to be added; the cid handed out by an add is never one that was handed out before by that container, even after removals. The distinctness part is for the histories of C01; 'never handed out again' is for all histories.", "quantifier": "every finite history and every container", "why_tests_cant": "Reuse only shows up after some pattern of removals followed by adds; tests try two such patterns.", "anchors": ["framework_python/rei/foundations/conceptual_item.py: HierarchicalElement.cid, add_element"]}
{"id": "C05", "title": "The hierarchy is a forest", "statement": "Following parent from any element reaches a root after finitely many steps, whatever API calls were made before, provided no call adds an element below one of its own descendants (add_element only refuses to add an element to itself; a longer cycle is accepted by the code, which is shown). The history may contain any calls, failing ones included, except the ones the code does not guard against: adding an element below one of its own descendants, moving an element out of an edge or a relation, removing from a relation, removing with a (name, uuid) pair that names two different elements, abandoning a removal by name half-way or doing it on an edge, and setting a clock to None; each exclusion is shown to be necessary.", "quantifier": "every finite history including attempts to put an element under one of its own descendants", "why_tests_cant": "Cycles can be of any length; the code only rejects length one.", "anchors": ["framework_python/rei/foundations/conceptual_item.py: HierarchicalElement.add_element, update_qualified_name, ErrorRecursiveHierarchy"]}
{"id": "C06", "title": "Adding re-qualifies the whole moved subtree", "statement": "After a successful c.add_element(x), x and every element below x, at any depth, has qualified_name equal to the '/'-joined id_names on the path from its root, and no element outside that subtree changes its qualified_name.", "quantifier": "every reachable hierarchy, every container, every element with a subtree of any shape and depth", "why_tests_cant": "The update is a queue-driven loop over an unbounded subtree; tests use depth two.", "anchors": ["framework_python/rei/foundations/conceptual_item.py: HierarchicalElement.add_element, __update_element, update, update_qualified_name"]}
{"id": "C07", "title": "qualified_name is always the path", "statement": "In every reachable state every element's qualified_name is the '/'-joined path of id_names from its root to it, provided only leaves are ever detached (detaching an element with sub-elements leaves their names stale, which is shown).", "quantifier": "every finite history and every element", "why_tests_cant": "Staleness depends on which ancestors were moved or removed after the element was created.", "anchors": ["framework_python/rei/foundations/conceptual_item.py: HierarchicalElement.update, remove_element, add_element", "framework_python/rei/foundations/abstract_items.py: IdentifiableItem.qualified_name"]}
{"id": "C08", "title": "A refused add leaves no trace", "statement": "add_element(self) raises ErrorRecursiveHierarchy and adding an element whose uuid is already present raises ErrorDuplicateElement; in both cases no observable attribute of any object changes.", "quantifier": "every state, every container, every element", "why_tests_cant": "Absence of change must be checked on every object and attribute in every state, not on two counters in one state.", "anchors": ["framework_python/rei/foundations/conceptual_item.py: HierarchicalElement.add_element", "framework_python/rei/foundations/common_errors.py: ErrorDuplicateElement, ErrorRecursiveHierarchy"]}
{"id": "C09", "title": "Adding to a second container is a move", "statement": "If x is in container p and c.add_element(x) succeeds with c different from p, then x is last among the sub-elements of c, is gone from p (which keeps its other elements in order), both counts change by one, the name lookups follow, and every other container is unchanged.", "quantifier": "every reachable state and all c, p, x", "why_tests_cant": "Frame conditions ('nothing else changes') range over all other objects.", "anchors": ["framework_python/rei/foundations/conceptual_item.py: HierarchicalElement.add_element"]}
{"id": "C10", "title": "Removal by uuid removes exactly one element", "statement": "list(c.remove_element(uuid=u)) for a present u, where c is not an edge or relation, yields exactly that element, leaves it without parent and named by its own id_name, decrements the count, keeps the other sub-elements in order and leaves all other containers unchanged; afterwards u can be added again.", "quantifier": "every reachable state, container and present uuid", "why_tests_cant": "Quantifies over all sizes and positions and over all untouched objects.", "anchors": ["framework_python/rei/foundations/conceptual_item.py: HierarchicalElement.remove_element"]}
{"id": "C11", "title": "Removal by name removes exactly the elements of that name", "statement": "list(c.remove_element(name)), where c is not an edge or relation, yields all and only the sub-elements named name, in insertion order, detaches each, leaves the others in order, and the count drops by the number yielded.", "quantifier": "every reachable state, container and known name, any number of same-named elements", "why_tests_cant": "Any number of elements can share a name; tests remove one.", "anchors": ["framework_python/rei/foundations/conceptual_item.py: HierarchicalElement.remove_element"]}
{"id": "C12", "title": "A failed removal changes nothing", "statement": "On a container that is not a relation, remove_element() raises ErrorInvalidQuery, remove_element of an unknown uuid raises KeyError, and remove_element of a name no sub-element has raises KeyError or yields nothing; none of them changes any object.", "quantifier": "every reachable state and all argument combinations", "why_tests_cant": "Error exits sit between two mutations; whether something was already changed depends on the argument combination.", "anchors": ["framework_python/rei/foundations/conceptual_item.py: HierarchicalElement.remove_element", "framework_python/rei/foundations/common_errors.py: ErrorInvalidQuery"]}
{"id": "C13", "title": "remove_element is lazy", "statement": "remove_element on a container that is not an edge or relation returns an iterator: until it is advanced nothing changes, and when it is abandoned after k results exactly the first k matching elements have been detached.", "quantifier": "every reachable state, every argument, every number k of consumed results (an abandoned or crashed consumer)", "why_tests_cant": "k ranges over all suspension points of the consumer.", "anchors": ["framework_python/rei/foundations/conceptual_item.py: HierarchicalElement.remove_element"]}
{"id": "C14", "title": "register and deregister are inverse", "statement": "For an x whose container is not an edge or relation, x.deregister() detaches x (no parent, qualified_name equal to id_name) and x.register(c) afterwards makes it the last sub-element of c with the path name; deregister of a root changes nothing.", "quantifier": "every reachable state, every element and container", "why_tests_cant": "Must hold from any reachable state.", "anchors": ["framework_python/rei/hypergraph/base_elements.py: HypergraphElement.register, deregister"]}
{"id": "C15", "title": "Path lookup is sound and complete", "statement": "get_element_by_id_name('a/b/.../z') yields exactly the elements reached by following sub-elements named a, then b, ..., then z, and nothing if there are none.", "quantifier": "every reachable hierarchy, every path of any length", "why_tests_cant": "Paths have any length and each step can branch over several same-named elements.", "anchors": ["framework_python/rei/foundations/conceptual_item.py: ConceptualItem.get_element_by_id_name"]}
{"id": "C16", "title": "depth is the number of ancestors", "statement": "x.depth equals the number of containers above x, in hierarchies assembled top-down (only elements without sub-elements are added; the depths of the elements below a moved one go stale, which is shown).", "quantifier": "every finite history and element", "why_tests_cant": "Depends on the order in which subtrees were assembled and moved.", "anchors": ["framework_python/rei/foundations/conceptual_item.py: HierarchicalElement.depth, add_element"]}
{"id": "C17", "title": "Timestamps come from the clock and never run backwards", "statement": "An update stamps the element with a reading of its clock; under a clock whose readings never decrease, the timestamp of an element never decreases over any history in which its clock is not replaced, and a constructor without a clock raises ErrorClockNotSet and attaches nothing.", "quantifier": "every history and every clock (any sequence of readings)", "why_tests_cant": "The clock is an arbitrary environment input.", "anchors": ["framework_python/rei/foundations/conceptual_item.py: ConceptualItem._update_timestamp, update, timestamp", "framework_python/rei/foundations/clock.py: MetaClock, DummyClock, LocalClock"]}
{"id": "C18", "title": "Identity is immutable", "statement": "uuid, id_name and progenitor_qualified_name of an object never change, whatever API calls are made, successful or not.", "quantifier": "every finite history including failing calls", "why_tests_cant": "Needs to hold after every possible call.", "anchors": ["framework_python/rei/foundations/abstract_items.py: IdentifiableItem"]}
{"id": "C19", "title": "unary_connect adds exactly one relation and one port", "statement": "When e.unary_connect(n, w, d) succeeds, e has exactly one more relation, last in order, with endpoint n, weight w and direction d; the set of endpoints induced by e grows by n at the end; n has one more port, leading to that relation; the new relation and port are named after edge, endpoint and clock reading, and identified by the digests of those names; no other object's relations or ports change.", "quantifier": "every reachable state, every edge, endpoint, weight and direction", "why_tests_cant": "Frame conditions over all other objects, and any prior number of relations.", "anchors": ["framework_python/rei/hypergraph/base_elements.py: HypergraphEdge.unary_connect, sub_relations, induced_subset, HypergraphElement.connect, sub_ports, HypergraphPort.endpoint"]}
{"id": "C20", "title": "A failed unary_connect leaves the graph unchanged", "statement": "If unary_connect raises, neither the edge nor the endpoint gained a sub-element.", "quantifier": "every state and every argument for which the call raises", "why_tests_cant": "The failing step can be the port, the semantic value or the relation; each leaves a different residue.", "anchors": ["framework_python/rei/hypergraph/base_elements.py: HypergraphEdge.unary_connect, HypergraphElement.connect"]}
{"id": "C21", "title": "Incoming and outgoing relations classify all relations", "statement": "Every relation of an edge is incoming or outgoing; it is both exactly when it is bidirectional; both enumerations keep insertion order.", "quantifier": "every edge with any number of relations of any directions", "why_tests_cant": "Any mix of any number of relations.", "anchors": ["framework_python/rei/hypergraph/base_elements.py: HypergraphEdge.get_incoming_relations, get_outgoing_relations", "framework_python/rei/hypergraph/common_definitions.py: EnumRelationDirection"]}
{"id": "C22", "title": "disconnect undoes connect", "statement": "After n.connect(r) and n.disconnect(r) the element n has the ports it had before.", "quantifier": "every reachable state, every n and r", "why_tests_cant": "Requires comparing full before and after states for all of them.", "anchors": ["framework_python/rei/hypergraph/base_elements.py: HypergraphElement.connect, disconnect"]}
{"id": "C23", "title": "Relations can be removed from an edge", "statement": "list(e.remove_element(uuid=r.uuid)) for a relation r of the edge e yields r and detaches it.", "quantifier": "every edge and every relation of it", "why_tests_cant": "Universally quantified over graphs.", "anchors": ["framework_python/rei/hypergraph/base_elements.py: HypergraphEdge.remove_element, HypergraphRelation.remove_element"]}
{"id": "C24", "title": "Incidence value is determined by direction", "statement": "relation_incidence_value is (1,1), (1,0) or (0,1) for a bidirectional, inward or outward relation, throughout its life; callers that modify the returned array do not affect the relation.", "quantifier": "every relation in every reachable state", "why_tests_cant": "Lifetime property over all histories.", "anchors": ["framework_python/rei/hypergraph/base_elements.py: HypergraphRelation.relation_incidence_value, direction"]}
{"id": "C25", "title": "Value nodes behave as a list cell", "statement": "get_value(i) after update_value(i, v) is v and other positions are unchanged; the list passed to the constructor and the list returned by get_values are snapshots; update_values replaces the whole list; out-of-range indices raise IndexError and change nothing. Python negative indices count from the end.", "quantifier": "every list of values, every index, every interleaving of operations including caller-side mutation of lists it holds", "why_tests_cant": "Aliasing shows only if the caller later mutates the list it passed.", "anchors": ["framework_python/rei/hypergraph/value_node.py: ValueNode.get_value, update_value, update_values, __getitem__, __setitem__, get_values"]}
{"id": "C26", "title": "Iterating a value node yields its values", "statement": "list(iter(v)) equals v.get_values() in every reachable state of a value node.", "quantifier": "every history of updates of a value node", "why_tests_cant": "Depends on history: the iteration bound is fixed at construction.", "anchors": ["framework_python/rei/hypergraph/value_node.py: ValueNode.__iter__, dim, update_values"]}
{"id": "C27", "title": "Semantic attributes behave as a map", "statement": "sv[k] after add_named_attribute(k, a) is a; remove_named_attribute(k) makes sv[k] None and is harmless when absent; other keys are unaffected; the dictionary given to the constructor is copied.", "quantifier": "every history of attribute operations and every key", "why_tests_cant": "Map laws for all keys and histories.", "anchors": ["framework_python/rei/hypergraph/value_node.py: SemanticValueNode.add_named_attribute, remove_named_attribute, __getitem__"]}
{"id": "C28", "title": "Breadth-first traversal visits each matching element once, level by level", "statement": "Started on an idle traversal queue in a hierarchy small enough for the interpreter's call stack (see C54), BreadthFirstHierarchicalTraversal calls the visitor on the start element (if it matches and the root is not ignored) and then on every element reachable from it through matching sub-elements, exactly once, ordered by level and within a level by insertion order, up to the first exception the visitor raises.", "quantifier": "every hierarchy of any size and shape, every filter", "why_tests_cant": "Order and exactly-once for all trees.", "anchors": ["framework_python/rei/foundations/hierarchical_traversal_strategies.py: BreadthFirstHierarchicalTraversal, HierarchicalTraversal._traverse, _fill_visit_fringe, _setup_visit_algorithm"]}
{"id": "C29", "title": "Depth-first traversal visits each matching element once, parents before children", "statement": "In a hierarchy small enough for the interpreter's call stack (see C54), DepthFirstHierarchicalTraversal calls the visitor exactly once on the same set of elements, each element after its container, in pre-order with later siblings first, up to the first exception the visitor raises.", "quantifier": "every hierarchy, every filter", "why_tests_cant": "Order and exactly-once for all trees.", "anchors": ["framework_python/rei/foundations/hierarchical_traversal_strategies.py: DepthFirstHierarchicalTraversal"]}
{"id": "C30", "title": "Depth-limited traversals stop exactly at the limit", "statement": "With max_depth = k (and enough call stack, see C54) the visitor is called on exactly the matching-reachable elements at most k levels below the start, in any state of the graph.", "quantifier": "every hierarchy, every filter, every k", "why_tests_cant": "Off-by-one at every level and k.", "anchors": ["framework_python/rei/foundations/hierarchical_traversal_strategies.py: DepthLimitedBreadthVisitChildren, DepthLimitedDepthVisitChildren"]}
{"id": "C31", "title": "A traversal depends only on its start element", "statement": "The elements visited by a traversal depend only on the hierarchy below the start element, the filter and the limit, not on traversals that ran earlier, even if those were aborted by an exception in their visitor.", "quantifier": "every sequence of traversals, every point at which a visitor raises (crash point)", "why_tests_cant": "Needs an earlier traversal to crash at an arbitrary point.", "anchors": ["framework_python/rei/foundations/hierarchical_traversal_strategies.py: HierarchicalTraversal._setup_visit_algorithm (default fringe), _traverse"]}
{"id": "C32", "title": "Index homomorphism is a bijection", "statement": "After IndexHomomorphismGraphTensor.execute(start) on an idle queue, if the indexed elements have distinct uuids, node and dim are mutually inverse between the indexed nodes and 0..cnt_node-1, and likewise edge/depth and val/ival; the indexed elements are exactly the start (unless ignored) and the elements of that kind within the depth limit.", "quantifier": "every hierarchy, any number of nodes, edges and values", "why_tests_cant": "Bijectivity for all sizes; depends on uuid distinctness across levels.", "anchors": ["framework_python/rei/hypergraph/homomorphism_functions.py: IndexHomomorphismGraphTensor.execute, node, dim, edge, depth, val, ival, cnt_node, cnt_edges"]}
{"id": "C33", "title": "Index order is insertion order and re-execution is idempotent", "statement": "With ignore_root and depth 1, the i-th index belongs to the i-th sub-node (sub-edge, sub-value) of the start element; executing again, or after executing on another element, gives the same maps as a fresh run.", "quantifier": "every hierarchy and every sequence of executions", "why_tests_cant": "History independence over all execution sequences.", "anchors": ["framework_python/rei/hypergraph/homomorphism_functions.py: IndexHomomorphismGraphTensor.execute, reset_homology"]}
{"id": "C34", "title": "Weight tensor of an undirected hypergraph", "statement": "For a node whose sub-edges' relations all are bidirectional and unweighted, conversion succeeds and W[e,i,j] = 1 when the i-th and j-th sub-node are distinct endpoints of the e-th sub-edge and 0 otherwise; W[e] is symmetric with zero diagonal. (The context is closed: every relation of its sub-edges leads to one of its sub-nodes; idle queues and enough call stack assumed.)", "quantifier": "every such hypergraph, any number of nodes, edges and endpoints", "why_tests_cant": "All sizes; the tensor is produced by an accumulation of writes.", "anchors": ["framework_python/rei/tensor/tensor_representation.py: NumpyHypergraphTensorTransformer.execute, NumpyTensorRepresentation.fill_tensors, W", "framework_python/rei/foundations/hypergraph_traversal_strategies.py: HypergraphTraversal"]}
{"id": "C35", "title": "Weight tensor of a directed hypergraph", "statement": "For an unweighted hypergraph W[e,i,j] = 1 exactly when i is an incoming and j an outgoing endpoint of e, i different from j.", "quantifier": "every hypergraph with any mix of directions", "why_tests_cant": "All mixes of directions and edge sizes; tests only use edges with two endpoints.", "anchors": ["framework_python/rei/foundations/hypergraph_traversal_strategies.py: HypergraphTraversal.__fill_relations", "framework_python/rei/tensor/tensor_representation.py: NumpyTensorRepresentation.fill_tensors"]}
{"id": "C36", "title": "Incidence matrices", "statement": "In an unweighted context Io[e,i] (Ii[e,i]) is 1 exactly when the edge can be left (entered) at node i, i.e. W[e,i,j] (W[e,j,i]) is 1 for some j, and 0 otherwise; for undirected contexts whose edges have at least two endpoints (or none) Io = Ii is the incidence matrix. (The context is closed: every relation of its sub-edges leads to one of its sub-nodes; idle queues and enough call stack assumed.)", "quantifier": "every hypergraph", "why_tests_cant": "All sizes and direction mixes.", "anchors": ["framework_python/rei/tensor/tensor_representation.py: NumpyTensorRepresentation.fill_tensors, Io, Ii"]}
{"id": "C37", "title": "Degrees count incident edges", "statement": "For an undirected unweighted context whose edges have at least two endpoints (or none), deg[i] is the number of edges containing node i and total_deg is the sum of the edge sizes; for an oriented one deg[i] is the number of edges that can be left or entered at i. (The context is closed: every relation of its sub-edges leads to one of its sub-nodes; idle queues and enough call stack assumed.)", "quantifier": "every undirected hypergraph", "why_tests_cant": "Double counting for all sizes.", "anchors": ["framework_python/rei/tensor/tensor_representation.py: NumpyTensorRepresentation.degree_matrix, calc_total_deg"]}
{"id": "C38", "title": "Laplacians agree", "statement": "For an undirected hypergraph the edge-wise Laplacian summed over edges is the projected Laplacian, and the trace of the projected Laplacian is total_deg.", "quantifier": "every undirected hypergraph", "why_tests_cant": "Tests check one 3-uniform example (the Fano plane).", "anchors": ["framework_python/rei/tensor/tensor_representation.py: NumpyTensorRepresentation.calc_laplacian, calc_projected_laplacian, diag_degree_tensor, diag_degree_matrix"]}
{"id": "C39", "title": "Generated ids are reproducible and distinct", "statement": "The uuid produced by a factory is a digest of exactly factory name, element name (for a node: the parent's current qualified name, '/' and its name) and clock reading; factories whose names contain no '/' give distinct uuids to distinct such triples (a factory name with '/' can collide, which is shown). The digest is taken to be injective.", "quantifier": "every factory name, element name, parent path and clock reading, for an injective digest", "why_tests_cant": "Distinctness over all strings; concatenation can be ambiguous.", "anchors": ["framework_python/rei/factories/abstract_factory.py: AbstractElementFactory", "framework_python/rei/factories/foundation_factory.py: HypergraphFactory.generate_node", "framework_python/rei/foundations/identification/identity_generator.py: Sha3UniqueIdentifierGenerator.generate_uid"]}
{"id": "C40", "title": "connect_nodes builds exactly the requested edge", "statement": "When connect_nodes(c, name, nodes, d, values) returns, the result is a new edge inside c, with that name, whose relations, in order, have the given nodes as endpoints, direction d and the given weights, and no other edge's relations change; it does return if the nodes are distinct in name, are not c, have no port with the uuid to be given, and c has no sub-element with the edge's uuid. Likewise connect_tuple_nodes with individual directions, weights and semantic value nodes.", "quantifier": "every container and every list of nodes with distinct names", "why_tests_cant": "Lists of any length.", "anchors": ["framework_python/rei/factories/foundation_factory.py: HypergraphFactory.connect_nodes, connect_tuple_nodes"]}
{"id": "C41", "title": "Two-sided edges get two directions", "statement": "connect_2factor_edges / connect_dir_edges give the in-nodes the first direction and the out-nodes the second.", "quantifier": "every pair of node lists and directions", "why_tests_cant": "Universally quantified; no test asserts directions.", "anchors": ["framework_python/rei/factories/foundation_factory.py: HypergraphFactory.connect_2factor_edges, connect_dir_edges"]}
{"id": "C42", "title": "A rejected value list creates no edge", "statement": "If the number of values differs from the number of nodes, ErrorInsufficientValues is raised and the container is unchanged.", "quantifier": "every container, node list and value list of different length", "why_tests_cant": "Needs the full state comparison in every case.", "anchors": ["framework_python/rei/factories/foundation_factory.py: HypergraphFactory.connect_nodes, connect_2factor_edges", "framework_python/rei/factories/abstract_factory.py: ErrorInsufficientValues"]}
{"id": "C43", "title": "Subset factorization is exact", "statement": "Factorization2SubsetOperation.execute(selection) lists exactly the pairs (incoming, outgoing) of relations of a selected edge whose endpoints are both selected nodes, excluding pairs whose endpoints have the same uuid unless self_loop is set; every pair once if the selection has no repetitions.", "quantifier": "every selection of nodes and edges of every graph", "why_tests_cant": "Set equality for all selections.", "anchors": ["framework_python/rei/hypergraph/factorization_operations.py: Factorization2SubsetOperation.execute"]}
{"id": "C44", "title": "Relation factorization is exact", "statement": "RelationFactorization2SubsetOperation.execute(selection) lists exactly the pairs of an incoming and an outgoing selected relation of the same edge with different endpoints (or any with self_loop).", "quantifier": "every selection of relations", "why_tests_cant": "Set equality and absence of errors for all selections.", "anchors": ["framework_python/rei/hypergraph/factorization_operations.py: RelationFactorization2SubsetOperation.execute"]}
{"id": "C45", "title": "Two-factorization terminates", "statement": "Factorization2Operation.execute terminates on every finite graph and lists, for each edge it reaches, each incoming relation with all outgoing relations.", "quantifier": "every finite graph, including graphs with cycles through their endpoints", "why_tests_cant": "Termination over all graphs.", "anchors": ["framework_python/rei/hypergraph/factorization_operations.py: Factorization2Operation.__traverse"]}
{"id": "C46", "title": "Descendant search finds the element", "statement": "QuerySearchSubElement.execute(start) on a query object that has not cached the queried name, with an idle queue and enough call stack (more than the number of elements at or below start), returns the first element, in breadth-first order, at or below start whose qualified_name is the query, and nothing exactly when there is none.", "quantifier": "every hierarchy, start and query string", "why_tests_cant": "Soundness and completeness over all trees.", "anchors": ["framework_python/rei/foundations/query/search_elements.py: QuerySearchSubElement._traverse, GraphQuery.execute"]}
{"id": "C47", "title": "Search results depend only on the current graph", "statement": "The result of a search depends only on the query string, the start element and the current graph: earlier searches (by any query object) and earlier states of the graph do not influence it.", "quantifier": "every sequence of searches and graph changes", "why_tests_cant": "History independence.", "anchors": ["framework_python/rei/foundations/query/search_elements.py: GraphQuery.execute, _setup_query, _element_cache"]}
{"id": "C48", "title": "Whole-graph search terminates and is complete", "statement": "Given enough call stack QuerySearchElement.execute(start) terminates from any element, whatever earlier searches left on the queue; on an idle queue and for a name not cached by the query object, in a tree whose elements have distinct uuids, it finds an element of the tree with the queried qualified_name whenever one exists (with duplicate uuids it can miss it, which is shown).", "quantifier": "every finite hierarchy, start element and query", "why_tests_cant": "It walks up and down with re-queued parents; termination is not structural.", "anchors": ["framework_python/rei/foundations/query/search_elements.py: QuerySearchElement._traverse"]}
{"id": "C49", "title": "Encoded graph round-trips", "statement": "For a root context whose sub-nodes and edges do not share its uuid and whose relations end in the context, its nodes or its edges, after update_context (idle queue, enough call stack) the first full_msg() returns a message and create_graph of it, in any program state and with any clock, returns the root of a copy of the context: the same sub-nodes, edges, relations, endpoints, directions, weights and values, in the same order with the same uuids and names, and the same index homomorphism; nothing that existed before changes.", "quantifier": "every root context with any number of nodes, edges, relations and values", "why_tests_cant": "Round trip over all graphs; tests use one graph and do not look at directions.", "anchors": ["framework_python/rei/hypergraph/encoding/graph_tensor_icon_cbor.py: GraphTensorCbor.full_msg, create_graph", "framework_python/rei/hypergraph/encoding/graph_tensor_icon.py: CoordinateObjectTransformer"]}
{"id": "C50", "title": "Encoding is repeatable", "statement": "full_msg() can be called any number of times on an unchanged graph; every message it returns decodes to a copy of the context.", "quantifier": "every number of calls", "why_tests_cant": "History dependence: state accumulates in the transformer.", "anchors": ["framework_python/rei/hypergraph/encoding/graph_tensor_icon.py: CoordinateObjectTransformer.msg_relation_index_list, fill_tensors", "framework_python/rei/hypergraph/encoding/graph_tensor_icon_cbor.py: GraphTensorCbor.full_msg"]}
{"id": "C51", "title": "Value updates reach the decoded graph", "statement": "After update_context, full_msg and create_graph, and as long as no value node is added to the context and the decoded graph is not modified, applying msg_value_update to the decoded graph makes every decoded value node equal to the current values in the source graph and changes nothing else.", "quantifier": "every graph and every assignment of values", "why_tests_cant": "All sizes and values.", "anchors": ["framework_python/rei/hypergraph/encoding/graph_tensor_icon_cbor.py: GraphTensorCbor.msg_value_update, from_msg_update_values", "framework_python/rei/hypergraph/encoding/graph_tensor_icon.py: CoordinateObjectTransformer.msg_value_node_update"]}
{"id": "C52", "title": "Query engine returns the matching elements under every schedule", "statement": "HypergraphQueryEngine.execute returns, for every order in which the event loop runs the result tasks, exactly the elements visited by each query's traversal that satisfy its predicate, once per query, grouped by query.", "quantifier": "every schedule of the result tasks, every set of queries", "why_tests_cant": "The tasks are started from an unordered set; the order is up to the event loop.", "anchors": ["framework_python/rei/query/query_engine.py: HypergraphQueryEngine.execute, HierarchicalPrepositionQuery"]}
{"id": "C53", "title": "A mismatching (name, uuid) removal is rejected without effect", "statement": "remove_element(name, uuid) where no sub-element has both that name and that uuid raises KeyError and changes no object.", "quantifier": "every reachable state, container, name and uuid", "why_tests_cant": "The error exit sits between two mutations; whether something was already changed depends on the argument combination and on the history of the name index.", "anchors": ["framework_python/rei/foundations/conceptual_item.py: HierarchicalElement.remove_element"]}
{"id": "C54", "title": "Traversals complete on hierarchies of any size", "statement": "A traversal whose visitor does not raise returns normally after visiting every matching element, whatever the number of elements.", "quantifier": "every hierarchy size, start element, filter and depth limit", "why_tests_cant": "Tests use hierarchies of a few elements; the traversal nests one call per visited element, so its failure depends on a size no test reaches.", "anchors": ["framework_python/rei/foundations/hierarchical_traversal_strategies.py: BreadthFirstHierarchicalTraversal, DepthFirstHierarchicalTraversal, DepthLimitedBreadthVisitChildren"]}
{"id": "C55", "title": "Resetting an index homomorphism from pairs is exact", "statement": "After reset_from_bijection(nodes, edges, values) with pairs of distinct uuids and distinct indices, node/dim, edge/depth and val/ival return exactly the given pairs (KeyError elsewhere) and the counts are the numbers of pairs; resetting from the enumerated pairs of an executed homomorphism restores it.", "quantifier": "every prior state and all lists of pairs", "why_tests_cant": "It must hold for every prior content of the maps and every numbering received from a sender.", "anchors": ["framework_python/rei/hypergraph/homomorphism_functions.py: IndexHomomorphismGraphTensor.reset_from_bijection"]}
{"id": "C56", "title": "Weights of parallel relations", "statement": "For a closed context whose weights are value nodes, W[e,i,j] is the weight (sum of the values, 1 without a weight node) of the last relation of e, in insertion order, that leads from i to j, and 0 if there is none; Io and Ii likewise; the arrays have one row per sub-edge and one column per sub-node. (Idle queues and enough call stack assumed.)", "quantifier": "every reachable context, weights and directions", "why_tests_cant": "The arrays are overwritten, not accumulated; which write survives depends on the order of all relations.", "anchors": ["framework_python/rei/tensor/tensor_representation.py: NumpyHypergraphTensorTransformer, NumpyTensorRepresentation.fill_tensors", "framework_python/rei/foundations/hypergraph_traversal_strategies.py: HypergraphTraversal"]}
{"id": "C57", "title": "Conversions do not influence each other", "statement": "The result of converting a hypergraph does not depend on which conversions were run before in the same process.", "quantifier": "every sequence of conversions, failing ones included", "why_tests_cant": "The queue is shared through a default argument; only a history with a failing conversion shows it.", "anchors": ["framework_python/rei/foundations/hypergraph_traversal_strategies.py: HypergraphTraversal._setup", "framework_python/rei/tensor/tensor_representation.py: NumpyHypergraphTensorTransformer.execute"]}
{"id": "C58", "title": "Hypergraph traversals terminate", "statement": "HypergraphTraversal.execute ends after finitely many steps on every hypergraph, for every max_depth.", "quantifier": "every hypergraph and depth, the default depth (infinite) included", "why_tests_cant": "Non-termination needs a cyclic hypergraph with the unlimited depth and cannot be observed by a terminating test.", "anchors": ["framework_python/rei/foundations/hypergraph_traversal_strategies.py: HypergraphTraversal"]}
{"id": "C59", "title": "Refreshed arrays describe the current graph", "statement": "After synchronize_structure_dimensions and fill_weights on an existing representation the arrays contain only entries of the current graph.", "quantifier": "every earlier content and every change of the graph", "why_tests_cant": "Stale entries appear only when the graph changed while keeping its size.", "anchors": ["framework_python/rei/tensor/tensor_representation.py: NumpyTensorRepresentation.synchronize_structure_dimensions, fill_weights"]}
{"id": "C60", "title": "Elements made by one factory have distinct uuids", "statement": "Any two elements (nodes, edges, values) made by one factory have different uuids, whatever their names and containers.", "quantifier": "every pair of elements made at any two moments of a program, every clock", "why_tests_cant": "Depends on the clock: the dummy clock used in tests and a wall clock behave differently, and collisions only appear for equal names at equal readings.", "anchors": ["framework_python/rei/factories/foundation_factory.py: HypergraphFactory", "framework_python/rei/factories/abstract_factory.py: AbstractElementFactory"]}
{"id": "C61", "title": "generate_list_nodes makes the nodes in order", "statement": "When generate_list_nodes(names, parent) returns, it returns one new node per name, in order, with that name and container; they come last in the container in that order and nothing else changes its container.", "quantifier": "every list of names, duplicates included, every container", "why_tests_cant": "Holds for every list and every prior content of the container.", "anchors": ["framework_python/rei/factories/foundation_factory.py: HypergraphFactory.generate_list_nodes, generate_node"]}
{"id": "C62", "title": "Decoding a message never damages existing objects", "statement": "Whatever message create_graph of an icon with a clock is given, and whether it returns or raises, every object that existed before is unchanged and the program state still satisfies all invariants of states reached by ordinary calls; when it raises, the icon still remembers the previously decoded graph.", "quantifier": "every message (also malformed ones), every program state", "why_tests_cant": "Malformed messages are unbounded in number; partial construction before the exception is invisible to tests of the success path.", "anchors": ["framework_python/rei/hypergraph/encoding/graph_tensor_icon_cbor.py: GraphTensorCbor.create_graph"]}
{"id": "C63", "title": "A semantic element has the requested class, place and attributes", "statement": "generate_semantic_element(type, name, parent, attr, values) with a non-empty attr, a known type (up to blanks around it, letter case and underscores) and a fresh uuid returns a new element of exactly the class named by the type; it is last in parent, has the given name, reads back exactly the given attributes (plus 'values' when given) and has no sub-elements; nothing else changes. Without attributes, with an unknown type, or with a uuid the parent already holds, it raises and every existing element is unchanged.", "quantifier": "every program state, factory with a clock, parent that is not a relation, spelling of the type, name, attributes and values", "why_tests_cant": "All spellings and all states; the error exits leave partially built objects that a test of the success path does not see.", "anchors": ["framework_python/rei/format/semantics/cognitive_entity_semantic_factory.py: CognitiveEntitySemanticFactory.generate_semantic_element", "framework_python/rei/format/semantics/CognitiveEntity.py: CognitiveEntity and subclasses"]}
{"id": "C64", "title": "Exported geometries are the modelled solids", "statement": "In the SDF export, a cylinder with values [r, l], an ellipsoid with one or three values and a polyhedron with one or three values become geometry elements that a simulator reads back as exactly that solid (a polyhedron with one value is a cube).", "quantifier": "every program state, geometry element and dimensions", "why_tests_cant": "Holds for all dimensions; tests compare a few exported files by eye.", "anchors": ["framework_python/rei/format/phys/solid_geometry_context.py: encode_typegeometry_element"]}
{"id": "C65", "title": "Exported inertias are those of the solids", "statement": "For a link with one inertia element of mass m whose geometry is a homogeneous solid, the exported <inertial> element has mass m, the principal moments of inertia of that solid about its centre and zero products of inertia.", "quantifier": "every link, mass, kind of solid and dimensions", "why_tests_cant": "A formula with exchanged arguments agrees with the right one on particular dimensions, so examples do not settle it.", "anchors": ["framework_python/rei/format/phys/inertia_context.py: encode_inertia_element, calc_cylinder_inertia, calc_ellipsoid_inertia"]}
{"id": "C66", "title": "Visuals and collisions of a link are exported completely", "statement": "Every node inside a node of the link that has a material becomes one <visual> with its (prefixed) name, its solids (own or reached through reference edges) and its material; every node inside a node without material becomes one <collision> with its name and solids; each exactly once, in order.", "quantifier": "every link with any number of visual and collision nodes and references", "why_tests_cant": "The materials are kept in one local dictionary over a loop; losing entries needs particular combinations of nodes.", "anchors": ["framework_python/rei/format/phys/solid_geometry_context.py: encode_geometry_element, encode_visual_elements, encode_collision_elements, extract_geometry_element"]}
{"id": "C67", "title": "The kinematic graph of an element is the nearest one around it", "statement": "Looking up the kinematic graph of any element always ends: it yields the first kinematic graph definition of the nearest element at or above it that has one, and nothing exactly when no element at or above it has one.", "quantifier": "every program state and element", "why_tests_cant": "Termination and nearestness range over arbitrarily deep hierarchies.", "anchors": ["framework_python/rei/format/phys/kinematics/kinematic_semantic_context.py: get_parent_kinematic_graph"]}
{"id": "C68", "title": "Exported joints have the right type, axis and links", "statement": "For an incoming and an outgoing relation of an edge with a joint on the outgoing one (readable axis and transformations), one joint element is exported; it has the prefixed name, the SDF type and the axis of that joint (z by default), one pose per transformation relative to the parent, and its parent and child are exactly the names under which the links of the two end nodes are exported, provided the links are named like their nodes.", "quantifier": "every pair of relations, joint and prefix", "why_tests_cant": "Agreement of names between two separately generated elements must hold for every model.", "anchors": ["framework_python/rei/format/phys/kinematics/kinematic_semantic_context.py: joint_base_element, joint_base_element_endpoint, encode_link_element"]}
{"id": "C69", "title": "Exported elements are grouped into the right models", "statement": "Whatever the order in which models are opened and elements arrive at the SDF icon, there is one model per opened model, in order; every element is, once and in order of arrival, in the model opened last before it, or in the first model if it arrived before all models.", "quantifier": "every sequence of models and elements", "why_tests_cant": "All interleavings of two kinds of calls on a stateful icon.", "anchors": ["framework_python/rei/format/mapping/cognilang_sdf_icon.py: CognilangSdfIcon.__add_model_element, encode_element"]}
{"id": "C70", "title": "Links are posed in the frame of the joint that drives them", "statement": "For a node whose connections are all joints, inside a kinematic graph that lies inside another element: the pose of its exported link is relative to the joint on the first connection that leads outwards from something other than 'world', under exactly the name that joint is exported with; if no connection drives the node, it is relative to the joint connecting the graph instance when the graph is nested in another graph and the node has an incoming connection, and absolute otherwise. Every exported pose consists of the first three numbers of the translation and of the rotation of the link's first transformation, converted to radians if it is declared in degrees, or of zeros if it has none.", "quantifier": "every program state, link and prefix", "why_tests_cant": "The frame depends on all connections of the node and on the hierarchy above it.", "anchors": ["framework_python/rei/format/phys/kinematics/kinematic_semantic_context.py: __obtain_relative_frame_name, encode_link_element"]}
{"id": "C71", "title": "Base links of a graph are found whatever the schedule", "statement": "For every graph whose joints are on relations of edges, the links found by which a nested instance can be connected are exactly the links inside the graph that no joint inside the graph drives, each once, for every order in which the tasks of the query engine run; the connecting link is one of them, and the export raises exactly when there is none.", "quantifier": "every program state, graph and schedule of the concurrent queries", "why_tests_cant": "Concurrent queries: the order of tasks is up to the event loop.", "anchors": ["framework_python/rei/format/mapping/cognilang_sdf_icon.py: CognilangSdfIcon.get_canonical_link, encode"]}
{"id": "C72", "title": "A flat export contains exactly the links and joints", "statement": "Encoding a selection none of whose joints leads to a nested graph opens one model per cognitive entity and adds one element (with inertia) per selected link, in order, followed by one joint element for each pair of an incoming and an outgoing relation with joints of one edge with different ends; nothing else. (Each link and joint must be exportable by itself; relations with joints have containers and endpoints, edges have distinct uuids, each edge with a selected incoming joint has an outgoing one.)", "quantifier": "every program state, selection and prefix", "why_tests_cant": "Completeness over all selections.", "anchors": ["framework_python/rei/format/mapping/cognilang_sdf_icon.py: CognilangSdfIcon.encode", "framework_python/rei/hypergraph/factorization_operations.py: RelationFactorization2SubsetOperation"]}
{"id": "C73", "title": "Conversion of a file does not depend on the schedule", "statement": "For a file with one cognitive entity and no nested graphs, the converted document is, for every schedule of the three concurrent queries, one model named after the entity with exactly one element per selected link (depth of the node at most 2) and one per pair of joint relations (depth at most 1), in some order.", "quantifier": "every such file and every schedule", "why_tests_cant": "Concurrent tasks append to shared lists; all schedules must give the same document.", "anchors": ["framework_python/apps/simulation/convert_cognilang_sdf.py: main", "framework_python/rei/format/mapping/cognilang_sdf_icon.py: CognilangSdfIcon.encode"]}
{"id": "C74", "title": "Nested instances are connected by matching names", "statement": "When a joint leads to a nested kinematic graph, at any depth of nesting, the child named in the connecting joint is the name under which the base link of the instance is exported, and the frame in which that link is posed is the name of the connecting joint.", "quantifier": "every nested graph, edge and depth of nesting", "why_tests_cant": "Names are built by separate code paths with a prefix that grows with the depth.", "anchors": ["framework_python/rei/format/mapping/cognilang_sdf_icon.py: CognilangSdfIcon.encode, encode_sub_graph", "framework_python/rei/format/phys/kinematics/kinematic_semantic_context.py: joint_base_element_endpoint, encode_link_element"]}
{"id": "C75", "title": "An export always ends", "statement": "Exporting a sound selection ends with a document (given enough stack for the depth of nesting), for every arrangement of joints and graphs.", "quantifier": "every program state and selection", "why_tests_cant": "Termination over all finite connection structures, including joints that lead back.", "anchors": ["framework_python/rei/format/mapping/cognilang_sdf_icon.py: CognilangSdfIcon.encode"]}
{"id": "C76", "title": "An accepted CogniLang file is shown exactly", "statement": "When a fresh reader accepts a parsed file, its root entity is a root node with the name of the file's entity whose parts are exactly, in the order of the file and with nothing between them: its semantic element; for each kinematic or ambient graph a node with (for kinematic graphs a semantic element and) its body; for each sensor or actuator a node; for each link a node with a link element carrying the name and, if a pose is given, a transformation element with the meant numbers and rotation type, an inertia element with the mass, and a node per visual or collision with its geometry (numbers and class as written, or an edge to the referred node unless the same name was referred to before) and material; for each joint an edge with one relation per written relation, in order, with the direction of the arrow, to the first part of the container with the written name (or the world node), holding a joint element with type, axis and pose; the weight of the relation is what its pose stands for, and there is none without a pose. All qualified names are the paths in the file. (Plain nodes and edges, templates, sensor ports, inertia matrices and parameters below the entity level are not shown: the reader ignores them.)", "quantifier": "every parsed file, reader name, clock, digest and prior program state", "why_tests_cant": "Ranges over all files: any nesting, names, references and numbers.", "anchors": ["framework_python/rei/format/mapping/cognilang_file_icon.py: CognilangParserFileIcon (all visit methods)"]}
{"id": "C77", "title": "Reading a file never damages existing objects", "statement": "Whether a file is accepted or refused, at whatever declaration, everything that existed before is unchanged, and all structural guarantees of the hierarchy hold afterwards.", "quantifier": "every parsed file, accepted or not, and every prior program state", "why_tests_cant": "The reader can fail at any declaration, after any number of objects were made.", "anchors": ["framework_python/rei/format/mapping/cognilang_file_icon.py: CognilangParserFileIcon (all visit methods)"]}
{"id": "C78", "title": "Parameters hold the declared numbers", "statement": "After an accepted file the parameter node holds exactly the parameters declared in the body of the entity, in order, each with the declared number.", "quantifier": "every parsed file and prior program state", "why_tests_cant": "Ranges over all files.", "anchors": ["framework_python/rei/format/mapping/cognilang_file_icon.py: visitParameter, __init__"]}
{"id": "C79", "title": "Undeclared parameters are refused", "statement": "A file that uses a parameter in a pose, an axis or the numbers of a solid without declaring it before in the body of the entity is refused.", "quantifier": "every parsed file and prior program state", "why_tests_cant": "Ranges over all files and all places where a parameter can be used.", "anchors": ["framework_python/rei/format/mapping/cognilang_file_icon.py: __extract_float_vector_values, visitParameter"]}
{"id": "C80", "title": "Unreadable files are refused", "statement": "A file that contains a mesh, a solid whose values are given by a reference, a joint relation with an unknown arrow, or a joint relation to a plain name (not the world) that nothing in its container is called, is refused.", "quantifier": "every parsed file, clock and prior program state", "why_tests_cant": "Ranges over all files and all places in them.", "anchors": ["framework_python/rei/format/mapping/cognilang_file_icon.py: __collect_geometries, __lookup_reference, __extract_joint_relation"]}
{"id": "C81", "title": "Well-formed files are accepted", "statement": "From any program state, with a wall clock that never shows the same time twice and a hash without collisions, every well-formed file is accepted and shown as C76 says. Well-formed: every parameter is declared before its use in the body of the entity; solids are cylinders, polyhedra or ellipsoids with vectors; the first reference to a qualified name finds a node of that name read before (not called like the geometry that refers to it); joint relations have arrows and different endpoints, each the world or a plain name whose first bearer in the container so far is a node.", "quantifier": "every well-formed parsed file and prior program state", "why_tests_cant": "No test shows that no well-formed file is refused for some combination of names, nesting and prior objects.", "anchors": ["framework_python/rei/format/mapping/cognilang_file_icon.py: CognilangParserFileIcon (all visit methods)"]}
{"id": "C82", "title": "Declarations that are ignored change nothing", "statement": "Reading a file has exactly the same effect and outcome as reading it without its plain nodes and edges, templates, ports and ambience edges, without inertia matrices, and without parameters declared below the entity.", "quantifier": "every parsed file, clock and prior program state", "why_tests_cant": "An equality over all files and states.", "anchors": ["framework_python/rei/format/mapping/cognilang_file_icon.py: visitParameter, visitInertia_body (and the visit methods it does not override)"]}
{"id": "C83", "title": "Entropy is defined and never negative", "statement": "The entropy of a converted context is defined and never negative, and is the sum over edges and their nodes of -s*log2(s), where s is the share of the node in the edge by the normalised Laplacian; it is at most 1/(e ln 2) = 0.5307 for every pair of an edge and a node.", "quantifier": "every context reachable by any history of edits, with any number of nodes and edges", "why_tests_cant": "A sum of logarithms over all graphs; tests pick a few graphs, all with several small edges.", "anchors": ["framework_python/rei/tensor/tensor_representation.py: normalized_laplacian, entropy_vector, entropy"]}
{"id": "C84", "title": "Links are exported completely", "statement": "For a link whose node is connected by joints only, has at most one part with materials, and whose solids, materials and transformations are readable, the export is one link element with the prefixed name, one pose (translation, then rotation in radians, of the first transformation of the link; zero if there is none) in the frame of C70, one visual per node of the part with materials and one collision per node of the other parts, each with its solids, an inertial element with the mass exactly when the node has an inertia element (with the right moments for spheres), and nothing else.", "quantifier": "every reachable state and every such link in it", "why_tests_cant": "A statement over all arrangements of parts, references, joints and transformations.", "anchors": ["framework_python/rei/format/phys/kinematics/kinematic_semantic_context.py: encode_link_element", "framework_python/rei/format/phys/kinematics/kinematic_semantic_context.py: extract_rigid_transformation_element"]}
{"id": "C85", "title": "From a CogniLang file to its SDF model", "statement": "Take a file whose entity has, besides parameters, one kinematic graph of links and joints: names without slashes, links with names of their own (none called world, like the graph, a joint or a reference edge), no two geometries that refer to the same node, every geometry a solid or a reference to one, at most one visual in a link, each link with a body one solid, poses and axes of three numbers, joints between links of the graph and the world, with something leading out where something leads in. When the reader accepts it, in any program state, the conversion of its root by the robotics exporter succeeds, for every schedule, and the document is one model, named after the entity, with exactly: one link element for each declared link, with its name, the frame and pose of the declaration, its visuals and collisions with their solids and materials, and an inertial element with the declared mass; and one joint element for each pair of a relation into and a relation out of a declared joint, with the joint's name, type, axis, parent, child and pose. Well-formed files (C81) are accepted, so their conversion succeeds.", "quantifier": "every such file, every prior program state, every schedule of the exporter", "why_tests_cant": "End-to-end over parser icon, hypergraph construction, queries and exporter; tests convert a few files and look at the output.", "anchors": ["framework_python/rei/format/mapping/cognilang_file_icon.py: CognilangParserFileIcon (all visit methods)", "framework_python/apps/simulation/convert_cognilang_sdf.py: main", "framework_python/rei/format/mapping/cognilang_sdf_icon.py: CognilangSdfIcon.encode", "framework_python/rei/format/phys/kinematics/kinematic_semantic_context.py: encode_link_element"]}
{"id": "C86", "title": "Nested exports without cycles end with the complete document", "statement": "If no graph instantiated by an export leads, through joints, back to itself, and the links and joints of the export and of every instantiated graph are readable and sound (as for C72 and C84) with a base link in every instantiated graph, then the export ends: it contains every selected link once, and one joint for every pair of an incoming and an outgoing relation of a selected joint edge; a pair that leads to a graph gives the joint that connects a base link of that graph, named after edge and link, followed by the complete export of everything inside the graph under the prefix extended by the name of the edge, and so on to any depth of nesting. The conversion of a file with one entity then gives one model, named after the entity, with that content, for every schedule.", "quantifier": "every reachable state, selection and depth of nesting without cycles, and every schedule", "why_tests_cant": "Recursion to any depth over all arrangements of graphs, edges and joints.", "anchors": ["framework_python/rei/format/mapping/cognilang_sdf_icon.py: CognilangSdfIcon.encode, encode_sub_graph, get_canonical_link", "framework_python/rei/format/phys/kinematics/kinematic_semantic_context.py: encode_link_element, encode_joint_element", "framework_python/apps/simulation/convert_cognilang_sdf.py: main"]}
{"id": "C87", "title": "The projected Laplacian of an ordinary graph is its graph Laplacian", "statement": "For an undirected unweighted context whose edges have no or at least two endpoints, Lp is symmetric, with the degrees on the diagonal and minus the number of common edges elsewhere; its quadratic form is the sum over the edges of twice the sum of the squares minus the square of the sum of the values at their endpoints. It is positive semidefinite, and its rows sum to zero, exactly if every edge has at most two endpoints; then the form is the sum over the edges of the squared differences at their ends. (The context is closed: every relation of its sub-edges leads to one of its sub-nodes; idle queues and enough call stack assumed.)", "quantifier": "every such context reachable by any history of edits, with any number of nodes and edges, and every vector", "why_tests_cant": "An algebraic identity over all graphs and all vectors.", "anchors": ["framework_python/rei/tensor/tensor_representation.py: calc_projected_laplacian, degree_matrix, diag_degree_matrix"]}
{"id": "C88", "title": "The projected entropy is a number", "statement": "For an undirected unweighted context with an edge, entropy_projected is a number: the sum of -s*log2(s) over the absolute values s of the eigenvalues of Lp/total_deg.", "quantifier": "every such context reachable by any history of edits, with any number of nodes and edges", "why_tests_cant": "Depends on the eigenvalues of all graphs; the graphs tests pick may have no eigenvalue 0, or one that rounding moves away from 0.", "anchors": ["framework_python/rei/tensor/tensor_representation.py: entropy_projected_vector, entropy_projected"]}
{"id": "C89", "title": "A CogniLang text describes at most one entity", "statement": "The grammar is unambiguous: of all derivations of the tokens of a text, every one gives the same entity, and no derivation ends at another token, whatever follows the entity.", "quantifier": "every text over all characters, with any nesting of bodies and any number of elements", "why_tests_cant": "There are infinitely many texts and for each there could be many derivations; a parser run shows one.", "anchors": ["framework/cognitive/speclanguage/src/main/antlr4/CogniLang.g4: all rules from entity down", "framework/cognitive/speclanguage/src/main/antlr4/HypergraphBasicElements.g4: lexer rules", "framework/cognitive/speclanguage/src/main/antlr4/GeometryElements.g4", "framework/cognitive/speclanguage/src/main/antlr4/AmbientGraph.g4", "framework/cognitive/speclanguage/src/main/antlr4/HypergraphTemplates.g4", "framework_python/rei/format/mapping/cognilang_file_icon.py: CogniLangParserFileIcon.parse_file"]}
{"id": "C90", "title": "Layout and comments do not change what a text describes", "statement": "A sequence of tokens, written one after the other with any blanks, line ends, line comments and long comments between them (and something between two tokens that would otherwise run together), is read as this sequence; so two such texts that differ only in layout and comments describe the same.", "quantifier": "every sequence of tokens and every layout", "why_tests_cant": "All layouts of all token sequences; tests have a few files.", "anchors": ["framework/cognitive/speclanguage/src/main/antlr4/HypergraphBasicElements.g4: lexer rules, WS and comments"]}
{"id": "C91", "title": "An integer parameter can be given every integer", "statement": "For every numeral, 'int n = <numeral>' is accepted as a parameter of an entity.", "quantifier": "every numeral and every place in a text", "why_tests_cant": "All numerals in all contexts.", "anchors": ["framework/cognitive/speclanguage/src/main/antlr4/HypergraphBasicElements.g4: INT, DECIMALS, param_int", "framework_python/examples/example_robotcar_ambient.cogni"]}
{"id": "C92", "title": "Exactly the well-formed descriptions can be written as a text", "statement": "What a text describes has proper names and decimals, non-empty vectors, at least one end per joint, ends of the three joint types and three directions only, and every element where it may be; and everything of this form is described by some text.", "quantifier": "every text, and every description of any size and nesting", "why_tests_cant": "All texts and all descriptions.", "anchors": ["framework/cognitive/speclanguage/src/main/antlr4/CogniLang.g4: all rules from entity down", "framework_python/rei/format/mapping/cognilang_file_icon.py: CogniLangParserFileIcon"]}
{"id": "C93", "title": "The sample graph is the Fano plane", "statement": "create_fano_graph succeeds and makes a node with exactly seven nodes and seven edges with three nodes each, such that any two nodes lie on exactly one common edge and any two edges have exactly one common node. More generally the same steps, for any distinct names of nodes and any edges between them (with distinct names without '/'), make exactly these nodes, edges and undirected incidences.", "quantifier": "every context name, every clock that is set (also one that stands still), every state of the other objects, and every plan of nodes and edges of any size (assuming the hash has no collisions)", "why_tests_cant": "Uuids and port ids depend on names and clock readings; tests use one name and the wall clock.", "anchors": ["framework_python/rei/hypergraph/sample_graphs/fano_graph.py: create_fano_graph", "framework_python/rei/factories/foundation_factory.py: generate_node, generate_list_nodes, connect_nodes"]}
{"id": "C94", "title": "From a CogniLang file with nested graphs to its SDF model", "statement": "Take a file whose entity has, besides parameters, one kinematic graph of links, joints and kinematic graphs of links and joints, under the conditions of C85 for each graph (joints of the outer graph may also lead to nested graphs, whose names are unlike those of links; a nested graph to which a joint leads has a base link: a link to which no joint leads). When the reader accepts it, in any program state, the conversion of its root by the robotics exporter succeeds, for every schedule and every choice of base links, and the document is one model, named after the entity, with exactly: one link element for each link declared in the outer graph; for each pair of a relation into and a relation out of one of its joints, if the second leads to a link or the world, a joint element; if it leads to a nested graph, a joint element that connects a base link of the graph, and, for this instance, one link element for each link and one joint element for each pair of relations of the nested graph, with all names, parents, children and frames under the prefix of the joint's name. Links, joints, shapes, poses, frames and inertias are as declared, as in C85. Well-formed files (C81) are accepted, so their conversion succeeds.", "quantifier": "every such file, every prior program state, every schedule of the exporter and every choice of base links", "why_tests_cant": "End-to-end over parser icon, hypergraph construction, queries and the recursive exporter; tests convert a few files and look at the output.", "anchors": ["framework_python/rei/format/mapping/cognilang_file_icon.py: CognilangParserFileIcon (all visit methods)", "framework_python/apps/simulation/convert_cognilang_sdf.py: main", "framework_python/rei/format/mapping/cognilang_sdf_icon.py: CognilangSdfIcon.encode, encode_sub_graph, get_canonical_link", "framework_python/rei/format/phys/kinematics/kinematic_semantic_context.py: encode_link_element"]}
{"id": "C95", "title": "The names in a converted model are in order", "statement": "Take a file under the conditions of C94 in which every joint leads from one thing to one other thing and has a name of its own in its graph, no joint leads from a nested graph, nested graphs are not connected to the world and have at most one base link, and names of links and joints have no dots (which holds for all names in texts of the language). Then in the model to which the file is converted all elements have different names, and so have the visuals and collisions of each link; the parent and the child of every joint are two different links of the model, or the world; the pose of a joint is relative to its parent; and where the pose of a link is relative to something, that is a joint of the model whose child is the link.", "quantifier": "every such file, every prior program state, every schedule of the exporter and every choice of base links", "why_tests_cant": "Depends on how names are composed at every level for all files; tests compare a few outputs.", "anchors": ["framework_python/rei/format/mapping/cognilang_file_icon.py: CognilangParserFileIcon (all visit methods)", "framework_python/apps/simulation/convert_cognilang_sdf.py: main", "framework_python/rei/format/mapping/cognilang_sdf_icon.py: CognilangSdfIcon.encode, encode_sub_graph, get_canonical_link", "framework_python/rei/format/phys/kinematics/kinematic_semantic_context.py: encode_link_element, encode_joint_element"]}
{"id": "C96", "title": "Fuzzy systems are built and printed as written", "statement": "The steps of the fuzzy application (a system node, a group in it, input nodes with their value nodes in the group, a result node with its values, an edge from the inputs to the result without weights, an exterior node), for any names and values such that inputs and result have distinct names, so have the values of one node, and names of factory, nodes and edge have no slash and nodes are not named like the factory: they raise nothing, whatever the clock shows and in every program state; afterwards the system contains exactly the group and the edge, the group exactly the inputs in order, each node holds exactly its values in order, the edge's incoming relations are those to the inputs in order, its outgoing one that to the result, and the incoming relations are what is printed. Run as it is, the application makes two battery nodes with values 0, 0, 0 and memberships 1, 1, 1 and a result node with an empty value, and prints two relations, to the dynamic and the static battery node.", "quantifier": "all names, inputs and values as stated, all clock readings, all prior program states", "why_tests_cant": "Success depends on the uuids of all elements made before, which depend on the clock; a test runs it once.", "anchors": ["framework_python/apps/fuzzy/accu_fuzzy.py: main", "framework_python/rei/factories/foundation_factory.py: generate_node, create_value, connect_tuple_nodes", "framework_python/rei/hypergraph/base_elements.py: unary_connect, get_incoming_relations"]}
{"id": "C97", "title": "A printed hierarchy shows every element once", "statement": "print_graph_hierarchy(start), when no earlier traversal was aborted (C31) and the recursion limit suffices (C54), prints exactly one line for each node, edge and relation at and below start and none for other elements, breadth-first: nodes with path, name and, if any, the container's name, edges with path, name, number of sub-elements and the container's name, relations with path, direction arrow, the endpoint's name and the weight. Where elements are only detached without sub-elements (C07) the paths are the real ones. It raises only AttributeError, and only when start is an edge in no container or a relation without endpoint lies below; then the lines before it have been printed.", "quantifier": "every reachable state, every start element, every earlier output", "why_tests_cant": "The output depends on the whole hierarchy and on counters and names kept by every earlier call.", "anchors": ["framework_python/rei/foundations/hierarchical_traversal_strategies.py: print_graph_hierarchy, print_element, direction_to_text"]}
{"id": "C98", "title": "When a batch of additions is awaited, all its elements are there", "statement": "When 'await c.add_elements(xs)' returns, the elements xs are in c, after those that were in it and in their order, and nothing else moved (c neither edge nor relation, xs in no container, uuids distinct, nothing comes to lie in itself). If an element has the uuid of one in c or earlier in the list, the batch ends with ErrorDuplicateElement and exactly the elements before it have been added.", "quantifier": "every reachable state, every list of elements", "why_tests_cant": "What has happened when a coroutine returns depends on the event loop's order for lists of every length.", "anchors": ["framework_python/rei/foundations/conceptual_item.py: add_elements, add_element"]}
{"id": "C99", "title": "Batches of removals remove what is listed and complete", "statement": "When the future of c.remove_elements(ps) is awaited, exactly the elements the pairs mean (by uuid, with or without name; or by name) have been detached from c, and the future completes without an exception.", "quantifier": "every reachable state, every list of pairs that each mean one element of a node, every order of the pairs", "why_tests_cant": "Depends on how the event loop drives each of any number of generators.", "anchors": ["framework_python/rei/foundations/conceptual_item.py: remove_elements, remove_element"]}
{"id": "C100", "title": "Batches of additions run side by side in every order", "statement": "Any number of add_elements batches, into the same or different containers, that can be carried out together (elements in no container and none listed twice, uuids in each container distinct, nothing comes to lie in itself): whatever the order in which the event loop runs their tasks, after each step exactly the elements whose task got that far are in their containers, each batch's in its order, behind those that were there; all invariants hold; no task fails; and any two schedules that run all tasks to the end give the same parents, the same sets of sub-elements and the same qualified names.", "quantifier": "every reachable state, every number and size of batches, every schedule and every point in it", "why_tests_cant": "There are exponentially many schedules; a test runs one.", "anchors": ["framework_python/rei/foundations/conceptual_item.py: add_elements, add_element"]}
{"id": "C101", "title": "Concurrent executions of query engines", "statement": "Executions of query engines that run at the same time on one event loop each return exactly the elements their queries match, as they would alone. In particular, whatever the schedule: no execution fails or blocks another, nothing is returned that no query of the execution matches, nothing is lost and nothing is returned too often.", "quantifier": "any number of executions of any engines with any (also shared) queries, every schedule of their beginnings, tasks and continuations, every point in it", "why_tests_cant": "The number of interleavings is exponential in the number of elements.", "anchors": ["framework_python/rei/query/query_engine.py: HypergraphQueryEngine.execute, HierarchicalPrepositionQuery"]}
{"id": "C102", "title": "A hypergraph traversal of depth k reports the relations of k rounds", "statement": "HypergraphTraversal without homomorphism, from a node, when no earlier traversal was aborted (C31), the relations are as connecting makes them (they lead to nodes, weights are value nodes, endpoints of one edge have distinct uuids) and the recursion limit suffices: with depth k > 0 it calls the visitor exactly for the relations of the edges in the start node, then for those of the edges in their endpoints, and so on for k rounds, round by round in the order of the containers, each relation as often as it is met; an incoming relation to v gives one call with a tuple (v, u, edge, weight) of uuids and the norm of the relation's weights (1 without weight) for each other endpoint u of its edge, an outgoing one a call with the tuples (u, v, edge, weight), a bidirectional one both, a relation of weight 0 none. Without depth limit it reports the rounds up to the first that reaches no further relation; if every round reaches further nodes it raises RecursionError, whatever the limit.", "quantifier": "every reachable state, every start node, every depth, every recursion limit that suffices (for the last part: every recursion limit)", "why_tests_cant": "The rounds form a walk over containment and endpoints of unbounded length, with repetitions.", "anchors": ["framework_python/rei/foundations/hypergraph_traversal_strategies.py: HypergraphTraversal.execute, get_node_identification, get_edge_identification"]}
{"id": "C103", "title": "Tensor representations of any depth", "statement": "NumpyHypergraphTensorTransformer(repr_depth) converts a context whose relations lead to its own nodes for every depth (and without limit): if no endpoint contains further relations the result is the same for every depth, and otherwise the conversion at depth k covers the relations of k rounds.", "quantifier": "every reachable state, every such context, every depth, every recursion limit that suffices", "why_tests_cant": "Which edges are numbered and which are met depends on the whole graph below the endpoints.", "anchors": ["framework_python/rei/tensor/tensor_representation.py: NumpyHypergraphTensorTransformer.execute", "framework_python/rei/foundations/hypergraph_traversal_strategies.py: HypergraphTraversal.execute"]}
{"id": "C104", "title": "Norms are what their names say", "statement": "SumNorm().norm(l) is the sum and ProdNorm().norm(l) the product of the numbers in l; so with ProdNorm a relation is left out of a traversal exactly if one of its weights is 0.", "quantifier": "every list of numbers; every relation with a weight in every program state", "why_tests_cant": "Holds for lists of every length and all numbers; the tests of the repository try SumNorm on two lists.", "anchors": ["framework_python/rei/hypergraph/norm/norm_functions.py: SumNorm.norm, ProdNorm.norm", "framework_python/rei/foundations/hypergraph_traversal_strategies.py: HypergraphTraversal"]}
{"id": "C105", "title": "Elements can be added at any depth", "statement": "add_element of an acceptable element to a node works at every depth of the hierarchy; and an add_element that raises leaves the element where it was.", "quantifier": "every reachable state, every node as container, every element that may be added to it, every recursion limit of the interpreter", "why_tests_cant": "Concerns hierarchies deeper than any limit a test runs with.", "anchors": ["framework_python/rei/foundations/conceptual_item.py: add_element, __update_element, update_qualified_name, update"]}
{"id": "C106", "title": "A kinematic graph read from a CogniLang file can be converted to a tensor", "statement": "NumpyHypergraphTensorTransformer (depth 1) converts the node of every kinematic graph of an accepted file whose joints lead to its own nodes: the result has one layer per joint, in the order of the file, and one row and column per node, and W[e,i,j] is 1 exactly if i and j are different, joint e has relations to both, and the relation to i leads into the joint or the one to j out of it, and 0 otherwise.", "quantifier": "every accepted file, every kinematic graph in it at any depth, every prior program state", "why_tests_cant": "Ranges over all files and graphs.", "anchors": ["framework_python/rei/format/mapping/cognilang_file_icon.py: __extract_joint_relation", "framework_python/rei/foundations/hypergraph_traversal_strategies.py: HypergraphTraversal, get_edge_identification", "framework_python/rei/tensor/tensor_representation.py: NumpyHypergraphTensorTransformer.execute"]}
{"id": "C107", "title": "A tensor representation depends on the structure of the context only", "statement": "If the nodes and edges of two contexts, in the same or in different program states, correspond one to one, such that corresponding edges have relations to corresponding nodes with the same directions and weights in the same order (without weights the order and the number of parallel relations do not matter either), then the representations of the two contexts agree: W, Io, Ii, the degrees, the Laplacians have the same entries for corresponding elements, and total degree, entropy and projected entropy are the same. So names, identifiers, containers, timestamps and the order in which nodes and edges were added do not matter.", "quantifier": "all pairs of reachable states and of convertible contexts in them, every correspondence of their elements", "why_tests_cant": "Ranges over pairs of graphs and all permutations of their elements.", "anchors": ["framework_python/rei/tensor/tensor_representation.py: NumpyHypergraphTensorTransformer.execute, NumpyTensorRepresentation", "framework_python/rei/hypergraph/homomorphism_functions.py: IndexHomomorphismGraphTensor"]}
{"id": "C108", "title": "The converter writes the model and its load script into the output directory, or nothing", "statement": "convert_cognilang_sdf --input f --output dir on a readable file with a well-formed assembly (as in the claim on the export of nested graphs) writes exactly the two files dir/<entity>.sdf, the SDF document with one model of the name of the entity and the links and joints of the file, and dir/<entity>.load.sh, the command that loads it; it changes no other file and nothing outside dir; and whatever the input is, a run that ends with an exception has written nothing.", "quantifier": "every input text, every output directory and content of the disk, every schedule of the queries", "why_tests_cant": "Names, directories and texts are unbounded; the app has no tests.", "anchors": ["framework_python/apps/simulation/convert_cognilang_sdf.py: main", "framework_python/rei/format/mapping/cognilang_sdf_icon.py: root_xml"]}
{"id": "C109", "title": "A decoded graph has the tensor representation of the graph that was sent", "statement": "If a context is encoded as a message, the message decoded in another program, and the decoded context converted by NumpyHypergraphTensorTransformer, the result is the representation of the original context: W, Io, Ii, degrees, Laplacians and entropies.", "quantifier": "every reachable state of the sender, every context that can be sent and converted, every reachable state of the receiver", "why_tests_cant": "Relates two programs in all their states, over graphs of every size.", "anchors": ["framework_python/rei/hypergraph/encoding/graph_tensor_icon.py: GraphTensorIcon", "framework_python/rei/hypergraph/encoding/graph_tensor_icon_cbor.py", "framework_python/rei/tensor/tensor_representation.py: NumpyHypergraphTensorTransformer.execute"]}
{"id": "C110", "title": "Factorization and weight tensor show the same connections", "statement": "For a context whose relations lead to its own nodes, Factorization2SubsetOperation().execute(nodes and edges of the context) has a pair of relations of edge e from v to u exactly if the entry W[e,v,u] of its tensor representation is not 0.", "quantifier": "every reachable state, every such context, every edge and pair of nodes in it", "why_tests_cant": "Two algorithms are compared on all graphs.", "anchors": ["framework_python/rei/hypergraph/factorization_operations.py: Factorization2SubsetOperation.execute", "framework_python/rei/tensor/tensor_representation.py: NumpyHypergraphTensorTransformer.execute"]}
{"id": "C111", "title": "Mapping a factorization handles every pair once, in order, on demand", "statement": "MapFactorizationToFactorGraph(f).execute(l) calls nothing; consuming its result calls f once for each element of l, in order, and yields the results; if a call raises, the elements before have been handled and consumption can go on after it; once consumed the result is empty. So for a context whose edges lead out to nodes without edges, mapping the pairing of the tests over Factorization2Operation's result yields exactly the pairs of an incoming and an outgoing relation of one edge.", "quantifier": "every list, every function with whatever effects and exceptions, every program state", "why_tests_cant": "Ranges over functions with side effects and lists of any length.", "anchors": ["framework_python/rei/hypergraph/factorization_operations.py: MapFactorizationToFactorGraph.execute, Factorization2Operation.execute"]}
{"id": "C112", "title": "The coordinate lists of a message describe the tensors of its context", "statement": "After update_context and update_coo, the three coordinate lists of full_msg(), read into arrays of zeros at the node and edge indices the message gives (later entries overwriting earlier ones), are W, Io and Ii of the context's tensor representation, directions and weights included; they have no other coordinates; calling update_coo again does not change what they describe. (For contexts that can be sent and converted and whose relations do not lead to nodes with relations inside.)", "quantifier": "every reachable state, every such context, every earlier history of the encoder, every entry", "why_tests_cant": "Compares two representations of graphs of every size after any history of calls.", "anchors": ["framework_python/rei/hypergraph/encoding/graph_tensor_icon.py: CoordinateObjectTransformer.execute, fill_tensors, msg_tensor_value_updates", "framework_python/rei/hypergraph/encoding/graph_tensor_icon_cbor.py: update_context, update_coo, full_msg", "framework_python/rei/tensor/tensor_representation.py: NumpyHypergraphTensorTransformer.execute"]}
{"id": "C113", "title": "A graph built from a plan has the tensors of the plan", "statement": "If nodes are made with generate_list_nodes and edges with connect_nodes as create_fano_graph does, for any distinct names of nodes and edges and any lists of distinct nodes for the edges (none of a single node), then the converted context has W[e,i,j] = 1 exactly if i and j are different and both listed for edge e (0 otherwise), Io[e,i] = Ii[e,i] = 1 exactly if i is listed for e, deg[i] the number of edges that list i, total_deg the sum of the lengths of the lists, Lp with the degrees on the diagonal and minus the numbers of common edges elsewhere, and the entropy that these numbers give. For the Fano plane: degrees 3, total degree 21, Lp 3 and -1, entropy 7/4*log2(12), projected entropy 6*4/21*log2(21/4) + 1/7*log2(7).", "quantifier": "every plan of nodes and edges, every state the program is in before, every name and clock of the factory", "why_tests_cant": "Every incidence structure of every size; tests fix one graph and print the entropy.", "anchors": ["framework_python/rei/hypergraph/sample_graphs/fano_graph.py: create_fano_graph", "framework_python/rei/factories/foundation_factory.py: generate_list_nodes, connect_nodes", "framework_python/rei/tensor/tensor_representation.py: NumpyHypergraphTensorTransformer.execute, NumpyTensorRepresentation"]}
{"id": "C114", "title": "The factorization of a selection counts its pairs", "statement": "For a graph built as create_fano_graph does from any plan, Factorization2SubsetOperation(self_loop).execute(selected nodes + selected edges) gives, edge by edge in the order of the selection, the pairs of selected nodes of the edge in the order in which they were connected; so it has k*(k-1) pairs per edge, with self_loop k*k, where k is the number of selected nodes on the edge (2 and 5 for the selection of the tests).", "quantifier": "every plan, every selection of its nodes and edges, with and without self loops, every state before and every clock", "why_tests_cant": "Every incidence structure and every selection; the tests count one.", "anchors": ["framework_python/rei/hypergraph/factorization_operations.py: Factorization2SubsetOperation.execute", "framework_python/rei/hypergraph/sample_graphs/fano_graph.py: create_fano_graph"]}
{"id": "C115", "title": "A graph with directions and weights has the tensors of its plan", "statement": "If nodes are made with generate_list_nodes and edges with connect_tuple_nodes, for any distinct names of nodes and edges and any lists of ends (distinct nodes, a direction and optionally a value node each), then building succeeds, the context contains exactly the nodes, edges and relations asked for, it can be converted, and W[e,i,j] is the weight of the last of those ends of e that allow to go from i to j: end i if incoming, end j if outgoing (0 if i and j are not different ends of e or no such end has a weight other than 0), and likewise Io and Ii. So for arcs (an incoming end at the source, an outgoing one at the target) W holds the weights of the arcs, deg[i] is the sum of the weights of the arcs at i, total_deg twice the sum of all, and Lp has the degrees on the diagonal and minus the weights of the arcs elsewhere.", "quantifier": "every plan of nodes and edges with directions and weights, every state the program is in before, every name and clock of the factory", "why_tests_cant": "Every weighted directed hypergraph of every size.", "anchors": ["framework_python/rei/factories/foundation_factory.py: generate_list_nodes, connect_tuple_nodes", "framework_python/rei/hypergraph/base_elements.py: HypergraphEdge.unary_connect", "framework_python/rei/tensor/tensor_representation.py: NumpyHypergraphTensorTransformer.execute, NumpyTensorRepresentation"]}
{"id": "C116", "title": "Growing and shrinking a context changes only what was added or removed", "statement": "The entries of a conversion for an edge and two nodes depend on the relations of that edge only (their order, ends, directions and weights): any two conversions, of one context at different times or of different contexts, agree on them if these are the same. So a context that could be converted can still be converted after generate_node in it, and the arrays get one row and column of zeros at the end, while all other entries, the degrees, total_deg and Lp stay; after connect_tuple_nodes between its nodes the arrays get one layer at the end, with the entries the ends, directions and weights say, and the other layers stay; after removal of an edge its layer is gone, the later ones move up and nothing else changes; after removal of a node that no relation leads to its row and column, which were zero, are gone, and degrees, total_deg and Lp stay; and after update_value of a weight only the layers of edges with a relation that uses its list can differ.", "quantifier": "every context in every reachable state, every name, every list of ends, every element removed, every weight changed", "why_tests_cant": "Every context of every size and every history before and between the conversions.", "anchors": ["framework_python/rei/tensor/tensor_representation.py: NumpyHypergraphTensorTransformer.execute, NumpyTensorRepresentation", "framework_python/rei/factories/foundation_factory.py: generate_node, connect_tuple_nodes", "framework_python/rei/foundations/conceptual_item.py: remove_element", "framework_python/rei/hypergraph/value_node.py: ValueNode.update_value"]}
{"id": "C117", "title": "The projected Laplacian of an ordinary graph counts its connected components", "statement": "For a context of undirected, unweighted edges without loops that each end at exactly two nodes (or none), a vector x is a null vector of Lp = deg - A exactly if x has equal values at the nodes of every edge. So the dimension of the null space is the number of connected components, and two nodes are connected exactly if all null vectors agree on them.", "quantifier": "every context in every reachable state that is an ordinary undirected graph, every real vector", "why_tests_cant": "Every graph of every size, and every vector.", "anchors": ["framework_python/rei/tensor/tensor_representation.py: NumpyTensorRepresentation.calc_projected_laplacian, degree_matrix", "framework_python/rei/tensor/tensor_representation.py: NumpyHypergraphTensorTransformer.execute"]}
{"id": "C118", "title": "A planned graph can be sent, and arrives as planned", "statement": "A graph built from a plan (generate_list_nodes and one edge per planned line) in which no edge has the name of the graph can be encoded by a new transformer (update_context, then the full message), and the message can be decoded in any other process: the new context there has the name of the graph and the nodes, edges and incidences of the plan, in the same order, and its conversion has the arrays, degrees, total degree, projected Laplacian and entropy that the plan says. For a plan with directions and weights, after update_context and update_coo the coordinate lists of the message describe exactly the arrays W, I_out and I_in that the plan says. If an edge has the name of the graph and the clock does not advance, decoding can silently lose edges.", "quantifier": "every plan of nodes and edges, every state of the sending and the receiving process before, every name and clock of the factory, every transformer for that context", "why_tests_cant": "Every graph of every size and every history before in both processes.", "anchors": ["framework_python/rei/factories/foundation_factory.py: generate_list_nodes, connect_tuple_nodes", "framework_python/rei/hypergraph/encoding/graph_tensor_icon_cbor.py: update_context, create_graph", "framework_python/rei/hypergraph/encoding/graph_tensor_icon.py: update_coo", "framework_python/rei/tensor/tensor_representation.py: NumpyHypergraphTensorTransformer.execute"]}
{"id": "C119", "title": "Which quantities of a conversion can be computed", "statement": "After a context has been converted: deg, total_deg and Lp can be read exactly if the context has a node or an edge (otherwise TypeError); DD and L exactly if it has an edge (otherwise ValueError); Lnorm and entropy() exactly if it has at least two edges (one edge: ZeroDivisionError; none: ValueError, or AttributeError if there are no nodes either). entropy_projected() raises TypeError without nodes and edges, is 0 with edges but without nodes, and with nodes raises LinAlgError exactly if the total degree is 0; for undirected, unweighted edges without loops this means that no edge has an endpoint.", "quantifier": "every context in every reachable state that can be converted", "why_tests_cant": "Every context of every size; tests read the quantities of a few graphs.", "anchors": ["framework_python/rei/hypergraph/representation/abstract_representations.py: AbstractTensorRepresentation (W, Io, Ii, deg, D, L, Lp, DD, Lnorm, total_deg)", "framework_python/rei/tensor/tensor_representation.py: NumpyTensorRepresentation, NumpyHypergraphTensorTransformer.execute"]}
{"id": "C120", "title": "A stream of value messages keeps a decoded graph in step", "statement": "After update_context, full_msg and create_graph, the two processes go on with any calls of the library, sending (msg_value_update) and applying (from_msg_update_values) value messages at any time; messages may be late, repeated, lost or reordered. At every time: msg_value_update returns a message as long as the context has no new value nodes; and applying a message that was made in such a state of the source succeeds as long as the copies of the value nodes it describes are in the decoded graph, gives these copies exactly the values of the source at the time the message was made, whatever happened to them in between, and changes nothing else. In particular the message of the current state brings the copies in step. Messages carry no time: an older message applied late takes the copies back.", "quantifier": "all histories of the two processes and of the channel between them, for every graph that can be sent", "why_tests_cant": "Every interleaving of two processes and an unreliable channel; tests apply one update at once.", "anchors": ["framework_python/rei/hypergraph/encoding/graph_tensor_icon_cbor.py: msg_value_update, from_msg_update_values, create_graph, full_msg", "framework_python/rei/hypergraph/value_node.py: ValueNode.update_values"]}
{"id": "C121", "title": "A decoded graph can be sent on, any number of times", "statement": "A graph that can be sent can be sent from one process to the next, any number of times, whatever else the processes contain: from wherever it has arrived it can be sent on, and wherever it has arrived it is a copy of the original: the same names, uuids, nodes, edges, relations, endpoints and values in the same order. All relations there are bidirectional and without weight, whatever they were originally. Every message but the first is the same: the description of the original with bidirectional relations, paths as qualified names and positions as indices. If the original can be converted to a tensor, so can every copy, and all copies have the same arrays.", "quantifier": "all graphs that can be sent and all chains of hops of any length through processes in any reachable state", "why_tests_cant": "Chains of every length through processes with arbitrary contents; tests make one round trip.", "anchors": ["framework_python/rei/hypergraph/encoding/graph_tensor_icon_cbor.py: GraphTensorCbor.update_context, full_msg, create_graph", "framework_python/rei/hypergraph/encoding/graph_tensor_icon.py: CoordinateObjectTransformer"]}
{"id": "C122", "title": "Additions and removals run side by side on one event loop", "statement": "Any number of add_elements and remove_elements tasks, that can run side by side (the additions as in C100, with the elements to be removed still counting for uuids and cycles; each removal means one element by its uuid, or by a name that no other element of the container has or gets; no element is removed twice): whatever the order in which the event loop runs them, after each step exactly the elements whose addition got that far are in their containers, exactly those whose removal took a step are in none, each container has the rest of its old elements in their order and then the new ones, and nothing else moved; no addition fails; and how far each task got alone determines its outcome, all parents and the set of elements of each container. If a removal by name runs beside an addition of an element of that name, the result does depend on the order.", "quantifier": "every reachable state, every number and size of tasks, every schedule and every point in it", "why_tests_cant": "There are exponentially many schedules; a test runs one.", "anchors": ["framework_python/rei/foundations/conceptual_item.py: add_elements, remove_elements, add_element, remove_element"]}
{"id": "C123", "title": "Coordinates collected before update_context name elements by uuid", "statement": "For a new encoder of a context that can be sent and converted (and whose relations lead to no nodes with relations inside): update_coo before update_context succeeds and changes nothing but the collected coordinates. These name edges and nodes by uuid; read through the uuids of the node and edge tuples of the first message after update_context, they give exactly the value tensor and the two incidence matrices of the context, and there are no others. Called several times before update_context, it appends each time what a new encoder would collect. update_coo after update_context adds index coordinates, which describe the same tensors. The early coordinates stay in front of the lists of every later message: nothing removes, changes or extends them. Before update_context, full_msg raises AttributeError and changes nothing, and so does msg_value_update unless the context has no value nodes.", "quantifier": "every context in every reachable state that can be sent and converted, every clock, every large enough recursion limit; for the rest, every encoder and every heap", "why_tests_cant": "Every graph of every size, and every history of the encoder.", "anchors": ["framework_python/rei/hypergraph/encoding/graph_tensor_icon.py: CoordinateObjectTransformer.execute, fill_tensors", "framework_python/rei/hypergraph/encoding/graph_tensor_icon_cbor.py: GraphTensorCbor.update_coo, update_context, full_msg, msg_value_update", "framework_python/rei/foundations/hypergraph_traversal_strategies.py: HypergraphTraversal"]}
{"id": "C124", "title": "Messages survive as bytes", "statement": "The bytes that full_msg and msg_value_update return (CBOR, as in RFC 8949) determine the message: reading them, whatever follows them, gives the same nodes, edges, relations, values and coordinates, or the same indices and values, in the same order. Different messages have different bytes, the bytes of no message begin with those of another, and a message that is cut off anywhere is refused instead of being read as something else. So a graph sent as bytes to another process arrives as a copy. This holds if lengths and indices are below 2^64 and all numbers are whole numbers below 2^64 or finite floats.", "quantifier": "all messages with lengths and indices below 2^64 and such numbers, all names (any Unicode characters) and identifiers, all bytes behind the message, all points at which it can be cut off", "why_tests_cant": "There are infinitely many messages, and each can be cut off at every byte; tests read back a few whole messages.", "anchors": ["framework_python/rei/hypergraph/encoding/graph_tensor_icon_cbor.py: full_msg, msg_value_update, create_graph, from_msg_update_values (cbor2.dumps, cbor2.loads)", "framework_python/rei/hypergraph/encoding/graph_tensor_icon.py: node_index_list, edge_index_list, msg_relation_index_list, msg_value_nodes, msg_value_node_update, fill_tensors", "framework_python/rei/hypergraph/common_definitions.py: EnumRelationDirection"]}
{"id": "C125", "title": "A query that runs beside edits answers for the graph in which it began", "statement": "While an execution of a query engine waits for its tasks, the rest of the program may call anything in between. Whatever it calls, and whatever the order: the execution returns, query by query, each element that the query visits in the graph in which the execution began, exactly once if its predicate held when its task ran, and no others; elements removed meanwhile are still returned, elements added meanwhile are not. Predicates that look only at the class, the name and the uuid of elements give exactly the matches in the graph in which the execution began. Afterwards the graph is what the calls made of it, and the engine is ready for the next execution. This holds if the queries are distinct objects with nothing pending, fit on the stack and visit something. Without calls in between the outcome is that of an execution alone.", "quantifier": "every reachable state, every number of queries with any predicates and statements, every schedule of the tasks, and any calls between them", "why_tests_cant": "Tests run queries alone; the schedules of tasks and calls, and the calls, are unlimited.", "anchors": ["framework_python/rei/query/query_engine.py: HierarchicalPrepositionQuery, HypergraphQueryEngine.execute", "framework_python/rei/foundations/conceptual_item.py: HierarchicalElement"]}
{"id": "C126", "title": "Looping over the children of an element while the program changes them", "statement": "sub_nodes, sub_edges, sub_values, sub_ports, sub_relations and get_subelements give generators. A loop over one visits, in the order in which they were added, exactly the wanted children that the element has when the loop starts (not when the generator was made), each once, and ends normally, if its body neither adds a child to the element nor removes one from it, whatever else the body does. As soon as a round of the body leaves the element with another number of children, the next round raises RuntimeError, even when no child is left to visit, and no further element is visited. So a loop that removes each child it meets removes one only and raises, while the same loop over a list of the children removes all of the wanted children and no others.", "quantifier": "every reachable state, every element, every choice of classes that are wanted, every body (any calls, which may depend on the element and on the graph), every round in which the number of children changes; for the loops that remove: elements that are neither edges nor relations", "why_tests_cant": "What the body does between two rounds is arbitrary, as is the number of children; a test fixes both.", "anchors": ["framework_python/rei/foundations/conceptual_item.py: HierarchicalElement.get_subelements, add_element, remove_element", "framework_python/rei/hypergraph/base_elements.py: HypergraphElement.sub_ports, HypergraphEdge.sub_relations, HypergraphNode.sub_edges, sub_nodes, sub_values"]}
